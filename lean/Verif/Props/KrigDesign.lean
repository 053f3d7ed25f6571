import Verif.Model.KrigSim
import Verif.Props.KrigConsistency
import Verif.Props.Stats
import Mathlib.Analysis.Calculus.BumpFunction.FiniteDimension

/-!
# Convergence of the kriging model on normalised designs, absolute exponential covariance
-/

namespace Verif.Props
open Verif.Model Matrix Filter Topology MeasureTheory

variable {n p d : ℕ} {X : Type}

/-! ### The amplitude -/

/-- The amplitude of the covariance model does not change the prediction and multiplies the variance. -/
theorem krig_scale (k : X → X → ℝ) (f : X → Fin p → ℝ) (xs : Fin n → X) (y : Fin n → ℝ) (τ : ℝ) (hτ : 0 < τ)
    (hS : IsUnit (borderedMatrix (krigK k xs) (krigF f xs)).det) (hS' : IsUnit (borderedMatrix (krigK (fun a b => τ * k a b) xs) (krigF f xs)).det) (x : X) :
    krigMean (fun a b => τ * k a b) f xs y x = krigMean k f xs y x ∧
    krigVar (fun a b => τ * k a b) f xs x = τ * krigVar k f xs x := by
  have hK : krigK (fun a b => τ * k a b) xs = τ • krigK k xs := by ext i j; simp [krigK]
  have hne : τ ≠ 0 := hτ.ne'
  have split : ∀ (v : Fin n ⊕ Fin p → ℝ) (K : Matrix (Fin n) (Fin n) ℝ), borderedMatrix K (krigF f xs) *ᵥ v
      = Sum.elim (K *ᵥ (v ∘ Sum.inl) + krigF f xs *ᵥ (v ∘ Sum.inr)) ((krigF f xs)ᵀ *ᵥ (v ∘ Sum.inl)) := by
    intro v K
    rw [borderedMatrix, fromBlocks_mulVec]
    simp
  constructor
  · set v := (borderedMatrix (krigK k xs) (krigF f xs))⁻¹ *ᵥ Sum.elim y 0 with hv
    have hSv : borderedMatrix (krigK k xs) (krigF f xs) *ᵥ v = Sum.elim y 0 := by rw [hv, mulVec_mulVec, mul_nonsing_inv _ hS, one_mulVec]
    rw [split] at hSv
    have h1 : krigK k xs *ᵥ (v ∘ Sum.inl) + krigF f xs *ᵥ (v ∘ Sum.inr) = y := by
      have := congrArg (· ∘ Sum.inl) hSv; simpa using this
    have h2 : (krigF f xs)ᵀ *ᵥ (v ∘ Sum.inl) = 0 := by
      have := congrArg (· ∘ Sum.inr) hSv; simpa using this
    rw [krigMean_of_sol _ _ _ _ hS' (Sum.elim (τ⁻¹ • (v ∘ Sum.inl)) (v ∘ Sum.inr)) ?_]
    · rw [krigMean, ← hv, dotProduct, dotProduct, Fintype.sum_sum_type, Fintype.sum_sum_type]
      congr 1
      refine Finset.sum_congr rfl fun i _ => ?_
      simp only [krigRhs, Sum.elim_inl, Pi.smul_apply, Function.comp_apply, smul_eq_mul]
      field_simp
    · rw [split, hK]
      simp only [Sum.elim_comp_inl, Sum.elim_comp_inr]
      rw [smul_mulVec, mulVec_smul, smul_smul, mul_inv_cancel₀ hne, one_smul, h1, mulVec_smul, h2, smul_zero]
  · set v := (borderedMatrix (krigK k xs) (krigF f xs))⁻¹ *ᵥ krigRhs k f xs x with hv
    have hSv : borderedMatrix (krigK k xs) (krigF f xs) *ᵥ v = krigRhs k f xs x := by rw [hv, mulVec_mulVec, mul_nonsing_inv _ hS, one_mulVec]
    rw [split] at hSv
    have h1 : krigK k xs *ᵥ (v ∘ Sum.inl) + krigF f xs *ᵥ (v ∘ Sum.inr) = fun i => k (xs i) x := by
      have := congrArg (· ∘ Sum.inl) hSv; simpa [krigRhs] using this
    have h2 : (krigF f xs)ᵀ *ᵥ (v ∘ Sum.inl) = f x := by
      have := congrArg (· ∘ Sum.inr) hSv; simpa [krigRhs] using this
    have hsol : borderedMatrix (krigK (fun a b => τ * k a b) xs) (krigF f xs) *ᵥ Sum.elim (v ∘ Sum.inl) (τ • (v ∘ Sum.inr))
        = krigRhs (fun a b => τ * k a b) f xs x := by
      rw [split, hK]
      simp only [Sum.elim_comp_inl, Sum.elim_comp_inr]
      rw [smul_mulVec, mulVec_smul, ← smul_add, h1, h2]
      funext j
      cases j <;> simp [krigRhs]
    rw [krigVar, ← hsol, mulVec_mulVec, nonsing_inv_mul _ hS', one_mulVec, hsol, krigVar, ← hv, dotProduct, dotProduct, Fintype.sum_sum_type,
      Fintype.sum_sum_type, mul_sub, mul_add, Finset.mul_sum, Finset.mul_sum]
    congr 2
    · exact Finset.sum_congr rfl fun i _ => by simp only [krigRhs, Sum.elim_inl, Function.comp_apply]; ring
    · exact Finset.sum_congr rfl fun i _ => by simp only [krigRhs, Sum.elim_inr, Function.comp_apply, Pi.smul_apply, smul_eq_mul]; ring

/-! ### Absolute exponential model in several coordinates -/

/-- `ot.AbsoluteExponential(θ)` with amplitude 1. -/
noncomputable def absExp (θ : Fin d → ℝ) (x y : Fin d → ℝ) : ℝ := ∏ j, expK (θ j) (x j) (y j)

/-- The factor of one coordinate. -/
noncomputable def coordK (θ : Fin d → ℝ) (j : Fin d) (x y : Fin d → ℝ) : ℝ := expK (θ j) (x j) (y j)

theorem coordK_isCovariance (θ : Fin d → ℝ) (hθ : ∀ j, 0 < θ j) (j : Fin d) : IsCovariance (coordK θ j) :=
  (expK_isCovariance (θ j) (hθ j)).comap fun x : Fin d → ℝ => x j

theorem absExp_isCovariance (θ : Fin d → ℝ) (hθ : ∀ j, 0 < θ j) : IsCovariance (absExp θ) :=
  IsCovariance.prod Finset.univ (coordK θ) (coordK_isCovariance θ hθ)

theorem absExp_self (θ : Fin d → ℝ) (x : Fin d → ℝ) : absExp θ x x = 1 := by simp [absExp, expK]

/-- The model on distinct points is positive definite. -/
theorem absExp_posDef (θ : Fin (d + 1) → ℝ) (hθ : ∀ j, 0 < θ j) (xs : Fin n → Fin (d + 1) → ℝ) (hxs : ∀ j, Function.Injective fun i => xs i j) :
    (krigK (absExp θ) xs).PosDef := by
  have hj : ∀ j, (krigK (coordK θ j) xs).PosDef := fun j => by
    have e : krigK (coordK θ j) xs = krigK (expK (θ j)) fun i => xs i j := by ext a b; simp only [krigK, of_apply, coordK]
    rw [e]
    exact expK_posDef (θ j) (hθ j) _ (hxs j)
  have h := prod_strict Finset.univ Finset.univ_nonempty (coordK θ) xs hj
  exact h

/-- Near points are strongly correlated. -/
theorem absExp_near (θ : Fin d → ℝ) (lo : ℝ) (hlo : 0 < lo) (hθ : ∀ j, lo ≤ θ j) (x y : Fin d → ℝ) (δ : ℝ) (hδ : ∀ j, |x j - y j| ≤ δ) :
    1 - d * (δ / lo) ≤ absExp θ x y := by
  have e : absExp θ x y = Real.exp (-∑ j, |x j - y j| / θ j) := by
    rw [absExp, ← Finset.sum_neg_distrib, Real.exp_sum]
    exact Finset.prod_congr rfl fun j _ => by rw [expK, neg_div]
  rw [e]
  have h1 : ∑ j, |x j - y j| / θ j ≤ d * (δ / lo) := by
    calc ∑ j, |x j - y j| / θ j ≤ ∑ _j : Fin d, δ / lo := Finset.sum_le_sum fun j _ =>
          div_le_div₀ ((abs_nonneg _).trans (hδ j)) (hδ j) hlo (hθ j)
      _ = d * (δ / lo) := by simp
  have h2 := Real.add_one_le_exp (-∑ j, |x j - y j| / θ j)
  linarith

/-- Sums of products of smooth functions of the coordinates. -/
noncomputable def tensorSignal {q : ℕ} (u : Fin q → Fin d → ℝ → ℝ) (x : Fin d → ℝ) : ℝ := ∑ r, ∏ j, u r j (x j)

/-- They are compatible with every model whose scales are in a given range, with the same constant. -/
theorem tensor_bound {q : ℕ} (u : Fin q → Fin d → ℝ → ℝ) (hu : ∀ r j, ContDiff ℝ 1 (u r j)) (hc : ∀ r j, HasCompactSupport (u r j)) (lo hi : ℝ)
    (hlo : 0 < lo) : ∃ C, ∀ θ : Fin d → ℝ, (∀ j, lo ≤ θ j ∧ θ j ≤ hi) → SignalBound (absExp θ) C (tensorSignal u) := by
  set K : Fin q → Fin d → ℝ := fun r j => Real.sqrt (hi * (∫ t, deriv (u r j) t ^ 2) + (∫ t, u r j t ^ 2) / lo) with hK
  refine ⟨∑ r, ∏ j, K r j, fun θ hθ => ?_⟩
  have hpos : ∀ j, 0 < θ j := fun j => hlo.trans_le (hθ j).1
  have hone : ∀ r j, SignalBound (coordK θ j) (K r j) fun x => u r j (x j) := by
    intro r j
    have h1 := expK_signal (θ j) (hpos j) (u r j) (hu r j) (hc r j)
    have hA : 0 ≤ ∫ t, deriv (u r j) t ^ 2 := integral_nonneg fun t => sq_nonneg _
    have hB : 0 ≤ ∫ t, u r j t ^ 2 := integral_nonneg fun t => sq_nonneg _
    have hhi : 0 ≤ hi := hlo.le.trans ((hθ j).1.trans (hθ j).2)
    have hle : Real.sqrt (θ j * (∫ t, deriv (u r j) t ^ 2) + (∫ t, u r j t ^ 2) / θ j) ^ 2 ≤ K r j ^ 2 := by
      have hp := (hpos j).le
      simp only [hK]
      rw [Real.sq_sqrt (by positivity), Real.sq_sqrt (by positivity)]
      exact add_le_add (mul_le_mul_of_nonneg_right (hθ j).2 hA) (div_le_div_of_nonneg_left hB hlo (hθ j).1)
    exact (h1.mono (expK_isCovariance (θ j) (hpos j)) hle).comap fun x : Fin d → ℝ => x j
  have hprod : ∀ r, SignalBound (absExp θ) (∏ j, K r j) fun x => ∏ j, u r j (x j) := fun r =>
    SignalBound.prod Finset.univ (coordK θ) (coordK_isCovariance θ hpos) (K r) (fun j x => u r j (x j)) (hone r)
  exact SignalBound.sum Finset.univ (absExp_isCovariance θ hpos) (fun r => ∏ j, K r j)
    (fun r => Finset.prod_nonneg fun j _ => Real.sqrt_nonneg _) (fun r x => ∏ j, u r j (x j)) hprod

/-! ### The normalisation of the design -/

theorem normFactor_pos (col : Fin n → ℝ) : 0 < normFactor col := by
  unfold normFactor
  split_ifs with h
  · have : 0 < Real.sqrt (svar col) := by
      rw [abs_of_nonneg (Real.sqrt_nonneg _)] at h
      exact lt_trans (by norm_num) h
    positivity
  · norm_num

theorem absExp_normalise (θ : Fin d → ℝ) (S : Fin n → Fin d → ℝ) (x y : Fin d → ℝ) :
    absExp θ (normalise S x) (normalise S y) = absExp (fun j => θ j / normFactor fun i => S i j) x y := by
  refine Finset.prod_congr rfl fun j _ => ?_
  have h := normFactor_pos fun i => S i j
  simp only [expK, normalise]
  congr 1
  rw [← mul_sub, sub_sub_sub_cancel_right, abs_mul, abs_of_pos h]
  rcases eq_or_ne (θ j) 0 with h0 | h0
  · simp [h0]
  · field_simp

/-- The change of the trend basis by the normalisation. -/
noncomputable def trendMatrix (S : Fin n → Fin (d + 1) → ℝ) : Matrix (Fin 2) (Fin 2) ℝ :=
  !![1, 0; -(normFactor (fun i => S i 0) * smean fun i => S i 0), normFactor fun i => S i 0]

theorem trend_normalise (S : Fin n → Fin (d + 1) → ℝ) (x : Fin (d + 1) → ℝ) : defectTrend (normalise S x) = trendMatrix S *ᵥ defectTrend x := by
  funext l
  fin_cases l
  · simp [defectTrend, trendMatrix, mulVec, dotProduct, Fin.sum_univ_two]
  · simp [defectTrend, trendMatrix, mulVec, dotProduct, Fin.sum_univ_two, normalise]
    ring

theorem trendMatrix_isUnit (S : Fin n → Fin (d + 1) → ℝ) : IsUnit (trendMatrix S).det := by
  rw [trendMatrix, det_fin_two_of]
  simpa using (normFactor_pos fun i => S i 0).ne'

/-- The system of a normalised design is regular, whatever the scales and the amplitude. -/
theorem design_isUnit (θ : Fin (d + 1) → ℝ) (hθ : ∀ j, 0 < θ j) (τ : ℝ) (hτ : 0 < τ) (S : Fin n → Fin (d + 1) → ℝ) (hn : 2 ≤ n)
    (hS : ∀ j, Function.Injective fun i => S i j) :
    IsUnit (borderedMatrix (krigK (fun a b => τ * absExp θ a b) S) (krigF (fun x => trendMatrix S *ᵥ defectTrend x) S)).det := by
  refine bordered_isUnit _ _ (fun c hc => ?_) ?_
  · by_contra hne
    have hpd := (posDef_iff_dotProduct_mulVec.1 (absExp_posDef θ hθ S hS)).2 hne
    rw [star_trivial, form_eq] at hpd
    rw [form_eq] at hc
    have e : ∑ i, ∑ j, c i * c j * (τ * absExp θ (S i) (S j)) = τ * ∑ i, ∑ j, c i * c j * absExp θ (S i) (S j) := by
      rw [Finset.mul_sum]
      refine Finset.sum_congr rfl fun i _ => ?_
      rw [Finset.mul_sum]
      exact Finset.sum_congr rfl fun j _ => by ring
    rw [e] at hc
    exact (mul_pos hτ hpd).ne' hc
  · refine (injective_iff_map_eq_zero (krigF (fun x => trendMatrix S *ᵥ defectTrend x) S).mulVecLin).2 fun b hb => ?_
    rw [mulVecLin_apply] at hb
    set b' := b ᵥ* trendMatrix S with hb'
    have hrow : ∀ i, b' 0 + b' 1 * S i 0 = 0 := by
      intro i
      have := congrFun hb i
      have e : (krigF (fun x => trendMatrix S *ᵥ defectTrend x) S *ᵥ b) i = b' ⬝ᵥ defectTrend (S i) := by
        rw [hb', ← dotProduct_mulVec, mulVec, dotProduct_comm]
        rfl
      rw [e] at this
      simpa [dotProduct, Fin.sum_univ_two, defectTrend] using this
    have h0 := hrow ⟨0, by omega⟩
    have h1 := hrow ⟨1, by omega⟩
    have hne : S ⟨0, by omega⟩ 0 - S ⟨1, by omega⟩ 0 ≠ 0 := sub_ne_zero.2 fun h => by
      have := hS 0 h
      simp at this
    have hb1 : b' 1 = 0 := by
      have : b' 1 * (S ⟨0, by omega⟩ 0 - S ⟨1, by omega⟩ 0) = 0 := by linarith
      exact (mul_eq_zero.1 this).resolve_right hne
    have hb0 : b' 0 = 0 := by rw [hb1] at h0; simpa using h0
    have hz : b ᵥ* trendMatrix S = 0 := by
      funext l
      fin_cases l
      · exact hb0
      · exact hb1
    have := congrArg (· ᵥ* (trendMatrix S)⁻¹) hz
    simpa [vecMul_vecMul, mul_nonsing_inv _ (trendMatrix_isUnit S)] using this

/-- The prediction on a normalised design in physical coordinates. -/
theorem designMean_eq (θ : Fin (d + 1) → ℝ) (τ : ℝ) (S : Fin n → Fin (d + 1) → ℝ) (y : Fin n → ℝ) (x : Fin (d + 1) → ℝ) :
    designMean (fun a b => τ * absExp θ a b) defectTrend S y x
      = krigMean (fun a b => τ * absExp (fun j => θ j / normFactor fun i => S i j) a b) (fun x => trendMatrix S *ᵥ defectTrend x) S y x := by
  unfold designMean krigMean
  have hK : krigK (fun a b => τ * absExp θ a b) (fun i => normalise S (S i))
      = krigK (fun a b => τ * absExp (fun j => θ j / normFactor fun i => S i j) a b) S := by
    ext i j; simp only [krigK, of_apply, absExp_normalise]
  have hF : krigF defectTrend (fun i => normalise S (S i)) = krigF (fun x => trendMatrix S *ᵥ defectTrend x) S := by
    ext i l; simp only [krigF, of_apply, trend_normalise]
  have hr : krigRhs (fun a b => τ * absExp θ a b) defectTrend (fun i => normalise S (S i)) (normalise S x)
      = krigRhs (fun a b => τ * absExp (fun j => θ j / normFactor fun i => S i j) a b) (fun x => trendMatrix S *ᵥ defectTrend x) S x := by
    funext i
    cases i <;> simp only [krigRhs, Sum.elim_inl, Sum.elim_inr, absExp_normalise, trend_normalise]
  rw [hK, hF, hr]

theorem designVar_eq (θ : Fin (d + 1) → ℝ) (τ : ℝ) (S : Fin n → Fin (d + 1) → ℝ) (x : Fin (d + 1) → ℝ) :
    designVar (fun a b => τ * absExp θ a b) defectTrend S x
      = krigVar (fun a b => τ * absExp (fun j => θ j / normFactor fun i => S i j) a b) (fun x => trendMatrix S *ᵥ defectTrend x) S x := by
  unfold designVar krigVar
  have hK : krigK (fun a b => τ * absExp θ a b) (fun i => normalise S (S i))
      = krigK (fun a b => τ * absExp (fun j => θ j / normFactor fun i => S i j) a b) S := by
    ext i j; simp only [krigK, of_apply, absExp_normalise]
  have hF : krigF defectTrend (fun i => normalise S (S i)) = krigF (fun x => trendMatrix S *ᵥ defectTrend x) S := by
    ext i l; simp only [krigF, of_apply, trend_normalise]
  have hr : krigRhs (fun a b => τ * absExp θ a b) defectTrend (fun i => normalise S (S i)) (normalise S x)
      = krigRhs (fun a b => τ * absExp (fun j => θ j / normFactor fun i => S i j) a b) (fun x => trendMatrix S *ᵥ defectTrend x) S x := by
    funext i
    cases i <;> simp only [krigRhs, Sum.elim_inl, Sum.elim_inr, absExp_normalise, trend_normalise]
  rw [hK, hF, hr]
  simp only [absExp_normalise]

/-- Convergence on a growing normalised design, signals with bounded support. -/
theorem design_limit_compact {q : ℕ} (xs : ℕ → Fin (d + 1) → ℝ) (hinj : ∀ j, Function.Injective fun i => xs i j) (lo hi : ℝ) (hlo : 0 < lo)
    (hfac : ∀ᶠ N in atTop, ∀ j, lo ≤ normFactor (fun i : Fin N => xs i j) ∧ normFactor (fun i : Fin N => xs i j) ≤ hi)
    (θ : ℕ → Fin (d + 1) → ℝ) (tlo thi : ℝ) (htlo : 0 < tlo) (hθ : ∀ N j, tlo ≤ θ N j ∧ θ N j ≤ thi) (τ : ℕ → ℝ) (T : ℝ) (hτ : ∀ N, 0 < τ N ∧ τ N ≤ T)
    (b0 b1 : ℝ) (u : Fin q → Fin (d + 1) → ℝ → ℝ) (hu : ∀ r j, ContDiff ℝ 1 (u r j)) (hc : ∀ r j, HasCompactSupport (u r j)) (x : Fin (d + 1) → ℝ)
    (hx : x ∈ closure (Set.range xs)) :
    Tendsto (fun N => designVar (fun a b => τ N * absExp (θ N) a b) defectTrend (fun i : Fin N => xs i) x) atTop (𝓝 0) ∧
    Tendsto (fun N => designMean (fun a b => τ N * absExp (θ N) a b) defectTrend (fun i : Fin N => xs i)
      (fun i => b0 + b1 * xs i 0 + tensorSignal u (xs i)) x) atTop (𝓝 (b0 + b1 * x 0 + tensorSignal u x)) := by
  set sc : ℕ → Fin (d + 1) → ℝ := fun N j => θ N j / normFactor fun i : Fin N => xs i j with hsc
  have hsb : ∀ᶠ N in atTop, ∀ j, tlo / hi ≤ sc N j ∧ sc N j ≤ thi / lo := by
    filter_upwards [hfac] with N hN j
    have hp := normFactor_pos fun i : Fin N => xs i j
    exact ⟨div_le_div₀ (htlo.le.trans (hθ N j).1) (hθ N j).1 hp (hN j).2,
      div_le_div₀ (htlo.le.trans ((hθ N j).1.trans (hθ N j).2)) (hθ N j).2 hlo (hN j).1⟩
  have hhi : 0 < hi := by
    obtain ⟨N, hN⟩ := hfac.exists
    exact hlo.trans_le ((hN 0).1.trans (hN 0).2)
  have hscpos : ∀ N j, 0 < sc N j := fun N j => div_pos (htlo.trans_le (hθ N j).1) (normFactor_pos _)
  have hlo' : 0 < tlo / hi := div_pos htlo hhi
  obtain ⟨C, hC⟩ := tensor_bound u hu hc (tlo / hi) (thi / lo) hlo'
  have hfin : ∀ N (j : Fin (d + 1)), Function.Injective fun i : Fin N => xs i j := fun N j a b h => Fin.val_injective (hinj j h)
  have hmain := krig_limit xs (fun N => absExp (sc N)) (Eventually.of_forall fun N => absExp_isCovariance _ (hscpos N)) defectTrend
    (fun N => trendMatrix fun i : Fin N => xs i) (Eventually.of_forall fun N => trendMatrix_isUnit _)
    (by
      filter_upwards [eventually_ge_atTop 2] with N hN
      have := design_isUnit (sc N) (hscpos N) 1 one_pos (fun i : Fin N => xs i) hN (hfin N)
      simpa only [one_mul] using this)
    ![b0, b1] (tensorSignal u) C (hsb.mono fun N hN => hC _ hN) ![0, 1]
    (by
      rw [det_fin_two]
      simp only [of_apply, defectTrend, cons_val_zero, cons_val_one]
      rw [isUnit_iff_ne_zero]
      intro h
      have h' : xs 0 0 = xs 1 0 := by linarith
      exact absurd (hinj 0 h') (by norm_num))
    1 (Eventually.of_forall fun N a => (absExp_self _ _).le) x
    (by
      intro ε hε
      set δ := min ε (ε * (tlo / hi) / (2 * (d + 1))) / 2 with hδ
      have hδ0 : 0 < δ := by
        have : 0 < ε * (tlo / hi) / (2 * (d + 1)) := by positivity
        have := lt_min hε this
        positivity
      have hδ1 : δ < ε := by
        have := min_le_left ε (ε * (tlo / hi) / (2 * (d + 1)))
        rw [hδ]; linarith
      have hδ2 : δ < ε * (tlo / hi) / (2 * (d + 1)) := by
        have h1 := min_le_right ε (ε * (tlo / hi) / (2 * (d + 1)))
        have h2 : 0 < ε * (tlo / hi) / (2 * (d + 1)) := by positivity
        rw [hδ]; linarith
      obtain ⟨i, hi'⟩ := Metric.mem_closure_range_iff.1 hx δ hδ0
      have hcoord : ∀ j, |x j - xs i j| ≤ δ := fun j => by
        rw [← Real.dist_eq]; exact (dist_le_pi_dist x (xs i) j).trans hi'.le
      refine ⟨i, fun l => ?_, ?_⟩
      · fin_cases l
        · simpa [defectTrend] using hε
        · simpa [defectTrend] using (hcoord 0).trans_lt hδ1
      · filter_upwards [hsb] with N hN
        have hnear := absExp_near (sc N) (tlo / hi) hlo' (fun j => (hN j).1) (xs i) x δ fun j => by rw [abs_sub_comm]; exact hcoord j
        rw [absExp_self, absExp_self]
        have h3 : ((d + 1 : ℕ) : ℝ) * (δ / (tlo / hi)) < ε / 2 := by
          rw [lt_div_iff₀ (by positivity)] at hδ2
          push_cast
          rw [← mul_div_assoc, div_lt_iff₀ hlo']
          linarith
        linarith)
  have hsig : ∀ z : Fin (d + 1) → ℝ, ∑ l, (![b0, b1] : Fin 2 → ℝ) l * defectTrend z l = b0 + b1 * z 0 := fun z => by
    simp [Fin.sum_univ_two, defectTrend]
  simp only [hsig] at hmain
  have hscale : ∀ᶠ N in atTop, ∀ y : Fin N → ℝ,
      designMean (fun a b => τ N * absExp (θ N) a b) defectTrend (fun i : Fin N => xs i) y x
        = krigMean (absExp (sc N)) (fun x => (trendMatrix fun i : Fin N => xs i) *ᵥ defectTrend x) (fun i : Fin N => xs i) y x ∧
      designVar (fun a b => τ N * absExp (θ N) a b) defectTrend (fun i : Fin N => xs i) x
        = τ N * krigVar (absExp (sc N)) (fun x => (trendMatrix fun i : Fin N => xs i) *ᵥ defectTrend x) (fun i : Fin N => xs i) x := by
    filter_upwards [eventually_ge_atTop 2] with N hN y
    have h1 := design_isUnit (sc N) (hscpos N) 1 one_pos (fun i : Fin N => xs i) hN (hfin N)
    simp only [one_mul] at h1
    have h2 := design_isUnit (sc N) (hscpos N) (τ N) (hτ N).1 (fun i : Fin N => xs i) hN (hfin N)
    rw [designMean_eq, designVar_eq]
    exact krig_scale (absExp (sc N)) _ _ y (τ N) (hτ N).1 h1 h2 x
  constructor
  · have hup : Tendsto (fun N => T * krigVar (absExp (sc N)) (fun x => (trendMatrix fun i : Fin N => xs i) *ᵥ defectTrend x)
        (fun i : Fin N => xs i) x) atTop (𝓝 0) := by
      simpa using hmain.1.const_mul T
    have hnn : ∀ᶠ N in atTop, 0 ≤ krigVar (absExp (sc N)) (fun x => (trendMatrix fun i : Fin N => xs i) *ᵥ defectTrend x) (fun i : Fin N => xs i) x := by
      filter_upwards [eventually_ge_atTop 2] with N hN
      have h1 := design_isUnit (sc N) (hscpos N) 1 one_pos (fun i : Fin N => xs i) hN (hfin N)
      simp only [one_mul] at h1
      exact C161_nonneg _ (absExp_isCovariance _ (hscpos N)) _ _ h1 x
    refine tendsto_of_tendsto_of_tendsto_of_le_of_le' tendsto_const_nhds hup ?_ ?_
    · filter_upwards [hscale, hnn] with N hN hN'
      rw [(hN fun _ => 0).2]
      exact mul_nonneg (hτ N).1.le hN'
    · filter_upwards [hscale, hnn] with N hN hN'
      rw [(hN fun _ => 0).2]
      exact mul_le_mul_of_nonneg_right (hτ N).2 hN'
  · refine hmain.2.congr' ?_
    filter_upwards [hscale] with N hN
    exact ((hN _).1).symm

/-- A smooth function of bounded support that agrees with a smooth function on an interval. -/
theorem exists_cutoff (u : ℝ → ℝ) (hu : ContDiff ℝ 1 u) (R : ℝ) : ∃ v : ℝ → ℝ, ContDiff ℝ 1 v ∧ HasCompactSupport v ∧ ∀ t, |t| ≤ R → v t = u t := by
  let χ : ContDiffBump (0 : ℝ) := ⟨|R| + 1, |R| + 2, by positivity, by linarith⟩
  refine ⟨fun t => χ t * u t, χ.contDiff.mul hu, χ.hasCompactSupport.mul_right, fun t ht => ?_⟩
  have : t ∈ Metric.closedBall (0 : ℝ) χ.rIn := by
    rw [Metric.mem_closedBall, dist_zero_right, Real.norm_eq_abs]
    exact ht.trans ((le_abs_self R).trans (by change |R| ≤ |R| + 1; linarith))
  change χ t * u t = u t
  rw [χ.one_of_mem_closedBall this, one_mul]

/-- Convergence on a growing normalised design in a bounded domain. -/
theorem design_limit {q : ℕ} (xs : ℕ → Fin (d + 1) → ℝ) (hinj : ∀ j, Function.Injective fun i => xs i j) (R : ℝ) (hR : ∀ i j, |xs i j| ≤ R) (lo hi : ℝ)
    (hlo : 0 < lo) (hfac : ∀ᶠ N in atTop, ∀ j, lo ≤ normFactor (fun i : Fin N => xs i j) ∧ normFactor (fun i : Fin N => xs i j) ≤ hi)
    (θ : ℕ → Fin (d + 1) → ℝ) (tlo thi : ℝ) (htlo : 0 < tlo) (hθ : ∀ N j, tlo ≤ θ N j ∧ θ N j ≤ thi) (τ : ℕ → ℝ) (T : ℝ) (hτ : ∀ N, 0 < τ N ∧ τ N ≤ T)
    (b0 b1 : ℝ) (u : Fin q → Fin (d + 1) → ℝ → ℝ) (hu : ∀ r j, ContDiff ℝ 1 (u r j)) (x : Fin (d + 1) → ℝ) (hx : x ∈ closure (Set.range xs)) :
    Tendsto (fun N => designVar (fun a b => τ N * absExp (θ N) a b) defectTrend (fun i : Fin N => xs i) x) atTop (𝓝 0) ∧
    Tendsto (fun N => designMean (fun a b => τ N * absExp (θ N) a b) defectTrend (fun i : Fin N => xs i)
      (fun i => b0 + b1 * xs i 0 + tensorSignal u (xs i)) x) atTop (𝓝 (b0 + b1 * x 0 + tensorSignal u x)) := by
  choose v hv hvc hvu using fun r j => exists_cutoff (u r j) (hu r j) R
  have hxR : ∀ j, |x j| ≤ R := by
    intro j
    have hcl : IsClosed {z : Fin (d + 1) → ℝ | |z j| ≤ R} := isClosed_le (by fun_prop) continuous_const
    have := closure_minimal (s := Set.range xs) (by rintro _ ⟨i, rfl⟩; exact hR i j) hcl
    exact this hx
  have e : ∀ z : Fin (d + 1) → ℝ, (∀ j, |z j| ≤ R) → tensorSignal v z = tensorSignal u z := fun z hz =>
    Finset.sum_congr rfl fun r _ => Finset.prod_congr rfl fun j _ => hvu r j (z j) (hz j)
  have h := design_limit_compact xs hinj lo hi hlo hfac θ tlo thi htlo hθ τ T hτ b0 b1 v hv hvc x hx
  simp only [e x hxR, fun i : ℕ => e (xs i) (hR i)] at h
  exact h

end Verif.Props
