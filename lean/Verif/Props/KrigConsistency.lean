import Verif.Props.ExpKernel
import Mathlib.Topology.MetricSpace.Basic

/-!
# The kriging model converges to the physical model
-/

namespace Verif.Props
open Verif.Model Matrix Filter Topology

variable {n p : ℕ} {X : Type}

/-- The error of a linear predictor in the form of the covariance model. -/
theorem errVar_form (k : X → X → ℝ) (hk : ∀ x y, k x y = k y x) (xs : Fin n → X) (x : X) (v : Fin n → ℝ) :
    ∑ i, ∑ j, (Fin.snoc v (-1) : Fin (n + 1) → ℝ) i * (Fin.snoc v (-1) : Fin (n + 1) → ℝ) j *
      k ((Fin.snoc xs x : Fin (n + 1) → X) i) ((Fin.snoc xs x : Fin (n + 1) → X) j) = errVar k xs x v := by
  simp only [Fin.sum_univ_castSucc, Fin.snoc_castSucc, Fin.snoc_last]
  have e : ∀ i, v i * -1 * k (xs i) x = -(v i * k (xs i) x) := fun i => by ring
  have e' : ∀ i, -1 * v i * k x (xs i) = -(v i * k (xs i) x) := fun i => by rw [hk x (xs i)]; ring
  simp only [Finset.sum_add_distrib, e, e', Finset.sum_neg_distrib]
  unfold errVar
  ring

/-- The error of the prediction is bounded by the standard deviation of the prediction. -/
theorem krig_error (k : X → X → ℝ) (hk : IsCovariance k) (f : X → Fin p → ℝ) (xs : Fin n → X)
    (hS : IsUnit (borderedMatrix (krigK k xs) (krigF f xs)).det) (β : Fin p → ℝ) (g : X → ℝ) (C : ℝ) (hg : SignalBound k C g) (x : X) :
    (krigMean k f xs (fun i => ∑ l, β l * f (xs i) l + g (xs i)) x - (∑ l, β l * f x l + g x)) ^ 2 ≤ C ^ 2 * krigVar k f xs x := by
  obtain ⟨w, μ, hw, -, hvar, hmean⟩ := krig_weights k hk.symm f xs hS x
  have h := hg (n + 1) (Fin.snoc xs x : Fin (n + 1) → X) (Fin.snoc w (-1) : Fin (n + 1) → ℝ)
  rw [errVar_form k hk.symm, ← hvar] at h
  refine le_trans (le_of_eq ?_) h
  congr 1
  rw [hmean]
  simp only [Fin.sum_univ_castSucc, Fin.snoc_castSucc, Fin.snoc_last, mul_add, Finset.sum_add_distrib]
  have e : ∑ i, w i * ∑ l, β l * f (xs i) l = ∑ l, β l * f x l := by
    simp only [Finset.mul_sum]
    rw [Finset.sum_comm]
    refine Finset.sum_congr rfl fun l _ => ?_
    rw [← hw l, Finset.mul_sum]
    exact Finset.sum_congr rfl fun i _ => by ring
  rw [e]
  ring

/-- The variance is bounded by means of one observation near the point and reference observations that correct the trend. -/
theorem krigVar_near (k : X → X → ℝ) (hk : IsCovariance k) (f : X → Fin p → ℝ) (xs : Fin n → X)
    (hS : IsUnit (borderedMatrix (krigK k xs) (krigF f xs)).det) (x : X) (i : Fin n) {q : ℕ} (r : Fin q → Fin n) (c : Fin q → ℝ)
    (hc : ∀ l, ∑ a, c a * f (xs (r a)) l = f x l - f (xs i) l) :
    krigVar k f xs x ≤ 2 * (k x x - 2 * k (xs i) x + k (xs i) (xs i)) + 2 * (q * ∑ a, c a ^ 2 * k (xs (r a)) (xs (r a))) := by
  classical
  set v : Fin n → ℝ := fun j => (if j = i then 1 else 0) + ∑ a, if j = r a then c a else 0 with hv
  have hsum : ∀ φ : Fin n → ℝ, ∑ j, v j * φ j = φ i + ∑ a, c a * φ (r a) := by
    intro φ
    simp only [hv, add_mul, Finset.sum_add_distrib, ite_mul, one_mul, zero_mul, Finset.sum_ite_eq', Finset.mem_univ, if_true, Finset.sum_mul]
    congr 1
    rw [Finset.sum_comm]
    exact Finset.sum_congr rfl fun a _ => by simp
  have hub : Unbiased f xs x v := by
    intro l
    rw [hsum fun j => f (xs j) l, hc l]
    ring
  refine (krigVar_best k hk f xs hS x v hub).trans ?_
  -- the form of the correction
  set Q := ∑ a, ∑ b, c a * c b * k (xs (r a)) (xs (r b)) with hQ
  set D := k x x - 2 * k (xs i) x + k (xs i) (xs i) with hD
  have hE : errVar k xs x v = D - 2 * ∑ a, c a * (k (xs (r a)) x - k (xs (r a)) (xs i)) + Q := by
    unfold errVar
    rw [hsum fun j => k (xs j) x]
    have h1 : ∑ j, ∑ j', v j * v j' * k (xs j) (xs j') = ∑ j, v j * (k (xs j) (xs i) + ∑ a, c a * k (xs j) (xs (r a))) := by
      refine Finset.sum_congr rfl fun j _ => ?_
      rw [← hsum fun j' => k (xs j) (xs j'), Finset.mul_sum]
      exact Finset.sum_congr rfl fun j' _ => by ring
    rw [h1, hsum fun j => k (xs j) (xs i) + ∑ a, c a * k (xs j) (xs (r a))]
    have h2 : ∑ a, c a * k (xs i) (xs (r a)) = ∑ a, c a * k (xs (r a)) (xs i) := Finset.sum_congr rfl fun a _ => by rw [hk.symm]
    have h3 : ∑ a, c a * (k (xs (r a)) (xs i) + ∑ b, c b * k (xs (r a)) (xs (r b))) = ∑ a, c a * k (xs (r a)) (xs i) + Q := by
      rw [hQ, ← Finset.sum_add_distrib]
      refine Finset.sum_congr rfl fun a _ => ?_
      rw [mul_add, Finset.mul_sum]
      congr 1
      exact Finset.sum_congr rfl fun b _ => by ring
    have h4 : ∑ a, c a * (k (xs (r a)) x - k (xs (r a)) (xs i)) = ∑ a, c a * k (xs (r a)) x - ∑ a, c a * k (xs (r a)) (xs i) := by
      rw [← Finset.sum_sub_distrib]; exact Finset.sum_congr rfl fun a _ => mul_sub _ _ _
    rw [h2, h3, h4, hD]
    ring
  have hpos : 0 ≤ D + 2 * ∑ a, c a * (k (xs (r a)) x - k (xs (r a)) (xs i)) + Q := by
    have h := hk.nonneg (q + 1 + 1) (Fin.cons x (Fin.cons (xs i) fun a => xs (r a))) (Fin.cons 1 (Fin.cons (-1) c))
    simp only [Fin.sum_univ_succ (n := q + 1), Fin.sum_univ_succ (n := q), Fin.cons_zero, Fin.cons_succ, Finset.sum_add_distrib] at h
    have h4 : ∑ a, c a * (k (xs (r a)) x - k (xs (r a)) (xs i)) = ∑ a, c a * k (xs (r a)) x - ∑ a, c a * k (xs (r a)) (xs i) := by
      rw [← Finset.sum_sub_distrib]; exact Finset.sum_congr rfl fun a _ => mul_sub _ _ _
    have e1 : ∑ a, 1 * c a * k x (xs (r a)) = ∑ a, c a * k (xs (r a)) x := Finset.sum_congr rfl fun a _ => by rw [hk.symm x]; ring
    have e2 : ∑ a, -1 * c a * k (xs i) (xs (r a)) = -∑ a, c a * k (xs (r a)) (xs i) := by
      rw [← Finset.sum_neg_distrib]; exact Finset.sum_congr rfl fun a _ => by rw [hk.symm (xs i)]; ring
    have e3 : ∑ a, c a * 1 * k (xs (r a)) x = ∑ a, c a * k (xs (r a)) x := Finset.sum_congr rfl fun a _ => by ring
    have e4 : ∑ a, c a * -1 * k (xs (r a)) (xs i) = -∑ a, c a * k (xs (r a)) (xs i) := by
      rw [← Finset.sum_neg_distrib]; exact Finset.sum_congr rfl fun a _ => by ring
    rw [e1, e2, e3, e4, hk.symm x (xs i)] at h
    rw [h4, hD]
    linarith
  have hQle : Q ≤ q * ∑ a, c a ^ 2 * k (xs (r a)) (xs (r a)) := by
    have h2 : ∀ a b, c a * c b * k (xs (r a)) (xs (r b)) ≤ (c a ^ 2 * k (xs (r a)) (xs (r a)) + c b ^ 2 * k (xs (r b)) (xs (r b))) / 2 := by
      intro a b
      have h := hk.nonneg 2 ![xs (r a), xs (r b)] ![c a, -c b]
      simp only [Fin.sum_univ_two, cons_val_zero, cons_val_one] at h
      rw [hk.symm (xs (r b)) (xs (r a))] at h
      nlinarith
    calc Q ≤ ∑ a, ∑ b, (c a ^ 2 * k (xs (r a)) (xs (r a)) + c b ^ 2 * k (xs (r b)) (xs (r b))) / 2 :=
          Finset.sum_le_sum fun a _ => Finset.sum_le_sum fun b _ => h2 a b
      _ = q * ∑ a, c a ^ 2 * k (xs (r a)) (xs (r a)) := by
          simp only [← Finset.sum_div, Finset.sum_add_distrib, Finset.sum_const, Finset.card_univ, Fintype.card_fin, nsmul_eq_mul, ← Finset.mul_sum]
          ring
  rw [hE]
  linarith

/-- Convergence of the kriging model along a growing design.  The covariance model may change with the number of observations (normalisation, estimated
parameters), and the trend functions may be recombined. -/
theorem krig_limit (xs : ℕ → X) (k : ℕ → X → X → ℝ) (hk : ∀ᶠ N in atTop, IsCovariance (k N)) (f : X → Fin p → ℝ) (A : ℕ → Matrix (Fin p) (Fin p) ℝ)
    (hA : ∀ᶠ N in atTop, IsUnit (A N).det)
    (hS : ∀ᶠ N in atTop, IsUnit (borderedMatrix (krigK (k N) fun i : Fin N => xs i) (krigF (fun x => A N *ᵥ f x) fun i : Fin N => xs i)).det)
    (β : Fin p → ℝ) (g : X → ℝ) (C : ℝ) (hg : ∀ᶠ N in atTop, SignalBound (k N) C g) (r : Fin p → ℕ)
    (hr : IsUnit (Matrix.of fun a l => f (xs (r a)) l).det) (B : ℝ) (hB : ∀ᶠ N in atTop, ∀ a, k N (xs (r a)) (xs (r a)) ≤ B) (x : X)
    (hx : ∀ ε > 0, ∃ i, (∀ l, |f x l - f (xs i) l| < ε) ∧ ∀ᶠ N in atTop, k N x x - 2 * k N (xs i) x + k N (xs i) (xs i) < ε) :
    Tendsto (fun N => krigVar (k N) (fun x => A N *ᵥ f x) (fun i : Fin N => xs i) x) atTop (𝓝 0) ∧
    Tendsto (fun N => krigMean (k N) (fun x => A N *ᵥ f x) (fun i : Fin N => xs i) (fun i => ∑ l, β l * f (xs i) l + g (xs i)) x) atTop
      (𝓝 (∑ l, β l * f x l + g x)) := by
  have hvar : Tendsto (fun N => krigVar (k N) (fun x => A N *ᵥ f x) (fun i : Fin N => xs i) x) atTop (𝓝 0) := by
    set R : Matrix (Fin p) (Fin p) ℝ := Matrix.of fun a l => f (xs (r a)) l with hR
    set M : ℝ := ∑ a, ∑ l, |(Rᵀ)⁻¹ a l| with hM
    have hM0 : 0 ≤ M := Finset.sum_nonneg fun a _ => Finset.sum_nonneg fun l _ => abs_nonneg _
    rw [Metric.tendsto_atTop']
    intro η hη
    -- choice of the precision
    have hlim : Tendsto (fun ε : ℝ => 2 * ε + 2 * (p * (p * ((M * ε) ^ 2 * |B|)))) (𝓝[>] 0) (𝓝 0) := by
      have : Continuous fun ε : ℝ => 2 * ε + 2 * (p * (p * ((M * ε) ^ 2 * |B|))) := by fun_prop
      have h0 := this.tendsto 0
      simp only [mul_zero, zero_pow two_ne_zero, zero_mul, add_zero] at h0
      exact h0.mono_left nhdsWithin_le_nhds
    obtain ⟨ε, hεη, hε⟩ := ((hlim.eventually (gt_mem_nhds hη)).and self_mem_nhdsWithin).exists
    obtain ⟨i, hi, hik⟩ := hx ε hε
    obtain ⟨N0, hN0⟩ := ((((hk.and hA).and (hS.and hB)).and hik).and (eventually_gt_atTop (max i (∑ a, r a)))).exists_forall_of_atTop
    refine ⟨N0, fun N hN => ?_⟩
    obtain ⟨⟨⟨⟨hkN, hAN⟩, hSN, hBN⟩, hikN⟩, hgt⟩ := hN0 N hN.le
    have hiN : i < N := (le_max_left _ _).trans_lt hgt
    have hrN : ∀ a, r a < N := fun a =>
      ((Finset.single_le_sum (fun b _ => Nat.zero_le (r b)) (Finset.mem_univ a)).trans (le_max_right _ _)).trans_lt hgt
    set c : Fin p → ℝ := (Rᵀ)⁻¹ *ᵥ fun l => f x l - f (xs i) l with hc
    have hcsol : Rᵀ *ᵥ c = fun l => f x l - f (xs i) l := by
      rw [hc, mulVec_mulVec, mul_nonsing_inv _ (by rwa [det_transpose]), one_mulVec]
    have hcl : ∀ l, ∑ a, c a * f (xs (r a)) l = f x l - f (xs i) l := by
      intro l
      rw [← congrFun hcsol l, mulVec, dotProduct]
      exact Finset.sum_congr rfl fun a _ => by simp [hR, mul_comm]
    have hcb : ∀ a, |c a| ≤ M * ε := by
      intro a
      calc |c a| = |∑ l, (Rᵀ)⁻¹ a l * (f x l - f (xs i) l)| := rfl
        _ ≤ ∑ l, |(Rᵀ)⁻¹ a l| * ε := (Finset.abs_sum_le_sum_abs _ _).trans
            (Finset.sum_le_sum fun l _ => by rw [abs_mul]; exact mul_le_mul_of_nonneg_left (hi l).le (abs_nonneg _))
        _ = (∑ l, |(Rᵀ)⁻¹ a l|) * ε := by rw [Finset.sum_mul]
        _ ≤ M * ε := by
            refine mul_le_mul_of_nonneg_right ?_ (le_of_lt hε)
            exact Finset.single_le_sum (f := fun a => ∑ l, |(Rᵀ)⁻¹ a l|) (fun b _ => Finset.sum_nonneg fun l _ => abs_nonneg _) (Finset.mem_univ a)
    have hcA : ∀ l, ∑ a, c a * (A N *ᵥ f (xs (r a))) l = (A N *ᵥ f x) l - (A N *ᵥ f (xs i)) l := by
      intro l
      simp only [mulVec, dotProduct, Finset.mul_sum]
      rw [Finset.sum_comm, ← Finset.sum_sub_distrib]
      refine Finset.sum_congr rfl fun l' _ => ?_
      rw [← mul_sub, ← hcl l', Finset.mul_sum]
      exact Finset.sum_congr rfl fun a _ => by ring
    have hle := krigVar_near (k N) hkN (fun x => A N *ᵥ f x) (fun i : Fin N => xs i) hSN x ⟨i, hiN⟩ (fun a => ⟨r a, hrN a⟩) c hcA
    have h0 := C161_nonneg (k N) hkN (fun x => A N *ᵥ f x) (fun i : Fin N => xs i) hSN x
    rw [Real.dist_eq, sub_zero, abs_of_nonneg h0]
    refine lt_of_le_of_lt (hle.trans ?_) hεη
    have hsum : ∑ a, c a ^ 2 * k N (xs (r a)) (xs (r a)) ≤ p * ((M * ε) ^ 2 * |B|) := by
      calc ∑ a, c a ^ 2 * k N (xs (r a)) (xs (r a)) ≤ ∑ _a : Fin p, (M * ε) ^ 2 * |B| := by
            refine Finset.sum_le_sum fun a _ => ?_
            have hk0 : 0 ≤ k N (xs (r a)) (xs (r a)) := by
              have h := hkN.nonneg 1 ![xs (r a)] ![1]
              simpa using h
            refine mul_le_mul ?_ ((hBN a).trans (le_abs_self B)) hk0 (sq_nonneg _)
            rw [← sq_abs (c a)]
            exact pow_le_pow_left₀ (abs_nonneg _) (hcb a) 2
        _ = _ := by simp
    have hp0 : (0 : ℝ) ≤ p := Nat.cast_nonneg p
    have := mul_le_mul_of_nonneg_left hsum hp0
    simp only at hikN ⊢
    linarith
  refine ⟨hvar, ?_⟩
  have hsq : Tendsto (fun N => |krigMean (k N) (fun x => A N *ᵥ f x) (fun i : Fin N => xs i) (fun i => ∑ l, β l * f (xs i) l + g (xs i)) x
      - (∑ l, β l * f x l + g x)|) atTop (𝓝 0) := by
    have hup : Tendsto (fun N => Real.sqrt (C ^ 2 * krigVar (k N) (fun x => A N *ᵥ f x) (fun i : Fin N => xs i) x)) atTop (𝓝 0) := by
      have := (Real.continuous_sqrt.tendsto _).comp (hvar.const_mul (C ^ 2))
      simp only [mul_zero, Real.sqrt_zero] at this
      exact this
    refine tendsto_of_tendsto_of_tendsto_of_le_of_le' tendsto_const_nhds hup (Eventually.of_forall fun N => abs_nonneg _) ?_
    filter_upwards [hk, hA, hS, hg] with N hkN hAN hSN hgN
    have hβ : ∀ x, ∑ l, (β ᵥ* (A N)⁻¹) l * (A N *ᵥ f x) l = ∑ l, β l * f x l := by
      intro x
      change (β ᵥ* (A N)⁻¹) ⬝ᵥ (A N *ᵥ f x) = β ⬝ᵥ f x
      rw [dotProduct_mulVec, vecMul_vecMul, nonsing_inv_mul _ hAN, vecMul_one]
    have h := krig_error (k N) hkN (fun x => A N *ᵥ f x) (fun i : Fin N => xs i) hSN (β ᵥ* (A N)⁻¹) g C hgN x
    simp only [hβ] at h
    exact Real.abs_le_sqrt h
  rw [tendsto_iff_dist_tendsto_zero]
  simpa only [Real.dist_eq] using hsq

end Verif.Props
