import Verif.Model.KrigPredict
import Verif.Model.Metamodel
import Verif.Props.Loo
import Mathlib.LinearAlgebra.Matrix.PosDef
import Mathlib.Analysis.SpecialFunctions.Exp
import Mathlib.MeasureTheory.Integral.Bochner.Set
import Mathlib.MeasureTheory.Measure.Lebesgue.Basic

/-!
# C161, C162: what the kriging model predicts
-/

namespace Verif.Props
open Verif.Model Matrix

variable {n p d : ℕ} {X : Type}

/-- Covariance functions: symmetric and positive semidefinite on every finite family of points. -/
structure IsCovariance (k : X → X → ℝ) : Prop where
  symm : ∀ x y, k x y = k y x
  nonneg : ∀ (m : ℕ) (xs : Fin m → X) (c : Fin m → ℝ), 0 ≤ ∑ i, ∑ j, c i * c j * k (xs i) (xs j)

/-- The bordered system of a design has one solution when the covariance matrix is positive definite and the trends are independent on it. -/
theorem bordered_isUnit (K : Matrix (Fin n) (Fin n) ℝ) (F : Matrix (Fin n) (Fin p) ℝ)
    (hK : ∀ c : Fin n → ℝ, c ⬝ᵥ (K *ᵥ c) = 0 → c = 0) (hF : Function.Injective F.mulVec) : IsUnit (borderedMatrix K F).det := by
  rw [← isUnit_iff_isUnit_det, ← mulVec_injective_iff_isUnit]
  refine (injective_iff_map_eq_zero (borderedMatrix K F).mulVecLin).2 fun v hv => ?_
  rw [mulVecLin_apply] at hv
  obtain ⟨γ, β, rfl⟩ : ∃ (γ : Fin n → ℝ) (β : Fin p → ℝ), v = Sum.elim γ β := ⟨_, _, (Sum.elim_comp_inl_inr v).symm⟩
  rw [borderedMatrix, fromBlocks_mulVec] at hv
  simp only [Sum.elim_comp_inl, Sum.elim_comp_inr, zero_mulVec, add_zero] at hv
  have h1 : K *ᵥ γ + F *ᵥ β = 0 := by funext i; exact congrFun hv (.inl i)
  have h2 : Fᵀ *ᵥ γ = 0 := by funext i; exact congrFun hv (.inr i)
  have h3 : γ ⬝ᵥ (K *ᵥ γ) = 0 := by
    have := congrArg (γ ⬝ᵥ ·) h1
    simp only [dotProduct_add, dotProduct_zero] at this
    rw [dotProduct_mulVec γ F β, ← mulVec_transpose, h2, zero_dotProduct, add_zero] at this
    exact this
  have hγ := hK γ h3
  subst hγ
  rw [mulVec_zero, zero_add] at h1
  have hβ := hF (h1.trans (mulVec_zero F).symm)
  subst hβ
  funext i
  cases i <;> rfl

/-- The row of an observation in the bordered matrix. -/
theorem bordered_obs (k : X → X → ℝ) (hk : ∀ x y, k x y = k y x) (f : X → Fin p → ℝ) (xs : Fin n → X) (v : Fin n ⊕ Fin p → ℝ) (i : Fin n) :
    (borderedMatrix (krigK k xs) (krigF f xs) *ᵥ v) (.inl i) = krigRhs k f xs (xs i) ⬝ᵥ v := by
  rw [mulVec, dotProduct, dotProduct, Fintype.sum_sum_type, Fintype.sum_sum_type]
  simp [borderedMatrix, krigK, krigF, krigRhs, hk (xs i)]

/-- **C161, predictions.**  The metamodel goes through the observations. -/
theorem C161_interpolates (k : X → X → ℝ) (hk : ∀ x y, k x y = k y x) (f : X → Fin p → ℝ) (xs : Fin n → X) (y : Fin n → ℝ)
    (hS : IsUnit (borderedMatrix (krigK k xs) (krigF f xs)).det) (i : Fin n) :
    krigMean k f xs y (xs i) = y i := by
  rw [krigMean, ← bordered_obs k hk, mulVec_mulVec, mul_nonsing_inv _ hS, one_mulVec]
  rfl

theorem krigRhs_obs (k : X → X → ℝ) (f : X → Fin p → ℝ) (xs : Fin n → X) (i : Fin n) :
    krigRhs k f xs (xs i) = borderedMatrix (krigK k xs) (krigF f xs) *ᵥ Pi.single (.inl i) 1 := by
  rw [mulVec_single_one]
  funext j
  cases j <;> simp [krigRhs, borderedMatrix, krigK, krigF]

/-- **C161, certainty.**  The variance is zero at the observations. -/
theorem C161_variance (k : X → X → ℝ) (f : X → Fin p → ℝ) (xs : Fin n → X)
    (hS : IsUnit (borderedMatrix (krigK k xs) (krigF f xs)).det) (i : Fin n) : krigVar k f xs (xs i) = 0 := by
  have h : (borderedMatrix (krigK k xs) (krigF f xs))⁻¹ *ᵥ krigRhs k f xs (xs i) = Pi.single (.inl i) 1 := by
    rw [krigRhs_obs, mulVec_mulVec, nonsing_inv_mul _ hS, one_mulVec]
  rw [krigVar, h, dotProduct_single, mul_one, krigRhs, Sum.elim_inl, sub_self]

/-- Error variance of a linear predictor with weights `v`. -/
noncomputable def errVar (k : X → X → ℝ) (xs : Fin n → X) (x : X) (v : Fin n → ℝ) : ℝ :=
  k x x - 2 * ∑ i, v i * k (xs i) x + ∑ i, ∑ j, v i * v j * k (xs i) (xs j)

/-- Weights that reproduce the trends. -/
def Unbiased (f : X → Fin p → ℝ) (xs : Fin n → X) (x : X) (v : Fin n → ℝ) : Prop := ∀ l, ∑ i, v i * f (xs i) l = f x l

theorem errVar_nonneg (k : X → X → ℝ) (hk : IsCovariance k) (xs : Fin n → X) (x : X) (v : Fin n → ℝ) : 0 ≤ errVar k xs x v := by
  have h := hk.nonneg (n + 1) (Fin.snoc xs x : Fin (n + 1) → X) (Fin.snoc v (-1) : Fin (n + 1) → ℝ)
  simp only [Fin.sum_univ_castSucc, Fin.snoc_castSucc, Fin.snoc_last] at h
  have e : ∀ i, v i * -1 * k (xs i) x = -(v i * k (xs i) x) := fun i => by ring
  have e' : ∀ i, -1 * v i * k x (xs i) = -(v i * k (xs i) x) := fun i => by rw [hk.symm x (xs i)]; ring
  simp only [Finset.sum_add_distrib, e, e', Finset.sum_neg_distrib] at h
  unfold errVar
  linarith

/-- The weights of the kriging prediction, with the multipliers of the trend. -/
theorem krig_weights (k : X → X → ℝ) (hk : ∀ x y, k x y = k y x) (f : X → Fin p → ℝ) (xs : Fin n → X)
    (hS : IsUnit (borderedMatrix (krigK k xs) (krigF f xs)).det) (x : X) :
    ∃ (w : Fin n → ℝ) (μ : Fin p → ℝ), Unbiased f xs x w ∧
      (∀ i, ∑ j, w j * k (xs i) (xs j) + ∑ l, μ l * f (xs i) l = k (xs i) x) ∧ krigVar k f xs x = errVar k xs x w ∧
      ∀ y, krigMean k f xs y x = ∑ i, w i * y i := by
  set S := borderedMatrix (krigK k xs) (krigF f xs) with hSd
  set v := S⁻¹ *ᵥ krigRhs k f xs x with hv
  have hSv : S *ᵥ v = krigRhs k f xs x := by rw [hv, mulVec_mulVec, mul_nonsing_inv _ hS, one_mulVec]
  have hrow : ∀ i, ∑ j, v (.inl j) * k (xs i) (xs j) + ∑ l, v (.inr l) * f (xs i) l = k (xs i) x := by
    intro i
    have := congrFun hSv (.inl i)
    rw [mulVec, dotProduct, Fintype.sum_sum_type] at this
    simp only [hSd, borderedMatrix, krigK, krigF, krigRhs, fromBlocks_apply₁₁, fromBlocks_apply₁₂, of_apply, Sum.elim_inl] at this
    rw [← this]
    congr 1 <;> exact Finset.sum_congr rfl fun j _ => mul_comm _ _
  have hub : Unbiased f xs x fun j => v (.inl j) := by
    intro l
    have := congrFun hSv (.inr l)
    rw [mulVec, dotProduct, Fintype.sum_sum_type] at this
    simp only [hSd, borderedMatrix, krigK, krigF, krigRhs, fromBlocks_apply₂₁, fromBlocks_apply₂₂, transpose_apply, of_apply, Sum.elim_inr,
      Matrix.zero_apply, zero_mul, Finset.sum_const_zero, add_zero] at this
    rw [← this]
    exact Finset.sum_congr rfl fun j _ => mul_comm _ _
  have hsymm : Sᵀ = S := by
    rw [hSd, borderedMatrix, fromBlocks_transpose, transpose_transpose, transpose_zero]
    congr 1
    ext i j
    simp [krigK, hk (xs j)]
  refine ⟨fun j => v (.inl j), fun l => v (.inr l), hub, hrow, ?_, fun y => ?_⟩
  · rw [krigVar, ← hSd, ← hv, dotProduct, Fintype.sum_sum_type]
    simp only [krigRhs, Sum.elim_inl, Sum.elim_inr]
    unfold errVar
    have h1 : ∑ i, ∑ j, v (.inl i) * v (.inl j) * k (xs i) (xs j) = ∑ i, v (.inl i) * k (xs i) x - ∑ l, f x l * v (.inr l) := by
      have : ∀ i, ∑ j, v (.inl i) * v (.inl j) * k (xs i) (xs j) = v (.inl i) * (k (xs i) x - ∑ l, v (.inr l) * f (xs i) l) := by
        intro i
        rw [← hrow i, add_sub_cancel_right, Finset.mul_sum]
        exact Finset.sum_congr rfl fun j _ => by ring
      simp only [this, mul_sub, Finset.sum_sub_distrib]
      congr 1
      simp only [Finset.mul_sum]
      rw [Finset.sum_comm]
      refine Finset.sum_congr rfl fun l _ => ?_
      rw [← hub l, Finset.sum_mul]
      exact Finset.sum_congr rfl fun i _ => by ring
    have h2 : ∑ i, k (xs i) x * v (.inl i) = ∑ i, v (.inl i) * k (xs i) x := Finset.sum_congr rfl fun i _ => mul_comm _ _
    rw [h1, h2]
    ring
  · rw [krigMean, ← hSd, dotProduct_mulVec, ← mulVec_transpose, transpose_nonsing_inv, hsymm, ← hv, dotProduct, Fintype.sum_sum_type]
    simp

/-- Kriging weights are the best unbiased ones. -/
theorem krigVar_best (k : X → X → ℝ) (hk : IsCovariance k) (f : X → Fin p → ℝ) (xs : Fin n → X)
    (hS : IsUnit (borderedMatrix (krigK k xs) (krigF f xs)).det) (x : X) (v : Fin n → ℝ) (hv : Unbiased f xs x v) :
    krigVar k f xs x ≤ errVar k xs x v := by
  obtain ⟨w, μ, hw, hrow, hvar, -⟩ := krig_weights k hk.symm f xs hS x
  rw [hvar]
  have hq := hk.nonneg n xs fun i => v i - w i
  have hz : ∑ i, (v i - w i) * ∑ l, μ l * f (xs i) l = 0 := by
    have : ∀ i, (v i - w i) * ∑ l, μ l * f (xs i) l = ∑ l, μ l * (v i * f (xs i) l - w i * f (xs i) l) := by
      intro i
      rw [Finset.mul_sum]
      exact Finset.sum_congr rfl fun l _ => by ring
    simp only [this]
    rw [Finset.sum_comm]
    refine Finset.sum_eq_zero fun l _ => ?_
    rw [← Finset.mul_sum, Finset.sum_sub_distrib, hv l, hw l, sub_self, mul_zero]
  have hcross : ∑ i, ∑ j, (v i - w i) * w j * k (xs i) (xs j) = ∑ i, (v i - w i) * k (xs i) x := by
    have : ∀ i, ∑ j, (v i - w i) * w j * k (xs i) (xs j) = (v i - w i) * k (xs i) x - (v i - w i) * ∑ l, μ l * f (xs i) l := by
      intro i
      rw [← mul_sub, ← hrow i, add_sub_cancel_right, Finset.mul_sum]
      exact Finset.sum_congr rfl fun j _ => by ring
    simp only [this, Finset.sum_sub_distrib, hz, sub_zero]
  have hsw : ∑ i, ∑ j, w i * (v j - w j) * k (xs i) (xs j) = ∑ i, ∑ j, (v i - w i) * w j * k (xs i) (xs j) := by
    rw [Finset.sum_comm]
    refine Finset.sum_congr rfl fun i _ => Finset.sum_congr rfl fun j _ => ?_
    rw [hk.symm (xs j) (xs i)]
    ring
  have hexp : ∑ i, ∑ j, v i * v j * k (xs i) (xs j) = ∑ i, ∑ j, w i * w j * k (xs i) (xs j)
      + ∑ i, ∑ j, (v i - w i) * w j * k (xs i) (xs j) + ∑ i, ∑ j, w i * (v j - w j) * k (xs i) (xs j)
      + ∑ i, ∑ j, (v i - w i) * (v j - w j) * k (xs i) (xs j) := by
    simp only [← Finset.sum_add_distrib]
    exact Finset.sum_congr rfl fun i _ => Finset.sum_congr rfl fun j _ => by ring
  unfold errVar
  rw [hexp, hsw, hcross]
  simp only [sub_mul, Finset.sum_sub_distrib] at hq ⊢
  linarith

/-- **C161, variances.**  The variance used in the simulation is never negative, so its square root is that of a true variance. -/
theorem C161_nonneg (k : X → X → ℝ) (hk : IsCovariance k) (f : X → Fin p → ℝ) (xs : Fin n → X)
    (hS : IsUnit (borderedMatrix (krigK k xs) (krigF f xs)).det) (x : X) : 0 ≤ krigVar k f xs x := by
  obtain ⟨w, -, -, -, hvar, -⟩ := krig_weights k hk.symm f xs hS x
  rw [hvar]
  exact errVar_nonneg k hk xs x w

/-- **C161, POD.**  When the simulated points are observed ones, every simulated trajectory takes the observed signals, whatever the draws: the POD law
of a trajectory only depends on the observed signals. -/
theorem C161_pod (k : X → X → ℝ) (hk : ∀ x y, k x y = k y x) (f : X → Fin p → ℝ) (xs : Fin n → X) (y : Fin n → ℝ)
    (hS : IsUnit (borderedMatrix (krigK k xs) (krigF f xs)).det) {m : ℕ} (obs : Fin m → Fin n) (xi : ℕ → ℝ) (det : ℝ) (t : ℕ) :
    let traj := randomVector xi (fun i => krigMean k f xs y (xs (obs i))) (fun i => krigVar k f xs (xs (obs i))) t
    (∀ i, traj i = y (obs i)) ∧ podLaw det (List.ofFn traj) = podLaw det (List.ofFn fun i => y (obs i)) ∧
    (0 < m → (∀ i, det < y (obs i)) → podLaw det (List.ofFn traj) = .dirac 1) ∧
    (0 < m → (∀ i, y (obs i) ≤ det) → podLaw det (List.ofFn traj) = .dirac 0) := by
  intro traj
  have h : ∀ i, traj i = y (obs i) := by
    intro i
    simp only [traj, randomVector]
    rw [C161_variance k f xs hS, C161_interpolates k hk f xs y hS, Real.sqrt_zero, mul_zero, zero_add]
  have h' : traj = fun i => y (obs i) := funext h
  refine ⟨h, by rw [h'], fun hm hall => ?_, fun hm hall => ?_⟩
  · have e : fracAbove det (List.ofFn traj) = 1 := by
      unfold fracAbove
      rw [List.countP_eq_length.2, List.length_ofFn, div_self (by exact_mod_cast hm.ne')]
      intro v hv
      obtain ⟨i, rfl⟩ := List.mem_ofFn.1 hv
      simpa [h i] using hall i
    simp [podLaw, e]
  · have e : fracAbove det (List.ofFn traj) = 0 := by
      unfold fracAbove
      rw [List.countP_eq_zero.2, Nat.cast_zero, zero_div]
      intro v hv
      obtain ⟨i, rfl⟩ := List.mem_ofFn.1 hv
      simpa [h i] using hall i
    simp [podLaw, e]

/-! ## C162 -/

/-- **C162, without the new normalisation.**  If the coordinates were kept, adding a point with its predicted signal would not change any prediction. -/
theorem C162_frozen_mean (k : X → X → ℝ) (hk : ∀ x y, k x y = k y x) (f : X → Fin p → ℝ) (xs : Fin n → X) (y : Fin n → ℝ) (c : X)
    (hS : IsUnit (borderedMatrix (krigK k xs) (krigF f xs)).det)
    (hS' : IsUnit (borderedMatrix (krigK k (Fin.snoc xs c : Fin (n + 1) → X)) (krigF f (Fin.snoc xs c : Fin (n + 1) → X))).det) (x : X) :
    krigMean k f (Fin.snoc xs c : Fin (n + 1) → X) (Fin.snoc y (krigMean k f xs y c) : Fin (n + 1) → ℝ) x = krigMean k f xs y x := by
  set S := borderedMatrix (krigK k xs) (krigF f xs) with hSd
  set v := S⁻¹ *ᵥ Sum.elim y 0 with hv
  have hSv : S *ᵥ v = Sum.elim y 0 := by rw [hv, mulVec_mulVec, mul_nonsing_inv _ hS, one_mulVec]
  set xs' := (Fin.snoc xs c : Fin (n + 1) → X) with hxs'
  set v' : Fin (n + 1) ⊕ Fin p → ℝ := Sum.elim (Fin.snoc (fun i => v (.inl i)) 0 : Fin (n + 1) → ℝ) fun l => v (.inr l) with hv'
  have hdot : ∀ z, krigRhs k f xs' z ⬝ᵥ v' = krigRhs k f xs z ⬝ᵥ v := by
    intro z
    rw [dotProduct, dotProduct, Fintype.sum_sum_type, Fintype.sum_sum_type, Fin.sum_univ_castSucc]
    simp [krigRhs, hv', hxs']
  have hmean : ∀ z, krigRhs k f xs z ⬝ᵥ v = krigMean k f xs y z := fun z => rfl
  have hsol : borderedMatrix (krigK k xs') (krigF f xs') *ᵥ v' = Sum.elim (Fin.snoc y (krigMean k f xs y c) : Fin (n + 1) → ℝ) 0 := by
    funext j
    cases j with
    | inl j =>
      rw [bordered_obs k hk f xs' v' j, hdot]
      refine Fin.lastCases ?_ (fun i => ?_) j
      · simp only [hxs', Fin.snoc_last, Sum.elim_inl]
        rfl
      · simp only [hxs', Fin.snoc_castSucc, Sum.elim_inl]
        rw [← bordered_obs k hk f xs v i, ← hSd, hSv, Sum.elim_inl]
    | inr l =>
      have := congrFun hSv (.inr l)
      rw [mulVec, dotProduct, Fintype.sum_sum_type] at this
      rw [mulVec, dotProduct, Fintype.sum_sum_type, Fin.sum_univ_castSucc]
      simpa [hSd, borderedMatrix, krigF, hv', hxs'] using this
  rw [krigMean, ← hsol, mulVec_mulVec, nonsing_inv_mul _ hS', one_mulVec, hdot, hmean]

/-- **C162, without the new normalisation.**  If the coordinates were kept, adding a point would increase no variance. -/
theorem C162_frozen_variance (k : X → X → ℝ) (hk : IsCovariance k) (f : X → Fin p → ℝ) (xs : Fin n → X) (c : X)
    (hS : IsUnit (borderedMatrix (krigK k xs) (krigF f xs)).det)
    (hS' : IsUnit (borderedMatrix (krigK k (Fin.snoc xs c : Fin (n + 1) → X)) (krigF f (Fin.snoc xs c : Fin (n + 1) → X))).det) (x : X) :
    krigVar k f (Fin.snoc xs c : Fin (n + 1) → X) x ≤ krigVar k f xs x := by
  obtain ⟨w, -, hw, -, hvar, -⟩ := krig_weights k hk.symm f xs hS x
  rw [hvar]
  have h := krigVar_best k hk f (Fin.snoc xs c : Fin (n + 1) → X) hS' x (Fin.snoc w 0 : Fin (n + 1) → ℝ) (by
    intro l
    rw [Fin.sum_univ_castSucc]
    simpa using hw l)
  refine h.trans (le_of_eq ?_)
  unfold errVar
  simp only [Fin.sum_univ_castSucc, Fin.snoc_castSucc, Fin.snoc_last, zero_mul, mul_zero, add_zero, Finset.sum_const_zero]

/-- **C162, what holds for the temporary model.**  It still goes through the observations and through the predicted signal of its candidate, and is certain
there. -/
theorem C162_temporary_partial (k : (Fin d → ℝ) → (Fin d → ℝ) → ℝ) (hk : ∀ x y, k x y = k y x) (f : (Fin d → ℝ) → Fin p → ℝ)
    (sample : Fin n → Fin d → ℝ) (y : Fin n → ℝ) (c : Fin d → ℝ)
    (hS : IsUnit (borderedMatrix
      (krigK k fun i => normalise (Fin.snoc sample c : Fin (n + 1) → Fin d → ℝ) ((Fin.snoc sample c : Fin (n + 1) → Fin d → ℝ) i))
      (krigF f fun i => normalise (Fin.snoc sample c : Fin (n + 1) → Fin d → ℝ) ((Fin.snoc sample c : Fin (n + 1) → Fin d → ℝ) i))).det) :
    (∀ i, tempMean k f sample y c (sample i) = y i ∧ tempVar k f sample c (sample i) = 0) ∧
    tempMean k f sample y c c = designMean k f sample y c ∧ tempVar k f sample c c = 0 := by
  have hmean := C161_interpolates k hk f _ (Fin.snoc y (designMean k f sample y c) : Fin (n + 1) → ℝ) hS
  have hvar := C161_variance k f _ hS
  refine ⟨fun i => ⟨?_, ?_⟩, ?_, ?_⟩
  · simpa only [tempMean, designMean, Fin.snoc_castSucc] using hmean i.castSucc
  · simpa only [tempVar, designVar, Fin.snoc_castSucc] using hvar i.castSucc
  · simpa only [tempMean, designMean, Fin.snoc_last] using hmean (Fin.last n)
  · simpa only [tempVar, designVar, Fin.snoc_last] using hvar (Fin.last n)

/-- **C162, cause.**  Whatever the candidate, the coordinates of the temporary model are not those of the current one: in a column that is not constant, adding
a value changes the mean or the variance. -/
theorem C162_coordinates (col : Fin n → ℝ) (hv : svar col ≠ 0) (hn : 2 ≤ n) (c : ℝ) :
    (smean (Fin.snoc col c : Fin (n + 1) → ℝ)) ≠ smean col ∨ svar (Fin.snoc col c : Fin (n + 1) → ℝ) ≠ svar col := by
  by_contra hcon
  push Not at hcon
  obtain ⟨h1, h2⟩ := hcon
  have hn0 : (0 : ℝ) < n := by exact_mod_cast (by omega : 0 < n)
  have hn1 : (0 : ℝ) < n - 1 := by
    have : (2 : ℝ) ≤ n := by exact_mod_cast hn
    linarith
  have hc : c = smean col := by
    have h := h1
    rw [smean, smean, Fin.sum_univ_castSucc] at h
    simp only [Fin.snoc_castSucc, Fin.snoc_last, Nat.cast_add, Nat.cast_one] at h
    rw [div_eq_div_iff (by positivity) hn0.ne'] at h
    rw [smean, eq_div_iff hn0.ne']
    linarith
  rw [svar, svar, h1, Fin.sum_univ_castSucc] at h2
  simp only [Fin.snoc_castSucc, Fin.snoc_last, Nat.cast_add, Nat.cast_one, hc, sub_self] at h2
  have hS0 : ∑ i, (col i - smean col) ^ 2 ≠ 0 := by
    intro h0
    exact hv (by rw [svar, h0, zero_div])
  rw [div_eq_div_iff (by rw [add_sub_cancel_right]; exact hn0.ne') hn1.ne'] at h2
  have : ∑ i, (col i - smean col) ^ 2 = 0 := by nlinarith
  exact hS0 this

/-! ### The exponential covariance model -/

/-- The exponential covariance model of scale `θ` in dimension 1 (`ot.AbsoluteExponential([θ])`, amplitude 1). -/
noncomputable def expCov (θ : ℝ) (z z' : Fin 1 → ℝ) : ℝ := Real.exp (-|z 0 - z' 0| / θ)

open MeasureTheory in
theorem min_nonneg_form (m : ℕ) (a c : Fin m → ℝ) (ha : ∀ i, 0 ≤ a i) : 0 ≤ ∑ i, ∑ j, c i * c j * min (a i) (a j) := by
  let g : Fin m → ℝ → ℝ := fun i => (Set.Ioc 0 (a i)).indicator fun _ => 1
  have hg : ∀ i j, (fun u => g i u * g j u) = (Set.Ioc 0 (min (a i) (a j))).indicator fun _ => (1 : ℝ) := by
    intro i j
    funext u
    by_cases h1 : u ∈ Set.Ioc 0 (a i) <;> by_cases h2 : u ∈ Set.Ioc 0 (a j)
    · simp only [g, Set.indicator_of_mem h1, Set.indicator_of_mem h2, mul_one]
      rw [Set.indicator_of_mem (show u ∈ Set.Ioc 0 (min (a i) (a j)) from Set.mem_Ioc.2 ⟨h1.1, le_min h1.2 h2.2⟩)]
    · simp only [g, Set.indicator_of_notMem h2, mul_zero]
      rw [Set.indicator_of_notMem fun h => h2 ⟨h.1, h.2.trans (min_le_right _ _)⟩]
    · simp only [g, Set.indicator_of_notMem h1, zero_mul]
      rw [Set.indicator_of_notMem fun h => h1 ⟨h.1, h.2.trans (min_le_left _ _)⟩]
    · simp only [g, Set.indicator_of_notMem h1, zero_mul]
      rw [Set.indicator_of_notMem fun h => h1 ⟨h.1, h.2.trans (min_le_left _ _)⟩]
  have hint : ∀ i j, Integrable fun u => g i u * g j u := by
    intro i j
    rw [hg]
    exact (integrable_indicator_iff measurableSet_Ioc).2 (by simp)
  have hval : ∀ i j, ∫ u, g i u * g j u = min (a i) (a j) := by
    intro i j
    rw [hg, integral_indicator measurableSet_Ioc]
    simp [le_min (ha i) (ha j)]
  have : ∑ i, ∑ j, c i * c j * min (a i) (a j) = ∫ u, (∑ i, c i * g i u) ^ 2 := by
    have e : ∀ u, (∑ i, c i * g i u) ^ 2 = ∑ i, ∑ j, c i * c j * (g i u * g j u) := by
      intro u
      rw [sq, Finset.sum_mul_sum]
      exact Finset.sum_congr rfl fun i _ => Finset.sum_congr rfl fun j _ => by ring
    simp only [e]
    rw [integral_finsetSum _ fun i _ => integrable_finsetSum _ fun j _ => (hint i j).const_mul _]
    refine Finset.sum_congr rfl fun i _ => ?_
    rw [integral_finsetSum _ fun j _ => (hint i j).const_mul _]
    refine Finset.sum_congr rfl fun j _ => ?_
    rw [integral_const_mul, hval]
  rw [this]
  exact integral_nonneg fun u => sq_nonneg _

theorem expCov_isCovariance (θ : ℝ) (hθ : 0 < θ) : IsCovariance (expCov θ) where
  symm x y := by rw [expCov, expCov, abs_sub_comm]
  nonneg m xs c := by
    have h := min_nonneg_form m (fun i => Real.exp (2 * xs i 0 / θ)) (fun i => c i * Real.exp (-(xs i 0) / θ)) fun i => (Real.exp_pos _).le
    refine h.trans (le_of_eq (Finset.sum_congr rfl fun i _ => Finset.sum_congr rfl fun j _ => ?_))
    have hmin : min (Real.exp (2 * xs i 0 / θ)) (Real.exp (2 * xs j 0 / θ)) = Real.exp (2 * min (xs i 0) (xs j 0) / θ) := by
      rcases le_total (xs i 0) (xs j 0) with hle | hle
      · rw [min_eq_left hle, min_eq_left (Real.exp_le_exp.2 (by gcongr))]
      · rw [min_eq_right hle, min_eq_right (Real.exp_le_exp.2 (by gcongr))]
    rw [hmin, expCov]
    have : Real.exp (-|xs i 0 - xs j 0| / θ) = Real.exp (-(xs i 0) / θ) * Real.exp (-(xs j 0) / θ) * Real.exp (2 * min (xs i 0) (xs j 0) / θ) := by
      rw [← Real.exp_add, ← Real.exp_add]
      congr 1
      rcases le_total (xs i 0) (xs j 0) with hle | hle
      · rw [min_eq_left hle, abs_of_nonpos (by linarith)]; ring
      · rw [min_eq_right hle, abs_of_nonneg (by linarith)]; ring
    rw [this]
    ring

/-- The constant trend. -/
def constTrend {X : Type} (_ : X) (_ : Fin 1) : ℝ := 1

theorem krigMean_of_sol (k : X → X → ℝ) (f : X → Fin p → ℝ) (xs : Fin n → X) (y : Fin n → ℝ)
    (hS : IsUnit (borderedMatrix (krigK k xs) (krigF f xs)).det) (v : Fin n ⊕ Fin p → ℝ)
    (hv : borderedMatrix (krigK k xs) (krigF f xs) *ᵥ v = Sum.elim y 0) (x : X) : krigMean k f xs y x = krigRhs k f xs x ⬝ᵥ v := by
  rw [krigMean, ← hv, mulVec_mulVec, nonsing_inv_mul _ hS, one_mulVec]

theorem constTrend_injective (xs : Fin (n + 1) → X) : Function.Injective (krigF constTrend xs).mulVec := by
  intro u v h
  have := congrFun h 0
  simp only [mulVec, dotProduct, krigF, of_apply, constTrend, one_mul, Finset.univ_unique, Finset.sum_singleton] at this
  funext i
  rw [Subsingleton.elim i default]
  exact this

/-- Two points at distance `r`. -/
theorem exp_two (θ r : ℝ) (hθ : 0 < θ) (hr : 0 < r) (xs : Fin 2 → Fin 1 → ℝ) (h0 : xs 0 0 = -r / 2) (h1 : xs 1 0 = r / 2) :
    IsUnit (borderedMatrix (krigK (expCov θ) xs) (krigF constTrend xs)).det ∧
    ∀ x : Fin 1 → ℝ, krigMean (expCov θ) constTrend xs ![0, 1] x =
      1 / 2 + (Real.exp (-|x 0 - r / 2| / θ) - Real.exp (-|x 0 + r / 2| / θ)) / (2 * (1 - Real.exp (-r / θ))) := by
  set a := Real.exp (-r / θ) with ha
  have ha1 : a < 1 := by rw [ha, Real.exp_lt_one_iff]; exact div_neg_of_neg_of_pos (by linarith) hθ
  have ha0 : 0 < a := Real.exp_pos _
  have k00 : expCov θ (xs 0) (xs 0) = 1 := by simp [expCov]
  have k11 : expCov θ (xs 1) (xs 1) = 1 := by simp [expCov]
  have k01 : expCov θ (xs 0) (xs 1) = a := by
    rw [expCov, h0, h1, ha, show -r / 2 - r / 2 = -r by ring, abs_neg, abs_of_pos hr]
  have k10 : expCov θ (xs 1) (xs 0) = a := by rw [(expCov_isCovariance θ hθ).symm, k01]
  have hS : IsUnit (borderedMatrix (krigK (expCov θ) xs) (krigF constTrend xs)).det := by
    refine bordered_isUnit _ _ (fun c hc => ?_) (constTrend_injective xs)
    simp only [dotProduct, mulVec, krigK, of_apply, Fin.sum_univ_two, k00, k01, k10, k11] at hc
    have e : (c 0 + a * c 1) ^ 2 + (1 - a ^ 2) * c 1 ^ 2 = 0 := by linarith
    have ha2 : 0 < 1 - a ^ 2 := by nlinarith
    have e1 : c 1 = 0 := by
      by_contra hne
      have := mul_pos ha2 (pow_pos (abs_pos.2 hne) 2)
      rw [sq_abs] at this
      nlinarith [sq_nonneg (c 0 + a * c 1)]
    have e0 : c 0 = 0 := by rw [e1] at e; simpa using e
    funext i
    fin_cases i
    · exact e0
    · exact e1
  refine ⟨hS, fun x => ?_⟩
  have hne : 1 - a ≠ 0 := by linarith
  rw [krigMean_of_sol _ _ _ _ hS (Sum.elim ![-(1 / (2 * (1 - a))), 1 / (2 * (1 - a))] ![1 / 2]) ?_]
  · rw [dotProduct, Fintype.sum_sum_type, Fin.sum_univ_two]
    have b0 : expCov θ (xs 0) x = Real.exp (-|x 0 + r / 2| / θ) := by
      rw [expCov, h0, abs_sub_comm]; congr 4; ring
    have b1 : expCov θ (xs 1) x = Real.exp (-|x 0 - r / 2| / θ) := by
      rw [expCov, h1, abs_sub_comm]
    simp only [krigRhs, Sum.elim_inl, Sum.elim_inr, b0, b1, constTrend, Finset.univ_unique, Finset.sum_singleton, cons_val_zero, cons_val_one,
      Fin.default_eq_zero]
    field_simp
    ring
  · funext j
    rcases j with j | j
    · rw [mulVec, dotProduct, Fintype.sum_sum_type, Fin.sum_univ_two]
      fin_cases j
      · simp [borderedMatrix, krigK, krigF, constTrend, k00, k01]; field_simp; ring
      · simp [borderedMatrix, krigK, krigF, constTrend, k11, k10]; field_simp; ring
    · rw [mulVec, dotProduct, Fintype.sum_sum_type, Fin.sum_univ_two]
      simp [borderedMatrix, krigF, constTrend]

/-- The two points and their midpoint, at distance `r`. -/
theorem exp_three (θ r : ℝ) (hθ : 0 < θ) (hr : 0 < r) (xs : Fin 3 → Fin 1 → ℝ) (h0 : xs 0 0 = -r) (h1 : xs 1 0 = r) (h2 : xs 2 0 = 0) :
    IsUnit (borderedMatrix (krigK (expCov θ) xs) (krigF constTrend xs)).det ∧
    ∀ x : Fin 1 → ℝ, krigMean (expCov θ) constTrend xs ![0, 1, 1 / 2] x =
      1 / 2 + (Real.exp (-|x 0 - r| / θ) - Real.exp (-|x 0 + r| / θ)) / (2 * (1 - Real.exp (-r / θ) ^ 2)) := by
  set b := Real.exp (-r / θ) with hb
  have hb1 : b < 1 := by rw [hb, Real.exp_lt_one_iff]; exact div_neg_of_neg_of_pos (by linarith) hθ
  have hb0 : 0 < b := Real.exp_pos _
  have k00 : ∀ i, expCov θ (xs i) (xs i) = 1 := fun i => by simp [expCov]
  have k01 : expCov θ (xs 0) (xs 1) = b ^ 2 := by
    rw [expCov, h0, h1, hb, show -r - r = -(2 * r) by ring, abs_neg, abs_of_pos (by linarith), ← Real.exp_nat_mul]; congr 1; push_cast; ring
  have k02 : expCov θ (xs 0) (xs 2) = b := by rw [expCov, h0, h2, hb, sub_zero, abs_neg, abs_of_pos hr]
  have k12 : expCov θ (xs 1) (xs 2) = b := by rw [expCov, h1, h2, hb, sub_zero, abs_of_pos hr]
  have k10 : expCov θ (xs 1) (xs 0) = b ^ 2 := by rw [(expCov_isCovariance θ hθ).symm, k01]
  have k20 : expCov θ (xs 2) (xs 0) = b := by rw [(expCov_isCovariance θ hθ).symm, k02]
  have k21 : expCov θ (xs 2) (xs 1) = b := by rw [(expCov_isCovariance θ hθ).symm, k12]
  have hb2 : 0 < 1 - b ^ 2 := by nlinarith
  have hS : IsUnit (borderedMatrix (krigK (expCov θ) xs) (krigF constTrend xs)).det := by
    refine bordered_isUnit _ _ (fun c hc => ?_) (constTrend_injective xs)
    simp only [dotProduct, mulVec, krigK, of_apply, Fin.sum_univ_three, k00, k01, k02, k10, k12, k20, k21] at hc
    have e : (c 2 + b * c 0 + b * c 1) ^ 2 + (1 - b ^ 2) * c 0 ^ 2 + (1 - b ^ 2) * c 1 ^ 2 = 0 := by linarith
    have e0 : c 0 = 0 := by
      by_contra hne
      have := mul_pos hb2 (pow_pos (abs_pos.2 hne) 2)
      rw [sq_abs] at this
      nlinarith [sq_nonneg (c 2 + b * c 0 + b * c 1), mul_nonneg hb2.le (sq_nonneg (c 1))]
    have e1 : c 1 = 0 := by
      by_contra hne
      have := mul_pos hb2 (pow_pos (abs_pos.2 hne) 2)
      rw [sq_abs] at this
      nlinarith [sq_nonneg (c 2 + b * c 0 + b * c 1), mul_nonneg hb2.le (sq_nonneg (c 0))]
    have e2 : c 2 = 0 := by rw [e0, e1] at e; simpa using e
    funext i
    fin_cases i
    · exact e0
    · exact e1
    · exact e2
  refine ⟨hS, fun x => ?_⟩
  have hne : 1 - b ^ 2 ≠ 0 := hb2.ne'
  rw [krigMean_of_sol _ _ _ _ hS (Sum.elim ![-(1 / (2 * (1 - b ^ 2))), 1 / (2 * (1 - b ^ 2)), 0] ![1 / 2]) ?_]
  · rw [dotProduct, Fintype.sum_sum_type, Fin.sum_univ_three]
    have c0 : expCov θ (xs 0) x = Real.exp (-|x 0 + r| / θ) := by
      rw [expCov, h0, abs_sub_comm]; congr 4; ring
    have c1 : expCov θ (xs 1) x = Real.exp (-|x 0 - r| / θ) := by
      rw [expCov, h1, abs_sub_comm]
    simp only [krigRhs, Sum.elim_inl, Sum.elim_inr, c0, c1, constTrend, Finset.univ_unique, Finset.sum_singleton, cons_val_zero, cons_val_one,
      Fin.default_eq_zero, cons_val]
    field_simp
    ring
  · funext j
    rcases j with j | j
    · rw [mulVec, dotProduct, Fintype.sum_sum_type, Fin.sum_univ_three]
      fin_cases j
      · simp [borderedMatrix, krigK, krigF, constTrend, k00, k01]; field_simp; ring
      · simp [borderedMatrix, krigK, krigF, constTrend, k00, k10]; field_simp; ring
      · simp [borderedMatrix, krigK, krigF, constTrend, k20, k21]
    · rw [mulVec, dotProduct, Fintype.sum_sum_type, Fin.sum_univ_three]
      simp [borderedMatrix, krigF, constTrend]

/-- **C162 violated.**  Exponential covariance of any scale, constant trend, signals 0 and 1 at the sizes 0 and 1: the current model predicts
`1/2 + e^(-√2/θ)/2` at the size 2; with the candidate 1/2 and its predicted signal 1/2 the temporary model predicts `1/2 + e^(-2/θ)/2` there,
because the new normalisation shortens the correlation length. -/
theorem C162_violated (θ : ℝ) (hθ : 0 < θ) :
    let sample : Fin 2 → Fin 1 → ℝ := ![![0], ![1]]
    designMean (expCov θ) constTrend sample ![0, 1] ![1 / 2] = 1 / 2 ∧
    designMean (expCov θ) constTrend sample ![0, 1] ![2] = 1 / 2 + Real.exp (-Real.sqrt 2 / θ) / 2 ∧
    tempMean (expCov θ) constTrend sample ![0, 1] ![1 / 2] ![2] = 1 / 2 + Real.exp (-2 / θ) / 2 ∧
    tempMean (expCov θ) constTrend sample ![0, 1] ![1 / 2] ![2] ≠ designMean (expCov θ) constTrend sample ![0, 1] ![2] ∧
    tempMean (expCov θ) constTrend sample ![0, 1] ![1 / 2] ![1 / 2] = 1 / 2 := by
  intro sample
  have hsm : smean (fun i => sample i 0) = 1 / 2 := by
    rw [smean, Fin.sum_univ_two, show sample 0 0 = 0 from rfl, show sample 1 0 = 1 from rfl]; norm_num
  have hsv : svar (fun i => sample i 0) = 1 / 2 := by
    rw [svar, hsm, Fin.sum_univ_two, show sample 0 0 = 0 from rfl, show sample 1 0 = 1 from rfl]; norm_num
  have h2 : 0 < Real.sqrt 2 := by positivity
  have hsq : Real.sqrt 2 ^ 2 = 2 := Real.sq_sqrt (by norm_num)
  have hroot : Real.sqrt (1 / 2) = Real.sqrt 2 / 2 := by
    rw [Real.sqrt_eq_iff_mul_self_eq (by norm_num) (by positivity)]; nlinarith
  have hfac : normFactor (fun i => sample i 0) = Real.sqrt 2 := by
    rw [normFactor, hsv, hroot, if_pos, one_div_div]
    · rw [div_eq_iff h2.ne']; nlinarith
    · rw [abs_of_pos (by positivity)]
      have : (1 : ℝ) ≤ Real.sqrt 2 := by nlinarith
      linarith
  have hz : ∀ x : Fin 1 → ℝ, normalise sample x 0 = Real.sqrt 2 * (x 0 - 1 / 2) := fun x => by rw [normalise, hfac, hsm]
  obtain ⟨-, hmean⟩ := exp_two θ (Real.sqrt 2) hθ h2 (fun i => normalise sample (sample i))
    (by rw [hz]; simp [sample]; ring) (by rw [hz]; simp [sample]; ring)
  have m1 : designMean (expCov θ) constTrend sample ![0, 1] ![1 / 2] = 1 / 2 := by
    rw [designMean, hmean, hz]
    simp
  have m2 : designMean (expCov θ) constTrend sample ![0, 1] ![2] = 1 / 2 + Real.exp (-Real.sqrt 2 / θ) / 2 := by
    rw [designMean, hmean, hz]
    have e1 : Real.sqrt 2 * ((![2] : Fin 1 → ℝ) 0 - 1 / 2) - Real.sqrt 2 / 2 = Real.sqrt 2 := by simp; ring
    have e2 : Real.sqrt 2 * ((![2] : Fin 1 → ℝ) 0 - 1 / 2) + Real.sqrt 2 / 2 = 2 * Real.sqrt 2 := by simp; ring
    rw [e1, e2, abs_of_pos h2, abs_of_pos (by positivity)]
    have e3 : Real.exp (-(2 * Real.sqrt 2) / θ) = Real.exp (-Real.sqrt 2 / θ) ^ 2 := by
      rw [← Real.exp_nat_mul]; congr 1; push_cast; ring
    rw [e3]
    have hlt : Real.exp (-Real.sqrt 2 / θ) < 1 := by
      rw [Real.exp_lt_one_iff]; exact div_neg_of_neg_of_pos (by linarith) hθ
    have hne : 1 - Real.exp (-Real.sqrt 2 / θ) ≠ 0 := by linarith
    generalize Real.exp (-Real.sqrt 2 / θ) = E at hne
    field_simp
  have hsn : (Fin.snoc sample ![1 / 2] : Fin 3 → Fin 1 → ℝ) = ![![0], ![1], ![1 / 2]] := by
    funext i; fin_cases i <;> rfl
  have hyn : (Fin.snoc (![0, 1] : Fin 2 → ℝ) (1 / 2) : Fin 3 → ℝ) = ![0, 1, 1 / 2] := by
    funext i; fin_cases i <;> rfl
  set sample' : Fin 3 → Fin 1 → ℝ := ![![0], ![1], ![1 / 2]] with hs'
  have hsm' : smean (fun i => sample' i 0) = 1 / 2 := by
    rw [smean, Fin.sum_univ_three, show sample' 0 0 = 0 from rfl, show sample' 1 0 = 1 from rfl, show sample' 2 0 = 1 / 2 from rfl]; norm_num
  have hsv' : svar (fun i => sample' i 0) = 1 / 4 := by
    rw [svar, hsm', Fin.sum_univ_three, show sample' 0 0 = 0 from rfl, show sample' 1 0 = 1 from rfl, show sample' 2 0 = 1 / 2 from rfl]; norm_num
  have hroot' : Real.sqrt (1 / 4) = 1 / 2 := by
    rw [Real.sqrt_eq_iff_mul_self_eq (by norm_num) (by positivity)]; norm_num
  have hfac' : normFactor (fun i => sample' i 0) = 2 := by
    rw [normFactor, hsv', hroot', if_pos] <;> norm_num
  have hz' : ∀ x : Fin 1 → ℝ, normalise sample' x 0 = 2 * (x 0 - 1 / 2) := fun x => by rw [normalise, hfac', hsm']
  obtain ⟨hS', hmean'⟩ := exp_three θ 1 hθ one_pos (fun i => normalise sample' (sample' i))
    (by rw [hz']; simp [sample']) (by rw [hz']; simp [sample']; norm_num) (by rw [hz']; simp [sample'])
  have m3 : tempMean (expCov θ) constTrend sample ![0, 1] ![1 / 2] ![2] = 1 / 2 + Real.exp (-2 / θ) / 2 := by
    rw [tempMean, m1, hsn, hyn, designMean, hmean', hz']
    have e1 : (2 : ℝ) * ((![2] : Fin 1 → ℝ) 0 - 1 / 2) - 1 = 2 := by simp; norm_num
    have e2 : (2 : ℝ) * ((![2] : Fin 1 → ℝ) 0 - 1 / 2) + 1 = 4 := by simp; norm_num
    rw [e1, e2, abs_of_pos two_pos, abs_of_pos four_pos]
    have e3 : Real.exp (-4 / θ) = Real.exp (-2 / θ) ^ 2 := by
      rw [← Real.exp_nat_mul]; congr 1; push_cast; ring
    have e4 : Real.exp (-1 / θ) ^ 2 = Real.exp (-2 / θ) := by
      rw [← Real.exp_nat_mul]; congr 1; push_cast; ring
    rw [e3, e4]
    have hlt : Real.exp (-2 / θ) < 1 := by
      rw [Real.exp_lt_one_iff]; exact div_neg_of_neg_of_pos (by norm_num) hθ
    have hne : 1 - Real.exp (-2 / θ) ≠ 0 := by linarith
    generalize Real.exp (-2 / θ) = E at hne
    field_simp
  have m4 := (C162_temporary_partial (expCov θ) (expCov_isCovariance θ hθ).symm constTrend sample ![0, 1] ![1 / 2]
    (by rw [hsn]; exact hS')).2.1
  refine ⟨m1, m2, m3, ?_, m4.trans m1⟩
  rw [m2, m3]
  intro h
  have h' : Real.exp (-2 / θ) = Real.exp (-Real.sqrt 2 / θ) := by linarith
  have h'' := Real.exp_injective h'
  rw [div_left_inj' hθ.ne'] at h''
  nlinarith

/-- The hypotheses of C161: two observations with the exponential covariance. -/
example : krigMean (expCov 1) constTrend ![![-1 / 2], ![1 / 2]] ![0, 1] ![1 / 2] = 1 ∧
    krigVar (expCov 1) constTrend ![![-1 / 2], ![1 / 2]] ![1 / 2] = 0 ∧ 0 ≤ krigVar (expCov 1) constTrend ![![-1 / 2], ![1 / 2]] ![5] := by
  obtain ⟨hS, -⟩ := exp_two 1 1 one_pos one_pos ![![-1 / 2], ![1 / 2]] rfl rfl
  exact ⟨C161_interpolates _ (expCov_isCovariance 1 one_pos).symm _ _ _ hS 1, C161_variance _ _ _ hS 1,
    C161_nonneg _ (expCov_isCovariance 1 one_pos) _ _ hS _⟩

/-- The hypotheses of the temporary model and of the frozen coordinates: points -1 and 1 with the candidate 0. -/
example : (∀ x, krigMean (expCov 1) constTrend (Fin.snoc ![![-2 / 2], ![2 / 2]] ![0] : Fin 3 → Fin 1 → ℝ)
      (Fin.snoc ![0, 1] (krigMean (expCov 1) constTrend ![![-2 / 2], ![2 / 2]] ![0, 1] ![0]) : Fin 3 → ℝ) x =
      krigMean (expCov 1) constTrend ![![-2 / 2], ![2 / 2]] ![0, 1] x) ∧
    ∀ x, krigVar (expCov 1) constTrend (Fin.snoc ![![-2 / 2], ![2 / 2]] ![0] : Fin 3 → Fin 1 → ℝ) x ≤
      krigVar (expCov 1) constTrend ![![-2 / 2], ![2 / 2]] x := by
  obtain ⟨hS, -⟩ := exp_two 1 2 one_pos two_pos ![![-2 / 2], ![2 / 2]] rfl rfl
  have hsn : (Fin.snoc ![![-2 / 2], ![2 / 2]] ![0] : Fin 3 → Fin 1 → ℝ) = ![![-2 / 2], ![2 / 2], ![0]] := by
    funext i; fin_cases i <;> rfl
  obtain ⟨hS', -⟩ := exp_three 1 1 one_pos one_pos (Fin.snoc ![![-2 / 2], ![2 / 2]] ![0] : Fin 3 → Fin 1 → ℝ)
    (by rw [hsn]; norm_num) (by rw [hsn]; norm_num) (by rw [hsn]; rfl)
  exact ⟨fun x => C162_frozen_mean _ (expCov_isCovariance 1 one_pos).symm _ _ _ _ hS hS' x,
    fun x => C162_frozen_variance _ (expCov_isCovariance 1 one_pos) _ _ _ hS hS' x⟩

/-- A column that is not constant. -/
example : svar ![(0 : ℝ), 1] ≠ 0 := by norm_num [svar, smean, Fin.sum_univ_two]

end Verif.Props
