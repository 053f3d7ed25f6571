import Verif.Model.Loo
import Verif.Props.Loo
import Verif.Props.ResidualVar

/-!
# C124: kriging and the units of measurement
-/

namespace Verif.Props
open Verif.Py Verif.Model Matrix

variable {n p d : ℕ}

/-- Change of units of the inputs: factor and offset of each column. -/
def rescale (a b : Fin d → ℝ) (x : Fin d → ℝ) : Fin d → ℝ := fun j => a j * x j + b j

theorem svar_affine (hn : n ≠ 0) (x : Fin n → ℝ) (k t : ℝ) : svar (fun i => k * x i + t) = k ^ 2 * svar x := by
  simp only [svar]
  rw [smean_affine hn]
  rw [← mul_div_assoc, Finset.mul_sum]
  congr 1
  exact Finset.sum_congr rfl fun i _ => by ring

theorem normalise_rescale (hn : n ≠ 0) (sample : Fin n → Fin d → ℝ) (a b : Fin d → ℝ) (j : Fin d) (ha : 0 < a j)
    (h1 : 1e-12 < Real.sqrt (svar fun i => sample i j)) (h2 : 1e-12 < a j * Real.sqrt (svar fun i => sample i j))
    (x : Fin d → ℝ) : normalise (fun i => rescale a b (sample i)) (rescale a b x) j = normalise sample x j := by
  have hs : Real.sqrt (svar fun i => rescale a b (sample i) j) = a j * Real.sqrt (svar fun i => sample i j) := by
    simp only [rescale]
    rw [svar_affine hn, Real.sqrt_mul (sq_nonneg _), Real.sqrt_sq ha.le]
  have hpos : 0 < Real.sqrt (svar fun i => sample i j) := lt_trans (by norm_num) h1
  simp only [normalise, normFactor]
  rw [hs, if_pos (by rw [abs_of_pos (mul_pos ha hpos)]; exact h2), if_pos (by rw [abs_of_pos hpos]; exact h1)]
  have hm : smean (fun i => rescale a b (sample i) j) = a j * smean (fun i => sample i j) + b j := smean_affine hn _ _ _
  rw [hm]
  simp only [rescale]
  field_simp
  ring

/-- **C124, inputs (restricted).**  Expressing the inputs in other units (any positive factors, any offsets) does not change the
predictions at corresponding points, nor the normalised design on which Q2 is computed, whatever the regression, as long as the
standard deviation of every column is above 1e-12 in both systems of units.  Missing: columns with a smaller deviation. -/
theorem C124_inputs_partial (hn : n ≠ 0) (fit : (Fin n → Fin d → ℝ) → (Fin n → ℝ) → (Fin d → ℝ) → ℝ)
    (sample : Fin n → Fin d → ℝ) (y : Fin n → ℝ) (a b : Fin d → ℝ) (ha : ∀ j, 0 < a j)
    (h1 : ∀ j, 1e-12 < Real.sqrt (svar fun i => sample i j)) (h2 : ∀ j, 1e-12 < a j * Real.sqrt (svar fun i => sample i j))
    (x : Fin d → ℝ) :
    metamodelOf fit (fun i => rescale a b (sample i)) y (rescale a b x) = metamodelOf fit sample y x ∧
    (fun i => normalise (fun i => rescale a b (sample i)) (rescale a b (sample i))) = fun i => normalise sample (sample i) := by
  have h : ∀ x, normalise (fun i => rescale a b (sample i)) (rescale a b x) = normalise sample x :=
    fun x => funext fun j => normalise_rescale hn sample a b j (ha j) (h1 j) (h2 j) x
  refine ⟨?_, funext fun i => h _⟩
  unfold metamodelOf
  rw [h, show (fun i => normalise (fun i => rescale a b (sample i)) (rescale a b (sample i))) =
    fun i => normalise sample (sample i) from funext fun i => h _]

/-- **C124 is violated** for the inputs: when the deviation of a column is not above 1e-12 in either system of units (in particular
for a parameter that is constant in the design) the column is not scaled, so the normalised coordinate of a point is multiplied by
the factor of units; then a regression that looks at that coordinate predicts something else. -/
theorem C124_violated (hn : n ≠ 0) (sample : Fin n → Fin d → ℝ) (a b : Fin d → ℝ) (j : Fin d) (ha : 0 < a j) (ha1 : a j ≠ 1)
    (h1 : Real.sqrt (svar fun i => sample i j) ≤ 1e-12) (h2 : a j * Real.sqrt (svar fun i => sample i j) ≤ 1e-12)
    (x : Fin d → ℝ) (hx : x j ≠ smean fun i => sample i j) (y : Fin n → ℝ) :
    ∃ fit : (Fin n → Fin d → ℝ) → (Fin n → ℝ) → (Fin d → ℝ) → ℝ,
      metamodelOf fit (fun i => rescale a b (sample i)) y (rescale a b x) = a j * metamodelOf fit sample y x ∧
      metamodelOf fit (fun i => rescale a b (sample i)) y (rescale a b x) ≠ metamodelOf fit sample y x := by
  have hs : Real.sqrt (svar fun i => rescale a b (sample i) j) = a j * Real.sqrt (svar fun i => sample i j) := by
    simp only [rescale]
    rw [svar_affine hn, Real.sqrt_mul (sq_nonneg _), Real.sqrt_sq ha.le]
  have hnn : 0 ≤ Real.sqrt (svar fun i => sample i j) := Real.sqrt_nonneg _
  have hm : smean (fun i => rescale a b (sample i) j) = a j * smean (fun i => sample i j) + b j := smean_affine hn _ _ _
  have e1 : normalise sample x j = x j - smean fun i => sample i j := by
    simp only [normalise, normFactor]
    rw [if_neg (by rw [abs_of_nonneg hnn]; exact not_lt.mpr h1), one_mul]
  have e2 : normalise (fun i => rescale a b (sample i)) (rescale a b x) j = a j * (x j - smean fun i => sample i j) := by
    simp only [normalise, normFactor]
    rw [hs, if_neg (by rw [abs_of_nonneg (mul_nonneg ha.le hnn)]; exact not_lt.mpr h2), one_mul, hm]
    simp only [rescale]; ring
  refine ⟨fun _ _ z => z j, ?_, ?_⟩
  · simp only [metamodelOf, e1, e2]
  · simp only [metamodelOf, e1, e2]
    intro h
    have h3 : (a j - 1) * (x j - smean fun i => sample i j) = 0 := by linarith
    rcases mul_eq_zero.mp h3 with h4 | h4
    · exact ha1 (by linarith)
    · exact hx (by linarith)

/-- **C124, signals.**  When the constants are among the trends (as with the default basis), expressing the signals in other units
`s * y + t` transforms every leave-one-out prediction accordingly and leaves Q2 unchanged. -/
theorem C124_signals (K : Matrix (Fin n) (Fin n) ℝ) (F : Matrix (Fin n) (Fin p) ℝ) (hS : IsUnit (borderedMatrix K F).det)
    (hB : ∀ i, looB K F i i ≠ 0) (one : Fin p → ℝ) (hone : F *ᵥ one = fun _ => 1) (y : Fin n → ℝ) (s t : ℝ) (hs : s ≠ 0) :
    (∀ i, computeLOO K F (fun j => s * y j + t) i = s * computeLOO K F y i + t) ∧
    krigingQ2 (fun j => s * y j + t) (computeLOO K F fun j => s * y j + t) = krigingQ2 y (computeLOO K F y) := by
  have hloo : ∀ i, computeLOO K F (fun j => s * y j + t) i = s * computeLOO K F y i + t := by
    intro i
    obtain ⟨w, hw, -, hval⟩ := C38_loo_exact K F hS i (hB i)
    rw [hval, hval]
    have hsum : ∑ j, w j = 1 := by
      have h1 : ∑ j, w j * (F *ᵥ one) j = (F *ᵥ one) i := by
        simp only [mulVec, dotProduct]
        simp_rw [Finset.mul_sum]
        rw [Finset.sum_comm]
        refine Finset.sum_congr rfl fun k _ => ?_
        rw [← hw.unbiased k, Finset.sum_mul]
        exact Finset.sum_congr rfl fun j _ => by ring
      rw [hone] at h1
      simpa using h1
    have : ∑ j, w j * (s * y j + t) = s * ∑ j, w j * y j + t * ∑ j, w j := by
      rw [Finset.mul_sum, Finset.mul_sum, ← Finset.sum_add_distrib]
      exact Finset.sum_congr rfl fun j _ => by ring
    rw [this, hsum, mul_one]
  refine ⟨hloo, ?_⟩
  rcases Nat.eq_zero_or_pos n with h0 | hpos
  · subst h0
    simp [krigingQ2, npVar, smean]
  have hn : n ≠ 0 := hpos.ne'
  have h2 : smean (fun i => (s * y i + t - computeLOO K F (fun j => s * y j + t) i) ^ 2) =
      s ^ 2 * smean fun i => (y i - computeLOO K F y i) ^ 2 := by
    simp only [smean, hloo]
    rw [← mul_div_assoc, Finset.mul_sum]
    congr 1
    exact Finset.sum_congr rfl fun i _ => by ring
  have h3 : npVar (fun j => s * y j + t) = s ^ 2 * npVar y := by
    simp only [npVar]
    rw [smean_affine hn, ← mul_div_assoc, Finset.mul_sum]
    congr 1
    exact Finset.sum_congr rfl fun i _ => by ring
  unfold krigingQ2
  rw [h2, h3, mul_div_mul_left _ _ (pow_ne_zero 2 hs)]

theorem bordered_smul (K : Matrix (Fin n) (Fin n) ℝ) (F : Matrix (Fin n) (Fin p) ℝ) (hS : IsUnit (borderedMatrix K F).det)
    (c : ℝ) (hc : c ≠ 0) : looB (c • K) F = c⁻¹ • looB K F := by
  set S := borderedMatrix K F with hSdef
  have hmul : S * S⁻¹ = 1 := mul_nonsing_inv _ hS
  obtain ⟨A, P, Q, M, hinvS⟩ : ∃ A P Q M, S⁻¹ = fromBlocks A P Q M := ⟨_, _, _, _, (fromBlocks_toBlocks _).symm⟩
  rw [hinvS, hSdef, borderedMatrix, fromBlocks_multiply, ← fromBlocks_one, fromBlocks_inj] at hmul
  obtain ⟨e11, e12, e21, e22⟩ := hmul
  have hinv : borderedMatrix (c • K) F * fromBlocks (c⁻¹ • A) P Q (c • M) = 1 := by
    rw [borderedMatrix, fromBlocks_multiply, ← fromBlocks_one]
    congr 1
    · rw [← e11]; simp [smul_smul, hc]
    · rw [← smul_zero c, ← e12]; simp [smul_add]
    · have : Fᵀ * A = 0 := by simpa using e21
      simp [this]
    · rw [← e22]; simp
  unfold looB
  rw [inv_eq_right_inv hinv, ← hSdef, hinvS, toBlocks_fromBlocks₁₁, toBlocks_fromBlocks₁₁]

/-- **C124, amplitude.**  Multiplying the covariance model by a constant does not change the leave-one-out predictions, hence not
Q2. -/
theorem C124_amplitude (K : Matrix (Fin n) (Fin n) ℝ) (F : Matrix (Fin n) (Fin p) ℝ) (hS : IsUnit (borderedMatrix K F).det)
    (c : ℝ) (hc : c ≠ 0) (y : Fin n → ℝ) : computeLOO (c • K) F y = computeLOO K F y := by
  funext i
  unfold computeLOO
  rw [bordered_smul K F hS c hc]
  congr 1
  refine Finset.sum_congr rfl fun j _ => ?_
  simp only [Matrix.smul_apply, smul_eq_mul]
  congr 1
  rw [mul_assoc, mul_div_mul_left _ _ (inv_ne_zero hc)]

/-- The hypotheses: two points, identity covariance, constant trend. -/
example : (∀ i, computeLOO (1 : Matrix (Fin 2) (Fin 2) ℝ) !![1; 1] (fun j => 3 * ![1, 2] j + 5) i =
      3 * computeLOO (1 : Matrix (Fin 2) (Fin 2) ℝ) !![1; 1] ![1, 2] i + 5) :=
  (C124_signals (1 : Matrix (Fin 2) (Fin 2) ℝ) !![1; 1] loo_example.1 loo_example.2 ![1]
    (by funext i; fin_cases i <;> simp [mulVec, dotProduct]) ![1, 2] 3 5 (by norm_num)).1

/-- Millimetres to metres, on a column of standard deviation 1. -/
example : 1e-12 < Real.sqrt (svar fun i : Fin 3 => ((![0, 1, 2] : Fin 3 → ℝ) i)) ∧
    1e-12 < (1e-3 : ℝ) * Real.sqrt (svar fun i : Fin 3 => ((![0, 1, 2] : Fin 3 → ℝ) i)) := by
  have : svar (fun i : Fin 3 => ((![0, 1, 2] : Fin 3 → ℝ) i)) = 1 := by
    simp [svar, smean, Fin.sum_univ_three]
    norm_num
  rw [this, Real.sqrt_one]
  norm_num

/-- A constant column. -/
example : Real.sqrt (svar fun _ : Fin 3 => (4 : ℝ)) ≤ 1e-12 ∧ (5 : ℝ) ≠ smean fun _ : Fin 3 => (4 : ℝ) := by
  constructor
  · norm_num [svar, smean, Fin.sum_univ_three]
  · norm_num [smean]

end Verif.Props
