import Verif.Props.DurbinWatson

/-!
# The mean and variance of the Durbin-Watson test in closed form (for C136, C176, C177)
-/

namespace Verif.Props
open Verif.Py Verif.Model Matrix

variable {m : ℕ}

/-- The von Neumann ratio of the defects. -/
noncomputable def vnRatio (x : Fin (m + 2) → ℝ) : ℝ := (∑ i : Fin (m + 1), (x i.succ - x i.castSucc) ^ 2) / ∑ i, (x i - smean x) ^ 2

/-- The ratio of the second differences of the defects. -/
noncomputable def vnRatio2 (x : Fin (m + 2) → ℝ) : ℝ := (∑ i, (dwA ℝ (m + 1) *ᵥ x) i ^ 2) / ∑ i, (x i - smean x) ^ 2

theorem dwB_zero (x : Fin (m + 2) → ℝ) (i : Fin (m + 2)) : dwB x i 0 = 0 := by simp [dwB]

theorem dwB_one (x : Fin (m + 2) → ℝ) (i : Fin (m + 2)) : dwB x i 1 = (dwA ℝ (m + 1) *ᵥ x) i := by
  rw [C11_band_matrix]
  rfl

theorem sum_dwA (x : Fin (m + 2) → ℝ) : ∑ i, (dwA ℝ (m + 1) *ᵥ x) i = 0 := by
  have h1 : ∑ i, (dwA ℝ (m + 1) *ᵥ x) i = (fun _ => (1 : ℝ)) ⬝ᵥ (dwA ℝ (m + 1) *ᵥ x) := by simp [dotProduct]
  rw [h1, dwA, ← Matrix.mulVec_mulVec, Matrix.dotProduct_mulVec, Matrix.vecMul_transpose]
  have : diffMat ℝ (m + 1) *ᵥ (fun _ => (1 : ℝ)) = 0 := by funext i; rw [diffMat_mulVec]; simp
  rw [this, zero_dotProduct]

theorem gram_entries (x : Fin (m + 2) → ℝ) :
    (dwX x)ᵀ * dwX x = !![((m + 2 : ℕ) : ℝ), ∑ i, x i; ∑ i, x i, ∑ i, x i ^ 2] := by
  ext i j
  fin_cases i <;> fin_cases j <;> simp [Matrix.mul_apply, dwX, sq]

theorem gram_det (x : Fin (m + 2) → ℝ) :
    ((m + 2 : ℕ) : ℝ) * ∑ i, x i ^ 2 - (∑ i, x i) * ∑ i, x i = ((m + 2 : ℕ) : ℝ) * ∑ i, (x i - smean x) ^ 2 := by
  have hn : (((m + 2 : ℕ) : ℝ)) ≠ 0 := Nat.cast_ne_zero.mpr (by omega)
  have : ∀ i, (x i - smean x) ^ 2 = x i ^ 2 - 2 * smean x * x i + smean x ^ 2 := by intro i; ring
  simp only [this, Finset.sum_add_distrib, Finset.sum_sub_distrib, ← Finset.mul_sum]
  simp only [Finset.sum_const, Finset.card_univ, Fintype.card_fin, nsmul_eq_mul, smean]
  field_simp
  ring

theorem dwXBQt_entries (x : Fin (m + 2) → ℝ) (hs : ∑ i, (x i - smean x) ^ 2 ≠ 0) : ∃ c, dwXBQt x = !![0, c; 0, vnRatio x] := by
  have hn : (((m + 2 : ℕ) : ℝ)) ≠ 0 := Nat.cast_ne_zero.mpr (by omega)
  have hBX : (dwB x)ᵀ * dwX x = !![0, 0; 0, ∑ i : Fin (m + 1), (x i.succ - x i.castSucc) ^ 2] := by
    ext i j
    rw [Matrix.mul_apply]
    simp only [Matrix.transpose_apply]
    fin_cases i
    · fin_cases j <;> simp [dwB_zero]
    · fin_cases j
      · simp [dwB_one, dwX, sum_dwA]
      · change ∑ k, dwB x k 1 * dwX x k 1 = ∑ i : Fin (m + 1), (x i.succ - x i.castSucc) ^ 2
        simp only [dwB_one, dw_num_eq, dotProduct]
        exact Finset.sum_congr rfl fun k _ => by rw [mul_comm]; rfl
  rw [dwXBQt, hBX, gram_entries, Matrix.inv_def, Matrix.det_fin_two_of, Matrix.adjugate_fin_two_of, gram_det, Ring.inverse_eq_inv', vnRatio]
  generalize ∑ i : Fin (m + 1), (x i.succ - x i.castSucc) ^ 2 = S
  refine ⟨(((m + 2 : ℕ) : ℝ) * ∑ i, (x i - smean x) ^ 2)⁻¹ * (-∑ i, x i) * S, ?_⟩
  rw [Matrix.smul_mul, Matrix.mul_fin_two]
  ext i j
  fin_cases i <;> fin_cases j
  · simp
  · simp
    ring
  · simp
  · simp
    field_simp

/-- `dmean` in closed form. -/
theorem dwP_eq (x : Fin (m + 2) → ℝ) (hs : ∑ i, (x i - smean x) ^ 2 ≠ 0) : dwP x = 2 * (((m + 2 : ℕ) : ℝ) - 1) - vnRatio x := by
  obtain ⟨c, h⟩ := dwXBQt_entries x hs
  rw [dwP, h, Matrix.trace_fin_two]
  simp

theorem dwQ_eq (x : Fin (m + 2) → ℝ) (hs : ∑ i, (x i - smean x) ^ 2 ≠ 0) :
    dwQ x = 2 * (3 * ((m + 2 : ℕ) : ℝ) - 4) - 2 * vnRatio2 x + vnRatio x ^ 2 := by
  have hn : (((m + 2 : ℕ) : ℝ)) ≠ 0 := Nat.cast_ne_zero.mpr (by omega)
  obtain ⟨c, h⟩ := dwXBQt_entries x hs
  have hBB : (dwB x)ᵀ * dwB x = !![0, 0; 0, ∑ i, (dwA ℝ (m + 1) *ᵥ x) i ^ 2] := by
    ext i j
    rw [Matrix.mul_apply]
    simp only [Matrix.transpose_apply]
    fin_cases i
    · fin_cases j <;> simp [dwB_zero]
    · fin_cases j
      · simp [dwB_zero]
      · simp [dwB_one, sq]
  rw [dwQ, h, hBB, gram_entries, Matrix.inv_def, Matrix.det_fin_two_of, Matrix.adjugate_fin_two_of, gram_det, Ring.inverse_eq_inv', vnRatio2,
    Matrix.trace_fin_two, Matrix.trace_fin_two]
  simp
  field_simp

/-- Equally spaced defects. -/
example : vnRatio (![1, 2, 3, 4] : Fin 4 → ℝ) = 3 / 5 := by
  simp [vnRatio, smean, Fin.sum_univ_four, Fin.sum_univ_three]
  norm_num

end Verif.Props
