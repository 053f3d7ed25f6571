import Verif.Props.TestTrend

/-!
# C257: the R2 of the analysis and the exchange of defects and signals (/repo/otpod/_math_tools.py 114-120)
-/

namespace Verif.Props
open Verif.Py Verif.Model

variable {m : ℕ}

/-- The squared sample correlation of two samples. -/
noncomputable def squaredCorrelation (x y : Fin (m + 2) → ℝ) : ℝ :=
  (∑ i, (x i - smean x) * (y i - smean y)) ^ 2 / ((∑ i, (x i - smean x) ^ 2) * ∑ i, (y i - smean y) ^ 2)

theorem svar_minus_mean (y : Fin (m + 2) → ℝ) : (svar fun i => y i - smean y) = svar y := by
  have hc : (smean fun i => y i - smean y) = 0 := by
    rw [smean, sum_sub_mean y (by positivity), zero_div]
  rw [svar, hc, svar]
  simp only [sub_zero]

/-- **C257, value.**  The R2 reported for signals that are not constant is the squared correlation of the defects and the signals. -/
theorem C257_correlation (x y : Fin (m + 2) → ℝ) (hx : ∃ i j, x i ≠ x j) (hy : ∃ i j, y i ≠ y j) :
    computeR2 y (olsResiduals x y) = .ok (squaredCorrelation x y) := by
  have sx := (sxx_pos x hx).ne'
  have sy := (sxx_pos y hy).ne'
  have hn1 : (((m + 2 : ℕ) : ℝ) - 1) ≠ 0 := by push_cast; have : (0 : ℝ) ≤ m := Nat.cast_nonneg m; intro h; linarith
  have hv : svar y ≠ 0 := by rw [svar]; exact div_ne_zero sy hn1
  have hs := svar_split x y hx
  rw [svar_minus_mean] at hs
  have hr : svar (olsResiduals x y) = svar y - olsSlope x y ^ 2 * svar x := by linarith
  rw [computeR2]
  simp only [svar_minus_mean]
  rw [if_neg hv, hr, squaredCorrelation, olsSlope, svar, svar]
  congr 1
  field_simp
  ring

/-- **C257.**  Exchanging defects and signals does not change the R2: the regression of the defects on the signals has the same R2. -/
theorem C257_exchange (x y : Fin (m + 2) → ℝ) (hx : ∃ i j, x i ≠ x j) (hy : ∃ i j, y i ≠ y j) :
    computeR2 x (olsResiduals y x) = computeR2 y (olsResiduals x y) := by
  rw [C257_correlation x y hx hy, C257_correlation y x hy hx, squaredCorrelation, squaredCorrelation]
  congr 1
  rw [mul_comm (∑ i, (y i - smean y) ^ 2)]
  congr 2
  exact Finset.sum_congr rfl fun i _ => mul_comm _ _

/-- **C257, slopes.**  The R2 is the product of the two slopes. -/
theorem C257_slopes (x y : Fin (m + 2) → ℝ) (hx : ∃ i j, x i ≠ x j) (hy : ∃ i j, y i ≠ y j) :
    computeR2 y (olsResiduals x y) = .ok (olsSlope x y * olsSlope y x) := by
  rw [C257_correlation x y hx hy, squaredCorrelation, olsSlope, olsSlope]
  have e : ∑ i, (y i - smean y) * (x i - smean x) = ∑ i, (x i - smean x) * (y i - smean y) := Finset.sum_congr rfl fun i _ => mul_comm _ _
  rw [e, div_mul_div_comm, sq]

/-- Three observations: the R2 is 3/4 both ways. -/
example : computeR2 (![1, 3, 2] : Fin 3 → ℝ) (olsResiduals ![0, 1, 1] ![1, 3, 2]) = .ok (3 / 4) ∧
    computeR2 (![0, 1, 1] : Fin 3 → ℝ) (olsResiduals ![1, 3, 2] ![0, 1, 1]) = .ok (3 / 4) := by
  have hx : ∃ i j, (![0, 1, 1] : Fin 3 → ℝ) i ≠ ![0, 1, 1] j := ⟨0, 1, by norm_num⟩
  have hy : ∃ i j, (![1, 3, 2] : Fin 3 → ℝ) i ≠ ![1, 3, 2] j := ⟨0, 1, by norm_num⟩
  have h : computeR2 (![1, 3, 2] : Fin 3 → ℝ) (olsResiduals ![0, 1, 1] ![1, 3, 2]) = .ok (3 / 4) := by
    rw [C257_correlation (m := 1) _ _ hx hy, squaredCorrelation]
    simp [smean, Fin.sum_univ_three]
    norm_num
  exact ⟨h, by rw [C257_exchange (m := 1) _ _ hx hy, h]⟩

end Verif.Props
