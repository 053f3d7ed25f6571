import Verif.Model.Stats
import Mathlib.Tactic.FieldSimp
import Mathlib.Tactic.Positivity
import Mathlib.Tactic.Linarith
import Mathlib.Tactic.Ring
import Mathlib.Tactic.NormNum
import Mathlib.Algebra.Order.BigOperators.Ring.Finset
import Mathlib.Data.Matrix.Basic
import Mathlib.Data.Rat.Floor
import Mathlib.Tactic.Module

/-!
# C07, C08, C09, C10, C27: least squares and residual tests
-/

set_option linter.unusedSectionVars false

namespace Verif.Props
open Verif.Py Verif.Model

section OLS
variable {K : Type*} [Field K] [LinearOrder K] [IsStrictOrderedRing K] {n : ℕ}

/-- Sum of squared errors of the line `a + b x` (specification). -/
def sse (x y : Fin n → K) (a b : K) : K := ∑ i, (y i - (a + b * x i)) ^ 2

theorem sum_sub_mean (x : Fin n → K) (hn : n ≠ 0) : ∑ i, (x i - smean x) = 0 := by
  have : (n : K) ≠ 0 := Nat.cast_ne_zero.mpr hn
  rw [Finset.sum_sub_distrib, Finset.sum_const, Finset.card_univ, Fintype.card_fin, nsmul_eq_mul, smean]
  field_simp; ring

theorem n_ne_of_sxx {x : Fin n → K} (hx : ∑ i, (x i - smean x) ^ 2 ≠ 0) : n ≠ 0 := by
  rintro rfl; simp at hx

theorem resid_eq (x y : Fin n → K) (i : Fin n) :
    olsResiduals x y i = (y i - smean y) - olsSlope x y * (x i - smean x) := by
  simp only [olsResiduals, olsIntercept]; ring

theorem resid_sum (x y : Fin n → K) (hx : ∑ i, (x i - smean x) ^ 2 ≠ 0) :
    ∑ i, olsResiduals x y i = 0 := by
  have hn := n_ne_of_sxx hx
  simp only [resid_eq, Finset.sum_sub_distrib (fun i => y i - smean y), ← Finset.mul_sum]
  rw [sum_sub_mean x hn, sum_sub_mean y hn]; ring

theorem resid_orth_centered (x y : Fin n → K) (hx : ∑ i, (x i - smean x) ^ 2 ≠ 0) :
    ∑ i, olsResiduals x y i * (x i - smean x) = 0 := by
  simp only [resid_eq, sub_mul, Finset.sum_sub_distrib]
  rw [← Finset.sum_sub_distrib, ← Finset.sum_sub_distrib]
  have h1 : ∑ i, (y i * (x i - smean x) - smean y * (x i - smean x)
      - (olsSlope x y * x i * (x i - smean x) - olsSlope x y * smean x * (x i - smean x)))
      = ∑ i, (x i - smean x) * (y i - smean y) - olsSlope x y * ∑ i, (x i - smean x) ^ 2 := by
    rw [Finset.mul_sum, ← Finset.sum_sub_distrib]
    apply Finset.sum_congr rfl; intro i _; ring
  rw [olsSlope, div_mul_cancel₀ _ hx, sub_self] at h1
  rw [← h1]
  apply Finset.sum_congr rfl; intro i _
  rw [olsSlope]; ring

theorem resid_orth (x y : Fin n → K) (hx : ∑ i, (x i - smean x) ^ 2 ≠ 0) :
    ∑ i, olsResiduals x y i * x i = 0 := by
  have h := resid_orth_centered x y hx
  simp only [mul_sub, Finset.sum_sub_distrib, ← Finset.sum_mul] at h
  rw [resid_sum x y hx] at h
  simpa using h

/-- Pythagoras: error of any line = error of the fit + squared distance between the two lines. -/
theorem sse_decomp (x y : Fin n → K) (hx : ∑ i, (x i - smean x) ^ 2 ≠ 0) (a b : K) :
    sse x y a b = sse x y (olsIntercept x y) (olsSlope x y)
      + ∑ i, ((olsIntercept x y - a) + (olsSlope x y - b) * x i) ^ 2 := by
  have h1 : ∀ i, (y i - (a + b * x i)) ^ 2
      = (olsResiduals x y i) ^ 2 + ((olsIntercept x y - a) + (olsSlope x y - b) * x i) ^ 2
        + 2 * (olsIntercept x y - a) * olsResiduals x y i
        + 2 * (olsSlope x y - b) * (olsResiduals x y i * x i) := by
    intro i; simp only [olsResiduals]; ring
  simp only [sse, h1, Finset.sum_add_distrib, ← Finset.mul_sum, resid_sum x y hx, resid_orth x y hx]
  simp [olsResiduals]

/-- **C27.**  For non-constant defects, the fitted line minimises the sum of squares among all lines, it is
the only minimiser, and the residuals sum to zero and are orthogonal to the defects. -/
theorem C27_ols_optimal (x y : Fin n → K) (hx : ∃ i j, x i ≠ x j) :
    (∀ a b, sse x y (olsIntercept x y) (olsSlope x y) ≤ sse x y a b) ∧
    (∀ a b, sse x y a b = sse x y (olsIntercept x y) (olsSlope x y) →
      a = olsIntercept x y ∧ b = olsSlope x y) ∧
    ∑ i, olsResiduals x y i = 0 ∧ ∑ i, olsResiduals x y i * x i = 0 := by
  have hs : ∑ i, (x i - smean x) ^ 2 ≠ 0 := by
    intro h
    rw [Finset.sum_eq_zero_iff_of_nonneg (fun i _ => sq_nonneg _)] at h
    obtain ⟨i, j, hij⟩ := hx
    have hi := h i (Finset.mem_univ _)
    have hj := h j (Finset.mem_univ _)
    have e1 := sub_eq_zero.mp (pow_eq_zero_iff (two_ne_zero)|>.mp hi)
    have e2 := sub_eq_zero.mp (pow_eq_zero_iff (two_ne_zero)|>.mp hj)
    exact hij (e1.trans e2.symm)
  refine ⟨?_, ?_, resid_sum x y hs, resid_orth x y hs⟩
  · intro a b
    rw [sse_decomp x y hs a b]
    have : 0 ≤ ∑ i, ((olsIntercept x y - a) + (olsSlope x y - b) * x i) ^ 2 :=
      Finset.sum_nonneg fun i _ => sq_nonneg _
    linarith
  · intro a b h
    rw [sse_decomp x y hs a b] at h
    have h0 : ∑ i, ((olsIntercept x y - a) + (olsSlope x y - b) * x i) ^ 2 = 0 := by linarith
    rw [Finset.sum_eq_zero_iff_of_nonneg (fun i _ => sq_nonneg _)] at h0
    obtain ⟨i, j, hij⟩ := hx
    have hi := pow_eq_zero_iff (two_ne_zero)|>.mp (h0 i (Finset.mem_univ _))
    have hj := pow_eq_zero_iff (two_ne_zero)|>.mp (h0 j (Finset.mem_univ _))
    have hb : (olsSlope x y - b) * (x i - x j) = 0 := by linarith
    have hb' : olsSlope x y - b = 0 := by
      rcases mul_eq_zero.mp hb with h | h
      · exact h
      · exact absurd (sub_eq_zero.mp h) hij
    have ha : olsIntercept x y - a = 0 := by rw [hb'] at hi; linarith
    exact ⟨(sub_eq_zero.mp ha).symm, (sub_eq_zero.mp hb').symm⟩

example : olsSlope ![1, 2, 4] ![1, 3, (8 : ℚ)] = 33 / 14 ∧
    olsIntercept ![1, 2, 4] ![1, 3, (8 : ℚ)] = -3 / 2 := by
  constructor <;>
    simp [olsSlope, olsIntercept, smean, Fin.sum_univ_three] <;> norm_num

theorem smean_centered (y : Fin n → K) : smean (fun i => y i - smean y) = 0 := by
  rcases Nat.eq_zero_or_pos n with h | h
  · subst h; simp [smean]
  · rw [smean, sum_sub_mean y h.ne', zero_div]

theorem svar_centered (y : Fin n → K) : svar (fun i => y i - smean y) = svar y := by
  simp only [svar, smean_centered, sub_zero]

theorem svar_nonneg (hn : 2 ≤ n) (y : Fin n → K) : 0 ≤ svar y := by
  have : (2 : K) ≤ n := by exact_mod_cast hn
  exact div_nonneg (Finset.sum_nonneg fun i _ => sq_nonneg _) (by linarith)

theorem svar_eq_zero_iff (hn : 2 ≤ n) (y : Fin n → K) : svar y = 0 ↔ ∀ i j, y i = y j := by
  have h2 : (2 : K) ≤ n := by exact_mod_cast hn
  have hd : (n : K) - 1 ≠ 0 := by linarith
  rw [svar, div_eq_zero_iff, or_iff_left hd, Finset.sum_eq_zero_iff_of_nonneg (fun i _ => sq_nonneg _)]
  constructor
  · intro h i j
    have hi := sub_eq_zero.mp (pow_eq_zero_iff (two_ne_zero)|>.mp (h i (Finset.mem_univ _)))
    have hj := sub_eq_zero.mp (pow_eq_zero_iff (two_ne_zero)|>.mp (h j (Finset.mem_univ _)))
    exact hi.trans hj.symm
  · intro h i _
    have : smean y = y i := by
      rw [smean, Finset.sum_congr rfl (fun j _ => h j i)]
      have : (n : K) ≠ 0 := by linarith
      simp; field_simp
    rw [this]; simp

theorem svar_of_sum_zero {r : Fin n → K} (h : ∑ i, r i = 0) : svar r = (∑ i, r i ^ 2) / ((n : K) - 1) := by
  have : smean r = 0 := by rw [smean, h, zero_div]
  simp [svar, this]

/-- **C07 (any residuals).**  `computeR2` raises exactly for constant signals; otherwise its value is at most
one, and equal to one exactly for constant residuals. -/
theorem C07_R2_le_one (hn : 2 ≤ n) (y r : Fin n → K) :
    ((∀ i j, y i = y j) → Raises (computeR2 y r) .zeroDivision) ∧
    ((∃ i j, y i ≠ y j) → ∃ v, computeR2 y r = .ok v ∧ v ≤ 1 ∧ (v = 1 ↔ ∀ i j, r i = r j)) := by
  constructor
  · intro h
    have := (svar_eq_zero_iff hn y).mpr h
    exact ⟨"", by simp [computeR2, svar_centered, this]⟩
  · intro ⟨i, j, hij⟩
    have hv : svar y ≠ 0 := fun h => hij ((svar_eq_zero_iff hn y).mp h i j)
    have hvp : 0 < svar y := lt_of_le_of_ne (svar_nonneg hn y) hv.symm
    refine ⟨1 - svar r / svar y, by simp [computeR2, svar_centered, hv], ?_, ?_⟩
    · have := div_nonneg (svar_nonneg hn r) hvp.le; linarith
    · rw [← svar_eq_zero_iff hn r]
      constructor
      · intro h
        have : svar r / svar y = 0 := by linarith
        rcases div_eq_zero_iff.mp this with h | h
        · exact h
        · exact absurd h hv
      · intro h; rw [h]; simp

/-- **C07 (least squares).**  For the residuals of the fit, the value is `1 - SSR/SST`, where SST is the error
of the best constant, and it lies in `[0,1]`. -/
theorem C07_R2_ols (hn : 2 ≤ n) (x y : Fin n → K) (hx : ∃ i j, x i ≠ x j) (hy : ∃ i j, y i ≠ y j) :
    ∃ v, computeR2 y (olsResiduals x y) = .ok v ∧
      v = 1 - sse x y (olsIntercept x y) (olsSlope x y) / sse x y (smean y) 0 ∧ 0 ≤ v ∧ v ≤ 1 := by
  obtain ⟨hopt, -, hsum, -⟩ := C27_ols_optimal x y hx
  obtain ⟨v, hv, hle, -⟩ := (C07_R2_le_one hn y (olsResiduals x y)).2 hy
  obtain ⟨i, j, hij⟩ := hy
  have hvy : svar y ≠ 0 := fun h => hij ((svar_eq_zero_iff hn y).mp h i j)
  have h2 : (2 : K) ≤ n := by exact_mod_cast hn
  have hd : (n : K) - 1 ≠ 0 := by linarith
  have hvp : 0 < svar y := lt_of_le_of_ne (svar_nonneg hn y) hvy.symm
  have e : v = 1 - svar (olsResiduals x y) / svar y := by
    have : computeR2 y (olsResiduals x y) = .ok (1 - svar (olsResiduals x y) / svar y) := by
      simp [computeR2, svar_centered, hvy]
    rw [this] at hv
    exact ((Except.ok.injEq _ _).mp hv).symm
  have hsst : sse x y (smean y) 0 = svar y * ((n : K) - 1) := by
    rw [svar, div_mul_cancel₀ _ hd]; simp [sse]
  have hssr : sse x y (olsIntercept x y) (olsSlope x y) = svar (olsResiduals x y) * ((n : K) - 1) := by
    rw [svar_of_sum_zero hsum, div_mul_cancel₀ _ hd]; rfl
  have hq : v = 1 - sse x y (olsIntercept x y) (olsSlope x y) / sse x y (smean y) 0 := by
    rw [e, hsst, hssr, mul_div_mul_right _ _ hd]
  refine ⟨v, hv, hq, ?_, hle⟩
  have hpos : 0 < sse x y (smean y) 0 := by rw [hsst]; exact mul_pos hvp (by linarith)
  have := (div_le_one hpos).mpr (hopt (smean y) 0)
  rw [hq]; linarith

example : computeR2 ![1, 3, (8 : ℚ)] (olsResiduals ![1, 2, 4] ![1, 3, 8]) = .ok (363 / 364) := by
  decide +kernel

end OLS

section Tests

/-- **C08 is violated.**  For the residuals of the uncensored fit the p-value is 1 whatever the data: the test
never rejects.  Only `pStudent ν 0 = 1/2` (symmetry of the Student law) is used. -/
theorem C08_violated (pStudent : ℕ → ℝ → ℝ) (hsym : ∀ ν, pStudent ν 0 = 1 / 2) {n : ℕ}
    (x y : Fin n → ℝ) (hx : ∃ i j, x i ≠ x j) :
    computeZeroMeanTest pStudent (olsResiduals x y) = 1 := by
  obtain ⟨-, -, hsum, -⟩ := C27_ols_optimal x y hx
  simp [computeZeroMeanTest, smean, hsum, hsym]

/-- **C08 (restricted).**  For residuals of non-zero variance that do not come from the least-squares fit
(censored fit), the p-value is 1 exactly when their mean is zero: there the test depends on the data. -/
theorem C08_zero_mean_partial (pStudent : ℕ → ℝ → ℝ) (hsym : ∀ ν, pStudent ν 0 = 1 / 2)
    (hmono : ∀ ν, StrictMono (pStudent ν)) {n : ℕ} (hn : 2 ≤ n) (r : Fin n → ℝ) (hr : ∃ i j, r i ≠ r j) :
    computeZeroMeanTest pStudent r ≤ 1 ∧ (computeZeroMeanTest pStudent r = 1 ↔ smean r = 0) := by
  have hv : 0 < svar r := by
    obtain ⟨i, j, hij⟩ := hr
    exact lt_of_le_of_ne (svar_nonneg hn r) (fun h => hij ((svar_eq_zero_iff hn r).mp h.symm i j))
  have hnn : (0 : ℝ) < n := by exact_mod_cast (by omega : 0 < n)
  have hs : 0 < Real.sqrt (svar r / n) := Real.sqrt_pos.mpr (div_pos hv hnn)
  have key : ∀ t : ℝ, 2 * pStudent (n - 1) (-|t|) ≤ 1 ∧ (2 * pStudent (n - 1) (-|t|) = 1 ↔ t = 0) := by
    intro t
    rcases eq_or_ne t 0 with h | h
    · subst h; simp [hsym]
    · have := hmono (n - 1) (show -|t| < 0 by simpa using h)
      rw [hsym] at this
      exact ⟨by linarith, ⟨fun h' => by linarith, fun h' => absurd h' h⟩⟩
  refine ⟨(key _).1, (key _).2.trans ?_⟩
  rw [div_eq_zero_iff, or_iff_left hs.ne']

/-- A strictly increasing symmetric function with value 1/2 at zero exists: the hypotheses are consistent. -/
example : (∀ _ν : ℕ, Phi 0 = 1 / 2) ∧ (∀ _ν : ℕ, StrictMono Phi) := ⟨fun _ => Phi_zero, fun _ => Phi_strictMono⟩

variable {K : Type*} [Field K] [LinearOrder K] [IsStrictOrderedRing K] {n : ℕ}

/-- **C09 (Harrison–McCabe).**  The statistic is in `[0,1]` and non-decreasing in the break point. -/
theorem C09_harrisonMcCabe_range (bp bp' : ℕ) (r : Fin n → K) (h : bp ≤ bp') :
    0 ≤ harrisonMcCabeStat bp r ∧ harrisonMcCabeStat bp r ≤ harrisonMcCabeStat bp' r ∧
    harrisonMcCabeStat bp' r ≤ 1 ∧ (n ≤ bp → (∃ i, r i ≠ 0) → harrisonMcCabeStat bp r = 1) := by
  have h0 : (0 : K) ≤ ∑ i, r i ^ 2 := Finset.sum_nonneg fun i _ => sq_nonneg _
  refine ⟨div_nonneg (Finset.sum_nonneg fun i _ => sq_nonneg _) h0, ?_, ?_, ?_⟩
  · apply div_le_div_of_nonneg_right _ h0
    apply Finset.sum_le_sum_of_subset_of_nonneg
    · intro i; simp only [Finset.mem_filter]; rintro ⟨a, b⟩; exact ⟨a, by omega⟩
    · intro i _ _; exact sq_nonneg _
  · apply div_le_one_of_le₀ _ h0
    apply Finset.sum_le_sum_of_subset_of_nonneg (Finset.filter_subset _ _)
    intro i _ _; exact sq_nonneg _
  · intro hn ⟨i, hi⟩
    have hpos : 0 < ∑ i, r i ^ 2 :=
      Finset.sum_pos' (fun i _ => sq_nonneg _) ⟨i, Finset.mem_univ _, by positivity⟩
    rw [harrisonMcCabeStat, Finset.filter_true_of_mem (fun i _ => by omega), div_self hpos.ne']

/-- **C09 (Harrison–McCabe, time reversal).**  The statistic of the residuals before the break and the one of the reversed residuals before the
mirrored break add to one. -/
theorem C09_harrisonMcCabe_reverse (bp : ℕ) (hbp : bp ≤ n) (r : Fin n → K) (hr : ∃ i, r i ≠ 0) :
    harrisonMcCabeStat bp r + harrisonMcCabeStat (n - bp) (fun i => r i.rev) = 1 := by
  obtain ⟨i, hi⟩ := hr
  have hpos : 0 < ∑ i, r i ^ 2 := Finset.sum_pos' (fun i _ => sq_nonneg _) ⟨i, Finset.mem_univ _, by positivity⟩
  have h1 : ∑ i : Fin n, r i.rev ^ 2 = ∑ i, r i ^ 2 := Equiv.sum_comp Fin.revPerm fun i => r i ^ 2
  have h2 : ∑ i ∈ Finset.univ.filter (fun i : Fin n => i.val < n - bp), r i.rev ^ 2
      = ∑ i ∈ Finset.univ.filter (fun i : Fin n => ¬ i.val < bp), r i ^ 2 := by
    rw [Finset.sum_filter, Finset.sum_filter, ← Equiv.sum_comp Fin.revPerm fun i : Fin n => if ¬ i.val < bp then r i ^ 2 else 0]
    refine Finset.sum_congr rfl fun j _ => ?_
    have : j.val < n - bp ↔ ¬ (Fin.revPerm j).val < bp := by
      rw [Fin.revPerm_apply, Fin.val_rev]; have := j.isLt; omega
    simp only [this]; rfl
  rw [harrisonMcCabeStat, harrisonMcCabeStat, h1, h2, ← add_div, Finset.sum_filter_add_sum_filter_not, div_self hpos.ne']

example : harrisonMcCabeStat 1 (![1, 2, 2] : Fin 3 → ℚ) + harrisonMcCabeStat (3 - 1) (fun i => (![1, 2, 2] : Fin 3 → ℚ) i.rev) = 1 :=
  C09_harrisonMcCabe_reverse 1 (by norm_num) _ ⟨0, by norm_num⟩

/-- **C09 (break point).**  For a ratio in `[0, 1]` the break is the largest number of residuals not above the ratio of their number. -/
theorem C09_breakPoint [FloorRing K] (ratio : K) (h0 : 0 ≤ ratio) (h1 : ratio ≤ 1) (m : ℕ) :
    (m ≤ breakPoint ratio n ↔ (m : K) ≤ ratio * n) ∧ breakPoint ratio n ≤ n := by
  have hr : (0 : K) ≤ ratio * n := mul_nonneg h0 (Nat.cast_nonneg n)
  have key : ∀ m : ℕ, m ≤ breakPoint ratio n ↔ (m : K) ≤ ratio * n := fun m => by
    rw [breakPoint, Int.le_toNat (Int.floor_nonneg.mpr hr), Int.le_floor]; norm_cast
  refine ⟨key m, ?_⟩
  have h2 := (key _).mp le_rfl
  have : ratio * n ≤ 1 * n := mul_le_mul_of_nonneg_right h1 (Nat.cast_nonneg n)
  exact_mod_cast (h2.trans this).trans_eq (one_mul _)

example : breakPoint (1 / 2 : ℚ) 5 = 2 := by decide +kernel

/-- **C09 (Harrison–McCabe p-value).**  The p-value is the proportion of simulated statistics that do not
exceed the observed one; it is in `[0,1]` and non-decreasing in the observed statistic. -/
theorem C09_harrisonMcCabe_pvalue [FloorRing K] (r r' : Fin n → K) (ratio : K) (sims : List (Fin n → K))
    (hle : harrisonMcCabeStat (breakPoint ratio n) r ≤ harrisonMcCabeStat (breakPoint ratio n) r') :
    0 ≤ harrisonMcCabeTest r ratio sims ∧ harrisonMcCabeTest r ratio sims ≤ harrisonMcCabeTest r' ratio sims ∧
    harrisonMcCabeTest r' ratio sims ≤ 1 ∧
    harrisonMcCabeTest r ratio sims * sims.length
      = (sims.countP fun s => harrisonMcCabeStat (breakPoint ratio n) s
          ≤ harrisonMcCabeStat (breakPoint ratio n) r : ℕ) := by
  have hl : (0 : K) ≤ sims.length := Nat.cast_nonneg _
  refine ⟨div_nonneg (Nat.cast_nonneg _) hl, ?_, ?_, ?_⟩
  · apply div_le_div_of_nonneg_right _ hl
    rw [Nat.cast_le]
    apply (List.monotone_filter_right _ _).length_le
    intro s hs
    simp only [decide_eq_true_eq] at hs ⊢
    exact hs.trans hle
  · apply div_le_one_of_le₀ _ hl
    rw [Nat.cast_le]
    exact (List.length_filter_le _ _).trans (by simp)
  · rw [harrisonMcCabeTest]
    rcases sims with _ | ⟨s, ss⟩
    · simp
    · rw [div_mul_cancel₀ _ (by simp; positivity), ← List.countP_eq_length_filter, List.countP_map]
      rfl

/-- **C09 (Durbin–Watson).**  The statistic is in `[0,4]`. -/
theorem C09_durbinWatson_range (r : Fin (n + 1) → K) :
    0 ≤ durbinWatsonStat r ∧ durbinWatsonStat r ≤ 4 ∧
    ((∃ i, r i ≠ 0) → (durbinWatsonStat r = 0 ↔ ∀ i j, r i = r j)) := by
  have h0 : (0 : K) ≤ ∑ i, r i ^ 2 := Finset.sum_nonneg fun i _ => sq_nonneg _
  refine ⟨div_nonneg (Finset.sum_nonneg fun i _ => sq_nonneg _) h0, ?_, ?_⟩
  · apply div_le_of_le_mul₀ h0 (by norm_num)
    have h1 : ∑ i : Fin n, (r i.succ - r i.castSucc) ^ 2
        ≤ ∑ i : Fin n, (2 * r i.succ ^ 2 + 2 * r i.castSucc ^ 2) := by
      apply Finset.sum_le_sum; intro i _; nlinarith [sq_nonneg (r i.succ + r i.castSucc)]
    have h2 : ∑ i : Fin n, r i.succ ^ 2 ≤ ∑ i, r i ^ 2 := by
      rw [Fin.sum_univ_succ]; nlinarith [sq_nonneg (r 0)]
    have h3 : ∑ i : Fin n, r i.castSucc ^ 2 ≤ ∑ i, r i ^ 2 := by
      rw [Fin.sum_univ_castSucc]; nlinarith [sq_nonneg (r (Fin.last n))]
    rw [Finset.sum_add_distrib, ← Finset.mul_sum, ← Finset.mul_sum] at h1
    linarith
  · intro ⟨i, hi⟩
    have hpos : 0 < ∑ i, r i ^ 2 :=
      Finset.sum_pos' (fun i _ => sq_nonneg _) ⟨i, Finset.mem_univ _, by positivity⟩
    rw [durbinWatsonStat, div_eq_zero_iff, or_iff_left hpos.ne',
      Finset.sum_eq_zero_iff_of_nonneg (fun i _ => sq_nonneg _)]
    constructor
    · intro h
      have hstep : ∀ i : Fin n, r i.succ = r i.castSucc := fun i =>
        sub_eq_zero.mp (pow_eq_zero_iff (two_ne_zero)|>.mp (h i (Finset.mem_univ _)))
      have hz : ∀ i : Fin (n + 1), r i = r 0 := by
        intro i
        induction i using Fin.induction with
        | zero => rfl
        | succ i ih => rw [hstep, ih]
      intro i j; rw [hz i, hz j]
    · intro h i _; rw [h i.succ i.castSucc]; simp

/-- **C09 (Breusch–Pagan).**  The statistic is in `[0,n]`. -/
theorem C09_breuschPagan_range (x r : Fin n → K) (hx : ∃ i j, x i ≠ x j) :
    0 ≤ breuschPaganStat x r ∧ breuschPaganStat x r ≤ n := by
  have hnn : (0 : K) ≤ n := Nat.cast_nonneg _
  simp only [breuschPaganStat]
  set w : Fin n → K := fun i => r i ^ 2 - (∑ i, r i ^ 2) / n with hw
  have h0 : (0 : K) ≤ ∑ i, w i ^ 2 := Finset.sum_nonneg fun i _ => sq_nonneg _
  obtain ⟨-, -, hs, ho⟩ := C27_ols_optimal x w hx
  have key : ∑ i, w i ^ 2 = ∑ i, (olsIntercept x w + olsSlope x w * x i) ^ 2
      + ∑ i, olsResiduals x w i ^ 2 := by
    have e : ∀ i, w i ^ 2 = (olsIntercept x w + olsSlope x w * x i) ^ 2 + olsResiduals x w i ^ 2
        + 2 * olsIntercept x w * olsResiduals x w i + 2 * olsSlope x w * (olsResiduals x w i * x i) := by
      intro i; simp only [olsResiduals]; ring
    rw [Finset.sum_congr rfl (fun i _ => e i)]
    simp only [Finset.sum_add_distrib, ← Finset.mul_sum, hs, ho]; ring
  have hle : ∑ i, (olsIntercept x w + olsSlope x w * x i) ^ 2 ≤ ∑ i, w i ^ 2 := by
    rw [key]
    have : 0 ≤ ∑ i, olsResiduals x w i ^ 2 := Finset.sum_nonneg fun i _ => sq_nonneg _
    linarith
  have hp : (0 : K) ≤ ∑ i, (olsIntercept x w + olsSlope x w * x i) ^ 2 :=
    Finset.sum_nonneg fun i _ => sq_nonneg _
  refine ⟨div_nonneg (mul_nonneg hnn hp) h0, ?_⟩
  apply div_le_of_le_mul₀ h0 hnn
  exact mul_le_mul_of_nonneg_left hle hnn

example : durbinWatsonStat ![1, -1, 1, (-1 : ℚ)] = 3 ∧ harrisonMcCabeStat 2 ![1, 2, 3, (4 : ℚ)] = 1 / 6 ∧
    breuschPaganStat ![1, 2, 4] ![1, 2, (-1 : ℚ)] = 3 / 28 := by
  refine ⟨?_, ?_, ?_⟩ <;> decide +kernel

/-- **C10 is violated.**  Both one-sided p-values are even functions of the deviation of the statistic: a
statistic far below its mean and one equally far above get the same value; moreover `Greater` is always at
most 1/2 and `Less` always at least 1/2, so `Less` can never reject. -/
theorem C10_violated (dmean dvar d : ℝ) (h : Hypothesis) :
    dwPValue (dmean + d) dmean dvar h = dwPValue (dmean - d) dmean dvar h ∧
    dwPValue (dmean + d) dmean dvar .greater ≤ 1 / 2 ∧ 1 / 2 ≤ dwPValue (dmean + d) dmean dvar .less := by
  have hle : PhiC (|d| / Real.sqrt dvar) ≤ 1 / 2 := by
    rw [PhiC_eq, ← Phi_zero]
    have := Phi_strictMono.monotone (show 0 ≤ |d| / Real.sqrt dvar by positivity)
    rw [Phi_zero] at this ⊢; linarith
  refine ⟨?_, ?_, ?_⟩
  · simp [dwPValue]
  · simp only [dwPValue, add_sub_cancel_left]; linarith
  · simp only [dwPValue, add_sub_cancel_left]; linarith

/-- **C10 (restricted).**  The default two-sided p-value is the Gaussian probability of a deviation at least as
large in absolute value.  The one-sided values are right for a statistic not above its mean (positive
autocorrelation side): `Greater` is the probability of a statistic at most `dw`, `Less` that of a larger one.
Missing: a statistic above its mean, where the two tails are exchanged (last clause). -/
theorem C10_two_sided_partial (dw dmean dvar : ℝ) (hv : 0 < dvar) :
    dwPValue dw dmean dvar .equal
      = (ProbabilityTheory.gaussianReal dmean (sqv (Real.sqrt dvar))).real
          {z | |dw - dmean| < |z - dmean|} ∧
    (dw ≤ dmean → dwPValue dw dmean dvar .greater
      = (ProbabilityTheory.gaussianReal dmean (sqv (Real.sqrt dvar))).real (Set.Iic dw) ∧
      dwPValue dw dmean dvar .less
      = (ProbabilityTheory.gaussianReal dmean (sqv (Real.sqrt dvar))).real (Set.Ioi dw)) ∧
    (dmean ≤ dw → dwPValue dw dmean dvar .greater
      = (ProbabilityTheory.gaussianReal dmean (sqv (Real.sqrt dvar))).real (Set.Ioi dw) ∧
      dwPValue dw dmean dvar .less
      = (ProbabilityTheory.gaussianReal dmean (sqv (Real.sqrt dvar))).real (Set.Iic dw)) := by
  have hs : 0 < Real.sqrt dvar := Real.sqrt_pos.mpr hv
  have hsv : sqv (Real.sqrt dvar) ≠ 0 := by
    intro h; have := congrArg NNReal.toReal h
    simp only [coe_sqv, NNReal.coe_zero] at this; exact absurd this (by positivity)
  refine ⟨?_, ?_, ?_⟩
  · have hset : {z : ℝ | |dw - dmean| < |z - dmean|}
        = Set.Iio (dmean - |dw - dmean|) ∪ Set.Ioi (dmean + |dw - dmean|) := by
      ext z
      simp only [Set.mem_ofPred_eq, Set.mem_union, Set.mem_Iio, Set.mem_Ioi, lt_abs]
      constructor
      · rintro (h | h)
        · right; linarith
        · left; linarith
      · rintro (h | h)
        · right; linarith
        · left; linarith
    rw [hset, MeasureTheory.measureReal_union _ measurableSet_Ioi, gauss_Iic_eq_Iio _ hsv,
      gauss_Iic hs, gauss_Ioi hs]
    · have e1 : (dmean - |dw - dmean| - dmean) / Real.sqrt dvar = -(|dw - dmean| / Real.sqrt dvar) := by
        ring
      have e2 : (dmean + |dw - dmean| - dmean) / Real.sqrt dvar = |dw - dmean| / Real.sqrt dvar := by
        ring
      rw [e1, e2, Phi_neg, dwPValue, PhiC_eq]; ring
    · rw [Set.disjoint_left]
      intro z h1 h2
      simp only [Set.mem_Iio, Set.mem_Ioi] at h1 h2
      have := abs_nonneg (dw - dmean); linarith
  · intro h
    have ha : |dw - dmean| = -(dw - dmean) := abs_of_nonpos (by linarith)
    have e : -(dw - dmean) / Real.sqrt dvar = -((dw - dmean) / Real.sqrt dvar) := by ring
    simp only [dwPValue, ha, e, PhiC_eq, gauss_Ioi hs, gauss_Iic hs, Phi_neg]
    constructor <;> ring
  · intro h
    have ha : |dw - dmean| = dw - dmean := abs_of_nonneg (by linarith)
    simp only [dwPValue, ha, PhiC_eq, gauss_Ioi hs, gauss_Iic hs]
    constructor <;> ring

end Tests
end Verif.Props
