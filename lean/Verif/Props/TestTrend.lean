import Verif.Props.ThreeTests

/-!
# C255: a linear trend in the signals and the tests of the residuals (/repo/otpod/_univariate_linear_model_analysis.py 295-341)
-/

namespace Verif.Props
open Verif.Py Verif.Model

variable {n m : ℕ}

theorem smean_trend (hn : n ≠ 0) (x y : Fin n → ℝ) (c a b : ℝ) : (smean fun i => c * y i + (a + b * x i)) = c * smean y + (a + b * smean x) := by
  have hn' : (n : ℝ) ≠ 0 := Nat.cast_ne_zero.mpr hn
  rw [smean, smean, smean, Finset.sum_add_distrib, Finset.sum_add_distrib, ← Finset.mul_sum, ← Finset.mul_sum, Finset.sum_const, Finset.card_univ,
    Fintype.card_fin, nsmul_eq_mul]
  field_simp

/-- The fitted line takes up the whole trend. -/
theorem olsSlope_trend (x y : Fin n → ℝ) (hx : ∃ i j, x i ≠ x j) (c a b : ℝ) :
    olsSlope x (fun i => c * y i + (a + b * x i)) = c * olsSlope x y + b := by
  have hs := (sxx_pos x hx).ne'
  have hn : n ≠ 0 := by rintro rfl; obtain ⟨i, -⟩ := hx; exact i.elim0
  have h : ∑ i, (x i - smean x) * (c * y i + (a + b * x i) - smean fun i => c * y i + (a + b * x i))
      = c * ∑ i, (x i - smean x) * (y i - smean y) + b * ∑ i, (x i - smean x) ^ 2 := by
    rw [smean_trend hn, Finset.mul_sum, Finset.mul_sum, ← Finset.sum_add_distrib]
    exact Finset.sum_congr rfl fun i _ => by ring
  rw [olsSlope, h, olsSlope]
  field_simp

theorem resid_trend (x y : Fin n → ℝ) (hx : ∃ i j, x i ≠ x j) (c a b : ℝ) :
    olsResiduals x (fun i => c * y i + (a + b * x i)) = fun i => c * olsResiduals x y i := by
  have hn : n ≠ 0 := by rintro rfl; obtain ⟨i, -⟩ := hx; exact i.elim0
  funext i
  rw [olsResiduals, olsIntercept, olsSlope_trend x y hx, smean_trend hn, olsResiduals, olsIntercept]
  ring

/-- **C255.**  Signals `y` and signals `c y + a + b x` at the same defects `x` have the same p-value in each of the seven tests, whatever the factor
`c ≠ 0`, positive or negative, and the trend `a + b x`. -/
theorem C255_tests (env : TestEnv (m + 2)) (henv : EvenTests env) (x y : Fin (m + 2) → ℝ) (hx : ∃ i j, x i ≠ x j) (c a b : ℝ) (hc : c ≠ 0)
    (T U : TestResults) (hT : analysisTests env x y = .ok T) (hU : analysisTests env x (fun i => c * y i + (a + b * x i)) = .ok U) :
    U.andersonDarling = T.andersonDarling ∧ U.cramerVonMises = T.cramerVonMises ∧ U.kolmogorov = T.kolmogorov ∧ U.zeroMean = T.zeroMean ∧
    U.breuschPagan = T.breuschPagan ∧ U.harrisonMcCabe = T.harrisonMcCabe ∧ U.durbinWatson = T.durbinWatson := by
  have hm : smean (olsResiduals x y) = 0 := by rw [smean, resid_sum x y (sxx_pos x hx).ne', zero_div]
  obtain ⟨a1, a2, a3, a4, a5, a6, a7⟩ := pvalues_multiple env henv x (olsResiduals x y) c hc hm
  rw [analysisTests, resid_trend x y hx, computeTests] at hU
  rw [analysisTests, computeTests] at hT
  split at hU
  · cases hU
  split at hT
  · cases hT
  split at hU
  · cases hU
  rename_i h0
  rw [if_neg h0] at hT
  rw [Except.ok.injEq] at hT hU
  subst hT hU
  exact ⟨a1, a2, a3, a4, a5, a6, a7⟩

/-- The variance of the signals splits into that of the residuals and that of the fitted line. -/
theorem svar_split (x y : Fin (m + 2) → ℝ) (hx : ∃ i j, x i ≠ x j) :
    (svar fun i => y i - smean y) = svar (olsResiduals x y) + olsSlope x y ^ 2 * svar x := by
  have hs := (sxx_pos x hx).ne'
  have hm : smean (olsResiduals x y) = 0 := by rw [smean, resid_sum x y hs, zero_div]
  have hc : (smean fun i => y i - smean y) = 0 := by
    rw [smean, sum_sub_mean y (by positivity), zero_div]
  have ho := resid_orth_centered x y hs
  rw [svar, svar, svar, hm, hc, ← mul_div_assoc, ← add_div]
  congr 1
  have e : ∀ i, (y i - smean y - 0) ^ 2
      = (olsResiduals x y i - 0) ^ 2 + olsSlope x y ^ 2 * (x i - smean x) ^ 2 + 2 * olsSlope x y * (olsResiduals x y i * (x i - smean x)) := by
    intro i
    have : y i - smean y = olsResiduals x y i + olsSlope x y * (x i - smean x) := by rw [resid_eq]; ring
    rw [this]
    ring
  simp only [e, Finset.sum_add_distrib, ← Finset.mul_sum, ho]
  ring

/-- **C255, R2.**  The R2 is free of the tests: from signals that are on no line one obtains, by adding a multiple of the defects, any R2 in [0, 1), with
the seven p-values unchanged. -/
theorem C255_r2 (env : TestEnv (m + 3)) (henv : EvenTests env) (x y : Fin (m + 3) → ℝ) (hx : ∃ i j, x i ≠ x j)
    (hy : ¬ ∃ a b, ∀ i, y i = a + b * x i) (q : ℝ) (h0 : 0 ≤ q) (h1 : q < 1) :
    ∃ b T U, analysisTests (m := m + 1) env x y = .ok T ∧ analysisTests (m := m + 1) env x (fun i => y i + b * x i) = .ok U ∧ U.R2 = .fin q ∧
      U.andersonDarling = T.andersonDarling ∧ U.cramerVonMises = T.cramerVonMises ∧ U.kolmogorov = T.kolmogorov ∧ U.zeroMean = T.zeroMean ∧
      U.breuschPagan = T.breuschPagan ∧ U.harrisonMcCabe = T.harrisonMcCabe ∧ U.durbinWatson = T.durbinWatson := by
  have hs := sxx_pos x hx
  have hn1 : (0 : ℝ) < ((m + 3 : ℕ) : ℝ) - 1 := by push_cast; have : (0 : ℝ) ≤ m := Nat.cast_nonneg m; linarith
  have hvx : 0 < svar x := by rw [svar]; exact div_pos hs hn1
  obtain ⟨⟨i, hi⟩, r2, hr2⟩ := off_line (m := m + 1) x y hy
  have hm : smean (olsResiduals x y) = 0 := by rw [smean, resid_sum x y hs.ne', zero_div]
  have hvr : 0 < svar (olsResiduals x y) := by
    rw [svar, hm]
    refine div_pos (Finset.sum_pos' (fun i _ => sq_nonneg _) ⟨i, Finset.mem_univ _, ?_⟩) hn1
    rw [sub_zero]
    positivity
  set t : ℝ := Real.sqrt (svar (olsResiduals x y) * q / ((1 - q) * svar x)) with ht
  have h1q : 0 < 1 - q := by linarith
  have ht2 : t ^ 2 = svar (olsResiduals x y) * q / ((1 - q) * svar x) := by
    rw [ht, Real.sq_sqrt]
    positivity
  set b := t - olsSlope x y with hb
  set z : Fin (m + 3) → ℝ := fun i => y i + b * x i with hz
  have ez : z = fun i => 1 * y i + (0 + b * x i) := by rw [hz]; funext i; ring
  have hrz : olsResiduals x z = olsResiduals x y := by
    rw [ez, resid_trend x y hx]; funext i; ring
  have hsz : olsSlope x z = t := by rw [ez, olsSlope_trend x y hx, hb]; ring
  have hvz : (svar fun i => z i - smean z) = svar (olsResiduals x y) / (1 - q) := by
    rw [svar_split (m := m + 1) x z hx, hrz, hsz, ht2]
    field_simp
    ring
  have hR : computeR2 z (olsResiduals x z) = .ok q := by
    rw [computeR2]
    simp only [hvz, hrz]
    rw [if_neg (div_pos hvr h1q).ne']
    congr 1
    field_simp
    ring
  have hT : ∃ T, analysisTests (m := m + 1) env x y = .ok T :=
    ⟨_, by rw [analysisTests, computeTests, hr2]; exact if_neg (Nat.succ_ne_zero m)⟩
  have hU : ∃ U, analysisTests (m := m + 1) env x z = .ok U ∧ U.R2 = .fin q :=
    ⟨_, by rw [analysisTests, computeTests, hR]; exact if_neg (Nat.succ_ne_zero m), rfl⟩
  obtain ⟨T, hT⟩ := hT
  obtain ⟨U, hU, hq⟩ := hU
  refine ⟨b, T, U, hT, hU, hq, ?_⟩
  rw [ez] at hU
  exact C255_tests (m := m + 1) env henv x y hx 1 0 b one_ne_zero T U hT hU

/-- The signals 1, 3, 2, 8 at the sizes 1, 2, 4, 5: the opposite signals on a rising trend pass the same tests. -/
example (T U : TestResults) (hT : analysisTests (m := 2) (statEnv 4) ![1, 2, 4, 5] ![1, 3, 2, 8] = .ok T)
    (hU : analysisTests (m := 2) (statEnv 4) ![1, 2, 4, 5] (fun i => -1 * (![1, 3, 2, 8] : Fin 4 → ℝ) i + (10 + 7 * (![1, 2, 4, 5] : Fin 4 → ℝ) i)) = .ok U) :
    U.durbinWatson = T.durbinWatson :=
  (C255_tests (m := 2) (statEnv 4) (statEnv_even 4) ![1, 2, 4, 5] ![1, 3, 2, 8] ⟨0, 1, by norm_num⟩ (-1) 10 7 (by norm_num) T U hT hU).2.2.2.2.2.2

/-- The same signals with a trend that brings the R2 to 0.99. -/
example : ∃ b T U, analysisTests (m := 2) (statEnv 4) ![1, 2, 4, 5] ![1, 3, 2, 8] = .ok T ∧
    analysisTests (m := 2) (statEnv 4) ![1, 2, 4, 5] (fun i => (![1, 3, 2, 8] : Fin 4 → ℝ) i + b * (![1, 2, 4, 5] : Fin 4 → ℝ) i) = .ok U ∧
    U.R2 = .fin 0.99 ∧ U.breuschPagan = T.breuschPagan := by
  obtain ⟨b, T, U, h1, h2, h3, -, -, -, -, h4, -⟩ := C255_r2 (m := 1) (statEnv 4) (statEnv_even 4) ![1, 2, 4, 5] ![1, 3, 2, 8] ⟨0, 1, by norm_num⟩
    (by
      rintro ⟨a, b, h⟩
      have h0 := h 0
      have h1 := h 1
      have h2 := h 2
      simp at h0 h1 h2
      linarith) 0.99 (by norm_num) (by norm_num)
  exact ⟨b, T, U, h1, h2, h3, h4⟩

end Verif.Props
