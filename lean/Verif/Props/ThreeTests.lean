import Verif.Props.TestUnits
import Verif.Props.DwNumber
import Verif.Props.HmcCalibration
import Verif.Props.PliDraw
import Verif.Model.NormalFit

/-!
# C187: do the tests of the analysis look at the signals? (/repo/otpod/_univariate_linear_model_analysis.py 295-341)
-/

namespace Verif.Props
open Verif.Py Verif.Model

variable {n m : ℕ}

/-- Contract of the tests of OpenTURNS: they do not depend on the scale of the sample nor on its sign, when the law is mirrored as well.  True of the tests
of Kolmogorov, Cramér-von Mises and Anderson-Darling, whose statistics measure both sides alike. -/
structure EvenTests (env : TestEnv n) : Prop extends ScaleFree env where
  ad_neg : ∀ r : Fin n → ℝ, env.andersonDarling (fun i => -r i) = env.andersonDarling r
  cvm_neg : ∀ r : Fin n → ℝ, env.cramerVonMises (fun i => -r i) = env.cramerVonMises r
  kol_neg : ∀ (r : Fin n → ℝ) (G : ℝ → ℝ), Continuous G → env.kolmogorov (fun i => -r i) (fun s => 1 - G (-s)) = env.kolmogorov r G

theorem smean_neg' (r : Fin n → ℝ) : (smean fun i => -r i) = -smean r := by
  have := smean_scale r (-1)
  simpa using this

theorem svar_neg' (r : Fin n → ℝ) : (svar fun i => -r i) = svar r := by
  have := svar_scale r (-1)
  simpa using this

theorem normalFitCdf_continuous (r : Fin n → ℝ) : Continuous (normalFitCdf r) := by
  unfold normalFitCdf
  exact Phi_continuous.comp ((continuous_id.sub continuous_const).div_const _)

theorem normalFitCdf_neg (r : Fin n → ℝ) : (normalFitCdf fun i => -r i) = fun s => 1 - normalFitCdf r (-s) := by
  funext s
  rw [normalFitCdf, normalFitCdf, smean_neg', svar_neg', ← Phi_neg]
  congr 1
  ring

theorem normalFitCdf_scale (r : Fin n → ℝ) {c : ℝ} (hc : 0 < c) : (normalFitCdf fun i => c * r i) = fun s => normalFitCdf r (s / c) := by
  funext s
  rw [normalFitCdf, normalFitCdf, smean_scale, svar_scale, Real.sqrt_mul (by positivity), Real.sqrt_sq hc.le]
  congr 1
  field_simp

/-! ## All the tests of a sample and of its multiples -/

/-- The p-values of centred residuals and of any multiple of them, positive or negative, are the same. -/
theorem pvalues_multiple (env : TestEnv (m + 2)) (henv : EvenTests env) (x r : Fin (m + 2) → ℝ) (c : ℝ) (hc : c ≠ 0) (hr : smean r = 0) :
    env.andersonDarling (fun i => c * r i) = env.andersonDarling r ∧ env.cramerVonMises (fun i => c * r i) = env.cramerVonMises r ∧
    env.kolmogorov (fun i => c * r i) (normalFitCdf fun i => c * r i) = env.kolmogorov r (normalFitCdf r) ∧
    zeroMeanPValue env.pStudent (fun i => c * r i) = zeroMeanPValue env.pStudent r ∧
    breuschPaganPValue env.pChiSquare x (fun i => c * r i) = breuschPaganPValue env.pChiSquare x r ∧
    harrisonMcCabePValue env.sims (fun i => c * r i) = harrisonMcCabePValue env.sims r ∧
    durbinWatsonPValue x (fun i => c * r i) = durbinWatsonPValue x r := by
  have pos : ∀ (c : ℝ) (r : Fin (m + 2) → ℝ), 0 < c → smean r = 0 →
      env.andersonDarling (fun i => c * r i) = env.andersonDarling r ∧ env.cramerVonMises (fun i => c * r i) = env.cramerVonMises r ∧
      env.kolmogorov (fun i => c * r i) (normalFitCdf fun i => c * r i) = env.kolmogorov r (normalFitCdf r) ∧
      zeroMeanPValue env.pStudent (fun i => c * r i) = zeroMeanPValue env.pStudent r ∧
      breuschPaganPValue env.pChiSquare x (fun i => c * r i) = breuschPaganPValue env.pChiSquare x r ∧
      harrisonMcCabePValue env.sims (fun i => c * r i) = harrisonMcCabePValue env.sims r ∧
      durbinWatsonPValue x (fun i => c * r i) = durbinWatsonPValue x r := by
    intro c r hc hr
    have h2 : 0 < c ^ 2 := by positivity
    refine ⟨henv.ad _ _ hc, henv.cvm _ _ hc, by rw [normalFitCdf_scale r hc]; exact henv.kol _ _ _ hc, ?_, ?_, ?_, ?_⟩
    · have : Real.sqrt (c ^ 2 * svar r / (m + 2 : ℕ)) = c * Real.sqrt (svar r / (m + 2 : ℕ)) := by
        rw [mul_div_assoc, Real.sqrt_mul h2.le, Real.sqrt_sq hc.le]
      rw [zeroMeanPValue, zeroMeanPValue, smean_scale, svar_scale, this, fdiv_scale hc]
    · set w : Fin (m + 2) → ℝ := fun i => r i ^ 2 - (∑ i, r i ^ 2) / (m + 2 : ℕ) with hwd
      have h5 : ∀ i, (c * r i) ^ 2 - (∑ i, (c * r i) ^ 2) / (m + 2 : ℕ) = c ^ 2 * w i + 0 := by
        intro i; rw [sum_sq_scale, hwd]; ring
      have hl : ∀ i, olsIntercept x (fun i => c ^ 2 * w i + 0) + olsSlope x (fun i => c ^ 2 * w i + 0) * x i
          = c ^ 2 * (olsIntercept x w + olsSlope x w * x i) + 0 := by
        intro i
        have := line_affine x w 1 0 (c ^ 2) 0 (by omega) one_ne_zero (x i)
        simpa only [one_mul, add_zero] using this
      have h3 : ∑ i, (c ^ 2 * w i + 0) ^ 2 = (c ^ 2) ^ 2 * ∑ i, w i ^ 2 := by
        rw [← sum_sq_scale]; simp only [add_zero]
      have h4 : ∑ i, (c ^ 2 * (olsIntercept x w + olsSlope x w * x i) + 0) ^ 2
          = (c ^ 2) ^ 2 * ∑ i, (olsIntercept x w + olsSlope x w * x i) ^ 2 := by
        rw [← sum_sq_scale]; simp only [add_zero]
      unfold breuschPaganPValue
      simp only [h5, hl, h3, h4]
      rw [mul_left_comm, fdiv_scale (by positivity)]
    · simp only [harrisonMcCabePValue, hmcRatio_scale _ _ hc.ne']
    · have h1 : ∀ i : Fin (m + 1), c * r i.succ - c * r i.castSucc = c * (r i.succ - r i.castSucc) := fun i => by ring
      simp only [durbinWatsonPValue, h1, sum_sq_scale, fdiv_scale h2]
  rcases lt_or_gt_of_ne hc with hneg | hpos
  · have hr' : (smean fun i => -r i) = 0 := by rw [smean_neg', hr, neg_zero]
    have e : (fun i => c * r i) = fun i => (-c) * (-r i) := by funext i; ring
    obtain ⟨a1, a2, a3, a4, a5, a6, a7⟩ := pos (-c) (fun i => -r i) (by linarith) hr'
    rw [e, a1, a2, a3, a4, a5, a6, a7]
    have hsq : ∀ i, (-r i) ^ 2 = r i ^ 2 := fun i => by ring
    refine ⟨henv.ad_neg r, henv.cvm_neg r, ?_, ?_, ?_, ?_, ?_⟩
    · rw [normalFitCdf_neg]; exact henv.kol_neg r _ (normalFitCdf_continuous r)
    · rw [zeroMeanPValue, zeroMeanPValue, hr', hr, svar_neg']
    · simp only [breuschPaganPValue, hsq]
    · simp only [harrisonMcCabePValue, hmcRatio, hsq]
    · have h1 : ∀ i : Fin (m + 1), (-r i.succ - -r i.castSucc) ^ 2 = (r i.succ - r i.castSucc) ^ 2 := fun i => by ring
      simp only [durbinWatsonPValue, h1, hsq]
  · exact pos c r hpos hr

/-- Signals that are on no line have residuals that are not all zero, and the R2 can be computed. -/
theorem off_line (x y : Fin (m + 2) → ℝ) (hy : ¬ ∃ a b, ∀ i, y i = a + b * x i) :
    (∃ i, olsResiduals x y i ≠ 0) ∧ ∃ r2, computeR2 y (olsResiduals x y) = .ok r2 := by
  constructor
  · by_contra h
    push Not at h
    refine hy ⟨olsIntercept x y, olsSlope x y, fun i => ?_⟩
    have := h i
    rw [olsResiduals] at this
    linarith
  · rw [computeR2]
    have hv : (svar fun i => y i - smean y) ≠ 0 := by
      intro h
      refine hy ⟨smean y, 0, fun i => ?_⟩
      have hc : (smean fun i => y i - smean y) = 0 := by
        rw [smean, Finset.sum_sub_distrib, smean, Finset.sum_const, Finset.card_univ, Fintype.card_fin, nsmul_eq_mul]
        have : ((m + 2 : ℕ) : ℝ) ≠ 0 := by positivity
        field_simp
        ring
      rw [svar, hc] at h
      have hn : (((m + 2 : ℕ) : ℝ) - 1) ≠ 0 := by push_cast; have : (0 : ℝ) ≤ m := Nat.cast_nonneg m; intro h; linarith
      rw [div_eq_zero_iff, or_iff_left hn] at h
      have := (Finset.sum_eq_zero_iff_of_nonneg fun i _ => sq_nonneg _).1 h i (Finset.mem_univ i)
      rw [sub_zero, pow_eq_zero_iff two_ne_zero] at this
      linarith
    simp only [hv, if_false]
    exact ⟨_, rfl⟩

/-- **C187 is violated.**  With three observations, not all at the same defect, the tests of the analysis do not look at the signals: two data sets at the
same defects, whatever their signals, have the same p-values in every test (normality, Kolmogorov, zero mean, Breusch-Pagan, Harrison-McCabe,
Durbin-Watson), unless the signals are exactly on a line. -/
theorem C187_violated (env : TestEnv 3) (henv : EvenTests env) (x : Fin 3 → ℝ) (hx : ∃ i j, x i ≠ x j) (y z : Fin 3 → ℝ)
    (hy : ¬ ∃ a b, ∀ i, y i = a + b * x i) (hz : ¬ ∃ a b, ∀ i, z i = a + b * x i) :
    ∃ T U, analysisTests (m := 1) env x y = .ok T ∧ analysisTests (m := 1) env x z = .ok U ∧
      U.andersonDarling = T.andersonDarling ∧ U.cramerVonMises = T.cramerVonMises ∧ U.kolmogorov = T.kolmogorov ∧ U.zeroMean = T.zeroMean ∧
      U.breuschPagan = T.breuschPagan ∧ U.harrisonMcCabe = T.harrisonMcCabe ∧ U.durbinWatson = T.durbinWatson := by
  obtain ⟨⟨i, hi⟩, r2, hr2⟩ := off_line (m := 1) x y hy
  obtain ⟨⟨j, hj⟩, s2, hs2⟩ := off_line (m := 1) x z hz
  obtain ⟨s, hs⟩ := resid_three x y hx
  obtain ⟨t, ht⟩ := resid_three x z hx
  have hs0 : s ≠ 0 := by rintro rfl; exact hi (by rw [hs]; simp)
  have ht0 : t ≠ 0 := by rintro rfl; exact hj (by rw [ht]; simp)
  have hzy : olsResiduals x z = fun i => t / s * olsResiduals x y i := by
    rw [ht, hs]
    funext i
    field_simp
  have hm : smean (olsResiduals x y) = 0 := by rw [smean, resid_sum x y (sxx_pos x hx).ne', zero_div]
  obtain ⟨a1, a2, a3, a4, a5, a6, a7⟩ := pvalues_multiple (m := 1) env henv x (olsResiduals x y) (t / s) (div_ne_zero ht0 hs0) hm
  rw [← hzy] at a1 a2 a3 a4 a5 a6 a7
  refine ⟨_, _, by rw [analysisTests, computeTests, hr2]; exact if_neg one_ne_zero,
    by rw [analysisTests, computeTests, hs2]; exact if_neg one_ne_zero, a1, a2, a3, a4, a5, a6, a7⟩

/-! ## The contract is that of real tests -/

/-- Share of the sample below a point (strictly, or not). -/
noncomputable def shareLt (r : Fin n → ℝ) (i : Fin n) : ℝ := ((Finset.univ.filter fun j => r j < r i).card : ℝ) / n
noncomputable def shareLe (r : Fin n → ℝ) (i : Fin n) : ℝ := ((Finset.univ.filter fun j => r j ≤ r i).card : ℝ) / n

/-- The statistic of Kolmogorov: the largest gap between the law and the empirical distribution, on both sides of each point. -/
noncomputable def gapStat (r : Fin n → ℝ) (G : ℝ → ℝ) : ℝ := ⨆ i, max (shareLe r i - G (r i)) (G (r i) - shareLt r i)

/-- The statistic of Cramér and von Mises, up to its constant. -/
noncomputable def squareStat (r : Fin n → ℝ) (G : ℝ → ℝ) : ℝ := ∑ i, (G (r i) - (shareLe r i + shareLt r i) / 2) ^ 2

theorem share_neg (r : Fin n → ℝ) (i : Fin n) : shareLe (fun i => -r i) i = 1 - shareLt r i ∧ shareLt (fun i => -r i) i = 1 - shareLe r i := by
  have hn : (n : ℝ) ≠ 0 := by have := i.pos; positivity
  have c1 := Finset.card_filter_add_card_filter_not (s := (Finset.univ : Finset (Fin n))) (fun j => r j < r i)
  have c2 := Finset.card_filter_add_card_filter_not (s := (Finset.univ : Finset (Fin n))) (fun j => r j ≤ r i)
  rw [Finset.card_univ, Fintype.card_fin] at c1 c2
  constructor
  · rw [shareLe, shareLt]
    simp only [neg_le_neg_iff]
    simp only [not_lt] at c1
    rw [eq_sub_iff_add_eq, ← add_div, div_eq_one_iff_eq hn]
    have : (((Finset.univ.filter fun j => r j < r i).card + (Finset.univ.filter fun j => r i ≤ r j).card : ℕ) : ℝ) = n := by rw [c1]
    push_cast at this
    linarith
  · rw [shareLe, shareLt]
    simp only [neg_lt_neg_iff]
    simp only [not_le] at c2
    rw [eq_sub_iff_add_eq, ← add_div, div_eq_one_iff_eq hn]
    have : (((Finset.univ.filter fun j => r j ≤ r i).card + (Finset.univ.filter fun j => r i < r j).card : ℕ) : ℝ) = n := by rw [c2]
    push_cast at this
    linarith

theorem share_scale (r : Fin n → ℝ) (i : Fin n) {c : ℝ} (hc : 0 < c) :
    shareLe (fun i => c * r i) i = shareLe r i ∧ shareLt (fun i => c * r i) i = shareLt r i := by
  simp only [shareLe, shareLt, mul_le_mul_iff_right₀ hc, mul_lt_mul_iff_right₀ hc, and_self]

/-- Tests with the statistics of Kolmogorov and of Cramér and von Mises, the p-value being a decreasing function of the statistic. -/
noncomputable def statEnv (n : ℕ) : TestEnv n where
  andersonDarling r := .fin (Real.exp (-squareStat r (normalFitCdf r)))
  cramerVonMises r := .fin (Real.exp (-squareStat r (normalFitCdf r)))
  kolmogorov r G := .fin (Real.exp (-gapStat r G))
  pStudent _ x := x
  pChiSquare x := x
  sims := [fun i => (i : ℝ) + 1, fun i => (i : ℝ) ^ 2 + 1]

theorem statEnv_even (n : ℕ) : EvenTests (statEnv n) := by
  have sq_scale : ∀ (r : Fin n → ℝ) (c : ℝ), 0 < c → squareStat (fun i => c * r i) (normalFitCdf fun i => c * r i) = squareStat r (normalFitCdf r) := by
    intro r c hc
    simp only [squareStat, normalFitCdf_scale r hc, (share_scale r _ hc).1, (share_scale r _ hc).2, mul_div_cancel_left₀ _ hc.ne']
  have sq_neg : ∀ r : Fin n → ℝ, squareStat (fun i => -r i) (normalFitCdf fun i => -r i) = squareStat r (normalFitCdf r) := by
    intro r
    simp only [squareStat, normalFitCdf_neg r, (share_neg r _).1, (share_neg r _).2, neg_neg]
    exact Finset.sum_congr rfl fun i _ => by ring
  refine ⟨⟨fun r c hc => ?_, fun r c hc => ?_, fun r G c hc => ?_⟩, fun r => ?_, fun r => ?_, fun r G _ => ?_⟩
  · simp only [statEnv, sq_scale r c hc]
  · simp only [statEnv, sq_scale r c hc]
  · simp only [statEnv, gapStat, (share_scale r _ hc).1, (share_scale r _ hc).2, mul_div_cancel_left₀ _ hc.ne']
  · simp only [statEnv, sq_neg r]
  · simp only [statEnv, sq_neg r]
  · simp only [statEnv, gapStat, (share_neg r _).1, (share_neg r _).2, neg_neg]
    congr 3
    refine iSup_congr fun i => ?_
    rw [max_comm]
    congr 1 <;> ring

/-- Two very different data sets at the sizes 1, 2, 4. -/
example : ∃ T U, analysisTests (m := 1) (statEnv 3) ![1, 2, 4] ![3, -8, 100] = .ok T ∧ analysisTests (m := 1) (statEnv 3) ![1, 2, 4] ![1, 2, 4.01] = .ok U ∧
    U.kolmogorov = T.kolmogorov ∧ U.breuschPagan = T.breuschPagan := by
  obtain ⟨T, U, h1, h2, -, -, h3, -, h4, -⟩ := C187_violated (statEnv 3) (statEnv_even 3) ![1, 2, 4] ⟨0, 1, by norm_num⟩ ![3, -8, 100] ![1, 2, 4.01]
    (by
      rintro ⟨a, b, h⟩
      have h0 := h 0
      have h1 := h 1
      have h2 := h 2
      simp at h0 h1 h2
      linarith)
    (by
      rintro ⟨a, b, h⟩
      have h0 := h 0
      have h1 := h 1
      have h2 := h 2
      simp at h0 h1 h2
      linarith)
  exact ⟨T, U, h1, h2, h3, h4⟩

/-! ## With more observations -/

/-- Signals that are uncorrelated with the sizes and centred are their own residuals. -/
theorem own_residuals (x r : Fin (m + 2) → ℝ) (h0 : ∑ i, r i = 0) (h1 : ∑ i, r i * x i = 0) : olsResiduals x r = r := by
  have hm : smean r = 0 := by rw [smean, h0, zero_div]
  have hs : olsSlope x r = 0 := by
    rw [olsSlope, hm]
    have : ∑ i, (x i - smean x) * (r i - 0) = ∑ i, r i * x i - smean x * ∑ i, r i := by
      rw [Finset.mul_sum, ← Finset.sum_sub_distrib]
      exact Finset.sum_congr rfl fun i _ => by ring
    rw [this, h0, h1]
    simp
  funext i
  rw [olsResiduals, olsIntercept, hs, hm]
  ring

/-- Three observations carry residuals: a vector that is not zero, centred, uncorrelated with the sizes and zero elsewhere. -/
theorem three_residuals (x : Fin n → ℝ) (a b c : Fin n) (hab : a ≠ b) (hac : a ≠ c) (hbc : b ≠ c) :
    ∃ r : Fin n → ℝ, ∑ i, r i = 0 ∧ ∑ i, r i * x i = 0 ∧ (∃ i, r i ≠ 0) ∧ ∀ i, i ≠ a → i ≠ b → i ≠ c → r i = 0 := by
  have build : ∀ u v w : ℝ, u + v + w = 0 → u * x a + v * x b + w * x c = 0 → (u ≠ 0 ∨ v ≠ 0 ∨ w ≠ 0) →
      ∃ r : Fin n → ℝ, ∑ i, r i = 0 ∧ ∑ i, r i * x i = 0 ∧ (∃ i, r i ≠ 0) ∧ ∀ i, i ≠ a → i ≠ b → i ≠ c → r i = 0 := by
    intro u v w h1 h2 h3
    refine ⟨fun i => (if i = a then u else 0) + (if i = b then v else 0) + (if i = c then w else 0), ?_, ?_, ?_, ?_⟩
    · simp only [Finset.sum_add_distrib, Finset.sum_ite_eq', Finset.mem_univ, if_true]
      exact h1
    · simp only [add_mul, Finset.sum_add_distrib, ite_mul, zero_mul, Finset.sum_ite_eq', Finset.mem_univ, if_true]
      exact h2
    · rcases h3 with h | h | h
      · exact ⟨a, by simpa [hab, hac] using h⟩
      · exact ⟨b, by simpa [hab.symm, hbc] using h⟩
      · exact ⟨c, by simpa [hac.symm, hbc.symm] using h⟩
    · intro i ha hb hc
      simp [ha, hb, hc]
  by_cases h : x a = x b
  · exact build 1 (-1) 0 (by ring) (by rw [h]; ring) (Or.inl one_ne_zero)
  · exact build (x b - x c) (x c - x a) (x a - x b) (by ring) (by ring) (Or.inr (Or.inr (sub_ne_zero.2 h)))

theorem breakPoint_half (n : ℕ) : breakPoint (1 / 2 : ℝ) n = n / 2 := by
  have h : ⌊(1 / 2 : ℝ) * n⌋ = ((n / 2 : ℕ) : ℤ) := by
    rw [Int.floor_eq_iff]
    have h1 : (2 * (n / 2) : ℕ) ≤ n := Nat.mul_div_le n 2
    have h2 : n < 2 * (n / 2 + 1) := by omega
    have h1' : (2 * ((n / 2 : ℕ) : ℝ)) ≤ n := by exact_mod_cast h1
    have h2' : (n : ℝ) < 2 * (((n / 2 : ℕ) : ℝ) + 1) := by exact_mod_cast h2
    rw [Int.cast_natCast]
    constructor <;> linarith
  rw [breakPoint, h, Int.toNat_natCast]

/-- **C187, restricted.**  With at least six observations the tests look at the signals: at every design there are signals for which the p-value of the
Harrison-McCabe test is 1 and signals for which it is 0, provided the simulated samples of the test are not zero on one of the two halves. -/
theorem C187_six_partial (env : TestEnv (m + 6)) (x : Fin (m + 6) → ℝ) (hN : env.sims ≠ [])
    (hs : ∀ s ∈ env.sims, ∃ i : Fin (m + 6), i.val < (m + 6) / 2 ∧ s i ≠ 0) :
    ∃ y z T U, analysisTests (m := m + 4) env x y = .ok T ∧ analysisTests (m := m + 4) env x z = .ok U ∧
      T.harrisonMcCabe = .fin 1 ∧ U.harrisonMcCabe = .fin 0 := by
  obtain ⟨y, y0, y1, ⟨iy, hiy⟩, y2⟩ := three_residuals x ⟨0, by omega⟩ ⟨1, by omega⟩ ⟨2, by omega⟩ (by simp) (by simp) (by simp)
  obtain ⟨z, z0, z1, ⟨iz, hiz⟩, z2⟩ := three_residuals x ⟨m + 3, by omega⟩ ⟨m + 4, by omega⟩ ⟨m + 5, by omega⟩ (by simp) (by simp) (by simp)
  have ey := own_residuals (m := m + 4) x y y0 y1
  have ez := own_residuals (m := m + 4) x z z0 z1
  have offLine : ∀ r : Fin (m + 6) → ℝ, (∃ i, r i ≠ 0) → olsResiduals x r = r → ∑ i, r i = 0 → ∑ i, r i * x i = 0 → ¬ ∃ a b, ∀ i, r i = a + b * x i := by
    rintro r ⟨i, hi⟩ - h0 h1 ⟨a, b, h⟩
    have : ∑ i, r i ^ 2 = 0 := by
      have e : ∀ i, r i ^ 2 = a * r i + b * (r i * x i) := fun i => by rw [pow_two]; nth_rw 2 [h i]; ring
      simp only [e, Finset.sum_add_distrib, ← Finset.mul_sum, h0, h1]
      ring
    have := (Finset.sum_eq_zero_iff_of_nonneg fun i _ => sq_nonneg _).1 this i (Finset.mem_univ i)
    exact hi (pow_eq_zero_iff two_ne_zero |>.1 this)
  obtain ⟨-, r2, hr2⟩ := off_line (m := m + 4) x y (offLine y ⟨iy, hiy⟩ ey y0 y1)
  obtain ⟨-, s2, hs2⟩ := off_line (m := m + 4) x z (offLine z ⟨iz, hiz⟩ ez z0 z1)
  have sqpos : ∀ r : Fin (m + 6) → ℝ, (∃ i, r i ≠ 0) → ∑ i, r i ^ 2 ≠ 0 := by
    rintro r ⟨i, hi⟩
    exact (Finset.sum_pos' (fun i _ => sq_nonneg _) ⟨i, Finset.mem_univ _, by positivity⟩).ne'
  have hy : hmcRatio ((m + 6) / 2) y = .fin 1 := by
    rw [hmcRatio, F.div_fin _ (sqpos y ⟨iy, hiy⟩), Finset.sum_filter_of_ne, div_self (sqpos y ⟨iy, hiy⟩)]
    intro i _ hi
    by_contra hlt
    refine hi ?_
    rw [y2 i (by rintro rfl; exact hlt (by change 0 < _; omega)) (by rintro rfl; exact hlt (by change 1 < _; omega)) (by rintro rfl; exact hlt (by change 2 < _; omega))]
    simp
  have hz : hmcRatio ((m + 6) / 2) z = .fin 0 := by
    rw [hmcRatio, F.div_fin _ (sqpos z ⟨iz, hiz⟩), Finset.sum_eq_zero, zero_div]
    intro i hi
    rw [Finset.mem_filter] at hi
    rw [z2 i (by rintro rfl; have := hi.2; simp at this; omega) (by rintro rfl; have := hi.2; simp at this; omega)
      (by rintro rfl; have := hi.2; simp at this; omega)]
    simp
  have hL : (env.sims.length : ℝ) ≠ 0 := by simpa using hN
  have hsim : ∀ s ∈ env.sims, ∃ q, hmcRatio ((m + 6) / 2) s = .fin q ∧ 0 < q ∧ q ≤ 1 := by
    intro s h
    obtain ⟨i, hi, h0⟩ := hs s h
    have hp : 0 < ∑ i, s i ^ 2 := lt_of_le_of_ne (Finset.sum_nonneg fun i _ => sq_nonneg _) (Ne.symm (sqpos s ⟨i, h0⟩))
    refine ⟨_, by rw [hmcRatio, F.div_fin _ hp.ne'], div_pos ?_ hp, (div_le_one hp).2 ?_⟩
    · exact Finset.sum_pos' (fun i _ => sq_nonneg _) ⟨i, Finset.mem_filter.2 ⟨Finset.mem_univ _, hi⟩, by positivity⟩
    · exact Finset.sum_le_sum_of_subset_of_nonneg (Finset.filter_subset _ _) fun i _ _ => sq_nonneg _
  refine ⟨y, z, _, _, by rw [analysisTests, computeTests, hr2]; exact if_neg (by omega),
    by rw [analysisTests, computeTests, hs2]; exact if_neg (by omega), ?_, ?_⟩
  · change harrisonMcCabePValue env.sims (olsResiduals x y) = _
    rw [ey, harrisonMcCabePValue, breakPoint_half]
    rw [hy, F.div_fin _ hL, List.countP_eq_length.2, List.length_map, div_self hL]
    intro q hq
    obtain ⟨s, h, rfl⟩ := List.mem_map.1 hq
    obtain ⟨q, e, -, h1⟩ := hsim s h
    rw [e, F.le_fin]
    exact decide_eq_true h1
  · change harrisonMcCabePValue env.sims (olsResiduals x z) = _
    rw [ez, harrisonMcCabePValue, breakPoint_half]
    rw [hz, F.div_fin _ hL, List.countP_eq_zero.2]
    · simp
    · intro q hq
      obtain ⟨s, h, rfl⟩ := List.mem_map.1 hq
      obtain ⟨q, e, h0, -⟩ := hsim s h
      rw [e, F.le_fin]
      simpa using h0

/-- Six observations at the sizes 1, 2, 2, 3, 5, 8. -/
example : ∃ y z T U, analysisTests (m := 4) (statEnv 6) ![1, 2, 2, 3, 5, 8] y = .ok T ∧ analysisTests (m := 4) (statEnv 6) ![1, 2, 2, 3, 5, 8] z = .ok U ∧
    T.harrisonMcCabe = .fin 1 ∧ U.harrisonMcCabe = .fin 0 :=
  C187_six_partial (m := 0) (statEnv 6) ![1, 2, 2, 3, 5, 8] (by simp [statEnv]) (by
    intro s h
    simp only [statEnv, List.mem_cons, List.not_mem_nil, or_false] at h
    rcases h with rfl | rfl <;> exact ⟨0, by norm_num, by norm_num⟩)

end Verif.Props
