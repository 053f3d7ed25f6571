import Verif.Props.StudentLaw
import Verif.Props.CensoredBinomial
import Verif.Model.AnalysisFull

/-!
# C183: the zero mean test of an analysis with thresholds (`_univariate_linear_model_analysis.py` 281-302, `_math_tools.py` 125-132)
-/

namespace Verif.Props
open Verif.Py Verif.Model ProbabilityTheory MeasureTheory Set Filter Topology
open scoped ENNReal

theorem sum_getD {α : Type} (l : List α) (d : α) (f : α → ℝ) (n : ℕ) (hn : l.length = n) :
    ∑ i : Fin n, f (l.getD i d) = (l.map f).sum := by
  subst hn
  rw [Fin.sum_univ_eq_sum_range (fun i => f (l.getD i d))]
  induction l with
  | nil => simp
  | cons a l ih =>
    rw [List.length_cons, Finset.sum_range_succ', List.map_cons, List.sum_cons, add_comm]
    simp only [List.getD_cons_zero, List.getD_cons_succ]
    rw [ih]

/-- Residuals of any line are not all equal when the observations are not on a line. -/
theorem residuals_differ (L : List (ℝ × ℝ)) (hL : L ≠ []) (hline : ¬ ∃ b0 b1 : ℝ, ∀ o ∈ L, o.2 = b0 + b1 * o.1) (c0 c1 : ℝ) :
    ∃ a ∈ lineResiduals c0 c1 L, ∃ b ∈ lineResiduals c0 c1 L, a ≠ b := by
  by_contra h
  push Not at h
  obtain ⟨o, ho⟩ := List.exists_mem_of_ne_nil L hL
  refine hline ⟨c0 + (o.2 - (c0 + c1 * o.1)), c1, fun p hp => ?_⟩
  have := h _ (List.mem_map.2 ⟨p, hp, rfl⟩) _ (List.mem_map.2 ⟨o, ho, rfl⟩)
  linarith

theorem getD_differ {α : Type} (l : List α) (d : α) (n : ℕ) (hn : l.length = n) (f : α → ℝ) (h : ∃ a ∈ l, ∃ b ∈ l, f a ≠ f b) :
    ∃ i j : Fin n, f (l.getD i d) ≠ f (l.getD j d) := by
  obtain ⟨a, ha, b, hb, hab⟩ := h
  obtain ⟨i, hi, rfl⟩ := List.getElem_of_mem ha
  obtain ⟨j, hj, rfl⟩ := List.getElem_of_mem hb
  refine ⟨⟨i, hn ▸ hi⟩, ⟨j, hn ▸ hj⟩, ?_⟩
  rw [List.getD_eq_getElem _ _ hi, List.getD_eq_getElem _ _ hj]
  exact hab

theorem svar_pos_of_differ {n : ℕ} (hn : 2 ≤ n) (r : Fin n → ℝ) (h : ∃ i j, r i ≠ r j) : 0 < svar r := by
  obtain ⟨i, j, hij⟩ := h
  exact lt_of_le_of_ne (svar_nonneg hn r) (fun h => hij ((svar_eq_zero_iff hn r).mp h.symm i j))

/-- The tests of a fit give a result when there are three observations that are not on a line. -/
theorem fitTests_ok (tenv : ∀ n, TestEnv n) (L : List (ℝ × ℝ)) (hn : 3 ≤ L.length)
    (hline : ¬ ∃ b0 b1 : ℝ, ∀ o ∈ L, o.2 = b0 + b1 * o.1) (l : List ℝ) (d : ℝ → ℝ) :
    ∃ T, fitTests tenv L l d = .ok T ∧
      T.zeroMean = zeroMeanPValue (tenv (L.length - 2 + 2)).pStudent (fun i : Fin (L.length - 2 + 2) => l.getD i 0) := by
  have hL : L ≠ [] := by rintro rfl; simp at hn
  have hlen : L.length = L.length - 2 + 2 := by omega
  have hsig : ∃ i j : Fin (L.length - 2 + 2), (L.getD i (0, 0)).2 ≠ (L.getD j (0, 0)).2 := by
    refine getD_differ L (0, 0) _ hlen Prod.snd ?_
    by_contra h
    push Not at h
    obtain ⟨o, ho⟩ := List.exists_mem_of_ne_nil L hL
    exact hline ⟨o.2, 0, fun p hp => by rw [h p hp o ho]; ring⟩
  have hv : svar (fun i : Fin (L.length - 2 + 2) => (L.getD i (0, 0)).2 - smean fun i : Fin (L.length - 2 + 2) => (L.getD i (0, 0)).2) ≠ 0 := by
    refine (svar_pos_of_differ (by omega) _ ?_).ne'
    obtain ⟨i, j, hij⟩ := hsig
    exact ⟨i, j, fun h => hij (by linarith)⟩
  rw [fitTests, if_neg (by omega), computeTests, computeR2, if_neg hv]
  simp only
  rw [if_neg (by omega)]
  exact ⟨_, rfl, rfl⟩

/-- A run of the analysis with thresholds gives a result when the kept observations are at least three, have different sizes and are not on a line. -/
theorem full_ok (fmax : ℝ) (env : LinEnv) (henv : ExactFit env) (tenv : ∀ n, TestEnv n) (fact : List ℝ → Res (ℝ → ℝ))
    (hfact : ∀ l : List ℝ, (∃ a ∈ l, ∃ b ∈ l, a ≠ b) → ∃ d, fact l = .ok d) (draws : ℕ → ℝ × ℝ × ℝ) (obs : List (ℝ × ℝ))
    (noise sat : Option ℝ) (hthr : noise.isSome ∨ sat.isSome) (hfin : ∀ o ∈ obs, -fmax < o.2 ∧ o.2 < fmax)
    (hts : ∀ t ∈ noise, ∀ u ∈ sat, t < u)
    (hx : ∃ o ∈ keptObs id noise sat obs, ∃ o' ∈ keptObs id noise sat obs, o.1 ≠ o'.1)
    (hline : ¬ ∃ b0 b1 : ℝ, ∀ o ∈ keptObs id noise sat obs, o.2 = b0 + b1 * o.1) (hn : 3 ≤ (keptObs id noise sat obs).length) :
    ∃ o T c, analysisFull fmax env tenv fact draws obs noise sat false none = .ok o ∧ o.cens = some T ∧ o.fits.cens = some c ∧
      o.fits.obs = keptObs id noise sat obs ∧ MaxLik id noise sat obs c ∧
      T.zeroMean = zeroMeanPValue (tenv ((keptObs id noise sat obs).length - 2 + 2)).pStudent
        (fun i : Fin ((keptObs id noise sat obs).length - 2 + 2) => (lineResiduals c.intercept c.slope (keptObs id noise sat obs)).getD i 0) ∧
      o.unc.zeroMean = zeroMeanPValue (tenv ((keptObs id noise sat obs).length - 2 + 2)).pStudent
        (fun i : Fin ((keptObs id noise sat obs).length - 2 + 2) => (lineResiduals o.fits.unc.intercept o.fits.unc.slope
          (keptObs id noise sat obs)).getD i 0) ∧
      o.fits.unc.intercept = (env.ols (keptObs id noise sat obs)).1 ∧ o.fits.unc.slope = (env.ols (keptObs id noise sat obs)).2.1 := by
  have hthr' : (noise.isSome || sat.isSome) = true := by rcases hthr with h | h <;> simp [h]
  obtain ⟨r, hr⟩ := C120_succeeds fmax env henv draws obs 0 noise sat hfin hx hline hn
  have hk : uncensoredObs fmax obs noise sat = keptObs id noise sat obs := by
    rw [← keptObs_eq fmax id noise sat obs hfin]; simp
  have hrun : ∃ an, analysisRun fmax env draws obs noise sat false none = .ok an ∧
      an.unc.intercept = (env.ols (keptObs id noise sat obs)).1 ∧ an.unc.slope = (env.ols (keptObs id noise sat obs)).2.1 := by
    rw [← hk]
    rw [computeLinearModel] at hr
    simp only [if_true, Bool.false_eq_true, if_false, linFit] at hr
    rw [analysisRun]
    simp only [Bool.false_eq_true, if_false]
    rw [analysisFits, hthr', if_pos rfl, if_pos rfl]
    split at hr
    · cases hr
    · exact ⟨_, rfl, rfl, rfl⟩
  obtain ⟨an, han, hp0, hp1⟩ := hrun
  obtain ⟨g, hg, ho, hres, -, hsome, hcens⟩ := C120_analysis fmax env henv draws draws obs noise sat false none hfin hts an han
  obtain ⟨-, rfl⟩ := hg.1 rfl
  obtain ⟨c, hc⟩ := Option.isSome_iff_exists.1 (hsome.2 hthr)
  obtain ⟨hcres, hml⟩ := hcens c hc
  rw [ho] at hres hcres hml
  have hL : keptObs id noise sat obs ≠ [] := by intro h; rw [h] at hn; simp at hn
  have e0 := residualsOf_eq _ _ hres
  have e1 := residualsOf_eq _ _ hcres
  obtain ⟨d0, hd0⟩ := hfact an.unc.residuals (by rw [e0]; exact residuals_differ _ hL hline _ _)
  obtain ⟨d1, hd1⟩ := hfact c.residuals (by rw [e1]; exact residuals_differ _ hL hline _ _)
  obtain ⟨T0, hT0, z0⟩ := fitTests_ok tenv _ hn hline an.unc.residuals d0
  obtain ⟨T1, hT1, z1⟩ := fitTests_ok tenv _ hn hline c.residuals d1
  refine ⟨⟨an, T0, some T1⟩, T1, c, ?_, rfl, hc, ho, hml hx hline, ?_, ?_, hp0, hp1⟩
  · rw [analysisFull, han]
    simp only
    rw [hd0]
    simp only
    rw [hc]
    simp only
    rw [hd1]
    simp only
    rw [ho, hT0]
    simp only
    rw [hT1]
  · rw [z1, e1]
  · simp only
    rw [z0, e0]

section
variable {Ω : Type} [MeasurableSpace Ω] {Q : Measure Ω} [IsProbabilityMeasure Q] {ν : Measure ℝ} [IsProbabilityMeasure ν]

/-- The mean of the errors on the observations whose signal exceeds a threshold is positive. -/
theorem kept_error_pos (b0 b1 s : ℝ) (hs : 0 < s) (t : ℝ) (A : Set (ℝ × ℝ)) (hA : MeasurableSet A)
    (h1 : {w | t < b0 + b1 * w.1 + w.2} ⊆ A) (h2 : A ⊆ {w | t ≤ b0 + b1 * w.1 + w.2}) :
    0 < ∫ w, A.indicator Prod.snd w ∂(ν.prod (gaussianReal 0 (sqv s))) := by
  set P := ν.prod (gaussianReal 0 (sqv s)) with hP
  have hint : Integrable (Prod.snd : ℝ × ℝ → ℝ) P := (gauss_memLp s).integrable (by norm_num)
  set C : Set (ℝ × ℝ) := Prod.fst ⁻¹' {x | t - b0 - b1 * x < 0} with hC
  have hSm : MeasurableSet {x : ℝ | t - b0 - b1 * x < 0} := measurableSet_lt (by fun_prop) measurable_const
  have hCm : MeasurableSet C := hSm.preimage measurable_fst
  have hzero : ∫ w, C.indicator Prod.snd w ∂P = 0 := by
    have e : (fun w : ℝ × ℝ => C.indicator Prod.snd w) = fun w => ({x : ℝ | t - b0 - b1 * x < 0}.indicator (fun _ => (1 : ℝ)) w.1) * w.2 := by
      funext w
      by_cases h : w ∈ C
      · rw [indicator_of_mem h, indicator_of_mem (show w.1 ∈ {x : ℝ | t - b0 - b1 * x < 0} from h), one_mul]
      · rw [indicator_of_notMem h, indicator_of_notMem (show w.1 ∉ {x : ℝ | t - b0 - b1 * x < 0} from h), zero_mul]
    rw [e, hP]
    refine (integral_prod_mul ({x : ℝ | t - b0 - b1 * x < 0}.indicator fun _ => (1 : ℝ)) (fun y : ℝ => y)).trans ?_
    rw [integral_id_gaussianReal, mul_zero]
  have hdiff : ∫ w, (A.indicator Prod.snd w - C.indicator Prod.snd w) ∂P = ∫ w, A.indicator Prod.snd w ∂P := by
    rw [integral_sub (hint.indicator hA) (hint.indicator hCm), hzero, sub_zero]
  rw [← hdiff]
  have hmemC : ∀ w : ℝ × ℝ, w ∈ C ↔ t - b0 - b1 * w.1 < 0 := fun w => Iff.rfl
  have hval : ∀ w : ℝ × ℝ, 0 ≤ A.indicator Prod.snd w - C.indicator Prod.snd w := by
    intro w
    by_cases hc : w ∈ C
    · rw [indicator_of_mem hc]
      by_cases ha : w ∈ A
      · rw [indicator_of_mem ha, sub_self]
      · rw [indicator_of_notMem ha, zero_sub]
        have : ¬ t < b0 + b1 * w.1 + w.2 := fun h => ha (h1 h)
        have := (hmemC w).1 hc
        linarith
    · rw [indicator_of_notMem hc, sub_zero]
      by_cases ha : w ∈ A
      · rw [indicator_of_mem ha]
        have : t ≤ b0 + b1 * w.1 + w.2 := h2 ha
        have := mt (hmemC w).2 hc
        linarith
      · rw [indicator_of_notMem ha]
  rw [integral_pos_iff_support_of_nonneg hval ((hint.indicator hA).sub (hint.indicator hCm))]
  have hcases : 0 < ν {x : ℝ | t - b0 - b1 * x < 0} ∨ 0 < ν {x : ℝ | t - b0 - b1 * x < 0}ᶜ := by
    by_contra h
    push Not at h
    have := measure_univ (μ := ν)
    rw [← union_compl_self {x : ℝ | t - b0 - b1 * x < 0}] at this
    have h3 := measure_union_le (μ := ν) {x : ℝ | t - b0 - b1 * x < 0} {x : ℝ | t - b0 - b1 * x < 0}ᶜ
    rw [this, nonpos_iff_eq_zero.1 h.1, nonpos_iff_eq_zero.1 h.2, add_zero] at h3
    exact absurd h3 (by simp)
  have hfin : ∀ S : Set (ℝ × ℝ), 0 < P.real S → S ⊆ Function.support (fun w => A.indicator Prod.snd w - C.indicator Prod.snd w) →
      0 < P (Function.support fun w => A.indicator Prod.snd w - C.indicator Prod.snd w) := by
    intro S hS hsub
    refine lt_of_lt_of_le ?_ (measure_mono hsub)
    rw [measureReal_def, ENNReal.toReal_pos_iff] at hS
    exact hS.1
  rcases hcases with hpos | hpos
  · refine hfin _ (cell_pos (ν := ν) b0 b1 s hs _ hSm hpos (t - 1) t (by linarith)) fun w hw => ?_
    obtain ⟨hw1, hw2⟩ := hw
    have hw1 : t - b0 - b1 * w.1 < 0 := hw1
    have hw2 : t - 1 < b0 + b1 * w.1 + w.2 ∧ b0 + b1 * w.1 + w.2 < t := hw2
    have ha : w ∉ A := fun h => by
      have : t ≤ b0 + b1 * w.1 + w.2 := h2 h
      linarith
    rw [Function.mem_support, indicator_of_notMem ha, indicator_of_mem ((hmemC w).2 hw1), zero_sub]
    have : w.2 < 0 := by linarith
    exact neg_ne_zero.2 this.ne
  · refine hfin _ (cell_pos (ν := ν) b0 b1 s hs _ hSm.compl hpos t (t + 1) (by linarith)) fun w hw => ?_
    obtain ⟨hw1, hw2⟩ := hw
    have hw1 : ¬ t - b0 - b1 * w.1 < 0 := hw1
    have hw2 : t < b0 + b1 * w.1 + w.2 ∧ b0 + b1 * w.1 + w.2 < t + 1 := hw2
    rw [Function.mem_support, indicator_of_mem (h1 hw2.1), indicator_of_notMem (mt (hmemC w).1 hw1), sub_zero]
    have : 0 < w.2 := by linarith
    exact this.ne'

/-- Size of the statistic of the zero mean test of residuals with a mean away from zero. -/
theorem zeroStat_large {n : ℕ} (hn : 2 ≤ n) (r : Fin n → ℝ) (hv : 0 < svar r) {c B A : ℝ} (hc : 0 < c)
    (hm : c ≤ |smean r|) (hb : svar r ≤ B) (hA : A ^ 2 * B ≤ c ^ 2 * n) (hA0 : 0 ≤ A) : -|smean r / Real.sqrt (svar r / n)| ≤ -A := by
  have hn0 : (0 : ℝ) < n := by exact_mod_cast (by omega : 0 < n)
  have hd : 0 < svar r / n := div_pos hv hn0
  rw [neg_le_neg_iff, abs_div, abs_of_nonneg (Real.sqrt_nonneg _), le_div_iff₀ (Real.sqrt_pos.2 hd)]
  refine le_trans ?_ hm
  have h1 : A * Real.sqrt (svar r / n) = Real.sqrt (A ^ 2 * (svar r / n)) := by
    rw [Real.sqrt_mul (sq_nonneg _), Real.sqrt_sq hA0]
  rw [h1, Real.sqrt_le_left hc.le, ← mul_div_assoc, div_le_iff₀ hn0]
  exact le_trans (mul_le_mul_of_nonneg_left hb (sq_nonneg _)) hA

theorem svar_le_sq {n : ℕ} (hn : 2 ≤ n) (r : Fin n → ℝ) : svar r ≤ 2 * ((∑ i, r i ^ 2) / n) := by
  have hn2 : (2 : ℝ) ≤ n := by exact_mod_cast hn
  have h : ∑ i, (r i - smean r) ^ 2 ≤ ∑ i, r i ^ 2 := by
    have e : ∑ i, (r i - smean r) ^ 2 = ∑ i, r i ^ 2 - n * smean r ^ 2 := by
      have hs : ∑ i, r i = n * smean r := by rw [smean]; field_simp
      have : ∀ i, (r i - smean r) ^ 2 = r i ^ 2 - 2 * smean r * r i + smean r ^ 2 := fun i => by ring
      simp only [this, Finset.sum_add_distrib, Finset.sum_sub_distrib, ← Finset.mul_sum, hs, Finset.sum_const, Finset.card_univ, Fintype.card_fin,
        nsmul_eq_mul]
      ring
    rw [e]
    have := sq_nonneg (smean r)
    nlinarith
  rw [svar, div_le_iff₀ (by linarith)]
  have h0 : 0 ≤ ∑ i, r i ^ 2 := Finset.sum_nonneg fun i _ => sq_nonneg _
  have e2 : 2 * ((∑ i, r i ^ 2) / n) * ((n : ℝ) - 1) = (∑ i, r i ^ 2) * (2 * ((n : ℝ) - 1) / n) := by field_simp
  rw [e2]
  refine h.trans (le_mul_of_one_le_right h0 ?_)
  rw [le_div_iff₀ (by linarith)]
  linarith

theorem three_sq (a b c d : ℝ) (hb : b ^ 2 ≤ 1) (hc : c ^ 2 ≤ d ^ 2) : (a + b + c) ^ 2 ≤ 3 * (a ^ 2 + 1 + d ^ 2) := by
  nlinarith [sq_nonneg (a - b), sq_nonneg (a - c), sq_nonneg (b - c)]

set_option maxHeartbeats 1000000 in
/-- **C183, limit.**  Under the conditions of C168 with at least one threshold: when the mean of the errors on the kept observations is not zero, the
p-value of the zero mean test of the censored fit tends to zero. -/
theorem C183_limit (x e : ℕ → Ω → ℝ) (hx : ∀ i, Measurable (x i)) (he : ∀ i, Measurable (e i)) (s : ℝ) (hs : 0 < s)
    (hlaw : ∀ i, Q.map (fun ω => (x i ω, e i ω)) = ν.prod (gaussianReal 0 (sqv s))) (hind : iIndepFun (fun i ω => (x i ω, e i ω)) Q)
    (hν : MemLp (fun t : ℝ => t) 2 ν) (hv : 0 < Var[fun t : ℝ => t; ν]) (b0 b1 : ℝ) (noise sat : Option ℝ)
    (hts : ∀ t ∈ noise, ∀ u ∈ sat, t < u) (hthr : noise.isSome ∨ sat.isSome)
    (hmean : ∫ w, (keptSet b0 b1 noise sat).indicator Prod.snd w ∂(ν.prod (gaussianReal 0 (sqv s))) ≠ 0) :
    ∀ᵐ ω ∂Q, ∀ ε > 0, ∀ᶠ N in atTop, ∀ fmax, (∀ i < N, |b0 + b1 * x i ω + e i ω| < fmax) →
      ∀ env, ExactFit env → ∀ tenv : ∀ n, TestEnv n, (∀ n, StudentCdf (tenv n).pStudent) →
      ∀ fact : List ℝ → Res (ℝ → ℝ), (∀ l : List ℝ, (∃ a ∈ l, ∃ b ∈ l, a ≠ b) → ∃ d, fact l = .ok d) → ∀ draws, ∃ o T p,
        analysisFull fmax env tenv fact draws ((List.range N).map fun i => (x i ω, b0 + b1 * x i ω + e i ω)) noise sat false none = .ok o ∧
        o.cens = some T ∧ T.zeroMean = .fin p ∧ 0 ≤ p ∧ p ≤ ε := by
  classical
  set P := ν.prod (gaussianReal 0 (sqv s)) with hP
  set K := keptSet b0 b1 noise sat with hK
  have hKm : MeasurableSet K := keptSet_meas b0 b1 noise sat
  have hκ : 0 < P.real K := keptSet_pos b0 b1 s hs noise sat hts
  have hz : ∀ i, Measurable fun ω => (x i ω, e i ω) := fun i => (hx i).prodMk (he i)
  have h2m : MemLp (Prod.snd : ℝ × ℝ → ℝ) 2 P := gauss_memLp s
  have h1m : MemLp (Prod.fst : ℝ × ℝ → ℝ) 2 P := hν.comp_measurePreserving measurePreserving_fst
  have i2 : Integrable (Prod.snd : ℝ × ℝ → ℝ) P := h2m.integrable (by norm_num)
  have i1 : Integrable (Prod.fst : ℝ × ℝ → ℝ) P := h1m.integrable (by norm_num)
  have i3 : Integrable (fun w : ℝ × ℝ => w.2 ^ 2 + 1 + w.1 ^ 2) P :=
    (h2m.integrable_sq.add (integrable_const 1)).add h1m.integrable_sq
  set Z : ℕ → Ω → ℝ × ℝ := fun i ω => (x i ω, e i ω) with hZ
  set μ := ∫ w, K.indicator Prod.snd w ∂P with hμ
  set m := ∫ w, K.indicator Prod.fst w ∂P with hm
  set v := ∫ w, K.indicator (fun w : ℝ × ℝ => w.2 ^ 2 + 1 + w.1 ^ 2) w ∂P with hvd
  set κ := P.real K with hκd
  have s0 := avg_strong hz hlaw hind (f := K.indicator fun _ => (1 : ℝ)) (measurable_const.indicator hKm) ((integrable_const 1).indicator hKm)
  rw [integral_indicator hKm, setIntegral_const, smul_eq_mul, mul_one] at s0
  have s1 := avg_strong hz hlaw hind (f := K.indicator Prod.snd) (measurable_snd.indicator hKm) (i2.indicator hKm)
  have s2 := avg_strong hz hlaw hind (f := K.indicator Prod.fst) (measurable_fst.indicator hKm) (i1.indicator hKm)
  have s3 := avg_strong hz hlaw hind (f := K.indicator fun w : ℝ × ℝ => w.2 ^ 2 + 1 + w.1 ^ 2) (Measurable.indicator (by fun_prop) hKm)
    (i3.indicator hKm)
  have hv0 : 0 ≤ v := integral_nonneg fun w => indicator_nonneg (fun w _ => by positivity) w
  set δ := min 1 (|μ| / (4 * (κ + |m| + 2))) with hδ
  have hμ0 : 0 < |μ| := abs_pos.2 hmean
  have hden : 0 < κ + |m| + 2 := by positivity
  have hδ0 : 0 < δ := lt_min one_pos (by positivity)
  have hδ1 : δ ≤ 1 := min_le_left _ _
  have hδ2 : δ * (κ + |m| + 2) ≤ |μ| / 4 := by
    have := mul_le_mul_of_nonneg_right (min_le_right 1 (|μ| / (4 * (κ + |m| + 2)))) hden.le
    refine this.trans (le_of_eq ?_)
    field_simp
  set c := |μ| / (4 * (κ + 1)) with hc
  have hc0 : 0 < c := by positivity
  set B := 12 * (v + 1) / κ with hB
  filter_upwards [sample_good x e hx he s hs hlaw hind hν hv b0 b1 noise sat hts,
    maxLik_close x e hx he s hs hlaw hind hν hv b0 b1 noise sat hts, s0, s1, s2, s3] with ω hgood hmax t0 t1 t2 t3 ε hε
  obtain ⟨A, hA0, hAk⟩ := student_tail (ε / 2) (half_pos hε)
  obtain ⟨k0, hk0⟩ := eventually_atTop.1 hAk
  have hlin : Tendsto (fun N : ℕ => (N : ℝ) * (κ / 2)) atTop atTop := tendsto_natCast_atTop_atTop.atTop_mul_const (by positivity)
  filter_upwards [hgood, hmax δ hδ0, t0.eventually (eventually_gt_nhds (show κ / 2 < κ by linarith)),
    t0.eventually (eventually_lt_nhds (show κ < κ + 1 by linarith)),
    t1.abs.eventually (eventually_gt_nhds (show |μ| / 2 < |μ| by linarith)),
    t2.abs.eventually (eventually_lt_nhds (show |m| < |m| + 1 by linarith)), t3.eventually (eventually_lt_nhds (show v < v + 1 by linarith)),
    eventually_gt_atTop 0, hlin.eventually_ge_atTop (k0 + 1), hlin.eventually_ge_atTop (A ^ 2 * B / c ^ 2)]
    with N ⟨hx', hline, hn⟩ hM f0 f0' f1 f2 f3 hN0 hNk hNA fmax hfm env henv tenv htenv fact hfact draws
  have hfin : ∀ o ∈ sampleObs b0 b1 x e ω N, -fmax < o.2 ∧ o.2 < fmax := by
    intro o ho
    obtain ⟨i, hi, rfl⟩ := List.mem_map.1 ho
    exact abs_lt.1 (hfm i (List.mem_range.1 hi))
  obtain ⟨o, T, f, hrun, hT, -, -, hml, hzero, -, -, -⟩ := full_ok fmax env henv tenv fact hfact draws (sampleObs b0 b1 x e ω N) noise sat hthr hfin hts
    hx' hline hn
  have hdist := hM f hml
  rw [Prod.dist_eq, Prod.dist_eq, max_lt_iff, max_lt_iff, Real.dist_eq, Real.dist_eq, Real.dist_eq] at hdist
  obtain ⟨d0, d1, -⟩ := hdist
  simp only at d0 d1
  set L := keptObs id noise sat (sampleObs b0 b1 x e ω N) with hL
  have hLne : L ≠ [] := by intro h; rw [h] at hn; simp at hn
  set n := L.length - 2 + 2 with hnd
  have hlen : L.length = n := by omega
  set r : Fin n → ℝ := fun i => (lineResiduals f.intercept f.slope L).getD i 0 with hr
  have hlen' : (lineResiduals f.intercept f.slope L).length = n := by rw [lineResiduals, List.length_map, hlen]
  have hNpos : (0 : ℝ) < N := by exact_mod_cast hN0
  have hsum : ∀ g : ℝ × ℝ → ℝ, (L.map g).sum = ∑ i ∈ Finset.range N, K.indicator (fun w => g (sigObs b0 b1 w)) (x i ω, e i ω) := by
    intro g
    rw [hL, sampleObs, keptObs_sum noise sat (fun i => (x i ω, b0 + b1 * x i ω + e i ω)) g N]
    refine Finset.sum_congr rfl fun i _ => ?_
    rw [indicator_apply]
    rfl
  have hrs : ∀ g : ℝ → ℝ, ∑ i, g (r i) = ∑ i ∈ Finset.range N, K.indicator (fun w => g (w.2 + (b0 - f.intercept) + (b1 - f.slope) * w.1)) (x i ω, e i ω) := by
    intro g
    rw [hr, sum_getD _ _ g n hlen', lineResiduals, List.map_map, hsum]
    refine Finset.sum_congr rfl fun i _ => ?_
    refine congrArg (fun h => K.indicator h (x i ω, e i ω)) (funext fun w => ?_)
    simp only [Function.comp_apply, sigObs]
    congr 1
    ring
  have hcount : (n : ℝ) = N * avg Z (K.indicator fun _ => (1 : ℝ)) N ω := by
    have h := hsum fun _ => 1
    rw [avg, mul_div_cancel₀ _ hNpos.ne', ← h, ← hlen]
    simp
  have hn0 : (0 : ℝ) < n := by
    rw [hcount]; exact mul_pos hNpos (by linarith)
  have hn2 : 2 ≤ n := by omega
  have hm1 : smean r = (avg Z (K.indicator Prod.snd) N ω + (b0 - f.intercept) * avg Z (K.indicator fun _ => (1 : ℝ)) N ω
      + (b1 - f.slope) * avg Z (K.indicator Prod.fst) N ω) / avg Z (K.indicator fun _ => (1 : ℝ)) N ω := by
    have h := hrs fun t => t
    have ha0 : avg Z (K.indicator fun _ => (1 : ℝ)) N ω ≠ 0 := by linarith
    rw [smean, h, hcount, ← mul_div_mul_left (avg Z (K.indicator Prod.snd) N ω + (b0 - f.intercept) * avg Z (K.indicator fun _ => (1 : ℝ)) N ω
      + (b1 - f.slope) * avg Z (K.indicator Prod.fst) N ω) _ hNpos.ne']
    congr 1
    simp only [avg]
    rw [mul_add, mul_add, mul_left_comm (N : ℝ) (b0 - f.intercept), mul_left_comm (N : ℝ) (b1 - f.slope), mul_div_cancel₀ _ hNpos.ne', mul_div_cancel₀ _ hNpos.ne',
      mul_div_cancel₀ _ hNpos.ne', Finset.mul_sum, Finset.mul_sum, ← Finset.sum_add_distrib, ← Finset.sum_add_distrib]
    refine Finset.sum_congr rfl fun i _ => ?_
    simp only [indicator_apply, hZ]
    split_ifs <;> ring
  have hsq : ∑ i, r i ^ 2 ≤ 3 * (N * avg Z (K.indicator fun w : ℝ × ℝ => w.2 ^ 2 + 1 + w.1 ^ 2) N ω) := by
    rw [hrs fun t => t ^ 2, avg, mul_div_cancel₀ _ hNpos.ne', Finset.mul_sum]
    refine Finset.sum_le_sum fun i _ => ?_
    simp only [indicator_apply, hZ]
    split_ifs
    · have q0 : (b0 - f.intercept) ^ 2 ≤ 1 := by
        rw [sq_le_one_iff_abs_le_one, abs_sub_comm]; linarith
      have q1 : (b1 - f.slope) ^ 2 ≤ 1 := by
        rw [sq_le_one_iff_abs_le_one, abs_sub_comm]; linarith
      have q2 : ((b1 - f.slope) * x i ω) ^ 2 ≤ x i ω ^ 2 := by
        rw [mul_pow]; exact mul_le_of_le_one_left (sq_nonneg _) q1
      exact three_sq _ _ _ _ q0 q2
    · simp
  set a0 := avg Z (K.indicator fun _ => (1 : ℝ)) N ω with ha0
  set a1 := avg Z (K.indicator Prod.snd) N ω with ha1
  set a2 := avg Z (K.indicator Prod.fst) N ω with ha2
  set a3 := avg Z (K.indicator fun w : ℝ × ℝ => w.2 ^ 2 + 1 + w.1 ^ 2) N ω with ha3
  have ha0p : 0 < a0 := by linarith
  have hmn : c ≤ |smean r| := by
    rw [hm1, abs_div, abs_of_pos ha0p, le_div_iff₀ ha0p]
    have g0 : |(b0 - f.intercept) * a0| ≤ δ * (κ + 1) := by
      rw [abs_mul, abs_sub_comm, abs_of_pos ha0p]
      exact mul_le_mul d0.le f0'.le ha0p.le hδ0.le
    have g1 : |(b1 - f.slope) * a2| ≤ δ * (|m| + 1) := by
      rw [abs_mul, abs_sub_comm]
      exact mul_le_mul d1.le f2.le (abs_nonneg _) hδ0.le
    have g2 : |a1| - |(b0 - f.intercept) * a0| - |(b1 - f.slope) * a2| ≤ |a1 + (b0 - f.intercept) * a0 + (b1 - f.slope) * a2| := by
      have k1 := abs_add_le (a1 + (b0 - f.intercept) * a0 + (b1 - f.slope) * a2) (-((b0 - f.intercept) * a0) - (b1 - f.slope) * a2)
      have k2 := abs_sub (-((b0 - f.intercept) * a0)) ((b1 - f.slope) * a2)
      rw [abs_neg] at k2
      have k3 : a1 + (b0 - f.intercept) * a0 + (b1 - f.slope) * a2 + (-((b0 - f.intercept) * a0) - (b1 - f.slope) * a2) = a1 := by ring
      rw [k3] at k1
      linarith
    have g3 : c * a0 ≤ |μ| / 4 := by
      refine (mul_le_mul_of_nonneg_left f0'.le hc0.le).trans (le_of_eq ?_)
      rw [hc]; field_simp
    have g4 : δ * (κ + 1) + δ * (|m| + 1) = δ * (κ + |m| + 2) := by ring
    linarith
  have hdiff : ∃ i j, r i ≠ r j := getD_differ _ 0 n hlen' (fun t => t) (residuals_differ L hLne hline _ _)
  have hsv : 0 < svar r := svar_pos_of_differ hn2 r hdiff
  have hsb : svar r ≤ B := by
    refine (svar_le_sq hn2 r).trans ?_
    have k1 : (∑ i, r i ^ 2) / n ≤ 3 * (N * a3) / (N * a0) := by
      rw [← hcount]
      exact div_le_div_of_nonneg_right hsq hn0.le
    have k2 : 3 * (N * a3) / (N * a0) = 3 * a3 / a0 := by
      rw [show 3 * ((N : ℝ) * a3) = N * (3 * a3) by ring, mul_div_mul_left _ _ hNpos.ne']
    have k3 : 3 * a3 / a0 ≤ 3 * (v + 1) / (κ / 2) := by
      refine div_le_div₀ (by linarith) (by linarith) (by linarith) f0.le
    rw [hB]
    have k4 : 12 * (v + 1) / κ = 2 * (3 * (v + 1) / (κ / 2)) := by field_simp; ring
    rw [k4]
    linarith [k2 ▸ k1]
  have hnbig : (N : ℝ) * (κ / 2) ≤ n := by
    rw [hcount]; exact mul_le_mul_of_nonneg_left f0.le hNpos.le
  have hst := zeroStat_large hn2 r hsv hc0 hmn hsb (A := A) (by
    have := hNA.trans hnbig
    rw [div_le_iff₀ (by positivity)] at this
    linarith) hA0.le
  have hkn : k0 ≤ n - 1 := by
    have : ((k0 + 1 : ℕ) : ℝ) ≤ n := by push_cast; exact hNk.trans hnbig
    have := (Nat.cast_le (α := ℝ)).1 this
    omega
  have hne : Real.sqrt (svar r / n) ≠ 0 := (Real.sqrt_pos.2 (div_pos hsv hn0)).ne'
  refine ⟨o, T, 2 * (studentLaw (n - 1)).real (Iic (-|smean r / Real.sqrt (svar r / n)|)), hrun, hT, ?_, by positivity, ?_⟩
  · rw [hzero]
    change zeroMeanPValue (tenv n).pStudent r = _
    rw [zeroMeanPValue, F.div_fin _ hne, negAbs, htenv n (n - 1) (by omega), F.mul_fin]
  · have := hk0 (n - 1) hkn _ hst
    linarith

/-- **C183, violated.**  Everything the analysis assumes is true: a line, independent centred normal errors with one variance.  With a noise threshold
only, or a saturation threshold only, the p-value of the zero mean test of the censored fit nevertheless tends to zero with probability one: the test
reports, for every level, that the hypothesis is false. -/
theorem C183_violated (x e : ℕ → Ω → ℝ) (hx : ∀ i, Measurable (x i)) (he : ∀ i, Measurable (e i)) (s : ℝ) (hs : 0 < s)
    (hlaw : ∀ i, Q.map (fun ω => (x i ω, e i ω)) = ν.prod (gaussianReal 0 (sqv s))) (hind : iIndepFun (fun i ω => (x i ω, e i ω)) Q)
    (hν : MemLp (fun t : ℝ => t) 2 ν) (hv : 0 < Var[fun t : ℝ => t; ν]) (b0 b1 t : ℝ) (noise sat : Option ℝ)
    (hone : (noise = some t ∧ sat = none) ∨ (noise = none ∧ sat = some t)) :
    ∀ᵐ ω ∂Q, ∀ ε > 0, ∀ᶠ N in atTop, ∀ fmax, (∀ i < N, |b0 + b1 * x i ω + e i ω| < fmax) →
      ∀ env, ExactFit env → ∀ tenv : ∀ n, TestEnv n, (∀ n, StudentCdf (tenv n).pStudent) →
      ∀ fact : List ℝ → Res (ℝ → ℝ), (∀ l : List ℝ, (∃ a ∈ l, ∃ b ∈ l, a ≠ b) → ∃ d, fact l = .ok d) → ∀ draws, ∃ o T p,
        analysisFull fmax env tenv fact draws ((List.range N).map fun i => (x i ω, b0 + b1 * x i ω + e i ω)) noise sat false none = .ok o ∧
        o.cens = some T ∧ T.zeroMean = .fin p ∧ 0 ≤ p ∧ p ≤ ε := by
  have hint : Integrable (Prod.snd : ℝ × ℝ → ℝ) (ν.prod (gaussianReal 0 (sqv s))) := (gauss_memLp s).integrable (by norm_num)
  rcases hone with ⟨rfl, rfl⟩ | ⟨rfl, rfl⟩
  · refine C183_limit x e hx he s hs hlaw hind hν hv b0 b1 (some t) none (by intro a _ u hu; cases hu) (Or.inl rfl) (ne_of_gt ?_)
    exact kept_error_pos b0 b1 s hs t _ (keptSet_meas b0 b1 (some t) none) (fun w hw => ⟨fun u hu => by cases hu; exact hw, fun u hu => by cases hu⟩)
      (fun w hw => (hw.1 t rfl).le)
  · refine C183_limit x e hx he s hs hlaw hind hν hv b0 b1 none (some t) (by intro a ha; cases ha) (Or.inr rfl) (ne_of_lt ?_)
    have hKm := keptSet_meas b0 b1 none (some t)
    have h := kept_error_pos (ν := ν) b0 b1 s hs t (keptSet b0 b1 none (some t))ᶜ hKm.compl
      (fun w hw hk => absurd (hk.2 t rfl) (not_lt.2 (le_of_lt hw)))
      (fun w hw => by
        change t ≤ b0 + b1 * w.1 + w.2
        by_contra hlt
        refine hw (And.intro ?_ ?_)
        · intro u hu; cases hu
        · intro u hu; cases hu; exact not_le.1 hlt)
    have hsum : ∫ w, (keptSet b0 b1 none (some t)).indicator Prod.snd w ∂(ν.prod (gaussianReal 0 (sqv s)))
        + ∫ w, (keptSet b0 b1 none (some t))ᶜ.indicator Prod.snd w ∂(ν.prod (gaussianReal 0 (sqv s))) = 0 := by
      rw [← integral_add (hint.indicator hKm) (hint.indicator hKm.compl)]
      simp only [indicator_self_add_compl_apply]
      rw [integral_fun_snd (fun y : ℝ => y), integral_id_gaussianReal, smul_zero]
    linarith

/-- **C183, restricted.**  The tests of the uncensored fit of the same runs do not reject: the p-value of its zero mean test is 1, for all data whose
kept observations are at least three, of different sizes and not on a line. -/
theorem C183_uncensored_partial (fmax : ℝ) (env : LinEnv) (henv : ExactFit env) (tenv : ∀ n, TestEnv n) (htenv : ∀ n, StudentCdf (tenv n).pStudent)
    (fact : List ℝ → Res (ℝ → ℝ)) (hfact : ∀ l : List ℝ, (∃ a ∈ l, ∃ b ∈ l, a ≠ b) → ∃ d, fact l = .ok d) (draws : ℕ → ℝ × ℝ × ℝ)
    (obs : List (ℝ × ℝ)) (noise sat : Option ℝ) (hthr : noise.isSome ∨ sat.isSome) (hfin : ∀ o ∈ obs, -fmax < o.2 ∧ o.2 < fmax)
    (hts : ∀ t ∈ noise, ∀ u ∈ sat, t < u)
    (hx : ∃ o ∈ keptObs id noise sat obs, ∃ o' ∈ keptObs id noise sat obs, o.1 ≠ o'.1)
    (hline : ¬ ∃ b0 b1 : ℝ, ∀ o ∈ keptObs id noise sat obs, o.2 = b0 + b1 * o.1) (hn : 3 ≤ (keptObs id noise sat obs).length) :
    ∃ o, analysisFull fmax env tenv fact draws obs noise sat false none = .ok o ∧ o.unc.zeroMean = .fin 1 := by
  obtain ⟨o, T, c, hrun, -, -, -, -, -, hz, hp0, hp1⟩ := full_ok fmax env henv tenv fact hfact draws obs noise sat hthr hfin hts hx hline hn
  refine ⟨o, hrun, ?_⟩
  rw [henv.ols _ hx] at hp0 hp1
  set L := keptObs id noise sat obs with hL
  have hLne : L ≠ [] := by intro h; rw [h] at hn; simp at hn
  set n := L.length - 2 + 2 with hnd
  have hlen : L.length = n := by omega
  set r : Fin n → ℝ := fun i => (lineResiduals o.fits.unc.intercept o.fits.unc.slope L).getD i 0 with hr
  have hlen' : (lineResiduals o.fits.unc.intercept o.fits.unc.slope L).length = n := by rw [lineResiduals, List.length_map, hlen]
  have hxi : ∃ i j : Fin L.length, L[i].1 ≠ L[j].1 := by
    obtain ⟨a, ha, b, hb, hab⟩ := hx
    obtain ⟨i, hi, rfl⟩ := List.getElem_of_mem ha
    obtain ⟨j, hj, rfl⟩ := List.getElem_of_mem hb
    exact ⟨⟨i, hi⟩, ⟨j, hj⟩, hab⟩
  have hsum0 : ∑ i, r i = 0 := by
    obtain ⟨-, -, h0, -⟩ := C27_ols_optimal (fun i : Fin L.length => L[i].1) (fun i => L[i].2) hxi
    have h1 := sum_getD (lineResiduals o.fits.unc.intercept o.fits.unc.slope L) 0 (fun t => t) n hlen'
    have h2 := sum_getD L (0, 0) (fun q => q.2 - (o.fits.unc.intercept + o.fits.unc.slope * q.1)) L.length rfl
    rw [List.map_id'] at h1
    change ∑ i, r i = _ at h1
    rw [h1, lineResiduals, ← h2, ← h0]
    refine Finset.sum_congr rfl fun i _ => ?_
    rw [List.getD_eq_getElem _ _ i.2, olsResiduals, hp0, hp1]
    rfl
  have hmean : smean r = 0 := by rw [smean, hsum0, zero_div]
  have hn2 : 2 ≤ n := by omega
  have hdiff : ∃ i j, r i ≠ r j := getD_differ _ 0 n hlen' (fun t => t) (residuals_differ L hLne hline _ _)
  have hsv : 0 < svar r := svar_pos_of_differ hn2 r hdiff
  have hn0 : (0 : ℝ) < n := by exact_mod_cast (by omega : 0 < n)
  have hne : Real.sqrt (svar r / n) ≠ 0 := (Real.sqrt_pos.2 (div_pos hsv hn0)).ne'
  rw [hz]
  change zeroMeanPValue (tenv n).pStudent r = _
  rw [zeroMeanPValue, F.div_fin _ hne, negAbs, hmean, zero_div, abs_zero, neg_zero, htenv n (n - 1) (by omega), student_zero (by omega), F.mul_fin]
  norm_num

end

/-- A set of tests whose Student distribution function is exact. -/
theorem studentEnv_exists : ∃ tenv : ∀ n, TestEnv n, ∀ n, StudentCdf (tenv n).pStudent :=
  ⟨fun _ => ⟨fun _ => .fin 0, fun _ => .fin 0, fun _ _ => .fin 0, fun k z => match z with
    | .fin t => .fin ((studentLaw k).real (Iic t))
    | _ => .nan, fun _ => .fin 0, []⟩, fun _ _ _ _ => rfl⟩

/-- Instance: standard normal sizes and errors, line `1 + 2 a`, noise threshold 0, a set of exact external functions: from some number of observations
on the analysis gives its correct model a p-value of at most one in a million. -/
example : ∃ env tenv, ExactFit env ∧ ∀ᵐ ω ∂(Measure.infinitePi fun _ : ℕ => (gaussianReal 0 1).prod (gaussianReal 0 1)), ∀ᶠ N in atTop, ∀ fmax,
    (∀ i < N, |1 + 2 * (ω i).1 + (ω i).2| < fmax) → ∃ o T p,
      analysisFull fmax env tenv (fun _ => .ok fun _ => 0) (fun _ => (0, 0, 1))
        ((List.range N).map fun i => ((ω i).1, 1 + 2 * (ω i).1 + (ω i).2)) (some 0) none false none = .ok o ∧
      o.cens = some T ∧ T.zeroMean = .fin p ∧ 0 ≤ p ∧ p ≤ 1 / 1000000 := by
  obtain ⟨env, henv⟩ := exactFit_exists
  obtain ⟨tenv, htenv⟩ := studentEnv_exists
  have e1 : sqv 1 = 1 := by simp [sqv]
  refine ⟨env, tenv, henv, ?_⟩
  filter_upwards [C183_violated (Q := Measure.infinitePi fun _ : ℕ => (gaussianReal 0 1).prod (gaussianReal 0 1)) (ν := gaussianReal 0 1)
    (fun i ω => (ω i).1) (fun i ω => (ω i).2)
    (fun i => measurable_fst.comp (measurable_pi_apply i)) (fun i => measurable_snd.comp (measurable_pi_apply i)) 1 one_pos
    (fun i => by rw [e1]; exact (measurePreserving_eval_infinitePi (fun _ : ℕ => (gaussianReal 0 1).prod (gaussianReal 0 1)) i).map_eq)
    (iIndepFun_infinitePi (P := fun _ : ℕ => (gaussianReal 0 1).prod (gaussianReal 0 1)) (X := fun _ x => x) (fun _ => measurable_id))
    (memLp_id_gaussianReal 2) (by rw [variance_fun_id_gaussianReal]; norm_num) 1 2 0 (some 0) none (Or.inl ⟨rfl, rfl⟩)] with ω hω
  filter_upwards [hω (1 / 1000000) (by norm_num)] with N hN fmax hf
  exact hN fmax hf env henv tenv htenv _ (fun _ _ => ⟨_, rfl⟩) _

/-- Instance of the restricted statement. -/
example (draws : ℕ → ℝ × ℝ × ℝ) : ∃ env tenv o, ExactFit env ∧
    analysisFull 1000 env tenv (fun _ => .ok fun _ => 0) draws demoCensored (some 1) (some 5) false none = .ok o ∧ o.unc.zeroMean = .fin 1 := by
  obtain ⟨env, henv⟩ := exactFit_exists
  obtain ⟨tenv, htenv⟩ := studentEnv_exists
  have hl := demoCensored_line
  rw [← demoCensored_kept] at hl
  obtain ⟨o, h1, h2⟩ := C183_uncensored_partial 1000 env henv tenv htenv (fun _ => .ok fun _ => 0) (fun _ _ => ⟨_, rfl⟩) draws demoCensored (some 1)
    (some 5) (Or.inl rfl) (by norm_num [demoCensored]) (by norm_num)
    (by rw [demoCensored_kept]; exact ⟨(1, 2), by simp, (2, 4), by simp, by norm_num⟩) hl (by rw [demoCensored_kept]; simp)
  exact ⟨env, tenv, o, henv, h1, h2⟩

end Verif.Props
