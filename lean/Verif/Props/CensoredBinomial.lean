import Verif.Props.CensoredConsistency
import Mathlib.Probability.ConditionalProbability

/-!
# C169: the binomial POD of a run with thresholds does not converge to the true probability of detection (`_linear_pod.py` `_computeLinearModel`, `_PODbinomialModel`)
-/

namespace Verif.Props
open Verif.Py Verif.Model ProbabilityTheory MeasureTheory Set Filter Topology
open scoped ENNReal

theorem residualsOf_eq (fit : LineFit) (obs : List (ℝ × ℝ)) (h : ResidualsOf fit obs) :
    fit.residuals = lineResiduals fit.intercept fit.slope obs := by
  have : ∀ l : List ℝ, List.Forall₂ (fun (o : ℝ × ℝ) e => o.2 = fit.intercept + fit.slope * o.1 + e) obs l →
      l = lineResiduals fit.intercept fit.slope obs := by
    intro l hl
    clear h
    induction hl with
    | nil => rfl
    | cons h1 _ ih =>
      rw [lineResiduals, List.map_cons, ih]
      congr 1
      linarith
  exact this _ h

open Classical in
theorem countP_sum {α : Type} (L : List α) (p : α → Bool) : (L.countP p : ℝ) = (L.map fun o => if p o = true then (1 : ℝ) else 0).sum := by
  induction L with
  | nil => simp
  | cons a L ih =>
    rw [List.countP_cons, Nat.cast_add, ih, List.map_cons, List.sum_cons, add_comm]
    congr 1
    split_ifs <;> simp

open Classical in
/-- The binomial POD of a fitted line on a list of observations. -/
theorem binomial_list (L : List (ℝ × ℝ)) (b0 b1 det a : ℝ) :
    podBinomial (lineResiduals b0 b1 L) det (fun a => b0 + b1 * a) a
      = (L.map fun o => if det < o.2 + b1 * (a - o.1) then (1 : ℝ) else 0).sum / (L.map fun _ => (1 : ℝ)).sum := by
  rw [podBinomial, empiricalCCDF, lineResiduals, List.countP_map, countP_sum, List.length_map]
  congr 1
  · congr 1
    refine List.map_congr_left fun o _ => ?_
    have : (det - (b0 + b1 * a) < o.2 - (b0 + b1 * o.1)) ↔ det < o.2 + b1 * (a - o.1) := by
      constructor <;> intro h <;> linarith
    simp only [Function.comp_apply, decide_eq_true_eq, this]
  · simp

section
variable {Ω : Type} [MeasurableSpace Ω] {Q : Measure Ω} [IsProbabilityMeasure Q] {ν : Measure ℝ} [IsProbabilityMeasure ν]

/-- Sizes and errors whose signal is strictly between the thresholds. -/
def keptSet (b0 b1 : ℝ) (noise sat : Option ℝ) : Set (ℝ × ℝ) :=
  {w | (∀ t ∈ noise, t < b0 + b1 * w.1 + w.2) ∧ ∀ t ∈ sat, b0 + b1 * w.1 + w.2 < t}

theorem keptSet_meas (b0 b1 : ℝ) (noise sat : Option ℝ) : MeasurableSet (keptSet b0 b1 noise sat) :=
  (keptSig_meas noise sat).preimage (measurable_snd.comp (sigObs_meas b0 b1))

theorem keptSet_pos (b0 b1 s : ℝ) (hs : 0 < s) (noise sat : Option ℝ) (hts : ∀ t ∈ noise, ∀ u ∈ sat, t < u) :
    0 < (ν.prod (gaussianReal 0 (sqv s))).real (keptSet b0 b1 noise sat) := by
  obtain ⟨l, h, hlh, hk⟩ := keptSig_interval noise sat hts
  exact lt_of_lt_of_le (cell_pos (ν := ν) b0 b1 s hs univ MeasurableSet.univ (by simp) l h hlh)
    (measureReal_mono (fun w hw => hk hw.2) (measure_ne_top _ _))

/-- **C169, limit.**  Under the conditions of C168 the binomial POD of the runs with censoring converges, at every size, to the probability that the
line plus an error exceeds the detection threshold **given that the observation of that error is kept**. -/
theorem C169_limit_partial (x e : ℕ → Ω → ℝ) (hx : ∀ i, Measurable (x i)) (he : ∀ i, Measurable (e i)) (s : ℝ) (hs : 0 < s)
    (hlaw : ∀ i, Q.map (fun ω => (x i ω, e i ω)) = ν.prod (gaussianReal 0 (sqv s))) (hind : iIndepFun (fun i ω => (x i ω, e i ω)) Q)
    (hν : MemLp (fun t : ℝ => t) 2 ν) (hv : 0 < Var[fun t : ℝ => t; ν]) (b0 b1 : ℝ) (noise sat : Option ℝ)
    (hts : ∀ t ∈ noise, ∀ u ∈ sat, t < u) (det a : ℝ) :
    let P := ν.prod (gaussianReal 0 (sqv s))
    ∀ᵐ ω ∂Q, ∀ ε > 0, ∀ᶠ N in atTop, ∀ fmax, (∀ i < N, |b0 + b1 * x i ω + e i ω| < fmax) →
      ∀ env, ExactFit env → ∀ draws, ∃ r,
        computeLinearModel fmax env draws ((List.range N).map fun i => (x i ω, b0 + b1 * x i ω + e i ω)) det noise sat false true = .ok r ∧
        |runBinomialPod r a
          - P.real (keptSet b0 b1 noise sat ∩ {w | det < b0 + b1 * a + w.2}) / P.real (keptSet b0 b1 noise sat)| < ε := by
  classical
  intro P
  set K := keptSet b0 b1 noise sat with hK
  have hKm : MeasurableSet K := keptSet_meas b0 b1 noise sat
  have hK0 : 0 < P.real K := keptSet_pos b0 b1 s hs noise sat hts
  have hz : ∀ i, Measurable fun ω => (x i ω, e i ω) := fun i => (hx i).prodMk (he i)
  set m := det - (b0 + b1 * a) with hm
  have hKne : P K ≠ 0 := by
    intro h0; rw [measureReal_def, h0] at hK0; simp at hK0
  haveI : IsProbabilityMeasure (ProbabilityTheory.cond P K) := cond_isProbabilityMeasure hKne
  have hcond : ∀ A, (ProbabilityTheory.cond P K).real A = P.real (K ∩ A) / P.real K := by
    intro A
    rw [measureReal_def, cond_apply hKm, ENNReal.toReal_mul, ENNReal.toReal_inv, ← measureReal_def, ← measureReal_def]
    field_simp
  have hatom : (ProbabilityTheory.cond P K).real {w | w.2 = m} = 0 := by
    have h0 : P {w | w.2 = m} = 0 := by
      have : {w : ℝ × ℝ | w.2 = m} = Prod.snd ⁻¹' {m} := rfl
      have hn := nullSingletonClass_gaussianReal (μ := 0) (sqv_ne hs)
      rw [this, (measurePreserving_snd (μ := ν) (ν := gaussianReal 0 (sqv s))).measure_preimage (MeasurableSet.singleton _).nullMeasurableSet]
      exact measure_singleton m
    rw [measureReal_def, cond_absolutelyContinuous h0]; rfl
  obtain ⟨bl, bu⟩ := band_limits (P := ProbabilityTheory.cond P K) m a hatom
  have hlimset : P.real (K ∩ {w | det < b0 + b1 * a + w.2}) / P.real K = (ProbabilityTheory.cond P K).real {w | m < w.2} := by
    rw [hcond]
    congr 3
    ext w
    simp only [mem_setOf_eq, hm]
    constructor <;> intro h <;> linarith
  rw [hlimset]
  set lo : ℕ → Set (ℝ × ℝ) := fun k => {w | m < w.2 - 1 / ((k : ℝ) + 1) * |w.1 - a|} with hlo
  set hi : ℕ → Set (ℝ × ℝ) := fun k => {w | m < w.2 + 1 / ((k : ℝ) + 1) * |w.1 - a|} with hhi
  have hlom : ∀ k, MeasurableSet (lo k) := fun k => measurableSet_lt measurable_const (by fun_prop)
  have hhim : ∀ k, MeasurableSet (hi k) := fun k => measurableSet_lt measurable_const (by fun_prop)
  have freq : ∀ A : Set (ℝ × ℝ), MeasurableSet A → ∀ᵐ ω ∂Q, Tendsto (fun N : ℕ => avg (fun i ω => (x i ω, e i ω))
      ((K ∩ A).indicator fun _ => (1 : ℝ)) N ω / avg (fun i ω => (x i ω, e i ω)) (K.indicator fun _ => (1 : ℝ)) N ω) atTop
      (𝓝 ((ProbabilityTheory.cond P K).real A)) := by
    intro A hA
    have s0 := avg_strong hz hlaw hind (f := K.indicator fun _ => (1 : ℝ)) (measurable_const.indicator hKm) ((integrable_const 1).indicator hKm)
    have s1 := avg_strong hz hlaw hind (f := (K ∩ A).indicator fun _ => (1 : ℝ)) (measurable_const.indicator (hKm.inter hA))
      ((integrable_const 1).indicator (hKm.inter hA))
    rw [integral_indicator hKm, setIntegral_const, smul_eq_mul, mul_one] at s0
    rw [integral_indicator (hKm.inter hA), setIntegral_const, smul_eq_mul, mul_one] at s1
    filter_upwards [s0, s1] with ω t0 t1
    rw [hcond]
    exact t1.div t0 hK0.ne'
  filter_upwards [sample_good x e hx he s hs hlaw hind hν hv b0 b1 noise sat hts,
    maxLik_close x e hx he s hs hlaw hind hν hv b0 b1 noise sat hts, ae_all_iff.2 fun k => freq (lo k) (hlom k),
    ae_all_iff.2 fun k => freq (hi k) (hhim k)] with ω hgood hmax flo fhi ε hε
  obtain ⟨k, hk1, hk2⟩ : ∃ k : ℕ, (ProbabilityTheory.cond P K).real {w | m < w.2} - ε < (ProbabilityTheory.cond P K).real (lo k) ∧
      (ProbabilityTheory.cond P K).real (hi k) < (ProbabilityTheory.cond P K).real {w | m < w.2} + ε :=
    ((bl.eventually (eventually_gt_nhds (by linarith))).and (bu.eventually (eventually_lt_nhds (by linarith)))).exists
  filter_upwards [hgood, hmax (1 / ((k : ℝ) + 1)) (by positivity), (flo k).eventually (eventually_gt_nhds hk1),
    (fhi k).eventually (eventually_lt_nhds hk2), eventually_gt_atTop 0] with N ⟨hx', hline, hn⟩ hM f1 f2 hN0 fmax hfm env henv draws
  have hfin : ∀ o ∈ sampleObs b0 b1 x e ω N, -fmax < o.2 ∧ o.2 < fmax := by
    intro o ho
    obtain ⟨i, hi, rfl⟩ := List.mem_map.1 ho
    exact abs_lt.1 (hfm i (List.mem_range.1 hi))
  obtain ⟨r, hr⟩ := C120_succeeds fmax env henv draws (sampleObs b0 b1 x e ω N) det noise sat hfin hx' hline hn
  refine ⟨r, hr, ?_⟩
  obtain ⟨g, hg, hd, ho, hres, hml⟩ := C120_pod fmax env henv draws (sampleObs b0 b1 x e ω N) det noise sat false hfin hts r hr
  obtain ⟨-, rfl⟩ := hg.1 rfl
  rw [ho] at hml
  have hdist := hM r.fit (hml hx' hline)
  rw [Prod.dist_eq, Prod.dist_eq, max_lt_iff, max_lt_iff, Real.dist_eq, Real.dist_eq, Real.dist_eq] at hdist
  have hslope : |r.fit.slope - b1| < 1 / ((k : ℝ) + 1) := hdist.2.1
  set c1 := r.fit.slope with hc1
  have hN' : (N : ℝ) ≠ 0 := by exact_mod_cast hN0.ne'
  have hNpos : (0 : ℝ) < N := by exact_mod_cast hN0
  have hsum : ∀ f : ℝ × ℝ → ℝ, ((keptObs id noise sat (sampleObs b0 b1 x e ω N)).map f).sum
      = ∑ i ∈ Finset.range N, K.indicator (fun w => f (sigObs b0 b1 w)) (x i ω, e i ω) := by
    intro f
    rw [sampleObs, keptObs_sum noise sat (fun i => (x i ω, b0 + b1 * x i ω + e i ω)) f N]
    refine Finset.sum_congr rfl fun i _ => ?_
    rw [indicator_apply]
    rfl
  have hpod : runBinomialPod r a
      = (∑ i ∈ Finset.range N, K.indicator (fun w => if m < w.2 + (b1 - c1) * (w.1 - a) then (1 : ℝ) else 0) (x i ω, e i ω)) / N
        / avg (fun i ω => (x i ω, e i ω)) (K.indicator fun _ => (1 : ℝ)) N ω := by
    rw [runBinomialPod, residualsOf_eq _ _ hres, ho, hd, binomial_list, hsum, hsum, avg, div_div_div_cancel_right₀ hN']
    congr 1
    refine Finset.sum_congr rfl fun i _ => ?_
    refine congrArg (fun f => K.indicator f (x i ω, e i ω)) (funext fun w => ?_)
    have : (id det < (sigObs b0 b1 w).2 + c1 * (a - (sigObs b0 b1 w).1)) ↔ m < w.2 + (b1 - c1) * (w.1 - a) := by
      simp only [sigObs, id_eq, hm]
      constructor <;> intro h <;> nlinarith
    exact if_congr this rfl rfl
  have hcut : ∀ w : ℝ × ℝ, |(b1 - c1) * (w.1 - a)| ≤ 1 / ((k : ℝ) + 1) * |w.1 - a| := by
    intro w
    rw [abs_mul, abs_sub_comm]
    exact mul_le_mul_of_nonneg_right hslope.le (abs_nonneg _)
  have havg0 : 0 ≤ avg (fun i ω => (x i ω, e i ω)) (K.indicator fun _ => (1 : ℝ)) N ω := by
    rw [avg]
    exact div_nonneg (Finset.sum_nonneg fun i _ => indicator_nonneg (fun _ _ => zero_le_one) _) hNpos.le
  have hge : avg (fun i ω => (x i ω, e i ω)) ((K ∩ lo k).indicator fun _ => (1 : ℝ)) N ω
      / avg (fun i ω => (x i ω, e i ω)) (K.indicator fun _ => (1 : ℝ)) N ω ≤ runBinomialPod r a := by
    rw [hpod]
    refine div_le_div_of_nonneg_right (div_le_div_of_nonneg_right (Finset.sum_le_sum fun i _ => ?_) hNpos.le) havg0
    rw [indicator_apply, indicator_apply]
    by_cases h1 : (x i ω, e i ω) ∈ K
    · rw [if_pos h1]
      by_cases h2 : (x i ω, e i ω) ∈ lo k
      · have h2' : m < e i ω - 1 / ((k : ℝ) + 1) * |x i ω - a| := h2
        have := (abs_le.1 (hcut (x i ω, e i ω))).1
        simp only at this
        rw [if_pos ⟨h1, h2⟩, if_pos (by simp only; linarith)]
      · rw [if_neg fun h => h2 h.2]; split_ifs <;> norm_num
    · rw [if_neg h1, if_neg fun h => h1 h.1]
  have hle : runBinomialPod r a ≤ avg (fun i ω => (x i ω, e i ω)) ((K ∩ hi k).indicator fun _ => (1 : ℝ)) N ω
      / avg (fun i ω => (x i ω, e i ω)) (K.indicator fun _ => (1 : ℝ)) N ω := by
    rw [hpod]
    refine div_le_div_of_nonneg_right (div_le_div_of_nonneg_right (Finset.sum_le_sum fun i _ => ?_) hNpos.le) havg0
    rw [indicator_apply, indicator_apply]
    by_cases h1 : (x i ω, e i ω) ∈ K
    · rw [if_pos h1]
      by_cases h2 : (x i ω, e i ω) ∈ hi k
      · rw [if_pos (show _ ∈ K ∩ hi k from ⟨h1, h2⟩)]; split_ifs <;> norm_num
      · have h2' : ¬ m < e i ω + 1 / ((k : ℝ) + 1) * |x i ω - a| := h2
        have := (abs_le.1 (hcut (x i ω, e i ω))).2
        simp only at this
        rw [if_neg (by simp only; intro h; apply h2'; linarith), if_neg fun h => h2 h.2]
    · rw [if_neg h1, if_neg fun h => h1 h.1]
  rw [abs_lt]
  constructor <;> linarith

/-- Probability of a set under a product law, by slices. -/
theorem prod_real_slices (P : Measure ℝ) [IsProbabilityMeasure P] (A : Set (ℝ × ℝ)) (hA : MeasurableSet A) :
    (ν.prod P).real A = ∫ t, P.real (Prod.mk t ⁻¹' A) ∂ν ∧ Integrable (fun t => P.real (Prod.mk t ⁻¹' A)) ν := by
  refine ⟨?_, Measure.integrable_measure_prodMk_left hA (measure_ne_top _ _)⟩
  rw [measureReal_def, Measure.prod_apply hA, integral_eq_lintegral_of_nonneg_ae (Eventually.of_forall fun t => measureReal_nonneg)
    (Measure.integrable_measure_prodMk_left hA (measure_ne_top _ _)).1]
  congr 1
  refine lintegral_congr fun t => ?_
  rw [ofReal_measureReal]

/-- With the noise threshold alone the limit is above the truth, with the saturation threshold alone below it, at every size. -/
theorem kept_bias (b0 b1 s : ℝ) (hs : 0 < s) (t det a : ℝ) :
    let P := ν.prod (gaussianReal 0 (sqv s))
    let truth := (gaussianReal (b0 + b1 * a) (sqv s)).real (Ioi det)
    truth < P.real (keptSet b0 b1 (some t) none ∩ {w | det < b0 + b1 * a + w.2}) / P.real (keptSet b0 b1 (some t) none) ∧
    P.real (keptSet b0 b1 none (some t) ∩ {w | det < b0 + b1 * a + w.2}) / P.real (keptSet b0 b1 none (some t)) < truth := by
  intro P truth
  set g := gaussianReal 0 (sqv s) with hg
  set m := det - (b0 + b1 * a) with hm
  have hv := sqv_ne hs
  have hn := nullSingletonClass_gaussianReal (μ := 0) hv
  have htruth : truth = g.real (Ioi m) := by
    simp only [truth]
    rw [hg, gauss_Ioi hs, gauss_Ioi hs, sub_zero]
  have pos : ∀ c, 0 < g.real (Ioi c) := fun c => gauss_real_pos hv (by simp)
  have pos' : ∀ c, 0 < g.real (Iio c) := fun c => gauss_real_pos hv (by simp)
  have compl : ∀ c, g.real (Iio c) = 1 - g.real (Ioi c) := by
    intro c
    have h1 : g.real (Iio c) = g.real (Iic c) := by rw [measureReal_def, measureReal_def, measure_congr Iio_ae_eq_Iic]
    rw [h1, ← compl_Ioi, probReal_compl_eq_one_sub measurableSet_Ioi]
  have hA : MeasurableSet {w : ℝ × ℝ | det < b0 + b1 * a + w.2} := measurableSet_lt measurable_const (by fun_prop)
  have K1 := keptSet_meas b0 b1 (some t) none
  have K2 := keptSet_meas b0 b1 none (some t)
  obtain ⟨p1, i1⟩ := prod_real_slices (ν := ν) g _ K1
  obtain ⟨p2, i2⟩ := prod_real_slices (ν := ν) g _ (K1.inter hA)
  obtain ⟨q1, j1⟩ := prod_real_slices (ν := ν) g _ K2
  obtain ⟨q2, j2⟩ := prod_real_slices (ν := ν) g _ (K2.inter hA)
  have k1 : 0 < P.real (keptSet b0 b1 (some t) none) := keptSet_pos b0 b1 s hs _ _ (by intro a _ u hu; cases hu)
  have k2 : 0 < P.real (keptSet b0 b1 none (some t)) := keptSet_pos b0 b1 s hs _ _ (by intro a ha; cases ha)
  have s1 : ∀ y : ℝ, Prod.mk y ⁻¹' keptSet b0 b1 (some t) none = Ioi (t - (b0 + b1 * y)) := by
    intro y; ext w
    simp only [keptSet, mem_preimage, mem_setOf_eq, Option.mem_def, Option.some.injEq, forall_eq', reduceCtorEq, false_implies, implies_true,
      and_true, mem_Ioi]
    constructor <;> intro h <;> linarith
  have s2 : ∀ y : ℝ, Prod.mk y ⁻¹' keptSet b0 b1 none (some t) = Iio (t - (b0 + b1 * y)) := by
    intro y; ext w
    simp only [keptSet, mem_preimage, mem_setOf_eq, Option.mem_def, Option.some.injEq, forall_eq', reduceCtorEq, false_implies, implies_true,
      true_and, mem_Iio]
    constructor <;> intro h <;> linarith
  have sA : ∀ y : ℝ, Prod.mk y ⁻¹' {w : ℝ × ℝ | det < b0 + b1 * a + w.2} = Ioi m := by
    intro y; ext w
    simp only [mem_preimage, mem_setOf_eq, mem_Ioi, hm]
    constructor <;> intro h <;> linarith
  have intPos : ∀ f : ℝ → ℝ, Integrable f ν → (∀ y, 0 < f y) → 0 < ∫ y, f y ∂ν := by
    intro f hf hpos
    rw [integral_pos_iff_support_of_nonneg (fun y => (hpos y).le) hf]
    have : Function.support f = univ := by ext y; simp [(hpos y).ne']
    rw [this]; simp
  constructor
  · rw [lt_div_iff₀ k1, htruth]
    show g.real (Ioi m) * (ν.prod g).real _ < (ν.prod g).real _
    rw [p1, p2, ← sub_pos, ← integral_const_mul, ← integral_sub i2 (i1.const_mul _)]
    refine intPos _ (i2.sub (i1.const_mul _)) fun y => ?_
    rw [preimage_inter, s1, sA, Ioi_inter_Ioi]
    set c := t - (b0 + b1 * y)
    have a1 := pos c
    have a2 := pos m
    have a3 := pos' c
    have a4 := pos' m
    rw [compl] at a3 a4
    rcases le_total c m with h | h
    · rw [sup_eq_right.2 h]; nlinarith
    · rw [sup_eq_left.2 h]; nlinarith
  · rw [div_lt_iff₀ k2, htruth]
    show (ν.prod g).real _ < g.real (Ioi m) * (ν.prod g).real _
    rw [q1, q2, ← sub_pos, ← integral_const_mul, ← integral_sub (j1.const_mul _) j2]
    refine intPos _ ((j1.const_mul _).sub j2) fun y => ?_
    rw [preimage_inter, s2, sA]
    set c := t - (b0 + b1 * y)
    have a1 := pos c
    have a2 := pos m
    have a3 := pos' c
    have a4 := pos' m
    have hI : g.real (Iio c ∩ Ioi m) < g.real (Ioi m) * g.real (Iio c) := by
      rcases le_total c m with h | h
      · have : Iio c ∩ Ioi m = ∅ := by
          ext w; simp only [mem_inter_iff, mem_Iio, mem_Ioi, mem_empty_iff_false, iff_false, not_and, not_lt]
          intro hw; linarith
        rw [this, measureReal_empty]; positivity
      · have hsplit : g.real (Ioi m) = g.real (Iio c ∩ Ioi m) + g.real (Ioi c) := by
          have hu : g.real (Ioi m) = g.real ((Iio c ∩ Ioi m) ∪ Ici c) := by
            rcases h.eq_or_lt with h' | h'
            · have : (Iio c ∩ Ioi m) ∪ Ici c = Ici m := by
                rw [← h']; ext w; simp only [mem_union, mem_inter_iff, mem_Iio, mem_Ioi, mem_Ici]
                constructor
                · rintro (⟨h1, h2⟩ | h1)
                  · linarith
                  · exact h1
                · exact fun h1 => Or.inr h1
              rw [this, measureReal_def, measureReal_def, measure_congr Ioi_ae_eq_Ici]
            · congr 1
              ext w; simp only [mem_union, mem_inter_iff, mem_Iio, mem_Ioi, mem_Ici]
              constructor
              · intro hw
                rcases lt_or_ge w c with h1 | h1
                · exact Or.inl ⟨h1, hw⟩
                · exact Or.inr h1
              · rintro (⟨-, h1⟩ | h1)
                · exact h1
                · linarith
          rw [hu, measureReal_union (by
            rw [Set.disjoint_left]; intro w hw hw'; exact absurd (show w < c from hw.1) (not_lt.2 hw')) measurableSet_Ici]
          congr 1
          rw [measureReal_def, measureReal_def, measure_congr Ioi_ae_eq_Ici]
        rw [compl] at a3 a4 ⊢
        nlinarith
    linarith

/-- **C169, violated.**  With a noise threshold only, the binomial POD of the runs with censoring is, with probability one and from some number of
observations on, above the true probability of detection by a fixed positive amount, at every size and for every detection threshold; with a saturation
threshold only it is below. -/
theorem C169_violated (x e : ℕ → Ω → ℝ) (hx : ∀ i, Measurable (x i)) (he : ∀ i, Measurable (e i)) (s : ℝ) (hs : 0 < s)
    (hlaw : ∀ i, Q.map (fun ω => (x i ω, e i ω)) = ν.prod (gaussianReal 0 (sqv s))) (hind : iIndepFun (fun i ω => (x i ω, e i ω)) Q)
    (hν : MemLp (fun t : ℝ => t) 2 ν) (hv : 0 < Var[fun t : ℝ => t; ν]) (b0 b1 t det a : ℝ) :
    ∃ δ > 0, ∀ᵐ ω ∂Q, ∀ᶠ N in atTop, ∀ fmax, (∀ i < N, |b0 + b1 * x i ω + e i ω| < fmax) → ∀ env, ExactFit env → ∀ draws,
      let obs := (List.range N).map fun i => (x i ω, b0 + b1 * x i ω + e i ω)
      let truth := (gaussianReal (b0 + b1 * a) (sqv s)).real (Ioi det)
      (∃ r, computeLinearModel fmax env draws obs det (some t) none false true = .ok r ∧ truth + δ < runBinomialPod r a) ∧
      (∃ r, computeLinearModel fmax env draws obs det none (some t) false true = .ok r ∧ runBinomialPod r a < truth - δ) := by
  obtain ⟨hup, hdown⟩ := kept_bias (ν := ν) b0 b1 s hs t det a
  set truth := (gaussianReal (b0 + b1 * a) (sqv s)).real (Ioi det) with htruth
  set P := ν.prod (gaussianReal 0 (sqv s)) with hP
  set u := P.real (keptSet b0 b1 (some t) none ∩ {w | det < b0 + b1 * a + w.2}) / P.real (keptSet b0 b1 (some t) none) with hu
  set l := P.real (keptSet b0 b1 none (some t) ∩ {w | det < b0 + b1 * a + w.2}) / P.real (keptSet b0 b1 none (some t)) with hl
  have h1 := C169_limit_partial x e hx he s hs hlaw hind hν hv b0 b1 (some t) none (by intro a _ u hu; cases hu) det a
  have h2 := C169_limit_partial x e hx he s hs hlaw hind hν hv b0 b1 none (some t) (by intro a ha; cases ha) det a
  set δ := min ((u - truth) / 2) ((truth - l) / 2) with hδ
  have hδpos : 0 < δ := lt_min (by linarith) (by linarith)
  have d1 : δ ≤ (u - truth) / 2 := min_le_left _ _
  have d2 : δ ≤ (truth - l) / 2 := min_le_right _ _
  refine ⟨δ, hδpos, ?_⟩
  filter_upwards [h1, h2] with ω w1 w2
  filter_upwards [w1 δ hδpos, w2 δ hδpos] with N n1 n2 fmax hfm env henv draws
  obtain ⟨r1, r1e, r1b⟩ := n1 fmax hfm env henv draws
  obtain ⟨r2, r2e, r2b⟩ := n2 fmax hfm env henv draws
  rw [← hP, ← hu, abs_lt] at r1b
  rw [← hP, ← hl, abs_lt] at r2b
  exact ⟨⟨r1, r1e, by linarith⟩, ⟨r2, r2e, by linarith⟩⟩

end

/-- Instance: standard normal sizes and errors, line `1 + 2 a`, noise threshold 0: at size 1 with detection threshold 3 the true probability is 1/2, and
the binomial POD stays above it. -/
example : ∃ δ > 0, ∀ᵐ ω ∂(Measure.infinitePi fun _ : ℕ => (gaussianReal 0 1).prod (gaussianReal 0 1)), ∀ᶠ N in atTop, ∀ fmax,
    (∀ i < N, |1 + 2 * (ω i).1 + (ω i).2| < fmax) → ∀ env, ExactFit env → ∀ draws, ∃ r,
      computeLinearModel fmax env draws ((List.range N).map fun i => ((ω i).1, 1 + 2 * (ω i).1 + (ω i).2)) 3 (some 0) none false true = .ok r ∧
      1 / 2 + δ < runBinomialPod r 1 := by
  have e1 : sqv 1 = 1 := by simp [sqv]
  have hgs : (gaussianReal (1 + 2 * 1) (sqv 1)).real (Ioi 3) = 1 / 2 := by
    rw [gauss_Ioi one_pos, show ((3 : ℝ) - (1 + 2 * 1)) / 1 = 0 by norm_num, Phi_zero]; norm_num
  obtain ⟨δ, hδ, h⟩ := C169_violated (Q := Measure.infinitePi fun _ : ℕ => (gaussianReal 0 1).prod (gaussianReal 0 1)) (ν := gaussianReal 0 1)
    (fun i ω => (ω i).1) (fun i ω => (ω i).2)
    (fun i => measurable_fst.comp (measurable_pi_apply i)) (fun i => measurable_snd.comp (measurable_pi_apply i)) 1 one_pos
    (fun i => by rw [e1]; exact (measurePreserving_eval_infinitePi (fun _ : ℕ => (gaussianReal 0 1).prod (gaussianReal 0 1)) i).map_eq)
    (iIndepFun_infinitePi (P := fun _ : ℕ => (gaussianReal 0 1).prod (gaussianReal 0 1)) (X := fun _ x => x) (fun _ => measurable_id))
    (memLp_id_gaussianReal 2) (by rw [variance_fun_id_gaussianReal]; norm_num) 1 2 0 3 1
  refine ⟨δ, hδ, ?_⟩
  filter_upwards [h] with ω hω
  filter_upwards [hω] with N hN fmax hf env henv draws
  obtain ⟨⟨r, h1, h2⟩, -⟩ := hN fmax hf env henv draws
  rw [hgs] at h2
  exact ⟨r, h1, h2⟩

end Verif.Props
