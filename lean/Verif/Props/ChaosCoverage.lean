import Verif.Props.ChaosCloses
import Verif.Props.DwLevel
import Verif.Props.DeltaMethod

/-!
# C243: the confidence curve of the chaos POD against the true POD (/repo/otpod/_polynomial_chaos_pod.py 196-215, 744-774)

The simulated coefficients vary, the residual deviation `_stderr` does not: every simulated POD of `_computePOD` uses the fitted one.
-/

namespace Verif.Props
open Verif.Py Verif.Model ProbabilityTheory MeasureTheory Set Filter Topology Matrix

/-- The fitted coefficients have the least sum of squares. -/
theorem lsCoefs_least {n p : ℕ} (A : Matrix (Fin n) (Fin p) ℝ) (hA : IsUnit (Aᵀ * A).det) (y : Fin n → ℝ) (beta : Fin p → ℝ) :
    ∑ i, (y i - (A *ᵥ lsCoefs A y) i) ^ 2 ≤ ∑ i, (y i - (A *ᵥ beta) i) ^ 2 := by
  set r : Fin n → ℝ := y - A *ᵥ lsCoefs A y with hr
  set d : Fin n → ℝ := A *ᵥ (lsCoefs A y - beta) with hd
  have hort : r ⬝ᵥ d = 0 := by
    have h0 : Aᵀ *ᵥ r = 0 := by
      rw [hr, Matrix.mulVec_sub, lsCoefs, Matrix.mulVec_mulVec, Matrix.mulVec_mulVec, Matrix.mul_nonsing_inv _ hA, Matrix.one_mulVec, sub_self]
    rw [hd, Matrix.dotProduct_mulVec, ← Matrix.mulVec_transpose, h0, zero_dotProduct]
  have e1 : ∀ i, y i - (A *ᵥ beta) i = r i + d i := by
    intro i
    simp only [hr, hd, Matrix.mulVec_sub, Pi.sub_apply]
    ring
  have e2 : ∑ i, (r i + d i) ^ 2 = ∑ i, r i ^ 2 + 2 * (r ⬝ᵥ d) + ∑ i, d i ^ 2 := by
    rw [dotProduct, Finset.mul_sum, ← Finset.sum_add_distrib, ← Finset.sum_add_distrib]
    exact Finset.sum_congr rfl fun i _ => by ring
  simp only [e1]
  rw [e2, hort]
  have h3 : 0 ≤ ∑ i, d i ^ 2 := Finset.sum_nonneg fun i _ => sq_nonneg _
  have h4 : ∑ i, (y i - (A *ᵥ lsCoefs A y) i) ^ 2 = ∑ i, r i ^ 2 := rfl
  rw [h4]
  linarith

/-- The sum of squares of many normal errors is with probability nearly one half below its mean, even after a fixed reduction. -/
theorem squares_below {Ω : Type} [MeasurableSpace Ω] {Q : Measure Ω} [IsProbabilityMeasure Q] (v : NNReal) (hv : v ≠ 0) (e : ℕ → Ω → ℝ)
    (he : ∀ i, Measurable (e i)) (hlaw : ∀ i, Q.map (e i) = gaussianReal 0 v) (hind : iIndepFun e Q) (k : ℕ) {p : ℝ} (hp : p < 1 / 2) :
    ∀ᶠ N : ℕ in atTop, p < Q.real {ω | ∑ i ∈ Finset.range N, e i ω ^ 2 < v * ((N : ℝ) - k - 1)} := by
  have hv0 : (0 : ℝ) < v := by exact_mod_cast pos_iff_ne_zero.2 hv
  have hσ : 0 < Real.sqrt (v : ℝ) := Real.sqrt_pos.2 hv0
  set x : ℕ → Ω → ℝ := fun i ω => e i ω / Real.sqrt v with hx
  have hxm : ∀ i, Measurable (x i) := fun i => (he i).div_const _
  have hxl : ∀ i, Q.map (x i) = gaussianReal 0 1 := by
    intro i
    have h1 : Q.map ((fun t : ℝ => t / Real.sqrt v) ∘ e i) = gaussianReal 0 1 := by
      rw [← Measure.map_map (by fun_prop) (he i), hlaw i, gaussianReal_map_div_const]
      congr 1
      · simp
      · ext
        simp [Real.sq_sqrt hv0.le, hv0.ne']
    exact h1
  have hxi : iIndepFun x Q := hind.comp (fun _ t => t / Real.sqrt v) fun _ => by fun_prop
  have hfm : Measurable redSq := by unfold redSq; fun_prop
  have hf2 : MemLp redSq 2 (gaussianReal 0 1) := by
    rw [memLp_two_iff_integrable_sq hfm.aestronglyMeasurable]
    by_contra h
    have := redSq_moments.2
    rw [integral_undef h] at this
    norm_num at this
  have hvar : Var[redSq; gaussianReal 0 1] = 1 := by
    rw [variance_eq_sub hf2]
    simp only [Pi.pow_apply]
    rw [redSq_moments.1, redSq_moments.2]
    norm_num
  have hclt := avg_clt hxm hxl hxi hfm hf2
  rw [redSq_moments.1, hvar, Real.toNNReal_one] at hclt
  -- a margin
  have hcont : Tendsto (fun δ : ℝ => Phi (-(2 * δ))) (𝓝[>] 0) (𝓝 (1 / 2)) := by
    have h : Tendsto (fun δ : ℝ => Phi (-(2 * δ))) (𝓝 0) (𝓝 (Phi (-(2 * 0)))) := (Phi_continuous.comp (by fun_prop : Continuous fun δ : ℝ => -(2 * δ))).tendsto 0
    rw [mul_zero, neg_zero, Phi_zero] at h
    exact h.mono_left nhdsWithin_le_nhds
  obtain ⟨δ, hδp, hδ⟩ := ((hcont.eventually_const_lt hp).and self_mem_nhdsWithin).exists
  have hδ : 0 < δ := hδ
  have hopen := ProbabilityMeasure.le_liminf_measure_open_of_tendsto hclt.tendsto (isOpen_Iio (a := -δ))
  simp only [ProbabilityMeasure.coe_mk, Measure.map_id] at hopen
  have hlow : ENNReal.ofReal p < (gaussianReal 0 1) (Iio (-δ)) := by
    have h1 : p < (gaussianReal 0 1).real (Iio (-δ)) := by
      rw [Phi_eq] at hδp
      exact hδp.trans_le (measureReal_mono fun t (ht : t ≤ -(2 * δ)) => lt_of_le_of_lt ht (by linarith))
    rw [← ofReal_measureReal]
    exact (ENNReal.ofReal_lt_ofReal_iff (lt_of_le_of_ne measureReal_nonneg (by
      have := gauss_real_pos (μ := 0) one_ne_zero (s := Iio (-δ)) (by simp)
      exact this.ne))).2 h1
  have hev := eventually_lt_of_lt_liminf (hlow.trans_le hopen)
  have hsmall : ∀ᶠ N : ℕ in atTop, ((k : ℝ) + 1) / Real.sqrt N < δ := by
    have : Tendsto (fun N : ℕ => ((k : ℝ) + 1) / Real.sqrt N) atTop (𝓝 0) :=
      tendsto_const_nhds.div_atTop (Real.tendsto_sqrt_atTop.comp tendsto_natCast_atTop_atTop)
    exact this.eventually_lt_const hδ
  filter_upwards [hev, hsmall, eventually_gt_atTop 0] with N h1 h2 hN
  have hN' : (0 : ℝ) < N := by exact_mod_cast hN
  have hsN : 0 < Real.sqrt (N : ℝ) := Real.sqrt_pos.2 hN'
  have hmeas : Measurable fun ω => Real.sqrt N * (avg x redSq N ω - 0) := by
    have := avg_measurable hxm hfm N
    fun_prop
  rw [Measure.map_apply hmeas measurableSet_Iio] at h1
  have h3 : p < Q.real ((fun ω => Real.sqrt N * (avg x redSq N ω - 0)) ⁻¹' Iio (-δ)) := by
    rcases lt_or_ge p 0 with h | h
    · exact h.trans_le measureReal_nonneg
    · rw [measureReal_def]
      exact (ENNReal.ofReal_lt_iff_lt_toReal h (measure_ne_top _ _)).1 h1
  refine h3.trans_le (measureReal_mono fun ω hω => ?_)
  simp only [mem_preimage, mem_Iio, sub_zero] at hω
  show ∑ i ∈ Finset.range N, e i ω ^ 2 < v * ((N : ℝ) - k - 1)
  have hs2 : 0 < Real.sqrt (2 : ℝ) := Real.sqrt_pos.2 (by norm_num)
  have hs2' : 1 ≤ Real.sqrt (2 : ℝ) := by rw [Real.one_le_sqrt]; norm_num
  have havg : avg x redSq N ω = ((∑ i ∈ Finset.range N, e i ω ^ 2) / v - N) / (Real.sqrt 2 * N) := by
    have : ∑ i ∈ Finset.range N, redSq (x i ω) = ((∑ i ∈ Finset.range N, e i ω ^ 2) / v - N) / Real.sqrt 2 := by
      simp only [redSq, hx, div_pow, Real.sq_sqrt hv0.le]
      rw [← Finset.sum_div, Finset.sum_sub_distrib, Finset.sum_div]
      simp
    rw [avg, this, div_div]
  rw [havg] at hω
  set S := (∑ i ∈ Finset.range N, e i ω ^ 2) / v with hS
  have hk : (k : ℝ) + 1 < δ * Real.sqrt N := by rwa [div_lt_iff₀ hsN] at h2
  have hss : Real.sqrt N * Real.sqrt N = N := Real.mul_self_sqrt hN'.le
  have h5 : S - N < -(k + 1) := by
    have h6 : (S - N) / (Real.sqrt 2 * Real.sqrt N) < -δ := by
      have : Real.sqrt N * ((S - N) / (Real.sqrt 2 * N)) = (S - N) / (Real.sqrt 2 * Real.sqrt N) := by
        nth_rewrite 2 [← hss]
        field_simp
        rw [Real.sq_sqrt hN'.le]
      rwa [this] at hω
    rw [div_lt_iff₀ (by positivity)] at h6
    nlinarith [mul_pos hδ hsN]
  have h7 : S < (N : ℝ) - k - 1 := by linarith
  rw [hS, div_lt_iff₀ hv0] at h7
  linarith

section
variable {X U : Type} [MeasurableSpace X]

theorem exceed_ge (law : Measure X) [IsProbabilityMeasure law] (m : X → ℝ) {C sd det t : ℝ} (hm : ∀ᵐ x ∂law, -C ≤ m x) (h : ∀ z, t < z → det < -C + sd * z) :
    PhiC t ≤ exceedanceNoise law m (fun _ => sd) det := by
  have h1 : PhiC t = (law.prod (gaussianReal 0 1)).real (univ ×ˢ Ioi t) := by
    rw [measureReal_prod_prod, probReal_univ, one_mul, PhiC]
  rw [h1, exceedanceNoise, measureReal_def, measureReal_def]
  refine ENNReal.toReal_mono (measure_ne_top _ _) (measure_mono_ae ?_)
  filter_upwards [Measure.quasiMeasurePreserving_fst.ae hm] with q hq hqt
  have h2 := h q.2 hqt.2
  show det < m q.1 + sd * q.2
  linarith

theorem exceed_le (law : Measure X) [IsProbabilityMeasure law] (m : X → ℝ) {C sd det t : ℝ} (hm : ∀ᵐ x ∂law, m x ≤ C) (h : ∀ z, det < C + sd * z → t < z) :
    exceedanceNoise law m (fun _ => sd) det ≤ PhiC t := by
  have h1 : PhiC t = (law.prod (gaussianReal 0 1)).real (univ ×ˢ Ioi t) := by
    rw [measureReal_prod_prod, probReal_univ, one_mul, PhiC]
  rw [h1, exceedanceNoise, measureReal_def, measureReal_def]
  refine ENNReal.toReal_mono (measure_ne_top _ _) (measure_mono_ae ?_)
  filter_upwards [Measure.quasiMeasurePreserving_fst.ae hm] with q hq hqt
  have hqt : det < m q.1 + sd * q.2 := hqt
  exact ⟨mem_univ _, h q.2 (by linarith)⟩

/-- With a smaller deviation the probability of exceedance of a low threshold is larger, whatever the bounded means. -/
theorem exceed_low (law : Measure X) [IsProbabilityMeasure law] (m m' : X → ℝ) {C C' sd σ : ℝ} (hm : ∀ᵐ x ∂law, -C ≤ m x) (hm' : ∀ᵐ x ∂law, m' x ≤ C')
    (h0 : 0 ≤ sd) (h1 : sd < σ) :
    ∀ᶠ D : ℝ in atTop, ∃ t, exceedanceNoise law m' (fun _ => σ) (-D) ≤ PhiC t ∧ PhiC (t - 1) ≤ exceedanceNoise law m (fun _ => sd) (-D) := by
  have hσ : 0 < σ := h0.trans_lt h1
  have hρ : 0 < 1 - sd / σ := by rw [sub_pos, div_lt_one hσ]; exact h1
  filter_upwards [eventually_gt_atTop ((C + sd / σ * C' + sd) / (1 - sd / σ))] with D hD
  rw [div_lt_iff₀ hρ] at hD
  refine ⟨-(D + C') / σ, exceed_le law m' hm' fun z hz => ?_, exceed_ge law m hm fun z hz => ?_⟩
  · rw [div_lt_iff₀ hσ]
    linarith
  · have h2 : sd * (-(D + C') / σ - 1) ≤ sd * z := mul_le_mul_of_nonneg_left hz.le h0
    have h3 : sd * (-(D + C') / σ - 1) = -(sd / σ * D) - sd / σ * C' - sd := by ring
    linarith

/-- The limits of the confidence curve of a run at the requested sizes. -/
theorem chaosRun_nodes {Ω' : Type} [MeasurableSpace Ω'] (Q' : Measure Ω') [IsProbabilityMeasure Q'] (law : Measure X) [IsProbabilityMeasure law]
    (c : ChaosSetup X U) (hT : ∀ a, ∀ ψ ∈ c.basis, Measurable fun y => ψ (c.transformation (a, y))) (coefs : List (List ℝ)) (hcne : coefs ≠ [])
    (x' : ℕ → ℕ → Ω' → X) (z' : ℕ → ℕ → ℕ → Ω' → ℝ) (hxz' : ∀ r j l, Measurable fun ω => (x' r l ω, z' r j l ω))
    (hlaw' : ∀ r j l, Q'.map (fun ω => (x' r l ω, z' r j l ω)) = law.prod (gaussianReal 0 1))
    (hind' : ∀ r j, iIndepFun (fun l ω => (x' r l ω, z' r j l ω)) Q') (s : SimAttrs) (hs : s.sizes.Pairwise (· < ·)) (hnum : s.number = s.sizes.length)
    (level : ℝ) :
    ∀ᵐ ω' ∂Q', ∃ f : ℕ → ℝ → Res ℝ,
      (∀ n, getPODCLModel (chaosRunSim { c with samplingSize := n } (chaosDraws n s.number (fun l => x' 0 l ω') fun j l => z' 0 j l ω')
        (coefs.mapIdx fun r co => (co, chaosDraws n s.number (fun l => x' (r + 1) l ω') fun j l => z' (r + 1) j l ω')) s).2 level = .ok (f n)) ∧
      ∀ a ∈ s.sizes, ∃ u : ℕ → ℝ, (∀ n, f n a = .ok (u n)) ∧ Tendsto u atTop (𝓝 (quantile (coefs.map fun co => (law.prod (gaussianReal 0 1)).real
        {p | c.detection < (List.zipWith (fun b ψ => b * ψ (c.transformation (a, p.1))) co c.basis).sum + c.stderr * p.2}) (1 - level))) := by
  filter_upwards [C150_chaos Q' law c hT coefs x' z' hxz' hlaw' hind' s (hs.imp fun h => h.le) hnum _ rfl] with ω' hω'
  obtain ⟨out, ho, -, -, hcl⟩ := hω'
  obtain ⟨g, hg, f, hf, hl⟩ := hcl hcne level
  refine ⟨f, fun n => (congrArg (fun o => getPODCLModel o.2 level) (ho n)).symm.trans (hf n), fun a ha => ?_⟩
  obtain ⟨i, hi, hia⟩ := List.mem_iff_getElem.1 ha
  obtain ⟨g', hg', -, hnode, -⟩ := interp1d_spec s.sizes (s.sizes.map fun a => quantile (coefs.map fun co => (law.prod (gaussianReal 0 1)).real
      {p | c.detection < (List.zipWith (fun b ψ => b * ψ (c.transformation (a, p.1))) co c.basis).sum + c.stderr * p.2}) (1 - level))
    (List.length_map _).symm (List.ne_nil_of_mem ha) hs
  rw [hg, Except.ok.injEq] at hg'
  subst hg'
  have hn := hnode i hi
  rw [List.getD_eq_getElem _ _ hi, hia, List.getD_eq_getElem _ _ (by simpa using hi), List.getElem_map, hia] at hn
  exact hl a _ hn

/-- **C243 is violated.**  Signals that are a combination of the basis functions plus independent normal errors.  Whatever the number and law of the simulated
coefficients and whatever the confidence level `level`, for every sufficiently large number of observations and every defect size: when the threshold is low enough
(the POD of the size is near one) the confidence curve of the run is above the true POD with a probability larger than `p`, for any `p` below one half. -/
theorem C243_violated {Ω : Type} [MeasurableSpace Ω] {Q : Measure Ω} [IsProbabilityMeasure Q] {k : ℕ} (zero : ℝ × X) (T : ℝ × X → U) (φ : Fin k → U → ℝ)
    (hφm : ∀ j, Measurable fun w => φ j (T w)) (law : Measure X) [IsProbabilityMeasure law] (hb : ∀ a, ∃ B, ∀ᵐ y ∂law, ∀ j, |φ j (T (a, y))| ≤ B)
    (pts : ℕ → ℝ × X) (v : NNReal) (hv : v ≠ 0) (e : ℕ → Ω → ℝ) (he : ∀ i, Measurable (e i)) (hlaw : ∀ i, Q.map (e i) = gaussianReal 0 v) (hind : iIndepFun e Q)
    (beta : Fin k → ℝ) {p : ℝ} (hp : p < 1 / 2) :
    ∀ᶠ N in atTop, let A := basisMatrix (fun j w => φ j (T w)) N pts
      let y := fun (ω : Ω) i => ∑ j, beta j * φ j (T (pts i)) + e i ω
      IsUnit (Aᵀ * A).det → ∀ (M : ℕ), 1 ≤ M → ∀ (z : ℕ → Ω → Fin k → ℝ) (chi : Ω → ℝ) (level : ℝ) (s : SimAttrs), s.sizes.Pairwise (· < ·) →
      s.number = s.sizes.length → ∀ {Ω' : Type} [MeasurableSpace Ω'] (Q' : Measure Ω') [IsProbabilityMeasure Q']
      (x' : ℕ → ℕ → Ω' → X) (z' : ℕ → ℕ → ℕ → Ω' → ℝ), (∀ r j l, Measurable fun ω => (x' r l ω, z' r j l ω)) →
      (∀ r j l, Q'.map (fun ω => (x' r l ω, z' r j l ω)) = law.prod (gaussianReal 0 1)) → (∀ r j, iIndepFun (fun l ω => (x' r l ω, z' r j l ω)) Q') →
      ∀ a ∈ s.sizes, ∃ D : ℝ, ∀ det ≤ D, let fit := fun ω => fittedChaos zero T φ det N pts (y ω)
        p < Q.real {ω | ∀ᵐ ω' ∂Q', ∃ (f : ℕ → ℝ → Res ℝ) (u : ℕ → ℝ) (w : ℝ),
          (∀ n, getPODCLModel (chaosRunSim { fit ω with samplingSize := n } (chaosDraws n s.number (fun l => x' 0 l ω') fun j l => z' 0 j l ω')
            ((chaosCoefsRandom A (fun i => y ω i) (fit ω).stderr M (fun r => z r ω) (chi ω)).mapIdx fun r co =>
              (co, chaosDraws n s.number (fun l => x' (r + 1) l ω') fun j l => z' (r + 1) j l ω')) s).2 level = .ok (f n)) ∧
          (∀ n, f n a = .ok (u n)) ∧ Tendsto u atTop (𝓝 w) ∧
          (law.prod (gaussianReal 0 v)).real {q | det < ∑ j, beta j * φ j (T (a, q.1)) + q.2} < w} := by
  have hv0 : (0 : ℝ) < v := by exact_mod_cast pos_iff_ne_zero.2 hv
  filter_upwards [squares_below v hv e he hlaw hind k hp, eventually_gt_atTop (k + 1)] with N hN hNk
  intro A y hA M hM z chi level s hs hnum Ω' _ Q' _ x' z' hxz' hlaw' hind' a ha
  set σ := Real.sqrt (v : ℝ) with hσ
  have hψ : ∀ a : ℝ, ∀ j, Measurable fun y : X => φ j (T (a, y)) := fun a j => (hφm j).comp (by fun_prop)
  have hm0 : (0 : ℝ) < (N : ℝ) - k - 1 := by
    have : ((k + 1 : ℕ) : ℝ) < N := by exact_mod_cast hNk
    push_cast at this
    linarith
  set sd : Ω → ℝ := fun ω => Real.sqrt (chaosScale A fun i => y ω i) with hsd
  have hsdlt : ∀ ω, ∑ i ∈ Finset.range N, e i ω ^ 2 < v * ((N : ℝ) - k - 1) → sd ω < σ := by
    intro ω h
    refine Real.sqrt_lt_sqrt ?_ ?_
    · exact div_nonneg (Finset.sum_nonneg fun i _ => sq_nonneg _) hm0.le
    · rw [chaosScale, div_lt_iff₀ hm0]
      refine (lsCoefs_least A hA _ beta).trans_lt ?_
      rw [Finset.sum_range] at h
      refine lt_of_eq_of_lt (Finset.sum_congr rfl fun i _ => ?_) h
      have : (A *ᵥ beta) i = ∑ j, beta j * φ j (T (pts i)) := by
        show ∑ j, A i j * beta j = _
        exact Finset.sum_congr rfl fun j _ => mul_comm _ _
      simp only [this, y]
      ring
  set truth : ℝ → ℝ := fun det => (law.prod (gaussianReal 0 v)).real {q | det < ∑ j, beta j * φ j (T (a, q.1)) + q.2} with htruth
  have htr : ∀ det, truth det = exceedanceNoise law (fun y => ∑ j, beta j * φ j (T (a, y))) (fun _ => σ) det := fun det =>
    exceedance_gauss law (fun y => ∑ j, beta j * φ j (T (a, y))) (Finset.measurable_sum _ fun j _ => (hψ a j).const_mul _) v det
  obtain ⟨B, hB⟩ := hb a
  have hbound : ∀ c : Fin k → ℝ, ∀ᵐ y ∂law, |∑ j, c j * φ j (T (a, y))| ≤ ∑ j, |c j| * B := by
    intro c
    filter_upwards [hB] with y hy
    refine (Finset.abs_sum_le_sum_abs _ _).trans (Finset.sum_le_sum fun j _ => ?_)
    rw [abs_mul]
    exact mul_le_mul_of_nonneg_left (hy j) (abs_nonneg _)
  set co : Ω → ℕ → Fin k → ℝ := fun ω r => chaosDraw (lsCoefs A fun i => y ω i) (fun _ => chaosVarEpsilon N k (sd ω) (chi ω)) (fun r => z r ω) r with hco
  set val : Ω → ℝ → ℝ := fun ω det => quantile ((List.range M).map fun r =>
    exceedanceNoise law (fun y => ∑ j, co ω r j * φ j (T (a, y))) (fun _ => sd ω) det) (1 - level) with hval
  have hrange : List.range M ≠ [] := by
    rw [Ne, List.range_eq_nil]
    omega
  have hgood : ∀ ω, ∑ i ∈ Finset.range N, e i ω ^ 2 < v * ((N : ℝ) - k - 1) → ∀ᶠ D : ℝ in atTop, truth (-D) < val ω (-D) := by
    intro ω hω
    have h1 : ∀ᶠ D : ℝ in atTop, ∀ r ∈ Finset.range M, ∃ t, truth (-D) ≤ PhiC t ∧
        PhiC (t - 1) ≤ exceedanceNoise law (fun y => ∑ j, co ω r j * φ j (T (a, y))) (fun _ => sd ω) (-D) := by
      rw [Filter.eventually_all_finset]
      intro r _
      have := exceed_low law (fun y => ∑ j, co ω r j * φ j (T (a, y))) (fun y => ∑ j, beta j * φ j (T (a, y)))
        ((hbound (co ω r)).mono fun y hy => (abs_le.1 hy).1) ((hbound beta).mono fun y hy => (abs_le.1 hy).2) (Real.sqrt_nonneg _) (hsdlt ω hω)
      filter_upwards [this] with D hD
      rwa [htr]
    filter_upwards [h1] with D hD
    obtain ⟨q, hq, q', hq', h2, -⟩ := quantile_between (xs := (List.range M).map fun r =>
      exceedanceNoise law (fun y => ∑ j, co ω r j * φ j (T (a, y))) (fun _ => sd ω) (-D)) (by simpa using hrange) (1 - level)
    obtain ⟨r, hr, rfl⟩ := List.mem_map.1 hq
    obtain ⟨t, h3, h4⟩ := hD r (Finset.mem_range.2 (List.mem_range.1 hr))
    exact (h3.trans_lt (PhiC_strictAnti (by linarith : t - 1 < t))).trans_le (h4.trans h2)
  -- one threshold for most of the errors
  set G : ℕ → Set Ω := fun n => {ω | ∀ D : ℝ, (n : ℝ) ≤ D → truth (-D) < val ω (-D)} with hG
  have hGm : Monotone G := fun n m hnm ω hω D hD => hω D ((Nat.cast_le.2 hnm).trans hD)
  have hsub : {ω | ∑ i ∈ Finset.range N, e i ω ^ 2 < v * ((N : ℝ) - k - 1)} ⊆ ⋃ n, G n := by
    intro ω hω
    obtain ⟨D0, hD0⟩ := eventually_atTop.1 (hgood ω hω)
    obtain ⟨n, hn⟩ := exists_nat_ge D0
    exact mem_iUnion.2 ⟨n, fun D hD => hD0 D (hn.trans hD)⟩
  have hlim : Tendsto (fun n => Q.real (G n)) atTop (𝓝 (Q.real (⋃ n, G n))) :=
    (ENNReal.tendsto_toReal (measure_ne_top _ _)).comp (tendsto_measure_iUnion_atTop hGm)
  obtain ⟨n, hn⟩ := (hlim.eventually_const_lt (hN.trans_le (measureReal_mono hsub))).exists
  refine ⟨-(n : ℝ), fun det hdet => ?_⟩
  intro fit
  refine hn.trans_le (measureReal_mono fun ω hω => ?_)
  have h1 : truth det < val ω det := by
    have := hω (-det) (by linarith)
    rwa [neg_neg] at this
  show ∀ᵐ ω' ∂Q', _
  have hnodes := chaosRun_nodes Q' law (fit ω) (fun a ψ hψm => by
      obtain ⟨j, rfl⟩ := (List.mem_ofFn' _ _).1 hψm
      exact hψ a j) (chaosCoefsRandom A (fun i => y ω i) (fit ω).stderr M (fun r => z r ω) (chi ω)) (by
      rw [chaosCoefsRandom]
      simpa using hrange) x' z' hxz' hlaw' hind' s hs hnum level
  filter_upwards [hnodes] with ω' hω'
  obtain ⟨f, hf, hl⟩ := hω'
  obtain ⟨u, hu, hul⟩ := hl a ha
  refine ⟨f, u, _, hf, hu, hul, lt_of_lt_of_eq h1 ?_⟩
  simp only [hval, chaosCoefsRandom, List.map_map]
  congr 1
  refine List.map_congr_left fun r _ => ?_
  simp only [Function.comp, exceedanceNoise]
  congr 1
  ext q
  simp only [mem_ofPred_eq, fit, fittedChaos, hsd, hco]
  rw [zipWith_ofFn_sum]

end

/-- **C243, what remains.**  In the setting of C242 the excess of the confidence curve over the true POD vanishes: for almost all sequences of observations the
probability, over the simulated coefficients, that the curve is at most `ε` above the true POD tends to 1 when the number of observations grows. -/
theorem C243_near_partial {Ω X U : Type} [MeasurableSpace Ω] [MeasurableSpace X] {Q : Measure Ω} [IsProbabilityMeasure Q] {P : Measure (ℝ × X)} [IsProbabilityMeasure P]
    {k : ℕ} (zero : ℝ × X) (T : ℝ × X → U) (φ : Fin k → U → ℝ) (hφm : ∀ j, Measurable fun w => φ j (T w)) (hφ : ∀ j, MemLp (fun w => φ j (T w)) 2 P)
    (hindep : ∀ c : Fin k → ℝ, c ≠ 0 → 0 < ∫ w, (∑ j, c j * φ j (T w)) ^ 2 ∂P) (v : NNReal) (hv : v ≠ 0)
    (x : ℕ → Ω → ℝ × X) (e : ℕ → Ω → ℝ) (hx : ∀ i, Measurable (x i)) (he : ∀ i, Measurable (e i))
    (hlaw : ∀ i, Q.map (fun ω => (x i ω, e i ω)) = P.prod (gaussianReal 0 v)) (hind : iIndepFun (fun i ω => (x i ω, e i ω)) Q) (beta : Fin k → ℝ)
    (det : ℝ) (law : Measure X) [IsProbabilityMeasure law] (s : SimAttrs) (hs : s.sizes.Pairwise (· < ·)) (hnum : s.number = s.sizes.length)
    {Ω' : Type} [MeasurableSpace Ω'] (Q' : Measure Ω') [IsProbabilityMeasure Q']
    (x' : ℕ → ℕ → Ω' → X) (z' : ℕ → ℕ → ℕ → Ω' → ℝ) (hxz' : ∀ r j l, Measurable fun ω => (x' r l ω, z' r j l ω))
    (hlaw' : ∀ r j l, Q'.map (fun ω => (x' r l ω, z' r j l ω)) = law.prod (gaussianReal 0 1))
    (hind' : ∀ r j, iIndepFun (fun l ω => (x' r l ω, z' r j l ω)) Q') {Ωc : Type} [MeasurableSpace Ωc] :
    ∀ᵐ ω ∂Q,
      let y := fun i => ∑ j, beta j * φ j (T (x i ω)) + e i ω
      let A := fun N => basisMatrix (fun j w => φ j (T w)) N fun i => x i ω
      let fit := fun N => fittedChaos zero T φ det N (fun i => x i ω) y
      ∀ (M : ℕ), 1 ≤ M → ∀ (Ps : ℕ → Measure Ωc) (_ : ∀ N, IsProbabilityMeasure (Ps N)) (z : ℕ → ℕ → Ωc → Fin k → ℝ) (chi : ℕ → Ωc → ℝ),
        (∀ N, ChaosSimDraws (Ps N) (A N) M (z N) (chi N)) → ∀ level ε, 0 < ε → ∀ a ∈ s.sizes,
        Tendsto (fun N => (Ps N).real {ωc | ∀ᵐ ω' ∂Q', ∃ (f : ℕ → ℝ → Res ℝ) (u : ℕ → ℝ) (w : ℝ),
          (∀ n, getPODCLModel (chaosRunSim { fit N with samplingSize := n } (chaosDraws n s.number (fun l => x' 0 l ω') fun j l => z' 0 j l ω')
            ((chaosCoefsRandom (A N) (fun i => y i) (fit N).stderr M (fun r => z N r ωc) (chi N ωc)).mapIdx fun r co =>
              (co, chaosDraws n s.number (fun l => x' (r + 1) l ω') fun j l => z' (r + 1) j l ω')) s).2 level = .ok (f n)) ∧
          (∀ n, f n a = .ok (u n)) ∧ Tendsto u atTop (𝓝 w) ∧
          w ≤ (law.prod (gaussianReal 0 v)).real {p | det < ∑ j, beta j * φ j (T (a, p.1)) + p.2} + ε}) atTop (𝓝 1) := by
  filter_upwards [C242_chaos (Ωc := Ωc) zero T φ hφm hφ hindep v hv x e hx he hlaw hind beta det law s hs hnum Q' x' z' hxz' hlaw' hind'] with ω hω
  intro y A fit M hM Ps hPs z chi hd level ε hε a ha
  refine prob_one_of_subset Ps _ _ (hω M hM Ps hPs z chi hd level ε hε) (Eventually.of_forall fun N ωc hωc => ?_)
  have hωc : ∀ᵐ ω' ∂Q', _ := hωc
  show ∀ᵐ ω' ∂Q', _
  filter_upwards [hωc] with ω' h
  obtain ⟨f, hf, hl⟩ := h
  obtain ⟨u, w, hu, hul, hw⟩ := hl a ha
  exact ⟨f, u, w, hf, hu, hul, by linarith [(abs_lt.1 hw).2]⟩

/-- Defects 0, 1, 2, … with signals `1 + 2 a + e`: whatever the 1000 simulated vectors, for many observations and a low threshold the curve at level 0.95 is above the
true POD of the defect 1 with a probability larger than 0.49 instead of at most 0.05. -/
example : let Q := Measure.infinitePi fun _ : ℕ => gaussianReal 0 1
    let Q' := Measure.infinitePi fun _ : ℕ => (gaussianReal 0 1).prod (gaussianReal 0 1)
    let s : SimAttrs := ⟨⟨[1, 2], 2⟩, none, none⟩
    ∀ᶠ N in atTop, let A := basisMatrix (fun j w => instBasis j (id w)) N fun i => ((i : ℝ), 0)
      let y := fun (ω : ℕ → ℝ) (i : ℕ) => ∑ j, (![1, 2] : Fin 2 → ℝ) j * instBasis j (id ((i : ℝ), 0)) + ω i
      ∀ (z : ℕ → (ℕ → ℝ) → Fin 2 → ℝ) (chi : (ℕ → ℝ) → ℝ), ∃ D : ℝ, ∀ det ≤ D, let fit := fun ω => fittedChaos (0, 0) id instBasis det N (fun i => ((i : ℝ), 0)) (y ω)
        0.49 < Q.real {ω | ∀ᵐ ω' ∂Q', ∃ (f : ℕ → ℝ → Res ℝ) (u : ℕ → ℝ) (w : ℝ),
          (∀ n, getPODCLModel (chaosRunSim { fit ω with samplingSize := n } (chaosDraws n s.number (fun l => (ω' l).1) fun _ l => (ω' l).2)
            ((chaosCoefsRandom A (fun i => y ω i) (fit ω).stderr 1000 (fun r => z r ω) (chi ω)).mapIdx fun _ co =>
              (co, chaosDraws n s.number (fun l => (ω' l).1) fun _ l => (ω' l).2)) s).2 0.95 = .ok (f n)) ∧
          (∀ n, f n 1 = .ok (u n)) ∧ Tendsto u atTop (𝓝 w) ∧
          ((gaussianReal 0 1).prod (gaussianReal 0 1)).real {q : ℝ × ℝ | det < ∑ j, (![1, 2] : Fin 2 → ℝ) j * instBasis j (id ((1 : ℝ), q.1)) + q.2} < w} := by
  intro Q Q' s
  have h := C243_violated (Q := Q) (0, 0) id instBasis (by
      intro j
      fin_cases j
      · exact measurable_const
      · exact measurable_fst) (gaussianReal 0 1)
    (fun a => ⟨max 1 |a|, Eventually.of_forall fun y j => by
      fin_cases j
      · simp [instBasis]
      · simp [instBasis]⟩)
    (fun i => ((i : ℝ), 0)) 1 one_ne_zero (fun i ω => ω i) (fun i => measurable_pi_apply i)
    (fun i => (measurePreserving_eval_infinitePi (fun _ : ℕ => gaussianReal 0 1) i).map_eq)
    (iIndepFun_infinitePi (P := fun _ : ℕ => gaussianReal 0 1) (X := fun _ x => x) (fun _ => measurable_id)) ![1, 2] (p := 0.49) (by norm_num)
  filter_upwards [h, eventually_ge_atTop 2] with N hN hN2
  intro A y z chi
  refine hN ?_ 1000 (by norm_num) z chi 0.95 s (by norm_num [s]) rfl Q' (fun _ k ω => (ω k).1) (fun _ _ k ω => (ω k).2) (fun _ _ k => measurable_pi_apply k)
    (fun _ _ k => (measurePreserving_eval_infinitePi (fun _ : ℕ => (gaussianReal 0 1).prod (gaussianReal 0 1)) k).map_eq)
    (fun _ _ => iIndepFun_infinitePi (P := fun _ : ℕ => (gaussianReal 0 1).prod (gaussianReal 0 1)) (X := fun _ x => x) (fun _ => measurable_id)) 1 (by simp [s])
  rw [isUnit_iff_ne_zero]
  intro h0
  obtain ⟨c, hc, hAc⟩ := Matrix.exists_mulVec_eq_zero_iff.2 h0
  have h1 : A *ᵥ c = 0 := by
    rw [← dotProduct_self_eq_zero, Matrix.dotProduct_mulVec, ← Matrix.mulVec_transpose, Matrix.mulVec_mulVec]
    change (((Aᵀ * A) *ᵥ c) ⬝ᵥ c) = 0
    rw [show (Aᵀ * A) *ᵥ c = 0 from hAc, zero_dotProduct]
  have r0 := congrFun h1 ⟨0, by omega⟩
  have r1 := congrFun h1 ⟨1, by omega⟩
  simp [A, basisMatrix, instBasis, Matrix.mulVec, dotProduct, Fin.sum_univ_two] at r0 r1
  apply hc
  funext j
  fin_cases j
  · exact r0
  · simp only [r0] at r1
    simpa using r1

end Verif.Props
