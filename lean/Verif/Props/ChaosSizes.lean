import Verif.Props.ChaosCoverage
import Verif.Props.DetectionUnits
import Verif.Props.PliDraw

/-!
# C244: with many observations the detection sizes of the chaos POD converge (/repo/otpod/_polynomial_chaos_pod.py 158-215, 256-273, 744-774)
-/

namespace Verif.Props
open Verif.Py Verif.Model ProbabilityTheory MeasureTheory Set Filter Topology Matrix

section
variable {Ω X U : Type} [MeasurableSpace Ω] [MeasurableSpace X] {Q : Measure Ω} [IsProbabilityMeasure Q]

/-- The exact PODs of the fitted and of the simulated coefficients are close to the true ones. -/
theorem chaos_close {P : Measure (ℝ × X)} [IsProbabilityMeasure P] {k : ℕ} (T : ℝ × X → U) (φ : Fin k → U → ℝ)
    (hφm : ∀ j, Measurable fun w => φ j (T w)) (hφ : ∀ j, MemLp (fun w => φ j (T w)) 2 P)
    (hindep : ∀ c : Fin k → ℝ, c ≠ 0 → 0 < ∫ w, (∑ j, c j * φ j (T w)) ^ 2 ∂P) (v : NNReal) (hv : v ≠ 0)
    (x : ℕ → Ω → ℝ × X) (e : ℕ → Ω → ℝ) (hx : ∀ i, Measurable (x i)) (he : ∀ i, Measurable (e i))
    (hlaw : ∀ i, Q.map (fun ω => (x i ω, e i ω)) = P.prod (gaussianReal 0 v)) (hind : iIndepFun (fun i ω => (x i ω, e i ω)) Q) (beta : Fin k → ℝ)
    (det : ℝ) (law : Measure X) [IsProbabilityMeasure law] {Ωc : Type} [MeasurableSpace Ωc] :
    ∀ᵐ ω ∂Q,
      let y := fun i => ∑ j, beta j * φ j (T (x i ω)) + e i ω
      let A := fun N => basisMatrix (fun j w => φ j (T w)) N fun i => x i ω
      ∀ (sizes : List ℝ) (M : ℕ) (Ps : ℕ → Measure Ωc) (_ : ∀ N, IsProbabilityMeasure (Ps N)) (z : ℕ → ℕ → Ωc → Fin k → ℝ) (chi : ℕ → Ωc → ℝ),
        (∀ N, ChaosSimDraws (Ps N) (A N) M (z N) (chi N)) → ∀ ε, 0 < ε →
        Tendsto (fun N => (Ps N).real {ωc | ∀ a ∈ sizes,
          |exceedanceNoise law (fun t => ∑ j, lsCoefs (A N) (fun i => y i) j * φ j (T (a, t))) (fun _ => Real.sqrt (chaosScale (A N) fun i => y i)) det
            - (law.prod (gaussianReal 0 v)).real {p | det < ∑ j, beta j * φ j (T (a, p.1)) + p.2}| < ε ∧
          ∀ r < M, |exceedanceNoise law (fun t => ∑ j, chaosDraw (lsCoefs (A N) fun i => y i)
              (fun _ => chaosVarEpsilon N k (Real.sqrt (chaosScale (A N) fun i => y i)) (chi N ωc)) (fun r => z N r ωc) r j * φ j (T (a, t)))
              (fun _ => Real.sqrt (chaosScale (A N) fun i => y i)) det
            - (law.prod (gaussianReal 0 v)).real {p | det < ∑ j, beta j * φ j (T (a, p.1)) + p.2}| < ε}) atTop (𝓝 1) := by
  have hμ : MemLp (fun t : ℝ => t) 2 (gaussianReal 0 v) := memLp_id_gaussianReal 2
  have hμ0 : ∫ t, t ∂(gaussianReal 0 v) = 0 := integral_id_gaussianReal
  have hvar : ∫ t, t ^ 2 ∂(gaussianReal 0 v) = v := by
    have h := variance_fun_id_gaussianReal (μ := 0) (v := v)
    rw [variance_eq_integral (by fun_prop)] at h
    simpa [hμ0] using h
  have hσ : 0 < Real.sqrt (v : ℝ) := Real.sqrt_pos.2 (by exact_mod_cast pos_iff_ne_zero.2 hv)
  have hψ : ∀ a : ℝ, ∀ j, Measurable fun y : X => φ j (T (a, y)) := fun a j => (hφm j).comp (by fun_prop)
  have hxl : ∀ i, Q.map (x i) = P := by
    intro i
    have h : Q.map (Prod.fst ∘ fun ω => (x i ω, e i ω)) = P := by
      rw [← Measure.map_map measurable_fst ((hx i).prodMk (he i)), hlaw i, Measure.map_fst_prod, measure_univ, one_smul]
    exact h
  have hxi : iIndepFun x Q := hind.comp (fun _ => Prod.fst) fun _ => measurable_fst
  filter_upwards [chaos_fit_limit (fun j w => φ j (T w)) hφm hφ hindep (gaussianReal 0 v) hμ hμ0 x e hx he hlaw hind beta,
    gram_inv_small (fun j w => φ j (T w)) hφm hφ hindep x hx hxl hxi] with ω hω hinv
  obtain ⟨h1, h2⟩ := hω
  rw [hvar] at h2
  have h2' := (Real.continuous_sqrt.tendsto _).comp h2
  intro y A sizes M Ps _ z chi hd ε hε
  -- a neighbourhood of the true parameters
  set truth : ℝ → ℝ := fun a => (law.prod (gaussianReal 0 v)).real {p | det < ∑ j, beta j * φ j (T (a, p.1)) + p.2} with htruth
  set F : ℝ → (Fin k → ℝ) × ℝ → ℝ := fun a p => exceedanceNoise law (fun y => ∑ j, p.1 j * φ j (T (a, y))) (fun _ => p.2) det with hF
  have hcont : ∀ a, Tendsto (F a) (𝓝 (beta, Real.sqrt v)) (𝓝 (truth a)) := by
    intro a
    simp only [htruth]
    rw [exceedance_gauss law (fun y => ∑ j, beta j * φ j (T (a, y))) (Finset.measurable_sum _ fun j _ => (hψ a j).const_mul _) v det]
    exact exceedanceNoise_continuousAt law (fun j y => φ j (T (a, y))) (hψ a) det beta hσ
  have hnear : ∀ᶠ p in 𝓝 (beta, Real.sqrt (v : ℝ)), ∀ a ∈ sizes.toFinset, |F a p - truth a| < ε := by
    rw [Filter.eventually_all_finset]
    intro a _
    have := Metric.tendsto_nhds.1 (hcont a) (ε) hε
    simpa only [Real.dist_eq] using this
  obtain ⟨η, hη, hball⟩ := Metric.eventually_nhds_iff.1 hnear
  -- the simulated coefficients
  set sd : ℕ → ℝ := fun N => (Real.sqrt (chaosScale (A N) fun i => y i)) with hsd
  have hsdl : Tendsto sd atTop (𝓝 (Real.sqrt v)) := h2'
  set σ := Real.sqrt (v : ℝ) with hσ'
  set δ := η / 2 / (4 * (σ + 1)) with hδ
  have hδ0 : 0 < δ := by positivity
  refine prob_one_of_subset Ps _ _ (chaosNear_tendsto M Ps A z chi hd hinv δ hδ0) ?_
  filter_upwards [Metric.tendsto_nhds.1 h1 (η / 2) (half_pos hη), Metric.tendsto_nhds.1 hsdl (min η 1) (lt_min hη one_pos), eventually_gt_atTop (k + 1)]
    with N hN1 hN2 hNk ωc hωc
  obtain ⟨hz, hchi⟩ := hωc
  have hcast : ((N - k - 1 : ℕ) : ℝ) = (N : ℝ) - k - 1 := by
    rw [Nat.cast_sub (by omega), Nat.cast_sub (by omega), Nat.cast_one]
  have hm0 : (0 : ℝ) < (N : ℝ) - k - 1 := by
    rw [← hcast]; exact_mod_cast (by omega : 0 < N - k - 1)
  rw [hcast] at hchi
  have hsd0 : 0 ≤ sd N := Real.sqrt_nonneg _
  have hsd1 : sd N ≤ σ + 1 := by
    have := (abs_lt.1 (hN2.trans_le (min_le_right _ _))).2
    linarith
  set V := chaosVarEpsilon N k (Real.sqrt (chaosScale (A N) fun i => y i)) (chi N ωc) with hV
  have hVb : Real.sqrt V ≤ 2 * (σ + 1) := by
    have hm1 : 0 < Real.sqrt ((N : ℝ) - k - 1) := Real.sqrt_pos.2 hm0
    have hlow : 1 / 2 < chi N ωc / Real.sqrt ((N : ℝ) - k - 1) := by linarith [(abs_lt.1 hchi).1]
    have hc0 : 0 < chi N ωc := by
      rw [lt_div_iff₀ hm1] at hlow
      nlinarith
    have hsq : V = (Real.sqrt ((N : ℝ) - k - 1) / chi N ωc * sd N) ^ 2 := by
      rw [hV, chaosVarEpsilon, mul_pow, div_pow, Real.sq_sqrt hm0.le]
      ring
    have hr : Real.sqrt ((N : ℝ) - k - 1) / chi N ωc ≤ 2 := by
      rw [div_le_iff₀ hc0]
      rw [lt_div_iff₀ hm1] at hlow
      linarith
    have hr0 : 0 ≤ Real.sqrt ((N : ℝ) - k - 1) / chi N ωc := by positivity
    rw [hsq, Real.sqrt_sq (by positivity)]
    exact mul_le_mul hr hsd1 hsd0 (by norm_num)
  set co : ℕ → Fin k → ℝ := fun r => chaosDraw (lsCoefs (A N) fun i => y i) (fun _ => V) (fun r => z N r ωc) r with hco
  have hclose : ∀ r < M, ∀ a ∈ sizes, |F a (co r, sd N) - truth a| < ε := by
    intro r hr a ha
    refine hball ?_ a (List.mem_toFinset.2 ha)
    rw [Prod.dist_eq, max_lt_iff]
    refine ⟨?_, hN2.trans_le (min_le_left _ _)⟩
    rw [dist_pi_lt_iff hη]
    intro j
    have t1 : dist (lsCoefs (A N) (fun i => y i) j) (beta j) < η / 2 := (dist_le_pi_dist _ _ j).trans_lt hN1
    have t2 : |z N r ωc j * Real.sqrt V| ≤ η / 4 := by
      rw [abs_mul, abs_of_nonneg (Real.sqrt_nonneg V)]
      calc |z N r ωc j| * Real.sqrt V ≤ δ * (2 * (σ + 1)) := mul_le_mul (hz r hr j).le hVb (Real.sqrt_nonneg _) hδ0.le
        _ = η / 4 := by rw [hδ]; field_simp
    rw [Real.dist_eq] at t1 ⊢
    simp only [hco, chaosDraw]
    rw [abs_lt] at t1 ⊢
    rw [abs_le] at t2
    constructor <;> linarith [t1.1, t1.2, t2.1, t2.2]
  have hfitclose : ∀ a ∈ sizes, |F a (lsCoefs (A N) (fun i => y i), sd N) - truth a| < ε := by
    intro a ha
    refine hball ?_ a (List.mem_toFinset.2 ha)
    rw [Prod.dist_eq, max_lt_iff]
    exact ⟨hN1.trans (half_lt_self hη), hN2.trans_le (min_le_left _ _)⟩
  exact fun a ha => ⟨hfitclose a ha, fun r hr => hclose r hr a ha⟩

end

/-- The limits of both curves of a run at the requested sizes. -/
theorem chaosRun_limits {X U Ω' : Type} [MeasurableSpace X] [MeasurableSpace Ω'] (Q' : Measure Ω') [IsProbabilityMeasure Q'] (law : Measure X) [IsProbabilityMeasure law]
    (c : ChaosSetup X U) (hT : ∀ a, ∀ ψ ∈ c.basis, Measurable fun y => ψ (c.transformation (a, y))) (coefs : List (List ℝ)) (hcne : coefs ≠ [])
    (x' : ℕ → ℕ → Ω' → X) (z' : ℕ → ℕ → ℕ → Ω' → ℝ) (hxz' : ∀ r j l, Measurable fun ω => (x' r l ω, z' r j l ω))
    (hlaw' : ∀ r j l, Q'.map (fun ω => (x' r l ω, z' r j l ω)) = law.prod (gaussianReal 0 1))
    (hind' : ∀ r j, iIndepFun (fun l ω => (x' r l ω, z' r j l ω)) Q') (s : SimAttrs) (hs : s.sizes.Pairwise (· < ·)) (hnum : s.number = s.sizes.length)
    (level : ℝ) :
    ∀ᵐ ω' ∂Q', ∃ f fc : ℕ → ℝ → Res ℝ,
      (∀ n, (chaosRunSim { c with samplingSize := n } (chaosDraws n s.number (fun l => x' 0 l ω') fun j l => z' 0 j l ω')
        (coefs.mapIdx fun r co => (co, chaosDraws n s.number (fun l => x' (r + 1) l ω') fun j l => z' (r + 1) j l ω')) s).2.curve = some (f n)) ∧
      (∀ n, getPODCLModel (chaosRunSim { c with samplingSize := n } (chaosDraws n s.number (fun l => x' 0 l ω') fun j l => z' 0 j l ω')
        (coefs.mapIdx fun r co => (co, chaosDraws n s.number (fun l => x' (r + 1) l ω') fun j l => z' (r + 1) j l ω')) s).2 level = .ok (fc n)) ∧
      ∀ a ∈ s.sizes, (∃ u : ℕ → ℝ, (∀ n, f n a = .ok (u n)) ∧ Tendsto u atTop (𝓝 ((law.prod (gaussianReal 0 1)).real
          {p | c.detection < (List.zipWith (fun b ψ => b * ψ (c.transformation (a, p.1))) c.coefs c.basis).sum + c.stderr * p.2}))) ∧
        ∃ u : ℕ → ℝ, (∀ n, fc n a = .ok (u n)) ∧ Tendsto u atTop (𝓝 (quantile (coefs.map fun co => (law.prod (gaussianReal 0 1)).real
          {p | c.detection < (List.zipWith (fun b ψ => b * ψ (c.transformation (a, p.1))) co c.basis).sum + c.stderr * p.2}) (1 - level))) := by
  filter_upwards [C150_chaos Q' law c hT coefs x' z' hxz' hlaw' hind' s (hs.imp fun h => h.le) hnum _ rfl] with ω' hω'
  obtain ⟨out, ho, -, ⟨g, hg, f, hf, hl⟩, hcl⟩ := hω'
  obtain ⟨gc, hgc, fc, hfc, hlc⟩ := hcl hcne level
  refine ⟨f, fc, fun n => (congrArg (fun o => o.2.curve) (ho n)).symm.trans (hf n),
    fun n => (congrArg (fun o => getPODCLModel o.2 level) (ho n)).symm.trans (hfc n), fun a ha => ?_⟩
  obtain ⟨i, hi, hia⟩ := List.mem_iff_getElem.1 ha
  have node : ∀ (E : ℝ → ℝ) (g : ℝ → Res ℝ), interp1d s.sizes (s.sizes.map E) = .ok g → g a = .ok (E a) := by
    intro E g hg
    obtain ⟨g', hg', -, hnode, -⟩ := interp1d_spec s.sizes (s.sizes.map E) (List.length_map _).symm (List.ne_nil_of_mem ha) hs
    rw [hg, Except.ok.injEq] at hg'
    subst hg'
    have hn := hnode i hi
    rwa [List.getD_eq_getElem _ _ hi, hia, List.getD_eq_getElem _ _ (by simpa using hi), List.getElem_map, hia] at hn
  exact ⟨hl a _ (node _ g hg), hlc a _ (node _ gc hgc)⟩

/-- An interpolated curve is close to `f` when it is close at the abscissae. -/
theorem interp_from_nodes (xs ys : List ℝ) (hinc : xs.Pairwise (· < ·)) (hne : xs ≠ []) (r : ℝ → Res ℝ) (hr : interp1d xs ys = .ok r) (f : ℝ → ℝ) (ε η : ℝ)
    (hε : 0 ≤ ε) (hnode : ∀ x ∈ xs, ∃ v, r x = .ok v ∧ |v - f x| ≤ η)
    (hch : ∀ i t, i + 1 < xs.length → xs.getD i 0 ≤ t → t ≤ xs.getD (i + 1) 0 →
      |f (xs.getD i 0) + (f (xs.getD (i + 1) 0) - f (xs.getD i 0)) *
        ((t - xs.getD i 0) / (xs.getD (i + 1) 0 - xs.getD i 0)) - f t| ≤ ε) :
    ∃ g : ℝ → ℝ, (∀ t, xs.getD 0 0 ≤ t → t ≤ xs.getD (xs.length - 1) 0 → r t = .ok (g t)) ∧
      ContinuousOn g (Icc (xs.getD 0 0) (xs.getD (xs.length - 1) 0)) ∧
      ∀ t, xs.getD 0 0 ≤ t → t ≤ xs.getD (xs.length - 1) 0 → |g t - f t| ≤ ε + η := by
  have hlen : xs.length = ys.length := by
    by_contra h
    rw [interp1d, if_neg h] at hr
    cases hr
  obtain ⟨r', hr', -, hn, -⟩ := interp1d_spec xs ys hlen hne hinc
  rw [hr, Except.ok.injEq] at hr'
  subst hr'
  obtain ⟨g, ⟨r', hr', h1⟩, h2, h3⟩ := interp_near xs ys hlen hne hinc f ε η hε (fun i hi => by
    have hm : xs.getD i 0 ∈ xs := by rw [List.getD_eq_getElem _ _ hi]; exact List.getElem_mem hi
    obtain ⟨v, hv, hd⟩ := hnode _ hm
    rw [hn i hi, Except.ok.injEq] at hv
    rwa [hv]) hch
  rw [hr, Except.ok.injEq] at hr'
  subst hr'
  exact ⟨g, h1, h2, h3⟩

/-- Both detection sizes of curves close to a strictly increasing one. -/
theorem detection_near (solve : (ℝ → ℝ) → ℝ → ℝ → ℝ → ℝ) (hs : SolveSpec solve) (dataMin dataMax a b p d0 : ℝ)
    (f : ℝ → ℝ) (hmf : StrictMonoOn f (Icc a b)) (hd : d0 ∈ Ioo a b) (hp : f d0 = p) (ε : ℝ) (hε : 0 < ε) :
    ∃ m > 0, ∀ (c : ℝ) (model modelCl : ℝ → ℝ), ContinuousOn model (Icc a b) → ContinuousOn modelCl (Icc a b) →
      (∀ t ∈ Icc a b, |model t - f t| ≤ m ∧ |modelCl t - f t| ≤ m) →
      ∃ d dc, computeDetectionSize solve dataMin dataMax model none (some p) none (some a) (some b) = .ok ([d], [labelP p]) ∧
        computeDetectionSize solve dataMin dataMax model (some modelCl) (some p) (some c) (some a) (some b) = .ok ([d, dc], [labelP p, labelPC p c]) ∧
        |d - d0| < ε ∧ |dc - d0| < ε := by
  obtain ⟨m, hm, k⟩ := level_near a b p d0 f hmf hd hp ε hε
  refine ⟨m, hm, fun c model modelCl cm cc hnear => ?_⟩
  obtain ⟨b1, q1⟩ := k model fun t ht => (hnear t ht).1
  obtain ⟨b2, q2⟩ := k modelCl fun t ht => (hnear t ht).2
  have hab : a ≤ b := (hd.1.trans hd.2).le
  have C := C16_detection_size solve hs dataMin dataMax model modelCl p c (some a) (some b) hab cm cc
  dsimp only [Option.getD_some] at C
  obtain ⟨-, c1, -, c2⟩ := C
  obtain ⟨d, dc, hdd, i1, i2, i3, i4⟩ := c2 ⟨b1, b2⟩
  refine ⟨d, dc, ?_, hdd, q1 d i1 i2, q2 dc i3 i4⟩
  obtain ⟨d', hd', -, -⟩ := c1 b1
  have hk : computeDetectionSize solve dataMin dataMax model (some modelCl) (some p) none (some a) (some b) =
      computeDetectionSize solve dataMin dataMax model none (some p) none (some a) (some b) := by
    simp [computeDetectionSize]
  have e : d' = d := by
    rw [computeDetectionSize] at hd' hdd
    dsimp only [Option.getD_some] at hd' hdd
    rw [if_neg (by simpa using b1)] at hd' hdd
    rw [if_neg (by simpa using b2)] at hdd
    simp only [Except.ok.injEq, Prod.mk.injEq, List.cons.injEq] at hd' hdd
    rw [← hd'.1.1, ← hdd.1.1]
  rw [← hk, hd', e]

section
variable {Ω X U : Type} [MeasurableSpace Ω] [MeasurableSpace X] {Q : Measure Ω} [IsProbabilityMeasure Q]

/-- **C244.**  Signals that are a combination of the basis functions of the chaos plus independent normal errors; the true POD is continuous and strictly increasing on
`[a, b]` and equals `p` at `d0`.  For every precision `ε` there is a gap `δ` such that for all lists of defect sizes from `a` to `b` with gaps of at most `δ` and almost
all sequences of observations: with a probability over the simulated coefficients that tends to 1 when the number of observations grows, for all large sampling
sizes both curves of the run have values on `[a, b]` and `computeDetectionSize(p)`, `computeDetectionSize(p, level)` return sizes within `ε` of `d0`. -/
theorem C244_sizes {P : Measure (ℝ × X)} [IsProbabilityMeasure P] {k : ℕ} (zero : ℝ × X) (T : ℝ × X → U) (φ : Fin k → U → ℝ)
    (hφm : ∀ j, Measurable fun w => φ j (T w)) (hφ : ∀ j, MemLp (fun w => φ j (T w)) 2 P)
    (hindep : ∀ c : Fin k → ℝ, c ≠ 0 → 0 < ∫ w, (∑ j, c j * φ j (T w)) ^ 2 ∂P) (v : NNReal) (hv : v ≠ 0)
    (x : ℕ → Ω → ℝ × X) (e : ℕ → Ω → ℝ) (hx : ∀ i, Measurable (x i)) (he : ∀ i, Measurable (e i))
    (hlaw : ∀ i, Q.map (fun ω => (x i ω, e i ω)) = P.prod (gaussianReal 0 v)) (hind : iIndepFun (fun i ω => (x i ω, e i ω)) Q) (beta : Fin k → ℝ)
    (det : ℝ) (law : Measure X) [IsProbabilityMeasure law] (truth : ℝ → ℝ)
    (htruth : truth = fun a => (law.prod (gaussianReal 0 v)).real {p | det < ∑ j, beta j * φ j (T (a, p.1)) + p.2}) (a b p d0 : ℝ)
    (hcont : ContinuousOn truth (Icc a b)) (hmono : StrictMonoOn truth (Icc a b)) (hd0 : d0 ∈ Ioo a b) (hp : truth d0 = p)
    (solve : (ℝ → ℝ) → ℝ → ℝ → ℝ → ℝ) (hsolve : SolveSpec solve) (dataMin dataMax : ℝ)
    {Ω' : Type} [MeasurableSpace Ω'] (Q' : Measure Ω') [IsProbabilityMeasure Q']
    (x' : ℕ → ℕ → Ω' → X) (z' : ℕ → ℕ → ℕ → Ω' → ℝ) (hxz' : ∀ r j l, Measurable fun ω => (x' r l ω, z' r j l ω))
    (hlaw' : ∀ r j l, Q'.map (fun ω => (x' r l ω, z' r j l ω)) = law.prod (gaussianReal 0 1))
    (hind' : ∀ r j, iIndepFun (fun l ω => (x' r l ω, z' r j l ω)) Q') {Ωc : Type} [MeasurableSpace Ωc] (ε : ℝ) (hε : 0 < ε) :
    ∃ δ > 0, ∀ s : SimAttrs, s.number = s.sizes.length → FineSizes a b δ s.sizes → ∀ᵐ ω ∂Q,
      let y := fun i => ∑ j, beta j * φ j (T (x i ω)) + e i ω
      let A := fun N => basisMatrix (fun j w => φ j (T w)) N fun i => x i ω
      let fit := fun N => fittedChaos zero T φ det N (fun i => x i ω) y
      ∀ (M : ℕ), 1 ≤ M → ∀ (Ps : ℕ → Measure Ωc) (_ : ∀ N, IsProbabilityMeasure (Ps N)) (z : ℕ → ℕ → Ωc → Fin k → ℝ) (chi : ℕ → Ωc → ℝ),
        (∀ N, ChaosSimDraws (Ps N) (A N) M (z N) (chi N)) → ∀ level,
        Tendsto (fun N => (Ps N).real {ωc | ∀ᵐ ω' ∂Q', ∀ᶠ n in atTop, ∃ r rc : ℝ → Res ℝ, let out := (chaosRunSim { fit N with samplingSize := n }
              (chaosDraws n s.number (fun l => x' 0 l ω') fun j l => z' 0 j l ω')
              ((chaosCoefsRandom (A N) (fun i => y i) (fit N).stderr M (fun r => z N r ωc) (chi N ωc)).mapIdx fun r co =>
                (co, chaosDraws n s.number (fun l => x' (r + 1) l ω') fun j l => z' (r + 1) j l ω')) s).2
          out.curve = some r ∧ getPODCLModel out level = .ok rc ∧ (∀ t ∈ Icc a b, ∃ w wc, r t = .ok w ∧ rc t = .ok wc) ∧
          ∀ (model : ℝ → ℝ) (modelCl : ℝ → ℝ → ℝ), (∀ t ∈ Icc a b, r t = .ok (model t) ∧ rc t = .ok (modelCl level t)) →
            ∃ d dc, sizesDetection solve dataMin dataMax a b model modelCl p none = .ok ([d], [labelP p]) ∧
              sizesDetection solve dataMin dataMax a b model modelCl p (some level) = .ok ([d, dc], [labelP p, labelPC p level]) ∧
              |d - d0| < ε ∧ |dc - d0| < ε}) atTop (𝓝 1) := by
  have hψ : ∀ a : ℝ, ∀ j, Measurable fun y : X => φ j (T (a, y)) := fun a j => (hφm j).comp (by fun_prop)
  obtain ⟨m', hm', hdet'⟩ := detection_near solve hsolve dataMin dataMax a b p d0 truth hmono hd0 hp ε hε
  obtain ⟨δ, hδ, hchord⟩ := chord_uniform a b truth hcont (m' / 2) (by linarith)
  refine ⟨δ, hδ, fun s hnum hfine => ?_⟩
  have hmem := fine_mem hfine
  obtain ⟨hne, hinc, h0, h1, hgap⟩ := hfine
  have key : ∀ i t, i + 1 < s.sizes.length → s.sizes.getD i 0 ≤ t → t ≤ s.sizes.getD (i + 1) 0 →
      |truth (s.sizes.getD i 0) + (truth (s.sizes.getD (i + 1) 0) - truth (s.sizes.getD i 0)) *
        ((t - s.sizes.getD i 0) / (s.sizes.getD (i + 1) 0 - s.sizes.getD i 0)) - truth t| ≤ m' / 2 := by
    intro i t hi ha hb
    refine hchord _ le_rfl _ _ t (hmem i (by omega)) (hmem _ hi) ?_ (hgap i hi) ha hb
    rw [List.getD_eq_getElem _ _ (by omega : i < s.sizes.length), List.getD_eq_getElem _ _ hi]
    exact List.pairwise_iff_getElem.mp hinc i (i + 1) _ _ (by omega)
  filter_upwards [chaos_close (Ωc := Ωc) T φ hφm hφ hindep v hv x e hx he hlaw hind beta det law] with ω hω
  intro y A fit M hM Ps hPs z chi hd level
  refine prob_one_of_subset Ps _ _ (hω s.sizes M Ps hPs z chi hd (m' / 4) (by linarith)) (Eventually.of_forall fun N ωc hωc => ?_)
  have hωc : ∀ a ∈ s.sizes, _ := hωc
  show ∀ᵐ ω' ∂Q', _
  have hrange : List.range M ≠ [] := by
    rw [Ne, List.range_eq_nil]
    omega
  have hlimits := chaosRun_limits Q' law (fit N) (fun a ψ hψm => by
      obtain ⟨j, rfl⟩ := (List.mem_ofFn' _ _).1 hψm
      exact hψ a j) (chaosCoefsRandom (A N) (fun i => y i) (fit N).stderr M (fun r => z N r ωc) (chi N ωc)) (by
      rw [chaosCoefsRandom]
      simpa using hrange) x' z' hxz' hlaw' hind' s hinc hnum level
  have hE : ∀ (c : Fin k → ℝ) (a : ℝ), (law.prod (gaussianReal 0 1)).real {p | (fit N).detection < (List.zipWith (fun b ψ => b * ψ ((fit N).transformation (a, p.1)))
      (List.ofFn c) (fit N).basis).sum + (fit N).stderr * p.2}
      = exceedanceNoise law (fun t => ∑ j, c j * φ j (T (a, t))) (fun _ => Real.sqrt (chaosScale (A N) fun i => y i)) det := by
    intro c a
    simp only [exceedanceNoise]
    congr 1
    ext p
    simp only [mem_ofPred_eq, fit, fittedChaos]
    rw [zipWith_ofFn_sum]
  filter_upwards [hlimits] with ω' hω'
  obtain ⟨f, fc, hf, hfc, hl⟩ := hω'
  have hev : ∀ᶠ n in atTop, ∀ a ∈ s.sizes.toFinset, (∃ w, f n a = .ok w ∧ |w - truth a| ≤ m' / 2) ∧ ∃ w, fc n a = .ok w ∧ |w - truth a| ≤ m' / 2 := by
    rw [Filter.eventually_all_finset]
    intro a ha
    have ha := List.mem_toFinset.1 ha
    obtain ⟨⟨u, hu, tu⟩, uc, huc, tuc⟩ := hl a ha
    obtain ⟨c1, c2⟩ := hωc a ha
    have n1 : |(law.prod (gaussianReal 0 1)).real {p | (fit N).detection < (List.zipWith (fun b ψ => b * ψ ((fit N).transformation (a, p.1)))
      (fit N).coefs (fit N).basis).sum + (fit N).stderr * p.2} - truth a| < m' / 2 := by
      have h : (fit N).coefs = List.ofFn (lsCoefs (A N) fun i => y i) := rfl
      rw [h, hE, htruth]
      linarith
    have n2 : |quantile ((chaosCoefsRandom (A N) (fun i => y i) (fit N).stderr M (fun r => z N r ωc) (chi N ωc)).map fun co => (law.prod (gaussianReal 0 1)).real
          {p | (fit N).detection < (List.zipWith (fun b ψ => b * ψ ((fit N).transformation (a, p.1))) co (fit N).basis).sum + (fit N).stderr * p.2}) (1 - level)
          - truth a| < m' / 2 := by
      have hq := quantile_within (l := (chaosCoefsRandom (A N) (fun i => y i) (fit N).stderr M (fun r => z N r ωc) (chi N ωc)).map fun co => (law.prod (gaussianReal 0 1)).real
          {p | (fit N).detection < (List.zipWith (fun b ψ => b * ψ ((fit N).transformation (a, p.1))) co (fit N).basis).sum + (fit N).stderr * p.2})
        (by rw [chaosCoefsRandom]; simpa using hrange) (lo := truth a - m' / 4) (hi := truth a + m' / 4) (by
          intro q hq
          obtain ⟨c, hc, rfl⟩ := List.mem_map.1 hq
          rw [chaosCoefsRandom] at hc
          obtain ⟨r, hr, rfl⟩ := List.mem_map.1 hc
          have h := abs_lt.1 (c2 r (List.mem_range.1 hr))
          rw [hE, htruth]
          have e1 : (fit N).stderr = Real.sqrt (chaosScale (A N) fun i => y i) := rfl
          rw [e1]
          constructor <;> linarith [h.1, h.2]) (1 - level)
      rw [abs_lt]
      constructor <;> linarith [hq.1, hq.2]
    have t1 := (tu.sub_const (truth a)).abs.eventually_lt_const n1
    have t2 := (tuc.sub_const (truth a)).abs.eventually_lt_const n2
    filter_upwards [t1, t2] with n g1 g2
    exact ⟨⟨_, hu n, g1.le⟩, _, huc n, g2.le⟩
  filter_upwards [hev] with n hn
  refine ⟨f n, fc n, hf n, hfc n, ?_⟩
  obtain ⟨⟨ys, -, hys⟩, ysc, -, hysc⟩ := chaos_interp _ _ _ s hnum level (f n) (fc n) (hf n) (hfc n) (by
    have hlen := congrArg List.length (chaosPodRow_eq { fit N with samplingSize := n } n rfl s.sizes (fit N).coefs (fun l => x' 0 l ω') fun j l => z' 0 j l ω')
    rw [List.length_map, List.length_range] at hlen
    rw [hnum]
    exact ⟨_, by rw [interp1d, if_pos hlen.symm]⟩)
  obtain ⟨g, g1, g2, g3⟩ := interp_from_nodes s.sizes ys hinc hne (f n) hys truth (m' / 2) (m' / 2) (by linarith)
    (fun x hx => (hn x (List.mem_toFinset.2 hx)).1) key
  obtain ⟨gc, gc1, gc2, gc3⟩ := interp_from_nodes s.sizes ysc hinc hne (fc n) hysc truth (m' / 2) (m' / 2) (by linarith)
    (fun x hx => (hn x (List.mem_toFinset.2 hx)).2) key
  rw [h0, h1] at g1 g2 g3 gc1 gc2 gc3
  refine ⟨fun t ht => ⟨_, _, g1 t ht.1 ht.2, gc1 t ht.1 ht.2⟩, fun model modelCl hmod => ?_⟩
  have em : ∀ t ∈ Icc a b, model t = g t := fun t ht => by
    have := (hmod t ht).1; rw [g1 t ht.1 ht.2, Except.ok.injEq] at this; exact this.symm
  have emc : ∀ t ∈ Icc a b, modelCl level t = gc t := fun t ht => by
    have := (hmod t ht).2; rw [gc1 t ht.1 ht.2, Except.ok.injEq] at this; exact this.symm
  exact hdet' level model (modelCl level) (g2.congr em) (gc2.congr emc) fun t ht => by
    rw [em t ht, emc t ht]
    have e1 := g3 t ht.1 ht.2
    have e2 := gc3 t ht.1 ht.2
    constructor <;> linarith

end

/-- Lists of any fineness exist. -/
theorem fineSizes_exist (a b δ : ℝ) (hab : a < b) (hδ : 0 < δ) : ∃ l, FineSizes a b δ l := by
  obtain ⟨n, hn⟩ := exists_nat_gt ((b - a) / δ)
  have hn0 : (0 : ℝ) < n := (div_pos (sub_pos.2 hab) hδ).trans hn
  have hget : ∀ i, i < n + 1 → ((List.range (n + 1)).map fun i : ℕ => a + i * ((b - a) / n)).getD i 0 = a + i * ((b - a) / n) := by
    intro i hi
    rw [List.getD_eq_getElem _ _ (by simpa using hi), List.getElem_map, List.getElem_range]
  have hstep : 0 < (b - a) / n := div_pos (sub_pos.2 hab) hn0
  refine ⟨(List.range (n + 1)).map fun i : ℕ => a + i * ((b - a) / n), by simp, ?_, ?_, ?_, ?_⟩
  · rw [List.pairwise_map]
    refine List.pairwise_lt_range.imp fun {i j} h => ?_
    have : (i : ℝ) < j := Nat.cast_lt.2 h
    nlinarith
  · rw [hget 0 (by omega)]
    simp
  · rw [List.length_map, List.length_range, Nat.add_sub_cancel, hget n (by omega)]
    field_simp
    ring
  · intro i hi
    rw [List.length_map, List.length_range] at hi
    rw [hget i (by omega), hget (i + 1) hi]
    have : (b - a) / n ≤ δ := by
      rw [div_le_iff₀ hn0]
      rw [div_lt_iff₀ hδ] at hn
      linarith
    push_cast
    linarith

/-- Signal `1 + 2 a + e`, threshold 4: the size detected with probability one half is `3/2`; sizes from 1 to 2. -/
example (solve : (ℝ → ℝ) → ℝ → ℝ → ℝ → ℝ) (hsolve : SolveSpec solve) : let Q := Measure.infinitePi fun _ : ℕ => ((gaussianReal 0 1).prod (gaussianReal 0 1)).prod (gaussianReal 0 1)
    let Q' := Measure.infinitePi fun _ : ℕ => (gaussianReal 0 1).prod (gaussianReal 0 1)
    ∃ s : SimAttrs, ∀ᵐ ω ∂Q,
      let y := fun i => ∑ j, (![1, 2] : Fin 2 → ℝ) j * instBasis j (id (ω i).1) + (ω i).2
      let A := fun N => basisMatrix (fun j w => instBasis j (id w)) N fun i => (ω i).1
      let fit := fun N => fittedChaos (0, 0) id instBasis 4 N (fun i => (ω i).1) y
      ∃ (Ps : ℕ → Measure (EuclideanSpace ℝ (Fin 2) × ℝ)) (_ : ∀ N, IsProbabilityMeasure (Ps N)),
        Tendsto (fun N => (Ps N).real {ωc | ∀ᵐ ω' ∂Q', ∀ᶠ n in atTop, ∃ r rc : ℝ → Res ℝ, let out := (chaosRunSim { fit N with samplingSize := n }
              (chaosDraws n s.number (fun l => (ω' l).1) fun _ l => (ω' l).2)
              ((chaosCoefsRandom (A N) (fun i => y i) (fit N).stderr 1000 (fun _ => WithLp.ofLp ωc.1) ωc.2).mapIdx fun _ co =>
                (co, chaosDraws n s.number (fun l => (ω' l).1) fun _ l => (ω' l).2)) s).2
          out.curve = some r ∧ getPODCLModel out 0.95 = .ok rc ∧ (∀ t ∈ Icc (1 : ℝ) 2, ∃ w wc, r t = .ok w ∧ rc t = .ok wc) ∧
          ∀ (model : ℝ → ℝ) (modelCl : ℝ → ℝ → ℝ), (∀ t ∈ Icc (1 : ℝ) 2, r t = .ok (model t) ∧ rc t = .ok (modelCl 0.95 t)) →
            ∃ d dc, sizesDetection solve 0 5 1 2 model modelCl (1 / 2) none = .ok ([d], [labelP (1 / 2)]) ∧
              sizesDetection solve 0 5 1 2 model modelCl (1 / 2) (some 0.95) = .ok ([d, dc], [labelP (1 / 2), labelPC (1 / 2) 0.95]) ∧
              |d - 3 / 2| < 0.01 ∧ |dc - 3 / 2| < 0.01}) atTop (𝓝 1) := by
  intro Q Q'
  have htr : (fun a : ℝ => 1 - Phi (3 - 2 * a)) = fun a : ℝ => ((gaussianReal 0 1).prod (gaussianReal 0 1)).real
      {p : ℝ × ℝ | 4 < ∑ j, (![1, 2] : Fin 2 → ℝ) j * instBasis j (id (a, p.1)) + p.2} := by
    funext a
    have hset : {p : ℝ × ℝ | 4 < ∑ j, (![1, 2] : Fin 2 → ℝ) j * instBasis j (id (a, p.1)) + p.2} = univ ×ˢ Ioi (3 - 2 * a) := by
      ext p
      simp only [Fin.sum_univ_two, instBasis, mem_ofPred_eq, mem_prod, mem_univ, true_and, mem_Ioi, Matrix.cons_val_zero, Matrix.cons_val_one, id]
      constructor <;> intro h <;> linarith
    rw [hset, measureReal_prod_prod, probReal_univ, one_mul, ← PhiC_eq, PhiC]
  obtain ⟨δ, hδ, h⟩ := C244_sizes (Ωc := EuclideanSpace ℝ (Fin 2) × ℝ) (Q := Q) (P := (gaussianReal 0 1).prod (gaussianReal 0 1)) (0, 0) id instBasis
    (by
      intro j
      fin_cases j
      · exact measurable_const
      · exact measurable_fst)
    (by
      intro j
      fin_cases j
      · exact memLp_const 1
      · exact (memLp_id_gaussianReal 2).comp_fst (gaussianReal 0 1)) instBasis_indep 1 one_ne_zero
    (fun i ω => (ω i).1) (fun i ω => (ω i).2) (fun i => measurable_fst.comp (measurable_pi_apply i)) (fun i => measurable_snd.comp (measurable_pi_apply i))
    (fun i => (measurePreserving_eval_infinitePi (fun _ : ℕ => ((gaussianReal 0 1).prod (gaussianReal 0 1)).prod (gaussianReal 0 1)) i).map_eq)
    (iIndepFun_infinitePi (P := fun _ : ℕ => ((gaussianReal 0 1).prod (gaussianReal 0 1)).prod (gaussianReal 0 1)) (X := fun _ x => x)
      (fun _ => measurable_id)) ![1, 2] 4 (gaussianReal 0 1) _ htr 1 2 (1 / 2) (3 / 2)
    ((continuous_const.sub (Phi_continuous.comp (by fun_prop))).continuousOn)
    (fun t _ u _ htu => sub_lt_sub_left (Phi_strictMono (by linarith)) 1) (by norm_num)
    (by have h3 : (3 : ℝ) - 2 * (3 / 2) = 0 := by norm_num
        simp only [h3, Phi_zero]; norm_num) solve hsolve 0 5 Q' (fun _ k ω => (ω k).1)
    (fun _ _ k ω => (ω k).2) (fun _ _ k => measurable_pi_apply k)
    (fun _ _ k => (measurePreserving_eval_infinitePi (fun _ : ℕ => (gaussianReal 0 1).prod (gaussianReal 0 1)) k).map_eq)
    (fun _ _ => iIndepFun_infinitePi (P := fun _ : ℕ => (gaussianReal 0 1).prod (gaussianReal 0 1)) (X := fun _ x => x) (fun _ => measurable_id))
    0.01 (by norm_num)
  obtain ⟨l, hl⟩ := fineSizes_exist 1 2 δ (by norm_num) hδ
  refine ⟨⟨⟨l, l.length⟩, none, none⟩, ?_⟩
  filter_upwards [h ⟨⟨l, l.length⟩, none, none⟩ rfl hl] with ω hω
  choose Ps hPs hD using fun N : ℕ => chaosSimDraws_exist (basisMatrix (fun j w => instBasis j (id w)) N fun i => (ω i).1) 1000
  exact ⟨Ps, hPs, hω 1000 (by norm_num) Ps hPs (fun _ _ ωc => WithLp.ofLp ωc.1) (fun _ ωc => ωc.2) hD 0.95⟩

end Verif.Props
