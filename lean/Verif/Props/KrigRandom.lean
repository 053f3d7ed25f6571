import Verif.Props.KrigDesign
import Verif.Props.DeltaMethod
import Verif.Props.SimLimit
import Mathlib.MeasureTheory.Measure.Support

/-!
# The kriging POD converges to the POD of the physical model (C180)
-/

namespace Verif.Props
open Verif.Model Verif.Py Matrix Filter Topology MeasureTheory ProbabilityTheory

variable {d : ℕ} {Ω : Type} [MeasurableSpace Ω] {Q : Measure Ω} [IsProbabilityMeasure Q] {P : Measure (Fin (d + 1) → ℝ)} [IsProbabilityMeasure P]
  {xs : ℕ → Ω → Fin (d + 1) → ℝ}

/-- The coordinates of independent points with continuous marginal laws are distinct. -/
theorem design_distinct (hx : ∀ i, Measurable (xs i)) (hlaw : ∀ i, Q.map (xs i) = P) (hind : iIndepFun xs Q) (hatom : ∀ j c, P {x | x j = c} = 0) :
    ∀ᵐ ω ∂Q, ∀ j, Function.Injective fun i => xs i ω j := by
  have pair : ∀ j i i', i ≠ i' → ∀ᵐ ω ∂Q, xs i ω j ≠ xs i' ω j := by
    intro j i i' hi
    have hprod := (indepFun_iff_map_prod_eq_prod_map_map (hx i).aemeasurable (hx i').aemeasurable).1 (hind.indepFun hi)
    rw [hlaw, hlaw] at hprod
    have hmeas : MeasurableSet {q : (Fin (d + 1) → ℝ) × (Fin (d + 1) → ℝ) | q.1 j = q.2 j} :=
      measurableSet_eq_fun ((measurable_pi_apply j).comp measurable_fst) ((measurable_pi_apply j).comp measurable_snd)
    have h0 : (P.prod P) {q | q.1 j = q.2 j} = 0 := by
      rw [Measure.measure_prod_null hmeas]
      refine Eventually.of_forall fun z => ?_
      have e : Prod.mk z ⁻¹' {q : (Fin (d + 1) → ℝ) × (Fin (d + 1) → ℝ) | q.1 j = q.2 j} = {x | x j = z j} := by
        ext x; exact eq_comm
      change P _ = 0
      rw [e]
      exact hatom j _
    rw [← hprod, Measure.map_apply ((hx i).prodMk (hx i')) hmeas] at h0
    rw [ae_iff]
    convert h0 using 2
    ext ω
    simp
  have all : ∀ᵐ ω ∂Q, ∀ j i i', i ≠ i' → xs i ω j ≠ xs i' ω j := by
    refine ae_all_iff.2 fun j => ae_all_iff.2 fun i => ae_all_iff.2 fun i' => ?_
    by_cases h : i = i'
    · exact Eventually.of_forall fun ω h' => absurd h h'
    · filter_upwards [pair j i i' h] with ω hω _ using hω
  filter_upwards [all] with ω hω j i i' h
  by_contra hne
  exact hω j i i' hne h

/-- Independent points fill the support of their law. -/
theorem design_dense (hx : ∀ i, Measurable (xs i)) (hlaw : ∀ i, Q.map (xs i) = P) (hind : iIndepFun xs Q) :
    ∀ᵐ ω ∂Q, ∀ x ∈ P.support, x ∈ closure (Set.range fun i => xs i ω) := by
  have hU : ∀ᵐ ω ∂Q, ∀ U ∈ TopologicalSpace.countableBasis (Fin (d + 1) → ℝ), 0 < P U → ∃ i, xs i ω ∈ U := by
    refine (ae_ball_iff (TopologicalSpace.countable_countableBasis _)).2 fun U hU => ?_
    have hm : MeasurableSet U := (TopologicalSpace.isOpen_of_mem_countableBasis hU).measurableSet
    by_cases hp : 0 < P U
    · have h := avg_strong (f := U.indicator fun _ => (1 : ℝ)) hx hlaw hind (measurable_const.indicator hm) ((integrable_const _).indicator hm)
      filter_upwards [h] with ω hω _
      rw [integral_indicator_const _ hm, smul_eq_mul, mul_one] at hω
      have hpos : 0 < P.real U := ENNReal.toReal_pos hp.ne' (measure_ne_top _ _)
      obtain ⟨N, hN⟩ := (hω.eventually (lt_mem_nhds hpos)).exists
      by_contra hno
      push Not at hno
      rw [avg, Finset.sum_eq_zero fun i _ => Set.indicator_of_notMem (hno i) _, zero_div] at hN
      exact lt_irrefl _ hN
    · exact Eventually.of_forall fun ω h => absurd h hp
  filter_upwards [hU] with ω hω x hxs
  rw [mem_closure_iff_nhds_basis ((TopologicalSpace.isBasis_countableBasis _).nhds_hasBasis)]
  rintro U ⟨hUb, hxU⟩
  obtain ⟨i, hi⟩ := hω U hUb ((Measure.mem_support_iff_forall x).1 hxs U ((TopologicalSpace.isOpen_of_mem_countableBasis hUb).mem_nhds hxU))
  exact ⟨xs i ω, ⟨i, rfl⟩, hi⟩

/-- The empirical variance by the moments around a fixed value. -/
theorem svar_around (y : ℕ → ℝ) (m : ℝ) (N : ℕ) (hN : 2 ≤ N) :
    svar (fun i : Fin N => y i)
      = ((N : ℝ) / (N - 1)) * ((∑ i ∈ Finset.range N, (y i - m) ^ 2) / N - ((∑ i ∈ Finset.range N, y i) / N - m) ^ 2) := by
  have h0 : (N : ℝ) ≠ 0 := by positivity
  have h1 : (N : ℝ) - 1 ≠ 0 := by
    have : (2 : ℝ) ≤ N := by exact_mod_cast hN
    linarith
  unfold svar smean
  rw [Fin.sum_univ_eq_sum_range (fun i => y i) N]
  rw [Fin.sum_univ_eq_sum_range (fun i => (y i - (∑ i ∈ Finset.range N, y i) / N) ^ 2) N]
  set M := (∑ i ∈ Finset.range N, y i) / N with hM
  have hs : ∑ i ∈ Finset.range N, y i = N * M := by rw [hM]; field_simp
  have e : ∑ i ∈ Finset.range N, (y i - M) ^ 2 = ∑ i ∈ Finset.range N, (y i - m) ^ 2 - N * (M - m) ^ 2 := by
    have : ∀ i ∈ Finset.range N, (y i - M) ^ 2 = (y i - m) ^ 2 + (2 * (m - M)) * y i + (M ^ 2 - m ^ 2) := fun i _ => by ring
    rw [Finset.sum_congr rfl this, Finset.sum_add_distrib, Finset.sum_add_distrib, ← Finset.mul_sum, hs, Finset.sum_const, Finset.card_range,
      nsmul_eq_mul]
    ring
  rw [e]
  field_simp

/-- The factors of the normalisation stay in a bounded range. -/
theorem design_factors (hx : ∀ i, Measurable (xs i)) (hlaw : ∀ i, Q.map (xs i) = P) (hind : iIndepFun xs Q) (hatom : ∀ j c, P {x | x j = c} = 0)
    (hsq : ∀ j, MemLp (fun x : Fin (d + 1) → ℝ => x j) 2 P) :
    ∀ᵐ ω ∂Q, ∃ lo hi : ℝ, 0 < lo ∧ ∀ᶠ N in atTop, ∀ j, lo ≤ normFactor (fun i : Fin N => xs i ω j) ∧ normFactor (fun i : Fin N => xs i ω j) ≤ hi := by
  have one : ∀ j, ∀ᵐ ω ∂Q, ∃ lo hi : ℝ, 0 < lo ∧ ∀ᶠ N in atTop, lo ≤ normFactor (fun i : Fin N => xs i ω j) ∧
      normFactor (fun i : Fin N => xs i ω j) ≤ hi := by
    intro j
    set m := ∫ x, x j ∂P with hm
    have hmeas : Measurable fun x : Fin (d + 1) → ℝ => x j := measurable_pi_apply j
    have hmem : MemLp (fun x : Fin (d + 1) → ℝ => x j - m) 2 P := (hsq j).sub (memLp_const m)
    have hi2 : Integrable (fun x : Fin (d + 1) → ℝ => (x j - m) ^ 2) P := hmem.integrable_sq
    set V := ∫ x, (x j - m) ^ 2 ∂P with hV
    have hVpos : 0 < V := by
      refine lt_of_le_of_ne (integral_nonneg fun x => sq_nonneg _) fun h => ?_
      have h0 := (integral_eq_zero_iff_of_nonneg (fun x : Fin (d + 1) → ℝ => sq_nonneg (x j - m)) hi2).1 h.symm
      have h1 : ∀ᵐ x ∂P, x j = m := by
        filter_upwards [h0] with x hx
        have : x j - m = 0 := by simpa using hx
        linarith
      have h2 : P {x | x j = m}ᶜ = 0 := by rw [ae_iff] at h1; exact h1
      have h3 := measure_add_measure_compl (μ := P) (hmeas (measurableSet_singleton m))
      change P {x | x j = m} + P {x | x j = m}ᶜ = P Set.univ at h3
      rw [hatom, h2, measure_univ] at h3
      simp at h3
    filter_upwards [avg_strong (f := fun x => x j) hx hlaw hind hmeas ((hsq j).integrable (by norm_num)),
      avg_strong (f := fun x => (x j - m) ^ 2) hx hlaw hind ((hmeas.sub_const m).pow_const 2) hi2] with ω h1 h2
    have hr : Tendsto (fun N : ℕ => (N : ℝ) / (N - 1)) atTop (𝓝 1) := by
      have h := (tendsto_natCast_div_add_atTop (-1 : ℝ))
      simpa [sub_eq_add_neg] using h
    have hsv : Tendsto (fun N => svar (fun i : Fin N => xs i ω j)) atTop (𝓝 V) := by
      have h3 := hr.mul (h2.sub ((h1.sub_const m).pow 2))
      rw [one_mul, ← hm, ← hV, sub_self, zero_pow two_ne_zero, sub_zero] at h3
      refine h3.congr' ?_
      filter_upwards [eventually_ge_atTop 2] with N hN
      rw [svar_around (fun i => xs i ω j) m N hN]
      rfl
    have hsd := (Real.continuous_sqrt.tendsto V).comp hsv
    have hσ : 0 < Real.sqrt V := Real.sqrt_pos.2 hVpos
    refine ⟨min 1 (1 / (2 * Real.sqrt V)), max 1 (2 / Real.sqrt V), lt_min one_pos (by positivity), ?_⟩
    filter_upwards [hsd.eventually (lt_mem_nhds (half_lt_self hσ)), hsd.eventually (gt_mem_nhds (show Real.sqrt V < 2 * Real.sqrt V by linarith))]
      with N hN1 hN2
    change Real.sqrt V / 2 < Real.sqrt (svar fun i : Fin N => xs i ω j) at hN1
    change Real.sqrt (svar fun i : Fin N => xs i ω j) < 2 * Real.sqrt V at hN2
    have hp : 0 < Real.sqrt (svar fun i : Fin N => xs i ω j) := lt_trans (by positivity) hN1
    unfold normFactor
    split_ifs
    · refine ⟨(min_le_right _ _).trans (one_div_le_one_div_of_le hp hN2.le), le_trans ?_ (le_max_right _ _)⟩
      rw [div_le_div_iff₀ hp hσ]
      linarith
    · exact ⟨min_le_left _ _, le_max_left _ _⟩
  filter_upwards [ae_all_iff.2 one] with ω hω
  choose lo hi hlo hN using hω
  refine ⟨Finset.univ.inf' Finset.univ_nonempty lo, Finset.univ.sup' Finset.univ_nonempty hi, ?_, ?_⟩
  · rw [Finset.lt_inf'_iff]; exact fun j _ => hlo j
  · filter_upwards [eventually_all.2 hN] with N h j
    exact ⟨(Finset.inf'_le _ (Finset.mem_univ j)).trans (h j).1, (h j).2.trans (Finset.le_sup' _ (Finset.mem_univ j))⟩

/-- A law of the design points on a bounded domain, without atoms in the coordinates. -/
structure DesignLaw (P : Measure (Fin (d + 1) → ℝ)) (R : ℝ) : Prop where
  bounded : ∀ᵐ x ∂P, ∀ j, |x j| ≤ R
  atomless : ∀ j c, P {x | x j = c} = 0

/-- The settings of the covariance model after the estimation of its parameters stay in the search domain. -/
structure ModelRange (θ : ℕ → Fin (d + 1) → ℝ) (τ : ℕ → ℝ) : Prop where
  scales : ∃ tlo thi, 0 < tlo ∧ ∀ N j, tlo ≤ θ N j ∧ θ N j ≤ thi
  amplitude : ∃ T, ∀ N, 0 < τ N ∧ τ N ≤ T

/-- C180 (model).  Almost surely, whatever the sequence of estimated scales and amplitudes, at every point of the support of the design law the
prediction tends to the signal and the variance to zero. -/
theorem C180_model (hx : ∀ i, Measurable (xs i)) (hlaw : ∀ i, Q.map (xs i) = P) (hind : iIndepFun xs Q) (R : ℝ) (hP : DesignLaw P R) :
    ∀ᵐ ω ∂Q, ∀ (θ : ℕ → Fin (d + 1) → ℝ) (τ : ℕ → ℝ), ModelRange θ τ → ∀ (b0 b1 : ℝ) (q : ℕ) (u : Fin q → Fin (d + 1) → ℝ → ℝ),
      (∀ r j, ContDiff ℝ 1 (u r j)) → ∀ x ∈ P.support,
      Tendsto (fun N => designVar (fun a b => τ N * absExp (θ N) a b) defectTrend (fun i : Fin N => xs i ω) x) atTop (𝓝 0) ∧
      Tendsto (fun N => designMean (fun a b => τ N * absExp (θ N) a b) defectTrend (fun i : Fin N => xs i ω)
        (fun i => b0 + b1 * xs i ω 0 + tensorSignal u (xs i ω)) x) atTop (𝓝 (b0 + b1 * x 0 + tensorSignal u x)) := by
  have hsq : ∀ j, MemLp (fun x : Fin (d + 1) → ℝ => x j) 2 P := fun j =>
    MemLp.of_bound (measurable_pi_apply j).aestronglyMeasurable R (hP.bounded.mono fun x h => by rw [Real.norm_eq_abs]; exact h j)
  have hR : ∀ᵐ ω ∂Q, ∀ i j, |xs i ω j| ≤ R := ae_all_iff.2 fun i => by
    have h := hP.bounded
    rw [← hlaw i] at h
    exact ae_of_ae_map (hx i).aemeasurable h
  filter_upwards [design_distinct hx hlaw hind hP.atomless, design_dense hx hlaw hind, design_factors hx hlaw hind hP.atomless hsq, hR]
    with ω h1 h2 h3 h4 θ τ hm b0 b1 q u hu x hxs
  obtain ⟨lo, hi, hlo, hfac⟩ := h3
  obtain ⟨tlo, thi, htlo, hθ⟩ := hm.scales
  obtain ⟨T, hτ⟩ := hm.amplitude
  exact design_limit (fun i => xs i ω) h1 R h4 lo hi hlo hfac θ tlo thi htlo hθ τ T hτ b0 b1 u hu x (h2 x hxs)

/-! ### The run -/

theorem podLaw_congr {X : Type} (mean variance mean' variance' : ℝ × X → ℝ) (det defect : ℝ) (l : List X) (z : ℝ)
    (h : ∀ x ∈ l, (det < z * Real.sqrt (variance (defect, x)) + mean (defect, x) ↔ det < z * Real.sqrt (variance' (defect, x)) + mean' (defect, x))) :
    podLaw det (krigTrajectory mean variance defect l z) = podLaw det (krigTrajectory mean' variance' defect l z) := by
  have hf : fracAbove det (krigTrajectory mean variance defect l z) = fracAbove det (krigTrajectory mean' variance' defect l z) := by
    unfold fracAbove krigTrajectory mergeDefectInX
    simp only [List.length_map, List.map_map, List.countP_map]
    congr 2
    refine List.countP_congr fun x hx => ?_
    simpa using h x hx
  have hl : (krigTrajectory mean variance defect l z).length = (krigTrajectory mean' variance' defect l z).length := by
    simp [krigTrajectory]
  unfold podLaw
  rw [hf, hl]

/-- A model converging at the simulated points gives in the end the same POD sample as the signal itself. -/
theorem podSample_eventually {X : Type} (mean variance : ℕ → ℝ × X → ℝ) (signal : ℝ × X → ℝ) (det defect : ℝ) (w : KrigDraws X)
    (hm : ∀ x ∈ w.xs, Tendsto (fun N => mean N (defect, x)) atTop (𝓝 (signal (defect, x))))
    (hv : ∀ x ∈ w.xs, Tendsto (fun N => variance N (defect, x)) atTop (𝓝 0)) (hne : ∀ x ∈ w.xs, signal (defect, x) ≠ det) :
    ∀ᶠ N in atTop, podSamplePerDefect (mean N) (variance N) det defect w = podSamplePerDefect signal (fun _ => 0) det defect w := by
  have key : ∀ z ∈ w.xi, ∀ᶠ N in atTop, podLaw det (krigTrajectory (mean N) (variance N) defect w.xs z)
      = podLaw det (krigTrajectory signal (fun _ => 0) defect w.xs z) := by
    intro z _
    have hpt : ∀ x ∈ w.xs, ∀ᶠ N in atTop, (det < z * Real.sqrt (variance N (defect, x)) + mean N (defect, x) ↔
        det < z * Real.sqrt 0 + signal (defect, x)) := by
      intro x hx
      have hlim : Tendsto (fun N => z * Real.sqrt (variance N (defect, x)) + mean N (defect, x)) atTop (𝓝 (signal (defect, x))) := by
        have h1 := (((Real.continuous_sqrt.tendsto 0).comp (hv x hx)).const_mul z).add (hm x hx)
        simpa using h1
      rw [Real.sqrt_zero, mul_zero, zero_add]
      rcases lt_or_gt_of_ne (hne x hx) with h | h
      · filter_upwards [hlim.eventually (gt_mem_nhds h)] with N hN
        exact ⟨fun h' => absurd h' hN.not_gt, fun h' => absurd h' h.not_gt⟩
      · filter_upwards [hlim.eventually (lt_mem_nhds h)] with N hN
        exact ⟨fun _ => h, fun _ => hN⟩
    have hall : ∀ᶠ N in atTop, ∀ x ∈ w.xs, (det < z * Real.sqrt (variance N (defect, x)) + mean N (defect, x) ↔
        det < z * Real.sqrt 0 + signal (defect, x)) := by
      have := (eventually_all_finite (List.finite_toSet w.xs)).2 hpt
      exact this
    filter_upwards [hall] with N hN
    exact podLaw_congr _ _ _ _ _ _ _ _ hN
  have hall : ∀ᶠ N in atTop, ∀ z ∈ w.xi, podLaw det (krigTrajectory (mean N) (variance N) defect w.xs z)
      = podLaw det (krigTrajectory signal (fun _ => 0) defect w.xs z) := (eventually_all_finite (List.finite_toSet w.xi)).2 key
  filter_upwards [hall] with N hN
  unfold podSamplePerDefect
  rw [List.map_congr_left hN]

theorem krigingRunSim_congr (rows : ℕ) (sim sim' : ℕ → ℝ → List ℝ) (s : SimAttrs)
    (h : ∀ i < s.sizes.length, sim i (s.sizes.getD i 0) = sim' i (s.sizes.getD i 0)) : krigingRunSim rows sim s = krigingRunSim rows sim' s := by
  have e : s.sizes.mapIdx sim = s.sizes.mapIdx sim' := by
    rw [mapIdx_range s.sizes 0, mapIdx_range s.sizes 0]
    exact List.map_congr_left fun i hi => h i (List.mem_range.1 hi)
  unfold krigingRunSim
  simp only [e]

/-- C180 (run).  Almost surely, for any simulation draws inside the support and outside the threshold, the whole state left by `run` is, from some number
of observations on, the one obtained by simulating the physical model itself. -/
theorem C180_run (hx : ∀ i, Measurable (xs i)) (hlaw : ∀ i, Q.map (xs i) = P) (hind : iIndepFun xs Q) (R : ℝ) (hP : DesignLaw P R) :
    ∀ᵐ ω ∂Q, ∀ (θ : ℕ → Fin (d + 1) → ℝ) (τ : ℕ → ℝ), ModelRange θ τ → ∀ (b0 b1 : ℝ) (q : ℕ) (u : Fin q → Fin (d + 1) → ℝ → ℝ),
      (∀ r j, ContDiff ℝ 1 (u r j)) → ∀ (det : ℝ) (rows : ℕ) (w : ℕ → KrigDraws (Fin d → ℝ)) (s : SimAttrs),
      (∀ i < s.sizes.length, ∀ x ∈ (w i).xs, fullPoint (s.sizes.getD i 0, x) ∈ P.support ∧
        b0 + b1 * s.sizes.getD i 0 + tensorSignal u (fullPoint (s.sizes.getD i 0, x)) ≠ det) →
      ∀ᶠ N in atTop, krigingDesignRun (fun a b => τ N * absExp (θ N) a b) defectTrend (fun i : Fin N => xs i ω)
          (fun i => b0 + b1 * xs i ω 0 + tensorSignal u (xs i ω)) det rows w s
        = krigingRunSim rows (fun i a => podSamplePerDefect (fun p => b0 + b1 * p.1 + tensorSignal u (fullPoint p)) (fun _ => 0) det a (w i)) s := by
  filter_upwards [C180_model hx hlaw hind R hP] with ω hω θ τ hm b0 b1 q u hu det rows w s hw
  have hev : ∀ᶠ N in atTop, ∀ i ∈ Set.Iio s.sizes.length,
      podSamplePerDefect (fun p => designMean (fun a b => τ N * absExp (θ N) a b) defectTrend (fun i : Fin N => xs i ω)
          (fun i => b0 + b1 * xs i ω 0 + tensorSignal u (xs i ω)) (fullPoint p))
        (fun p => designVar (fun a b => τ N * absExp (θ N) a b) defectTrend (fun i : Fin N => xs i ω) (fullPoint p)) det (s.sizes.getD i 0) (w i)
      = podSamplePerDefect (fun p => b0 + b1 * p.1 + tensorSignal u (fullPoint p)) (fun _ => 0) det (s.sizes.getD i 0) (w i) := by
    refine (eventually_all_finite (Set.finite_Iio _)).2 fun i hi => ?_
    refine podSample_eventually _ _ (fun p : ℝ × (Fin d → ℝ) => b0 + b1 * p.1 + tensorSignal u (fullPoint p)) det _ (w i) ?_ ?_ ?_
    · intro x hxw
      exact (hω θ τ hm b0 b1 q u hu _ (hw i hi x hxw).1).2
    · intro x hxw
      exact (hω θ τ hm b0 b1 q u hu _ (hw i hi x hxw).1).1
    · intro x hxw
      exact (hw i hi x hxw).2
  filter_upwards [hev] with N hN
  exact krigingRunSim_congr _ _ _ _ fun i hi => hN i hi

/-! ### The POD -/

/-- The draws of a run with `sim` trajectories and `m` Monte-Carlo points. -/
def krigDraws {X : Type} (sim m : ℕ) (x : ℕ → X) (z : ℕ → ℝ) (c : ℕ → ℕ) (g : ℕ → ℝ) : KrigDraws X where
  xs := (List.range m).map x
  xi := (List.range sim).map z
  mix := (List.range (sim * m)).map fun k => (c k, g k)

/-- Without metamodel uncertainty all components of the mixture are the same law. -/
theorem podSample_direct {X : Type} (signal : ℝ × X → ℝ) (det a : ℝ) (sim m : ℕ) (x : ℕ → X) (z : ℕ → ℝ) (c : ℕ → ℕ) (g : ℕ → ℝ) (hc : ∀ k, c k < sim) :
    podSamplePerDefect signal (fun _ => 0) det a (krigDraws sim m x z c g)
      = (List.range (sim * m)).map fun k => (podLaw det ((List.range m).map fun i => signal (a, x i))).draw (g k) := by
  unfold podSamplePerDefect krigDraws
  simp only [List.map_map]
  refine List.map_congr_left fun k _ => ?_
  simp only [Function.comp_apply]
  rw [List.getD_eq_getElem _ _ (by simpa using hc k), List.getElem_map]
  have e' : ∀ r, krigTrajectory signal (fun _ => 0) a ((List.range m).map x) r = (List.range m).map fun i => signal (a, x i) := fun r => by
    simp [krigTrajectory, mergeDefectInX, Function.comp_def]
  simp only [e', Function.comp_apply]

/-- A drawn value is close to the frequency. -/
theorem draw_close (det : ℝ) (l : List ℝ) (hl : l ≠ []) (z : ℝ) :
    ((podLaw det l).draw z - fracAbove det l) ^ 4 ≤ z ^ 4 / (l.length : ℝ) ^ 2 := by
  have hpos : (0 : ℝ) < l.length := by exact_mod_cast List.length_pos_iff.2 hl
  have h0 : 0 ≤ fracAbove det l := by unfold fracAbove; positivity
  have h1 : fracAbove det l ≤ 1 := by
    unfold fracAbove
    rw [div_le_one hpos]
    exact_mod_cast List.countP_le_length
  set p := fracAbove det l with hp
  have hz : 0 ≤ z ^ 4 := by positivity
  unfold podLaw
  simp only [← hp]
  split_ifs with hv hlt
  · have hs : Real.sqrt (p * (1 - p) / l.length) ^ 4 = (p * (1 - p) / l.length) ^ 2 := by
      rw [show (4 : ℕ) = 2 * 2 from rfl, pow_mul, Real.sq_sqrt hv.le]
    have e : (PodLaw.draw (.normal p (Real.sqrt (p * (1 - p) / l.length))) z - p) ^ 4 = (p * (1 - p)) ^ 2 * (z ^ 4 / (l.length : ℝ) ^ 2) := by
      simp only [PodLaw.draw]
      rw [add_sub_cancel_left, mul_pow, hs]
      ring
    rw [e]
    have hb : (p * (1 - p)) ^ 2 ≤ 1 := by
      have : 0 ≤ p * (1 - p) := mul_nonneg h0 (by linarith)
      have : p * (1 - p) ≤ 1 := by nlinarith
      nlinarith
    exact mul_le_of_le_one_left (by positivity) hb
  all_goals
    have hz0 : p * (1 - p) = 0 := by
      have h2 : 0 ≤ p * (1 - p) := mul_nonneg h0 (by linarith)
      rcases h2.eq_or_lt with h | h
      · exact h.symm
      · exact absurd (div_pos h hpos) hv
    rcases mul_eq_zero.1 hz0 with h | h
  · simp only [PodLaw.draw, h]
    rw [sub_self, zero_pow (by norm_num)]; positivity
  · exact absurd hlt (by linarith)
  · exact absurd (h ▸ hlt) (by norm_num)
  · have : p = 1 := by linarith
    simp only [PodLaw.draw, this]
    rw [sub_self, zero_pow (by norm_num)]; positivity

/-- Mean and quantiles of values in an interval. -/
theorem listMean_within {l : List ℝ} (hl : l ≠ []) {lo hi : ℝ} (h : ∀ v ∈ l, lo ≤ v ∧ v ≤ hi) : lo ≤ listMean l ∧ listMean l ≤ hi := by
  have hpos : (0 : ℝ) < l.length := by exact_mod_cast List.length_pos_iff.2 hl
  unfold listMean
  rw [le_div_iff₀ hpos, div_le_iff₀ hpos]
  clear hpos hl
  induction l with
  | nil => simp
  | cons v l ih =>
    have h1 := h v (by simp)
    have h2 := ih fun w hw => h w (by simp [hw])
    simp only [List.sum_cons, List.length_cons, Nat.cast_add, Nat.cast_one]
    constructor <;> nlinarith [h1.1, h1.2, h2.1, h2.2]

theorem quantile_within {l : List ℝ} (hl : l ≠ []) {lo hi : ℝ} (h : ∀ v ∈ l, lo ≤ v ∧ v ≤ hi) (q : ℝ) : lo ≤ quantile l q ∧ quantile l q ≤ hi := by
  obtain ⟨a, ha, b, hb, h1, h2⟩ := quantile_between hl q
  exact ⟨(h a ha).1.trans h1, h2.trans (h b hb).2⟩

/-- The POD sample of the physical model concentrates on the probability of detection. -/
theorem podSample_concentrates {X Ω' : Type} [MeasurableSpace X] [MeasurableSpace Ω'] (Q' : Measure Ω') [IsProbabilityMeasure Q'] (L : Measure X)
    [IsProbabilityMeasure L] (signal : ℝ × X → ℝ) (det a : ℝ) (hs : Measurable fun x => signal (a, x)) (sim : ℕ) (x : ℕ → Ω' → X) (g : ℕ → Ω' → ℝ)
    (hx : ∀ k, Measurable (x k)) (hxl : ∀ k, Q'.map (x k) = L) (hxi : iIndepFun x Q') (hg : ∀ k, Measurable (g k))
    (hgl : ∀ k, Q'.map (g k) = gaussianReal 0 1) (hgi : iIndepFun g Q') :
    ∀ᵐ ω ∂Q', ∀ (z : ℕ → ℝ) (c : ℕ → ℕ), (∀ k, c k < sim) → ∀ ε > 0, ∀ᶠ m in atTop,
      ∀ v ∈ podSamplePerDefect signal (fun _ => 0) det a (krigDraws sim m (fun k => x k ω) z c fun k => g k ω),
        L.real {x | det < signal (a, x)} - ε ≤ v ∧ v ≤ L.real {x | det < signal (a, x)} + ε := by
  have h4 : Integrable (fun t : ℝ => t ^ 4) (gaussianReal 0 1) := by
    have := (memLp_id_gaussianReal (μ := 0) (v := 1) 4).integrable_norm_pow (by norm_num)
    refine this.congr (Eventually.of_forall fun t => ?_)
    simp only [id, Real.norm_eq_abs]
    exact (Even.pow_abs (by decide) t)
  have hmeas : MeasurableSet {x | det < signal (a, x)} := measurableSet_lt measurable_const hs
  filter_upwards [avg_strong (f := fun t : ℝ => t ^ 4) hg hgl hgi (by fun_prop) h4,
    avg_strong (f := {x | det < signal (a, x)}.indicator fun _ => (1 : ℝ)) hx hxl hxi (measurable_const.indicator hmeas)
      ((integrable_const _).indicator hmeas)] with ω hω1 hω2 z c hc ε hε
  rw [integral_indicator_const _ hmeas, smul_eq_mul, mul_one] at hω2
  set pod := L.real {x | det < signal (a, x)} with hpod
  have hsim : 0 < sim := lt_of_le_of_lt (Nat.zero_le _) (hc 0)
  -- the frequency
  have hfreq : Tendsto (fun m => fracAbove det ((List.range m).map fun i => signal (a, x i ω))) atTop (𝓝 pod) := by
    refine hω2.congr fun m => ?_
    unfold fracAbove avg
    rw [List.length_map, List.length_range, List.countP_map]
    congr 1
    induction m with
    | zero => simp
    | succ m ih =>
      rw [Finset.sum_range_succ, ih, List.range_succ, List.countP_append, Nat.cast_add]
      congr 1
      by_cases h : det < signal (a, x m ω)
      · simp [h]
      · simp [h]
  -- the fourth moments
  have hmom : Tendsto (fun m : ℕ => (sim : ℝ) * avg g (fun t => t ^ 4) (sim * m) ω / m) atTop (𝓝 0) := by
    have hsub : Tendsto (fun m : ℕ => sim * m) atTop atTop := tendsto_id.const_mul_atTop' hsim
    have h1 := (hω1.comp hsub).const_mul (sim : ℝ)
    exact h1.div_atTop tendsto_natCast_atTop_atTop
  have hε2 : 0 < (ε / 2) ^ 4 := by positivity
  filter_upwards [eventually_ge_atTop 1, hmom.eventually (gt_mem_nhds hε2), hfreq.eventually (lt_mem_nhds (show pod - ε / 2 < pod by linarith)),
    hfreq.eventually (gt_mem_nhds (show pod < pod + ε / 2 by linarith))] with m hm1 hm2 hm3 hm4 v hv
  rw [podSample_direct _ _ _ _ _ _ _ _ _ hc, List.mem_map] at hv
  obtain ⟨k, hk, rfl⟩ := hv
  rw [List.mem_range] at hk
  have hclose := draw_close det ((List.range m).map fun i => signal (a, x i ω)) (by simp; omega) (g k ω)
  set D := (podLaw det ((List.range m).map fun i => signal (a, x i ω))).draw (g k ω) - fracAbove det ((List.range m).map fun i => signal (a, x i ω))
    with hD
  have hmpos : (0 : ℝ) < m := by exact_mod_cast hm1
  have hspos : (0 : ℝ) < sim := by exact_mod_cast hsim
  have hle : g k ω ^ 4 / ((((List.range m).map fun i => signal (a, x i ω)).length : ℕ) : ℝ) ^ 2 ≤ (sim : ℝ) * avg g (fun t => t ^ 4) (sim * m) ω / m := by
    rw [List.length_map, List.length_range]
    have hsum : g k ω ^ 4 ≤ ∑ i ∈ Finset.range (sim * m), g i ω ^ 4 :=
      Finset.single_le_sum (f := fun i => g i ω ^ 4) (fun i _ => by positivity) (Finset.mem_range.2 hk)
    have e : (sim : ℝ) * avg g (fun t => t ^ 4) (sim * m) ω / m = (∑ i ∈ Finset.range (sim * m), g i ω ^ 4) / (m : ℝ) ^ 2 := by
      unfold avg
      push_cast
      field_simp
    rw [e]
    exact div_le_div_of_nonneg_right hsum (by positivity)
  have hD4 : D ^ 4 < (ε / 2) ^ 4 := (hclose.trans hle).trans_lt hm2
  have habs : |D| < ε / 2 := by
    have h := lt_of_pow_lt_pow_left₀ 4 (by positivity) (show |D| ^ 4 < (ε / 2) ^ 4 by rw [Even.pow_abs (by decide)]; exact hD4)
    exact h
  rw [abs_lt] at habs
  constructor <;> linarith [habs.1, habs.2]

/-- C180 (POD).  Design points, simulated parameters and deviates are random.  Almost surely, whatever the estimated scales and amplitudes of the models,
the POD curve and the curves at every confidence level come as close as wanted to the interpolation of the true probabilities of detection when the
sampling size and then the number of observations grow. -/
theorem C180_pod (hx : ∀ i, Measurable (xs i)) (hlaw : ∀ i, Q.map (xs i) = P) (hind : iIndepFun xs Q) (R : ℝ) (hP : DesignLaw P R)
    {Ω' : Type} [MeasurableSpace Ω'] (Q' : Measure Ω') [IsProbabilityMeasure Q'] (L : Measure (Fin d → ℝ)) [IsProbabilityMeasure L]
    (b0 b1 : ℝ) {q : ℕ} (u : Fin q → Fin (d + 1) → ℝ → ℝ) (hu : ∀ r j, ContDiff ℝ 1 (u r j)) (det : ℝ) (s : SimAttrs) (hsort : s.sizes.Pairwise (· ≤ ·))
    (hnum : s.number = s.sizes.length)
    (hsupp : ∀ a ∈ s.sizes, ∀ᵐ x ∂L, fullPoint (a, x) ∈ P.support ∧ b0 + b1 * a + tensorSignal u (fullPoint (a, x)) ≠ det)
    (sim : ℕ) (x : ℕ → ℕ → Ω' → Fin d → ℝ) (g : ℕ → ℕ → Ω' → ℝ) (hxm : ∀ i k, Measurable (x i k)) (hxl : ∀ i k, Q'.map (x i k) = L)
    (hxi : ∀ i, iIndepFun (x i) Q') (hg : ∀ i k, Measurable (g i k)) (hgl : ∀ i k, Q'.map (g i k) = gaussianReal 0 1) (hgi : ∀ i, iIndepFun (g i) Q') :
    ∃ pod, interp1d s.sizes (s.sizes.map fun a => L.real {x | det < b0 + b1 * a + tensorSignal u (fullPoint (a, x))}) = .ok pod ∧
    ∀ᵐ ω ∂Q, ∀ᵐ ω' ∂Q', ∀ (θ : ℕ → Fin (d + 1) → ℝ) (τ : ℕ → ℝ), ModelRange θ τ → ∀ (z : ℕ → ℕ → ℝ) (c : ℕ → ℕ → ℕ), (∀ i k, c i k < sim) →
      ∀ t v, pod t = .ok v → ∀ level, ∀ ε > 0, ∀ᶠ m in atTop, ∀ᶠ N in atTop,
        ∃ s', krigingDesignRun (fun a b => τ N * absExp (θ N) a b) defectTrend (fun i : Fin N => xs i ω)
            (fun i => b0 + b1 * xs i ω 0 + tensorSignal u (xs i ω)) det (sim * m)
            (fun i => krigDraws sim m (fun k => x i k ω') (z i) (c i) fun k => g i k ω') s = (.ok (), s') ∧
          (∃ f y, s'.curve = some f ∧ f t = .ok y ∧ |y - v| < ε) ∧
          ∃ f y, getPODCLModel s' level = .ok f ∧ f t = .ok y ∧ |y - v| < ε := by
  set signal : ℝ × (Fin d → ℝ) → ℝ := fun p => b0 + b1 * p.1 + tensorSignal u (fullPoint p) with hsig
  have hmeas : ∀ a, Measurable fun x : Fin d → ℝ => signal (a, x) := by
    intro a
    have hcoord : ∀ j, Measurable fun x : Fin d → ℝ => fullPoint (a, x) j := by
      intro j
      refine Fin.cases ?_ (fun j => ?_) j
      · exact measurable_const
      · exact measurable_pi_apply j
    have hterm : ∀ r j, Measurable fun x : Fin d → ℝ => u r j (fullPoint (a, x) j) := fun r j => (hu r j).continuous.measurable.comp (hcoord j)
    have hten : Measurable fun x : Fin d → ℝ => tensorSignal u (fullPoint (a, x)) := by
      unfold tensorSignal
      refine Finset.measurable_sum _ fun r _ => ?_
      exact Finset.measurable_fun_prod _ fun j _ => hterm r j
    exact hten.const_add (b0 + b1 * a)
  set podv : ℝ → ℝ := fun a => L.real {x | det < signal (a, x)} with hpodv
  obtain ⟨pod, hpod, -⟩ := interp1d_tendsto hsort (List.range s.sizes.length) (by simp) (fun _ i => podv (s.sizes.getD i 0)) (fun i => podv (s.sizes.getD i 0))
    fun i _ => tendsto_const_nhds
  have hmap := sizes_map_range s.sizes podv
  refine ⟨pod, ?_, ?_⟩
  · change interp1d s.sizes (s.sizes.map podv) = _
    rw [hmap]; exact hpod
  filter_upwards [C180_run hx hlaw hind R hP] with ω hω
  have hdraw : ∀ᵐ ω' ∂Q', ∀ i < s.sizes.length, ∀ k, fullPoint (s.sizes.getD i 0, x i k ω') ∈ P.support ∧
      b0 + b1 * s.sizes.getD i 0 + tensorSignal u (fullPoint (s.sizes.getD i 0, x i k ω')) ≠ det := by
    refine ae_all_iff.2 fun i => ?_
    by_cases hi : i < s.sizes.length
    · refine (ae_all_iff.2 fun k => ?_).mono fun ω' h _ => h
      have h := hsupp (s.sizes.getD i 0) (by rw [List.getD_eq_getElem _ _ hi]; exact List.getElem_mem hi)
      rw [← hxl i k] at h
      exact ae_of_ae_map (hxm i k).aemeasurable h
    · exact Eventually.of_forall fun ω' h => absurd h hi
  have hconc := ae_all_iff.2 fun i => podSample_concentrates Q' L signal det (s.sizes.getD i 0) (hmeas _) sim (x i) (g i) (hxm i) (hxl i) (hxi i) (hg i)
    (hgl i) (hgi i)
  filter_upwards [hdraw, hconc] with ω' h1 h2 θ τ hm z c hc t v hv level ε hε
  set col : ℕ → ℕ → List ℝ := fun m i => podSamplePerDefect signal (fun _ => 0) det (s.sizes.getD i 0)
    (krigDraws sim m (fun k => x i k ω') (z i) (c i) fun k => g i k ω') with hcol
  have hsim : 0 < sim := lt_of_le_of_lt (Nat.zero_le _) (hc 0 0)
  have hne : ∀ m ≥ 1, ∀ i, col m i ≠ [] := by
    intro m hm1 i
    simp only [hcol]
    rw [podSample_direct _ _ _ _ _ _ _ _ _ (hc i)]
    simp
    omega
  have hcols : ∀ i, ∀ ε > 0, ∀ᶠ m in atTop, ∀ v ∈ col m i, podv (s.sizes.getD i 0) - ε ≤ v ∧ v ≤ podv (s.sizes.getD i 0) + ε := fun i ε hε =>
    h2 i (z i) (c i) (hc i) ε hε
  have hmean : ∀ i ∈ List.range s.sizes.length, Tendsto (fun m => listMean (col m i)) atTop (𝓝 (podv (s.sizes.getD i 0))) := by
    intro i _
    rw [Metric.tendsto_atTop']
    intro ε hε
    obtain ⟨m0, hm0⟩ := eventually_atTop.1 ((hcols i (ε / 2) (by positivity)).and (eventually_ge_atTop 1))
    refine ⟨m0, fun m hm => ?_⟩
    have h := listMean_within (hne m (hm0 m hm.le).2 i) (hm0 m hm.le).1
    rw [Real.dist_eq, abs_lt]
    constructor <;> linarith [h.1, h.2]
  have hquant : ∀ i ∈ List.range s.sizes.length, Tendsto (fun m => quantile (col m i) (1 - level)) atTop (𝓝 (podv (s.sizes.getD i 0))) := by
    intro i _
    rw [Metric.tendsto_atTop']
    intro ε hε
    obtain ⟨m0, hm0⟩ := eventually_atTop.1 ((hcols i (ε / 2) (by positivity)).and (eventually_ge_atTop 1))
    refine ⟨m0, fun m hm => ?_⟩
    have h := quantile_within (hne m (hm0 m hm.le).2 i) (hm0 m hm.le).1 (1 - level)
    rw [Real.dist_eq, abs_lt]
    constructor <;> linarith [h.1, h.2]
  obtain ⟨g1, hg1, f1, hf1, hlim1⟩ := interp1d_tendsto hsort (List.range s.sizes.length) (by simp) _ _ hmean
  obtain ⟨g2, hg2, f2, hf2, hlim2⟩ := interp1d_tendsto hsort (List.range s.sizes.length) (by simp) _ _ hquant
  rw [hpod, Except.ok.injEq] at hg1 hg2
  subst hg1
  subst hg2
  obtain ⟨y1, hy1, hy1'⟩ := hlim1 t v hv
  obtain ⟨y2, hy2, hy2'⟩ := hlim2 t v hv
  filter_upwards [Metric.tendsto_nhds.1 hy1' ε hε, Metric.tendsto_nhds.1 hy2' ε hε] with m hm1 hm2
  have hrun := hω θ τ hm b0 b1 q u hu det (sim * m) (fun i => krigDraws sim m (fun k => x i k ω') (z i) (c i) fun k => g i k ω') s (by
    intro i hi y hy
    rw [krigDraws, List.mem_map] at hy
    obtain ⟨k, -, rfl⟩ := hy
    exact h1 i hi k)
  filter_upwards [hrun] with N hN
  rw [hN]
  have hwritten : s.sizes.mapIdx (fun i a => podSamplePerDefect signal (fun _ => 0) det a (krigDraws sim m (fun k => x i k ω') (z i) (c i) fun k => g i k ω'))
      = (List.range s.sizes.length).map (col m) := mapIdx_range s.sizes 0 _
  have hmeanrow : interp1d s.sizes (((List.range s.sizes.length).map (col m)).map listMean) = .ok (f1 m) := by
    rw [List.map_map]; exact hf1 m
  have hquantrow : interp1d s.sizes (((List.range s.sizes.length).map (col m)).map fun col => quantile col (1 - level)) = .ok (f2 m) := by
    rw [List.map_map]; exact hf2 m
  refine ⟨{ s with perDefect := some ((List.range s.sizes.length).map (col m)), curve := some (f1 m) }, ?_, ⟨f1 m, y1 m, rfl, hy1 m, ?_⟩,
    ⟨f2 m, y2 m, ?_, hy2 m, ?_⟩⟩
  · unfold krigingRunSim
    simp only [hnum, lt_irrefl, if_false, Nat.sub_self, List.replicate_zero, List.append_nil]
    rw [hwritten, hmeanrow]
  · rw [← Real.dist_eq]; exact hm1
  · exact hquantrow
  · rw [← Real.dist_eq]; exact hm2

/-! ### A concrete case: two inputs, uniform design, signal `a + x²`, threshold 1 -/

/-- Uniform law on the unit square. -/
noncomputable def squareLaw : Measure (Fin 2 → ℝ) := Measure.pi fun _ => volume.restrict (Set.Icc 0 1)

instance unitInterval_isProbability : IsProbabilityMeasure (volume.restrict (Set.Icc (0 : ℝ) 1)) := ⟨by simp⟩

instance squareLaw_isProbability : IsProbabilityMeasure squareLaw := by unfold squareLaw; infer_instance

theorem squareLaw_ok : DesignLaw (d := 1) squareLaw 1 where
  bounded := by
    refine ae_all_iff.2 fun j => ?_
    have h := (measurePreserving_eval (fun _ : Fin 2 => volume.restrict (Set.Icc (0 : ℝ) 1)) j).quasiMeasurePreserving.ae
      (p := fun t : ℝ => |t| ≤ 1) ((ae_restrict_mem measurableSet_Icc).mono fun t ht => abs_le.2 ⟨by linarith [ht.1], ht.2⟩)
    exact h
  atomless j c := by
    have h := (measurePreserving_eval (fun _ : Fin 2 => volume.restrict (Set.Icc (0 : ℝ) 1)) j).measure_preimage
      (measurableSet_singleton c).nullMeasurableSet
    rw [measure_singleton] at h
    exact h

theorem squareLaw_support {x : Fin 2 → ℝ} (hx : ∀ j, x j ∈ Set.Ioo (0 : ℝ) 1) : x ∈ squareLaw.support := by
  rw [Measure.mem_support_iff_forall]
  intro U hU
  have hV : U ∩ Set.univ.pi (fun _ : Fin 2 => Set.Ioo (0 : ℝ) 1) ∈ 𝓝 x :=
    inter_mem hU ((isOpen_set_pi Set.finite_univ fun _ _ => isOpen_Ioo).mem_nhds fun j _ => hx j)
  have hpos : 0 < volume (U ∩ Set.univ.pi (fun _ : Fin 2 => Set.Ioo (0 : ℝ) 1)) := Measure.measure_pos_of_mem_nhds _ hV
  have e : squareLaw = (volume : Measure (Fin 2 → ℝ)).restrict (Set.univ.pi fun _ => Set.Icc 0 1) := by
    rw [squareLaw, volume_pi, Measure.restrict_pi_pi]
  rw [e]
  refine hpos.trans_le ?_
  calc volume (U ∩ Set.univ.pi fun _ : Fin 2 => Set.Ioo (0 : ℝ) 1)
      ≤ volume (U ∩ Set.univ.pi fun _ : Fin 2 => Set.Icc (0 : ℝ) 1) :=
        measure_mono (Set.inter_subset_inter_right _ (Set.pi_mono fun _ _ => Set.Ioo_subset_Icc_self))
    _ ≤ _ := Measure.le_restrict_apply _ _

/-- The factors of the signal. -/
noncomputable def squareTerm (_ : Fin 1) (j : Fin 2) (t : ℝ) : ℝ := if j = 0 then 1 else t ^ 2

example : DesignLaw (d := 1) squareLaw 1 ∧ (∀ r j, ContDiff ℝ 1 (squareTerm r j)) ∧ ModelRange (d := 1) (fun N _ => 2 + 1 / (N + 1)) (fun N => 1 / (N + 1)) ∧
    ∀ a ∈ ([1 / 4, 1 / 2, 3 / 4] : List ℝ), ∀ᵐ x ∂(Measure.pi fun _ : Fin 1 => volume.restrict (Set.Icc (0 : ℝ) 1)),
      fullPoint (a, x) ∈ squareLaw.support ∧ 0 + 1 * a + tensorSignal squareTerm (fullPoint (a, x)) ≠ 1 := by
  refine ⟨squareLaw_ok, ?_, ⟨⟨2, 3, by norm_num, fun N j => ⟨?_, ?_⟩⟩, 1, fun N => ⟨by positivity, ?_⟩⟩, ?_⟩
  · intro r j
    unfold squareTerm
    split_ifs <;> fun_prop
  · have : (0 : ℝ) ≤ 1 / (N + 1) := by positivity
    linarith
  · have : (1 : ℝ) / (N + 1) ≤ 1 := by rw [div_le_one (by positivity)]; linarith [(Nat.cast_nonneg N : (0 : ℝ) ≤ N)]
    linarith
  · rw [div_le_one (by positivity)]; linarith [(Nat.cast_nonneg N : (0 : ℝ) ≤ N)]
  · intro a ha
    have ha01 : a ∈ Set.Ioo (0 : ℝ) 1 := by
      simp only [List.mem_cons, List.not_mem_nil, or_false] at ha
      rcases ha with rfl | rfl | rfl <;> constructor <;> norm_num
    have hae : ∀ᵐ t ∂(volume.restrict (Set.Icc (0 : ℝ) 1)), t ∈ Set.Ioo (0 : ℝ) 1 ∧ t ≠ Real.sqrt (1 - a) := by
      have h0 : ∀ b : ℝ, ∀ᵐ t ∂(volume.restrict (Set.Icc (0 : ℝ) 1)), t ≠ b := fun b => by
        rw [ae_iff]; simp
      filter_upwards [ae_restrict_mem measurableSet_Icc, h0 0, h0 1, h0 (Real.sqrt (1 - a))] with t h1 h2 h3 h4
      exact ⟨⟨lt_of_le_of_ne h1.1 (Ne.symm h2), lt_of_le_of_ne h1.2 h3⟩, h4⟩
    have h := (measurePreserving_eval (fun _ : Fin 1 => volume.restrict (Set.Icc (0 : ℝ) 1)) 0).quasiMeasurePreserving.ae hae
    filter_upwards [h] with x hx
    obtain ⟨hx1, hx2⟩ := hx
    refine ⟨squareLaw_support fun j => ?_, ?_⟩
    · fin_cases j
      · exact ha01
      · exact hx1
    · intro he
      have e : tensorSignal squareTerm (fullPoint (a, x)) = x 0 ^ 2 := by
        simp [tensorSignal, squareTerm, fullPoint, Fin.prod_univ_two]
      rw [e] at he
      apply hx2
      have : x 0 ^ 2 = 1 - a := by linarith
      have hx0 : 0 ≤ x 0 := hx1.1.le
      change x 0 = _
      rw [← this, Real.sqrt_sq hx0]

end Verif.Props
