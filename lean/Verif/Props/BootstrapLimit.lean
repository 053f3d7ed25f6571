import Verif.Props.Bootstrap
import Verif.Props.SimLimit
import Verif.Props.ExactLine

/-!
# C209: the confidence curve of the bootstrap when the number of simulations grows
-/

namespace Verif.Props
open Verif.Py Verif.Model MeasureTheory ProbabilityTheory Filter Topology

/-! ## Quantiles of a finite law -/

/-- The sample quantile is the value with enough margin on both sides. -/
theorem quantile_of_counts {ys : List ℝ} (hne : ys ≠ []) {q : ℝ} (hq0 : 0 ≤ q) (hq1 : q ≤ 1) (v : ℝ)
    (hlo : (ys.countP (fun t => decide (t < v)) : ℝ) < q * ys.length - 1 / 2)
    (hhi : q * ys.length + 3 / 2 ≤ (ys.countP (fun t => decide (t ≤ v)) : ℝ)) : quantile ys q = v := by
  obtain ⟨J, -, hJ1, hJ2, hJ⟩ := quantile_count hne hq0 hq1
  apply le_antisymm
  · apply (hJ ys rfl v).1
    have : ((J + 1 : ℕ) : ℝ) ≤ (ys.countP (fun t => decide (t ≤ v)) : ℝ) := by push_cast; linarith
    exact_mod_cast this
  · by_contra hlt
    push Not at hlt
    have h1 := (hJ ys rfl (quantile ys q)).2 le_rfl
    have h2 : ys.countP (fun t => decide (t ≤ quantile ys q)) ≤ ys.countP (fun t => decide (t < v)) :=
      List.countP_mono_left fun x _ h => by
        simp only [decide_eq_true_eq] at h ⊢
        linarith
    have h3 : (J : ℝ) ≤ (ys.countP (fun t => decide (t < v)) : ℝ) := by exact_mod_cast h1.trans h2
    linarith

/-- Finitely many values have an exact quantile at each order that is no count of values. -/
theorem exists_quantile {ι : Type} [Fintype ι] [Nonempty ι] (f : ι → ℝ) (t : ℝ) (h0 : 0 < t) (h1 : t < Fintype.card ι)
    (hint : ∀ m : ℕ, (m : ℝ) ≠ t) :
    ∃ v, ((Finset.univ.filter fun j => f j < v).card : ℝ) < t ∧ t < ((Finset.univ.filter fun j => f j ≤ v).card : ℝ) := by
  classical
  let G := Finset.univ.filter fun j => t ≤ ((Finset.univ.filter fun k => f k ≤ f j).card : ℝ)
  have hG : G.Nonempty := by
    obtain ⟨m, -, hm⟩ := Finset.exists_max_image Finset.univ f Finset.univ_nonempty
    refine ⟨m, ?_⟩
    simp only [G, Finset.mem_filter, Finset.mem_univ, true_and]
    rw [Finset.filter_true_of_mem fun k _ => hm k (Finset.mem_univ k), Finset.card_univ]
    exact h1.le
  obtain ⟨j0, hj0, hmin⟩ := Finset.exists_min_image G f hG
  simp only [G, Finset.mem_filter, Finset.mem_univ, true_and] at hj0 hmin
  refine ⟨f j0, ?_, lt_of_le_of_ne hj0 (hint _).symm⟩
  rcases (Finset.univ.filter fun j => f j < f j0).eq_empty_or_nonempty with he | hne
  · rw [he]; simpa using h0
  · obtain ⟨j1, hj1, hmax⟩ := Finset.exists_max_image _ f hne
    simp only [Finset.mem_filter, Finset.mem_univ, true_and] at hj1 hmax
    have he : (Finset.univ.filter fun j => f j < f j0) = Finset.univ.filter fun j => f j ≤ f j1 := by
      ext k
      simp only [Finset.mem_filter, Finset.mem_univ, true_and]
      exact ⟨hmax k, fun h => h.trans_lt hj1⟩
    rw [he]
    by_contra h
    push Not at h
    exact absurd (hmin j1 h) (not_le.mpr hj1)

/-! ## Shares of the resamples -/

/-- Observations of the resample with the given positions. -/
def resampleOf (obs : List (ℝ × ℝ)) (idx : Fin obs.length → Fin obs.length) : List (ℝ × ℝ) := List.ofFn fun i => obs[idx i]

/-- The original data are one of the resamples. -/
theorem resampleOf_id (obs : List (ℝ × ℝ)) : resampleOf obs id = obs := by
  rw [resampleOf]
  exact List.ofFn_getElem

/-- Without thresholds the random starts of the fit do not matter. -/
theorem bootstrapModel_starts (fmax : ℝ) (env : PodEnv) (d : PodData) (name : String) (hc : d.censored = false) (l : List (ℝ × ℝ))
    (st st' : ℕ → ℝ × ℝ × ℝ) : bootstrapModel fmax env d name (l, st) = bootstrapModel fmax env d name (l, st') := by
  have e : linFit env.lin st false = linFit env.lin st' false := by
    funext unc dn ds n s
    simp [linFit]
  unfold bootstrapModel computeLinearModel
  rw [hc]
  dsimp only
  rw [e]

variable {Ω : Type} [MeasurableSpace Ω]

/-- The share of the draws in each set converges to the share of the set, almost surely for all sets at once. -/
theorem shares_uniform {ι : Type} [Fintype ι] [Nonempty ι] [MeasurableSpace ι] [MeasurableSingletonClass ι] (Q : Measure Ω) [IsProbabilityMeasure Q]
    (idx : ℕ → Ω → ι) (hm : ∀ k, Measurable (idx k)) (hu : ∀ k j, Q.real (idx k ⁻¹' {j}) = 1 / (Fintype.card ι : ℝ)) (hi : iIndepFun idx Q) :
    ∀ᵐ ω ∂Q, ∀ S : Finset ι, Tendsto (fun M : ℕ => (((List.range M).countP fun k => @decide (idx k ω ∈ S) (Classical.dec _) : ℕ) : ℝ) / M) atTop
      (𝓝 (S.card / (Fintype.card ι : ℝ))) := by
  classical
  rw [ae_all_iff]
  intro S
  have : IsProbabilityMeasure (Q.map (idx 0)) := Measure.isProbabilityMeasure_map (hm 0).aemeasurable
  have hreal : ∀ k j, (Q.map (idx k)).real {j} = 1 / (Fintype.card ι : ℝ) := fun k j => by
    rw [measureReal_def, Measure.map_apply (hm k) (measurableSet_singleton j)]
    exact hu k j
  have hlaw : ∀ k, Q.map (idx k) = Q.map (idx 0) := fun k => by
    have := Measure.isProbabilityMeasure_map (μ := Q) (hm k).aemeasurable
    refine Measure.ext_of_singleton fun j => ?_
    rw [← ENNReal.toReal_eq_toReal_iff' (measure_ne_top _ _) (measure_ne_top _ _)]
    exact (hreal k j).trans (hreal 0 j).symm
  have l := share_tendsto Q (Q.map (idx 0)) (fun j => if j ∈ S then (0 : ℝ) else 1) (measurable_of_countable _) idx hm hlaw hi 0
  filter_upwards [l] with ω hω
  have e1 : (Q.map (idx 0)).real {y | (if y ∈ S then (0 : ℝ) else 1) ≤ 0} = S.card / (Fintype.card ι : ℝ) := by
    have : {y | (if y ∈ S then (0 : ℝ) else 1) ≤ 0} = (S : Set ι) := by
      ext y
      change (if y ∈ S then (0 : ℝ) else 1) ≤ 0 ↔ y ∈ S
      split_ifs with h
      · simp [h]
      · simp [h]
    rw [this, ← sum_measureReal_singleton, Finset.sum_congr rfl fun j _ => hreal 0 j, Finset.sum_const, nsmul_eq_mul, mul_one_div]
  rw [e1] at hω
  refine hω.congr fun M => ?_
  congr 1
  induction M with
  | zero => simp
  | succ M ih =>
    rw [Finset.sum_range_succ, ih, List.range_succ, List.countP_append]
    push_cast
    congr 1
    by_cases h : idx M ω ∈ S <;> simp [h]

/-- The counts are on the right side of `q * M`, with margin, for all sets and all large `M`. -/
theorem counts_margin {ι : Type} [Fintype ι] [Nonempty ι] (idx : ℕ → ι)
    (h : ∀ S : Finset ι, Tendsto (fun M : ℕ => (((List.range M).countP fun k => @decide (idx k ∈ S) (Classical.dec _) : ℕ) : ℝ) / M) atTop
      (𝓝 (S.card / (Fintype.card ι : ℝ)))) (q : ℝ) :
    ∀ᶠ M : ℕ in atTop, ∀ S : Finset ι,
      ((S.card : ℝ) < q * Fintype.card ι → (((List.range M).countP fun k => @decide (idx k ∈ S) (Classical.dec _) : ℕ) : ℝ) < q * M - 1 / 2) ∧
      (q * Fintype.card ι < S.card → q * M + 3 / 2 ≤ (((List.range M).countP fun k => @decide (idx k ∈ S) (Classical.dec _) : ℕ) : ℝ)) := by
  rw [eventually_all]
  intro S
  have hN : (0 : ℝ) < Fintype.card ι := by exact_mod_cast Fintype.card_pos
  have hinf : ∀ d : ℝ, 0 < d → ∀ᶠ M : ℕ in atTop, (2 : ℝ) ≤ d * M := fun d hd => by
    have := (tendsto_natCast_atTop_atTop (R := ℝ)).const_mul_atTop hd
    exact this.eventually_ge_atTop 2
  rcases lt_trichotomy (S.card : ℝ) (q * Fintype.card ι) with hlt | heq | hgt
  · have hp : (S.card : ℝ) / Fintype.card ι < q := by rwa [div_lt_iff₀ hN]
    have hmid : (S.card : ℝ) / Fintype.card ι < (S.card / Fintype.card ι + q) / 2 := by linarith
    filter_upwards [(h S).eventually (gt_mem_nhds hmid), hinf ((q - S.card / Fintype.card ι) / 2) (by linarith), eventually_gt_atTop 0] with M h1 h2 h3
    have hM : (0 : ℝ) < M := by exact_mod_cast h3
    rw [div_lt_iff₀ hM] at h1
    refine ⟨fun _ => ?_, fun h' => absurd h' (not_lt.mpr hlt.le)⟩
    nlinarith
  · exact Eventually.of_forall fun M => ⟨fun h' => absurd heq h'.ne, fun h' => absurd heq h'.ne'⟩
  · have hp : q < (S.card : ℝ) / Fintype.card ι := by rwa [lt_div_iff₀ hN]
    have hmid : (S.card / Fintype.card ι + q) / 2 < (S.card : ℝ) / Fintype.card ι := by linarith
    filter_upwards [(h S).eventually (lt_mem_nhds hmid), hinf ((S.card / Fintype.card ι - q) / 2) (by linarith), eventually_gt_atTop 0] with M h1 h2 h3
    have hM : (0 : ℝ) < M := by exact_mod_cast h3
    rw [lt_div_iff₀ hM] at h1
    refine ⟨fun h' => absurd h' (not_lt.mpr hgt.le), fun _ => ?_⟩
    nlinarith

/-! ## C209 -/

/-- **C209, confidence curve.**  Without thresholds, when each of the `n ^ n` resamples can be fitted, `boot j` being the POD curve of the resample
`j`: almost surely, for each confidence level whose complement is no multiple of `n ^ (-n)`, all runs with enough simulations succeed and their
confidence curve is, at all defect sizes at once, the exact quantile of the `n ^ n` curves. -/
theorem C209_curve (fmax : ℝ) (env : PodEnv) (d : PodData) (name : String) (hf : d.fact = .other name) (hc : d.censored = false) (hne : d.obs ≠ [])
    (st0 : ℕ → ℝ × ℝ × ℝ) (boot : (Fin d.obs.length → Fin d.obs.length) → ℝ → ℝ)
    (hboot : ∀ j, bootstrapModel fmax env d name (resampleOf d.obs j, st0) = .ok (boot j))
    (Q : Measure Ω) [IsProbabilityMeasure Q] (idx : ℕ → Ω → Fin d.obs.length → Fin d.obs.length) (hm : ∀ k, Measurable (idx k))
    (hu : ∀ k j, Q.real (idx k ⁻¹' {j}) = 1 / (d.obs.length : ℝ) ^ d.obs.length) (hi : iIndepFun idx Q)
    (starts : ℕ → ℝ × ℝ × ℝ) (gauss : List (ℝ × ℝ × ℝ)) (st : ℕ → Ω → ℕ → ℝ × ℝ × ℝ) (s : PodRunAttrs) :
    ∀ᵐ ω ∂Q, ∀ c, 0 < c → c < 1 → (∀ m : ℕ, (m : ℝ) ≠ (1 - c) * (d.obs.length : ℝ) ^ d.obs.length) →
      ∀ᶠ M : ℕ in atTop, ∃ s' cs, linearPodRun fmax env d ⟨starts, gauss, (List.range M).map fun k => (resampleOf d.obs (idx k ω), st k ω)⟩ s = (.ok (), s') ∧
        s'.pod = some (boot id) ∧ s'.coll = some cs ∧ ∀ a, ∃ v, podClFromCollection M cs c a = .ok v ∧
          ((Finset.univ.filter fun j => boot j a < v).card : ℝ) < (1 - c) * (d.obs.length : ℝ) ^ d.obs.length ∧
          (1 - c) * (d.obs.length : ℝ) ^ d.obs.length < ((Finset.univ.filter fun j => boot j a ≤ v).card : ℝ) := by
  classical
  have hn : 0 < d.obs.length := List.length_pos_iff.mpr hne
  have : Nonempty (Fin d.obs.length) := ⟨⟨0, hn⟩⟩
  have hcard : (Fintype.card (Fin d.obs.length → Fin d.obs.length) : ℝ) = (d.obs.length : ℝ) ^ d.obs.length := by
    rw [Fintype.card_fun, Fintype.card_fin]; push_cast; rfl
  rw [← hcard] at hu ⊢
  filter_upwards [shares_uniform Q idx hm hu hi] with ω hω c hc0 hc1 hint
  filter_upwards [counts_margin (fun k => idx k ω) hω (1 - c), eventually_gt_atTop 0] with M hM hM0
  -- the run
  have hmain : ∃ s0, linearPodRun fmax env d ⟨starts, gauss, []⟩ s = (.ok (), s0) ∧ s0.pod = some (boot id) := by
    have h := hboot id
    rw [resampleOf_id, bootstrapModel_starts fmax env d name hc d.obs st0 starts] at h
    unfold bootstrapModel at h
    unfold linearPodRun
    dsimp only at h ⊢
    rw [hf]
    split at h
    · cases h
    · rename_i r hr
      split at h
      · cases h
      · rename_i g hg
        rw [Except.ok.injEq] at h
        simp only [podFunction, hg, bootstrapColl]
        refine ⟨_, rfl, ?_⟩
        rw [← h]
        rfl
  obtain ⟨s0, hs0, hpod⟩ := hmain
  let w : PodDraws := ⟨starts, gauss, (List.range M).map fun k => (resampleOf d.obs (idx k ω), st k ω)⟩
  obtain ⟨g1, g2, -⟩ := C101_run_iff_partial fmax env d name hf w s s0 hs0
  have hok : ∀ r ∈ w.resamples, ∃ f, bootstrapModel fmax env d name r = .ok f := by
    intro r hr
    simp only [w, List.mem_map] at hr
    obtain ⟨k, -, rfl⟩ := hr
    exact ⟨_, (bootstrapModel_starts fmax env d name hc _ _ st0).trans (hboot _)⟩
  have hrun := g1.mpr hok
  have hcoll : (linearPodRun fmax env d w s).2.coll = some ((List.range M).map fun k => boot (idx k ω)) := by
    have hb : bootstrapColl fmax env d name w.resamples = .ok ((List.range M).map fun k => boot (idx k ω)) := by
      rw [bootstrapColl_ok, List.forall₂_map_left_iff, List.forall₂_map_right_iff, List.forall₂_same]
      intro k _
      exact (bootstrapModel_starts fmax env d name hc _ _ st0).trans (hboot _)
    unfold linearPodRun at hrun ⊢
    rw [hf] at hrun ⊢
    dsimp only at hrun ⊢
    split at hrun
    · cases hrun
    · rename_i r hr
      split at hrun
      · cases hrun
      · rename_i p hp
        rw [hb]
  refine ⟨(linearPodRun fmax env d w s).2, _, Prod.ext hrun rfl, g2.trans hpod, hcoll, fun a => ?_⟩
  have hN1 : (0 : ℝ) < Fintype.card (Fin d.obs.length → Fin d.obs.length) := by exact_mod_cast Fintype.card_pos
  obtain ⟨v, hv1, hv2⟩ := exists_quantile (fun j => boot j a) ((1 - c) * Fintype.card (Fin d.obs.length → Fin d.obs.length))
    (mul_pos (by linarith) hN1) (by nlinarith) (by rw [hcard] at hint ⊢; exact hint)
  refine ⟨v, ?_, hv1, hv2⟩
  have hl : ((List.range M).map fun k => boot (idx k ω) a).length = M := by simp
  have hl0 : ((List.range M).map fun k => boot (idx k ω) a) ≠ [] := by
    rw [← List.length_pos_iff, hl]; exact hM0
  unfold podClFromCollection
  rw [collectCurves_range (fun k => boot (idx k ω)) M a (List.range M) fun i hi => List.mem_range.mp hi]
  dsimp only
  rw [if_neg hl0, quantile_of_counts hl0 (by linarith) (by linarith) v]
  · rw [hl, List.countP_map]
    have := (hM (Finset.univ.filter fun j => boot j a < v)).1 hv1
    convert this using 4
    simp
  · rw [hl, List.countP_map]
    have := (hM (Finset.univ.filter fun j => boot j a ≤ v)).2 hv2
    convert this using 4
    simp

/-- **C209, exception.**  As soon as one of the `n ^ n` resamples cannot be fitted, almost surely all runs with enough simulations raise and
leave the collection of curves as it was. -/
theorem C209_exception (fmax : ℝ) (env : PodEnv) (d : PodData) (name : String) (hf : d.fact = .other name) (hne : d.obs ≠ [])
    (j0 : Fin d.obs.length → Fin d.obs.length) (hbad : ∀ st, ∃ e, bootstrapModel fmax env d name (resampleOf d.obs j0, st) = .error e)
    (Q : Measure Ω) [IsProbabilityMeasure Q] (idx : ℕ → Ω → Fin d.obs.length → Fin d.obs.length) (hm : ∀ k, Measurable (idx k))
    (hu : ∀ k j, Q.real (idx k ⁻¹' {j}) = 1 / (d.obs.length : ℝ) ^ d.obs.length) (hi : iIndepFun idx Q)
    (starts : ℕ → ℝ × ℝ × ℝ) (gauss : List (ℝ × ℝ × ℝ)) (st : ℕ → Ω → ℕ → ℝ × ℝ × ℝ) (s : PodRunAttrs) :
    ∀ᵐ ω ∂Q, ∀ᶠ M : ℕ in atTop, ∃ e s', linearPodRun fmax env d
      ⟨starts, gauss, (List.range M).map fun k => (resampleOf d.obs (idx k ω), st k ω)⟩ s = (.error e, s') ∧ s'.coll = s.coll := by
  classical
  have hn : 0 < d.obs.length := List.length_pos_iff.mpr hne
  have : Nonempty (Fin d.obs.length) := ⟨⟨0, hn⟩⟩
  have hcard : (Fintype.card (Fin d.obs.length → Fin d.obs.length) : ℝ) = (d.obs.length : ℝ) ^ d.obs.length := by
    rw [Fintype.card_fun, Fintype.card_fin]; push_cast; rfl
  rw [← hcard] at hu
  filter_upwards [shares_uniform Q idx hm hu hi] with ω hω
  filter_upwards [counts_margin (fun k => idx k ω) hω 0] with M hM
  have h1 := (hM {j0}).2 (by simp)
  have h2 : 0 < (List.range M).countP fun k => @decide (idx k ω ∈ ({j0} : Finset _)) (Classical.dec _) := by
    have : (0 : ℝ) < _ := lt_of_lt_of_le (by norm_num : (0 : ℝ) < 0 * M + 3 / 2) h1
    exact_mod_cast this
  rw [List.countP_pos_iff] at h2
  obtain ⟨k, hk, hkj⟩ := h2
  have hkj' : idx k ω = j0 := by simpa using hkj
  let w : PodDraws := ⟨starts, gauss, (List.range M).map fun k => (resampleOf d.obs (idx k ω), st k ω)⟩
  cases hr : (linearPodRun fmax env d w s).1 with
  | error e =>
    refine ⟨e, _, Prod.ext hr rfl, ?_⟩
    exact (C101_attributes fmax env d w s _ e (Prod.ext hr rfl)).1
  | ok u =>
    exfalso
    have hmem : (resampleOf d.obs (idx k ω), st k ω) ∈ w.resamples := List.mem_map.mpr ⟨k, hk, rfl⟩
    unfold linearPodRun at hr
    rw [hf] at hr
    dsimp only at hr
    split at hr
    · cases hr
    · split at hr
      · cases hr
      · split at hr
        · cases hr
        · rename_i fs hfs
          have h2 := (bootstrapColl_ok _ _ _ _ _ _).mp hfs
          obtain ⟨i, hi', hie⟩ := List.getElem_of_mem hmem
          have h3 := h2.get hi' (by rw [← h2.length_eq]; exact hi')
          obtain ⟨e, he⟩ := hbad (st k ω)
          rw [List.get_eq_getElem, hie, hkj', he] at h3
          cases h3

/-! ## Examples -/

/-- Uniform independent resamples exist. -/
theorem uniform_resamples (n : ℕ) (hn : 0 < n) : ∃ (Q : Measure (ℕ → Fin n → Fin n)) (_ : IsProbabilityMeasure Q),
    (∀ k, Measurable fun ω : ℕ → Fin n → Fin n => ω k) ∧
    (∀ k j, Q.real ((fun ω : ℕ → Fin n → Fin n => ω k) ⁻¹' {j}) = 1 / (n : ℝ) ^ n) ∧ iIndepFun (fun k (ω : ℕ → Fin n → Fin n) => ω k) Q := by
  have : Nonempty (Fin n) := ⟨⟨0, hn⟩⟩
  let U : Measure (Fin n → Fin n) := uniformOn Set.univ
  have hU : IsProbabilityMeasure U := isProbabilityMeasure_uniformOn Set.finite_univ Set.univ_nonempty
  refine ⟨Measure.infinitePi fun _ : ℕ => U, inferInstance, fun k => measurable_pi_apply k, fun k j => ?_,
    iIndepFun_infinitePi (P := fun _ : ℕ => U) (X := fun _ x => x) (fun _ => measurable_id)⟩
  rw [measureReal_def, ← Measure.map_apply (measurable_pi_apply k) (measurableSet_singleton j),
    (measurePreserving_eval_infinitePi (fun _ : ℕ => U) k).map_eq]
  simp only [U, uniformOn_univ, Measure.count_singleton, Fintype.card_fun, Fintype.card_fin]
  rw [ENNReal.toReal_div]
  simp

theorem demoBoot_ok (j : Fin demoPodData.obs.length → Fin demoPodData.obs.length) :
    ∃ f, bootstrapModel 10 demoPodEnv demoPodData "KernelSmoothing" (resampleOf demoPodData.obs j, fun _ => (0, 0, 0)) = .ok f := by
  have hne : resampleOf demoPodData.obs j ≠ [] := by
    rw [← List.length_pos_iff, resampleOf, List.length_ofFn]; simp [demoPodData]
  simp [bootstrapModel, computeLinearModel, linFit, demoPodEnv, empiricalLaw, lineResiduals, demoPodData] at hne ⊢
  simp [hne]

/-- Three observations, confidence level 0.95: `0.05 * 27 = 1.35`. -/
example : ∃ (Ω : Type) (_ : MeasurableSpace Ω) (Q : Measure Ω) (_ : IsProbabilityMeasure Q) (idx : ℕ → Ω → Fin 3 → Fin 3)
    (boot : (Fin 3 → Fin 3) → ℝ → ℝ), ∀ᵐ ω ∂Q, ∀ᶠ M : ℕ in atTop, ∃ s' cs, linearPodRun 10 demoPodEnv demoPodData
      ⟨fun _ => (0, 0, 0), [], (List.range M).map fun k => (resampleOf demoPodData.obs (idx k ω), fun _ => (0, 0, 0))⟩ freshPod = (.ok (), s') ∧
      s'.coll = some cs ∧ ∀ a, ∃ v, podClFromCollection M cs 0.95 a = .ok v ∧
        (Finset.univ.filter fun j => boot j a < v).card ≤ 1 ∧ 2 ≤ (Finset.univ.filter fun j => boot j a ≤ v).card := by
  obtain ⟨Q, hQ, h1, h2, h3⟩ := uniform_resamples 3 (by norm_num)
  choose boot hboot using demoBoot_ok
  refine ⟨ℕ → Fin 3 → Fin 3, inferInstance, Q, hQ, fun k ω => ω k, boot, ?_⟩
  filter_upwards [C209_curve 10 demoPodEnv demoPodData "KernelSmoothing" rfl rfl (by simp [demoPodData]) (fun _ => (0, 0, 0)) boot hboot Q
    (fun k ω => ω k) h1 h2 h3 (fun _ => (0, 0, 0)) [] (fun _ _ _ => (0, 0, 0)) freshPod] with ω hω'
  have hω := hω' 0.95 (by norm_num) (by norm_num)
  have e : (1 - 0.95) * ((demoPodData.obs.length : ℕ) : ℝ) ^ demoPodData.obs.length = 1.35 := by norm_num [demoPodData]
  rw [e] at hω
  filter_upwards [hω (fun m hm => by
    have h5 : ((100 * m : ℕ) : ℝ) = (135 : ℕ) := by push_cast; rw [hm]; norm_num
    have h6 : 100 * m = 135 := by exact_mod_cast h5
    omega)] with M hM
  obtain ⟨s', cs, g1, -, g2, g3⟩ := hM
  refine ⟨s', cs, g1, g2, fun a => ?_⟩
  obtain ⟨v, k1, k2, k3⟩ := g3 a
  refine ⟨v, k1, ?_, ?_⟩
  · refine Nat.le_of_lt_succ ?_
    have h := k2.trans (show (1.35 : ℝ) < ((2 : ℕ) : ℝ) by norm_num)
    exact_mod_cast h
  · have h := (show ((1 : ℕ) : ℝ) < 1.35 by norm_num).trans k3
    exact_mod_cast h

/-- A law that needs two different residuals cannot be built on the resample that repeats one observation. -/
noncomputable def strictPodEnv : PodEnv :=
  ⟨demoLin, fun _ res => if ∃ a ∈ res, ∃ b ∈ res, a ≠ b then .ok fun _ => 0 else .error ⟨.exception, "all residuals equal"⟩⟩

example : ∃ (Ω : Type) (_ : MeasurableSpace Ω) (Q : Measure Ω) (_ : IsProbabilityMeasure Q) (idx : ℕ → Ω → Fin 3 → Fin 3),
    ∀ᵐ ω ∂Q, ∀ᶠ M : ℕ in atTop, ∃ e s', linearPodRun 10 strictPodEnv demoPodData
      ⟨fun _ => (0, 0, 0), [], (List.range M).map fun k => (resampleOf demoPodData.obs (idx k ω), fun _ => (0, 0, 0))⟩ freshPod = (.error e, s') ∧
      s'.coll = none := by
  obtain ⟨Q, hQ, h1, h2, h3⟩ := uniform_resamples 3 (by norm_num)
  exact ⟨ℕ → Fin 3 → Fin 3, inferInstance, Q, hQ, fun k ω => ω k, C209_exception 10 strictPodEnv demoPodData "KernelSmoothing" rfl (by simp [demoPodData]) (fun _ => (0 : Fin 3))
    (fun st => by
      simp [bootstrapModel, computeLinearModel, linFit, strictPodEnv, lineResiduals, demoPodData, resampleOf])
    Q (fun k ω => ω k) h1 h2 h3 (fun _ => (0, 0, 0)) [] (fun _ _ _ => (0, 0, 0)) freshPod⟩

end Verif.Props
