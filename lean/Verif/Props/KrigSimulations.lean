import Verif.Props.KrigCurveUnits
import Verif.Props.KrigRandom
import Verif.Props.RankLaw
import Verif.Props.GaussLimit
import Verif.Props.GridRefine

/-!
# C239: the confidence curve of the kriging POD for many simulations
-/

namespace Verif.Props
open Verif.Py Verif.Model MeasureTheory ProbabilityTheory Set Filter Topology

variable {Ω Ω' X : Type} [MeasurableSpace Ω] [MeasurableSpace Ω']

/-! ## Quantiles of independent values -/

theorem countP_range_ite (y : ℕ → ℝ) (u : ℝ) (K : ℕ) :
    (((List.range K).map y).countP (fun t => decide (t ≤ u)) : ℝ) = ∑ k : Fin K, if y k ≤ u then (1 : ℝ) else 0 := by
  induction K with
  | zero => simp
  | succ K ih =>
    rw [List.range_succ, List.map_append, List.countP_append, Nat.cast_add, ih, Fin.sum_univ_castSucc]
    congr 1
    by_cases h : y K ≤ u <;> simp [h]

/-- The quantile of `K` independent values, each below `u` with probability `G`, is on the right side of `u` up to the probability of Chebyshev. -/
theorem quantile_prob (P : Measure Ω') [IsProbabilityMeasure P] (y : ℕ → Ω' → ℝ) (hy : ∀ k, Measurable (y k))
    (hind : ∀ i j, i ≠ j → IndepFun (y i) (y j) P) {K : ℕ} (hK : K ≠ 0) (u G q δ : ℝ) (hG : ∀ k < K, P.real {ω | y k ω ≤ u} = G) (hq0 : 0 ≤ q) (hq1 : q ≤ 1)
    (hδ : 0 < δ) :
    (q + 2 / K + δ ≤ G → P.real {ω | u < quantile ((List.range K).map fun k => y k ω) q} ≤ 1 / (4 * K) / δ ^ 2) ∧
    (G + δ ≤ q - 2 / K → P.real {ω | quantile ((List.range K).map fun k => y k ω) q ≤ u} ≤ 1 / (4 * K) / δ ^ 2) := by
  have hK' : (0 : ℝ) < K := by exact_mod_cast Nat.pos_of_ne_zero hK
  set g : ℝ → ℝ := fun t => if t ≤ u then 1 else 0 with hg
  have hgm : Measurable g := Measurable.ite measurableSet_Iic measurable_const measurable_const
  have hg01 : ∀ t, 0 ≤ g t ∧ g t ≤ 1 := fun t => by simp only [hg]; split_ifs <;> norm_num
  have hvar := variance_mean_unit P hK (fun k : Fin K => fun ω => g (y k ω)) (fun k => hgm.comp (hy k)) (fun k ω => hg01 _)
    fun i j hij => (hind i j fun h => hij (Fin.ext h)).comp hgm hgm
  have hmeas : Measurable fun ω => (∑ k : Fin K, g (y k ω)) / K :=
    (Finset.measurable_sum Finset.univ fun (k : Fin K) _ => hgm.comp (hy k)).div_const _
  have h01 : ∀ ω, 0 ≤ (∑ k : Fin K, g (y k ω)) / K ∧ (∑ k : Fin K, g (y k ω)) / K ≤ 1 := by
    intro ω
    refine ⟨div_nonneg (Finset.sum_nonneg fun k _ => (hg01 _).1) hK'.le, ?_⟩
    rw [div_le_one hK']
    calc ∑ k : Fin K, g (y k ω) ≤ ∑ _k : Fin K, (1 : ℝ) := Finset.sum_le_sum fun k _ => (hg01 _).2
      _ = K := by simp
  have hmean : ∫ ω, (∑ k : Fin K, g (y k ω)) / K ∂P = G := by
    have h1 : ∀ k : Fin K, ∫ ω, g (y k ω) ∂P = G := by
      intro k
      have h := integral_indicator_one (μ := P) (hy k measurableSet_Iic : MeasurableSet {ω | y k ω ≤ u})
      have h' : P.real (y k ⁻¹' Iic u) = G := hG k k.2
      rw [h'] at h
      rw [← h]
      refine integral_congr_ae (Eventually.of_forall fun ω => ?_)
      by_cases hc : y k ω ≤ u <;> simp [hg, hc]
    have h2 : ∀ k : Fin K, Integrable (fun ω => g (y k ω)) P := fun k =>
      (memLp_unit P (hgm.comp (hy k)) fun ω => hg01 _).integrable (by norm_num)
    rw [integral_div, integral_finsetSum _ fun k _ => h2 k]
    simp only [h1, Finset.sum_const, Finset.card_univ, Fintype.card_fin, nsmul_eq_mul]
    field_simp
  have hch := chebyshev_real P hmeas h01 hmean hvar hδ
  have hcount : ∀ ω, ((((List.range K).map fun k => y k ω).countP (fun t => decide (t ≤ u)) : ℕ) : ℝ) = ∑ k : Fin K, g (y k ω) :=
    fun ω => countP_range_ite (fun k => y k ω) u K
  have hne : ∀ ω, (List.range K).map (fun k => y k ω) ≠ [] := fun ω h => by
    have := congrArg List.length h
    simp at this
    exact hK this
  constructor
  · intro hle
    refine (measureReal_mono (fun ω hω => ?_)).trans hch
    by_contra hc
    simp only [mem_ofPred_eq, not_le, abs_lt] at hω hc
    obtain ⟨J, -, -, hJ2, hJ⟩ := quantile_count (hne ω) hq0 hq1
    have h1 : (G - δ) * K < ∑ k : Fin K, g (y k ω) := by
      rw [← lt_div_iff₀ hK']; linarith [hc.1]
    have h2 : (q + 2 / K) * K ≤ (G - δ) * K := mul_le_mul_of_nonneg_right (by linarith) hK'.le
    have h3 : (q + 2 / K) * K = q * K + 2 := by field_simp
    have h4 : J + 1 ≤ ((List.range K).map fun k => y k ω).countP fun t => decide (t ≤ u) := by
      have : ((J + 1 : ℕ) : ℝ) ≤ ((((List.range K).map fun k => y k ω).countP (fun t => decide (t ≤ u)) : ℕ) : ℝ) := by
        rw [hcount ω]
        push_cast
        simp only [List.length_map, List.length_range] at hJ2
        linarith
      exact_mod_cast this
    have := (hJ _ rfl u).1 h4
    linarith
  · intro hle
    refine (measureReal_mono (fun ω hω => ?_)).trans hch
    by_contra hc
    simp only [mem_ofPred_eq, not_le, abs_lt] at hω hc
    obtain ⟨J, -, hJ1, -, hJ⟩ := quantile_count (hne ω) hq0 hq1
    have h1 : ∑ k : Fin K, g (y k ω) < (G + δ) * K := by
      rw [← div_lt_iff₀ hK']; linarith [hc.2]
    have h2 : (G + δ) * K ≤ (q - 2 / K) * K := mul_le_mul_of_nonneg_right hle hK'.le
    have h3 : (q - 2 / K) * K = q * K - 2 := by field_simp
    have h4 := (hJ _ rfl u).2 hω
    have h5 : (J : ℝ) ≤ ∑ k : Fin K, g (y k ω) := by
      rw [← hcount ω]; exact_mod_cast h4
    simp only [List.length_map, List.length_range] at hJ1
    linarith

/-- More and more independent values, whose law may change with their number: the quantile converges in probability. -/
theorem quantile_array (P : ℕ → Measure Ω') [∀ M, IsProbabilityMeasure (P M)] (y : ℕ → ℕ → Ω' → ℝ) (hy : ∀ M k, Measurable (y M k))
    (hind : ∀ M i j, i ≠ j → IndepFun (y M i) (y M j) (P M)) (K : ℕ → ℕ) (hK : Tendsto K atTop atTop) (u G q : ℝ) (GM : ℕ → ℝ)
    (hG : ∀ᶠ M in atTop, ∀ k < K M, (P M).real {ω | y M k ω ≤ u} = GM M) (hlim : Tendsto GM atTop (𝓝 G)) (hq0 : 0 ≤ q) (hq1 : q ≤ 1) :
    (q < G → Tendsto (fun M => (P M).real {ω | u < quantile ((List.range (K M)).map fun k => y M k ω) q}) atTop (𝓝 0)) ∧
    (G < q → Tendsto (fun M => (P M).real {ω | quantile ((List.range (K M)).map fun k => y M k ω) q ≤ u}) atTop (𝓝 0)) := by
  have hKr : Tendsto (fun M => (K M : ℝ)) atTop atTop := tendsto_natCast_atTop_atTop.comp hK
  have h2 : Tendsto (fun M => 2 / (K M : ℝ)) atTop (𝓝 0) := hKr.const_div_atTop 2
  have hb : ∀ δ : ℝ, Tendsto (fun M => 1 / (4 * (K M : ℝ)) / δ ^ 2) atTop (𝓝 0) := by
    intro δ
    have := (hKr.const_mul_atTop (show (0 : ℝ) < 4 by norm_num)).const_div_atTop 1
    have := this.div_const (δ ^ 2)
    rwa [zero_div] at this
  constructor
  · intro hlt
    set δ := (G - q) / 3 with hδ
    have hδ0 : 0 < δ := by rw [hδ]; linarith
    refine squeeze_zero' (Eventually.of_forall fun M => measureReal_nonneg) ?_ (hb δ)
    filter_upwards [hG, hlim.eventually (lt_mem_nhds (show G - δ < G by linarith)), h2.eventually (gt_mem_nhds hδ0), hK.eventually_ne_atTop 0]
      with M h3 h4 h5 h6
    exact (quantile_prob (P M) (y M) (hy M) (hind M) h6 u (GM M) q δ h3 hq0 hq1 hδ0).1 (by linarith)
  · intro hlt
    set δ := (q - G) / 3 with hδ
    have hδ0 : 0 < δ := by rw [hδ]; linarith
    refine squeeze_zero' (Eventually.of_forall fun M => measureReal_nonneg) ?_ (hb δ)
    filter_upwards [hG, hlim.eventually (gt_mem_nhds (show G < G + δ by linarith)), h2.eventually (gt_mem_nhds hδ0), hK.eventually_ne_atTop 0]
      with M h3 h4 h5 h6
    exact (quantile_prob (P M) (y M) (hy M) (hind M) h6 u (GM M) q δ h3 hq0 hq1 hδ0).2 (by linarith)

/-! ## The laws of the trajectories -/

/-- The draws from a mixture of `M` laws with equal weights: component uniform among the `M`, standard normal deviate, independent values. -/
structure MixtureDraws (P : Measure Ω') (c : ℕ → Ω' → ℕ × ℝ) (M : ℕ) : Prop where
  meas : ∀ k, Measurable (c k)
  indep : ∀ i j, i ≠ j → IndepFun (c i) (c j) P
  law : ∀ k, ∀ t < M, ∀ s, MeasurableSet s → P.real {ω | (c k ω).1 = t ∧ (c k ω).2 ∈ s} = (gaussianReal 0 1).real s / M

theorem draw_measurable (L : PodLaw) : Measurable L.draw := by
  cases L with
  | normal m s => exact (measurable_id.const_mul s).const_add m
  | dirac x => exact measurable_const

theorem draw_cdf (L : PodLaw) (u : ℝ) : (gaussianReal 0 1).real {z | L.draw z ≤ u} = L.law.real (Iic u) := by
  cases L with
  | normal m s =>
    have h : (gaussianReal 0 1).map (fun z => m + s * z) = gaussianReal m (sqv s) := by
      have e : (fun z : ℝ => m + s * z) = (fun z => m + z) ∘ fun z => s * z := rfl
      rw [e, ← Measure.map_map (by fun_prop) (by fun_prop), gaussianReal_map_const_mul, gaussianReal_map_const_add]
      congr 1
      · ring
      · ext; simp [sqv]
    rw [PodLaw.law, ← h, map_measureReal_apply (by fun_prop) measurableSet_Iic]
    rfl
  | dirac x =>
    by_cases hx : x ≤ u
    · simp [PodLaw.law, PodLaw.draw, measureReal_def, hx]
    · simp [PodLaw.law, PodLaw.draw, measureReal_def, hx]

instance podLaw_isProbability (L : PodLaw) : IsProbabilityMeasure L.law := by
  cases L with
  | normal m s => exact inferInstanceAs (IsProbabilityMeasure (gaussianReal m (sqv s)))
  | dirac x => exact inferInstanceAs (IsProbabilityMeasure (Measure.dirac x))

/-- The distribution function of one value drawn from the mixture. -/
theorem mixture_cdf (P : Measure Ω') [IsProbabilityMeasure P] (c : ℕ → Ω' → ℕ × ℝ) {M : ℕ} (hM : M ≠ 0) (hc : MixtureDraws P c M) (L : ℕ → PodLaw) (u : ℝ) (k : ℕ) :
    P.real {ω | (L (c k ω).1).draw (c k ω).2 ≤ u} = (∑ t ∈ Finset.range M, (L t).law.real (Iic u)) / M := by
  have hM' : (0 : ℝ) < M := by exact_mod_cast Nat.pos_of_ne_zero hM
  have hms : ∀ t, ∀ s, MeasurableSet s → MeasurableSet {ω | (c k ω).1 = t ∧ (c k ω).2 ∈ s} := fun t s hs =>
    (hc.meas k) ((measurable_fst (measurableSet_singleton t)).inter (measurable_snd hs))
  have hunion : ∀ S : ℕ → Set ℝ, (∀ t, MeasurableSet (S t)) → P.real (⋃ t ∈ Finset.range M, {ω | (c k ω).1 = t ∧ (c k ω).2 ∈ S t})
      = (∑ t ∈ Finset.range M, (gaussianReal 0 1).real (S t)) / M := by
    intro S hS
    rw [measureReal_biUnion_finset ?_ fun t _ => hms t _ (hS t), Finset.sum_div]
    · exact Finset.sum_congr rfl fun t ht => hc.law k t (Finset.mem_range.1 ht) _ (hS t)
    · intro t _ t' _ htt
      exact Set.disjoint_left.2 fun ω h h' => htt (h.1.symm.trans h'.1)
  have hall : P.real (⋃ t ∈ Finset.range M, {ω | (c k ω).1 = t ∧ (c k ω).2 ∈ univ}) = 1 := by
    rw [hunion (fun _ => univ) fun _ => MeasurableSet.univ]
    simp [hM]
  have hfull : ∀ᵐ ω ∂P, (c k ω).1 < M := by
    have hmeas : MeasurableSet (⋃ t ∈ Finset.range M, {ω | (c k ω).1 = t ∧ (c k ω).2 ∈ univ}) :=
      Finset.measurableSet_biUnion _ fun t _ => hms t _ MeasurableSet.univ
    have h0 := (prob_compl_eq_zero_iff hmeas).2 (by
      rw [measureReal_def] at hall
      exact (ENNReal.toReal_eq_one_iff _).1 hall)
    rw [ae_iff]
    refine measure_mono_null (fun ω hω => ?_) h0
    simp only [mem_ofPred_eq, mem_compl_iff, mem_iUnion, not_exists] at hω ⊢
    intro t ht h
    exact hω (by rw [h.1]; exact Finset.mem_range.1 ht)
  have e : P.real {ω | (L (c k ω).1).draw (c k ω).2 ≤ u} = P.real (⋃ t ∈ Finset.range M, {ω | (c k ω).1 = t ∧ (c k ω).2 ∈ {z | (L t).draw z ≤ u}}) := by
    refine measureReal_congr ?_
    filter_upwards [hfull] with ω hω
    refine propext ⟨fun h => ?_, fun h => ?_⟩
    · exact mem_iUnion₂.2 ⟨_, Finset.mem_range.2 hω, rfl, h⟩
    · obtain ⟨t, -, h1, h2⟩ := mem_iUnion₂.1 h
      change (L (c k ω).1).draw (c k ω).2 ≤ u
      rw [h1]; exact h2
  rw [e, hunion (fun t => {z | (L t).draw z ≤ u}) fun t => draw_measurable (L t) measurableSet_Iic]
  simp only [draw_cdf]

theorem count_measurable (mean variance : ℝ × X → ℝ) (det a : ℝ) (xs : List X) :
    Measurable fun z => (krigTrajectory mean variance a xs z).countP fun y => decide (det < y) := by
  simp only [krigTrajectory, mergeDefectInX, List.map_map]
  induction xs with
  | nil => simp
  | cons x xs ih =>
    simp only [List.map_cons, List.countP_cons]
    refine ih.add ?_
    simp only [Function.comp_apply, decide_eq_true_eq]
    exact Measurable.ite (measurableSet_lt measurable_const (by fun_prop)) measurable_const measurable_const

/-- The probability that a POD drawn for the trajectory of the deviate `z` is at most `u`. -/
noncomputable def trajCdf (mean variance : ℝ × X → ℝ) (det a : ℝ) (xs : List X) (u z : ℝ) : ℝ :=
  (podLaw det (krigTrajectory mean variance a xs z)).law.real (Iic u)

theorem trajCdf_measurable (mean variance : ℝ × X → ℝ) (det a : ℝ) (xs : List X) (u : ℝ) : Measurable (trajCdf mean variance det a xs u) := by
  have e : trajCdf mean variance det a xs u = (fun j : ℕ =>
      (let p : ℝ := j / xs.length
       let var := p * (1 - p) / xs.length
       (if 0 < var then PodLaw.normal p (Real.sqrt var) else if p < 1 then .dirac 0 else .dirac 1 : PodLaw)).law.real (Iic u)) ∘
      fun z => (krigTrajectory mean variance a xs z).countP fun y => decide (det < y) := by
    funext z
    have hl : (krigTrajectory mean variance a xs z).length = xs.length := by simp [krigTrajectory, mergeDefectInX]
    simp only [trajCdf, podLaw, fracAbove, Function.comp_apply, hl]
  rw [e]
  exact (measurable_of_countable _).comp (count_measurable mean variance det a xs)

theorem trajCdf_unit (mean variance : ℝ × X → ℝ) (det a : ℝ) (xs : List X) (u z : ℝ) :
    0 ≤ trajCdf mean variance det a xs u z ∧ trajCdf mean variance det a xs u z ≤ 1 :=
  ⟨measureReal_nonneg, measureReal_le_one⟩

/-- The distribution function of the POD under the law of the trajectories: metamodel and Monte-Carlo uncertainty together. -/
noncomputable def krigPodCdf (mean variance : ℝ × X → ℝ) (det a : ℝ) (xs : List X) (u : ℝ) : ℝ :=
  ∫ z, trajCdf mean variance det a xs u z ∂(gaussianReal 0 1)

/-- The value of the confidence curve at one of the sizes. -/
theorem krig_cl_node (rows : ℕ) (sim : ℕ → ℝ → List ℝ) (s : SimAttrs) (hnum : s.number = s.sizes.length) (hp : s.sizes.Pairwise (· < ·)) (j : ℕ)
    (hj : j < s.sizes.length) (level : ℝ) :
    ∃ g, getPODCLModel (krigingRunSim rows sim s).2 level = .ok g ∧ g s.sizes[j] = .ok (quantile (sim j s.sizes[j]) (1 - level)) := by
  have hne : s.sizes ≠ [] := by
    rintro h
    simp [h] at hj
  obtain ⟨f, hf, -⟩ := interp1d_spec s.sizes ((s.sizes.mapIdx sim).map listMean) (by simp) hne hp
  obtain ⟨g, hg, -, hn, -⟩ := interp1d_spec s.sizes ((s.sizes.mapIdx sim).map fun col => quantile col (1 - level)) (by simp) hne hp
  obtain ⟨-, -, h⟩ := run_curves rows sim s hnum level f g hf hg
  refine ⟨g, h, ?_⟩
  have := hn j hj
  rw [mapIdx_getD _ _ (fun col => quantile col (1 - level)) j hj, List.getD_eq_getElem _ _ hj] at this
  exact this

/-- **C239.**  One of the defect sizes, its simulated points fixed.  For almost all deviates of the trajectories: with more and more simulations, the
probability (over the final draws) that the confidence curve is within `ε` of the quantile of the law of the POD tends to 1. -/
theorem C239_kriging (mean variance : ℝ × X → ℝ) (det level : ℝ) (hl0 : 0 ≤ level) (hl1 : level ≤ 1) (s : SimAttrs) (hnum : s.number = s.sizes.length)
    (hp : s.sizes.Pairwise (· < ·)) (j : ℕ) (hj : j < s.sizes.length) (xs : ℕ → List X) (hxs : xs j ≠ [])
    (Q : Measure Ω) [IsProbabilityMeasure Q] (xi : ℕ → ℕ → Ω → ℝ) (hxi : ∀ k, Measurable (xi j k)) (hlaw : ∀ k, Q.map (xi j k) = gaussianReal 0 1)
    (hind : iIndepFun (xi j) Q)
    (P : ℕ → Measure Ω') [∀ M, IsProbabilityMeasure (P M)] (c : ℕ → ℕ → ℕ → Ω' → ℕ × ℝ) (hc : ∀ M, MixtureDraws (P M) (c M j) M)
    (v : ℝ) (hup : ∀ u, v < u → 1 - level < krigPodCdf mean variance det s.sizes[j] (xs j) u)
    (hlow : ∀ u, u < v → krigPodCdf mean variance det s.sizes[j] (xs j) u < 1 - level) :
    ∀ᵐ ω ∂Q, ∀ ε > 0, Tendsto (fun M => (P M).real {ω' | ∃ g w,
      getPODCLModel (krigingRunSim (M * (xs j).length) (fun i a => podSamplePerDefect mean variance det a
        ⟨xs i, (List.range M).map (fun k => xi i k ω), (List.range (M * (xs i).length)).map (fun k => c M i k ω')⟩) s).2 level = .ok g ∧
      g s.sizes[j] = .ok w ∧ |w - v| < ε}) atTop (𝓝 1) := by
  set a := s.sizes[j] with ha
  have hall := ae_all_iff.2 fun r : ℚ => avg_strong hxi hlaw hind (trajCdf_measurable mean variance det a (xs j) r)
    ((memLp_unit _ (trajCdf_measurable mean variance det a (xs j) r) fun z => trajCdf_unit mean variance det a (xs j) r z).integrable (by norm_num))
  filter_upwards [hall] with ω hall ε hε
  set L : ℕ → ℕ → PodLaw := fun M t =>
    (((List.range M).map fun k => xi j k ω).map fun z => podLaw det (krigTrajectory mean variance a (xs j) z)).getD t (.dirac 0) with hL
  set y : ℕ → ℕ → Ω' → ℝ := fun M k ω' => (L M (c M j k ω').1).draw (c M j k ω').2 with hy
  have hdm : ∀ M, Measurable fun p : ℕ × ℝ => (L M p.1).draw p.2 := fun M =>
    measurable_from_prod_countable_right fun t => draw_measurable (L M t)
  have hym : ∀ M k, Measurable (y M k) := fun M k => (hdm M).comp ((hc M).meas k)
  have hyi : ∀ M i i', i ≠ i' → IndepFun (y M i) (y M i') (P M) := fun M i i' h => ((hc M).indep i i' h).comp (hdm M) (hdm M)
  have hlen : 0 < (xs j).length := List.length_pos_iff.2 hxs
  have hK : Tendsto (fun M : ℕ => M * (xs j).length) atTop atTop := by
    refine tendsto_atTop_mono (fun M => ?_) tendsto_id
    exact Nat.le_mul_of_pos_right M hlen
  have hq0 : 0 ≤ 1 - level := by linarith
  have hq1 : 1 - level ≤ 1 := by linarith
  have key : ∀ r : ℚ, _ := fun r : ℚ => quantile_array P y hym hyi (fun M => M * (xs j).length) hK r (krigPodCdf mean variance det a (xs j) r) (1 - level)
    (fun M => avg (xi j) (trajCdf mean variance det a (xs j) r) M ω) (by
      filter_upwards [eventually_ne_atTop 0] with M hM k _
      rw [mixture_cdf (P M) (c M j) hM (hc M) (L M) r k, avg]
      congr 1
      refine Finset.sum_congr rfl fun t ht => ?_
      have ht' := Finset.mem_range.1 ht
      simp only [hL, trajCdf]
      rw [List.getD_eq_getElem _ _ (by simpa using ht')]
      simp) (hall r) hq0 hq1
  have hval : ∀ M ω', podSamplePerDefect mean variance det a
      ⟨xs j, (List.range M).map (fun k => xi j k ω), (List.range (M * (xs j).length)).map (fun k => c M j k ω')⟩
        = (List.range (M * (xs j).length)).map fun k => y M k ω' := by
    intro M ω'
    simp only [podSamplePerDefect]
    rw [List.map_map]
    rfl
  obtain ⟨r1, h1, h1'⟩ := exists_rat_btwn (show v - ε < v by linarith)
  obtain ⟨r2, h2, h2'⟩ := exists_rat_btwn (show v < v + ε by linarith)
  have t1 := (key r1).2 (hlow _ h1')
  have t2 := (key r2).1 (hup _ h2)
  have hsum := (t1.add t2).const_sub 1
  rw [add_zero, sub_zero] at hsum
  refine tendsto_of_tendsto_of_tendsto_of_le_of_le hsum tendsto_const_nhds (fun M => ?_) (fun M => measureReal_le_one)
  set A := {ω' | quantile ((List.range (M * (xs j).length)).map fun k => y M k ω') (1 - level) ≤ r1} with hA
  set B := {ω' | (r2 : ℝ) < quantile ((List.range (M * (xs j).length)).map fun k => y M k ω') (1 - level)} with hB
  have hcov : (univ : Set Ω') ⊆ {ω' | ∃ g w,
      getPODCLModel (krigingRunSim (M * (xs j).length) (fun i a => podSamplePerDefect mean variance det a
        ⟨xs i, (List.range M).map (fun k => xi i k ω), (List.range (M * (xs i).length)).map (fun k => c M i k ω')⟩) s).2 level = .ok g ∧
      g s.sizes[j] = .ok w ∧ |w - v| < ε} ∪ (A ∪ B) := by
    intro ω' _
    by_cases hAB : ω' ∈ A ∪ B
    · exact Or.inr hAB
    · left
      simp only [hA, hB, mem_union, mem_ofPred_eq, not_or, not_le, not_lt] at hAB
      obtain ⟨g, hg, hgv⟩ := krig_cl_node (M * (xs j).length) (fun i a => podSamplePerDefect mean variance det a
        ⟨xs i, (List.range M).map (fun k => xi i k ω), (List.range (M * (xs i).length)).map (fun k => c M i k ω')⟩) s hnum hp j hj level
      refine ⟨g, _, hg, hgv, ?_⟩
      rw [← ha, hval, abs_lt]
      constructor <;> linarith
  have h3 := (measureReal_mono hcov).trans (measureReal_union_le (μ := P M) _ _)
  have h4 := measureReal_union_le (μ := P M) A B
  rw [probReal_univ] at h3
  simp only [ha] at h3 ⊢
  linarith

/-- **C239, existence.**  When some trajectories detect a part of the simulated points only, every level between 0 and 1 has exactly one such quantile. -/
theorem C239_exists (mean variance : ℝ × X → ℝ) (det a : ℝ) (xs : List X) (level : ℝ) (hl0 : 0 < level) (hl1 : level < 1)
    (hpart : gaussianReal 0 1 {z | 0 < fracAbove det (krigTrajectory mean variance a xs z) ∧ fracAbove det (krigTrajectory mean variance a xs z) < 1} ≠ 0) :
    ∃! v, (∀ u, v < u → 1 - level < krigPodCdf mean variance det a xs u) ∧ ∀ u, u < v → krigPodCdf mean variance det a xs u < 1 - level := by
  set F := krigPodCdf mean variance det a xs with hF
  have hint : ∀ u, Integrable (trajCdf mean variance det a xs u) (gaussianReal 0 1) := fun u =>
    (memLp_unit _ (trajCdf_measurable mean variance det a xs u) fun z => trajCdf_unit mean variance det a xs u z).integrable (by norm_num)
  have hmono : ∀ z {s t : ℝ}, s ≤ t → trajCdf mean variance det a xs s z ≤ trajCdf mean variance det a xs t z := fun z s t h =>
    measureReal_mono (Iic_subset_Iic.2 h)
  have hstrict : StrictMono F := by
    intro s t hst
    have hpos : 0 < ∫ z, (trajCdf mean variance det a xs t z - trajCdf mean variance det a xs s z) ∂(gaussianReal 0 1) := by
      rw [integral_pos_iff_support_of_nonneg (fun z => sub_nonneg.2 (hmono z hst.le)) ((hint t).sub (hint s))]
      refine (pos_iff_ne_zero.2 hpart).trans_le (measure_mono fun z hz => ?_)
      obtain ⟨h0, h1⟩ := hz
      rw [Function.mem_support]
      have hlen : (0 : ℝ) < (krigTrajectory mean variance a xs z).length := by
        rcases Nat.eq_zero_or_pos (krigTrajectory mean variance a xs z).length with h | h
        · rw [fracAbove, h] at h0; simp at h0
        · exact_mod_cast h
      have hvar : 0 < fracAbove det (krigTrajectory mean variance a xs z) * (1 - fracAbove det (krigTrajectory mean variance a xs z))
          / (krigTrajectory mean variance a xs z).length := div_pos (mul_pos h0 (by linarith)) hlen
      have hlaw : podLaw det (krigTrajectory mean variance a xs z) = .normal (fracAbove det (krigTrajectory mean variance a xs z))
          (Real.sqrt (fracAbove det (krigTrajectory mean variance a xs z) * (1 - fracAbove det (krigTrajectory mean variance a xs z))
          / (krigTrajectory mean variance a xs z).length)) := by
        simp only [podLaw]
        exact if_pos hvar
      have hv : sqv (Real.sqrt (fracAbove det (krigTrajectory mean variance a xs z) * (1 - fracAbove det (krigTrajectory mean variance a xs z))
          / (krigTrajectory mean variance a xs z).length)) ≠ 0 := by
        intro h
        have := congrArg NNReal.toReal h
        rw [coe_sqv, Real.sq_sqrt hvar.le] at this
        simp only [NNReal.coe_zero] at this
        linarith
      simp only [trajCdf, hlaw, PodLaw.law]
      have hsplit := measureReal_union (μ := gaussianReal (fracAbove det (krigTrajectory mean variance a xs z))
        (sqv (Real.sqrt (fracAbove det (krigTrajectory mean variance a xs z) * (1 - fracAbove det (krigTrajectory mean variance a xs z))
          / (krigTrajectory mean variance a xs z).length)))) (s₁ := Iic s) (s₂ := Ioc s t)
        (Set.disjoint_left.2 fun u h1 h2 => absurd h2.1 (not_lt.mpr h1)) measurableSet_Ioc
      rw [Iic_union_Ioc_eq_Iic hst.le] at hsplit
      rw [hsplit, add_sub_cancel_left]
      refine (gauss_real_pos hv ?_).ne'
      rw [Real.volume_Ioc]
      simp only [ne_eq, ENNReal.ofReal_eq_zero, not_le]
      linarith
    rw [integral_sub (hint t) (hint s)] at hpos
    exact sub_pos.1 hpos
  have hcdf : ∀ z, (fun u => trajCdf mean variance det a xs u z) = cdf (podLaw det (krigTrajectory mean variance a xs z)).law := fun z => by
    funext u
    rw [cdf_eq_real]; rfl
  have hbot : Tendsto F atBot (𝓝 0) := by
    have h := tendsto_integral_filter_of_dominated_convergence (μ := gaussianReal 0 1) (l := atBot) (F := trajCdf mean variance det a xs) (f := fun _ => 0)
      (fun _ => 1) (Eventually.of_forall fun u => (trajCdf_measurable mean variance det a xs u).aestronglyMeasurable)
      (Eventually.of_forall fun u => Eventually.of_forall fun z => by
        rw [Real.norm_eq_abs, abs_of_nonneg (trajCdf_unit mean variance det a xs u z).1]; exact (trajCdf_unit mean variance det a xs u z).2)
      (integrable_const 1) (Eventually.of_forall fun z => by rw [hcdf z]; exact tendsto_cdf_atBot _)
    rwa [integral_zero] at h
  have htop : Tendsto F atTop (𝓝 1) := by
    have h := tendsto_integral_filter_of_dominated_convergence (μ := gaussianReal 0 1) (l := atTop) (F := trajCdf mean variance det a xs) (f := fun _ => 1)
      (fun _ => 1) (Eventually.of_forall fun u => (trajCdf_measurable mean variance det a xs u).aestronglyMeasurable)
      (Eventually.of_forall fun u => Eventually.of_forall fun z => by
        rw [Real.norm_eq_abs, abs_of_nonneg (trajCdf_unit mean variance det a xs u z).1]; exact (trajCdf_unit mean variance det a xs u z).2)
      (integrable_const 1) (Eventually.of_forall fun z => by rw [hcdf z]; exact tendsto_cdf_atTop _)
    rw [integral_const, probReal_univ, one_smul] at h
    exact h
  obtain ⟨lo, hlo⟩ := (hbot.eventually_lt_const (show (0 : ℝ) < 1 - level by linarith)).exists
  obtain ⟨hi, hhi⟩ := (htop.eventually_const_lt (show 1 - level < (1 : ℝ) by linarith)).exists
  have hne : {u | 1 - level ≤ F u}.Nonempty := ⟨hi, hhi.le⟩
  have hbdd : BddBelow {u | 1 - level ≤ F u} := ⟨lo, fun u hu => by
    by_contra hc
    push Not at hc
    have := hstrict hc
    have : 1 - level ≤ F u := hu
    linarith⟩
  refine ⟨sInf {u | 1 - level ≤ F u}, ⟨fun u hu => ?_, fun u hu => ?_⟩, fun v hv => ?_⟩
  · obtain ⟨u', hu', hlt⟩ := exists_lt_of_csInf_lt hne hu
    exact lt_of_le_of_lt hu' (hstrict hlt)
  · by_contra hc
    push Not at hc
    exact absurd (csInf_le hbdd hc) (not_le.2 hu)
  · refine le_antisymm ?_ ?_
    · refine le_csInf hne fun u hu => ?_
      by_contra hc
      push Not at hc
      have h1 := hv.2 u hc
      have h2 : 1 - level ≤ F u := hu
      linarith
    · by_contra hc
      push Not at hc
      obtain ⟨u, h1, h2⟩ := exists_between hc
      have h3 := hv.1 u h1
      exact absurd (csInf_le hbdd h3.le) (not_le.2 h2)

/-- Draws from a mixture exist. -/
theorem mixtureDraws_exist : ∃ (P : ℕ → Measure (ℕ → ℕ × ℝ)) (_ : ∀ M, IsProbabilityMeasure (P M)), ∀ M, MixtureDraws (P M) (fun k ω => ω k) M := by
  set U : ℕ → Measure ℕ := fun M => if M = 0 then Measure.dirac 0 else (M : ENNReal)⁻¹ • ∑ t ∈ Finset.range M, Measure.dirac t with hU
  have hUp : ∀ M, IsProbabilityMeasure (U M) := by
    intro M
    by_cases hM : M = 0
    · rw [hU]; simp only [hM, if_true]; infer_instance
    · refine ⟨?_⟩
      simp only [hU, if_neg hM, Measure.smul_apply, Measure.finsetSum_apply, measure_univ, Finset.sum_const, Finset.card_range, smul_eq_mul, nsmul_eq_mul,
        mul_one]
      exact ENNReal.inv_mul_cancel (by exact_mod_cast hM) (ENNReal.natCast_ne_top M)
  refine ⟨fun M => Measure.infinitePi fun _ : ℕ => (U M).prod (gaussianReal 0 1), fun M => inferInstance, fun M => ⟨fun k => measurable_pi_apply k, ?_, ?_⟩⟩
  · intro i j hij
    have h := iIndepFun_infinitePi (P := fun _ : ℕ => (U M).prod (gaussianReal 0 1)) (X := fun _ p => p) (fun _ => measurable_id)
    exact h.indepFun hij
  · intro k t ht S hS
    have hM : M ≠ 0 := by omega
    have hmap : (Measure.infinitePi fun _ : ℕ => (U M).prod (gaussianReal 0 1)).map (fun ω => ω k) = (U M).prod (gaussianReal 0 1) :=
      Measure.infinitePi_map_eval _ k
    have e : (Measure.infinitePi fun _ : ℕ => (U M).prod (gaussianReal 0 1)).real {ω | (ω k).1 = t ∧ (ω k).2 ∈ S}
        = ((U M).prod (gaussianReal 0 1)).real ({t} ×ˢ S) := by
      have h := map_measureReal_apply (μ := Measure.infinitePi fun _ : ℕ => (U M).prod (gaussianReal 0 1)) (measurable_pi_apply k)
        ((measurableSet_singleton t).prod hS)
      rw [hmap] at h
      exact h.symm
    have hUt : (U M).real {t} = 1 / M := by
      rw [measureReal_def]
      simp only [hU, if_neg hM, Measure.smul_apply, Measure.finsetSum_apply, Measure.dirac_apply' _ (measurableSet_singleton t), smul_eq_mul]
      rw [Finset.sum_eq_single t (fun b _ hb => by simp [hb]) (fun h => absurd (Finset.mem_range.2 ht) h)]
      simp
    rw [e, measureReal_prod_prod, hUt]
    ring

/-- A signal equal to a parameter plus noise: two simulated points on both sides of the threshold, variance 1. -/
example : ∃ v : ℝ, ∃ (Q : Measure (ℕ → ℝ)) (_ : IsProbabilityMeasure Q) (P : ℕ → Measure (ℕ → ℕ × ℝ)) (_ : ∀ M, IsProbabilityMeasure (P M)),
    ∀ᵐ ω ∂Q, ∀ ε > 0, Tendsto (fun M => (P M).real {ω' | ∃ g w,
      getPODCLModel (krigingRunSim (M * 2) (fun _ a => podSamplePerDefect (fun p : ℝ × ℝ => p.2) (fun _ => 1) 0 a
        ⟨[-1, 1], (List.range M).map (fun k => ω k), (List.range (M * 2)).map (fun k => ω' k)⟩) { sizes := [3], number := 1 }).2 (95 / 100) = .ok g ∧
      g 3 = .ok w ∧ |w - v| < ε}) atTop (𝓝 1) := by
  have hpart : gaussianReal 0 1 {z | 0 < fracAbove 0 (krigTrajectory (fun p : ℝ × ℝ => p.2) (fun _ => 1) 3 [-1, 1] z) ∧
      fracAbove 0 (krigTrajectory (fun p : ℝ × ℝ => p.2) (fun _ => 1) 3 [-1, 1] z) < 1} ≠ 0 := by
    have hsub : Ioc (-1 / 2 : ℝ) (1 / 2) ⊆ {z | 0 < fracAbove 0 (krigTrajectory (fun p : ℝ × ℝ => p.2) (fun _ => 1) 3 [-1, 1] z) ∧
        fracAbove 0 (krigTrajectory (fun p : ℝ × ℝ => p.2) (fun _ => 1) 3 [-1, 1] z) < 1} := by
      intro z hz
      have h1 : ¬ (1 : ℝ) < z := by have := hz.2; linarith
      have h2 : -1 < z := by have := hz.1; linarith
      have h3 : (0 : ℝ) < z + 1 := by linarith
      simp [fracAbove, krigTrajectory, mergeDefectInX, List.countP_cons, h1, h3]
      norm_num
    intro h0
    have h := measure_mono_null hsub h0
    have := gauss_real_pos (μ := 0) (v := 1) one_ne_zero (s := Ioc (-1 / 2 : ℝ) (1 / 2)) (by rw [Real.volume_Ioc]; norm_num)
    rw [measureReal_def, h] at this
    simp at this
  obtain ⟨v, ⟨h1, h2⟩, -⟩ := C239_exists (fun p : ℝ × ℝ => p.2) (fun _ => 1) 0 3 [-1, 1] (95 / 100) (by norm_num) (by norm_num) hpart
  obtain ⟨P, hP, hc⟩ := mixtureDraws_exist
  have hind := iIndepFun_infinitePi (P := fun _ : ℕ => gaussianReal 0 1) (X := fun _ p => p) (fun _ => measurable_id)
  exact ⟨v, Measure.infinitePi fun _ : ℕ => gaussianReal 0 1, inferInstance, P, hP,
    C239_kriging (fun p : ℝ × ℝ => p.2) (fun _ => 1) 0 (95 / 100) (by norm_num) (by norm_num) { sizes := [3], number := 1 } rfl (by simp) 0 (by simp)
      (fun _ => [-1, 1]) (by simp) (Measure.infinitePi fun _ : ℕ => gaussianReal 0 1) (fun _ k ω => ω k) (fun k => measurable_pi_apply k)
      (fun k => Measure.infinitePi_map_eval _ k) hind P (fun _ _ k ω' => ω' k) hc v h1 h2⟩

end Verif.Props
