import Verif.Props.TestUnits
import Verif.Props.RankLaw
import Mathlib.Probability.Distributions.Gaussian.Real

/-!
# C137: calibration of the Harrison-McCabe test
-/

namespace Verif.Props
open Verif.Py Verif.Model MeasureTheory ProbabilityTheory

/-! ## Three observations: the p-value does not depend on the signals -/

theorem breakPoint_three : breakPoint (1 / 2 : ℝ) 3 = 1 := by
  have : ⌊(1 / 2 : ℝ) * (3 : ℕ)⌋ = 1 := by rw [Int.floor_eq_iff]; norm_num
  rw [breakPoint, this]; rfl

/-- The direction of the residuals of three observations. -/
theorem resid_three (x y : Fin 3 → ℝ) (hx : ∃ i j, x i ≠ x j) :
    ∃ s : ℝ, olsResiduals x y = fun i => s * (![x 1 - x 2, x 2 - x 0, x 0 - x 1] : Fin 3 → ℝ) i := by
  have hsx := sxx_pos x hx
  have hS : ∑ i, (x i - smean x) ^ 2 ≠ 0 := hsx.ne'
  set u : Fin 3 → ℝ := ![x 1 - x 2, x 2 - x 0, x 0 - x 1]
  refine ⟨(∑ i, u i * y i) / ∑ i, u i ^ 2, ?_⟩
  have hu : ∑ i, u i ^ 2 = 3 * ∑ i, (x i - smean x) ^ 2 := by
    simp only [u, Fin.sum_univ_three, smean]
    simp
    ring
  have hu0 : ∑ i, u i ^ 2 ≠ 0 := by rw [hu]; positivity
  funext i
  rw [div_mul_eq_mul_div, eq_div_iff hu0, hu, olsResiduals, olsIntercept, olsSlope]
  have e : y i - (smean y - (∑ i, (x i - smean x) * (y i - smean y)) / (∑ i, (x i - smean x) ^ 2) * smean x
      + (∑ i, (x i - smean x) * (y i - smean y)) / (∑ i, (x i - smean x) ^ 2) * x i)
      = (y i - smean y) - (∑ i, (x i - smean x) * (y i - smean y)) * (x i - smean x) / (∑ i, (x i - smean x) ^ 2) := by ring
  rw [e]
  have e2 : (y i - smean y - (∑ i, (x i - smean x) * (y i - smean y)) * (x i - smean x) / ∑ i, (x i - smean x) ^ 2)
      * (3 * ∑ i, (x i - smean x) ^ 2)
      = 3 * ((y i - smean y) * (∑ i, (x i - smean x) ^ 2) - (∑ i, (x i - smean x) * (y i - smean y)) * (x i - smean x)) := by
    field_simp
  rw [e2]
  simp only [u, Fin.sum_univ_three, smean]
  fin_cases i <;> simp <;> ring

/-- **C137, violated.**  With three observations, whatever the defects (not all equal) and whatever the simulated samples, the p-value is the same for
all signals that are not exactly on a line: the test says nothing about the variance of the signals. -/
theorem C137_violated (x : Fin 3 → ℝ) (hx : ∃ i j, x i ≠ x j) (sims : List (Fin 3 → ℝ)) (y z : Fin 3 → ℝ) (hy : olsResiduals x y ≠ 0)
    (hz : olsResiduals x z ≠ 0) :
    harrisonMcCabePValue sims (olsResiduals x y) = harrisonMcCabePValue sims (olsResiduals x z) := by
  have key : ∀ w : Fin 3 → ℝ, olsResiduals x w ≠ 0 →
      hmcRatio 1 (olsResiduals x w) = hmcRatio 1 (![x 1 - x 2, x 2 - x 0, x 0 - x 1] : Fin 3 → ℝ) := by
    intro w hw
    obtain ⟨s, hs⟩ := resid_three x w hx
    have : s ≠ 0 := by rintro rfl; exact hw (by rw [hs]; funext i; simp)
    rw [hs, hmcRatio_scale _ _ this]
  simp only [harrisonMcCabePValue, breakPoint_three, key y hy, key z hz]

/-- Signals with errors `1, -2, 1` and signals with errors `1000, -2000, 1000`, on different lines. -/
example (sims : List (Fin 3 → ℝ)) :
    harrisonMcCabePValue sims (olsResiduals ![1, 2, 3] ![2, 0, 4]) = harrisonMcCabePValue sims (olsResiduals ![1, 2, 3] ![1000, -2000, 1007]) := by
  refine C137_violated ![1, 2, 3] ⟨0, 1, by norm_num⟩ sims _ _ (fun h => ?_) (fun h => ?_)
  all_goals
    have := congrFun h 0
    simp [olsResiduals, olsIntercept, olsSlope, smean, Fin.sum_univ_three] at this
    norm_num at this

/-! ## Exchangeable samples -/

/-- Among `N + 1` values, at most `j + 1` have at most `j` other values below or equal. -/
theorem few_small {N : ℕ} (t : Fin N → ℝ) (j : ℕ) :
    (Finset.univ.filter fun i => (Finset.univ.filter fun k => k ≠ i ∧ t k ≤ t i).card ≤ j).card ≤ j + 1 := by
  set S := Finset.univ.filter fun i => (Finset.univ.filter fun k => k ≠ i ∧ t k ≤ t i).card ≤ j
  rcases S.eq_empty_or_nonempty with h | h
  · rw [h]; simp
  · obtain ⟨i, hi, hmax⟩ := S.exists_max_image t h
    have h1 : S.erase i ⊆ Finset.univ.filter fun k => k ≠ i ∧ t k ≤ t i := by
      intro k hk
      rw [Finset.mem_erase] at hk
      simp only [Finset.mem_filter, Finset.mem_univ, true_and]
      exact ⟨hk.1, hmax k hk.2⟩
    have h2 := Finset.card_le_card h1
    rw [Finset.card_erase_of_mem hi] at h2
    have h3 := (Finset.mem_filter.mp hi).2
    omega

/-- Number of the other values below or equal to value `i`. -/
noncomputable def lowOthers {E : Type} {N : ℕ} (f : E → ℝ) (i : Fin N) (ω : Fin N → E) : ℕ :=
  (Finset.univ.filter fun k => k ≠ i ∧ f (ω k) ≤ f (ω i)).card

theorem lowOthers_measurable {E : Type} [MeasurableSpace E] {N : ℕ} {f : E → ℝ} (hf : Measurable f) (i : Fin N) :
    Measurable (lowOthers f i) := by
  have : lowOthers (N := N) f i = fun ω => ∑ k, if k ≠ i ∧ f (ω k) ≤ f (ω i) then 1 else 0 := by
    funext ω; rw [lowOthers, Finset.card_filter]
  rw [this]
  refine Finset.measurable_sum _ fun k _ => ?_
  refine Measurable.ite ?_ measurable_const measurable_const
  by_cases h : k = i
  · simp [h]
  · simp only [h, ne_eq, not_false_eq_true, true_and]
    exact measurableSet_le (hf.comp (measurable_pi_apply k)) (hf.comp (measurable_pi_apply i))

theorem lowOthers_valid {E : Type} [MeasurableSpace E] (ρ : Measure E) [IsProbabilityMeasure ρ] {f : E → ℝ} (hf : Measurable f) (N j : ℕ) :
    (Measure.pi fun _ : Fin (N + 1) => ρ).real {ω | lowOthers f 0 ω ≤ j} ≤ ((j : ℝ) + 1) / (N + 1) := by
  set P := Measure.pi fun _ : Fin (N + 1) => ρ with hP
  have hms : ∀ i : Fin (N + 1), MeasurableSet {ω | lowOthers f i ω ≤ j} := fun i =>
    lowOthers_measurable hf i (measurableSet_Iic (a := j))
  have hsym : ∀ i : Fin (N + 1), P.real {ω | lowOthers f i ω ≤ j} = P.real {ω | lowOthers f 0 ω ≤ j} := by
    intro i
    have hmp := measurePreserving_piCongrLeft (α := fun _ : Fin (N + 1) => E) (fun _ => ρ) (Equiv.swap 0 i)
    have h := hmp.measure_preimage (hms i).nullMeasurableSet
    rw [measureReal_def, measureReal_def, ← h]
    congr 2
    ext t
    have hval : ∀ k, (MeasurableEquiv.piCongrLeft (fun _ : Fin (N + 1) => E) (Equiv.swap 0 i)) t k = t (Equiv.swap 0 i k) := by
      intro k
      have := Equiv.piCongrLeft_apply_apply (fun _ : Fin (N + 1) => E) (Equiv.swap 0 i) t (Equiv.swap 0 i k)
      rw [Equiv.swap_apply_self] at this
      exact this
    have hr : lowOthers f i ((MeasurableEquiv.piCongrLeft (fun _ : Fin (N + 1) => E) (Equiv.swap 0 i)) t) = lowOthers f 0 t := by
      unfold lowOthers
      refine Finset.card_bijective (Equiv.swap 0 i) (Equiv.bijective _) fun k => ?_
      have hki : k ≠ i ↔ Equiv.swap 0 i k ≠ 0 := by
        rw [ne_eq, ne_eq, not_iff_not, Equiv.swap_apply_eq_iff, Equiv.swap_apply_left]
      simp only [Finset.mem_filter, Finset.mem_univ, true_and, hval, Equiv.swap_apply_right, hki]
    simp only [Set.mem_preimage, Set.mem_ofPred_eq, hr]
  have hsum : ∑ i : Fin (N + 1), P.real {ω | lowOthers f i ω ≤ j} ≤ (j : ℝ) + 1 := by
    have h1 : ∀ i : Fin (N + 1), P.real {ω | lowOthers f i ω ≤ j}
        = ∫ ω, ({ω | lowOthers f i ω ≤ j} : Set _).indicator (fun _ => (1 : ℝ)) ω ∂P := by
      intro i
      rw [integral_indicator_const _ (hms i)]
      simp
    simp only [h1]
    rw [← integral_finsetSum _ fun i _ => (integrable_const (1 : ℝ)).indicator (hms i)]
    have h2 : ∀ ω, (∑ i : Fin (N + 1), ({ω | lowOthers f i ω ≤ j} : Set _).indicator (fun _ => (1 : ℝ)) ω) ≤ (j : ℝ) + 1 := by
      intro ω
      have h3 : (((Finset.univ.filter fun i => lowOthers f i ω ≤ j).card : ℕ) : ℝ) ≤ ((j + 1 : ℕ) : ℝ) :=
        Nat.cast_le.mpr (few_small (fun k => f (ω k)) j)
      rw [Finset.card_filter] at h3
      push_cast at h3
      refine le_trans (le_of_eq ?_) h3
      refine Finset.sum_congr rfl fun i _ => ?_
      simp [Set.indicator]
    calc _ ≤ ∫ _, ((j : ℝ) + 1) ∂P :=
          integral_mono (integrable_finsetSum _ fun i _ => (integrable_const (1 : ℝ)).indicator (hms i)) (integrable_const _) h2
      _ = (j : ℝ) + 1 := by simp
  simp only [hsym] at hsum
  rw [Finset.sum_const, Finset.card_univ, Fintype.card_fin, nsmul_eq_mul] at hsum
  push_cast at hsum
  rw [le_div_iff₀ (by positivity)]
  linarith

/-! ## The law of the simulated samples -/

/-- A sample of `n` independent standard normal values. -/
noncomputable abbrev stdSample (n : ℕ) : Measure (Fin n → ℝ) := Measure.pi fun _ => gaussianReal 0 1

/-- The standardised sample of lines 170-172 of _math_tools.py: `(z - mean) / stddev`. -/
noncomputable def standardise {n : ℕ} (z : Fin n → ℝ) : Fin n → ℝ := fun i => (z i - smean z) / Real.sqrt (svar z)

theorem centred_ne {n : ℕ} (z : Fin (n + 2) → ℝ) (hz : Function.Injective z) : ∑ i, (z i - smean z) ^ 2 ≠ 0 := by
  refine (sxx_pos z ⟨0, 1, fun h => ?_⟩).ne'
  have := hz h
  simp at this

theorem hmcRatio_fin {n : ℕ} (bp : ℕ) (r : Fin n → ℝ) (h : ∑ i, r i ^ 2 ≠ 0) : hmcRatio bp r = .fin (harrisonMcCabeStat bp r) := by
  rw [hmcRatio, F.div_fin _ h, harrisonMcCabeStat]

theorem hmcRatio_standardise {n : ℕ} (bp : ℕ) (z : Fin (n + 2) → ℝ) (hz : Function.Injective z) :
    hmcRatio bp (standardise z) = .fin (harrisonMcCabeStat bp fun i => z i - smean z) := by
  have hs := centred_ne z hz
  have hv : 0 < svar z := by
    have h1 : 0 < ∑ i, (z i - smean z) ^ 2 := lt_of_le_of_ne (Finset.sum_nonneg fun i _ => sq_nonneg _) (Ne.symm hs)
    refine div_pos h1 ?_
    push_cast
    have : (0 : ℝ) ≤ n := Nat.cast_nonneg n
    linarith
  have : standardise z = fun i => (1 / Real.sqrt (svar z)) * (z i - smean z) := by
    funext i; rw [standardise]; ring
  rw [this, hmcRatio_scale _ _ (by have := Real.sqrt_pos.mpr hv; positivity), hmcRatio_fin _ _ hs]

theorem hmcStat_measurable {n : ℕ} (bp : ℕ) : Measurable fun z : Fin n → ℝ => harrisonMcCabeStat bp fun i => z i - smean z := by
  unfold harrisonMcCabeStat smean
  refine Measurable.div ?_ ?_
  · exact Finset.measurable_sum _ fun i _ => ((measurable_pi_apply i).sub ((Finset.measurable_sum _ fun k _ => measurable_pi_apply k).div_const _)).pow_const _
  · exact Finset.measurable_sum _ fun i _ => ((measurable_pi_apply i).sub ((Finset.measurable_sum _ fun k _ => measurable_pi_apply k).div_const _)).pow_const _

theorem countP_ofFn' {α : Type} {N : ℕ} (g : Fin N → α) (p : α → Bool) :
    (List.ofFn g).countP p = (Finset.univ.filter fun k => p (g k) = true).card := by
  rw [List.ofFn_eq_map, List.countP_map, Finset.card_filter, List.countP_eq_length_filter]
  rw [← Finset.card_filter, Finset.card, Finset.filter_val, Fin.univ_def]
  simp [Multiset.filter_coe, Function.comp_def]

/-- **C137, restricted.**  When only a constant mean is removed from the signals (a sample with independent normal errors of the same variance `σ²`
around an unknown constant `μ`), the p-value of the test is valid for every number `N` of simulations: it is at most `j / N` with probability at most
`(j + 1) / (N + 1)`.  What is missing: the residuals of the analysis are those of a regression line, whose law is not the simulated one. -/
theorem C137_valid_partial (n N j : ℕ) (hN : 0 < N) (μ σ : ℝ) (hσ : σ ≠ 0) :
    (Measure.pi fun _ : Fin (N + 1) => stdSample (n + 2)).real
        {ω | F.le (harrisonMcCabePValue (List.ofFn fun k : Fin N => standardise (ω k.succ))
          (fun i => (μ + σ * ω 0 i) - smean fun l => μ + σ * ω 0 l)) (.fin ((j : ℝ) / N)) = true}
      ≤ ((j : ℝ) + 1) / (N + 1) := by
  set bp := breakPoint (1 / 2 : ℝ) (n + 2)
  set f : (Fin (n + 2) → ℝ) → ℝ := fun z => harrisonMcCabeStat bp fun i => z i - smean z
  have hf : Measurable f := hmcStat_measurable bp
  have hinj : ∀ᵐ ω ∂(Measure.pi fun _ : Fin (N + 1) => stdSample (n + 2)), ∀ k, Function.Injective (ω k) := by
    rw [ae_all_iff]
    intro k
    have h1 : ∀ᵐ z ∂stdSample (n + 2), Function.Injective z :=
      no_ties (gaussianReal 0 1) (fun v => by
        have := nullSingletonClass_gaussianReal (μ := 0) (v := 1) one_ne_zero
        exact measure_singleton v) (n + 1)
    exact (measurePreserving_eval (fun _ : Fin (N + 1) => stdSample (n + 2)) k).quasiMeasurePreserving.ae h1
  have hN' : (0 : ℝ) < N := Nat.cast_pos.mpr hN
  have himp : ∀ᵐ ω ∂(Measure.pi fun _ : Fin (N + 1) => stdSample (n + 2)),
      ω ∈ {ω | F.le (harrisonMcCabePValue (List.ofFn fun k : Fin N => standardise (ω k.succ))
          (fun i => (μ + σ * ω 0 i) - smean fun l => μ + σ * ω 0 l)) (.fin ((j : ℝ) / N)) = true} →
      ω ∈ {ω | lowOthers f 0 ω ≤ j} := by
    filter_upwards [hinj] with ω hω h
    change F.le _ _ = true at h
    change lowOthers f 0 ω ≤ j
    have hr : (fun i => (μ + σ * ω 0 i) - smean fun l => μ + σ * ω 0 l) = fun i => σ * (ω 0 i - smean (ω 0)) := by
      have : (fun l => μ + σ * ω 0 l) = fun l => σ * ω 0 l + μ := by funext l; ring
      funext i
      rw [this, smean_affine (by omega)]; ring
    have hs0 : hmcRatio bp (fun i => σ * (ω 0 i - smean (ω 0))) = .fin (f (ω 0)) := by
      rw [hmcRatio_scale _ _ hσ, hmcRatio_fin _ _ (centred_ne (ω 0) (hω 0))]
    have hcount : ((List.ofFn fun k : Fin N => standardise (ω k.succ)).map (hmcRatio bp)).countP
        (fun s => F.le s (.fin (f (ω 0)))) = lowOthers f 0 ω := by
      rw [List.map_ofFn, countP_ofFn', lowOthers, Fin.card_filter_univ_succ']
      simp only [ne_eq, not_true_eq_false, false_and, if_false, zero_add, Function.comp]
      congr 1
      ext k
      simp only [Finset.mem_filter, Finset.mem_univ, true_and, hmcRatio_standardise bp _ (hω k.succ), F.le_fin, decide_eq_true_eq,
        Fin.succ_ne_zero, not_false_eq_true, f]
    rw [hr, harrisonMcCabePValue, hs0, hcount, List.length_ofFn, F.div_fin _ hN'.ne', F.le_fin, decide_eq_true_eq,
      div_le_div_iff_of_pos_right hN', Nat.cast_le] at h
    exact h
  refine le_trans ?_ (lowOthers_valid (stdSample (n + 2)) hf N j)
  exact ENNReal.toReal_mono (measure_ne_top _ _) (measure_mono_ae himp)

/-- With 20 signals and the 1000 simulations of the code, a p-value of at most 0.049 has probability at most 50/1001. -/
example : (Measure.pi fun _ : Fin (1000 + 1) => stdSample (18 + 2)).real
      {ω | F.le (harrisonMcCabePValue (List.ofFn fun k : Fin 1000 => standardise (ω k.succ))
        (fun i => (7 + 3 * ω 0 i) - smean fun l => 7 + 3 * ω 0 l)) (.fin (((49 : ℕ) : ℝ) / ((1000 : ℕ) : ℝ))) = true}
    ≤ (((49 : ℕ) : ℝ) + 1) / (((1000 : ℕ) : ℝ) + 1) :=
  C137_valid_partial 18 1000 49 (by norm_num) 7 3 (by norm_num)

/-- **C137, violated, false alarms.**  With three observations, the last two for the same defect, the p-value is 0 for almost all simulations, whatever
the signals (not exactly on a line): a constant variance is always rejected. -/
theorem C137_violated_false_alarm (x : Fin 3 → ℝ) (h12 : x 1 = x 2) (h01 : x 0 ≠ x 1) (y : Fin 3 → ℝ) (hy : olsResiduals x y ≠ 0) (N : ℕ)
    (hN : 0 < N) :
    ∀ᵐ ω ∂(Measure.pi fun _ : Fin N => stdSample 3),
      harrisonMcCabePValue (List.ofFn fun k => standardise (ω k)) (olsResiduals x y) = .fin 0 := by
  have hne : ∀ᵐ z ∂stdSample 3, Function.Injective z ∧ z 0 - smean z ≠ 0 := by
    have h1 : ∀ᵐ z ∂stdSample 3, Function.Injective z := no_ties (gaussianReal 0 1) (fun v => by
      have := nullSingletonClass_gaussianReal (μ := 0) (v := 1) one_ne_zero
      exact measure_singleton v) 2
    have h2 : ∀ᵐ z ∂stdSample 3, z 0 - smean z ≠ 0 := by
      have hp := measurePreserving_piFinSuccAbove (fun _ : Fin 3 => gaussianReal 0 1) 0
      have hmeas : MeasurableSet {q : ℝ × (Fin 2 → ℝ) | q.1 = (q.2 0 + q.2 1) / 2} :=
        measurableSet_eq_fun measurable_fst ((((measurable_pi_apply 0).comp measurable_snd).add
          ((measurable_pi_apply 1).comp measurable_snd)).div_const 2)
      have h0 : ((gaussianReal 0 1).prod (Measure.pi fun _ : Fin 2 => gaussianReal 0 1)) {q | q.1 = (q.2 0 + q.2 1) / 2} = 0 := by
        rw [← Measure.prod_swap, Measure.map_apply measurable_swap hmeas, Measure.measure_prod_null (measurable_swap hmeas)]
        refine Filter.Eventually.of_forall fun u => ?_
        have : Prod.mk u ⁻¹' (Prod.swap ⁻¹' {q : ℝ × (Fin 2 → ℝ) | q.1 = (q.2 0 + q.2 1) / 2}) = {(u 0 + u 1) / 2} := by
          ext v; simp
        change gaussianReal 0 1 _ = 0
        rw [this]
        have := nullSingletonClass_gaussianReal (μ := 0) (v := 1) one_ne_zero
        exact measure_singleton _
      have h3 := hp.measure_preimage hmeas.nullMeasurableSet
      rw [h0] at h3
      rw [ae_iff]
      convert h3 using 2
      ext z
      simp only [smean, Fin.sum_univ_three, MeasurableEquiv.piFinSuccAbove, Fin.insertNthEquiv]
      simp
      have t0 : Fin.tail z 0 = z 1 := rfl
      have t1 : Fin.tail z 1 = z 2 := rfl
      rw [t0, t1]
      constructor <;> intro h <;> linarith
    filter_upwards [h1, h2] with z a b using ⟨a, b⟩
  have hall : ∀ᵐ ω ∂(Measure.pi fun _ : Fin N => stdSample 3), ∀ k, Function.Injective (ω k) ∧ ω k 0 - smean (ω k) ≠ 0 := by
    rw [ae_all_iff]
    intro k
    exact (measurePreserving_eval (fun _ : Fin N => stdSample 3) k).quasiMeasurePreserving.ae hne
  have hr : hmcRatio 1 (olsResiduals x y) = .fin 0 := by
    obtain ⟨s, hs⟩ := resid_three x y ⟨0, 1, h01⟩
    have hs0 : s ≠ 0 := by rintro rfl; exact hy (by rw [hs]; funext i; simp)
    rw [hs, hmcRatio_scale _ _ hs0, hmcRatio_fin]
    · simp [harrisonMcCabeStat, Finset.sum_filter, Fin.sum_univ_three, h12]
    · have h4 : 0 < (x 0 - x 1) ^ 2 := by have := sub_ne_zero.mpr h01; positivity
      simp only [Fin.sum_univ_three]
      simp
      nlinarith [sq_nonneg (x 1 - x 2), sq_nonneg (x 2 - x 0)]
  filter_upwards [hall] with ω hω
  have hc : ((List.ofFn fun k => standardise (ω k)).map (hmcRatio 1)).countP (fun s => F.le s (.fin 0)) = 0 := by
    rw [List.map_ofFn, countP_ofFn', Finset.card_eq_zero, Finset.filter_eq_empty_iff]
    intro k _
    obtain ⟨hi, h0⟩ := hω k
    rw [Function.comp, hmcRatio_standardise 1 _ hi, F.le_fin, decide_eq_true_eq, not_le, harrisonMcCabeStat]
    refine div_pos ?_ (lt_of_le_of_ne (Finset.sum_nonneg fun i _ => sq_nonneg _) (Ne.symm (centred_ne (ω k) hi)))
    refine Finset.sum_pos' (fun i _ => sq_nonneg _) ⟨0, by simp, by positivity⟩
  have hN' : (N : ℝ) ≠ 0 := Nat.cast_ne_zero.mpr hN.ne'
  rw [harrisonMcCabePValue, breakPoint_three, hr, hc, List.length_ofFn, F.div_fin _ hN']
  simp

/-- One small defect and two measurements of a larger one. -/
example : ∀ᵐ ω ∂(Measure.pi fun _ : Fin 1000 => stdSample 3),
    harrisonMcCabePValue (List.ofFn fun k => standardise (ω k)) (olsResiduals ![1, 2, 2] ![5, 10, 11]) = .fin 0 := by
  refine C137_violated_false_alarm ![1, 2, 2] rfl (by norm_num) _ (fun h => ?_) 1000 (by norm_num)
  have := congrFun h 1
  simp [olsResiduals, olsIntercept, olsSlope, smean, Fin.sum_univ_three] at this
  norm_num at this

end Verif.Props
