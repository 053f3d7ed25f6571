import Verif.Props.BinomialBias

/-!
# C194: the POD at the size where the mean signal equals the threshold
-/

namespace Verif.Props
open Verif.Py Verif.Model ProbabilityTheory MeasureTheory Set Filter Topology

/-- Changing the signs of the errors exchanges the Gaussian POD and its complement at the size where the line meets the threshold. -/
theorem flip_gauss {n : ℕ} (hn : 0 < n) (x e : Fin n → ℝ) (hS : ∑ i, (x i - smean x) ^ 2 ≠ 0) (b0 b1 det a : ℝ) (ha : b0 + b1 * a = det) :
    gaussPodOf x (fun i => b0 + b1 * x i + -e i) det a = 1 - gaussPodOf x (fun i => b0 + b1 * x i + e i) det a := by
  obtain ⟨h1, h2⟩ := fit_scaled x e b0 b1 1 a hn hS
  obtain ⟨h3, h4⟩ := fit_scaled x e b0 b1 (-1) a hn hS
  simp only [one_mul, neg_one_mul] at h1 h2 h3 h4
  have hs : linearStderr x (fun i => b0 + b1 * x i + -e i) = linearStderr x (fun i => b0 + b1 * x i + e i) := by
    simp only [linearStderr, linearScale, h2, h4, neg_sq]
  simp only [gaussPodOf, podGauss]
  rw [hs, h1, h3, ha]
  set t := olsIntercept x e + olsSlope x e * a
  set v := Real.sqrt (predictionVariance x (linearStderr x fun i => b0 + b1 * x i + e i) a)
  rw [show (det - (det + t)) / v = -((det - (det + -t)) / v) by ring, PhiC_eq, PhiC_eq, Phi_neg]
  ring

/-- The same for the binomial POD, up to ties. -/
theorem flip_binomial {n : ℕ} (hn : 0 < n) (x e : Fin n → ℝ) (hS : ∑ i, (x i - smean x) ^ 2 ≠ 0) (b0 b1 det a : ℝ) (ha : b0 + b1 * a = det) :
    binomialPodOf x (fun i => b0 + b1 * x i + -e i) det a = 1 - binomialPodOf x (fun i => b0 + b1 * x i + e i) det a
      - (∑ i, if e i + olsSlope x e * (a - x i) = 0 then (1 : ℝ) else 0) / n := by
  have hN : (n : ℝ) ≠ 0 := by exact_mod_cast hn.ne'
  have h1 : olsSlope x (fun i => b0 + b1 * x i + e i) = b1 + olsSlope x e := by rw [slope_error x e b0 b1 hn hS]; rfl
  have h2 : olsSlope x (fun i => b0 + b1 * x i + -e i) = b1 - olsSlope x e := by
    rw [slope_error x (fun i => -e i) b0 b1 hn hS, olsSlope]
    have hm : smean (fun i => -e i) = -smean e := by simp only [smean, Finset.sum_neg_distrib, neg_div]
    rw [hm, sub_eq_add_neg, ← neg_div, ← Finset.sum_neg_distrib]
    congr 2
    exact Finset.sum_congr rfl fun i _ => by ring
  rw [binomial_shifted, binomial_shifted, h1, h2]
  rw [eq_sub_iff_add_eq, eq_sub_iff_add_eq, ← add_div, ← add_div, ← Finset.sum_add_distrib, ← Finset.sum_add_distrib, div_eq_one_iff_eq hN]
  refine (Finset.sum_congr rfl fun i _ => ?_ : _ = ∑ _i : Fin n, (1 : ℝ)).trans (by simp)
  set u := e i + olsSlope x e * (a - x i) with hu
  have e1 : (det < b0 + b1 * x i + -e i + (b1 - olsSlope x e) * (a - x i)) ↔ u < 0 := by
    rw [hu, ← ha]; constructor <;> intro h <;> linarith
  have e2 : (det < b0 + b1 * x i + e i + (b1 + olsSlope x e) * (a - x i)) ↔ 0 < u := by
    rw [hu, ← ha]; constructor <;> intro h <;> linarith
  simp only [e1, e2]
  rcases lt_trichotomy u 0 with h | h | h
  · simp only [h, h.ne, h.not_gt, if_true, if_false]; norm_num
  · simp only [h, lt_irrefl, if_true, if_false]; norm_num
  · simp only [h, h.ne', h.not_gt, if_true, if_false]; norm_num

theorem olsSlope_measurable {n : ℕ} (x : Fin n → ℝ) : Measurable fun e : Fin n → ℝ => olsSlope x e := by
  simp only [olsSlope, smean]
  fun_prop

theorem gaussPodOf_measurable {n : ℕ} (x : Fin n → ℝ) (c : Fin n → ℝ) (det a : ℝ) :
    Measurable fun e : Fin n → ℝ => gaussPodOf x (fun i => c i + e i) det a := by
  have hsl : Measurable fun e : Fin n → ℝ => olsSlope x (fun i => c i + e i) :=
    (olsSlope_measurable x).comp (by fun_prop)
  have hint : Measurable fun e : Fin n → ℝ => olsIntercept x (fun i => c i + e i) := by
    simp only [olsIntercept, smean]
    fun_prop
  have hse : Measurable fun e : Fin n → ℝ => linearStderr x (fun i => c i + e i) := by
    simp only [linearStderr, linearScale, olsResiduals]
    fun_prop
  simp only [gaussPodOf, podGauss, PhiC_eq, predictionVariance]
  have hPhi : Measurable Phi := Phi_continuous.measurable
  fun_prop

theorem binomialPodOf_measurable {n : ℕ} (x : Fin n → ℝ) (c : Fin n → ℝ) (det a : ℝ) :
    Measurable fun e : Fin n → ℝ => binomialPodOf x (fun i => c i + e i) det a := by
  have hsl : Measurable fun e : Fin n → ℝ => olsSlope x (fun i => c i + e i) :=
    (olsSlope_measurable x).comp (by fun_prop)
  simp only [binomial_shifted]
  refine Measurable.div_const (Finset.measurable_sum _ fun i _ => ?_) _
  exact Measurable.ite (measurableSet_lt measurable_const (by fun_prop)) measurable_const measurable_const

/-- A quantity that a symmetry of the law exchanges with its complement. -/
theorem fair_of_flip {V : Type} [MeasurableSpace V] (P : Measure V) [IsProbabilityMeasure P] (σ : V → V) (hσ : Measurable σ) (hP : P.map σ = P)
    (G : V → ℝ) (hG : Measurable G) (hb : ∀ v, 0 ≤ G v ∧ G v ≤ 1) (hflip : ∀ᵐ v ∂P, G (σ v) = 1 - G v) :
    (∀ t, P.real {v | G v ≤ t} = P.real {v | 1 - t ≤ G v}) ∧ ∫ v, G v ∂P = 1 / 2 := by
  have hint : Integrable G P := Integrable.of_mem_Icc 0 1 hG.aemeasurable (ae_of_all _ fun v => hb v)
  refine ⟨fun t => ?_, ?_⟩
  · have h1 : P.real {v | G v ≤ t} = P.real {v | G (σ v) ≤ t} := by
      conv_lhs => rw [← hP]
      rw [map_measureReal_apply hσ (measurableSet_le hG measurable_const)]
      rfl
    rw [h1]
    refine measureReal_congr ?_
    filter_upwards [hflip] with v hv
    refine propext ?_
    change G (σ v) ≤ t ↔ 1 - t ≤ G v
    rw [hv]
    constructor <;> intro h <;> linarith
  · have h1 : ∫ v, G v ∂P = ∫ v, G (σ v) ∂P := by
      conv_lhs => rw [← hP]
      rw [integral_map hσ.aemeasurable hG.aestronglyMeasurable]
    have h2 : ∫ v, G (σ v) ∂P = ∫ v, (1 - G v) ∂P := integral_congr_ae hflip
    rw [h2, integral_sub (integrable_const _) hint] at h1
    simp at h1
    linarith

/-- **C194.**  Signals on a line plus errors whose joint law does not change when all signs are changed (independent symmetric errors, for instance).  At
the size where the mean signal equals the threshold, the Gaussian POD is as often below `t` as above `1 - t`, and its expectation is one half; so is the
binomial POD when ties have no probability. -/
theorem C194_fair {n : ℕ} (hn : 0 < n) (x : Fin n → ℝ) (hx : ∃ i j, x i ≠ x j) (P : Measure (Fin n → ℝ)) [IsProbabilityMeasure P]
    (hsym : P.map (fun e i => -e i) = P) (b0 b1 det a : ℝ) (ha : b0 + b1 * a = det) :
    ((∀ t, P.real {e | gaussPodOf x (fun i => b0 + b1 * x i + e i) det a ≤ t} = P.real {e | 1 - t ≤ gaussPodOf x (fun i => b0 + b1 * x i + e i) det a}) ∧
      ∫ e, gaussPodOf x (fun i => b0 + b1 * x i + e i) det a ∂P = 1 / 2) ∧
    ((∀ i, P {e | b0 + b1 * x i + e i + olsSlope x (fun j => b0 + b1 * x j + e j) * (a - x i) = det} = 0) →
      (∀ t, P.real {e | binomialPodOf x (fun i => b0 + b1 * x i + e i) det a ≤ t}
        = P.real {e | 1 - t ≤ binomialPodOf x (fun i => b0 + b1 * x i + e i) det a}) ∧
      ∫ e, binomialPodOf x (fun i => b0 + b1 * x i + e i) det a ∂P = 1 / 2) := by
  have hN : (0 : ℝ) < n := by exact_mod_cast hn
  have hS : ∑ i, (x i - smean x) ^ 2 ≠ 0 := by
    intro h
    rw [Finset.sum_eq_zero_iff_of_nonneg fun i _ => sq_nonneg _] at h
    obtain ⟨i, j, hij⟩ := hx
    have h1 := pow_eq_zero_iff (two_ne_zero) |>.1 (h i (Finset.mem_univ _))
    have h2 := pow_eq_zero_iff (two_ne_zero) |>.1 (h j (Finset.mem_univ _))
    exact hij (by linarith)
  have hneg : Measurable fun (e : Fin n → ℝ) i => -e i := by fun_prop
  refine ⟨fair_of_flip P _ hneg hsym _ (gaussPodOf_measurable x (fun i => b0 + b1 * x i) det a) (fun e => ?_)
    (ae_of_all _ fun e => flip_gauss hn x e hS b0 b1 det a ha), fun htie => ?_⟩
  · simp only [gaussPodOf, podGauss, PhiC_eq]
    have h1 := Phi_pos ((det - (olsIntercept x (fun i => b0 + b1 * x i + e i) + olsSlope x (fun i => b0 + b1 * x i + e i) * a))
      / Real.sqrt (predictionVariance x (linearStderr x fun i => b0 + b1 * x i + e i) a))
    have h2 := Phi_lt_one ((det - (olsIntercept x (fun i => b0 + b1 * x i + e i) + olsSlope x (fun i => b0 + b1 * x i + e i) * a))
      / Real.sqrt (predictionVariance x (linearStderr x fun i => b0 + b1 * x i + e i) a))
    constructor <;> linarith
  · refine fair_of_flip P _ hneg hsym _ (binomialPodOf_measurable x (fun i => b0 + b1 * x i) det a) (fun e => ?_) ?_
    · rw [binomial_shifted]
      have h0 : ∀ i ∈ Finset.univ, (0 : ℝ) ≤ (if det < b0 + b1 * x i + e i + olsSlope x (fun i => b0 + b1 * x i + e i) * (a - x i) then (1 : ℝ) else 0) ∧
          (if det < b0 + b1 * x i + e i + olsSlope x (fun i => b0 + b1 * x i + e i) * (a - x i) then (1 : ℝ) else 0) ≤ 1 := by
        intro i _; split <;> norm_num
      refine ⟨div_nonneg (Finset.sum_nonneg fun i hi => (h0 i hi).1) hN.le, ?_⟩
      rw [div_le_one hN]
      refine (Finset.sum_le_card_nsmul _ _ 1 fun i hi => (h0 i hi).2).trans ?_
      simp
    · have hae : ∀ᵐ e ∂P, ∀ i, ¬ (b0 + b1 * x i + e i + olsSlope x (fun j => b0 + b1 * x j + e j) * (a - x i) = det) :=
        ae_all_iff.2 fun i => by rw [ae_iff]; simpa using htie i
      filter_upwards [hae] with e he
      rw [flip_binomial hn x e hS b0 b1 det a ha]
      have hz : (∑ i, if e i + olsSlope x e * (a - x i) = 0 then (1 : ℝ) else 0) = 0 := by
        refine Finset.sum_eq_zero fun i _ => if_neg fun h => he i ?_
        rw [slope_error x e b0 b1 hn hS]
        change b0 + b1 * x i + e i + (b1 + olsSlope x e) * (a - x i) = det
        rw [← ha]; linarith
      rw [hz, zero_div, sub_zero]

/-- Independent normal errors have this symmetry. -/
theorem normal_symmetric {n : ℕ} (s : ℝ) : (Measure.pi fun _ : Fin n => gaussianReal 0 (sqv s)).map (fun e i => -e i)
    = Measure.pi fun _ : Fin n => gaussianReal 0 (sqv s) := by
  have h := (measurePreserving_pi (fun _ : Fin n => gaussianReal 0 (sqv s)) (fun _ => gaussianReal 0 (sqv s)) (f := fun _ t => -t) fun i =>
    ⟨measurable_neg, by rw [gaussianReal_map_neg, neg_zero]⟩).map_eq
  exact h

/-- **C194, normal errors.**  For independent normal errors of any spread ties have no probability: the expectation of either POD is one half. -/
theorem C194_normal {n : ℕ} (hn : 0 < n) (x : Fin n → ℝ) (hx : ∃ i j, x i ≠ x j) (s : ℝ) (hs : 0 < s) (b0 b1 det a : ℝ) (ha : b0 + b1 * a = det) :
    ∫ e, gaussPodOf x (fun i => b0 + b1 * x i + e i) det a ∂(Measure.pi fun _ : Fin n => gaussianReal 0 (sqv s)) = 1 / 2 ∧
    ∫ e, binomialPodOf x (fun i => b0 + b1 * x i + e i) det a ∂(Measure.pi fun _ : Fin n => gaussianReal 0 (sqv s)) = 1 / 2 := by
  obtain ⟨h1, h2⟩ := C194_fair hn x hx (Measure.pi fun _ : Fin n => gaussianReal 0 (sqv s)) (normal_symmetric s) b0 b1 det a ha
  refine ⟨h1.2, (h2 fun i => ?_).2⟩
  have hS : 0 < ∑ i, (x i - smean x) ^ 2 := by
    obtain ⟨i, j, hij⟩ := hx
    by_contra h
    have h0 : ∑ i, (x i - smean x) ^ 2 = 0 := le_antisymm (not_lt.1 h) (Finset.sum_nonneg fun i _ => sq_nonneg _)
    rw [Finset.sum_eq_zero_iff_of_nonneg fun i _ => sq_nonneg _] at h0
    have h1 := pow_eq_zero_iff (two_ne_zero) |>.1 (h0 i (Finset.mem_univ _))
    have h2 := pow_eq_zero_iff (two_ne_zero) |>.1 (h0 j (Finset.mem_univ _))
    exact hij (by linarith)
  have hind : iIndepFun (fun (i : Fin n) (e : Fin n → ℝ) => e i) (Measure.pi fun _ : Fin n => gaussianReal 0 (sqv s)) :=
    iIndepFun_pi (X := fun _ t => t) fun _ => aemeasurable_id
  have hl := carried_law hn x hS (fun i (e : Fin n → ℝ) => e i) (fun i => measurable_pi_apply i) s
    (fun i => (measurePreserving_eval (fun _ : Fin n => gaussianReal 0 (sqv s)) i).map_eq) hind a i
  have hm : Measurable fun e : Fin n → ℝ => e i + olsSlope x (fun j => e j) * (a - x i) :=
    (measurable_pi_apply i).add ((olsSlope_measurable x).mul_const _)
  have hset : {e : Fin n → ℝ | b0 + b1 * x i + e i + olsSlope x (fun j => b0 + b1 * x j + e j) * (a - x i) = det}
      = (fun e : Fin n → ℝ => e i + olsSlope x (fun j => e j) * (a - x i)) ⁻¹' {0} := by
    ext e
    change _ = _ ↔ _ = _
    rw [slope_error x e b0 b1 hn hS.ne']
    change b0 + b1 * x i + e i + (b1 + olsSlope x e) * (a - x i) = det ↔ e i + olsSlope x e * (a - x i) = 0
    rw [← ha]
    constructor <;> intro h <;> linarith
  rw [hset, ← Measure.map_apply hm (measurableSet_singleton 0), hl]
  have hne : sqv (s * Real.sqrt (carried x a i)) ≠ 0 := by
    intro h
    have hp : 0 < s * Real.sqrt (carried x a i) := mul_pos hs (Real.sqrt_pos.2 (carried_pos x hn hS a i))
    have := congrArg NNReal.toReal h
    rw [coe_sqv] at this
    exact (pow_pos hp 2).ne' this
  have := noAtoms_gaussianReal (μ := 0) hne
  exact measure_singleton 0

/-- Sizes 0, 1, 2, line `1 + 2 a`, threshold 4: the size with POD one half is 1.5; the expectation of the Gaussian POD there is one half. -/
example : ∫ e, gaussPodOf ![0, 1, 2] (fun i => 1 + 2 * (![0, 1, 2] : Fin 3 → ℝ) i + e i) 4 (3 / 2) ∂(Measure.pi fun _ : Fin 3 => gaussianReal 0 (sqv 1))
    = 1 / 2 :=
  (C194_fair (by norm_num) _ ⟨0, 1, by simp⟩ _ (normal_symmetric 1) 1 2 4 (3 / 2) (by norm_num)).1.2

end Verif.Props
