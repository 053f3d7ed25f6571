import Verif.Props.MonteCarlo
import Verif.Model.Sampling
import Mathlib.Probability.Moments.Variance
import Mathlib.Probability.ProductMeasure
import Mathlib.Order.UpperLower.Basic

/-!
# C108, C109, C110: expectation and dispersion of the simulated POD
-/

namespace Verif.Props
open Verif.Py Verif.Model MeasureTheory ProbabilityTheory

/-! ## Fractions of random values -/

section Fraction
variable {Ω : Type} [MeasurableSpace Ω]

theorem fracAbove_ofFn {m : ℕ} (det : ℝ) (v : Fin m → ℝ) :
    fracAbove det (List.ofFn v) = (∑ k, if det < v k then (1 : ℝ) else 0) / m := by
  rw [fracAbove, List.length_ofFn]
  congr 1
  have key : ∀ l : List ℝ, ((l.countP fun y => decide (det < y) : ℕ) : ℝ) = (l.map fun y => if det < y then (1 : ℝ) else 0).sum := by
    intro l
    induction l with
    | nil => simp
    | cons a t ih =>
      rw [List.countP_cons, List.map_cons, List.sum_cons]
      push_cast
      rw [ih]
      by_cases h : det < a
      · simp [h, add_comm]
      · simp [h]
  rw [key, List.map_ofFn, List.sum_ofFn]
  rfl

theorem ite_eq_indicator (det : ℝ) (Y : Ω → ℝ) :
    (fun ω => if det < Y ω then (1 : ℝ) else 0) = Set.indicator {ω | det < Y ω} fun _ => 1 := by
  funext ω
  simp [Set.indicator_apply]

theorem integral_ite_lt (P : Measure Ω) [IsProbabilityMeasure P] (det : ℝ) (Y : Ω → ℝ) (hY : Measurable Y) :
    ∫ ω, (if det < Y ω then (1 : ℝ) else 0) ∂P = P.real {ω | det < Y ω} := by
  rw [ite_eq_indicator, integral_indicator_const _ (measurableSet_lt measurable_const hY), smul_eq_mul, mul_one]

theorem integrable_ite_lt (P : Measure Ω) [IsProbabilityMeasure P] (det : ℝ) (Y : Ω → ℝ) (hY : Measurable Y) :
    Integrable (fun ω => if det < Y ω then (1 : ℝ) else 0) P := by
  rw [ite_eq_indicator]
  exact (integrable_const _).indicator (measurableSet_lt measurable_const hY)

theorem expect_fracAbove (P : Measure Ω) [IsProbabilityMeasure P] {m : ℕ} (det : ℝ) (Y : Fin m → Ω → ℝ)
    (hY : ∀ k, Measurable (Y k)) :
    ∫ ω, fracAbove det (List.ofFn fun k => Y k ω) ∂P = (∑ k, P.real {ω | det < Y k ω}) / m := by
  simp only [fracAbove_ofFn]
  rw [integral_div, integral_finsetSum _ fun k _ => integrable_ite_lt P det (Y k) (hY k)]
  simp only [fun k => integral_ite_lt P det (Y k) (hY k)]

theorem expect_fracAbove_const (P : Measure Ω) [IsProbabilityMeasure P] {m : ℕ} (hm : m ≠ 0) (det q : ℝ) (Y : Fin m → Ω → ℝ)
    (hY : ∀ k, Measurable (Y k)) (hq : ∀ k, P.real {ω | det < Y k ω} = q) :
    ∫ ω, fracAbove det (List.ofFn fun k => Y k ω) ∂P = q := by
  rw [expect_fracAbove P det Y hY, Finset.sum_congr rfl fun k _ => hq k, Finset.sum_const, Finset.card_univ, Fintype.card_fin,
    nsmul_eq_mul]
  have : (m : ℝ) ≠ 0 := Nat.cast_ne_zero.mpr hm
  field_simp

theorem integrable_fracAbove (P : Measure Ω) [IsProbabilityMeasure P] {m : ℕ} (det : ℝ) (Y : Fin m → Ω → ℝ)
    (hY : ∀ k, Measurable (Y k)) : Integrable (fun ω => fracAbove det (List.ofFn fun k => Y k ω)) P := by
  simp only [fracAbove_ofFn]
  exact (integrable_finsetSum _ fun k _ => integrable_ite_lt P det (Y k) (hY k)).div_const _

end Fraction

/-! ## C108 -/

section Unbiased
variable {Ω X : Type} [MeasurableSpace Ω] [MeasurableSpace X]

theorem pair_exceedance {P : Measure Ω} {law : Measure X} {x : Ω → X} {z : Ω → ℝ} (hx : Measurable x) (hz : Measurable z)
    (hpair : P.map (fun ω => (x ω, z ω)) = law.prod (gaussianReal 0 1)) (m s : X → ℝ) (hm : Measurable m) (hs : Measurable s) (det : ℝ) :
    P.real {ω | det < m (x ω) + s (x ω) * z ω} = exceedanceNoise law m s det := by
  rw [exceedanceNoise, ← hpair, measureReal_def, measureReal_def, Measure.map_apply (by fun_prop)]
  · rfl
  · exact measurableSet_lt measurable_const (by fun_prop)

/-- **C108, polynomial chaos.**  The parameters drawn follow `law`, each pair (parameters, normal deviate) is independent.  Then the
expectation of the POD value computed for each defect size is the probability that the metamodel at that size plus a normal residual of
the estimated standard deviation exceeds the threshold.  (Nothing is assumed between different draws.) -/
theorem C108_chaos (P : Measure Ω) [IsProbabilityMeasure P] (law : Measure X) {m : ℕ} (hm : m ≠ 0) (sizes : List ℝ)
    (x : Fin m → Ω → X) (z : Fin (m * sizes.length) → Ω → ℝ) (hx : ∀ k, Measurable (x k)) (hz : ∀ i, Measurable (z i))
    (hpair : ∀ k i, P.map (fun ω => (x k ω, z i ω)) = law.prod (gaussianReal 0 1))
    (zero : ℝ × X) (chaos : ℝ × X → ℝ) (hc : ∀ a, Measurable fun y => chaos (a, y)) (stderr det : ℝ) (j : ℕ) (hj : j < sizes.length) :
    ∫ ω, (chaosComputePOD zero chaos (List.ofFn fun i => z i ω * stderr) det m sizes.length sizes
        (List.ofFn fun k => x k ω)).getD j 0 ∂P
      = exceedanceNoise law (fun y => chaos (sizes[j], y)) (fun _ => stderr) det := by
  have hidx : ∀ k : Fin m, m * j + k < m * sizes.length := fun k => by
    have := k.isLt
    nlinarith
  have hval : ∀ ω, (chaosComputePOD zero chaos (List.ofFn fun i => z i ω * stderr) det m sizes.length sizes
      (List.ofFn fun k => x k ω)).getD j 0
        = fracAbove det (List.ofFn fun k => chaos (sizes[j], x k ω) + stderr * z ⟨m * j + k, hidx k⟩ ω) := by
    intro ω
    have h := C36_chaos_layout zero chaos (List.ofFn fun i => z i ω * stderr) det sizes (List.ofFn fun k => x k ω) (by simp)
    rw [List.length_ofFn] at h
    rw [h, List.getD_eq_getElem _ _ (by simpa using hj), List.getElem_mapIdx, fracAbove, List.length_ofFn]
    congr 3
    apply List.ext_getElem
    · simp
    · intro k h1 h2
      have hk : k < m := by simpa using h2
      rw [List.getElem_mapIdx, List.getElem_ofFn, List.getElem_ofFn, List.getD_eq_getElem _ _ (by simpa using hidx ⟨k, hk⟩),
        List.getElem_ofFn]
      ring
  simp only [hval]
  refine expect_fracAbove_const P hm det _ (fun k ω => chaos (sizes[j], x k ω) + stderr * z ⟨m * j + k, hidx k⟩ ω) (fun k => ?_)
    fun k => ?_
  · exact ((hc _).comp (hx k)).add (measurable_const.mul (hz _))
  · exact pair_exceedance (hx k) (hz _) (hpair k _) (fun y => chaos (sizes[j], y)) (fun _ => stderr) (hc _) measurable_const det

/-- **C108, kriging.**  The inputs drawn for a defect size follow `law`, each is independent of the normal deviate of each trajectory.
Then the expectation of the POD value (the mean of the law of the estimator from which the values of the size are drawn) is the
probability that the conditioned process at a random input exceeds the threshold. -/
theorem C108_kriging (P : Measure Ω) [IsProbabilityMeasure P] (law : Measure X) {m n : ℕ} (hm : m ≠ 0) (hn : n ≠ 0)
    (x : Fin m → Ω → X) (xi : ℕ → Ω → ℝ) (hx : ∀ k, Measurable (x k)) (hxi : ∀ i, Measurable (xi i))
    (hpair : ∀ k i, P.map (fun ω => (x k ω, xi i ω)) = law.prod (gaussianReal 0 1))
    (mean variance : X → ℝ) (hmean : Measurable mean) (hvar : Measurable variance) (det : ℝ) :
    ∫ ω, (∫ p, p ∂(mixtureLaw fun t : Fin n => podLaw det
        (List.ofFn (randomVector (fun i => xi i ω) (fun k => mean (x k ω)) (fun k => variance (x k ω)) t)))) ∂P
      = exceedanceNoise law mean (fun y => Real.sqrt (variance y)) det := by
  have hne : ∀ (f : Fin m → ℝ), List.ofFn f ≠ [] := by
    intro f h
    have := congrArg List.length h
    rw [List.length_ofFn] at this
    exact hm this
  have hval : ∀ ω, (∫ p, p ∂(mixtureLaw fun t : Fin n => podLaw det
      (List.ofFn (randomVector (fun i => xi i ω) (fun k => mean (x k ω)) (fun k => variance (x k ω)) t))))
      = (∑ t : Fin n, fracAbove det
        (List.ofFn (randomVector (fun i => xi i ω) (fun k => mean (x k ω)) (fun k => variance (x k ω)) t))) / n := fun ω =>
    (C37_mixture_mean_partial det hn _ fun t => hne _).2.1
  simp only [hval]
  have hY : ∀ (t : Fin n) (k : Fin m),
      Measurable fun ω => randomVector (fun i => xi i ω) (fun k => mean (x k ω)) (fun k => variance (x k ω)) t k := by
    intro t k
    unfold randomVector
    have := hx k
    have := hxi t
    fun_prop
  have hone : ∀ t : Fin n, ∫ ω, fracAbove det (List.ofFn fun k => randomVector (fun i => xi i ω) (fun k => mean (x k ω))
      (fun k => variance (x k ω)) t k) ∂P = exceedanceNoise law mean (fun y => Real.sqrt (variance y)) det := by
    intro t
    refine expect_fracAbove_const P hm det _ (fun k ω => randomVector (fun i => xi i ω) (fun k => mean (x k ω))
      (fun k => variance (x k ω)) t k) (hY t) fun k => ?_
    rw [← pair_exceedance (hx k) (hxi t) (hpair k t) mean (fun y => Real.sqrt (variance y)) hmean hvar.sqrt det]
    congr 1
    ext ω
    simp only [Set.mem_ofPred_eq, randomVector]
    rw [add_comm, mul_comm]
  rw [integral_div, integral_finsetSum _ fun t _ => integrable_fracAbove P det _ (hY t), Finset.sum_congr rfl fun t _ => hone t,
    Finset.sum_const, Finset.card_univ, Fintype.card_fin, nsmul_eq_mul]
  have : (n : ℝ) ≠ 0 := Nat.cast_ne_zero.mpr hn
  field_simp

/-- **C108, hit-miss.**  The expectation of the mean of each column is the average over the parameters of the probability given by the
classifier at that defect size. -/
theorem C108_hitmiss (P : Measure Ω) [IsProbabilityMeasure P] (law : Measure X) {m : ℕ} (hm : m ≠ 0) (sizes : List ℝ)
    (x : Fin m → Ω → X) (hx : ∀ k, Measurable (x k)) (hlaw : ∀ k, P.map (x k) = law)
    (zero : ℝ × X) (classifier : ℝ × X → ℝ) (hc : ∀ a, Measurable fun y => classifier (a, y))
    (hci : ∀ a, Integrable (fun y => classifier (a, y)) law) (j : ℕ) (hj : j < sizes.length) :
    ∫ ω, listMean ((hitMissComputePOD zero classifier m sizes.length sizes (List.ofFn fun k => x k ω)).getD j []) ∂P
      = ∫ y, classifier (sizes[j], y) ∂law := by
  have hval : ∀ ω, listMean ((hitMissComputePOD zero classifier m sizes.length sizes (List.ofFn fun k => x k ω)).getD j [])
      = (∑ k, classifier (sizes[j], x k ω)) / m := by
    intro ω
    have h := C36_hitmiss_layout zero classifier sizes (List.ofFn fun k => x k ω)
    rw [List.length_ofFn] at h
    rw [h, List.getD_eq_getElem _ _ (by simpa using hj), List.getElem_map, listMean, List.map_ofFn, List.length_ofFn, List.sum_ofFn]
    rfl
  simp only [hval]
  have hik : ∀ k, Integrable (fun ω => classifier (sizes[j], x k ω)) P := by
    intro k
    have := hci sizes[j]
    rw [← hlaw k] at this
    exact this.comp_measurable (hx k)
  have hk : ∀ k, ∫ ω, classifier (sizes[j], x k ω) ∂P = ∫ y, classifier (sizes[j], y) ∂law := by
    intro k
    rw [← hlaw k, integral_map (hx k).aemeasurable (hc _).aestronglyMeasurable]
  rw [integral_div, integral_finsetSum _ fun k _ => hik k, Finset.sum_congr rfl fun k _ => hk k, Finset.sum_const, Finset.card_univ,
    Fintype.card_fin, nsmul_eq_mul]
  have : (m : ℝ) ≠ 0 := Nat.cast_ne_zero.mpr hm
  field_simp

/-- The random draws exist: independent draws of the parameters and of the deviates on a product space. -/
theorem draws_exist (law : Measure X) [IsProbabilityMeasure law] (m N : ℕ) (k : Fin m) (i : Fin N) :
    ((Measure.pi fun _ : Fin m => law).prod (Measure.pi fun _ : Fin N => gaussianReal 0 1)).map (fun ω => (ω.1 k, ω.2 i))
      = law.prod (gaussianReal 0 1) := by
  have h := Measure.map_prod_map (Measure.pi fun _ : Fin m => law) (Measure.pi fun _ : Fin N => gaussianReal 0 1)
    (f := Function.eval k) (g := Function.eval i) (measurable_pi_apply k) (measurable_pi_apply i)
  rw [(measurePreserving_eval (fun _ : Fin m => law) k).map_eq,
    (measurePreserving_eval (fun _ : Fin N => gaussianReal 0 1) i).map_eq] at h
  exact h.symm

/-- Three draws, defect sizes 1 and 2, metamodel "defect times parameter", second value. -/
example (Q : Measure ((Fin 3 → ℝ) × (Fin (3 * [(1 : ℝ), 2].length) → ℝ)))
    (hQ : Q = (Measure.pi fun _ : Fin 3 => gaussianReal 0 1).prod (Measure.pi fun _ => gaussianReal 0 1)) :
    ∫ ω, (chaosComputePOD (0, 0) (fun p : ℝ × ℝ => p.1 * p.2) (List.ofFn fun i => ω.2 i * 3) 5 3 [(1 : ℝ), 2].length [1, 2]
        (List.ofFn fun k => ω.1 k)).getD 1 0 ∂Q
      = exceedanceNoise (gaussianReal 0 1) (fun y => [(1 : ℝ), 2][1] * y) (fun _ => 3) 5 := by
  have hprob : IsProbabilityMeasure Q := by rw [hQ]; infer_instance
  exact C108_chaos Q (gaussianReal 0 1) (by norm_num) [1, 2] (fun k ω => ω.1 k) (fun i ω => ω.2 i)
    (fun k => (measurable_pi_apply k).comp measurable_fst) (fun i => (measurable_pi_apply i).comp measurable_snd)
    (fun k i => by rw [hQ]; exact draws_exist _ 3 _ k i) (0, 0) (fun p => p.1 * p.2) (fun a => measurable_const.mul measurable_id) 3 5 1
    (by norm_num)

end Unbiased

/-! ## C109 -/

section Spread
variable {Ω : Type} [MeasurableSpace Ω]

theorem variance_fracAbove (P : Measure Ω) [IsProbabilityMeasure P] {n : ℕ} (det : ℝ) (Y : Fin n → Ω → ℝ) (hY : ∀ k, Measurable (Y k)) :
    Var[fun ω => fracAbove det (List.ofFn fun k => Y k ω); P]
      = (∑ i, ∑ j, (P.real ({ω | det < Y i ω} ∩ {ω | det < Y j ω}) - P.real {ω | det < Y i ω} * P.real {ω | det < Y j ω}))
        / (n : ℝ) ^ 2 := by
  have hset : ∀ i, MeasurableSet {ω | det < Y i ω} := fun i => measurableSet_lt measurable_const (hY i)
  have hmeas : Measurable fun ω => fracAbove det (List.ofFn fun k => Y k ω) := by
    simp only [fracAbove_ofFn]
    refine (Finset.measurable_sum _ fun k _ => ?_).div_const _
    rw [ite_eq_indicator]
    exact measurable_const.indicator (hset k)
  have hb : MemLp (fun ω => fracAbove det (List.ofFn fun k => Y k ω)) 2 P := by
    refine MemLp.of_bound hmeas.aestronglyMeasurable 1 (Filter.Eventually.of_forall fun ω => ?_)
    obtain ⟨h0, h1⟩ := fracAbove_mem det (List.ofFn fun k => Y k ω)
    rw [Real.norm_eq_abs, abs_of_nonneg h0]
    exact h1
  rw [variance_eq_sub hb, expect_fracAbove P det Y hY]
  have hsq : ∫ ω, ((fun ω => fracAbove det (List.ofFn fun k => Y k ω)) ^ 2) ω ∂P
      = (∑ i, ∑ j, P.real ({ω | det < Y i ω} ∩ {ω | det < Y j ω})) / (n : ℝ) ^ 2 := by
    have hpt : ∀ ω, ((fun ω => fracAbove det (List.ofFn fun k => Y k ω)) ^ 2) ω
        = (∑ i, ∑ j, ({ω | det < Y i ω} ∩ {ω | det < Y j ω}).indicator (fun _ => (1 : ℝ)) ω) / (n : ℝ) ^ 2 := by
      intro ω
      rw [Pi.pow_apply, fracAbove_ofFn, div_pow, sq, Finset.sum_mul_sum]
      congr 1
      refine Finset.sum_congr rfl fun i _ => Finset.sum_congr rfl fun j _ => ?_
      by_cases h1 : det < Y i ω <;> by_cases h2 : det < Y j ω <;> simp [h1, h2]
    simp only [hpt]
    rw [integral_div, integral_finsetSum]
    · congr 1
      refine Finset.sum_congr rfl fun i _ => ?_
      rw [integral_finsetSum]
      · refine Finset.sum_congr rfl fun j _ => ?_
        rw [integral_indicator_const _ ((hset i).inter (hset j)), smul_eq_mul, mul_one]
      · exact fun j _ => (integrable_const _).indicator ((hset i).inter (hset j))
    · exact fun i _ => integrable_finsetSum _ fun j _ => (integrable_const _).indicator ((hset i).inter (hset j))
  rw [hsq, div_pow, sq (∑ k, P.real {ω | det < Y k ω}), Finset.sum_mul_sum, ← sub_div]
  congr 1
  rw [← Finset.sum_sub_distrib]
  exact Finset.sum_congr rfl fun i _ => (Finset.sum_sub_distrib _ _).symm

theorem randomVector_upper {n : ℕ} (mean variance : Fin n → ℝ) (det : ℝ) (i : Fin n) :
    IsUpperSet {z : ℝ | det < randomVector (fun _ => z) mean variance 0 i} := by
  intro a b hab ha
  simp only [Set.mem_ofPred_eq, randomVector] at ha ⊢
  have := mul_le_mul_of_nonneg_right hab (Real.sqrt_nonneg (variance i))
  linarith

theorem measurable_randomVector {n : ℕ} (mean variance : Fin n → ℝ) (i : Fin n) :
    Measurable fun z : ℝ => randomVector (fun _ => z) mean variance 0 i := by
  unfold randomVector
  fun_prop

theorem randomVector_prob {n : ℕ} (P : Measure Ω) (mean variance : Fin n → ℝ) (hv : ∀ i, 0 ≤ variance i) (Y : Fin n → Ω → ℝ)
    (hY : ∀ k, Measurable (Y k)) (hlaw : ∀ i, P.map (Y i) = gaussianReal (mean i) (Real.toNNReal (variance i))) (det : ℝ) (i : Fin n) :
    (gaussianReal 0 1).real {z : ℝ | det < randomVector (fun _ => z) mean variance 0 i} = P.real {ω | det < Y i ω} := by
  have h1 := (C84_trajectory_partial mean variance hv i i).1
  rw [← hlaw i] at h1
  have hs : MeasurableSet (Set.Ioi det) := measurableSet_Ioi
  have h2 := congrArg (fun μ : Measure ℝ => μ (Set.Ioi det)) h1
  rw [Measure.map_apply (measurable_randomVector mean variance i) hs, Measure.map_apply (hY i) hs] at h2
  rw [measureReal_def, measureReal_def]
  exact congrArg ENNReal.toReal h2

/-- **C109.**  Whatever the joint law of the conditioned process at the simulated points (any random vector with the conditional means
and variances as Gaussian marginals, in particular the exact posterior), the POD of a trajectory simulated by the code has the same
expectation and at least the same variance. -/
theorem C109_conservative {n : ℕ} (P : Measure Ω) [IsProbabilityMeasure P] (mean variance : Fin n → ℝ) (hv : ∀ i, 0 ≤ variance i)
    (Y : Fin n → Ω → ℝ) (hY : ∀ k, Measurable (Y k))
    (hlaw : ∀ i, P.map (Y i) = gaussianReal (mean i) (Real.toNNReal (variance i))) (det : ℝ) :
    ∫ z, fracAbove det (List.ofFn (randomVector (fun _ => z) mean variance 0)) ∂(gaussianReal 0 1)
      = ∫ ω, fracAbove det (List.ofFn fun k => Y k ω) ∂P ∧
    Var[fun ω => fracAbove det (List.ofFn fun k => Y k ω); P]
      ≤ Var[fun z => fracAbove det (List.ofFn (randomVector (fun _ => z) mean variance 0)); gaussianReal 0 1] := by
  have hp := randomVector_prob P mean variance hv Y hY hlaw det
  constructor
  · rw [expect_fracAbove P det Y hY,
      expect_fracAbove (gaussianReal 0 1) det (fun i z => randomVector (fun _ => z) mean variance 0 i) (measurable_randomVector mean variance)]
    rw [Finset.sum_congr rfl fun i _ => hp i]
  · rw [variance_fracAbove P det Y hY,
      variance_fracAbove (gaussianReal 0 1) det (fun i z => randomVector (fun _ => z) mean variance 0 i)
        (measurable_randomVector mean variance)]
    refine div_le_div_of_nonneg_right ?_ (by positivity)
    refine Finset.sum_le_sum fun i _ => Finset.sum_le_sum fun j _ => ?_
    rw [hp i, hp j]
    refine sub_le_sub_right ?_ _
    rcases (randomVector_upper mean variance det i).total (randomVector_upper mean variance det j) with h | h
    · rw [Set.inter_eq_self_of_subset_left h, hp i]
      exact measureReal_mono Set.inter_subset_left
    · rw [Set.inter_eq_self_of_subset_right h, hp j]
      exact measureReal_mono Set.inter_subset_right

/-- Two independent standard normal values: mean 1/2, variance at most that of the simulated trajectories. -/
example : Var[fun ω : Fin 2 → ℝ => fracAbove 0 (List.ofFn fun k => ω k); Measure.pi fun _ : Fin 2 => gaussianReal 0 1]
    ≤ Var[fun z => fracAbove 0 (List.ofFn (randomVector (fun _ => z) (fun _ : Fin 2 => 0) (fun _ => 1) 0)); gaussianReal 0 1] := by
  refine (C109_conservative (Measure.pi fun _ : Fin 2 => gaussianReal 0 1) (fun _ => 0) (fun _ => 1) (fun _ => zero_le_one)
    (fun k ω => ω k) (fun k => measurable_pi_apply k) (fun i => ?_) 0).2
  rw [Real.toNNReal_one]
  exact (measurePreserving_eval (fun _ : Fin 2 => gaussianReal 0 1) i).map_eq

end Spread

/-! ## C110 -/

/-- **C110.**  The law from which the POD values of a defect size are drawn has the variance of the two sources of uncertainty: the
average over the trajectories of the Monte-Carlo variance p(1-p)/m plus the variance of the fractions p over the trajectories. -/
theorem C110_total_variance (det : ℝ) {n m : ℕ} (hn : n ≠ 0) (hm : m ≠ 0) (traj : Fin n → Fin m → ℝ) :
    let p : Fin n → ℝ := fun i => fracAbove det (List.ofFn (traj i))
    Var[fun x => x; mixtureLaw fun i => podLaw det (List.ofFn (traj i))]
      = (∑ i, p i * (1 - p i) / m) / n + (∑ i, (p i - (∑ k, p k) / n) ^ 2) / n := by
  intro p
  have hn' : (n : ℝ) ≠ 0 := Nat.cast_ne_zero.mpr hn
  have hne : ∀ i, List.ofFn (traj i) ≠ [] := by
    intro i h
    have := congrArg List.length h
    rw [List.length_ofFn] at this
    exact hm this
  have hlaw : ∀ i, (podLaw det (List.ofFn (traj i))).law = gaussianReal (p i) (Real.toNNReal (p i * (1 - p i) / m)) := by
    intro i
    have := (C37_estimator_law_partial det _ (hne i)).2.2.1
    rwa [List.length_ofFn] at this
  obtain ⟨hprob, hmean, -, -⟩ := C37_mixture_mean_partial det hn (fun i => List.ofFn (traj i)) hne
  have := hprob
  have hvn : ∀ i, 0 ≤ p i * (1 - p i) / m := by
    intro i
    obtain ⟨h0, h1⟩ := fracAbove_mem det (List.ofFn (traj i))
    exact div_nonneg (mul_nonneg h0 (sub_nonneg.mpr h1)) (Nat.cast_nonneg m)
  have hint2 : ∀ i, Integrable (fun x : ℝ => x ^ 2) (podLaw det (List.ofFn (traj i))).law := by
    intro i
    rw [hlaw i]
    exact (memLp_id_gaussianReal 2).integrable_sq
  have hsq : ∀ i, ∫ x, x ^ 2 ∂(podLaw det (List.ofFn (traj i))).law = p i * (1 - p i) / m + p i ^ 2 := by
    intro i
    rw [hlaw i]
    have h := variance_eq_sub (μ := gaussianReal (p i) (Real.toNNReal (p i * (1 - p i) / m))) (X := fun x => x) (memLp_id_gaussianReal 2)
    have h2 : Var[fun x => x; gaussianReal (p i) (Real.toNNReal (p i * (1 - p i) / m))] = p i * (1 - p i) / m := by
      rw [variance_fun_id_gaussianReal, Real.coe_toNNReal _ (hvn i)]
    rw [h2, integral_id_gaussianReal] at h
    simp only [Pi.pow_apply] at h
    linarith
  have hmem : MemLp (fun x : ℝ => x) 2 (mixtureLaw fun i => podLaw det (List.ofFn (traj i))) := by
    rw [memLp_two_iff_integrable_sq (by fun_prop)]
    rw [mixtureLaw]
    refine Integrable.smul_measure ?_ (ENNReal.inv_ne_top.mpr (Nat.cast_ne_zero.mpr hn))
    rw [integrable_finsetSum_measure]
    exact fun i _ => hint2 i
  rw [variance_eq_sub hmem, hmean]
  have hsecond : ∫ x, ((fun x : ℝ => x) ^ 2) x ∂(mixtureLaw fun i => podLaw det (List.ofFn (traj i)))
      = (∑ i, (p i * (1 - p i) / m + p i ^ 2)) / n := by
    simp only [Pi.pow_apply, mixtureLaw]
    rw [integral_smul_measure, integral_finsetSum_measure fun i _ => hint2 i]
    simp only [hsq, ENNReal.toReal_inv, ENNReal.toReal_natCast, smul_eq_mul]
    rw [div_eq_inv_mul]
  rw [hsecond]
  have hexp : ∑ i, (p i - (∑ k, p k) / n) ^ 2 = ∑ i, p i ^ 2 - (∑ k, p k) ^ 2 / n := by
    have : ∀ i, (p i - (∑ k, p k) / n) ^ 2 = p i ^ 2 - 2 * ((∑ k, p k) / n) * p i + ((∑ k, p k) / n) ^ 2 := fun i => by ring
    simp only [this]
    rw [Finset.sum_add_distrib, Finset.sum_sub_distrib, ← Finset.mul_sum, Finset.sum_const, Finset.card_univ, Fintype.card_fin,
      nsmul_eq_mul]
    field_simp
    ring
  rw [hexp, Finset.sum_add_distrib]
  change _ - ((∑ i, p i) / n) ^ 2 = _
  field_simp
  ring

example : Var[fun x => x; mixtureLaw fun i : Fin 1 => podLaw 1 (List.ofFn (![![0, 2]] i : Fin 2 → ℝ))] = 1 / 8 := by
  rw [C110_total_variance 1 one_ne_zero two_ne_zero]
  have : fracAbove 1 [(0 : ℝ), 2] = 1 / 2 := by norm_num [fracAbove]
  simp
  rw [this]
  norm_num

end Verif.Props
