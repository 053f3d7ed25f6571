import Verif.Props.McExpect
import Verif.Props.PliHistory
import Mathlib.Probability.StrongLaw
import Mathlib.Probability.Independence.InfinitePi
import Mathlib.Probability.Independence.Basic

/-!
# C118, C119: error of the simulated PODs, convergence of the perturbation law indices
-/

namespace Verif.Props
open Verif.Py Verif.Model MeasureTheory ProbabilityTheory Filter Topology

/-! ## C118 -/

section Bounds
variable {Ω : Type} [MeasurableSpace Ω]

theorem memLp_unit (P : Measure Ω) [IsProbabilityMeasure P] {X : Ω → ℝ} (hX : Measurable X) (h : ∀ ω, 0 ≤ X ω ∧ X ω ≤ 1) :
    MemLp X 2 P :=
  MemLp.of_bound hX.aestronglyMeasurable 1 (Eventually.of_forall fun ω => by
    rw [Real.norm_eq_abs, abs_of_nonneg (h ω).1]; exact (h ω).2)

theorem variance_unit (P : Measure Ω) [IsProbabilityMeasure P] {X : Ω → ℝ} (hX : Measurable X) (h : ∀ ω, 0 ≤ X ω ∧ X ω ≤ 1) :
    Var[X; P] ≤ 1 / 4 := by
  have := variance_le_sq_of_bounded (μ := P) (a := 0) (b := 1) (X := X) (Eventually.of_forall fun ω => ⟨(h ω).1, (h ω).2⟩) hX.aemeasurable
  norm_num at this ⊢
  exact this

theorem covariance_unit (P : Measure Ω) [IsProbabilityMeasure P] {X Y : Ω → ℝ} (hX : Measurable X) (hY : Measurable Y)
    (h : ∀ ω, 0 ≤ X ω ∧ X ω ≤ 1) (h' : ∀ ω, 0 ≤ Y ω ∧ Y ω ≤ 1) : cov[X, Y; P] ≤ 1 / 4 := by
  have h1 := variance_sub (memLp_unit P hX h) (memLp_unit P hY h')
  have h2 := variance_nonneg (X - Y) P
  have := variance_unit P hX h
  have := variance_unit P hY h'
  linarith

/-- Chebyshev's inequality with probabilities as real numbers. -/
theorem chebyshev_real (P : Measure Ω) [IsProbabilityMeasure P] {X : Ω → ℝ} (hX : Measurable X) (h : ∀ ω, 0 ≤ X ω ∧ X ω ≤ 1)
    {q v ε : ℝ} (hq : ∫ ω, X ω ∂P = q) (hv : Var[X; P] ≤ v) (hε : 0 < ε) : P.real {ω | ε ≤ |X ω - q|} ≤ v / ε ^ 2 := by
  have h1 := meas_ge_le_variance_div_sq (memLp_unit P hX h) hε
  rw [hq] at h1
  have h2 : 0 ≤ Var[X; P] / ε ^ 2 := div_nonneg (variance_nonneg _ _) (by positivity)
  rw [measureReal_def]
  exact (ENNReal.toReal_le_of_le_ofReal h2 h1).trans (div_le_div_of_nonneg_right hv (by positivity))

/-- Variance of the mean of independent values in [0,1]. -/
theorem variance_mean_unit (P : Measure Ω) [IsProbabilityMeasure P] {m : ℕ} (hm : m ≠ 0) (X : Fin m → Ω → ℝ) (hX : ∀ k, Measurable (X k))
    (h : ∀ k ω, 0 ≤ X k ω ∧ X k ω ≤ 1) (hind : ∀ k k', k ≠ k' → IndepFun (X k) (X k') P) :
    Var[fun ω => (∑ k, X k ω) / m; P] ≤ 1 / (4 * m) := by
  have hm' : (0 : ℝ) < m := by exact_mod_cast Nat.pos_of_ne_zero hm
  have e : (fun ω => (∑ k, X k ω) / m) = fun ω => (1 / (m : ℝ)) * (∑ k, X k) ω := by
    funext ω; rw [Finset.sum_apply]; ring
  rw [e, variance_const_mul, IndepFun.variance_sum (fun k _ => memLp_unit P (hX k) (h k)) fun i _ j _ hij => hind i j hij]
  have hs : ∑ k, Var[X k; P] ≤ m * (1 / 4) := by
    calc ∑ k, Var[X k; P] ≤ ∑ _k : Fin m, (1 / 4 : ℝ) := Finset.sum_le_sum fun k _ => variance_unit P (hX k) (h k)
      _ = m * (1 / 4) := by rw [Finset.sum_const, Finset.card_univ, Fintype.card_fin, nsmul_eq_mul]
  calc (1 / (m : ℝ)) ^ 2 * ∑ k, Var[X k; P] ≤ (1 / (m : ℝ)) ^ 2 * (m * (1 / 4)) := mul_le_mul_of_nonneg_left hs (by positivity)
    _ = 1 / (4 * m) := by field_simp

/-- Variance of the mean of a two-way table of values in [0,1] that are independent when both indices differ. -/
theorem variance_table_unit (P : Measure Ω) [IsProbabilityMeasure P] {n m : ℕ} (hn : n ≠ 0) (hm : m ≠ 0) (X : Fin n → Fin m → Ω → ℝ)
    (hX : ∀ t k, Measurable (X t k)) (h : ∀ t k ω, 0 ≤ X t k ω ∧ X t k ω ≤ 1)
    (hind : ∀ t t' k k', t ≠ t' → k ≠ k' → IndepFun (X t k) (X t' k') P) :
    Var[fun ω => (∑ t, (∑ k, X t k ω) / m) / n; P] ≤ (1 / n + 1 / m) / 4 := by
  have hm' : (0 : ℝ) < m := by exact_mod_cast Nat.pos_of_ne_zero hm
  have hn' : (0 : ℝ) < n := by exact_mod_cast Nat.pos_of_ne_zero hn
  have e : (fun ω => (∑ t, (∑ k, X t k ω) / m) / n) = fun ω => (1 / ((n : ℝ) * m)) * (∑ p : Fin n × Fin m, X p.1 p.2) ω := by
    funext ω
    rw [Finset.sum_apply, Fintype.sum_prod_type, ← Finset.sum_div]
    field_simp
  rw [e, variance_const_mul, variance_sum fun p : Fin n × Fin m => memLp_unit P (hX p.1 p.2) (h p.1 p.2)]
  have hb : ∑ p : Fin n × Fin m, ∑ p' : Fin n × Fin m, cov[X p.1 p.2, X p'.1 p'.2; P]
      ≤ ∑ p : Fin n × Fin m, ∑ p' : Fin n × Fin m, ((if p.1 = p'.1 then (1 / 4 : ℝ) else 0) + if p.2 = p'.2 then (1 / 4 : ℝ) else 0) := by
    refine Finset.sum_le_sum fun p _ => Finset.sum_le_sum fun p' _ => ?_
    by_cases h1 : p.1 = p'.1
    · rw [if_pos h1]
      have := covariance_unit P (hX p.1 p.2) (hX p'.1 p'.2) (h p.1 p.2) (h p'.1 p'.2)
      split_ifs <;> linarith
    · by_cases h2 : p.2 = p'.2
      · rw [if_neg h1, if_pos h2, zero_add]
        exact covariance_unit P (hX p.1 p.2) (hX p'.1 p'.2) (h p.1 p.2) (h p'.1 p'.2)
      · rw [if_neg h1, if_neg h2, (hind _ _ _ _ h1 h2).covariance_eq_zero (memLp_unit P (hX _ _) (h _ _)) (memLp_unit P (hX _ _) (h _ _)),
          add_zero]
  have hc : ∑ p : Fin n × Fin m, ∑ p' : Fin n × Fin m, ((if p.1 = p'.1 then (1 / 4 : ℝ) else 0) + if p.2 = p'.2 then (1 / 4 : ℝ) else 0)
      = (n * m ^ 2 + n ^ 2 * m) / 4 := by
    have h1 : ∀ t : Fin n, (∑ p' : Fin n × Fin m, if t = p'.1 then (1 / 4 : ℝ) else 0) = m / 4 := by
      intro t
      rw [Fintype.sum_prod_type, Finset.sum_comm]
      simp
      ring
    have h2 : ∀ k : Fin m, (∑ p' : Fin n × Fin m, if k = p'.2 then (1 / 4 : ℝ) else 0) = n / 4 := by
      intro k
      rw [Fintype.sum_prod_type]
      simp
      ring
    simp only [Finset.sum_add_distrib, h1, h2, Finset.sum_const, Finset.card_univ, Fintype.card_prod, Fintype.card_fin, nsmul_eq_mul]
    push_cast
    ring
  rw [hc] at hb
  calc (1 / ((n : ℝ) * m)) ^ 2 * _ ≤ (1 / ((n : ℝ) * m)) ^ 2 * ((n * m ^ 2 + n ^ 2 * m) / 4) := mul_le_mul_of_nonneg_left hb (by positivity)
    _ = (1 / n + 1 / m) / 4 := by field_simp

variable {X : Type} [MeasurableSpace X]

/-- **C118, polynomial chaos.**  With independent draws, the POD value computed for a defect size is within `ε` of the POD of the metamodel
with a probability of at least `1 - 1/(4 m ε²)`, `m` being the sampling size; for every metamodel, threshold and size. -/
theorem C118_chaos (P : Measure Ω) [IsProbabilityMeasure P] (law : Measure X) {m : ℕ} (hm : m ≠ 0) (sizes : List ℝ)
    (x : Fin m → Ω → X) (z : Fin (m * sizes.length) → Ω → ℝ) (hx : ∀ k, Measurable (x k)) (hz : ∀ i, Measurable (z i))
    (hpair : ∀ k i, P.map (fun ω => (x k ω, z i ω)) = law.prod (gaussianReal 0 1))
    (hind : ∀ k k' i i', k ≠ k' → i ≠ i' → IndepFun (fun ω => (x k ω, z i ω)) (fun ω => (x k' ω, z i' ω)) P)
    (zero : ℝ × X) (chaos : ℝ × X → ℝ) (hc : ∀ a, Measurable fun y => chaos (a, y)) (stderr det : ℝ) (j : ℕ) (hj : j < sizes.length)
    (ε : ℝ) (hε : 0 < ε) :
    P.real {ω | ε ≤ |(chaosComputePOD zero chaos (List.ofFn fun i => z i ω * stderr) det m sizes.length sizes
        (List.ofFn fun k => x k ω)).getD j 0 - exceedanceNoise law (fun y => chaos (sizes[j], y)) (fun _ => stderr) det|}
      ≤ 1 / (4 * m) / ε ^ 2 := by
  have hidx : ∀ k : Fin m, m * j + k < m * sizes.length := fun k => by
    have := k.isLt
    nlinarith
  have hval : ∀ ω, (chaosComputePOD zero chaos (List.ofFn fun i => z i ω * stderr) det m sizes.length sizes
      (List.ofFn fun k => x k ω)).getD j 0
        = (∑ k : Fin m, if det < chaos (sizes[j], x k ω) + stderr * z ⟨m * j + k, hidx k⟩ ω then (1 : ℝ) else 0) / m := by
    intro ω
    rw [← fracAbove_ofFn]
    have h := C36_chaos_layout zero chaos (List.ofFn fun i => z i ω * stderr) det sizes (List.ofFn fun k => x k ω) (by simp)
    rw [List.length_ofFn] at h
    rw [h, List.getD_eq_getElem _ _ (by simpa using hj), List.getElem_mapIdx, fracAbove, List.length_ofFn]
    congr 3
    apply List.ext_getElem
    · simp
    · intro k h1 h2
      have hk : k < m := by simpa using h2
      rw [List.getElem_mapIdx, List.getElem_ofFn, List.getElem_ofFn, List.getD_eq_getElem _ _ (by simpa using hidx ⟨k, hk⟩),
        List.getElem_ofFn]
      ring
  have hexp := C108_chaos P law hm sizes x z hx hz hpair zero chaos hc stderr det j hj
  simp only [hval] at hexp ⊢
  set g : X × ℝ → ℝ := fun p => if det < chaos (sizes[j], p.1) + stderr * p.2 then 1 else 0 with hg
  have hgm : Measurable g := by
    have := hc sizes[j]
    exact Measurable.ite (measurableSet_lt measurable_const ((this.comp measurable_fst).add (measurable_const.mul measurable_snd)))
      measurable_const measurable_const
  have hI : ∀ k, Measurable fun ω => g (x k ω, z ⟨m * j + k, hidx k⟩ ω) := fun k => hgm.comp ((hx k).prodMk (hz _))
  have hg01 : ∀ p, 0 ≤ g p ∧ g p ≤ 1 := fun p => by
    simp only [hg]
    split_ifs <;> norm_num
  have hm' : (0 : ℝ) < m := by exact_mod_cast Nat.pos_of_ne_zero hm
  have hvar := variance_mean_unit P hm (fun k ω => g (x k ω, z ⟨m * j + k, hidx k⟩ ω)) hI (fun k ω => hg01 _) (by
    intro k k' hk
    have := hind k k' ⟨m * j + k, hidx k⟩ ⟨m * j + k', hidx k'⟩ hk (by
      intro h
      have := congrArg Fin.val h
      exact hk (Fin.ext (by simpa using this)))
    exact this.comp hgm hgm)
  refine chebyshev_real P ?_ ?_ hexp hvar hε
  · exact (Finset.measurable_sum _ fun k _ => hI k).div_const _
  · intro ω
    have h0 : ∀ k : Fin m, 0 ≤ g (x k ω, z ⟨m * j + k, hidx k⟩ ω) ∧ g (x k ω, z ⟨m * j + k, hidx k⟩ ω) ≤ 1 := fun k => hg01 _
    refine ⟨div_nonneg (Finset.sum_nonneg fun k _ => (h0 k).1) hm'.le, ?_⟩
    rw [div_le_one hm']
    calc ∑ k : Fin m, g (x k ω, z ⟨m * j + k, hidx k⟩ ω) ≤ ∑ _k : Fin m, (1 : ℝ) := Finset.sum_le_sum fun k _ => (h0 k).2
      _ = m := by simp

/-- **C118, hit-miss.**  The same bound for the mean of a column of classifier probabilities. -/
theorem C118_hitmiss (P : Measure Ω) [IsProbabilityMeasure P] (law : Measure X) [IsProbabilityMeasure law] {m : ℕ} (hm : m ≠ 0)
    (sizes : List ℝ) (x : Fin m → Ω → X) (hx : ∀ k, Measurable (x k)) (hlaw : ∀ k, P.map (x k) = law)
    (hind : ∀ k k', k ≠ k' → IndepFun (x k) (x k') P)
    (zero : ℝ × X) (classifier : ℝ × X → ℝ) (hc : ∀ a, Measurable fun y => classifier (a, y))
    (hc01 : ∀ p, 0 ≤ classifier p ∧ classifier p ≤ 1) (j : ℕ) (hj : j < sizes.length) (ε : ℝ) (hε : 0 < ε) :
    P.real {ω | ε ≤ |listMean ((hitMissComputePOD zero classifier m sizes.length sizes (List.ofFn fun k => x k ω)).getD j [])
        - ∫ y, classifier (sizes[j], y) ∂law|} ≤ 1 / (4 * m) / ε ^ 2 := by
  have hval : ∀ ω, listMean ((hitMissComputePOD zero classifier m sizes.length sizes (List.ofFn fun k => x k ω)).getD j [])
      = (∑ k, classifier (sizes[j], x k ω)) / m := by
    intro ω
    have h := C36_hitmiss_layout zero classifier sizes (List.ofFn fun k => x k ω)
    rw [List.length_ofFn] at h
    rw [h, List.getD_eq_getElem _ _ (by simpa using hj), List.getElem_map, listMean, List.map_ofFn, List.length_ofFn, List.sum_ofFn]
    rfl
  have hexp := C108_hitmiss P law hm sizes x hx hlaw zero classifier hc (fun a =>
    (memLp_unit law (hc a) fun y => hc01 (a, y)).integrable (by norm_num)) j hj
  simp only [hval] at hexp ⊢
  have hI : ∀ k, Measurable fun ω => classifier (sizes[j], x k ω) := fun k => (hc _).comp (hx k)
  have hm' : (0 : ℝ) < m := by exact_mod_cast Nat.pos_of_ne_zero hm
  have hvar := variance_mean_unit P hm (fun k ω => classifier (sizes[j], x k ω)) hI (fun k ω => hc01 _) fun k k' hk =>
    (hind k k' hk).comp (hc sizes[j]) (hc sizes[j])
  refine chebyshev_real P ?_ ?_ hexp hvar hε
  · exact (Finset.measurable_sum _ fun k _ => hI k).div_const _
  · intro ω
    refine ⟨div_nonneg (Finset.sum_nonneg fun k _ => (hc01 _).1) hm'.le, ?_⟩
    rw [div_le_one hm']
    calc ∑ k : Fin m, classifier (sizes[j], x k ω) ≤ ∑ _k : Fin m, (1 : ℝ) := Finset.sum_le_sum fun k _ => (hc01 _).2
      _ = m := by simp

/-- **C118, kriging.**  All trajectories use the same inputs and each trajectory uses one deviate for all inputs.  The mean POD of a defect
size is within `ε` of the POD of the metamodel with a probability of at least `1 - (1/n + 1/m)/(4 ε²)`, `n` being the number of
trajectories (simulation size) and `m` the number of inputs (sampling size). -/
theorem C118_kriging (P : Measure Ω) [IsProbabilityMeasure P] (law : Measure X) {m n : ℕ} (hm : m ≠ 0) (hn : n ≠ 0)
    (x : Fin m → Ω → X) (xi : ℕ → Ω → ℝ) (hx : ∀ k, Measurable (x k)) (hxi : ∀ i, Measurable (xi i))
    (hpair : ∀ k i, P.map (fun ω => (x k ω, xi i ω)) = law.prod (gaussianReal 0 1))
    (hind : ∀ k k' i i', k ≠ k' → i ≠ i' → IndepFun (fun ω => (x k ω, xi i ω)) (fun ω => (x k' ω, xi i' ω)) P)
    (mean variance : X → ℝ) (hmean : Measurable mean) (hvar : Measurable variance) (det : ℝ) (ε : ℝ) (hε : 0 < ε) :
    P.real {ω | ε ≤ |(∫ p, p ∂(mixtureLaw fun t : Fin n => podLaw det
        (List.ofFn (randomVector (fun i => xi i ω) (fun k => mean (x k ω)) (fun k => variance (x k ω)) t))))
        - exceedanceNoise law mean (fun y => Real.sqrt (variance y)) det|} ≤ (1 / n + 1 / m) / 4 / ε ^ 2 := by
  have hne : ∀ (f : Fin m → ℝ), List.ofFn f ≠ [] := by
    intro f h
    have := congrArg List.length h
    rw [List.length_ofFn] at this
    exact hm this
  have hval : ∀ ω, (∫ p, p ∂(mixtureLaw fun t : Fin n => podLaw det
      (List.ofFn (randomVector (fun i => xi i ω) (fun k => mean (x k ω)) (fun k => variance (x k ω)) t))))
      = (∑ t : Fin n, (∑ k : Fin m, if det < randomVector (fun i => xi i ω) (fun k => mean (x k ω)) (fun k => variance (x k ω)) t k
          then (1 : ℝ) else 0) / m) / n := fun ω => by
    rw [(C37_mixture_mean_partial det hn _ fun t => hne _).2.1]
    simp only [fracAbove_ofFn]
  have hexp := C108_kriging P law hm hn x xi hx hxi hpair mean variance hmean hvar det
  simp only [hval] at hexp ⊢
  set g : X × ℝ → ℝ := fun p => if det < p.2 * Real.sqrt (variance p.1) + mean p.1 then 1 else 0 with hg
  have hgm : Measurable g := by
    refine Measurable.ite (measurableSet_lt measurable_const ?_) measurable_const measurable_const
    exact (measurable_snd.mul (hvar.comp measurable_fst).sqrt).add (hmean.comp measurable_fst)
  have hrv : ∀ ω (t : Fin n) (k : Fin m), (if det < randomVector (fun i => xi i ω) (fun k => mean (x k ω)) (fun k => variance (x k ω)) t k
      then (1 : ℝ) else 0) = g (x k ω, xi t ω) := fun ω t k => rfl
  simp only [hrv] at hexp ⊢
  have hI : ∀ (t : Fin n) (k : Fin m), Measurable fun ω => g (x k ω, xi t ω) := fun t k => hgm.comp ((hx k).prodMk (hxi _))
  have hg01 : ∀ p, 0 ≤ g p ∧ g p ≤ 1 := fun p => by
    simp only [hg]
    split_ifs <;> norm_num
  have hm' : (0 : ℝ) < m := by exact_mod_cast Nat.pos_of_ne_zero hm
  have hn' : (0 : ℝ) < n := by exact_mod_cast Nat.pos_of_ne_zero hn
  have hv := variance_table_unit P hn hm (fun t k ω => g (x k ω, xi t ω)) hI (fun t k ω => hg01 _) fun t t' k k' ht hk =>
    (hind k k' t t' hk fun h => ht (Fin.ext h)).comp hgm hgm
  refine chebyshev_real P ?_ ?_ hexp hv hε
  · exact (Finset.measurable_sum _ fun t _ => (Finset.measurable_sum _ fun k _ => hI t k).div_const _).div_const _
  · intro ω
    have h1 : ∀ t : Fin n, 0 ≤ (∑ k, g (x k ω, xi t ω)) / m ∧ (∑ k, g (x k ω, xi t ω)) / m ≤ 1 := by
      intro t
      refine ⟨div_nonneg (Finset.sum_nonneg fun k _ => (hg01 _).1) hm'.le, ?_⟩
      rw [div_le_one hm']
      calc ∑ k : Fin m, g (x k ω, xi t ω) ≤ ∑ _k : Fin m, (1 : ℝ) := Finset.sum_le_sum fun k _ => (hg01 _).2
        _ = m := by simp
    refine ⟨div_nonneg (Finset.sum_nonneg fun t _ => (h1 t).1) hn'.le, ?_⟩
    rw [div_le_one hn']
    calc ∑ t : Fin n, (∑ k, g (x k ω, xi t ω)) / m ≤ ∑ _t : Fin n, (1 : ℝ) := Finset.sum_le_sum fun t _ => (h1 t).2
      _ = n := by simp

end Bounds

/-- Independent real parameters and deviates exist: the sample space of C118. -/
theorem independent_draws_exist (law : Measure ℝ) [IsProbabilityMeasure law] (m N : ℕ) :
    ∃ (P : Measure (Fin m ⊕ Fin N → ℝ)) (_ : IsProbabilityMeasure P),
      (∀ k i, P.map (fun ω => (ω (.inl k), ω (.inr i))) = law.prod (gaussianReal 0 1)) ∧
      ∀ k k' i i', k ≠ k' → i ≠ i' → IndepFun (fun ω => (ω (.inl k), ω (.inr i))) (fun ω => (ω (.inl k'), ω (.inr i'))) P := by
  let μ : Fin m ⊕ Fin N → Measure ℝ := Sum.elim (fun _ => law) fun _ => gaussianReal 0 1
  have hμ : ∀ i, IsProbabilityMeasure (μ i) := by
    rintro (i | i)
    · exact inferInstanceAs (IsProbabilityMeasure law)
    · exact inferInstanceAs (IsProbabilityMeasure (gaussianReal 0 1))
  have hind : iIndepFun (fun i (ω : Fin m ⊕ Fin N → ℝ) => ω i) (Measure.pi μ) :=
    iIndepFun_pi (X := fun _ x => x) fun _ => aemeasurable_id
  refine ⟨Measure.pi μ, inferInstance, fun k i => ?_, fun k k' i i' hk hi => ?_⟩
  · have h := (hind.indepFun (show (Sum.inl k : Fin m ⊕ Fin N) ≠ .inr i by simp)).map_prod_eq_prod_map_map
      (measurable_pi_apply _).aemeasurable (measurable_pi_apply _).aemeasurable
    rw [h]
    have h1 := (measurePreserving_eval μ (.inl k)).map_eq
    have h2 := (measurePreserving_eval μ (.inr i)).map_eq
    exact congrArg₂ Measure.prod h1 h2
  · exact hind.indepFun_prodMk_prodMk (fun i => measurable_pi_apply i) _ _ _ _ (by simpa using hk) (by simp) (by simp) (by simpa using hi)

/-- Non-vacuity: 100 draws, two sizes, metamodel "defect times parameter". -/
example : ∃ (P : Measure (Fin 100 ⊕ Fin (100 * [(1 : ℝ), 2].length) → ℝ)) (_ : IsProbabilityMeasure P),
    P.real {ω | (1 / 2 : ℝ) ≤ |(chaosComputePOD (0, 0) (fun p : ℝ × ℝ => p.1 * p.2) (List.ofFn fun i => ω (.inr i) * 3) 5 100 [(1 : ℝ), 2].length [1, 2]
        (List.ofFn fun k => ω (.inl k))).getD 1 0 - exceedanceNoise (gaussianReal 0 1) (fun y => [(1 : ℝ), 2][1] * y) (fun _ => 3) 5|}
      ≤ 1 / 100 := by
  obtain ⟨P, hP, h1, h2⟩ := independent_draws_exist (gaussianReal 0 1) 100 (100 * [(1 : ℝ), 2].length)
  refine ⟨P, hP, ?_⟩
  have := C118_chaos P (gaussianReal 0 1) (m := 100) (by norm_num) [1, 2] (fun k ω => ω (.inl k)) (fun i ω => ω (.inr i))
    (fun k => measurable_pi_apply _) (fun i => measurable_pi_apply _) h1 h2 (0, 0) (fun p => p.1 * p.2)
    (fun a => measurable_const.mul measurable_id) 3 5 1 (by norm_num) (1 / 2) (by norm_num)
  refine this.trans (le_of_eq ?_)
  norm_num

/-! ## C119 -/

/-- The value of an index (outside the finite values: 0). -/
noncomputable def finValue : F ℝ → ℝ
  | .fin s => s
  | _ => 0

theorem pliIndex_tendsto {a b : ℕ → ℝ} {p q : ℝ} (ha : Tendsto a atTop (𝓝 p)) (hb : Tendsto b atTop (𝓝 q)) (hp : 0 < p) (hq : 0 < q) :
    (∀ᶠ N in atTop, ∃ s, pliIndex (a N) (b N) = .fin s) ∧
      Tendsto (fun N => finValue (pliIndex (a N) (b N))) atTop (𝓝 (finValue (pliIndex p q))) := by
  have ha0 : ∀ᶠ N in atTop, 0 < a N := ha.eventually (lt_mem_nhds hp)
  have hb0 : ∀ᶠ N in atTop, 0 < b N := hb.eventually (lt_mem_nhds hq)
  -- the two formulas agree on the diagonal: index = (b - a) / min a b
  have key : ∀ u v : ℝ, 0 < u → 0 < v → pliIndex u v = .fin ((v - u) / min u v) := by
    intro u v hu hv
    rcases lt_or_ge v u with h | h
    · rw [pliIndex_below hv h, min_eq_right h.le, sub_div, div_self hv.ne']
    · rw [pliIndex_above hu h, min_eq_left h, sub_div, div_self hu.ne']
  constructor
  · filter_upwards [ha0, hb0] with N h1 h2
    exact ⟨_, key _ _ h1 h2⟩
  · have h1 : Tendsto (fun N => (b N - a N) / min (a N) (b N)) atTop (𝓝 ((q - p) / min p q)) :=
      (hb.sub ha).div (ha.min hb) (lt_min hp hq).ne'
    rw [key p q hp hq]
    refine h1.congr' ?_
    filter_upwards [ha0, hb0] with N h1 h2
    rw [key _ _ h1 h2]
    rfl

theorem failureSample_length {d N : ℕ} (g : (Fin d → ℝ) → ℝ) (thr : ℝ) (ω : Fin N → Fin d → ℝ) (fs : List (Fin d → ℝ))
    (hfs : failureSample .greater thr (List.ofFn fun i => (ω i, g (ω i))) = .ok fs) :
    (fs.length : ℝ) = ∑ i, Set.indicator {x | thr < g x} (fun _ => (1 : ℝ)) (ω i) := by
  rw [failureSample, Except.ok.injEq] at hfs
  subst hfs
  rw [List.length_map]
  have key : ∀ l : List ((Fin d → ℝ) × ℝ), (∀ p ∈ l, p.2 = g p.1) →
      (((l.filter fun p => decide (p.2 > thr)).length : ℕ) : ℝ)
        = (l.map fun p => Set.indicator {x | thr < g x} (fun _ => (1 : ℝ)) p.1).sum := by
    intro l hl
    induction l with
    | nil => simp
    | cons p t ih =>
      have ih := ih fun q hq => hl q (List.mem_cons_of_mem _ hq)
      have hp := hl p (by simp)
      by_cases h : p.2 > thr
      · rw [List.filter_cons_of_pos (by simpa using h), List.length_cons, Nat.cast_succ, ih, List.map_cons, List.sum_cons,
          Set.indicator_of_mem (by rw [hp] at h; exact h), add_comm]
      · rw [List.filter_cons_of_neg (by simpa using h), ih, List.map_cons, List.sum_cons,
          Set.indicator_of_notMem (by rw [hp] at h; exact h), zero_add]
  rw [key _ (by
    intro p hp
    rw [List.mem_ofFn] at hp
    obtain ⟨i, rfl⟩ := hp
    rfl), List.map_ofFn, List.sum_ofFn]
  rfl

/-- **C119.**  For independent draws of the original law the estimated probability, the perturbed probability and the index computed from
the first `N` draws converge almost surely to the probability of the event, its probability under the perturbed law, and the index of the
exact probabilities (when both are positive). -/
theorem C119_convergence {Ω : Type} [MeasurableSpace Ω] (Q : Measure Ω) [IsProbabilityMeasure Q] {d : ℕ} (pdf : Fin d → ℝ → ℝ)
    (hpdf : ∀ i, IsDensity (pdf i)) (k : Fin d) (pert : ℝ → ℝ) (hpert : IsDensity pert) (hsupp : ∀ x, pdf k x = 0 → pert x = 0)
    (g : (Fin d → ℝ) → ℝ) (hg : Measurable g) (thr : ℝ) (x : ℕ → Ω → Fin d → ℝ) (hx : ∀ i, Measurable (x i))
    (hlaw : ∀ i, Q.map (x i) = densityLaw (jointPDF pdf)) (hind : Pairwise fun i j => IndepFun (x i) (x j) Q)
    (fs : ℕ → Ω → List (Fin d → ℝ))
    (hfs : ∀ N ω, failureSample .greater thr (List.ofFn fun i : Fin N => (x i ω, g (x i ω))) = .ok (fs N ω))
    (p q : ℝ) (hp : p = (densityLaw (jointPDF pdf)).real {x | thr < g x})
    (hq : q = (densityLaw (jointPDF (Function.update pdf k pert))).real {x | thr < g x}) :
    ∀ᵐ ω ∂Q, Tendsto (fun N => ((fs N ω).length : ℝ) / N) atTop (𝓝 p) ∧
      Tendsto (fun N => pfDelta N (pliWeights pdf k pert (fs N ω))) atTop (𝓝 q) ∧
      (0 < p → 0 < q → (∀ᶠ N in atTop, ∃ s, pliIndex ((fs N ω).length / N) (pfDelta N (pliWeights pdf k pert (fs N ω))) = .fin s) ∧
        Tendsto (fun N => finValue (pliIndex ((fs N ω).length / N) (pfDelta N (pliWeights pdf k pert (fs N ω))))) atTop
          (𝓝 (finValue (pliIndex p q)))) := by
  have := densityLaw_isProbability hpdf
  set P := densityLaw (jointPDF pdf) with hP
  set E : Set (Fin d → ℝ) := {x | thr < g x} with hE
  have hEm : MeasurableSet E := measurableSet_lt measurable_const hg
  have hupd : ∀ i, IsDensity (Function.update pdf k pert i) := by
    intro i
    by_cases h : i = k
    · subst h; rw [Function.update_self]; exact hpert
    · rw [Function.update_of_ne h]; exact hpdf i
  obtain ⟨j1, j2, j3, j4⟩ := jointPDF_density hpdf
  obtain ⟨q1, q2, q3, q4⟩ := jointPDF_density hupd
  have hmeasd : Measurable fun x => ENNReal.ofReal (jointPDF pdf x) := j1.ennreal_ofReal
  have hterm : Measurable (pliTerm pdf k pert E) := by
    unfold pliTerm
    exact (Measurable.div q1 j1).indicator hEm
  have hprod : ∀ x, (ENNReal.ofReal (jointPDF pdf x)).toReal • pliTerm pdf k pert E x
      = E.indicator (jointPDF (Function.update pdf k pert)) x := by
    intro x
    rw [ENNReal.toReal_ofReal (j2 x), smul_eq_mul, term_mul_joint pdf k pert hsupp, perturbedPDF_eq]
  have hint : Integrable (pliTerm pdf k pert E) P := by
    rw [hP, densityLaw, integrable_withDensity_iff_integrable_smul' hmeasd (Filter.Eventually.of_forall fun _ => ENNReal.ofReal_lt_top)]
    simp only [hprod]
    exact q3.indicator hEm
  have hval : ∫ x, pliTerm pdf k pert E x ∂P = q := by
    rw [hq, hP, densityLaw, integral_withDensity_eq_integral_toReal_smul hmeasd (Filter.Eventually.of_forall fun _ => ENNReal.ofReal_lt_top)]
    simp only [hprod]
    rw [integral_indicator hEm, measureReal_def, densityLaw, withDensity_apply _ hEm,
      ← ofReal_integral_eq_lintegral_ofReal q3.integrableOn (Filter.Eventually.of_forall q2), ENNReal.toReal_ofReal]
    exact integral_nonneg q2
  have hident : ∀ i, IdentDistrib (x i) (x 0) Q Q := fun i =>
    ⟨(hx i).aemeasurable, (hx 0).aemeasurable, by rw [hlaw i, hlaw 0]⟩
  have law_of : ∀ (f : (Fin d → ℝ) → ℝ), Measurable f → Integrable f P →
      ∀ᵐ ω ∂Q, Tendsto (fun n : ℕ => (∑ i ∈ Finset.range n, f (x i ω)) / n) atTop (𝓝 (∫ y, f y ∂P)) := by
    intro f hf hfi
    have h0 : Integrable (fun ω => f (x 0 ω)) Q := by
      rw [← hlaw 0] at hfi
      exact hfi.comp_measurable (hx 0)
    have h := strong_law_ae_real (μ := Q) (fun i ω => f (x i ω)) h0 (fun i j hij => (hind hij).comp hf hf) fun i => (hident i).comp hf
    have he : ∫ ω, f (x 0 ω) ∂Q = ∫ y, f y ∂P := by
      rw [← hlaw 0, integral_map (hx 0).aemeasurable hf.aestronglyMeasurable]
    rw [he] at h
    exact h
  have hindm : Measurable (E.indicator fun _ : Fin d → ℝ => (1 : ℝ)) := measurable_const.indicator hEm
  have hpint : ∫ y, E.indicator (fun _ => (1 : ℝ)) y ∂P = p := by
    rw [integral_indicator_const _ hEm, smul_eq_mul, mul_one, hp]
  filter_upwards [law_of _ hterm hint, law_of _ hindm ((integrable_const _).indicator hEm)] with ω h1 h2
  rw [hval] at h1
  rw [hpint] at h2
  have e1 : (fun N => pfDelta N (pliWeights pdf k pert (fs N ω))) = fun n : ℕ => (∑ i ∈ Finset.range n, pliTerm pdf k pert E (x i ω)) / n := by
    funext N
    rw [pfDelta_sample pdf k pert g thr (fun i : Fin N => x i ω) (fs N ω) (hfs N ω), one_div, inv_mul_eq_div,
      Fin.sum_univ_eq_sum_range (fun i => pliTerm pdf k pert E (x i ω)) N]
  have e2 : (fun N => ((fs N ω).length : ℝ) / N) = fun n : ℕ => (∑ i ∈ Finset.range n, E.indicator (fun _ => (1 : ℝ)) (x i ω)) / n := by
    funext N
    rw [failureSample_length g thr (fun i : Fin N => x i ω) (fs N ω) (hfs N ω),
      Fin.sum_univ_eq_sum_range (fun i => E.indicator (fun _ => (1 : ℝ)) (x i ω)) N]
  have h1' : Tendsto (fun N => pfDelta N (pliWeights pdf k pert (fs N ω))) atTop (𝓝 q) := by rw [e1]; exact h1
  have h2' : Tendsto (fun N => ((fs N ω).length : ℝ) / N) atTop (𝓝 p) := by rw [e2]; exact h2
  exact ⟨h2', h1', fun hp0 hq0 => pliIndex_tendsto h2' h1' hp0 hq0⟩

/-- Non-vacuity: independent draws of two Normal marginals, the mean of the first one moved to one, event "sum larger than three". -/
example (fs : ℕ → (ℕ → Fin 2 → ℝ) → List (Fin 2 → ℝ))
    (hfs : ∀ N ω, failureSample .greater 3 (List.ofFn fun i : Fin N => (ω i, ω i 0 + ω i 1)) = .ok (fs N ω))
    (P : Measure (Fin 2 → ℝ)) (hP : P = densityLaw (jointPDF fun _ : Fin 2 => (Marg.normal 0 1).pdf)) [IsProbabilityMeasure P] :
    ∀ᵐ ω ∂(Measure.infinitePi fun _ : ℕ => P), Tendsto (fun N => ((fs N ω).length : ℝ) / N) atTop (𝓝 (P.real {x | 3 < x 0 + x 1})) := by
  have hn : ∀ μ : ℝ, IsDensity (Marg.normal μ 1).pdf := fun μ => goodMarg_density (m := .normal μ 1) (show (0 : ℝ) < 1 from one_pos)
  have h := C119_convergence (Measure.infinitePi fun _ : ℕ => P) (fun _ : Fin 2 => (Marg.normal 0 1).pdf) (fun _ => hn 0) 0
    (Marg.normal 1 1).pdf (hn 1) (fun x hx => absurd hx (by simp only [Marg.pdf]; positivity)) (fun x => x 0 + x 1) (by fun_prop) 3
    (fun i ω => ω i) (fun i => measurable_pi_apply i) (fun i => by rw [← hP]; exact (measurePreserving_eval_infinitePi (fun _ : ℕ => P) i).map_eq)
    (fun i j hij => (iIndepFun_infinitePi (P := fun _ : ℕ => P) (X := fun _ x => x) (fun _ => measurable_id)).indepFun hij)
    fs hfs _ _ rfl rfl
  filter_upwards [h] with ω hω
  rw [hP]
  exact hω.1

end Verif.Props
