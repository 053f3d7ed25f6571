import Verif.Model.Sampling
import Verif.Py.Gauss
import Mathlib.Probability.Independence.Basic
import Mathlib.MeasureTheory.Integral.Prod

/-!
# C102, C103: the laws simulated for the POD and for its sensitivity analyses
-/

namespace Verif.Props
open Verif.Py Verif.Model MeasureTheory ProbabilityTheory Set

variable {k : ℕ}

/-- The parameters other than the defect. -/
def paramOf (j : Fin k) (x : Fin (k + 1) → ℝ) : ℝ := x j.succ

theorem measurable_paramOf (j : Fin k) : Measurable (paramOf j) := measurable_pi_apply _

theorem measurable_tail : Measurable (Fin.tail : (Fin (k + 1) → ℝ) → Fin k → ℝ) :=
  measurable_pi_lambda _ fun j => measurable_pi_apply j.succ

theorem measurable_consAt (a : ℝ) : Measurable fun x : Fin k → ℝ => (Fin.cons a x : Fin (k + 1) → ℝ) := by
  refine measurable_pi_lambda _ fun i => ?_
  refine Fin.cases ?_ (fun j => ?_) i
  · simp
  · simpa using measurable_pi_apply j

theorem measurable_consPair : Measurable fun p : ℝ × (Fin k → ℝ) => (Fin.cons p.1 p.2 : Fin (k + 1) → ℝ) := by
  refine measurable_pi_lambda _ fun i => ?_
  refine Fin.cases ?_ (fun j => ?_) i
  · simpa using measurable_fst
  · simpa [Function.comp_def] using (measurable_pi_apply j).comp (measurable_snd (α := ℝ) (β := Fin k → ℝ))

theorem mergedLaw_eq (μ : Measure (Fin (k + 1) → ℝ)) (a : ℝ) :
    mergedLaw μ a = (μ.map Fin.tail).map fun x => Fin.cons a x := by
  rw [mergedLaw, Measure.map_map (measurable_consAt a) measurable_tail]
  rfl

theorem rebuiltLaw_eq (μ : Measure (Fin (k + 1) → ℝ)) [IsProbabilityMeasure μ] (a : ℝ) :
    rebuiltLaw μ a = (Measure.pi fun j : Fin k => μ.map (paramOf j)).map fun x => Fin.cons a x := by
  have : ∀ j : Fin k, IsProbabilityMeasure (μ.map (paramOf j)) := fun j =>
    Measure.isProbabilityMeasure_map (measurable_paramOf j).aemeasurable
  rw [rebuiltLaw]
  change ((Measure.dirac a).prod (Measure.pi fun j : Fin k => μ.map (paramOf j))).map _ = _
  rw [Measure.dirac_prod, Measure.map_map measurable_consPair measurable_prodMk_left]
  rfl

theorem tail_cons_map (ν : Measure (Fin k → ℝ)) (a : ℝ) :
    (ν.map fun x => (Fin.cons a x : Fin (k + 1) → ℝ)).map Fin.tail = ν := by
  rw [Measure.map_map measurable_tail (measurable_consAt a)]
  have : (Fin.tail ∘ fun x : Fin k → ℝ => (Fin.cons a x : Fin (k + 1) → ℝ)) = id := by
    funext x; simp [Function.comp]
  rw [this, Measure.map_id]

/-- **C102, polynomial chaos, hit-miss and reference POD of the adaptive kriging.**  For every distribution and defect size, the
parameters of the simulated points have the joint law given by the distribution, and the defect is the given one. -/
theorem C102_merged_partial (μ : Measure (Fin (k + 1) → ℝ)) (a : ℝ) :
    (mergedLaw μ a).map Fin.tail = μ.map Fin.tail ∧ ∀ᵐ x ∂mergedLaw μ a, x 0 = a := by
  refine ⟨by rw [mergedLaw_eq, tail_cons_map], ?_⟩
  rw [mergedLaw_eq, ae_map_iff (measurable_consAt a).aemeasurable (measurableSet_eq_fun (measurable_pi_apply 0) measurable_const)]
  exact Filter.Eventually.of_forall fun x => by simp

/-- **C102, kriging.**  Each parameter has its own law, and the defect is the given one; the joint law of the parameters is that of the
distribution exactly when the parameters are independent.  The same holds for the law of the sensitivity analyses. -/
theorem C102_rebuilt_iff_partial (μ : Measure (Fin (k + 1) → ℝ)) [IsProbabilityMeasure μ] (a : ℝ) :
    (∀ j : Fin k, (rebuiltLaw μ a).map (paramOf j) = μ.map (paramOf j)) ∧ (∀ᵐ x ∂rebuiltLaw μ a, x 0 = a) ∧
    ((rebuiltLaw μ a).map Fin.tail = μ.map Fin.tail ↔ iIndepFun (paramOf (k := k)) μ) ∧
    (sensitivityLaw μ = μ.map Fin.tail ↔ iIndepFun (paramOf (k := k)) μ) := by
  have hp : ∀ j : Fin k, IsProbabilityMeasure (μ.map (paramOf j)) := fun j =>
    Measure.isProbabilityMeasure_map (measurable_paramOf j).aemeasurable
  have hind : Measure.pi (fun j : Fin k => μ.map (paramOf j)) = μ.map Fin.tail ↔ iIndepFun (paramOf (k := k)) μ := by
    rw [iIndepFun_iff_map_fun_eq_pi_map fun j => (measurable_paramOf j).aemeasurable, eq_comm]
    rfl
  refine ⟨?_, ?_, ?_, hind⟩
  · intro j
    rw [rebuiltLaw_eq, Measure.map_map (measurable_paramOf j) (measurable_consAt a)]
    have : (paramOf j ∘ fun x : Fin k → ℝ => (Fin.cons a x : Fin (k + 1) → ℝ)) = Function.eval j := by
      funext x; simp [paramOf, Function.comp]
    rw [this]
    exact (measurePreserving_eval _ j).map_eq
  · rw [rebuiltLaw_eq, ae_map_iff (measurable_consAt a).aemeasurable
      (measurableSet_eq_fun (measurable_pi_apply 0) measurable_const)]
    exact Filter.Eventually.of_forall fun x => by simp
  · rw [rebuiltLaw_eq, tail_cons_map]
    exact hind

/-- **C102 is violated for kriging.**  For every distribution with dependent parameters there are a response and a threshold for which,
at every defect size, the probability simulated by the kriging POD is not the one under the given distribution (which is the one
simulated by the polynomial chaos, and by the reference POD of the adaptive kriging it is compared with). -/
theorem C102_violated (μ : Measure (Fin (k + 1) → ℝ)) [IsProbabilityMeasure μ] (hdep : ¬ iIndepFun (paramOf (k := k)) μ) :
    ∃ (m : (Fin (k + 1) → ℝ) → ℝ) (det : ℝ), Measurable m ∧
      ∀ a, exceedance (rebuiltLaw μ a) m det ≠ exceedance (mergedLaw μ a) m det := by
  classical
  have hp : ∀ j : Fin k, IsProbabilityMeasure (μ.map (paramOf j)) := fun j =>
    Measure.isProbabilityMeasure_map (measurable_paramOf j).aemeasurable
  have hq : IsProbabilityMeasure (μ.map Fin.tail) := Measure.isProbabilityMeasure_map measurable_tail.aemeasurable
  have hne : Measure.pi (fun j : Fin k => μ.map (paramOf j)) ≠ μ.map Fin.tail := by
    intro h
    apply hdep
    rw [iIndepFun_iff_map_fun_eq_pi_map fun j => (measurable_paramOf j).aemeasurable]
    exact h.symm
  obtain ⟨S, hS, hSne⟩ : ∃ S, MeasurableSet S ∧
      Measure.pi (fun j : Fin k => μ.map (paramOf j)) S ≠ μ.map Fin.tail S := by
    by_contra hall
    push Not at hall
    exact hne (Measure.ext hall)
  refine ⟨fun x => S.indicator 1 (Fin.tail x), 1 / 2, (measurable_one.indicator hS).comp measurable_tail, fun a => ?_⟩
  have hset : ∀ x : Fin (k + 1) → ℝ, (1 / 2 : ℝ) < S.indicator 1 (Fin.tail x) ↔ Fin.tail x ∈ S := by
    intro x
    by_cases hx : Fin.tail x ∈ S
    · simp only [indicator_of_mem hx, Pi.one_apply, hx, iff_true]; norm_num
    · simp only [indicator_of_notMem hx, hx, iff_false]; norm_num
  have hval : ∀ ν : Measure (Fin k → ℝ), exceedance (ν.map fun x => (Fin.cons a x : Fin (k + 1) → ℝ))
      (fun x => S.indicator 1 (Fin.tail x)) (1 / 2) = ν.real S := by
    intro ν
    rw [exceedance, measureReal_def, measureReal_def]
    simp only [hset]
    have : {x : Fin (k + 1) → ℝ | Fin.tail x ∈ S} = Fin.tail ⁻¹' S := rfl
    rw [this, Measure.map_apply (measurable_consAt a) (measurable_tail hS)]
    congr 2
  rw [rebuiltLaw_eq, mergedLaw_eq, hval, hval, measureReal_def, measureReal_def, Ne,
    ENNReal.toReal_eq_toReal_iff' (measure_ne_top _ _) (measure_ne_top _ _)]
  exact hSne

/-- Two parameters that are always equal, ±1 with probability 1/2 each. -/
noncomputable def comonotone : Measure (Fin (2 + 1) → ℝ) :=
  ENNReal.ofReal (1 / 2) • Measure.dirac ![0, 1, 1] + ENNReal.ofReal (1 / 2) • Measure.dirac ![0, -1, -1]

instance : IsProbabilityMeasure comonotone := by
  constructor
  simp only [comonotone, Measure.add_apply, Measure.smul_apply, measure_univ, smul_eq_mul, mul_one]
  rw [← ENNReal.ofReal_add (by norm_num) (by norm_num)]
  norm_num

theorem comonotone_dependent : ¬ iIndepFun (paramOf (k := 2)) comonotone := by
  intro h
  have h2 := h.indepFun (i := 0) (j := 1) (by decide)
  have h3 := congrArg ENNReal.toReal (IndepFun.measure_inter_preimage_eq_mul h2 (Ioi 0) (Ioi 0) measurableSet_Ioi measurableSet_Ioi)
  rw [ENNReal.toReal_mul] at h3
  simp only [← measureReal_def] at h3
  have e0 : comonotone.real (paramOf (k := 2) 0 ⁻¹' Ioi 0) = 1 / 2 := by
    rw [measureReal_def, comonotone, Measure.add_apply, Measure.smul_apply, Measure.smul_apply,
      Measure.dirac_apply' _ ((measurable_paramOf 0) measurableSet_Ioi),
      Measure.dirac_apply' _ ((measurable_paramOf 0) measurableSet_Ioi)]
    have h0 : ¬ ((1 : ℝ) < 0) := by norm_num
    simp [paramOf, indicator, if_neg h0]
  have e1 : comonotone.real (paramOf (k := 2) 1 ⁻¹' Ioi 0) = 1 / 2 := by
    rw [measureReal_def, comonotone, Measure.add_apply, Measure.smul_apply, Measure.smul_apply,
      Measure.dirac_apply' _ ((measurable_paramOf 1) measurableSet_Ioi),
      Measure.dirac_apply' _ ((measurable_paramOf 1) measurableSet_Ioi)]
    have h0 : ¬ ((1 : ℝ) < 0) := by norm_num
    simp [paramOf, indicator, if_neg h0]
  have e2 : comonotone.real (paramOf (k := 2) 0 ⁻¹' Ioi 0 ∩ paramOf (k := 2) 1 ⁻¹' Ioi 0) = 1 / 2 := by
    rw [measureReal_def, comonotone, Measure.add_apply, Measure.smul_apply, Measure.smul_apply,
      Measure.dirac_apply' _ (((measurable_paramOf 0) measurableSet_Ioi).inter ((measurable_paramOf 1) measurableSet_Ioi)),
      Measure.dirac_apply' _ (((measurable_paramOf 0) measurableSet_Ioi).inter ((measurable_paramOf 1) measurableSet_Ioi))]
    have h0 : ¬ ((1 : ℝ) < 0) := by norm_num
    simp [paramOf, indicator, if_neg h0]
  rw [e0, e1, e2] at h3
  norm_num at h3

example : ∃ (m : (Fin (2 + 1) → ℝ) → ℝ) (det : ℝ), Measurable m ∧
    ∀ a, exceedance (rebuiltLaw comonotone a) m det ≠ exceedance (mergedLaw comonotone a) m det :=
  C102_violated comonotone comonotone_dependent

/-! ## C103 -/

/-- **C103, the POD.**  With the uncertainty of the metamodel, the simulated probability is the average over the parameters of the
predictive probability of detection. -/
theorem C103_pod_partial {X : Type} [MeasurableSpace X] (law : Measure X) [IsProbabilityMeasure law] (m s : X → ℝ)
    (hm : Measurable m) (hs : Measurable s) (hpos : ∀ x, 0 < s x) (det : ℝ) :
    exceedanceNoise law m s det = ∫ x, PhiC ((det - m x) / s x) ∂law ∧
    0 < exceedanceNoise law m s det ∧ exceedanceNoise law m s det < 1 := by
  have hset : MeasurableSet {p : X × ℝ | det < m p.1 + s p.1 * p.2} :=
    measurableSet_lt measurable_const (by fun_prop)
  have hfib : ∀ x, (gaussianReal 0 1) (Prod.mk x ⁻¹' {p : X × ℝ | det < m p.1 + s p.1 * p.2})
      = (gaussianReal 0 1) (Ioi ((det - m x) / s x)) := by
    intro x
    congr 1
    ext z
    simp only [mem_preimage, mem_ofPred_eq, mem_Ioi]
    rw [div_lt_iff₀ (hpos x)]
    constructor <;> intro h <;> linarith
  have hmeas : Measurable fun x => (gaussianReal 0 1) (Ioi ((det - m x) / s x)) := by
    have := measurable_measure_prodMk_left (ν := gaussianReal 0 1) hset
    simpa only [hfib] using this
  have heq : exceedanceNoise law m s det = ∫ x, PhiC ((det - m x) / s x) ∂law := by
    rw [exceedanceNoise, measureReal_def, Measure.prod_apply hset]
    simp only [hfib]
    rw [← integral_toReal hmeas.aemeasurable (Filter.Eventually.of_forall fun x => measure_lt_top _ _)]
    rfl
  have hPm : Measurable fun x => PhiC ((det - m x) / s x) := hmeas.ennreal_toReal
  have hbd : ∀ x, 0 < PhiC ((det - m x) / s x) ∧ PhiC ((det - m x) / s x) < 1 := fun x =>
    ⟨PhiC_pos _, by rw [PhiC_eq]; linarith [Phi_pos ((det - m x) / s x)]⟩
  have hint : Integrable (fun x => PhiC ((det - m x) / s x)) law := by
    refine Integrable.of_bound hPm.aestronglyMeasurable 1 (Filter.Eventually.of_forall fun x => ?_)
    rw [Real.norm_eq_abs, abs_of_pos (hbd x).1]
    exact (hbd x).2.le
  refine ⟨heq, ?_, ?_⟩
  · rw [heq, integral_pos_iff_support_of_nonneg (fun x => (hbd x).1.le) hint]
    have : (Function.support fun x => PhiC ((det - m x) / s x)) = univ := by
      ext x; simp [(hbd x).1.ne']
    rw [this]
    simp
  · have h1 : 0 < ∫ x, (1 - PhiC ((det - m x) / s x)) ∂law := by
      rw [integral_pos_iff_support_of_nonneg (fun x => (sub_pos.mpr (hbd x).2).le) ((integrable_const 1).sub hint)]
      have : (Function.support fun x => 1 - PhiC ((det - m x) / s x)) = univ := by
        ext x; simp [(sub_pos.mpr (hbd x).2).ne']
      rw [this]
      simp
    rw [integral_sub (integrable_const 1) hint] at h1
    simp at h1
    rw [heq]
    exact h1

/-- **C103, restricted.**  Without uncertainty of the metamodel the probability of the PLI analysis is the POD, and a defect size is
dropped exactly when its POD is at most 0.001 or at least 0.999. -/
theorem C103_exact_metamodel_partial (law : Measure (Fin k → ℝ)) [IsProbabilityMeasure law] (m : (Fin (k + 1) → ℝ) → ℝ) (a det : ℝ) :
    pliProbability law m a det = exceedanceNoise law (fun x => m (Fin.cons a x)) (fun _ => 0) det ∧
    (pliKept (pliProbability law m a det) = false ↔
      exceedanceNoise law (fun x => m (Fin.cons a x)) (fun _ => 0) det ≤ 1 / 1000 ∨
      999 / 1000 ≤ exceedanceNoise law (fun x => m (Fin.cons a x)) (fun _ => 0) det) := by
  suffices hp : pliProbability law m a det = exceedanceNoise law (fun x => m (Fin.cons a x)) (fun _ => 0) det by
    refine ⟨hp, ?_⟩
    rw [hp]
    generalize exceedanceNoise law (fun x => m (Fin.cons a x)) (fun _ => 0) det = p
    rw [pliKept, Bool.and_eq_false_iff]
    simp
  rw [pliProbability, exceedance, exceedanceNoise]
  have : {p : (Fin k → ℝ) × ℝ | det < m (Fin.cons a p.1) + 0 * p.2} = {x | det < m (Fin.cons a x)} ×ˢ univ := by
    ext p; simp
  rw [this, measureReal_prod_prod]
  simp

/-- **C103 is violated.**  As soon as the metamodel has some uncertainty and its prediction at a defect size does not exceed the
threshold (respectively exceeds it) for almost all parameters, the PLI analysis works with probability 0 (respectively 1) and drops
the defect size, although the POD at this size is strictly between 0 and 1. -/
theorem C103_violated (law : Measure (Fin k → ℝ)) [IsProbabilityMeasure law] (m s : (Fin (k + 1) → ℝ) → ℝ) (hm : Measurable m)
    (hs : Measurable s) (hpos : ∀ x, 0 < s x) (a det : ℝ) :
    ((∀ᵐ x ∂law, m (Fin.cons a x) ≤ det) → pliProbability law m a det = 0 ∧ pliKept (pliProbability law m a det) = false) ∧
    ((∀ᵐ x ∂law, det < m (Fin.cons a x)) → pliProbability law m a det = 1 ∧ pliKept (pliProbability law m a det) = false) ∧
    0 < exceedanceNoise law (fun x => m (Fin.cons a x)) (fun x => s (Fin.cons a x)) det ∧
    exceedanceNoise law (fun x => m (Fin.cons a x)) (fun x => s (Fin.cons a x)) det < 1 := by
  obtain ⟨-, h0, h1⟩ := C103_pod_partial law (fun x => m (Fin.cons a x)) (fun x => s (Fin.cons a x))
    (hm.comp (measurable_consAt a)) (hs.comp (measurable_consAt a)) (fun _ => hpos _) det
  refine ⟨fun h => ?_, fun h => ?_, h0, h1⟩
  · have : pliProbability law m a det = 0 := by
      rw [pliProbability, exceedance, measureReal_def]
      rw [show law {x | det < m (Fin.cons a x)} = 0 by
        rw [ae_iff] at h; simpa only [not_le] using h]
      rfl
    rw [this]
    exact ⟨rfl, by simp [pliKept]⟩
  · have : pliProbability law m a det = 1 := by
      rw [pliProbability, exceedance, measureReal_def]
      rw [show law {x | det < m (Fin.cons a x)} = 1 from (prob_compl_eq_zero_iff₀ ?_).mp ?_]
      · rfl
      · exact (measurableSet_lt measurable_const (hm.comp (measurable_consAt a))).nullMeasurableSet
      · rw [ae_iff] at h; simpa only [compl_ofPred] using h
    rw [this]
    refine ⟨rfl, ?_⟩
    simp [pliKept]
    norm_num

example : pliProbability (Measure.dirac ![0, 0]) (fun _ => 1) 5 2 = 0 ∧
    0 < exceedanceNoise (Measure.dirac (![0, 0] : Fin 2 → ℝ)) (fun _ => 1) (fun _ => 3) 2 :=
  have h := C103_violated (Measure.dirac ![0, 0]) (fun _ => 1) (fun _ => 3) measurable_const measurable_const (fun _ => by norm_num) 5 2
  ⟨(h.1 (Filter.Eventually.of_forall fun _ => by norm_num)).1, h.2.2.1⟩

end Verif.Props
