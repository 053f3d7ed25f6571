import Verif.Props.DeltaMethod
import Verif.Model.Tests
import Mathlib.Probability.ProductMeasure
import Mathlib.Probability.Independence.InfinitePi
import Mathlib.MeasureTheory.Function.ConvergenceInMeasure

/-!
# The Student law used by `computeZeroMeanTest` (`_math_tools.py` 125-132)
-/

namespace Verif.Props
open Verif.Py Verif.Model ProbabilityTheory MeasureTheory Set Filter Topology

/-- Independent standard normal variables. -/
noncomputable def stdNormals : Measure (ℕ → ℝ) := Measure.infinitePi fun _ : ℕ => gaussianReal 0 1

instance : IsProbabilityMeasure stdNormals := by unfold stdNormals; infer_instance

/-- A standard normal variable divided by the root of the mean of `k` independent squares. -/
noncomputable def studentRatio (k : ℕ) (w : ℕ → ℝ) : ℝ := w 0 / Real.sqrt ((∑ i ∈ Finset.range k, w (i + 1) ^ 2) / k)

theorem studentRatio_meas (k : ℕ) : Measurable (studentRatio k) := by
  unfold studentRatio
  refine (measurable_pi_apply 0).div (Measurable.sqrt ?_)
  exact (Finset.measurable_sum _ fun i _ => (by fun_prop : Measurable fun w : ℕ → ℝ => w (i + 1) ^ 2)).div_const _

/-- The Student law with `k` degrees of freedom. -/
noncomputable def studentLaw (k : ℕ) : Measure ℝ := stdNormals.map (studentRatio k)

/-- `ot.DistFunc.pStudent(k, t)`: the distribution function of the Student law. -/
def StudentCdf (p : ℕ → F ℝ → F ℝ) : Prop := ∀ k ≥ 1, ∀ t : ℝ, p k (.fin t) = .fin ((studentLaw k).real (Iic t))

theorem stdNormals_law (i : ℕ) : stdNormals.map (fun w => w i) = gaussianReal 0 1 :=
  (measurePreserving_eval_infinitePi (μ := fun _ : ℕ => gaussianReal 0 1) i).map_eq

theorem student_ae : ∀ᵐ w ∂stdNormals, Tendsto (fun k => studentRatio k w) atTop (𝓝 (w 0)) := by
  have hind : iIndepFun (fun i : ℕ => fun w : ℕ → ℝ => w (i + 1)) stdNormals := by
    have h : iIndepFun (fun i : ℕ => fun w : ℕ → ℝ => w i) stdNormals :=
      iIndepFun_infinitePi (P := fun _ : ℕ => gaussianReal 0 1) (X := fun _ w => w) (fun _ => measurable_id)
    exact h.precomp (g := fun i : ℕ => i + 1) (fun a b h => by simpa using h)
  have hid2 : MemLp (fun t : ℝ => t) 2 (gaussianReal 0 1) := memLp_id_gaussianReal 2
  have h := avg_strong (Q := stdNormals) (P := gaussianReal 0 1) (x := fun i w => w (i + 1)) (fun i => measurable_pi_apply _)
    (fun i => stdNormals_law (i + 1)) hind (f := fun t => t ^ 2) (by fun_prop) hid2.integrable_sq
  have hm : ∫ y, y ^ 2 ∂(gaussianReal 0 1) = 1 := by
    have h := variance_fun_id_gaussianReal (μ := 0) (v := 1)
    rw [variance_eq_integral (by fun_prop), integral_id_gaussianReal] at h
    simpa using h
  rw [hm] at h
  filter_upwards [h] with w hw
  have h1 : Tendsto (fun k : ℕ => w 0 / Real.sqrt (avg (fun i (w : ℕ → ℝ) => w (i + 1)) (fun t => t ^ 2) k w)) atTop (𝓝 (w 0 / Real.sqrt 1)) :=
    tendsto_const_nhds.div (Real.continuous_sqrt.continuousAt.tendsto.comp hw) (by norm_num)
  rw [Real.sqrt_one, div_one] at h1
  exact h1

/-- The lower tail of the Student laws, far enough, is small for all large numbers of degrees of freedom. -/
theorem student_tail (ε : ℝ) (hε : 0 < ε) : ∃ A : ℝ, 0 < A ∧ ∀ᶠ k in atTop, ∀ t ≤ -A, (studentLaw k).real (Iic t) ≤ ε := by
  have hm : TendstoInMeasure stdNormals studentRatio atTop (fun w => w 0) :=
    tendstoInMeasure_of_tendsto_ae (fun k => (studentRatio_meas k).aestronglyMeasurable) student_ae
  have h0 : Tendsto (fun n : ℕ => (gaussianReal 0 1).real (Iic (-(n : ℝ)))) atTop (𝓝 0) := by
    have := tendsto_measure_iInter_atTop (μ := gaussianReal 0 1) (s := fun n : ℕ => Iic (-(n : ℝ))) (fun n => measurableSet_Iic.nullMeasurableSet)
      (fun a b hab => Iic_subset_Iic.2 (by simpa using hab)) ⟨0, measure_ne_top _ _⟩
    have hI : (⋂ n : ℕ, Iic (-(n : ℝ))) = ∅ := by
      ext t
      simp only [mem_iInter, mem_Iic, mem_empty_iff_false, iff_false, not_forall, not_le]
      obtain ⟨n, hn⟩ := exists_nat_gt (-t)
      exact ⟨n, by linarith⟩
    rw [hI, measure_empty] at this
    exact (ENNReal.tendsto_toReal ENNReal.zero_ne_top).comp this
  obtain ⟨n, hn⟩ := (h0.eventually (eventually_lt_nhds (half_pos hε))).exists
  have h1 := (ENNReal.tendsto_toReal ENNReal.zero_ne_top).comp (hm (ENNReal.ofReal 1) (by norm_num))
  have h2 : ∀ᶠ k in atTop, stdNormals.real {w | ENNReal.ofReal 1 ≤ edist (studentRatio k w) (w 0)} < ε / 2 :=
    h1.eventually (eventually_lt_nhds (half_pos hε))
  refine ⟨n + 1, by positivity, ?_⟩
  filter_upwards [h2] with k hk t ht
  have e : (studentLaw k).real (Iic t) = stdNormals.real (studentRatio k ⁻¹' Iic t) :=
    map_measureReal_apply (studentRatio_meas k) measurableSet_Iic
  have e0 : (gaussianReal 0 1).real (Iic (-(n : ℝ))) = stdNormals.real {w | w 0 ≤ -(n : ℝ)} := by
    rw [← stdNormals_law 0, map_measureReal_apply (measurable_pi_apply 0) measurableSet_Iic]; rfl
  have hsub : studentRatio k ⁻¹' Iic t ⊆ {w | w 0 ≤ -(n : ℝ)} ∪ {w | ENNReal.ofReal 1 ≤ edist (studentRatio k w) (w 0)} := by
    intro w hw
    have hw : studentRatio k w ≤ t := hw
    by_cases h : w 0 ≤ -(n : ℝ)
    · exact Or.inl h
    · right
      push Not at h
      change ENNReal.ofReal 1 ≤ edist (studentRatio k w) (w 0)
      rw [edist_dist]
      refine ENNReal.ofReal_le_ofReal ?_
      rw [Real.dist_eq, abs_sub_comm, abs_of_nonneg (by linarith)]
      linarith
  have := (measureReal_mono (μ := stdNormals) hsub (measure_ne_top _ _)).trans (measureReal_union_le _ _)
  rw [e]
  rw [e0] at hn
  linarith

theorem student_zero {k : ℕ} (hk : 1 ≤ k) : (studentLaw k).real (Iic 0) = 1 / 2 := by
  have e : (studentLaw k).real (Iic 0) = stdNormals.real (studentRatio k ⁻¹' Iic 0) :=
    map_measureReal_apply (studentRatio_meas k) measurableSet_Iic
  have hne : ∀ᵐ w ∂stdNormals, w 1 ≠ 0 := by
    have h0 : stdNormals {w | w 1 = 0} = 0 := by
      have := nullSingletonClass_gaussianReal (μ := 0) (v := 1) one_ne_zero
      have h2 : (stdNormals.map fun w => w 1) {0} = 0 := by rw [stdNormals_law 1]; exact measure_singleton 0
      rw [Measure.map_apply (measurable_pi_apply 1) (MeasurableSet.singleton _)] at h2
      exact h2
    exact measure_eq_zero_iff_ae_notMem.1 h0
  have e2 : stdNormals.real (studentRatio k ⁻¹' Iic 0) = stdNormals.real ((fun w => w 0) ⁻¹' Iic 0) := by
    refine measureReal_congr ?_
    filter_upwards [hne] with w hw
    have hpos : 0 < Real.sqrt ((∑ i ∈ Finset.range k, w (i + 1) ^ 2) / k) := by
      refine Real.sqrt_pos.2 (div_pos ?_ (by exact_mod_cast hk))
      exact Finset.sum_pos' (fun i _ => sq_nonneg _) ⟨0, Finset.mem_range.2 hk, by positivity⟩
    refine propext ?_
    change studentRatio k w ≤ 0 ↔ w 0 ≤ 0
    rw [studentRatio, div_le_iff₀ hpos, zero_mul]
  rw [e, e2, ← map_measureReal_apply (measurable_pi_apply 0) measurableSet_Iic, stdNormals_law 0]
  have hs : (gaussianReal 0 1).real (Iic 0) = (gaussianReal 0 1).real (Ici 0) := by
    have h : (gaussianReal 0 1).map (fun t => -t) = gaussianReal 0 1 := by rw [gaussianReal_map_neg, neg_zero]
    conv_lhs => rw [← h]
    rw [map_measureReal_apply measurable_neg measurableSet_Iic]
    congr 1
    ext t; simp
  have hc : (gaussianReal 0 1).real (Ici 0) = (gaussianReal 0 1).real (Ioi 0) := by
    have := nullSingletonClass_gaussianReal (μ := 0) (v := 1) one_ne_zero
    exact measureReal_congr Ioi_ae_eq_Ici.symm
  have ht := probReal_add_probReal_compl (μ := gaussianReal 0 1) (measurableSet_Iic (a := (0 : ℝ)))
  rw [compl_Iic, ← hc, ← hs] at ht
  linarith

end Verif.Props
