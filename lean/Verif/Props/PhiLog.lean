import Verif.Py.Gauss
import Mathlib.Analysis.Convex.Deriv
import Mathlib.Analysis.Calculus.MeanValue
import Mathlib.MeasureTheory.Integral.IntervalIntegral.FundThmCalculus
import Mathlib.Probability.Moments.Variance

/-!
# The logarithm of the normal distribution function is concave
-/

namespace Verif.Props
open Verif.Py Set Filter Topology MeasureTheory ProbabilityTheory

/-- The standard normal density. -/
noncomputable def gaussDens (x : ℝ) : ℝ := (Real.sqrt (2 * Real.pi))⁻¹ * Real.exp (-x ^ 2 / 2)

theorem gaussDens_eq (x : ℝ) : gaussianPDFReal 0 1 x = gaussDens x := by
  rw [gaussianPDFReal, gaussDens]
  simp

theorem gaussDens_pos (x : ℝ) : 0 < gaussDens x := by unfold gaussDens; positivity

theorem gaussDens_continuous : Continuous gaussDens := by unfold gaussDens; fun_prop

theorem gaussDens_deriv (x : ℝ) : HasDerivAt gaussDens (-x * gaussDens x) x := by
  have h1 : HasDerivAt (fun x : ℝ => -x ^ 2 / 2) (-x) x := by
    have := ((hasDerivAt_pow 2 x).neg).div_const 2
    refine this.congr_deriv ?_
    norm_num
    ring
  exact ((h1.exp).const_mul _).congr_deriv (by rw [gaussDens]; ring)

theorem Phi_sub {a b : ℝ} (h : a ≤ b) : Phi b - Phi a = ∫ x in a..b, gaussDens x := by
  have h1 : Phi b = Phi a + (gaussianReal 0 1).real (Ioc a b) := by
    rw [Phi_eq, Phi_eq, ← measureReal_union (by
      rw [Set.disjoint_left]; intro x hx hx'; exact absurd hx'.1 (not_lt.mpr hx)) measurableSet_Ioc,
      Iic_union_Ioc_eq_Iic h]
  rw [h1, add_sub_cancel_left, measureReal_def, gaussianReal_apply_eq_integral 0 one_ne_zero, intervalIntegral.integral_of_le h,
    ENNReal.toReal_ofReal (setIntegral_nonneg measurableSet_Ioc fun x _ => gaussianPDFReal_nonneg _ _ _)]
  simp only [gaussDens_eq]

theorem Phi_hasDerivAt (x : ℝ) : HasDerivAt Phi (gaussDens x) x := by
  have h1 : HasDerivAt (fun u => ∫ t in (x - 1)..u, gaussDens t) (gaussDens x) x :=
    intervalIntegral.integral_hasDerivAt_right (gaussDens_continuous.intervalIntegrable _ _)
      gaussDens_continuous.aestronglyMeasurable.stronglyMeasurableAtFilter gaussDens_continuous.continuousAt
  have h2 : HasDerivAt (fun u => (∫ t in (x - 1)..u, gaussDens t) + Phi (x - 1)) (gaussDens x) x := h1.add_const _
  refine h2.congr_of_eventuallyEq ?_
  filter_upwards [Ioi_mem_nhds (show x - 1 < x by linarith)] with u hu
  rw [← Phi_sub (le_of_lt hu)]
  ring

theorem Phi_le_inv_sq {x : ℝ} (hx : x < 0) : Phi x ≤ 1 / x ^ 2 := by
  have hm : MemLp id 2 (gaussianReal 0 1) := memLp_id_gaussianReal 2
  have h := meas_ge_le_variance_div_sq hm (c := -x) (by linarith)
  rw [variance_id_gaussianReal] at h
  have hE : ∫ t, id t ∂(gaussianReal 0 1) = 0 := by simpa using integral_id_gaussianReal (μ := 0) (v := 1)
  rw [hE] at h
  have hsub : Iic x ⊆ {ω : ℝ | -x ≤ |id ω - 0|} := by
    intro t ht
    simp only [id, sub_zero, mem_setOf_eq]
    have : t ≤ x := ht
    rw [abs_of_neg (by linarith)]
    linarith
  have h2 := (measure_mono hsub).trans h
  rw [Phi_eq, measureReal_def]
  refine (ENNReal.toReal_mono ENNReal.ofReal_ne_top h2).trans ?_
  rw [ENNReal.toReal_ofReal (by positivity)]
  simp

theorem mills (x : ℝ) : 0 ≤ x * Phi x + gaussDens x := by
  have hd : ∀ x, HasDerivAt (fun x => x * Phi x + gaussDens x) (Phi x) x := by
    intro x
    exact (((hasDerivAt_id x).mul (Phi_hasDerivAt x)).add (gaussDens_deriv x)).congr_deriv (by simp)
  have hmono : Monotone fun x => x * Phi x + gaussDens x :=
    monotone_of_deriv_nonneg (fun x => (hd x).differentiableAt) fun x => by rw [(hd x).deriv]; exact (Phi_pos x).le
  by_contra hc
  push Not at hc
  set e := -(x * Phi x + gaussDens x) with he
  have hepos : 0 < e := by linarith
  set z := min x (-(2 / e)) with hz
  have hz0 : z < 0 := lt_of_le_of_lt (min_le_right _ _) (by have := div_pos two_pos hepos; linarith)
  have h1 := hmono (min_le_left x (-(2 / e)))
  dsimp only at h1
  rw [← hz] at h1
  have h2 := Phi_le_inv_sq hz0
  have h3 := gaussDens_pos z
  have h4 : -(1 / (-z)) ≤ z * Phi z := by
    have := mul_le_mul_of_nonpos_left h2 hz0.le
    have h5 : z * (1 / z ^ 2) = -(1 / -z) := by
      have := hz0.ne
      field_simp
    linarith
  have h5 : 1 / -z ≤ e / 2 := by
    have h6 : 2 / e ≤ -z := by
      have := min_le_right x (-(2 / e))
      linarith
    rw [div_le_iff₀ (by linarith)]
    have : e / 2 * (2 / e) = 1 := by field_simp
    have := mul_le_mul_of_nonneg_left h6 (half_pos hepos).le
    linarith
  linarith

theorem logPhi_concave : ConcaveOn ℝ univ fun x => Real.log (Phi x) := by
  have hd : ∀ x, HasDerivAt (fun x => Real.log (Phi x)) (gaussDens x / Phi x) x := fun x => (Phi_hasDerivAt x).log (Phi_pos x).ne'
  refine Antitone.concaveOn_univ_of_deriv (fun x => (hd x).differentiableAt) ?_
  have : deriv (fun x => Real.log (Phi x)) = fun x => gaussDens x / Phi x := funext fun x => (hd x).deriv
  rw [this]
  have hd2 : ∀ x, HasDerivAt (fun x => gaussDens x / Phi x) ((-x * gaussDens x * Phi x - gaussDens x * gaussDens x) / Phi x ^ 2) x :=
    fun x => (gaussDens_deriv x).div (Phi_hasDerivAt x) (Phi_pos x).ne'
  refine antitone_of_deriv_nonpos (fun x => (hd2 x).differentiableAt) fun x => ?_
  rw [(hd2 x).deriv]
  apply div_nonpos_of_nonpos_of_nonneg _ (sq_nonneg _)
  have := mul_nonneg (gaussDens_pos x).le (mills x)
  nlinarith

theorem logPhi_le (a b s t : ℝ) (hs : 0 ≤ s) (ht : 0 ≤ t) (hst : s + t = 1) :
    s * Real.log (Phi a) + t * Real.log (Phi b) ≤ Real.log (Phi (s * a + t * b)) := by
  have := logPhi_concave.2 (mem_univ a) (mem_univ b) hs ht hst
  simpa using this

theorem logPhiC_le (a b s t : ℝ) (hs : 0 ≤ s) (ht : 0 ≤ t) (hst : s + t = 1) :
    s * Real.log (1 - Phi a) + t * Real.log (1 - Phi b) ≤ Real.log (1 - Phi (s * a + t * b)) := by
  rw [← Phi_neg, ← Phi_neg, ← Phi_neg, show -(s * a + t * b) = s * -a + t * -b by ring]
  exact logPhi_le _ _ s t hs ht hst

end Verif.Props
