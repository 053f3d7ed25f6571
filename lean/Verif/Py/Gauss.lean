import Mathlib.Probability.Distributions.Gaussian.Real
import Mathlib.Probability.CDF

/-!
# The standard normal distribution function

`ot.DistFunc.pNormal(x)` and `ot.DistFunc.pNormal(x, True)` (complementary) are modelled by the cdf of
Mathlib's `gaussianReal 0 1`.
-/

namespace Verif.Py
open MeasureTheory ProbabilityTheory Set NNReal

/-- `ot.DistFunc.pNormal`. -/
noncomputable def Phi (x : ℝ) : ℝ := cdf (gaussianReal 0 1) x

/-- `ot.DistFunc.pNormal(x, True)`: the complementary cdf. -/
noncomputable def PhiC (x : ℝ) : ℝ := (gaussianReal 0 1).real (Ioi x)

theorem Phi_eq (x : ℝ) : Phi x = (gaussianReal 0 1).real (Iic x) := cdf_eq_real _ _

theorem gauss_real_pos {μ : ℝ} {v : ℝ≥0} (hv : v ≠ 0) {s : Set ℝ} (hs : volume s ≠ 0) :
    0 < (gaussianReal μ v).real s := by
  rw [measureReal_def, ENNReal.toReal_pos_iff]
  refine ⟨?_, measure_lt_top _ _⟩
  rw [pos_iff_ne_zero]
  intro h
  exact hs (gaussianReal_absolutelyContinuous' μ hv h)

theorem PhiC_eq (x : ℝ) : PhiC x = 1 - Phi x := by
  rw [Phi_eq, PhiC, ← compl_Iic, probReal_compl_eq_one_sub measurableSet_Iic]

theorem Phi_pos (x : ℝ) : 0 < Phi x := by
  rw [Phi_eq]; exact gauss_real_pos one_ne_zero (by simp)

theorem PhiC_pos (x : ℝ) : 0 < PhiC x := gauss_real_pos one_ne_zero (by simp)

theorem Phi_lt_one (x : ℝ) : Phi x < 1 := by
  have := PhiC_pos x; rw [PhiC_eq] at this; linarith

theorem Phi_strictMono : StrictMono Phi := by
  intro a b hab
  have h : Phi b = Phi a + (gaussianReal 0 1).real (Ioc a b) := by
    rw [Phi_eq, Phi_eq, ← measureReal_union (by
      rw [Set.disjoint_left]; intro x hx hx'; exact absurd hx'.1 (not_lt.mpr hx)) measurableSet_Ioc,
      Iic_union_Ioc_eq_Iic hab.le]
  have h2 : 0 < (gaussianReal 0 1).real (Ioc a b) :=
    gauss_real_pos one_ne_zero (by simp [hab])
  linarith

theorem gauss_Iic_eq_Iio (μ : ℝ) {v : ℝ≥0} (hv : v ≠ 0) (x : ℝ) :
    (gaussianReal μ v).real (Iio x) = (gaussianReal μ v).real (Iic x) := by
  have := nullSingletonClass_gaussianReal (μ := μ) hv
  rw [measureReal_def, measureReal_def, measure_congr Iio_ae_eq_Iic]

theorem Phi_neg (x : ℝ) : Phi (-x) = 1 - Phi x := by
  rw [← PhiC_eq, Phi_eq, PhiC, ← gauss_Iic_eq_Iio 0 one_ne_zero]
  have h := gaussianReal_map_neg (μ := 0) (v := 1)
  rw [neg_zero] at h
  conv_lhs => rw [← h]
  rw [measureReal_def, measureReal_def, Measure.map_apply measurable_neg measurableSet_Iio]
  congr 2
  ext y; simp

theorem Phi_zero : Phi 0 = 1 / 2 := by
  have := Phi_neg 0
  rw [neg_zero] at this; linarith

/-- The variance `s²` as a nonnegative real. -/
def sqv (s : ℝ) : ℝ≥0 := .mk (s ^ 2) (sq_nonneg s)

@[simp] theorem coe_sqv (s : ℝ) : ((sqv s : ℝ≥0) : ℝ) = s ^ 2 := rfl

/-- Standardisation: the probability of a Gaussian half line is `Φ` of the reduced bound. -/
theorem gauss_Iic {μ s : ℝ} (hs : 0 < s) (t : ℝ) :
    (gaussianReal μ (sqv s)).real (Iic t) = Phi ((t - μ) / s) := by
  have h1 : gaussianReal μ (sqv s)
      = (gaussianReal 0 1).map (fun z => μ + s * z) := by
    have h2 := gaussianReal_map_const_mul (μ := 0) (v := 1) s
    have h3 := gaussianReal_map_const_add (μ := s * 0) (v := (sqv s) * 1) μ
    have h4 : NNReal.mk (s ^ 2) (sq_nonneg s) = sqv s := rfl
    rw [h4] at h2
    rw [← h2, Measure.map_map (by fun_prop) (by fun_prop)] at h3
    rw [mul_zero, zero_add, mul_one] at h3
    rw [← h3]; rfl
  rw [h1, Phi_eq, measureReal_def, measureReal_def, Measure.map_apply (by fun_prop) measurableSet_Iic]
  congr 2
  ext z
  simp only [mem_preimage, mem_Iic]
  rw [le_div_iff₀ hs]
  constructor <;> intro h <;> linarith

theorem gauss_Ioi {μ s : ℝ} (hs : 0 < s) (t : ℝ) :
    (gaussianReal μ (sqv s)).real (Ioi t) = 1 - Phi ((t - μ) / s) := by
  rw [← gauss_Iic hs, ← compl_Iic, probReal_compl_eq_one_sub measurableSet_Iic]

end Verif.Py
