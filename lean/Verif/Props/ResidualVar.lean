import Verif.Model.ResidualVar
import Verif.Props.GaussPOD
import Verif.Props.Binomial
import Verif.Props.Loo
import Mathlib.LinearAlgebra.Matrix.Trace
import Mathlib.Probability.Moments.Variance
import Mathlib.Probability.Independence.Integration
import Mathlib.Probability.Independence.InfinitePi

/-!
# C94 (units), C95 (residual variance), C96 (independent draws)
-/

namespace Verif.Props
open Verif.Py Verif.Model Matrix MeasureTheory ProbabilityTheory

variable {n p : ℕ}

/-! ## C94 -/

section Units
variable (x y : Fin n → ℝ) (k t c e : ℝ)

theorem smean_affine (hn : n ≠ 0) (x : Fin n → ℝ) (k t : ℝ) : smean (fun i => k * x i + t) = k * smean x + t := by
  have hn' : (n : ℝ) ≠ 0 := Nat.cast_ne_zero.mpr hn
  rw [smean, smean, Finset.sum_add_distrib, ← Finset.mul_sum, Finset.sum_const, Finset.card_univ, Fintype.card_fin, nsmul_eq_mul]
  field_simp

theorem olsSlope_affine (hn : n ≠ 0) (hk : k ≠ 0) :
    olsSlope (fun i => k * x i + t) (fun i => c * y i + e) = c / k * olsSlope x y := by
  rw [olsSlope, olsSlope, smean_affine hn, smean_affine hn]
  have h1 : ∀ i, (k * x i + t - (k * smean x + t)) * (c * y i + e - (c * smean y + e))
      = k * c * ((x i - smean x) * (y i - smean y)) := fun i => by ring
  have h2 : ∀ i, (k * x i + t - (k * smean x + t)) ^ 2 = k ^ 2 * (x i - smean x) ^ 2 := fun i => by ring
  simp only [h1, h2, ← Finset.mul_sum]
  rw [show k ^ 2 = k * k by ring, mul_div_mul_comm, show k * c / (k * k) = c / k by field_simp]

theorem line_affine (hn : n ≠ 0) (hk : k ≠ 0) (a : ℝ) :
    olsIntercept (fun i => k * x i + t) (fun i => c * y i + e) + olsSlope (fun i => k * x i + t) (fun i => c * y i + e) * (k * a + t)
      = c * (olsIntercept x y + olsSlope x y * a) + e := by
  rw [olsIntercept, olsIntercept, smean_affine hn, smean_affine hn, olsSlope_affine x y k t c e hn hk]
  field_simp
  ring

theorem resid_affine (hn : n ≠ 0) (hk : k ≠ 0) :
    olsResiduals (fun i => k * x i + t) (fun i => c * y i + e) = fun i => c * olsResiduals x y i := by
  funext i
  rw [olsResiduals, line_affine x y k t c e hn hk, olsResiduals]
  ring

theorem stderr_affine (hn : n ≠ 0) (hk : k ≠ 0) (hc : 0 < c) :
    linearStderr (fun i => k * x i + t) (fun i => c * y i + e) = c * linearStderr x y := by
  rw [linearStderr, linearScale, resid_affine x y k t c e hn hk]
  have : ∀ i, (c * olsResiduals x y i) ^ 2 = c ^ 2 * olsResiduals x y i ^ 2 := fun i => by ring
  simp only [this, ← Finset.mul_sum]
  rw [mul_div_assoc, Real.sqrt_mul (sq_nonneg c), Real.sqrt_sq hc.le]
  rfl

end Units

/-- **C94, Gaussian POD.**  Changing the units of measurement (any affine change of the defect scale, any increasing affine change of the signal
scale, applied to the data, the threshold and the argument) does not change the POD. -/
theorem C94_gauss_units (x y : Fin n → ℝ) (hx : ∃ i j, x i ≠ x j) (k t c e det a : ℝ) (hk : k ≠ 0) (hc : 0 < c) :
    gaussPodOf (fun i => k * x i + t) (fun i => c * y i + e) (c * det + e) (k * a + t) = gaussPodOf x y det a := by
  have hn : n ≠ 0 := by obtain ⟨i, -⟩ := hx; exact fun h => by subst h; exact i.elim0
  have hx' : ∃ i j, (fun i => k * x i + t) i ≠ (fun i => k * x i + t) j := by
    obtain ⟨i, j, h⟩ := hx
    exact ⟨i, j, fun h' => h (mul_left_cancel₀ hk (add_right_cancel h'))⟩
  rw [gaussPodOf, gaussPodOf, podGauss, podGauss, line_affine x y k t c e hn hk, stderr_affine x y k t c e hn hk hc,
    predictionVariance_eq _ _ _ hx', predictionVariance_eq _ _ _ hx, smean_affine hn]
  have h2 : ∀ i, (k * x i + t - (k * smean x + t)) ^ 2 = k ^ 2 * (x i - smean x) ^ 2 := fun i => by ring
  simp only [h2, ← Finset.mul_sum]
  have h3 : (k * a + t - (k * smean x + t)) ^ 2 / (k ^ 2 * ∑ i, (x i - smean x) ^ 2)
      = (a - smean x) ^ 2 / ∑ i, (x i - smean x) ^ 2 := by
    rw [show (k * a + t - (k * smean x + t)) ^ 2 = k ^ 2 * (a - smean x) ^ 2 by ring, mul_div_mul_left _ _ (pow_ne_zero 2 hk)]
  rw [h3, mul_pow, mul_assoc, Real.sqrt_mul (sq_nonneg c), Real.sqrt_sq hc.le]
  rw [show c * det + e - (c * (olsIntercept x y + olsSlope x y * a) + e) = c * (det - (olsIntercept x y + olsSlope x y * a)) by ring,
    mul_div_mul_left _ _ hc.ne']

/-- Millimetres to metres for the defects, volts to millivolts for the signals. -/
example : gaussPodOf (fun i : Fin 3 => (1 / 1000) * (![1, 2, 4] : Fin 3 → ℝ) i + 0) (fun i => 1000 * (![1, 3, 4] : Fin 3 → ℝ) i + 0)
    (1000 * 2 + 0) ((1 / 1000) * 3 + 0) = gaussPodOf ![1, 2, 4] ![1, 3, 4] 2 3 :=
  C94_gauss_units ![1, 2, 4] ![1, 3, 4] ⟨0, 1, by norm_num⟩ (1 / 1000) 0 1000 0 2 3 (by norm_num) (by norm_num)

theorem numAbove_scale {N : ℕ} (r : Fin N → ℝ) (s c : ℝ) (hc : 0 < c) : numAbove (fun i => c * r i) (c * s) = numAbove r s := by
  classical
  unfold numAbove
  congr 1
  ext i
  simp only [Finset.mem_filter, Finset.mem_univ, true_and]
  exact mul_lt_mul_iff_right₀ hc

/-- **C94, binomial POD.**  The same for the binomial POD and for its confidence curve. -/
theorem C94_binomial_units (x y : Fin n → ℝ) (hn : n ≠ 0) (qBeta : ℕ → ℕ → ℝ → ℝ) (k t c e det conf a : ℝ) (hk : k ≠ 0)
    (hc : 0 < c) :
    binomialPodOf (fun i => k * x i + t) (fun i => c * y i + e) (c * det + e) (k * a + t) = binomialPodOf x y det a ∧
    binomialPodClOf qBeta (fun i => k * x i + t) (fun i => c * y i + e) (c * det + e) conf (k * a + t)
      = binomialPodClOf qBeta x y det conf a := by
  have hm : c * det + e - (olsIntercept (fun i => k * x i + t) (fun i => c * y i + e)
      + olsSlope (fun i => k * x i + t) (fun i => c * y i + e) * (k * a + t)) = c * (det - (olsIntercept x y + olsSlope x y * a)) := by
    rw [line_affine x y k t c e hn hk]; ring
  have h1 : empiricalCCDF (List.ofFn (olsResiduals (fun i => k * x i + t) (fun i => c * y i + e)))
      (c * (det - (olsIntercept x y + olsSlope x y * a)))
      = empiricalCCDF (List.ofFn (olsResiduals x y)) (det - (olsIntercept x y + olsSlope x y * a)) := by
    rw [resid_affine x y k t c e hn hk, empiricalCCDF, empiricalCCDF, countP_ofFn, countP_ofFn, numAbove_scale _ _ _ hc,
      List.length_ofFn, List.length_ofFn]
  constructor
  · rw [binomialPodOf, binomialPodOf, podBinomial, podBinomial, hm, h1]
  · rw [binomialPodClOf, binomialPodClOf, podBinomialCl, podBinomialCl, hm, h1, List.length_ofFn, List.length_ofFn]

example : binomialPodOf (fun i : Fin 3 => 10 * (![1, 2, 4] : Fin 3 → ℝ) i + 1) (fun i => 2 * (![1, 3, 4] : Fin 3 → ℝ) i + 5) (2 * 2 + 5)
    (10 * 3 + 1) = binomialPodOf ![1, 2, 4] ![1, 3, 4] 2 3 :=
  (C94_binomial_units ![1, 2, 4] ![1, 3, 4] (by norm_num) (fun _ _ _ => 0) 10 1 2 5 2 0 3 (by norm_num) (by norm_num)).1

/-! ## C95 -/

theorem chaosH_mul (A : Matrix (Fin n) (Fin p) ℝ) (hA : IsUnit (Aᵀ * A).det) : chaosH A * A = A := by
  rw [chaosH, Matrix.mul_assoc, Matrix.mul_assoc, Matrix.nonsing_inv_mul _ hA, Matrix.mul_one]

theorem chaosH_idem (A : Matrix (Fin n) (Fin p) ℝ) (hA : IsUnit (Aᵀ * A).det) : chaosH A * chaosH A = chaosH A := by
  calc chaosH A * chaosH A = chaosH A * A * ((Aᵀ * A)⁻¹ * Aᵀ) := by
        rw [Matrix.mul_assoc, ← chaosH]
    _ = chaosH A := by rw [chaosH_mul A hA, ← chaosH]

theorem chaosH_symm (A : Matrix (Fin n) (Fin p) ℝ) : (chaosH A)ᵀ = chaosH A := by
  rw [chaosH, Matrix.transpose_mul, Matrix.transpose_mul, Matrix.transpose_nonsing_inv, Matrix.transpose_mul,
    Matrix.transpose_transpose, Matrix.mul_assoc]

theorem trace_chaosH (A : Matrix (Fin n) (Fin p) ℝ) (hA : IsUnit (Aᵀ * A).det) : (chaosH A).trace = p := by
  rw [chaosH, Matrix.trace_mul_comm, Matrix.mul_assoc, Matrix.nonsing_inv_mul _ hA, Matrix.trace_one, Fintype.card_fin]

/-- Residual sum of squares of a noisy observation of a vector of the model. -/
theorem ssr_eq (A : Matrix (Fin n) (Fin p) ℝ) (hA : IsUnit (Aᵀ * A).det) (beta : Fin p → ℝ) (eps : Fin n → ℝ) :
    ∑ i, ((A *ᵥ beta + eps) i - (A *ᵥ lsCoefs A (A *ᵥ beta + eps)) i) ^ 2
      = ∑ i, ∑ j, (1 - chaosH A) i j * (eps i * eps j) := by
  have h1 : A *ᵥ lsCoefs A (A *ᵥ beta + eps) = chaosH A *ᵥ (A *ᵥ beta + eps) := by
    rw [lsCoefs, chaosH, Matrix.mulVec_mulVec, Matrix.mulVec_mulVec, Matrix.mul_assoc]
  have h2 : (A *ᵥ beta + eps) - A *ᵥ lsCoefs A (A *ᵥ beta + eps) = (1 - chaosH A) *ᵥ eps := by
    rw [h1, Matrix.mulVec_add, Matrix.mulVec_mulVec, chaosH_mul A hA, Matrix.sub_mulVec, Matrix.one_mulVec]
    abel
  have h3 : ∑ i, ((A *ᵥ beta + eps) i - (A *ᵥ lsCoefs A (A *ᵥ beta + eps)) i) ^ 2
      = ((1 - chaosH A) *ᵥ eps) ⬝ᵥ ((1 - chaosH A) *ᵥ eps) := by
    rw [← h2, dotProduct]
    exact Finset.sum_congr rfl fun i _ => by rw [Pi.sub_apply, sq]
  rw [h3]
  have hR : (1 - chaosH A)ᵀ * (1 - chaosH A) = 1 - chaosH A := by
    rw [Matrix.transpose_sub, Matrix.transpose_one, chaosH_symm, Matrix.mul_sub, Matrix.sub_mul, Matrix.sub_mul,
      Matrix.one_mul, Matrix.mul_one, Matrix.one_mul, chaosH_idem A hA]
    abel
  rw [Matrix.dotProduct_mulVec, Matrix.vecMul_mulVec, hR, ← Matrix.dotProduct_mulVec, dotProduct]
  refine Finset.sum_congr rfl fun i _ => ?_
  rw [Matrix.mulVec, dotProduct, Finset.mul_sum]
  exact Finset.sum_congr rfl fun j _ => by ring

/-- White noise: square integrable products with the identity as second moments. -/
structure WhiteNoise {Ω : Type*} [MeasurableSpace Ω] (μ : Measure Ω) (eps : Fin n → Ω → ℝ) (var : ℝ) : Prop where
  integrable : ∀ i j, Integrable (fun ω => eps i ω * eps j ω) μ
  moments : ∀ i j, ∫ ω, eps i ω * eps j ω ∂μ = if i = j then var else 0

section Expect
variable {Ω : Type*} [MeasurableSpace Ω] {μ : Measure Ω}

theorem expected_quad (M : Fin n → Fin n → ℝ) (eps : Fin n → Ω → ℝ) (var : ℝ) (hw : WhiteNoise μ eps var) :
    ∫ ω, ∑ i, ∑ j, M i j * (eps i ω * eps j ω) ∂μ = (∑ i, M i i) * var := by
  rw [integral_finsetSum _ (fun i _ => integrable_finsetSum _ fun j _ => (hw.integrable i j).const_mul _), Finset.sum_mul]
  refine Finset.sum_congr rfl fun i _ => ?_
  rw [integral_finsetSum _ (fun j _ => (hw.integrable i j).const_mul _)]
  simp only [integral_const_mul, hw.moments, mul_ite, mul_zero, Finset.sum_ite_eq, Finset.mem_univ, if_true]

theorem expected_ssr (A : Matrix (Fin n) (Fin p) ℝ) (hA : IsUnit (Aᵀ * A).det) (beta : Fin p → ℝ) (eps : Fin n → Ω → ℝ) (var : ℝ)
    (hw : WhiteNoise μ eps var) :
    ∫ ω, ∑ i, ((A *ᵥ beta + fun j => eps j ω) i - (A *ᵥ lsCoefs A (A *ᵥ beta + fun j => eps j ω)) i) ^ 2 ∂μ
      = var * ((n : ℝ) - p) := by
  have ht : ∑ i, (1 - chaosH A) i i = (n : ℝ) - p := by
    have : (1 - chaosH A).trace = (n : ℝ) - p := by
      rw [Matrix.trace_sub, Matrix.trace_one, trace_chaosH A hA, Fintype.card_fin]
    rw [← this]; rfl
  rw [integral_congr_ae (Filter.Eventually.of_forall fun ω => ssr_eq A hA beta fun j => eps j ω)]
  exact (expected_quad (fun i j => (1 - chaosH A) i j) eps var hw).trans (by rw [ht, mul_comm])

theorem design_unit (x : Fin n → ℝ) (hx : ∃ i j, x i ≠ x j) : IsUnit ((designMatrix x)ᵀ * designMatrix x).det := by
  have hS := sxx_pos x hx
  have hn : n ≠ 0 := by obtain ⟨i, -⟩ := hx; exact fun h => by subst h; exact i.elim0
  have hn' : (0 : ℝ) < n := by exact_mod_cast Nat.pos_of_ne_zero hn
  rw [gram_eq, Matrix.det_fin_two_of, isUnit_iff_ne_zero]
  have h1 : ∑ i, (x i - smean x) ^ 2 = ∑ i, x i ^ 2 - (∑ i, x i) * (∑ i, x i) / n := by
    have h : ∀ i, (x i - smean x) ^ 2 = x i ^ 2 - 2 * smean x * x i + smean x ^ 2 := fun i => by ring
    rw [Finset.sum_congr rfl fun i _ => h i, Finset.sum_add_distrib, Finset.sum_sub_distrib, ← Finset.mul_sum, Finset.sum_const,
      Finset.card_univ, Fintype.card_fin, nsmul_eq_mul, smean]
    field_simp; ring
  rw [h1, sub_pos, div_lt_iff₀ hn'] at hS
  intro h0
  linarith

/-- The residuals of the line are those of the least-squares projection. -/
theorem olsResiduals_eq (x y : Fin n → ℝ) (hx : ∃ i j, x i ≠ x j) (i : Fin n) :
    olsResiduals x y i = y i - (designMatrix x *ᵥ lsCoefs (designMatrix x) y) i := by
  have hA := design_unit x hx
  have hS := (sxx_pos x hx).ne'
  have hdec : y = designMatrix x *ᵥ ![olsIntercept x y, olsSlope x y] + olsResiduals x y := by
    funext j
    simp [Matrix.mulVec, dotProduct, designMatrix, Fin.sum_univ_two, olsResiduals, mul_comm]
  have horth : (designMatrix x)ᵀ *ᵥ olsResiduals x y = 0 := by
    funext j
    fin_cases j
    · simpa [Matrix.mulVec, dotProduct, designMatrix] using resid_sum x y hS
    · have := resid_orth x y hS
      simp only [mul_comm (olsResiduals x y _)] at this
      simpa [Matrix.mulVec, dotProduct, designMatrix] using this
  have hc : lsCoefs (designMatrix x) y = ![olsIntercept x y, olsSlope x y] := by
    conv_lhs => rw [hdec]
    rw [lsCoefs, Matrix.mulVec_add, horth, add_zero, Matrix.mulVec_mulVec, Matrix.mulVec_mulVec, Matrix.mul_assoc,
      Matrix.nonsing_inv_mul _ hA, Matrix.one_mulVec]
  rw [hc]
  simp [Matrix.mulVec, dotProduct, designMatrix, Fin.sum_univ_two, olsResiduals, mul_comm]

/-- **C95, linear model.**  If the signals are a line plus white noise of variance `var`, the expectation of the square of the reported standard error
is `var` (at least three observations, defects not all equal). -/
theorem C95_linear_unbiased_partial (x : Fin n → ℝ) (hx : ∃ i j, x i ≠ x j) (hn : 2 < n) (b0 b1 var : ℝ) (eps : Fin n → Ω → ℝ)
    (hw : WhiteNoise μ eps var) :
    ∫ ω, linearStderr x (fun i => b0 + b1 * x i + eps i ω) ^ 2 ∂μ = var := by
  have hn' : (0 : ℝ) < (n : ℝ) - 2 := by
    have : (2 : ℝ) < n := by exact_mod_cast hn
    linarith
  have h := expected_ssr (designMatrix x) (design_unit x hx) ![b0, b1] eps var hw
  have hy : ∀ ω, (designMatrix x *ᵥ ![b0, b1] + fun j => eps j ω) = fun i => b0 + b1 * x i + eps i ω := by
    intro ω; funext i
    simp [Matrix.mulVec, dotProduct, designMatrix, Fin.sum_univ_two, mul_comm]
  simp only [hy] at h
  have h2 : ∀ ω, linearStderr x (fun i => b0 + b1 * x i + eps i ω) ^ 2
      = (∑ i, (b0 + b1 * x i + eps i ω
          - (designMatrix x *ᵥ lsCoefs (designMatrix x) fun i => b0 + b1 * x i + eps i ω) i) ^ 2) / ((n : ℝ) - 2) := by
    intro ω
    rw [linearStderr, linearScale, Real.sq_sqrt (div_nonneg (Finset.sum_nonneg fun i _ => sq_nonneg _) hn'.le)]
    congr 1
    exact Finset.sum_congr rfl fun i _ => by rw [olsResiduals_eq x _ hx]
  simp only [h2, integral_div, h]
  push_cast
  field_simp

/-- **C95 violated, polynomial chaos.**  If the signals are a combination of the basis functions plus white noise of variance `var > 0`, the expectation
of the square of the standard error is `var·(n-p)/(n-p-1)`, larger than `var`, for every design and every basis of `p < n-1` functions. -/
theorem C95_violated (A : Matrix (Fin n) (Fin p) ℝ) (hA : IsUnit (Aᵀ * A).det) (hn : p + 1 < n) (beta : Fin p → ℝ) (var : ℝ)
    (hvar : 0 < var) (eps : Fin n → Ω → ℝ) (hw : WhiteNoise μ eps var) :
    ∫ ω, chaosScale A (A *ᵥ beta + fun i => eps i ω) ∂μ = var * (((n : ℝ) - p) / ((n : ℝ) - p - 1)) ∧
    var < ∫ ω, chaosScale A (A *ᵥ beta + fun i => eps i ω) ∂μ := by
  have hn' : (0 : ℝ) < (n : ℝ) - p - 1 := by
    have : (p : ℝ) + 1 < n := by exact_mod_cast hn
    linarith
  have h1 : ∫ ω, chaosScale A (A *ᵥ beta + fun i => eps i ω) ∂μ = var * (((n : ℝ) - p) / ((n : ℝ) - p - 1)) := by
    simp only [chaosScale, integral_div, expected_ssr A hA beta eps var hw]
    rw [mul_div_assoc]
  refine ⟨h1, ?_⟩
  rw [h1]
  have : 1 < ((n : ℝ) - p) / ((n : ℝ) - p - 1) := by rw [one_lt_div hn']; linarith
  nlinarith

/-! Three uncorrelated centred signs on four equally likely outcomes. -/

/-- The uniform law on four outcomes. -/
noncomputable def fourLaw : Measure (Fin 4) := (4 : ENNReal)⁻¹ • Measure.count

/-- Three orthogonal sign vectors. -/
def walsh : Fin 3 → Fin 4 → ℝ := ![![1, 1, -1, -1], ![1, -1, 1, -1], ![1, -1, -1, 1]]

instance : IsProbabilityMeasure fourLaw := ⟨by
  rw [fourLaw, Measure.smul_apply, Measure.count_univ]
  simp [ENat.card_eq_coe_fintype_card, ENNReal.inv_mul_cancel]⟩

theorem fourLaw_integral (f : Fin 4 → ℝ) : ∫ ω, f ω ∂fourLaw = (∑ ω, f ω) / 4 := by
  rw [fourLaw, integral_smul_measure, integral_count]
  simp [div_eq_inv_mul]

theorem walsh_white : WhiteNoise fourLaw walsh 1 where
  integrable _ _ := Integrable.of_finite
  moments i j := by
    rw [fourLaw_integral]
    fin_cases i <;> fin_cases j <;> simp [walsh, Fin.sum_univ_four] <;> norm_num

example : ∫ ω, linearStderr ![1, 2, 4] (fun i => 5 + 3 * (![1, 2, 4] : Fin 3 → ℝ) i + walsh i ω) ^ 2 ∂fourLaw = 1 :=
  C95_linear_unbiased_partial ![1, 2, 4] ⟨0, 1, by norm_num⟩ (by norm_num) 5 3 1 walsh walsh_white

/-- A constant basis and three observations: the expectation is 2 instead of 1. -/
example : ∫ ω, chaosScale (!![1; 1; 1] : Matrix (Fin 3) (Fin 1) ℝ) (!![1; 1; 1] *ᵥ ![7] + fun i => walsh i ω) ∂fourLaw = 2 := by
  have := (C95_violated (!![1; 1; 1] : Matrix (Fin 3) (Fin 1) ℝ)
    (by simp [Matrix.det_fin_one, Matrix.mul_apply, Fin.sum_univ_three]; norm_num) (by norm_num) ![7] 1 one_pos walsh walsh_white).1
  rw [this]; norm_num

end Expect

/-! ## C96 -/

section Draws
variable {Ω : Type*} [MeasurableSpace Ω] {μ : Measure Ω} {q : ℕ}

/-- **C96, linear model.**  The simulated coefficient vectors of the Gaussian linear model are independent, whatever the laws of the draws of
OpenTURNS, as soon as the draws themselves are independent. -/
theorem C96_linear_independent_partial (coefs : Fin q → ℝ) (sigma : ℕ → Ω → ℝ) (z : ℕ → Fin q → Ω → ℝ)
    (hind : iIndepFun (fun k ω => ((sigma k ω, fun j => z k j ω) : ℝ × (Fin q → ℝ))) μ) :
    iIndepFun (fun k ω => linearDraw coefs (fun l => sigma l ω) (fun l j => z l j ω) k) μ :=
  hind.comp (fun _ s => fun j => s.2 j * s.1 + coefs j) fun _ => by fun_prop

/-- **C96 violated, polynomial chaos.**  The simulated coefficient vectors of the chaos share one realisation `V` of the residual variance: if `V` is not
almost surely constant, two simulations are never independent (the squares of their deviations are correlated, with the covariance given). -/
theorem C96_violated [IsProbabilityMeasure μ] (coefs : Fin q → ℝ) (V : ℕ → Ω → ℝ) (z : ℕ → Fin q → Ω → ℝ) (k l : ℕ) (j : Fin q)
    (hV0 : ∀ ω, 0 ≤ V 0 ω) (hV : MemLp (V 0) 2 μ) (hVar : 0 < variance (V 0) μ) (hzk : MemLp (z k j) 2 μ) (hzl : MemLp (z l j) 2 μ)
    (hk : 0 < ∫ ω, z k j ω ^ 2 ∂μ) (hl : 0 < ∫ ω, z l j ω ^ 2 ∂μ) (hind : IndepFun (z k j) (z l j) μ)
    (hindV : IndepFun (V 0) (fun ω => (z k j ω, z l j ω)) μ) :
    (let D := fun m ω => (chaosDraw coefs (fun r => V r ω) (fun r i => z r i ω) m j - coefs j) ^ 2
     ∫ ω, D k ω * D l ω ∂μ - (∫ ω, D k ω ∂μ) * ∫ ω, D l ω ∂μ
      = variance (V 0) μ * (∫ ω, z k j ω ^ 2 ∂μ) * ∫ ω, z l j ω ^ 2 ∂μ) ∧
    ¬ IndepFun (fun ω => chaosDraw coefs (fun r => V r ω) (fun r i => z r i ω) k)
        (fun ω => chaosDraw coefs (fun r => V r ω) (fun r i => z r i ω) l) μ := by
  have hD : ∀ m ω, (chaosDraw coefs (fun r => V r ω) (fun r i => z r i ω) m j - coefs j) ^ 2 = V 0 ω * z m j ω ^ 2 := by
    intro m ω
    rw [chaosDraw, add_sub_cancel_right, mul_pow, Real.sq_sqrt (hV0 ω), mul_comm]
  have mV := hV.aestronglyMeasurable
  have mk := hzk.aestronglyMeasurable
  have ml := hzl.aestronglyMeasurable
  have e1 : ∀ m, IndepFun (V 0) (z m j) μ → AEStronglyMeasurable (z m j) μ →
      ∫ ω, V 0 ω * z m j ω ^ 2 ∂μ = (∫ ω, V 0 ω ∂μ) * ∫ ω, z m j ω ^ 2 ∂μ := fun m hi hm =>
    (hi.comp measurable_id (measurable_id.pow_const 2)).integral_fun_mul_eq_mul_integral mV (hm.pow 2)
  have hVk : IndepFun (V 0) (z k j) μ := hindV.comp measurable_id measurable_fst
  have hVl : IndepFun (V 0) (z l j) μ := hindV.comp measurable_id measurable_snd
  have e2 : ∫ ω, (V 0 ω * z k j ω ^ 2) * (V 0 ω * z l j ω ^ 2) ∂μ
      = (∫ ω, V 0 ω ^ 2 ∂μ) * ((∫ ω, z k j ω ^ 2 ∂μ) * ∫ ω, z l j ω ^ 2 ∂μ) := by
    have h1 := (hindV.comp (φ := fun v : ℝ => v ^ 2) (ψ := fun s : ℝ × ℝ => s.1 ^ 2 * s.2 ^ 2) (by fun_prop)
      (by fun_prop)).integral_fun_mul_eq_mul_integral
      (show AEStronglyMeasurable (fun ω => V 0 ω ^ 2) μ from mV.pow 2)
      (show AEStronglyMeasurable (fun ω => z k j ω ^ 2 * z l j ω ^ 2) μ from (mk.pow 2).mul (ml.pow 2))
    have h2 := (hind.comp (φ := fun v : ℝ => v ^ 2) (ψ := fun v : ℝ => v ^ 2) (by fun_prop)
      (by fun_prop)).integral_fun_mul_eq_mul_integral (show AEStronglyMeasurable (fun ω => z k j ω ^ 2) μ from mk.pow 2)
      (show AEStronglyMeasurable (fun ω => z l j ω ^ 2) μ from ml.pow 2)
    simp only [Function.comp_apply] at h1 h2
    rw [← h2, ← h1]
    exact integral_congr_ae (Filter.Eventually.of_forall fun ω => by simp only; ring)
  have hcov : ∫ ω, (V 0 ω * z k j ω ^ 2) * (V 0 ω * z l j ω ^ 2) ∂μ
      - (∫ ω, V 0 ω * z k j ω ^ 2 ∂μ) * ∫ ω, V 0 ω * z l j ω ^ 2 ∂μ
      = variance (V 0) μ * (∫ ω, z k j ω ^ 2 ∂μ) * ∫ ω, z l j ω ^ 2 ∂μ := by
    rw [e2, e1 k hVk mk, e1 l hVl ml, variance_eq_sub hV]
    simp only [Pi.pow_apply]
    ring
  refine ⟨by simpa only [hD] using hcov, fun hI => ?_⟩
  have hc := (hI.comp (φ := fun d : Fin q → ℝ => (d j - coefs j) ^ 2) (ψ := fun d : Fin q → ℝ => (d j - coefs j) ^ 2) (by fun_prop)
    (by fun_prop)).integral_fun_mul_eq_mul_integral
      (by simp only [Function.comp_def, hD]; exact mV.mul (mk.pow 2)) (by simp only [Function.comp_def, hD]; exact mV.mul (ml.pow 2))
  simp only [Function.comp_apply, hD] at hc
  rw [hc, sub_self] at hcov
  have := mul_pos (mul_pos hVar hk) hl
  linarith

/-- Three independent signs: a random variance with values 0 and 2 and two reduced variables. -/
noncomputable def threeSigns : Measure (Fin 3 → Fin 4) := Measure.pi fun _ => fourLaw

instance : IsProbabilityMeasure threeSigns := by unfold threeSigns; infer_instance

theorem threeSigns_integral (i : Fin 3) (f : Fin 4 → ℝ) : ∫ ω, f (ω i) ∂threeSigns = (∑ a, f a) / 4 := by
  rw [← fourLaw_integral, ← (measurePreserving_eval (fun _ : Fin 3 => fourLaw) i).map_eq, integral_map (measurable_pi_apply i).aemeasurable
    (Measurable.of_discrete.aestronglyMeasurable)]
  rfl

example : ¬ IndepFun (fun ω : Fin 3 → Fin 4 => chaosDraw ![5] (fun _ => 1 + walsh 0 (ω 0)) (fun r _ => walsh 0 (ω (if r = 0 then 1 else 2))) 0)
    (fun ω => chaosDraw ![5] (fun _ => 1 + walsh 0 (ω 0)) (fun r _ => walsh 0 (ω (if r = 0 then 1 else 2))) 1) threeSigns := by
  have hI : iIndepFun (fun (i : Fin 3) (ω : Fin 3 → Fin 4) => walsh 0 (ω i)) threeSigns :=
    iIndepFun_pi (X := fun _ a => walsh 0 a) fun _ => by fun_prop
  refine (C96_violated (μ := threeSigns) ![5] (fun _ ω => 1 + walsh 0 (ω 0)) (fun r _ ω => walsh 0 (ω (if r = 0 then 1 else 2))) 0 1 0
    ?_ ?_ ?_ ?_ ?_ ?_ ?_ ?_ ?_).2
  · intro ω
    generalize ω 0 = a
    fin_cases a <;> simp [walsh]
  · exact MemLp.of_discrete
  · rw [variance_eq_integral Measurable.of_discrete.aemeasurable]
    simp only [threeSigns_integral 0 (fun a => 1 + walsh 0 a), threeSigns_integral 0 (fun a => (1 + walsh 0 a - (∑ a, (1 + walsh 0 a)) / 4) ^ 2)]
    simp [walsh, Fin.sum_univ_four]; norm_num
  · exact MemLp.of_discrete
  · exact MemLp.of_discrete
  · simp only [if_true, threeSigns_integral 1 (fun a => walsh 0 a ^ 2)]
    simp [walsh, Fin.sum_univ_four]; norm_num
  · simp only [one_ne_zero, if_false, threeSigns_integral 2 (fun a => walsh 0 a ^ 2)]
    simp [walsh, Fin.sum_univ_four]; norm_num
  · simpa using hI.indepFun (i := 1) (j := 2) (by decide)
  · have h := ((hI.indepFun_prodMk (fun _ => by fun_prop) 1 2 0 (by decide) (by decide)).symm).comp
      (φ := fun v : ℝ => 1 + v) (ψ := id) (by fun_prop) measurable_id
    simpa [Function.comp_def] using h

example : iIndepFun (fun k (ω : ℕ → Fin 4) => linearDraw ![5, 3] (fun l => 2 + walsh 0 (ω l)) (fun l _ => walsh 1 (ω l)) k)
    (Measure.infinitePi fun _ : ℕ => fourLaw) := by
  have h : iIndepFun (fun (k : ℕ) (ω : ℕ → Fin 4) => ((2 + walsh 0 (ω k), fun _ => walsh 1 (ω k)) : ℝ × (Fin 2 → ℝ)))
      (Measure.infinitePi fun _ : ℕ => fourLaw) :=
    iIndepFun_infinitePi (X := fun (_ : ℕ) (a : Fin 4) => ((2 + walsh 0 a, fun _ => walsh 1 a) : ℝ × (Fin 2 → ℝ)))
      fun _ => Measurable.of_discrete
  exact C96_linear_independent_partial ![5, 3] (fun k (ω : ℕ → Fin 4) => 2 + walsh 0 (ω k)) (fun k _ ω => walsh 1 (ω k)) h

end Draws
end Verif.Props
