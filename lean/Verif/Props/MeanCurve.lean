import Verif.Props.GaussPOD
import Verif.Props.ResidualVar
import Verif.Props.Sampling
import Mathlib.Probability.Distributions.Gaussian.Multivariate
import Mathlib.MeasureTheory.Group.IntegralConvolution

/-!
# C112: mean of the simulated POD curves; C113: covariance of the least squares coefficients
-/

namespace Verif.Props
open Verif.Py Verif.Model MeasureTheory ProbabilityTheory Matrix

/-! ## Gaussian averages of the normal distribution function -/

theorem PhiC_antitone : Antitone PhiC := by
  intro a b hab
  rw [PhiC_eq, PhiC_eq]
  linarith [Phi_strictMono.monotone hab]

theorem PhiC_bounds (x : ℝ) : 0 ≤ PhiC x ∧ PhiC x ≤ 1 := ⟨(PhiC_pos x).le, by rw [PhiC_eq]; linarith [Phi_pos x]⟩

theorem integral_PhiC_shift (v : NNReal) (t : ℝ) :
    ∫ w, PhiC (t - w) ∂(gaussianReal 0 v) = PhiC (t / Real.sqrt (1 + v)) := by
  have hpos : 0 < Real.sqrt (1 + (v : ℝ)) := Real.sqrt_pos.mpr (by positivity)
  have hconv := integral_conv (μ := gaussianReal 0 v) (ν := gaussianReal 0 1) (f := (Set.Ioi t).indicator fun _ => (1 : ℝ))
    ((integrable_const _).indicator measurableSet_Ioi)
  rw [gaussianReal_conv_gaussianReal, integral_indicator_const _ measurableSet_Ioi, smul_eq_mul, mul_one] at hconv
  have hin : ∀ w : ℝ, ∫ z, (Set.Ioi t).indicator (fun _ => (1 : ℝ)) (w + z) ∂(gaussianReal 0 1) = PhiC (t - w) := by
    intro w
    have : (fun z => (Set.Ioi t).indicator (fun _ => (1 : ℝ)) (w + z)) = (Set.Ioi (t - w)).indicator fun _ => (1 : ℝ) := by
      funext z
      simp only [Set.indicator_apply, Set.mem_Ioi, sub_lt_iff_lt_add']
    rw [this, integral_indicator_const _ measurableSet_Ioi, smul_eq_mul, mul_one, PhiC]
  simp only [hin] at hconv
  rw [← hconv]
  have hv : v + 1 = sqv (Real.sqrt (1 + (v : ℝ))) := by
    apply NNReal.eq
    rw [coe_sqv, Real.sq_sqrt (by positivity)]
    push_cast; ring
  rw [hv, gauss_Ioi hpos, PhiC_eq]
  simp

theorem integral_PhiC_affine (v : NNReal) (t k : ℝ) :
    ∫ w, PhiC (t - k * w) ∂(gaussianReal 0 v) = PhiC (t / Real.sqrt (1 + k ^ 2 * v)) := by
  have h := gaussianReal_map_const_mul (μ := 0) (v := v) k
  rw [mul_zero] at h
  have h2 := integral_PhiC_shift (NNReal.mk (k ^ 2) (sq_nonneg k) * v) t
  have hm : Measurable fun w : ℝ => PhiC (t - w) := PhiC_antitone.measurable.comp (by fun_prop)
  rw [← h, integral_map (by fun_prop) hm.aestronglyMeasurable] at h2
  rw [h2]
  simp

/-- A centred normal vector with covariance matrix `S`: every linear combination is normal with the variance given by `S`. -/
structure NormalVector {Ω : Type*} [MeasurableSpace Ω] {q : ℕ} (P : Measure Ω) (z : Ω → Fin q → ℝ) (S : Matrix (Fin q) (Fin q) ℝ) :
    Prop where
  meas : Measurable z
  law : ∀ c : Fin q → ℝ, P.map (fun ω => c ⬝ᵥ z ω) = gaussianReal 0 (Real.toNNReal (c ⬝ᵥ (S *ᵥ c)))

/-- Such vectors exist for every covariance matrix. -/
theorem normalVector_exists {q : ℕ} (S : Matrix (Fin q) (Fin q) ℝ) (hS : S.PosSemidef) :
    NormalVector (multivariateGaussian 0 S) (fun x : EuclideanSpace ℝ (Fin q) => WithLp.ofLp x) S where
  meas := by fun_prop
  law := by
    intro c
    have hL : (fun x : EuclideanSpace ℝ (Fin q) => c ⬝ᵥ WithLp.ofLp x) = innerSL ℝ (WithLp.toLp 2 c) := by
      funext x
      rw [innerSL_apply_apply, EuclideanSpace.inner_eq_star_dotProduct]
      simp [dotProduct_comm]
    rw [hL, IsGaussian.map_eq_gaussianReal]
    congr 1
    · rw [ContinuousLinearMap.integral_comp_id_comm IsGaussian.integrable_id]
      simp
    · congr 1
      have := covarianceBilin_multivariateGaussian (μ := 0) hS (WithLp.toLp 2 c) (WithLp.toLp 2 c)
      rw [covarianceBilin_apply_eq_cov IsGaussian.memLp_two_id, covariance_self (by fun_prop)] at this
      exact this

section Linear
variable {Ω : Type*} [MeasurableSpace Ω] {P : Measure Ω} {n : ℕ}

theorem NormalVector.average {q : ℕ} {z : Ω → Fin q → ℝ} {S : Matrix (Fin q) (Fin q) ℝ} (hz : NormalVector P z S) (hS : S.PosSemidef)
    (c : Fin q → ℝ) (t k : ℝ) : ∫ ω, PhiC (t - k * (c ⬝ᵥ z ω)) ∂P = PhiC (t / Real.sqrt (1 + k ^ 2 * (c ⬝ᵥ (S *ᵥ c)))) := by
  have hm : Measurable fun ω => c ⬝ᵥ z ω := by
    unfold dotProduct
    exact Finset.measurable_sum _ fun i _ => measurable_const.mul ((measurable_pi_apply i).comp hz.meas)
  have h := integral_PhiC_affine (Real.toNNReal (c ⬝ᵥ (S *ᵥ c))) t k
  have hm2 : Measurable fun w : ℝ => PhiC (t - k * w) := PhiC_antitone.measurable.comp (by fun_prop)
  rw [← hz.law c, integral_map hm.aemeasurable hm2.aestronglyMeasurable] at h
  have hnn : 0 ≤ c ⬝ᵥ (S *ᵥ c) := by simpa using hS.dotProduct_mulVec_nonneg c
  rw [h, Real.coe_toNNReal _ hnn]

theorem gram_inv_posSemidef {p : ℕ} (A : Matrix (Fin n) (Fin p) ℝ) : ((Aᵀ * A)⁻¹).PosSemidef := by
  have : (Aᵀ * A).PosSemidef := by
    have := Matrix.posSemidef_conjTranspose_mul_self A
    rwa [Matrix.conjTranspose_eq_transpose_of_trivial] at this
  exact this.inv

/-- **C112, linear model (restricted).**  For a given residual standard deviation the mean of the simulated Gaussian curves is the POD
curve, at every defect size. -/
theorem C112_linear_partial [IsProbabilityMeasure P] (x : Fin n → ℝ) (z : Ω → Fin 2 → ℝ)
    (hz : NormalVector P z ((designMatrix x)ᵀ * designMatrix x)⁻¹) (b0 b1 det sigma a : ℝ) (hs : 0 < sigma) :
    ∫ ω, gaussCurve b0 b1 det (z ω 0) (z ω 1) sigma a ∂P = podGauss x sigma det (fun x => b0 + b1 * x) a := by
  have h := hz.average (gram_inv_posSemidef _) ![1, a] ((det - (b0 + b1 * a)) / sigma) 1
  have hcurve : ∀ ω, gaussCurve b0 b1 det (z ω 0) (z ω 1) sigma a
      = PhiC ((det - (b0 + b1 * a)) / sigma - 1 * (![1, a] ⬝ᵥ z ω)) := by
    intro ω
    rw [gaussCurve]
    congr 1
    simp only [dotProduct, Fin.sum_univ_two, Matrix.cons_val_zero, Matrix.cons_val_one]
    field_simp
    ring
  simp only [hcurve]
  rw [h, podGauss, predictionVariance]
  congr 1
  rw [one_pow, one_mul, Real.sqrt_mul (sq_nonneg sigma), Real.sqrt_sq hs.le, div_div]

/-- **C112, linear model with drawn deviations (restricted).**  When the deviation is drawn independently of the normal vector, as the
code does, the mean of the simulated curves is the mean over the deviations of the POD curves. -/
theorem C112_linear_drawn_partial [IsProbabilityMeasure P] (x : Fin n → ℝ) (z : Ω → Fin 2 → ℝ)
    (hz : NormalVector P z ((designMatrix x)ᵀ * designMatrix x)⁻¹) (ν : Measure ℝ) [IsProbabilityMeasure ν] (hν : ∀ᵐ s ∂ν, 0 < s)
    (b0 b1 det a : ℝ) :
    ∫ q, gaussCurve b0 b1 det (z q.1 0) (z q.1 1) q.2 a ∂(P.prod ν) = ∫ s, podGauss x s det (fun x => b0 + b1 * x) a ∂ν := by
  have hm : Measurable fun q : Ω × ℝ => gaussCurve b0 b1 det (z q.1 0) (z q.1 1) q.2 a := by
    unfold gaussCurve
    refine PhiC_antitone.measurable.comp ?_
    have h0 : Measurable fun q : Ω × ℝ => z q.1 0 := (measurable_pi_apply 0).comp (hz.meas.comp measurable_fst)
    have h1 : Measurable fun q : Ω × ℝ => z q.1 1 := (measurable_pi_apply 1).comp (hz.meas.comp measurable_fst)
    have h2 : Measurable fun q : Ω × ℝ => q.2 := measurable_snd
    exact (measurable_const.sub (((h0.mul h2).add_const b0).add (((h1.mul h2).add_const b1).mul_const a))).div h2
  have hi : Integrable (fun q : Ω × ℝ => gaussCurve b0 b1 det (z q.1 0) (z q.1 1) q.2 a) (P.prod ν) := by
    refine Integrable.of_bound hm.aestronglyMeasurable 1 (Filter.Eventually.of_forall fun q => ?_)
    rw [Real.norm_eq_abs, gaussCurve, abs_of_nonneg (PhiC_bounds _).1]
    exact (PhiC_bounds _).2
  rw [integral_prod_symm _ hi]
  refine integral_congr_ae (hν.mono fun s hs => ?_)
  exact C112_linear_partial x z hz b0 b1 det s a hs

/-- Three defects, normal vector with the covariance of the design. -/
example : ∫ z, gaussCurve 1 2 4 (WithLp.ofLp z 0) (WithLp.ofLp z 1) 3 5
      ∂(multivariateGaussian 0 ((designMatrix ![1, 2, 4])ᵀ * designMatrix ![1, 2, 4])⁻¹)
    = podGauss ![1, 2, 4] 3 4 (fun x => 1 + 2 * x) 5 :=
  C112_linear_partial _ _ (normalVector_exists _ (gram_inv_posSemidef _)) 1 2 4 3 5 (by norm_num)

end Linear

section Chaos
variable {Ω X : Type} [MeasurableSpace Ω] [MeasurableSpace X] {P : Measure Ω} {n p : ℕ}

theorem measurable_dot {q : ℕ} {f g : X → Fin q → ℝ} (hf : Measurable f) (hg : Measurable g) : Measurable fun x => f x ⬝ᵥ g x := by
  unfold dotProduct
  exact Finset.measurable_sum _ fun i _ => ((measurable_pi_apply i).comp hf).mul ((measurable_pi_apply i).comp hg)

/-- The mean over the drawn coefficients of the exact POD of the chaos: the predictive probability including the uncertainty of the
coefficients. -/
theorem chaos_mean_curve [IsProbabilityMeasure P] (law : Measure X) [IsProbabilityMeasure law] (A : Matrix (Fin n) (Fin p) ℝ)
    (z : Ω → Fin p → ℝ) (hz : NormalVector P z (Aᵀ * A)⁻¹) (psi : X → Fin p → ℝ) (hpsi : Measurable psi) (coefs : Fin p → ℝ)
    (V se det : ℝ) (hV : 0 ≤ V) (hse : 0 < se) :
    ∫ ω, exceedanceNoise law (fun x => psi x ⬝ᵥ chaosDraw coefs (fun _ => V) (fun _ => z ω) 0) (fun _ => se) det ∂P
      = ∫ x, PhiC ((det - psi x ⬝ᵥ coefs) / se / Real.sqrt (1 + V / se ^ 2 * (psi x ⬝ᵥ ((Aᵀ * A)⁻¹ *ᵥ psi x)))) ∂law := by
  have hdot : ∀ ω x, psi x ⬝ᵥ chaosDraw coefs (fun _ => V) (fun _ => z ω) 0
      = psi x ⬝ᵥ coefs + Real.sqrt V * (psi x ⬝ᵥ z ω) := by
    intro ω x
    simp only [dotProduct, chaosDraw, Finset.mul_sum, ← Finset.sum_add_distrib]
    exact Finset.sum_congr rfl fun i _ => by ring
  have hmx : ∀ ω, Measurable fun x => psi x ⬝ᵥ chaosDraw coefs (fun _ => V) (fun _ => z ω) 0 := fun ω =>
    measurable_dot hpsi measurable_const
  have h1 : ∀ ω, exceedanceNoise law (fun x => psi x ⬝ᵥ chaosDraw coefs (fun _ => V) (fun _ => z ω) 0) (fun _ => se) det
      = ∫ x, PhiC ((det - psi x ⬝ᵥ coefs) / se - Real.sqrt V / se * (psi x ⬝ᵥ z ω)) ∂law := by
    intro ω
    rw [(C103_pod_partial law _ (fun _ => se) (hmx ω) measurable_const (fun _ => hse) det).1]
    refine integral_congr_ae (Filter.Eventually.of_forall fun x => ?_)
    simp only [hdot]
    congr 1
    field_simp
    ring
  simp only [h1]
  have hm : Measurable fun q : Ω × X => PhiC ((det - psi q.2 ⬝ᵥ coefs) / se - Real.sqrt V / se * (psi q.2 ⬝ᵥ z q.1)) := by
    refine PhiC_antitone.measurable.comp ?_
    have h2 : Measurable fun q : Ω × X => psi q.2 ⬝ᵥ coefs := measurable_dot (hpsi.comp measurable_snd) measurable_const
    have h3 : Measurable fun q : Ω × X => psi q.2 ⬝ᵥ z q.1 :=
      measurable_dot (hpsi.comp measurable_snd) (hz.meas.comp measurable_fst)
    fun_prop
  have hi : Integrable (fun q : Ω × X => PhiC ((det - psi q.2 ⬝ᵥ coefs) / se - Real.sqrt V / se * (psi q.2 ⬝ᵥ z q.1))) (P.prod law) := by
    refine Integrable.of_bound hm.aestronglyMeasurable 1 (Filter.Eventually.of_forall fun q => ?_)
    rw [Real.norm_eq_abs, abs_of_nonneg (PhiC_bounds _).1]
    exact (PhiC_bounds _).2
  rw [integral_integral_swap hi]
  refine integral_congr_ae (Filter.Eventually.of_forall fun x => ?_)
  dsimp only
  rw [hz.average (gram_inv_posSemidef A) (psi x) _ (Real.sqrt V / se)]
  congr 3
  rw [div_pow, Real.sq_sqrt hV]

/-- **C112 is violated by the chaos.**  The POD curve ignores the uncertainty of the coefficients that the simulated curves contain: at
a defect size where the metamodel is below the threshold for all parameters, the mean of the simulated curves is strictly larger than
the POD, for every design of full rank, every basis with non-zero values and every positive residual variance. -/
theorem C112_violated [IsProbabilityMeasure P] (law : Measure X) [IsProbabilityMeasure law] (A : Matrix (Fin n) (Fin p) ℝ)
    (hA : IsUnit (Aᵀ * A).det) (z : Ω → Fin p → ℝ) (hz : NormalVector P z (Aᵀ * A)⁻¹) (psi : X → Fin p → ℝ) (hpsi : Measurable psi)
    (hne : ∀ x, psi x ≠ 0) (coefs : Fin p → ℝ) (V se det : ℝ) (hV : 0 < V) (hse : 0 < se) (hbelow : ∀ x, psi x ⬝ᵥ coefs < det) :
    exceedanceNoise law (fun x => psi x ⬝ᵥ coefs) (fun _ => se) det
      < ∫ ω, exceedanceNoise law (fun x => psi x ⬝ᵥ chaosDraw coefs (fun _ => V) (fun _ => z ω) 0) (fun _ => se) det ∂P := by
  rw [chaos_mean_curve law A z hz psi hpsi coefs V se det hV.le hse,
    (C103_pod_partial law (fun x => psi x ⬝ᵥ coefs) (fun _ => se) (measurable_dot hpsi measurable_const) measurable_const
      (fun _ => hse) det).1]
  have hposdef : ((Aᵀ * A)⁻¹).PosDef :=
    (gram_inv_posSemidef A).posDef_iff_isUnit.mpr (by
      rw [Matrix.isUnit_nonsing_inv_iff, Matrix.isUnit_iff_isUnit_det]; exact hA)
  have hh : ∀ x, 0 < psi x ⬝ᵥ ((Aᵀ * A)⁻¹ *ᵥ psi x) := fun x => by simpa using hposdef.dotProduct_mulVec_pos (hne x)
  have hlt : ∀ x, PhiC ((det - psi x ⬝ᵥ coefs) / se)
      < PhiC ((det - psi x ⬝ᵥ coefs) / se / Real.sqrt (1 + V / se ^ 2 * (psi x ⬝ᵥ ((Aᵀ * A)⁻¹ *ᵥ psi x)))) := by
    intro x
    have hk : 0 < V / se ^ 2 * (psi x ⬝ᵥ ((Aᵀ * A)⁻¹ *ᵥ psi x)) := mul_pos (by positivity) (hh x)
    have hs1 : 1 < Real.sqrt (1 + V / se ^ 2 * (psi x ⬝ᵥ ((Aᵀ * A)⁻¹ *ᵥ psi x))) := by
      rw [Real.lt_sqrt (by norm_num)]; linarith
    have ht : 0 < (det - psi x ⬝ᵥ coefs) / se := div_pos (by linarith [hbelow x]) hse
    have : (det - psi x ⬝ᵥ coefs) / se / Real.sqrt (1 + V / se ^ 2 * (psi x ⬝ᵥ ((Aᵀ * A)⁻¹ *ᵥ psi x)))
        < (det - psi x ⬝ᵥ coefs) / se := div_lt_self ht hs1
    rw [PhiC_eq, PhiC_eq]
    linarith [Phi_strictMono this]
  have hm1 : Measurable fun x => psi x ⬝ᵥ coefs := measurable_dot hpsi measurable_const
  have hm2 : Measurable fun x => psi x ⬝ᵥ ((Aᵀ * A)⁻¹ *ᵥ psi x) := by
    refine measurable_dot hpsi (measurable_pi_iff.mpr fun i => ?_)
    exact measurable_dot (f := fun _ => (Aᵀ * A)⁻¹ i) measurable_const hpsi
  have hi : ∀ f : X → ℝ, Measurable f → Integrable (fun x => PhiC (f x)) law := by
    intro f hf
    refine Integrable.of_bound (PhiC_antitone.measurable.comp hf).aestronglyMeasurable 1 (Filter.Eventually.of_forall fun q => ?_)
    rw [Real.norm_eq_abs, abs_of_nonneg (PhiC_bounds _).1]
    exact (PhiC_bounds _).2
  have i1 := hi (fun x => (det - psi x ⬝ᵥ coefs) / se) (by fun_prop)
  have i2 := hi (fun x => (det - psi x ⬝ᵥ coefs) / se / Real.sqrt (1 + V / se ^ 2 * (psi x ⬝ᵥ ((Aᵀ * A)⁻¹ *ᵥ psi x)))) (by fun_prop)
  rw [← sub_pos, ← integral_sub i2 i1, integral_pos_iff_support_of_nonneg (fun x => (sub_pos.mpr (hlt x)).le) (i2.sub i1)]
  have : (Function.support fun x => PhiC ((det - psi x ⬝ᵥ coefs) / se / Real.sqrt (1 + V / se ^ 2 * (psi x ⬝ᵥ ((Aᵀ * A)⁻¹ *ᵥ psi x))))
      - PhiC ((det - psi x ⬝ᵥ coefs) / se)) = Set.univ := by
    ext x; simp [(sub_pos.mpr (hlt x)).ne']
  rw [this]
  simp

/-- Constant basis, coefficient 0, threshold 1. -/
example : exceedanceNoise (Measure.dirac ()) (fun _ => (fun _ : Fin 1 => (1 : ℝ)) ⬝ᵥ fun _ => 0) (fun _ => 1) 1
    < ∫ z, exceedanceNoise (Measure.dirac ()) (fun _ => (fun _ : Fin 1 => (1 : ℝ)) ⬝ᵥ
        chaosDraw (fun _ => 0) (fun _ => 1) (fun _ => WithLp.ofLp z) 0) (fun _ => 1) 1
      ∂(multivariateGaussian 0 ((1 : Matrix (Fin 1) (Fin 1) ℝ)ᵀ * 1)⁻¹) :=
  C112_violated (Measure.dirac ()) (1 : Matrix (Fin 1) (Fin 1) ℝ) (by simp) _ (normalVector_exists _ (gram_inv_posSemidef _))
    (fun _ _ => 1) measurable_const (fun _ h => one_ne_zero (congrFun h 0)) (fun _ => 0) 1 1 1 one_pos one_pos (by simp [dotProduct])

end Chaos

/-! ## C113 -/

section Cov
variable {Ω : Type*} [MeasurableSpace Ω] {μ : Measure Ω} {n p : ℕ}

theorem lsCoefs_error (A : Matrix (Fin n) (Fin p) ℝ) (hA : IsUnit (Aᵀ * A).det) (beta : Fin p → ℝ) (eps : Fin n → ℝ) :
    lsCoefs A (A *ᵥ beta + eps) - beta = ((Aᵀ * A)⁻¹ * Aᵀ) *ᵥ eps := by
  rw [lsCoefs, Matrix.mulVec_add, Matrix.mulVec_add, Matrix.mulVec_mulVec, Matrix.mulVec_mulVec, Matrix.mul_assoc,
    Matrix.nonsing_inv_mul _ hA, Matrix.one_mulVec, Matrix.mulVec_mulVec]
  abel

/-- **C113.**  Data `y = A β + ε` with white noise: the second moments of the errors of the least squares coefficients are the residual
variance times the inverse Gram matrix, the covariance matrix with which both the linear model and the chaos draw their coefficients. -/
theorem C113_covariance (A : Matrix (Fin n) (Fin p) ℝ) (hA : IsUnit (Aᵀ * A).det) (beta : Fin p → ℝ) (eps : Fin n → Ω → ℝ) (var : ℝ)
    (hw : WhiteNoise μ eps var) (i j : Fin p) :
    ∫ ω, (lsCoefs A (A *ᵥ beta + fun k => eps k ω) i - beta i) * (lsCoefs A (A *ᵥ beta + fun k => eps k ω) j - beta j) ∂μ
      = var * (Aᵀ * A)⁻¹ i j := by
  set B := (Aᵀ * A)⁻¹ * Aᵀ with hB
  have herr : ∀ (ω : Ω) (i : Fin p), lsCoefs A (A *ᵥ beta + fun k => eps k ω) i - beta i = ∑ k, B i k * eps k ω := by
    intro ω i
    have := congrFun (lsCoefs_error A hA beta fun k => eps k ω) i
    rw [Pi.sub_apply] at this
    rw [this]; rfl
  have hprod : ∀ ω, (lsCoefs A (A *ᵥ beta + fun k => eps k ω) i - beta i) * (lsCoefs A (A *ᵥ beta + fun k => eps k ω) j - beta j)
      = ∑ k, ∑ l, (B i k * B j l) * (eps k ω * eps l ω) := by
    intro ω
    rw [herr, herr, Finset.sum_mul_sum]
    exact Finset.sum_congr rfl fun k _ => Finset.sum_congr rfl fun l _ => by ring
  simp only [hprod]
  rw [expected_quad (fun k l => B i k * B j l) eps var hw, mul_comm]
  congr 1
  have h1 : ∑ k, B i k * B j k = (B * Bᵀ) i j := rfl
  rw [h1, hB, Matrix.transpose_mul, Matrix.transpose_transpose, Matrix.mul_assoc, ← Matrix.mul_assoc Aᵀ A]
  have hsymm : ((Aᵀ * A)⁻¹)ᵀ = (Aᵀ * A)⁻¹ := by
    rw [Matrix.transpose_nonsing_inv, Matrix.transpose_mul, Matrix.transpose_transpose]
  rw [hsymm, Matrix.mul_nonsing_inv _ hA, Matrix.mul_one]

/-- **C113, the draws.**  The coefficients drawn by the code have the estimated coefficients as mean and the drawn residual variance times
the inverse Gram matrix as covariance: every linear combination is normal with these parameters (linear model: `sigma`, chaos:
`sqrt V`). -/
theorem C113_draws {q : ℕ} {P : Measure Ω} [IsProbabilityMeasure P] (A : Matrix (Fin n) (Fin q) ℝ) (z : Ω → Fin q → ℝ)
    (hz : NormalVector P z (Aᵀ * A)⁻¹) (coefs c : Fin q → ℝ) (sigma V : ℝ) (hV : 0 ≤ V) :
    P.map (fun ω => c ⬝ᵥ linearDraw coefs (fun _ => sigma) (fun _ => z ω) 0)
      = gaussianReal (c ⬝ᵥ coefs) (Real.toNNReal (sigma ^ 2 * (c ⬝ᵥ ((Aᵀ * A)⁻¹ *ᵥ c)))) ∧
    P.map (fun ω => c ⬝ᵥ chaosDraw coefs (fun _ => V) (fun _ => z ω) 0)
      = gaussianReal (c ⬝ᵥ coefs) (Real.toNNReal (V * (c ⬝ᵥ ((Aᵀ * A)⁻¹ *ᵥ c)))) := by
  have hm : Measurable fun ω => c ⬝ᵥ z ω := by
    unfold dotProduct
    exact Finset.measurable_sum _ fun i _ => measurable_const.mul ((measurable_pi_apply i).comp hz.meas)
  have hnn : 0 ≤ c ⬝ᵥ ((Aᵀ * A)⁻¹ *ᵥ c) := by simpa using (gram_inv_posSemidef A).dotProduct_mulVec_nonneg c
  have key : ∀ s : ℝ, P.map (fun ω => c ⬝ᵥ fun j => z ω j * s + coefs j)
      = gaussianReal (c ⬝ᵥ coefs) (Real.toNNReal (s ^ 2 * (c ⬝ᵥ ((Aᵀ * A)⁻¹ *ᵥ c)))) := by
    intro s
    have hf : (fun ω => c ⬝ᵥ fun j => z ω j * s + coefs j) = (fun y => y + c ⬝ᵥ coefs) ∘ (fun y => s * y) ∘ fun ω => c ⬝ᵥ z ω := by
      funext ω
      simp only [Function.comp_apply, dotProduct, Finset.mul_sum, ← Finset.sum_add_distrib]
      exact Finset.sum_congr rfl fun i _ => by ring
    rw [hf, ← Measure.map_map (by fun_prop) (by fun_prop), ← Measure.map_map (by fun_prop) hm, hz.law c, gaussianReal_map_const_mul,
      gaussianReal_map_add_const, mul_zero, zero_add]
    congr 1
    apply NNReal.eq
    rw [NNReal.coe_mul, Real.coe_toNNReal _ hnn, Real.coe_toNNReal _ (mul_nonneg (sq_nonneg s) hnn)]
    rfl
  refine ⟨key sigma, ?_⟩
  have := key (Real.sqrt V)
  rw [Real.sq_sqrt hV] at this
  exact this

/-- White noise of three values (Walsh signs), straight line design. -/
example (beta : Fin 2 → ℝ) (hA : IsUnit ((designMatrix ![(0 : ℝ), 1, 2])ᵀ * designMatrix ![(0 : ℝ), 1, 2]).det) (i j : Fin 2) :
    ∫ ω, (lsCoefs (designMatrix ![0, 1, 2]) (designMatrix ![0, 1, 2] *ᵥ beta + fun k => walsh k ω) i - beta i)
      * (lsCoefs (designMatrix ![0, 1, 2]) (designMatrix ![0, 1, 2] *ᵥ beta + fun k => walsh k ω) j - beta j) ∂fourLaw
      = 1 * ((designMatrix ![(0 : ℝ), 1, 2])ᵀ * designMatrix ![(0 : ℝ), 1, 2])⁻¹ i j :=
  C113_covariance _ hA beta walsh 1 walsh_white i j

example : IsUnit ((designMatrix ![(0 : ℝ), 1, 2])ᵀ * designMatrix ![(0 : ℝ), 1, 2]).det :=
  design_unit _ ⟨0, 1, by norm_num⟩

end Cov

end Verif.Props
