import Verif.Props.GaussRatio
import Verif.Props.DwFormula
import Mathlib.Analysis.Matrix.Spectrum

/-!
# C176: the normal approximation of the Durbin-Watson test has the exact mean and variance (/repo/otpod/_math_tools.py 179-216)
-/

namespace Verif.Props
open Verif.Py Verif.Model MeasureTheory ProbabilityTheory Matrix

section
variable {m : ℕ} (x : Fin (m + 2) → ℝ)

theorem gram_symm : (((dwX x)ᵀ * dwX x)⁻¹)ᵀ = ((dwX x)ᵀ * dwX x)⁻¹ := by
  rw [Matrix.transpose_nonsing_inv, Matrix.transpose_mul, Matrix.transpose_transpose]

theorem residProj_transpose : (residProj x)ᵀ = residProj x := by
  rw [residProj, Matrix.transpose_sub, Matrix.transpose_one, Matrix.transpose_mul, Matrix.transpose_mul, gram_symm, Matrix.transpose_transpose,
    Matrix.mul_assoc]

theorem gram_unit (hx : ∃ i j, x i ≠ x j) : IsUnit ((dwX x)ᵀ * dwX x).det := by
  by_contra h
  have hz : ((dwX x)ᵀ * dwX x)⁻¹ = 0 := Matrix.nonsing_inv_apply_not_isUnit _ h
  have h1 := (C11_projector x hx).1
  rw [residProj, hz, Matrix.mul_zero, Matrix.zero_mul, sub_zero, Matrix.one_mul] at h1
  have := congrFun (congrFun h1 0) 0
  simp [dwX] at this

theorem residProj_trace (hx : ∃ i j, x i ≠ x j) : (residProj x).trace = m := by
  rw [residProj, Matrix.trace_sub, Matrix.trace_one, Matrix.mul_assoc, Matrix.trace_mul_comm, Matrix.mul_assoc,
    Matrix.nonsing_inv_mul _ (gram_unit x hx), Matrix.trace_one]
  simp

/-- The residuals of the regression are the projection of the signals. -/
theorem olsResiduals_proj (hx : ∃ i j, x i ≠ x j) (y : Fin (m + 2) → ℝ) : olsResiduals x y = residProj x *ᵥ y := by
  have hs : ∑ i, (x i - smean x) ^ 2 ≠ 0 := (sxx_pos x hx).ne'
  have h1 := resid_sum x y hs
  have h2 := resid_orth x y hs
  have hX : (dwX x)ᵀ *ᵥ olsResiduals x y = 0 := by
    funext j
    fin_cases j
    · simpa [Matrix.mulVec, dotProduct, dwX] using h1
    · have : ∑ i, x i * olsResiduals x y i = 0 := by rw [← h2]; exact Finset.sum_congr rfl fun i _ => mul_comm _ _
      simpa [Matrix.mulVec, dotProduct, dwX] using this
  have hy : y = dwX x *ᵥ ![olsIntercept x y, olsSlope x y] + olsResiduals x y := by
    funext i
    have e : (dwX x *ᵥ ![olsIntercept x y, olsSlope x y]) i = olsIntercept x y + olsSlope x y * x i := by
      rw [Matrix.mulVec, dotProduct, Fin.sum_univ_two]
      change 1 * olsIntercept x y + x i * olsSlope x y = _
      ring
    rw [Pi.add_apply, e, olsResiduals]; ring
  conv_rhs => rw [hy]
  rw [Matrix.mulVec_add, Matrix.mulVec_mulVec, (C11_projector x hx).1, Matrix.zero_mulVec, zero_add, residProj, Matrix.sub_mulVec, Matrix.one_mulVec,
    ← Matrix.mulVec_mulVec, hX, Matrix.mulVec_zero, sub_zero]

/-- Orthonormal axes of the projector and of the numerator. -/
theorem dw_axes (hx : ∃ i j, x i ≠ x j) : ∃ (b : OrthonormalBasis (Fin (m + 2)) ℝ (EuclideanSpace ℝ (Fin (m + 2)))) (W : Finset (Fin (m + 2)))
    (lam : Fin (m + 2) → ℝ), (∀ i, residProj x *ᵥ (b i).ofLp = if i ∈ W then (b i).ofLp else 0) ∧
      (∀ i, (residProj x * dwA ℝ (m + 1) * residProj x) *ᵥ (b i).ofLp = if i ∈ W then lam i • (b i).ofLp else 0) := by
  set M := residProj x with hM
  set A := dwA ℝ (m + 1) with hA
  have hMt : Mᵀ = M := residProj_transpose x
  have hMM : M * M = M := (C11_projector x hx).2
  have hAt : Aᵀ = A := dwA_transpose
  have hS : (M * A * M - (1 - M)).IsHermitian := by
    rw [Matrix.IsHermitian, Matrix.conjTranspose_eq_transpose_of_trivial, Matrix.transpose_sub, Matrix.transpose_sub, Matrix.transpose_one,
      Matrix.transpose_mul, Matrix.transpose_mul, hMt, hAt, Matrix.mul_assoc]
  set μ := hS.eigenvalues with hμ
  refine ⟨hS.eigenvectorBasis, Finset.univ.filter fun i => μ i ≠ -1, μ, ?_⟩
  have key : ∀ i, M *ᵥ (hS.eigenvectorBasis i).ofLp = (if μ i ≠ -1 then (hS.eigenvectorBasis i).ofLp else 0) ∧
      (M * A * M) *ᵥ (hS.eigenvectorBasis i).ofLp = μ i • M *ᵥ (hS.eigenvectorBasis i).ofLp := by
    intro i
    set u := (hS.eigenvectorBasis i).ofLp with hu
    have he : (M * A * M - (1 - M)) *ᵥ u = μ i • u := hS.mulVec_eigenvectorBasis i
    have e1 : (M * A * M) *ᵥ u = μ i • M *ᵥ u := by
      have := congrArg (fun w => M *ᵥ w) he
      simp only [Matrix.mulVec_mulVec, Matrix.mulVec_smul] at this
      rw [Matrix.mul_sub, Matrix.mul_sub, Matrix.mul_one, hMM, sub_self, sub_zero, ← Matrix.mul_assoc, ← Matrix.mul_assoc, hMM] at this
      exact this
    have e2 : -(u - M *ᵥ u) = μ i • (u - M *ᵥ u) := by
      rw [Matrix.sub_mulVec, e1, Matrix.sub_mulVec, Matrix.one_mulVec] at he
      rw [smul_sub, ← he]; abel
    refine ⟨?_, e1⟩
    split_ifs with h
    · have e3 : (μ i + 1) • (u - M *ᵥ u) = 0 := by rw [add_smul, one_smul, ← e2]; abel
      have : μ i + 1 ≠ 0 := fun h0 => h (by linarith)
      have := (smul_eq_zero.1 e3).resolve_left this
      exact (sub_eq_zero.1 this).symm
    · push Not at h
      rw [h] at e1
      have e4 : (M *ᵥ u) ⬝ᵥ (A *ᵥ (M *ᵥ u)) = -((M *ᵥ u) ⬝ᵥ (M *ᵥ u)) := by
        have a1 : M *ᵥ (M *ᵥ u) = M *ᵥ u := by rw [Matrix.mulVec_mulVec, hMM]
        have a2 : (M *ᵥ u) ⬝ᵥ (A *ᵥ (M *ᵥ u)) = (M *ᵥ u) ⬝ᵥ ((M * A * M) *ᵥ u) := by
          conv_lhs => rw [← a1]
          rw [← Matrix.mulVec_mulVec, ← Matrix.mulVec_mulVec, Matrix.dotProduct_mulVec (M *ᵥ u) M, ← Matrix.mulVec_transpose, hMt, a1]
        rw [a2, e1, dotProduct_smul]
        simp
      have e5 : 0 ≤ (M *ᵥ u) ⬝ᵥ (A *ᵥ (M *ᵥ u)) := by
        rw [hA, ← dw_num_eq]; exact Finset.sum_nonneg fun i _ => sq_nonneg _
      have e6 : 0 ≤ (M *ᵥ u) ⬝ᵥ (M *ᵥ u) := Finset.sum_nonneg fun i _ => mul_self_nonneg _
      exact dotProduct_self_eq_zero.1 (by linarith)
  refine ⟨fun i => ?_, fun i => ?_⟩
  · simp only [Finset.mem_filter, Finset.mem_univ, true_and, (key i).1]
  · simp only [Finset.mem_filter, Finset.mem_univ, true_and, (key i).2, (key i).1]
    split_ifs <;> simp

theorem basis_dot {n : ℕ} (b : OrthonormalBasis (Fin n) ℝ (EuclideanSpace ℝ (Fin n))) (i j : Fin n) :
    (b i).ofLp ⬝ᵥ (b j).ofLp = if i = j then 1 else 0 := by
  have := orthonormal_iff_ite.1 b.orthonormal i j
  rw [← this, PiLp.inner_apply]
  simp [dotProduct, mul_comm]

theorem trace_basis {n : ℕ} (b : OrthonormalBasis (Fin n) ℝ (EuclideanSpace ℝ (Fin n))) (T : Matrix (Fin n) (Fin n) ℝ) :
    T.trace = ∑ i, (b i).ofLp ⬝ᵥ (T *ᵥ (b i).ofLp) := by
  set U : Matrix (Fin n) (Fin n) ℝ := Matrix.of fun k i => (b i).ofLp k
  have h1 : Uᵀ * U = 1 := by
    ext i j
    rw [Matrix.mul_apply, Matrix.one_apply, ← basis_dot b i j]
    rfl
  have h2 : U * Uᵀ = 1 := mul_eq_one_comm.1 h1
  have h3 : T.trace = (Uᵀ * (T * U)).trace := by
    rw [Matrix.trace_mul_comm, Matrix.mul_assoc, h2, Matrix.mul_one]
  rw [h3, Matrix.trace]
  rfl

/-- Changing the orthonormal basis does not change the law of a standard normal sample. -/
theorem basis_preserving {n : ℕ} (b : OrthonormalBasis (Fin n) ℝ (EuclideanSpace ℝ (Fin n))) :
    MeasurePreserving (fun z : Fin n → ℝ => ∑ i, z i • (b i).ofLp) (stdSample n) (stdSample n) := by
  have m1 : MeasurePreserving (MeasurableEquiv.toLp 2 (Fin n → ℝ)) (stdSample n) (stdGaussian (EuclideanSpace ℝ (Fin n))) :=
    ⟨(MeasurableEquiv.toLp 2 (Fin n → ℝ)).measurable, map_pi_eq_stdGaussian⟩
  have m2 : MeasurePreserving (fun z : Fin n → ℝ => ∑ i, z i • b i) (stdSample n) (stdGaussian (EuclideanSpace ℝ (Fin n))) :=
    ⟨by fun_prop, (stdGaussian_eq_map_pi_orthonormalBasis b).symm⟩
  convert (m1.symm).comp m2 using 1
  funext z
  simp only [Function.comp, MeasurableEquiv.coe_toLp_symm]
  rw [WithLp.ofLp_sum]
  rfl

theorem quad_basis {n : ℕ} (b : OrthonormalBasis (Fin n) ℝ (EuclideanSpace ℝ (Fin n))) (T : Matrix (Fin n) (Fin n) ℝ) (c : Fin n → ℝ)
    (hT : ∀ i, T *ᵥ (b i).ofLp = c i • (b i).ofLp) (z : Fin n → ℝ) :
    (∑ i, z i • (b i).ofLp) ⬝ᵥ (T *ᵥ ∑ i, z i • (b i).ofLp) = ∑ i, c i * z i ^ 2 := by
  have h : T *ᵥ (∑ i, z i • (b i).ofLp) = ∑ i, (c i * z i) • (b i).ofLp := by
    rw [Matrix.mulVec_sum]
    exact Finset.sum_congr rfl fun i _ => by rw [Matrix.mulVec_smul, hT, smul_smul, mul_comm]
  rw [h, sum_dotProduct]
  refine Finset.sum_congr rfl fun i _ => ?_
  rw [dotProduct_sum, Finset.sum_eq_single i]
  · rw [smul_dotProduct, dotProduct_smul, basis_dot, if_pos rfl]; simp; ring
  · intro j _ hj
    rw [smul_dotProduct, dotProduct_smul, basis_dot, if_neg hj.symm]; simp
  · simp

theorem resid_signal (hx : ∃ i j, x i ≠ x j) (b0 b1 σ : ℝ) (e : Fin (m + 2) → ℝ) :
    olsResiduals x (fun i => b0 + b1 * x i + σ * e i) = σ • residProj x *ᵥ e := by
  have hy : (fun i => b0 + b1 * x i + σ * e i) = dwX x *ᵥ ![b0, b1] + σ • e := by
    funext i
    have e1 : (dwX x *ᵥ ![b0, b1]) i = b0 + b1 * x i := by
      rw [Matrix.mulVec, dotProduct, Fin.sum_univ_two]
      change 1 * b0 + x i * b1 = _
      ring
    rw [Pi.add_apply, e1, Pi.smul_apply, smul_eq_mul]
  rw [olsResiduals_proj x hx, hy, Matrix.mulVec_add, Matrix.mulVec_mulVec, (C11_projector x hx).1, Matrix.zero_mulVec, zero_add, Matrix.mulVec_smul]

theorem proj_dot (e w : Fin (m + 2) → ℝ) : (residProj x *ᵥ e) ⬝ᵥ w = e ⬝ᵥ (residProj x *ᵥ w) := by
  rw [Matrix.dotProduct_mulVec, ← Matrix.mulVec_transpose, residProj_transpose]

theorem resid_sq_quad (hx : ∃ i j, x i ≠ x j) (b0 b1 σ : ℝ) (e : Fin (m + 2) → ℝ) :
    ∑ i, olsResiduals x (fun i => b0 + b1 * x i + σ * e i) i ^ 2 = σ ^ 2 * (e ⬝ᵥ (residProj x *ᵥ e)) := by
  have : (residProj x *ᵥ e) ⬝ᵥ (residProj x *ᵥ e) = e ⬝ᵥ (residProj x *ᵥ e) := by
    rw [proj_dot, Matrix.mulVec_mulVec, (C11_projector x hx).2]
  rw [resid_signal x hx, ← this, dotProduct, Finset.mul_sum]
  exact Finset.sum_congr rfl fun i _ => by rw [Pi.smul_apply, smul_eq_mul]; ring

/-- The statistic of the test for the observations `b0 + b1 x + σ ε` is a ratio of quadratic forms of `ε`. -/
theorem dwStat_quad (hx : ∃ i j, x i ≠ x j) (b0 b1 : ℝ) {σ : ℝ} (hσ : σ ≠ 0) (e : Fin (m + 2) → ℝ) :
    durbinWatsonStat (olsResiduals x fun i => b0 + b1 * x i + σ * e i)
      = (e ⬝ᵥ ((residProj x * dwA ℝ (m + 1) * residProj x) *ᵥ e)) / (e ⬝ᵥ (residProj x *ᵥ e)) := by
  have hnum : ∑ i : Fin (m + 1), ((σ • residProj x *ᵥ e) i.succ - (σ • residProj x *ᵥ e) i.castSucc) ^ 2
      = σ ^ 2 * (e ⬝ᵥ ((residProj x * dwA ℝ (m + 1) * residProj x) *ᵥ e)) := by
    rw [dw_num_eq, Matrix.mulVec_smul, dotProduct_smul, smul_dotProduct, proj_dot, Matrix.mulVec_mulVec, Matrix.mulVec_mulVec, smul_eq_mul,
      smul_eq_mul, Matrix.mul_assoc]
    ring
  rw [durbinWatsonStat, resid_sq_quad x hx, resid_signal x hx, hnum, mul_div_mul_left _ _ (pow_ne_zero 2 hσ)]

/-- The statistic in orthonormal coordinates, with the quantities `P` and `Q` of the code. -/
theorem dw_form (hx : ∃ i j, x i ≠ x j) : ∃ (b : OrthonormalBasis (Fin (m + 2)) ℝ (EuclideanSpace ℝ (Fin (m + 2)))) (W : Finset (Fin (m + 2)))
    (lam : Fin (m + 2) → ℝ), (W.card : ℝ) = m ∧ ∑ i ∈ W, lam i = dwP x ∧ ∑ i ∈ W, lam i ^ 2 = dwQ x ∧
      ∀ (b0 b1 σ : ℝ), σ ≠ 0 → ∀ z : Fin (m + 2) → ℝ,
        durbinWatsonStat (olsResiduals x fun i => b0 + b1 * x i + σ * (∑ k, z k • (b k).ofLp) i) = (∑ i ∈ W, lam i * z i ^ 2) / ∑ i ∈ W, z i ^ 2 ∧
        ∑ i, olsResiduals x (fun i => b0 + b1 * x i + σ * (∑ k, z k • (b k).ofLp) i) i ^ 2 = σ ^ 2 * ∑ i ∈ W, z i ^ 2 := by
  obtain ⟨b, W, lam, hM, hN⟩ := dw_axes x hx
  have hMM := (C11_projector x hx).2
  have hM' : ∀ i, residProj x *ᵥ (b i).ofLp = (if i ∈ W then (1 : ℝ) else 0) • (b i).ofLp := by
    intro i; rw [hM]; split_ifs <;> simp
  have hN' : ∀ i, (residProj x * dwA ℝ (m + 1) * residProj x) *ᵥ (b i).ofLp = (if i ∈ W then lam i else 0) • (b i).ofLp := by
    intro i; rw [hN]; split_ifs <;> simp
  have hu : ∀ i, (b i).ofLp ⬝ᵥ (b i).ofLp = 1 := fun i => by rw [basis_dot, if_pos rfl]
  have tW : (W.card : ℝ) = m := by
    rw [← residProj_trace x hx, trace_basis b]
    simp only [hM', dotProduct_smul, hu]
    simp
  have tP : ∑ i ∈ W, lam i = dwP x := by
    rw [(C11_traces x).1]
    have : (residProj x * dwA ℝ (m + 1)).trace = (residProj x * dwA ℝ (m + 1) * residProj x).trace := by
      rw [Matrix.trace_mul_comm (residProj x * dwA ℝ (m + 1)), ← Matrix.mul_assoc, hMM]
    rw [this, trace_basis b]
    simp only [hN', dotProduct_smul, hu]
    simp
  have tQ : ∑ i ∈ W, lam i ^ 2 = dwQ x := by
    rw [(C11_traces x).2]
    have : (residProj x * dwA ℝ (m + 1) * (residProj x * dwA ℝ (m + 1))).trace
        = ((residProj x * dwA ℝ (m + 1) * residProj x) * (residProj x * dwA ℝ (m + 1) * residProj x)).trace := by
      have e : (residProj x * dwA ℝ (m + 1) * residProj x) * (residProj x * dwA ℝ (m + 1) * residProj x)
          = (residProj x * dwA ℝ (m + 1) * (residProj x * dwA ℝ (m + 1))) * residProj x := by
        simp only [Matrix.mul_assoc]
        rw [← Matrix.mul_assoc (residProj x) (residProj x), hMM]
      rw [e, Matrix.trace_mul_comm _ (residProj x)]
      simp only [← Matrix.mul_assoc]
      rw [hMM]
    rw [this, trace_basis b]
    simp only [← Matrix.mulVec_mulVec, hN', Matrix.mulVec_smul, dotProduct_smul, hu]
    have hi : ∀ i, (if i ∈ W then lam i else 0) • (if i ∈ W then lam i else 0) • (1 : ℝ) = if i ∈ W then lam i ^ 2 else 0 := by
      intro i; split_ifs <;> simp [sq]
    simp only [hi, Finset.sum_ite_mem, Finset.univ_inter]
  refine ⟨b, W, lam, tW, tP, tQ, fun b0 b1 σ hσ z => ?_⟩
  have := dwStat_quad x hx b0 b1 hσ (∑ k, z k • (b k).ofLp)
  have h2 := resid_sq_quad x hx b0 b1 σ (∑ k, z k • (b k).ofLp)
  rw [this, h2, quad_basis b _ _ hM', quad_basis b _ _ hN']
  constructor <;> simp only [ite_mul, zero_mul, one_mul, Finset.sum_ite_mem, Finset.univ_inter]

theorem dw_moments (hx : ∃ i j, x i ≠ x j) (b0 b1 : ℝ) {σ : ℝ} (hσ : σ ≠ 0) :
    (∫ e, durbinWatsonStat (olsResiduals x fun i => b0 + b1 * x i + σ * e i) ∂stdSample (m + 2)) = dwMean x ∧
    Var[fun e => durbinWatsonStat (olsResiduals x fun i => b0 + b1 * x i + σ * e i); stdSample (m + 2)] = dwVar x := by
  obtain ⟨b, W, lam, tW, tP, tQ, hz⟩ := dw_form x hx
  set D : (Fin (m + 2) → ℝ) → ℝ := fun e => durbinWatsonStat (olsResiduals x fun i => b0 + b1 * x i + σ * e i) with hD
  have hDm : Measurable D := by
    simp only [hD]
    unfold durbinWatsonStat olsResiduals olsIntercept olsSlope smean
    fun_prop
  replace hz : ∀ z : Fin (m + 2) → ℝ, D (∑ i, z i • (b i).ofLp) = (∑ i ∈ W, lam i * z i ^ 2) / ∑ i ∈ W, z i ^ 2 := fun z => (hz b0 b1 σ hσ z).1
  have hp := basis_preserving b
  have tr : ∀ f : (Fin (m + 2) → ℝ) → ℝ, Measurable f → ∫ e, f e ∂stdSample (m + 2) = ∫ z, f (∑ i, z i • (b i).ofLp) ∂stdSample (m + 2) := by
    intro f hf
    rw [← integral_map hp.measurable.aemeasurable hf.aestronglyMeasurable, hp.map_eq]
  have hm2 : ((m + 2 : ℕ) : ℝ) - (1 + 1) = m := by push_cast; ring
  have c1 : dwMean x = dwP x / m := by rw [dwMean, hm2]
  have c2 : dwVar x = 2 / (m * (m + 2)) * (dwQ x - dwP x * (dwP x / m)) := by rw [dwVar, c1, hm2]
  have hmean : ∫ e, D e ∂stdSample (m + 2) = dwMean x := by
    rw [tr D hDm]
    simp only [hz]
    rw [ratio_mean, tW, tP, c1]
  have hsec : ∫ e, D e ^ 2 ∂stdSample (m + 2)
      = (2 * ∑ i ∈ W, lam i ^ 2 + (∑ i ∈ W, lam i) ^ 2) / (m * (m + 2)) := by
    rw [tr _ (hDm.pow_const 2)]
    simp only [hz]
    rw [ratio_second, tW]
  have hL : MemLp D 2 (stdSample (m + 2)) := by
    refine MemLp.of_bound hDm.aestronglyMeasurable 4 (Filter.Eventually.of_forall fun e => ?_)
    obtain ⟨r0, r4, -⟩ := C09_durbinWatson_range (olsResiduals x fun i => b0 + b1 * x i + σ * e i)
    rw [Real.norm_eq_abs, abs_of_nonneg r0]
    exact r4
  refine ⟨hmean, ?_⟩
  rw [variance_eq_sub hL]
  change ∫ e, D e ^ 2 ∂stdSample (m + 2) - (∫ e, D e ∂stdSample (m + 2)) ^ 2 = _
  rw [hsec, hmean, c1, c2, tP, tQ]
  rcases Nat.eq_zero_or_pos m with rfl | hm
  · simp
  · have : (m : ℝ) ≠ 0 := by positivity
    have : (m : ℝ) + 2 ≠ 0 := by positivity
    field_simp
    ring

end

/-- **C176.**  For every design with at least three observations, not all at the same defect, and independent normal errors of the same variance, the
mean and the variance of the Durbin-Watson statistic of the residuals are exactly the `dmean` and the `dvar` of the code. -/
theorem C176_moments {m : ℕ} (x : Fin (m + 3) → ℝ) (hx : ∃ i j, x i ≠ x j) (b0 b1 : ℝ) {σ : ℝ} (hσ : σ ≠ 0) :
    (∫ e, durbinWatsonStat (olsResiduals x fun i => b0 + b1 * x i + σ * e i) ∂stdSample (m + 3)) = dwMean x ∧
    Var[fun e => durbinWatsonStat (olsResiduals x fun i => b0 + b1 * x i + σ * e i); stdSample (m + 3)] = dwVar x :=
  dw_moments x hx b0 b1 hσ

/-- Five observations, the defects `1, 2, 4, 4, 7`, standard deviation 3. -/
example : (∫ e, durbinWatsonStat (olsResiduals ![1, 2, 4, 4, 7] fun i => 2 + 5 * (![1, 2, 4, 4, 7] : Fin 5 → ℝ) i + 3 * e i) ∂stdSample 5)
      = dwMean (![1, 2, 4, 4, 7] : Fin 5 → ℝ) :=
  (C176_moments (m := 2) ![1, 2, 4, 4, 7] ⟨0, 1, by norm_num⟩ 2 5 (σ := 3) (by norm_num)).1

theorem dwStat_measurable {m : ℕ} (x : Fin (m + 2) → ℝ) (b0 b1 σ : ℝ) :
    Measurable fun e : Fin (m + 2) → ℝ => durbinWatsonStat (olsResiduals x fun i => b0 + b1 * x i + σ * e i) := by
  unfold durbinWatsonStat olsResiduals olsIntercept olsSlope smean
  fun_prop

theorem dwStat_memLp {m : ℕ} (x : Fin (m + 2) → ℝ) (b0 b1 σ : ℝ) :
    MemLp (fun e : Fin (m + 2) → ℝ => durbinWatsonStat (olsResiduals x fun i => b0 + b1 * x i + σ * e i)) 2 (stdSample (m + 2)) := by
  refine MemLp.of_bound (dwStat_measurable x b0 b1 σ).aestronglyMeasurable 4 (Filter.Eventually.of_forall fun e => ?_)
  obtain ⟨r0, r4, -⟩ := C09_durbinWatson_range (olsResiduals x fun i => b0 + b1 * x i + σ * e i)
  rw [Real.norm_eq_abs, abs_of_nonneg r0]
  exact r4

/-- What a p-value below `2 (1 - Phi q)` says about the statistic. -/
theorem dwPValue_lt {m : ℕ} (x r : Fin (m + 2) → ℝ) {q : ℝ} (hq : 0 < q) (h : F.lt (durbinWatsonPValue x r) (.fin (2 * PhiC q)) = true) :
    durbinWatsonStat r ≠ dwMean x ∧ q * Real.sqrt (dwVar x) ≤ |durbinWatsonStat r - dwMean x| := by
  by_cases hr : ∑ i, r i ^ 2 = 0
  · have hn : durbinWatsonPValue x r = .nan := by
      have h0 : ∀ d, F.div (.fin (∑ i : Fin (m + 1), (r i.succ - r i.castSucc) ^ 2)) (.fin (∑ i, r i ^ 2)) ≠ .fin d := by
        intro d
        rw [hr]
        simp only [F.div, if_true, F.infSign]
        split_ifs <;> simp
      rw [durbinWatsonPValue]
      split
      · rename_i d hd; exact absurd hd (h0 d)
      · rfl
    rw [hn] at h
    simp [F.lt] at h
  · rw [durbinWatsonPValue, F.div_fin _ hr] at h
    change F.lt (twoSidedNormal (F.div (.fin |durbinWatsonStat r - dwMean x|) (.fin (Real.sqrt (dwVar x))))) _ = true at h
    have hs0 : 0 ≤ Real.sqrt (dwVar x) := Real.sqrt_nonneg _
    rcases hs0.eq_or_lt with h0 | hpos
    · rw [← h0, mul_zero]
      refine ⟨fun he => ?_, abs_nonneg _⟩
      rw [← h0, he, sub_self, abs_zero] at h
      simp [F.div, F.infSign, twoSidedNormal, F.lt] at h
    · rw [F.div_fin _ hpos.ne', twoSidedNormal, F.lt_fin, decide_eq_true_eq] at h
      have hlt : q < |durbinWatsonStat r - dwMean x| / Real.sqrt (dwVar x) := by
        by_contra hcon
        have := Phi_strictMono.monotone (not_lt.1 hcon)
        rw [PhiC_eq, PhiC_eq] at h
        linarith
      rw [lt_div_iff₀ hpos] at hlt
      refine ⟨fun he => ?_, hlt.le⟩
      rw [he, sub_self, abs_zero] at hlt
      have := mul_pos hq hpos
      linarith

/-- **C176, false alarms.**  For every number of observations and every design, with independent normal errors of constant variance, the p-value falls
below `2 (1 - Phi q)` with a probability of at most `1 / q²`. -/
theorem C176_false_alarm {m : ℕ} (x : Fin (m + 3) → ℝ) (hx : ∃ i j, x i ≠ x j) (b0 b1 : ℝ) {σ : ℝ} (hσ : σ ≠ 0) {q : ℝ} (hq : 0 < q) :
    (stdSample (m + 3)).real {e | F.lt (durbinWatsonPValue x (olsResiduals x fun i => b0 + b1 * x i + σ * e i)) (.fin (2 * PhiC q)) = true}
      ≤ 1 / q ^ 2 := by
  obtain ⟨hm, hv⟩ := C176_moments x hx b0 b1 hσ
  have hL := dwStat_memLp (m := m + 1) x b0 b1 σ
  set D : (Fin (m + 3) → ℝ) → ℝ := fun e => durbinWatsonStat (olsResiduals x fun i => b0 + b1 * x i + σ * e i) with hD
  have hv0 : 0 ≤ dwVar x := by rw [← hv]; exact variance_nonneg _ _
  rcases hv0.eq_or_lt with h0 | hpos
  · have hae : ∀ᵐ e ∂stdSample (m + 3), D e = dwMean x := by
      rw [← hm]
      exact ae_eq_integral_of_variance_eq_zero hL (by rw [hv, ← h0])
    have : (stdSample (m + 3)) {e | F.lt (durbinWatsonPValue x (olsResiduals x fun i => b0 + b1 * x i + σ * e i)) (.fin (2 * PhiC q)) = true} = 0 := by
      refine measure_mono_null (fun e he => ?_) (ae_iff.1 hae)
      exact (dwPValue_lt x _ hq he).1
    rw [measureReal_def, this]
    simp only [ENNReal.toReal_zero]
    positivity
  · have hs := Real.sqrt_pos.2 hpos
    have hch := meas_ge_le_variance_div_sq hL (mul_pos hq hs)
    rw [hm, hv, mul_pow, Real.sq_sqrt hpos.le, mul_comm (q ^ 2), ← div_div, div_self hpos.ne'] at hch
    have := ENNReal.toReal_mono ENNReal.ofReal_ne_top ((measure_mono fun e he => (dwPValue_lt x _ hq he).2).trans hch)
    rwa [ENNReal.toReal_ofReal (by positivity)] at this

/-- At the level `2 (1 - Phi 2)` (about `0.0455`) at most one false alarm out of four, whatever the design. -/
example : (stdSample 5).real {e | F.lt (durbinWatsonPValue (m := 3) ![1, 2, 4, 4, 7]
      (olsResiduals ![1, 2, 4, 4, 7] fun i => 2 + 5 * (![1, 2, 4, 4, 7] : Fin 5 → ℝ) i + 3 * e i)) (.fin (2 * PhiC 2)) = true} ≤ 1 / 2 ^ 2 :=
  C176_false_alarm (m := 2) ![1, 2, 4, 4, 7] ⟨0, 1, by norm_num⟩ 2 5 (σ := 3) (by norm_num) (by norm_num)

end Verif.Props
