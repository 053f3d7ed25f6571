import Verif.Props.MeanCurve
import Verif.Props.QrConsistency
import Verif.Props.SimLimit
import Verif.Model.Sampling
import Verif.Model.ChaosFit
import Mathlib.Topology.Instances.Matrix

/-!
# C171: the chaos POD converges to the true probability of detection (/repo/otpod/_polynomial_chaos_pod.py 175-195, 744-774)
-/

namespace Verif.Props
open Verif.Py Verif.Model ProbabilityTheory MeasureTheory Set Filter Topology Matrix

theorem inv_tendsto {k : ℕ} {G : Matrix (Fin k) (Fin k) ℝ} (hG : G.det ≠ 0) {S : ℕ → Matrix (Fin k) (Fin k) ℝ} (hS : Tendsto S atTop (𝓝 G)) :
    Tendsto (fun N => (S N)⁻¹) atTop (𝓝 G⁻¹) := by
  simp only [Matrix.inv_def, Ring.inverse_eq_inv']
  have h1 : Tendsto (fun N => (S N).det) atTop (𝓝 G.det) := ((continuous_id.matrix_det).tendsto G).comp hS
  have h2 : Tendsto (fun N => (S N).adjugate) atTop (𝓝 G.adjugate) := ((continuous_id.matrix_adjugate).tendsto G).comp hS
  exact (h1.inv₀ hG).smul h2

/-- The error of the least squares coefficients and the residual sum of squares, in terms of averages. -/
theorem ls_averages {N k : ℕ} (hN : 0 < N) (A : Matrix (Fin N) (Fin k) ℝ) (beta : Fin k → ℝ) (eps : Fin N → ℝ)
    (hdet : ((1 / (N : ℝ)) • (Aᵀ * A)).det ≠ 0) :
    lsCoefs A (A *ᵥ beta + eps) = beta + ((1 / (N : ℝ)) • (Aᵀ * A))⁻¹ *ᵥ ((1 / (N : ℝ)) • (Aᵀ *ᵥ eps)) ∧
    (∑ i, ((A *ᵥ beta + eps) i - (A *ᵥ lsCoefs A (A *ᵥ beta + eps)) i) ^ 2) / N
      = (∑ i, eps i ^ 2) / N - ((1 / (N : ℝ)) • (Aᵀ *ᵥ eps)) ⬝ᵥ (((1 / (N : ℝ)) • (Aᵀ * A))⁻¹ *ᵥ ((1 / (N : ℝ)) • (Aᵀ *ᵥ eps))) := by
  have hN' : (N : ℝ) ≠ 0 := by exact_mod_cast hN.ne'
  set G := Aᵀ * A with hG
  set v := Aᵀ *ᵥ eps with hv
  have hGdet : G.det ≠ 0 := by
    intro h0
    apply hdet
    rw [Matrix.det_smul, h0, mul_zero]
  have hunit : IsUnit G.det := isUnit_iff_ne_zero.2 hGdet
  have hinv : ((1 / (N : ℝ)) • G)⁻¹ = (N : ℝ) • G⁻¹ := by
    apply Matrix.inv_eq_left_inv
    rw [Matrix.smul_mul, Matrix.mul_smul, smul_smul, Matrix.nonsing_inv_mul G hunit, mul_one_div_cancel hN', one_smul]
  have hw : ((1 / (N : ℝ)) • G)⁻¹ *ᵥ ((1 / (N : ℝ)) • v) = G⁻¹ *ᵥ v := by
    rw [hinv, Matrix.smul_mulVec, Matrix.mulVec_smul, smul_smul, mul_one_div_cancel hN', one_smul]
  have hcoef : lsCoefs A (A *ᵥ beta + eps) = beta + G⁻¹ *ᵥ v := by
    have h := lsCoefs_error A hunit beta eps
    rw [sub_eq_iff_eq_add'] at h
    rw [h, ← Matrix.mulVec_mulVec]
  refine ⟨by rw [hcoef, hw], ?_⟩
  rw [hw, hcoef]
  have hres : ∀ i, (A *ᵥ beta + eps) i - (A *ᵥ (beta + G⁻¹ *ᵥ v)) i = eps i - (A *ᵥ (G⁻¹ *ᵥ v)) i := by
    intro i
    rw [Matrix.mulVec_add, Pi.add_apply, Pi.add_apply]
    ring
  simp only [hres]
  set u := G⁻¹ *ᵥ v with hu
  have hAu : A *ᵥ u ⬝ᵥ A *ᵥ u = v ⬝ᵥ u := by
    rw [Matrix.dotProduct_mulVec, ← Matrix.mulVec_transpose, Matrix.mulVec_mulVec, ← hG, hu, Matrix.mulVec_mulVec, Matrix.mul_nonsing_inv G hunit,
      Matrix.one_mulVec]
  have heu : eps ⬝ᵥ A *ᵥ u = v ⬝ᵥ u := by
    rw [Matrix.dotProduct_mulVec, ← Matrix.mulVec_transpose]
  have hsum : ∑ i, (eps i - (A *ᵥ u) i) ^ 2 = ∑ i, eps i ^ 2 - 2 * (eps ⬝ᵥ A *ᵥ u) + A *ᵥ u ⬝ᵥ A *ᵥ u := by
    simp only [dotProduct]
    rw [Finset.mul_sum, ← Finset.sum_sub_distrib, ← Finset.sum_add_distrib]
    exact Finset.sum_congr rfl fun i _ => by ring
  rw [hsum, heu, hAu, smul_dotProduct, smul_eq_mul]
  field_simp
  ring

section
variable {Ω Z X : Type} [MeasurableSpace Ω] [MeasurableSpace Z] [MeasurableSpace X] {Q : Measure Ω} [IsProbabilityMeasure Q] {P : Measure Z}
  [IsProbabilityMeasure P]

/-- **C171, fit.**  Signals that are a combination of the basis functions plus independent centred errors: the least squares coefficients and the
residual variance converge almost surely to the true ones. -/
theorem chaos_fit_limit {k : ℕ} (φ : Fin k → Z → ℝ) (hφm : ∀ j, Measurable (φ j)) (hφ : ∀ j, MemLp (φ j) 2 P)
    (hindep : ∀ c : Fin k → ℝ, c ≠ 0 → 0 < ∫ z, (∑ j, c j * φ j z) ^ 2 ∂P) (μ : Measure ℝ) [IsProbabilityMeasure μ]
    (hμ : MemLp (fun t : ℝ => t) 2 μ) (hμ0 : ∫ t, t ∂μ = 0) (x : ℕ → Ω → Z) (e : ℕ → Ω → ℝ) (hx : ∀ i, Measurable (x i)) (he : ∀ i, Measurable (e i))
    (hlaw : ∀ i, Q.map (fun ω => (x i ω, e i ω)) = P.prod μ) (hind : iIndepFun (fun i ω => (x i ω, e i ω)) Q) (beta : Fin k → ℝ) :
    ∀ᵐ ω ∂Q,
      Tendsto (fun N => lsCoefs (basisMatrix φ N fun i => x i ω) fun i => ∑ j, beta j * φ j (x i ω) + e i ω) atTop (𝓝 beta) ∧
      Tendsto (fun N => chaosScale (basisMatrix φ N fun i => x i ω) fun i => ∑ j, beta j * φ j (x i ω) + e i ω) atTop (𝓝 (∫ t, t ^ 2 ∂μ)) := by
  have hz : ∀ i, Measurable fun ω => (x i ω, e i ω) := fun i => (hx i).prodMk (he i)
  set G : Matrix (Fin k) (Fin k) ℝ := fun j l => ∫ z, φ j z * φ l z ∂P with hG
  have hmul : ∀ j l, Integrable (fun z => φ j z * φ l z) P := fun j l => (hφ j).integrable_mul (hφ l)
  have hdet : G.det ≠ 0 := by
    intro h0
    obtain ⟨c, hc, hGc⟩ := Matrix.exists_mulVec_eq_zero_iff.2 h0
    have h1 : ∫ z, (∑ j, c j * φ j z) ^ 2 ∂P = c ⬝ᵥ G *ᵥ c := by
      have hexp : ∀ z, (∑ j, c j * φ j z) ^ 2 = ∑ j, ∑ l, c j * c l * (φ j z * φ l z) := by
        intro z
        rw [sq, Finset.sum_mul_sum]
        exact Finset.sum_congr rfl fun j _ => Finset.sum_congr rfl fun l _ => by ring
      simp only [hexp]
      rw [integral_finsetSum _ fun j _ => integrable_finsetSum _ fun l _ => (hmul j l).const_mul _]
      simp only [dotProduct, mulVec, Finset.mul_sum]
      refine Finset.sum_congr rfl fun j _ => ?_
      rw [integral_finsetSum _ fun l _ => (hmul j l).const_mul _]
      refine Finset.sum_congr rfl fun l _ => ?_
      rw [integral_const_mul, hG]
      ring
    have h2 := hindep c hc
    rw [h1, hGc, dotProduct_zero] at h2
    exact lt_irrefl _ h2
  have a1 : ∀ᵐ ω ∂Q, ∀ j l, Tendsto (fun N => avg (fun i ω => (x i ω, e i ω)) (fun w => φ j w.1 * φ l w.1) N ω) atTop (𝓝 (G j l)) := by
    refine ae_all_iff.2 fun j => ae_all_iff.2 fun l => ?_
    have h := avg_strong hz hlaw hind (f := fun w : Z × ℝ => φ j w.1 * φ l w.1) (((hφm j).comp measurable_fst).mul ((hφm l).comp measurable_fst))
      ((hmul j l).comp_fst μ)
    rwa [integral_fun_fst (fun z => φ j z * φ l z), probReal_univ, one_smul] at h
  have a2 : ∀ᵐ ω ∂Q, ∀ j, Tendsto (fun N => avg (fun i ω => (x i ω, e i ω)) (fun w => φ j w.1 * w.2) N ω) atTop (𝓝 0) := by
    refine ae_all_iff.2 fun j => ?_
    have hI : Integrable (fun w : Z × ℝ => φ j w.1 * w.2) (P.prod μ) :=
      Integrable.mul_prod (f := φ j) (g := fun t : ℝ => t) ((hφ j).integrable (by norm_num)) (hμ.integrable (by norm_num))
    have h := avg_strong hz hlaw hind (f := fun w : Z × ℝ => φ j w.1 * w.2) (((hφm j).comp measurable_fst).mul measurable_snd) hI
    rwa [integral_prod_mul (φ j) (fun t : ℝ => t), hμ0, mul_zero] at h
  have a3 : ∀ᵐ ω ∂Q, Tendsto (fun N => avg (fun i ω => (x i ω, e i ω)) (fun w => w.2 ^ 2) N ω) atTop (𝓝 (∫ t, t ^ 2 ∂μ)) := by
    have h := avg_strong hz hlaw hind (f := fun w : Z × ℝ => w.2 ^ 2) (by fun_prop) (hμ.integrable_sq.comp_snd P)
    rwa [integral_fun_snd (fun t : ℝ => t ^ 2), probReal_univ, one_smul] at h
  filter_upwards [a1, a2, a3] with ω b1 b2 b3
  set A : (N : ℕ) → Matrix (Fin N) (Fin k) ℝ := fun N => basisMatrix φ N fun i => x i ω with hA
  set eps : (N : ℕ) → Fin N → ℝ := fun N i => e i ω with heps
  have hy : ∀ N, (fun i : Fin N => ∑ j, beta j * φ j (x i ω) + e i ω) = A N *ᵥ beta + eps N := by
    intro N
    funext i
    simp only [hA, heps, basisMatrix, Pi.add_apply, mulVec, dotProduct]
    congr 1
    exact Finset.sum_congr rfl fun j _ => mul_comm _ _
  set S : ℕ → Matrix (Fin k) (Fin k) ℝ := fun N => (1 / (N : ℝ)) • ((A N)ᵀ * A N) with hS
  set v : ℕ → Fin k → ℝ := fun N => (1 / (N : ℝ)) • ((A N)ᵀ *ᵥ eps N) with hv
  have tS : Tendsto S atTop (𝓝 G) := by
    refine tendsto_pi_nhds.2 fun j => tendsto_pi_nhds.2 fun l => ?_
    refine (b1 j l).congr fun N => ?_
    simp only [hS, hA, basisMatrix, avg, Matrix.smul_apply, Matrix.mul_apply, Matrix.transpose_apply, smul_eq_mul]
    rw [Finset.sum_range fun i => φ j (x i ω) * φ l (x i ω)]
    ring
  have tv : Tendsto v atTop (𝓝 0) := by
    refine tendsto_pi_nhds.2 fun j => ?_
    refine (b2 j).congr fun N => ?_
    simp only [hv, hA, heps, basisMatrix, avg, Pi.smul_apply, mulVec, dotProduct, Matrix.transpose_apply, smul_eq_mul]
    rw [Finset.sum_range fun i => φ j (x i ω) * e i ω]
    ring
  have tinv := inv_tendsto hdet tS
  have tw : Tendsto (fun N => (S N)⁻¹ *ᵥ v N) atTop (𝓝 0) := by
    have h : Continuous fun p : Matrix (Fin k) (Fin k) ℝ × (Fin k → ℝ) => p.1 *ᵥ p.2 := continuous_fst.matrix_mulVec continuous_snd
    have h2 := (h.tendsto (G⁻¹, 0)).comp (tinv.prodMk_nhds tv)
    simp only [Matrix.mulVec_zero] at h2
    exact h2
  have hev : ∀ᶠ N in atTop, (S N).det ≠ 0 := by
    have h1 : Tendsto (fun N => (S N).det) atTop (𝓝 G.det) := ((continuous_id.matrix_det).tendsto G).comp tS
    exact h1.eventually_ne hdet
  have hevN : ∀ᶠ N : ℕ in atTop, 0 < N := eventually_gt_atTop 0
  constructor
  · have h : Tendsto (fun N => beta + (S N)⁻¹ *ᵥ v N) atTop (𝓝 beta) := by simpa using tw.const_add beta
    refine h.congr' ?_
    filter_upwards [hev, hevN] with N h1 h2
    rw [hy N]
    exact ((ls_averages h2 (A N) beta (eps N) h1).1).symm
  · have tq : Tendsto (fun N => v N ⬝ᵥ ((S N)⁻¹ *ᵥ v N)) atTop (𝓝 0) := by
      have h : Continuous fun p : (Fin k → ℝ) × (Fin k → ℝ) => p.1 ⬝ᵥ p.2 := continuous_fst.dotProduct continuous_snd
      have h2 := (h.tendsto (0, 0)).comp (tv.prodMk_nhds tw)
      simp only [dotProduct_zero] at h2
      exact h2
    have tN : Tendsto (fun N : ℕ => (N : ℝ) / ((N : ℝ) - k - 1)) atTop (𝓝 1) := by
      have hN : Tendsto (fun N : ℕ => (N : ℝ)) atTop atTop := tendsto_natCast_atTop_atTop
      have h0 : Tendsto (fun N : ℕ => ((k : ℝ) + 1) / (N : ℝ)) atTop (𝓝 0) := hN.const_div_atTop _
      have h1 : Tendsto (fun N : ℕ => (1 - ((k : ℝ) + 1) / (N : ℝ))⁻¹) atTop (𝓝 1) := by
        have := (h0.const_sub 1).inv₀ (by norm_num)
        simpa using this
      refine h1.congr' ?_
      filter_upwards [eventually_gt_atTop (k + 1)] with N hN
      have hNk : ((k : ℝ) + 1) < N := by exact_mod_cast hN
      have hN0 : (0 : ℝ) < N := lt_trans (by positivity) hNk
      have : (N : ℝ) - k - 1 ≠ 0 := by linarith
      have hd : 1 - ((k : ℝ) + 1) / (N : ℝ) = ((N : ℝ) - k - 1) / N := by
        field_simp
        ring
      rw [hd, inv_div]
    have h := (b3.sub tq).mul tN
    rw [sub_zero, mul_one] at h
    refine h.congr' ?_
    filter_upwards [hev, hevN] with N h1 h2
    have hN' : (N : ℝ) ≠ 0 := by exact_mod_cast h2.ne'
    have h3 := (ls_averages h2 (A N) beta (eps N) h1).2
    have hsc : chaosScale (A N) (fun i : Fin N => ∑ j, beta j * φ j (x i ω) + e i ω)
        = (∑ i, ((A N *ᵥ beta + eps N) i - (A N *ᵥ lsCoefs (A N) (A N *ᵥ beta + eps N)) i) ^ 2) / ((N : ℝ) - k - 1) := by
      rw [hy N]
      rfl
    have hav : avg (fun i ω => (x i ω, e i ω)) (fun w => w.2 ^ 2) N ω = (∑ i, eps N i ^ 2) / N := by
      rw [avg, Finset.sum_range fun i => e i ω ^ 2]
    rw [hav, hsc, ← h3, div_mul_div_cancel₀ hN']

end

section
variable {Ω X U : Type} [MeasurableSpace Ω] [MeasurableSpace X] {Q : Measure Ω} [IsProbabilityMeasure Q]

/-- The probability of exceedance is continuous in the coefficients and the noise level. -/
theorem exceedanceNoise_tendsto (law : Measure X) [IsProbabilityMeasure law] {k : ℕ} (ψ : Fin k → X → ℝ) (hψ : ∀ j, Measurable (ψ j)) (det : ℝ)
    {c : ℕ → Fin k → ℝ} {beta : Fin k → ℝ} (hc : Tendsto c atTop (𝓝 beta)) {s : ℕ → ℝ} {σ : ℝ} (hσ : 0 < σ) (hs : Tendsto s atTop (𝓝 σ)) :
    Tendsto (fun N => exceedanceNoise law (fun y => ∑ j, c N j * ψ j y) (fun _ => s N) det) atTop
      (𝓝 (exceedanceNoise law (fun y => ∑ j, beta j * ψ j y) (fun _ => σ) det)) := by
  have hm : ∀ b : Fin k → ℝ, Measurable fun y => ∑ j, b j * ψ j y := fun b => Finset.measurable_sum _ fun j _ => (hψ j).const_mul _
  rw [(C103_pod_partial law _ _ (hm beta) measurable_const (fun _ => hσ) det).1]
  have hev : ∀ᶠ N in atTop, 0 < s N := hs.eventually (lt_mem_nhds hσ)
  have h : Tendsto (fun N => ∫ y, PhiC ((det - ∑ j, c N j * ψ j y) / s N) ∂law) atTop (𝓝 (∫ y, PhiC ((det - ∑ j, beta j * ψ j y) / σ) ∂law)) := by
    refine tendsto_integral_of_dominated_convergence (fun _ => (1 : ℝ)) (fun N => ?_) (integrable_const 1) (fun N => ?_) ?_
    · exact (PhiC_continuous.measurable.comp (((hm (c N)).const_sub det).div_const (s N))).aestronglyMeasurable
    · refine Eventually.of_forall fun y => ?_
      have hb := PhiC_bounds ((det - ∑ j, c N j * ψ j y) / s N)
      rw [Real.norm_eq_abs, abs_of_nonneg hb.1]
      exact hb.2
    · refine Eventually.of_forall fun y => ?_
      refine (PhiC_continuous.tendsto _).comp (Tendsto.div (Tendsto.const_sub _ ?_) hs hσ.ne')
      exact tendsto_finset_sum _ fun j _ => ((tendsto_pi_nhds.1 hc) j).mul_const _
  refine h.congr' ?_
  filter_upwards [hev] with N hN
  rw [(C103_pod_partial law _ _ (hm (c N)) measurable_const (fun _ => hN) det).1]

/-- Gaussian errors of variance `v` are `sqrt v` times standard ones. -/
theorem exceedance_gauss (law : Measure X) [IsProbabilityMeasure law] (m : X → ℝ) (hm : Measurable m) (v : NNReal) (det : ℝ) :
    (law.prod (gaussianReal 0 v)).real {p | det < m p.1 + p.2} = exceedanceNoise law m (fun _ => Real.sqrt v) det := by
  have hmap : (law.prod (gaussianReal 0 1)).map (Prod.map id fun t : ℝ => Real.sqrt v * t) = law.prod (gaussianReal 0 v) := by
    rw [← Measure.map_prod_map law (gaussianReal 0 1) measurable_id (by fun_prop), Measure.map_id, gaussianReal_map_const_mul]
    congr 2
    · simp
    · ext
      simp
  have hset : MeasurableSet {p : X × ℝ | det < m p.1 + p.2} := measurableSet_lt measurable_const (by fun_prop)
  rw [← hmap, map_measureReal_apply (by fun_prop) hset, exceedanceNoise]
  rfl

theorem zipWith_ofFn_sum {k : ℕ} (c : Fin k → ℝ) (φ : Fin k → U → ℝ) (u : U) :
    (List.zipWith (fun b ψ => b * ψ u) (List.ofFn c) (List.ofFn φ)).sum = ∑ j, c j * φ j u := by
  rw [← List.sum_ofFn]
  congr 1
  apply List.ext_getElem
  · simp
  · intro i h1 h2
    simp

/-- **C171.**  Signals that are a combination of the basis functions of the chaos plus independent normal errors, fitted without censoring.  When
the sampling size grows, the POD curve of the run on `N` observations tends to a limit; when the number of observations grows, these limits tend to
the interpolation of the true probabilities of detection. -/
theorem C171_curve {P : Measure (ℝ × X)} [IsProbabilityMeasure P] {k : ℕ} (zero : ℝ × X) (T : ℝ × X → U) (φ : Fin k → U → ℝ)
    (hφm : ∀ j, Measurable fun w => φ j (T w)) (hφ : ∀ j, MemLp (fun w => φ j (T w)) 2 P)
    (hindep : ∀ c : Fin k → ℝ, c ≠ 0 → 0 < ∫ w, (∑ j, c j * φ j (T w)) ^ 2 ∂P) (v : NNReal) (hv : v ≠ 0)
    (x : ℕ → Ω → ℝ × X) (e : ℕ → Ω → ℝ) (hx : ∀ i, Measurable (x i)) (he : ∀ i, Measurable (e i))
    (hlaw : ∀ i, Q.map (fun ω => (x i ω, e i ω)) = P.prod (gaussianReal 0 v)) (hind : iIndepFun (fun i ω => (x i ω, e i ω)) Q) (beta : Fin k → ℝ)
    (det : ℝ) (law : Measure X) [IsProbabilityMeasure law] (s : SimAttrs) (hs : s.sizes.Pairwise (· ≤ ·)) (hnum : s.number = s.sizes.length)
    {Ω' : Type} [MeasurableSpace Ω'] (Q' : Measure Ω') [IsProbabilityMeasure Q'] (coefs : ℕ → List (List ℝ))
    (x' : ℕ → ℕ → Ω' → X) (z' : ℕ → ℕ → ℕ → Ω' → ℝ) (hxz' : ∀ r j l, Measurable fun ω => (x' r l ω, z' r j l ω))
    (hlaw' : ∀ r j l, Q'.map (fun ω => (x' r l ω, z' r j l ω)) = law.prod (gaussianReal 0 1))
    (hind' : ∀ r j, iIndepFun (fun l ω => (x' r l ω, z' r j l ω)) Q') :
    ∀ᵐ ω ∂Q,
      let fit := fun N => fittedChaos zero T φ det N (fun i => x i ω) fun i => ∑ j, beta j * φ j (T (x i ω)) + e i ω
      ∃ g, interp1d s.sizes (s.sizes.map fun a => (law.prod (gaussianReal 0 v)).real {p | det < ∑ j, beta j * φ j (T (a, p.1)) + p.2}) = .ok g ∧
        ∀ᵐ ω' ∂Q', ∃ f : ℕ → ℕ → ℝ → Res ℝ,
          (∀ N n, (chaosRunSim { fit N with samplingSize := n } (chaosDraws n s.number (fun l => x' 0 l ω') fun j l => z' 0 j l ω')
            ((coefs N).mapIdx fun r co => (co, chaosDraws n s.number (fun l => x' (r + 1) l ω') fun j l => z' (r + 1) j l ω')) s).2.curve = some (f N n)) ∧
          ∀ t w, g t = .ok w → ∃ lim : ℕ → ℝ, (∀ N, ∃ u : ℕ → ℝ, (∀ n, f N n t = .ok (u n)) ∧ Tendsto u atTop (𝓝 (lim N))) ∧
            Tendsto lim atTop (𝓝 w) := by
  have hμ : MemLp (fun t : ℝ => t) 2 (gaussianReal 0 v) := memLp_id_gaussianReal 2
  have hμ0 : ∫ t, t ∂(gaussianReal 0 v) = 0 := integral_id_gaussianReal
  have hvar : ∫ t, t ^ 2 ∂(gaussianReal 0 v) = v := by
    have h := variance_fun_id_gaussianReal (μ := 0) (v := v)
    rw [variance_eq_integral (by fun_prop)] at h
    simpa [hμ0] using h
  have hσ : 0 < Real.sqrt (v : ℝ) := Real.sqrt_pos.2 (by exact_mod_cast pos_iff_ne_zero.2 hv)
  have hψ : ∀ a : ℝ, ∀ j, Measurable fun y : X => φ j (T (a, y)) := fun a j => (hφm j).comp (by fun_prop)
  filter_upwards [chaos_fit_limit (fun j w => φ j (T w)) hφm hφ hindep (gaussianReal 0 v) hμ hμ0 x e hx he hlaw hind beta] with ω hω
  obtain ⟨h1, h2⟩ := hω
  rw [hvar] at h2
  have h2' := (Real.continuous_sqrt.tendsto _).comp h2
  intro fit
  set exact' : ℕ → ℝ → ℝ := fun N a => exceedanceNoise law
    (fun y => ∑ j, lsCoefs (basisMatrix (fun j w => φ j (T w)) N fun i => x i ω) (fun i => ∑ j, beta j * φ j (T (x i ω)) + e i ω) j * φ j (T (a, y)))
    (fun _ => (fit N).stderr) det with hexact
  have hlim : ∀ a, Tendsto (fun N => exact' N a) atTop (𝓝 ((law.prod (gaussianReal 0 v)).real {p | det < ∑ j, beta j * φ j (T (a, p.1)) + p.2})) := by
    intro a
    rw [exceedance_gauss law (fun y => ∑ j, beta j * φ j (T (a, y))) (Finset.measurable_sum _ fun j _ => (hψ a j).const_mul _) v det]
    exact exceedanceNoise_tendsto law (fun j y => φ j (T (a, y))) (hψ a) det h1 hσ h2'
  obtain ⟨g, hg, fN, hfN, hgl⟩ := interp1d_tendsto hs s.sizes rfl exact' _ fun a _ => hlim a
  refine ⟨g, hg, ?_⟩
  have hsim : ∀ᵐ ω' ∂Q', ∀ N, _ := ae_all_iff.2 fun N => C150_chaos Q' law (fit N)
    (fun a ψ hψm => by
      obtain ⟨j, rfl⟩ := (List.mem_ofFn' _ _).1 hψm
      exact hψ a j) (coefs N) x' z' hxz' hlaw' hind' s hs hnum _ rfl
  filter_upwards [hsim] with ω' hω'
  have hchoice : ∀ N, ∃ f : ℕ → ℝ → Res ℝ,
      (∀ n, (chaosRunSim { fit N with samplingSize := n } (chaosDraws n s.number (fun l => x' 0 l ω') fun j l => z' 0 j l ω')
            ((coefs N).mapIdx fun r co => (co, chaosDraws n s.number (fun l => x' (r + 1) l ω') fun j l => z' (r + 1) j l ω')) s).2.curve = some (f n)) ∧
      ∀ t w, fN N t = .ok w → ∃ u : ℕ → ℝ, (∀ n, f n t = .ok (u n)) ∧ Tendsto u atTop (𝓝 w) := by
    intro N
    obtain ⟨out, ho, -, ⟨g', hg', f, hf, hl⟩, -⟩ := hω' N
    refine ⟨f, fun n => by rw [← ho n]; exact hf n, ?_⟩
    have : g' = fN N := by
      have e1 := hfN N
      rw [← Except.ok.injEq, ← hg', ← e1]
      congr 1
      refine List.map_congr_left fun a _ => ?_
      simp only [hexact, exceedanceNoise]
      congr 1
      ext p
      simp only [mem_ofPred_eq, fit, fittedChaos]
      rw [zipWith_ofFn_sum]
    rw [← this]
    exact hl
  choose f hf1 hf2 using hchoice
  refine ⟨f, hf1, fun t w hw => ?_⟩
  obtain ⟨lim, hl1, hl2⟩ := hgl t w hw
  exact ⟨lim, fun N => hf2 N t (lim N) (hl1 N), hl2⟩

end

/-- Basis of the instance: the constant and the defect size. -/
def instBasis : Fin 2 → ℝ × ℝ → ℝ := ![fun _ => 1, fun w => w.1]

theorem instBasis_indep (c : Fin 2 → ℝ) (hc : c ≠ 0) :
    0 < ∫ w, (∑ j, c j * instBasis j (id w)) ^ 2 ∂((gaussianReal 0 1).prod (gaussianReal 0 1)) := by
  have h1 : ∫ w : ℝ × ℝ, (∑ j, c j * instBasis j (id w)) ^ 2 ∂((gaussianReal 0 1).prod (gaussianReal 0 1))
      = ∫ t, (c 0 + c 1 * t) ^ 2 ∂(gaussianReal 0 1) := by
    have := integral_fun_fst (μ := gaussianReal 0 1) (ν := gaussianReal 0 1) fun t : ℝ => (c 0 + c 1 * t) ^ 2
    rw [probReal_univ, one_smul] at this
    rw [← this]
    simp [Fin.sum_univ_two, instBasis]
  have hid : Integrable (fun t : ℝ => t) (gaussianReal 0 1) := (memLp_id_gaussianReal 1).integrable le_rfl
  have hsq : Integrable (fun t : ℝ => t ^ 2) (gaussianReal 0 1) :=
    MemLp.integrable_sq (f := fun t : ℝ => t) (memLp_id_gaussianReal 2)
  have hm : ∫ t, t ∂(gaussianReal 0 1) = 0 := integral_id_gaussianReal
  have hvar : ∫ t, t ^ 2 ∂(gaussianReal 0 1) = 1 := by
    have h := variance_fun_id_gaussianReal (μ := 0) (v := 1)
    rw [variance_eq_integral (by fun_prop)] at h
    simpa [hm] using h
  have h2 : ∫ t, (c 0 + c 1 * t) ^ 2 ∂(gaussianReal 0 1) = c 0 ^ 2 + c 1 ^ 2 := by
    have he : ∀ t : ℝ, (c 0 + c 1 * t) ^ 2 = c 0 ^ 2 + (2 * c 0 * c 1 * t + c 1 ^ 2 * t ^ 2) := fun t => by ring
    simp only [he]
    have i1 : Integrable (fun t : ℝ => 2 * c 0 * c 1 * t) (gaussianReal 0 1) := hid.const_mul _
    have i2 : Integrable (fun t : ℝ => c 1 ^ 2 * t ^ 2) (gaussianReal 0 1) := hsq.const_mul _
    have i3 : Integrable (fun t : ℝ => 2 * c 0 * c 1 * t + c 1 ^ 2 * t ^ 2) (gaussianReal 0 1) := i1.add i2
    rw [integral_add (integrable_const _) i3, integral_add i1 i2, integral_const_mul, integral_const_mul, hm, hvar, integral_const, probReal_univ]
    simp
  rw [h1, h2]
  by_contra hn
  apply hc
  have h3 : c 0 = 0 := by nlinarith [sq_nonneg (c 0), sq_nonneg (c 1)]
  have h4 : c 1 = 0 := by nlinarith [sq_nonneg (c 0), sq_nonneg (c 1)]
  funext j
  fin_cases j
  · exact h3
  · exact h4

/-- Instance: the signal is 1 + 2 a plus a standard normal error, detection 4, sizes 1 and 2. -/
example : let Q := Measure.infinitePi fun _ : ℕ => ((gaussianReal 0 1).prod (gaussianReal 0 1)).prod (gaussianReal 0 1)
    let Q' := Measure.infinitePi fun _ : ℕ => (gaussianReal 0 1).prod (gaussianReal 0 1)
    let s : SimAttrs := ⟨⟨[1, 2], 2⟩, none, none⟩
    ∀ᵐ ω ∂Q,
      let fit := fun N => fittedChaos (0, 0) id instBasis 4 N (fun i => (ω i).1) fun i => ∑ j, (![1, 2] : Fin 2 → ℝ) j * instBasis j (id (ω i).1) + (ω i).2
      ∃ g, interp1d s.sizes (s.sizes.map fun a => ((gaussianReal 0 1).prod (gaussianReal 0 1)).real
          {p : ℝ × ℝ | 4 < ∑ j, (![1, 2] : Fin 2 → ℝ) j * instBasis j (id (a, p.1)) + p.2}) = .ok g ∧
        ∀ᵐ ω' ∂Q', ∃ f : ℕ → ℕ → ℝ → Res ℝ,
          (∀ N n, (chaosRunSim { fit N with samplingSize := n } (chaosDraws n s.number (fun l => (ω' l).1) fun _ l => (ω' l).2)
            ([[1, 2]].mapIdx fun _ co => (co, chaosDraws n s.number (fun l => (ω' l).1) fun _ l => (ω' l).2)) s).2.curve = some (f N n)) ∧
          ∀ t w, g t = .ok w → ∃ lim : ℕ → ℝ, (∀ N, ∃ u : ℕ → ℝ, (∀ n, f N n t = .ok (u n)) ∧ Tendsto u atTop (𝓝 (lim N))) ∧
            Tendsto lim atTop (𝓝 w) := by
  intro Q Q' s
  refine C171_curve (Q := Q) (P := (gaussianReal 0 1).prod (gaussianReal 0 1)) (0, 0) id instBasis ?_ ?_ instBasis_indep 1 one_ne_zero
    (fun i ω => (ω i).1) (fun i ω => (ω i).2) (fun i => measurable_fst.comp (measurable_pi_apply i)) (fun i => measurable_snd.comp (measurable_pi_apply i))
    (fun i => (measurePreserving_eval_infinitePi (fun _ : ℕ => ((gaussianReal 0 1).prod (gaussianReal 0 1)).prod (gaussianReal 0 1)) i).map_eq)
    (iIndepFun_infinitePi (P := fun _ : ℕ => ((gaussianReal 0 1).prod (gaussianReal 0 1)).prod (gaussianReal 0 1)) (X := fun _ x => x)
      (fun _ => measurable_id)) ![1, 2] 4 (gaussianReal 0 1) s (by norm_num [s]) rfl Q' (fun _ => [[1, 2]]) (fun _ k ω => (ω k).1)
    (fun _ _ k ω => (ω k).2) (fun _ _ k => measurable_pi_apply k)
    (fun _ _ k => (measurePreserving_eval_infinitePi (fun _ : ℕ => (gaussianReal 0 1).prod (gaussianReal 0 1)) k).map_eq)
    (fun _ _ => iIndepFun_infinitePi (P := fun _ : ℕ => (gaussianReal 0 1).prod (gaussianReal 0 1)) (X := fun _ x => x) (fun _ => measurable_id))
  · intro j
    fin_cases j
    · exact measurable_const
    · exact measurable_fst
  · intro j
    fin_cases j
    · exact memLp_const 1
    · exact (memLp_id_gaussianReal 2).comp_fst (gaussianReal 0 1)

end Verif.Props
