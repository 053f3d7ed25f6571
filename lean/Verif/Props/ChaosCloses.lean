import Verif.Props.ChaosConsistency
import Verif.Props.GaussCloses
import Verif.Props.KrigRandom

/-!
# C242: with many observations the chaos confidence curve closes on the POD (/repo/otpod/_polynomial_chaos_pod.py 196-215)
-/

namespace Verif.Props
open Verif.Py Verif.Model ProbabilityTheory MeasureTheory Set Filter Topology Matrix

section
variable {Ω Z : Type} [MeasurableSpace Ω] [MeasurableSpace Z] {Q : Measure Ω} [IsProbabilityMeasure Q] {P : Measure Z} [IsProbabilityMeasure P]

/-- The matrix of the scalar products of linearly independent functions is invertible. -/
theorem gram_det_ne {k : ℕ} (φ : Fin k → Z → ℝ) (hφ : ∀ j, MemLp (φ j) 2 P) (hindep : ∀ c : Fin k → ℝ, c ≠ 0 → 0 < ∫ z, (∑ j, c j * φ j z) ^ 2 ∂P) :
    (Matrix.of fun j l => ∫ z, φ j z * φ l z ∂P : Matrix (Fin k) (Fin k) ℝ).det ≠ 0 := by
  set G : Matrix (Fin k) (Fin k) ℝ := Matrix.of fun j l => ∫ z, φ j z * φ l z ∂P with hG
  have hmul : ∀ j l, Integrable (fun z => φ j z * φ l z) P := fun j l => (hφ j).integrable_mul (hφ l)
  intro h0
  obtain ⟨c, hc, hGc⟩ := Matrix.exists_mulVec_eq_zero_iff.2 h0
  have h1 : ∫ z, (∑ j, c j * φ j z) ^ 2 ∂P = c ⬝ᵥ G *ᵥ c := by
    have hexp : ∀ z, (∑ j, c j * φ j z) ^ 2 = ∑ j, ∑ l, c j * c l * (φ j z * φ l z) := by
      intro z
      rw [sq, Finset.sum_mul_sum]
      exact Finset.sum_congr rfl fun j _ => Finset.sum_congr rfl fun l _ => by ring
    simp only [hexp]
    rw [integral_finsetSum _ fun j _ => integrable_finsetSum _ fun l _ => (hmul j l).const_mul _]
    simp only [dotProduct, mulVec, Finset.mul_sum]
    refine Finset.sum_congr rfl fun j _ => ?_
    rw [integral_finsetSum _ fun l _ => (hmul j l).const_mul _]
    refine Finset.sum_congr rfl fun l _ => ?_
    rw [integral_const_mul, hG, Matrix.of_apply]
    ring
  have h2 := hindep c hc
  rw [h1, hGc, dotProduct_zero] at h2
  exact lt_irrefl _ h2

/-- The variances of the coefficients tend to 0. -/
theorem gram_inv_small {k : ℕ} (φ : Fin k → Z → ℝ) (hφm : ∀ j, Measurable (φ j)) (hφ : ∀ j, MemLp (φ j) 2 P)
    (hindep : ∀ c : Fin k → ℝ, c ≠ 0 → 0 < ∫ z, (∑ j, c j * φ j z) ^ 2 ∂P) (x : ℕ → Ω → Z) (hx : ∀ i, Measurable (x i))
    (hlaw : ∀ i, Q.map (x i) = P) (hind : iIndepFun x Q) :
    ∀ᵐ ω ∂Q, ∀ j, Tendsto (fun N => ((basisMatrix φ N fun i => x i ω)ᵀ * basisMatrix φ N fun i => x i ω)⁻¹ j j) atTop (𝓝 0) := by
  set G : Matrix (Fin k) (Fin k) ℝ := Matrix.of fun j l => ∫ z, φ j z * φ l z ∂P with hG
  have hdet : G.det ≠ 0 := gram_det_ne φ hφ hindep
  have a1 : ∀ᵐ ω ∂Q, ∀ j l, Tendsto (fun N => avg x (fun w => φ j w * φ l w) N ω) atTop (𝓝 (G j l)) :=
    ae_all_iff.2 fun j => ae_all_iff.2 fun l => avg_strong hx hlaw hind (f := fun w => φ j w * φ l w) ((hφm j).mul (hφm l)) ((hφ j).integrable_mul (hφ l))
  filter_upwards [a1] with ω b1 j
  set A : (N : ℕ) → Matrix (Fin N) (Fin k) ℝ := fun N => basisMatrix φ N fun i => x i ω with hA
  set S : ℕ → Matrix (Fin k) (Fin k) ℝ := fun N => (1 / (N : ℝ)) • ((A N)ᵀ * A N) with hS
  have tS : Tendsto S atTop (𝓝 G) := by
    refine tendsto_pi_nhds.2 fun j => tendsto_pi_nhds.2 fun l => ?_
    refine (b1 j l).congr fun N => ?_
    simp only [hS, hA, basisMatrix, avg, Matrix.smul_apply, Matrix.mul_apply, Matrix.transpose_apply, smul_eq_mul]
    rw [Finset.sum_range fun i => φ j (x i ω) * φ l (x i ω)]
    ring
  have tinv : Tendsto (fun N => (S N)⁻¹ j j) atTop (𝓝 (G⁻¹ j j)) := ((continuous_apply_apply j j).tendsto _).comp (inv_tendsto hdet tS)
  have hev : ∀ᶠ N in atTop, (S N).det ≠ 0 := by
    have h1 : Tendsto (fun N => (S N).det) atTop (𝓝 G.det) := ((continuous_id.matrix_det).tendsto G).comp tS
    exact h1.eventually_ne hdet
  have h := tendsto_one_div_atTop_nhds_zero_nat.mul tinv
  rw [zero_mul] at h
  refine h.congr' ?_
  filter_upwards [hev, eventually_gt_atTop 0] with N hd hN
  have hN' : (N : ℝ) ≠ 0 := by exact_mod_cast hN.ne'
  have hGdet : ((A N)ᵀ * A N).det ≠ 0 := by
    intro h0
    apply hd
    rw [hS, Matrix.det_smul, h0, mul_zero]
  have hinv : (S N)⁻¹ = (N : ℝ) • ((A N)ᵀ * A N)⁻¹ := by
    apply Matrix.inv_eq_left_inv
    rw [hS, Matrix.smul_mul, Matrix.mul_smul, smul_smul, Matrix.nonsing_inv_mul _ (isUnit_iff_ne_zero.2 hGdet), mul_one_div_cancel hN', one_smul]
  rw [hinv, Matrix.smul_apply, smul_eq_mul, ← mul_assoc, one_div_mul_cancel hN', one_mul]

end

section
variable {Ω' : Type} [MeasurableSpace Ω']

/-- The draws of a run: `M` reduced normal vectors with covariance (AᵀA)⁻¹ and one Chi value (its square has the `ChiSquare` law). -/
structure ChaosSimDraws {N k : ℕ} (Ps : Measure Ω') (A : Matrix (Fin N) (Fin k) ℝ) (M : ℕ) (z : ℕ → Ω' → Fin k → ℝ) (chi : Ω' → ℝ) : Prop where
  normal : ∀ r < M, NormalVector Ps (z r) (Aᵀ * A)⁻¹
  meas : Measurable chi
  law : Ps.map chi = chiLaw (N - k - 1)

theorem chaosNear_prob {N k : ℕ} (Ps : Measure Ω') [IsProbabilityMeasure Ps] (A : Matrix (Fin N) (Fin k) ℝ) (M : ℕ) (z : ℕ → Ω' → Fin k → ℝ) (chi : Ω' → ℝ)
    (hd : ChaosSimDraws Ps A M z chi) (δ : ℝ) (hδ : 0 < δ) :
    1 - (M * ∑ j, max ((Aᵀ * A)⁻¹ j j) 0 / δ ^ 2 + (chiLaw (N - k - 1)).real {t | 1 / 2 ≤ |t / Real.sqrt ((N - k - 1 : ℕ) : ℝ) - 1|})
      ≤ Ps.real {ω | (∀ r < M, ∀ j, |z r ω j| < δ) ∧ |chi ω / Real.sqrt ((N - k - 1 : ℕ) : ℝ) - 1| < 1 / 2} := by
  set E := {ω | (∀ r < M, ∀ j, |z r ω j| < δ) ∧ |chi ω / Real.sqrt ((N - k - 1 : ℕ) : ℝ) - 1| < 1 / 2} with hE
  set B : ℕ → Fin k → Set Ω' := fun r j => {ω | δ ≤ |z r ω j|} with hB
  set C : Set Ω' := {ω | 1 / 2 ≤ |chi ω / Real.sqrt ((N - k - 1 : ℕ) : ℝ) - 1|} with hC
  have hcov : (univ : Set Ω') ⊆ E ∪ ((⋃ r ∈ Finset.range M, ⋃ j ∈ (Finset.univ : Finset (Fin k)), B r j) ∪ C) := by
    intro ω _
    by_cases h : ω ∈ E
    · exact Or.inl h
    · right
      simp only [hE, mem_ofPred_eq, not_and_or] at h
      rcases h with h | h
      · left
        push Not at h
        obtain ⟨r, hr, j, hj⟩ := h
        exact mem_iUnion₂.2 ⟨r, Finset.mem_range.2 hr, mem_iUnion₂.2 ⟨j, Finset.mem_univ _, hj⟩⟩
      · exact Or.inr (not_lt.1 h)
  have h1 := (measureReal_mono hcov).trans (measureReal_union_le (μ := Ps) _ _)
  rw [probReal_univ] at h1
  have h2 := measureReal_union_le (μ := Ps) (⋃ r ∈ Finset.range M, ⋃ j ∈ (Finset.univ : Finset (Fin k)), B r j) C
  have h3 := measureReal_biUnion_finset_le (μ := Ps) (Finset.range M) fun r => ⋃ j ∈ (Finset.univ : Finset (Fin k)), B r j
  have hC' : Ps.real C = (chiLaw (N - k - 1)).real {t | 1 / 2 ≤ |t / Real.sqrt ((N - k - 1 : ℕ) : ℝ) - 1|} := by
    rw [← hd.law, map_measureReal_apply hd.meas (measurableSet_le measurable_const (by fun_prop))]
    rfl
  have h4 : ∑ r ∈ Finset.range M, Ps.real (⋃ j ∈ (Finset.univ : Finset (Fin k)), B r j) ≤ ∑ _r ∈ Finset.range M, ∑ j, max ((Aᵀ * A)⁻¹ j j) 0 / δ ^ 2 := by
    refine Finset.sum_le_sum fun r hr => ?_
    refine (measureReal_biUnion_finset_le (μ := Ps) Finset.univ fun j => B r j).trans (Finset.sum_le_sum fun j _ => ?_)
    have hz := hd.normal r (Finset.mem_range.1 hr)
    have hl := hz.law (Pi.single j 1)
    have e1 : (fun ω => (Pi.single j 1 : Fin k → ℝ) ⬝ᵥ z r ω) = fun ω => z r ω j := by
      funext ω
      rw [single_one_dotProduct]
    have e2 : (Pi.single j 1 : Fin k → ℝ) ⬝ᵥ ((Aᵀ * A)⁻¹ *ᵥ Pi.single j 1) = (Aᵀ * A)⁻¹ j j := by
      rw [single_one_dotProduct, mulVec_single_one, col_apply]
    rw [e1, e2] at hl
    have h := gauss_small (Real.toNNReal ((Aᵀ * A)⁻¹ j j)) δ hδ
    rw [Real.coe_toNNReal', ← hl, map_measureReal_apply (f := fun ω => z r ω j) ((measurable_pi_apply j).comp hz.meas) (measurableSet_le measurable_const (by fun_prop))] at h
    exact h
  rw [Finset.sum_const, Finset.card_range, nsmul_eq_mul] at h4
  linarith

theorem chaosNear_tendsto {k : ℕ} (M : ℕ) (Ps : ℕ → Measure Ω') [∀ N, IsProbabilityMeasure (Ps N)] (A : (N : ℕ) → Matrix (Fin N) (Fin k) ℝ)
    (z : ℕ → ℕ → Ω' → Fin k → ℝ) (chi : ℕ → Ω' → ℝ) (hd : ∀ N, ChaosSimDraws (Ps N) (A N) M (z N) (chi N))
    (hA : ∀ j, Tendsto (fun N => ((A N)ᵀ * A N)⁻¹ j j) atTop (𝓝 0)) (δ : ℝ) (hδ : 0 < δ) :
    Tendsto (fun N => (Ps N).real {ω | (∀ r < M, ∀ j, |z N r ω j| < δ) ∧ |chi N ω / Real.sqrt ((N - k - 1 : ℕ) : ℝ) - 1| < 1 / 2}) atTop (𝓝 1) := by
  have hm : Tendsto (fun N : ℕ => N - k - 1) atTop atTop := (tendsto_sub_atTop_nat 1).comp (tendsto_sub_atTop_nat k)
  have hc := (chiLaw_concentrates (1 / 2) (by norm_num)).comp hm
  have hs : Tendsto (fun N => ∑ j, max (((A N)ᵀ * A N)⁻¹ j j) 0 / δ ^ 2) atTop (𝓝 0) := by
    have : Tendsto (fun N => ∑ j, max (((A N)ᵀ * A N)⁻¹ j j) 0 / δ ^ 2) atTop (𝓝 (∑ _j : Fin k, max 0 0 / δ ^ 2)) :=
      tendsto_finsetSum _ fun j _ => ((hA j).max tendsto_const_nhds).div_const _
    simpa using this
  have hlow := ((hs.const_mul (M : ℝ)).add hc).const_sub 1
  simp only [mul_zero, add_zero, sub_zero] at hlow
  exact tendsto_of_tendsto_of_tendsto_of_le_of_le hlow tendsto_const_nhds (fun N => chaosNear_prob (Ps N) (A N) M (z N) (chi N) (hd N) δ hδ)
    fun _ => measureReal_le_one

end

section
variable {Ω X U : Type} [MeasurableSpace Ω] [MeasurableSpace X] {Q : Measure Ω} [IsProbabilityMeasure Q]

/-- The probability of exceedance is continuous in the coefficients and the noise level. -/
theorem exceedanceNoise_continuousAt (law : Measure X) [IsProbabilityMeasure law] {k : ℕ} (ψ : Fin k → X → ℝ) (hψ : ∀ j, Measurable (ψ j)) (det : ℝ)
    (beta : Fin k → ℝ) {σ : ℝ} (hσ : 0 < σ) :
    Tendsto (fun p : (Fin k → ℝ) × ℝ => exceedanceNoise law (fun y => ∑ j, p.1 j * ψ j y) (fun _ => p.2) det) (𝓝 (beta, σ))
      (𝓝 (exceedanceNoise law (fun y => ∑ j, beta j * ψ j y) (fun _ => σ) det)) := by
  refine tendsto_of_seq_tendsto fun u hu => ?_
  rw [nhds_prod_eq] at hu
  exact exceedanceNoise_tendsto law ψ hψ det (c := fun N => (u N).1) (s := fun N => (u N).2) (tendsto_fst.comp hu) hσ (tendsto_snd.comp hu)

/-- **C242.**  Signals that are a combination of the basis functions of the chaos plus independent normal errors, as in C171, and `M` simulated vectors of
coefficients.  For almost all sequences of observations: with a probability over the simulated coefficients that tends to 1 when the number of
observations grows, the confidence curve of the run converges, when the sampling size grows, at each requested defect size to a value within `ε` of the
true probability of detection. -/
theorem C242_chaos {P : Measure (ℝ × X)} [IsProbabilityMeasure P] {k : ℕ} (zero : ℝ × X) (T : ℝ × X → U) (φ : Fin k → U → ℝ)
    (hφm : ∀ j, Measurable fun w => φ j (T w)) (hφ : ∀ j, MemLp (fun w => φ j (T w)) 2 P)
    (hindep : ∀ c : Fin k → ℝ, c ≠ 0 → 0 < ∫ w, (∑ j, c j * φ j (T w)) ^ 2 ∂P) (v : NNReal) (hv : v ≠ 0)
    (x : ℕ → Ω → ℝ × X) (e : ℕ → Ω → ℝ) (hx : ∀ i, Measurable (x i)) (he : ∀ i, Measurable (e i))
    (hlaw : ∀ i, Q.map (fun ω => (x i ω, e i ω)) = P.prod (gaussianReal 0 v)) (hind : iIndepFun (fun i ω => (x i ω, e i ω)) Q) (beta : Fin k → ℝ)
    (det : ℝ) (law : Measure X) [IsProbabilityMeasure law] (s : SimAttrs) (hs : s.sizes.Pairwise (· < ·)) (hnum : s.number = s.sizes.length)
    {Ω' : Type} [MeasurableSpace Ω'] (Q' : Measure Ω') [IsProbabilityMeasure Q']
    (x' : ℕ → ℕ → Ω' → X) (z' : ℕ → ℕ → ℕ → Ω' → ℝ) (hxz' : ∀ r j l, Measurable fun ω => (x' r l ω, z' r j l ω))
    (hlaw' : ∀ r j l, Q'.map (fun ω => (x' r l ω, z' r j l ω)) = law.prod (gaussianReal 0 1))
    (hind' : ∀ r j, iIndepFun (fun l ω => (x' r l ω, z' r j l ω)) Q') {Ωc : Type} [MeasurableSpace Ωc] :
    ∀ᵐ ω ∂Q,
      let y := fun i => ∑ j, beta j * φ j (T (x i ω)) + e i ω
      let A := fun N => basisMatrix (fun j w => φ j (T w)) N fun i => x i ω
      let fit := fun N => fittedChaos zero T φ det N (fun i => x i ω) y
      ∀ (M : ℕ), 1 ≤ M → ∀ (Ps : ℕ → Measure Ωc) (_ : ∀ N, IsProbabilityMeasure (Ps N)) (z : ℕ → ℕ → Ωc → Fin k → ℝ) (chi : ℕ → Ωc → ℝ),
        (∀ N, ChaosSimDraws (Ps N) (A N) M (z N) (chi N)) → ∀ level ε, 0 < ε →
        Tendsto (fun N => (Ps N).real {ωc | ∀ᵐ ω' ∂Q', ∃ f : ℕ → ℝ → Res ℝ,
          (∀ n, getPODCLModel (chaosRunSim { fit N with samplingSize := n } (chaosDraws n s.number (fun l => x' 0 l ω') fun j l => z' 0 j l ω')
            ((chaosCoefsRandom (A N) (fun i => y i) (fit N).stderr M (fun r => z N r ωc) (chi N ωc)).mapIdx fun r co => (co, chaosDraws n s.number (fun l => x' (r + 1) l ω') fun j l => z' (r + 1) j l ω')) s).2 level
              = .ok (f n)) ∧
          ∀ a ∈ s.sizes, ∃ (u : ℕ → ℝ) (w : ℝ), (∀ n, f n a = .ok (u n)) ∧ Tendsto u atTop (𝓝 w) ∧
            |w - (law.prod (gaussianReal 0 v)).real {p | det < ∑ j, beta j * φ j (T (a, p.1)) + p.2}| < ε}) atTop (𝓝 1) := by
  have hμ : MemLp (fun t : ℝ => t) 2 (gaussianReal 0 v) := memLp_id_gaussianReal 2
  have hμ0 : ∫ t, t ∂(gaussianReal 0 v) = 0 := integral_id_gaussianReal
  have hvar : ∫ t, t ^ 2 ∂(gaussianReal 0 v) = v := by
    have h := variance_fun_id_gaussianReal (μ := 0) (v := v)
    rw [variance_eq_integral (by fun_prop)] at h
    simpa [hμ0] using h
  have hσ : 0 < Real.sqrt (v : ℝ) := Real.sqrt_pos.2 (by exact_mod_cast pos_iff_ne_zero.2 hv)
  have hψ : ∀ a : ℝ, ∀ j, Measurable fun y : X => φ j (T (a, y)) := fun a j => (hφm j).comp (by fun_prop)
  have hxl : ∀ i, Q.map (x i) = P := by
    intro i
    have h : Q.map (Prod.fst ∘ fun ω => (x i ω, e i ω)) = P := by
      rw [← Measure.map_map measurable_fst ((hx i).prodMk (he i)), hlaw i, Measure.map_fst_prod, measure_univ, one_smul]
    exact h
  have hxi : iIndepFun x Q := hind.comp (fun _ => Prod.fst) fun _ => measurable_fst
  filter_upwards [chaos_fit_limit (fun j w => φ j (T w)) hφm hφ hindep (gaussianReal 0 v) hμ hμ0 x e hx he hlaw hind beta,
    gram_inv_small (fun j w => φ j (T w)) hφm hφ hindep x hx hxl hxi] with ω hω hinv
  obtain ⟨h1, h2⟩ := hω
  rw [hvar] at h2
  have h2' := (Real.continuous_sqrt.tendsto _).comp h2
  intro y A fit M hM Ps _ z chi hd level ε hε
  -- a neighbourhood of the true parameters
  set truth : ℝ → ℝ := fun a => (law.prod (gaussianReal 0 v)).real {p | det < ∑ j, beta j * φ j (T (a, p.1)) + p.2} with htruth
  set F : ℝ → (Fin k → ℝ) × ℝ → ℝ := fun a p => exceedanceNoise law (fun y => ∑ j, p.1 j * φ j (T (a, y))) (fun _ => p.2) det with hF
  have hcont : ∀ a, Tendsto (F a) (𝓝 (beta, Real.sqrt v)) (𝓝 (truth a)) := by
    intro a
    simp only [htruth]
    rw [exceedance_gauss law (fun y => ∑ j, beta j * φ j (T (a, y))) (Finset.measurable_sum _ fun j _ => (hψ a j).const_mul _) v det]
    exact exceedanceNoise_continuousAt law (fun j y => φ j (T (a, y))) (hψ a) det beta hσ
  have hnear : ∀ᶠ p in 𝓝 (beta, Real.sqrt (v : ℝ)), ∀ a ∈ s.sizes.toFinset, |F a p - truth a| < ε / 2 := by
    rw [Filter.eventually_all_finset]
    intro a _
    have := Metric.tendsto_nhds.1 (hcont a) (ε / 2) (half_pos hε)
    simpa only [Real.dist_eq] using this
  obtain ⟨η, hη, hball⟩ := Metric.eventually_nhds_iff.1 hnear
  -- the simulated coefficients
  set sd : ℕ → ℝ := fun N => (fit N).stderr with hsd
  have hsdl : Tendsto sd atTop (𝓝 (Real.sqrt v)) := h2'
  set σ := Real.sqrt (v : ℝ) with hσ'
  set δ := η / 2 / (4 * (σ + 1)) with hδ
  have hδ0 : 0 < δ := by positivity
  refine prob_one_of_subset Ps _ _ (chaosNear_tendsto M Ps A z chi hd hinv δ hδ0) ?_
  filter_upwards [Metric.tendsto_nhds.1 h1 (η / 2) (half_pos hη), Metric.tendsto_nhds.1 hsdl (min η 1) (lt_min hη one_pos), eventually_gt_atTop (k + 1)]
    with N hN1 hN2 hNk ωc hωc
  obtain ⟨hz, hchi⟩ := hωc
  have hcast : ((N - k - 1 : ℕ) : ℝ) = (N : ℝ) - k - 1 := by
    rw [Nat.cast_sub (by omega), Nat.cast_sub (by omega), Nat.cast_one]
  have hm0 : (0 : ℝ) < (N : ℝ) - k - 1 := by
    rw [← hcast]; exact_mod_cast (by omega : 0 < N - k - 1)
  rw [hcast] at hchi
  have hsd0 : 0 ≤ sd N := Real.sqrt_nonneg _
  have hsd1 : sd N ≤ σ + 1 := by
    have := (abs_lt.1 (hN2.trans_le (min_le_right _ _))).2
    linarith
  set V := chaosVarEpsilon N k (fit N).stderr (chi N ωc) with hV
  have hVb : Real.sqrt V ≤ 2 * (σ + 1) := by
    have hm1 : 0 < Real.sqrt ((N : ℝ) - k - 1) := Real.sqrt_pos.2 hm0
    have hlow : 1 / 2 < chi N ωc / Real.sqrt ((N : ℝ) - k - 1) := by linarith [(abs_lt.1 hchi).1]
    have hc0 : 0 < chi N ωc := by
      rw [lt_div_iff₀ hm1] at hlow
      nlinarith
    have hsq : V = (Real.sqrt ((N : ℝ) - k - 1) / chi N ωc * sd N) ^ 2 := by
      rw [hV, chaosVarEpsilon, mul_pow, div_pow, Real.sq_sqrt hm0.le]
      ring
    have hr : Real.sqrt ((N : ℝ) - k - 1) / chi N ωc ≤ 2 := by
      rw [div_le_iff₀ hc0]
      rw [lt_div_iff₀ hm1] at hlow
      linarith
    have hr0 : 0 ≤ Real.sqrt ((N : ℝ) - k - 1) / chi N ωc := by positivity
    rw [hsq, Real.sqrt_sq (by positivity)]
    exact mul_le_mul hr hsd1 hsd0 (by norm_num)
  set co : ℕ → Fin k → ℝ := fun r => chaosDraw (lsCoefs (A N) fun i => y i) (fun _ => V) (fun r => z N r ωc) r with hco
  have hclose : ∀ r < M, ∀ a ∈ s.sizes, |F a (co r, sd N) - truth a| < ε / 2 := by
    intro r hr a ha
    refine hball ?_ a (List.mem_toFinset.2 ha)
    rw [Prod.dist_eq, max_lt_iff]
    refine ⟨?_, hN2.trans_le (min_le_left _ _)⟩
    rw [dist_pi_lt_iff hη]
    intro j
    have t1 : dist (lsCoefs (A N) (fun i => y i) j) (beta j) < η / 2 := (dist_le_pi_dist _ _ j).trans_lt hN1
    have t2 : |z N r ωc j * Real.sqrt V| ≤ η / 4 := by
      rw [abs_mul, abs_of_nonneg (Real.sqrt_nonneg V)]
      calc |z N r ωc j| * Real.sqrt V ≤ δ * (2 * (σ + 1)) := mul_le_mul (hz r hr j).le hVb (Real.sqrt_nonneg _) hδ0.le
        _ = η / 4 := by rw [hδ]; field_simp
    rw [Real.dist_eq] at t1 ⊢
    simp only [hco, chaosDraw]
    rw [abs_lt] at t1 ⊢
    rw [abs_le] at t2
    constructor <;> linarith [t1.1, t1.2, t2.1, t2.2]
  -- the limit of the run
  set coefs := (List.range M).map fun r => List.ofFn (co r) with hcoefs
  have hcne : coefs ≠ [] := by
    intro h
    have : coefs.length = 0 := by rw [h]; rfl
    rw [hcoefs] at this
    simp at this
    omega
  have hsim := C150_chaos Q' law (fit N)
    (fun a ψ hψm => by
      obtain ⟨j, rfl⟩ := (List.mem_ofFn' _ _).1 hψm
      exact hψ a j) coefs x' z' hxz' hlaw' hind' s (hs.imp fun h => h.le) hnum _ rfl
  show ∀ᵐ ω' ∂Q', _
  filter_upwards [hsim] with ω' hω'
  obtain ⟨out, ho, -, -, hcl⟩ := hω'
  obtain ⟨g, hg, f, hf, hl⟩ := hcl hcne level
  refine ⟨f, fun n => (congrArg (fun o => getPODCLModel o.2 level) (ho n)).symm.trans (hf n), fun a ha => ?_⟩
  obtain ⟨i, hi, hia⟩ := List.mem_iff_getElem.1 ha
  obtain ⟨g', hg', -, hnode, -⟩ := interp1d_spec s.sizes (s.sizes.map fun a => quantile (coefs.map fun co => (law.prod (gaussianReal 0 1)).real
      {p | (fit N).detection < (List.zipWith (fun b ψ => b * ψ ((fit N).transformation (a, p.1))) co (fit N).basis).sum + (fit N).stderr * p.2}) (1 - level))
    (List.length_map _).symm (List.ne_nil_of_mem ha) hs
  rw [hg, Except.ok.injEq] at hg'
  subst hg'
  have hn := hnode i hi
  rw [List.getD_eq_getElem _ _ hi, hia, List.getD_eq_getElem _ _ (by simpa using hi), List.getElem_map, hia] at hn
  obtain ⟨u, hu, hul⟩ := hl a _ hn
  refine ⟨u, _, hu, hul, ?_⟩
  have hq := quantile_within (l := coefs.map fun co => (law.prod (gaussianReal 0 1)).real
      {p | (fit N).detection < (List.zipWith (fun b ψ => b * ψ ((fit N).transformation (a, p.1))) co (fit N).basis).sum + (fit N).stderr * p.2})
    (by simpa using hcne) (lo := truth a - ε / 2) (hi := truth a + ε / 2) (by
      intro q hq
      obtain ⟨c, hc, rfl⟩ := List.mem_map.1 hq
      obtain ⟨r, hr, rfl⟩ := List.mem_map.1 hc
      have h := abs_lt.1 (hclose r (List.mem_range.1 hr) a ha)
      have hE : (law.prod (gaussianReal 0 1)).real {p | (fit N).detection < (List.zipWith (fun b ψ => b * ψ ((fit N).transformation (a, p.1))) (List.ofFn (co r)) (fit N).basis).sum
          + (fit N).stderr * p.2} = F a (co r, sd N) := by
        simp only [hF, exceedanceNoise]
        congr 1
        ext p
        simp only [mem_ofPred_eq, fit, fittedChaos, hsd]
        rw [zipWith_ofFn_sum]
      rw [hE]
      constructor <;> linarith [h.1, h.2]) (1 - level)
  rw [abs_lt]
  constructor <;> linarith [hq.1, hq.2]

end

theorem chaosSimDraws_exist {N k : ℕ} (A : Matrix (Fin N) (Fin k) ℝ) (M : ℕ) :
    ∃ (Ps : Measure (EuclideanSpace ℝ (Fin k) × ℝ)) (_ : IsProbabilityMeasure Ps), ChaosSimDraws Ps A M (fun _ ω => WithLp.ofLp ω.1) fun ω => ω.2 := by
  have hS : ((Aᵀ * A)⁻¹).PosSemidef := by
    have h := Matrix.posSemidef_conjTranspose_mul_self A
    rw [Matrix.conjTranspose_eq_transpose_of_trivial] at h
    exact h.inv
  have hN := normalVector_exists _ hS
  refine ⟨(multivariateGaussian 0 (Aᵀ * A)⁻¹).prod (chiLaw (N - k - 1)), inferInstance, ⟨fun r _ => ⟨?_, fun c => ?_⟩, measurable_snd, ?_⟩⟩
  · exact hN.meas.comp measurable_fst
  · rw [← hN.law c]
    have hm : Measurable fun v : EuclideanSpace ℝ (Fin k) => c ⬝ᵥ WithLp.ofLp v := by
      unfold dotProduct
      exact Finset.measurable_sum _ fun i _ => ((measurable_pi_apply i).comp hN.meas).const_mul _
    rw [← Function.comp_def (fun v : EuclideanSpace ℝ (Fin k) => c ⬝ᵥ WithLp.ofLp v) Prod.fst, ← Measure.map_map hm measurable_fst, measurePreserving_fst.map_eq]
  · exact measurePreserving_snd.map_eq

/-- Signals `1 + 2 a + e`, threshold 4, sizes 1 and 2, 1000 simulated vectors of coefficients: the confidence curve at level 0.95 ends within 0.01 of the POD. -/
example : let Q := Measure.infinitePi fun _ : ℕ => ((gaussianReal 0 1).prod (gaussianReal 0 1)).prod (gaussianReal 0 1)
    let Q' := Measure.infinitePi fun _ : ℕ => (gaussianReal 0 1).prod (gaussianReal 0 1)
    let s : SimAttrs := ⟨⟨[1, 2], 2⟩, none, none⟩
    ∀ᵐ ω ∂Q,
      let y := fun i => ∑ j, (![1, 2] : Fin 2 → ℝ) j * instBasis j (id (ω i).1) + (ω i).2
      let A := fun N => basisMatrix (fun j w => instBasis j (id w)) N fun i => (ω i).1
      let fit := fun N => fittedChaos (0, 0) id instBasis 4 N (fun i => (ω i).1) y
      ∃ (Ps : ℕ → Measure (EuclideanSpace ℝ (Fin 2) × ℝ)) (_ : ∀ N, IsProbabilityMeasure (Ps N)),
        (∀ N, ChaosSimDraws (Ps N) (A N) 1000 (fun _ ωc => WithLp.ofLp ωc.1) fun ωc => ωc.2) ∧
        Tendsto (fun N => (Ps N).real {ωc | ∀ᵐ ω' ∂Q', ∃ f : ℕ → ℝ → Res ℝ,
          (∀ n, getPODCLModel (chaosRunSim { fit N with samplingSize := n } (chaosDraws n s.number (fun l => (ω' l).1) fun _ l => (ω' l).2)
            ((chaosCoefsRandom (A N) (fun i => y i) (fit N).stderr 1000 (fun _ => WithLp.ofLp ωc.1) ωc.2).mapIdx fun _ co => (co, chaosDraws n s.number (fun l => (ω' l).1) fun _ l => (ω' l).2)) s).2 0.95
              = .ok (f n)) ∧
          ∀ a ∈ s.sizes, ∃ (u : ℕ → ℝ) (w : ℝ), (∀ n, f n a = .ok (u n)) ∧ Tendsto u atTop (𝓝 w) ∧
            |w - ((gaussianReal 0 1).prod (gaussianReal 0 1)).real {p : ℝ × ℝ | 4 < ∑ j, (![1, 2] : Fin 2 → ℝ) j * instBasis j (id (a, p.1)) + p.2}| < 0.01})
          atTop (𝓝 1) := by
  intro Q Q' s
  have h := C242_chaos (Ωc := EuclideanSpace ℝ (Fin 2) × ℝ) (Q := Q) (P := (gaussianReal 0 1).prod (gaussianReal 0 1)) (0, 0) id instBasis
    (by
      intro j
      fin_cases j
      · exact measurable_const
      · exact measurable_fst)
    (by
      intro j
      fin_cases j
      · exact memLp_const 1
      · exact (memLp_id_gaussianReal 2).comp_fst (gaussianReal 0 1)) instBasis_indep 1 one_ne_zero
    (fun i ω => (ω i).1) (fun i ω => (ω i).2) (fun i => measurable_fst.comp (measurable_pi_apply i)) (fun i => measurable_snd.comp (measurable_pi_apply i))
    (fun i => (measurePreserving_eval_infinitePi (fun _ : ℕ => ((gaussianReal 0 1).prod (gaussianReal 0 1)).prod (gaussianReal 0 1)) i).map_eq)
    (iIndepFun_infinitePi (P := fun _ : ℕ => ((gaussianReal 0 1).prod (gaussianReal 0 1)).prod (gaussianReal 0 1)) (X := fun _ x => x)
      (fun _ => measurable_id)) ![1, 2] 4 (gaussianReal 0 1) s (by norm_num [s]) rfl Q' (fun _ k ω => (ω k).1)
    (fun _ _ k ω => (ω k).2) (fun _ _ k => measurable_pi_apply k)
    (fun _ _ k => (measurePreserving_eval_infinitePi (fun _ : ℕ => (gaussianReal 0 1).prod (gaussianReal 0 1)) k).map_eq)
    (fun _ _ => iIndepFun_infinitePi (P := fun _ : ℕ => (gaussianReal 0 1).prod (gaussianReal 0 1)) (X := fun _ x => x) (fun _ => measurable_id))
  filter_upwards [h] with ω hω
  choose Ps hPs hD using fun N : ℕ => chaosSimDraws_exist (basisMatrix (fun j w => instBasis j (id w)) N fun i => (ω i).1) 1000
  exact ⟨Ps, hPs, hD, hω 1000 (by norm_num) Ps hPs (fun _ _ ωc => WithLp.ofLp ωc.1) (fun _ ωc => ωc.2) hD 0.95 0.01 (by norm_num)⟩

end Verif.Props
