import Verif.Props.DetectionLimit
import Verif.Props.GaussLimit

/-!
# C240: with many observations the Gaussian confidence curve closes on the POD
-/

namespace Verif.Props
open Verif.Py Verif.Model MeasureTheory ProbabilityTheory Filter Topology Set Matrix

/-! ## The Chi law with many degrees of freedom -/

/-- The Chi law as the law of the norm of the first terms of a sequence of independent standard normal variables. -/
theorem chiLaw_eq (m : ℕ) : (Measure.infinitePi fun _ : ℕ => gaussianReal 0 1).map (fun ω => Real.sqrt (∑ i ∈ Finset.range m, ω i ^ 2)) = chiLaw m := by
  have hi := iIndepFun_infinitePi (P := fun _ : ℕ => gaussianReal 0 1) (X := fun _ p => p) (fun _ => measurable_id)
  have hf := hi.precomp (g := fun i : Fin m => (i : ℕ)) Fin.val_injective
  rw [iIndepFun_iff_map_fun_eq_pi_map fun i => (measurable_pi_apply _).aemeasurable] at hf
  have he : (fun i : Fin m => (Measure.infinitePi fun _ : ℕ => gaussianReal 0 1).map fun ω : ℕ → ℝ => ω i) = fun _ => gaussianReal 0 1 := by
    funext i
    exact Measure.infinitePi_map_eval _ _
  rw [he] at hf
  rw [chiLaw, ← hf, Measure.map_map (chi_measurable m) (measurable_pi_lambda _ fun i => measurable_pi_apply _)]
  congr 1
  funext ω
  simp only [Function.comp]
  rw [Fin.sum_univ_eq_sum_range (fun i => ω i ^ 2) m]

/-- Divided by the root of the number of degrees of freedom, it concentrates at 1. -/
theorem chiLaw_concentrates (δ : ℝ) (hδ : 0 < δ) : Tendsto (fun m : ℕ => (chiLaw m).real {t | δ ≤ |t / Real.sqrt m - 1|}) atTop (𝓝 0) := by
  set I := Measure.infinitePi fun _ : ℕ => gaussianReal 0 1 with hI
  have hid : MemLp (fun t : ℝ => t) 2 (gaussianReal 0 1) := memLp_id_gaussianReal 2
  have sq1 : ∫ t, t ^ 2 ∂(gaussianReal 0 1) = 1 := by
    have := variance_eq_sub hid
    rw [variance_fun_id_gaussianReal] at this
    simp [integral_id_gaussianReal] at this
    exact this.symm
  have hs := avg_strong (Q := I) (P := gaussianReal 0 1) (x := fun i ω => ω i) (fun i => measurable_pi_apply i) (fun i => Measure.infinitePi_map_eval _ i)
    (iIndepFun_infinitePi (P := fun _ : ℕ => gaussianReal 0 1) (X := fun _ p => p) (fun _ => measurable_id)) (f := fun t => t ^ 2) (by fun_prop) hid.integrable_sq
  rw [sq1] at hs
  have hm : ∀ m, Measurable fun ω : ℕ → ℝ => Real.sqrt (avg (fun i (ω : ℕ → ℝ) => ω i) (fun t => t ^ 2) m ω) := fun m =>
    Real.continuous_sqrt.measurable.comp (avg_measurable (fun i => measurable_pi_apply i) (by fun_prop) m)
  have ht : TendstoInMeasure I (fun m ω => Real.sqrt (avg (fun i (ω : ℕ → ℝ) => ω i) (fun t => t ^ 2) m ω)) atTop fun _ => 1 := by
    refine tendstoInMeasure_of_tendsto_ae (fun m => (hm m).aestronglyMeasurable) ?_
    filter_upwards [hs] with ω h
    have := h.sqrt
    rwa [Real.sqrt_one] at this
  rw [tendstoInMeasure_iff_measureReal_norm] at ht
  refine (ht δ hδ).congr fun m => ?_
  rw [← chiLaw_eq m, map_measureReal_apply]
  · congr 1
    ext ω
    simp only [mem_ofPred_eq, mem_preimage, Real.norm_eq_abs, avg]
    rw [Real.sqrt_div (Finset.sum_nonneg fun i _ => sq_nonneg _)]
  · exact Real.continuous_sqrt.measurable.comp (Finset.measurable_sum _ fun i _ => (measurable_pi_apply i).pow_const 2)
  · exact measurableSet_le measurable_const (by fun_prop)

/-- A centred normal variable is small when its variance is. -/
theorem gauss_small (v : NNReal) (δ : ℝ) (hδ : 0 < δ) : (gaussianReal 0 v).real {t | δ ≤ |t|} ≤ v / δ ^ 2 := by
  have h := meas_ge_le_variance_div_sq (memLp_id_gaussianReal (μ := 0) (v := v) 2) hδ
  rw [variance_id_gaussianReal] at h
  simp only [id, integral_id_gaussianReal, sub_zero] at h
  have := ENNReal.toReal_mono ENNReal.ofReal_ne_top h
  rwa [ENNReal.toReal_ofReal (by positivity)] at this

variable {Ω Ω' : Type} [MeasurableSpace Ω] [MeasurableSpace Ω']

/-- The draws of a run: the first `M` vectors and Chi values have the laws the code asks for. -/
structure SimDraws {n : ℕ} (Ps : Measure Ω') (x : Fin n → ℝ) (M : ℕ) (z : ℕ → Ω' → Fin 2 → ℝ) (chi : ℕ → Ω' → ℝ) : Prop where
  normal : ∀ k < M, NormalVector Ps (z k) ((designMatrix x)ᵀ * designMatrix x)⁻¹
  meas : ∀ k < M, Measurable (chi k)
  law : ∀ k < M, Ps.map (chi k) = chiLaw (n - 2)

theorem normal_small {n : ℕ} (Ps : Measure Ω') (x : Fin n → ℝ) (hx : ∃ i j, x i ≠ x j) (z : Ω' → Fin 2 → ℝ)
    (hz : NormalVector Ps z ((designMatrix x)ᵀ * designMatrix x)⁻¹) (a δ : ℝ) (hδ : 0 < δ) : Ps.real {ω | δ ≤ |z ω 0 + z ω 1 * a|} ≤ lev x a / δ ^ 2 := by
  have hl := hz.law ![1, a]
  rw [leverage_eq x a hx] at hl
  have h := gauss_small (Real.toNNReal (lev x a)) δ hδ
  have hpos : 0 ≤ lev x a := by
    have := sxx_pos x hx
    unfold lev
    positivity
  rw [Real.coe_toNNReal _ hpos] at h
  rw [show (1 / n : ℝ) + (a - smean x) ^ 2 / ∑ i, (x i - smean x) ^ 2 = lev x a from rfl] at hl
  rw [← hl, map_measureReal_apply] at h
  · refine (le_of_eq ?_).trans h
    congr 1
    ext ω
    simp [dotProduct, Fin.sum_univ_two, mul_comm]
  · unfold dotProduct
    exact Finset.measurable_sum _ fun i _ => ((measurable_pi_apply i).comp hz.meas).const_mul _
  · exact measurableSet_le measurable_const (by fun_prop)

/-- All draws of a run are close to their limits. -/
def nearDraws (M : ℕ) (n : ℕ) (z : ℕ → Ω' → Fin 2 → ℝ) (chi : ℕ → Ω' → ℝ) (δ : ℝ) : Set Ω' :=
  {ω | ∀ k < M, |z k ω 0| < δ ∧ |z k ω 0 + z k ω 1| < δ ∧ |chi k ω / Real.sqrt ((n : ℝ) - 2) - 1| < δ}

theorem nearDraws_prob {n : ℕ} (hn : 2 ≤ n) (Ps : Measure Ω') [IsProbabilityMeasure Ps] (x : Fin n → ℝ) (hx : ∃ i j, x i ≠ x j) (M : ℕ)
    (z : ℕ → Ω' → Fin 2 → ℝ) (chi : ℕ → Ω' → ℝ) (hd : SimDraws Ps x M z chi) (δ : ℝ) (hδ : 0 < δ) :
    1 - M * (lev x 0 / δ ^ 2 + lev x 1 / δ ^ 2 + (chiLaw (n - 2)).real {t | δ ≤ |t / Real.sqrt ((n - 2 : ℕ) : ℝ) - 1|}) ≤ Ps.real (nearDraws M n z chi δ) := by
  set A : ℕ → Set Ω' := fun k => {ω | δ ≤ |z k ω 0 + z k ω 1 * 0|} with hA
  set B : ℕ → Set Ω' := fun k => {ω | δ ≤ |z k ω 0 + z k ω 1 * 1|} with hB
  set C : ℕ → Set Ω' := fun k => {ω | δ ≤ |chi k ω / Real.sqrt ((n - 2 : ℕ) : ℝ) - 1|} with hC
  have hcast : ((n - 2 : ℕ) : ℝ) = (n : ℝ) - 2 := by
    rw [Nat.cast_sub hn]; norm_num
  have hcov : (univ : Set Ω') ⊆ nearDraws M n z chi δ ∪ ⋃ k ∈ Finset.range M, (A k ∪ B k ∪ C k) := by
    intro ω _
    by_cases h : ω ∈ nearDraws M n z chi δ
    · exact Or.inl h
    · right
      simp only [nearDraws, mem_ofPred_eq] at h
      push Not at h
      obtain ⟨k, hk, h⟩ := h
      rw [mem_iUnion₂]
      refine ⟨k, Finset.mem_range.2 hk, ?_⟩
      by_cases h1 : |z k ω 0| < δ
      · by_cases h2 : |z k ω 0 + z k ω 1| < δ
        · right
          have := h h1 h2
          simp only [hC, mem_ofPred_eq, hcast]
          exact this
        · left; right
          simp only [hB, mem_ofPred_eq, mul_one]
          exact not_lt.1 h2
      · left; left
        simp only [hA, mem_ofPred_eq, mul_zero, add_zero]
        exact not_lt.1 h1
  have h1 := (measureReal_mono hcov).trans (measureReal_union_le (μ := Ps) _ _)
  rw [probReal_univ] at h1
  have h2 := measureReal_biUnion_finset_le (μ := Ps) (Finset.range M) fun k => A k ∪ B k ∪ C k
  have h3 : ∑ k ∈ Finset.range M, Ps.real (A k ∪ B k ∪ C k) ≤ ∑ _k ∈ Finset.range M,
      (lev x 0 / δ ^ 2 + lev x 1 / δ ^ 2 + (chiLaw (n - 2)).real {t | δ ≤ |t / Real.sqrt ((n - 2 : ℕ) : ℝ) - 1|}) := by
    refine Finset.sum_le_sum fun k hk => ?_
    have hk := Finset.mem_range.1 hk
    have a1 := normal_small Ps x hx (z k) (hd.normal k hk) 0 δ hδ
    have a2 := normal_small Ps x hx (z k) (hd.normal k hk) 1 δ hδ
    have a3 : Ps.real (C k) = (chiLaw (n - 2)).real {t | δ ≤ |t / Real.sqrt ((n - 2 : ℕ) : ℝ) - 1|} := by
      rw [← hd.law k hk, map_measureReal_apply (hd.meas k hk) (measurableSet_le measurable_const (by fun_prop))]
      rfl
    have b1 := measureReal_union_le (μ := Ps) (A k ∪ B k) (C k)
    have b2 := measureReal_union_le (μ := Ps) (A k) (B k)
    linarith
  rw [Finset.sum_const, Finset.card_range, nsmul_eq_mul] at h3
  linarith

/-- Sets which contain sets of probability tending to 1. -/
theorem prob_one_of_subset (P : ℕ → Measure Ω') [∀ N, IsProbabilityMeasure (P N)] (E G : ℕ → Set Ω') (hE : Tendsto (fun N => (P N).real (E N)) atTop (𝓝 1))
    (hsub : ∀ᶠ N in atTop, E N ⊆ G N) : Tendsto (fun N => (P N).real (G N)) atTop (𝓝 1) :=
  tendsto_of_tendsto_of_tendsto_of_le_of_le' hE tendsto_const_nhds (hsub.mono fun _ h => measureReal_mono h) (Eventually.of_forall fun _ => measureReal_le_one)

section
variable (w : ℕ → ℝ × ℝ) (b0 b1 mx vx s : ℝ) (hv : 0 < vx) (hs : 0 < s)
    (l1 : Tendsto (fun N : ℕ => (∑ i ∈ Finset.range N, (w i).1) / (N : ℝ)) atTop (𝓝 mx))
    (l2 : Tendsto (fun N : ℕ => (∑ i ∈ Finset.range N, (w i).2) / (N : ℝ)) atTop (𝓝 0))
    (l11 : Tendsto (fun N : ℕ => (∑ i ∈ Finset.range N, (w i).1 ^ 2) / (N : ℝ)) atTop (𝓝 (vx + mx ^ 2)))
    (l12 : Tendsto (fun N : ℕ => (∑ i ∈ Finset.range N, (w i).1 * (w i).2) / (N : ℝ)) atTop (𝓝 0))
    (l22 : Tendsto (fun N : ℕ => (∑ i ∈ Finset.range N, (w i).2 ^ 2) / (N : ℝ)) atTop (𝓝 (s ^ 2)))
include hv hs l1 l2 l11 l12 l22

/-- The draws are close to their limits with a probability that tends to 1. -/
theorem nearDraws_tendsto (M : ℕ) (Ps : ℕ → Measure Ω') [∀ N, IsProbabilityMeasure (Ps N)] (z : ℕ → ℕ → Ω' → Fin 2 → ℝ) (chi : ℕ → ℕ → Ω' → ℝ)
    (hd : ∀ N, SimDraws (Ps N) (fun i : Fin N => (w i).1) M (z N) (chi N)) (δ : ℝ) (hδ : 0 < δ) :
    Tendsto (fun N => (Ps N).real (nearDraws M N (z N) (chi N) δ)) atTop (𝓝 1) := by
  obtain ⟨-, -, -, hne, -, mxl, sxx⟩ := fit_limits w 0 0 mx vx s hv hs l1 l2 l11 l12 l22
  have hinv : Tendsto (fun N : ℕ => 1 / (N : ℝ)) atTop (𝓝 0) := tendsto_one_div_atTop_nhds_zero_nat
  have hlev : ∀ a, Tendsto (fun N => lev (fun i : Fin N => (w i).1) a) atTop (𝓝 0) := by
    intro a
    have h := hinv.add ((((mxl.const_sub a).pow 2).mul hinv).div sxx hv.ne')
    rw [mul_zero, zero_div, add_zero] at h
    refine h.congr' ?_
    filter_upwards [eventually_gt_atTop 0] with N hN
    have hN' : (N : ℝ) ≠ 0 := by exact_mod_cast hN.ne'
    simp only [lev, Pi.div_apply]
    congr 1
    rw [mul_one_div, div_div_div_cancel_right₀ hN']
  have hchi : Tendsto (fun N : ℕ => (chiLaw (N - 2)).real {t | δ ≤ |t / Real.sqrt ((N - 2 : ℕ) : ℝ) - 1|}) atTop (𝓝 0) :=
    (chiLaw_concentrates δ hδ).comp (tendsto_sub_atTop_nat 2)
  have hlow := (((((hlev 0).div_const (δ ^ 2)).add ((hlev 1).div_const (δ ^ 2))).add hchi).const_mul (M : ℝ)).const_sub 1
  rw [zero_div, add_zero, add_zero, mul_zero, sub_zero] at hlow
  refine tendsto_of_tendsto_of_tendsto_of_le_of_le' hlow tendsto_const_nhds ?_ (Eventually.of_forall fun N => measureReal_le_one)
  filter_upwards [hne, eventually_ge_atTop 2] with N h1 h2
  exact nearDraws_prob h2 (Ps N) _ h1 M (z N) (chi N) (hd N) δ hδ

/-- For close draws and many observations the confidence curve is close to its limit, and its simulated slopes are positive when the slope is. -/
theorem near_curve (det a ε : ℝ) (hε : 0 < ε) : ∃ δ > 0, ∀ᶠ N in atTop, ∀ (M : ℕ), 1 ≤ M → ∀ (z : ℕ → Ω' → Fin 2 → ℝ) (chi : ℕ → Ω' → ℝ) (c : ℝ),
    ∀ ω ∈ nearDraws M N z chi δ, ∃ v, gaussClOf (fun i : Fin N => (w i).1) (fun i : Fin N => b0 + b1 * (w i).1 + (w i).2) det (fun k => z k ω) (fun k => chi k ω) M c a
      = .ok v ∧ |v - PhiC ((det - (b0 + b1 * a)) / s)| < ε := by
  obtain ⟨hslope, hint, hstderr, -, -, -, -⟩ := fit_limits w b0 b1 mx vx s hv hs l1 l2 l11 l12 l22
  set t := (b0 + b1 * a - det) / s with ht
  have hlim : PhiC ((det - (b0 + b1 * a)) / s) = Phi t := by
    rw [PhiC_eq, ← Phi_neg]
    congr 1
    rw [ht]; ring
  obtain ⟨η, hη, hcont⟩ := Metric.continuous_iff.1 Phi_continuous t ε hε
  have hη8 : 0 < η / 8 := by linarith
  have hden : 0 < 1 + 2 * |a| + |t| := by positivity
  refine ⟨min (1 / 2) (η / 2 / (1 + 2 * |a| + |t|)), by positivity, ?_⟩
  set δ := min (1 / 2) (η / 2 / (1 + 2 * |a| + |t|)) with hδ
  have hδ1 : δ ≤ 1 / 2 := min_le_left _ _
  have hδ2 : δ * (1 + 2 * |a| + |t|) ≤ η / 2 := by
    have : δ ≤ η / 2 / (1 + 2 * |a| + |t|) := min_le_right _ _
    rwa [le_div_iff₀ hden] at this
  have hc := ((hint.add (hslope.mul_const a)).sub_const det).div hstderr hs.ne'
  have hspos := hstderr.eventually (eventually_gt_nhds hs)
  filter_upwards [Metric.tendsto_nhds.1 hc (η / 8) hη8, hspos, eventually_ge_atTop 3] with N h1 h2 hN M hM z chi c ω hω
  rw [gaussCl_eq _ _ det _ _ M hM c a]
  refine ⟨_, rfl, ?_⟩
  have hN' : (3 : ℝ) ≤ N := by exact_mod_cast hN
  have hq : 0 < Real.sqrt ((N : ℝ) - 2) := Real.sqrt_pos.mpr (by linarith)
  have hval : ∀ k < M, |gaussCurve (olsIntercept (fun i : Fin N => (w i).1) (fun i : Fin N => b0 + b1 * (w i).1 + (w i).2))
      (olsSlope (fun i : Fin N => (w i).1) (fun i : Fin N => b0 + b1 * (w i).1 + (w i).2)) det (z k ω 0) (z k ω 1)
      (sigmaDraw N (linearStderr (fun i : Fin N => (w i).1) (fun i : Fin N => b0 + b1 * (w i).1 + (w i).2)) (chi k ω)) a - Phi t| < ε := by
    intro k hk
    obtain ⟨k1, k2, k3⟩ := hω k hk
    have hu : |chi k ω / Real.sqrt ((N : ℝ) - 2)| ≤ 2 := by
      have := abs_sub_abs_le_abs_sub (chi k ω / Real.sqrt ((N : ℝ) - 2)) 1
      rw [abs_one] at this
      linarith
    have hchi : 0 < chi k ω := by
      have h3 := (abs_lt.1 k3).1
      have : 0 < chi k ω / Real.sqrt ((N : ℝ) - 2) := by linarith
      exact (div_pos_iff_of_pos_right hq).1 this
    rw [gaussCurve_phi hN _ _ _ _ _ _ _ _ h2 hchi]
    have := hcont ((z k ω 0 + z k ω 1 * a) + (olsIntercept (fun i : Fin N => (w i).1) (fun i : Fin N => b0 + b1 * (w i).1 + (w i).2)
      + olsSlope (fun i : Fin N => (w i).1) (fun i : Fin N => b0 + b1 * (w i).1 + (w i).2) * a - det)
      / (Real.sqrt ((N : ℝ) - 2) * linearStderr (fun i : Fin N => (w i).1) (fun i : Fin N => b0 + b1 * (w i).1 + (w i).2)) * chi k ω) ?_
    · rwa [Real.dist_eq] at this
    rw [Real.dist_eq]
    rw [Pi.div_apply, Real.dist_eq] at h1
    set cN := (olsIntercept (fun i : Fin N => (w i).1) (fun i : Fin N => b0 + b1 * (w i).1 + (w i).2)
      + olsSlope (fun i : Fin N => (w i).1) (fun i : Fin N => b0 + b1 * (w i).1 + (w i).2) * a - det)
      / linearStderr (fun i : Fin N => (w i).1) (fun i : Fin N => b0 + b1 * (w i).1 + (w i).2) with hcN
    have e1 : (olsIntercept (fun i : Fin N => (w i).1) (fun i : Fin N => b0 + b1 * (w i).1 + (w i).2)
      + olsSlope (fun i : Fin N => (w i).1) (fun i : Fin N => b0 + b1 * (w i).1 + (w i).2) * a - det)
      / (Real.sqrt ((N : ℝ) - 2) * linearStderr (fun i : Fin N => (w i).1) (fun i : Fin N => b0 + b1 * (w i).1 + (w i).2)) * chi k ω
        = cN * (chi k ω / Real.sqrt ((N : ℝ) - 2)) := by
      rw [hcN]
      field_simp
    rw [e1]
    set u := chi k ω / Real.sqrt ((N : ℝ) - 2) with hudef
    have e2 : z k ω 0 + z k ω 1 * a + cN * u - t = z k ω 0 + ((z k ω 0 + z k ω 1) - z k ω 0) * a + (cN - t) * u + t * (u - 1) := by ring
    rw [e2]
    have t1 : |((z k ω 0 + z k ω 1) - z k ω 0) * a| ≤ 2 * δ * |a| := by
      rw [abs_mul]
      refine mul_le_mul_of_nonneg_right ((abs_sub _ _).trans ?_) (abs_nonneg a)
      linarith
    have t2 : |(cN - t) * u| ≤ η / 8 * 2 := by
      rw [abs_mul]
      exact mul_le_mul h1.le hu (abs_nonneg _) hη8.le
    have t3 : |t * (u - 1)| ≤ |t| * δ := by
      rw [abs_mul]
      exact mul_le_mul_of_nonneg_left k3.le (abs_nonneg t)
    have a1 := abs_add_le (z k ω 0 + ((z k ω 0 + z k ω 1) - z k ω 0) * a + (cN - t) * u) (t * (u - 1))
    have a2 := abs_add_le (z k ω 0 + ((z k ω 0 + z k ω 1) - z k ω 0) * a) ((cN - t) * u)
    have a3 := abs_add_le (z k ω 0) (((z k ω 0 + z k ω 1) - z k ω 0) * a)
    nlinarith
  rw [hlim]
  have hne' : ((List.range M).map fun k => gaussCurve (olsIntercept (fun i : Fin N => (w i).1) (fun i : Fin N => b0 + b1 * (w i).1 + (w i).2))
      (olsSlope (fun i : Fin N => (w i).1) (fun i : Fin N => b0 + b1 * (w i).1 + (w i).2)) det (z k ω 0) (z k ω 1)
      (sigmaDraw N (linearStderr (fun i : Fin N => (w i).1) (fun i : Fin N => b0 + b1 * (w i).1 + (w i).2)) (chi k ω)) a) ≠ [] := by
    simp; omega
  obtain ⟨p, hp, q, hq', hpq1, hpq2⟩ := quantile_between hne' (1 - c)
  rw [List.mem_map] at hp hq'
  obtain ⟨i, hi, rfl⟩ := hp
  obtain ⟨j, hj, rfl⟩ := hq'
  have hvi := abs_lt.1 (hval i (List.mem_range.1 hi))
  have hvj := abs_lt.1 (hval j (List.mem_range.1 hj))
  rw [abs_lt]
  constructor
  · linarith [hvi.1]
  · linarith [hvj.2]

/-- For close draws and many observations all simulated slopes are positive when the slope is. -/
theorem near_slopes (hb : 0 < b1) : ∃ δ > 0, ∀ᶠ N in atTop, ∀ (M : ℕ) (z : ℕ → Ω' → Fin 2 → ℝ) (chi : ℕ → Ω' → ℝ), ∀ ω ∈ nearDraws M N z chi δ, ∀ k < M,
    0 < sigmaDraw N (linearStderr (fun i : Fin N => (w i).1) fun i : Fin N => b0 + b1 * (w i).1 + (w i).2) (chi k ω) ∧
    0 < z k ω 1 * sigmaDraw N (linearStderr (fun i : Fin N => (w i).1) fun i : Fin N => b0 + b1 * (w i).1 + (w i).2) (chi k ω)
      + olsSlope (fun i : Fin N => (w i).1) fun i : Fin N => b0 + b1 * (w i).1 + (w i).2 := by
  obtain ⟨hslope, -, hstderr, -, -, -, -⟩ := fit_limits w b0 b1 mx vx s hv hs l1 l2 l11 l12 l22
  refine ⟨min (1 / 2) (b1 / 16 / s), by positivity, ?_⟩
  set δ := min (1 / 2) (b1 / 16 / s) with hδ
  have hδ1 : δ ≤ 1 / 2 := min_le_left _ _
  have hδ0 : 0 < δ := by positivity
  have hδ2 : δ * s ≤ b1 / 16 := by
    have : δ ≤ b1 / 16 / s := min_le_right _ _
    rwa [le_div_iff₀ hs] at this
  filter_upwards [hstderr.eventually (eventually_gt_nhds hs), hstderr.eventually (eventually_lt_nhds (show s < 2 * s by linarith)),
    hslope.eventually (eventually_gt_nhds (show b1 / 2 < b1 by linarith)), eventually_ge_atTop 3] with N h1 h2 h3 hN M z chi ω hω k hk
  obtain ⟨k1, k2, k3⟩ := hω k hk
  have hN' : (3 : ℝ) ≤ N := by exact_mod_cast hN
  have hq : 0 < Real.sqrt ((N : ℝ) - 2) := Real.sqrt_pos.mpr (by linarith)
  set u := chi k ω / Real.sqrt ((N : ℝ) - 2) with hu
  have hu1 : 1 / 2 < u := by have := (abs_lt.1 k3).1; linarith
  have hchi : 0 < chi k ω := (div_pos_iff_of_pos_right hq).1 (by rw [← hu]; linarith)
  have hsig : sigmaDraw N (linearStderr (fun i : Fin N => (w i).1) fun i : Fin N => b0 + b1 * (w i).1 + (w i).2) (chi k ω)
      = (linearStderr (fun i : Fin N => (w i).1) fun i : Fin N => b0 + b1 * (w i).1 + (w i).2) / u := by
    rw [sigmaDraw, hu]
    field_simp
  rw [hsig]
  have hpos : 0 < (linearStderr (fun i : Fin N => (w i).1) fun i : Fin N => b0 + b1 * (w i).1 + (w i).2) / u := div_pos h1 (by linarith)
  refine ⟨hpos, ?_⟩
  have hle : (linearStderr (fun i : Fin N => (w i).1) fun i : Fin N => b0 + b1 * (w i).1 + (w i).2) / u ≤ 4 * s := by
    rw [div_le_iff₀ (by linarith)]
    nlinarith
  have hz1 : -(2 * δ) ≤ z k ω 1 := by
    have e1 := (abs_lt.1 k1).2
    have e2 := (abs_lt.1 k2).1
    linarith
  have : -(2 * δ) * (4 * s) ≤ z k ω 1 * ((linearStderr (fun i : Fin N => (w i).1) fun i : Fin N => b0 + b1 * (w i).1 + (w i).2) / u) := by
    have e1 : -(2 * δ) * ((linearStderr (fun i : Fin N => (w i).1) fun i : Fin N => b0 + b1 * (w i).1 + (w i).2) / u)
        ≤ z k ω 1 * ((linearStderr (fun i : Fin N => (w i).1) fun i : Fin N => b0 + b1 * (w i).1 + (w i).2) / u) :=
      mul_le_mul_of_nonneg_right hz1 hpos.le
    nlinarith
  nlinarith

/-- The confidence curve of data sets whose moments converge. -/
theorem closes_curve (M : ℕ) (hM : 1 ≤ M) (Ps : ℕ → Measure Ω') [∀ N, IsProbabilityMeasure (Ps N)] (z : ℕ → ℕ → Ω' → Fin 2 → ℝ) (chi : ℕ → ℕ → Ω' → ℝ)
    (hd : ∀ N, SimDraws (Ps N) (fun i : Fin N => (w i).1) M (z N) (chi N)) (det a c ε : ℝ) (hε : 0 < ε) :
    Tendsto (fun N => (Ps N).real {ω | ∃ v, gaussClOf (fun i : Fin N => (w i).1) (fun i : Fin N => b0 + b1 * (w i).1 + (w i).2) det (fun k => z N k ω)
      (fun k => chi N k ω) M c a = .ok v ∧ |v - PhiC ((det - (b0 + b1 * a)) / s)| < ε}) atTop (𝓝 1) := by
  obtain ⟨δ, hδ, h⟩ := near_curve (Ω' := Ω') w b0 b1 mx vx s hv hs l1 l2 l11 l12 l22 det a ε hε
  refine prob_one_of_subset Ps _ _ (nearDraws_tendsto w mx vx s hv hs l1 l2 l11 l12 l22 M Ps z chi hd δ hδ) ?_
  filter_upwards [h] with N h ω hω
  exact h M hM _ _ c ω hω

/-- The detection sizes of data sets whose moments converge. -/
theorem closes_size (hb : 0 < b1) (M : ℕ) (hM : 1 ≤ M) (Ps : ℕ → Measure Ω') [∀ N, IsProbabilityMeasure (Ps N)] (z : ℕ → ℕ → Ω' → Fin 2 → ℝ)
    (chi : ℕ → ℕ → Ω' → ℝ) (hd : ∀ N, SimDraws (Ps N) (fun i : Fin N => (w i).1) M (z N) (chi N)) (solve : (ℝ → ℝ) → ℝ → ℝ → ℝ → ℝ) (hso : SolveSpec solve)
    (det ap c ε : ℝ) (hε : 0 < ε) (i0 i1 : ℕ) (hlo : (w i0).1 < ap) (hhi : ap < (w i1).1) :
    Tendsto (fun N => (Ps N).real {ω | ∃ d dc lbl, gaussDetectionOf solve (fun i : Fin N => (w i).1) (fun i : Fin N => b0 + b1 * (w i).1 + (w i).2) det
      (fun k => z N k ω) (fun k => chi N k ω) M (PhiC ((det - (b0 + b1 * ap)) / s)) (some c) = .ok ([d, dc], lbl) ∧ |d - ap| < ε ∧ |dc - ap| < ε}) atTop (𝓝 1) := by
  set p := PhiC ((det - (b0 + b1 * ap)) / s) with hp
  obtain ⟨dN, hdN, hdlim⟩ := detection_limit solve hso w b0 b1 mx vx s det ap hb hv hs l1 l2 l11 l12 l22 i0 i1 hlo hhi (fun _ _ => 0) (fun _ => 0) M
  -- two sizes on both sides
  set r := min (ε / 2) (min (ap - (w i0).1) ((w i1).1 - ap)) with hr
  have hr0 : 0 < r := lt_min (by linarith) (lt_min (by linarith) (by linarith))
  have hr1 : r < ε := (min_le_left _ _).trans_lt (by linarith)
  have hr2 : (w i0).1 ≤ ap - r := by have : r ≤ ap - (w i0).1 := (min_le_right _ _).trans (min_le_left _ _); linarith
  have hr3 : ap + r ≤ (w i1).1 := by have : r ≤ (w i1).1 - ap := (min_le_right _ _).trans (min_le_right _ _); linarith
  have hmono : ∀ {u t : ℝ}, u < t → PhiC ((det - (b0 + b1 * u)) / s) < PhiC ((det - (b0 + b1 * t)) / s) := by
    intro u t hut
    apply PhiC_strictAnti
    rw [div_lt_div_iff_of_pos_right hs]
    nlinarith
  have g1 : 0 < p - PhiC ((det - (b0 + b1 * (ap - r))) / s) := sub_pos.2 (hmono (by linarith))
  have g2 : 0 < PhiC ((det - (b0 + b1 * (ap + r))) / s) - p := sub_pos.2 (hmono (by linarith))
  obtain ⟨δ1, hδ1, h1⟩ := near_curve (Ω' := Ω') w b0 b1 mx vx s hv hs l1 l2 l11 l12 l22 det (ap - r) _ g1
  obtain ⟨δ2, hδ2, h2⟩ := near_curve (Ω' := Ω') w b0 b1 mx vx s hv hs l1 l2 l11 l12 l22 det (ap + r) _ g2
  obtain ⟨δ3, hδ3, h3⟩ := near_slopes (Ω' := Ω') w b0 b1 mx vx s hv hs l1 l2 l11 l12 l22 hb
  refine prob_one_of_subset Ps _ _ (nearDraws_tendsto w mx vx s hv hs l1 l2 l11 l12 l22 M Ps z chi hd (min δ1 (min δ2 δ3)) (lt_min hδ1 (lt_min hδ2 hδ3))) ?_
  filter_upwards [h1, h2, h3, hdN, Metric.tendsto_nhds.1 hdlim ε hε, eventually_gt_atTop i0, eventually_gt_atTop i1] with N h1 h2 h3 hdN hdε hi0 hi1 ω hω
  have hsub : ∀ δ, min δ1 (min δ2 δ3) ≤ δ → ω ∈ nearDraws M N (z N) (chi N) δ := fun δ hδ k hk =>
    ⟨(hω k hk).1.trans_le hδ, (hω k hk).2.1.trans_le hδ, (hω k hk).2.2.trans_le hδ⟩
  obtain ⟨v1, hv1, hv1'⟩ := h1 M hM (z N) (chi N) c ω (hsub _ (min_le_left _ _))
  obtain ⟨v2, hv2, hv2'⟩ := h2 M hM (z N) (chi N) c ω (hsub _ ((min_le_right _ _).trans (min_le_left _ _)))
  have hsl := h3 M (z N) (chi N) ω (hsub _ ((min_le_right _ _).trans (min_le_right _ _)))
  set x : Fin N → ℝ := fun i => (w i).1 with hx
  set y : Fin N → ℝ := fun i => b0 + b1 * (w i).1 + (w i).2 with hy
  -- the confidence curve
  obtain ⟨f, hf, hfm, hfc⟩ : ∃ f : ℝ → ℝ, (∀ a, gaussClOf x y det (fun k => z N k ω) (fun k => chi N k ω) M c a = .ok (f a)) ∧ StrictMono f ∧ Continuous f := by
    refine ⟨_, fun a => gaussCl_eq x y det _ _ M hM c a, ?_, ?_⟩
    · exact quantile_strictMono hM (fun k => gaussCurve (olsIntercept x y) (olsSlope x y) det (z N k ω 0) (z N k ω 1)
        (sigmaDraw N (linearStderr x y) (chi N k ω))) (1 - c) fun k hk => gaussCurve_strictMono _ _ _ _ _ _ (hsl k hk).1 (hsl k hk).2
    · exact quantile_continuous hM (fun k => gaussCurve (olsIntercept x y) (olsSlope x y) det (z N k ω 0) (z N k ω 1)
        (sigmaDraw N (linearStderr x y) (chi N k ω))) (1 - c) fun k hk => gaussCurve_continuous _ _ _ _ _ _
  rw [hf, Except.ok.injEq] at hv1 hv2
  subst hv1 hv2
  have hf1 : f (ap - r) < p := by have := (abs_lt.1 hv1').2; linarith
  have hf2 : p < f (ap + r) := by have := (abs_lt.1 hv2').1; linarith
  have hfun : (fun a => (gaussClOf x y det (fun k => z N k ω) (fun k => chi N k ω) M c a).toOption.getD 0) = f := by
    funext a
    rw [hf a]; rfl
  -- the call
  rw [gaussDetectionOf] at hdN
  split at hdN
  · rename_i mn mxx hmn hmxx
    have e1 : sampleMin (List.ofFn x) = .ok mn := hmn
    have e2 : sampleMax (List.ofFn x) = .ok mxx := hmxx
    have hcall : gaussDetectionOf solve x y det (fun k => z N k ω) (fun k => chi N k ω) M p (some c)
        = computeDetectionSize solve mn mxx (gaussPodOf x y det) (some f) (some p) (some c) none none := by
      rw [gaussDetectionOf, e1, e2, Option.map_some, hfun]
    have hmn' : mn ≤ (w i0).1 := (sampleMin_spec hmn).2 (by
      show (w i0).1 ∈ List.ofFn x
      rw [List.mem_ofFn]; exact ⟨⟨i0, hi0⟩, rfl⟩)
    have hmx' : (w i1).1 ≤ mxx := (sampleMax_spec hmxx).2 (by
      show (w i1).1 ∈ List.ofFn x
      rw [List.mem_ofFn]; exact ⟨⟨i1, hi1⟩, rfl⟩)
    have hc1 : f mn ≤ p := (hfm.monotone (hmn'.trans hr2)).trans hf1.le
    have hc2 : p ≤ f mxx := hf2.le.trans (hfm.monotone (hr3.trans hmx'))
    rw [computeDetectionSize] at hdN
    dsimp only [Option.getD_none] at hdN
    split_ifs at hdN with hcond
    rw [Except.ok.injEq, Prod.mk.injEq] at hdN
    have hd1 : solve (gaussPodOf x y det) p mn mxx = dN N := by simpa using hdN.1
    obtain ⟨-, hroot⟩ := hso f p mn mxx (by linarith) hfc.continuousOn hc1 hc2
    refine ⟨solve (gaussPodOf x y det) p mn mxx, solve f p mn mxx, [labelP p, labelPC p c], ?_, ?_, ?_⟩
    · refine hcall.trans ?_
      rw [computeDetectionSize]
      dsimp only [Option.getD_none]
      rw [if_neg (not_not.2 hcond), if_neg (not_not.2 ⟨hc1, hc2⟩)]
    · rw [hd1, ← Real.dist_eq]; exact hdε
    · rw [abs_lt]
      constructor
      · have : ap - r < solve f p mn mxx := hfm.lt_iff_lt.1 (by rw [hroot]; exact hf1)
        linarith
      · have : solve f p mn mxx < ap + r := hfm.lt_iff_lt.1 (by rw [hroot]; exact hf2)
        linarith
  · cases hdN

end

/-- **C240.**  The observations follow a line plus errors, as in C126.  For almost all sequences of observations: whatever the draws made for the first
`N` observations, with a probability that tends to 1 the confidence curve is within `ε` of the true probability of detection, at every size, for every
confidence level and number of simulations. -/
theorem C240_curve (Q : Measure Ω) [IsProbabilityMeasure Q] (P : Measure (ℝ × ℝ)) [IsProbabilityMeasure P] (x e : ℕ → Ω → ℝ) (hx : ∀ i, Measurable (x i))
    (he : ∀ i, Measurable (e i)) (hlaw : ∀ i, Q.map (fun ω => (x i ω, e i ω)) = P) (hind : iIndepFun (fun i ω => (x i ω, e i ω)) Q)
    (h1 : MemLp Prod.fst 2 P) (h2 : MemLp Prod.snd 2 P) (hv : 0 < Var[Prod.fst; P])
    (he0 : ∫ w, w.2 ∂P = 0) (hxe : ∫ w, w.1 * w.2 ∂P = 0) (s : ℝ) (hs : 0 < s) (hse : ∫ w, w.2 ^ 2 ∂P = s ^ 2) (b0 b1 : ℝ) :
    ∀ᵐ ω ∂Q, ∀ (M : ℕ), 1 ≤ M → ∀ (Ps : ℕ → Measure Ω') (_ : ∀ N, IsProbabilityMeasure (Ps N)) (z : ℕ → ℕ → Ω' → Fin 2 → ℝ) (chi : ℕ → ℕ → Ω' → ℝ),
      (∀ N, SimDraws (Ps N) (fun i : Fin N => x i ω) M (z N) (chi N)) → ∀ det a c ε, 0 < ε →
      Tendsto (fun N => (Ps N).real {ω' | ∃ v, gaussClOf (fun i : Fin N => x i ω) (fun i : Fin N => b0 + b1 * x i ω + e i ω) det (fun k => z N k ω')
        (fun k => chi N k ω') M c a = .ok v ∧ |v - (gaussianReal (b0 + b1 * a) (sqv s)).real (Ioi det)| < ε}) atTop (𝓝 1) := by
  have hz : ∀ i, Measurable fun ω => (x i ω, e i ω) := fun i => (hx i).prodMk (he i)
  obtain ⟨i11, i12, i22⟩ := moments h1 h2
  have a1 := avg_strong hz hlaw hind measurable_fst (h1.integrable (by norm_num))
  have a2 := avg_strong hz hlaw hind measurable_snd (h2.integrable (by norm_num))
  have a11 := avg_strong hz hlaw hind (f := fun w : ℝ × ℝ => w.1 ^ 2) (by fun_prop) i11
  have a12 := avg_strong hz hlaw hind (f := fun w : ℝ × ℝ => w.1 * w.2) (by fun_prop) i12
  have a22 := avg_strong hz hlaw hind (f := fun w : ℝ × ℝ => w.2 ^ 2) (by fun_prop) i22
  have hvar : ∫ w, w.1 ^ 2 ∂P = Var[Prod.fst; P] + (∫ w, w.1 ∂P) ^ 2 := by
    rw [variance_eq_sub h1]
    simp
  filter_upwards [a1, a2, a11, a12, a22] with ω t1 t2 t11 t12 t22 M hM Ps _ z chi hd det a c ε hε
  rw [he0] at t2
  rw [hxe] at t12
  rw [hse] at t22
  rw [hvar] at t11
  have h := closes_curve (fun i => (x i ω, e i ω)) b0 b1 _ _ s hv hs t1 t2 t11 t12 t22 M hM Ps z chi hd det a c ε hε
  rw [gauss_Ioi hs, ← PhiC_eq]
  exact h

/-- **C240, detection sizes.**  The signals increase with the defect and sizes on both sides of the size `ap`, detected with probability `p`, are observed.  For
almost all sequences of observations: with a probability that tends to 1 the call `computeDetectionSize(p, c)` returns, and both sizes are within `ε` of `ap`. -/
theorem C240_size (Q : Measure Ω) [IsProbabilityMeasure Q] (P : Measure (ℝ × ℝ)) [IsProbabilityMeasure P] (x e : ℕ → Ω → ℝ) (hx : ∀ i, Measurable (x i))
    (he : ∀ i, Measurable (e i)) (hlaw : ∀ i, Q.map (fun ω => (x i ω, e i ω)) = P) (hind : iIndepFun (fun i ω => (x i ω, e i ω)) Q)
    (h1 : MemLp Prod.fst 2 P) (h2 : MemLp Prod.snd 2 P) (hv : 0 < Var[Prod.fst; P])
    (he0 : ∫ w, w.2 ∂P = 0) (hxe : ∫ w, w.1 * w.2 ∂P = 0) (s : ℝ) (hs : 0 < s) (hse : ∫ w, w.2 ^ 2 ∂P = s ^ 2) (b0 b1 : ℝ) (hb : 0 < b1)
    (det ap p : ℝ) (hp : (gaussianReal (b0 + b1 * ap) (sqv s)).real (Ioi det) = p) (hlo : 0 < P.real {w | w.1 < ap}) (hhi : 0 < P.real {w | ap < w.1})
    (solve : (ℝ → ℝ) → ℝ → ℝ → ℝ → ℝ) (hso : SolveSpec solve) :
    ∀ᵐ ω ∂Q, ∀ (M : ℕ), 1 ≤ M → ∀ (Ps : ℕ → Measure Ω') (_ : ∀ N, IsProbabilityMeasure (Ps N)) (z : ℕ → ℕ → Ω' → Fin 2 → ℝ) (chi : ℕ → ℕ → Ω' → ℝ),
      (∀ N, SimDraws (Ps N) (fun i : Fin N => x i ω) M (z N) (chi N)) → ∀ c ε, 0 < ε →
      Tendsto (fun N => (Ps N).real {ω' | ∃ d dc lbl, gaussDetectionOf solve (fun i : Fin N => x i ω) (fun i : Fin N => b0 + b1 * x i ω + e i ω) det
        (fun k => z N k ω') (fun k => chi N k ω') M p (some c) = .ok ([d, dc], lbl) ∧ |d - ap| < ε ∧ |dc - ap| < ε}) atTop (𝓝 1) := by
  have hz : ∀ i, Measurable fun ω => (x i ω, e i ω) := fun i => (hx i).prodMk (he i)
  obtain ⟨i11, i12, i22⟩ := moments h1 h2
  have a1 := avg_strong hz hlaw hind measurable_fst (h1.integrable (by norm_num))
  have a2 := avg_strong hz hlaw hind measurable_snd (h2.integrable (by norm_num))
  have a11 := avg_strong hz hlaw hind (f := fun w : ℝ × ℝ => w.1 ^ 2) (by fun_prop) i11
  have a12 := avg_strong hz hlaw hind (f := fun w : ℝ × ℝ => w.1 * w.2) (by fun_prop) i12
  have a22 := avg_strong hz hlaw hind (f := fun w : ℝ × ℝ => w.2 ^ 2) (by fun_prop) i22
  have hvar : ∫ w, w.1 ^ 2 ∂P = Var[Prod.fst; P] + (∫ w, w.1 ∂P) ^ 2 := by
    rw [variance_eq_sub h1]
    simp
  have hit : ∀ A : Set (ℝ × ℝ), MeasurableSet A → 0 < P.real A → ∀ᵐ ω ∂Q, ∃ i, (x i ω, e i ω) ∈ A := by
    intro A hA hpos
    have h := avg_strong hz hlaw hind (f := A.indicator fun _ => (1 : ℝ)) (measurable_const.indicator hA)
      ((integrable_const _).indicator hA)
    rw [integral_indicator hA, setIntegral_const, smul_eq_mul, mul_one] at h
    filter_upwards [h] with ω hω
    obtain ⟨N, hN⟩ := (hω.eventually (eventually_gt_nhds hpos)).exists
    by_contra hcon
    push Not at hcon
    have h0 : avg (fun i ω => (x i ω, e i ω)) (A.indicator fun _ => (1 : ℝ)) N ω = 0 := by
      simp [avg, hcon]
    linarith
  have b1' := hit {w | w.1 < ap} (measurableSet_lt measurable_fst measurable_const) hlo
  have b2' := hit {w | ap < w.1} (measurableSet_lt measurable_const measurable_fst) hhi
  filter_upwards [a1, a2, a11, a12, a22, b1', b2'] with ω t1 t2 t11 t12 t22 ⟨i0, hi0⟩ ⟨i1, hi1⟩ M hM Ps _ z chi hd c ε hε
  rw [he0] at t2
  rw [hxe] at t12
  rw [hse] at t22
  rw [hvar] at t11
  have h := closes_size (fun i => (x i ω, e i ω)) b0 b1 _ _ s hv hs t1 t2 t11 t12 t22 hb M hM Ps z chi hd solve hso det ap c ε hε i0 i1 hi0 hi1
  rw [gauss_Ioi hs, ← PhiC_eq] at hp
  rw [← hp]
  exact h

/-- Draws with these laws exist for every sequence of defect sizes. -/
theorem simDraws_exist {n : ℕ} (x : Fin n → ℝ) (M : ℕ) :
    ∃ (Ps : Measure (EuclideanSpace ℝ (Fin 2) × ℝ)) (_ : IsProbabilityMeasure Ps), SimDraws Ps x M (fun _ ω => WithLp.ofLp ω.1) fun _ ω => ω.2 := by
  have hS : (((designMatrix x)ᵀ * designMatrix x)⁻¹).PosSemidef := by
    have h := Matrix.posSemidef_conjTranspose_mul_self (designMatrix x)
    rw [Matrix.conjTranspose_eq_transpose_of_trivial] at h
    exact h.inv
  have hN := normalVector_exists _ hS
  refine ⟨(multivariateGaussian 0 ((designMatrix x)ᵀ * designMatrix x)⁻¹).prod (chiLaw (n - 2)), inferInstance, ⟨fun k _ => ⟨?_, fun c => ?_⟩, fun k _ => measurable_snd,
    fun k _ => ?_⟩⟩
  · exact hN.meas.comp measurable_fst
  · rw [← hN.law c]
    have hm : Measurable fun v : EuclideanSpace ℝ (Fin 2) => c ⬝ᵥ WithLp.ofLp v := by
      unfold dotProduct
      exact Finset.measurable_sum _ fun i _ => ((measurable_pi_apply i).comp hN.meas).const_mul _
    rw [← Function.comp_def (fun v : EuclideanSpace ℝ (Fin 2) => c ⬝ᵥ WithLp.ofLp v) Prod.fst, ← Measure.map_map hm measurable_fst, measurePreserving_fst.map_eq]
  · exact measurePreserving_snd.map_eq

/-- Independent standard Gaussian defects and errors, signals `1 + 2 x + e`, threshold 3: the size detected with probability 1/2 is 1. -/
example : ∃ solve, SolveSpec solve ∧ ∀ᵐ ω ∂(Measure.infinitePi fun _ : ℕ => (gaussianReal 0 1).prod (gaussianReal 0 1)),
    ∃ (Ps : ℕ → Measure (EuclideanSpace ℝ (Fin 2) × ℝ)) (_ : ∀ N, IsProbabilityMeasure (Ps N)),
      (∀ N, SimDraws (Ps N) (fun i : Fin N => (ω i).1) 1000 (fun _ ω' => WithLp.ofLp ω'.1) fun _ ω' => ω'.2) ∧
      Tendsto (fun N => (Ps N).real {ω' | ∃ d dc lbl, gaussDetectionOf solve (fun i : Fin N => (ω i).1) (fun i : Fin N => 1 + 2 * (ω i).1 + (ω i).2) 3
        (fun _ => WithLp.ofLp ω'.1) (fun _ => ω'.2) 1000 (1 / 2) (some 0.95) = .ok ([d, dc], lbl) ∧ |d - 1| < 0.01 ∧ |dc - 1| < 0.01}) atTop (𝓝 1) := by
  obtain ⟨solve, hso⟩ := solveSpec_nonempty
  refine ⟨solve, hso, ?_⟩
  set g := gaussianReal 0 1 with hg
  have hid : MemLp (fun t : ℝ => t) 2 g := memLp_id_gaussianReal 2
  have mp1 : MeasurePreserving Prod.fst (g.prod g) g := measurePreserving_fst
  have mp2 : MeasurePreserving Prod.snd (g.prod g) g := measurePreserving_snd
  have h1 : MemLp (Prod.fst : ℝ × ℝ → ℝ) 2 (g.prod g) := hid.comp_measurePreserving mp1
  have h2 : MemLp (Prod.snd : ℝ × ℝ → ℝ) 2 (g.prod g) := hid.comp_measurePreserving mp2
  have e0 : ∫ t, t ∂g = 0 := integral_id_gaussianReal
  have v1 : Var[fun t : ℝ => t; g] = 1 := by rw [hg, variance_fun_id_gaussianReal]; rfl
  have sq1 : ∫ t, t ^ 2 ∂g = 1 := by
    have := variance_eq_sub hid
    rw [v1] at this
    simp [e0] at this
    exact this.symm
  have hsnd : ∫ w : ℝ × ℝ, w.2 ∂(g.prod g) = 0 := by
    have := integral_prod_mul (μ := g) (ν := g) (fun _ : ℝ => (1 : ℝ)) (fun t : ℝ => t)
    simpa [e0] using this
  have hmul : ∫ w : ℝ × ℝ, w.1 * w.2 ∂(g.prod g) = 0 := by
    rw [integral_prod_mul (μ := g) (ν := g) (fun t : ℝ => t) (fun t : ℝ => t), e0, zero_mul]
  have hsq : ∫ w : ℝ × ℝ, w.2 ^ 2 ∂(g.prod g) = 1 ^ 2 := by
    have := integral_prod_mul (μ := g) (ν := g) (fun _ : ℝ => (1 : ℝ)) (fun t : ℝ => t ^ 2)
    simpa [sq1] using this
  have hvar : 0 < Var[(Prod.fst : ℝ × ℝ → ℝ); g.prod g] := by
    have : Var[(Prod.fst : ℝ × ℝ → ℝ); g.prod g] = Var[fun t : ℝ => t; g] := by
      conv_rhs => rw [← mp1.map_eq]
      rw [variance_map (X := fun t : ℝ => t) measurable_id.aemeasurable mp1.measurable.aemeasurable]
      rfl
    rw [this, v1]; exact one_pos
  have hpos : ∀ S : Set ℝ, MeasurableSet S → volume S ≠ 0 → 0 < (g.prod g).real (Prod.fst ⁻¹' S) := by
    intro S hS h
    rw [mp1.measureReal_preimage hS.nullMeasurableSet]
    exact gauss_real_pos one_ne_zero h
  have hgs : (gaussianReal (1 + 2 * 1) (sqv 1)).real (Ioi 3) = 1 / 2 := by
    have := gauss_Ioi (μ := 1 + 2 * 1) (s := 1) one_pos 3
    rw [this, show ((3 : ℝ) - (1 + 2 * 1)) / 1 = 0 by norm_num, Phi_zero]; norm_num
  have h := C240_size (Ω' := EuclideanSpace ℝ (Fin 2) × ℝ) (Measure.infinitePi fun _ : ℕ => g.prod g) (g.prod g) (fun i ω => (ω i).1) (fun i ω => (ω i).2)
    (fun i => measurable_fst.comp (measurable_pi_apply i)) (fun i => measurable_snd.comp (measurable_pi_apply i))
    (fun i => (measurePreserving_eval_infinitePi (fun _ : ℕ => g.prod g) i).map_eq)
    (iIndepFun_infinitePi (P := fun _ : ℕ => g.prod g) (X := fun _ x => x) (fun _ => measurable_id)) h1 h2 hvar hsnd hmul 1 one_pos hsq 1 2
    (by norm_num) 3 1 (1 / 2) hgs (hpos (Iio 1) measurableSet_Iio (by simp)) (hpos (Ioi 1) measurableSet_Ioi (by simp)) solve hso
  filter_upwards [h] with ω hω
  choose Ps hPs hD using fun N : ℕ => simDraws_exist (fun i : Fin N => (ω i).1) 1000
  exact ⟨Ps, hPs, hD, hω 1000 (by norm_num) Ps hPs (fun _ _ ω' => WithLp.ofLp ω'.1) (fun _ _ ω' => ω'.2) hD 0.95 0.01 (by norm_num)⟩

end Verif.Props
