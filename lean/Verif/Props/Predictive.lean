import Verif.Props.CoefInterval
import Verif.Props.PhiLog
import Verif.Props.PliDraw
import Verif.Props.DetectionLimit
import Mathlib.MeasureTheory.Integral.Indicator

/-!
# C190: calibration of the Gaussian POD (`_univariate_linear_model_pod.py` 397-416)
-/

namespace Verif.Props
open Verif.Py Verif.Model ProbabilityTheory MeasureTheory Set Filter Topology

/-! ## The Student law against the normal law -/

theorem gaussDens_lt {a b : ℝ} (ha : 0 ≤ a) (hab : a < b) : gaussDens b < gaussDens a := by
  unfold gaussDens
  refine mul_lt_mul_of_pos_left (Real.exp_lt_exp.2 ?_) (by positivity)
  have : a ^ 2 < b ^ 2 := pow_lt_pow_left₀ hab ha (by norm_num)
  linarith

/-- `Phi (t √u)` is below its tangent in `u` at one. -/
theorem Phi_tangent {t v : ℝ} (ht : 0 < t) (hv : 0 ≤ v) (h1 : v ≠ 1) : Phi (t * v) < Phi t + gaussDens t * t * (v ^ 2 - 1) / 2 := by
  set k : ℝ → ℝ := fun v => Phi t + gaussDens t * t * (v ^ 2 - 1) / 2 - Phi (t * v) with hk
  have hd : ∀ v, HasDerivAt k (t * (v * gaussDens t - gaussDens (t * v))) v := by
    intro v
    have a := (Phi_hasDerivAt (t * v)).comp v ((hasDerivAt_id v).const_mul t)
    have b := ((((hasDerivAt_id v).pow 2).sub_const 1).const_mul (gaussDens t * t)).div_const 2
    refine ((b.const_add (Phi t)).sub a).congr_deriv ?_
    simp only [id]
    push_cast
    ring
  have hc : Continuous k := continuous_iff_continuousAt.2 fun v => (hd v).continuousAt
  have k1 : k 1 = 0 := by simp [hk]
  suffices 0 < k v by simp only [hk] at this; linarith
  rcases lt_or_gt_of_ne h1 with h | h
  · have hanti : StrictAntiOn k (Icc 0 1) := by
      refine strictAntiOn_of_deriv_neg (convex_Icc 0 1) hc.continuousOn fun u hu => ?_
      rw [interior_Icc] at hu
      rw [(hd u).deriv]
      have g1 : gaussDens t < gaussDens (t * u) := gaussDens_lt (mul_nonneg ht.le hu.1.le) (by nlinarith [hu.2])
      have g2 := gaussDens_pos t
      nlinarith [hu.1, hu.2, mul_pos ht g2]
    rw [← k1]
    exact hanti ⟨hv, h.le⟩ ⟨zero_le_one, le_rfl⟩ h
  · have hmono : StrictMonoOn k (Ici 1) := by
      refine strictMonoOn_of_deriv_pos (convex_Ici 1) hc.continuousOn fun u hu => ?_
      rw [interior_Ici] at hu
      have hu : 1 < u := hu
      rw [(hd u).deriv]
      have g1 : gaussDens (t * u) < gaussDens t := gaussDens_lt ht.le (by nlinarith)
      have g2 := gaussDens_pos t
      have : gaussDens (t * u) < u * gaussDens t := by nlinarith
      exact mul_pos ht (by linarith)
    rw [← k1]
    exact hmono (mem_Ici.2 le_rfl) (mem_Ici.2 h.le) h

/-- The distribution function of the Student law as a mean of normal ones. -/
theorem student_mean {k : ℕ} (hk : 1 ≤ k) (t : ℝ) : (studentLaw k).real (Iic t) = ∫ c, Phi (t * (c / Real.sqrt k)) ∂(chiLaw k) := by
  have hk0 : (0 : ℝ) < k := by exact_mod_cast hk
  have hm : Measurable fun p : ℝ × ℝ => p.1 / Real.sqrt (p.2 ^ 2 / k) := by fun_prop
  set D : Set (ℝ × ℝ) := {p | p.1 ≤ t * (p.2 / Real.sqrt k)} with hD
  have hDm : MeasurableSet D := measurableSet_le (by fun_prop) (by fun_prop)
  have hpos : ∀ᵐ w ∂((gaussianReal 0 1).prod (chiLaw k)), 0 < w.2 := Measure.quasiMeasurePreserving_snd.ae (chiLaw_pos hk)
  rw [student_chi, map_measureReal_apply hm measurableSet_Iic]
  have e : ((gaussianReal 0 1).prod (chiLaw k)).real ((fun p : ℝ × ℝ => p.1 / Real.sqrt (p.2 ^ 2 / k)) ⁻¹' Iic t)
      = ((gaussianReal 0 1).prod (chiLaw k)).real D := by
    refine measureReal_congr ?_
    filter_upwards [hpos] with w hw
    refine propext ?_
    change w.1 / Real.sqrt (w.2 ^ 2 / k) ≤ t ↔ w.1 ≤ t * (w.2 / Real.sqrt k)
    have hd : Real.sqrt (w.2 ^ 2 / k) = w.2 / Real.sqrt k := by rw [Real.sqrt_div' _ hk0.le, Real.sqrt_sq hw.le]
    rw [hd, div_le_iff₀ (div_pos hw (Real.sqrt_pos.2 hk0))]
  rw [e, measureReal_def, Measure.prod_apply_symm hDm, ← integral_toReal (measurable_measure_prodMk_right hDm).aemeasurable
    (Eventually.of_forall fun c => measure_lt_top _ _)]
  refine integral_congr_ae (Eventually.of_forall fun c => ?_)
  change (gaussianReal 0 1).real _ = Phi (t * (c / Real.sqrt k))
  rw [Phi_eq]
  rfl

theorem chi_sq_mean (k : ℕ) : Integrable (fun c : ℝ => c ^ 2) (chiLaw k) ∧ ∫ c, c ^ 2 ∂(chiLaw k) = k := by
  have hid2 : MemLp (fun t : ℝ => t) 2 (gaussianReal 0 1) := memLp_id_gaussianReal 2
  have hm1 : ∫ y, y ^ 2 ∂(gaussianReal 0 1) = 1 := by
    have h := variance_fun_id_gaussianReal (μ := 0) (v := 1)
    rw [variance_eq_integral (by fun_prop), integral_id_gaussianReal] at h
    simpa using h
  have hi : ∀ i : Fin k, Integrable (fun g : Fin k → ℝ => g i ^ 2) (Measure.pi fun _ : Fin k => gaussianReal 0 1) := fun i =>
    (measurePreserving_eval (fun _ : Fin k => gaussianReal 0 1) i).integrable_comp_of_integrable (g := fun t : ℝ => t ^ 2) hid2.integrable_sq
  have hv : ∀ i : Fin k, ∫ g : Fin k → ℝ, g i ^ 2 ∂(Measure.pi fun _ : Fin k => gaussianReal 0 1) = 1 := fun i => by
    have h := (measurePreserving_eval (fun _ : Fin k => gaussianReal 0 1) i)
    have h2 := integral_map (μ := Measure.pi fun _ : Fin k => gaussianReal 0 1) h.measurable.aemeasurable (f := fun t : ℝ => t ^ 2) (by fun_prop)
    rw [h.map_eq, hm1] at h2
    exact h2.symm
  have hs : ∀ g : Fin k → ℝ, Real.sqrt (∑ i, g i ^ 2) ^ 2 = ∑ i, g i ^ 2 := fun g => Real.sq_sqrt (Finset.sum_nonneg fun i _ => sq_nonneg _)
  have hsum : Integrable (fun g : Fin k → ℝ => ∑ i, g i ^ 2) (Measure.pi fun _ : Fin k => gaussianReal 0 1) := integrable_finsetSum _ fun i _ => hi i
  constructor
  · rw [chiLaw, integrable_map_measure (by fun_prop) (chi_measurable k).aemeasurable]
    simpa only [Function.comp_def, hs] using hsum
  · rw [chiLaw, integral_map (chi_measurable k).aemeasurable (by fun_prop)]
    simp only [hs]
    rw [integral_finsetSum _ fun i _ => hi i]
    simp [hv]

/-- The Chi law is not a point mass at the root of the degrees of freedom. -/
theorem chi_spread {k : ℕ} (hk : 1 ≤ k) : 0 < chiLaw k {c | c / Real.sqrt k < 1} := by
  have hk0 : (0 : ℝ) < k := by exact_mod_cast hk
  have hms : MeasurableSet {c : ℝ | c / Real.sqrt k < 1} := measurableSet_lt (by fun_prop) measurable_const
  rw [chiLaw, Measure.map_apply (chi_measurable k) hms]
  have hbox : 0 < (Measure.pi fun _ : Fin k => gaussianReal 0 1) (Set.pi univ fun _ => Ioo (-1 / 2 : ℝ) (1 / 2)) := by
    rw [Measure.pi_pi]
    rw [Finset.prod_const, pos_iff_ne_zero]
    refine pow_ne_zero _ (pos_iff_ne_zero.1 ?_)
    have := gauss_real_pos (μ := 0) (v := 1) one_ne_zero (s := Ioo (-1 / 2 : ℝ) (1 / 2)) (by rw [Real.volume_Ioo]; norm_num)
    rw [measureReal_def, ENNReal.toReal_pos_iff] at this
    exact this.1
  refine lt_of_lt_of_le hbox (measure_mono fun g hg => ?_)
  change Real.sqrt (∑ i, g i ^ 2) / Real.sqrt k < 1
  rw [div_lt_one (Real.sqrt_pos.2 hk0)]
  refine Real.sqrt_lt_sqrt (Finset.sum_nonneg fun i _ => sq_nonneg _) ?_
  have h1 : ∀ i ∈ Finset.univ, g i ^ 2 ≤ (1 / 4 : ℝ) := fun i _ => by
    have := hg i (mem_univ i)
    nlinarith [this.1, this.2]
  have := Finset.sum_le_card_nsmul _ _ _ h1
  rw [Finset.card_univ, Fintype.card_fin, nsmul_eq_mul] at this
  linarith

/-- Above its median the Student law has more mass in the tail than the normal law. -/
theorem student_lt {k : ℕ} (hk : 1 ≤ k) {t : ℝ} (ht : 0 < t) : (studentLaw k).real (Iic t) < Phi t := by
  have hk0 : (0 : ℝ) < k := by exact_mod_cast hk
  have hs2 : Real.sqrt k ^ 2 = k := Real.sq_sqrt hk0.le
  obtain ⟨hi, hv⟩ := chi_sq_mean k
  set h : ℝ → ℝ := fun c => Phi t + gaussDens t * t * ((c / Real.sqrt k) ^ 2 - 1) / 2 with hh
  have hint : Integrable h (chiLaw k) := by
    have : h = fun c => Phi t - gaussDens t * t / 2 + gaussDens t * t / 2 / k * c ^ 2 := by
      funext c; simp only [hh, div_pow, hs2]; ring
    rw [this]
    exact (integrable_const _).add (hi.const_mul _)
  have hval : ∫ c, h c ∂(chiLaw k) = Phi t := by
    have : h = fun c => Phi t - gaussDens t * t / 2 + gaussDens t * t / 2 / k * c ^ 2 := by
      funext c; simp only [hh, div_pow, hs2]; ring
    rw [this, integral_add (integrable_const _) (hi.const_mul _), integral_const_mul, hv, integral_const]
    simp
    field_simp
    ring
  have hpc : Continuous fun c : ℝ => Phi (t * (c / Real.sqrt k)) := Phi_continuous.comp (by fun_prop)
  have hpi : Integrable (fun c : ℝ => Phi (t * (c / Real.sqrt k))) (chiLaw k) := by
    refine (integrable_const (1 : ℝ)).mono' hpc.aestronglyMeasurable (Eventually.of_forall fun c => ?_)
    rw [Real.norm_eq_abs, abs_of_pos (Phi_pos _)]
    exact (Phi_lt_one _).le
  rw [student_mean hk, ← hval, ← sub_pos, ← integral_sub hint hpi]
  have hnn : ∀ᵐ c ∂(chiLaw k), 0 ≤ h c - Phi (t * (c / Real.sqrt k)) := by
    filter_upwards [chiLaw_pos hk] with c hc
    by_cases e : c / Real.sqrt k = 1
    · simp [hh, e]
    · have := Phi_tangent ht (div_pos hc (Real.sqrt_pos.2 hk0)).le e
      simp only [hh]
      linarith
  rw [integral_pos_iff_support_of_nonneg_ae hnn (hint.sub hpi)]
  have hsub : ∀ᵐ c ∂(chiLaw k), c ∈ {c | c / Real.sqrt k < 1} → c ∈ Function.support fun c => h c - Phi (t * (c / Real.sqrt k)) := by
    filter_upwards [chiLaw_pos hk] with c hc hlt
    have := Phi_tangent ht (div_pos hc (Real.sqrt_pos.2 hk0)).le (ne_of_lt hlt)
    change h c - Phi (t * (c / Real.sqrt k)) ≠ 0
    simp only [hh]
    linarith
  exact lt_of_lt_of_le (chi_spread hk) (measure_mono_ae hsub)

theorem student_neg {k : ℕ} (hk : 1 ≤ k) (t : ℝ) : (studentLaw k).real (Iic (-t)) = 1 - (studentLaw k).real (Iic t) := by
  have h : (studentLaw k).real (Iic (-t)) = (studentLaw k).real (Ici t) := by
    conv_lhs => rw [← student_symm k]
    rw [map_measureReal_apply measurable_neg measurableSet_Iic]
    congr 1
    ext u; simp
  rw [h, ← probReal_compl_eq_one_sub measurableSet_Iic, compl_Iic]
  have : NullSingletonClass (studentLaw k) := ⟨fun x => student_atom hk x⟩
  exact measureReal_congr Ioi_ae_eq_Ici.symm

theorem student_gt {k : ℕ} (hk : 1 ≤ k) {t : ℝ} (ht : t < 0) : Phi t < (studentLaw k).real (Iic t) := by
  have h := student_lt hk (t := -t) (by linarith)
  rw [student_neg hk, Phi_neg] at h
  linarith

/-- The Student distribution functions converge to the normal one. -/
theorem student_limit (t : ℝ) : Tendsto (fun k => (studentLaw k).real (Iic t)) atTop (𝓝 (Phi t)) := by
  have hne : ∀ᵐ w ∂stdNormals, w 0 ≠ t := by
    have := nullSingletonClass_gaussianReal (μ := 0) (v := 1) one_ne_zero
    have h2 : (stdNormals.map fun w => w 0) {t} = 0 := by rw [stdNormals_law 0]; exact measure_singleton t
    rw [Measure.map_apply (measurable_pi_apply 0) (MeasurableSet.singleton _)] at h2
    exact measure_eq_zero_iff_ae_notMem.1 h2
  have h := tendsto_measure_of_ae_tendsto_indicator_of_isFiniteMeasure (μ := stdNormals) atTop (A := (fun w => w 0) ⁻¹' Iic t)
    (As := fun k => studentRatio k ⁻¹' Iic t) (measurable_pi_apply 0 measurableSet_Iic) (fun k => studentRatio_meas k measurableSet_Iic) (by
      filter_upwards [student_ae, hne] with w hw h0
      rcases lt_or_gt_of_ne h0 with h | h
      · filter_upwards [hw.eventually (eventually_lt_nhds h)] with k hk
        exact ⟨fun _ => h.le, fun _ => hk.le⟩
      · filter_upwards [hw.eventually (eventually_gt_nhds h)] with k hk
        exact ⟨fun a => absurd (lt_of_lt_of_le hk a) (lt_irrefl _), fun a => absurd (lt_of_lt_of_le h a) (lt_irrefl _)⟩)
  have h' := (ENNReal.tendsto_toReal (measure_ne_top _ _)).comp h
  have e0 : (stdNormals ((fun w => w 0) ⁻¹' Iic t)).toReal = Phi t := by
    rw [← Measure.map_apply (measurable_pi_apply 0) measurableSet_Iic, stdNormals_law 0, Phi_eq, measureReal_def]
  rw [e0] at h'
  refine h'.congr fun k => ?_
  change (stdNormals (studentRatio k ⁻¹' Iic t)).toReal = _
  rw [studentLaw, map_measureReal_apply (studentRatio_meas k) measurableSet_Iic, measureReal_def]

/-! ## A new observation -/

/-- Combination of two independent standard normal variables. -/
theorem unit_combination {α β : ℝ} (h : α ^ 2 + β ^ 2 = 1) :
    ((gaussianReal 0 1).prod (gaussianReal 0 1)).map (fun p => α * p.1 + β * p.2) = gaussianReal 0 1 := by
  have h1 : (gaussianReal 0 1).map (fun u => α * u) = gaussianReal 0 (sqv α) := by
    rw [gaussianReal_map_const_mul, mul_zero, mul_one]; congr 1
  have h2 : (gaussianReal 0 1).map (fun u => β * u) = gaussianReal 0 (sqv β) := by
    rw [gaussianReal_map_const_mul, mul_zero, mul_one]; congr 1
  have hc := gaussianReal_conv_gaussianReal (m₁ := 0) (m₂ := 0) (v₁ := sqv α) (v₂ := sqv β)
  rw [← h1, ← h2, Measure.conv, Measure.map_prod_map _ _ (by fun_prop) (by fun_prop), Measure.map_map (by fun_prop) (by fun_prop), add_zero] at hc
  have hv : sqv α + sqv β = 1 := by
    apply NNReal.coe_injective
    push_cast
    rw [coe_sqv, coe_sqv, h]
  rw [hv] at hc
  exact hc

/-- Fitted value, residual norm and a new error, all standardised. -/
theorem new_error_law {m : ℕ} (α β : ℝ) (h : α ^ 2 + β ^ 2 = 1) :
    (((gaussianReal 0 1).prod (chiLaw m)).prod (gaussianReal 0 1)).map (fun p => (α * p.1.1 + β * p.2, p.1.2))
      = (gaussianReal 0 1).prod (chiLaw m) := by
  have s1 := measurePreserving_prodAssoc (gaussianReal 0 1) (chiLaw m) (gaussianReal 0 1)
  have s2 := (MeasurePreserving.id (gaussianReal 0 1)).prod (Measure.measurePreserving_swap (μ := chiLaw m) (ν := gaussianReal 0 1))
  have s3 := (measurePreserving_prodAssoc (gaussianReal 0 1) (gaussianReal 0 1) (chiLaw m)).symm
  have s4 : MeasurePreserving (fun p : ℝ × ℝ => α * p.1 + β * p.2) ((gaussianReal 0 1).prod (gaussianReal 0 1)) (gaussianReal 0 1) :=
    ⟨by fun_prop, unit_combination h⟩
  have s5 := s4.prod (MeasurePreserving.id (chiLaw m))
  exact (((s5.comp s3).comp s2).comp s1).map_eq

/-- The POD at a size with the signal `w` as threshold. -/
theorem gaussPodOf_threshold {m : ℕ} (hm : 1 ≤ m) (x g : Fin (m + 2) → ℝ) (hx : ∃ i j, x i ≠ x j) (hS : 0 < ∑ i, (x i - smean x) ^ 2)
    (b0 b1 s a d : ℝ) (hs : 0 < s) :
    gaussPodOf x (fun i => b0 + b1 * x i + s * g i) d a = PhiC ((d - (b0 + b1 * a + s * (olsIntercept x g + olsSlope x g * a)))
      / (s * (Real.sqrt (∑ i, olsResiduals x g i ^ 2) / Real.sqrt m) * Real.sqrt (1 + lev x a))) := by
  obtain ⟨hfit, hres⟩ := fit_scaled x g b0 b1 s a (by omega) hS.ne'
  have hm' : (0 : ℝ) < m := by exact_mod_cast hm
  have hse : linearStderr x (fun i => b0 + b1 * x i + s * g i) = s * (Real.sqrt (∑ i, olsResiduals x g i ^ 2) / Real.sqrt m) := by
    rw [linearStderr, linearScale]
    have : ∑ i, olsResiduals x (fun i => b0 + b1 * x i + s * g i) i ^ 2 = s ^ 2 * ∑ i, olsResiduals x g i ^ 2 := by
      rw [Finset.mul_sum]
      exact Finset.sum_congr rfl fun i _ => by rw [hres i]; ring
    rw [this, show (((m + 2 : ℕ) : ℝ) - 2) = m by push_cast; ring, Real.sqrt_div (by positivity), Real.sqrt_mul (sq_nonneg s),
      Real.sqrt_sq hs.le, mul_div_assoc]
  rw [gaussPodOf, podGauss, hfit, predictionVariance_eq _ _ _ hx, hse, Real.sqrt_mul (sq_nonneg _), Real.sqrt_sq (by positivity)]
  rfl

section
variable {Ω : Type} [MeasurableSpace Ω] {Q : Measure Ω} [IsProbabilityMeasure Q]

/-- Exact probability that a new signal exceeds the threshold to which the Gaussian POD gives the probability `Phi t`; this threshold exists and is
unique for almost all data. -/
theorem gauss_predictive {m : ℕ} (hm : 1 ≤ m) (x : Fin (m + 2) → ℝ) (hx : ∃ i j, x i ≠ x j) (e : Fin (m + 2) → Ω → ℝ) (e' : Ω → ℝ)
    (he : ∀ i, Measurable (e i)) (he' : Measurable e') (s : ℝ) (hs : 0 < s) (hlaw : ∀ i, Q.map (e i) = gaussianReal 0 (sqv s))
    (hlaw' : Q.map e' = gaussianReal 0 (sqv s)) (hind : iIndepFun e Q) (hind' : IndepFun (fun ω i => e i ω) e' Q) (b0 b1 a t : ℝ) :
    (∀ᵐ ω ∂Q, ∃! d, gaussPodOf x (fun i => b0 + b1 * x i + e i ω) d a = Phi t) ∧
    ∀ d : Ω → ℝ, (∀ᵐ ω ∂Q, gaussPodOf x (fun i => b0 + b1 * x i + e i ω) (d ω) a = Phi t) →
      Q.real {ω | d ω < b0 + b1 * a + e' ω} = (studentLaw m).real (Iic t) := by
  have hS : 0 < ∑ i, (x i - smean x) ^ 2 := by
    have h := svar_eq_zero_iff (n := m + 2) (by omega) x
    refine lt_of_le_of_ne (Finset.sum_nonneg fun i _ => sq_nonneg _) fun h0 => ?_
    obtain ⟨i, j, hij⟩ := hx
    exact hij (h.1 (by rw [svar, ← h0, zero_div]) i j)
  have hm0 : (0 : ℝ) < m := by exact_mod_cast hm
  have hsm : 0 < Real.sqrt (m : ℝ) := Real.sqrt_pos.2 hm0
  have hlev : 0 < lev x a := by
    have : (0 : ℝ) < (m + 2 : ℕ) := by positivity
    unfold lev
    positivity
  -- standardised errors
  have hgl : ∀ u : Ω → ℝ, Measurable u → Q.map u = gaussianReal 0 (sqv s) → Q.map (fun ω => u ω / s) = gaussianReal 0 1 := by
    intro u hu hl
    have h1 : Q.map (fun ω => u ω / s) = (Q.map u).map fun t => t / s := by
      rw [Measure.map_map (by fun_prop) hu]; rfl
    rw [h1, hl, gaussianReal_map_div_const, zero_div]
    congr 1
    apply NNReal.coe_injective
    push_cast
    rw [coe_sqv]
    field_simp
  have hgi : iIndepFun (fun i ω => e i ω / s) Q := hind.comp (fun _ t => t / s) fun _ => by fun_prop
  have hpi : Q.map (fun ω => fun i => e i ω / s) = Measure.pi fun _ : Fin (m + 2) => gaussianReal 0 1 := by
    rw [(iIndepFun_iff_map_fun_eq_pi_map (fun i => ((he i).div_const s).aemeasurable)).1 hgi]
    congr 1
    funext i
    exact hgl _ (he i) (hlaw i)
  have hme : Measurable fun ω => fun i => e i ω / s := measurable_pi_iff.2 fun i => (he i).div_const s
  set W : (Fin (m + 2) → ℝ) → ℝ × ℝ := fun g =>
    ((olsIntercept x g + olsSlope x g * a) / Real.sqrt (lev x a), Real.sqrt (∑ i, olsResiduals x g i ^ 2)) with hW
  have hWm : Measurable W := by
    rw [hW]
    simp only [olsResiduals, olsIntercept, olsSlope, smean]
    fun_prop
  have hWl : (Measure.pi fun _ : Fin (m + 2) => gaussianReal 0 1).map W = (gaussianReal 0 1).prod (chiLaw m) := fit_law x a hS
  have hVl : Q.map (fun ω => W fun i => e i ω / s) = (gaussianReal 0 1).prod (chiLaw m) := by
    rw [← hWl, ← hpi, Measure.map_map hWm hme]; rfl
  have hjoint : Q.map (fun ω => (W (fun i => e i ω / s), e' ω / s)) = ((gaussianReal 0 1).prod (chiLaw m)).prod (gaussianReal 0 1) := by
    have hi : IndepFun (fun ω => W fun i => e i ω / s) (fun ω => e' ω / s) Q := by
      have hφ : Measurable fun v : Fin (m + 2) → ℝ => W fun i => v i / s :=
        hWm.comp (by fun_prop)
      exact hind'.comp (φ := fun v : Fin (m + 2) → ℝ => W fun i => v i / s) (ψ := fun u => u / s) hφ (by fun_prop)
    have h1 := (indepFun_iff_map_prod_eq_prod_map_map (hWm.comp hme).aemeasurable (he'.div_const s).aemeasurable).1 hi
    have h2 : Q.map (fun ω => (W (fun i => e i ω / s), e' ω / s)) = (Q.map (fun ω => W fun i => e i ω / s)).prod (Q.map fun ω => e' ω / s) := h1
    rw [h2, hgl e' he' hlaw', hVl]
  -- the residual norm is positive
  have hRpos : ∀ᵐ ω ∂Q, 0 < (W fun i => e i ω / s).2 := by
    have h1 : ∀ᵐ w ∂(Q.map fun ω => W fun i => e i ω / s), 0 < w.2 := by
      rw [hVl]; exact Measure.quasiMeasurePreserving_snd.ae (chiLaw_pos hm)
    exact ae_of_ae_map (hWm.comp hme).aemeasurable h1
  have hpod : ∀ ω d, gaussPodOf x (fun i => b0 + b1 * x i + e i ω) d a
      = PhiC ((d - (b0 + b1 * a + s * (Real.sqrt (lev x a) * (W fun i => e i ω / s).1)))
        / (s * ((W fun i => e i ω / s).2 / Real.sqrt m) * Real.sqrt (1 + lev x a))) := by
    intro ω d
    have h := gaussPodOf_threshold hm x (fun i => e i ω / s) hx hS b0 b1 s a d hs
    have e1 : (fun i => b0 + b1 * x i + s * (e i ω / s)) = fun i => b0 + b1 * x i + e i ω := by
      funext i; rw [mul_div_cancel₀ _ hs.ne']
    rw [e1] at h
    rw [h]
    simp only [hW]
    rw [mul_div_cancel₀ _ (Real.sqrt_pos.2 hlev).ne']
  have hPC : ∀ u v : ℝ, PhiC u = Phi v ↔ u = -v := by
    intro u v
    rw [PhiC_eq, ← Phi_neg]
    constructor
    · intro h
      have := Phi_strictMono.injective h
      linarith
    · rintro rfl; rw [neg_neg]
  have hone : 0 < Real.sqrt (1 + lev x a) := Real.sqrt_pos.2 (by linarith)
  refine ⟨?_, fun d hd => ?_⟩
  · filter_upwards [hRpos] with ω hω
    have hden : 0 < s * ((W fun i => e i ω / s).2 / Real.sqrt m) * Real.sqrt (1 + lev x a) := mul_pos (mul_pos hs (div_pos hω hsm)) hone
    refine ⟨b0 + b1 * a + s * (Real.sqrt (lev x a) * (W fun i => e i ω / s).1)
      + -t * (s * ((W fun i => e i ω / s).2 / Real.sqrt m) * Real.sqrt (1 + lev x a)), ?_, fun d hd => ?_⟩
    · change gaussPodOf _ _ _ _ = _
      rw [hpod, hPC, add_sub_cancel_left, mul_div_assoc, div_self hden.ne', mul_one]
    · change gaussPodOf _ _ _ _ = _ at hd
      rw [hpod, hPC, div_eq_iff hden.ne'] at hd
      linarith
  · set r := Real.sqrt (lev x a) / Real.sqrt (1 + lev x a) with hr
    set q := 1 / Real.sqrt (1 + lev x a) with hq
    have hrq : r ^ 2 + (-q) ^ 2 = 1 := by
      rw [hr, hq, neg_sq, div_pow, div_pow, Real.sq_sqrt hlev.le, Real.sq_sqrt (by linarith)]
      have : 1 + lev x a ≠ 0 := by linarith
      field_simp
      ring
    set D : Set (ℝ × ℝ) := {w | w.1 < t * (w.2 / Real.sqrt m)} with hD
    have hDm : MeasurableSet D := measurableSet_lt (by fun_prop) (by fun_prop)
    set T : (ℝ × ℝ) × ℝ → ℝ × ℝ := fun p => (r * p.1.1 + -q * p.2, p.1.2) with hT
    have hTm : Measurable T := by rw [hT]; fun_prop
    have hjm : Measurable fun ω => (W (fun i => e i ω / s), e' ω / s) := (hWm.comp hme).prodMk (he'.div_const s)
    have hev : Q.real {ω | d ω < b0 + b1 * a + e' ω} = Q.real ((fun ω => (W (fun i => e i ω / s), e' ω / s)) ⁻¹' (T ⁻¹' D)) := by
      refine measureReal_congr ?_
      filter_upwards [hRpos, hd] with ω hω hdω
      refine propext ?_
      have hden : 0 < s * ((W fun i => e i ω / s).2 / Real.sqrt m) * Real.sqrt (1 + lev x a) := mul_pos (mul_pos hs (div_pos hω hsm)) hone
      rw [hpod, hPC, div_eq_iff hden.ne'] at hdω
      change d ω < b0 + b1 * a + e' ω ↔ r * (W fun i => e i ω / s).1 + -q * (e' ω / s) < t * ((W fun i => e i ω / s).2 / Real.sqrt m)
      set w1 := (W fun i => e i ω / s).1
      set c := (W fun i => e i ω / s).2 / Real.sqrt m
      have hmul : r * w1 + -q * (e' ω / s) - t * c
          = (s * (Real.sqrt (lev x a) * w1) - e' ω - t * (s * c * Real.sqrt (1 + lev x a))) / (s * Real.sqrt (1 + lev x a)) := by
        rw [hr, hq]
        field_simp
        ring
      rw [← sub_neg (a := r * w1 + -q * (e' ω / s)), hmul, div_neg_iff]
      have hsp : 0 < s * Real.sqrt (1 + lev x a) := mul_pos hs hone
      constructor
      · intro h
        right
        exact ⟨by linarith, hsp⟩
      · rintro (h | h)
        · linarith [h.2]
        · linarith [h.1]
    rw [hev, ← map_measureReal_apply hjm (hDm.preimage hTm), hjoint, ← map_measureReal_apply hTm hDm, new_error_law r (-q) hrq]
    have : NullSingletonClass (studentLaw m) := ⟨fun x => student_atom hm x⟩
    rw [← measureReal_congr (Iio_ae_eq_Iic (μ := studentLaw m) (a := t)), student_chi, map_measureReal_apply (by fun_prop) measurableSet_Iio]
    refine measureReal_congr ?_
    have hpos : ∀ᵐ w ∂((gaussianReal 0 1).prod (chiLaw m)), 0 < w.2 := Measure.quasiMeasurePreserving_snd.ae (chiLaw_pos hm)
    filter_upwards [hpos] with w hw
    refine propext ?_
    change w.1 < t * (w.2 / Real.sqrt m) ↔ w.1 / Real.sqrt (w.2 ^ 2 / m) < t
    have hd : Real.sqrt (w.2 ^ 2 / m) = w.2 / Real.sqrt m := by rw [Real.sqrt_div' _ hm0.le, Real.sqrt_sq hw.le]
    rw [hd, div_lt_iff₀ (div_pos hw hsm)]

/-- **C190 is violated.**  Line plus independent normal errors, at least three observations.  Let `d` be the threshold to which the Gaussian POD gives the
probability `p` at the size `a` (it exists and is unique for almost all data).  A new signal of this size exceeds it with a probability that depends on
`p` and the number of observations only, and that is smaller than `p` when `p > 1/2`, larger when `p < 1/2`. -/
theorem C190_violated {m : ℕ} (hm : 1 ≤ m) (x : Fin (m + 2) → ℝ) (hx : ∃ i j, x i ≠ x j) (e : Fin (m + 2) → Ω → ℝ) (e' : Ω → ℝ)
    (he : ∀ i, Measurable (e i)) (he' : Measurable e') (s : ℝ) (hs : 0 < s) (hlaw : ∀ i, Q.map (e i) = gaussianReal 0 (sqv s))
    (hlaw' : Q.map e' = gaussianReal 0 (sqv s)) (hind : iIndepFun e Q) (hind' : IndepFun (fun ω i => e i ω) e' Q) (b0 b1 a p : ℝ) (h0 : 0 < p)
    (h1 : p < 1) :
    (∀ᵐ ω ∂Q, ∃! d, gaussPodOf x (fun i => b0 + b1 * x i + e i ω) d a = p) ∧
    ∀ d : Ω → ℝ, (∀ᵐ ω ∂Q, gaussPodOf x (fun i => b0 + b1 * x i + e i ω) (d ω) a = p) →
      (∀ t, Phi t = p → Q.real {ω | d ω < b0 + b1 * a + e' ω} = (studentLaw m).real (Iic t)) ∧
      (1 / 2 < p → Q.real {ω | d ω < b0 + b1 * a + e' ω} < p) ∧ (p < 1 / 2 → p < Q.real {ω | d ω < b0 + b1 * a + e' ω}) := by
  obtain ⟨t, rfl⟩ := Phi_surj h0 h1
  obtain ⟨g1, g2⟩ := gauss_predictive hm x hx e e' he he' s hs hlaw hlaw' hind hind' b0 b1 a t
  refine ⟨g1, fun d hd => ?_⟩
  have h := g2 d hd
  refine ⟨fun u hu => ?_, fun hp => ?_, fun hp => ?_⟩
  · rw [h, Phi_strictMono.injective hu]
  · rw [h]
    rw [← Phi_zero] at hp
    exact student_lt hm (Phi_strictMono.lt_iff_lt.1 hp)
  · rw [h]
    rw [← Phi_zero] at hp
    exact student_gt hm (Phi_strictMono.lt_iff_lt.1 hp)

end

/-- **C190, restricted: many observations.**  For each probability the error is small, uniformly over all designs, lines, sizes and error variances, when
there are enough observations.  For `p = 1/2` it is zero.  Missing: a fixed number of observations. -/
theorem C190_limit_partial (p : ℝ) (h0 : 0 < p) (h1 : p < 1) (ε : ℝ) (hε : 0 < ε) : ∃ M : ℕ, ∀ m ≥ 1, (M ≤ m ∨ p = 1 / 2) →
    ∀ (Ω : Type) [MeasurableSpace Ω] (Q : Measure Ω) [IsProbabilityMeasure Q] (x : Fin (m + 2) → ℝ) (_ : ∃ i j, x i ≠ x j)
      (e : Fin (m + 2) → Ω → ℝ) (e' : Ω → ℝ) (_ : ∀ i, Measurable (e i)) (_ : Measurable e') (s : ℝ) (_ : 0 < s)
      (_ : ∀ i, Q.map (e i) = gaussianReal 0 (sqv s)) (_ : Q.map e' = gaussianReal 0 (sqv s)) (_ : iIndepFun e Q)
      (_ : IndepFun (fun ω i => e i ω) e' Q) (b0 b1 a : ℝ) (d : Ω → ℝ)
      (_ : ∀ᵐ ω ∂Q, gaussPodOf x (fun i => b0 + b1 * x i + e i ω) (d ω) a = p),
      |Q.real {ω | d ω < b0 + b1 * a + e' ω} - p| < ε := by
  obtain ⟨t, rfl⟩ := Phi_surj h0 h1
  obtain ⟨M, hM⟩ := Metric.tendsto_atTop.1 (student_limit t) ε hε
  refine ⟨M, fun m hm hor Ω _ Q _ x hx e e' he he' s hs hlaw hlaw' hind hind' b0 b1 a d hd => ?_⟩
  rw [(gauss_predictive hm x hx e e' he he' s hs hlaw hlaw' hind hind' b0 b1 a t).2 d hd]
  rcases hor with h | h
  · have := hM m h
    rwa [Real.dist_eq] at this
  · rw [← Phi_zero] at h
    rw [Phi_strictMono.injective h, student_zero hm, Phi_zero, sub_self, abs_zero]
    exact hε

/-! ## Example -/

/-- Sizes 0, 1, 2, threshold with POD 0.9 at the size 1: a new signal exceeds it with probability below 0.9. -/
example : ∃ d : (Fin 3 → ℝ) × ℝ → ℝ, ((Measure.pi fun _ : Fin 3 => gaussianReal 0 (sqv (1 / 2))).prod (gaussianReal 0 (sqv (1 / 2)))).real
    {ω | d ω < 1 + 2 * 1 + ω.2} < 9 / 10 := by
  set N := gaussianReal 0 (sqv (1 / 2)) with hN
  set Q := (Measure.pi fun _ : Fin 3 => N).prod N with hQ
  have hl : ∀ i : Fin 3, Q.map (fun ω : (Fin 3 → ℝ) × ℝ => ω.1 i) = N := fun i =>
    ((measurePreserving_eval (fun _ : Fin 3 => N) i).comp (measurePreserving_fst (μ := Measure.pi fun _ : Fin 3 => N) (ν := N))).map_eq
  have hl' : Q.map (fun ω : (Fin 3 → ℝ) × ℝ => ω.2) = N := (measurePreserving_snd (μ := Measure.pi fun _ : Fin 3 => N) (ν := N)).map_eq
  have hp : Q.map (fun ω : (Fin 3 → ℝ) × ℝ => ω.1) = Measure.pi fun _ : Fin 3 => N :=
    (measurePreserving_fst (μ := Measure.pi fun _ : Fin 3 => N) (ν := N)).map_eq
  have hi : iIndepFun (fun (i : Fin 3) (ω : (Fin 3 → ℝ) × ℝ) => ω.1 i) Q := by
    rw [iIndepFun_iff_map_fun_eq_pi_map fun i => (by fun_prop : Measurable fun ω : (Fin 3 → ℝ) × ℝ => ω.1 i).aemeasurable]
    refine hp.trans ?_
    congr 1
    funext i
    exact (hl i).symm
  have hi' : IndepFun (fun (ω : (Fin 3 → ℝ) × ℝ) i => ω.1 i) (fun ω => ω.2) Q := by
    rw [indepFun_iff_map_prod_eq_prod_map_map (by fun_prop) (by fun_prop)]
    change Q.map id = (Q.map fun ω : (Fin 3 → ℝ) × ℝ => ω.1).prod _
    rw [Measure.map_id, hp, hl']
  obtain ⟨h1, h2⟩ := C190_violated (Q := Q) (m := 1) le_rfl ![0, 1, 2] ⟨0, 1, by simp⟩ (fun i ω => ω.1 i) (fun ω => ω.2) (fun i => by fun_prop)
    (by fun_prop) (1 / 2) (by norm_num) hl hl' hi hi' 1 2 1 (9 / 10) (by norm_num) (by norm_num)
  classical
  refine ⟨fun ω => if h : ∃! d, gaussPodOf ![0, 1, 2] (fun i => 1 + 2 * (![0, 1, 2] : Fin 3 → ℝ) i + ω.1 i) d 1 = 9 / 10 then h.choose else 0, ?_⟩
  refine (h2 _ ?_).2.1 (by norm_num)
  filter_upwards [h1] with ω hω
  rw [dif_pos hω]
  exact hω.choose_spec.1

end Verif.Props
