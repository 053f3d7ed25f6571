import Verif.Props.StudentLaw
import Verif.Props.ChiLaw
import Verif.Model.ConfInt
import Mathlib.Probability.CDF

/-!
# C184: the confidence intervals of the coefficients have the displayed level (`_univariate_linear_model_analysis.py` 243-252, 513-519)
-/

namespace Verif.Props
open Verif.Py Verif.Model ProbabilityTheory MeasureTheory Set Filter Topology

/-- The Student law from a normal and an independent Chi variable. -/
theorem student_chi (k : ℕ) : studentLaw k = ((gaussianReal 0 1).prod (chiLaw k)).map fun p => p.1 / Real.sqrt (p.2 ^ 2 / k) := by
  have hind : iIndepFun (fun i : Fin (k + 1) => fun w : ℕ → ℝ => w i) stdNormals := by
    have h : iIndepFun (fun i : ℕ => fun w : ℕ → ℝ => w i) stdNormals :=
      iIndepFun_infinitePi (P := fun _ : ℕ => gaussianReal 0 1) (X := fun _ w => w) (fun _ => measurable_id)
    exact h.precomp (g := fun i : Fin (k + 1) => (i : ℕ)) Fin.val_injective
  have hpi : stdNormals.map (fun w => fun i : Fin (k + 1) => w i) = Measure.pi fun _ : Fin (k + 1) => gaussianReal 0 1 := by
    rw [(iIndepFun_iff_map_fun_eq_pi_map (fun i => (measurable_pi_apply _).aemeasurable)).1 hind]
    congr 1
    funext i
    exact stdNormals_law i
  have hp := measurePreserving_piFinSuccAbove (fun _ : Fin (k + 1) => gaussianReal 0 1) 0
  have h3 : MeasurePreserving (fun g : Fin k → ℝ => Real.sqrt (∑ i, g i ^ 2)) (Measure.pi fun _ => gaussianReal 0 1) (chiLaw k) :=
    ⟨chi_measurable k, rfl⟩
  have h4 := (((MeasurePreserving.id (gaussianReal 0 1)).prod h3).comp hp).map_eq
  have hm : Measurable fun p : ℝ × ℝ => p.1 / Real.sqrt (p.2 ^ 2 / k) := by fun_prop
  have hme : Measurable fun w : ℕ → ℝ => fun i : Fin (k + 1) => w i := measurable_pi_iff.2 fun i => measurable_pi_apply _
  rw [← h4, ← hpi, Measure.map_map hm (((MeasurePreserving.id (gaussianReal 0 1)).prod h3).comp hp).measurable,
    Measure.map_map (hm.comp (((MeasurePreserving.id (gaussianReal 0 1)).prod h3).comp hp).measurable) hme, studentLaw]
  congr 1
  funext w
  simp only [Function.comp, studentRatio, MeasurableEquiv.piFinSuccAbove_apply, Prod.map_apply, id]
  change _ = w ((0 : Fin (k + 1)) : ℕ) / Real.sqrt (Real.sqrt (∑ i : Fin k, w ((Fin.succAbove 0 i : Fin (k + 1)) : ℕ) ^ 2) ^ 2 / k)
  rw [Real.sq_sqrt (Finset.sum_nonneg fun i _ => sq_nonneg _), ← Fin.sum_univ_eq_sum_range (fun i => w (i + 1) ^ 2)]
  simp

instance studentLaw_prob (k : ℕ) : IsProbabilityMeasure (studentLaw k) := Measure.isProbabilityMeasure_map (studentRatio_meas k).aemeasurable

theorem student_symm (k : ℕ) : (studentLaw k).map (fun t => -t) = studentLaw k := by
  have h : (gaussianReal 0 1).map (fun t => -t) = gaussianReal 0 1 := by rw [gaussianReal_map_neg, neg_zero]
  have h1 : MeasurePreserving (fun t : ℝ => -t) (gaussianReal 0 1) (gaussianReal 0 1) := ⟨measurable_neg, h⟩
  have h2 := (h1.prod (MeasurePreserving.id (chiLaw k))).map_eq
  have hm : Measurable fun p : ℝ × ℝ => p.1 / Real.sqrt (p.2 ^ 2 / k) := by fun_prop
  rw [student_chi]
  conv_rhs => rw [← h2]
  rw [Measure.map_map measurable_neg hm, Measure.map_map hm (by fun_prop)]
  congr 1
  funext p
  change -(p.1 / Real.sqrt (p.2 ^ 2 / k)) = -p.1 / Real.sqrt (p.2 ^ 2 / k)
  rw [neg_div]

/-- Probability of a symmetric interval. -/
theorem student_Icc {k : ℕ} (hk : 1 ≤ k) {q p : ℝ} (hp : 1 / 2 < p) (hq : (studentLaw k).real (Iic q) = p) :
    (studentLaw k).real (Icc (-q) q) = 2 * p - 1 := by
  have hq0 : 0 < q := by
    by_contra h
    push Not at h
    have := measureReal_mono (μ := studentLaw k) (Iic_subset_Iic.2 h) (measure_ne_top _ _)
    rw [student_zero hk, hq] at this
    linarith
  have h1 : (studentLaw k).real (Iio (-q)) = 1 - p := by
    rw [← hq, ← probReal_compl_eq_one_sub measurableSet_Iic, compl_Iic]
    conv_lhs => rw [← student_symm k]
    rw [map_measureReal_apply measurable_neg measurableSet_Iio]
    congr 1
    ext t; simp
  have e : Icc (-q) q = Iic q \ Iio (-q) := by
    ext t
    simp only [mem_Icc, Set.mem_sdiff, mem_Iic, mem_Iio, not_lt]
    tauto
  have hsub : Iio (-q) ⊆ Iic q := fun t ht => le_of_lt (lt_of_lt_of_le ht (by linarith : -q ≤ q))
  rw [e, measureReal_sdiff hsub measurableSet_Iio, hq, h1]
  ring

theorem student_atom {k : ℕ} (hk : 1 ≤ k) (t : ℝ) : studentLaw k {t} = 0 := by
  have hm : Measurable fun p : ℝ × ℝ => p.1 / Real.sqrt (p.2 ^ 2 / k) := by fun_prop
  rw [student_chi, Measure.map_apply hm (MeasurableSet.singleton _), ← Measure.prod_swap,
    Measure.map_apply measurable_swap ((MeasurableSet.singleton _).preimage hm),
    Measure.measure_prod_null (((MeasurableSet.singleton _).preimage hm).preimage measurable_swap)]
  filter_upwards [chiLaw_pos hk] with c hc
  have := nullSingletonClass_gaussianReal (μ := 0) (v := 1) one_ne_zero
  have hk0 : (0 : ℝ) < k := by exact_mod_cast hk
  have hd : 0 < Real.sqrt (c ^ 2 / k) := Real.sqrt_pos.2 (by positivity)
  refine measure_mono_null (t := {t * Real.sqrt (c ^ 2 / k)}) (fun z hz => ?_) (measure_singleton _)
  have hz : z / Real.sqrt (c ^ 2 / k) = t := hz
  rw [div_eq_iff hd.ne'] at hz
  exact hz

/-- `scipy.stats.t.ppf`: the quantile function of the Student law. -/
def StudentQuantile (q : ℕ → ℝ → ℝ) : Prop := ∀ k ≥ 1, ∀ p, 0 < p → p < 1 → (studentLaw k).real (Iic (q k p)) = p

theorem studentQuantile_exists : ∃ q, StudentQuantile q := by
  have h : ∀ k : ℕ, ∀ p : ℝ, 1 ≤ k → 0 < p → p < 1 → ∃ t, (studentLaw k).real (Iic t) = p := by
    intro k p hk h0 h1
    have hc : Continuous (cdf (studentLaw k)) := by
      rw [continuous_iff_continuousAt]
      intro t
      have hm := monotone_cdf (studentLaw k)
      refine hm.continuousAt_iff_leftLim_eq_rightLim.2 ?_
      have hs := (cdf (studentLaw k)).measure_singleton t
      rw [measure_cdf, student_atom hk, eq_comm, ENNReal.ofReal_eq_zero] at hs
      have h2 := hm.leftLim_le (le_refl t)
      rw [(cdf (studentLaw k)).rightLim_eq]
      linarith
    obtain ⟨t, ht⟩ := mem_range_of_exists_le_of_exists_ge hc
      ((tendsto_cdf_atBot (studentLaw k)).eventually (eventually_le_nhds h0)).exists
      ((tendsto_cdf_atTop (studentLaw k)).eventually (eventually_ge_nhds h1)).exists
    exact ⟨t, by rw [← ht, cdf_eq_real]⟩
  choose! q hq using h
  exact ⟨q, fun k hk p h0 h1 => hq k p hk h0 h1⟩

/-- Independent standard normal variables: the component along a direction and the norm of what two directions leave. -/
theorem two_dir_law {m : ℕ} (u0 u1 : Fin (m + 2) → ℝ) (n0 : ∑ i, u0 i * u0 i = 1) (n1 : ∑ i, u1 i * u1 i = 1) (n01 : ∑ i, u0 i * u1 i = 0) :
    (Measure.pi fun _ : Fin (m + 2) => gaussianReal 0 1).map
      (fun g => (∑ i, u0 i * g i, Real.sqrt (∑ i, g i ^ 2 - (∑ i, u0 i * g i) ^ 2 - (∑ i, u1 i * g i) ^ 2)))
      = (gaussianReal 0 1).prod (chiLaw m) := by
  let E := EuclideanSpace ℝ (Fin (m + 2))
  let v : Fin (m + 2) → E := fun k => if k = 0 then WithLp.toLp 2 u0 else WithLp.toLp 2 u1
  have hin : ∀ p q : Fin (m + 2) → ℝ, inner ℝ (WithLp.toLp 2 p : E) (WithLp.toLp 2 q) = ∑ i, p i * q i := by
    intro p q
    rw [PiLp.inner_apply]
    simp [mul_comm]
  have hne : (1 : Fin (m + 2)) ≠ 0 := by
    intro h; have := congrArg Fin.val h; simp at this
  have horth : Orthonormal ℝ (({0, 1} : Set (Fin (m + 2))).domRestrict v) := by
    rw [orthonormal_iff_ite]
    rintro ⟨i, hi⟩ ⟨j, hj⟩
    simp only [Set.mem_insert_iff, Set.mem_singleton_iff] at hi hj
    have n10 : ∑ i, u1 i * u0 i = 0 := by rw [← n01]; exact Finset.sum_congr rfl fun i _ => mul_comm _ _
    change inner ℝ (v i) (v j) = _
    have v0 : v 0 = WithLp.toLp 2 u0 := by simp [v]
    have v1 : v 1 = WithLp.toLp 2 u1 := by simp [v, hne]
    rcases hi with rfl | rfl <;> rcases hj with rfl | rfl
    · rw [v0, hin, n0]; simp
    · rw [v0, v1, hin, n01]; simp [hne.symm]
    · rw [v0, v1, hin, n10]; simp [hne]
    · rw [v1, hin, n1]; simp
  obtain ⟨b, hb⟩ := horth.exists_orthonormalBasis_extension_of_card_eq (by simp [E])
  have b0 : b 0 = WithLp.toLp 2 u0 := by rw [hb 0 (by simp)]; simp [v]
  have b1 : b 1 = WithLp.toLp 2 u1 := by rw [hb 1 (by simp)]; simp [v, hne]
  -- the coordinates of the error vector
  have c0 : ∀ g : Fin (m + 2) → ℝ, b.repr (WithLp.toLp 2 g) 0 = ∑ i, u0 i * g i := fun g => by
    rw [b.repr_apply_apply, b0, hin]
  have c1 : ∀ g : Fin (m + 2) → ℝ, b.repr (WithLp.toLp 2 g) 1 = ∑ i, u1 i * g i := fun g => by
    rw [b.repr_apply_apply, b1, hin]
  have hnorm : ∀ g : Fin (m + 2) → ℝ, ∑ k, b.repr (WithLp.toLp 2 g) k ^ 2 = ∑ i, g i ^ 2 := by
    intro g
    have h1 := EuclideanSpace.real_norm_sq_eq (b.repr (WithLp.toLp 2 g))
    have h2 := EuclideanSpace.real_norm_sq_eq (WithLp.toLp 2 g : E)
    rw [LinearIsometryEquiv.norm_map] at h1
    rw [← h1, h2]
  have hrest : ∀ g : Fin (m + 2) → ℝ, ∑ i, g i ^ 2 - (∑ i, u0 i * g i) ^ 2 - (∑ i, u1 i * g i) ^ 2 = ∑ i : Fin m, b.repr (WithLp.toLp 2 g) i.succ.succ ^ 2 := by
    intro g
    have h := hnorm g
    rw [Fin.sum_univ_succ, Fin.sum_univ_succ, c0] at h
    rw [show (Fin.succ (0 : Fin (m + 1))) = 1 from rfl, c1] at h
    rw [← h]
    ring
  -- their law
  have hlaw : (Measure.pi fun _ : Fin (m + 2) => gaussianReal 0 1).map (fun g => WithLp.ofLp (b.repr (WithLp.toLp 2 g)))
      = Measure.pi fun _ : Fin (m + 2) => gaussianReal 0 1 := by
    have h1 := map_pi_eq_stdGaussian (ι := Fin (m + 2))
    have h2 : (stdGaussian E).map b.repr = stdGaussian E := stdGaussian_map b.repr
    have h3 : (stdGaussian E).map WithLp.ofLp = Measure.pi fun _ : Fin (m + 2) => gaussianReal 0 1 := by
      rw [← h1, Measure.map_map (by fun_prop) (by fun_prop)]
      have : (WithLp.ofLp ∘ WithLp.toLp 2 : (Fin (m + 2) → ℝ) → _) = id := by ext; simp
      rw [this, Measure.map_id]
    have hmr : Measurable (b.repr : E → E) := b.repr.continuous.measurable
    have h4 := h3
    rw [← h2, ← h1, Measure.map_map hmr (by fun_prop), Measure.map_map (by fun_prop) (hmr.comp (by fun_prop))] at h4
    exact h4
  have hms : Measurable fun g : Fin (m + 2) → ℝ => WithLp.ofLp (b.repr (WithLp.toLp 2 g)) := by
    have hmr : Measurable (b.repr : E → E) := b.repr.continuous.measurable
    exact (by fun_prop : Measurable (WithLp.ofLp : E → _)).comp (hmr.comp (by fun_prop))
  have hmt : Measurable fun g : Fin (m + 2) → ℝ => (g 0, Real.sqrt (∑ i : Fin m, g i.succ.succ ^ 2)) :=
    (measurable_pi_apply 0).prodMk (Real.continuous_sqrt.measurable.comp
      (Finset.measurable_sum _ fun i _ => (measurable_pi_apply _).pow_const 2))
  rw [← split_law m]
  conv_rhs => rw [← hlaw]
  rw [Measure.map_map hmt hms]
  congr 1
  funext g
  simp only [Function.comp, c0, hrest]

/-- Membership of the centre in an interval around an estimate. -/
theorem mem_interval (c a l z r : ℝ) (hl : 0 < l) : (c + l * z - a * (r * l) ≤ c ∧ c ≤ c + l * z + a * (r * l)) ↔ |z| ≤ a * r := by
  rw [abs_le]
  constructor
  · rintro ⟨h1, h2⟩
    constructor
    · by_contra h; push Not at h; nlinarith
    · by_contra h; push Not at h; nlinarith
  · rintro ⟨h1, h2⟩
    constructor <;> nlinarith

/-- Two orthonormal vectors adapted to the slope. -/
theorem slope_directions {n : ℕ} (x : Fin n → ℝ) (hn : 0 < n) (hS : 0 < ∑ i, (x i - smean x) ^ 2) :
    ∃ u0 u1 : Fin n → ℝ, ∑ i, u0 i * u0 i = 1 ∧ ∑ i, u1 i * u1 i = 1 ∧ ∑ i, u0 i * u1 i = 0 ∧
      ∀ g : Fin n → ℝ, olsSlope x g = Real.sqrt (1 / ∑ i, (x i - smean x) ^ 2) * ∑ i, u0 i * g i ∧
        ∑ i, olsResiduals x g i ^ 2 = ∑ i, g i ^ 2 - (∑ i, u0 i * g i) ^ 2 - (∑ i, u1 i * g i) ^ 2 := by
  have hN : (0 : ℝ) < n := by exact_mod_cast hn
  set S := ∑ i, (x i - smean x) ^ 2 with hSd
  have hsS : 0 < Real.sqrt S := Real.sqrt_pos.2 hS
  have hsn : 0 < Real.sqrt (n : ℝ) := Real.sqrt_pos.2 hN
  have hs2 : Real.sqrt S * Real.sqrt S = S := Real.mul_self_sqrt hS.le
  have hn2 : Real.sqrt (n : ℝ) * Real.sqrt (n : ℝ) = (n : ℝ) := Real.mul_self_sqrt hN.le
  have hc0 := sum_centred x hn
  refine ⟨fun i => (x i - smean x) / Real.sqrt S, fun _ => 1 / Real.sqrt (n : ℝ), ?_, ?_, ?_, fun g => ?_⟩
  · have : ∀ i, (x i - smean x) / Real.sqrt S * ((x i - smean x) / Real.sqrt S) = (x i - smean x) ^ 2 / S := fun i => by
      rw [div_mul_div_comm, hs2, sq]
    simp only [this, ← Finset.sum_div]
    rw [← hSd, div_self hS.ne']
  · simp only
    rw [div_mul_div_comm, hn2, Finset.sum_const, Finset.card_univ, Fintype.card_fin, nsmul_eq_mul]
    field_simp
  · rw [← Finset.sum_mul, ← Finset.sum_div, hc0, zero_div, zero_mul]
  · have hz : ∑ i, (x i - smean x) / Real.sqrt S * g i = (∑ i, (x i - smean x) * g i) / Real.sqrt S := by
      rw [Finset.sum_div]
      exact Finset.sum_congr rfl fun i _ => by ring
    have hcg : ∑ i, (x i - smean x) * (g i - smean g) = ∑ i, (x i - smean x) * g i := by
      simp only [mul_sub, Finset.sum_sub_distrib, ← Finset.sum_mul, hc0, zero_mul, sub_zero]
    have hsum : ∑ i, g i = n * smean g := by rw [smean]; field_simp
    have hone : ∑ i, 1 / Real.sqrt (n : ℝ) * g i = Real.sqrt (n : ℝ) * smean g := by
      rw [← Finset.mul_sum, hsum, ← mul_assoc, one_div]
      congr 1
      rw [inv_mul_eq_iff_eq_mul₀ hsn.ne', hn2]
    set X := ∑ i, (x i - smean x) * g i with hX
    have hsl : olsSlope x g = X / S := by rw [olsSlope, hcg]
    refine ⟨?_, ?_⟩
    · rw [hsl, hz, Real.sqrt_div zero_le_one, Real.sqrt_one, one_div_mul_eq_div, div_div, hs2]
    · have hr : ∀ i, olsResiduals x g i ^ 2 = (g i - smean g) ^ 2 - 2 * (X / S) * ((x i - smean x) * (g i - smean g))
          + (X / S) ^ 2 * (x i - smean x) ^ 2 := by
        intro i
        rw [olsResiduals, olsIntercept, hsl]
        ring
      have hg2 : ∑ i, (g i - smean g) ^ 2 = ∑ i, g i ^ 2 - n * smean g ^ 2 := by
        have : ∀ i, (g i - smean g) ^ 2 = g i ^ 2 - 2 * smean g * g i + smean g ^ 2 := fun i => by ring
        simp only [this, Finset.sum_add_distrib, Finset.sum_sub_distrib, ← Finset.mul_sum, hsum, Finset.sum_const, Finset.card_univ,
          Fintype.card_fin, nsmul_eq_mul]
        ring
      simp only [hr, Finset.sum_add_distrib, Finset.sum_sub_distrib, ← Finset.mul_sum]
      rw [← Finset.mul_sum] at hone
      rw [hg2, hcg, ← hSd, hz, hone, div_pow X (Real.sqrt S), mul_pow, sq (Real.sqrt S), hs2, sq (Real.sqrt (n : ℝ)), hn2]
      field_simp
      ring

section
variable {Ω : Type} [MeasurableSpace Ω] {Q : Measure Ω} [IsProbabilityMeasure Q]

/-- Independent normal errors: the component along a direction is within `q` estimated standard deviations of zero with the probability of the Student
law. -/
theorem pivot_cover {m : ℕ} (hm : 1 ≤ m) (u0 u1 : Fin (m + 2) → ℝ) (n0 : ∑ i, u0 i * u0 i = 1) (n1 : ∑ i, u1 i * u1 i = 1)
    (n01 : ∑ i, u0 i * u1 i = 0) (e : Fin (m + 2) → Ω → ℝ) (he : ∀ i, Measurable (e i)) (s : ℝ) (hs : 0 < s)
    (hlaw : ∀ i, Q.map (e i) = gaussianReal 0 (sqv s)) (hind : iIndepFun e Q) {q p : ℝ} (hp : 1 / 2 < p) (hq : (studentLaw m).real (Iic q) = p) :
    Q.real {ω | |∑ i, u0 i * e i ω| ≤ q * Real.sqrt ((∑ i, e i ω ^ 2 - (∑ i, u0 i * e i ω) ^ 2 - (∑ i, u1 i * e i ω) ^ 2) / m)} = 2 * p - 1 := by
  have hm0 : (0 : ℝ) < m := by exact_mod_cast hm
  have hgl : ∀ i, Q.map (fun ω => e i ω / s) = gaussianReal 0 1 := by
    intro i
    have h1 : Q.map (fun ω => e i ω / s) = (Q.map (e i)).map fun t => t / s := by
      rw [Measure.map_map (by fun_prop) (he i)]; rfl
    rw [h1, hlaw i, gaussianReal_map_div_const, zero_div]
    congr 1
    apply NNReal.coe_injective
    push_cast
    rw [coe_sqv]
    field_simp
  have hgi : iIndepFun (fun i ω => e i ω / s) Q := hind.comp (fun _ t => t / s) fun _ => by fun_prop
  have hpi : Q.map (fun ω => fun i => e i ω / s) = Measure.pi fun _ : Fin (m + 2) => gaussianReal 0 1 := by
    rw [(iIndepFun_iff_map_fun_eq_pi_map (fun i => ((he i).div_const s).aemeasurable)).1 hgi]
    congr 1
    funext i
    exact hgl i
  set W : (Fin (m + 2) → ℝ) → ℝ × ℝ := fun g => (∑ i, u0 i * g i, Real.sqrt (∑ i, g i ^ 2 - (∑ i, u0 i * g i) ^ 2 - (∑ i, u1 i * g i) ^ 2)) with hW
  have hWm : Measurable W := by rw [hW]; fun_prop
  have hWl := two_dir_law u0 u1 n0 n1 n01
  set D : Set (ℝ × ℝ) := {w | |w.1| ≤ q * (w.2 / Real.sqrt m)} with hD
  have hDm : MeasurableSet D := measurableSet_le (by fun_prop) (by fun_prop)
  have hev : {ω | |∑ i, u0 i * e i ω| ≤ q * Real.sqrt ((∑ i, e i ω ^ 2 - (∑ i, u0 i * e i ω) ^ 2 - (∑ i, u1 i * e i ω) ^ 2) / m)}
      = (fun ω => fun i => e i ω / s) ⁻¹' (W ⁻¹' D) := by
    ext ω
    simp only [mem_ofPred_eq, mem_preimage, hW, hD]
    have a0 : ∀ u : Fin (m + 2) → ℝ, ∑ i, u i * e i ω = s * ∑ i, u i * (e i ω / s) := by
      intro u
      rw [Finset.mul_sum]
      exact Finset.sum_congr rfl fun i _ => by field_simp
    have a1 : ∑ i, e i ω ^ 2 = s ^ 2 * ∑ i, (e i ω / s) ^ 2 := by
      rw [Finset.mul_sum]
      exact Finset.sum_congr rfl fun i _ => by field_simp
    rw [a0 u0, a0 u1, a1, abs_mul, abs_of_pos hs]
    have a2 : ∀ A B C : ℝ, (s ^ 2 * A - (s * B) ^ 2 - (s * C) ^ 2) / m = s ^ 2 * ((A - B ^ 2 - C ^ 2) / m) := fun A B C => by ring
    rw [a2, Real.sqrt_mul (sq_nonneg _), Real.sqrt_sq hs.le, Real.sqrt_div' _ hm0.le]
    constructor
    · intro h
      have : s * |∑ i, u0 i * (e i ω / s)| ≤ s * (q * (Real.sqrt (∑ i, (e i ω / s) ^ 2 - (∑ i, u0 i * (e i ω / s)) ^ 2
          - (∑ i, u1 i * (e i ω / s)) ^ 2) / Real.sqrt m)) := by rw [mul_left_comm]; exact h
      exact le_of_mul_le_mul_left this hs
    · intro h
      rw [mul_left_comm]
      exact mul_le_mul_of_nonneg_left h hs.le
  have hme : Measurable fun ω => fun i => e i ω / s := measurable_pi_iff.2 fun i => (he i).div_const s
  rw [hev, ← map_measureReal_apply hme (hDm.preimage hWm), hpi, ← map_measureReal_apply hWm hDm, hWl]
  rw [← student_Icc hm hp hq, student_chi, map_measureReal_apply (by fun_prop) measurableSet_Icc]
  refine measureReal_congr ?_
  have hpos : ∀ᵐ w ∂((gaussianReal 0 1).prod (chiLaw m)), 0 < w.2 := Measure.quasiMeasurePreserving_snd.ae (chiLaw_pos hm)
  filter_upwards [hpos] with w hw
  refine propext ?_
  change |w.1| ≤ q * (w.2 / Real.sqrt m) ↔ w.1 / Real.sqrt (w.2 ^ 2 / m) ∈ Icc (-q) q
  have hd : Real.sqrt (w.2 ^ 2 / m) = w.2 / Real.sqrt m := by rw [Real.sqrt_div' _ hm0.le, Real.sqrt_sq hw.le]
  have hd0 : 0 < w.2 / Real.sqrt m := div_pos hw (Real.sqrt_pos.2 hm0)
  rw [hd, mem_Icc, ← abs_le, abs_div, abs_of_pos hd0, div_le_iff₀ hd0]

/-- **C184.**  The signals are a line plus independent centred normal errors with one variance, at least three observations, sizes not all equal.  Then
the interval displayed for the intercept contains the true intercept with probability exactly 0.95, and the same for the slope. -/
theorem C184_coverage {m : ℕ} (hm : 1 ≤ m) (x : Fin (m + 2) → ℝ) (hx : ∃ i j, x i ≠ x j) (e : Fin (m + 2) → Ω → ℝ) (he : ∀ i, Measurable (e i))
    (s : ℝ) (hs : 0 < s) (hlaw : ∀ i, Q.map (e i) = gaussianReal 0 (sqv s)) (hind : iIndepFun e Q) (b0 b1 : ℝ) (q : ℕ → ℝ → ℝ)
    (hq : StudentQuantile q) :
    Q.real {ω | b0 ∈ Icc (analysisConfInt q x fun i => b0 + b1 * x i + e i ω).1.1 (analysisConfInt q x fun i => b0 + b1 * x i + e i ω).1.2}
      = 95 / 100 ∧
    Q.real {ω | b1 ∈ Icc (analysisConfInt q x fun i => b0 + b1 * x i + e i ω).2.1 (analysisConfInt q x fun i => b0 + b1 * x i + e i ω).2.2}
      = 95 / 100 := by
  have hS : 0 < ∑ i, (x i - smean x) ^ 2 := by
    have h := svar_eq_zero_iff (n := m + 2) (by omega) x
    refine lt_of_le_of_ne (Finset.sum_nonneg fun i _ => sq_nonneg _) fun h0 => ?_
    obtain ⟨i, j, hij⟩ := hx
    exact hij (h.1 (by rw [svar, ← h0, zero_div]) i j)
  have hm0 : (0 : ℝ) < m := by exact_mod_cast hm
  have hqm := hq m hm (1 - 5 / 100 / 2) (by norm_num) (by norm_num)
  have hdeg : m + 2 - 2 = m := by omega
  have hsc : ∀ ω, linearStderr x (fun i => b0 + b1 * x i + e i ω) = Real.sqrt ((∑ i, olsResiduals x (fun i => e i ω) i ^ 2) / m) := by
    intro ω
    have := (fit_scaled x (fun i => e i ω) b0 b1 1 0 (by omega) hS.ne').2
    simp only [one_mul] at this
    rw [linearStderr, linearScale]
    simp only [this]
    push_cast
    ring_nf
  constructor
  · obtain ⟨u0, u1, n0, n1, n01, hu⟩ := fit_directions x 0 (by omega) hS
    rw [show (95 : ℝ) / 100 = 2 * (1 - 5 / 100 / 2) - 1 by norm_num, ← pivot_cover hm u0 u1 n0 n1 n01 e he s hs hlaw hind (by norm_num) hqm]
    congr 1
    ext ω
    have h0 := (fit_scaled x (fun i => e i ω) b0 b1 1 0 (by omega) hS.ne').1
    simp only [one_mul, mul_zero, add_zero] at h0
    have hlev : lev x 0 = 1 / ((m + 2 : ℕ) : ℝ) + smean x ^ 2 / ∑ i, (x i - smean x) ^ 2 := by rw [lev]; ring_nf
    have hlp : 0 < Real.sqrt (lev x 0) := Real.sqrt_pos.2 (by rw [hlev]; positivity)
    have hu' := hu fun i => e i ω
    rw [mul_zero, add_zero] at hu'
    simp only [mem_ofPred_eq, analysisConfInt, confIntIntercept, h0, hu'.1, hsc ω, hu'.2, hdeg, ← hlev, mem_Icc]
    exact mem_interval _ _ _ _ _ hlp
  · obtain ⟨u0, u1, n0, n1, n01, hu⟩ := slope_directions x (by omega) hS
    rw [show (95 : ℝ) / 100 = 2 * (1 - 5 / 100 / 2) - 1 by norm_num, ← pivot_cover hm u0 u1 n0 n1 n01 e he s hs hlaw hind (by norm_num) hqm]
    congr 1
    ext ω
    have h0 : olsSlope x (fun i => b0 + b1 * x i + e i ω) = b1 + olsSlope x (fun i => e i ω) := by
      rw [slope_error x (fun i => e i ω) b0 b1 (by omega) hS.ne']; rfl
    have hlp : 0 < Real.sqrt (1 / ∑ i, (x i - smean x) ^ 2) := Real.sqrt_pos.2 (by positivity)
    have hu' := hu fun i => e i ω
    simp only [mem_ofPred_eq, analysisConfInt, confIntSlope, h0, hu'.1, hsc ω, hu'.2, hdeg, mem_Icc]
    exact mem_interval _ _ _ _ _ hlp

end

/-- Instance: sizes 0, 1, 2, errors of standard deviation 1/2, the exact quantiles. -/
example : ∃ q, StudentQuantile q ∧ (Measure.pi fun _ : Fin 3 => gaussianReal 0 (sqv (1 / 2))).real
    {ω | 2 ∈ Icc (analysisConfInt q ![0, 1, 2] fun i => 1 + 2 * ![0, 1, 2] i + ω i).2.1
      (analysisConfInt q ![0, 1, 2] fun i => 1 + 2 * ![0, 1, 2] i + ω i).2.2} = 95 / 100 := by
  obtain ⟨q, hq⟩ := studentQuantile_exists
  exact ⟨q, hq, (C184_coverage (Q := Measure.pi fun _ : Fin 3 => gaussianReal 0 (sqv (1 / 2))) (m := 1) le_rfl ![0, 1, 2] ⟨0, 1, by simp⟩ (fun i ω => ω i) (fun i => measurable_pi_apply i) (1 / 2) (by norm_num)
    (fun i => (measurePreserving_eval (fun _ : Fin 3 => gaussianReal 0 (sqv (1 / 2))) i).map_eq)
    (iIndepFun_pi (μ := fun _ : Fin 3 => gaussianReal 0 (sqv (1 / 2))) (X := fun _ t => t) fun _ => aemeasurable_id) 1 2 q hq).2⟩

end Verif.Props
