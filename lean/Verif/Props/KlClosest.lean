import Verif.Props.PliDensity
import Mathlib.InformationTheory.KullbackLeibler.Basic
import Mathlib.Probability.Distributions.Gaussian.Real

/-!
# The perturbed densities are the closest ones in the sense of Kullback-Leibler (C135)
-/

namespace Verif.Props
open Verif.Py Verif.Model MeasureTheory ProbabilityTheory Set InformationTheory

/-- Among the laws that give the same mean to `f`, the exponential tilting by `f` is the closest one, and the only one. -/
theorem tilt_closest {P R Q : Measure ℝ} [IsProbabilityMeasure P] [IsProbabilityMeasure Q] {f : ℝ → ℝ} (hfm : Measurable f)
    (hf : Integrable (fun x => Real.exp (f x)) P) (hR : R = P.tilted f) (hfR : Integrable f R) (hfQ : Integrable f Q)
    (hmom : ∫ x, f x ∂Q = ∫ x, f x ∂R) :
    klDiv R P ≠ ⊤ ∧ klDiv R P ≤ klDiv Q P ∧ (klDiv Q P = klDiv R P → Q = R) := by
  haveI hRp : IsProbabilityMeasure R := hR ▸ isProbabilityMeasure_tilted hf
  have hac : R ≪ P := hR ▸ tilted_absolutelyContinuous P f
  have hca : P ≪ R := hR ▸ absolutelyContinuous_tilted hf
  set Z := Real.log (∫ x, Real.exp (f x) ∂P) with hZ
  have hll : llr R P =ᵐ[R] fun x => f x - Z := by
    refine hac.ae_le ?_
    have h1 := llr_tilted_left (μ := P) (ν := P) (f := f) Measure.AbsolutelyContinuous.rfl hf hfm.aemeasurable
    rw [← hR] at h1
    filter_upwards [h1, llr_self P] with x hx h0
    rw [hx, h0]
    simp [hZ]
  have hint : Integrable (llr R P) R := (integrable_congr hll).2 (hfR.sub (integrable_const _))
  have hRP : klDiv R P ≠ ⊤ := klDiv_ne_top hac hint
  have hRPr : (klDiv R P).toReal = ∫ x, f x ∂R - Z := by
    rw [toReal_klDiv_of_measure_eq hac (by rw [measure_univ, measure_univ]), integral_congr_ae hll, integral_sub hfR (integrable_const _)]
    simp
  refine ⟨hRP, ?_⟩
  by_cases htop : klDiv Q P = ⊤
  · refine ⟨htop ▸ le_top, fun h => absurd (h.symm.trans htop) hRP⟩
  obtain ⟨hQP, hQi⟩ := klDiv_ne_top_iff.1 htop
  have hQR : Q ≪ R := hQP.trans hca
  have hpyth : (klDiv Q P).toReal = (klDiv Q R).toReal + (klDiv R P).toReal := by
    rw [hRPr, toReal_klDiv_of_measure_eq hQR (by rw [measure_univ, measure_univ]),
      toReal_klDiv_of_measure_eq hQP (by rw [measure_univ, measure_univ])]
    have h1 := integral_llr_tilted_right hQP hfQ hf hQi
    rw [← hR] at h1
    rw [h1, hmom, ← hZ]
    ring
  constructor
  · rw [← ENNReal.toReal_le_toReal hRP htop, hpyth]
    exact le_add_of_nonneg_left ENNReal.toReal_nonneg
  · intro h
    have h0 : (klDiv Q R).toReal = 0 := by rw [h] at hpyth; linarith
    have hQRi : Integrable (llr Q R) Q := by
      rw [hR]; exact integrable_llr_tilted_right hQP hfQ hQi hf
    rw [ENNReal.toReal_eq_zero_iff] at h0
    rcases h0 with h0 | h0
    · exact klDiv_eq_zero_iff.1 h0
    · exact absurd h0 (klDiv_ne_top hQR hQRi)

/-- The law with a density. -/
noncomputable def densLaw (p : ℝ → ℝ) : Measure ℝ := volume.withDensity fun x => ENNReal.ofReal (p x)

theorem densLaw_prob {p : ℝ → ℝ} (hp : ∀ x, 0 ≤ p x) (h1 : ∫ x, p x = 1) : IsProbabilityMeasure (densLaw p) := by
  have hi : Integrable p := by
    by_contra h
    rw [integral_undef h] at h1
    exact zero_ne_one h1
  constructor
  rw [densLaw, withDensity_apply _ MeasurableSet.univ, Measure.restrict_univ, ← ofReal_integral_eq_lintegral_ofReal hi
    (Filter.Eventually.of_forall hp), h1, ENNReal.ofReal_one]

theorem densLaw_integral {p : ℝ → ℝ} (hm : Measurable p) (hp : ∀ x, 0 ≤ p x) (g : ℝ → ℝ) : ∫ x, g x ∂densLaw p = ∫ x, g x * p x := by
  rw [densLaw, integral_withDensity_eq_integral_toReal_smul (by fun_prop) (Filter.Eventually.of_forall fun x => ENNReal.ofReal_lt_top)]
  refine integral_congr_ae (Filter.Eventually.of_forall fun x => ?_)
  simp only [smul_eq_mul]
  rw [ENNReal.toReal_ofReal (hp x), mul_comm]

/-- A density that is the original one times `exp (f - c)` is the tilting by `f`. -/
theorem densLaw_tilted {q p f : ℝ → ℝ} {c : ℝ} (hqm : Measurable q) (hq : ∀ x, 0 ≤ q x) (hfm : Measurable f)
    (hp : ∀ x, p x = q x * Real.exp (f x - c)) [IsProbabilityMeasure (densLaw q)] [IsProbabilityMeasure (densLaw p)] :
    Integrable (fun x => Real.exp (f x)) (densLaw q) ∧ densLaw p = (densLaw q).tilted f := by
  have hmul : densLaw p = (densLaw q).withDensity fun x => ENNReal.ofReal (Real.exp (f x - c)) := by
    unfold densLaw
    rw [← withDensity_mul _ (by fun_prop) (by fun_prop)]
    congr 1
    funext x
    rw [Pi.mul_apply, ← ENNReal.ofReal_mul (hq x), hp]
  have hone : ∫⁻ x, ENNReal.ofReal (Real.exp (f x - c)) ∂densLaw q = 1 := by
    have := measure_univ (μ := densLaw p)
    rwa [hmul, withDensity_apply _ MeasurableSet.univ, Measure.restrict_univ] at this
  have hi0 : Integrable (fun x => Real.exp (f x - c)) (densLaw q) := by
    refine ⟨(by fun_prop : Measurable fun x => Real.exp (f x - c)).aestronglyMeasurable, ?_⟩
    rw [hasFiniteIntegral_iff_ofReal (Filter.Eventually.of_forall fun x => (Real.exp_pos _).le), hone]
    exact ENNReal.one_lt_top
  have hi1 : ∫ x, Real.exp (f x - c) ∂densLaw q = 1 := by
    rw [integral_eq_lintegral_of_nonneg_ae (Filter.Eventually.of_forall fun x => (Real.exp_pos _).le) hi0.aestronglyMeasurable, hone]
    simp
  have hsplit : ∀ x, Real.exp (f x) = Real.exp c * Real.exp (f x - c) := fun x => by rw [← Real.exp_add]; congr 1; ring
  have hi : Integrable (fun x => Real.exp (f x)) (densLaw q) := by
    simp only [hsplit]; exact hi0.const_mul _
  refine ⟨hi, ?_⟩
  have hZ : ∫ x, Real.exp (f x) ∂densLaw q = Real.exp c := by
    simp only [hsplit]
    rw [integral_const_mul, hi1, mul_one]
  rw [hmul, Measure.tilted, hZ]
  simp only [Real.exp_sub]

theorem integrable_support {R : Measure ℝ} [IsFiniteMeasure R] {a b : ℝ} (h : R (Icc a b)ᶜ = 0) {g : ℝ → ℝ} (hg : Continuous g) :
    Integrable g R := by
  obtain ⟨C, hC⟩ := isCompact_Icc.exists_bound_of_continuousOn (s := Icc a b) hg.continuousOn
  refine Integrable.of_bound hg.aestronglyMeasurable C ?_
  have : ∀ᵐ x ∂R, x ∈ Icc a b := by rw [ae_iff]; exact h
  filter_upwards [this] with x hx using hC x hx

theorem densLaw_support {p : ℝ → ℝ} {a b : ℝ} (h : ∀ x, x ∉ Icc a b → p x = 0) : densLaw p (Icc a b)ᶜ = 0 := by
  rw [densLaw, withDensity_apply _ measurableSet_Icc.compl, setLIntegral_congr_fun (g := fun _ => 0) measurableSet_Icc.compl
    (fun x hx => by simp [h x hx])]
  simp

theorem gaussLaw_eq (μ : ℝ) {v : NNReal} (hv : v ≠ 0) : densLaw (gaussianPDFReal μ v) = gaussianReal μ v := by
  rw [gaussianReal_of_var_ne_zero _ hv]; rfl

/-- The laws that can be perturbed. -/
def Perturbable : Marg → Prop
  | .normal _ σ => 0 < σ
  | .uniform a b => a < b
  | .other _ _ _ => False

theorem normal_pdf {μ σ : ℝ} (hσ : 0 < σ) : (Marg.normal μ σ).pdf = gaussianPDFReal μ (sqv σ) := by
  have h := (C61_normal μ σ μ hσ (fun _ _ _ => 0)).1
  have hm : μ = (Marg.normal μ σ).mean := rfl
  rw [meanPert, if_pos hm, Except.ok.injEq] at h
  exact h

theorem sqv_ne {σ : ℝ} (hσ : 0 < σ) : sqv σ ≠ 0 := by
  rw [← NNReal.coe_ne_zero, coe_sqv]; positivity

/-- The law of a perturbable marginal: a probability, with the mean and variance of the marginal. -/
theorem marg_law {m : Marg} (hm : Perturbable m) :
    Measurable m.pdf ∧ (∀ x, 0 ≤ m.pdf x) ∧ IsProbabilityMeasure (densLaw m.pdf) ∧ MemLp id 2 (densLaw m.pdf) ∧
      ∫ x, x ∂densLaw m.pdf = m.mean ∧ ∫ x, (x - m.mean) ^ 2 ∂densLaw m.pdf = m.var := by
  cases m with
  | other p a b => exact hm.elim
  | normal μ σ =>
    have hσ : 0 < σ := hm
    rw [normal_pdf hσ]
    refine ⟨measurable_gaussianPDFReal _ _, fun x => gaussianPDFReal_nonneg _ _ _, ?_⟩
    rw [gaussLaw_eq _ (sqv_ne hσ)]
    refine ⟨inferInstance, memLp_id_gaussianReal 2, integral_id_gaussianReal, ?_⟩
    have h := variance_id_gaussianReal (μ := μ) (v := sqv σ)
    rw [variance_eq_integral measurable_id.aemeasurable] at h
    simp only [id, integral_id_gaussianReal] at h
    exact h.trans (coe_sqv σ)
  | uniform a b =>
    have hab : a < b := hm
    have hba : 0 < b - a := sub_pos.2 hab
    have hmeas : Measurable (Marg.uniform a b).pdf := by
      unfold Marg.pdf
      exact Measurable.ite measurableSet_Icc measurable_const measurable_const
    have hin : ∀ x ∈ Icc a b, (Marg.uniform a b).pdf x = 1 / (b - a) := by
      intro x hx
      simp only [Marg.pdf]
      exact if_pos hx
    have hout : ∀ x, x ∉ Icc a b → (Marg.uniform a b).pdf x = 0 := by
      intro x hx
      simp only [Marg.pdf]
      exact if_neg hx
    have hpos : ∀ x, 0 ≤ (Marg.uniform a b).pdf x := by
      intro x
      by_cases hx : x ∈ Icc a b
      · rw [hin x hx]; positivity
      · rw [hout x hx]
    have hprob : IsProbabilityMeasure (densLaw (Marg.uniform a b).pdf) := by
      refine densLaw_prob hpos ?_
      rw [integral_indicator_Icc hab.le (fun _ => 1 / (b - a)) _ hin hout, intervalIntegral.integral_const, smul_eq_mul]
      field_simp
    refine ⟨hmeas, hpos, hprob, ?_, ?_, ?_⟩
    · rw [memLp_two_iff_integrable_sq measurable_id.aestronglyMeasurable]
      exact integrable_support (densLaw_support hout) (by fun_prop)
    · rw [densLaw_integral hmeas hpos, integral_indicator_Icc hab.le (fun x => 1 / (b - a) * x) (fun x => x * (Marg.uniform a b).pdf x)
        (fun x hx => by rw [hin x hx]; ring) (fun x hx => by rw [hout x hx, mul_zero]), intervalIntegral.integral_const_mul, integral_id]
      simp only [Marg.mean]
      field_simp
      ring
    · rw [densLaw_integral hmeas hpos, integral_indicator_Icc hab.le (fun x => 1 / (b - a) * (x - (Marg.uniform a b).mean) ^ 2)
        (fun x => (x - (Marg.uniform a b).mean) ^ 2 * (Marg.uniform a b).pdf x)
        (fun x hx => by rw [hin x hx]; ring) (fun x hx => by rw [hout x hx, mul_zero]), intervalIntegral.integral_const_mul,
        intervalIntegral.integral_comp_sub_right (fun x => x ^ 2), integral_pow]
      simp only [Marg.mean, Marg.var]
      field_simp
      ring

/-- **C135, mean perturbation.**  For a Normal or Uniform marginal and every admissible new mean `δ`, the perturbed law is a probability with mean `δ`,
at finite divergence from the original law, and every other probability with mean `δ` has a larger divergence. -/
theorem C135_mean_closest (solve : ℝ → ℝ → ℝ → ℝ) (m : Marg) (hm : Perturbable m) (δ : ℝ)
    (hroot : ∀ a b, m = .uniform a b → δ ≠ m.mean → mPrimeOverM (solve a b δ) a b δ = 0) (p : ℝ → ℝ) (hp : meanPert solve m δ = .ok p) :
    IsProbabilityMeasure (densLaw p) ∧ Integrable (fun x => x) (densLaw p) ∧ ∫ x, x ∂densLaw p = δ ∧ klDiv (densLaw p) (densLaw m.pdf) ≠ ⊤ ∧
      ∀ Q : Measure ℝ, IsProbabilityMeasure Q → Integrable (fun x => x) Q → ∫ x, x ∂Q = δ →
        klDiv (densLaw p) (densLaw m.pdf) ≤ klDiv Q (densLaw m.pdf) ∧
        (klDiv Q (densLaw m.pdf) = klDiv (densLaw p) (densLaw m.pdf) → Q = densLaw p) := by
  obtain ⟨hqm, hq, hP, hP2, hPm, -⟩ := marg_law hm
  have key : ∀ lam c : ℝ, (∀ x, p x = m.pdf x * Real.exp (lam * x - c)) → IsProbabilityMeasure (densLaw p) →
      Integrable (fun x => x) (densLaw p) → ∫ x, x ∂densLaw p = δ → _ := fun lam c hpx hR hi hmean => by
    have hti := densLaw_tilted (f := fun x => lam * x) hqm hq (by fun_prop) hpx
    have hcl : ∀ Q : Measure ℝ, IsProbabilityMeasure Q → Integrable (fun x => x) Q → ∫ x, x ∂Q = δ → _ := fun Q hQ hQi hQm =>
      tilt_closest (P := densLaw m.pdf) (R := densLaw p) (Q := Q) (f := fun x => lam * x) (by fun_prop) hti.1 hti.2
        (hi.const_mul lam) (hQi.const_mul lam) (by rw [integral_const_mul, integral_const_mul, hQm, hmean])
    exact (⟨hR, hi, hmean, (hcl _ hR hi hmean).1, fun Q hQ hQi hQm => (hcl Q hQ hQi hQm).2⟩ :
      IsProbabilityMeasure (densLaw p) ∧ Integrable (fun x => x) (densLaw p) ∧ ∫ x, x ∂densLaw p = δ ∧
      klDiv (densLaw p) (densLaw m.pdf) ≠ ⊤ ∧
      ∀ Q : Measure ℝ, IsProbabilityMeasure Q → Integrable (fun x => x) Q → ∫ x, x ∂Q = δ →
        klDiv (densLaw p) (densLaw m.pdf) ≤ klDiv Q (densLaw m.pdf) ∧
        (klDiv Q (densLaw m.pdf) = klDiv (densLaw p) (densLaw m.pdf) → Q = densLaw p))
  by_cases hδ : δ = m.mean
  · have hpm : p = m.pdf := by
      rw [meanPert.eq_def, if_pos hδ, Except.ok.injEq] at hp
      exact hp.symm
    refine key 0 0 (fun x => by simp [hpm]) (hpm ▸ hP) ?_ ?_
    · rw [hpm]; exact hP2.integrable (by norm_num)
    · rw [hpm, hPm, hδ]
  · cases m with
    | other p a b => exact hm.elim
    | normal μ σ =>
      have hσ : 0 < σ := hm
      have hpe : p = gaussianPDFReal δ (sqv σ) := by
        have := (C61_normal μ σ δ hσ solve).1
        rw [hp, Except.ok.injEq] at this
        exact this
      have hl : densLaw p = gaussianReal δ (sqv σ) := by rw [hpe, gaussLaw_eq _ (sqv_ne hσ)]
      refine key ((δ - μ) / σ ^ 2) ((δ ^ 2 - μ ^ 2) / (2 * σ ^ 2)) (fun x => ?_) (hl ▸ inferInstance) ?_ ?_
      · rw [hpe, normal_pdf hσ, gaussianPDFReal, gaussianPDFReal, mul_assoc (Real.sqrt _)⁻¹, ← Real.exp_add, coe_sqv]
        congr 2
        field_simp
        ring
      · rw [hl]; exact (memLp_id_gaussianReal 1).integrable le_rfl
      · rw [hl]; exact integral_id_gaussianReal
    | uniform a b =>
      have hab : a < b := hm
      obtain ⟨h0, hout, h1, h2⟩ := C61_uniform a b δ hab solve hδ (hroot a b rfl hδ) p hp
      have hR := densLaw_prob h0 h1
      have hl : solve a b δ ≠ 0 := by
        intro h
        have := hroot a b rfl hδ
        rw [mPrimeOverM, if_pos h] at this
        exact hδ (by simp only [Marg.mean]; linarith)
      have hpos := exp_diff_div_pos hab hl
      have hba : 0 < b - a := sub_pos.2 hab
      set lam := solve a b δ with hlam
      have hpx : ∀ x, p x = (Marg.uniform a b).pdf x * Real.exp (lam * x - Real.log ((Real.exp (lam * b) - Real.exp (lam * a)) / lam / (b - a))) := by
        intro x
        rw [meanPert, if_neg hδ] at hp
        simp only [Except.ok.injEq] at hp
        rw [← hp, Real.exp_sub, Real.exp_log (div_pos hpos hba)]
        simp only [Marg.pdf, ← hlam]
        have hne : Real.exp (lam * b) - Real.exp (lam * a) ≠ 0 := by
          intro h; rw [h, zero_div] at hpos; exact lt_irrefl _ hpos
        by_cases hx : a ≤ x ∧ x ≤ b
        · rw [if_pos hx, if_pos ⟨hx.2, hx.1⟩]
          field_simp
        · rw [if_neg hx, if_neg (fun h => hx ⟨h.2, h.1⟩)]
          simp
      have hpm : Measurable p := by
        have : p = fun x => (Marg.uniform a b).pdf x *
          Real.exp (lam * x - Real.log ((Real.exp (lam * b) - Real.exp (lam * a)) / lam / (b - a))) := funext hpx
        rw [this]; fun_prop
      exact key lam _ hpx hR (integrable_support (densLaw_support hout) continuous_id) ((densLaw_integral hpm h0 _).trans h2)

/-- **C135, variance perturbation.**  For a Normal or Uniform marginal and a new variance `δ > 0`, the perturbed law is a probability with the original
mean and variance `δ`, at finite divergence from the original law, and every other probability with this mean and variance has a larger divergence. -/
theorem C135_variance_closest (optimize : (ℝ → ℝ) → ℝ → ℝ → ℝ × ℝ → ℝ × ℝ) (m : Marg) (hm : Perturbable m) (δ : ℝ) (hδ0 : 0 < δ)
    (hmin : ∀ a b, m = .uniform a b → δ ≠ m.var → IsLocalMin (dualH m.pdf a b (m.mean, δ + m.mean ^ 2)) (optimize m.pdf a b (m.mean, δ + m.mean ^ 2)))
    (p : ℝ → ℝ) (hp : varPert optimize m δ = .ok p) :
    IsProbabilityMeasure (densLaw p) ∧ MemLp id 2 (densLaw p) ∧ ∫ x, x ∂densLaw p = m.mean ∧ ∫ x, (x - m.mean) ^ 2 ∂densLaw p = δ ∧
      klDiv (densLaw p) (densLaw m.pdf) ≠ ⊤ ∧
      ∀ Q : Measure ℝ, IsProbabilityMeasure Q → MemLp id 2 Q → ∫ x, x ∂Q = m.mean → ∫ x, (x - m.mean) ^ 2 ∂Q = δ →
        klDiv (densLaw p) (densLaw m.pdf) ≤ klDiv Q (densLaw m.pdf) ∧
        (klDiv Q (densLaw m.pdf) = klDiv (densLaw p) (densLaw m.pdf) → Q = densLaw p) := by
  obtain ⟨hqm, hq, hP, hP2, hPm, hPv⟩ := marg_law hm
  have hquad : ∀ (l1 l2 : ℝ) (Q : Measure ℝ), IsProbabilityMeasure Q → MemLp id 2 Q →
      Integrable (fun x => l1 * x + l2 * (x - m.mean) ^ 2) Q ∧
        ∫ x, (l1 * x + l2 * (x - m.mean) ^ 2) ∂Q = l1 * ∫ x, x ∂Q + l2 * ∫ x, (x - m.mean) ^ 2 ∂Q := by
    intro l1 l2 Q hQ hQ2
    have i1 : Integrable (fun x : ℝ => x) Q := hQ2.integrable (by norm_num)
    have i2 : Integrable (fun x : ℝ => (x - m.mean) ^ 2) Q := by
      have : MemLp (fun x : ℝ => x - m.mean) 2 Q := hQ2.sub (memLp_const _)
      exact this.integrable_sq
    exact ⟨(i1.const_mul l1).add (i2.const_mul l2), by
      rw [integral_add (i1.const_mul l1) (i2.const_mul l2), integral_const_mul, integral_const_mul]⟩
  have key : ∀ l1 l2 c : ℝ, (∀ x, p x = m.pdf x * Real.exp (l1 * x + l2 * (x - m.mean) ^ 2 - c)) → IsProbabilityMeasure (densLaw p) →
      MemLp id 2 (densLaw p) → ∫ x, x ∂densLaw p = m.mean → ∫ x, (x - m.mean) ^ 2 ∂densLaw p = δ → _ := fun l1 l2 c hpx hR hi hmean hvar => by
    have hti := densLaw_tilted (f := fun x => l1 * x + l2 * (x - m.mean) ^ 2) hqm hq (by fun_prop) hpx
    have hcl : ∀ Q : Measure ℝ, IsProbabilityMeasure Q → MemLp id 2 Q → ∫ x, x ∂Q = m.mean → ∫ x, (x - m.mean) ^ 2 ∂Q = δ → _ :=
      fun Q hQ hQi hQm hQv =>
      tilt_closest (P := densLaw m.pdf) (R := densLaw p) (Q := Q) (f := fun x => l1 * x + l2 * (x - m.mean) ^ 2) (by fun_prop) hti.1 hti.2
        (hquad l1 l2 _ hR hi).1 (hquad l1 l2 Q hQ hQi).1 (by rw [(hquad l1 l2 _ hR hi).2, (hquad l1 l2 Q hQ hQi).2, hQm, hmean, hQv, hvar])
    exact (⟨hR, hi, hmean, hvar, (hcl _ hR hi hmean hvar).1, fun Q hQ hQi hQm hQv => (hcl Q hQ hQi hQm hQv).2⟩ :
      IsProbabilityMeasure (densLaw p) ∧ MemLp id 2 (densLaw p) ∧ ∫ x, x ∂densLaw p = m.mean ∧ ∫ x, (x - m.mean) ^ 2 ∂densLaw p = δ ∧
      klDiv (densLaw p) (densLaw m.pdf) ≠ ⊤ ∧
      ∀ Q : Measure ℝ, IsProbabilityMeasure Q → MemLp id 2 Q → ∫ x, x ∂Q = m.mean → ∫ x, (x - m.mean) ^ 2 ∂Q = δ →
        klDiv (densLaw p) (densLaw m.pdf) ≤ klDiv Q (densLaw m.pdf) ∧
        (klDiv Q (densLaw m.pdf) = klDiv (densLaw p) (densLaw m.pdf) → Q = densLaw p))
  by_cases hδ : δ = m.var
  · have hpm : p = m.pdf := by
      rw [varPert.eq_def, if_pos hδ, Except.ok.injEq] at hp
      exact hp.symm
    refine key 0 0 0 (fun x => by simp [hpm]) (hpm ▸ hP) (hpm ▸ hP2) (by rw [hpm, hPm]) (by rw [hpm, hPv, hδ])
  · cases m with
    | other p a b => exact hm.elim
    | normal μ σ =>
      have hσ : 0 < σ := hm
      have hpe : p = gaussianPDFReal μ δ.toNNReal := by
        have := (C62_normal μ σ δ hσ hδ0 optimize).1
        rw [hp, Except.ok.injEq] at this
        exact this
      have hne : δ.toNNReal ≠ 0 := by rw [ne_eq, Real.toNNReal_eq_zero, not_le]; exact hδ0
      have hl : densLaw p = gaussianReal μ δ.toNNReal := by rw [hpe, gaussLaw_eq _ hne]
      refine key 0 (1 / (2 * σ ^ 2) - 1 / (2 * δ)) (Real.log (Real.sqrt (2 * Real.pi * δ) / Real.sqrt (2 * Real.pi * σ ^ 2))) (fun x => ?_)
        (hl ▸ inferInstance) (hl ▸ memLp_id_gaussianReal 2) ?_ ?_
      · have s1 : 0 < Real.sqrt (2 * Real.pi * δ) := Real.sqrt_pos.2 (by positivity)
        have s2 : 0 < Real.sqrt (2 * Real.pi * σ ^ 2) := Real.sqrt_pos.2 (by positivity)
        rw [hpe, normal_pdf hσ, gaussianPDFReal, gaussianPDFReal, coe_sqv, Real.coe_toNNReal _ hδ0.le, Real.exp_sub, Real.exp_log (div_pos s1 s2)]
        have : Real.exp (0 * x + (1 / (2 * σ ^ 2) - 1 / (2 * δ)) * (x - (Marg.normal μ σ).mean) ^ 2)
            = Real.exp (-(x - μ) ^ 2 / (2 * δ)) / Real.exp (-(x - μ) ^ 2 / (2 * σ ^ 2)) := by
          rw [← Real.exp_sub]
          congr 1
          simp only [Marg.mean]
          field_simp
          ring
        rw [this]
        have e := (Real.exp_pos (-(x - μ) ^ 2 / (2 * σ ^ 2))).ne'
        field_simp
      · rw [hl]; exact integral_id_gaussianReal
      · rw [hl]
        have h := variance_id_gaussianReal (μ := μ) (v := δ.toNNReal)
        rw [variance_eq_integral measurable_id.aemeasurable] at h
        simp only [id, integral_id_gaussianReal] at h
        exact h.trans (Real.coe_toNNReal _ hδ0.le)
    | uniform a b =>
      have hab : a < b := hm
      obtain ⟨h0, hout, h1, h2, h3⟩ := C62_uniform a b δ hab optimize hδ (hmin a b rfl hδ) p hp
      have hR := densLaw_prob h0 h1
      set lam := optimize (Marg.uniform a b).pdf a b ((Marg.uniform a b).mean, δ + (Marg.uniform a b).mean ^ 2) with hlam
      set M := (Marg.uniform a b).mean with hM
      have hpx : ∀ x, p x = (Marg.uniform a b).pdf x * Real.exp ((lam.1 + 2 * lam.2 * M) * x + lam.2 * (x - M) ^ 2
          - (Real.log (tiltIntegral (Marg.uniform a b).pdf a b lam 0) + lam.2 * M ^ 2)) := by
        intro x
        rw [varPert, if_neg hδ] at hp
        simp only [Except.ok.injEq] at hp
        rw [← hp]
        simp only [← hM, ← hlam]
        rw [mul_comm]
        congr 2
        ring
      have hpm : Measurable p := by
        have := funext hpx
        rw [this]; fun_prop
      refine key _ _ _ hpx hR ?_ ((densLaw_integral hpm h0 _).trans h2) ((densLaw_integral hpm h0 _).trans h3)
      rw [memLp_two_iff_integrable_sq measurable_id.aestronglyMeasurable]
      exact integrable_support (densLaw_support hout) (by fun_prop)

/-- The Normal law with mean 1 is the closest to the standard one among the laws with mean 1: closer than the uniform law on [0, 2]. -/
example : klDiv (gaussianReal 1 (sqv 1)) (gaussianReal 0 (sqv 1)) ≤ klDiv (densLaw (Marg.uniform 0 2).pdf) (gaussianReal 0 (sqv 1)) := by
  obtain ⟨-, -, hQ, hQ2, hQm, -⟩ := marg_law (m := .uniform 0 2) (by simp [Perturbable])
  have h := C135_mean_closest (fun _ _ _ => 0) (.normal 0 1) (by simp [Perturbable]) 1 (fun a b h => by cases h) _
    (C61_normal 0 1 1 one_pos _).1
  have h' := (h.2.2.2.2 _ hQ (hQ2.integrable (by norm_num)) (by rw [hQm]; simp [Marg.mean])).1
  rwa [normal_pdf one_pos, gaussLaw_eq _ (sqv_ne one_pos), gaussLaw_eq _ (sqv_ne one_pos)] at h'

/-- A uniform marginal, with the solver of C61. -/
example : ∃ solve : ℝ → ℝ → ℝ → ℝ, mPrimeOverM (solve 0 1 (3/4)) 0 1 (3/4) = 0 := by
  obtain ⟨lam, h⟩ := (C61_admissible 0 1 (3/4) one_pos).1.2 (by norm_num)
  exact ⟨fun _ _ _ => lam, h⟩

end Verif.Props
