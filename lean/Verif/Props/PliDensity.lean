import Verif.Model.Pli
import Verif.Py.Gauss
import Mathlib.LinearAlgebra.Matrix.PosDef
import Mathlib.Analysis.Calculus.ParametricIntervalIntegral
import Mathlib.Analysis.SpecialFunctions.Integrals.Basic
import Mathlib.MeasureTheory.Integral.IntervalIntegral.FundThmCalculus
import Mathlib.MeasureTheory.Integral.DominatedConvergence
import Mathlib.Analysis.Calculus.LocalExtr.Basic
import Mathlib.Tactic.FieldSimp
import Mathlib.Tactic.Linarith
import Mathlib.Tactic.FinCases
import Mathlib.Tactic.Positivity

/-!
# C61, C62, C64: perturbed marginal densities and the Hellinger abscissa
-/

namespace Verif.Props
open Verif.Py Verif.Model MeasureTheory ProbabilityTheory Set

/-! ## C61: exponential tilting of a uniform law -/

theorem integral_exp_lin (lam a b : ℝ) (hl : lam ≠ 0) :
    ∫ x in a..b, Real.exp (lam * x) = (Real.exp (lam * b) - Real.exp (lam * a)) / lam := by
  have hd : ∀ x, HasDerivAt (fun x => Real.exp (lam * x) / lam) (Real.exp (lam * x)) x := by
    intro x
    have h1 : HasDerivAt (fun x : ℝ => lam * x) lam x := by simpa using (hasDerivAt_id x).const_mul lam
    exact (h1.exp.div_const lam).congr_deriv (by field_simp)
  rw [intervalIntegral.integral_eq_sub_of_hasDerivAt (fun x _ => hd x)
    (Continuous.intervalIntegrable (by fun_prop) _ _)]
  ring

theorem integral_mul_exp_lin (lam a b : ℝ) (hl : lam ≠ 0) :
    ∫ x in a..b, x * Real.exp (lam * x)
      = (Real.exp (lam * b) * (lam * b - 1) + Real.exp (lam * a) * (1 - lam * a)) / lam ^ 2 := by
  have hd : ∀ x, HasDerivAt (fun x => Real.exp (lam * x) * (lam * x - 1) / lam ^ 2) (x * Real.exp (lam * x)) x := by
    intro x
    have h1 : HasDerivAt (fun x : ℝ => lam * x) lam x := by simpa using (hasDerivAt_id x).const_mul lam
    exact ((h1.exp.mul (h1.sub_const 1)).div_const (lam ^ 2)).congr_deriv (by field_simp; ring)
  rw [intervalIntegral.integral_eq_sub_of_hasDerivAt (fun x _ => hd x)
    (Continuous.intervalIntegrable (by fun_prop) _ _)]
  ring

theorem exp_diff_div_pos {a b lam : ℝ} (hab : a < b) (hl : lam ≠ 0) :
    0 < (Real.exp (lam * b) - Real.exp (lam * a)) / lam := by
  rcases lt_or_gt_of_ne hl with h | h
  · apply div_pos_of_neg_of_neg _ h
    have : lam * b < lam * a := mul_lt_mul_of_neg_left hab h
    linarith [Real.exp_lt_exp.mpr this]
  · apply div_pos _ h
    have : lam * a < lam * b := mul_lt_mul_of_pos_left hab h
    linarith [Real.exp_lt_exp.mpr this]

/-- Integral over the line of a function supported by `[a, b]`. -/
theorem integral_indicator_Icc {a b : ℝ} (hab : a ≤ b) (g : ℝ → ℝ) (p : ℝ → ℝ)
    (hin : ∀ x ∈ Icc a b, p x = g x) (hout : ∀ x, x ∉ Icc a b → p x = 0) : ∫ x, p x = ∫ x in a..b, g x := by
  have : p = (Icc a b).indicator g := by
    funext x
    by_cases hx : x ∈ Icc a b
    · rw [indicator_of_mem hx, hin x hx]
    · rw [indicator_of_notMem hx, hout x hx]
  rw [this, integral_indicator measurableSet_Icc, intervalIntegral.integral_of_le hab, integral_Icc_eq_integral_Ioc]

/-- **C61.**  Uniform marginal: whatever root of `M'/M = δ` the solver returns, the perturbed density is non-negative, null
outside the interval, integrates to one and has mean `δ`. -/
theorem C61_uniform (a b δ : ℝ) (hab : a < b) (solve : ℝ → ℝ → ℝ → ℝ) (hδ : δ ≠ (a + b) / 2)
    (hroot : mPrimeOverM (solve a b δ) a b δ = 0) (p : ℝ → ℝ) (hp : meanPert solve (.uniform a b) δ = .ok p) :
    (∀ x, 0 ≤ p x) ∧ (∀ x, x ∉ Icc a b → p x = 0) ∧ ∫ x, p x = 1 ∧ ∫ x, x * p x = δ := by
  set lam := solve a b δ with hlam
  have hl : lam ≠ 0 := by
    intro h0
    rw [mPrimeOverM, if_pos h0] at hroot
    exact hδ (by linarith)
  have hmean : ¬ δ = (Marg.uniform a b).mean := hδ
  rw [meanPert, if_neg hmean] at hp
  simp only [Except.ok.injEq] at hp
  rw [← hlam] at hp
  have hpos := exp_diff_div_pos hab hl
  have hne : Real.exp (lam * b) - Real.exp (lam * a) ≠ 0 := by
    intro h; rw [h, zero_div] at hpos; exact lt_irrefl _ hpos
  have hc : 0 < lam / (Real.exp (lam * b) - Real.exp (lam * a)) := by
    rw [← inv_div]; exact inv_pos.mpr hpos
  have hin : ∀ x ∈ Icc a b, p x = lam / (Real.exp (lam * b) - Real.exp (lam * a)) * Real.exp (lam * x) := by
    intro x hx; rw [← hp]; simp [hx.1, hx.2]
  have hout : ∀ x, x ∉ Icc a b → p x = 0 := by
    intro x hx; rw [← hp]
    have : ¬ (x ≤ b ∧ x ≥ a) := fun h => hx ⟨h.2, h.1⟩
    simp only [if_neg this, mul_zero]
  refine ⟨?_, hout, ?_, ?_⟩
  · intro x
    by_cases hx : x ∈ Icc a b
    · rw [hin x hx]; exact mul_nonneg hc.le (Real.exp_pos _).le
    · rw [hout x hx]
  · rw [integral_indicator_Icc hab.le _ p hin hout, intervalIntegral.integral_const_mul, integral_exp_lin lam a b hl]
    field_simp
  · rw [integral_indicator_Icc hab.le (fun x => lam / (Real.exp (lam * b) - Real.exp (lam * a)) * (x * Real.exp (lam * x)))
      (fun x => x * p x) (fun x hx => by rw [hin x hx]; ring) (fun x hx => by rw [hout x hx, mul_zero]),
      intervalIntegral.integral_const_mul, integral_mul_exp_lin lam a b hl]
    rw [mPrimeOverM, if_neg hl, sub_eq_zero] at hroot
    rw [← hroot]
    field_simp

/-- The unnormalised first moment around `δ`. -/
noncomputable def tiltedShift (a b δ lam : ℝ) : ℝ := ∫ x in a..b, (x - δ) * Real.exp (lam * (x - δ))

theorem mPrimeOverM_eq_zero_iff {a b δ lam : ℝ} (hab : a < b) : mPrimeOverM lam a b δ = 0 ↔ tiltedShift a b δ lam = 0 := by
  rcases eq_or_ne lam 0 with rfl | hl
  · rw [mPrimeOverM, if_pos rfl, tiltedShift]
    have : ∫ x in a..b, (x - δ) * Real.exp (0 * (x - δ)) = (b - a) * ((a + b) / 2 - δ) := by
      simp only [zero_mul, Real.exp_zero, mul_one]
      rw [intervalIntegral.integral_sub (f := fun x : ℝ => x) (Continuous.intervalIntegrable continuous_id _ _)
        (Continuous.intervalIntegrable continuous_const _ _)]
      simp [integral_id]
      ring
    rw [this, mul_eq_zero]
    constructor
    · intro h; exact Or.inr h
    · rintro (h | h)
      · linarith
      · exact h
  · have hpos := exp_diff_div_pos hab hl
    have hne : Real.exp (lam * b) - Real.exp (lam * a) ≠ 0 := by
      intro h; rw [h, zero_div] at hpos; exact lt_irrefl _ hpos
    have hshift : tiltedShift a b δ lam = Real.exp (-(lam * δ)) *
        ((∫ x in a..b, x * Real.exp (lam * x)) - δ * ∫ x in a..b, Real.exp (lam * x)) := by
      rw [tiltedShift, ← intervalIntegral.integral_const_mul, ← intervalIntegral.integral_sub
        (Continuous.intervalIntegrable (by fun_prop) _ _) (Continuous.intervalIntegrable (by fun_prop) _ _),
        ← intervalIntegral.integral_const_mul]
      congr 1
      funext x
      have : lam * (x - δ) = -(lam * δ) + lam * x := by ring
      rw [this, Real.exp_add]; ring
    rw [hshift, mul_eq_zero, or_iff_right (Real.exp_pos _).ne', integral_mul_exp_lin lam a b hl, integral_exp_lin lam a b hl,
      mPrimeOverM, if_neg hl]
    constructor
    · intro h
      rw [sub_eq_zero] at h ⊢
      rw [← h]; field_simp
    · intro h
      rw [sub_eq_zero] at h ⊢
      have h2 : (Real.exp (lam * b) * (lam * b - 1) + Real.exp (lam * a) * (1 - lam * a))
          = δ * ((Real.exp (lam * b) - Real.exp (lam * a)) / lam) * lam ^ 2 := by
        rw [← h]; field_simp
      rw [h2]; field_simp

theorem tiltedShift_strictMono {a b δ : ℝ} (hab : a < b) : StrictMono (tiltedShift a b δ) := by
  intro l m hlm
  have key : ∀ x, (x - δ) * Real.exp (l * (x - δ)) ≤ (x - δ) * Real.exp (m * (x - δ)) ∧
      (x ≠ δ → (x - δ) * Real.exp (l * (x - δ)) < (x - δ) * Real.exp (m * (x - δ))) := by
    intro x
    rcases lt_trichotomy (x - δ) 0 with h | h | h
    · have h1 : m * (x - δ) < l * (x - δ) := mul_lt_mul_of_neg_right hlm h
      have h2 := mul_lt_mul_of_neg_left (Real.exp_lt_exp.mpr h1) h
      exact ⟨h2.le, fun _ => h2⟩
    · rw [h]; simp; linarith
    · have h1 : l * (x - δ) < m * (x - δ) := mul_lt_mul_of_pos_right hlm h
      have h2 := mul_lt_mul_of_pos_left (Real.exp_lt_exp.mpr h1) h
      exact ⟨h2.le, fun _ => h2⟩
  have hx : ∃ c ∈ Icc a b, c ≠ δ := by
    by_cases h : a = δ
    · exact ⟨b, ⟨hab.le, le_rfl⟩, by rw [← h]; exact hab.ne'⟩
    · exact ⟨a, ⟨le_rfl, hab.le⟩, h⟩
  obtain ⟨c, hc, hcd⟩ := hx
  exact intervalIntegral.integral_lt_integral_of_continuousOn_of_le_of_exists_lt hab (by fun_prop) (by fun_prop)
    (fun x _ => (key x).1) ⟨c, hc, (key c).2 hcd⟩

theorem tiltedShift_pos_of_large {a b δ lam : ℝ} (ha : a < δ) (hb : δ < b) (hl : (δ - a) ^ 2 * 3 / (b - δ) ^ 3 < lam) :
    0 < tiltedShift a b δ lam := by
  have hl0 : 0 < lam := lt_of_le_of_lt (by have := sub_pos.mpr hb; positivity) hl
  have hint : ∀ c d : ℝ, IntervalIntegrable (fun x => (x - δ) * Real.exp (lam * (x - δ))) volume c d :=
    fun c d => Continuous.intervalIntegrable (by fun_prop) _ _
  have hsplit : tiltedShift a b δ lam = (∫ x in a..δ, (x - δ) * Real.exp (lam * (x - δ)))
      + ∫ x in δ..b, (x - δ) * Real.exp (lam * (x - δ)) :=
    (intervalIntegral.integral_add_adjacent_intervals (hint _ _) (hint _ _)).symm
  have h1 : -(δ - a) * (δ - a) ≤ ∫ x in a..δ, (x - δ) * Real.exp (lam * (x - δ)) := by
    have : ∫ _x in a..δ, -(δ - a) = -(δ - a) * (δ - a) := by simp; ring
    rw [← this]
    apply intervalIntegral.integral_mono_on ha.le (by simp) (hint _ _)
    intro x hx
    have hx1 : x - δ ≤ 0 := by linarith [hx.2]
    have hx2 : -(δ - a) ≤ x - δ := by linarith [hx.1]
    have he : Real.exp (lam * (x - δ)) ≤ 1 := Real.exp_le_one_iff.mpr (mul_nonpos_of_nonneg_of_nonpos hl0.le hx1)
    nlinarith [Real.exp_pos (lam * (x - δ))]
  have h2 : lam * ((b - δ) ^ 3 / 3) ≤ ∫ x in δ..b, (x - δ) * Real.exp (lam * (x - δ)) := by
    have : ∫ x in δ..b, lam * (x - δ) ^ 2 = lam * ((b - δ) ^ 3 / 3) := by
      rw [intervalIntegral.integral_const_mul, intervalIntegral.integral_comp_sub_right (fun x => x ^ 2) δ]
      simp [integral_pow]; norm_num
    rw [← this]
    apply intervalIntegral.integral_mono_on hb.le (Continuous.intervalIntegrable (by fun_prop) _ _) (hint _ _)
    intro x hx
    have hx1 : 0 ≤ x - δ := by linarith [hx.1]
    have he : lam * (x - δ) + 1 ≤ Real.exp (lam * (x - δ)) := Real.add_one_le_exp _
    nlinarith
  have h3 : (δ - a) ^ 2 < lam * ((b - δ) ^ 3 / 3) := by
    have hb3 : 0 < (b - δ) ^ 3 := by have := sub_pos.mpr hb; positivity
    rw [div_lt_iff₀ hb3] at hl
    linarith
  rw [hsplit]
  nlinarith

theorem tiltedShift_reflect (a b δ lam : ℝ) : tiltedShift (-b) (-a) (-δ) lam = - tiltedShift a b δ (-lam) := by
  rw [tiltedShift, tiltedShift, ← intervalIntegral.integral_neg,
    ← intervalIntegral.integral_comp_neg (fun x => (x - -δ) * Real.exp (lam * (x - -δ)))]
  congr 1
  funext x
  have : lam * (-x - -δ) = -lam * (x - δ) := by ring
  rw [this]; ring

theorem continuous_tiltedShift (a b δ : ℝ) : Continuous (tiltedShift a b δ) := by
  unfold tiltedShift
  exact intervalIntegral.continuous_parametric_intervalIntegral_of_continuous' (by fun_prop) _ _

/-- **C61.**  The equation solved for a uniform marginal has a solution exactly when the requested mean is strictly inside
the interval, and then only one: these are the admissible new means. -/
theorem C61_admissible (a b δ : ℝ) (hab : a < b) :
    ((∃ lam, mPrimeOverM lam a b δ = 0) ↔ a < δ ∧ δ < b) ∧
    (∀ l m, mPrimeOverM l a b δ = 0 → mPrimeOverM m a b δ = 0 → l = m) := by
  refine ⟨⟨?_, ?_⟩, ?_⟩
  · rintro ⟨lam, h⟩
    rw [mPrimeOverM_eq_zero_iff hab] at h
    constructor
    · by_contra hc
      push Not at hc
      have hpos : 0 < tiltedShift a b δ lam := by
        apply intervalIntegral.intervalIntegral_pos_of_pos_on (Continuous.intervalIntegrable (by fun_prop) _ _) _ hab
        intro x hx
        exact mul_pos (by linarith [hx.1]) (Real.exp_pos _)
      linarith
    · by_contra hc
      push Not at hc
      have hpos : 0 < ∫ x in a..b, -((x - δ) * Real.exp (lam * (x - δ))) := by
        apply intervalIntegral.intervalIntegral_pos_of_pos_on (Continuous.intervalIntegrable (by fun_prop) _ _) _ hab
        intro x hx
        have : 0 < -(x - δ) := by linarith [hx.2]
        have := mul_pos this (Real.exp_pos (lam * (x - δ)))
        linarith
      rw [intervalIntegral.integral_neg] at hpos
      rw [tiltedShift] at h
      linarith
  · rintro ⟨ha, hb⟩
    have h1 : 0 < tiltedShift a b δ ((δ - a) ^ 2 * 3 / (b - δ) ^ 3 + 1) := tiltedShift_pos_of_large ha hb (by linarith)
    have h2 : tiltedShift a b δ (-((-δ - -b) ^ 2 * 3 / (-a - -δ) ^ 3 + 1)) < 0 := by
      have := tiltedShift_pos_of_large (a := -b) (b := -a) (δ := -δ) (neg_lt_neg hb) (neg_lt_neg ha)
        (lam := (-δ - -b) ^ 2 * 3 / (-a - -δ) ^ 3 + 1) (by linarith)
      rw [tiltedShift_reflect] at this
      linarith
    obtain ⟨lam, h⟩ := mem_range_of_exists_le_of_exists_ge (continuous_tiltedShift a b δ) ⟨_, h2.le⟩ ⟨_, h1.le⟩
    exact ⟨lam, (mPrimeOverM_eq_zero_iff hab).mpr h⟩
  · intro l m hl hm
    rw [mPrimeOverM_eq_zero_iff hab] at hl hm
    exact (tiltedShift_strictMono hab).injective (hl.trans hm.symm)

/-- **C61.**  The hypotheses are met for every admissible mean: a solver exists. -/
example : ∃ solve : ℝ → ℝ → ℝ → ℝ, mPrimeOverM (solve 0 2 (1 / 2)) 0 2 (1 / 2) = 0 := by
  obtain ⟨lam, h⟩ := ((C61_admissible 0 2 (1 / 2) (by norm_num)).1).mpr (by norm_num)
  exact ⟨fun _ _ _ => lam, h⟩

/-- **C61.**  Normal marginal, every requested mean (the original one included): the perturbed density is that of the
Normal law with the requested mean and the original variance.  Other marginals raise NotImplementedError unless the mean
is unchanged. -/
theorem C61_normal (μ σ δ : ℝ) (hσ : 0 < σ) (solve : ℝ → ℝ → ℝ → ℝ) :
    meanPert solve (.normal μ σ) δ = .ok (gaussianPDFReal δ (sqv σ)) ∧
    ∀ (q : ℝ → ℝ) (m v : ℝ), δ ≠ m → Raises (meanPert solve (.other q m v) δ) .notImplemented := by
  have hpdf : ∀ m : ℝ, (fun x => 1 / (σ * Real.sqrt (2 * Real.pi)) * Real.exp (-0.5 * ((x - m) / σ) ^ 2))
      = gaussianPDFReal m (sqv σ) := by
    intro m
    funext x
    rw [gaussianPDFReal, coe_sqv]
    have h1 : Real.sqrt (2 * Real.pi * σ ^ 2) = σ * Real.sqrt (2 * Real.pi) := by
      rw [Real.sqrt_mul (by positivity), Real.sqrt_sq hσ.le]; ring
    rw [h1, one_div]
    congr 2
    field_simp
    ring
  constructor
  · rw [meanPert]
    split_ifs with h
    · have : (Marg.normal μ σ).mean = μ := rfl
      rw [this] at h
      subst h
      rw [← hpdf δ]; rfl
    · simp only [hpdf]
  · intro q m v hne
    have : ¬ δ = (Marg.other q m v).mean := hne
    rw [meanPert, if_neg this]
    exact ⟨_, rfl⟩

example : (0 : ℝ) < 2 := by norm_num

/-! ## C62: quadratic tilting of a uniform law -/

/-- `∫ x^k exp(λ₀ x + λ₁ x²)` over the interval. -/
noncomputable def qm (a b : ℝ) (k : ℕ) (lam : ℝ × ℝ) : ℝ := ∫ x in a..b, x ^ k * Real.exp (lam.1 * x + lam.2 * x ^ 2)

theorem tiltIntegral_uniform {a b : ℝ} (hab : a < b) (lam : ℝ × ℝ) (k : ℕ) :
    tiltIntegral (Marg.uniform a b).pdf a b lam k = 1 / (b - a) * qm a b k lam := by
  rw [tiltIntegral, qm, ← intervalIntegral.integral_const_mul]
  apply intervalIntegral.integral_congr
  intro x hx
  rw [uIcc_of_le hab.le] at hx
  have : a ≤ x ∧ x ≤ b := hx
  simp only [pdfExp, Marg.pdf, if_pos this]
  ring

theorem qm_pos {a b : ℝ} (hab : a < b) (lam : ℝ × ℝ) : 0 < qm a b 0 lam := by
  apply intervalIntegral.intervalIntegral_pos_of_pos_on (Continuous.intervalIntegrable (by fun_prop) _ _) _ hab
  intro x _
  simp only [pow_zero, one_mul]
  exact Real.exp_pos _

/-- Differentiation under the integral for `g(x) exp(t h(x))` on an interval. -/
theorem hasDerivAt_integral_exp (a b t : ℝ) (g h : ℝ → ℝ) (hg : Continuous g) (hh : Continuous h) :
    HasDerivAt (fun t => ∫ x in a..b, g x * Real.exp (t * h x)) (∫ x in a..b, g x * h x * Real.exp (t * h x)) t := by
  have := (intervalIntegral.hasDerivAt_integral_of_dominated_loc_of_deriv_le (μ := volume) (a := a) (b := b)
    (F := fun t x => g x * Real.exp (t * h x)) (F' := fun t x => g x * h x * Real.exp (t * h x)) (x₀ := t)
    (s := Metric.ball t 1) (bound := fun x => |g x * h x| * Real.exp ((|t| + 1) * |h x|)) (Metric.ball_mem_nhds t one_pos)
    ?_ ?_ ?_ ?_ ?_ ?_).2
  · exact this
  · exact Filter.Eventually.of_forall fun t => (Continuous.aestronglyMeasurable (by fun_prop))
  · exact Continuous.intervalIntegrable (by fun_prop) _ _
  · exact Continuous.aestronglyMeasurable (by fun_prop)
  · refine Filter.Eventually.of_forall fun x _ s hs => ?_
    rw [Real.norm_eq_abs, abs_mul, Real.abs_exp]
    apply mul_le_mul_of_nonneg_left _ (abs_nonneg _)
    apply Real.exp_le_exp.mpr
    calc s * h x ≤ |s * h x| := le_abs_self _
      _ = |s| * |h x| := abs_mul _ _
      _ ≤ (|t| + 1) * |h x| := by
        apply mul_le_mul_of_nonneg_right _ (abs_nonneg _)
        rw [Metric.mem_ball, Real.dist_eq] at hs
        have := abs_sub_abs_le_abs_sub s t
        linarith
  · exact Continuous.intervalIntegrable (by fun_prop) _ _
  · refine Filter.Eventually.of_forall fun x _ s _ => ?_
    have h1 : HasDerivAt (fun s : ℝ => s * h x) (h x) s := by simpa using (hasDerivAt_id s).mul_const (h x)
    exact (h1.exp.const_mul (g x)).congr_deriv (by ring)

theorem qm_hasDerivAt_fst (a b : ℝ) (k : ℕ) (l0 l1 : ℝ) :
    HasDerivAt (fun t => qm a b k (t, l1)) (qm a b (k + 1) (l0, l1)) l0 := by
  have h := hasDerivAt_integral_exp a b l0 (fun x => x ^ k * Real.exp (l1 * x ^ 2)) (fun x => x) (by fun_prop) continuous_id
  have e1 : (fun t => ∫ x in a..b, x ^ k * Real.exp (l1 * x ^ 2) * Real.exp (t * x)) = fun t => qm a b k (t, l1) := by
    funext t
    rw [qm]
    congr 1; funext x
    rw [Real.exp_add]; ring
  have e2 : (∫ x in a..b, x ^ k * Real.exp (l1 * x ^ 2) * x * Real.exp (l0 * x)) = qm a b (k + 1) (l0, l1) := by
    rw [qm]
    congr 1; funext x
    rw [Real.exp_add]; ring
  rw [e1, e2] at h
  exact h

theorem qm_hasDerivAt_snd (a b : ℝ) (k : ℕ) (l0 l1 : ℝ) :
    HasDerivAt (fun t => qm a b k (l0, t)) (qm a b (k + 2) (l0, l1)) l1 := by
  have h := hasDerivAt_integral_exp a b l1 (fun x => x ^ k * Real.exp (l0 * x)) (fun x => x ^ 2) (by fun_prop) (by fun_prop)
  have e1 : (fun t => ∫ x in a..b, x ^ k * Real.exp (l0 * x) * Real.exp (t * x ^ 2)) = fun t => qm a b k (l0, t) := by
    funext t
    rw [qm]
    congr 1; funext x
    rw [Real.exp_add]; ring
  have e2 : (∫ x in a..b, x ^ k * Real.exp (l0 * x) * x ^ 2 * Real.exp (l1 * x ^ 2)) = qm a b (k + 2) (l0, l1) := by
    rw [qm]
    congr 1; funext x
    rw [Real.exp_add]; ring
  rw [e1, e2] at h
  exact h

theorem tilt_ratio {a b : ℝ} (hab : a < b) (lam : ℝ × ℝ) (k : ℕ) :
    tiltIntegral (Marg.uniform a b).pdf a b lam k / tiltIntegral (Marg.uniform a b).pdf a b lam 0
      = qm a b k lam / qm a b 0 lam := by
  rw [tiltIntegral_uniform hab, tiltIntegral_uniform hab]
  have h1 : b - a ≠ 0 := (sub_pos.mpr hab).ne'
  have h2 := (qm_pos hab lam).ne'
  field_simp

theorem tilt_pos {a b : ℝ} (hab : a < b) (lam : ℝ × ℝ) : 0 < tiltIntegral (Marg.uniform a b).pdf a b lam 0 := by
  rw [tiltIntegral_uniform hab]
  exact mul_pos (one_div_pos.mpr (sub_pos.mpr hab)) (qm_pos hab lam)

/-- `gradH` never takes its ZeroDivision branch for a uniform marginal. -/
theorem gradH_uniform {a b : ℝ} (hab : a < b) (rhs lam : ℝ × ℝ) :
    gradH (Marg.uniform a b).pdf a b rhs lam
      = .ok (qm a b 1 lam / qm a b 0 lam - rhs.1, qm a b 2 lam / qm a b 0 lam - rhs.2) := by
  rw [gradH]
  rw [if_neg (tilt_pos hab lam).ne', tilt_ratio hab, tilt_ratio hab]

theorem dualH_hasDerivAt {a b : ℝ} (hab : a < b) (rhs : ℝ × ℝ) (l0 l1 : ℝ) :
    HasDerivAt (fun t => dualH (Marg.uniform a b).pdf a b rhs (t, l1))
      (qm a b 1 (l0, l1) / qm a b 0 (l0, l1) - rhs.1) l0 ∧
    HasDerivAt (fun t => dualH (Marg.uniform a b).pdf a b rhs (l0, t))
      (qm a b 2 (l0, l1) / qm a b 0 (l0, l1) - rhs.2) l1 := by
  have hba : (1 / (b - a)) ≠ 0 := (one_div_pos.mpr (sub_pos.mpr hab)).ne'
  have hlog : ∀ lam, dualH (Marg.uniform a b).pdf a b rhs lam
      = Real.log (1 / (b - a)) + Real.log (qm a b 0 lam) - (lam.1 * rhs.1 + lam.2 * rhs.2) := by
    intro lam
    rw [dualH, tiltIntegral_uniform hab, Real.log_mul hba (qm_pos hab lam).ne']
  constructor
  · simp only [hlog]
    have h1 := (qm_hasDerivAt_fst a b 0 l0 l1).log (qm_pos hab _).ne'
    have h2 : HasDerivAt (fun t : ℝ => t * rhs.1 + l1 * rhs.2) rhs.1 l0 := by
      simpa using ((hasDerivAt_id l0).mul_const rhs.1).add_const (l1 * rhs.2)
    exact (h1.const_add (Real.log (1 / (b - a)))).sub h2
  · simp only [hlog]
    have h1 := (qm_hasDerivAt_snd a b 0 l0 l1).log (qm_pos hab _).ne'
    have h2 : HasDerivAt (fun t : ℝ => l0 * rhs.1 + t * rhs.2) rhs.2 l1 := by
      simpa using ((hasDerivAt_id l1).mul_const rhs.2).const_add (l0 * rhs.1)
    exact (h1.const_add (Real.log (1 / (b - a)))).sub h2

/-- **C62.**  `gradH` and `hessianH` are the gradient and the Hessian of `H`. -/
theorem C62_derivatives (a b : ℝ) (hab : a < b) (rhs : ℝ × ℝ) (l0 l1 : ℝ) (G : ℝ × ℝ → ℝ × ℝ)
    (hG : ∀ lam, gradH (Marg.uniform a b).pdf a b rhs lam = .ok (G lam)) :
    let Hs := hessianH (Marg.uniform a b).pdf a b (l0, l1)
    HasDerivAt (fun t => dualH (Marg.uniform a b).pdf a b rhs (t, l1)) (G (l0, l1)).1 l0 ∧
    HasDerivAt (fun t => dualH (Marg.uniform a b).pdf a b rhs (l0, t)) (G (l0, l1)).2 l1 ∧
    HasDerivAt (fun t => (G (t, l1)).1) (Hs 0 0) l0 ∧ HasDerivAt (fun t => (G (l0, t)).1) (Hs 0 1) l1 ∧
    HasDerivAt (fun t => (G (t, l1)).2) (Hs 1 0) l0 ∧ HasDerivAt (fun t => (G (l0, t)).2) (Hs 1 1) l1 := by
  intro Hs
  have hGe : ∀ lam, G lam = (qm a b 1 lam / qm a b 0 lam - rhs.1, qm a b 2 lam / qm a b 0 lam - rhs.2) := by
    intro lam
    have := hG lam
    rw [gradH_uniform hab, Except.ok.injEq] at this
    exact this.symm
  have h0 := (qm_pos hab (l0, l1)).ne'
  have hsq : ∀ i j : ℕ, tiltIntegral (Marg.uniform a b).pdf a b (l0, l1) i * tiltIntegral (Marg.uniform a b).pdf a b (l0, l1) j
      / tiltIntegral (Marg.uniform a b).pdf a b (l0, l1) 0 ^ 2
      = qm a b i (l0, l1) * qm a b j (l0, l1) / qm a b 0 (l0, l1) ^ 2 := by
    intro i j
    rw [sq, mul_div_mul_comm, tilt_ratio hab, tilt_ratio hab, sq, mul_div_mul_comm]
  obtain ⟨d0, d1⟩ := dualH_hasDerivAt hab rhs l0 l1
  refine ⟨by rw [hGe]; exact d0, by rw [hGe]; exact d1, ?_, ?_, ?_, ?_⟩
  · simp only [hGe]
    have := ((qm_hasDerivAt_fst a b 1 l0 l1).div (qm_hasDerivAt_fst a b 0 l0 l1) h0).sub_const rhs.1
    refine this.congr_deriv ?_
    change _ = tiltIntegral _ a b (l0, l1) 2 / tiltIntegral _ a b (l0, l1) 0
      - tiltIntegral _ a b (l0, l1) 1 ^ 2 / tiltIntegral _ a b (l0, l1) 0 ^ 2
    rw [tilt_ratio hab, sq (tiltIntegral _ a b (l0, l1) 1), hsq]
    field_simp
  · simp only [hGe]
    have := ((qm_hasDerivAt_snd a b 1 l0 l1).div (qm_hasDerivAt_snd a b 0 l0 l1) h0).sub_const rhs.1
    refine this.congr_deriv ?_
    change _ = tiltIntegral _ a b (l0, l1) 3 / tiltIntegral _ a b (l0, l1) 0
      - tiltIntegral _ a b (l0, l1) 1 * tiltIntegral _ a b (l0, l1) 2 / tiltIntegral _ a b (l0, l1) 0 ^ 2
    rw [tilt_ratio hab, hsq]
    field_simp
  · simp only [hGe]
    have := ((qm_hasDerivAt_fst a b 2 l0 l1).div (qm_hasDerivAt_fst a b 0 l0 l1) h0).sub_const rhs.2
    refine this.congr_deriv ?_
    change _ = tiltIntegral _ a b (l0, l1) 3 / tiltIntegral _ a b (l0, l1) 0
      - tiltIntegral _ a b (l0, l1) 1 * tiltIntegral _ a b (l0, l1) 2 / tiltIntegral _ a b (l0, l1) 0 ^ 2
    rw [tilt_ratio hab, hsq]
    field_simp
  · simp only [hGe]
    have := ((qm_hasDerivAt_snd a b 2 l0 l1).div (qm_hasDerivAt_snd a b 0 l0 l1) h0).sub_const rhs.2
    refine this.congr_deriv ?_
    change _ = tiltIntegral _ a b (l0, l1) 4 / tiltIntegral _ a b (l0, l1) 0
      - tiltIntegral _ a b (l0, l1) 2 ^ 2 / tiltIntegral _ a b (l0, l1) 0 ^ 2
    rw [tilt_ratio hab, sq (tiltIntegral _ a b (l0, l1) 2), hsq]
    field_simp

example (rhs : ℝ × ℝ) : ∃ G : ℝ × ℝ → ℝ × ℝ, ∀ lam, gradH (Marg.uniform 0 2).pdf 0 2 rhs lam = .ok (G lam) :=
  ⟨_, fun lam => gradH_uniform (by norm_num) rhs lam⟩

/-- **C62.**  The Hessian is positive semi-definite at every multiplier. -/
theorem C62_hessian_psd (a b : ℝ) (hab : a < b) (lam : ℝ × ℝ) : (hessianH (Marg.uniform a b).pdf a b lam).PosSemidef := by
  have hE := qm_pos hab lam
  have hsq : ∀ i j : ℕ, tiltIntegral (Marg.uniform a b).pdf a b lam i * tiltIntegral (Marg.uniform a b).pdf a b lam j
      / tiltIntegral (Marg.uniform a b).pdf a b lam 0 ^ 2 = qm a b i lam * qm a b j lam / qm a b 0 lam ^ 2 := by
    intro i j
    rw [sq, mul_div_mul_comm, tilt_ratio hab, tilt_ratio hab, sq, mul_div_mul_comm]
  have hH : hessianH (Marg.uniform a b).pdf a b lam =
      !![qm a b 2 lam / qm a b 0 lam - qm a b 1 lam * qm a b 1 lam / qm a b 0 lam ^ 2,
         qm a b 3 lam / qm a b 0 lam - qm a b 1 lam * qm a b 2 lam / qm a b 0 lam ^ 2;
         qm a b 3 lam / qm a b 0 lam - qm a b 1 lam * qm a b 2 lam / qm a b 0 lam ^ 2,
         qm a b 4 lam / qm a b 0 lam - qm a b 2 lam * qm a b 2 lam / qm a b 0 lam ^ 2] := by
    rw [hessianH]
    simp only [tilt_ratio hab, sq (tiltIntegral _ a b lam 1), sq (tiltIntegral _ a b lam 2), hsq]
  rw [hH]
  refine Matrix.PosSemidef.of_dotProduct_mulVec_nonneg ?_ ?_
  · ext i j; fin_cases i <;> fin_cases j <;> simp [Matrix.conjTranspose]
  · intro v
    -- the quadratic form is the variance of v₀X + v₁X² under the tilted law
    set c := (v 0 * qm a b 1 lam + v 1 * qm a b 2 lam) / qm a b 0 lam with hc
    have hii : ∀ k : ℕ, IntervalIntegrable (fun x => x ^ k * Real.exp (lam.1 * x + lam.2 * x ^ 2)) volume a b :=
      fun k => Continuous.intervalIntegrable (by fun_prop) _ _
    have hnn : 0 ≤ ∫ x in a..b, (v 0 * x + v 1 * x ^ 2 - c) ^ 2 * Real.exp (lam.1 * x + lam.2 * x ^ 2) :=
      intervalIntegral.integral_nonneg hab.le fun x _ => mul_nonneg (sq_nonneg _) (Real.exp_pos _).le
    have hexp : (∫ x in a..b, (v 0 * x + v 1 * x ^ 2 - c) ^ 2 * Real.exp (lam.1 * x + lam.2 * x ^ 2))
        = v 0 ^ 2 * qm a b 2 lam + 2 * v 0 * v 1 * qm a b 3 lam + v 1 ^ 2 * qm a b 4 lam
          - 2 * c * v 0 * qm a b 1 lam - 2 * c * v 1 * qm a b 2 lam + c ^ 2 * qm a b 0 lam := by
      simp only [qm]
      rw [← intervalIntegral.integral_const_mul, ← intervalIntegral.integral_const_mul, ← intervalIntegral.integral_const_mul,
        ← intervalIntegral.integral_const_mul, ← intervalIntegral.integral_const_mul, ← intervalIntegral.integral_const_mul,
        ← intervalIntegral.integral_add ((hii 2).const_mul _) ((hii 3).const_mul _),
        ← intervalIntegral.integral_add (((hii 2).const_mul _).add ((hii 3).const_mul _)) ((hii 4).const_mul _),
        ← intervalIntegral.integral_sub ((((hii 2).const_mul _).add ((hii 3).const_mul _)).add ((hii 4).const_mul _))
          ((hii 1).const_mul _),
        ← intervalIntegral.integral_sub (((((hii 2).const_mul _).add ((hii 3).const_mul _)).add ((hii 4).const_mul _)).sub
          ((hii 1).const_mul _)) ((hii 2).const_mul _),
        ← intervalIntegral.integral_add ((((((hii 2).const_mul _).add ((hii 3).const_mul _)).add ((hii 4).const_mul _)).sub
          ((hii 1).const_mul _)).sub ((hii 2).const_mul _)) ((hii 0).const_mul _)]
      congr 1; funext x; ring
    have hform : dotProduct (star v) (Matrix.mulVec
        !![qm a b 2 lam / qm a b 0 lam - qm a b 1 lam * qm a b 1 lam / qm a b 0 lam ^ 2,
         qm a b 3 lam / qm a b 0 lam - qm a b 1 lam * qm a b 2 lam / qm a b 0 lam ^ 2;
         qm a b 3 lam / qm a b 0 lam - qm a b 1 lam * qm a b 2 lam / qm a b 0 lam ^ 2,
         qm a b 4 lam / qm a b 0 lam - qm a b 2 lam * qm a b 2 lam / qm a b 0 lam ^ 2] v)
        = (v 0 ^ 2 * qm a b 2 lam + 2 * v 0 * v 1 * qm a b 3 lam + v 1 ^ 2 * qm a b 4 lam
          - 2 * c * v 0 * qm a b 1 lam - 2 * c * v 1 * qm a b 2 lam + c ^ 2 * qm a b 0 lam) / qm a b 0 lam := by
      simp [dotProduct, Matrix.mulVec, Fin.sum_univ_two]
      rw [hc]
      field_simp
      ring
    rw [hform, ← hexp]
    exact div_nonneg hnn hE.le

example : (hessianH (Marg.uniform 0 1).pdf 0 1 (1, 2)).PosSemidef := C62_hessian_psd 0 1 (by norm_num) (1, 2)

/-- **C62.**  Uniform marginal: if the point returned by the optimiser is a local minimum of the dual function `H` (for the
constraints: original mean, requested variance), the perturbed density is non-negative, null outside the interval,
integrates to one, keeps the mean and has the requested variance. -/
theorem C62_uniform (a b δ : ℝ) (hab : a < b) (optimize : (ℝ → ℝ) → ℝ → ℝ → ℝ × ℝ → ℝ × ℝ)
    (hδ : δ ≠ (b - a) ^ 2 / 12)
    (hmin : IsLocalMin (dualH (Marg.uniform a b).pdf a b ((a + b) / 2, δ + ((a + b) / 2) ^ 2))
      (optimize (Marg.uniform a b).pdf a b ((a + b) / 2, δ + ((a + b) / 2) ^ 2)))
    (p : ℝ → ℝ) (hp : varPert optimize (.uniform a b) δ = .ok p) :
    (∀ x, 0 ≤ p x) ∧ (∀ x, x ∉ Icc a b → p x = 0) ∧ ∫ x, p x = 1 ∧ ∫ x, x * p x = (a + b) / 2 ∧
      ∫ x, (x - (a + b) / 2) ^ 2 * p x = δ := by
  set m := (a + b) / 2 with hm
  set rhs : ℝ × ℝ := (m, δ + m ^ 2) with hrhs
  set lam := optimize (Marg.uniform a b).pdf a b rhs with hlam
  obtain ⟨d0, d1⟩ := dualH_hasDerivAt hab rhs lam.1 lam.2
  have hmin0 : IsLocalMin (fun t => dualH (Marg.uniform a b).pdf a b rhs (t, lam.2)) lam.1 := by
    have : Filter.Tendsto (fun t : ℝ => (t, lam.2)) (nhds lam.1) (nhds lam) :=
      (Continuous.tendsto (by fun_prop : Continuous fun t : ℝ => (t, lam.2)) lam.1)
    exact this.eventually hmin
  have hmin1 : IsLocalMin (fun t => dualH (Marg.uniform a b).pdf a b rhs (lam.1, t)) lam.2 := by
    have : Filter.Tendsto (fun t : ℝ => (lam.1, t)) (nhds lam.2) (nhds lam) :=
      (Continuous.tendsto (by fun_prop : Continuous fun t : ℝ => (lam.1, t)) lam.2)
    exact this.eventually hmin
  have g0 := hmin0.hasDerivAt_eq_zero d0
  have g1 := hmin1.hasDerivAt_eq_zero d1
  have hE := qm_pos hab lam
  have h1 : qm a b 1 lam = m * qm a b 0 lam := by
    rw [sub_eq_zero] at g0
    have : qm a b 1 lam / qm a b 0 lam = m := g0
    rw [← this]; field_simp
  have h2 : qm a b 2 lam = (δ + m ^ 2) * qm a b 0 lam := by
    rw [sub_eq_zero] at g1
    have : qm a b 2 lam / qm a b 0 lam = δ + m ^ 2 := g1
    rw [← this]; field_simp
  have hvar : ¬ δ = (Marg.uniform a b).var := hδ
  rw [varPert, if_neg hvar] at hp
  simp only [Except.ok.injEq] at hp
  have hba : 0 < b - a := sub_pos.mpr hab
  have hin : ∀ x ∈ Icc a b, p x = 1 / qm a b 0 lam * Real.exp (lam.1 * x + lam.2 * x ^ 2) := by
    intro x hx
    rw [← hp]
    have hx' : a ≤ x ∧ x ≤ b := hx
    have hpdf : (Marg.uniform a b).pdf x = 1 / (b - a) := by simp only [Marg.pdf, if_pos hx']
    have hmean : (Marg.uniform a b).mean = m := rfl
    dsimp only
    rw [hpdf, hmean, ← hrhs, ← hlam, Real.exp_sub, Real.exp_log (tilt_pos hab lam), tiltIntegral_uniform hab]
    field_simp
  have hout : ∀ x, x ∉ Icc a b → p x = 0 := by
    intro x hx
    rw [← hp]
    have hpdf : (Marg.uniform a b).pdf x = 0 := by
      simp only [Marg.pdf]; exact if_neg hx
    simp only [hpdf, mul_zero]
  have hmom : ∀ k : ℕ, ∫ x, x ^ k * p x = qm a b k lam / qm a b 0 lam := by
    intro k
    rw [integral_indicator_Icc hab.le (fun x => 1 / qm a b 0 lam * (x ^ k * Real.exp (lam.1 * x + lam.2 * x ^ 2)))
      (fun x => x ^ k * p x) (fun x hx => by rw [hin x hx]; ring) (fun x hx => by rw [hout x hx, mul_zero]),
      intervalIntegral.integral_const_mul, ← qm, one_div, inv_mul_eq_div]
  refine ⟨?_, hout, ?_, ?_, ?_⟩
  · intro x
    by_cases hx : x ∈ Icc a b
    · rw [hin x hx]; exact mul_nonneg (one_div_pos.mpr hE).le (Real.exp_pos _).le
    · rw [hout x hx]
  · have := hmom 0
    simp only [pow_zero, one_mul] at this
    rw [this, div_self hE.ne']
  · have := hmom 1
    simp only [pow_one] at this
    rw [this, h1]; field_simp
  · rw [integral_indicator_Icc hab.le (fun x => 1 / qm a b 0 lam * (x ^ 2 * Real.exp (lam.1 * x + lam.2 * x ^ 2)
        - 2 * m * (x ^ 1 * Real.exp (lam.1 * x + lam.2 * x ^ 2)) + m ^ 2 * (x ^ 0 * Real.exp (lam.1 * x + lam.2 * x ^ 2))))
      (fun x => (x - m) ^ 2 * p x) (fun x hx => by rw [hin x hx]; ring) (fun x hx => by rw [hout x hx, mul_zero]),
      intervalIntegral.integral_const_mul, intervalIntegral.integral_add (Continuous.intervalIntegrable (by fun_prop) _ _)
        (Continuous.intervalIntegrable (by fun_prop) _ _), intervalIntegral.integral_sub
        (Continuous.intervalIntegrable (by fun_prop) _ _) (Continuous.intervalIntegrable (by fun_prop) _ _),
      intervalIntegral.integral_const_mul, intervalIntegral.integral_const_mul, ← qm, ← qm, ← qm, h1, h2]
    field_simp
    ring

/-- **C62.**  A stationary point (`gradH` null) is a global minimum of `H`. -/
theorem C62_stationary_min (a b : ℝ) (hab : a < b) (rhs lam : ℝ × ℝ)
    (h0 : gradH (Marg.uniform a b).pdf a b rhs lam = .ok (0, 0)) (mu : ℝ × ℝ) :
    dualH (Marg.uniform a b).pdf a b rhs lam ≤ dualH (Marg.uniform a b).pdf a b rhs mu := by
  rw [gradH_uniform hab, Except.ok.injEq, Prod.mk.injEq, sub_eq_zero, sub_eq_zero] at h0
  have hE := qm_pos hab lam
  have hE' := qm_pos hab mu
  have h1 : qm a b 1 lam = rhs.1 * qm a b 0 lam := by rw [← h0.1]; field_simp
  have h2 : qm a b 2 lam = rhs.2 * qm a b 0 lam := by rw [← h0.2]; field_simp
  set c := (mu.1 - lam.1) * rhs.1 + (mu.2 - lam.2) * rhs.2 with hc
  have hii : ∀ k : ℕ, IntervalIntegrable (fun x => x ^ k * Real.exp (lam.1 * x + lam.2 * x ^ 2)) volume a b :=
    fun k => Continuous.intervalIntegrable (by fun_prop) _ _
  have hle : Real.exp c * qm a b 0 lam ≤ qm a b 0 mu := by
    have hlow : Real.exp c * qm a b 0 lam = ∫ x in a..b, Real.exp c * ((1 - c) * (x ^ 0 * Real.exp (lam.1 * x + lam.2 * x ^ 2))
        + (mu.1 - lam.1) * (x ^ 1 * Real.exp (lam.1 * x + lam.2 * x ^ 2))
        + (mu.2 - lam.2) * (x ^ 2 * Real.exp (lam.1 * x + lam.2 * x ^ 2))) := by
      rw [intervalIntegral.integral_const_mul, intervalIntegral.integral_add
        (((hii 0).const_mul _).add ((hii 1).const_mul _)) ((hii 2).const_mul _),
        intervalIntegral.integral_add ((hii 0).const_mul _) ((hii 1).const_mul _),
        intervalIntegral.integral_const_mul, intervalIntegral.integral_const_mul, intervalIntegral.integral_const_mul,
        ← qm, ← qm, ← qm, h1, h2, hc]
      ring
    rw [hlow, qm]
    apply intervalIntegral.integral_mono_on hab.le (Continuous.intervalIntegrable (by fun_prop) _ _)
      (Continuous.intervalIntegrable (by fun_prop) _ _)
    intro x _
    have hexp := Real.add_one_le_exp ((mu.1 - lam.1) * x + (mu.2 - lam.2) * x ^ 2 - c)
    have hsplit : Real.exp (mu.1 * x + mu.2 * x ^ 2) = Real.exp c * (Real.exp (lam.1 * x + lam.2 * x ^ 2)
        * Real.exp ((mu.1 - lam.1) * x + (mu.2 - lam.2) * x ^ 2 - c)) := by
      rw [← Real.exp_add, ← Real.exp_add]; congr 1; ring
    rw [pow_zero, one_mul, one_mul, hsplit]
    apply mul_le_mul_of_nonneg_left _ (Real.exp_pos _).le
    have := mul_le_mul_of_nonneg_left hexp (Real.exp_pos (lam.1 * x + lam.2 * x ^ 2)).le
    nlinarith
  have hba : (1 / (b - a)) ≠ 0 := (one_div_pos.mpr (sub_pos.mpr hab)).ne'
  rw [dualH, dualH, tiltIntegral_uniform hab, tiltIntegral_uniform hab, Real.log_mul hba hE.ne', Real.log_mul hba hE'.ne']
  have hlog := Real.log_le_log (mul_pos (Real.exp_pos c) hE) hle
  rw [Real.log_mul (Real.exp_pos _).ne' hE.ne', Real.log_exp, hc] at hlog
  linarith

/-- A multiplier and a variance meeting the hypotheses of `C62_uniform`: on `[-1, 1]`, `λ = (0, 1)`. -/
example : ∃ (δ : ℝ) (optimize : (ℝ → ℝ) → ℝ → ℝ → ℝ × ℝ → ℝ × ℝ), δ ≠ (1 - (-1 : ℝ)) ^ 2 / 12 ∧
    IsLocalMin (dualH (Marg.uniform (-1) 1).pdf (-1) 1 ((-1 + 1) / 2, δ + ((-1 + 1) / 2) ^ 2))
      (optimize (Marg.uniform (-1) 1).pdf (-1) 1 ((-1 + 1) / 2, δ + ((-1 + 1) / 2) ^ 2)) := by
  refine ⟨qm (-1) 1 2 (0, 1) / qm (-1) 1 0 (0, 1), fun _ _ _ _ => (0, 1), ?_, ?_⟩
  · have hE := qm_pos (a := -1) (b := 1) (by norm_num) (0, 1)
    have hlt : ∫ x in (-1 : ℝ)..1, (x ^ 2 - 1 / 3) * Real.exp (1 / 3)
        < ∫ x in (-1 : ℝ)..1, (x ^ 2 - 1 / 3) * Real.exp (x ^ 2) := by
      apply intervalIntegral.integral_lt_integral_of_continuousOn_of_le_of_exists_lt (by norm_num) (by fun_prop) (by fun_prop)
      · intro x _
        rcases le_or_gt (1 / 3) (x ^ 2) with h | h
        · exact mul_le_mul_of_nonneg_left (Real.exp_le_exp.mpr h) (by linarith)
        · exact mul_le_mul_of_nonpos_left (Real.exp_le_exp.mpr h.le) (by linarith)
      · refine ⟨1, by norm_num, ?_⟩
        apply mul_lt_mul_of_pos_left (Real.exp_lt_exp.mpr (by norm_num)) (by norm_num)
    have hzero : ∫ x in (-1 : ℝ)..1, (x ^ 2 - 1 / 3) * Real.exp (1 / 3) = 0 := by
      rw [intervalIntegral.integral_mul_const, intervalIntegral.integral_sub (Continuous.intervalIntegrable (by fun_prop) _ _)
        (Continuous.intervalIntegrable (by fun_prop) _ _)]
      simp [integral_pow]; norm_num
    have hsub : ∫ x in (-1 : ℝ)..1, (x ^ 2 - 1 / 3) * Real.exp (x ^ 2)
        = qm (-1) 1 2 (0, 1) - 1 / 3 * qm (-1) 1 0 (0, 1) := by
      rw [qm, qm, ← intervalIntegral.integral_const_mul, ← intervalIntegral.integral_sub
        (Continuous.intervalIntegrable (by fun_prop) _ _) (Continuous.intervalIntegrable (by fun_prop) _ _)]
      congr 1; funext x; simp; ring
    intro h
    rw [div_eq_iff hE.ne'] at h
    rw [hzero, hsub, h] at hlt
    norm_num at hlt
  · have hodd : qm (-1) 1 1 (0, 1) = 0 := by
      have h := intervalIntegral.integral_comp_neg (a := -1) (b := 1) (fun x : ℝ => x ^ 1 * Real.exp (0 * x + 1 * x ^ 2))
      simp only [neg_neg] at h
      have h2 : ∫ x in (-1 : ℝ)..1, (-x) ^ 1 * Real.exp (0 * -x + 1 * (-x) ^ 2) = - qm (-1) 1 1 (0, 1) := by
        rw [qm, ← intervalIntegral.integral_neg]
        congr 1; funext x; simp
      rw [h2] at h
      have h3 : ∫ x in (-1 : ℝ)..1, x ^ 1 * Real.exp (0 * x + 1 * x ^ 2) = qm (-1) 1 1 (0, 1) := rfl
      rw [h3] at h
      linarith
    refine Filter.Eventually.of_forall fun mu => ?_
    apply C62_stationary_min (-1) 1 (by norm_num)
    rw [gradH_uniform (by norm_num), hodd]
    simp

/-- **C62.**  Normal marginal: every positive requested variance (the original one included). -/
theorem C62_normal (μ σ δ : ℝ) (hσ : 0 < σ) (hδ : 0 < δ) (optimize : (ℝ → ℝ) → ℝ → ℝ → ℝ × ℝ → ℝ × ℝ) :
    varPert optimize (.normal μ σ) δ = .ok (gaussianPDFReal μ δ.toNNReal) ∧
    ∀ (q : ℝ → ℝ) (m v : ℝ), δ ≠ v → Raises (varPert optimize (.other q m v) δ) .notImplemented := by
  have hpdf : (fun x => 1 / (Real.sqrt δ * Real.sqrt (2 * Real.pi)) * Real.exp (-0.5 * ((x - μ) / Real.sqrt δ) ^ 2))
      = gaussianPDFReal μ δ.toNNReal := by
    funext x
    rw [gaussianPDFReal, Real.coe_toNNReal _ hδ.le]
    have h1 : Real.sqrt (2 * Real.pi * δ) = Real.sqrt δ * Real.sqrt (2 * Real.pi) := by
      rw [Real.sqrt_mul (by positivity)]; ring
    rw [h1, one_div]
    congr 2
    rw [div_pow, Real.sq_sqrt hδ.le]
    field_simp
    ring
  constructor
  · rw [varPert]
    split_ifs with h
    · have hv : (Marg.normal μ σ).var = σ ^ 2 := rfl
      rw [hv] at h
      have hs : Real.sqrt δ = σ := by rw [h, Real.sqrt_sq hσ.le]
      rw [← hpdf, hs]; rfl
    · simp only [hpdf]
  · intro q m v hne
    have : ¬ δ = (Marg.other q m v).var := hne
    rw [varPert, if_neg this]
    exact ⟨_, rfl⟩

example : (0 : ℝ) < 3 := by norm_num

/-! ## C64: Hellinger abscissa -/

theorem sqrt_mul_integrable {s : Set ℝ} {p q : ℝ → ℝ} (hp0 : ∀ x ∈ s, 0 ≤ p x) (hq0 : ∀ x ∈ s, 0 ≤ q x)
    (hs : MeasurableSet s) (hp : IntegrableOn p s) (hq : IntegrableOn q s) :
    IntegrableOn (fun x => Real.sqrt (p x * q x)) s := by
  refine Integrable.mono' ((hp.add hq).const_mul (1 / 2)) ?_ ?_
  · exact (hp.aestronglyMeasurable.mul hq.aestronglyMeasurable).aemeasurable.sqrt.aestronglyMeasurable
  · refine (ae_restrict_iff' hs).mpr (Filter.Eventually.of_forall fun x hx => ?_)
    rw [Real.norm_eq_abs, abs_of_nonneg (Real.sqrt_nonneg _)]
    have h1 := hp0 x hx
    have h2 := hq0 x hx
    simp only [Pi.add_apply]
    rw [Real.sqrt_le_left (by positivity)]
    nlinarith [sq_nonneg (p x - q x)]

/-- **C64.**  For densities `p`, `q` on the range `s` of the marginal (mass at most one there), the value lies in `[0, 2]`; it
is the integral of the squared difference of the root densities, plus the missing masses. -/
theorem C64_identity (s : Set ℝ) (hs : MeasurableSet s) (p q : ℝ → ℝ) (hp0 : ∀ x ∈ s, 0 ≤ p x) (hq0 : ∀ x ∈ s, 0 ≤ q x)
    (hp : IntegrableOn p s) (hq : IntegrableOn q s) :
    hellinger s p q = (∫ x in s, (Real.sqrt (p x) - Real.sqrt (q x)) ^ 2) + (1 - ∫ x in s, p x) + (1 - ∫ x in s, q x) ∧
    (∫ x in s, p x ≤ 1 → ∫ x in s, q x ≤ 1 → 0 ≤ hellinger s p q ∧ hellinger s p q ≤ 2) := by
  have hpq := sqrt_mul_integrable hp0 hq0 hs hp hq
  have hid : hellinger s p q
      = (∫ x in s, (Real.sqrt (p x) - Real.sqrt (q x)) ^ 2) + (1 - ∫ x in s, p x) + (1 - ∫ x in s, q x) := by
    have : ∫ x in s, (Real.sqrt (p x) - Real.sqrt (q x)) ^ 2 = ∫ x in s, (p x + q x - 2 * Real.sqrt (p x * q x)) := by
      apply setIntegral_congr_fun hs
      intro x hx
      dsimp only
      rw [Real.sqrt_mul (hp0 x hx), sub_sq, Real.sq_sqrt (hp0 x hx), Real.sq_sqrt (hq0 x hx)]
      ring
    rw [this, integral_sub (f := fun x => p x + q x) (hp.add hq) (hpq.const_mul 2), integral_add hp hq, integral_const_mul, hellinger]
    ring
  refine ⟨hid, fun h1 h2 => ⟨?_, ?_⟩⟩
  · rw [hid]
    have : 0 ≤ ∫ x in s, (Real.sqrt (p x) - Real.sqrt (q x)) ^ 2 := integral_nonneg fun x => sq_nonneg _
    linarith
  · rw [hellinger]
    have : 0 ≤ ∫ x in s, Real.sqrt (p x * q x) := integral_nonneg fun x => Real.sqrt_nonneg _
    linarith

/-- **C64.**  For densities of mass one the value vanishes exactly when the densities coincide almost everywhere on the
range. -/
theorem C64_zero_iff (s : Set ℝ) (hs : MeasurableSet s) (p q : ℝ → ℝ) (hp0 : ∀ x ∈ s, 0 ≤ p x) (hq0 : ∀ x ∈ s, 0 ≤ q x)
    (hp : IntegrableOn p s) (hq : IntegrableOn q s) (hp1 : ∫ x in s, p x = 1) (hq1 : ∫ x in s, q x = 1) :
    hellinger s p q = 0 ↔ p =ᵐ[volume.restrict s] q := by
  have hid := (C64_identity s hs p q hp0 hq0 hp hq).1
  rw [hp1, hq1] at hid
  have hpq := sqrt_mul_integrable hp0 hq0 hs hp hq
  have hint : IntegrableOn (fun x => (Real.sqrt (p x) - Real.sqrt (q x)) ^ 2) s := by
    refine (((hp.add hq).sub (hpq.const_mul 2))).congr ?_
    refine (ae_restrict_iff' hs).mpr (Filter.Eventually.of_forall fun x hx => ?_)
    simp only [Pi.add_apply, Pi.sub_apply]
    rw [Real.sqrt_mul (hp0 x hx), sub_sq, Real.sq_sqrt (hp0 x hx), Real.sq_sqrt (hq0 x hx)]
    ring
  have hz : hellinger s p q = 0 ↔ ∫ x in s, (Real.sqrt (p x) - Real.sqrt (q x)) ^ 2 = 0 := by
    rw [hid]; constructor <;> intro h <;> linarith
  rw [hz, integral_eq_zero_iff_of_nonneg (fun x => sq_nonneg _) hint]
  constructor
  · intro h
    filter_upwards [h, ae_restrict_mem hs] with x hx hxs
    have h1 : Real.sqrt (p x) = Real.sqrt (q x) := by
      have : (Real.sqrt (p x) - Real.sqrt (q x)) ^ 2 = 0 := hx
      have := pow_eq_zero_iff (two_ne_zero) |>.mp this
      linarith
    exact (Real.sqrt_inj (hp0 x hxs) (hq0 x hxs)).mp h1
  · intro h
    filter_upwards [h] with x hx
    simp [hx]

/-- **C64.**  The abscissa drawn has the sign of the perturbation and the Hellinger value as absolute value. -/
theorem C64_sign (s : Set ℝ) (hs : MeasurableSet s) (p q : ℝ → ℝ) (hp0 : ∀ x ∈ s, 0 ≤ p x) (hq0 : ∀ x ∈ s, 0 ≤ q x)
    (hp : IntegrableOn p s) (hq : IntegrableOn q s) (hp1 : ∫ x in s, p x ≤ 1) (hq1 : ∫ x in s, q x ≤ 1) (δ δ0 : ℝ) :
    (δ < δ0 → hellingerAbscissa s p q δ δ0 ≤ 0) ∧ (δ0 ≤ δ → 0 ≤ hellingerAbscissa s p q δ δ0) ∧
    |hellingerAbscissa s p q δ δ0| = hellinger s p q := by
  obtain ⟨h0, -⟩ := (C64_identity s hs p q hp0 hq0 hp hq).2 hp1 hq1
  refine ⟨fun h => ?_, fun h => ?_, ?_⟩
  · rw [hellingerAbscissa, if_pos h]; linarith
  · rw [hellingerAbscissa, if_neg (not_lt.mpr h)]; exact h0
  · rw [hellingerAbscissa]
    split_ifs
    · rw [abs_neg, abs_of_nonneg h0]
    · exact abs_of_nonneg h0

example : IntegrableOn (Marg.uniform 0 1).pdf (Icc 0 1) ∧ ∫ x in Icc (0 : ℝ) 1, (Marg.uniform 0 1).pdf x = 1 := by
  have he : ∀ x ∈ Icc (0 : ℝ) 1, (Marg.uniform 0 1).pdf x = 1 := by
    intro x hx
    have hx' : (0 : ℝ) ≤ x ∧ x ≤ 1 := hx
    simp only [Marg.pdf, if_pos hx']; norm_num
  constructor
  · refine (integrableOn_congr_fun he measurableSet_Icc).mpr ?_
    simp
  · rw [setIntegral_congr_fun measurableSet_Icc he]
    simp

end Verif.Props
