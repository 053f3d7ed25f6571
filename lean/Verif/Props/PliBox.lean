import Verif.Model.PliBox
import Verif.Props.PliDensity

/-!
# C153: the variance perturbation of a Uniform marginal and the box of its optimiser
-/

namespace Verif.Props
open Verif.Py Verif.Model MeasureTheory ProbabilityTheory Set

/-- `y e^y ≥ y² - 1` where `y ≥ 0`, `≥ -1` elsewhere. -/
theorem mul_exp_ge (y : ℝ) : (max y 0) ^ 2 - 1 ≤ y * Real.exp y := by
  rcases le_total 0 y with h | h
  · rw [max_eq_left h]
    nlinarith [Real.add_one_le_exp y]
  · rw [max_eq_right h]
    have h1 := Real.add_one_le_exp (-y)
    have h2 : Real.exp y * Real.exp (-y) = 1 := by rw [← Real.exp_add]; simp
    have h3 := Real.exp_pos y
    nlinarith

/-- A continuous function positive somewhere: the tilted integral is positive for a large parameter. -/
theorem tilted_pos_of_large {a b : ℝ} (hab : a < b) (g : ℝ → ℝ) (hg : Continuous g) {c : ℝ} (hc : c ∈ Icc a b) (hgc : 0 < g c) :
    ∃ s : ℝ, 0 < s ∧ 0 < ∫ u in a..b, g u * Real.exp (s * g u) := by
  set J := ∫ u in a..b, (max (g u) 0) ^ 2 with hJ
  have hJ0 : 0 < J := by
    apply intervalIntegral.integral_pos hab (by fun_prop) (fun u _ => by positivity)
    exact ⟨c, hc, by rw [max_eq_left hgc.le]; positivity⟩
  refine ⟨(b - a) / J + 1, by have := sub_pos.mpr hab; positivity, ?_⟩
  set s := (b - a) / J + 1 with hs
  have hs1 : 1 ≤ s := by
    have : 0 ≤ (b - a) / J := div_nonneg (sub_nonneg.mpr hab.le) hJ0.le
    linarith
  have hs0 : 0 < s := by linarith
  have hle : ∫ u in a..b, (s ^ 2 * (max (g u) 0) ^ 2 - 1) ≤ ∫ u in a..b, s * (g u * Real.exp (s * g u)) := by
    apply intervalIntegral.integral_mono_on hab.le (Continuous.intervalIntegrable (by fun_prop) _ _)
      (Continuous.intervalIntegrable (by fun_prop) _ _)
    intro u _
    have h := mul_exp_ge (s * g u)
    have h2 : max (s * g u) 0 = s * max (g u) 0 := by
      rw [mul_max_of_nonneg _ _ hs0.le, mul_zero]
    rw [h2, mul_pow] at h
    linarith
  rw [intervalIntegral.integral_const_mul, intervalIntegral.integral_sub (Continuous.intervalIntegrable (by fun_prop) _ _)
    (Continuous.intervalIntegrable (by fun_prop) _ _), intervalIntegral.integral_const_mul, ← hJ] at hle
  simp only [intervalIntegral.integral_const, smul_eq_mul, mul_one] at hle
  have h3 : b - a < s * J := by
    rw [hs]; rw [add_mul, div_mul_cancel₀ _ hJ0.ne']; linarith
  have h4 : b - a < s ^ 2 * J := by nlinarith
  by_contra hneg
  push Not at hneg
  nlinarith

/-- The parameter of the unit problem: on `[-1/2, 1/2]`, the law of density proportional to `exp(T u²)` has variance `r`. -/
theorem unit_tilt {r : ℝ} (h0 : 0 < r) (h1 : r < 1 / 4) :
    ∃ T : ℝ, ∫ u in (-1 / 2 : ℝ)..(1 / 2), (u ^ 2 - r) * Real.exp (T * (u ^ 2 - r)) = 0 := by
  obtain ⟨s, hs, hpos⟩ := tilted_pos_of_large (a := -1 / 2) (b := 1 / 2) (by norm_num) (fun u => u ^ 2 - r) (by fun_prop)
    (c := 1 / 2) ⟨by norm_num, le_rfl⟩ (by norm_num; linarith)
  obtain ⟨s', hs', hpos'⟩ := tilted_pos_of_large (a := -1 / 2) (b := 1 / 2) (by norm_num) (fun u => r - u ^ 2) (by fun_prop)
    (c := 0) ⟨by norm_num, by norm_num⟩ (by simpa using h0)
  have hneg : ∫ u in (-1 / 2 : ℝ)..(1 / 2), (u ^ 2 - r) * Real.exp (-s' * (u ^ 2 - r)) < 0 := by
    have e : (∫ u in (-1 / 2 : ℝ)..(1 / 2), (u ^ 2 - r) * Real.exp (-s' * (u ^ 2 - r)))
        = - ∫ u in (-1 / 2 : ℝ)..(1 / 2), (r - u ^ 2) * Real.exp (s' * (r - u ^ 2)) := by
      rw [← intervalIntegral.integral_neg]
      congr 1; funext u
      have : -s' * (u ^ 2 - r) = s' * (r - u ^ 2) := by ring
      rw [this]; ring
    rw [e]; linarith
  have hcont : Continuous fun T : ℝ => ∫ u in (-1 / 2 : ℝ)..(1 / 2), (u ^ 2 - r) * Real.exp (T * (u ^ 2 - r)) :=
    intervalIntegral.continuous_parametric_intervalIntegral_of_continuous' (by fun_prop) _ _
  have := intermediate_value_Icc (a := -s') (b := s) (by linarith) hcont.continuousOn
  obtain ⟨T, _, hT⟩ := this ⟨hneg.le, hpos.le⟩
  exact ⟨T, hT⟩

/-- The solution of the unit problem vanishes only for the variance of the uniform law. -/
theorem unit_tilt_ne {r T : ℝ} (hT : ∫ u in (-1 / 2 : ℝ)..(1 / 2), (u ^ 2 - r) * Real.exp (T * (u ^ 2 - r)) = 0)
    (hr : r ≠ 1 / 12) : T ≠ 0 := by
  rintro rfl
  apply hr
  simp only [zero_mul, Real.exp_zero, mul_one] at hT
  rw [intervalIntegral.integral_sub (Continuous.intervalIntegrable (by fun_prop) _ _)
    (Continuous.intervalIntegrable (by fun_prop) _ _)] at hT
  simp [integral_pow] at hT
  norm_num at hT
  linarith

/-- The multipliers solving the problem on `[a, b]` with variance `r (b - a)²`. -/
theorem qm_solution {a b r T : ℝ} (hab : a < b)
    (hT : ∫ u in (-1 / 2 : ℝ)..(1 / 2), (u ^ 2 - r) * Real.exp (T * (u ^ 2 - r)) = 0) :
    let t := T / (b - a) ^ 2
    let lam : ℝ × ℝ := (-((a + b) * t), t)
    qm a b 1 lam = (a + b) / 2 * qm a b 0 lam ∧ qm a b 2 lam = (r * (b - a) ^ 2 + ((a + b) / 2) ^ 2) * qm a b 0 lam := by
  intro t lam
  have hw : 0 < b - a := sub_pos.mpr hab
  set w := b - a with hwd
  set m := (a + b) / 2 with hm
  have hchange : ∀ F : ℝ → ℝ, ∫ x in a..b, F x = w * ∫ u in (-1 / 2 : ℝ)..(1 / 2), F (w * u + m) := by
    intro F
    rw [intervalIntegral.integral_comp_mul_add F hw.ne' m, smul_eq_mul, ← mul_assoc, mul_inv_cancel₀ hw.ne', one_mul]
    congr 1 <;> rw [hwd, hm] <;> ring
  have hexp : ∀ u : ℝ, Real.exp (lam.1 * (w * u + m) + lam.2 * (w * u + m) ^ 2)
      = Real.exp (T * r - t * m ^ 2) * Real.exp (T * (u ^ 2 - r)) := by
    intro u
    rw [← Real.exp_add]
    congr 1
    have h1 : lam.1 = -(2 * m * t) := by show -((a + b) * t) = _; rw [hm]; ring
    have h2 : lam.2 = t := rfl
    have h3 : T = t * w ^ 2 := by show T = T / w ^ 2 * w ^ 2; field_simp
    rw [h1, h2, h3]; ring
  have hq : ∀ k : ℕ, qm a b k lam = w * (Real.exp (T * r - t * m ^ 2) *
      ∫ u in (-1 / 2 : ℝ)..(1 / 2), (w * u + m) ^ k * Real.exp (T * (u ^ 2 - r))) := by
    intro k
    rw [qm, hchange]
    congr 1
    rw [← intervalIntegral.integral_const_mul]
    congr 1; funext u
    rw [hexp]; ring
  have hodd : ∫ u in (-1 / 2 : ℝ)..(1 / 2), u * Real.exp (T * (u ^ 2 - r)) = 0 := by
    have h := intervalIntegral.integral_comp_neg (a := -1 / 2) (b := 1 / 2) (fun u : ℝ => u * Real.exp (T * (u ^ 2 - r)))
    have e1 : (-(1 / 2 : ℝ)) = -1 / 2 := by norm_num
    have e2 : (-(-1 / 2 : ℝ)) = 1 / 2 := by norm_num
    rw [e1, e2] at h
    have e3 : (fun x : ℝ => -x * Real.exp (T * ((-x) ^ 2 - r))) = fun x => -(x * Real.exp (T * (x ^ 2 - r))) := by
      funext x; rw [neg_sq]; ring
    rw [e3, intervalIntegral.integral_neg] at h
    linarith
  have hii : ∀ f : ℝ → ℝ, Continuous f → IntervalIntegrable f volume (-1 / 2) (1 / 2) := fun f hf => hf.intervalIntegrable _ _
  set I0 := ∫ u in (-1 / 2 : ℝ)..(1 / 2), Real.exp (T * (u ^ 2 - r)) with hI0
  have hsq : ∫ u in (-1 / 2 : ℝ)..(1 / 2), u ^ 2 * Real.exp (T * (u ^ 2 - r)) = r * I0 := by
    rw [hI0, ← sub_eq_zero, ← intervalIntegral.integral_const_mul, ← intervalIntegral.integral_sub (hii _ (by fun_prop))
      (hii _ (by fun_prop)), ← hT]
    congr 1; funext u; ring
  have hL0 : ∫ u in (-1 / 2 : ℝ)..(1 / 2), (w * u + m) ^ 0 * Real.exp (T * (u ^ 2 - r)) = I0 := by
    rw [hI0]; congr 1; funext u; ring
  have hL1 : ∫ u in (-1 / 2 : ℝ)..(1 / 2), (w * u + m) ^ 1 * Real.exp (T * (u ^ 2 - r)) = m * I0 := by
    have : (fun u : ℝ => (w * u + m) ^ 1 * Real.exp (T * (u ^ 2 - r)))
        = fun u => w * (u * Real.exp (T * (u ^ 2 - r))) + m * Real.exp (T * (u ^ 2 - r)) := by funext u; ring
    rw [this, intervalIntegral.integral_add (hii _ (by fun_prop)) (hii _ (by fun_prop)), intervalIntegral.integral_const_mul,
      intervalIntegral.integral_const_mul, hodd, ← hI0]
    ring
  have hL2 : ∫ u in (-1 / 2 : ℝ)..(1 / 2), (w * u + m) ^ 2 * Real.exp (T * (u ^ 2 - r)) = (r * w ^ 2 + m ^ 2) * I0 := by
    have : (fun u : ℝ => (w * u + m) ^ 2 * Real.exp (T * (u ^ 2 - r)))
        = fun u => w ^ 2 * (u ^ 2 * Real.exp (T * (u ^ 2 - r))) + 2 * m * w * (u * Real.exp (T * (u ^ 2 - r)))
          + m ^ 2 * Real.exp (T * (u ^ 2 - r)) := by funext u; ring
    rw [this, intervalIntegral.integral_add (hii _ (by fun_prop)) (hii _ (by fun_prop)),
      intervalIntegral.integral_add (hii _ (by fun_prop)) (hii _ (by fun_prop)), intervalIntegral.integral_const_mul,
      intervalIntegral.integral_const_mul, intervalIntegral.integral_const_mul, hodd, hsq, ← hI0]
    ring
  rw [hq 0, hq 1, hq 2, hL0, hL1, hL2]
  constructor <;> ring

/-- Two multipliers with the same normalised moments are equal. -/
theorem qm_unique {a b : ℝ} (hab : a < b) (l l' : ℝ × ℝ) {m1 m2 : ℝ} (h1 : qm a b 1 l = m1 * qm a b 0 l)
    (h2 : qm a b 2 l = m2 * qm a b 0 l) (h1' : qm a b 1 l' = m1 * qm a b 0 l') (h2' : qm a b 2 l' = m2 * qm a b 0 l') : l = l' := by
  have hE := qm_pos hab l
  have hE' := qm_pos hab l'
  set k := Real.log (qm a b 0 l / qm a b 0 l') with hk
  have hek : Real.exp k = qm a b 0 l / qm a b 0 l' := Real.exp_log (div_pos hE hE')
  set y : ℝ → ℝ := fun x => (l.1 - l'.1) * x + (l.2 - l'.2) * x ^ 2 - k with hy
  have hyc : Continuous y := by rw [hy]; fun_prop
  have hexp : ∀ x, Real.exp (l.1 * x + l.2 * x ^ 2) = Real.exp k * (Real.exp (y x) * Real.exp (l'.1 * x + l'.2 * x ^ 2)) := by
    intro x
    rw [← Real.exp_add, ← Real.exp_add]; congr 1; simp only [hy]; ring
  have hmom : ∀ L : ℝ × ℝ, qm a b 1 L = m1 * qm a b 0 L → qm a b 2 L = m2 * qm a b 0 L →
      ∫ x in a..b, y x * Real.exp (L.1 * x + L.2 * x ^ 2) = ((l.1 - l'.1) * m1 + (l.2 - l'.2) * m2 - k) * qm a b 0 L := by
    intro L hL1 hL2
    have e : (fun x => y x * Real.exp (L.1 * x + L.2 * x ^ 2)) = fun x => (l.1 - l'.1) * (x ^ 1 * Real.exp (L.1 * x + L.2 * x ^ 2))
        + (l.2 - l'.2) * (x ^ 2 * Real.exp (L.1 * x + L.2 * x ^ 2)) - k * (x ^ 0 * Real.exp (L.1 * x + L.2 * x ^ 2)) := by
      funext x; simp only [hy]; ring
    rw [e, intervalIntegral.integral_sub (Continuous.intervalIntegrable (by fun_prop) _ _) (Continuous.intervalIntegrable (by fun_prop) _ _),
      intervalIntegral.integral_add (Continuous.intervalIntegrable (by fun_prop) _ _) (Continuous.intervalIntegrable (by fun_prop) _ _),
      intervalIntegral.integral_const_mul, intervalIntegral.integral_const_mul, intervalIntegral.integral_const_mul, ← qm, ← qm, ← qm, hL1, hL2]
    ring
  have hzero : ∫ x in a..b, y x * (Real.exp (y x) - 1) * Real.exp (l'.1 * x + l'.2 * x ^ 2) = 0 := by
    have e : (fun x => y x * (Real.exp (y x) - 1) * Real.exp (l'.1 * x + l'.2 * x ^ 2))
        = fun x => (Real.exp k)⁻¹ * (y x * Real.exp (l.1 * x + l.2 * x ^ 2)) - y x * Real.exp (l'.1 * x + l'.2 * x ^ 2) := by
      funext x
      rw [hexp]
      have := (Real.exp_pos k).ne'
      field_simp
      try ring
    rw [e, intervalIntegral.integral_sub (Continuous.intervalIntegrable (by fun_prop) _ _) (Continuous.intervalIntegrable (by fun_prop) _ _),
      intervalIntegral.integral_const_mul, hmom l h1 h2, hmom l' h1' h2', hek]
    field_simp
    ring
  have hsign : ∀ z : ℝ, 0 ≤ z * (Real.exp z - 1) ∧ (z ≠ 0 → 0 < z * (Real.exp z - 1)) := by
    intro z
    have hp : z ≠ 0 → 0 < z * (Real.exp z - 1) := by
      intro hz
      rcases lt_or_gt_of_ne hz with h | h
      · have : Real.exp z < 1 := by rw [← Real.exp_zero]; exact Real.exp_lt_exp.mpr h
        exact mul_pos_of_neg_of_neg h (by linarith)
      · have := Real.one_lt_exp_iff.mpr h
        exact mul_pos h (by linarith)
    refine ⟨?_, hp⟩
    by_cases hz : z = 0
    · simp [hz]
    · exact (hp hz).le
  have hyz : ∀ x ∈ Icc a b, y x = 0 := by
    intro x hx
    by_contra hne
    have : 0 < ∫ x in a..b, y x * (Real.exp (y x) - 1) * Real.exp (l'.1 * x + l'.2 * x ^ 2) :=
      intervalIntegral.integral_pos hab (by fun_prop) (fun u _ => mul_nonneg (hsign _).1 (Real.exp_pos _).le)
        ⟨x, hx, mul_pos ((hsign _).2 hne) (Real.exp_pos _)⟩
    rw [hzero] at this
    exact lt_irrefl _ this
  have ea := hyz a ⟨le_rfl, hab.le⟩
  have eb := hyz b ⟨hab.le, le_rfl⟩
  have em := hyz ((a + b) / 2) ⟨by linarith, by linarith⟩
  simp only [hy] at ea eb em
  have hw : 0 < b - a := sub_pos.mpr hab
  have d2 : l.2 - l'.2 = 0 := by
    have : (l.2 - l'.2) * (b - a) ^ 2 = 0 := by linear_combination 2 * ea + 2 * eb - 4 * em
    rcases mul_eq_zero.mp this with h | h
    · exact h
    · exact absurd h (pow_pos hw 2).ne'
  have d1 : l.1 - l'.1 = 0 := by
    rw [d2] at ea eb
    have : (l.1 - l'.1) * (b - a) = 0 := by linear_combination eb - ea
    rcases mul_eq_zero.mp this with h | h
    · exact h
    · exact absurd h hw.ne'
  exact Prod.ext (sub_eq_zero.mp d1) (sub_eq_zero.mp d2)

/-- Shape and moments of the perturbed density. -/
theorem varPert_moments {a b δ : ℝ} (hab : a < b) (optimize : (ℝ → ℝ) → ℝ → ℝ → ℝ × ℝ → ℝ × ℝ) (hδ : δ ≠ (b - a) ^ 2 / 12)
    {p : ℝ → ℝ} (hp : varPert optimize (.uniform a b) δ = .ok p) {lam : ℝ × ℝ}
    (hlam : optimize (Marg.uniform a b).pdf a b ((a + b) / 2, δ + ((a + b) / 2) ^ 2) = lam) :
    (∀ x ∈ Icc a b, p x = 1 / qm a b 0 lam * Real.exp (lam.1 * x + lam.2 * x ^ 2)) ∧ (∀ x, x ∉ Icc a b → p x = 0) ∧
    (∫ x, p x = 1) ∧ (∫ x, x * p x = qm a b 1 lam / qm a b 0 lam) ∧
    (∫ x, (x - (a + b) / 2) ^ 2 * p x
      = (qm a b 2 lam - 2 * ((a + b) / 2) * qm a b 1 lam + ((a + b) / 2) ^ 2 * qm a b 0 lam) / qm a b 0 lam) := by
  have hE := qm_pos hab lam
  have hba : 0 < b - a := sub_pos.mpr hab
  have hvar : ¬ δ = (Marg.uniform a b).var := hδ
  rw [varPert, if_neg hvar] at hp
  simp only [Except.ok.injEq] at hp
  have hmean : (Marg.uniform a b).mean = (a + b) / 2 := rfl
  have hin : ∀ x ∈ Icc a b, p x = 1 / qm a b 0 lam * Real.exp (lam.1 * x + lam.2 * x ^ 2) := by
    intro x hx
    rw [← hp]
    have hx' : a ≤ x ∧ x ≤ b := hx
    have hpdf : (Marg.uniform a b).pdf x = 1 / (b - a) := by simp only [Marg.pdf, if_pos hx']
    dsimp only
    rw [hpdf, hmean, hlam, Real.exp_sub, Real.exp_log (tilt_pos hab lam), tiltIntegral_uniform hab]
    field_simp
  have hout : ∀ x, x ∉ Icc a b → p x = 0 := by
    intro x hx
    rw [← hp]
    have hpdf : (Marg.uniform a b).pdf x = 0 := by
      simp only [Marg.pdf]; exact if_neg hx
    simp only [hpdf, mul_zero]
  have hmom : ∀ k : ℕ, ∫ x, x ^ k * p x = qm a b k lam / qm a b 0 lam := by
    intro k
    rw [integral_indicator_Icc hab.le (fun x => 1 / qm a b 0 lam * (x ^ k * Real.exp (lam.1 * x + lam.2 * x ^ 2)))
      (fun x => x ^ k * p x) (fun x hx => by rw [hin x hx]; ring) (fun x hx => by rw [hout x hx, mul_zero]),
      intervalIntegral.integral_const_mul, ← qm, one_div, inv_mul_eq_div]
  refine ⟨hin, hout, ?_, ?_, ?_⟩
  · have := hmom 0
    simp only [pow_zero, one_mul] at this
    rw [this, div_self hE.ne']
  · have := hmom 1
    simpa only [pow_one] using this
  · set m := (a + b) / 2
    rw [integral_indicator_Icc hab.le (fun x => 1 / qm a b 0 lam * (x ^ 2 * Real.exp (lam.1 * x + lam.2 * x ^ 2)
        - 2 * m * (x ^ 1 * Real.exp (lam.1 * x + lam.2 * x ^ 2)) + m ^ 2 * (x ^ 0 * Real.exp (lam.1 * x + lam.2 * x ^ 2))))
      (fun x => (x - m) ^ 2 * p x) (fun x hx => by rw [hin x hx]; ring) (fun x hx => by rw [hout x hx, mul_zero]),
      intervalIntegral.integral_const_mul, intervalIntegral.integral_add (Continuous.intervalIntegrable (by fun_prop) _ _)
        (Continuous.intervalIntegrable (by fun_prop) _ _), intervalIntegral.integral_sub
        (Continuous.intervalIntegrable (by fun_prop) _ _) (Continuous.intervalIntegrable (by fun_prop) _ _),
      intervalIntegral.integral_const_mul, intervalIntegral.integral_const_mul, ← qm, ← qm, ← qm]
    ring

/-- The perturbed density has the original mean and the requested variance exactly when its multiplier solves the moment equations. -/
theorem varPert_honoured_iff {a b δ : ℝ} (hab : a < b) (optimize : (ℝ → ℝ) → ℝ → ℝ → ℝ × ℝ → ℝ × ℝ) (hδ : δ ≠ (b - a) ^ 2 / 12)
    {p : ℝ → ℝ} (hp : varPert optimize (.uniform a b) δ = .ok p) {lam : ℝ × ℝ}
    (hlam : optimize (Marg.uniform a b).pdf a b ((a + b) / 2, δ + ((a + b) / 2) ^ 2) = lam) :
    (∫ x, x * p x = (a + b) / 2 ∧ ∫ x, (x - (a + b) / 2) ^ 2 * p x = δ) ↔
      (qm a b 1 lam = (a + b) / 2 * qm a b 0 lam ∧ qm a b 2 lam = (δ + ((a + b) / 2) ^ 2) * qm a b 0 lam) := by
  obtain ⟨_, _, _, h4, h5⟩ := varPert_moments hab optimize hδ hp hlam
  have hE := (qm_pos hab lam).ne'
  rw [h4, h5, div_eq_iff hE, div_eq_iff hE]
  constructor
  · rintro ⟨e1, e2⟩
    refine ⟨e1, ?_⟩
    rw [e1] at e2
    linear_combination e2
  · rintro ⟨e1, e2⟩
    refine ⟨e1, ?_⟩
    rw [e1, e2]
    ring

/-- A variance asked for by the user, on an interval `[a, b]`, as a fraction `r` of `(b - a)²` (`1/12` is the original one).  A density
on the interval with the original mean and this variance exists exactly for `0 < r < 1/4`. -/
def Honoured (a b δ : ℝ) (p : ℝ → ℝ) : Prop := ∫ x, x * p x = (a + b) / 2 ∧ ∫ x, (x - (a + b) / 2) ^ 2 * p x = δ

set_option maxHeartbeats 800000 in
/-- **C153 (partial).**  For every admissible fraction `r` there is a number `T`, depending on `r` only, such that for every interval the perturbed
marginal has the original mean and the variance `r (b - a)²` exactly when `|T|` and `|(a + b) T|` are at most `1000 (b - a)²`.  `optimize` is
any function returning a minimum of `H` over the box. -/
theorem C153_exact_partial (r : ℝ) (h0 : 0 < r) (h1 : r < 1 / 4) (hr : r ≠ 1 / 12) :
    ∃ T : ℝ, T ≠ 0 ∧ ∀ (a b : ℝ) (_ : a < b) (optimize : (ℝ → ℝ) → ℝ → ℝ → ℝ × ℝ → ℝ × ℝ)
      (_ : BoxMin (Marg.uniform a b).pdf a b ((a + b) / 2, r * (b - a) ^ 2 + ((a + b) / 2) ^ 2)
        (optimize (Marg.uniform a b).pdf a b ((a + b) / 2, r * (b - a) ^ 2 + ((a + b) / 2) ^ 2))),
      ∃ p, varPert optimize (.uniform a b) (r * (b - a) ^ 2) = .ok p ∧ ∫ x, p x = 1 ∧
        (Honoured a b (r * (b - a) ^ 2) p ↔ |T| ≤ 1000 * (b - a) ^ 2 ∧ |(a + b) * T| ≤ 1000 * (b - a) ^ 2) := by
  obtain ⟨T, hT⟩ := unit_tilt h0 h1
  refine ⟨T, unit_tilt_ne hT hr, ?_⟩
  intro a b hab optimize hbox
  have hw : 0 < b - a := sub_pos.mpr hab
  have hw2 : 0 < (b - a) ^ 2 := pow_pos hw 2
  have hδ : r * (b - a) ^ 2 ≠ (b - a) ^ 2 / 12 := by
    intro h
    apply hr
    have : r * (b - a) ^ 2 = 1 / 12 * (b - a) ^ 2 := by rw [h]; ring
    exact mul_right_cancel₀ hw2.ne' this
  have hvar : ¬ r * (b - a) ^ 2 = (Marg.uniform a b).var := hδ
  obtain ⟨p, hp⟩ : ∃ p, varPert optimize (.uniform a b) (r * (b - a) ^ 2) = .ok p := by
    rw [varPert, if_neg hvar]; exact ⟨_, rfl⟩
  refine ⟨p, hp, (varPert_moments hab optimize hδ hp rfl).2.2.1, ?_⟩
  rw [Honoured, varPert_honoured_iff hab optimize hδ hp rfl]
  obtain ⟨s1, s2⟩ := qm_solution hab hT
  set t := T / (b - a) ^ 2 with ht
  set lam : ℝ × ℝ := (-((a + b) * t), t) with hl
  set mu := optimize (Marg.uniform a b).pdf a b ((a + b) / 2, r * (b - a) ^ 2 + ((a + b) / 2) ^ 2) with hmu
  have hboxiff : InBox lam ↔ |T| ≤ 1000 * (b - a) ^ 2 ∧ |(a + b) * T| ≤ 1000 * (b - a) ^ 2 := by
    have e1 : lam.1 = -((a + b) * T) / (b - a) ^ 2 := by rw [hl, ht]; ring
    have e2 : lam.2 = T / (b - a) ^ 2 := rfl
    rw [InBox, ← abs_le, ← abs_le, e1, e2, abs_div, abs_div, abs_neg, abs_of_pos hw2, div_le_iff₀ hw2, div_le_iff₀ hw2, and_comm]
  rw [← hboxiff]
  constructor
  · rintro ⟨e1, e2⟩
    have : mu = lam := qm_unique hab mu lam e1 e2 s1 s2
    rw [← this]; exact hbox.1
  · intro hin
    have hle := hbox.2 lam hin
    have hgrad : gradH (Marg.uniform a b).pdf a b ((a + b) / 2, r * (b - a) ^ 2 + ((a + b) / 2) ^ 2) lam = .ok (0, 0) := by
      have hE := (qm_pos hab lam).ne'
      rw [gradH_uniform hab, s1, s2]
      simp [hE]
    have hglob := C62_stationary_min a b hab _ lam hgrad
    have hmin : IsLocalMin (dualH (Marg.uniform a b).pdf a b ((a + b) / 2, r * (b - a) ^ 2 + ((a + b) / 2) ^ 2)) mu :=
      Filter.Eventually.of_forall fun nu => hle.trans (hglob nu)
    obtain ⟨_, _, _, c4, c5⟩ := C62_uniform a b (r * (b - a) ^ 2) hab optimize hδ hmin p hp
    exact (varPert_honoured_iff hab optimize hδ hp rfl).mp ⟨c4, c5⟩

/-- A minimum of `H` over the box exists, for every interval and every request. -/
theorem boxMin_exists {a b : ℝ} (hab : a < b) (rhs : ℝ × ℝ) : ∃ lam, BoxMin (Marg.uniform a b).pdf a b rhs lam := by
  have hcq : Continuous fun lam : ℝ × ℝ => qm a b 0 lam :=
    intervalIntegral.continuous_parametric_intervalIntegral_of_continuous' (by fun_prop) _ _
  have hba : 0 < 1 / (b - a) := one_div_pos.mpr (sub_pos.mpr hab)
  have hc : Continuous fun lam : ℝ × ℝ => dualH (Marg.uniform a b).pdf a b rhs lam := by
    simp only [dualH, tiltIntegral_uniform hab]
    exact ((continuous_const.mul hcq).log fun lam => (mul_pos hba (qm_pos hab lam)).ne').sub (by fun_prop)
  have hK : IsCompact (Icc (-1000 : ℝ) 1000 ×ˢ Icc (-1000 : ℝ) 1000) := isCompact_Icc.prod isCompact_Icc
  obtain ⟨lam, hin, hmin⟩ := hK.exists_isMinOn ⟨(0, 0), by constructor <;> constructor <;> norm_num⟩ hc.continuousOn
  exact ⟨lam, ⟨hin.1, hin.2⟩, fun mu hmu => hmin ⟨hmu.1, hmu.2⟩⟩

/-- The optimiser exists: a function meeting the contract of `C153_exact_partial` for all intervals and requests. -/
theorem boxOptimizer_exists : ∃ optimize : (ℝ → ℝ) → ℝ → ℝ → ℝ × ℝ → ℝ × ℝ, ∀ a b rhs, a < b →
    BoxMin (Marg.uniform a b).pdf a b rhs (optimize (Marg.uniform a b).pdf a b rhs) := by
  classical
  refine ⟨fun p a b rhs => if h : ∃ lam, BoxMin p a b rhs lam then h.choose else 0, fun a b rhs hab => ?_⟩
  have h := boxMin_exists hab rhs
  dsimp only
  rw [dif_pos h]
  exact h.choose_spec

/-- The constructor accepts every positive variance for a Uniform marginal. -/
theorem pliVariance_accepts (N : ℕ) (hN : N ≠ 0) (mean std δ : ℝ) (hδ : 0 < δ) :
    pliVarianceInit N true [mean] [std] (.vec [δ]) false = .ok [[δ]] := by
  simp [pliVarianceInit, pliInit, vstackDeltas, hN, hδ]

/-- **C153 is violated (units).**  Ask for any variance other than the original one, as a fraction `r` of `(b - a)²` that some density on the
interval has (with the same mean): for every interval short enough the request is accepted, a density `q` honours it, and the density used by the
run, which integrates to one, does not.  The multipliers scale as `1 / (b - a)²`, the box of the optimiser is fixed. -/
theorem C153_violated (r : ℝ) (h0 : 0 < r) (h1 : r < 1 / 4) (hr : r ≠ 1 / 12) :
    ∃ w0 : ℝ, 0 < w0 ∧ ∀ (a b : ℝ) (_ : a < b) (_ : b - a < w0) (optimize : (ℝ → ℝ) → ℝ → ℝ → ℝ × ℝ → ℝ × ℝ)
      (_ : ∀ rhs, BoxMin (Marg.uniform a b).pdf a b rhs (optimize (Marg.uniform a b).pdf a b rhs)),
      (∀ N : ℕ, N ≠ 0 → ∀ mean std, pliVarianceInit N true [mean] [std] (.vec [r * (b - a) ^ 2]) false = .ok [[r * (b - a) ^ 2]]) ∧
      (∃ q : ℝ → ℝ, (∀ x, 0 ≤ q x) ∧ (∀ x, x ∉ Icc a b → q x = 0) ∧ ∫ x, q x = 1 ∧ Honoured a b (r * (b - a) ^ 2) q) ∧
      ∃ p, varPert optimize (.uniform a b) (r * (b - a) ^ 2) = .ok p ∧ ∫ x, p x = 1 ∧ ¬ Honoured a b (r * (b - a) ^ 2) p := by
  obtain ⟨T, hT0, hT⟩ := C153_exact_partial r h0 h1 hr
  have hTa : 0 < |T| := abs_pos.mpr hT0
  refine ⟨Real.sqrt (|T| / 1000), Real.sqrt_pos.mpr (by positivity), ?_⟩
  intro a b hab hlt optimize hbox
  have hw : 0 < b - a := sub_pos.mpr hab
  have hw2 : 0 < (b - a) ^ 2 := pow_pos hw 2
  refine ⟨fun N hN mean std => pliVariance_accepts N hN mean std _ (by positivity), ?_, ?_⟩
  · have hδ : r * (b - a) ^ 2 ≠ (b - a) ^ 2 / 12 := by
      intro h
      apply hr
      have : r * (b - a) ^ 2 = 1 / 12 * (b - a) ^ 2 := by rw [h]; ring
      exact mul_right_cancel₀ hw2.ne' this
    have hvar : ¬ r * (b - a) ^ 2 = (Marg.uniform a b).var := hδ
    obtain ⟨T', hT'⟩ := unit_tilt h0 h1
    set lam : ℝ × ℝ := (-((a + b) * (T' / (b - a) ^ 2)), T' / (b - a) ^ 2)
    obtain ⟨q, hq⟩ : ∃ q, varPert (fun _ _ _ _ => lam) (.uniform a b) (r * (b - a) ^ 2) = .ok q := by
      rw [varPert, if_neg hvar]; exact ⟨_, rfl⟩
    obtain ⟨q1, q2, q3, _, _⟩ := varPert_moments hab (fun _ _ _ _ => lam) hδ hq (lam := lam) rfl
    refine ⟨q, fun x => ?_, q2, q3, ?_⟩
    · by_cases hx : x ∈ Icc a b
      · rw [q1 x hx]
        exact mul_nonneg (one_div_pos.mpr (qm_pos hab lam)).le (Real.exp_pos _).le
      · rw [q2 x hx]
    · exact (varPert_honoured_iff hab (fun _ _ _ _ => lam) hδ hq (lam := lam) rfl).mpr (qm_solution hab hT')
  · obtain ⟨p, hp, hp1, hiff⟩ := hT a b hab optimize (hbox _)
    refine ⟨p, hp, hp1, ?_⟩
    rw [hiff]
    rintro ⟨h, _⟩
    have := (Real.lt_sqrt hw.le).mp hlt
    rw [lt_div_iff₀ (by norm_num : (0 : ℝ) < 1000)] at this
    linarith

/-- A variance, doubled: short intervals exist and the optimiser of the contract exists. -/
example : ∃ (a b : ℝ) (optimize : (ℝ → ℝ) → ℝ → ℝ → ℝ × ℝ → ℝ × ℝ), a < b ∧
    ∃ p, varPert optimize (.uniform a b) (1 / 6 * (b - a) ^ 2) = .ok p ∧ ∫ x, p x = 1 ∧ ¬ Honoured a b (1 / 6 * (b - a) ^ 2) p := by
  obtain ⟨w0, hw0, h⟩ := C153_violated (1 / 6) (by norm_num) (by norm_num) (by norm_num)
  obtain ⟨o, ho⟩ := boxOptimizer_exists
  exact ⟨0, w0 / 2, o, by linarith, (h 0 (w0 / 2) (by linarith) (by linarith) o (fun rhs => ho _ _ _ (by linarith))).2.2⟩

/-- And long ones, for which the request is honoured. -/
example : ∃ (a b : ℝ) (optimize : (ℝ → ℝ) → ℝ → ℝ → ℝ × ℝ → ℝ × ℝ), a < b ∧
    ∃ p, varPert optimize (.uniform a b) (1 / 6 * (b - a) ^ 2) = .ok p ∧ Honoured a b (1 / 6 * (b - a) ^ 2) p := by
  obtain ⟨T, _, h⟩ := C153_exact_partial (1 / 6) (by norm_num) (by norm_num) (by norm_num)
  obtain ⟨o, ho⟩ := boxOptimizer_exists
  have hT := abs_nonneg T
  obtain ⟨p, hp, _, hiff⟩ := h (-(1 + |T|)) (1 + |T|) (by linarith) o (ho _ _ _ (by linarith))
  refine ⟨-(1 + |T|), 1 + |T|, o, by linarith, p, hp, hiff.mpr ⟨by nlinarith, ?_⟩⟩
  rw [neg_add_cancel, zero_mul, abs_zero]
  positivity

/-- A probability density on `[a, b]` has a second moment about the middle below `(b - a)²/4`. -/
theorem second_moment_lt {a b : ℝ} (hab : a < b) (p : ℝ → ℝ) (hp : ∀ x, 0 ≤ p x) (hout : ∀ x, x ∉ Icc a b → p x = 0) (h1 : ∫ x, p x = 1) :
    ∫ x, (x - (a + b) / 2) ^ 2 * p x < (b - a) ^ 2 / 4 := by
  have hi : Integrable p := by
    by_contra h
    rw [integral_undef h] at h1
    exact zero_ne_one h1
  have hle : ∀ x, (x - (a + b) / 2) ^ 2 * p x ≤ (b - a) ^ 2 / 4 * p x := by
    intro x
    by_cases hx : x ∈ Icc a b
    · apply mul_le_mul_of_nonneg_right _ (hp x)
      nlinarith [hx.1, hx.2]
    · rw [hout x hx]; simp
  have hi2 : Integrable fun x => (x - (a + b) / 2) ^ 2 * p x := by
    refine (hi.const_mul ((b - a) ^ 2 / 4)).mono'
      (AEStronglyMeasurable.mul (Continuous.aestronglyMeasurable (by fun_prop)) hi.aestronglyMeasurable)
      (Filter.Eventually.of_forall fun x => ?_)
    rw [Real.norm_eq_abs, abs_of_nonneg (mul_nonneg (sq_nonneg _) (hp x))]
    exact hle x
  rcases lt_or_eq_of_le (integral_mono hi2 (hi.const_mul _) hle) with h | h
  · rwa [integral_const_mul, h1, mul_one] at h
  · exfalso
    have h0 : ∫ x, ((b - a) ^ 2 / 4 * p x - (x - (a + b) / 2) ^ 2 * p x) = 0 := by
      rw [integral_sub (hi.const_mul _) hi2, h, sub_self]
    rw [integral_eq_zero_iff_of_nonneg (fun x => sub_nonneg.mpr (hle x)) ((hi.const_mul _).sub hi2)] at h0
    have hz : p =ᵐ[volume] fun _ => 0 := by
      filter_upwards [h0, compl_mem_ae_iff.mpr (measure_singleton (μ := volume) a),
        compl_mem_ae_iff.mpr (measure_singleton (μ := volume) b)] with x hx ha hb
      by_cases hin : x ∈ Icc a b
      · have ha' : a < x := lt_of_le_of_ne hin.1 (fun e => ha e.symm)
        have hb' : x < b := lt_of_le_of_ne hin.2 hb
        have : ((x - a) * (b - x)) * p x = 0 := by
          have hx' : (b - a) ^ 2 / 4 * p x - (x - (a + b) / 2) ^ 2 * p x = 0 := hx
          linear_combination hx'
        rcases mul_eq_zero.mp this with h | h
        · exact absurd h (mul_pos (sub_pos.mpr ha') (sub_pos.mpr hb')).ne'
        · exact h
      · exact hout x hin
    rw [integral_congr_ae hz, integral_zero] at h1
    exact zero_ne_one h1

/-- **C153 is violated (impossible requests).**  A variance of at least `(b - a)²/4` is had by no density on the interval; it is accepted by the
constructor, and the run uses a density on the interval, integrating to one, that does not have it. -/
theorem C153_impossible_violated (a b δ : ℝ) (hab : a < b) (hδ : (b - a) ^ 2 / 4 ≤ δ) (optimize : (ℝ → ℝ) → ℝ → ℝ → ℝ × ℝ → ℝ × ℝ) :
    (∀ N : ℕ, N ≠ 0 → ∀ mean std, pliVarianceInit N true [mean] [std] (.vec [δ]) false = .ok [[δ]]) ∧
    (∀ q : ℝ → ℝ, (∀ x, 0 ≤ q x) → (∀ x, x ∉ Icc a b → q x = 0) → ∫ x, q x = 1 → ¬ Honoured a b δ q) ∧
    ∃ p, varPert optimize (.uniform a b) δ = .ok p ∧ (∀ x, 0 ≤ p x) ∧ (∀ x, x ∉ Icc a b → p x = 0) ∧ ∫ x, p x = 1 ∧ ¬ Honoured a b δ p := by
  have hw2 : 0 < (b - a) ^ 2 := pow_pos (sub_pos.mpr hab) 2
  have hno : ∀ q : ℝ → ℝ, (∀ x, 0 ≤ q x) → (∀ x, x ∉ Icc a b → q x = 0) → ∫ x, q x = 1 → ¬ Honoured a b δ q := by
    intro q h1 h2 h3 h4
    have := second_moment_lt hab q h1 h2 h3
    rw [h4.2] at this
    linarith
  refine ⟨fun N hN mean std => pliVariance_accepts N hN mean std _ (by linarith), hno, ?_⟩
  have hne : δ ≠ (b - a) ^ 2 / 12 := by intro h; linarith
  have hvar : ¬ δ = (Marg.uniform a b).var := hne
  obtain ⟨p, hp⟩ : ∃ p, varPert optimize (.uniform a b) δ = .ok p := by
    rw [varPert, if_neg hvar]; exact ⟨_, rfl⟩
  obtain ⟨q1, q2, q3, _, _⟩ := varPert_moments hab optimize hne hp rfl
  have q0 : ∀ x, 0 ≤ p x := by
    intro x
    by_cases hx : x ∈ Icc a b
    · rw [q1 x hx]
      exact mul_nonneg (one_div_pos.mpr (qm_pos hab _)).le (Real.exp_pos _).le
    · rw [q2 x hx]
  exact ⟨p, hp, q0, q2, q3, hno p q0 q2 q3⟩

/-- On `[0, 2]` a variance of 1 or more. -/
example : ((2 : ℝ) - 0) ^ 2 / 4 ≤ 1 := by norm_num

/-- **C153 is violated (impossible means).**  A mean outside the interval is accepted by `PLIMeanBase`; whatever non-null multiplier the solver returns, the
density used, which is on the interval and integrates to one, does not have this mean. -/
theorem C153_mean_violated (a b δ : ℝ) (hab : a < b) (hδ : δ ≤ a ∨ b ≤ δ) (solve : ℝ → ℝ → ℝ → ℝ) (hl : solve a b δ ≠ 0) :
    (∀ N : ℕ, N ≠ 0 → ∀ mean std, pliMeanInit N true [mean] [std] (.vec [δ]) false = .ok [[δ]]) ∧
    ∃ p, meanPert solve (.uniform a b) δ = .ok p ∧ (∀ x, 0 ≤ p x) ∧ (∀ x, x ∉ Icc a b → p x = 0) ∧ ∫ x, p x = 1 ∧ ∫ x, x * p x ≠ δ := by
  refine ⟨fun N hN mean std => by simp [pliMeanInit, pliInit, vstackDeltas, hN], ?_⟩
  set lam := solve a b δ with hlam
  have hne : ¬ δ = (Marg.uniform a b).mean := by
    have : (Marg.uniform a b).mean = (a + b) / 2 := rfl
    rw [this]
    rcases hδ with h | h
    · intro e; linarith
    · intro e; linarith
  obtain ⟨p, hp⟩ : ∃ p, meanPert solve (.uniform a b) δ = .ok p := by
    rw [meanPert, if_neg hne]; exact ⟨_, rfl⟩
  refine ⟨p, hp, ?_⟩
  rw [meanPert, if_neg hne] at hp
  simp only [Except.ok.injEq] at hp
  rw [← hlam] at hp
  have hpos := exp_diff_div_pos hab hl
  have hc : 0 < lam / (Real.exp (lam * b) - Real.exp (lam * a)) := by
    rw [← inv_div]; exact inv_pos.mpr hpos
  set c := lam / (Real.exp (lam * b) - Real.exp (lam * a)) with hcd
  have hin : ∀ x ∈ Icc a b, p x = c * Real.exp (lam * x) := by
    intro x hx; rw [← hp]; simp [hx.1, hx.2]
  have hout : ∀ x, x ∉ Icc a b → p x = 0 := by
    intro x hx; rw [← hp]
    have : ¬ (x ≤ b ∧ x ≥ a) := fun h => hx ⟨h.2, h.1⟩
    simp only [if_neg this, mul_zero]
  have hint : ∫ x, p x = ∫ x in a..b, c * Real.exp (lam * x) := integral_indicator_Icc hab.le _ p hin hout
  have hint1 : ∫ x, x * p x = ∫ x in a..b, x * (c * Real.exp (lam * x)) :=
    integral_indicator_Icc hab.le _ (fun x => x * p x) (fun x hx => by rw [hin x hx]) (fun x hx => by rw [hout x hx, mul_zero])
  have h1 : ∫ x, p x = 1 := by
    rw [hint, intervalIntegral.integral_const_mul, integral_exp_lin lam a b hl, hcd, div_mul_div_comm, mul_comm lam, div_self]
    refine mul_ne_zero ?_ hl
    intro h; rw [h, zero_div] at hpos; exact lt_irrefl _ hpos
  refine ⟨?_, hout, h1, ?_⟩
  · intro x
    by_cases hx : x ∈ Icc a b
    · rw [hin x hx]; exact mul_nonneg hc.le (Real.exp_pos _).le
    · rw [hout x hx]
  · have hdiff : ∀ e : ℝ, (∫ x, x * p x) - e = ∫ x in a..b, (x - e) * (c * Real.exp (lam * x)) := by
      intro e
      have he : e = e * ∫ x, p x := by rw [h1, mul_one]
      conv_lhs => rw [he]
      rw [hint, hint1, ← intervalIntegral.integral_const_mul, ← intervalIntegral.integral_sub
        (Continuous.intervalIntegrable (by fun_prop) _ _) (Continuous.intervalIntegrable (by fun_prop) _ _)]
      congr 1; funext x; ring
    have hlo : 0 < ∫ x in a..b, (x - a) * (c * Real.exp (lam * x)) :=
      intervalIntegral.integral_pos hab (by fun_prop) (fun x hx => mul_nonneg (sub_nonneg.mpr hx.1.le) (mul_pos hc (Real.exp_pos _)).le)
        ⟨b, ⟨hab.le, le_rfl⟩, mul_pos (sub_pos.mpr hab) (mul_pos hc (Real.exp_pos _))⟩
    have hhi : 0 < ∫ x in a..b, -((x - b) * (c * Real.exp (lam * x))) :=
      intervalIntegral.integral_pos hab (by fun_prop)
        (fun x hx => by rw [← neg_mul]; exact mul_nonneg (by linarith [hx.2]) (mul_pos hc (Real.exp_pos _)).le)
        ⟨a, ⟨le_rfl, hab.le⟩, by rw [← neg_mul]; exact mul_pos (by linarith) (mul_pos hc (Real.exp_pos _))⟩
    rw [intervalIntegral.integral_neg, ← hdiff b] at hhi
    rw [← hdiff a] at hlo
    intro e
    rcases hδ with h | h <;> linarith

/-- A mean of 2 on `[0, 1]`, any non-null multiplier. -/
example : ((2 : ℝ) ≤ 0 ∨ (1 : ℝ) ≤ 2) ∧ (fun _ _ _ => (1 : ℝ) : ℝ → ℝ → ℝ → ℝ) 0 1 2 ≠ 0 := ⟨Or.inr (by norm_num), one_ne_zero⟩

end Verif.Props
