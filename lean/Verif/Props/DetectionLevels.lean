import Verif.Props.Binomial
import Verif.Props.GaussDetection
import Verif.Props.DetectionLimit
import Verif.Props.QrRun

/-!
# C160: a larger probability or confidence level never gives a smaller detection size
-/

namespace Verif.Props
open Verif.Py Verif.Model Set

/-- Contract of the root finder on curves with jumps: the result is in the interval, and arbitrarily close to it the curve takes values on both
sides of the level (a bracketing method keeps a sign change). -/
def BracketSpec (solve : (ℝ → ℝ) → ℝ → ℝ → ℝ → ℝ) : Prop :=
  ∀ f v a b, a ≤ b → f a ≤ v → v ≤ f b → solve f v a b ∈ Icc a b ∧
    ∀ ε > 0, (∃ x ∈ Icc a b, |x - solve f v a b| < ε ∧ f x ≤ v) ∧ ∃ x ∈ Icc a b, |x - solve f v a b| < ε ∧ v ≤ f x

/-- The contract is satisfiable: the last point where the curve is not above the level. -/
theorem bracketSpec_nonempty : ∃ solve, BracketSpec solve := by
  refine ⟨fun f v a b => sSup {x ∈ Icc a b | f x ≤ v}, fun f v a b hab ha hb => ?_⟩
  set T := {x ∈ Icc a b | f x ≤ v} with hT
  have haT : a ∈ T := ⟨⟨le_rfl, hab⟩, ha⟩
  have hbdd : BddAbove T := ⟨b, fun x hx => hx.1.2⟩
  have hmem : sSup T ∈ Icc a b := ⟨le_csSup hbdd haT, csSup_le ⟨a, haT⟩ fun x hx => hx.1.2⟩
  refine ⟨hmem, fun ε hε => ⟨?_, ?_⟩⟩
  · obtain ⟨x, hx, hlt⟩ := exists_lt_of_lt_csSup ⟨a, haT⟩ (show sSup T - ε < sSup T by linarith)
    have := le_csSup hbdd hx
    exact ⟨x, hx.1, by rw [abs_lt]; constructor <;> linarith, hx.2⟩
  · rcases hmem.2.eq_or_lt with h | h
    · exact ⟨b, ⟨hab, le_rfl⟩, by dsimp only; rw [← hT, h]; simpa using hε, hb⟩
    · set x := min b (sSup T + ε / 2) with hx
      have h1 : sSup T < x := lt_min h (by linarith)
      have h2 : x ≤ b := min_le_left _ _
      have h3 : x ≤ sSup T + ε / 2 := min_le_right _ _
      have hxI : x ∈ Icc a b := ⟨by linarith [hmem.1], h2⟩
      refine ⟨x, hxI, by rw [abs_lt]; constructor <;> linarith, ?_⟩
      by_contra hlt
      push Not at hlt
      have := le_csSup hbdd (show x ∈ T from ⟨hxI, hlt.le⟩)
      linarith

/-- On continuous curves the result is a solution: the contract of C16. -/
theorem BracketSpec.solveSpec (solve : (ℝ → ℝ) → ℝ → ℝ → ℝ → ℝ) (h : BracketSpec solve) : SolveSpec solve := by
  intro f v a b hab hf ha hb
  obtain ⟨hm, hc⟩ := h f v a b hab ha hb
  refine ⟨hm, ?_⟩
  set d := solve f v a b
  have hfd := hf d hm
  rw [Metric.continuousWithinAt_iff] at hfd
  by_contra hne
  obtain ⟨δ, hδ, hδ'⟩ := hfd |f d - v| (abs_pos.2 (sub_ne_zero.2 hne))
  obtain ⟨⟨x, hx, hxd, hxv⟩, y, hy, hyd, hyv⟩ := hc δ hδ
  have h1 := hδ' hx (by rw [Real.dist_eq]; exact hxd)
  have h2 := hδ' hy (by rw [Real.dist_eq]; exact hyd)
  rw [Real.dist_eq] at h1 h2
  rcases lt_or_gt_of_ne hne with hlt | hgt
  · rw [abs_of_neg (by linarith : f d - v < 0), abs_lt] at h2
    linarith
  · rw [abs_of_pos (by linarith : 0 < f d - v), abs_lt] at h1
    linarith

/-- What a successful call without confidence level returns. -/
theorem detectionSize_ok (solve : (ℝ → ℝ) → ℝ → ℝ → ℝ → ℝ) (mn mx : ℝ) (f : ℝ → ℝ) (fc : Option (ℝ → ℝ)) (p d : ℝ) (l : List String)
    (h : computeDetectionSize solve mn mx f fc (some p) none none none = .ok ([d], l)) :
    f mn ≤ p ∧ p ≤ f mx ∧ d = solve f p mn mx := by
  unfold computeDetectionSize at h
  simp only [Option.getD_none] at h
  by_cases hc : f mn ≤ p ∧ p ≤ f mx
  · rw [if_neg (by simpa using hc)] at h
    simp only [Except.ok.injEq, Prod.mk.injEq, List.cons.injEq, and_true] at h
    exact ⟨hc.1, hc.2, h.1.symm⟩
  · rw [if_pos hc] at h
    cases h

/-- What a successful call with a confidence level returns. -/
theorem detectionSizeCl_ok (solve : (ℝ → ℝ) → ℝ → ℝ → ℝ → ℝ) (mn mx : ℝ) (f fc : ℝ → ℝ) (p c d dc : ℝ) (l : List String)
    (h : computeDetectionSize solve mn mx f (some fc) (some p) (some c) none none = .ok ([d, dc], l)) :
    fc mn ≤ p ∧ p ≤ fc mx ∧ dc = solve fc p mn mx := by
  unfold computeDetectionSize at h
  simp only [Option.getD_none] at h
  by_cases hc : f mn ≤ p ∧ p ≤ f mx
  · rw [if_neg (by simpa using hc)] at h
    by_cases hc' : fc mn ≤ p ∧ p ≤ fc mx
    · rw [if_neg (by simpa using hc')] at h
      simp only [Except.ok.injEq, Prod.mk.injEq, List.cons.injEq, and_true] at h
      exact ⟨hc'.1, hc'.2, h.1.2.symm⟩
    · rw [if_pos hc'] at h
      cases h
  · rw [if_pos hc] at h
    cases h

/-- **C160, non-decreasing curves.**  Whatever the jumps of the curve, the detection size does not decrease with the probability level. -/
theorem C160_monotone_partial (solve : (ℝ → ℝ) → ℝ → ℝ → ℝ → ℝ) (hs : BracketSpec solve) (mn mx : ℝ) (hd : mn ≤ mx) (f : ℝ → ℝ)
    (hf : MonotoneOn f (Icc mn mx)) (p p' d d' : ℝ) (hp : p < p') (l l' : List String)
    (h : computeDetectionSize solve mn mx f none (some p) none none none = .ok ([d], l))
    (h' : computeDetectionSize solve mn mx f none (some p') none none none = .ok ([d'], l')) : d ≤ d' := by
  obtain ⟨h1, h2, rfl⟩ := detectionSize_ok solve mn mx f none p d l h
  obtain ⟨h3, h4, rfl⟩ := detectionSize_ok solve mn mx f none p' d' l' h'
  obtain ⟨-, hc⟩ := hs f p mn mx hd h1 h2
  obtain ⟨-, hc'⟩ := hs f p' mn mx hd h3 h4
  by_contra hlt
  push Not at hlt
  have hε : 0 < (solve f p mn mx - solve f p' mn mx) / 2 := by linarith
  obtain ⟨⟨x, hx, hxd, hxv⟩, -⟩ := hc _ hε
  obtain ⟨-, y, hy, hyd, hyv⟩ := hc' _ hε
  rw [abs_lt] at hxd hyd
  have := hf hy hx (by linarith)
  linarith

/-- **C160, binomial POD.**  With a slope that is not negative the detection size of the binomial POD does not decrease with the probability level,
and the POD jumps over the level there: just below it is at most the level, just above at least the level. -/
theorem C160_binomial (solve : (ℝ → ℝ) → ℝ → ℝ → ℝ → ℝ) (hs : BracketSpec solve) (mn mx : ℝ) (hd : mn ≤ mx) {N : ℕ} (hN : 0 < N)
    (r : Fin N → ℝ) (det b0 b1 : ℝ) (hb : 0 ≤ b1) (p d : ℝ) (l : List String)
    (h : computeDetectionSize solve mn mx (podBinomial (List.ofFn r) det fun x => b0 + b1 * x) none (some p) none none none = .ok ([d], l)) :
    (∀ a ∈ Icc mn mx, a < d → podBinomial (List.ofFn r) det (fun x => b0 + b1 * x) a ≤ p) ∧
    (∀ a ∈ Icc mn mx, d < a → p ≤ podBinomial (List.ofFn r) det (fun x => b0 + b1 * x) a) ∧
    ∀ p' d' l', p < p' →
      computeDetectionSize solve mn mx (podBinomial (List.ofFn r) det fun x => b0 + b1 * x) none (some p') none none none = .ok ([d'], l') →
      d ≤ d' := by
  have hm : Monotone (podBinomial (List.ofFn r) det fun x => b0 + b1 * x) := (C19_binomial_pod hN r det b0 b1).2.2.1 hb
  refine ⟨fun a ha had => ?_, fun a ha had => ?_, fun p' d' l' hp h' =>
    C160_monotone_partial solve hs mn mx hd _ (hm.monotoneOn _) p p' d d' hp l l' h h'⟩
  · obtain ⟨h1, h2, rfl⟩ := detectionSize_ok solve mn mx _ none p d l h
    obtain ⟨⟨x, hx, hxd, hxv⟩, -⟩ := (hs _ p mn mx hd h1 h2).2 _ (sub_pos.2 had)
    rw [abs_lt] at hxd
    exact (hm (by linarith)).trans hxv
  · obtain ⟨h1, h2, rfl⟩ := detectionSize_ok solve mn mx _ none p d l h
    obtain ⟨-, x, hx, hxd, hxv⟩ := (hs _ p mn mx hd h1 h2).2 _ (sub_pos.2 had)
    rw [abs_lt] at hxd
    exact hxv.trans (hm (by linarith))

/-- **C160, confidence levels of the binomial POD.**  With a slope that is not negative and levels above one half, a larger confidence level does not
give a smaller detection size (for a probability level different from `c^(1/N)`, the value of the curve when all residuals are above). -/
theorem C160_confidence (solve : (ℝ → ℝ) → ℝ → ℝ → ℝ → ℝ) (hs : BracketSpec solve) (mn mx : ℝ) (hd : mn ≤ mx)
    (qBeta : ℕ → ℕ → ℝ → ℝ) (hq : QBetaSpec qBeta) {N : ℕ} (hN : 0 < N) (r : Fin N → ℝ) (det b0 b1 : ℝ) (hb : 0 ≤ b1)
    (c c' p : ℝ) (hc : 1 / 2 < c) (hcc : c < c') (hc' : c' < 1) (hp : p ≠ c ^ ((1 : ℝ) / N)) (d dc d' dc' : ℝ) (l l' : List String)
    (h : computeDetectionSize solve mn mx (podBinomial (List.ofFn r) det fun x => b0 + b1 * x)
      (some (podBinomialCl qBeta (List.ofFn r) det (fun x => b0 + b1 * x) c)) (some p) (some c) none none = .ok ([d, dc], l))
    (h' : computeDetectionSize solve mn mx (podBinomial (List.ofFn r) det fun x => b0 + b1 * x)
      (some (podBinomialCl qBeta (List.ofFn r) det (fun x => b0 + b1 * x) c')) (some p) (some c') none none = .ok ([d', dc'], l')) :
    dc ≤ dc' := by
  obtain ⟨h1, h2, rfl⟩ := detectionSizeCl_ok solve mn mx _ _ p c d dc l h
  obtain ⟨h3, h4, rfl⟩ := detectionSizeCl_ok solve mn mx _ _ p c' d' dc' l' h'
  set f := podBinomialCl qBeta (List.ofFn r) det (fun x => b0 + b1 * x) c with hf
  set f' := podBinomialCl qBeta (List.ofFn r) det (fun x => b0 + b1 * x) c' with hf'
  obtain ⟨-, hcl⟩ := hs f p mn mx hd h1 h2
  obtain ⟨-, hcl'⟩ := hs f' p mn mx hd h3 h4
  have hnum : ∀ x y, x ≤ y → numAbove r (det - (b0 + b1 * x)) ≤ numAbove r (det - (b0 + b1 * y)) := by
    intro x y hxy
    unfold numAbove
    refine Finset.card_le_card fun i hi => ?_
    simp only [Finset.mem_filter, Finset.mem_univ, true_and] at hi ⊢
    have := mul_le_mul_of_nonneg_left hxy hb
    linarith
  have hmono : ∀ k, 1 / 2 < k → k < 1 → Monotone (podBinomialCl qBeta (List.ofFn r) det (fun x => b0 + b1 * x) k) := by
    intro k hk hk1 x y hxy
    rcases (hnum x y hxy).lt_or_eq with hlt | heq
    · exact ((C21_confidence_curve_partial qBeta hq hN r det (fun x => b0 + b1 * x) k k (by linarith) hk1 hk1 x y).2.1 hlt (Or.inr hk)).le
    · rw [podBinomialCl_eq qBeta hN, podBinomialCl_eq qBeta hN, heq]
  by_contra hlt
  push Not at hlt
  have hε : 0 < (solve f p mn mx - solve f' p mn mx) / 2 := by linarith
  obtain ⟨⟨x, hx, hxd, hxv⟩, -⟩ := hcl _ hε
  obtain ⟨-, y, hy, hyd, hyv⟩ := hcl' _ hε
  rw [abs_lt] at hxd hyd
  have hyx : y ≤ x := by linarith
  rcases (numAbove_le r (det - (b0 + b1 * x))).lt_or_eq with hn | hn
  · have e1 := hmono c' (by linarith) hc' hyx
    have e2 := (C21_confidence_curve_partial qBeta hq hN r det (fun x => b0 + b1 * x) c c' (by linarith) (by linarith) hc' x x).1 hn hcc
    rw [← hf, ← hf'] at e2
    rw [← hf'] at e1
    linarith
  · have e1 : f x = c ^ ((1 : ℝ) / N) := by rw [hf, podBinomialCl_eq qBeta hN, if_pos hn]
    have e2 : f mx = c ^ ((1 : ℝ) / N) := by
      have : numAbove r (det - (b0 + b1 * mx)) = N := le_antisymm (numAbove_le r _) (hn.symm.le.trans (hnum x mx hx.2))
      rw [hf, podBinomialCl_eq qBeta hN, if_pos this]
    exact hp (le_antisymm (e2 ▸ h2) (e1 ▸ hxv))

/-- A curve that is strictly increasing where an affine function is not negative and strictly decreasing where it is not positive crosses higher levels
later, when it starts below the lower one and ends above the higher one. -/
theorem levels_of_turning (f : ℝ → ℝ) (A κ : ℝ) (h1 : StrictMonoOn f {a | 0 ≤ A + κ * a}) (h2 : StrictAntiOn f {a | A + κ * a ≤ 0})
    (mn mx p p' d d' : ℝ) (hp : p < p') (hlo : f mn ≤ p) (hhi : p' ≤ f mx) (hd : d ∈ Icc mn mx) (hd' : d' ∈ Icc mn mx)
    (hfd : f d = p) (hfd' : f d' = p') : d < d' := by
  by_contra hle
  push Not at hle
  have hlt : d' < d := lt_of_le_of_ne hle (by rintro rfl; rw [hfd] at hfd'; linarith)
  have hq : A + κ * d ≤ 0 ∨ A + κ * d' ≤ 0 := by
    by_contra hcon
    push Not at hcon
    have := h1 (show d' ∈ {a | 0 ≤ A + κ * a} from hcon.2.le) (show d ∈ {a | 0 ≤ A + κ * a} from hcon.1.le) hlt
    linarith
  rcases le_total κ 0 with hκ | hκ
  · have hdV : A + κ * d ≤ 0 := by
      rcases hq with h | h
      · exact h
      · have := mul_le_mul_of_nonpos_left hlt.le hκ; linarith
    have hbV : A + κ * mx ≤ 0 := by have := mul_le_mul_of_nonpos_left hd.2 hκ; linarith
    have := h2.antitoneOn (show d ∈ {a | A + κ * a ≤ 0} from hdV) (show mx ∈ {a | A + κ * a ≤ 0} from hbV) hd.2
    linarith
  · have hdV : A + κ * d' ≤ 0 := by
      rcases hq with h | h
      · have := mul_le_mul_of_nonneg_left hlt.le hκ; linarith
      · exact h
    have haV : A + κ * mn ≤ 0 := by have := mul_le_mul_of_nonneg_left hd'.1 hκ; linarith
    have := h2.antitoneOn (show mn ∈ {a | A + κ * a ≤ 0} from haV) (show d' ∈ {a | A + κ * a ≤ 0} from hdV) hd'.1
    linarith

/-- **C160, Gaussian POD.**  Although the Gaussian POD need not increase with the defect (C23), its detection size increases strictly with the
probability level, for every data set, every fitted line that is not constant and every search interval. -/
theorem C160_gauss (solve : (ℝ → ℝ) → ℝ → ℝ → ℝ → ℝ) (hso : SolveSpec solve) (mn mx : ℝ) (hd : mn ≤ mx) {n : ℕ} (x : Fin n → ℝ)
    (hx : ∃ i j, x i ≠ x j) (s det b0 b1 : ℝ) (hs : 0 < s) (hb : b1 ≠ 0) (p p' d d' : ℝ) (hp : p < p') (l l' : List String)
    (h : computeDetectionSize solve mn mx (podGauss x s det fun a => b0 + b1 * a) none (some p) none none none = .ok ([d], l))
    (h' : computeDetectionSize solve mn mx (podGauss x s det fun a => b0 + b1 * a) none (some p') none none none = .ok ([d'], l')) : d < d' := by
  obtain ⟨h1, h2, rfl⟩ := detectionSize_ok solve mn mx _ none p d l h
  obtain ⟨h3, h4, rfl⟩ := detectionSize_ok solve mn mx _ none p' d' l' h'
  have hS : 0 < ∑ i, (x i - smean x) ^ 2 := sxx_pos x hx
  have hk : 0 < 1 + 1 / (n : ℝ) := by positivity
  set S := ∑ i, (x i - smean x) ^ 2
  set m := smean x
  set cc := (det - b0) / b1 with hcc
  obtain ⟨r1, r2⟩ := ratio_mono (1 + 1 / (n : ℝ)) S m cc hk hS
  have hpg := fun a => podGauss_ratio x hx s det b0 b1 a hs hb
  have hcont : Continuous (podGauss x s det fun a => b0 + b1 * a) := by
    have : (podGauss x s det fun a => b0 + b1 * a) = fun a => Phi ((b1 / s) * ((a - cc) / Real.sqrt ((1 + 1 / n) + (a - m) ^ 2 / S))) := by
      funext a; exact hpg a
    rw [this]
    refine Phi_continuous.comp (continuous_const.mul (Continuous.div (by fun_prop) (by fun_prop) fun a => ?_))
    have : 0 < (1 + 1 / (n : ℝ)) + (a - m) ^ 2 / S := by positivity
    exact (Real.sqrt_pos.2 this).ne'
  obtain ⟨i1, e1⟩ := hso _ p mn mx hd hcont.continuousOn h1 h2
  obtain ⟨i2, e2⟩ := hso _ p' mn mx hd hcont.continuousOn h3 h4
  have hq : ∀ a, 1 + 1 / (n : ℝ) + (a - m) * (cc - m) / S = (1 + 1 / (n : ℝ) - m * (cc - m) / S) + (cc - m) / S * a := by
    intro a; ring
  simp only [hq] at r1 r2
  rcases lt_or_gt_of_ne hb with hneg | hpos
  · have hbs : b1 / s < 0 := div_neg_of_neg_of_pos hneg hs
    refine levels_of_turning _ (-(1 + 1 / (n : ℝ) - m * (cc - m) / S)) (-((cc - m) / S)) ?_ ?_ mn mx p p' _ _ hp h1 h4 i1 i2 e1 e2
    · intro a ha b hb' hab
      rw [hpg, hpg]
      have ha' : a ∈ {a | (1 + 1 / (n : ℝ) - m * (cc - m) / S) + (cc - m) / S * a ≤ 0} := by
        simp only [mem_setOf_eq] at ha ⊢; linarith
      have hb'' : b ∈ {a | (1 + 1 / (n : ℝ) - m * (cc - m) / S) + (cc - m) / S * a ≤ 0} := by
        simp only [mem_setOf_eq] at hb' ⊢; linarith
      exact Phi_strictMono (mul_lt_mul_of_neg_left (r2 ha' hb'' hab) hbs)
    · intro a ha b hb' hab
      rw [hpg, hpg]
      have ha' : a ∈ {a | 0 ≤ (1 + 1 / (n : ℝ) - m * (cc - m) / S) + (cc - m) / S * a} := by
        simp only [mem_setOf_eq] at ha ⊢; linarith
      have hb'' : b ∈ {a | 0 ≤ (1 + 1 / (n : ℝ) - m * (cc - m) / S) + (cc - m) / S * a} := by
        simp only [mem_setOf_eq] at hb' ⊢; linarith
      exact Phi_strictMono (mul_lt_mul_of_neg_left (r1 ha' hb'' hab) hbs)
  · have hbs : 0 < b1 / s := div_pos hpos hs
    refine levels_of_turning _ (1 + 1 / (n : ℝ) - m * (cc - m) / S) ((cc - m) / S) ?_ ?_ mn mx p p' _ _ hp h1 h4 i1 i2 e1 e2
    · intro a ha b hb' hab
      rw [hpg, hpg]
      exact Phi_strictMono (mul_lt_mul_of_pos_left (r1 ha hb' hab) hbs)
    · intro a ha b hb' hab
      rw [hpg, hpg]
      exact Phi_strictMono (mul_lt_mul_of_pos_left (r2 ha hb' hab) hbs)

/-! ## Quantile regression -/

theorem pinball_level (t t' u : ℝ) : pinball t' u = pinball t u + (t' - t) * u := by
  unfold pinball
  split_ifs <;> ring

theorem quantLoss_level (t t' : ℝ) (obs : List (ℝ × ℝ)) (b0 b1 : ℝ) :
    quantLoss t' obs b0 b1 = quantLoss t obs b0 b1 + (t' - t) * (obs.map fun o => o.2 - (b0 + b1 * o.1)).sum := by
  unfold quantLoss
  induction obs with
  | nil => simp
  | cons o l ih => simp only [List.map_cons, List.sum_cons, ih, pinball_level t t' (o.2 - (b0 + b1 * o.1))]; ring

theorem sum_resid (obs : List (ℝ × ℝ)) (b0 b1 : ℝ) :
    (obs.map fun o => o.2 - (b0 + b1 * o.1)).sum = (obs.map Prod.snd).sum - (obs.length * b0 + b1 * (obs.map Prod.fst).sum) := by
  induction obs with
  | nil => simp
  | cons o l ih => simp only [List.map_cons, List.sum_cons, ih, List.length_cons, Nat.cast_succ]; ring

/-- At the average defect the exact regression lines are in the order of their levels. -/
theorem quant_mean_order (t t' : ℝ) (ht : t < t') (obs : List (ℝ × ℝ)) (hne : obs ≠ []) (b0 b1 b0' b1' : ℝ)
    (h : ∀ c0 c1, quantLoss t obs b0 b1 ≤ quantLoss t obs c0 c1) (h' : ∀ c0 c1, quantLoss t' obs b0' b1' ≤ quantLoss t' obs c0 c1) :
    b0 + b1 * ((obs.map Prod.fst).sum / obs.length) ≤ b0' + b1' * ((obs.map Prod.fst).sum / obs.length) := by
  have hlen : (0 : ℝ) < obs.length := by exact_mod_cast List.length_pos_iff.2 hne
  have e1 := h b0' b1'
  have e2 := h' b0 b1
  rw [quantLoss_level t t' obs b0' b1', quantLoss_level t t' obs b0 b1, sum_resid, sum_resid] at e2
  have e3 : (t' - t) * ((obs.length * b0 + b1 * (obs.map Prod.fst).sum) - (obs.length * b0' + b1' * (obs.map Prod.fst).sum)) ≤ 0 := by
    linarith
  have e4 := nonpos_of_mul_nonpos_right e3 (sub_pos.2 ht)
  have e5 : ∀ u v : ℝ, u + v * ((obs.map Prod.fst).sum / obs.length) = (obs.length * u + v * (obs.map Prod.fst).sum) / obs.length := by
    intro u v; field_simp
  rw [e5, e5, div_le_div_iff_of_pos_right hlen]
  linarith

/-- **C160, quantile regression, restricted.**  With exact regression lines and positive slopes, the detection size does not decrease with the
probability level if the two lines do not approach each other on the way from the average defect to the detection size of the larger level
(at the average defect they are in the right order, `quant_mean_order`). -/
theorem C160_qr_partial (pick : ℝ → ℝ → ℝ) (fit : ℝ → QuantFit) (obs : List (ℝ × ℝ)) (hne : obs ≠ [])
    (hfit : ∀ tau, 0 < tau → tau < 1 → ∀ c0 c1, quantLoss tau obs (fit tau).intercept (fit tau).slope ≤ quantLoss tau obs c0 c1)
    (det mn mx p p' d d' : ℝ) (h0 : 0 < p) (hp : p < p') (h1 : p' < 1) (hsl : 0 < (fit (1 - p)).slope) (hsl' : (fit (1 - p')).slope ≠ 0)
    (hside : let m := (obs.map Prod.fst).sum / obs.length
      ((fit (1 - p')).slope ≤ (fit (1 - p)).slope ∧ m ≤ d') ∨ ((fit (1 - p)).slope ≤ (fit (1 - p')).slope ∧ d' ≤ m))
    (h : qrDetectionSize pick fit det mn mx p = .ok d) (h' : qrDetectionSize pick fit det mn mx p' = .ok d') : d ≤ d' := by
  have key : ∀ (q e : ℝ), (fit (1 - q)).slope ≠ 0 → qrDetectionSize pick fit det mn mx q = .ok e →
      (fit (1 - q)).intercept + (fit (1 - q)).slope * e = det := by
    intro q e hq he
    unfold qrDetectionSize brentLine qrFitFor at he
    by_cases hc : 0 < ((fit (1 - q)).intercept + (fit (1 - q)).slope * mn - det) * ((fit (1 - q)).intercept + (fit (1 - q)).slope * mx - det)
    · rw [if_pos hc] at he; cases he
    · rw [if_neg hc, if_neg hq] at he
      simp only [Except.ok.injEq] at he
      rw [← he]; field_simp; ring
  have e1 := key p d hsl.ne' h
  have e2 := key p' d' hsl' h'
  have e3 := quant_mean_order (1 - p') (1 - p) (by linarith) obs hne _ _ _ _ (hfit (1 - p') (by linarith) (by linarith))
    (hfit (1 - p) (by linarith) (by linarith))
  set m := (obs.map Prod.fst).sum / obs.length
  have e4 : ((fit (1 - p')).slope - (fit (1 - p)).slope) * (d' - m) ≤ 0 := by
    rcases hside with ⟨u, v⟩ | ⟨u, v⟩
    · exact mul_nonpos_of_nonpos_of_nonneg (by linarith) (by linarith)
    · exact mul_nonpos_of_nonneg_of_nonpos (by linarith) (by linarith)
  have e5 : (fit (1 - p)).slope * d ≤ (fit (1 - p)).slope * d' := by nlinarith
  exact le_of_mul_le_mul_left e5 hsl

theorem pinball_lower (t w u : ℝ) (h0 : t - 1 ≤ w) (h1 : w ≤ t) : w * u ≤ pinball t u := by
  rcases le_total 0 u with h | h
  · rw [pinball_nonneg_arg h]; nlinarith
  · rw [pinball_nonpos_arg h]; nlinarith

theorem pinball_strict (t w u : ℝ) (h0 : t - 1 < w) (h1 : w < t) (h : pinball t u ≤ w * u) : u = 0 := by
  rcases lt_trichotomy u 0 with hu | hu | hu
  · rw [pinball_nonpos_arg hu.le] at h; nlinarith
  · exact hu
  · rw [pinball_nonneg_arg hu.le] at h; nlinarith

/-- Data of the violation: the defects 0, 2, 3, 4 with the signals 0, 1, 2, 3. -/
def crossObs : List (ℝ × ℝ) := [(0, 0), (2, 1), (3, 2), (4, 3)]

theorem crossObs_tenth (b0 b1 : ℝ) (h : ∀ c0 c1, quantLoss (1 / 10) crossObs b0 b1 ≤ quantLoss (1 / 10) crossObs c0 c1) :
    b0 = -1 ∧ b1 = 1 := by
  have h1 := h (-1) 1
  simp only [quantLoss, crossObs, List.map_cons, List.map_nil, List.sum_cons, List.sum_nil] at h1
  have r1 : pinball (1 / 10 : ℝ) (0 - (-1 + 1 * 0)) + (pinball (1 / 10) (1 - (-1 + 1 * 2)) + (pinball (1 / 10) (2 - (-1 + 1 * 3))
      + (pinball (1 / 10) (3 - (-1 + 1 * 4)) + 0))) = (1 / 10 : ℝ) := by
    norm_num [pinball]
  rw [r1] at h1
  set u0 := (0 : ℝ) - (b0 + b1 * 0) with hu0
  set u1 := (1 : ℝ) - (b0 + b1 * 2) with hu1
  set u2 := (2 : ℝ) - (b0 + b1 * 3) with hu2
  set u3 := (3 : ℝ) - (b0 + b1 * 4) with hu3
  have l0 := pinball_lower (1 / 10) (1 / 10) u0 (by norm_num) (by norm_num)
  have l1 := pinball_lower (1 / 10) (-9 / 40) u1 (by norm_num) (by norm_num)
  have l2 := pinball_lower (1 / 10) (1 / 20) u2 (by norm_num) (by norm_num)
  have l3 := pinball_lower (1 / 10) (3 / 40) u3 (by norm_num) (by norm_num)
  have hsum : (1 / 10 : ℝ) * u0 + -9 / 40 * u1 + 1 / 20 * u2 + 3 / 40 * u3 = 1 / 10 := by
    rw [hu0, hu1, hu2, hu3]; ring
  have z1 := pinball_strict (1 / 10) (-9 / 40) u1 (by norm_num) (by norm_num) (by linarith)
  have z2 := pinball_strict (1 / 10) (1 / 20) u2 (by norm_num) (by norm_num) (by linarith)
  rw [hu1] at z1
  rw [hu2] at z2
  constructor <;> linarith

theorem crossObs_half (b0 b1 : ℝ) (h : ∀ c0 c1, quantLoss (1 / 2) crossObs b0 b1 ≤ quantLoss (1 / 2) crossObs c0 c1) :
    b0 = 0 ∧ b1 = 2 / 3 := by
  have h1 := h 0 (2 / 3)
  simp only [quantLoss, crossObs, List.map_cons, List.map_nil, List.sum_cons, List.sum_nil] at h1
  have r1 : pinball (1 / 2 : ℝ) (0 - (0 + 2 / 3 * 0)) + (pinball (1 / 2) (1 - (0 + 2 / 3 * 2)) + (pinball (1 / 2) (2 - (0 + 2 / 3 * 3))
      + (pinball (1 / 2) (3 - (0 + 2 / 3 * 4)) + 0))) = (1 / 3 : ℝ) := by
    norm_num [pinball]
  rw [r1] at h1
  set u0 := (0 : ℝ) - (b0 + b1 * 0) with hu0
  set u1 := (1 : ℝ) - (b0 + b1 * 2) with hu1
  set u2 := (2 : ℝ) - (b0 + b1 * 3) with hu2
  set u3 := (3 : ℝ) - (b0 + b1 * 4) with hu3
  have l0 := pinball_lower (1 / 2) (1 / 3) u0 (by norm_num) (by norm_num)
  have l1 := pinball_lower (1 / 2) (-1 / 2) u1 (by norm_num) (by norm_num)
  have l2 := pinball_lower (1 / 2) (-1 / 3) u2 (by norm_num) (by norm_num)
  have l3 := pinball_lower (1 / 2) (1 / 2) u3 (by norm_num) (by norm_num)
  have hsum : (1 / 3 : ℝ) * u0 + -1 / 2 * u1 + -1 / 3 * u2 + 1 / 2 * u3 = 1 / 3 := by
    rw [hu0, hu1, hu2, hu3]; ring
  have z0 := pinball_strict (1 / 2) (1 / 3) u0 (by norm_num) (by norm_num) (by linarith)
  have z2 := pinball_strict (1 / 2) (-1 / 3) u2 (by norm_num) (by norm_num) (by linarith)
  rw [hu0] at z0
  rw [hu2] at z2
  constructor <;> linarith

/-- **C160 violated** by quantile regression: on the defects 0, 2, 3, 4 with the signals 0, 1, 2, 3 and the threshold 5/2, every solver that computes
the exact regression lines returns `a50 = 15/4` and `a90 = 7/2`: the defect detected with probability 0.9 is smaller than the one detected
with probability 0.5. -/
theorem C160_violated (pick : ℝ → ℝ → ℝ) (fit : ℝ → QuantFit)
    (hfit : ∀ tau, 0 < tau → tau < 1 → ∀ c0 c1, quantLoss tau crossObs (fit tau).intercept (fit tau).slope ≤ quantLoss tau crossObs c0 c1) :
    qrDetectionSize pick fit (5 / 2) 0 4 (1 / 2) = .ok (15 / 4) ∧ qrDetectionSize pick fit (5 / 2) 0 4 (9 / 10) = .ok (7 / 2) := by
  obtain ⟨a1, a2⟩ := crossObs_half _ _ (hfit (1 / 2) (by norm_num) (by norm_num))
  obtain ⟨a3, a4⟩ := crossObs_tenth _ _ (hfit (1 / 10) (by norm_num) (by norm_num))
  constructor
  · rw [qrDetectionSize, qrFitFor, brentLine, show (1 : ℝ) - 1 / 2 = 1 / 2 by norm_num, a1, a2]
    norm_num
  · rw [qrDetectionSize, qrFitFor, brentLine, show (1 : ℝ) - 9 / 10 = 1 / 10 by norm_num, a3, a4]
    norm_num

/-! ## Examples -/

/-- A successful call, from the bracketing of the level. -/
theorem detectionSize_of_bracket (solve : (ℝ → ℝ) → ℝ → ℝ → ℝ → ℝ) (mn mx : ℝ) (f : ℝ → ℝ) (p : ℝ) (h1 : f mn ≤ p) (h2 : p ≤ f mx) :
    ∃ d l, computeDetectionSize solve mn mx f none (some p) none none none = .ok ([d], l) := by
  unfold computeDetectionSize
  simp only [Option.getD_none]
  rw [if_neg (by simpa using ⟨h1, h2⟩)]
  exact ⟨_, _, rfl⟩

theorem detectionSizeCl_of_bracket (solve : (ℝ → ℝ) → ℝ → ℝ → ℝ → ℝ) (mn mx : ℝ) (f fc : ℝ → ℝ) (p c : ℝ) (h1 : f mn ≤ p) (h2 : p ≤ f mx)
    (h3 : fc mn ≤ p) (h4 : p ≤ fc mx) :
    ∃ d dc l, computeDetectionSize solve mn mx f (some fc) (some p) (some c) none none = .ok ([d, dc], l) := by
  unfold computeDetectionSize
  simp only [Option.getD_none]
  rw [if_neg (by simpa using ⟨h1, h2⟩), if_neg (by simpa using ⟨h3, h4⟩)]
  exact ⟨_, _, _, rfl⟩

/-- Gaussian POD of the defects 1, 2, 4, the line `a`, the threshold 1: the calls with the levels POD(0) and POD(3) succeed and the sizes differ. -/
example : ∃ solve, SolveSpec solve ∧ ∃ p p' d d' l l', p < p' ∧ d < d' ∧
    computeDetectionSize solve 0 3 (podGauss ![1, 2, 4] 1 1 fun a => 0 + 1 * a) none (some p) none none none = .ok ([d], l) ∧
    computeDetectionSize solve 0 3 (podGauss ![1, 2, 4] 1 1 fun a => 0 + 1 * a) none (some p') none none none = .ok ([d'], l') := by
  obtain ⟨solve, hs⟩ := solveSpec_nonempty
  have hx : ∃ i j : Fin 3, ![(1 : ℝ), 2, 4] i ≠ ![(1 : ℝ), 2, 4] j := ⟨0, 1, by norm_num⟩
  have hpos := sxx_pos _ hx
  have hlt : podGauss ![1, 2, 4] 1 1 (fun a => 0 + 1 * a) 0 < podGauss ![1, 2, 4] 1 1 (fun a => 0 + 1 * a) 3 := by
    rw [podGauss_ratio _ hx 1 1 0 1 0 one_pos one_ne_zero, podGauss_ratio _ hx 1 1 0 1 3 one_pos one_ne_zero]
    refine Phi_strictMono (mul_lt_mul_of_pos_left (lt_trans (b := 0) ?_ ?_) (by norm_num))
    · exact div_neg_of_neg_of_pos (by norm_num) (Real.sqrt_pos.2 (by positivity))
    · exact div_pos (by norm_num) (Real.sqrt_pos.2 (by positivity))
  obtain ⟨d, l, h⟩ := detectionSize_of_bracket solve 0 3 _ _ le_rfl hlt.le
  obtain ⟨d', l', h'⟩ := detectionSize_of_bracket solve 0 3 _ _ hlt.le le_rfl
  exact ⟨solve, hs, _, _, d, d', l, l', hlt,
    C160_gauss solve hs 0 3 (by norm_num) _ hx 1 1 0 1 one_pos one_ne_zero _ _ d d' hlt l l' h h', h, h'⟩

theorem oneResid (x : ℝ) : numAbove ![(0 : ℝ)] (0 - (0 + 1 * x)) = if 0 < x then 1 else 0 := by
  unfold numAbove
  by_cases h : 0 < x
  · rw [if_pos h, Finset.filter_true_of_mem (fun i _ => by fin_cases i; simpa using h)]; simp
  · rw [if_neg h, Finset.filter_false_of_mem (fun i _ => by fin_cases i; simpa using h)]; simp

/-- Binomial POD of one residual 0 with the line `a` and the threshold 0, on [-1, 1]. -/
example : ∃ solve, BracketSpec solve ∧ ∃ d d' l l', d ≤ d' ∧
    computeDetectionSize solve (-1) 1 (podBinomial (List.ofFn ![(0 : ℝ)]) 0 fun x => 0 + 1 * x) none (some (1 / 4)) none none none = .ok ([d], l) ∧
    computeDetectionSize solve (-1) 1 (podBinomial (List.ofFn ![(0 : ℝ)]) 0 fun x => 0 + 1 * x) none (some (3 / 4)) none none none
      = .ok ([d'], l') := by
  obtain ⟨solve, hs⟩ := bracketSpec_nonempty
  have e1 : podBinomial (List.ofFn ![(0 : ℝ)]) 0 (fun x => 0 + 1 * x) (-1) = 0 := by
    rw [podBinomial_eq, oneResid]; norm_num
  have e2 : podBinomial (List.ofFn ![(0 : ℝ)]) 0 (fun x => 0 + 1 * x) 1 = 1 := by
    rw [podBinomial_eq, oneResid]; norm_num
  obtain ⟨d, l, h⟩ := detectionSize_of_bracket solve (-1) 1 (podBinomial (List.ofFn ![(0 : ℝ)]) 0 fun x => 0 + 1 * x) (1 / 4)
    (by rw [e1]; norm_num) (by rw [e2]; norm_num)
  obtain ⟨d', l', h'⟩ := detectionSize_of_bracket solve (-1) 1 (podBinomial (List.ofFn ![(0 : ℝ)]) 0 fun x => 0 + 1 * x) (3 / 4)
    (by rw [e1]; norm_num) (by rw [e2]; norm_num)
  exact ⟨solve, hs, d, d', l, l',
    (C160_binomial solve hs (-1) 1 (by norm_num) one_pos _ 0 0 1 zero_le_one _ d l h).2.2 _ d' l' (by norm_num) h', h, h'⟩

/-- The same POD with the confidence levels 0.6 and 0.7 and the probability level one half. -/
example : ∃ solve qBeta, BracketSpec solve ∧ QBetaSpec qBeta ∧ ∃ d dc d' dc' l l', dc ≤ dc' ∧
    computeDetectionSize solve (-1) 1 (podBinomial (List.ofFn ![(0 : ℝ)]) 0 fun x => 0 + 1 * x)
      (some (podBinomialCl qBeta (List.ofFn ![(0 : ℝ)]) 0 (fun x => 0 + 1 * x) (3 / 5))) (some (1 / 2)) (some (3 / 5)) none none
      = .ok ([d, dc], l) ∧
    computeDetectionSize solve (-1) 1 (podBinomial (List.ofFn ![(0 : ℝ)]) 0 fun x => 0 + 1 * x)
      (some (podBinomialCl qBeta (List.ofFn ![(0 : ℝ)]) 0 (fun x => 0 + 1 * x) (7 / 10))) (some (1 / 2)) (some (7 / 10)) none none
      = .ok ([d', dc'], l') := by
  obtain ⟨solve, hs⟩ := bracketSpec_nonempty
  obtain ⟨qBeta, hq⟩ := qBetaSpec_nonempty
  have e1 : podBinomial (List.ofFn ![(0 : ℝ)]) 0 (fun x => 0 + 1 * x) (-1) = 0 := by
    rw [podBinomial_eq, oneResid]; norm_num
  have e2 : podBinomial (List.ofFn ![(0 : ℝ)]) 0 (fun x => 0 + 1 * x) 1 = 1 := by
    rw [podBinomial_eq, oneResid]; norm_num
  have f1 : ∀ c, 0 < c → c < 1 → podBinomialCl qBeta (List.ofFn ![(0 : ℝ)]) 0 (fun x => 0 + 1 * x) c (-1) = 1 - c := by
    intro c h0 h1
    rw [podBinomialCl_eq qBeta one_pos, oneResid, if_neg (show ¬ (0 : ℝ) < -1 by norm_num), if_neg (by norm_num)]
    have := (cl_lt qBeta hq (N := 1) (n := 0) one_pos h0 h1).2.2
    simp [lowPoly, bernsteinPolynomial] at this
    simp only [Nat.sub_zero, zero_add]
    linarith
  have f2 : ∀ c, podBinomialCl qBeta (List.ofFn ![(0 : ℝ)]) 0 (fun x => 0 + 1 * x) c 1 = c := by
    intro c
    rw [podBinomialCl_eq qBeta one_pos, oneResid, if_pos (show (0 : ℝ) < 1 by norm_num), if_pos rfl]
    simp
  obtain ⟨d, dc, l, h⟩ := detectionSizeCl_of_bracket solve (-1) 1 (podBinomial (List.ofFn ![(0 : ℝ)]) 0 fun x => 0 + 1 * x)
    (podBinomialCl qBeta (List.ofFn ![(0 : ℝ)]) 0 (fun x => 0 + 1 * x) (3 / 5)) (1 / 2) (3 / 5)
    (by rw [e1]; norm_num) (by rw [e2]; norm_num) (by rw [f1 _ (by norm_num) (by norm_num)]; norm_num) (by rw [f2]; norm_num)
  obtain ⟨d', dc', l', h'⟩ := detectionSizeCl_of_bracket solve (-1) 1 (podBinomial (List.ofFn ![(0 : ℝ)]) 0 fun x => 0 + 1 * x)
    (podBinomialCl qBeta (List.ofFn ![(0 : ℝ)]) 0 (fun x => 0 + 1 * x) (7 / 10)) (1 / 2) (7 / 10)
    (by rw [e1]; norm_num) (by rw [e2]; norm_num) (by rw [f1 _ (by norm_num) (by norm_num)]; norm_num) (by rw [f2]; norm_num)
  exact ⟨solve, qBeta, hs, hq, d, dc, d', dc', l, l',
    C160_confidence solve hs (-1) 1 (by norm_num) qBeta hq one_pos _ 0 0 1 zero_le_one (3 / 5) (7 / 10) (1 / 2) (by norm_num) (by norm_num)
      (by norm_num) (by norm_num) d dc d' dc' l l' h h', h, h'⟩

/-- The violation has a solver: exact regression lines exist. -/
example : ∃ fit : ℝ → QuantFit, ∀ pick, qrDetectionSize pick fit (5 / 2) 0 4 (1 / 2) = .ok (15 / 4) ∧
    qrDetectionSize pick fit (5 / 2) 0 4 (9 / 10) = .ok (7 / 2) := by
  obtain ⟨q, hq⟩ := quantReg_exists
  exact ⟨q crossObs, fun pick => C160_violated pick _ fun tau h0 h1 => hq crossObs tau h0 h1⟩

/-- The restricted claim on the signals `a` at the defects 0, 1: every line is the diagonal and the two sizes agree. -/
example : ∃ fit : ℝ → QuantFit, ∀ pick, ∃ d d', d ≤ d' ∧ qrDetectionSize pick fit (3 / 4) 0 1 (1 / 2) = .ok d ∧
    qrDetectionSize pick fit (3 / 4) 0 1 (9 / 10) = .ok d' := by
  obtain ⟨q, hq⟩ := quantReg_exists
  have hl : ∀ tau, 0 < tau → tau < 1 → (q [(0, 0), (1, 1)] tau).intercept = 0 ∧ (q [(0, 0), (1, 1)] tau).slope = 1 := by
    intro tau h0 h1
    have h := diag_line h0 h1 (hq [(0, 0), (1, 1)] tau h0 h1)
    exact ⟨h.1, h.2⟩
  refine ⟨q [(0, 0), (1, 1)], fun pick => ?_⟩
  have a1 := hl (1 / 2) (by norm_num) (by norm_num)
  have a2 := hl (1 / 10) (by norm_num) (by norm_num)
  have h1 : qrDetectionSize pick (q [(0, 0), (1, 1)]) (3 / 4) 0 1 (1 / 2) = .ok (3 / 4) := by
    rw [qrDetectionSize, qrFitFor, brentLine, show (1 : ℝ) - 1 / 2 = 1 / 2 by norm_num, a1.1, a1.2]; norm_num
  have h2 : qrDetectionSize pick (q [(0, 0), (1, 1)]) (3 / 4) 0 1 (9 / 10) = .ok (3 / 4) := by
    rw [qrDetectionSize, qrFitFor, brentLine, show (1 : ℝ) - 9 / 10 = 1 / 10 by norm_num, a2.1, a2.2]; norm_num
  refine ⟨_, _, C160_qr_partial pick _ [(0, 0), (1, 1)] (by simp) (fun tau h0 h1 => hq _ tau h0 h1) (3 / 4) 0 1 (1 / 2) (9 / 10) _ _
    (by norm_num) (by norm_num) (by norm_num) ?_ ?_ (Or.inl ⟨?_, ?_⟩) h1 h2, h1, h2⟩
  · rw [show (1 : ℝ) - 1 / 2 = 1 / 2 by norm_num, a1.2]; norm_num
  · rw [show (1 : ℝ) - 9 / 10 = 1 / 10 by norm_num, a2.2]; norm_num
  · rw [show (1 : ℝ) - 9 / 10 = 1 / 10 by norm_num, show (1 : ℝ) - 1 / 2 = 1 / 2 by norm_num, a1.2, a2.2]
  · norm_num

end Verif.Props
