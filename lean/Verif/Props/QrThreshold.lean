import Verif.Props.Threshold
import Verif.Props.GeneralWitness
import Verif.Props.QrBootstrapLimit

/-!
# C253: the detection threshold in the curve of the quantile regression POD
-/

namespace Verif.Props
open Verif.Py Verif.Model

/-- Points moved to the right, with growing ordinates, give smaller interpolated values. -/
theorem interpGo_right (ds es qs : List ℝ) (h : List.Forall₂ (· ≤ ·) ds es) (a a' q : ℝ) (haa : a ≤ a') (hd : (a :: ds).Pairwise (· ≤ ·))
    (he : (a' :: es).Pairwise (· ≤ ·)) (hq : (q :: qs).Pairwise (· ≤ ·)) (x : ℝ) (hx : a' ≤ x) :
    interpGo ((a', q) :: es.zip qs) x ≤ interpGo ((a, q) :: ds.zip qs) x := by
  induction h generalizing qs a a' q with
  | nil => simp [interpGo]
  | @cons d e ds es hde h ih =>
    cases qs with
    | nil => simp [interpGo]
    | cons r qs =>
      have had := (List.pairwise_cons.mp hd).1 d (by simp)
      have hae := (List.pairwise_cons.mp he).1 e (by simp)
      have hqr := (List.pairwise_cons.mp hq).1 r (by simp)
      have hd' := (List.pairwise_cons.mp hd).2
      have he' := (List.pairwise_cons.mp he).2
      have hq' := (List.pairwise_cons.mp hq).2
      simp only [List.zip_cons_cons, interpGo]
      by_cases h1 : x < d
      · have h2 : x < e := lt_of_lt_of_le h1 hde
        rw [if_pos h1, if_pos h2]
        have p1 : 0 < d - a := by linarith
        have p2 : 0 < e - a' := by linarith
        rw [div_mul_eq_mul_div, div_mul_eq_mul_div, mul_div_assoc, mul_div_assoc, add_le_add_iff_right]
        apply mul_le_mul_of_nonneg_left _ (by linarith)
        rw [div_le_div_iff₀ p2 p1]
        nlinarith [mul_nonneg (sub_nonneg.mpr haa) (sub_nonneg.mpr h1.le), mul_nonneg (sub_nonneg.mpr (haa.trans hx)) (sub_nonneg.mpr hde)]
      · rw [if_neg h1]
        by_cases h2 : x < e
        · rw [if_pos h2]
          have p2 : 0 < e - a' := by linarith
          have hB : (r - q) / (e - a') * (x - a') + q ≤ r := by
            have : (r - q) / (e - a') * (x - a') ≤ r - q := by
              rw [div_mul_eq_mul_div, div_le_iff₀ p2]
              exact mul_le_mul_of_nonneg_left (by linarith) (by linarith)
            linarith
          refine hB.trans ?_
          have hsort : ((d, r) :: ds.zip qs).Pairwise (fun a b : ℝ × ℝ => a.1 ≤ b.1 ∧ a.2 ≤ b.2) := by
            have := pairwise_zip hd' hq'
            rwa [List.zip_cons_cons] at this
          obtain ⟨c, hc, -, -, hle, -⟩ := interpGo_between (hsort.imp fun h => h.1) rfl (t := x) (not_lt.mp h1)
          refine le_trans ?_ hle
          rcases List.mem_cons.mp hc with rfl | hc
          · exact le_rfl
          · exact ((List.pairwise_cons.mp hsort).1 c hc).2
        · rw [if_neg h2]
          exact ih qs d e r hde hd' he' hq' (not_lt.mp h2)

/-- Larger solved sizes give a lower curve. -/
theorem qrCurve_right (ds es qs : List ℝ) (mx : ℝ) (hlen : ds.length = qs.length) (hne : qs ≠ []) (hq : GoodLevels qs)
    (hde : List.Forall₂ (· ≤ ·) ds es) (hd : (0 :: (ds ++ [mx])).Pairwise (· ≤ ·)) (he : (0 :: (es ++ [mx])).Pairwise (· ≤ ·)) :
    ∃ f g, qrCurve ds qs mx = .ok f ∧ qrCurve es qs mx = .ok g ∧
      ∀ x, 0 ≤ x → x ≤ mx → ∃ v w, f x = .ok v ∧ g x = .ok w ∧ w ≤ v := by
  have hlen' : es.length = qs.length := by rw [← hlen]; exact hde.length_eq.symm
  have hqq : (0 :: (qs ++ [qs.getD (qs.length - 1) 0])).Pairwise (· ≤ ·) := by
    have hqm := (ends_mem hne).2
    rw [List.pairwise_cons]
    constructor
    · intro q h
      rcases List.mem_append.mp h with h | h
      · exact (hq.2 q h).1.le
      · rw [List.mem_singleton.mp h]; exact (hq.2 _ hqm).1.le
    · rw [List.pairwise_append]
      refine ⟨hq.1, by simp, fun a ha b hb => ?_⟩
      rw [List.mem_singleton.mp hb]; exact (sorted_bounds hq.1 ha).2
  have curve : ∀ l : List ℝ, l.length = qs.length → (0 :: (l ++ [mx])).Pairwise (· ≤ ·) →
      ∃ f, qrCurve l qs mx = .ok f ∧ ∀ x, 0 ≤ x → x ≤ mx →
        f x = .ok (interpGo ((0, 0) :: (l ++ [mx]).zip (qs ++ [qs.getD (qs.length - 1) 0])) x) := by
    intro l hl hs
    have hz := List.zip_append (r₁ := [mx]) (r₂ := [qs.getD (qs.length - 1) 0]) hl
    have hsz := (pairwise_zip hs hqq).imp fun h => h.1
    refine ⟨_, by rw [qrCurve, interp1d, if_pos (by simp [hl])], ?_⟩
    intro x h0 h1
    rw [sortPts_of_sorted hsz, List.zip_cons_cons, hz]
    have hlast : (((0, 0) : ℝ × ℝ) :: (l.zip qs ++ [mx].zip [qs.getD (qs.length - 1) 0])).getLast (by simp) = (mx, qs.getD (qs.length - 1) 0) := by simp
    rw [interpEval, if_neg (not_lt.mpr h0), hlast, if_neg (not_lt.mpr h1)]
  obtain ⟨f, hf, hfv⟩ := curve ds hlen hd
  obtain ⟨g, hg, hgv⟩ := curve es hlen' he
  refine ⟨f, g, hf, hg, fun x h0 h1 => ⟨_, _, hfv x h0 h1, hgv x h0 h1, ?_⟩⟩
  refine interpGo_right _ _ _ (List.rel_append hde (.cons le_rfl .nil)) 0 0 0 le_rfl hd he hqq x h0

/-- **C253 (growing sizes).**  Same data and levels, no Box-Cox, no censoring, a larger threshold.  When the regression lines rise and in both runs the
solved sizes grow with the level, the POD curve of the larger threshold is nowhere above the other one. -/
theorem C253_curve_partial {G : Type} (env : QrEnv G) (obs : List (ℝ × ℝ)) (det det' : ℝ) (hdet : det ≤ det') (qs ds es : List ℝ) (hne : qs ≠ [])
    (hq : GoodLevels qs) (hslope : ∀ p ∈ qs, 0 < (env.quantReg obs (1 - p)).slope) (mx : ℝ) (hmx : sampleMax (obs.map Prod.fst) = .ok mx)
    (hds : List.Forall₂ (fun p d => qrDetectionSize env.pick (env.quantReg obs) det 0 mx p = .ok d) qs ds)
    (hes : List.Forall₂ (fun p d => qrDetectionSize env.pick (env.quantReg obs) det' 0 mx p = .ok d) qs es)
    (hd : (0 :: (ds ++ [mx])).Pairwise (· ≤ ·)) (he : (0 :: (es ++ [mx])).Pairwise (· ≤ ·))
    (bootstraps bootstraps' : List (List (ℝ × ℝ))) (s s' : QrAttrs G) :
    ∃ f g, (qrPodRun env ⟨obs, det, none, none, false, false, qs⟩ bootstraps s).2.pod = some f ∧
      (qrPodRun env ⟨obs, det', none, none, false, false, qs⟩ bootstraps' s').2.pod = some g ∧
      ∀ x, 0 ≤ x → x ≤ mx → ∃ v w, f x = .ok v ∧ g x = .ok w ∧ w ≤ v := by
  have hsolve : ∀ (v : ℝ) (l : List ℝ), List.Forall₂ (fun p d => qrDetectionSize env.pick (env.quantReg obs) v 0 mx p = .ok d) qs l →
      qrSolveAll env.pick (env.quantReg obs) v 0 mx qs = .ok l := by
    intro v l hl
    refine (qrSolveAll_iff env.pick (env.quantReg obs) v 0 mx qs l).mpr (hl.imp fun p d h => ?_)
    unfold qrDetectionSize qrFitFor at h
    cases hbl : brentLine env.pick (env.quantReg obs (1 - p)) v 0 mx with
    | error e => rw [hbl] at h; simp at h
    | ok y => rw [hbl] at h; exact h
  have hde : List.Forall₂ (· ≤ ·) ds es := by
    rw [List.forall₂_iff_get] at hds hes ⊢
    refine ⟨hds.1.symm.trans hes.1, fun i h₁ h₂ => ?_⟩
    have hi : i < qs.length := by rw [hds.1]; exact h₁
    exact (C141_quantile_regression env.pick (env.quantReg obs) det det' 0 mx _ _ _ hdet (hslope _ (List.get_mem qs ⟨i, hi⟩))
      (hds.2 i hi h₁) (hes.2 i hi h₂)).1
  obtain ⟨f, g, c1, c2, hle⟩ := qrCurve_right ds es qs mx hds.length_eq.symm hne hq hde hd he
  refine ⟨f, g, ?_, ?_, hle⟩
  · simp only [qrPodRun, podRun, Bool.false_eq_true, if_false, Option.getD_some, hmx, hsolve det ds hds, c1]
    rw [(qrBootstrap_ok env _ _ _ _ _).2.1]
  · simp only [qrPodRun, podRun, Bool.false_eq_true, if_false, Option.getD_some, hmx, hsolve det' es hes, c2]
    rw [(qrBootstrap_ok env _ _ _ _ _).2.1]

/-- **C253 (confidence curves).**  The same for the curve at a confidence level, when each bootstrap size of the larger threshold is at least the
one of the smaller threshold. -/
theorem C253_confidence_partial (cols cols' : List (List ℝ)) (qs : List ℝ) (mx c : ℝ) (hlen : cols.length = qs.length) (hne : qs ≠ [])
    (hq : GoodLevels qs) (hle : List.Forall₂ (List.Forall₂ (· ≤ ·)) cols cols')
    (hd : (0 :: ((cols.map fun col => quantile col c) ++ [mx])).Pairwise (· ≤ ·))
    (he : (0 :: ((cols'.map fun col => quantile col c) ++ [mx])).Pairwise (· ≤ ·)) :
    ∃ f g, qrCurveCl cols qs mx c = .ok f ∧ qrCurveCl cols' qs mx c = .ok g ∧
      ∀ x, 0 ≤ x → x ≤ mx → ∃ v w, f x = .ok v ∧ g x = .ok w ∧ w ≤ v := by
  refine qrCurve_right _ _ qs mx (by simpa using hlen) hne hq ?_ hd he
  rw [List.forall₂_map_left_iff, List.forall₂_map_right_iff]
  exact hle.imp fun a b h => quantile_le h c

/-- The curve of the observations (0, 0), (2, 1), (3, 2), (4, 3) for the levels 0.5 and 0.9 and a threshold between 2 and 8/3: the two regression
lines have crossed, the solved sizes come in the opposite order. -/
theorem crossRun {G : Type} (env : QrEnv G) (hex : ∀ tau, 0 < tau → tau < 1 → QuantRegExact env.quantReg crossObs tau) (det : ℝ) (h0 : 2 < det)
    (h1 : det < 8 / 3) (bootstraps : List (List (ℝ × ℝ))) (s : QrAttrs G) :
    (qrPodRun env ⟨crossObs, det, none, none, false, false, [1 / 2, 9 / 10]⟩ bootstraps s).2.pod
      = some (interpEval [(0, 0), (det + 1, 9 / 10), (3 / 2 * det, 1 / 2), (4, 9 / 10)]) := by
  obtain ⟨a1, a2⟩ := crossObs_half _ _ (hex (1 / 2) (by norm_num) (by norm_num))
  obtain ⟨a3, a4⟩ := crossObs_tenth _ _ (hex (1 / 10) (by norm_num) (by norm_num))
  have hsolve : qrSolveAll env.pick (env.quantReg crossObs) det 0 4 [1 / 2, 9 / 10] = .ok [3 / 2 * det, det + 1] := by
    have b1 : brentLine env.pick (qrFitFor (env.quantReg crossObs) (1 / 2)) det 0 4 = .ok (3 / 2 * det) := by
      rw [qrFitFor, brentLine, show (1 : ℝ) - 1 / 2 = 1 / 2 by norm_num, a1, a2, if_neg (by nlinarith), if_neg (by norm_num)]
      congr 1
      ring
    have b2 : brentLine env.pick (qrFitFor (env.quantReg crossObs) (9 / 10)) det 0 4 = .ok (det + 1) := by
      rw [qrFitFor, brentLine, show (1 : ℝ) - 9 / 10 = 1 / 10 by norm_num, a3, a4, if_neg (by nlinarith), if_neg (by norm_num)]
      congr 1
      ring
    rw [qrSolveAll, b1]
    dsimp only
    rw [qrSolveAll, b2]
    rfl
  have hmax : sampleMax (crossObs.map Prod.fst) = .ok 4 := by
    norm_num [sampleMax, crossObs]
  have swap : ∀ {a b c d : ℝ × ℝ}, [a, b, c, d].Perm [a, c, b, d] := fun {a b c d} => .cons a (.swap _ _ _)
  have hs : sortPts [(0, 0), (3 / 2 * det, 1 / 2), (det + 1, 9 / 10), ((4 : ℝ), (9 / 10 : ℝ))]
      = [(0, 0), (det + 1, 9 / 10), (3 / 2 * det, 1 / 2), (4, 9 / 10)] :=
    sortPts_eq_of_perm swap (by simp; refine ⟨⟨?_, ?_⟩, ⟨?_, ?_⟩, ?_⟩ <;> linarith)
  have hcurve : qrCurve [3 / 2 * det, det + 1] [1 / 2, 9 / 10] 4
      = .ok (interpEval [(0, 0), (det + 1, 9 / 10), (3 / 2 * det, 1 / 2), (4, 9 / 10)]) := by
    rw [← hs, qrCurve, interp1d, if_pos (by simp)]
    rfl
  simp only [qrPodRun, podRun, Bool.false_eq_true, if_false, Option.getD_some, hmax, hsolve, hcurve]
  rw [(qrBootstrap_ok env _ _ _ _ _).2.1]

/-- **C253 (violated).**  With exact regressions on the observations (0, 0), (2, 1), (3, 2), (4, 3), the levels 0.5 and 0.9 and any two thresholds
between 2 and 8/3, the larger threshold gives the larger POD at the size `3/2 det`, although all regression lines rise. -/
theorem C253_violated {G : Type} (env : QrEnv G) (hex : ∀ tau, 0 < tau → tau < 1 → QuantRegExact env.quantReg crossObs tau) (det det' : ℝ)
    (h0 : 2 < det) (hlt : det < det') (h1 : det' < 8 / 3) (bootstraps bootstraps' : List (List (ℝ × ℝ))) (s s' : QrAttrs G) :
    ∃ f g w, (qrPodRun env ⟨crossObs, det, none, none, false, false, [1 / 2, 9 / 10]⟩ bootstraps s).2.pod = some f ∧
      (qrPodRun env ⟨crossObs, det', none, none, false, false, [1 / 2, 9 / 10]⟩ bootstraps' s').2.pod = some g ∧
      f (3 / 2 * det) = .ok (1 / 2) ∧ g (3 / 2 * det) = .ok w ∧ 1 / 2 < w := by
  have hlast : ∀ v : ℝ, ([(0, 0), (v + 1, 9 / 10), (3 / 2 * v, 1 / 2), ((4 : ℝ), (9 / 10 : ℝ))].getLast (by simp)).1 = 4 := fun v => rfl
  refine ⟨_, _, interpGo [(0, 0), (det' + 1, 9 / 10), (3 / 2 * det', 1 / 2), (4, 9 / 10)] (3 / 2 * det),
    crossRun env hex det h0 (by linarith) bootstraps s, crossRun env hex det' (by linarith) h1 bootstraps' s', ?_, ?_, ?_⟩
  · rw [interpEval, if_neg (by dsimp only; linarith), hlast, if_neg (by linarith)]
    simp only [interpGo]
    rw [if_neg (by linarith), if_neg (by linarith), if_pos (by linarith)]
    congr 1
    ring
  · rw [interpEval, if_neg (by dsimp only; linarith), hlast, if_neg (by linarith)]
  · simp only [interpGo]
    by_cases hx : 3 / 2 * det < det' + 1
    · rw [if_pos hx, div_mul_eq_mul_div, add_zero, lt_div_iff₀ (by linarith)]
      linarith
    · rw [if_neg hx, if_pos (by linarith)]
      have hp : 0 < 3 / 2 * det' - (det' + 1) := by linarith
      have : (3 / 2 * det - (det' + 1)) / (3 / 2 * det' - (det' + 1)) < 1 := by
        rw [div_lt_one hp]; linarith
      rw [div_mul_eq_mul_div, mul_div_assoc]
      nlinarith

/-! ## Examples -/

/-- The hypotheses of C253 (violated) are met by the thresholds 5/2 and 13/5. -/
example : ∃ (env : QrEnv Unit) (f g : ℝ → Res ℝ) (w : ℝ),
    (qrPodRun env ⟨crossObs, 5 / 2, none, none, false, false, [1 / 2, 9 / 10]⟩ [] ⟨⟨none, none⟩, none, none, none⟩).2.pod = some f ∧
    (qrPodRun env ⟨crossObs, 13 / 5, none, none, false, false, [1 / 2, 9 / 10]⟩ [] ⟨⟨none, none⟩, none, none, none⟩).2.pod = some g ∧
    f (3 / 2 * (5 / 2)) = .ok (1 / 2) ∧ g (3 / 2 * (5 / 2)) = .ok w ∧ 1 / 2 < w := by
  obtain ⟨env, h, -⟩ := qrExample
  exact ⟨env, C253_violated env (fun tau h0 h1 => h _ tau h0 h1) (5 / 2) (13 / 5) (by norm_num) (by norm_num) (by norm_num) [] [] _ _⟩

/-- The hypotheses of C253 (growing sizes) are met by the observations (0, 0), (1, 1), the level 1/4 and the thresholds 1/2 and 3/4. -/
example : ∃ (env : QrEnv Unit) (f g : ℝ → Res ℝ),
    (qrPodRun env ⟨[(0, 0), (1, 1)], 1 / 2, none, none, false, false, [1 / 4]⟩ [] ⟨⟨none, none⟩, none, none, none⟩).2.pod = some f ∧
    (qrPodRun env ⟨[(0, 0), (1, 1)], 3 / 4, none, none, false, false, [1 / 4]⟩ [] ⟨⟨none, none⟩, none, none, none⟩).2.pod = some g ∧
    ∀ x, 0 ≤ x → x ≤ 1 → ∃ v w, f x = .ok v ∧ g x = .ok w ∧ w ≤ v := by
  obtain ⟨quantReg, hq⟩ := quantReg_exists
  let env : QrEnv Unit := ⟨fun _ _ _ => .error ⟨.runtime, ""⟩, quantReg, fun a _ => a, 10⟩
  have hmax : sampleMax ([((0 : ℝ), (0 : ℝ)), (1, 1)].map Prod.fst) = .ok 1 := by norm_num [sampleMax]
  obtain ⟨e0, e1⟩ := diag_line (by norm_num) (by norm_num) (hq [(0, 0), (1, 1)] (1 - 1 / 4) (by norm_num) (by norm_num))
  refine ⟨env, C253_curve_partial env [(0, 0), (1, 1)] (1 / 2) (3 / 4) (by norm_num) [1 / 4] [1 / 2] [3 / 4] (by simp) ⟨by simp, by simp; norm_num⟩
    ?_ 1 hmax ?_ ?_ (by simp; norm_num) (by simp; norm_num) [] [] _ _⟩
  · intro p hp
    rw [List.mem_singleton] at hp
    subst hp
    simp only [env, e1]
    norm_num
  · refine .cons ?_ .nil
    simp only [qrDetectionSize, qrFitFor, brentLine, env, e0, e1]
    norm_num
  · refine .cons ?_ .nil
    simp only [qrDetectionSize, qrFitFor, brentLine, env, e0, e1]
    norm_num

/-- The hypotheses of C253 (confidence curves) are met by the columns [1, 2] and [2, 2]. -/
example : ∃ f g, qrCurveCl [[1, 2]] [1 / 2] 3 1 = .ok f ∧ qrCurveCl [[2, 2]] [1 / 2] 3 1 = .ok g ∧
    ∀ x, 0 ≤ x → x ≤ 3 → ∃ v w, f x = .ok v ∧ g x = .ok w ∧ w ≤ v := by
  have hb : ∀ l : List ℝ, l ≠ [] → (∀ v ∈ l, 1 ≤ v ∧ v ≤ 2) → (0 :: (([l].map fun col => quantile col 1) ++ [3])).Pairwise (· ≤ ·) := by
    intro l hl hv
    obtain ⟨a, ha, b, hb, h1, h2⟩ := quantile_between hl 1
    have := (hv a ha).1
    have := (hv b hb).2
    simp
    refine ⟨?_, ?_⟩ <;> linarith
  refine C253_confidence_partial [[1, 2]] [[2, 2]] [1 / 2] 3 1 rfl (by simp) ⟨by simp, by simp; norm_num⟩ ?_ (hb _ (by simp) (by simp))
    (hb _ (by simp) (by simp))
  exact .cons (.cons (by norm_num) (.cons le_rfl .nil)) .nil

end Verif.Props
