import Verif.Props.QrBootstrapLimit
import Verif.Props.Mirror

/-!
# C252: the quantile regression POD of the opposite signals
-/

namespace Verif.Props
open Verif.Py Verif.Model

theorem pinball_mirror (tau r : ℝ) : pinball (1 - tau) (-r) = pinball tau r := by
  unfold pinball
  rcases lt_trichotomy r 0 with h | h | h
  · rw [if_pos (by linarith), if_neg (by linarith)]; ring
  · subst h; simp
  · rw [if_neg (by linarith), if_pos h.le]; ring

theorem quantLoss_mirror (tau : ℝ) (obs : List (ℝ × ℝ)) (b0 b1 : ℝ) :
    quantLoss (1 - tau) (mirrored obs) (-b0) (-b1) = quantLoss tau obs b0 b1 := by
  unfold quantLoss mirrored
  rw [List.map_map]
  congr 1
  apply List.map_congr_left
  intro o _
  rw [Function.comp_apply, ← pinball_mirror tau]
  congr 1
  ring

/-- The best line at the complementary level on the opposite signals is the opposite line. -/
theorem line_mirror (quantReg : List (ℝ × ℝ) → ℝ → QuantFit) (tau : ℝ) (obs : List (ℝ × ℝ))
    (h1 : QuantRegExact quantReg obs tau) (h2 : QuantRegExact quantReg (mirrored obs) (1 - tau)) (hu : UniqueLine tau obs) :
    (quantReg (mirrored obs) (1 - tau)).intercept = -(quantReg obs tau).intercept ∧
    (quantReg (mirrored obs) (1 - tau)).slope = -(quantReg obs tau).slope := by
  set m := quantReg (mirrored obs) (1 - tau) with hm
  have hmin : ∀ c0 c1, quantLoss tau obs (-m.intercept) (-m.slope) ≤ quantLoss tau obs c0 c1 := by
    intro c0 c1
    have h := h2 (-c0) (-c1)
    rw [← hm, quantLoss_mirror, ← neg_neg m.intercept, ← neg_neg m.slope, quantLoss_mirror] at h
    exact h
  obtain ⟨u0, u1, -⟩ := hu _ _ _ _ h1 hmin
  exact ⟨by linarith, by linarith⟩

theorem brentLine_mirror (pick : ℝ → ℝ → ℝ) (m m' : QuantFit) (v a b : ℝ) (h0 : m'.intercept = -m.intercept) (h1 : m'.slope = -m.slope) :
    brentLine pick m' (-v) a b = brentLine pick m v a b := by
  unfold brentLine
  rw [h0, h1]
  have e1 : (-m.intercept + -m.slope * a - -v) * (-m.intercept + -m.slope * b - -v)
      = (m.intercept + m.slope * a - v) * (m.intercept + m.slope * b - v) := by ring
  have e2 : (-v - -m.intercept) / -m.slope = (v - m.intercept) / m.slope := by
    rw [show -v - -m.intercept = -(v - m.intercept) by ring, neg_div_neg_eq]
  rw [e1, e2]
  simp only [neg_eq_zero]

/-- **C252 (detection sizes).**  Exact and unique regressions: the size computed at the level `1 - p` from the opposite signals and the opposite
threshold is the size computed at `p` from the signals, and the one call raises when the other does. -/
theorem C252_sizes_partial (pick : ℝ → ℝ → ℝ) (quantReg : List (ℝ × ℝ) → ℝ → QuantFit)
    (hex : ∀ obs tau, 0 < tau → tau < 1 → QuantRegExact quantReg obs tau) (obs : List (ℝ × ℝ)) (det lo hi p : ℝ) (h0 : 0 < p) (h1 : p < 1)
    (hu : UniqueLine (1 - p) obs) :
    qrDetectionSize pick (quantReg (mirrored obs)) (-det) lo hi (1 - p) = qrDetectionSize pick (quantReg obs) det lo hi p := by
  obtain ⟨g0, g1⟩ := line_mirror quantReg (1 - p) obs (hex _ _ (by linarith) (by linarith)) (hex _ _ (by linarith) (by linarith)) hu
  unfold qrDetectionSize qrFitFor
  rw [brentLine_mirror pick _ _ det lo hi g0 g1]

/-- Between its first and its last point, a list of points with complementary ordinates gives the complementary values, whatever comes next. -/
theorem interpGo_complement (P : List (ℝ × ℝ)) (z z' : ℝ × ℝ) (hP : (P ++ [z]).Pairwise (fun a b => a.1 < b.1)) (hz : z'.1 = z.1) (x : ℝ)
    (h0 : ∀ q ∈ P.head?, q.1 ≤ x) (h1 : ∃ q ∈ P, x ≤ q.1) :
    interpGo (P.map (fun q => (q.1, 1 - q.2)) ++ [z']) x = 1 - interpGo (P ++ [z]) x := by
  induction P with
  | nil => simp at h1
  | cons p P ih =>
    have hp := h0 p (by simp)
    cases P with
    | nil =>
      obtain ⟨q, hq, hx⟩ := h1
      rw [List.mem_singleton] at hq
      subst hq
      have : x = q.1 := le_antisymm hx hp
      have hlt : q.1 < z.1 := (List.pairwise_cons.mp hP).1 z (by simp)
      simp [interpGo, this, hz, hlt]
    | cons q P =>
      simp only [List.map_cons, List.cons_append, interpGo] at ih ⊢
      by_cases hx : x < q.1
      · rw [if_pos hx, if_pos hx]; ring
      · rw [if_neg hx, if_neg hx]
        refine ih (List.pairwise_cons.mp hP).2 ?_ ?_
        · intro r hr; simp at hr; subst hr; exact not_lt.mp hx
        · obtain ⟨r, hr, hxr⟩ := h1
          rcases List.mem_cons.mp hr with rfl | hr
          · have := (List.pairwise_cons.mp hP).1 q (by simp)
            exact ⟨q, by simp, by linarith⟩
          · exact ⟨r, hr, hxr⟩

theorem interpEval_first_last {P : List (ℝ × ℝ)} {z : ℝ × ℝ} (hP : ((0, 0) :: (P ++ [z])).Pairwise (fun a b : ℝ × ℝ => a.1 < b.1)) :
    interpEval ((0, 0) :: (P ++ [z])) 0 = .ok 0 ∧ interpEval ((0, 0) :: (P ++ [z])) z.1 = .ok z.2 := by
  have hz : 0 < z.1 := (List.pairwise_cons.mp hP).1 z (by simp)
  have hlast : (((0, 0) : ℝ × ℝ) :: (P ++ [z])).getLast (by simp) = z := by simp
  constructor
  · rw [interpEval, if_neg (lt_irrefl _), hlast, if_neg (not_lt.mpr hz.le)]
    congr 1
    cases P with
    | nil => simp [interpGo, hz]
    | cons p P =>
      have : 0 < p.1 := (List.pairwise_cons.mp hP).1 p (by simp)
      simp [interpGo, this]
  · rw [interpEval, if_neg (not_lt.mpr hz.le), hlast, if_neg (lt_irrefl _)]
    congr 1
    have key : ∀ (Q : List (ℝ × ℝ)) (a : ℝ × ℝ), (a :: (Q ++ [z])).Pairwise (fun a b : ℝ × ℝ => a.1 < b.1) →
        interpGo (a :: (Q ++ [z])) z.1 = z.2 := by
      intro Q
      induction Q with
      | nil => intro a _; simp [interpGo]
      | cons q Q ih =>
        intro a h
        have h2 := (List.pairwise_cons.mp h).2
        have : q.1 < z.1 := (List.pairwise_cons.mp h2).1 z (by simp)
        simp only [List.cons_append, interpGo, if_neg (not_lt.mpr this.le)]
        exact ih q h2
    exact key P (0, 0) hP

/-- The two curves built on the same increasing sizes with the levels and the complementary levels. -/
theorem qrCurve_mirror (ds qs : List ℝ) (mx : ℝ) (hlen : ds.length = qs.length) (hne : qs ≠ []) (hinc : (0 :: (ds ++ [mx])).Pairwise (· < ·)) :
    ∃ f f', qrCurve ds qs mx = .ok f ∧ qrCurve ds.reverse (qs.map (1 - ·)).reverse mx = .ok f' ∧
      (∀ x, (∃ a ∈ ds, a ≤ x) → (∃ b ∈ ds, x ≤ b) → ∃ v, f x = .ok v ∧ f' x = .ok (1 - v)) ∧
      f 0 = .ok 0 ∧ f' 0 = .ok 0 ∧ f mx = .ok (qs.getD (qs.length - 1) 0) ∧ f' mx = .ok (1 - qs.getD 0 0) := by
  set mir : ℝ × ℝ → ℝ × ℝ := fun q => (q.1, 1 - q.2) with hmir
  set P := ds.zip qs with hPdef
  have hfst : P.map Prod.fst = ds := List.map_fst_zip hlen.le
  have hpos : 0 < qs.length := List.length_pos_iff.mpr hne
  have hl' : (qs.map (1 - ·)).reverse.getD ((qs.map (1 - ·)).reverse.length - 1) 0 = 1 - qs.getD 0 0 := by
    rw [List.getD_eq_getElem _ _ (by simp; omega), List.getD_eq_getElem _ _ hpos]
    simp
  have hstrict : ∀ (Q : List (ℝ × ℝ)) (w : ℝ), Q.map Prod.fst = ds →
      ((0, 0) :: (Q ++ [(mx, w)])).Pairwise (fun a b : ℝ × ℝ => a.1 < b.1) := by
    intro Q w hQ
    have : (((0, 0) :: (Q ++ [(mx, w)])).map Prod.fst).Pairwise (· < ·) := by simpa [hQ] using hinc
    exact List.pairwise_map.mp this
  have hz' : ds.reverse.zip (qs.map (1 - ·)).reverse = (P.map mir).reverse := by
    have hr : ∀ (a b : List ℝ), a.length = b.length → a.reverse.zip b.reverse = (a.zip b).reverse := by
      intro a
      induction a with
      | nil => simp
      | cons x a ih =>
        intro b hab
        cases b with
        | nil => simp at hab
        | cons y b =>
          simp only [List.length_cons, add_left_inj] at hab
          rw [List.reverse_cons, List.reverse_cons, List.zip_append (by simp [hab]), ih b hab]
          simp
    rw [hr _ _ (by simpa using hlen), List.zip_map_right]
    rfl
  have h1 := hstrict P (qs.getD (qs.length - 1) 0) hfst
  have h2 := hstrict (P.map mir) (1 - qs.getD 0 0) (by rw [List.map_map, ← hfst]; rfl)
  have c1 : qrCurve ds qs mx = .ok (interpEval ((0, 0) :: (P ++ [(mx, qs.getD (qs.length - 1) 0)]))) := by
    rw [qrCurve, interp1d, if_pos (by simp [hlen]), List.zip_cons_cons, List.zip_append hlen]
    exact congrArg _ (congrArg _ (sortPts_eq_of_perm (List.Perm.refl _) h1))
  have c2 : qrCurve ds.reverse (qs.map (1 - ·)).reverse mx = .ok (interpEval ((0, 0) :: (P.map mir ++ [(mx, 1 - qs.getD 0 0)]))) := by
    rw [qrCurve, hl', interp1d, if_pos (by simp [hlen]), List.zip_cons_cons, List.zip_append (by simp [hlen]), hz']
    refine congrArg _ (congrArg _ (sortPts_eq_of_perm ?_ h2))
    exact List.Perm.cons _ ((List.reverse_perm _).append_right _)
  have e1 := interpEval_first_last h1
  have e2 := interpEval_first_last h2
  refine ⟨_, _, c1, c2, ?_, e1.1, e2.1, e1.2, e2.2⟩
  rintro x ⟨a, ha, hax⟩ ⟨b, hb, hxb⟩
  have hmx : ∀ d ∈ ds, 0 < d ∧ d < mx := by
    intro d hd
    refine ⟨(List.pairwise_cons.mp hinc).1 d (by simp [hd]), ?_⟩
    exact (List.pairwise_append.mp (List.pairwise_cons.mp hinc).2).2.2 d hd mx (by simp)
  have hx0 : ¬ x < 0 := not_lt.mpr ((hmx a ha).1.le.trans hax)
  have hxm : ¬ mx < x := not_lt.mpr (hxb.trans (hmx b hb).2.le)
  have ev : ∀ (Q : List (ℝ × ℝ)) (w : ℝ), interpEval ((0, 0) :: (Q ++ [(mx, w)])) x = .ok (interpGo ((0, 0) :: (Q ++ [(mx, w)])) x) := by
    intro Q w
    have hlast : (((0, 0) : ℝ × ℝ) :: (Q ++ [(mx, w)])).getLast (by simp) = (mx, w) := by simp
    rw [interpEval, if_neg hx0, hlast, if_neg hxm]
  refine ⟨_, ev _ _, ?_⟩
  rw [ev]
  congr 1
  have hhead : ∀ q ∈ P.head?, q.1 ≤ x := by
    intro q hq
    obtain ⟨R, hR⟩ : ∃ R, P = q :: R := by
      cases hP : P with
      | nil => rw [hP] at hq; simp at hq
      | cons r R => rw [hP] at hq; simp at hq; subst hq; exact ⟨R, rfl⟩
    rw [← hfst, hR] at ha
    rcases List.mem_cons.mp ha with h | h
    · rw [← h]; exact hax
    · obtain ⟨r, hr, rfl⟩ := List.mem_map.mp h
      rw [hR] at h1
      have h3 := (List.pairwise_cons.mp (List.pairwise_cons.mp h1).2).1 r (by simp [hr])
      exact h3.le.trans hax
  have hcomp := interpGo_complement P (mx, qs.getD (qs.length - 1) 0) (mx, 1 - qs.getD 0 0) (List.pairwise_cons.mp h1).2 rfl x hhead
    (by rw [← hfst] at hb; obtain ⟨r, hr, rfl⟩ := List.mem_map.mp hb; exact ⟨r, hr, hxb⟩)
  cases hP : P with
  | nil => rw [← hfst, hP] at ha; simp at ha
  | cons q R =>
    rw [hP] at hcomp hhead
    have hq : ¬ x < q.1 := not_lt.mpr (hhead q (by simp))
    have hqm : ¬ x < (mir q).1 := hq
    rw [List.map_cons, List.cons_append, List.cons_append, interpGo, if_neg hqm, interpGo, if_neg hq]
    exact hcomp

/-- What the two runs give. -/
theorem qrPodRun_mirror {G : Type} (env : QrEnv G) (hex : ∀ obs tau, 0 < tau → tau < 1 → QuantRegExact env.quantReg obs tau)
    (obs : List (ℝ × ℝ)) (det : ℝ) (qs ds : List ℝ) (hne : qs ≠ []) (hqs : ∀ p ∈ qs, 0 < p ∧ p < 1) (hu : ∀ p ∈ qs, UniqueLine (1 - p) obs)
    (mx : ℝ) (hmx : sampleMax (obs.map Prod.fst) = .ok mx)
    (hds : List.Forall₂ (fun p d => qrDetectionSize env.pick (env.quantReg obs) det 0 mx p = .ok d) qs ds)
    (hinc : (0 :: (ds ++ [mx])).Pairwise (· < ·)) (bootstraps bootstraps' : List (List (ℝ × ℝ))) (s s' : QrAttrs G) :
    ∃ f f', (qrPodRun env ⟨obs, det, none, none, false, false, qs⟩ bootstraps s).2.pod = some f ∧
      (qrPodRun env ⟨mirrored obs, -det, none, none, false, false, (qs.map (1 - ·)).reverse⟩ bootstraps' s').2.pod = some f' ∧
      (∀ x, (∃ a ∈ ds, a ≤ x) → (∃ b ∈ ds, x ≤ b) → ∃ v, f x = .ok v ∧ f' x = .ok (1 - v)) ∧
      f 0 = .ok 0 ∧ f' 0 = .ok 0 ∧ f mx = .ok (qs.getD (qs.length - 1) 0) ∧ f' mx = .ok (1 - qs.getD 0 0) := by
  have hb : List.Forall₂ (fun p d => brentLine env.pick (env.quantReg obs (1 - p)) det 0 mx = .ok d) qs ds := by
    refine hds.imp fun p d h => ?_
    unfold qrDetectionSize qrFitFor at h
    cases hbl : brentLine env.pick (env.quantReg obs (1 - p)) det 0 mx with
    | error e => rw [hbl] at h; simp at h
    | ok y => rw [hbl] at h; exact h
  have hs1 := (qrSolveAll_iff env.pick (env.quantReg obs) det 0 mx qs ds).mpr hb
  have hb' : List.Forall₂ (fun p d => brentLine env.pick (env.quantReg (mirrored obs) (1 - p)) (-det) 0 mx = .ok d)
      (qs.map (1 - ·)).reverse ds.reverse := by
    rw [List.forall₂_reverse_iff, List.forall₂_map_left_iff]
    rw [List.forall₂_iff_get] at hb ⊢
    refine ⟨hb.1, fun i h₁ h₂ => ?_⟩
    have hp := List.get_mem qs ⟨i, h₁⟩
    obtain ⟨p0, p1⟩ := hqs _ hp
    obtain ⟨g0, g1⟩ := line_mirror env.quantReg (1 - qs.get ⟨i, h₁⟩) obs (hex _ _ (by linarith) (by linarith))
      (hex _ _ (by linarith) (by linarith)) (hu _ hp)
    rw [brentLine_mirror env.pick _ _ det 0 mx g0 g1]
    exact hb.2 i h₁ h₂
  have hs2 := (qrSolveAll_iff env.pick (env.quantReg (mirrored obs)) (-det) 0 mx _ _).mpr hb'
  obtain ⟨f, f', c1, c2, hrest⟩ := qrCurve_mirror ds qs mx hds.length_eq.symm hne hinc
  refine ⟨f, f', ?_, ?_, hrest⟩
  · simp only [qrPodRun, podRun, Bool.false_eq_true, if_false, Option.getD_some, hmx, hs1, c1]
    rw [(qrBootstrap_ok env _ _ _ _ _).2.1]
  · have hm : sampleMax ((mirrored obs).map Prod.fst) = .ok mx := by
      rw [← hmx, mirrored, List.map_map]; rfl
    simp only [qrPodRun, podRun, Bool.false_eq_true, if_false, Option.getD_some, hm, hs2, c2]
    rw [(qrBootstrap_ok env _ _ _ _ _).2.1]

/-- **C252 (curves, between the solved sizes).**  Quantile regression without Box-Cox and censoring, exact and unique regressions, sizes that grow
with the level.  Run on the opposite signals with the opposite threshold and the complementary levels, the curve is the complement of the curve of
the signals between the smallest and the largest solved size. -/
theorem C252_curve_partial {G : Type} (env : QrEnv G) (hex : ∀ obs tau, 0 < tau → tau < 1 → QuantRegExact env.quantReg obs tau)
    (obs : List (ℝ × ℝ)) (det : ℝ) (qs ds : List ℝ) (hne : qs ≠ []) (hqs : ∀ p ∈ qs, 0 < p ∧ p < 1) (hu : ∀ p ∈ qs, UniqueLine (1 - p) obs)
    (mx : ℝ) (hmx : sampleMax (obs.map Prod.fst) = .ok mx)
    (hds : List.Forall₂ (fun p d => qrDetectionSize env.pick (env.quantReg obs) det 0 mx p = .ok d) qs ds)
    (hinc : (0 :: (ds ++ [mx])).Pairwise (· < ·)) (bootstraps bootstraps' : List (List (ℝ × ℝ))) (s s' : QrAttrs G) :
    ∃ f f', (qrPodRun env ⟨obs, det, none, none, false, false, qs⟩ bootstraps s).2.pod = some f ∧
      (qrPodRun env ⟨mirrored obs, -det, none, none, false, false, (qs.map (1 - ·)).reverse⟩ bootstraps' s').2.pod = some f' ∧
      ∀ x, (∃ a ∈ ds, a ≤ x) → (∃ b ∈ ds, x ≤ b) → ∃ v, f x = .ok v ∧ f' x = .ok (1 - v) := by
  obtain ⟨f, f', h1, h2, h3, -⟩ := qrPodRun_mirror env hex obs det qs ds hne hqs hu mx hmx hds hinc bootstraps bootstraps' s s'
  exact ⟨f, f', h1, h2, h3⟩

/-- **C252 (violated).**  In the same setting the two curves are never complementary: both are 0 at size 0, and at the largest defect their values
add up to 1 only if the largest and the smallest level are the same. -/
theorem C252_violated {G : Type} (env : QrEnv G) (hex : ∀ obs tau, 0 < tau → tau < 1 → QuantRegExact env.quantReg obs tau)
    (obs : List (ℝ × ℝ)) (det : ℝ) (qs ds : List ℝ) (hne : qs ≠ []) (hqs : ∀ p ∈ qs, 0 < p ∧ p < 1) (hu : ∀ p ∈ qs, UniqueLine (1 - p) obs)
    (mx : ℝ) (hmx : sampleMax (obs.map Prod.fst) = .ok mx)
    (hds : List.Forall₂ (fun p d => qrDetectionSize env.pick (env.quantReg obs) det 0 mx p = .ok d) qs ds)
    (hinc : (0 :: (ds ++ [mx])).Pairwise (· < ·)) (bootstraps bootstraps' : List (List (ℝ × ℝ))) (s s' : QrAttrs G) :
    ∃ f f', (qrPodRun env ⟨obs, det, none, none, false, false, qs⟩ bootstraps s).2.pod = some f ∧
      (qrPodRun env ⟨mirrored obs, -det, none, none, false, false, (qs.map (1 - ·)).reverse⟩ bootstraps' s').2.pod = some f' ∧
      f 0 = .ok 0 ∧ f' 0 = .ok 0 ∧
      (∀ v v', f mx = .ok v → f' mx = .ok v' → (v' = 1 - v ↔ qs.getD (qs.length - 1) 0 = qs.getD 0 0)) ∧
      ¬ (∀ x v, 0 ≤ x → x ≤ mx → f x = .ok v → f' x = .ok (1 - v)) := by
  obtain ⟨f, f', h1, h2, -, h3, h4, h5, h6⟩ := qrPodRun_mirror env hex obs det qs ds hne hqs hu mx hmx hds hinc bootstraps bootstraps' s s'
  refine ⟨f, f', h1, h2, h3, h4, ?_, fun h => ?_⟩
  · intro v v' hv hv'
    rw [h5, Except.ok.injEq] at hv
    rw [h6, Except.ok.injEq] at hv'
    subst hv; subst hv'
    constructor <;> intro h <;> linarith
  · have h0 := h 0 0 le_rfl ((List.pairwise_cons.mp hinc).1 mx (by simp)).le h3
    rw [h4, Except.ok.injEq] at h0
    norm_num at h0

/-! ## Example: two observations on a line -/

/-- The hypotheses of C252 are met by the observations (0, 0), (1, 1), the threshold 1/2 and the level 1/4: the size is 1/2, the curve of the
signals has the value 1/4 there and the curve of the opposite signals 3/4. -/
example : ∃ (env : QrEnv Unit) (f f' : ℝ → Res ℝ),
    (qrPodRun env ⟨[(0, 0), (1, 1)], 1 / 2, none, none, false, false, [1 / 4]⟩ [] ⟨⟨none, none⟩, none, none, none⟩).2.pod = some f ∧
    (qrPodRun env ⟨mirrored [(0, 0), (1, 1)], -(1 / 2), none, none, false, false, ([1 / 4].map (1 - ·)).reverse⟩ []
      ⟨⟨none, none⟩, none, none, none⟩).2.pod = some f' ∧
    (∃ v, f (1 / 2) = .ok v ∧ f' (1 / 2) = .ok (1 - v)) ∧ f 0 = .ok 0 ∧ f' 0 = .ok 0 ∧ f 1 = .ok (1 / 4) ∧ f' 1 = .ok (1 - 1 / 4) := by
  obtain ⟨quantReg, hq⟩ := quantReg_exists
  let env : QrEnv Unit := ⟨fun _ _ _ => .error ⟨.runtime, ""⟩, quantReg, fun a _ => a, 10⟩
  have hmax : sampleMax ([((0 : ℝ), (0 : ℝ)), (1, 1)].map Prod.fst) = .ok 1 := by norm_num [sampleMax]
  obtain ⟨e0, e1⟩ := diag_line (by norm_num) (by norm_num) (hq [(0, 0), (1, 1)] (1 - 1 / 4) (by norm_num) (by norm_num))
  obtain ⟨f, f', h1, h2, h3, h4, h5, h6, h7⟩ := qrPodRun_mirror env hq [(0, 0), (1, 1)] (1 / 2) [1 / 4] [1 / 2] (by simp)
    (by simp; norm_num) (by intro p hp; rw [List.mem_singleton] at hp; subst hp; exact diag_unique (by norm_num) (by norm_num)) 1 hmax
    (by
      refine .cons ?_ .nil
      simp only [qrDetectionSize, qrFitFor, brentLine, env, e0, e1]
      norm_num)
    (by simp; norm_num) [] [] ⟨⟨none, none⟩, none, none, none⟩ ⟨⟨none, none⟩, none, none, none⟩
  exact ⟨env, f, f', h1, h2, h3 _ ⟨1 / 2, by simp, le_rfl⟩ ⟨1 / 2, by simp, le_rfl⟩, h4, h5, h6, h7⟩

end Verif.Props
