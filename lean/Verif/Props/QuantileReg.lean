import Verif.Model.QuantileReg
import Verif.Props.Base

/-!
# C28–C31, C82, C83: quantile regression POD
-/

namespace Verif.Props
open Verif.Py Verif.Model

/-! ## C28 -/

/-- Specification of an admissible list of quantile levels. -/
def GoodLevels (q : List ℝ) : Prop := q.Pairwise (· ≤ ·) ∧ ∀ x ∈ q, 0 < x ∧ x < 1

theorem sorted_bounds {s : List ℝ} (hs : s.Pairwise (· ≤ ·)) {x : ℝ} (hx : x ∈ s) :
    s.getD 0 0 ≤ x ∧ x ≤ s.getD (s.length - 1) 0 := by
  obtain ⟨i, hi, rfl⟩ := List.mem_iff_getElem.mp hx
  have h := List.getD_eq_getElem s 0 hi
  constructor
  · rw [← h]; exact getD_mono hs (Nat.zero_le i) hi
  · rw [← h]; exact getD_mono hs (by omega) (by omega)

theorem ends_mem {s : List ℝ} (hne : s ≠ []) : s.getD 0 0 ∈ s ∧ s.getD (s.length - 1) 0 ∈ s := by
  have hl : 0 < s.length := List.length_pos_iff.mpr hne
  rw [List.getD_eq_getElem _ _ hl, List.getD_eq_getElem _ _ (by omega)]
  exact ⟨List.getElem_mem _, List.getElem_mem _⟩

/-- **C28, one call.**  `setQuantile` succeeds iff the argument is non-empty with all values strictly in (0,1), and then
stores its values in ascending order; otherwise it raises ValueError and changes nothing. -/
theorem C28_setQuantile (arg old : List ℝ) :
    ((setQuantile arg old).1 = .ok () ↔ arg ≠ [] ∧ ∀ x ∈ arg, 0 < x ∧ x < 1) ∧
    ((setQuantile arg old).1 = .ok () → (setQuantile arg old).2.Perm arg ∧ GoodLevels (setQuantile arg old).2) ∧
    ((setQuantile arg old).1 ≠ .ok () → Raises (setQuantile arg old).1 .valueError ∧ (setQuantile arg old).2 = old) := by
  unfold setQuantile
  by_cases h : arg = []
  · rw [if_pos h]
    refine ⟨by simp [h], by simp, fun _ => ⟨⟨_, rfl⟩, rfl⟩⟩
  · rw [if_neg h]
    dsimp only
    have hs := sortR_pairwise arg
    have hne := sortR_ne_nil h
    obtain ⟨e0, e1⟩ := ends_mem hne
    by_cases hc : 1 ≤ (sortR arg).getD ((sortR arg).length - 1) 0 ∨ (sortR arg).getD 0 0 ≤ 0
    · rw [if_pos hc]
      refine ⟨⟨fun hh => absurd hh (by simp), fun hh => ?_⟩, fun hh => absurd hh (by simp), fun _ => ⟨⟨_, rfl⟩, rfl⟩⟩
      exfalso
      rcases hc with hc | hc
      · have := (hh.2 _ (mem_sortR.mp e1)).2; linarith
      · have := (hh.2 _ (mem_sortR.mp e0)).1; linarith
    · rw [if_neg hc]
      push Not at hc
      have hb : ∀ x ∈ arg, 0 < x ∧ x < 1 := by
        intro x hx
        obtain ⟨b0, b1⟩ := sorted_bounds hs (mem_sortR.mpr hx)
        exact ⟨by linarith, by linarith⟩
      refine ⟨⟨fun _ => ⟨h, hb⟩, fun _ => rfl⟩, fun _ => ⟨sortR_perm arg, hs, ?_⟩, fun hh => absurd rfl hh⟩
      intro x hx
      exact hb x (mem_sortR.mp hx)

theorem defaultQuantiles_good : GoodLevels defaultQuantiles := by
  unfold defaultQuantiles linspace
  constructor
  · rw [List.pairwise_map]
    refine List.pairwise_lt_range.imp ?_
    intro i j hij
    have : (i : ℝ) < j := by exact_mod_cast hij
    norm_num
    linarith
  · intro x hx
    simp only [List.mem_map, List.mem_range] at hx
    obtain ⟨i, hi, rfl⟩ := hx
    have h1 : (i : ℝ) ≤ 20 := by exact_mod_cast Nat.lt_succ_iff.mp hi
    have h2 : (0 : ℝ) ≤ i := Nat.cast_nonneg i
    norm_num
    constructor <;> linarith

/-- **C28, histories.**  After any sequence of calls (some of which may raise) on a new object the stored levels are
sorted and strictly inside (0,1). -/
theorem C28_history (args : List (List ℝ)) : GoodLevels (setQuantiles args defaultQuantiles) := by
  have : ∀ (args : List (List ℝ)) s, GoodLevels s → GoodLevels (setQuantiles args s) := by
    intro args
    induction args with
    | nil => intro s hs; exact hs
    | cons a as ih =>
      intro s hs
      apply ih
      change GoodLevels (setQuantile a s).2
      by_cases h : (setQuantile a s).1 = .ok ()
      · exact ((C28_setQuantile a s).2.1 h).2
      · rw [((C28_setQuantile a s).2.2 h).2]; exact hs
  exact this args _ defaultQuantiles_good

example : (setQuantile [0.9, 0.2] [0.5]).1 = .ok () :=
  (C28_setQuantile _ _).1.mpr ⟨by simp, by intro x hx; simp at hx; rcases hx with rfl | rfl <;> norm_num⟩

/-! ## C29 -/

/-- Support of the curve. -/
theorem qrCurve_pts (ds qs : List ℝ) (dmax : ℝ) (hlen : ds.length = qs.length) :
    (0 :: (ds ++ [dmax])).zip (0 :: (qs ++ [qs.getD (qs.length - 1) 0]))
      = (0, 0) :: (ds.zip qs ++ [(dmax, qs.getD (qs.length - 1) 0)]) := by
  rw [List.zip_cons_cons, List.zip_append hlen]; rfl

theorem pairwise_zip {ds qs : List ℝ} {R S : ℝ → ℝ → Prop} (hd : ds.Pairwise R) (hq : qs.Pairwise S) :
    (ds.zip qs).Pairwise (fun a b => R a.1 b.1 ∧ S a.2 b.2) := by
  induction ds generalizing qs with
  | nil => simp
  | cons d ds ih =>
    cases qs with
    | nil => simp
    | cons q qs =>
      rw [List.zip_cons_cons, List.pairwise_cons]
      rw [List.pairwise_cons] at hd hq
      refine ⟨fun p hp => ?_, ih hd.2 hq.2⟩
      exact ⟨hd.1 _ (List.of_mem_zip hp).1, hq.1 _ (List.of_mem_zip hp).2⟩

/-- **C29.**  If the solved defects are increasing and between 0 and the largest defect (strictly), the curve is defined
exactly on [0, dmax], is 0 at 0, takes the level `q` at the defect solved for `q`, is the highest level at `dmax`, stays
in [0, highest level], and does not decrease. -/
theorem C29_qr_curve (ds qs : List ℝ) (dmax : ℝ) (hlen : ds.length = qs.length) (hne : qs ≠ [])
    (hq : GoodLevels qs) (hinc : (0 :: (ds ++ [dmax])).Pairwise (· < ·)) :
    ∃ f, qrCurve ds qs dmax = .ok f ∧
      (∀ t, ¬ (0 ≤ t ∧ t ≤ dmax) → Raises (f t) .valueError) ∧
      (∀ t, 0 ≤ t → t ≤ dmax → ∃ v, f t = .ok v ∧ 0 ≤ v ∧ (∃ q ∈ qs, v ≤ q)) ∧
      f 0 = .ok 0 ∧
      (∀ d q, (d, q) ∈ ds.zip qs → f d = .ok q) ∧
      (∃ qmax, f dmax = .ok qmax ∧ qmax ∈ qs ∧ ∀ q ∈ qs, q ≤ qmax) ∧
      (∀ t t' v v', t ≤ t' → f t = .ok v → f t' = .ok v' → v ≤ v') := by
  obtain ⟨hqs, hqb⟩ := hq
  set qmax := qs.getD (qs.length - 1) 0 with hqmax
  have hqm : qmax ∈ qs := (ends_mem hne).2
  have hqle : ∀ q ∈ qs, q ≤ qmax := fun q h => (sorted_bounds hqs h).2
  have hl : (0 :: (ds ++ [dmax])).length = (0 :: (qs ++ [qmax])).length := by simp [hlen]
  set pts : List (ℝ × ℝ) := (0, 0) :: (ds.zip qs ++ [(dmax, qmax)]) with hpts
  have hz : (0 :: (ds ++ [dmax])).zip (0 :: (qs ++ [qmax])) = pts := qrCurve_pts ds qs dmax hlen
  have hyle : (0 :: (qs ++ [qmax])).Pairwise (· ≤ ·) := by
    rw [List.pairwise_cons]
    constructor
    · intro q h
      rcases List.mem_append.mp h with h | h
      · exact (hqb q h).1.le
      · rw [List.mem_singleton.mp h]; exact (hqb qmax hqm).1.le
    · rw [List.pairwise_append]
      refine ⟨hqs, by simp, fun a ha b hb => ?_⟩
      rw [List.mem_singleton.mp hb]; exact hqle a ha
  have hboth := pairwise_zip hinc hyle
  rw [hz] at hboth
  have hx : pts.Pairwise (fun a b => a.1 < b.1) := hboth.imp fun h => h.1
  have hxle : pts.Pairwise (fun a b => a.1 ≤ b.1) := hboth.imp fun h => h.1.le
  have hy : pts.Pairwise (fun a b => a.2 ≤ b.2) := hboth.imp fun h => h.2
  have hlast : pts.getLast (by simp [hpts]) = (dmax, qmax) := by simp [hpts]
  have hok := fun t => (interpEval_ok_iff (p := (0, 0)) (rest := ds.zip qs ++ [(dmax, qmax)]) (t := t))
  refine ⟨interpEval pts, ?_, ?_, ?_, ?_, ?_, ?_, ?_⟩
  · rw [qrCurve, interp1d, if_pos hl, hz, sortPts_of_sorted hxle]
  · intro t ht
    apply (hok t).2
    rw [hlast]; exact ht
  · intro t h0 h1
    refine ⟨_, (hok t).1 (by rw [hlast]; exact ⟨h0, h1⟩), ?_⟩
    obtain ⟨a, ha, b, hb, h2, h3⟩ := interpGo_between hxle hpts (t := t) h0
    have hmem : ∀ p ∈ pts, 0 ≤ p.2 ∧ ∃ q ∈ qs, p.2 ≤ q := by
      intro p hp
      rw [hpts, List.mem_cons, List.mem_append, List.mem_singleton] at hp
      rcases hp with rfl | hp | rfl
      · exact ⟨le_rfl, qmax, hqm, (hqb _ hqm).1.le⟩
      · have := (List.of_mem_zip hp).2
        exact ⟨(hqb _ this).1.le, _, this, le_rfl⟩
      · exact ⟨(hqb _ hqm).1.le, _, hqm, le_rfl⟩
    refine ⟨(hmem a ha).1.trans h2, ?_⟩
    obtain ⟨q, hq1, hq2⟩ := (hmem b hb).2
    exact ⟨q, hq1, h3.trans hq2⟩
  · have hd0 : (0 : ℝ) < dmax := (List.pairwise_cons.mp hinc).1 dmax (by simp)
    rw [(hok 0).1 (by rw [hlast]; exact ⟨le_rfl, hd0.le⟩)]
    exact congrArg _ (interpGo_at hx (p := (0, 0)) (by simp [hpts]))
  · intro d q hdq
    have hmem : (d, q) ∈ pts := by rw [hpts]; simp [hdq]
    have hd := (List.of_mem_zip hdq).1
    have h0 : 0 < d := (List.pairwise_cons.mp hinc).1 d (by simp [hd])
    have h1 : d < dmax := by
      have := (List.pairwise_append.mp (List.pairwise_cons.mp hinc).2).2.2 d hd dmax (by simp)
      exact this
    rw [(hok d).1 (by rw [hlast]; exact ⟨h0.le, h1.le⟩)]
    exact congrArg _ (interpGo_at hx hmem)
  · refine ⟨qmax, ?_, hqm, hqle⟩
    have hd0 : (0 : ℝ) < dmax := (List.pairwise_cons.mp hinc).1 dmax (by simp)
    rw [(hok dmax).1 (by rw [hlast]; exact ⟨hd0.le, le_rfl⟩)]
    exact congrArg _ (interpGo_at hx (p := (dmax, qmax)) (by simp [hpts]))
  · intro t t' v v' htt hv hv'
    by_cases h : (0 : ℝ) ≤ t ∧ t ≤ dmax
    · by_cases h' : (0 : ℝ) ≤ t' ∧ t' ≤ dmax
      · rw [(hok t).1 (by rw [hlast]; exact h), Except.ok.injEq] at hv
        rw [(hok t').1 (by rw [hlast]; exact h'), Except.ok.injEq] at hv'
        rw [← hv, ← hv']
        exact interpGo_mono hxle hy h.1 htt
      · obtain ⟨m, hm⟩ := (hok t').2 (by rw [hlast]; exact h')
        rw [hm] at hv'; simp at hv'
    · obtain ⟨m, hm⟩ := (hok t).2 (by rw [hlast]; exact h)
      rw [hm] at hv; simp at hv

example : (0 :: ([1, 2] ++ [(3 : ℝ)])).Pairwise (· < ·) ∧ GoodLevels [0.5, 0.9] := by
  refine ⟨by norm_num, by norm_num, ?_⟩
  intro x hx; simp at hx; rcases hx with rfl | rfl <;> norm_num

/-! ## C30 -/

theorem qrRun_go_result {α G : Type} (fmax : ℝ) (bc : List α → List ℝ → ℝ → Res (ℝ × G)) (det noise sat : Option ℝ)
    (cens : Bool) (r : RunResult α) (bs : List (List (α × ℝ))) (st st' : BoxCoxAttrs G) (r' : RunResult α)
    (h : qrRun.go fmax bc det noise sat true cens r bs st = (.ok r', st')) :
    r' = r ∧ (bs = [] → st' = st) ∧
    ∀ pre b, bs = pre ++ [b] → ∃ rb sb, (podRun fmax bc b det noise sat true cens sb).1 = .ok rb ∧
      st'.lambda = rb.transform ∧ rb.transform ≠ none := by
  induction bs generalizing st with
  | nil =>
    rw [qrRun.go, Prod.mk.injEq, Except.ok.injEq] at h
    exact ⟨h.1.symm, fun _ => h.2.symm, fun pre b hb => by simp at hb⟩
  | cons c cs ih =>
    rw [qrRun.go] at h
    cases h1 : podRun fmax bc c det noise sat true cens st with
    | mk res st1 =>
      rw [h1] at h
      cases res with
      | error e => simp at h
      | ok rc =>
        dsimp only at h
        obtain ⟨i1, i2, i3⟩ := ih st1 h
        refine ⟨i1, by simp, fun pre b hb => ?_⟩
        cases pre with
        | nil =>
          simp only [List.nil_append, List.cons.injEq] at hb
          obtain ⟨rfl, hcs⟩ := hb
          have hst := i2 hcs
          refine ⟨rc, st, by rw [h1], ?_⟩
          -- podRun stores the parameter with which it transforms
          have key := (C13_violated (G := G) fmax bc c det noise sat cens st.graph st.graph 0 0).2 rc
          have hindep : ∀ s s' : BoxCoxAttrs G, podRun fmax bc c det noise sat true cens s
              = podRun fmax bc c det noise sat true cens s' ∨
              ∃ e, (podRun fmax bc c det noise sat true cens s).1 = .error e := by
            intro s s'
            unfold podRun
            simp only [if_true]
            generalize (if cens = true then uncensoredObs fmax c noise sat else c) = obs'
            cases boxCoxShift (obs'.map Prod.snd) with
            | error e => right; exact ⟨e, rfl⟩
            | ok shift =>
              dsimp only
              cases bc (obs'.map Prod.fst) (obs'.map Prod.snd) shift with
              | error e => right; exact ⟨e, rfl⟩
              | ok lg => left; rfl
          have heq : podRun fmax bc c det noise sat true cens st
              = podRun fmax bc c det noise sat true cens ⟨some 0, st.graph⟩ := by
            rcases hindep st ⟨some 0, st.graph⟩ with h' | ⟨e, h'⟩
            · exact h'
            · rw [h1] at h'; simp at h'
          obtain ⟨lam, gr, shift, -, hl, ht⟩ := key (by rw [← heq, h1])
          rw [← heq, h1] at hl
          rw [hst, hl, ht]
          exact ⟨rfl, by simp⟩
        | cons d pre =>
          rw [List.cons_append, List.cons.injEq] at hb
          exact i3 pre b hb.2

/-- **C30 (restricted).**  With Box-Cox: if no bootstrap simulation is made, the reported parameter is the one of the
curve.  In general it is the one of the *last bootstrap sample*.  The full statement fails for a positive simulation
size. -/
theorem C30_lambda_after_run_partial {α G : Type} (fmax : ℝ) (bc : List α → List ℝ → ℝ → Res (ℝ × G))
    (data : List (α × ℝ)) (det noise sat : Option ℝ) (cens : Bool) (bootstrap : List (List (α × ℝ)))
    (st st' : BoxCoxAttrs G) (r : RunResult α)
    (h : qrRun fmax bc data det noise sat true cens bootstrap st = (.ok r, st')) :
    (∀ pre b, bootstrap = pre ++ [b] → ∃ rb sb, (podRun fmax bc b det noise sat true cens sb).1 = .ok rb ∧
      st'.lambda = rb.transform) ∧
    (bootstrap = [] → ∃ sd, podRun fmax bc data det noise sat true cens sd = (.ok r, st')) := by
  rw [qrRun] at h
  cases h1 : podRun fmax bc data det noise sat true cens st with
  | mk res st1 =>
    rw [h1] at h
    cases res with
    | error e => simp at h
    | ok rd =>
      dsimp only at h
      obtain ⟨i1, i2, i3⟩ := qrRun_go_result fmax bc det noise sat cens rd bootstrap st1 st' r h
      refine ⟨fun pre b hb => ?_, fun hb => ⟨st, ?_⟩⟩
      · obtain ⟨rb, sb, k1, k2, -⟩ := i3 pre b hb
        exact ⟨rb, sb, k1, k2⟩
      · rw [h1, i1, i2 hb]

/-- **C30 is violated**: the curve is computed with λ = 1 (the optimum for the data) but the reported parameter is 2 (the
optimum for the only bootstrap sample). -/
theorem C30_violated :
    let bc : List Unit → List ℝ → ℝ → Res (ℝ × Unit) := fun _ s _ => .ok (s.getD 0 0, ())
    ∃ r st', qrRun 1000 bc [((), 1), ((), 2), ((), 3)] (some 2) none none true false
        [[((), 2), ((), 2), ((), 3)]] ⟨none, none⟩ = (.ok r, st') ∧
      r.transform = some 1 ∧ st'.lambda = some 2 := by
  intro bc
  have h1 : boxCoxShift [1, 2, (3 : ℝ)] = .ok 0 := by norm_num [boxCoxShift, sampleMin]
  have h2 : boxCoxShift [2, 2, (3 : ℝ)] = .ok 0 := by norm_num [boxCoxShift, sampleMin]
  refine ⟨⟨[((), boxCoxFun 1 1), ((), boxCoxFun 1 2), ((), boxCoxFun 1 3)], 0, some (boxCoxFun 1 2), some 1⟩,
    ⟨some 2, some ()⟩, ?_, rfl, rfl⟩
  simp [qrRun, qrRun.go, podRun, h1, h2, bc, boxCoxSample, boxCoxThreshold, boxCoxTransform]

/-! ## C31 -/

/-- **C31 (restricted).**  `getR2 p` reports the fit used for probability `1-p`; it is the fit used for `p` when
`p = 1/2`.  The full statement (every `p`) fails. -/
theorem C31_getR2_level_partial (fit : ℝ → QuantFit) (p : ℝ) :
    qrGetR2 fit p = (qrFitFor fit (1 - p)).prsquared ∧
    (p = 1 / 2 → qrGetR2 fit p = (qrFitFor fit p).prsquared) := by
  constructor
  · simp [qrGetR2, qrFitFor]
  · rintro rfl; norm_num [qrGetR2, qrFitFor]

/-- **C31 is violated** at every level except 1/2: any fitting procedure that gives different qualities at the
levels `p` and `1-p` is reported wrongly, and such procedures exist for each `p ≠ 1/2`. -/
theorem C31_violated (p : ℝ) (hp : p ≠ 1 / 2) :
    ∃ fit : ℝ → QuantFit, qrGetR2 fit p ≠ (qrFitFor fit p).prsquared := by
  refine ⟨fun q => ⟨0, 1, q⟩, ?_⟩
  simp only [qrGetR2, qrFitFor]
  intro h; exact hp (by linarith)

/-! ## C82 -/

/-- **C82 (restricted).**  After `setQuantile`, with bootstrap defects computed for the former levels: the confidence
curve raises ValueError iff the number of levels changed.  When it did not change the curve pairs the defects with the
*new* levels.  Missing: consistency with the levels of the run. -/
theorem C82_setQuantile_after_run_partial (cols : List (List ℝ)) (q' : List ℝ) (dmax c : ℝ) :
    (Raises (qrCurveCl cols q' dmax c) .valueError ↔ cols.length ≠ q'.length) ∧
    (cols.length = q'.length → qrCurveCl cols q' dmax c
      = .ok (interpEval (sortPts ((0, 0) :: ((cols.map fun col => quantile col c).zip q'
          ++ [(dmax, q'.getD (q'.length - 1) 0)]))))) := by
  unfold qrCurveCl qrCurve interp1d
  by_cases h : cols.length = q'.length
  · have hl : (0 :: (cols.map (fun col => quantile col c) ++ [dmax])).length
        = (0 :: (q' ++ [q'.getD (q'.length - 1) 0])).length := by simp [h]
    rw [if_pos hl]
    constructor
    · constructor
      · rintro ⟨m, hm⟩; simp at hm
      · intro h'; exact absurd h h'
    · intro _
      rw [qrCurve_pts _ _ _ (by simpa using h)]
  · have hl : ¬ (0 :: (cols.map (fun col => quantile col c) ++ [dmax])).length
        = (0 :: (q' ++ [q'.getD (q'.length - 1) 0])).length := by simpa using h
    rw [if_neg hl]
    exact ⟨⟨fun _ => h, fun _ => ⟨_, rfl⟩⟩, fun h' => absurd h' h⟩

theorem sortR_of_sorted {l : List ℝ} (hl : l.Pairwise (· ≤ ·)) : sortR l = l :=
  List.Perm.eq_of_pairwise' (r := (· ≤ ·)) (sortR_pairwise l) hl (sortR_perm l)

/-- **C82 is violated**: one level, simulated defect 1 for the level 0.5; after `setQuantile([0.9])` the confidence curve
takes the value 0.9 at 1 although the simulation was for 0.5. -/
theorem C82_violated :
    ∃ f g, qrCurveCl [[1]] [0.5] 2 0.95 = .ok f ∧ f 1 = .ok 0.5 ∧
      qrCurveCl [[1]] (setQuantile [0.9] [0.5]).2 2 0.95 = .ok g ∧ g 1 = .ok 0.9 := by
  have hs : sortR [(0.9 : ℝ)] = [0.9] := sortR_of_sorted (by simp)
  have hq : (setQuantile [(0.9 : ℝ)] [0.5]).2 = [0.9] := by
    unfold setQuantile
    rw [if_neg (by simp)]
    dsimp only
    rw [hs, if_neg (by norm_num)]
  have hq1 : quantile [(1 : ℝ)] 0.95 = 1 := by
    rw [quantile, sortR_of_sorted (by simp)]
    norm_num [atPos]
  have key : ∀ y : ℝ, 0 < y → y < 1 → ∃ f, qrCurveCl [[1]] [y] 2 0.95 = .ok f ∧ f 1 = .ok y := by
    intro y h0 h1
    obtain ⟨f, hf, -, -, -, hv, -⟩ := C29_qr_curve [1] [y] 2 rfl (by simp)
      ⟨by simp, by intro x hx; simp at hx; subst hx; exact ⟨h0, h1⟩⟩ (by norm_num)
    refine ⟨f, ?_, hv 1 y (by simp)⟩
    rw [qrCurveCl]; simp only [List.map_cons, List.map_nil, hq1]; exact hf
  obtain ⟨f, hf, hf1⟩ := key 0.5 (by norm_num) (by norm_num)
  obtain ⟨g, hg, hg1⟩ := key 0.9 (by norm_num) (by norm_num)
  exact ⟨f, g, hf, hf1, by rw [hq]; exact hg, hg1⟩

/-! ## C83 -/

/-- **C83.**  The detection size at probability `p` is the point of the observed range where the regression line at level
`1-p` reaches the threshold; the call raises iff the line is strictly on one side of the threshold at both ends. -/
theorem C83_qr_detection_size (pick : ℝ → ℝ → ℝ) (hpick : ∀ a b, a ≤ b → a ≤ pick a b ∧ pick a b ≤ b)
    (fit : ℝ → QuantFit) (det a b p : ℝ) (hab : a ≤ b) :
    let line := fun x => (fit (1 - p)).intercept + (fit (1 - p)).slope * x
    (Raises (qrDetectionSize pick fit det a b p) .exception ↔
      (det < line a ∧ det < line b) ∨ (line a < det ∧ line b < det)) ∧
    (∀ d, qrDetectionSize pick fit det a b p = .ok d → a ≤ d ∧ d ≤ b ∧ line d = det) := by
  intro line
  unfold qrDetectionSize brentLine qrFitFor
  have hsign : 0 < (line a - det) * (line b - det) ↔
      (det < line a ∧ det < line b) ∨ (line a < det ∧ line b < det) := by
    rw [mul_pos_iff]; simp [sub_pos]
  change _ ∧ _
  by_cases hc : 0 < (line a - det) * (line b - det)
  · have hc' : 0 < ((fit (1 - p)).intercept + (fit (1 - p)).slope * a - det)
      * ((fit (1 - p)).intercept + (fit (1 - p)).slope * b - det) := hc
    rw [if_pos hc']
    exact ⟨⟨fun _ => hsign.mp hc, fun _ => ⟨_, rfl⟩⟩, by simp⟩
  · have hc' : ¬ 0 < ((fit (1 - p)).intercept + (fit (1 - p)).slope * a - det)
      * ((fit (1 - p)).intercept + (fit (1 - p)).slope * b - det) := hc
    rw [if_neg hc']
    have hz : (line a - det) * (line b - det) ≤ 0 := not_lt.mp hc
    by_cases hs : (fit (1 - p)).slope = 0
    · rw [if_pos hs]
      dsimp only
      refine ⟨⟨fun ⟨m, hm⟩ => absurd hm (by simp), fun h => absurd (hsign.mpr h) hc⟩, ?_⟩
      intro d hd
      rw [Except.ok.injEq] at hd
      subst hd
      obtain ⟨p1, p2⟩ := hpick a b hab
      refine ⟨p1, p2, ?_⟩
      have e : ∀ x, line x = (fit (1 - p)).intercept := by intro x; simp [line, hs]
      rw [e, e] at hz
      rw [e]
      nlinarith
    · rw [if_neg hs]
      dsimp only
      refine ⟨⟨fun ⟨m, hm⟩ => absurd hm (by simp), fun h => absurd (hsign.mpr h) hc⟩, ?_⟩
      intro d hd
      rw [Except.ok.injEq] at hd
      subst hd
      set s := (fit (1 - p)).slope
      set i := (fit (1 - p)).intercept
      have hl : ∀ x, line x - det = s * (x - (det - i) / s) := by
        intro x; simp only [line]; field_simp; ring
      rw [hl, hl] at hz
      have hs2 : 0 < s ^ 2 := by positivity
      have hz2 : (a - (det - i) / s) * (b - (det - i) / s) ≤ 0 := by
        by_contra hh
        push Not at hh
        have := mul_pos hs2 hh
        nlinarith
      refine ⟨?_, ?_, ?_⟩
      · by_contra hh; push Not at hh
        have h1 : 0 < a - (det - i) / s := by linarith
        have h2 : 0 < b - (det - i) / s := by linarith
        have := mul_pos h1 h2; linarith
      · by_contra hh; push Not at hh
        have h1 : a - (det - i) / s < 0 := by linarith
        have h2 : b - (det - i) / s < 0 := by linarith
        have := mul_pos_of_neg_of_neg h1 h2; linarith
      · have := hl ((det - i) / s); rw [sub_self, mul_zero] at this; linarith

example : ∀ a b : ℝ, a ≤ b → a ≤ (fun a _ => a) a b ∧ (fun a _ => a) a b ≤ b := fun _ _ h => ⟨le_rfl, h⟩

/-! ## C85 -/

/-- Non-decreasing wherever defined. -/
def NonDecreasing (f : ℝ → Res ℝ) : Prop := ∀ t t' v v', t ≤ t' → f t = .ok v → f t' = .ok v' → v ≤ v'

theorem interpEval_nonDecreasing {p : ℝ × ℝ} {rest : List (ℝ × ℝ)}
    (h : (p :: rest).Pairwise (fun a b => a.1 ≤ b.1)) (hy : (p :: rest).Pairwise (fun a b => a.2 ≤ b.2)) :
    NonDecreasing (interpEval (p :: rest)) := by
  intro t t' v v' htt hv hv'
  have hok := fun t => (interpEval_ok_iff (p := p) (rest := rest) (t := t))
  by_cases h1 : p.1 ≤ t ∧ t ≤ ((p :: rest).getLast (by simp)).1
  · by_cases h2 : p.1 ≤ t' ∧ t' ≤ ((p :: rest).getLast (by simp)).1
    · rw [(hok t).1 h1, Except.ok.injEq] at hv
      rw [(hok t').1 h2, Except.ok.injEq] at hv'
      rw [← hv, ← hv']
      exact interpGo_mono h hy h1.1 htt
    · obtain ⟨m, hm⟩ := (hok t').2 h2
      rw [hm] at hv'; simp at hv'
  · obtain ⟨m, hm⟩ := (hok t).2 h1
    rw [hm] at hv; simp at hv

theorem qrCurve_nonDecreasing (ds qs : List ℝ) (dmax : ℝ) (hlen : ds.length = qs.length) (hne : qs ≠ [])
    (hq : GoodLevels qs) (hinc : (0 :: (ds ++ [dmax])).Pairwise (· ≤ ·)) :
    ∃ f, qrCurve ds qs dmax = .ok f ∧ NonDecreasing f := by
  obtain ⟨hqs, hqb⟩ := hq
  set qmax := qs.getD (qs.length - 1) 0 with hqmax
  have hqm : qmax ∈ qs := (ends_mem hne).2
  have hyle : (0 :: (qs ++ [qmax])).Pairwise (· ≤ ·) := by
    rw [List.pairwise_cons, List.pairwise_append]
    refine ⟨fun q h => ?_, hqs, by simp, fun a ha b hb => ?_⟩
    · rcases List.mem_append.mp h with h | h
      · exact (hqb q h).1.le
      · rw [List.mem_singleton.mp h]; exact (hqb qmax hqm).1.le
    · rw [List.mem_singleton.mp hb]; exact (sorted_bounds hqs ha).2
  have hboth := pairwise_zip hinc hyle
  have hl : (0 :: (ds ++ [dmax])).length = (0 :: (qs ++ [qmax])).length := by simp [hlen]
  refine ⟨_, by rw [qrCurve, interp1d, if_pos hl, sortPts_of_sorted (hboth.imp fun h => h.1)], ?_⟩
  rw [qrCurve_pts _ _ _ hlen] at hboth ⊢
  exact interpEval_nonDecreasing (hboth.imp fun h => h.1) (hboth.imp fun h => h.2)

/-- **C85 (restricted).**  The curve does not decrease when the defects solved for increasing levels increase and lie
between 0 and the largest defect; the confidence curve does not decrease when this holds in every bootstrap simulation
(column `j` is below column `k` simulation by simulation for `j < k`).  Missing: crossing lines and negative simulated
defects, for which the statement fails. -/
theorem C85_qr_monotone_partial (ds qs : List ℝ) (cols : List (List ℝ)) (dmax c : ℝ) (hne : qs ≠ [])
    (hq : GoodLevels qs) :
    (ds.length = qs.length → ds.Pairwise (· ≤ ·) → (∀ d ∈ ds, 0 ≤ d ∧ d ≤ dmax) →
      ∃ f, qrCurve ds qs dmax = .ok f ∧ NonDecreasing f) ∧
    (cols.length = qs.length → cols.Pairwise (List.Forall₂ (· ≤ ·)) →
      (∀ col ∈ cols, col ≠ [] ∧ ∀ d ∈ col, 0 ≤ d ∧ d ≤ dmax) →
      ∃ f, qrCurveCl cols qs dmax c = .ok f ∧ NonDecreasing f) := by
  have key : ∀ ds : List ℝ, ds.length = qs.length → ds.Pairwise (· ≤ ·) → (∀ d ∈ ds, 0 ≤ d ∧ d ≤ dmax) →
      ∃ f, qrCurve ds qs dmax = .ok f ∧ NonDecreasing f := by
    intro ds hlen hs hb
    refine qrCurve_nonDecreasing ds qs dmax hlen hne hq ?_
    have hdn : ds ≠ [] := by rintro rfl; exact hne (List.length_eq_zero_iff.mp hlen.symm)
    obtain ⟨d, hd⟩ := List.exists_mem_of_ne_nil _ hdn
    rw [List.pairwise_cons, List.pairwise_append]
    refine ⟨fun x hx => ?_, hs, by simp, fun a ha b hb' => ?_⟩
    · rcases List.mem_append.mp hx with hx | hx
      · exact (hb x hx).1
      · rw [List.mem_singleton.mp hx]; exact (hb d hd).1.trans (hb d hd).2
    · rw [List.mem_singleton.mp hb']; exact (hb a ha).2
  refine ⟨key ds, fun hlen hs hb => ?_⟩
  refine key _ (by simpa using hlen) ?_ ?_
  · rw [List.pairwise_map]
    exact hs.imp fun h => quantile_le h c
  · intro d hd
    obtain ⟨col, hcol, rfl⟩ := List.mem_map.mp hd
    obtain ⟨h1, h2⟩ := hb col hcol
    obtain ⟨a, ha, b, hb, hab⟩ := quantile_between h1 c
    exact ⟨(h2 a ha).1.trans hab.1, hab.2.trans (h2 b hb).2⟩

example : GoodLevels [0.3, 0.6] ∧ ([[1, 2], [2, 2]] : List (List ℝ)).Pairwise (List.Forall₂ (· ≤ ·)) := by
  refine ⟨⟨by norm_num, ?_⟩, ?_⟩
  · intro x hx; simp at hx; rcases hx with rfl | rfl <;> norm_num
  · rw [List.pairwise_cons]
    refine ⟨?_, by simp⟩
    intro l hl; simp at hl; subst hl
    exact .cons (by norm_num) (.cons (by norm_num) .nil)

/-- **C85 is violated**: when the lines cross, the curve built for the levels 0.3 and 0.6 decreases from 0.6 at 1 to 0.3 at
2; and a negative simulated defect makes the confidence curve decrease from 0.3 at -1 to 0 at 0. -/
theorem C85_violated :
    (∃ f, qrCurve [2, 1] [0.3, 0.6] 3 = .ok f ∧ f 1 = .ok 0.6 ∧ f 2 = .ok 0.3 ∧ ¬ NonDecreasing f) ∧
    (∃ f, qrCurveCl [[-1], [1]] [0.3, 0.6] 3 0.95 = .ok f ∧ f (-1) = .ok 0.3 ∧ f 0 = .ok 0 ∧ ¬ NonDecreasing f) := by
  have one : ∀ x : ℝ, quantile [x] 0.95 = x := by
    intro x
    rw [quantile, sortR_of_sorted (by simp)]
    norm_num [atPos]
  have swap : ∀ {a b c d : ℝ × ℝ}, [a, b, c, d].Perm [a, c, b, d] := fun {a b c d} => .cons a (.swap _ _ _)
  have swap' : ∀ {a b c d : ℝ × ℝ}, [a, b, c, d].Perm [b, a, c, d] := fun {a b c d} => .swap _ _ _
  have nd : ∀ {f : ℝ → Res ℝ} {t t' v v'}, f t = .ok v → f t' = .ok v' → t ≤ t' → v' < v → ¬ NonDecreasing f :=
    fun h1 h2 h3 h4 h => absurd (h _ _ _ _ h3 h1 h2) (not_le.mpr h4)
  constructor
  · have hs : sortPts [(0, 0), (2, 0.3), (1, 0.6), ((3 : ℝ), (0.6 : ℝ))] = [(0, 0), (1, 0.6), (2, 0.3), (3, 0.6)] :=
      sortPts_eq_of_perm swap (by norm_num)
    have h1 : interpEval [(0, 0), (1, 0.6), (2, 0.3), ((3 : ℝ), (0.6 : ℝ))] 1 = .ok 0.6 := by norm_num [interpEval, interpGo]
    have h2 : interpEval [(0, 0), (1, 0.6), (2, 0.3), ((3 : ℝ), (0.6 : ℝ))] 2 = .ok 0.3 := by norm_num [interpEval, interpGo]
    refine ⟨interpEval [(0, 0), (1, 0.6), (2, 0.3), (3, 0.6)], ?_, h1, h2, nd h1 h2 (by norm_num) (by norm_num)⟩
    simp [qrCurve, interp1d, hs]
  · have hs : sortPts [(0, 0), (-1, 0.3), (1, 0.6), ((3 : ℝ), (0.6 : ℝ))] = [(-1, 0.3), (0, 0), (1, 0.6), (3, 0.6)] :=
      sortPts_eq_of_perm swap' (by norm_num)
    have h1 : interpEval [(-1, 0.3), (0, 0), (1, 0.6), ((3 : ℝ), (0.6 : ℝ))] (-1) = .ok 0.3 := by
      norm_num [interpEval, interpGo]
    have h2 : interpEval [(-1, 0.3), (0, 0), (1, 0.6), ((3 : ℝ), (0.6 : ℝ))] 0 = .ok 0 := by norm_num [interpEval, interpGo]
    refine ⟨interpEval [(-1, 0.3), (0, 0), (1, 0.6), (3, 0.6)], ?_, h1, h2, nd h1 h2 (by norm_num) (by norm_num)⟩
    simp [qrCurveCl, qrCurve, interp1d, one, hs]

end Verif.Props
