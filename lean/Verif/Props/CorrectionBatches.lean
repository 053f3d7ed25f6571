import Verif.Props.CorrectionOrder
import Verif.Props.SavedGraphs
import Verif.Props.AdaptiveFresh

/-!
# C226: more points extend the design; C55, C189, C223, C224: runs with several batches
-/

namespace Verif.Props
open Verif.Py Verif.Model

variable {X : Type}

/-! ## Runs that ask for different numbers of points -/

theorem hmIter_grows (env : HMEnv X) (cand : List X) (nIni nMore : ℕ) (loc loc' : HMLocals X) (s s' : HMAttrs X)
    (h : hmIter env cand nIni nMore loc s = (.ok loc', s')) : s.input <+: s'.input ∧ s.labels <+: s'.labels := by
  unfold hmIter at h
  split at h
  · simp at h
  · dsimp only at h
    split at h
    · simp at h
    · split at h
      · simp at h
      · simp only [Prod.mk.injEq, Except.ok.injEq] at h
        obtain ⟨-, rfl⟩ := h
        exact ⟨List.prefix_append _ _, List.prefix_append _ _⟩

theorem hmLoop_grows (env : HMEnv X) (cand : List X) (nIni nMore fuel : ℕ) (loc loc' : HMLocals X) (s s' : HMAttrs X)
    (h : hmLoop env cand nIni nMore fuel loc s = (.ok loc', s')) : s.input <+: s'.input ∧ s.labels <+: s'.labels := by
  induction fuel generalizing loc s with
  | zero =>
    rw [hmLoop] at h; dsimp only at h
    split_ifs at h
    · simp at h
    · cases h
      exact ⟨List.prefix_rfl, List.prefix_rfl⟩
  | succ n ih =>
    rw [hmLoop] at h; dsimp only at h
    split_ifs at h
    · cases hit : hmIter env cand nIni nMore loc s with
      | mk r s1 =>
        rw [hit] at h
        cases r with
        | error e => simp at h
        | ok loc1 =>
          dsimp only at h
          obtain ⟨g1, g2⟩ := hmIter_grows env cand nIni nMore loc loc1 s s1 hit
          obtain ⟨g3, g4⟩ := ih loc1 s1 h
          exact ⟨g1.trans g3, g2.trans g4⟩
    · cases h
      exact ⟨List.prefix_rfl, List.prefix_rfl⟩

/-- Two iterations from the same state, the second with more room: the same iteration, or the first one is the last of its loop and adds a part of what
the second adds. -/
theorem hmIter_two (env : HMEnv X) (cand : List X) (nIni n m : ℕ) (hnm : n ≤ m) (loc l1 l2 : HMLocals X) (s s1 s2 : HMAttrs X)
    (h1 : hmIter env cand nIni n loc s = (.ok l1, s1)) (h2 : hmIter env cand nIni m loc s = (.ok l2, s2)) :
    (l1 = l2 ∧ s1 = s2) ∨ (n < l1.nAdded ∧ s1.input <+: s2.input ∧ s1.labels <+: s2.labels) := by
  unfold hmIter at h1 h2
  split at h1
  · simp at h1
  · rename_i batch hb
    dsimp only at h1 h2
    split at h1
    · simp at h1
    · rename_i zs hz
      rw [hb] at h2
      dsimp only at h2
      rw [hz] at h2
      dsimp only at h2
      have hlen : zs.length = (batch.filterMap fun i => cand[i]?).length := (labelAll_ok _ _ _ hz).length_eq.symm
      generalize (batch.filterMap fun i => cand[i]?) = xs at h1 h2 hlen
      by_cases ht : s.input.length + xs.length > nIni + n
      · rw [if_pos ht] at h1
        right
        split at h1
        · simp at h1
        · simp only [Prod.mk.injEq, Except.ok.injEq] at h1
          obtain ⟨rfl, rfl⟩ := h1
          split at h2
          · simp at h2
          · simp only [Prod.mk.injEq, Except.ok.injEq] at h2
            obtain ⟨rfl, rfl⟩ := h2
            refine ⟨by dsimp only; omega, ?_, ?_⟩
            · refine (List.prefix_append_right_inj _).mpr ?_
              split_ifs
              · exact List.take_prefix_take_left (by omega)
              · exact List.take_prefix_take_left (by omega)
            · refine (List.prefix_append_right_inj _).mpr ?_
              split_ifs
              · exact List.take_prefix_take_left (by omega)
              · exact List.take_prefix_take_left (by omega)
      · have ht' : ¬ s.input.length + xs.length > nIni + m := by omega
        rw [if_neg ht] at h1
        rw [if_neg ht'] at h2
        left
        split at h1
        · simp at h1
        · rename_i alg hfit
          rw [hfit] at h2
          dsimp only at h2
          rw [h1] at h2
          simp only [Prod.mk.injEq, Except.ok.injEq] at h2
          exact h2

theorem hmLoop_two (env : HMEnv X) (cand : List X) (nIni n m : ℕ) (hnm : n ≤ m) (fuel fuel' : ℕ) (loc l1 l2 : HMLocals X) (s s1 s2 : HMAttrs X)
    (h1 : hmLoop env cand nIni n fuel loc s = (.ok l1, s1)) (h2 : hmLoop env cand nIni m fuel' loc s = (.ok l2, s2)) :
    s1.input <+: s2.input ∧ s1.labels <+: s2.labels := by
  induction fuel generalizing fuel' loc s with
  | zero =>
    rw [hmLoop] at h1; dsimp only at h1
    split_ifs at h1
    · simp at h1
    · cases h1
      exact hmLoop_grows env cand nIni m fuel' _ l2 _ s2 h2
  | succ k ih =>
    rw [hmLoop] at h1; dsimp only at h1
    by_cases hc : loc.nAdded < n
    · rw [if_pos hc] at h1
      cases hit : hmIter env cand nIni n loc s with
      | mk r t1 =>
        rw [hit] at h1
        cases r with
        | error e => simp at h1
        | ok loc1 =>
          dsimp only at h1
          have hm : loc.nAdded < m := by omega
          cases fuel' with
          | zero =>
            rw [hmLoop] at h2; dsimp only at h2
            rw [if_pos hm] at h2; simp at h2
          | succ k' =>
            rw [hmLoop] at h2; dsimp only at h2
            rw [if_pos hm] at h2
            cases hit' : hmIter env cand nIni m loc s with
            | mk r' t2 =>
              rw [hit'] at h2
              cases r' with
              | error e => simp at h2
              | ok loc2 =>
                dsimp only at h2
                rcases hmIter_two env cand nIni n m hnm loc loc1 loc2 s t1 t2 hit hit' with ⟨rfl, rfl⟩ | ⟨hlt, p1, p2⟩
                · exact ih k' loc1 t1 h1 h2
                · have hs : s1 = t1 := by
                    cases k with
                    | zero =>
                      rw [hmLoop] at h1; dsimp only at h1
                      rw [if_neg (by omega)] at h1
                      exact (Prod.mk.inj h1).2.symm
                    | succ k =>
                      rw [hmLoop] at h1; dsimp only at h1
                      rw [if_neg (by omega)] at h1
                      exact (Prod.mk.inj h1).2.symm
                  rw [hs]
                  obtain ⟨g1, g2⟩ := hmLoop_grows env cand nIni m k' loc2 l2 t2 s2 h2
                  exact ⟨p1.trans g1, p2.trans g2⟩
    · rw [if_neg hc] at h1
      cases h1
      exact hmLoop_grows env cand nIni m fuel' _ l2 _ s2 h2

theorem hmRun_loop (env : HMEnv X) (cand : List X) (nMore : ℕ) (s s' : HMAttrs X) (h : hmRun env cand nMore s = (.ok (), s')) :
    s.numpy = false ∧ ∃ g loc' s2, env.fit 0 s.input s.labels = .ok g ∧
      hmLoop env cand s.input.length nMore nMore ⟨[.base g], .base g, none, 0, 0⟩ { s with numpy := true, model := some (.base g, none) } = (.ok loc', s2) ∧
      s' = { s2 with numpy := false } := by
  unfold hmRun at h
  by_cases hn : s.numpy = true
  · rw [if_pos hn] at h; simp at h
  · rw [if_neg hn] at h
    dsimp only at h
    cases hf : env.fit 0 s.input s.labels with
    | error e => rw [hf] at h; simp at h
    | ok g =>
      rw [hf] at h
      dsimp only at h
      split at h
      · simp at h
      · rename_i loc' s2 hl
        simp only [Prod.mk.injEq, true_and] at h
        exact ⟨by simpa using hn, g, loc', s2, rfl, hl, h.symm⟩

/-- **C226, hit-miss.**  Two successful runs from the same object that ask for `n` and `m ≥ n` points: the design and the labels of the first are the
beginning of those of the second. -/
theorem C226_hitmiss (env : HMEnv X) (cand : List X) (n m : ℕ) (hnm : n ≤ m) (s s1 s2 : HMAttrs X)
    (h1 : hmRun env cand n s = (.ok (), s1)) (h2 : hmRun env cand m s = (.ok (), s2)) : s1.input <+: s2.input ∧ s1.labels <+: s2.labels := by
  obtain ⟨-, g, l1, t1, hg, hl1, rfl⟩ := hmRun_loop env cand n s s1 h1
  obtain ⟨-, g', l2, t2, hg', hl2, rfl⟩ := hmRun_loop env cand m s s2 h2
  have : g = g' := by rw [hg] at hg'; exact Except.ok.inj hg'
  subst this
  exact hmLoop_two env cand _ n m hnm n m _ l1 l2 _ t1 t2 hl1 hl2

/-! ## The batches of a run -/

theorem loop_split (env : HMEnv X) (ha : ArgsortSpec env.argsort) (cand : List X) (nIni k nMore : ℕ) (hk : 5 * k < nMore) (hk' : nMore ≤ 5 * k + 5)
    (loc' : HMLocals X) (s' : HMAttrs X) :
    ∀ (j : ℕ) (loc : HMLocals X) (s : HMAttrs X) (fuel fuel' : ℕ), loc.it + j = k → loc.nAdded = 5 * loc.it → s.input.length = nIni + 5 * loc.it → j ≤ fuel' →
      hmLoop env cand nIni nMore fuel loc s = (.ok loc', s') →
      ∃ l1 s1, hmLoop env cand nIni (5 * k) fuel' loc s = (.ok l1, s1) ∧ hmIter env cand nIni nMore l1 s1 = (.ok loc', s') ∧
        l1.clfs = loc.clfs ++ List.replicate j .agg ∧ l1.it = k ∧ (0 < j → s1.model = some (.agg, l1.vars)) ∧ (j = 0 → l1 = loc ∧ s1 = s) := by
  intro j
  induction j with
  | zero =>
    intro loc s fuel fuel' hj hadd hlen _ h
    have hit : loc.it = k := by omega
    have hstop : hmLoop env cand nIni (5 * k) fuel' loc s = (.ok loc, s) := by
      cases fuel' <;> (rw [hmLoop]; dsimp only; rw [if_neg (by omega)])
    refine ⟨loc, s, hstop, ?_, by simp, hit, by simp, fun _ => ⟨rfl, rfl⟩⟩
    cases fuel with
    | zero => rw [hmLoop] at h; dsimp only at h; rw [if_pos (by omega)] at h; simp at h
    | succ f =>
      rw [hmLoop] at h; dsimp only at h; rw [if_pos (by omega)] at h
      cases hi : hmIter env cand nIni nMore loc s with
      | mk r t =>
        rw [hi] at h
        cases r with
        | error e => simp at h
        | ok l =>
          dsimp only at h
          obtain ⟨_, _, -, -, -, -, -, h6, -⟩ := hmIter_ok env ha cand nIni nMore loc l s t hi (by omega)
          have : (Except.ok l, t) = ((.ok loc', s') : Res (HMLocals X) × HMAttrs X) := by
            cases f <;> (rw [hmLoop] at h; dsimp only at h; rw [if_neg (by omega)] at h; exact h)
          exact this
  | succ j ih =>
    intro loc s fuel fuel' hj hadd hlen hf h
    cases fuel with
    | zero => rw [hmLoop] at h; dsimp only at h; rw [if_pos (by omega)] at h; simp at h
    | succ f =>
      rw [hmLoop] at h; dsimp only at h; rw [if_pos (by omega)] at h
      cases hi : hmIter env cand nIni nMore loc s with
      | mk r t =>
        rw [hi] at h
        cases r with
        | error e => simp at h
        | ok l =>
          dsimp only at h
          obtain ⟨xs, _, e1, -, -, -, e5, h6, -⟩ := hmIter_ok env ha cand nIni nMore loc l s t hi (by omega)
          have hit := hmIter_it env cand nIni nMore loc l s t hi
          obtain ⟨hc, -⟩ := hmIter_clfs env cand nIni nMore loc l s t hi
          have hmod := hmIter_model env cand nIni nMore loc l s t hi
          have hlen' : t.input.length = nIni + 5 * l.it := by
            rw [e1, List.length_append, e5, hit]; omega
          have hi' : hmIter env cand nIni (5 * k) loc s = (.ok l, t) := by
            rw [← hi]
            unfold hmIter
            split
            · rfl
            · rename_i batch hb
              obtain ⟨hl, -⟩ := batch_points env.argsort ha s.pmin s.pmax cand _ batch hb
              dsimp only
              rw [if_neg (by rw [hl]; omega), if_neg (by rw [hl]; omega)]
          obtain ⟨f', rfl⟩ : ∃ f', fuel' = f' + 1 := ⟨fuel' - 1, by omega⟩
          obtain ⟨l1, s1, r1, r2, r3, r4, r5, r6⟩ := ih l t f f' (by omega) (by omega) hlen' (by omega) h
          refine ⟨l1, s1, ?_, r2, ?_, r4, fun _ => ?_, by simp⟩
          · rw [hmLoop]; dsimp only; rw [if_pos (by omega), hi']; exact r1
          · rw [r3, hc, List.append_assoc, List.replicate_succ]; rfl
          · rcases Nat.eq_zero_or_pos j with h0 | hp
            · obtain ⟨rfl, rfl⟩ := r6 h0
              exact hmod
            · exact r5 hp

/-- A run with `k + 1` batches, the last one possibly incomplete: the run with `k` batches succeeds, and the last iteration starts from its state. -/
theorem batches (env : HMEnv X) (ha : ArgsortSpec env.argsort) (cand : List X) (k nMore : ℕ) (hk : 5 * k < nMore) (hk' : nMore ≤ 5 * k + 5)
    (s s' : HMAttrs X) (h : hmRun env cand nMore s = (.ok (), s')) :
    ∃ g sp c w conf alg, env.fit 0 s.input s.labels = .ok g ∧ hmRun env cand (5 * k) s = (.ok (), sp) ∧ sp.model = some (c, w) ∧
      env.fit (k + 1) s'.input s'.labels = .ok alg ∧ s'.model = some (.agg, some ⟨conf true true, conf true false, alg⟩) ∧
      s'.confMat = some conf ∧ conf = meanConf s'.labels (s'.input.map g :: List.replicate k (s'.input.map (c.eval w))) := by
  obtain ⟨hn, g, loc', s2, hg, hl, rfl⟩ := hmRun_loop env cand nMore s s' h
  obtain ⟨l1, s1, r1, r2, r3, r4, r5, r6⟩ := loop_split env ha cand s.input.length k nMore hk hk' loc' s2 k ⟨[.base g], .base g, none, 0, 0⟩
    { s with numpy := true, model := some (.base g, none) } nMore (5 * k) (by simp) (by simp) (by simp) (by omega) hl
  obtain ⟨-, conf, alg, c1, c2, c3, c4⟩ := hmIter_clfs env cand _ nMore l1 loc' s1 s2 r2
  have hm := hmIter_model env cand _ nMore l1 loc' s1 s2 r2
  have hrun : hmRun env cand (5 * k) s = (.ok (), { s1 with numpy := false }) := by
    unfold hmRun
    rw [hn, if_neg (by simp)]
    dsimp only
    rw [hg]
    dsimp only
    rw [r1]
  rw [r4] at c4
  rw [c2] at hm
  rcases Nat.eq_zero_or_pos k with rfl | hp
  · obtain ⟨rfl, rfl⟩ := r6 rfl
    exact ⟨g, _, .base g, none, conf, alg, hg, hrun, rfl, c4, hm, c1, c3⟩
  · refine ⟨g, _, .agg, l1.vars, conf, alg, hg, hrun, r5 hp, c4, hm, c1, ?_⟩
    rw [c3, r3]
    simp only [List.map_append, List.map_cons, List.map_nil, List.map_replicate, List.singleton_append]
    rfl

/-- **C226, hit-miss: whole batches.**  If a run that asks for `m` points succeeds, so does the run that asks for the points of some of its batches. -/
theorem C226_hitmiss_batches (env : HMEnv X) (ha : ArgsortSpec env.argsort) (cand : List X) (k m : ℕ) (hkm : 5 * k ≤ m) (s s2 : HMAttrs X)
    (h : hmRun env cand m s = (.ok (), s2)) : ∃ s1, hmRun env cand (5 * k) s = (.ok (), s1) ∧ s1.input <+: s2.input ∧ s1.labels <+: s2.labels := by
  obtain ⟨s1, h1⟩ : ∃ s1, hmRun env cand (5 * k) s = (.ok (), s1) := by
    induction m using Nat.strong_induction_on generalizing s2 with
    | _ m ih =>
      rcases hkm.eq_or_lt with rfl | hlt
      · exact ⟨_, h⟩
      · obtain ⟨_, sp, _, _, _, _, -, hr, -⟩ := batches env ha cand ((m - 1) / 5) m (by omega) (by omega) s s2 h
        exact ih (5 * ((m - 1) / 5)) (by omega) (by omega) sp hr
  exact ⟨s1, h1, C226_hitmiss env cand (5 * k) m hkm s s1 s2 h1 h⟩

/-! ## Adaptive kriging -/

variable {M : Type}

theorem adIter_grows (env : AdEnv X M) (ref : M) (it : ℕ) (cand : List X) (idx : Option ℕ) (m : M) (s : AdAttrs X M) :
    s.input <+: (adIter env ref it cand idx m s).2.input ∧ s.signals <+: (adIter env ref it cand idx m s).2.signals := by
  unfold adIter
  split
  · exact ⟨List.prefix_rfl, List.prefix_rfl⟩
  · exact ⟨List.prefix_rfl, List.prefix_rfl⟩
  · split
    · exact ⟨List.prefix_rfl, List.prefix_rfl⟩
    · dsimp only
      split
      · exact ⟨List.prefix_append _ _, List.prefix_rfl⟩
      · split <;> exact ⟨List.prefix_append _ _, List.prefix_append _ _⟩

theorem adLoop_grows (env : AdEnv X M) (ref : M) (n : ℕ) : ∀ (it : ℕ) (cand : List X) (idx : Option ℕ) (m : M) (s : AdAttrs X M),
    s.input <+: (adLoop env ref n it cand idx m s).2.input ∧ s.signals <+: (adLoop env ref n it cand idx m s).2.signals := by
  induction n with
  | zero => exact fun _ _ _ _ _ => ⟨List.prefix_rfl, List.prefix_rfl⟩
  | succ n ih =>
    intro it cand idx m s
    have hg := adIter_grows env ref it cand idx m s
    rw [adLoop]
    dsimp only
    revert hg
    rcases adIter env ref it cand idx m s with ⟨r, s1⟩
    intro hg
    cases r with
    | error e => exact hg
    | ok t =>
      obtain ⟨c, i, m'⟩ := t
      have h2 := ih (it + 1) c i m' s1
      exact ⟨hg.1.trans h2.1, hg.2.trans h2.2⟩

theorem adLoop_two (env : AdEnv X M) (ref : M) (j n : ℕ) : ∀ (it : ℕ) (cand : List X) (idx : Option ℕ) (m : M) (s : AdAttrs X M),
    (∀ e s1, adLoop env ref n it cand idx m s = (.error e, s1) → adLoop env ref (n + j) it cand idx m s = (.error e, s1)) ∧
    (adLoop env ref n it cand idx m s).2.input <+: (adLoop env ref (n + j) it cand idx m s).2.input ∧
    (adLoop env ref n it cand idx m s).2.signals <+: (adLoop env ref (n + j) it cand idx m s).2.signals := by
  induction n with
  | zero =>
    intro it cand idx m s
    refine ⟨fun e s1 h => by simp [adLoop] at h, ?_⟩
    rw [Nat.zero_add]
    exact adLoop_grows env ref j it cand idx m s
  | succ n ih =>
    intro it cand idx m s
    rw [Nat.succ_add, adLoop, adLoop]
    dsimp only
    rcases adIter env ref it cand idx m s with ⟨r, s1⟩
    cases r with
    | error e => exact ⟨fun _ _ h => h, List.prefix_rfl, List.prefix_rfl⟩
    | ok t =>
      obtain ⟨c, i, m'⟩ := t
      exact ih (it + 1) c i m' s1

/-- **C226, adaptive kriging.**  The design and the signals after the run that asks for `n` points are the beginning of those after the run from the same
object that asks for `m ≥ n`; when the first run fails the second fails in the same way. -/
theorem C226_signal (env : AdEnv X M) (cands : List X) (n m : ℕ) (hnm : n ≤ m) (s : AdAttrs X M) :
    (adRun env cands n s).2.input <+: (adRun env cands m s).2.input ∧ (adRun env cands n s).2.signals <+: (adRun env cands m s).2.signals ∧
    ∀ e s1, adRun env cands n s = (.error e, s1) → adRun env cands m s = (.error e, s1) := by
  obtain ⟨j, rfl⟩ := Nat.exists_eq_add_of_le hnm
  unfold adRun
  cases env.fit s.input s.signals with
  | error e => exact ⟨List.prefix_rfl, List.prefix_rfl, fun _ _ h => h⟩
  | ok m0 =>
    obtain ⟨h1, h2, h3⟩ := adLoop_two env m0 j n 0 cands none m0 { s with model := some m0 }
    exact ⟨h2, h3, h1⟩

/-! ## The correction after several batches -/

/-- Among the points of the design predicted as detected (`j = true`) or missed, the share of those detected. -/
noncomputable def detectedShare (f : X → F ℝ) (input : List X) (labels : List Bool) (j : Bool) : ℝ :=
  (outcomes f input labels true j : ℝ) / (outcomes f input labels false j + outcomes f input labels true j)

/-- Both classes are predicted on the design. -/
def BothPredicted (f : X → F ℝ) (input : List X) (labels : List Bool) : Prop :=
  ∀ j, 0 < outcomes f input labels false j + outcomes f input labels true j

theorem conf_share (f : X → F ℝ) (input : List X) (labels : List Bool) (h : BothPredicted f input labels) (j : Bool) :
    classifierConf labels (input.map f) true j = .fin (detectedShare f input labels j) := by
  rw [classifierConf, colNorm, confCount_outcomes, confCount_outcomes, detectedShare]
  have : ((outcomes f input labels false j : ℝ) + outcomes f input labels true j) ≠ 0 := by
    have := h j
    have h' : (0 : ℝ) < ((outcomes f input labels false j + outcomes f input labels true j : ℕ) : ℝ) := by exact_mod_cast this
    push_cast at h'
    exact h'.ne'
  exact F.div_fin _ this

theorem foldl_replicate_fin (k : ℕ) (a x : ℝ) : (List.replicate k (F.fin x)).foldl (fun acc p => F.add p acc) (.fin a) = .fin (a + k * x) := by
  induction k generalizing a with
  | zero => simp
  | succ k ih =>
    rw [List.replicate_succ, List.foldl_cons, F.add_fin, ih]
    congr 1
    push_cast
    ring

/-- The entries after `k + 1` batches. -/
theorem conf_batches (labels : List Bool) (input : List X) (g h : X → F ℝ) (k : ℕ) (hg : BothPredicted g input labels)
    (hh : k ≠ 0 → BothPredicted h input labels) (j : Bool) :
    meanConf labels (input.map g :: List.replicate k (input.map h)) true j =
      .fin ((detectedShare g input labels j + k * detectedShare h input labels j) / (k + 1)) := by
  have e : (input.map g :: List.replicate k (input.map h)).foldl (fun acc p => F.add (classifierConf labels p true j) acc) (.fin 0) =
      ((input.map g :: List.replicate k (input.map h)).map fun p => classifierConf labels p true j).foldl (fun acc p => F.add p acc) (.fin 0) := by
    rw [List.foldl_map]
  rw [meanConf, e, List.map_cons, List.map_replicate, List.foldl_cons, conf_share g input labels hg, F.add_fin]
  have hk : ((input.map g :: List.replicate k (input.map h)).length : ℝ) = k + 1 := by simp
  have hk0 : (k + 1 : ℝ) ≠ 0 := by positivity
  rcases Nat.eq_zero_or_pos k with rfl | hp
  · rw [hk]
    simp only [List.replicate_zero, List.foldl_nil]
    rw [F.div_fin _ hk0]
    simp
  · rw [conf_share h input labels (hh hp.ne'), foldl_replicate_fin, hk, F.div_fin _ hk0, add_zero]

/-- **C55 (restricted): a whole run.**  After `k + 1` batches the matrix is the mean over the initial classifier and `k` times the corrected classifier of the
run with `k` batches, all on the final design. -/
theorem C55_run_partial (env : HMEnv X) (ha : ArgsortSpec env.argsort) (cand : List X) (k nMore : ℕ) (hk : 5 * k < nMore) (hk' : nMore ≤ 5 * k + 5)
    (s s' : HMAttrs X) (h : hmRun env cand nMore s = (.ok (), s')) :
    ∃ g sp c w, env.fit 0 s.input s.labels = .ok g ∧ hmRun env cand (5 * k) s = (.ok (), sp) ∧ sp.model = some (c, w) ∧
      s'.confMat = some (meanConf s'.labels (s'.input.map g :: List.replicate k (s'.input.map (c.eval w)))) := by
  obtain ⟨g, sp, c, w, conf, alg, h1, h2, h3, -, -, h6, rfl⟩ := batches env ha cand k nMore hk hk' s s' h
  exact ⟨g, sp, c, w, h1, h2, h3, h6⟩

/-- Corrected values in terms of the two entries. -/
theorem corrected_value (env : HMEnv X) (ha : ArgsortSpec env.argsort) (cand : List X) (k nMore : ℕ) (hk : 5 * k < nMore) (hk' : nMore ≤ 5 * k + 5)
    (s s' : HMAttrs X) (h : hmRun env cand nMore s = (.ok (), s')) :
    ∃ g sp c w v, env.fit 0 s.input s.labels = .ok g ∧ hmRun env cand (5 * k) s = (.ok (), sp) ∧ sp.model = some (c, w) ∧
      s'.model = some (.agg, some v) ∧ env.fit (k + 1) s'.input s'.labels = .ok v.alg ∧
      (BothPredicted g s'.input s'.labels → (k ≠ 0 → BothPredicted (c.eval w) s'.input s'.labels) →
        ∃ a b : ℝ, a = (detectedShare g s'.input s'.labels true + k * detectedShare (c.eval w) s'.input s'.labels true) / (k + 1) ∧
          b = (detectedShare g s'.input s'.labels false + k * detectedShare (c.eval w) s'.input s'.labels false) / (k + 1) ∧
          (a ≠ b → ∀ x p, v.alg x = .fin p → (Clf.agg : Clf X).eval (some v) x = .fin (min (max ((p - b) / (a - b)) 0) 1))) := by
  obtain ⟨g, sp, c, w, conf, alg, h1, h2, h3, h4, h5, -, rfl⟩ := batches env ha cand k nMore hk hk' s s' h
  refine ⟨g, sp, c, w, _, h1, h2, h3, h5, h4, fun hg hh => ⟨_, _, rfl, rfl, fun hab x p hx => ?_⟩⟩
  have hx' : alg x = .fin p := hx
  change aggregate (meanConf _ _ true true) (meanConf _ _ true false) (alg x) = _
  rw [conf_batches _ _ g _ k hg hh, conf_batches _ _ g _ k hg hh, hx', aggregate_fin _ _ _ hab]

/-- **C223, restricted: any number of batches.**  When, on the final design, the initial classifier and (from the second batch on) the corrected classifier of
the run without the last batch predict both classes, and a detection predicted by one of them is more often right than a predicted miss is wrong, the
corrected values are numbers between 0 and 1 in the order of the values of the new classifier. -/
theorem C223_batches_partial (env : HMEnv X) (ha : ArgsortSpec env.argsort) (cand : List X) (k nMore : ℕ) (hk : 5 * k < nMore) (hk' : nMore ≤ 5 * k + 5)
    (s s' : HMAttrs X) (h : hmRun env cand nMore s = (.ok (), s')) :
    ∃ g sp c w v, env.fit 0 s.input s.labels = .ok g ∧ hmRun env cand (5 * k) s = (.ok (), sp) ∧ sp.model = some (c, w) ∧
      s'.model = some (.agg, some v) ∧ env.fit (k + 1) s'.input s'.labels = .ok v.alg ∧
      (BothPredicted g s'.input s'.labels → (k ≠ 0 → BothPredicted (c.eval w) s'.input s'.labels) →
        detectedShare g s'.input s'.labels false < detectedShare g s'.input s'.labels true →
        (k ≠ 0 → detectedShare (c.eval w) s'.input s'.labels false < detectedShare (c.eval w) s'.input s'.labels true) →
        ∀ x y p p', v.alg x = .fin p → v.alg y = .fin p' → p ≤ p' →
          ∃ q q' : ℝ, (Clf.agg : Clf X).eval (some v) x = .fin q ∧ (Clf.agg : Clf X).eval (some v) y = .fin q' ∧ 0 ≤ q ∧ q ≤ q' ∧ q' ≤ 1) := by
  obtain ⟨g, sp, c, w, v, h1, h2, h3, h4, h5, h6⟩ := corrected_value env ha cand k nMore hk hk' s s' h
  refine ⟨g, sp, c, w, v, h1, h2, h3, h4, h5, fun b1 b2 d1 d2 x y p p' hx hy hpp => ?_⟩
  obtain ⟨a, b, ea, eb, hval⟩ := h6 b1 b2
  have hab : b < a := by
    rw [ea, eb]
    apply div_lt_div_of_pos_right _ (by positivity)
    rcases Nat.eq_zero_or_pos k with rfl | hp
    · simpa using d1
    · have := mul_lt_mul_of_pos_left (d2 hp.ne') (by exact_mod_cast hp : (0 : ℝ) < k)
      linarith
  refine ⟨_, _, hval hab.ne' x p hx, hval hab.ne' y p' hy, le_min (le_max_right _ _) zero_le_one, ?_, min_le_right _ _⟩
  refine min_le_min_right _ (max_le_max_right _ ?_)
  exact div_le_div_of_nonneg_right (by linarith) (by linarith)

/-- **C223 is violated, any number of batches.**  In the opposite case for both classifiers the order is reversed. -/
theorem C223_violated_batches (env : HMEnv X) (ha : ArgsortSpec env.argsort) (cand : List X) (k nMore : ℕ) (hk : 5 * k < nMore) (hk' : nMore ≤ 5 * k + 5)
    (s s' : HMAttrs X) (h : hmRun env cand nMore s = (.ok (), s')) :
    ∃ g sp c w v, env.fit 0 s.input s.labels = .ok g ∧ hmRun env cand (5 * k) s = (.ok (), sp) ∧ sp.model = some (c, w) ∧
      s'.model = some (.agg, some v) ∧ env.fit (k + 1) s'.input s'.labels = .ok v.alg ∧
      (BothPredicted g s'.input s'.labels → (k ≠ 0 → BothPredicted (c.eval w) s'.input s'.labels) →
        detectedShare g s'.input s'.labels true < detectedShare g s'.input s'.labels false →
        (k ≠ 0 → detectedShare (c.eval w) s'.input s'.labels true < detectedShare (c.eval w) s'.input s'.labels false) →
        ∀ x y p p', v.alg x = .fin p → v.alg y = .fin p' → p ≤ p' →
          ∃ q q' : ℝ, (Clf.agg : Clf X).eval (some v) x = .fin q ∧ (Clf.agg : Clf X).eval (some v) y = .fin q' ∧ q' ≤ q) := by
  obtain ⟨g, sp, c, w, v, h1, h2, h3, h4, h5, h6⟩ := corrected_value env ha cand k nMore hk hk' s s' h
  refine ⟨g, sp, c, w, v, h1, h2, h3, h4, h5, fun b1 b2 d1 d2 x y p p' hx hy hpp => ?_⟩
  obtain ⟨a, b, ea, eb, hval⟩ := h6 b1 b2
  have hab : a < b := by
    rw [ea, eb]
    apply div_lt_div_of_pos_right _ (by positivity)
    rcases Nat.eq_zero_or_pos k with rfl | hp
    · simpa using d1
    · have := mul_lt_mul_of_pos_left (d2 hp.ne') (by exact_mod_cast hp : (0 : ℝ) < k)
      linarith
  refine ⟨_, _, hval hab.ne x p hx, hval hab.ne y p' hy, ?_⟩
  refine min_le_min_right _ (max_le_max_right _ ?_)
  exact div_le_div_of_nonpos_of_le (by linarith) (by linarith)

/-- **C224, restricted: any number of batches.**  When both classifiers predict both classes on the final design and the weighted shares differ, the corrected
values are numbers between 0 and 1. -/
theorem C224_batches_partial (env : HMEnv X) (ha : ArgsortSpec env.argsort) (cand : List X) (k nMore : ℕ) (hk : 5 * k < nMore) (hk' : nMore ≤ 5 * k + 5)
    (s s' : HMAttrs X) (h : hmRun env cand nMore s = (.ok (), s')) :
    ∃ g sp c w v, env.fit 0 s.input s.labels = .ok g ∧ hmRun env cand (5 * k) s = (.ok (), sp) ∧ sp.model = some (c, w) ∧
      s'.model = some (.agg, some v) ∧ env.fit (k + 1) s'.input s'.labels = .ok v.alg ∧
      (BothPredicted g s'.input s'.labels → (k ≠ 0 → BothPredicted (c.eval w) s'.input s'.labels) →
        detectedShare g s'.input s'.labels true + k * detectedShare (c.eval w) s'.input s'.labels true ≠
          detectedShare g s'.input s'.labels false + k * detectedShare (c.eval w) s'.input s'.labels false →
        ∀ x p, v.alg x = .fin p → ∃ q : ℝ, (Clf.agg : Clf X).eval (some v) x = .fin q ∧ 0 ≤ q ∧ q ≤ 1) := by
  obtain ⟨g, sp, c, w, v, h1, h2, h3, h4, h5, h6⟩ := corrected_value env ha cand k nMore hk hk' s s' h
  refine ⟨g, sp, c, w, v, h1, h2, h3, h4, h5, fun b1 b2 d x p hx => ?_⟩
  obtain ⟨a, b, ea, eb, hval⟩ := h6 b1 b2
  have hab : a ≠ b := by
    rw [ea, eb]
    intro he
    have hk0 : (k + 1 : ℝ) ≠ 0 := by positivity
    rw [div_left_inj' hk0] at he
    exact d he
  exact ⟨_, hval hab x p hx, le_min (le_max_right _ _) zero_le_one, min_le_right _ _⟩

/-- **C224 is violated, from the second batch on.**  If the corrected classifier of the run without the last batch predicts the same class for all points of the
final design, the classifier of the POD gives NaN everywhere. -/
theorem C224_violated_corrected (env : HMEnv X) (ha : ArgsortSpec env.argsort) (cand : List X) (k nMore : ℕ) (h0 : k ≠ 0) (hk : 5 * k < nMore)
    (hk' : nMore ≤ 5 * k + 5) (s s' : HMAttrs X) (h : hmRun env cand nMore s = (.ok (), s')) :
    ∃ sp c w v, hmRun env cand (5 * k) s = (.ok (), sp) ∧ sp.model = some (c, w) ∧ s'.model = some (.agg, some v) ∧
      ∀ b, (∀ x ∈ s'.input, F.ge (c.eval w x) (.fin (1 / 2)) = b) → ∀ x, (Clf.agg : Clf X).eval (some v) x = .nan := by
  obtain ⟨g, sp, c, w, conf, alg, h1, h2, h3, h4, h5, -, rfl⟩ := batches env ha cand k nMore hk hk' s s' h
  refine ⟨sp, c, w, _, h2, h3, h5, fun b hb x => ?_⟩
  have hn : meanConf s'.labels (s'.input.map g :: List.replicate k (s'.input.map (c.eval w))) true (!b) = .nan :=
    meanConf_nan _ _ _ _ (s'.input.map (c.eval w)) (List.mem_cons_of_mem _ (List.mem_replicate.mpr ⟨h0, rfl⟩))
      (classifierConf_single (c.eval w) s'.input s'.labels b hb true)
  refine aggregate_nan _ _ _ ?_
  cases b
  · left; exact hn
  · right; exact hn

/-! ## Examples -/

/-- The object of the examples: the points 0 and 2 with their labels. -/
noncomputable def rightStart : HMAttrs (Fin 3) := ⟨[0, 2], [false, true], false, none, none, .fin (45 / 100), .fin (52 / 100)⟩

theorem right_run (k : ℕ) : ∃ s', hmRun rightExample [1] (5 * k) rightStart = (.ok (), s') := by
  obtain ⟨_, s', -, -, h, -⟩ := C154_hitmiss_violated rightExample (fun x => (x : ℕ) / 2) ⟨fun x => by fin_cases x <;> norm_num, fun _ _ _ => rfl, fun _ => rfl⟩
    argsortRef_spec [1] k rightStart rfl (by norm_num [rightStart]) (by simp [rightStart]) (by simp [rightStart])
    ⟨0, by simp, by norm_num [rightStart, F.le], by norm_num [rightStart, F.lt]⟩
  exact ⟨s', h⟩

theorem right_design (n : ℕ) (s' : HMAttrs (Fin 3)) (h : hmRun rightExample [1] n rightStart = (.ok (), s')) :
    s'.input = [0, 2] ++ List.replicate n 1 ∧ s'.labels = [false, true] ++ List.replicate n true := by
  obtain ⟨xs, zs, h1, h2, h3, h4, h5, -⟩ := C50_points_added rightExample argsortRef_spec [1] n rightStart s' h
  have hx : xs = List.replicate n 1 := List.eq_replicate_iff.mpr ⟨h3, fun x hx => by simpa using h4 x hx⟩
  have hz : zs = List.replicate n true := by
    refine List.eq_replicate_iff.mpr ⟨by rw [← h3, h5.length_eq], fun z hz => ?_⟩
    obtain ⟨i, hi, rfl⟩ := List.getElem_of_mem hz
    have hi' : i < xs.length := by rw [h5.length_eq]; exact hi
    have := h5.get (i := i) hi' hi
    have hxi : xs[i] = 1 := by simpa using h4 _ (List.getElem_mem hi')
    simp only [List.get_eq_getElem, hxi, rightExample] at this
    have := Except.ok.inj this
    rw [← this]
    norm_num
  exact ⟨by rw [h1, hx]; rfl, by rw [h2, hz]; rfl⟩

/-- The hypotheses of `C226_hitmiss` and `C226_hitmiss_batches`: five and ten points. -/
example : ∃ s1 s2, hmRun rightExample [1] 5 rightStart = (.ok (), s1) ∧ hmRun rightExample [1] 10 rightStart = (.ok (), s2) ∧ s1.input <+: s2.input := by
  obtain ⟨s2, h2⟩ := right_run 2
  obtain ⟨s1, h1, hp, -⟩ := C226_hitmiss_batches rightExample argsortRef_spec [1] 1 10 (by norm_num) rightStart s2 h2
  exact ⟨s1, s2, h1, h2, (C226_hitmiss rightExample [1] 5 10 (by norm_num) rightStart s1 s2 h1 h2).1⟩

/-- One and two points for adaptive kriging. -/
example : (adRun demoEnv [3, 2, 5] 1 ⟨[7], [14], none, none⟩).2.input <+: (adRun demoEnv [3, 2, 5] 2 ⟨[7], [14], none, none⟩).2.input :=
  (C226_signal demoEnv [3, 2, 5] 1 2 (by norm_num) ⟨[7], [14], none, none⟩).1

theorem right_outcomes (f : Fin 3 → F ℝ) (hf : f 0 = .fin 0 ∧ f 1 = .fin (1 / 2) ∧ f 2 = .fin 1) :
    BothPredicted f ([0, 2] ++ List.replicate 10 1) ([false, true] ++ List.replicate 10 true) ∧
    detectedShare f ([0, 2] ++ List.replicate 10 1) ([false, true] ++ List.replicate 10 true) false <
      detectedShare f ([0, 2] ++ List.replicate 10 1) ([false, true] ++ List.replicate 10 true) true := by
  have h1 : outcomes f ([0, 2] ++ List.replicate 10 1) ([false, true] ++ List.replicate 10 true) true true = 11 := by
    norm_num [outcomes, List.replicate, hf, F.ge, F.le]
  have h2 : outcomes f ([0, 2] ++ List.replicate 10 1) ([false, true] ++ List.replicate 10 true) false true = 0 := by
    norm_num [outcomes, List.replicate, hf, F.ge, F.le]
  have h3 : outcomes f ([0, 2] ++ List.replicate 10 1) ([false, true] ++ List.replicate 10 true) true false = 0 := by
    norm_num [outcomes, List.replicate, hf, F.ge, F.le]
  have h4 : outcomes f ([0, 2] ++ List.replicate 10 1) ([false, true] ++ List.replicate 10 true) false false = 1 := by
    norm_num [outcomes, List.replicate, hf, F.ge, F.le]
  refine ⟨fun j => ?_, ?_⟩
  · cases j
    · rw [h3, h4]; norm_num
    · rw [h1, h2]; norm_num
  · rw [detectedShare, detectedShare, h1, h2, h3, h4]
    norm_num

/-- The corrected classifier after five points is the classifier itself. -/
theorem right_previous (sp : HMAttrs (Fin 3)) (h2 : hmRun rightExample [1] 5 rightStart = (.ok (), sp)) (c : Clf (Fin 3)) (w : Option (AggVars (Fin 3)))
    (h3 : sp.model = some (c, w)) : ∀ x : Fin 3, ∀ p : ℝ, ((x : ℕ) : ℝ) / 2 = p → 0 ≤ p → p ≤ 1 → c.eval w x = .fin p := by
  obtain ⟨g', _, _, _, v', k1, -, -, k4, k5, k6⟩ := corrected_value rightExample argsortRef_spec [1] 0 5 (by norm_num) (by norm_num) rightStart sp h2
  obtain ⟨d1, d2⟩ := right_design 5 sp h2
  have hg' : g' = fun x => .fin ((x : ℕ) / 2) := (Except.ok.inj k1).symm
  have hv' : v'.alg = fun x => .fin ((x : ℕ) / 2) := (Except.ok.inj k5).symm
  rw [d1, d2, hg'] at k6
  have o1 : outcomes (fun x : Fin 3 => (.fin ((x : ℕ) / 2) : F ℝ)) ([0, 2] ++ List.replicate 5 1) ([false, true] ++ List.replicate 5 true) true true = 6 := by
    norm_num [outcomes, List.replicate, F.ge, F.le]
  have o2 : outcomes (fun x : Fin 3 => (.fin ((x : ℕ) / 2) : F ℝ)) ([0, 2] ++ List.replicate 5 1) ([false, true] ++ List.replicate 5 true) false true = 0 := by
    norm_num [outcomes, List.replicate, F.ge, F.le]
  have o3 : outcomes (fun x : Fin 3 => (.fin ((x : ℕ) / 2) : F ℝ)) ([0, 2] ++ List.replicate 5 1) ([false, true] ++ List.replicate 5 true) true false = 0 := by
    norm_num [outcomes, List.replicate, F.ge, F.le]
  have o4 : outcomes (fun x : Fin 3 => (.fin ((x : ℕ) / 2) : F ℝ)) ([0, 2] ++ List.replicate 5 1) ([false, true] ++ List.replicate 5 true) false false = 1 := by
    norm_num [outcomes, List.replicate, F.ge, F.le]
  obtain ⟨a, b, ea, eb, hval⟩ := k6 (fun j => by cases j <;> simp only [o1, o2, o3, o4] <;> norm_num) (by simp)
  have ha : a = 1 := by rw [ea]; simp only [detectedShare, o1, o2]; norm_num
  have hb : b = 0 := by rw [eb]; simp only [detectedShare, o3, o4]; norm_num
  have hcw : c = .agg ∧ w = some v' := by
    rw [k4] at h3
    have := Option.some.inj h3
    exact ⟨(Prod.mk.inj this).1.symm, (Prod.mk.inj this).2.symm⟩
  intro x p hp p0 p1
  rw [hcw.1, hcw.2, hval (by rw [ha, hb]; norm_num) x p (by rw [hv', ← hp]), ha, hb, sub_zero, sub_zero, div_one, max_eq_left p0, min_eq_left p1]

/-- The hypotheses of `C55_run_partial`, `C223_batches_partial` and `C224_batches_partial`: two batches. -/
example : ∃ s' v q q', hmRun rightExample [1] 10 rightStart = (.ok (), s') ∧ s'.model = some (.agg, some v) ∧
    (Clf.agg : Clf (Fin 3)).eval (some v) 1 = .fin q ∧ (Clf.agg : Clf (Fin 3)).eval (some v) 2 = .fin q' ∧ q ≤ q' := by
  obtain ⟨s', h⟩ := right_run 2
  obtain ⟨g, sp, c, w, v, h1, h2, h3, h4, h5, h6⟩ := C223_batches_partial rightExample argsortRef_spec [1] 1 10 (by norm_num) (by norm_num) rightStart s' h
  have hg : g = fun x => .fin ((x : ℕ) / 2) := (Except.ok.inj h1).symm
  have hv : v.alg = fun x => .fin ((x : ℕ) / 2) := (Except.ok.inj h5).symm
  obtain ⟨e1, e2⟩ := right_design 10 s' h
  rw [e1, e2] at h6
  have hcv := right_previous sp h2 c w h3
  obtain ⟨r1, r2⟩ := right_outcomes (c.eval w) ⟨hcv 0 0 (by norm_num) (by norm_num) (by norm_num), hcv 1 (1 / 2) (by norm_num) (by norm_num) (by norm_num),
    hcv 2 1 (by norm_num) (by norm_num) (by norm_num)⟩
  obtain ⟨r3, r4⟩ := right_outcomes g (by rw [hg]; norm_num)
  obtain ⟨q, q', a1, a2, -, a3, -⟩ := h6 r3 (fun _ => r1) r4 (fun _ => r2) 1 2 (1 / 2) 1 (by rw [hv]; norm_num) (by rw [hv]; norm_num) (by norm_num)
  exact ⟨s', v, q, q', h, h4, a1, a2, a3⟩

/-! ## C189 for several batches -/

/-- **C189 is violated, several batches.**  `a` and `b` are the means, over the classifiers used by the library, of the shares of true detections among the
points predicted as detections and as misses; a probability `p` of a predicted detection then corresponds to the probability `a p + b (1 - p)` of a true one.
For every number of batches and classifiers better than chance on average, where the new classifier gives `p` strictly between 0 and 1 the corrected
probability is on the other side of `p` than the calibrated one, and they agree only where there is nothing to correct. -/
theorem C189_violated_batches (env : HMEnv X) (ha : ArgsortSpec env.argsort) (cand : List X) (k nMore : ℕ) (hk : 5 * k < nMore) (hk' : nMore ≤ 5 * k + 5)
    (s s' : HMAttrs X) (h : hmRun env cand nMore s = (.ok (), s')) :
    ∃ g sp c w v, env.fit 0 s.input s.labels = .ok g ∧ hmRun env cand (5 * k) s = (.ok (), sp) ∧ sp.model = some (c, w) ∧
      s'.model = some (.agg, some v) ∧ env.fit (k + 1) s'.input s'.labels = .ok v.alg ∧
      (BothPredicted g s'.input s'.labels → (k ≠ 0 → BothPredicted (c.eval w) s'.input s'.labels) →
        ∃ a b : ℝ, a = (detectedShare g s'.input s'.labels true + k * detectedShare (c.eval w) s'.input s'.labels true) / (k + 1) ∧
          b = (detectedShare g s'.input s'.labels false + k * detectedShare (c.eval w) s'.input s'.labels false) / (k + 1) ∧
          (b < a → ∀ x p, v.alg x = .fin p → 0 < p → p < 1 → ∃ q, (Clf.agg : Clf X).eval (some v) x = .fin q ∧
            (p < a * p + b * (1 - p) ↔ q < p) ∧ (a * p + b * (1 - p) < p ↔ p < q) ∧ (q = a * p + b * (1 - p) ↔ a * p + b * (1 - p) = p))) := by
  obtain ⟨g, sp, c, w, v, h1, h2, h3, h4, h5, h6⟩ := corrected_value env ha cand k nMore hk hk' s s' h
  refine ⟨g, sp, c, w, v, h1, h2, h3, h4, h5, fun b1 b2 => ?_⟩
  obtain ⟨a, b, ea, eb, hval⟩ := h6 b1 b2
  refine ⟨a, b, ea, eb, fun hab x p hx p0 p1 => ⟨_, hval hab.ne' x p hx, ?_⟩⟩
  have hd : 0 < a - b := sub_pos.mpr hab
  have k1 : p < a * p + b * (1 - p) ↔ min (max ((p - b) / (a - b)) 0) 1 < p := by
    rw [min_lt_iff, max_lt_iff, div_lt_iff₀ hd]
    constructor
    · intro hh
      exact Or.inl ⟨by nlinarith, p0⟩
    · rintro (⟨hh, -⟩ | hh)
      · nlinarith
      · linarith
  have k2 : a * p + b * (1 - p) < p ↔ p < min (max ((p - b) / (a - b)) 0) 1 := by
    rw [lt_min_iff, lt_max_iff, lt_div_iff₀ hd]
    constructor
    · intro hh
      exact ⟨Or.inl (by nlinarith), p1⟩
    · rintro ⟨hh | hh, -⟩
      · nlinarith
      · linarith
  refine ⟨k1, k2, fun hq => ?_, fun hq => ?_⟩
  · rcases lt_trichotomy p (a * p + b * (1 - p)) with hh | hh | hh
    · have := k1.mp hh
      linarith
    · exact hh.symm
    · have := k2.mp hh
      linarith
  · rw [hq]
    refine le_antisymm (not_lt.mp fun hh => ?_) (not_lt.mp fun hh => ?_)
    · have := k2.mpr hh
      linarith
    · have := k1.mpr hh
      linarith

theorem share_perfect (f : X → F ℝ) (input : List X) (labels : List Bool) (h1 : outcomes f input labels false true = 0)
    (h2 : outcomes f input labels true false = 0) (h3 : 0 < outcomes f input labels true true) (h4 : 0 < outcomes f input labels false false) :
    BothPredicted f input labels ∧ detectedShare f input labels true = 1 ∧ detectedShare f input labels false = 0 := by
  have r3 : (0 : ℝ) < outcomes f input labels true true := by exact_mod_cast h3
  refine ⟨fun j => by cases j <;> omega, ?_, ?_⟩
  · rw [detectedShare, h1, Nat.cast_zero, zero_add, div_self r3.ne']
  · rw [detectedShare, h2, Nat.cast_zero, zero_div]

/-- **C189, restricted, several batches.**  When the classifiers used for the confusion matrix make no error on the final design, the correction changes nothing.
Missing: classifiers with errors. -/
theorem C189_batches_partial (env : HMEnv X) (ha : ArgsortSpec env.argsort) (cand : List X) (k nMore : ℕ) (hk : 5 * k < nMore) (hk' : nMore ≤ 5 * k + 5)
    (s s' : HMAttrs X) (h : hmRun env cand nMore s = (.ok (), s')) :
    ∃ g sp c w v, env.fit 0 s.input s.labels = .ok g ∧ hmRun env cand (5 * k) s = (.ok (), sp) ∧ sp.model = some (c, w) ∧
      s'.model = some (.agg, some v) ∧ env.fit (k + 1) s'.input s'.labels = .ok v.alg ∧
      ((∀ f ∈ [g, c.eval w], outcomes f s'.input s'.labels false true = 0 ∧ outcomes f s'.input s'.labels true false = 0 ∧
          0 < outcomes f s'.input s'.labels true true ∧ 0 < outcomes f s'.input s'.labels false false) →
        ∀ x p, v.alg x = .fin p → 0 ≤ p → p ≤ 1 → (Clf.agg : Clf X).eval (some v) x = .fin p) := by
  obtain ⟨g, sp, c, w, v, h1, h2, h3, h4, h5, h6⟩ := corrected_value env ha cand k nMore hk hk' s s' h
  refine ⟨g, sp, c, w, v, h1, h2, h3, h4, h5, fun hf x p hx p0 p1 => ?_⟩
  obtain ⟨g1, g2, g3, g4⟩ := hf g (by simp)
  obtain ⟨c1, c2, c3, c4⟩ := hf (c.eval w) (by simp)
  obtain ⟨bg, sg1, sg0⟩ := share_perfect g _ _ g1 g2 g3 g4
  obtain ⟨bc, sc1, sc0⟩ := share_perfect (c.eval w) _ _ c1 c2 c3 c4
  obtain ⟨a, b, ea, eb, hval⟩ := h6 bg fun _ => bc
  have hk1 : (k : ℝ) + 1 ≠ 0 := by positivity
  have e1 : a = 1 := by rw [ea, sg1, sc1, mul_one, add_comm, div_self hk1]
  have e0 : b = 0 := by rw [eb, sg0, sc0, mul_zero, add_zero, zero_div]
  rw [hval (by rw [e1, e0]; norm_num) x p hx, e1, e0, sub_zero, sub_zero, div_one, max_eq_left p0, min_eq_left p1]

/-- The hypotheses of the two theorems: two batches. -/
example : ∃ s' v q, hmRun rightExample [1] 10 rightStart = (.ok (), s') ∧ s'.model = some (.agg, some v) ∧
    (Clf.agg : Clf (Fin 3)).eval (some v) 1 = .fin (1 / 2) ∧ (Clf.agg : Clf (Fin 3)).eval (some v) 1 = .fin q ∧ ¬ q < 1 / 2 := by
  obtain ⟨s', h⟩ := right_run 2
  obtain ⟨e1, e2⟩ := right_design 10 s' h
  have hout : ∀ f : Fin 3 → F ℝ, f 0 = .fin 0 ∧ f 1 = .fin (1 / 2) ∧ f 2 = .fin 1 →
      outcomes f s'.input s'.labels false true = 0 ∧ outcomes f s'.input s'.labels true false = 0 ∧
      0 < outcomes f s'.input s'.labels true true ∧ 0 < outcomes f s'.input s'.labels false false := by
    intro f hf
    rw [e1, e2]
    refine ⟨?_, ?_, ?_, ?_⟩ <;> norm_num [outcomes, List.replicate, hf, F.ge, F.le]
  obtain ⟨g, sp, c, w, v, h1, h2, h3, h4, h5, h6⟩ := C189_batches_partial rightExample argsortRef_spec [1] 1 10 (by norm_num) (by norm_num) rightStart s' h
  obtain ⟨g', sp', c', w', v', i1, i2, i3, i4, i5, i6⟩ :=
    C189_violated_batches rightExample argsortRef_spec [1] 1 10 (by norm_num) (by norm_num) rightStart s' h
  have hv : v' = v := by
    rw [h4] at i4
    simpa using i4.symm
  subst hv
  have hcl : ∀ (g : Fin 3 → F ℝ) sp c w, rightExample.fit 0 rightStart.input rightStart.labels = .ok g → hmRun rightExample [1] 5 rightStart = (.ok (), sp) →
      sp.model = some (c, w) → (g 0 = .fin 0 ∧ g 1 = .fin (1 / 2) ∧ g 2 = .fin 1) ∧
        (c.eval w 0 = .fin 0 ∧ c.eval w 1 = .fin (1 / 2) ∧ c.eval w 2 = .fin 1) := by
    intro g sp c w k1 k2 k3
    have hg : g = fun x => .fin ((x : ℕ) / 2) := (Except.ok.inj k1).symm
    have hcv := right_previous sp k2 c w k3
    exact ⟨by rw [hg]; norm_num, hcv 0 0 (by norm_num) (by norm_num) (by norm_num), hcv 1 (1 / 2) (by norm_num) (by norm_num) (by norm_num),
      hcv 2 1 (by norm_num) (by norm_num) (by norm_num)⟩
  have halg : v'.alg 1 = .fin (1 / 2) := by
    have : v'.alg = fun x => .fin ((x : ℕ) / 2) := (Except.ok.inj h5).symm
    rw [this]; norm_num
  obtain ⟨p1, p2⟩ := hcl g sp c w h1 h2 h3
  obtain ⟨q1, q2⟩ := hcl g' sp' c' w' i1 i2 i3
  have hq := h6 (by
    intro f hf
    rcases List.mem_cons.mp hf with rfl | hf
    · exact hout _ p1
    · rw [List.mem_singleton.mp hf]; exact hout _ p2) 1 (1 / 2) halg (by norm_num) (by norm_num)
  obtain ⟨o1, o2, o3, o4⟩ := hout g' q1
  obtain ⟨r1, r2, r3, r4⟩ := hout (c'.eval w') q2
  obtain ⟨s1, s2, s3⟩ := share_perfect g' _ _ o1 o2 o3 o4
  obtain ⟨t1, t2, t3⟩ := share_perfect (c'.eval w') _ _ r1 r2 r3 r4
  obtain ⟨a, b, ea, eb, hval⟩ := i6 s1 fun _ => t1
  have e1 : a = 1 := by rw [ea, s2, t2]; norm_num
  have e0 : b = 0 := by rw [eb, s3, t3]; norm_num
  obtain ⟨q, hq1, hq2, -⟩ := hval (by rw [e1, e0]; norm_num) 1 (1 / 2) halg (by norm_num) (by norm_num)
  refine ⟨s', v', q, h, h4, hq, hq1, fun hlt => ?_⟩
  have := hq2.mpr hlt
  rw [e1, e0] at this
  norm_num at this

end Verif.Props
