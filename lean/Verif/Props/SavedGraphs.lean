import Verif.Model.SavedGraphs
import Verif.Props.AdaptiveSignal
import Verif.Props.HitMiss
import Verif.Props.AdaptiveFresh
import Std.Data.String.ToNat

/-!
# C216: the graphs saved during an adaptive run
-/

namespace Verif.Props
open Verif.Py Verif.Model

variable {X M : Type}

theorem signalName_inj {a b : ℕ} (h : "AdaptiveSignalPOD_" ++ toString a = "AdaptiveSignalPOD_" ++ toString b) : a = b :=
  Nat.repr_injective ((String.append_right_inj _).1 h)

theorem hitmissName_inj {a b : ℕ} (h : "AdaptiveHitMissPOD_" ++ toString a = "AdaptiveHitMissPOD_" ++ toString b) : a = b :=
  Nat.repr_injective ((String.append_right_inj _).1 h)

/-- One iteration adds one point. -/
theorem adIter_one (env : AdEnv X M) (ref : M) (it : ℕ) (cand : List X) (idx : Option ℕ) (m : M) (s s' : AdAttrs X M) (r : List X × Option ℕ × M)
    (h : adIter env ref it cand idx m s = (.ok r, s')) : s'.input.length = s.input.length + 1 := by
  unfold adIter at h
  split at h
  · simp at h
  · simp at h
  · split at h
    · simp at h
    · dsimp only at h
      split at h
      · simp at h
      · split at h
        · simp at h
        · simp only [Prod.mk.injEq, Except.ok.injEq] at h
          rw [← h.2]
          simp

theorem adLoopSave_spec (env : AdEnv X M) (draw : ℕ → AdAttrs X M → Res PodFigure) (ref : M) (n : ℕ) :
    ∀ (it : ℕ) (cand : List X) (idx : Option ℕ) (m mf : M) (s s' : AdAttrs X M × GraphDir),
      adLoopSave env draw ref n it cand idx m s = (.ok mf, s') →
      s'.1.input.length = s.1.input.length + n ∧ (0 < n → s'.2.exist = true) ∧ (n = 0 → s'.2 = s.2) ∧
      (∀ k, it < k → k ≤ it + n → ∃ a fig, draw (k - 1) a = .ok fig ∧ a.input.length = s.1.input.length + (k - it) ∧
        s'.2.files ("AdaptiveSignalPOD_" ++ toString k) = some fig) ∧
      (∀ name, (∀ k, it < k → k ≤ it + n → name ≠ "AdaptiveSignalPOD_" ++ toString k) → s'.2.files name = s.2.files name) := by
  induction n with
  | zero =>
    intro it cand idx m mf s s' h
    simp only [adLoopSave, Prod.mk.injEq, Except.ok.injEq] at h
    rw [← h.2]
    exact ⟨rfl, by simp, by simp, fun k h1 h2 => by omega, fun _ _ => rfl⟩
  | succ n ih =>
    intro it cand idx m mf s s' h
    rw [adLoopSave] at h
    dsimp only at h
    split at h
    · simp at h
    · rename_i cand' idx' m' s1 hit
      have h1 := adIter_one env ref it cand idx m s.1 s1 _ hit
      split at h
      · simp at h
      · rename_i fig hfig
        simp only [GraphDir.save, GraphDir.make, if_true] at h
        obtain ⟨h2, -, h3, h4, h5⟩ := ih _ _ _ _ _ _ _ h
        dsimp only at h2 h3 h4 h5
        have hex : s'.2.exist = true := by
          rcases Nat.eq_zero_or_pos n with hn | hn
          · rw [h3 hn]
          · exact (ih _ _ _ _ _ _ _ h).2.1 hn
        refine ⟨by rw [h2, h1]; omega, fun _ => hex, by simp, ?_, ?_⟩
        · intro k hk1 hk2
          rcases Nat.lt_or_ge (it + 1) k with hk | hk
          · obtain ⟨a, fg, e1, e2, e3⟩ := h4 k hk (by omega)
            exact ⟨a, fg, e1, by rw [e2, h1]; omega, e3⟩
          · have : k = it + 1 := by omega
            subst this
            refine ⟨s1, fig, hfig, by rw [h1]; omega, ?_⟩
            rw [h5 _ fun k' hk' _ he => by have := signalName_inj he; omega, if_pos rfl]
        · intro name hname
          rw [h5 name fun k hk1 hk2 => hname k (by omega) (by omega), if_neg (hname (it + 1) (by omega) (by omega))]

/-- **C216 (adaptive kriging).**  A run that returns, with graphs saved in a directory: the directory exists afterwards when a point was added, the file
number `k` holds the figure drawn when `k` points had been added, for all `k` from 1 to `n`, and no other file is touched. -/
theorem C216_signal_partial (env : AdEnv X M) (draw : ℕ → AdAttrs X M → Res PodFigure) (cands : List X) (n : ℕ) (s s' : AdAttrs X M × GraphDir) (m : M)
    (h : adRunSave env draw cands n s = (.ok m, s')) :
    s'.1.input.length = s.1.input.length + n ∧ (0 < n → s'.2.exist = true) ∧
    (∀ k, 0 < k → k ≤ n → ∃ a fig, draw (k - 1) a = .ok fig ∧ a.input.length = s.1.input.length + k ∧
      s'.2.files ("AdaptiveSignalPOD_" ++ toString k) = some fig) ∧
    ∀ name, (∀ k, 0 < k → k ≤ n → name ≠ "AdaptiveSignalPOD_" ++ toString k) → s'.2.files name = s.2.files name := by
  rw [adRunSave] at h
  split at h
  · simp at h
  · obtain ⟨h1, h2, -, h4, h5⟩ := adLoopSave_spec env draw _ n _ _ _ _ _ _ _ h
    refine ⟨h1, h2, fun k hk1 hk2 => ?_, fun name hn => ?_⟩
    · obtain ⟨a, fig, e1, e2, e3⟩ := h4 k hk1 (by omega)
      exact ⟨a, fig, e1, by simpa using e2, e3⟩
    · exact h5 name fun k hk1 hk2 => hn k hk1 (by omega)

/-- **C216 is violated: a second run overwrites the graphs of the first.**  After two runs that return, with `n` and then `n'` points added, the file
number `k ≤ n'` shows the design of the second run. -/
theorem C216_violated_overwrite (env env' : AdEnv X M) (draw : ℕ → AdAttrs X M → Res PodFigure) (cands cands' : List X) (n n' : ℕ)
    (s s' s'' : AdAttrs X M × GraphDir) (m m' : M) (h : adRunSave env draw cands n s = (.ok m, s')) (h' : adRunSave env' draw cands' n' s' = (.ok m', s''))
    (k : ℕ) (hk : 0 < k) (hk' : k ≤ n') :
    ∃ a fig, draw (k - 1) a = .ok fig ∧ a.input.length = s.1.input.length + n + k ∧ s''.2.files ("AdaptiveSignalPOD_" ++ toString k) = some fig := by
  obtain ⟨h1, -⟩ := C216_signal_partial env draw cands n s s' m h
  obtain ⟨-, -, h3, -⟩ := C216_signal_partial env' draw cands' n' s' s'' m' h'
  rw [← h1]
  exact h3 k hk hk'

theorem hmIter_it (env : HMEnv X) (cand : List X) (nIni nMore : ℕ) (loc loc' : HMLocals X) (s s' : HMAttrs X)
    (h : hmIter env cand nIni nMore loc s = (.ok loc', s')) : loc'.it = loc.it + 1 := by
  unfold hmIter at h
  split at h
  · simp at h
  · dsimp only at h
    split at h
    · simp at h
    · split at h
      · simp at h
      · simp only [Prod.mk.injEq, Except.ok.injEq] at h
        rw [← h.1]

theorem hmIter_numpy (env : HMEnv X) (cand : List X) (nIni nMore : ℕ) (loc : HMLocals X) (s : HMAttrs X) :
    (hmIter env cand nIni nMore loc s).2.numpy = s.numpy := by
  unfold hmIter
  split
  · rfl
  · dsimp only
    split
    · rfl
    · split <;> rfl

theorem hmLoopSave_spec (env : HMEnv X) (draw : HMLocals X → HMAttrs X → Res PodFigure) (cand : List X) (nIni nMore fuel : ℕ) :
    ∀ (loc lf : HMLocals X) (s s' : HMAttrs X × GraphDir), hmLoopSave env draw cand nIni nMore fuel loc s = (.ok lf, s') →
      loc.it ≤ lf.it ∧ s'.2.exist = s.2.exist ∧ (s.2.exist = false → nMore ≤ loc.nAdded) ∧
      (∀ k, loc.it < k → k ≤ lf.it → ∃ l a fig, l.it = k ∧ draw l a = .ok fig ∧ s'.2.files ("AdaptiveHitMissPOD_" ++ toString k) = some fig) ∧
      (∀ name, (∀ k, loc.it < k → k ≤ lf.it → name ≠ "AdaptiveHitMissPOD_" ++ toString k) → s'.2.files name = s.2.files name) := by
  induction fuel with
  | zero =>
    intro loc lf s s' h
    rw [hmLoopSave] at h
    split_ifs at h with hc
    · simp at h
    · simp only [Prod.mk.injEq, Except.ok.injEq] at h
      rw [← h.1, ← h.2]
      exact ⟨le_rfl, rfl, fun _ => by omega, fun k h1 h2 => by omega, fun _ _ => rfl⟩
  | succ n ih =>
    intro loc lf s s' h
    rw [hmLoopSave] at h
    dsimp only at h
    split_ifs at h with hc
    · split at h
      · simp at h
      · rename_i loc' s1 hit
        have h1 := hmIter_it env cand nIni nMore loc loc' s.1 s1 hit
        split at h
        · simp at h
        · rename_i fig hfig
          cases hd : s.2.exist with
          | false =>
            simp [GraphDir.save, hd] at h
          | true =>
            simp only [GraphDir.save, hd, if_true] at h
            obtain ⟨h2, h3, -, h4, h5⟩ := ih _ _ _ _ h
            dsimp only at h2 h3 h4 h5
            refine ⟨by omega, h3, by simp, ?_, ?_⟩
            · intro k hk1 hk2
              rcases Nat.lt_or_ge (loc.it + 1) k with hk | hk
              · exact h4 k (by omega) hk2
              · have : k = loc'.it := by omega
                subst this
                refine ⟨loc', s1, fig, rfl, hfig, ?_⟩
                rw [h5 _ fun k' hk' _ he => by have := hitmissName_inj he; omega, if_pos rfl]
            · intro name hname
              rw [h5 name fun k hk1 hk2 => hname k (by omega) (by omega), if_neg (hname loc'.it (by omega) (by omega))]
    · simp only [Prod.mk.injEq, Except.ok.injEq] at h
      rw [← h.1, ← h.2]
      exact ⟨le_rfl, rfl, fun _ => by omega, fun k h1 h2 => by omega, fun _ _ => rfl⟩

theorem hmLoopSave_numpy (env : HMEnv X) (draw : HMLocals X → HMAttrs X → Res PodFigure) (cand : List X) (nIni nMore fuel : ℕ) :
    ∀ (loc : HMLocals X) (s : HMAttrs X × GraphDir), (hmLoopSave env draw cand nIni nMore fuel loc s).2.1.numpy = s.1.numpy := by
  induction fuel with
  | zero =>
    intro loc s
    rw [hmLoopSave]
    dsimp only
    split_ifs <;> rfl
  | succ n ih =>
    intro loc s
    rw [hmLoopSave]
    have h1 := hmIter_numpy env cand nIni nMore loc s.1
    dsimp only
    split_ifs
    · revert h1
      rcases hmIter env cand nIni nMore loc s.1 with ⟨r, s1⟩
      intro h1
      cases r with
      | error e => exact h1
      | ok loc' =>
        dsimp only
        cases draw loc' s1 with
        | error e => exact h1
        | ok fig =>
          dsimp only
          rcases GraphDir.save ("AdaptiveHitMissPOD_" ++ toString loc'.it) fig s.2 with ⟨r, d⟩
          cases r with
          | error e => exact h1
          | ok u =>
            dsimp only
            rw [ih]
            exact h1
    · rfl

/-- **C216 (hit-miss, restricted to an existing directory).**  A run that returns, with graphs saved: there is a number of iterations `r` such that the
file number `k` holds a figure drawn at iteration `k`, for all `k` from 1 to `r`, and no other file is touched. -/
theorem C216_hitmiss_partial (env : HMEnv X) (draw : HMLocals X → HMAttrs X → Res PodFigure) (cand : List X) (nMore : ℕ) (s s' : HMAttrs X × GraphDir)
    (h : hmRunSave env draw cand nMore s = (.ok (), s')) :
    (0 < nMore → s.2.exist = true) ∧ s'.2.exist = s.2.exist ∧ ∃ r,
      (∀ k, 0 < k → k ≤ r → ∃ l a fig, l.it = k ∧ draw l a = .ok fig ∧ s'.2.files ("AdaptiveHitMissPOD_" ++ toString k) = some fig) ∧
      ∀ name, (∀ k, 0 < k → k ≤ r → name ≠ "AdaptiveHitMissPOD_" ++ toString k) → s'.2.files name = s.2.files name := by
  rw [hmRunSave] at h
  split_ifs at h with hc
  · simp at h
  · dsimp only at h
    split at h
    · simp at h
    · split at h
      · simp at h
      · rename_i lf s2 hl
        simp only [Prod.mk.injEq, true_and] at h
        obtain ⟨-, h2, h3, h4, h5⟩ := hmLoopSave_spec env draw cand _ _ _ _ _ _ _ hl
        dsimp only at h2 h3 h4 h5
        subst h
        refine ⟨fun hn => ?_, h2, lf.it, h4, h5⟩
        by_contra hd
        have := h3 (by simpa using hd)
        omega

/-- Saving the graphs changes nothing else: a run that returns gives the attributes of the run without graphs. -/
theorem C216_same_runs_partial (env : AdEnv X M) (draw : ℕ → AdAttrs X M → Res PodFigure) (cands : List X) (n : ℕ) (s s' : AdAttrs X M × GraphDir) (m : M)
    (henv : HMEnv X) (hdraw : HMLocals X → HMAttrs X → Res PodFigure) (hcand : List X) (nMore : ℕ) (t t' : HMAttrs X × GraphDir) :
    (adRunSave env draw cands n s = (.ok m, s') → adRun env cands n s.1 = (.ok m, s'.1)) ∧
    (hmRunSave henv hdraw hcand nMore t = (.ok (), t') → hmRun henv hcand nMore t.1 = (.ok (), t'.1)) := by
  have k1 : ∀ (ref : M) (n it : ℕ) (cand : List X) (idx : Option ℕ) (m mf : M) (s s' : AdAttrs X M × GraphDir),
      adLoopSave env draw ref n it cand idx m s = (.ok mf, s') → adLoop env ref n it cand idx m s.1 = (.ok mf, s'.1) := by
    intro ref n
    induction n with
    | zero =>
      intro it cand idx m mf s s' h
      simp only [adLoopSave, Prod.mk.injEq, Except.ok.injEq] at h
      simp [adLoop, h]
    | succ n ih =>
      intro it cand idx m mf s s' h
      rw [adLoopSave] at h
      dsimp only at h
      rw [adLoop]
      dsimp only
      split at h
      · simp at h
      · rename_i hit
        rw [hit]
        dsimp only
        split at h
        · simp at h
        · simp only [GraphDir.save, GraphDir.make, if_true] at h
          exact ih _ _ _ _ _ _ _ h
  have k2 : ∀ (nIni fuel : ℕ) (loc lf : HMLocals X) (s s' : HMAttrs X × GraphDir), hmLoopSave henv hdraw hcand nIni nMore fuel loc s = (.ok lf, s') →
      hmLoop henv hcand nIni nMore fuel loc s.1 = (.ok lf, s'.1) := by
    intro nIni fuel
    induction fuel with
    | zero =>
      intro loc lf s s' h
      rw [hmLoopSave] at h
      rw [hmLoop]
      dsimp only at h ⊢
      split_ifs at h ⊢ with hc
      · simp at h
      · simp only [Prod.mk.injEq, Except.ok.injEq] at h
        simp [h]
    | succ n ih =>
      intro loc lf s s' h
      rw [hmLoopSave] at h
      rw [hmLoop]
      dsimp only at h ⊢
      split_ifs at h ⊢ with hc
      · split at h
        · simp at h
        · rename_i hit
          rw [hit]
          dsimp only
          split at h
          · simp at h
          · split at h
            · simp at h
            · exact ih _ _ _ _ h
      · simp only [Prod.mk.injEq, Except.ok.injEq] at h
        simp [h]
  constructor
  · intro h
    rw [adRunSave] at h
    rw [adRun]
    split at h
    · simp at h
    · rename_i hf
      rw [hf]
      exact k1 _ _ _ _ _ _ _ _ _ h
  · intro h
    rw [hmRunSave] at h
    rw [hmRun]
    split_ifs at h ⊢ with hc
    · simp at h
    · dsimp only at h ⊢
      split at h
      · simp at h
      · rename_i hf
        rw [hf]
        dsimp only
        split at h
        · simp at h
        · rename_i hl
          rw [k2 _ _ _ _ _ _ hl]
          simp only [Prod.mk.injEq, true_and] at h
          rw [← h]

/-- With an existing directory and figures that can be drawn, saving does not stop a hit-miss run that returns without graphs. -/
theorem C216_hitmiss_returns_partial (env : HMEnv X) (draw : HMLocals X → HMAttrs X → Res PodFigure) (hdraw : ∀ l a, ∃ fig, draw l a = .ok fig)
    (cand : List X) (nMore : ℕ) (s s' : HMAttrs X) (d : GraphDir) (hd : d.exist = true) (h : hmRun env cand nMore s = (.ok (), s')) :
    ∃ d', hmRunSave env draw cand nMore (s, d) = (.ok (), (s', d')) := by
  have key : ∀ (nIni fuel : ℕ) (loc lf : HMLocals X) (s s' : HMAttrs X) (d : GraphDir), d.exist = true →
      hmLoop env cand nIni nMore fuel loc s = (.ok lf, s') → ∃ d', hmLoopSave env draw cand nIni nMore fuel loc (s, d) = (.ok lf, (s', d')) := by
    intro nIni fuel
    induction fuel with
    | zero =>
      intro loc lf s s' d hd h
      rw [hmLoop] at h
      rw [hmLoopSave]
      dsimp only at h ⊢
      split_ifs at h ⊢ with hc
      · simp at h
      · simp only [Prod.mk.injEq, Except.ok.injEq] at h
        simp [h]
    | succ n ih =>
      intro loc lf s s' d hd h
      rw [hmLoop] at h
      rw [hmLoopSave]
      dsimp only at h ⊢
      split_ifs at h ⊢ with hc
      · split at h
        · simp at h
        · rename_i loc' s1 hit
          rw [hit]
          obtain ⟨fig, hfig⟩ := hdraw loc' s1
          simp only [hfig, GraphDir.save, hd, if_true]
          exact ih _ _ _ _ _ rfl h
      · simp only [Prod.mk.injEq, Except.ok.injEq] at h
        simp [h]
  rw [hmRun] at h
  rw [hmRunSave]
  split_ifs at h ⊢ with hc
  · simp at h
  · dsimp only at h ⊢
    split at h
    · simp at h
    · rename_i hf
      rw [hf]
      dsimp only
      split at h
      · simp at h
      · rename_i hl
        obtain ⟨d', hd'⟩ := key _ _ _ _ _ _ d hd hl
        refine ⟨d', ?_⟩
        rw [hd']
        simp only [Prod.mk.injEq, true_and] at h
        simp [h]

/-- **C216 is violated by the hit-miss run.**  When points are to be added and the directory does not exist, the run never returns, and
afterwards every run of the object raises AttributeError, whatever the directory. -/
theorem C216_violated_directory (env : HMEnv X) (draw : HMLocals X → HMAttrs X → Res PodFigure) (cand : List X) (nMore : ℕ) (hn : 0 < nMore)
    (s : HMAttrs X × GraphDir) (hd : s.2.exist = false) :
    (∃ e, (hmRunSave env draw cand nMore s).1 = .error e) ∧
    ∀ (env' : HMEnv X) (draw' : HMLocals X → HMAttrs X → Res PodFigure) (cand' : List X) (nMore' : ℕ) (d : GraphDir),
      Raises (hmRunSave env' draw' cand' nMore' ((hmRunSave env draw cand nMore s).2.1, d)).1 .attributeError := by
  have hnot : ∃ e, (hmRunSave env draw cand nMore s).1 = .error e := by
    cases hr : hmRunSave env draw cand nMore s with
    | mk r s' =>
      cases r with
      | error e => exact ⟨e, rfl⟩
      | ok u =>
        have := (C216_hitmiss_partial env draw cand nMore s s' hr).1 hn
        rw [hd] at this
        cases this
  refine ⟨hnot, ?_⟩
  have hnp : (hmRunSave env draw cand nMore s).2.1.numpy = true := by
    obtain ⟨e, he⟩ := hnot
    revert he
    unfold hmRunSave
    split_ifs with hc
    · exact fun _ => hc
    · dsimp only
      cases env.fit 0 s.1.input s.1.labels with
      | error e => exact fun _ => rfl
      | ok g =>
        dsimp only
        have h1 := hmLoopSave_numpy env draw cand s.1.input.length nMore nMore ⟨[.base g], .base g, none, 0, 0⟩
          ({ s.1 with numpy := true, model := some (.base g, none) }, s.2)
        revert h1
        rcases hmLoopSave env draw cand s.1.input.length nMore nMore ⟨[.base g], .base g, none, 0, 0⟩
          ({ s.1 with numpy := true, model := some (.base g, none) }, s.2) with ⟨r, s2⟩
        cases r with
        | error e => exact fun h1 _ => h1
        | ok l => exact fun _ h => by simp at h
  intro env' draw' cand' nMore' d
  rw [hmRunSave, if_pos hnp]
  exact ⟨_, rfl⟩

/-- Two points added to an empty place: the directory is made, with the two files. -/
example : ∃ m s', adRunSave demoEnv (fun _ _ => .ok ⟨0, 1, [], none, []⟩) [5, 3, 7] 2 (⟨[1], [1], none, none⟩, ⟨false, fun _ => none⟩) = (.ok m, s') ∧
    s'.2.exist = true ∧ s'.2.files ("AdaptiveSignalPOD_" ++ toString 2) = some ⟨0, 1, [], none, []⟩ := by
  have h : ∃ m s', adRunSave demoEnv (fun _ _ => .ok ⟨0, 1, [], none, []⟩) [5, 3, 7] 2 (⟨[1], [1], none, none⟩, ⟨false, fun _ => none⟩) = (.ok m, s') := by
    norm_num [adRunSave, demoEnv, adLoopSave, adIter, scanGo, respond, F.lt, GraphDir.save, GraphDir.make]
  obtain ⟨m, s', h⟩ := h
  obtain ⟨-, h1, h2, -⟩ := C216_signal_partial _ _ _ _ _ _ _ h
  obtain ⟨a, fig, h3, -, h4⟩ := h2 2 (by norm_num) le_rfl
  rw [Except.ok.injEq] at h3
  exact ⟨m, s', h, h1 (by norm_num), by rw [h4, h3]⟩

/-- Ten points added by a hit-miss run: with the directory it returns, without it does not. -/
example : (∃ s' d', hmRunSave rightExample (fun _ _ => .ok ⟨0, 1, [], none, []⟩) [1] (5 * 2)
      (⟨[0, 2], [false, true], false, none, none, .fin (45 / 100), .fin (52 / 100)⟩, ⟨true, fun _ => none⟩) = (.ok (), (s', d'))) ∧
    ∃ e, (hmRunSave rightExample (fun _ _ => .ok ⟨0, 1, [], none, []⟩) [1] (5 * 2)
      (⟨[0, 2], [false, true], false, none, none, .fin (45 / 100), .fin (52 / 100)⟩, ⟨false, fun _ => none⟩)).1 = .error e := by
  constructor
  · obtain ⟨s', h⟩ : ∃ s', hmRun rightExample [1] (5 * 2) ⟨[0, 2], [false, true], false, none, none, .fin (45 / 100), .fin (52 / 100)⟩ = (.ok (), s') := by
      obtain ⟨-, s', -, -, h, -⟩ := C154_hitmiss_violated rightExample (fun x => (x : ℕ) / 2) ⟨fun x => by fin_cases x <;> norm_num, fun _ _ _ => rfl, fun _ => rfl⟩
        argsortRef_spec [1] 2 ⟨[0, 2], [false, true], false, none, none, .fin (45 / 100), .fin (52 / 100)⟩ rfl (by norm_num) (by simp) (by simp)
        ⟨0, by simp, by norm_num [F.le, F.lt], by norm_num [F.le, F.lt]⟩
      exact ⟨s', h⟩
    obtain ⟨d', hd⟩ := C216_hitmiss_returns_partial rightExample (fun _ _ => .ok ⟨0, 1, [], none, []⟩) (fun _ _ => ⟨_, rfl⟩) [1] (5 * 2) _ s'
      ⟨true, fun _ => none⟩ rfl h
    exact ⟨s', d', hd⟩
  · exact (C216_violated_directory _ _ _ _ (by norm_num) _ rfl).1

end Verif.Props
