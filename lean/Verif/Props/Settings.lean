import Verif.Model.Settings
import Verif.Props.AdaptiveSignal
import Verif.Props.Analysis

/-!
# C214: the settings of the application
-/

namespace Verif.Props
open Verif.Py Verif.Model

variable {X M : Type}

/-- Calls that replace the flags of the log. -/
def TouchesLog : SettingsCall X M → Prop
  | .getResults _ => True
  | .censoredFit o => ∃ x, o.result = .ok (x, true)
  | _ => False

/-- Runs that enter the enrichment loop. -/
def EntersLoop : SettingsCall X M → Prop
  | .adaptiveSignal env _ _ s _ => ∃ m, env.fit s.input s.signals = .ok m
  | .adaptiveHitMiss env _ _ s _ => s.numpy = false ∧ ∃ g, env.fit 0 s.input s.labels = .ok g
  | _ => False

/-- Runs that return normally. -/
def ReturnsRun : SettingsCall X M → Prop
  | .adaptiveSignal env cands n s pod => ∃ m, (adRun env cands n s).1 = .ok m ∧ pod m = .ok ()
  | .adaptiveHitMiss env cand nMore s pod => ∃ s', hmRun env cand nMore s = (.ok (), s') ∧ pod s' = .ok ()
  | _ => False

/-- Settings after one call. -/
theorem after_spec (g : AppSettings) (c : SettingsCall X M) :
    (TouchesLog c → (c.after g).shown = fun f => decide (f = .warn)) ∧ (¬ TouchesLog c → (c.after g).shown = g.shown) ∧
    (¬ EntersLoop c → (c.after g).interactive = g.interactive) ∧
    (EntersLoop c → ReturnsRun c → (c.after g).interactive = false) ∧ (EntersLoop c → ¬ ReturnsRun c → (c.after g).interactive = true) := by
  cases c with
  | getResults a => exact ⟨fun _ => rfl, fun h => absurd trivial h, fun _ => rfl, fun h => h.elim, fun h => h.elim⟩
  | censoredFit o =>
    simp only [TouchesLog, EntersLoop, SettingsCall.after, censoredFitSettings]
    cases o.result with
    | error e => simp
    | ok r =>
      obtain ⟨x, b⟩ := r
      cases b <;> simp [AppSettings.showWarn]
  | adaptiveSignal env cands n s pod =>
    simp only [TouchesLog, EntersLoop, ReturnsRun, SettingsCall.after, adRunSettings]
    cases env.fit s.input s.signals with
    | error e => simp
    | ok m0 =>
      dsimp only
      cases (adRun env cands n s).1 with
      | error e => simp
      | ok m =>
        cases hp : pod m <;> simp [hp]
  | adaptiveHitMiss env cand nMore s pod =>
    simp only [TouchesLog, EntersLoop, ReturnsRun, SettingsCall.after, hmRunSettings]
    cases s.numpy with
    | true => simp
    | false =>
      cases env.fit 0 s.input s.labels with
      | error e => simp
      | ok m0 =>
        dsimp only
        rcases hmRun env cand nMore s with ⟨r, s'⟩
        cases r with
        | error e => simp
        | ok u =>
          cases hp : pod s' <;> simp [hp]

/-- The runs followed here are those of `adRun` and `hmRun`: when the last step succeeds they return or raise alike. -/
theorem C214_same_runs_partial (g : AppSettings) (env : AdEnv X M) (cands : List X) (n : ℕ) (s : AdAttrs X M) (henv : HMEnv X) (hcands : List X) (k : ℕ)
    (hs : HMAttrs X) :
    (adRunSettings env cands n s (fun _ => .ok ()) g).1 = (adRun env cands n s).1.map (fun _ => ()) ∧
    (hmRunSettings henv hcands k hs (fun _ => .ok ()) g).1 = (hmRun henv hcands k hs).1 := by
  constructor
  · unfold adRunSettings
    cases h : env.fit s.input s.signals with
    | error e => simp [adRun, h, Except.map]
    | ok m0 =>
      dsimp only
      cases (adRun env cands n s).1 <;> rfl
  · unfold hmRunSettings
    cases hn : hs.numpy with
    | true => simp [hmRun, hn]
    | false =>
      cases h : henv.fit 0 hs.input hs.labels with
      | error e => simp [hmRun, hn, h]
      | ok m0 =>
        dsimp only
        rcases hmRun henv hcands k hs with ⟨r, s'⟩
        cases r <;> rfl

/-- **C214 (restricted).**  For every sequence of calls, exceptions caught: without a call of `getResults` and without a censored fit that reaches its
maximal number of iterations the log shows what it showed; without an adaptive run that enters its loop the interactive mode is what it was. -/
theorem C214_settings_partial (g : AppSettings) (cs : List (SettingsCall X M)) :
    ((∀ c ∈ cs, ¬ TouchesLog c) → (cs.foldl SettingsCall.after g).shown = g.shown) ∧
    ((∀ c ∈ cs, ¬ EntersLoop c) → (cs.foldl SettingsCall.after g).interactive = g.interactive) := by
  induction cs generalizing g with
  | nil => exact ⟨fun _ => rfl, fun _ => rfl⟩
  | cons c cs ih =>
    obtain ⟨h1, h2⟩ := ih (c.after g)
    obtain ⟨-, k1, k2, -, -⟩ := after_spec g c
    rw [List.foldl_cons]
    refine ⟨fun h => ?_, fun h => ?_⟩
    · rw [h1 fun c' hc' => h c' (List.mem_cons_of_mem _ hc'), k1 (h c (by simp))]
    · rw [h2 fun c' hc' => h c' (List.mem_cons_of_mem _ hc'), k2 (h c (by simp))]

/-- **C214 is violated, log.**  After any sequence of calls with one that touches the log, in particular `getResults`, errors of OpenTURNS are not
shown any more, and warnings are, whatever the application had asked for. -/
theorem C214_violated_log (g : AppSettings) (cs : List (SettingsCall X M)) (c : SettingsCall X M) (hc : c ∈ cs) (ht : TouchesLog c) :
    (cs.foldl SettingsCall.after g).shown .error = false ∧ (cs.foldl SettingsCall.after g).shown .warn = true := by
  have key : ∀ (cs : List (SettingsCall X M)) (g : AppSettings), (g.shown = fun f => decide (f = .warn)) →
      (cs.foldl SettingsCall.after g).shown = fun f => decide (f = .warn) := by
    intro cs
    induction cs with
    | nil => exact fun g h => h
    | cons c cs ih =>
      intro g h
      rw [List.foldl_cons]
      apply ih
      by_cases hc : TouchesLog c
      · exact (after_spec g c).1 hc
      · rw [(after_spec g c).2.1 hc, h]
  obtain ⟨l1, l2, rfl⟩ := List.append_of_mem hc
  rw [List.foldl_append, List.foldl_cons, key l2 _ ((after_spec _ c).1 ht)]
  exact ⟨rfl, rfl⟩

/-- **C214 is violated, interactive mode.**  Whatever the mode before: an adaptive run that returns switches it off, one that raises after its first
fit leaves it on. -/
theorem C214_violated_interactive (g : AppSettings) (c : SettingsCall X M) (h : EntersLoop c) :
    (c.after g).interactive = true ↔ ¬ ReturnsRun c := by
  obtain ⟨-, -, -, h1, h2⟩ := after_spec g c
  by_cases hr : ReturnsRun c
  · simp [h1 h hr, hr]
  · simp [h2 h hr, hr]

/-- A run with two added points switches the interactive mode off; the same run with a failing last step leaves it on. -/
example (g : AppSettings) :
    ((SettingsCall.adaptiveSignal demoEnv [5, 3, 7] 2 ⟨[1], [1], none, none⟩ fun _ => .ok ()).after g).interactive = false ∧
    ((SettingsCall.adaptiveSignal demoEnv [5, 3, 7] 2 ⟨[1], [1], none, none⟩ fun _ => .error ⟨.runtime, ""⟩).after g).interactive = true := by
  constructor
  · have h := (C214_violated_interactive g (SettingsCall.adaptiveSignal demoEnv [5, 3, 7] 2 ⟨[1], [1], none, none⟩ fun _ => .ok ()) ⟨_, rfl⟩).not
    rw [Bool.not_eq_true, not_not] at h
    exact h.2 ⟨3, by rw [demo_run], rfl⟩
  · refine (C214_violated_interactive g (SettingsCall.adaptiveSignal demoEnv [5, 3, 7] 2 ⟨[1], [1], none, none⟩ fun _ => .error ⟨.runtime, ""⟩)
      ⟨_, rfl⟩).2 ?_
    rintro ⟨m, -, h⟩
    cases h

example (g : AppSettings) : ([SettingsCall.getResults (exAnalysis (9 / 10))].foldl (SettingsCall.after (X := ℕ) (M := ℕ)) g).shown .error = false :=
  (C214_violated_log g _ (SettingsCall.getResults (exAnalysis (9 / 10))) (List.mem_singleton_self _) trivial).1

end Verif.Props
