import Verif.Props.AdaptiveFresh
import Verif.Props.DefaultDist

/-!
# Hit-miss enrichment without a physical model (C105)
-/

namespace Verif.Props
open Verif.Py Verif.Model

/-- **C105, no physical model.**  Hit-miss data given without a physical model: as soon as one point is to be added the run raises, whatever the data,
the classifier and the candidates; when the first classifier is fitted and the window contains a candidate, the exception is the TypeError
of the call of None. -/
theorem C105_no_model {X : Type} (fmax : ℝ) (fit : ℕ → List X → List Bool → Res (X → F ℝ)) (argsort : List (F ℝ) → List ℕ) (ha : ArgsortSpec argsort)
    (obs : List (X × ℝ)) (noise sat : Option ℝ) (cand : List X) (nMore : ℕ) (hn : 0 < nMore) :
    ∃ e, hmCtorRun fmax fit argsort obs none none noise sat cand nMore = .error e ∧
      ∀ g, fit 0 ((hmKept fmax obs noise sat).map (·.1)) ((hmKept fmax obs noise sat).map fun o => decide (o.2 = 1)) = .ok g →
        (∃ i, InWindow (.fin 0.45) (.fin 0.52) (cand.map g) i) → e.kind = .typeError := by
  simp only [hmCtorRun, hmInit, Option.map_none]
  rw [hmRun]
  simp only [Bool.false_eq_true, if_false]
  have hl : (hmKept fmax obs noise sat).map (fun o => asLabel o.2) = (hmKept fmax obs noise sat).map fun o => decide (o.2 = 1) := rfl
  rw [← hl]
  cases hg : fit 0 ((hmKept fmax obs noise sat).map (·.1)) ((hmKept fmax obs noise sat).map fun o => asLabel o.2) with
  | error e => exact ⟨e, rfl, fun g h => by cases h⟩
  | ok g =>
    dsimp only
    obtain ⟨m, rfl⟩ : ∃ m, nMore = m + 1 := ⟨nMore - 1, by omega⟩
    rw [hmLoop]
    dsimp only
    rw [if_pos (by omega), hmIter]
    dsimp only
    have he : cand.map (Clf.eval (none : Option (AggVars X)) (Clf.base g)) = cand.map g := rfl
    rw [he]
    cases hb : selectBatch argsort (.fin 0.45) (.fin 0.52) (cand.map g) with
    | error e =>
      refine ⟨e, rfl, fun g' h hw => ?_⟩
      rw [Except.ok.injEq] at h
      subst h
      obtain ⟨b, hb'⟩ := (C52_window_partial argsort ha _ _ _).mpr hw
      rw [hb] at hb'
      cases hb'
    | ok b =>
      have hbp := (batch_points argsort ha (.fin 0.45) (.fin 0.52) cand g b hb).1
      cases hx : b.filterMap fun i => cand[i]? with
      | nil => rw [hx] at hbp; simp at hbp
      | cons x xs =>
        refine ⟨⟨.typeError, "'NoneType' object is not callable"⟩, ?_, fun _ _ _ => rfl⟩
        dsimp only
        rw [hx]
        rfl

/-- Labelled observations, one candidate in the window, one point to add. -/
example : ∃ e, hmCtorRun 1000 (fun _ _ _ => .ok fun _ : ℝ => .fin (1 / 2)) argsortRef [(1, 0), (2, 1), (3, 1)] none none none none [(5 : ℝ)] 1 = .error e ∧
    e.kind = .typeError := by
  obtain ⟨e, h1, h2⟩ := C105_no_model 1000 (fun _ _ _ => .ok fun _ : ℝ => .fin (1 / 2)) argsortRef argsortRef_spec [((1 : ℝ), 0), (2, 1), (3, 1)] none none
    [(5 : ℝ)] 1 (by norm_num)
  exact ⟨e, h1, h2 _ rfl ⟨0, by simp, by norm_num [F.le], by norm_num [F.lt]⟩⟩

end Verif.Props
