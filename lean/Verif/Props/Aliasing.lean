import Verif.Model.Aliasing
import Mathlib.Tactic.Linarith

/-!
# C192, C193: objects shared between the caller and the library
-/

namespace Verif.Props
open Verif.Model

variable {R L : Type}

/-- The address of an existing object that is not a sample. -/
def ADist (w : AWorld R L) (d : ℕ) : Prop := d < w.next ∧ ∀ x s, w.heap d ≠ some (.sample x s)

/-- Well-formed worlds. -/
structure AInv (w : AWorld R L) : Prop where
  fresh : ∀ a, w.next ≤ a → w.heap a = none
  made : ∀ a ∈ w.made, a < w.next
  held : ∀ a ∈ w.held, a < w.next
  input : ∀ (k : ℕ) (p : APod), w.pods[k]? = some p → p.input < w.next ∧ p.input ∉ w.made ∧ ∃ x d, w.heap p.input = some (.sample x d)
  signals : ∀ (k : ℕ) (p : APod), w.pods[k]? = some p → p.signals < w.next ∧ p.signals ∉ w.made ∧ ∃ x d, w.heap p.signals = some (.sample x d)
  differ : ∀ (k : ℕ) (p : APod), w.pods[k]? = some p → p.input ≠ p.signals
  apart : ∀ (k l : ℕ) (p q : APod), w.pods[k]? = some p → w.pods[l]? = some q → k ≠ l →
    p.input ≠ q.input ∧ p.input ≠ q.signals ∧ p.signals ≠ q.signals
  dist : ∀ (k : ℕ) (p : APod) (d : ℕ), w.pods[k]? = some p → p.dist = some d → ADist w d

theorem alloc_heap (w : AWorld R L) (o : AObj R L) (a : ℕ) : (w.alloc o).heap a = if a = w.next then some o else w.heap a := rfl
theorem alloc_next (w : AWorld R L) (o : AObj R L) : (w.alloc o).next = w.next + 1 := rfl
theorem alloc2_heap (w : AWorld R L) (o o' : AObj R L) (a : ℕ) :
    ((w.alloc o).alloc o').heap a = if a = w.next + 1 then some o' else if a = w.next then some o else w.heap a := rfl
theorem put_heap (w : AWorld R L) (b : ℕ) (o : AObj R L) (a : ℕ) : (w.put b o).heap a = if a = b then some o else w.heap a := rfl

/-- What the constructor does to the heap. -/
theorem construct_spec (env : AEnv R L) (w : AWorld R L) (hw : ∀ a, w.next ≤ a → w.heap a = none) (kind : AKind) (i o : ℕ) (c b n : Bool) (x y : List R)
    (hx : w.rows i = some x) (hy : w.rows o = some y) :
    ∃ p : APod, (aConstruct env w kind i o c b n).pods = w.pods ++ [p] ∧ p.kind = kind ∧ p.dist = none ∧ p.userChaos = false ∧ p.boxCox = b ∧
      w.next < (aConstruct env w kind i o c b n).next ∧ (∀ a, a < w.next → (aConstruct env w kind i o c b n).heap a = w.heap a) ∧
      (∀ a, (aConstruct env w kind i o c b n).next ≤ a → (aConstruct env w kind i o c b n).heap a = none) ∧
      (w.next ≤ p.input ∧ p.input < (aConstruct env w kind i o c b n).next ∧
        (aConstruct env w kind i o c b n).heap p.input = some (.sample (if c then env.filterIn x y else x) (env.names (if c then env.filterIn x y else x)))) ∧
      (w.next ≤ p.signals ∧ p.signals < (aConstruct env w kind i o c b n).next ∧
        ∃ r d, (aConstruct env w kind i o c b n).heap p.signals = some (.sample r d)) ∧
      p.input ≠ p.signals ∧
      (aConstruct env w kind i o c b n).made = w.made ∧ (aConstruct env w kind i o c b n).held = w.held := by
  generalize hW : aConstruct env w kind i o c b n = W
  by_cases hk : kind = AKind.hitMiss ∧ n = true <;> cases c <;> cases b <;>
  · simp only [aConstruct, hx, hy, hk, if_true, if_false, Bool.false_eq_true, and_self] at hW
    subst hW
    refine ⟨_, rfl, by first | rfl | exact hk.1.symm, rfl, rfl, rfl, ?_, fun a ha => ?_, fun a ha => ?_, ⟨?_, ?_, ?_⟩, ⟨?_, ?_, ?_⟩, ?_, rfl, rfl⟩ <;>
    simp only [alloc_next, alloc_heap] at * <;> grind

/-- The invariant is kept by a step that keeps the classes of the objects and changes the data references of one POD object at most, to new samples. -/
theorem inv_of (w w' : AWorld R L) (hw : AInv w) (hn : w.next ≤ w'.next) (hf : ∀ a, w'.next ≤ a → w'.heap a = none) (hm : w'.made = w.made)
    (hh : ∀ a ∈ w'.held, a < w'.next) (hs : ∀ a x d, w.heap a = some (.sample x d) → ∃ x' d', w'.heap a = some (.sample x' d')) (j : ℕ)
    (ho : ∀ k, k ≠ j → ∀ p', w'.pods[k]? = some p' → ∃ p, w.pods[k]? = some p ∧ p'.input = p.input ∧ p'.signals = p.signals)
    (hj : ∀ p', w'.pods[j]? = some p' → (∃ p, w.pods[j]? = some p ∧ p'.input = p.input ∧ p'.signals = p.signals) ∨
      (w.next ≤ p'.input ∧ p'.input < w'.next ∧ w.next ≤ p'.signals ∧ p'.signals < w'.next ∧ p'.input ≠ p'.signals ∧
        (∃ x d, w'.heap p'.input = some (.sample x d)) ∧ ∃ x d, w'.heap p'.signals = some (.sample x d)))
    (hd : ∀ (k : ℕ) (p' : APod) (d : ℕ), w'.pods[k]? = some p' → p'.dist = some d → ADist w' d) : AInv w' := by
  have key : ∀ k p', w'.pods[k]? = some p' → (∃ p, w.pods[k]? = some p ∧ p'.input = p.input ∧ p'.signals = p.signals) ∨
      (k = j ∧ w.next ≤ p'.input ∧ p'.input < w'.next ∧ w.next ≤ p'.signals ∧ p'.signals < w'.next ∧ p'.input ≠ p'.signals ∧
        (∃ x d, w'.heap p'.input = some (.sample x d)) ∧ ∃ x d, w'.heap p'.signals = some (.sample x d)) := by
    intro k p' hp
    by_cases hk : k = j
    · subst hk
      rcases hj p' hp with h | h
      · exact Or.inl h
      · exact Or.inr ⟨rfl, h⟩
    · exact Or.inl (ho k hk p' hp)
  refine ⟨hf, fun a ha => ?_, hh, fun k p' hp => ?_, fun k p' hp => ?_, fun k p' hp => ?_, fun k l p' q' hp hq hkl => ?_, hd⟩
  · rw [hm] at ha; exact lt_of_lt_of_le (hw.made a ha) hn
  · rcases key k p' hp with ⟨p, h0, h1, h2⟩ | ⟨-, h1, h2, h3, h4, h5, h6, h7⟩
    · obtain ⟨a1, a2, x, d, a3⟩ := hw.input k p h0
      exact ⟨h1 ▸ lt_of_lt_of_le a1 hn, by rw [h1, hm]; exact a2, h1 ▸ hs _ _ _ a3⟩
    · exact ⟨h2, fun h => absurd (hw.made _ (hm ▸ h)) (by omega), h6⟩
  · rcases key k p' hp with ⟨p, h0, h1, h2⟩ | ⟨-, h1, h2, h3, h4, h5, h6, h7⟩
    · obtain ⟨a1, a2, x, d, a3⟩ := hw.signals k p h0
      exact ⟨h2 ▸ lt_of_lt_of_le a1 hn, by rw [h2, hm]; exact a2, h2 ▸ hs _ _ _ a3⟩
    · exact ⟨h4, fun h => absurd (hw.made _ (hm ▸ h)) (by omega), h7⟩
  · rcases key k p' hp with ⟨p, h0, h1, h2⟩ | ⟨-, h1, h2, h3, h4, h5, h6, h7⟩
    · rw [h1, h2]; exact hw.differ k p h0
    · exact h5
  · rcases key k p' hp with ⟨p, h0, h1, h2⟩ | ⟨e1, h1, h2, h3, h4, h5, h6, h7⟩ <;>
    rcases key l q' hq with ⟨q, g0, g1, g2⟩ | ⟨e2, g1, g2, g3, g4, g5, g6, g7⟩
    · rw [h1, h2, g1, g2]; exact hw.apart k l p q h0 g0 hkl
    · have a1 := (hw.input k p h0).1
      have a2 := (hw.signals k p h0).1
      rw [h1, h2]; refine ⟨?_, ?_, ?_⟩ <;> omega
    · have a1 := (hw.input l q g0).1
      have a2 := (hw.signals l q g0).1
      rw [g1, g2]; refine ⟨?_, ?_, ?_⟩ <;> omega
    · exact absurd (e1.trans e2.symm) hkl

/-- What making the default distribution does. -/
theorem default_spec (env : AEnv R L) (w : AWorld R L) (hf : ∀ a, w.next ≤ a → w.heap a = none) (k : ℕ) (p : APod) (hp : w.pods[k]? = some p)
    (x : List R) :
    w.next ≤ (aDefaultDist env w k p x).1.next ∧ (∀ a, (aDefaultDist env w k p x).1.next ≤ a → (aDefaultDist env w k p x).1.heap a = none) ∧
    (aDefaultDist env w k p x).1.made = w.made ∧ (aDefaultDist env w k p x).1.held = w.held ∧
    (∀ a, a < w.next → (aDefaultDist env w k p x).1.heap a = w.heap a) ∧
    (aDefaultDist env w k p x).1.pods = w.pods.set k (aDefaultDist env w k p x).2 ∧
    (aDefaultDist env w k p x).2.input = p.input ∧ (aDefaultDist env w k p x).2.signals = p.signals ∧ (aDefaultDist env w k p x).2.kind = p.kind ∧
    (∀ d, (aDefaultDist env w k p x).2.dist = some d → d < w.next → p.dist = some d) ∧
    ((∀ d, p.dist = some d → ADist w d) → ∀ d, (aDefaultDist env w k p x).2.dist = some d → ADist (aDefaultDist env w k p x).1 d) ∧
    (aDefaultDist env w k p x).2.userChaos = p.userChaos ∧ (aDefaultDist env w k p x).2.boxCox = p.boxCox := by
  generalize hW : aDefaultDist env w k p x = W
  rcases hd : p.dist with _ | d
  · simp only [aDefaultDist, hd] at hW
    subst hW
    refine ⟨Nat.le_succ _, fun a ha => ?_, rfl, rfl, fun a ha => ?_, rfl, rfl, rfl, rfl, fun d h1 h2 => ?_, fun _ d h => ?_, rfl, rfl⟩
    · change w.next + 1 ≤ a at ha
      change (w.alloc _).heap a = none
      rw [alloc_heap, if_neg (by omega)]; exact hf a (by omega)
    · change (w.alloc _).heap a = _
      rw [alloc_heap, if_neg (by omega)]
    · have h3 : w.next = d := Option.some.inj h1
      omega
    · rw [← Option.some.inj h]
      refine ⟨Nat.lt_succ_self _, fun x s hx => ?_⟩
      rw [show ((w.alloc _).setPod k _).heap w.next = _ from (alloc_heap w _ w.next).trans (if_pos rfl)] at hx
      cases hx
  · simp only [aDefaultDist, hd] at hW
    subst hW
    refine ⟨le_rfl, hf, rfl, rfl, fun a _ => rfl, ?_, rfl, rfl, rfl, fun d' h _ => hd ▸ h, fun h0 d' h => h0 d' (hd.symm.trans h), rfl, rfl⟩
    obtain ⟨h1, h2⟩ := List.getElem?_eq_some_iff.1 hp
    change w.pods = w.pods.set k p
    rw [← h2, List.set_getElem_self]

/-- What `run` does. -/
theorem run_spec (env : AEnv R L) (w : AWorld R L) (hw : AInv w) (k : ℕ) :
    w.next ≤ (aRun env w k).next ∧ (∀ a, (aRun env w k).next ≤ a → (aRun env w k).heap a = none) ∧ (aRun env w k).made = w.made ∧
    (aRun env w k).held = w.held ∧ (∀ l, l ≠ k → (aRun env w k).pods[l]? = w.pods[l]?) ∧
    (∀ p', (aRun env w k).pods[k]? = some p' → ∃ p, w.pods[k]? = some p ∧ p'.kind = p.kind ∧ p'.boxCox = p.boxCox ∧
      ((p'.input = p.input ∧ p'.signals = p.signals) ∨ (p.kind = .hitMiss ∧ w.next ≤ p'.input ∧ p'.input < (aRun env w k).next ∧ w.next ≤ p'.signals ∧
        p'.signals < (aRun env w k).next ∧ p'.input ≠ p'.signals ∧ (∃ x d, (aRun env w k).heap p'.input = some (.sample x d)) ∧
        ∃ x d, (aRun env w k).heap p'.signals = some (.sample x d))) ∧ ∀ d, p'.dist = some d → ADist (aRun env w k) d) ∧
    (∀ a, a < w.next → (aRun env w k).heap a = w.heap a ∨
      (∃ p x y dx dy, w.pods[k]? = some p ∧ p.kind = .signal ∧ w.heap p.input = some (.sample x dx) ∧ w.heap p.signals = some (.sample y dy) ∧
        ((a = p.input ∧ (aRun env w k).heap a = some (.sample (x ++ env.addedIn x y) dx)) ∨
         (a = p.signals ∧ (aRun env w k).heap a = some (.sample (y ++ env.addedOut x y) dy)))) ∨
      (∃ p x dx l d, w.pods[k]? = some p ∧ p.kind = .chaos ∧ p.userChaos = false ∧ p.dist = some a ∧ w.heap p.input = some (.sample x dx) ∧
        w.heap a = some (.law l d) ∧ (aRun env w k).heap a = some (.law l dx))) := by
  generalize hW : aRun env w k = W
  rcases hp : w.pods[k]? with _ | p
  · simp only [aRun, hp] at hW
    subst hW
    exact ⟨le_rfl, hw.fresh, rfl, rfl, fun _ _ => rfl, fun p' h => absurd (hp.symm.trans h) (by simp), fun _ _ => Or.inl rfl⟩
  · obtain ⟨hi1, hi2, x, dx, hx⟩ := hw.input k p hp
    obtain ⟨hs1, hs2, y, dy, hy⟩ := hw.signals k p hp
    obtain ⟨hk, -⟩ := List.getElem?_eq_some_iff.1 hp
    obtain ⟨d1, d2, d3, d4, d5, d6, d7, d8, d9, d10, d11', -, d13⟩ := default_spec env w hw.fresh k p hp x
    have d11 := d11' fun d h => hw.dist k p d hp h
    clear d11'
    simp only [aRun, hp, hx, hy] at hW
    rcases hkind : p.kind with _ | _ | _ | _
    · -- chaos
      simp only [hkind] at hW
      by_cases hu : p.userChaos = true
      · rw [if_pos hu] at hW
        subst hW
        refine ⟨le_rfl, hw.fresh, rfl, rfl, fun _ _ => rfl, fun p' h => ⟨p, rfl, ?_, ?_, Or.inl ?_, ?_⟩, fun _ _ => Or.inl rfl⟩
        · rw [hp, Option.some.injEq] at h; rw [h]
        · rw [hp, Option.some.injEq] at h; rw [h]
        · rw [hp, Option.some.injEq] at h; rw [h]; exact ⟨rfl, rfl⟩
        · exact fun d hd => hw.dist k p' d h hd
      · rw [if_neg hu] at hW
        generalize hD : aDefaultDist env w k p x = D at *
        have hpods : ∀ p', D.1.pods[k]? = some p' → ∃ p0, some p = some p0 ∧ p'.kind = p0.kind ∧ p'.boxCox = p0.boxCox ∧ (p'.input = p0.input ∧ p'.signals = p0.signals) ∧
            ∀ d, p'.dist = some d → ADist D.1 d := by
          intro p' h
          rw [d6, List.getElem?_set_self hk, Option.some.injEq] at h
          exact ⟨p, rfl, h ▸ d9, h ▸ d13, ⟨h ▸ d7, h ▸ d8⟩, h ▸ d11⟩
        have hpods2 : ∀ l, l ≠ k → D.1.pods[l]? = w.pods[l]? := fun l hl => by
          rw [d6, List.getElem?_set_ne (Ne.symm hl)]
        split at hW
        · subst hW
          refine ⟨d1, d2, d3, d4, hpods2, fun p' h => ?_, fun a ha => Or.inl (d5 a ha)⟩
          obtain ⟨p0, e0, e1, e4, e2, e3⟩ := hpods p' h
          exact ⟨p0, e0, e1, e4, Or.inl e2, e3⟩
        · rename_i d hd
          split at hW
          · rename_i l desc hl
            subst hW
            refine ⟨d1, fun a ha => ?_, d3, d4, hpods2, fun p' h => ?_, fun a ha => ?_⟩
            · rw [put_heap]
              split
              · rename_i e
                rw [e] at ha
                rw [d2 d ha] at hl
                cases hl
              · exact d2 a ha
            · obtain ⟨p0, e0, e1, e4, e2, e3⟩ := hpods p' h
              refine ⟨p0, e0, e1, e4, Or.inl e2, fun d' hd' => ⟨(e3 d' hd').1, fun x' s' hx' => ?_⟩⟩
              rw [put_heap] at hx'
              split at hx'
              · cases hx'
              · exact (e3 d' hd').2 x' s' hx'
            · rw [put_heap]
              by_cases e : a = d
              · rw [if_pos e]
                subst e
                exact Or.inr (Or.inr ⟨p, x, dx, l, desc, rfl, hkind, by simpa using hu, d10 _ hd ha, hx, (d5 a ha).symm.trans hl, rfl⟩)
              · rw [if_neg e]; exact Or.inl (d5 a ha)
          · subst hW
            refine ⟨d1, d2, d3, d4, hpods2, fun p' h => ?_, fun a ha => Or.inl (d5 a ha)⟩
            obtain ⟨p0, e0, e1, e4, e2, e3⟩ := hpods p' h
            exact ⟨p0, e0, e1, e4, Or.inl e2, e3⟩
    · -- kriging
      simp only [hkind] at hW
      subst hW
      refine ⟨d1, d2, d3, d4, fun l hl => ?_, fun p' h => ⟨p, rfl, ?_, ?_, Or.inl ⟨?_, ?_⟩, ?_⟩, fun a ha => Or.inl (d5 a ha)⟩
      · rw [d6, List.getElem?_set_ne (Ne.symm hl)]
      all_goals
        rw [d6, List.getElem?_set_self hk, Option.some.injEq] at h
        rw [← h]
        assumption
    · -- adaptive signal
      simp only [hkind] at hW
      subst hW
      have hne := hw.differ k p hp
      refine ⟨d1, fun a ha => ?_, d3, d4, fun l hl => ?_, fun p' h => ⟨p, rfl, ?_, ?_, Or.inl ⟨?_, ?_⟩, ?_⟩, fun a ha => ?_⟩
      · have : w.next ≤ a := le_trans d1 ha
        rw [put_heap, put_heap, if_neg (by omega), if_neg (by omega)]
        exact d2 a ha
      · exact (congrArg (·[l]?) d6).trans (List.getElem?_set_ne (Ne.symm hl))
      · have h' : (w.pods.set k (aDefaultDist env w k p x).2)[k]? = some p' := (congrArg (·[k]?) d6).symm.trans h
        rw [List.getElem?_set_self hk, Option.some.injEq] at h'
        rw [← h']; exact d9
      · have h' : (w.pods.set k (aDefaultDist env w k p x).2)[k]? = some p' := (congrArg (·[k]?) d6).symm.trans h
        rw [List.getElem?_set_self hk, Option.some.injEq] at h'
        rw [← h']; exact d13
      · have h' : (w.pods.set k (aDefaultDist env w k p x).2)[k]? = some p' := (congrArg (·[k]?) d6).symm.trans h
        rw [List.getElem?_set_self hk, Option.some.injEq] at h'
        rw [← h']; exact d7
      · have h' : (w.pods.set k (aDefaultDist env w k p x).2)[k]? = some p' := (congrArg (·[k]?) d6).symm.trans h
        rw [List.getElem?_set_self hk, Option.some.injEq] at h'
        rw [← h']; exact d8
      · have h' : (w.pods.set k (aDefaultDist env w k p x).2)[k]? = some p' := (congrArg (·[k]?) d6).symm.trans h
        rw [List.getElem?_set_self hk, Option.some.injEq] at h'
        rw [← h']
        intro d hd
        refine ⟨(d11 d hd).1, fun x' s' hx' => ?_⟩
        have hne1 : d ≠ p.signals := fun e => (d11 d hd).2 _ _ (by rw [e, d5 _ hs1, hy])
        have hne2 : d ≠ p.input := fun e => (d11 d hd).2 _ _ (by rw [e, d5 _ hi1, hx])
        rw [put_heap, put_heap, if_neg hne1, if_neg hne2] at hx'
        exact (d11 d hd).2 x' s' hx'
      · rw [put_heap, put_heap]
        by_cases e1 : a = p.signals
        · rw [if_pos e1]
          exact Or.inr (Or.inl ⟨p, x, y, dx, dy, rfl, hkind, hx, hy, Or.inr ⟨e1, rfl⟩⟩)
        · rw [if_neg e1]
          by_cases e2 : a = p.input
          · rw [if_pos e2]
            exact Or.inr (Or.inl ⟨p, x, y, dx, dy, rfl, hkind, hx, hy, Or.inl ⟨e2, rfl⟩⟩)
          · rw [if_neg e2]; exact Or.inl (d5 a ha)
    · -- adaptive hit-miss
      simp only [hkind] at hW
      subst hW
      generalize hD : aDefaultDist env w k p x = D at *
      refine ⟨le_trans d1 (by change _ ≤ D.1.next + 1 + 1; omega), fun a ha => ?_, d3, d4, fun l hl => ?_, fun p' h => ⟨p, rfl, ?_, ?_, Or.inr ⟨hkind, ?_⟩, ?_⟩,
        fun a ha => Or.inl ?_⟩
      · change D.1.next + 1 + 1 ≤ a at ha
        exact (alloc2_heap D.1 _ _ a).trans (by rw [if_neg (by omega), if_neg (by omega)]; exact d2 a (by omega))
      · change (D.1.pods.set k _)[l]? = _
        rw [List.getElem?_set_ne (Ne.symm hl), d6, List.getElem?_set_ne (Ne.symm hl)]
      · change (D.1.pods.set k _)[k]? = _ at h
        rw [List.getElem?_set_self (by rw [d6]; simpa using hk), Option.some.injEq] at h
        rw [← h]; exact d9
      · change (D.1.pods.set k _)[k]? = _ at h
        rw [List.getElem?_set_self (by rw [d6]; simpa using hk), Option.some.injEq] at h
        rw [← h]; exact d13
      · change (D.1.pods.set k _)[k]? = _ at h
        rw [List.getElem?_set_self (by rw [d6]; simpa using hk), Option.some.injEq] at h
        subst h
        change w.next ≤ D.1.next ∧ D.1.next < D.1.next + 1 + 1 ∧ w.next ≤ D.1.next + 1 ∧ D.1.next + 1 < D.1.next + 1 + 1 ∧ D.1.next ≠ D.1.next + 1 ∧ _ ∧ _
        refine ⟨d1, by omega, by omega, by omega, by omega,
          ⟨x ++ env.addedIn x y, env.names (x ++ env.addedIn x y), (alloc2_heap D.1 _ _ D.1.next).trans ?_⟩,
          ⟨y ++ env.addedOut x y, env.names (y ++ env.addedOut x y), (alloc2_heap D.1 _ _ (D.1.next + 1)).trans ?_⟩⟩
        · rw [if_neg (by omega), if_pos rfl]
        · rw [if_pos rfl]
      · change (D.1.pods.set k _)[k]? = _ at h
        rw [List.getElem?_set_self (by rw [d6]; simpa using hk), Option.some.injEq] at h
        subst h
        intro d hd
        have h0 := d11 d hd
        refine ⟨by have := h0.1; change d < D.1.next + 1 + 1; omega, fun x' s' hx' => h0.2 x' s' ?_⟩
        have h1 := h0.1
        rw [show (((D.1.alloc _).alloc _).setPod k _).heap d = _ from alloc2_heap D.1 _ _ d, if_neg (by omega), if_neg (by omega)] at hx'
        exact hx'
      · exact (alloc2_heap D.1 _ _ a).trans (by rw [if_neg (by omega), if_neg (by omega)]; exact d5 a ha)

/-- The invariant is kept by every step. -/
theorem step_inv (env : AEnv R L) (w : AWorld R L) (hw : AInv w) (op : AOp R L) : AInv (aStep env w op) := by
  have hset : ∀ (k : ℕ) (p p' : APod), w.pods[k]? = some p → p'.input = p.input → p'.signals = p.signals →
      (∀ d, p'.dist = some d → ADist w d) → AInv (w.setPod k p') := by
    intro k p p' hp h1 h2 h3
    obtain ⟨hk, -⟩ := List.getElem?_eq_some_iff.1 hp
    refine inv_of w _ hw le_rfl hw.fresh rfl hw.held (fun a x d h => ⟨x, d, h⟩) k (fun l hl q hq => ⟨q, ?_, rfl, rfl⟩) (fun q hq => Or.inl ⟨p, hp, ?_⟩)
      fun l q d hq hd => ?_
    · change (w.pods.set k p')[l]? = some q at hq
      rwa [List.getElem?_set_ne (Ne.symm hl)] at hq
    · change (w.pods.set k p')[k]? = some q at hq
      rw [List.getElem?_set_self hk, Option.some.injEq] at hq
      rw [← hq]; exact ⟨h1, h2⟩
    · change (w.pods.set k p')[l]? = some q at hq
      by_cases hl : l = k
      · subst hl
        rw [List.getElem?_set_self hk, Option.some.injEq] at hq
        exact h3 d (hq ▸ hd)
      · rw [List.getElem?_set_ne (Ne.symm hl)] at hq
        exact hw.dist l q d hq hd
  have hhold : ∀ a, a < w.next → AInv { w with held := a :: w.held } := fun a ha =>
    ⟨hw.fresh, hw.made, fun b hb => by rcases List.mem_cons.1 hb with h | h; exacts [h ▸ ha, hw.held b h], hw.input, hw.signals, hw.differ, hw.apart,
      hw.dist⟩
  have hput : ∀ a o, (∃ x d x' d', w.heap a = some (.sample x d) ∧ o = .sample x' d') ∨ (∃ x d x' d', w.heap a = some (.law x d) ∧ o = .law x' d') →
      AInv (w.put a o) := by
    intro a o h
    refine inv_of w _ hw le_rfl (fun b hb => ?_) rfl hw.held (fun b x d hb => ?_) 0 (fun l _ q hq => ⟨q, hq, rfl, rfl⟩)
      (fun q hq => Or.inl ⟨q, hq, rfl, rfl⟩) (fun l q d hq hd => ⟨(hw.dist l q d hq hd).1, fun x' s' hx' => ?_⟩)
    · rw [put_heap]
      split
      · rename_i e
        have h0 := hw.fresh b hb
        rw [e] at h0
        rcases h with ⟨_, _, _, _, h1, _⟩ | ⟨_, _, _, _, h1, _⟩ <;> rw [h0] at h1 <;> cases h1
      · exact hw.fresh b hb
    · rw [put_heap]
      split
      · rename_i e
        rw [e] at hb
        rcases h with ⟨_, _, x', d', h1, h2⟩ | ⟨_, _, _, _, h1, _⟩
        · exact ⟨x', d', by rw [h2]⟩
        · rw [hb] at h1; cases h1
      · exact ⟨x, d, hb⟩
    · rw [put_heap] at hx'
      split at hx'
      · rename_i e
        rcases h with ⟨x1, d1, _, _, h1, _⟩ | ⟨_, _, _, _, _, h2⟩
        · exact (hw.dist l q d hq hd).2 x1 d1 (e ▸ h1)
        · rw [h2] at hx'; cases hx'
      · exact (hw.dist l q d hq hd).2 x' s' hx'
  cases op with
  | make o =>
    refine ⟨fun a ha => ?_, fun a ha => ?_, fun a ha => ?_, fun k p hp => ?_, fun k p hp => ?_, hw.differ, hw.apart,
      fun k p d hp hd => ⟨Nat.lt_succ_of_lt (hw.dist k p d hp hd).1, fun x s hx => (hw.dist k p d hp hd).2 x s ?_⟩⟩
    · change w.next + 1 ≤ a at ha
      exact (alloc_heap w o a).trans (by rw [if_neg (by omega)]; exact hw.fresh a (by omega))
    · rcases List.mem_cons.1 ha with h | h
      · rw [h]; exact Nat.lt_succ_self _
      · exact Nat.lt_succ_of_lt (hw.made a h)
    · rcases List.mem_cons.1 ha with h | h
      · rw [h]; exact Nat.lt_succ_self _
      · exact Nat.lt_succ_of_lt (hw.held a h)
    · obtain ⟨h1, h2, x, d, h3⟩ := hw.input k p hp
      refine ⟨Nat.lt_succ_of_lt h1, fun h => ?_, x, d, (alloc_heap w o _).trans (by rw [if_neg (by omega)]; exact h3)⟩
      rcases List.mem_cons.1 h with h | h
      · omega
      · exact h2 h
    · obtain ⟨h1, h2, x, d, h3⟩ := hw.signals k p hp
      refine ⟨Nat.lt_succ_of_lt h1, fun h => ?_, x, d, (alloc_heap w o _).trans (by rw [if_neg (by omega)]; exact h3)⟩
      rcases List.mem_cons.1 h with h | h
      · omega
      · exact h2 h
    · have hlt := (hw.dist k p d hp hd).1
      exact ((alloc_heap w o d).trans (if_neg (by omega))).symm.trans hx
  | write a o =>
    simp only [aStep]
    split
    · split
      · rename_i x d r d' h
        exact hput a _ (Or.inl ⟨x, d, r, d', h, rfl⟩)
      · rename_i x d r d' h
        exact hput a _ (Or.inr ⟨x, d, r, d', h, rfl⟩)
      · exact hw
    · exact hw
  | construct kind i o c b n =>
    simp only [aStep]
    rcases hx : w.rows i with _ | x
    · simp only [aConstruct, hx]; exact hw
    rcases hy : w.rows o with _ | y
    · simp only [aConstruct, hx, hy]; exact hw
    obtain ⟨p, h1, h2, h3, h4, h5, h6, h7, h8, h9, h10, h11, h12, h13⟩ := construct_spec env w hw.fresh kind i o c b n x y hx hy
    refine inv_of w _ hw h6.le h8 h12 (fun a ha => ?_) (fun a x d h => ⟨x, d, ?_⟩) w.pods.length (fun k hk q hq => ?_) (fun q hq => Or.inr ?_)
      fun k q d hq hd => ?_
    · rw [h13] at ha; exact lt_trans (hw.held a ha) h6
    · rw [h7 a]
      · exact h
      · by_contra hc
        rw [hw.fresh a (by omega)] at h; cases h
    · rw [h1] at hq
      rcases lt_or_gt_of_ne hk with h | h
      · rw [List.getElem?_append_left h] at hq
        exact ⟨q, hq, rfl, rfl⟩
      · rw [List.getElem?_eq_none (by simp; omega)] at hq; cases hq
    · rw [h1, List.getElem?_concat_length, Option.some.injEq] at hq
      subst hq
      exact ⟨h9.1, h9.2.1, h10.1, h10.2.1, h11, ⟨_, _, h9.2.2⟩, h10.2.2⟩
    · rw [h1] at hq
      by_cases hk : k < w.pods.length
      · rw [List.getElem?_append_left hk] at hq
        have h0 := hw.dist k q d hq hd
        exact ⟨lt_trans h0.1 h6, fun x' s' hx' => h0.2 x' s' (by rwa [h7 d h0.1] at hx')⟩
      · by_cases hk' : k = w.pods.length
        · rw [hk', List.getElem?_concat_length, Option.some.injEq] at hq
          rw [← hq, h3] at hd; cases hd
        · rw [List.getElem?_eq_none (by simp; omega)] at hq; cases hq
  | setPolynomialChaosResult k =>
    simp only [aStep]
    split
    · rename_i p hp
      split
      · exact hset k p _ hp rfl rfl fun d hd => hw.dist k p d hp hd
      · exact hw
    · exact hw
  | setDistribution k a =>
    simp only [aStep]
    split
    · rename_i p _ _ hp ha
      refine hset k p _ hp rfl rfl fun d hd => ?_
      rw [← Option.some.inj hd]
      refine ⟨?_, fun x s hx => ?_⟩
      · by_contra hc
        rw [hw.fresh a (by omega)] at ha; cases ha
      · rw [ha] at hx; cases hx
    · exact hw
  | run k =>
    obtain ⟨h1, h2, h3, h4, h5, h6, h7⟩ := run_spec env w hw k
    refine inv_of w _ hw h1 h2 h3 (fun a ha => ?_) (fun a x d h => ?_) k (fun l hl q hq => ?_) (fun q hq => ?_) fun l q d hq hd => ?_
    · have ha' : a ∈ (aRun env w k).held := ha
      rw [h4] at ha'; exact lt_of_lt_of_le (hw.held a ha') h1
    · have ha : a < w.next := by
        by_contra hc
        rw [hw.fresh a (by omega)] at h; cases h
      rcases h7 a ha with e | ⟨p, x, y, dx, dy, -, -, -, -, ⟨-, e⟩ | ⟨-, e⟩⟩ | ⟨_, _, _, _, _, _, _, _, _, _, e, _⟩
      · exact ⟨x, d, e.trans h⟩
      · exact ⟨_, _, e⟩
      · exact ⟨_, _, e⟩
      · rw [h] at e; cases e
    · have hq' : (aRun env w k).pods[l]? = some q := hq
      rw [h5 l hl] at hq'
      exact ⟨q, hq', rfl, rfl⟩
    · obtain ⟨p, e1, -, -, e2 | ⟨-, e2⟩, -⟩ := h6 q hq
      · exact Or.inl ⟨p, e1, e2⟩
      · exact Or.inr e2
    · by_cases hl : l = k
      · obtain ⟨p, -, -, -, -, e⟩ := h6 q (hl ▸ hq)
        exact e d hd
      · have hq' : (aRun env w k).pods[l]? = some q := hq
        rw [h5 l hl] at hq'
        have h0 := hw.dist l q d hq' hd
        refine ⟨lt_of_lt_of_le h0.1 h1, fun x' s' hx' => ?_⟩
        have hx'' : (aRun env w k).heap d = some (.sample x' s') := hx'
        rcases h7 d h0.1 with e | ⟨p, x, y, dx, dy, -, -, e1, e2, ⟨e, -⟩ | ⟨e, -⟩⟩ | ⟨_, _, _, _, _, _, _, _, _, _, e, e'⟩
        · exact h0.2 x' s' (e ▸ hx'')
        · exact h0.2 x dx (e ▸ e1)
        · exact h0.2 y dy (e ▸ e2)
        · rw [hx''] at e'; cases e'
  | getInputDOE k =>
    simp only [aStep]
    split
    · rename_i p hp
      split
      · exact hhold _ (hw.input k p hp).1
      · exact hw
    · exact hw
  | getOutputDOE k =>
    simp only [aStep]
    split
    · rename_i p hp
      split
      · simp only [aOutputDOE]
        split
        · split
          · rename_i y hy
            refine inv_of w _ hw (Nat.le_succ _) (fun a ha => ?_) rfl (fun a ha => ?_) (fun a x d h => ⟨x, d, ?_⟩) 0 (fun l _ q hq => ⟨q, hq, rfl, rfl⟩)
              (fun q hq => Or.inl ⟨q, hq, rfl, rfl⟩) fun l q d hq hd =>
                ⟨Nat.lt_succ_of_lt (hw.dist l q d hq hd).1, fun x s hx => (hw.dist l q d hq hd).2 x s ?_⟩
            · change w.next + 1 ≤ a at ha
              exact (alloc_heap w _ a).trans (by rw [if_neg (by omega)]; exact hw.fresh a (by omega))
            · rcases List.mem_cons.1 ha with e | e
              · rw [e]; exact Nat.lt_succ_self _
              · exact Nat.lt_succ_of_lt (hw.held a e)
            · refine (alloc_heap w _ a).trans ?_
              rw [if_neg]
              · exact h
              · intro e
                rw [e, hw.fresh _ le_rfl] at h; cases h
            · have hlt := (hw.dist l q d hq hd).1
              rw [show (w.alloc _).heap d = _ from (alloc_heap w _ d).trans (if_neg (by omega))] at hx
              exact hx
          · exact hhold _ (hw.signals k p hp).1
        · exact hhold _ (hw.signals k p hp).1
      · exact hw
    · exact hw
  | getDistribution k =>
    simp only [aStep]
    split
    · rename_i p hp
      split
      · rename_i d hd
        exact hhold _ (hw.dist k p d hp hd).1
      · exact hw
    · exact hw

theorem empty_inv : AInv (aEmpty : AWorld R L) :=
  ⟨fun _ _ => rfl, fun a ha => (List.not_mem_nil ha).elim, fun a ha => (List.not_mem_nil ha).elim, fun k p h => by simp [aEmpty] at h,
    fun k p h => by simp [aEmpty] at h, fun k p h => by simp [aEmpty] at h, fun k l p q h => by simp [aEmpty] at h, fun k p d h => by simp [aEmpty] at h⟩

theorem ops_inv (env : AEnv R L) (ops : List (AOp R L)) (w : AWorld R L) (hw : AInv w) : AInv (aRunOps env w ops) := by
  induction ops generalizing w with
  | nil => exact hw
  | cons op ops ih => exact ih _ (step_inv env w hw op)

/-- Only a run and a write of the caller change an object. -/
theorem step_heap (env : AEnv R L) (w : AWorld R L) (hw : AInv w) (op : AOp R L) (a : ℕ) (ha : a < w.next) (hr : ∀ k, op ≠ .run k)
    (hwr : ∀ o, op ≠ .write a o) : (aStep env w op).heap a = w.heap a := by
  cases op with
  | make o => exact (alloc_heap w o a).trans (by rw [if_neg (by omega)])
  | write b o =>
    have hb : a ≠ b := fun h => hwr o (by rw [h])
    simp only [aStep]
    split
    · split <;> first | rfl | (rw [put_heap, if_neg hb])
    · rfl
  | construct kind i o c b n =>
    simp only [aStep]
    rcases hx : w.rows i with _ | x
    · simp only [aConstruct, hx]
    rcases hy : w.rows o with _ | y
    · simp only [aConstruct, hx, hy]
    obtain ⟨p, -, -, -, -, -, -, h7, -⟩ := construct_spec env w hw.fresh kind i o c b n x y hx hy
    exact h7 a ha
  | setPolynomialChaosResult k => simp only [aStep]; split <;> [split <;> rfl; rfl]
  | setDistribution k b => simp only [aStep]; split <;> rfl
  | run k => exact absurd rfl (hr k)
  | getInputDOE k => simp only [aStep]; split <;> [split <;> rfl; rfl]
  | getOutputDOE k =>
    simp only [aStep]
    split
    · split
      · simp only [aOutputDOE]
        split
        · split
          · exact (alloc_heap w _ a).trans (by rw [if_neg (by omega)])
          · rfl
        · rfl
      · rfl
    · rfl
  | getDistribution k => simp only [aStep]; split <;> [split <;> rfl; rfl]

theorem step_next (env : AEnv R L) (w : AWorld R L) (hw : AInv w) (op : AOp R L) : w.next ≤ (aStep env w op).next := by
  cases op with
  | make o => exact Nat.le_succ _
  | write b o =>
    simp only [aStep]
    split
    · split <;> exact le_rfl
    · exact le_rfl
  | construct kind i o c b n =>
    simp only [aStep]
    rcases hx : w.rows i with _ | x
    · simp only [aConstruct, hx]; exact le_rfl
    rcases hy : w.rows o with _ | y
    · simp only [aConstruct, hx, hy]; exact le_rfl
    obtain ⟨p, -, -, -, -, -, h6, -⟩ := construct_spec env w hw.fresh kind i o c b n x y hx hy
    exact h6.le
  | setPolynomialChaosResult k => simp only [aStep]; split <;> [split <;> exact le_rfl; exact le_rfl]
  | setDistribution k b => simp only [aStep]; split <;> exact le_rfl
  | run k => exact (run_spec env w hw k).1
  | getInputDOE k => simp only [aStep]; split <;> [split <;> exact le_rfl; exact le_rfl]
  | getOutputDOE k =>
    simp only [aStep]
    split
    · split
      · simp only [aOutputDOE]
        split
        · split
          · exact Nat.le_succ _
          · exact le_rfl
        · exact le_rfl
      · exact le_rfl
    · exact le_rfl
  | getDistribution k => simp only [aStep]; split <;> [split <;> exact le_rfl; exact le_rfl]

/-- The data references of a POD object after a step: the same ones, except after a hit-miss run; a new POD object has new ones. -/
theorem step_pods (env : AEnv R L) (w : AWorld R L) (hw : AInv w) (op : AOp R L) (k : ℕ) (p' : APod) (hp : (aStep env w op).pods[k]? = some p') :
    (∃ p, w.pods[k]? = some p ∧ p'.kind = p.kind ∧ p'.boxCox = p.boxCox ∧ p'.input = p.input ∧ p'.signals = p.signals) ∨
    (w.next ≤ p'.input ∧ w.next ≤ p'.signals ∧ (k < w.pods.length → op = .run k)) := by
  have hset : ∀ (l : ℕ) (q q' : APod), w.pods[l]? = some q → q'.kind = q.kind → q'.boxCox = q.boxCox → q'.input = q.input → q'.signals = q.signals →
      (w.setPod l q').pods[k]? = some p' →
      (∃ p, w.pods[k]? = some p ∧ p'.kind = p.kind ∧ p'.boxCox = p.boxCox ∧ p'.input = p.input ∧ p'.signals = p.signals) := by
    intro l q q' hq h0 h00 h1 h2 h3
    obtain ⟨hl, -⟩ := List.getElem?_eq_some_iff.1 hq
    change (w.pods.set l q')[k]? = some p' at h3
    by_cases hk : k = l
    · subst hk
      rw [List.getElem?_set_self hl, Option.some.injEq] at h3
      exact ⟨q, hq, h3 ▸ h0, h3 ▸ h00, h3 ▸ h1, h3 ▸ h2⟩
    · rw [List.getElem?_set_ne (Ne.symm hk)] at h3
      exact ⟨p', h3, rfl, rfl, rfl, rfl⟩
  have hsame : w.pods[k]? = some p' → (∃ p, w.pods[k]? = some p ∧ p'.kind = p.kind ∧ p'.boxCox = p.boxCox ∧ p'.input = p.input ∧ p'.signals = p.signals) :=
    fun h => ⟨p', h, rfl, rfl, rfl, rfl⟩
  cases op with
  | make o => exact Or.inl (hsame hp)
  | write b o =>
    simp only [aStep] at hp
    split at hp
    · split at hp <;> exact Or.inl (hsame hp)
    · exact Or.inl (hsame hp)
  | construct kind i o c b n =>
    simp only [aStep] at hp
    rcases hx : w.rows i with _ | x
    · simp only [aConstruct, hx] at hp; exact Or.inl (hsame hp)
    rcases hy : w.rows o with _ | y
    · simp only [aConstruct, hx, hy] at hp; exact Or.inl (hsame hp)
    obtain ⟨p, h1, -, -, -, -, -, -, -, h9, h10, -⟩ := construct_spec env w hw.fresh kind i o c b n x y hx hy
    rw [h1] at hp
    by_cases hk : k < w.pods.length
    · rw [List.getElem?_append_left hk] at hp
      exact Or.inl (hsame hp)
    · by_cases hk' : k = w.pods.length
      · rw [hk', List.getElem?_concat_length, Option.some.injEq] at hp
        exact Or.inr ⟨hp ▸ h9.1, hp ▸ h10.1, fun h => absurd h hk⟩
      · rw [List.getElem?_eq_none (by simp; omega)] at hp; cases hp
  | setPolynomialChaosResult l =>
    simp only [aStep] at hp
    split at hp
    · rename_i q hq
      split at hp
      · exact Or.inl (hset l q { q with userChaos := true } hq rfl rfl rfl rfl hp)
      · exact Or.inl (hsame hp)
    · exact Or.inl (hsame hp)
  | setDistribution l b =>
    simp only [aStep] at hp
    split at hp
    · rename_i q _ _ hq _
      exact Or.inl (hset l q { q with dist := some b } hq rfl rfl rfl rfl hp)
    · exact Or.inl (hsame hp)
  | run l =>
    obtain ⟨h1, h2, h3, h4, h5, h6, h7⟩ := run_spec env w hw l
    change (aRun env w l).pods[k]? = some p' at hp
    by_cases hk : k = l
    · subst hk
      obtain ⟨p, e1, e2, e5, e3 | ⟨-, e3, -, e4, -⟩, -⟩ := h6 p' hp
      · exact Or.inl ⟨p, e1, e2, e5, e3⟩
      · exact Or.inr ⟨e3, e4, fun _ => rfl⟩
    · rw [h5 k hk] at hp
      exact Or.inl (hsame hp)
  | getInputDOE l =>
    simp only [aStep] at hp
    split at hp
    · split at hp <;> exact Or.inl (hsame hp)
    · exact Or.inl (hsame hp)
  | getOutputDOE l =>
    simp only [aStep] at hp
    split at hp
    · split at hp
      · simp only [aOutputDOE] at hp
        split at hp
        · split at hp <;> exact Or.inl (hsame hp)
        · exact Or.inl (hsame hp)
      · exact Or.inl (hsame hp)
    · exact Or.inl (hsame hp)
  | getDistribution l =>
    simp only [aStep] at hp
    split at hp
    · split at hp <;> exact Or.inl (hsame hp)
    · exact Or.inl (hsame hp)

/-- A sample that no adaptive signal POD uses stays as it is until the caller writes into it. -/
theorem settled (env : AEnv R L) (ops : List (AOp R L)) (w : AWorld R L) (hw : AInv w) (a : ℕ) (x : List R) (d : List String)
    (ha : w.heap a = some (.sample x d)) (hp : ∀ (k : ℕ) (p : APod), w.pods[k]? = some p → p.kind = .signal → a ≠ p.input ∧ a ≠ p.signals)
    (hops : ∀ o, AOp.write a o ∉ ops) : (aRunOps env w ops).heap a = some (.sample x d) := by
  induction ops generalizing w with
  | nil => exact ha
  | cons op ops ih =>
    have hlt : a < w.next := by
      by_contra hc
      rw [hw.fresh a (by omega)] at ha; cases ha
    have hkeep : (aStep env w op).heap a = w.heap a := by
      by_cases hr : ∃ k, op = .run k
      · obtain ⟨k, rfl⟩ := hr
        rcases (run_spec env w hw k).2.2.2.2.2.2 a hlt with e | ⟨p, _, _, _, _, e1, e2, -, -, ⟨e3, -⟩ | ⟨e3, -⟩⟩ | ⟨_, _, _, _, _, _, _, _, _, _, e, _⟩
        · exact e
        · exact absurd e3 (hp k p e1 e2).1
        · exact absurd e3 (hp k p e1 e2).2
        · rw [ha] at e; cases e
      · exact step_heap env w hw op a hlt (fun k h => hr ⟨k, h⟩) fun o h => hops o (by rw [← h]; exact List.mem_cons_self)
    refine ih (aStep env w op) (step_inv env w hw op) (hkeep.trans ha) (fun k p' hp' hk => ?_) fun o h => hops o (List.mem_cons_of_mem _ h)
    rcases step_pods env w hw op k p' hp' with ⟨p, e1, e2, -, e3, e4⟩ | ⟨e1, e2, -⟩
    · rw [e3, e4]; exact hp k p e1 (e2 ▸ hk)
    · omega

/-- **C192 is violated.**  The caller makes two samples and a distribution with names of its own, builds a polynomial chaos POD with them, gives it the
distribution and runs: the names of the caller's distribution have been replaced by those of the copied sample.  For every data set, law, names and
numerical content. -/
theorem C192_violated (env : AEnv R L) (x y : List R) (dx dy desc : List String) (l : L) (hd : desc ≠ env.names x) :
    let ops : List (AOp R L) := [.make (.sample x dx), .make (.sample y dy), .make (.law l desc), .construct .chaos 0 1 false false false,
      .setDistribution 0 2]
    2 ∈ (aRunOps env aEmpty ops).made ∧ (aRunOps env aEmpty ops).heap 2 = some (.law l desc) ∧
    (aRunOps env aEmpty (ops ++ [.run 0])).heap 2 = some (.law l (env.names x)) ∧
    (aRunOps env aEmpty (ops ++ [.run 0])).heap 2 ≠ (aRunOps env aEmpty ops).heap 2 := by
  intro ops
  have h1 : (aRunOps env aEmpty ops).heap 2 = some (.law l desc) := rfl
  have h2 : (aRunOps env aEmpty (ops ++ [.run 0])).heap 2 = some (.law l (env.names x)) := rfl
  refine ⟨List.mem_cons_self, h1, h2, ?_⟩
  rw [h1, h2]
  intro h
  injection h with h
  injection h with _ h
  exact hd h.symm

/-- **C192, restricted: one step.**  After every history, an operation changes an object made by the caller only if it is a write of the caller into it,
or a polynomial chaos run with this distribution; that run changes the names and keeps the law.  Missing: the names after a chaos run. -/
theorem C192_step_partial (env : AEnv R L) (ops : List (AOp R L)) (a : ℕ) (ha : a ∈ (aRunOps env aEmpty ops).made) (op : AOp R L)
    (hop : ∀ o, op ≠ .write a o) :
    (aStep env (aRunOps env aEmpty ops) op).heap a = (aRunOps env aEmpty ops).heap a ∨
    ∃ k p l d d', op = .run k ∧ (aRunOps env aEmpty ops).pods[k]? = some p ∧ p.kind = .chaos ∧ p.userChaos = false ∧ p.dist = some a ∧
      (aRunOps env aEmpty ops).heap a = some (.law l d) ∧ (aStep env (aRunOps env aEmpty ops) op).heap a = some (.law l d') := by
  have hw := ops_inv env ops aEmpty empty_inv
  set w := aRunOps env aEmpty ops
  have hlt := hw.made a ha
  by_cases hr : ∃ k, op = .run k
  · obtain ⟨k, rfl⟩ := hr
    rcases (run_spec env w hw k).2.2.2.2.2.2 a hlt with e | ⟨p, _, _, _, _, e1, e2, -, -, ⟨e3, -⟩ | ⟨e3, -⟩⟩ | ⟨p, x, dx, l, d, h1, h2, h3, h4, h5, h6, h7⟩
    · exact Or.inl e
    · exact absurd (e3 ▸ ha) (hw.input k p e1).2.1
    · exact absurd (e3 ▸ ha) (hw.signals k p e1).2.1
    · exact Or.inr ⟨k, p, l, d, dx, rfl, h1, h2, h3, h4, h6, h7⟩
  · exact Or.inl (step_heap env w hw op a hlt (fun k h => hr ⟨k, h⟩) hop)

/-- **C192, restricted: samples.**  A sample made by the caller is the same after any further history in which the caller does not write into it. -/
theorem C192_samples_partial (env : AEnv R L) (ops ops' : List (AOp R L)) (a : ℕ) (ha : a ∈ (aRunOps env aEmpty ops).made) (x : List R) (d : List String)
    (hx : (aRunOps env aEmpty ops).heap a = some (.sample x d)) (hops : ∀ o, AOp.write a o ∉ ops') :
    (aRunOps env (aRunOps env aEmpty ops) ops').heap a = some (.sample x d) := by
  have hw := ops_inv env ops aEmpty empty_inv
  refine settled env ops' _ hw a x d hx (fun k p hp _ => ⟨fun h => ?_, fun h => ?_⟩) hops
  · exact (hw.input k p hp).2.1 (h ▸ ha)
  · exact (hw.signals k p hp).2.1 (h ▸ ha)

/-- Data of an object that was never asked for its design. -/
theorem isolated (env : AEnv R L) (ops : List (AOp R L)) (w : AWorld R L) (hw : AInv w) (k : ℕ) (p : APod) (hp : w.pods[k]? = some p)
    (h1 : p.input ∉ w.held) (h2 : p.signals ∉ w.held) (hops : AOp.run k ∉ ops ∧ AOp.getInputDOE k ∉ ops ∧ AOp.getOutputDOE k ∉ ops) :
    ∃ p', (aRunOps env w ops).pods[k]? = some p' ∧ p'.input = p.input ∧ p'.signals = p.signals ∧
      (aRunOps env w ops).heap p.input = w.heap p.input ∧ (aRunOps env w ops).heap p.signals = w.heap p.signals := by
  induction ops generalizing w p with
  | nil => exact ⟨p, hp, rfl, rfl, rfl, rfl⟩
  | cons op ops ih =>
    have hops' : AOp.run k ∉ ops ∧ AOp.getInputDOE k ∉ ops ∧ AOp.getOutputDOE k ∉ ops :=
      ⟨fun h => hops.1 (List.mem_cons_of_mem _ h), fun h => hops.2.1 (List.mem_cons_of_mem _ h), fun h => hops.2.2 (List.mem_cons_of_mem _ h)⟩
    have hnr : op ≠ .run k := fun h => hops.1 (h ▸ List.mem_cons_self)
    have hni : op ≠ .getInputDOE k := fun h => hops.2.1 (h ▸ List.mem_cons_self)
    have hno : op ≠ .getOutputDOE k := fun h => hops.2.2 (h ▸ List.mem_cons_self)
    obtain ⟨hk, -⟩ := List.getElem?_eq_some_iff.1 hp
    have hmine : ∀ a, (a = p.input ∨ a = p.signals) → (aStep env w op).heap a = w.heap a ∧ a ∉ (aStep env w op).held := by
      intro a hcase
      have hlt : a < w.next := by
        rcases hcase with h | h
        · exact h ▸ (hw.input k p hp).1
        · exact h ▸ (hw.signals k p hp).1
      have hsamp : ∃ x d, w.heap a = some (.sample x d) := by
        rcases hcase with h | h
        · exact h ▸ (hw.input k p hp).2.2
        · exact h ▸ (hw.signals k p hp).2.2
      have hheld : a ∉ w.held := by
        rcases hcase with h | h
        · exact h ▸ h1
        · exact h ▸ h2
      have hap : ∀ (l : ℕ) (q : APod), l ≠ k → w.pods[l]? = some q → a ≠ q.input ∧ a ≠ q.signals := by
        intro l q hl hq
        have e1 := hw.apart k l p q hp hq (Ne.symm hl)
        have e2 := hw.apart l k q p hq hp hl
        rcases hcase with h | h
        · exact ⟨h ▸ e1.1, h ▸ e1.2.1⟩
        · exact ⟨h ▸ e2.2.1.symm, h ▸ e1.2.2⟩
      obtain ⟨x, d, hx⟩ := hsamp
      cases op with
      | run l =>
        have hl : l ≠ k := fun h => hnr (h ▸ rfl)
        obtain ⟨-, -, -, g4, -, -, g7⟩ := run_spec env w hw l
        refine ⟨?_, fun h => ?_⟩
        · rcases g7 a hlt with e | ⟨q, _, _, _, _, e1, e2, -, -, ⟨e3, -⟩ | ⟨e3, -⟩⟩ | ⟨_, _, _, _, _, _, _, _, _, _, e, _⟩
          · exact e
          · exact absurd e3 (hap l q hl e1).1
          · exact absurd e3 (hap l q hl e1).2
          · rw [hx] at e; cases e
        · have h' : a ∈ (aRun env w l).held := h
          rw [g4] at h'; exact hheld h'
      | write b o =>
        by_cases hb : b ∈ w.held
        · have hab : a ≠ b := fun h => hheld (h ▸ hb)
          refine ⟨step_heap env w hw _ a hlt (by simp) fun o' h => hab ?_, ?_⟩
          · injection h with h _; exact h.symm
          · simp only [aStep, if_pos hb]
            split <;> exact hheld
        · rw [show aStep env w (.write b o) = w by simp only [aStep, if_neg hb]]; exact ⟨rfl, hheld⟩
      | make o =>
        refine ⟨step_heap env w hw _ a hlt (by simp) (by simp), fun h => ?_⟩
        rcases List.mem_cons.1 h with h | h
        · omega
        · exact hheld h
      | construct kind i o c b n =>
        refine ⟨step_heap env w hw _ a hlt (by simp) (by simp), ?_⟩
        simp only [aStep]
        rcases hx : w.rows i with _ | x
        · simp only [aConstruct, hx]; exact hheld
        rcases hy : w.rows o with _ | y
        · simp only [aConstruct, hx, hy]; exact hheld
        obtain ⟨_, -, -, -, -, -, -, -, -, -, -, -, -, h13⟩ := construct_spec env w hw.fresh kind i o c b n x y hx hy
        rw [h13]; exact hheld
      | setPolynomialChaosResult l =>
        refine ⟨step_heap env w hw _ a hlt (by simp) (by simp), ?_⟩
        simp only [aStep]; split <;> [split <;> exact hheld; exact hheld]
      | setDistribution l b =>
        refine ⟨step_heap env w hw _ a hlt (by simp) (by simp), ?_⟩
        simp only [aStep]; split <;> exact hheld
      | getInputDOE l =>
        have hl : l ≠ k := fun h => hni (h ▸ rfl)
        refine ⟨step_heap env w hw _ a hlt (by simp) (by simp), ?_⟩
        simp only [aStep]
        split
        · rename_i q hq
          split
          · intro h
            rcases List.mem_cons.1 h with h | h
            · exact (hap l q hl hq).1 h
            · exact hheld h
          · exact hheld
        · exact hheld
      | getOutputDOE l =>
        have hl : l ≠ k := fun h => hno (h ▸ rfl)
        refine ⟨step_heap env w hw _ a hlt (by simp) (by simp), ?_⟩
        simp only [aStep]
        split
        · rename_i q hq
          split
          · simp only [aOutputDOE]
            split
            · split
              · intro h
                rcases List.mem_cons.1 h with h | h
                · omega
                · exact hheld h
              · intro h
                rcases List.mem_cons.1 h with h | h
                · exact (hap l q hl hq).2 h
                · exact hheld h
            · intro h
              rcases List.mem_cons.1 h with h | h
              · exact (hap l q hl hq).2 h
              · exact hheld h
          · exact hheld
        · exact hheld
      | getDistribution l =>
        refine ⟨step_heap env w hw _ a hlt (by simp) (by simp), ?_⟩
        simp only [aStep]
        split
        · rename_i q hq
          split
          · rename_i d' hd'
            intro h
            rcases List.mem_cons.1 h with h | h
            · exact (hw.dist l q d' hq hd').2 x d (h ▸ hx)
            · exact hheld h
          · exact hheld
        · exact hheld
    have hlen : ∃ p1, (aStep env w op).pods[k]? = some p1 := by
      have : k < (aStep env w op).pods.length := by
        cases op with
        | run l =>
          by_contra hc
          have h0 := (run_spec env w hw l).2.2.2.2.1 k fun h => hnr (h ▸ rfl)
          have h3 : (aRun env w l).pods[k]? = none := List.getElem?_eq_none (by change ¬ k < (aRun env w l).pods.length at hc; omega)
          rw [h3, hp] at h0; cases h0
        | make o => exact hk
        | write b o =>
          simp only [aStep]
          split
          · split <;> exact hk
          · exact hk
        | construct kind i o c b n =>
          simp only [aStep]
          rcases hx : w.rows i with _ | x
          · simp only [aConstruct, hx]; exact hk
          rcases hy : w.rows o with _ | y
          · simp only [aConstruct, hx, hy]; exact hk
          obtain ⟨_, h, -⟩ := construct_spec env w hw.fresh kind i o c b n x y hx hy
          rw [h, List.length_append]; omega
        | setPolynomialChaosResult l => simp only [aStep]; split <;> [split; skip] <;> simp [AWorld.setPod, hk]
        | setDistribution l b => simp only [aStep]; split <;> simp [AWorld.setPod, hk]
        | getInputDOE l => simp only [aStep]; split <;> [split <;> exact hk; exact hk]
        | getOutputDOE l =>
          simp only [aStep]
          split
          · split
            · simp only [aOutputDOE]
              split
              · split <;> exact hk
              · exact hk
            · exact hk
          · exact hk
        | getDistribution l => simp only [aStep]; split <;> [split <;> exact hk; exact hk]
      exact ⟨_, List.getElem?_eq_getElem this⟩
    obtain ⟨p1, hp1⟩ := hlen
    have hsame : p1.input = p.input ∧ p1.signals = p.signals := by
      rcases step_pods env w hw op k p1 hp1 with ⟨q, e1, -, -, e2, e3⟩ | ⟨-, -, e⟩
      · rw [hp, Option.some.injEq] at e1
        exact ⟨e1 ▸ e2, e1 ▸ e3⟩
      · exact absurd (e hk) hnr
    obtain ⟨m1, m2⟩ := hmine p.input (Or.inl rfl)
    obtain ⟨m3, m4⟩ := hmine p.signals (Or.inr rfl)
    obtain ⟨p', g1, g2, g3, g4, g5⟩ := ih (aStep env w op) (step_inv env w hw op) p1 hp1 (hsame.1 ▸ m2) (hsame.2 ▸ m4) hops'
    exact ⟨p', g1, g2.trans hsame.1, g3.trans hsame.2, by rw [← hsame.1]; exact g4.trans (by rw [hsame.1]; exact m1),
      by rw [← hsame.2]; exact g5.trans (by rw [hsame.2]; exact m3)⟩

/-- **C192, the other direction: the library works on copies.**  After a constructor, and until this object is run or asked for its design, nothing
that the caller or the other objects do changes the data of the object, in particular not writing into the samples that were passed. -/
theorem C192_copies_partial (env : AEnv R L) (ops ops' : List (AOp R L)) (kind : AKind) (i o : ℕ) (c b n : Bool) (x y : List R)
    (hx : (aRunOps env aEmpty ops).rows i = some x) (hy : (aRunOps env aEmpty ops).rows o = some y)
    (hops : let k := (aRunOps env aEmpty ops).pods.length
      AOp.run k ∉ ops' ∧ AOp.getInputDOE k ∉ ops' ∧ AOp.getOutputDOE k ∉ ops') :
    let w := aStep env (aRunOps env aEmpty ops) (.construct kind i o c b n)
    let k := (aRunOps env aEmpty ops).pods.length
    ∃ p p', w.pods[k]? = some p ∧ (aRunOps env w ops').pods[k]? = some p' ∧
      (aRunOps env w ops').rows p'.input = some (if c then env.filterIn x y else x) ∧ (aRunOps env w ops').rows p'.signals = w.rows p.signals := by
  have hw := ops_inv env ops aEmpty empty_inv
  set w0 := aRunOps env aEmpty ops
  intro w k
  obtain ⟨p, h1, h2, h3, h4, h5, h6, h7, h8, h9, h10, h11, h12, h13⟩ := construct_spec env w0 hw.fresh kind i o c b n x y hx hy
  have hwi : AInv w := step_inv env w0 hw _
  have hpk : w.pods[k]? = some p := by
    change (aConstruct env w0 kind i o c b n).pods[k]? = some p
    rw [h1, List.getElem?_concat_length]
  have hnot : ∀ a, w0.next ≤ a → a ∉ w.held := by
    intro a ha h
    have h' : a ∈ (aConstruct env w0 kind i o c b n).held := h
    rw [h13] at h'
    have := hw.held a h'
    omega
  obtain ⟨p', g1, g2, g3, g4, g5⟩ := isolated env ops' w hwi k p hpk (hnot _ h9.1) (hnot _ h10.1) hops
  refine ⟨p, p', hpk, g1, ?_, ?_⟩
  · rw [AWorld.rows, g2, g4, show w.heap p.input = _ from h9.2.2]
  · rw [AWorld.rows, AWorld.rows, g3, g5]

/-! ## C193 -/

/-- **C193 is violated.**  After every history, the design returned by `getInputDOE` of an adaptive signal POD is the object the next run writes into: the
sample the caller holds grows with the run, and so does the one of `getOutputDOE` without Box-Cox. Conversely what the caller writes into it is the
design of the next run. -/
theorem C193_violated (env : AEnv R L) (ops : List (AOp R L)) (k : ℕ) (p : APod) (hp : (aRunOps env aEmpty ops).pods[k]? = some p) (hk : p.kind = .signal)
    (x y : List R) (dx dy : List String) (hx : (aRunOps env aEmpty ops).heap p.input = some (.sample x dx))
    (hy : (aRunOps env aEmpty ops).heap p.signals = some (.sample y dy)) :
    p.input ∈ (aRunOps env aEmpty (ops ++ [.getInputDOE k])).held ∧
    (aRunOps env aEmpty (ops ++ [.getInputDOE k])).heap p.input = some (.sample x dx) ∧
    (aRunOps env aEmpty (ops ++ [.getInputDOE k, .run k])).heap p.input = some (.sample (x ++ env.addedIn x y) dx) ∧
    (p.boxCox = false → p.signals ∈ (aRunOps env aEmpty (ops ++ [.getOutputDOE k])).held ∧
      (aRunOps env aEmpty (ops ++ [.getOutputDOE k, .run k])).heap p.signals = some (.sample (y ++ env.addedOut x y) dy)) ∧
    (∀ x' d', (aRunOps env aEmpty (ops ++ [.getInputDOE k, .write p.input (.sample x' d'), .run k])).heap p.input
      = some (.sample (x' ++ env.addedIn x' y) d')) := by
  have hw := ops_inv env ops aEmpty empty_inv
  simp only [aRunOps, List.foldl_append, List.foldl_cons, List.foldl_nil] at *
  set w := List.foldl (aStep env) aEmpty ops with hwd
  have hne := hw.differ k p hp
  have hi1 := (hw.input k p hp).1
  have hs1 := (hw.signals k p hp).1
  -- a run of this object, from a world with the same objects
  have hrun : ∀ w' : AWorld R L, w'.pods[k]? = some p → ∀ x dx y dy, w'.heap p.input = some (.sample x dx) →
      w'.heap p.signals = some (.sample y dy) → (aRun env w' k).heap p.input = some (.sample (x ++ env.addedIn x y) dx) ∧
      (aRun env w' k).heap p.signals = some (.sample (y ++ env.addedOut x y) dy) := by
    intro w' hp' x dx y dy hx hy
    simp only [aRun, hp', hx, hy, hk]
    refine ⟨?_, ?_⟩
    · rw [put_heap, if_neg hne, put_heap, if_pos rfl]
    · rw [put_heap, if_pos rfl]
  have e1 : aStep env w (.getInputDOE k) = { w with held := p.input :: w.held } := by
    simp only [aStep, hp, hk]; simp
  refine ⟨by rw [e1]; exact List.mem_cons_self, by rw [e1]; exact hx, ?_, fun hb => ?_, fun x' d' => ?_⟩
  · rw [e1]; exact (hrun { w with held := p.input :: w.held } hp x dx y dy hx hy).1
  · have e2 : aStep env w (.getOutputDOE k) = { w with held := p.signals :: w.held } := by
      simp only [aStep, hp, hk, aOutputDOE, hb]; simp
    rw [e2]
    exact ⟨List.mem_cons_self, (hrun { w with held := p.signals :: w.held } hp x dx y dy hx hy).2⟩
  · rw [e1]
    have e3 : aStep env { w with held := p.input :: w.held } (.write p.input (.sample x' d'))
        = ({ w with held := p.input :: w.held } : AWorld R L).put p.input (.sample x' d') := by
      simp only [aStep]
      rw [if_pos List.mem_cons_self, hx]
    rw [e3]
    refine (hrun (({ w with held := p.input :: w.held } : AWorld R L).put p.input (.sample x' d')) hp x' d' y dy ?_ ?_).1
    · rw [put_heap, if_pos rfl]
    · rw [put_heap, if_neg hne.symm]; exact hy

/-- **C193, restricted: hit-miss.**  The input design returned by an adaptive hit-miss POD does not change any more, whatever is run afterwards, unless the
caller writes into it. Missing: the adaptive signal POD. -/
theorem C193_hitmiss_partial (env : AEnv R L) (ops ops' : List (AOp R L)) (k : ℕ) (p : APod) (hp : (aRunOps env aEmpty ops).pods[k]? = some p)
    (hk : p.kind = .hitMiss) (x : List R) (dx : List String) (hx : (aRunOps env aEmpty ops).heap p.input = some (.sample x dx))
    (hops : ∀ o, AOp.write p.input o ∉ ops') :
    (aRunOps env (aStep env (aRunOps env aEmpty ops) (.getInputDOE k)) ops').heap p.input = some (.sample x dx) := by
  have hw := ops_inv env ops aEmpty empty_inv
  set w := aRunOps env aEmpty ops
  have e1 : aStep env w (.getInputDOE k) = { w with held := p.input :: w.held } := by
    simp only [aStep, hp, hk]; simp
  refine settled env ops' _ (step_inv env w hw _) p.input x dx (by rw [e1]; exact hx) (fun l q hq hql => ?_) hops
  rw [e1] at hq
  have hl : k ≠ l := fun h => by
    subst h
    rw [show w.pods[k]? = some q from hq, Option.some.injEq] at hp
    rw [hp, hk] at hql; cases hql
  exact ⟨(hw.apart k l p q hp hq hl).1, (hw.apart k l p q hp hq hl).2.1⟩

/-- **C193, restricted: Box-Cox.**  With Box-Cox the signals returned by `getOutputDOE` are a new object holding the inverse transform of the current
signals; it does not change any more unless the caller writes into it. Missing: without Box-Cox. -/
theorem C193_boxcox_partial (env : AEnv R L) (ops ops' : List (AOp R L)) (k : ℕ) (p : APod) (hp : (aRunOps env aEmpty ops).pods[k]? = some p)
    (hk : p.kind = .signal ∨ p.kind = .hitMiss) (hb : p.boxCox = true) (y : List R) (dy : List String)
    (hy : (aRunOps env aEmpty ops).heap p.signals = some (.sample y dy)) :
    let w := aStep env (aRunOps env aEmpty ops) (.getOutputDOE k)
    ∃ a, a ∈ w.held ∧ ((∀ o, AOp.write a o ∉ ops') → (aRunOps env w ops').rows a = some (env.inverse y)) := by
  have hw := ops_inv env ops aEmpty empty_inv
  set w0 := aRunOps env aEmpty ops
  intro w
  have e1 : w = { w0.alloc (.sample (env.inverse y) (env.names y)) with held := w0.next :: w0.held } := by
    simp only [w, aStep, hp, hk, aOutputDOE, hb, AWorld.rows, hy, if_true]
    rfl
  refine ⟨w0.next, by rw [e1]; exact List.mem_cons_self, fun hops => ?_⟩
  have h := settled env ops' w (step_inv env w0 hw _) w0.next (env.inverse y) (env.names y)
    (by rw [e1]; exact (alloc_heap w0 _ _).trans (if_pos rfl)) (fun l q hq _ => ?_) hops
  · rw [AWorld.rows, h]
  · rw [e1] at hq
    have hq' : w0.pods[l]? = some q := hq
    exact ⟨(hw.input l q hq').1.ne', (hw.signals l q hq').1.ne'⟩

/-! ## Examples -/

/-- A numerical content with rows that are numbers. -/
def aSample : AEnv ℕ Bool where
  filterIn x _ := x.drop 1
  filterOut _ y := y.drop 1
  transform := List.map (· + 1)
  inverse := List.map (· - 1)
  labels := List.map (min 1)
  addedIn _ _ := [7]
  addedOut _ _ := [8]
  defaultLaw _ := true
  names _ := ["v0"]

/-- The caller's names are lost. -/
example : (aRunOps aSample aEmpty [.make (.sample [1, 2] ["a"]), .make (.sample [3, 4] ["s"]), .make (.law false ["flaw"]),
    .construct .chaos 0 1 false false false, .setDistribution 0 2, .run 0]).heap 2 = some (.law false ["v0"]) := rfl

/-- Writing into the passed sample after the construction does not change the design. -/
example : (aRunOps aSample aEmpty [.make (.sample [1, 2] ["a"]), .make (.sample [3, 4] ["s"]), .construct .signal 0 1 false false false,
    .write 0 (.sample [] ["a"]), .getInputDOE 0, .run 0]).heap 2 = some (.sample [1, 2, 7] ["v0"]) := rfl

/-- The design held by the caller before the run, after it. -/
example : (aRunOps aSample aEmpty ([.make (.sample [1, 2] ["a"]), .make (.sample [3, 4] ["s"]), .construct .signal 0 1 true true false] ++
    [.getInputDOE 0, .run 0])).heap 4 = some (.sample [2, 7] ["v0"]) :=
  (C193_violated aSample _ 0 ⟨.signal, 2, 3, 4, 6, none, true, false⟩ rfl rfl [2] [5] ["v0"] ["v0"] rfl rfl).2.2.1

/-- The signals of a hit-miss POD with Box-Cox. -/
example := C193_boxcox_partial aSample [.make (.sample [1, 2] ["a"]), .make (.sample [3, 4] ["s"]), .construct .hitMiss 0 1 false true true] [.run 0] 0
  ⟨.hitMiss, 2, 3, 2, 5, none, true, false⟩ rfl (Or.inr rfl) rfl [1, 1] ["v0"] rfl

end Verif.Props
