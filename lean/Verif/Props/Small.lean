import Verif.Model.Small
import Mathlib.Data.Nat.Factorization.Basic
import Mathlib.Tactic.FieldSimp
import Mathlib.Tactic.Positivity

/-!
# C76, C78, C79: progress bar, inherited documentation, type-checked setters
-/

namespace Verif.Props
open Verif.Py Verif.Model

/-! ## C76 -/

/-- Something is written by the call. -/
def Prints (i nIter nFlush barLength : ℕ) : Prop := ∃ b, updateProgress i nIter nFlush barLength = .ok (some b)

theorem nFlush_eq {nIter nFlush : ℕ} : (if nIter < nFlush then nIter else nFlush) = min nFlush nIter := by
  split_ifs <;> omega

/-- The step between two updates. -/
theorem everyCheck_spec {nIter nFlush : ℕ} (hn : 1 ≤ nIter) (hf : 1 ≤ nFlush) :
    1 ≤ pyRound ((nIter : ℝ) / (min nFlush nIter : ℕ)) ∧
    |(pyRound ((nIter : ℝ) / (min nFlush nIter : ℕ)) : ℝ) - (nIter : ℝ) / (min nFlush nIter : ℕ)| ≤ 1 / 2 := by
  refine ⟨pyRound_ge ?_, pyRound_abs _⟩
  have h : 1 ≤ min nFlush nIter := by omega
  have h1 : (0 : ℝ) < (min nFlush nIter : ℕ) := by exact_mod_cast h
  rw [le_div_iff₀ h1]
  have : min nFlush nIter ≤ nIter := by omega
  push_cast; rw [one_mul]; exact_mod_cast this

theorem updateProgress_eq {nIter nFlush : ℕ} (hn : 1 ≤ nIter) (hf : 1 ≤ nFlush) (i L : ℕ) (hi : i < nIter) :
    updateProgress i nIter nFlush L =
      if ((i : ℤ) + 1) % pyRound ((nIter : ℝ) / (min nFlush nIter : ℕ)) = 0 ∨ i + 1 = nIter then
        .ok (some ⟨pyRound (L * (((i : ℝ) + 1) / nIter)), L - pyRound (L * (((i : ℝ) + 1) / nIter)),
          ((i : ℝ) + 1) / nIter * 100, decide (i + 1 = nIter)⟩)
      else .ok none := by
  have hec := (everyCheck_spec hn hf).1
  have h0 : min nFlush nIter ≠ 0 := by omega
  have hnp : (0 : ℝ) < nIter := by exact_mod_cast hn
  have hle : ((i : ℝ) + 1) / nIter ≤ 1 := by
    rw [div_le_one hnp]; exact_mod_cast hi
  have hge : 0 ≤ ((i : ℝ) + 1) / nIter := by positivity
  have hp : (if (1 : ℝ) ≤ ((i : ℝ) + 1) / nIter then (1 : ℝ) else ((i : ℝ) + 1) / nIter) = ((i : ℝ) + 1) / nIter := by
    split_ifs with h
    · exact le_antisymm h hle
    · rfl
  have hd : ((1 : ℝ) ≤ ((i : ℝ) + 1) / nIter) ↔ i + 1 = nIter := by
    rw [le_div_iff₀ hnp, one_mul]
    constructor
    · intro h
      have : nIter ≤ i + 1 := by exact_mod_cast h
      omega
    · intro h; rw [← h]; push_cast; exact le_rfl
  have hb0 : 0 ≤ pyRound (L * (((i : ℝ) + 1) / nIter)) := pyRound_ge (by push_cast; positivity)
  have hb1 : pyRound (L * (((i : ℝ) + 1) / nIter)) ≤ L := pyRound_le (by
    push_cast
    exact mul_le_of_le_one_right (by positivity) hle)
  unfold updateProgress
  dsimp only
  rw [nFlush_eq, if_neg h0, if_neg (by omega)]
  congr 1
  rw [hp]
  simp only [hd]
  rw [max_eq_left hb0, max_eq_left (by omega)]

/-- **C76, one call.**  For every `nIter`, every `nFlush ≥ 1`, bar length and step `i < nIter`: the call returns; whatever it
writes has a bar of exactly `barLength` characters and the percentage `100 (i+1) / nIter`, at most 100; `Done` is written
exactly at the last step. -/
theorem C76_text (i nIter nFlush L : ℕ) (hf : 1 ≤ nFlush) (hi : i < nIter) :
    (∃ r, updateProgress i nIter nFlush L = .ok r) ∧
    ∀ b, updateProgress i nIter nFlush L = .ok (some b) →
      b.filled + b.empty = L ∧ 0 ≤ b.filled ∧ 0 ≤ b.empty ∧ b.percent = 100 * (i + 1) / nIter ∧
      0 < b.percent ∧ b.percent ≤ 100 ∧ (b.done = true ↔ i + 1 = nIter) := by
  have hn : 1 ≤ nIter := by omega
  have hnp : (0 : ℝ) < nIter := by exact_mod_cast hn
  have hle : ((i : ℝ) + 1) / nIter ≤ 1 := by
    rw [div_le_one hnp]; exact_mod_cast hi
  have hb0 : 0 ≤ pyRound (L * (((i : ℝ) + 1) / nIter)) := pyRound_ge (by push_cast; positivity)
  have hb1 : pyRound (L * (((i : ℝ) + 1) / nIter)) ≤ L := pyRound_le (by
    push_cast
    exact mul_le_of_le_one_right (by positivity) hle)
  rw [updateProgress_eq hn hf i L hi]
  constructor
  · split_ifs <;> exact ⟨_, rfl⟩
  · intro b hb
    split_ifs at hb with h
    · rw [Except.ok.injEq, Option.some.injEq] at hb
      subst hb
      refine ⟨by dsimp only; omega, hb0, by dsimp only; omega, by dsimp only; ring, by positivity, by dsimp only; linarith, by simp⟩
    · simp at hb

/-- **C76, last call.**  The last step always writes a full bar, 100% and `Done`. -/
theorem C76_last (nIter nFlush L : ℕ) (hf : 1 ≤ nFlush) (hn : 1 ≤ nIter) :
    updateProgress (nIter - 1) nIter nFlush L = .ok (some ⟨L, 0, 100, true⟩) := by
  rw [updateProgress_eq hn hf _ L (by omega), if_pos (Or.inr (by omega))]
  have hnp : (nIter : ℝ) ≠ 0 := by have : 0 < nIter := hn; positivity
  have h1 : (((nIter - 1 : ℕ) : ℝ) + 1) / nIter = 1 := by
    rw [Nat.cast_sub hn]; push_cast; field_simp; ring
  have h2 : pyRound ((L : ℝ) * 1) = L := by rw [mul_one]; exact_mod_cast pyRound_int (L : ℤ)
  rw [h1, h2]
  simp
  omega

/-- **C76, steps.**  There is a step `e ≥ 1`, at distance at most 1/2 from `nIter / min nFlush nIter`, such that exactly the
multiples of `e` and the last call write. -/
theorem C76_steps (nIter nFlush L : ℕ) (hf : 1 ≤ nFlush) (hn : 1 ≤ nIter) :
    ∃ e : ℕ, 1 ≤ e ∧ |(e : ℝ) - (nIter : ℝ) / (min nFlush nIter : ℕ)| ≤ 1 / 2 ∧
      ∀ i, i < nIter → (Prints i nIter nFlush L ↔ e ∣ i + 1 ∨ i + 1 = nIter) := by
  obtain ⟨h1, h2⟩ := everyCheck_spec hn hf
  obtain ⟨e, he⟩ := Int.eq_ofNat_of_zero_le (le_trans zero_le_one h1)
  rw [he] at h1 h2
  refine ⟨e, by exact_mod_cast h1, by exact_mod_cast h2, ?_⟩
  intro i hi
  unfold Prints
  rw [updateProgress_eq hn hf i L hi, he]
  have hdvd : ((i : ℤ) + 1) % (e : ℤ) = 0 ↔ e ∣ i + 1 := by
    rw [← Int.dvd_iff_emod_eq_zero]
    exact_mod_cast Int.natCast_dvd_natCast (m := e) (n := i + 1)
  simp only [hdvd]
  split_ifs with h
  · exact ⟨fun _ => h, fun _ => ⟨_, rfl⟩⟩
  · simp [h]

open scoped Classical in
/-- **C76, number of updates.**  A loop over all the steps writes at least once and at most `1.5 nFlush + 1` times. -/
theorem C76_count (nIter nFlush L : ℕ) (hf : 1 ≤ nFlush) (hn : 1 ≤ nIter) :
    let written := ((Finset.range nIter).filter fun i => Prints i nIter nFlush L).card
    1 ≤ written ∧ (written : ℝ) ≤ 3 / 2 * nFlush + 1 := by
  intro written
  obtain ⟨e, he, hd, hp⟩ := C76_steps nIter nFlush L hf hn
  constructor
  · apply Finset.card_pos.mpr
    exact ⟨nIter - 1, Finset.mem_filter.mpr ⟨Finset.mem_range.mpr (by omega), (hp _ (by omega)).mpr (Or.inr (by omega))⟩⟩
  · have hsub : ((Finset.range nIter).filter fun i => Prints i nIter nFlush L) ⊆
        insert (nIter - 1) ((Finset.range nIter).filter fun i => e ∣ i + 1) := by
      intro i hi
      obtain ⟨h1, h2⟩ := Finset.mem_filter.mp hi
      have h1' := Finset.mem_range.mp h1
      rcases (hp i h1').mp h2 with h | h
      · exact Finset.mem_insert_of_mem (Finset.mem_filter.mpr ⟨h1, h⟩)
      · rw [Finset.mem_insert]; left; omega
    have hcard : written ≤ nIter / e + 1 := by
      refine (Finset.card_le_card hsub).trans ((Finset.card_insert_le _ _).trans ?_)
      rw [Nat.card_multiples]
    have hm : (0 : ℝ) < (min nFlush nIter : ℕ) := by
      have : 1 ≤ min nFlush nIter := by omega
      exact_mod_cast this
    have hm2 : ((min nFlush nIter : ℕ) : ℝ) ≤ nFlush := by
      have : min nFlush nIter ≤ nFlush := by omega
      exact_mod_cast this
    have he' : (1 : ℝ) ≤ e := by exact_mod_cast he
    have hr : (nIter : ℝ) / (min nFlush nIter : ℕ) ≤ e + 1 / 2 := by
      have := (abs_le.mp hd).1; linarith
    rw [div_le_iff₀ hm] at hr
    have hdiv : ((nIter / e : ℕ) : ℝ) ≤ 3 / 2 * nFlush := by
      have h1 : ((nIter / e : ℕ) : ℝ) * e ≤ nIter := by exact_mod_cast Nat.div_mul_le_self nIter e
      have h2 : ((nIter / e : ℕ) : ℝ) * e ≤ 3 / 2 * nFlush * e := by nlinarith
      exact le_of_mul_le_mul_right h2 (by linarith)
    have : (written : ℝ) ≤ ((nIter / e + 1 : ℕ) : ℝ) := by exact_mod_cast hcard
    push_cast at this
    linarith

/-- With no iteration at all the division by zero is not avoided (the documented range is `1 ≤ nIter`). -/
theorem C76_no_iteration (i nFlush L : ℕ) : Raises (updateProgress i 0 nFlush L) .zeroDivision := by
  unfold updateProgress
  dsimp only
  rw [nFlush_eq, if_pos (by omega)]
  exact ⟨_, rfl⟩

example : (1 : ℕ) ≤ 50 ∧ 9 < 1000 := by decide

/-! ## C78 -/

theorem firstDoc_spec (doc : ℕ → Option String) (l : List ℕ) (d : String) :
    firstDoc doc l = some d ↔ ∃ pre c post, l = pre ++ c :: post ∧ (∀ a ∈ pre, doc a = none) ∧ doc c = some d := by
  induction l with
  | nil => simp [firstDoc]
  | cons a l ih =>
    rw [firstDoc]
    cases ha : doc a with
    | some d' =>
      simp only [Option.some.injEq]
      constructor
      · rintro rfl; exact ⟨[], a, l, rfl, by simp, ha⟩
      · rintro ⟨pre, c, post, h, hpre, hc⟩
        cases pre with
        | nil => simp at h; rw [← h.1, ha] at hc; simpa using hc
        | cons b pre =>
          simp at h
          have := hpre b List.mem_cons_self
          rw [← h.1, ha] at this; simp at this
    | none =>
      simp only
      rw [ih]
      constructor
      · rintro ⟨pre, c, post, h, hpre, hc⟩
        refine ⟨a :: pre, c, post, by simp [h], ?_, hc⟩
        intro b hb
        rcases List.mem_cons.mp hb with rfl | hb
        · exact ha
        · exact hpre b hb
      · rintro ⟨pre, c, post, h, hpre, hc⟩
        cases pre with
        | nil => simp at h; rw [← h.1, ha] at hc; simp at hc
        | cons b pre =>
          simp at h
          exact ⟨pre, c, post, h.2, fun x hx => hpre x (List.mem_cons_of_mem _ hx), hc⟩

theorem firstDoc_none (doc : ℕ → Option String) (l : List ℕ) : firstDoc doc l = none ↔ ∀ c ∈ l, doc c = none := by
  induction l with
  | nil => simp [firstDoc]
  | cons a l ih =>
    rw [firstDoc]
    cases ha : doc a with
    | some d => simp [ha]
    | none => simp [ha, ih]

/-- **C78, instances.**  For every hierarchy: through an instance, the docstring is that of the first class after the class
of the object, in method resolution order, which defines the underscored method; NameError iff there is none. -/
theorem C78_instance (h : Hierarchy) (c : ℕ) :
    (∀ d, docWithInst h c = .ok d ↔
      ∃ pre p post, (h.mro c).tail = pre ++ p :: post ∧ (∀ a ∈ pre, h.doc a = none) ∧ h.doc p = some d) ∧
    (Raises (docWithInst h c) .nameError ↔ ∀ p ∈ (h.mro c).tail, h.doc p = none) := by
  unfold docWithInst superAttr
  constructor
  · intro d
    rw [← firstDoc_spec]
    cases firstDoc h.doc (h.mro c).tail <;> simp [useParentDoc]
  · rw [← firstDoc_none]
    cases firstDoc h.doc (h.mro c).tail <;> simp [useParentDoc, Raises]

/-- A well formed hierarchy: each class starts its own resolution order, and the resolution order of a parent is a
sublist of that of the class (monotonicity of C3). -/
def WellFormed (h : Hierarchy) : Prop :=
  (∀ c, ∃ l, h.mro c = c :: l) ∧ ∀ c, ∀ p ∈ h.mro c, (h.mro p).Sublist (h.mro c)

theorem docLoop_none {h : Hierarchy} {l : List ℕ} : docLoop h l = none ↔ ∀ p ∈ l, classAttr h p = none := by
  induction l with
  | nil => simp [docLoop]
  | cons a l ih =>
    rw [docLoop]
    cases ha : classAttr h a <;> simp [ha, ih]

/-- **C78, classes (restricted): existence.**  In every well formed hierarchy without repetition in resolution orders,
access through the class raises NameError iff no parent defines the method, and otherwise gives the docstring of some
parent. -/
theorem C78_class_exists_partial (h : Hierarchy) (hw : WellFormed h) (c : ℕ) (hnd : (h.mro c).Nodup) :
    (Raises (docNoInst h c) .nameError ↔ ∀ p ∈ (h.mro c).tail, h.doc p = none) ∧
    (∀ d, docNoInst h c = .ok d → ∃ p ∈ (h.mro c).tail, h.doc p = some d) := by
  obtain ⟨l, hl⟩ := hw.1 c
  have hc : c ∉ l := by rw [hl] at hnd; exact (List.nodup_cons.mp hnd).1
  have hsub : ∀ p ∈ l, ∀ q ∈ h.mro p, q ∈ l := by
    intro p hp q hq
    have hs := hw.2 c p (by rw [hl]; exact List.mem_cons_of_mem _ hp)
    have hq' := hs.subset hq
    rw [hl] at hq'
    rcases List.mem_cons.mp hq' with rfl | hq'
    · exfalso
      -- then `c` occurs in the order of its parent `p`, so the two orders have the same length
      have h1 := hw.2 p q hq
      have h2 := hs.antisymm h1
      obtain ⟨l', hl'⟩ := hw.1 p
      rw [hl, hl'] at h2
      have : p = q := (List.cons.inj h2).1
      exact hc (this ▸ hp)
    · exact hq'
  have hself : ∀ p, p ∈ h.mro p := fun p => by obtain ⟨l', hl'⟩ := hw.1 p; rw [hl']; exact List.mem_cons_self
  rw [docNoInst, hl, List.tail_cons]
  constructor
  · have : docLoop h l = none ↔ ∀ p ∈ l, h.doc p = none := by
      rw [docLoop_none]
      constructor
      · intro hh p hp
        exact (firstDoc_none _ _).mp (hh p hp) p (hself p)
      · intro hh p hp
        exact (firstDoc_none _ _).mpr fun q hq => hh q (hsub p hp q hq)
    rw [← this]
    cases docLoop h l <;> simp [useParentDoc, Raises]
  · intro d hd
    have hd' : docLoop h l = some d := by
      revert hd; cases docLoop h l <;> simp [useParentDoc]
    clear hd
    have gen : ∀ l', (∀ p ∈ l', p ∈ l) → docLoop h l' = some d → ∃ p ∈ l, h.doc p = some d := by
      intro l'
      induction l' with
      | nil => intro _ hx; simp [docLoop] at hx
      | cons a l' ih =>
        intro hm hx
        rw [docLoop] at hx
        cases ha : classAttr h a with
        | none => rw [ha] at hx; exact ih (fun p hp => hm p (List.mem_cons_of_mem _ hp)) hx
        | some d' =>
          rw [ha] at hx
          simp only [Option.some.injEq] at hx
          subst hx
          obtain ⟨pre, q, post, hq, -, hqd⟩ := (firstDoc_spec _ _ _).mp ha
          exact ⟨q, hsub a (hm a List.mem_cons_self) q (by rw [hq]; simp), hqd⟩
    exact gen l (fun _ hp => hp) hd'

/-- **C78, classes (restricted): agreement.**  When the resolution order of every parent is the rest of that of the class
(single inheritance), access through the class and through an instance agree. -/
theorem C78_single_inheritance_partial (h : Hierarchy) (c : ℕ)
    (hsuf : ∀ pre p post, (h.mro c).tail = pre ++ p :: post → h.mro p = p :: post) :
    docNoInst h c = docWithInst h c := by
  unfold docNoInst docWithInst superAttr
  congr 1
  generalize (h.mro c).tail = l at hsuf
  cases l with
  | nil => rfl
  | cons a l =>
    have hall : ∀ pre p post, a :: l = pre ++ p :: post → classAttr h p = firstDoc h.doc (p :: post) := by
      intro pre p post e; rw [classAttr, hsuf pre p post e]
    have gen : ∀ (l' pre : List ℕ), a :: l = pre ++ l' → docLoop h l' = firstDoc h.doc l' := by
      intro l'
      induction l' with
      | nil => intro _ _; rfl
      | cons b l' ih =>
        intro pre e
        rw [docLoop, hall pre b l' e]
        cases hf : firstDoc h.doc (b :: l') with
        | some d => rfl
        | none =>
          simp only
          rw [ih (pre ++ [b]) (by simp [e])]
          exact (firstDoc_none _ _).mpr fun x hx => (firstDoc_none _ _).mp hf x (List.mem_cons_of_mem _ hx)
    exact gen (a :: l) [] rfl

/-- The diamond `class 3(1, 2)`, `class 1(0)`, `class 2(0)`, with the method defined in `2` and in `0`. -/
def diamond : Hierarchy where
  mro := fun c => if c = 3 then [3, 1, 2, 0] else if c = 1 then [1, 0] else if c = 2 then [2, 0] else [c]
  doc := fun c => if c = 2 then some "of 2" else if c = 0 then some "of 0" else none

theorem diamond_wf : WellFormed diamond := by
  constructor
  · intro c; unfold diamond; dsimp only; split_ifs with h1 h2 h3
    · subst h1; exact ⟨_, rfl⟩
    · subst h2; exact ⟨_, rfl⟩
    · subst h3; exact ⟨_, rfl⟩
    · exact ⟨_, rfl⟩
  · intro c p hp
    by_cases h3 : c = 3
    · subst h3
      simp [diamond] at hp
      rcases hp with rfl | rfl | rfl | rfl <;> decide
    · by_cases h1 : c = 1
      · subst h1
        simp [diamond] at hp
        rcases hp with rfl | rfl <;> decide
      · by_cases h2 : c = 2
        · subst h2
          simp [diamond] at hp
          rcases hp with rfl | rfl <;> decide
        · simp [diamond, h1, h2, h3] at hp
          subst hp
          exact List.Sublist.refl _

/-- **C78 is violated** for access through the class under multiple inheritance: in a well formed diamond the instance shows
the docstring of the first defining parent, the class that of a later one. -/
theorem C78_violated : WellFormed diamond ∧ docWithInst diamond 3 = .ok "of 2" ∧ docNoInst diamond 3 = .ok "of 0" :=
  ⟨diamond_wf, by decide, by decide⟩

/-- The hierarchy of the package: `KrigingPOD(POD, KrigingBase)`, method defined in `POD`: both accesses agree. -/
example : (⟨fun c => if c = 3 then [3, 1, 2, 0] else [c, 0], fun c => if c = 1 then some "POD" else none⟩ : Hierarchy).mro 3
    = [3, 1, 2, 0] ∧
    docNoInst ⟨fun c => if c = 3 then [3, 1, 2, 0] else [c, 0], fun c => if c = 1 then some "POD" else none⟩ 3 = .ok "POD" := by
  decide

/-! ## C79 -/

/-- **C79, `setVerbose`.**  For every argument and state: a boolean is stored; anything else (also `0` and `1`) raises
TypeError and nothing changes. -/
theorem C79_setVerbose (v : PyVal) (s : Bool) :
    (∀ b, v = .bool b → setVerbose v s = (.ok (), b)) ∧
    ((∀ b, v ≠ .bool b) → Raises (setVerbose v s).1 .typeError ∧ (setVerbose v s).2 = s) := by
  cases v <;> simp [setVerbose, Raises]

/-- **C79, `setGraphActive`.** -/
theorem C79_setGraphActive (g d : PyVal) (p c : Option ℝ) (s : GraphAttrs) :
    ((setGraphActive g p c d s).1 = .ok () ↔ (∃ b, g = .bool b) ∧ (d = .none ∨ ∃ x, d = .str x)) ∧
    (∀ b, g = .bool b → d = .none → (setGraphActive g p c d s).2 = ⟨b, p, c, none⟩) ∧
    (∀ b x, g = .bool b → d = .str x → (setGraphActive g p c d s).2 = ⟨b, p, c, some x⟩) ∧
    ((setGraphActive g p c d s).1 ≠ .ok () →
      Raises (setGraphActive g p c d s).1 .typeError ∧ (setGraphActive g p c d s).2 = s) := by
  cases g <;> cases d <;> simp [setGraphActive, Raises]

/-- **C79, `setSensitivityMethod`.** -/
theorem C79_setSensitivityMethod (v : PyVal) (s : String) :
    (∀ m, v = .str m → m = "Saltelli" ∨ m = "Martinez" ∨ m = "Jansen" ∨ m = "MauntzKucherenko" →
      setSensitivityMethod v s = (.ok (), m)) ∧
    ((∀ m, v = .str m → m ≠ "Saltelli" ∧ m ≠ "Martinez" ∧ m ≠ "Jansen" ∧ m ≠ "MauntzKucherenko") →
      Raises (setSensitivityMethod v s).1 .attributeError ∧ (setSensitivityMethod v s).2 = s) := by
  cases v with
  | str m =>
    constructor
    · intro m' hm h
      cases hm
      rcases h with rfl | rfl | rfl | rfl <;> simp [setSensitivityMethod]
    · intro h
      obtain ⟨h1, h2, h3, h4⟩ := h m rfl
      simp [setSensitivityMethod, h1, h2, h3, h4, Raises]
  | _ => simp [setSensitivityMethod, Raises]

/-- **C79, `setDistribution`.**  POD classes store any joint distribution; the sensitivity classes store those of the right
dimension and raise AttributeError for another dimension; anything else raises ValueError; nothing changes on error. -/
theorem C79_setDistribution (dim : ℕ) (a : DistArg) (s : Option DistArg) :
    (∀ d i, a = .joint d i → setDistributionPOD a s = (.ok (), some a)) ∧
    (∀ v, a = .other v → Raises (setDistributionPOD a s).1 .valueError ∧ (setDistributionPOD a s).2 = s) ∧
    (∀ i, a = .joint dim i → setDistributionSens dim a s = (.ok (), some a)) ∧
    (∀ d i, a = .joint d i → d ≠ dim →
      Raises (setDistributionSens dim a s).1 .attributeError ∧ (setDistributionSens dim a s).2 = s) ∧
    (∀ v, a = .other v → Raises (setDistributionSens dim a s).1 .valueError ∧ (setDistributionSens dim a s).2 = s) := by
  cases a with
  | joint d i =>
    refine ⟨fun d' i' h => by cases h; rfl, by simp, ?_, ?_, by simp⟩
    · intro i' h; cases h; simp [setDistributionSens]
    · intro d' i' h hne; cases h; simp [setDistributionSens, hne, Raises]
  | other v => simp [setDistributionPOD, setDistributionSens, Raises]

example : (∀ b, PyVal.int 1 ≠ .bool b) ∧ (∀ m, PyVal.str "saltelli" = .str m → m ≠ "Saltelli") := by
  constructor
  · intro b h; cases h
  · intro m h; cases h; decide

end Verif.Props
