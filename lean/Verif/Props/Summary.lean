import Verif.Model.Summary
import Mathlib.Tactic.NormNum
import Mathlib.Tactic.Linarith
import Mathlib.Data.List.Induction

/-!
# C70, C71, C72, C87, C88, C89: `PODSummary`
-/

namespace Verif.Props
open Verif.Py Verif.Model

variable {O : Type}

/-! ## C70: activation, runs and getters -/

/-- The value a call writes into the flag of method `k`: only a boolean under an admissible key. -/
def setsTo (k : MethodKey) : SumOp O → Option Bool
  | .setActive m (.bool b) => if m = k.name then some b else none
  | _ => none

/-- The flag of `k` after a history: the last value written, `True` at the start. -/
def flagAfter (ops : List (SumOp O)) (k : MethodKey) : Bool := (ops.reverse.findSome? (setsTo k)).getD true

/-- The documented order of the methods. -/
def order : List MethodKey :=
  [.linearGauss, .linearBinomial, .linearKernelSmoothing, .quantileRegression, .polynomialChaos, .kriging]

/-- Active, and (for kriging) with more than one input column. -/
def Usable (flags : MethodKey → Bool) (dim : ℕ) (k : MethodKey) : Prop := flags k = true ∧ (k = .kriging → 1 < dim)

/-- The POD of `k` can be constructed and run. -/
def Fine (e : SumEnv O) (k : MethodKey) : Prop := (∃ o, e.make k = .ok o) ∧ e.exec k = .ok ()

/-- A call of `run` constructs the POD of `k`: nothing raised before. -/
def Built (e : SumEnv O) (flags : MethodKey → Bool) (dim : ℕ) (k : MethodKey) (o : O) : Prop :=
  (∃ an, e.analysis = .ok an) ∧ Usable flags dim k ∧ e.make k = .ok o ∧
    ∀ j, order.idxOf j < order.idxOf k → Usable flags dim j → Fine e j

/-- A call of `run` returns normally. -/
def Completes (e : SumEnv O) (flags : MethodKey → Bool) (dim : ℕ) : Prop :=
  (∃ an, e.analysis = .ok an) ∧ ∀ j, Usable flags dim j → Fine e j

/-- `o` was constructed for `k` by a run of the history, and no later run constructed another one. -/
def LastBuilt (dim : ℕ) (ops : List (SumOp O)) (k : MethodKey) (o : O) : Prop :=
  ∃ pre e post, ops = pre ++ .run e :: post ∧ Built e (flagAfter pre) dim k o ∧
    ∀ post₁ e' post₂, post = post₁ ++ .run e' :: post₂ → ∀ o', ¬ Built e' (flagAfter (pre ++ .run e :: post₁)) dim k o'

theorem flagAfter_snoc (ops : List (SumOp O)) (op : SumOp O) (k : MethodKey) :
    flagAfter (ops ++ [op]) k = (setsTo k op).getD (flagAfter ops k) := by
  unfold flagAfter
  rw [List.reverse_append, List.reverse_singleton, List.singleton_append, List.findSome?_cons]
  cases setsTo k op <;> rfl

theorem ofName_name (k : MethodKey) : MethodKey.ofName k.name = some k := by cases k <;> decide

theorem name_of_ofName {m : String} {k : MethodKey} (h : MethodKey.ofName m = some k) : m = k.name := by
  unfold MethodKey.ofName at h
  split_ifs at h <;> (cases h; assumption)

/-- The blocks of `run` in sequence. -/
def runList (e : SumEnv O) : List MethodKey → Summary O → Res Unit × Summary O
  | [], s => (.ok (), s)
  | k :: ks, s =>
    match runBlock e k (s.active k && decide (k = .kriging → 1 < s.dim)) s with
    | (.error err, s) => (.error err, s)
    | (.ok (), s) => runList e ks s

theorem runBlock_frame (e : SumEnv O) (k : MethodKey) (b : Bool) (s : Summary O) :
    (runBlock e k b s).2.active = s.active ∧ (runBlock e k b s).2.dim = s.dim ∧
      (runBlock e k b s).2.analysis = s.analysis := by
  unfold runBlock
  repeat' split
  all_goals exact ⟨rfl, rfl, rfl⟩

theorem summaryRun_eq (e : SumEnv O) (s : Summary O) :
    summaryRun e s = match e.analysis with
      | .error err => (.error err, s)
      | .ok an => runList e order { s with analysis := some an } := by
  unfold summaryRun
  cases e.analysis with
  | error err => rfl
  | ok an =>
    simp only [order, runList]
    simp only [reduceCtorEq, false_implies, decide_true, Bool.and_true, true_implies]
    repeat' split
    all_goals first
      | rfl
      | (simp_all [Bool.and_comm])

/-- `Built` along a list of methods. -/
def BuiltIn (e : SumEnv O) (fl : MethodKey → Bool) (dim : ℕ) : List MethodKey → MethodKey → O → Prop
  | [], _, _ => False
  | j :: ks, k, o =>
    (j = k ∧ Usable fl dim k ∧ e.make k = .ok o) ∨ (j ≠ k ∧ (Usable fl dim j → Fine e j) ∧ BuiltIn e fl dim ks k o)

theorem cond_iff (s : Summary O) (k : MethodKey) :
    (s.active k && decide (k = .kriging → 1 < s.dim)) = true ↔ Usable s.active s.dim k := by
  rw [Bool.and_eq_true, decide_eq_true_eq]; rfl

theorem runList_frame (e : SumEnv O) (ks : List MethodKey) (s : Summary O) :
    (runList e ks s).2.active = s.active ∧ (runList e ks s).2.dim = s.dim ∧
      (runList e ks s).2.analysis = s.analysis := by
  induction ks generalizing s with
  | nil => exact ⟨rfl, rfl, rfl⟩
  | cons k ks ih =>
    have hf := runBlock_frame e k (s.active k && decide (k = .kriging → 1 < s.dim)) s
    simp only [runList]
    split
    · rename_i err s' h; rw [h] at hf; exact hf
    · rename_i s' h; rw [h] at hf
      obtain ⟨h1, h2, h3⟩ := ih s'
      exact ⟨h1.trans hf.1, h2.trans hf.2.1, h3.trans hf.2.2⟩

theorem runBlock_other (e : SumEnv O) (k j : MethodKey) (b : Bool) (s : Summary O) (h : j ≠ k) :
    (runBlock e k b s).2.slot j = s.slot j := by
  unfold runBlock
  repeat' split
  all_goals simp [Function.update_of_ne h]

theorem runList_other (e : SumEnv O) (ks : List MethodKey) (s : Summary O) (j : MethodKey) (h : j ∉ ks) :
    (runList e ks s).2.slot j = s.slot j := by
  induction ks generalizing s with
  | nil => rfl
  | cons k ks ih =>
    rw [List.mem_cons, not_or] at h
    have hf := runBlock_other e k j (s.active k && decide (k = .kriging → 1 < s.dim)) s h.1
    simp only [runList]
    split
    · rename_i err s' h'; rw [h'] at hf; exact hf
    · rename_i s' h'; rw [h'] at hf; exact (ih s' h.2).trans hf

theorem runList_slot (e : SumEnv O) (ks : List MethodKey) (hnd : ks.Nodup) (s : Summary O) (k : MethodKey) :
    (∀ o, BuiltIn e s.active s.dim ks k o →
      ∃ b, (runList e ks s).2.slot k = some (o, b) ∧ (b = true ↔ e.exec k = .ok ())) ∧
    ((∀ o, ¬ BuiltIn e s.active s.dim ks k o) → (runList e ks s).2.slot k = s.slot k) := by
  induction ks generalizing s with
  | nil => exact ⟨fun o h => h.elim, fun _ => rfl⟩
  | cons j ks ih =>
    rw [List.nodup_cons] at hnd
    have hfr := runBlock_frame e j (s.active j && decide (j = .kriging → 1 < s.dim)) s
    by_cases hjk : j = k
    · subst hjk
      by_cases hu : Usable s.active s.dim j
      · have hc := (cond_iff s j).2 hu
        cases hm : e.make j with
        | error err =>
          refine ⟨?_, ?_⟩
          · rintro o (⟨-, -, h⟩ | ⟨h, -⟩)
            · rw [hm] at h; cases h
            · exact absurd rfl h
          · intro _
            simp only [runList, runBlock, hc, hm, if_true]
        | ok o =>
          have hres : ∃ b, (runList e (j :: ks) s).2.slot j = some (o, b) ∧ (b = true ↔ e.exec j = .ok ()) := by
            cases hx : e.exec j with
            | error err =>
              refine ⟨false, ?_, by simp⟩
              simp only [runList, runBlock, hc, hm, hx, if_true]
              simp
            | ok u =>
              refine ⟨true, ?_, by simp⟩
              simp only [runList, runBlock, hc, hm, hx, if_true]
              rw [runList_other _ _ _ _ hnd.1]
              simp
          refine ⟨?_, fun h => absurd (.inl ⟨rfl, hu, hm⟩) (h o)⟩
          rintro o' (⟨-, -, h⟩ | ⟨h, -⟩)
          · rw [hm] at h; cases h; exact hres
          · exact absurd rfl h
      · have hc : (s.active j && decide (j = .kriging → 1 < s.dim)) = false := by
          rw [← Bool.not_eq_true]; exact fun h => hu ((cond_iff s j).1 h)
        refine ⟨?_, ?_⟩
        · rintro o (⟨-, h, -⟩ | ⟨h, -⟩)
          · exact absurd h hu
          · exact absurd rfl h
        · intro _
          simp only [runList, runBlock, hc, Bool.false_eq_true, if_false]
          exact runList_other _ _ _ _ hnd.1
    · have hB : ∀ o, BuiltIn e s.active s.dim (j :: ks) k o ↔
          (Usable s.active s.dim j → Fine e j) ∧ BuiltIn e s.active s.dim ks k o := by
        intro o
        simp [BuiltIn, hjk]
      have hslot := runBlock_other e j k (s.active j && decide (j = .kriging → 1 < s.dim)) s (Ne.symm hjk)
      by_cases hu : Usable s.active s.dim j
      · have hc := (cond_iff s j).2 hu
        cases hm : e.make j with
        | error err =>
          have hnf : ¬ Fine e j := by rintro ⟨⟨o, ho⟩, -⟩; rw [hm] at ho; cases ho
          refine ⟨fun o h => absurd (((hB o).1 h).1 hu) hnf, fun _ => ?_⟩
          simp only [runList, runBlock, hc, hm, if_true]
        | ok o =>
          cases hx : e.exec j with
          | error err =>
            have hnf : ¬ Fine e j := by rintro ⟨-, h⟩; rw [hx] at h; cases h
            refine ⟨fun o h => absurd (((hB o).1 h).1 hu) hnf, fun _ => ?_⟩
            simp only [runList, runBlock, hc, hm, hx, if_true]
            simp [Function.update_of_ne (Ne.symm hjk)]
          | ok u =>
            have hf : Fine e j := ⟨⟨o, hm⟩, hx⟩
            have hrun : runList e (j :: ks) s =
                runList e ks { s with slot := Function.update s.slot j (some (o, true)) } := by
              simp only [runList, runBlock, hc, hm, hx, if_true]
            obtain ⟨i1, i2⟩ := ih hnd.2 { s with slot := Function.update s.slot j (some (o, true)) }
            rw [hrun]
            refine ⟨fun o' h => i1 o' ((hB o').1 h).2, fun h => ?_⟩
            rw [i2 (fun o' ho' => h o' ((hB o').2 ⟨fun _ => hf, ho'⟩))]
            simp [Function.update_of_ne (Ne.symm hjk)]
      · have hc : (s.active j && decide (j = .kriging → 1 < s.dim)) = false := by
          rw [← Bool.not_eq_true]; exact fun h => hu ((cond_iff s j).1 h)
        have hrun : runList e (j :: ks) s = runList e ks s := by
          simp only [runList, runBlock, hc, Bool.false_eq_true, if_false]
        obtain ⟨i1, i2⟩ := ih hnd.2 s
        rw [hrun]
        exact ⟨fun o' h => i1 o' ((hB o').1 h).2, fun h => i2 fun o' ho' => h o' ((hB o').2 ⟨fun h => absurd h hu, ho'⟩)⟩

theorem builtIn_order (e : SumEnv O) (an : Analysis) (han : e.analysis = .ok an) (fl : MethodKey → Bool) (dim : ℕ)
    (k : MethodKey) (o : O) : BuiltIn e fl dim order k o ↔ Built e fl dim k o := by
  have hall : ∀ P : MethodKey → Prop, (∀ j, P j) ↔ (P .linearGauss ∧ P .linearBinomial ∧ P .linearKernelSmoothing ∧
      P .quantileRegression ∧ P .polynomialChaos ∧ P .kriging) :=
    fun P => ⟨fun h => ⟨h _, h _, h _, h _, h _, h _⟩, fun h j => by cases j <;> simp [h]⟩
  unfold Built
  rw [hall]
  cases k <;> simp [BuiltIn, order, han, List.idxOf, List.findIdx, List.findIdx.go] <;> tauto

theorem summaryRun_frame (e : SumEnv O) (s : Summary O) :
    (summaryRun e s).2.active = s.active ∧ (summaryRun e s).2.dim = s.dim := by
  rw [summaryRun_eq]
  cases e.analysis with
  | error err => exact ⟨rfl, rfl⟩
  | ok an => exact ⟨(runList_frame e order _).1, (runList_frame e order _).2.1⟩

theorem summaryRun_slot (e : SumEnv O) (s : Summary O) (k : MethodKey) :
    (∀ o, Built e s.active s.dim k o →
      ∃ b, (summaryRun e s).2.slot k = some (o, b) ∧ (b = true ↔ e.exec k = .ok ())) ∧
    ((∀ o, ¬ Built e s.active s.dim k o) → (summaryRun e s).2.slot k = s.slot k) := by
  rw [summaryRun_eq]
  cases han : e.analysis with
  | error err =>
    refine ⟨?_, fun _ => rfl⟩
    rintro o ⟨⟨an, h⟩, -⟩
    rw [han] at h; cases h
  | ok an =>
    obtain ⟨h1, h2⟩ := runList_slot e order (by decide) { s with analysis := some an } k
    exact ⟨fun o h => h1 o ((builtIn_order e an han _ _ k o).2 h),
      fun h => h2 fun o ho => h o ((builtIn_order e an han _ _ k o).1 ho)⟩

theorem sumAfter_snoc (dim : ℕ) (ops : List (SumOp O)) (op : SumOp O) :
    sumAfter dim (ops ++ [op]) = sumStep (sumAfter dim ops) op := by simp [sumAfter]

theorem sumAfter_flags (dim : ℕ) (ops : List (SumOp O)) :
    (sumAfter dim ops).active = flagAfter ops ∧ (sumAfter dim ops).dim = dim := by
  induction ops using List.reverseRecOn with
  | nil => exact ⟨rfl, rfl⟩
  | append_singleton ops op ih =>
    rw [sumAfter_snoc]
    cases op with
    | run e =>
      obtain ⟨h1, h2⟩ := summaryRun_frame e (sumAfter dim ops)
      refine ⟨?_, h2.trans ih.2⟩
      funext k
      rw [flagAfter_snoc]
      change (summaryRun e (sumAfter dim ops)).2.active k = _
      rw [h1, ih.1]; rfl
    | setActive m v =>
      simp only [sumStep, setMethodActive]
      cases hm : MethodKey.ofName m with
      | none =>
        refine ⟨?_, ih.2⟩
        funext k
        rw [flagAfter_snoc]
        have hne : m ≠ k.name := by rintro rfl; rw [ofName_name] at hm; cases hm
        cases v <;> simp [setsTo, hne, ih.1]
      | some k' =>
        have hn := name_of_ofName hm
        cases v with
        | bool b =>
          refine ⟨?_, ih.2⟩
          funext k
          rw [flagAfter_snoc]
          by_cases hk : k = k'
          · subst hk; simp [setsTo, hn]
          · have hne : m ≠ k.name := by
              rintro rfl
              rw [ofName_name] at hm; cases hm; exact hk rfl
            simp [setsTo, hne, Function.update_of_ne hk, ih.1]
        | _ =>
          refine ⟨?_, ih.2⟩
          funext k
          rw [flagAfter_snoc]
          simp [setsTo, ih.1]

theorem snoc_split {α : Type} {ops pre post : List α} {x y : α} (h : ops ++ [x] = pre ++ y :: post) :
    (post = [] ∧ pre = ops ∧ x = y) ∨ ∃ post', post = post' ++ [x] ∧ ops = pre ++ y :: post' := by
  rcases List.eq_nil_or_concat post with rfl | ⟨post', z, rfl⟩
  · left
    obtain ⟨h1, h2⟩ := List.append_inj' h rfl
    exact ⟨rfl, h1.symm, by simpa using h2⟩
  · right
    have h' : ops ++ [x] = (pre ++ y :: post') ++ [z] := by simpa using h
    obtain ⟨h1, h2⟩ := List.append_inj' h' rfl
    exact ⟨post', by simpa using h2.symm, h1⟩

/-- The attribute of a method after any history. -/
theorem slot_spec (dim : ℕ) (ops : List (SumOp O)) (k : MethodKey) :
    ((sumAfter dim ops).slot k = none →
      ∀ pre e post, ops = pre ++ .run e :: post → ∀ o, ¬ Built e (flagAfter pre) dim k o) ∧
    (∀ o b, (sumAfter dim ops).slot k = some (o, b) → LastBuilt dim ops k o) := by
  induction ops using List.reverseRecOn with
  | nil =>
    refine ⟨?_, fun o b h => by simp [sumAfter, summaryInit] at h⟩
    intro _ pre e post h
    simp at h
  | append_singleton ops op ih =>
    rw [sumAfter_snoc]
    obtain ⟨hfl, hdim⟩ := sumAfter_flags dim ops
    cases op with
    | setActive m v =>
      have hs : (sumStep (sumAfter dim ops) (.setActive m v)).slot = (sumAfter dim ops).slot := by
        simp only [sumStep, setMethodActive]
        repeat' split
        all_goals rfl
      rw [hs]
      refine ⟨?_, ?_⟩
      · intro h pre e post heq o
        rcases snoc_split heq with ⟨-, -, h'⟩ | ⟨post', -, h'⟩
        · cases h'
        · exact ih.1 h pre e post' h' o
      · intro o b h
        obtain ⟨pre, e, post, h1, h2, h3⟩ := ih.2 o b h
        refine ⟨pre, e, post ++ [.setActive m v], by simp [h1], h2, ?_⟩
        intro p1 e' p2 heq o'
        rcases snoc_split heq with ⟨-, -, h'⟩ | ⟨post', -, h'⟩
        · cases h'
        · exact h3 p1 e' post' h' o'
    | run e =>
      obtain ⟨r1, r2⟩ := summaryRun_slot e (sumAfter dim ops) k
      rw [hfl, hdim] at r1 r2
      change ((summaryRun e (sumAfter dim ops)).2.slot k = none → _) ∧
        ∀ o b, (summaryRun e (sumAfter dim ops)).2.slot k = some (o, b) → _
      by_cases hb : ∃ o, Built e (flagAfter ops) dim k o
      · obtain ⟨o, ho⟩ := hb
        obtain ⟨b, hb, -⟩ := r1 o ho
        rw [hb]
        refine ⟨(fun h => by cases h), ?_⟩
        intro o' b' h
        cases h
        exact ⟨ops, e, [], rfl, ho, fun p1 e' p2 h => by simp at h⟩
      · push Not at hb
        rw [r2 hb]
        refine ⟨?_, ?_⟩
        · intro h pre e' post heq o
          rcases snoc_split heq with ⟨-, rfl, h'⟩ | ⟨post', -, h'⟩
          · cases h'; exact hb o
          · exact ih.1 h pre e' post' h' o
        · intro o b h
          obtain ⟨pre, e₀, post, h1, h2, h3⟩ := ih.2 o b h
          refine ⟨pre, e₀, post ++ [.run e], by simp [h1], h2, ?_⟩
          intro p1 e' p2 heq o'
          rcases snoc_split heq with ⟨-, rfl, h'⟩ | ⟨post', -, h'⟩
          · cases h'; rw [← h1]; exact hb o'
          · exact h3 p1 e' post' h' o'

theorem built_unique {e : SumEnv O} {fl : MethodKey → Bool} {dim : ℕ} {k : MethodKey} {o o' : O}
    (h : Built e fl dim k o) (h' : Built e fl dim k o') : o = o' := by
  have := h.2.2.1.symm.trans h'.2.2.1
  cases this; rfl

theorem slot_of_lastBuilt (dim : ℕ) (ops : List (SumOp O)) (k : MethodKey) (o : O) (h : LastBuilt dim ops k o) :
    ∃ b, (sumAfter dim ops).slot k = some (o, b) := by
  induction ops using List.reverseRecOn with
  | nil => obtain ⟨pre, e, post, h1, -⟩ := h; simp at h1
  | append_singleton ops op ih =>
    rw [sumAfter_snoc]
    obtain ⟨hfl, hdim⟩ := sumAfter_flags dim ops
    obtain ⟨pre, e, post, h1, h2, h3⟩ := h
    rcases snoc_split h1 with ⟨rfl, rfl, rfl⟩ | ⟨post', rfl, h'⟩
    · have r1 := (summaryRun_slot e (sumAfter dim pre) k).1
      rw [hfl, hdim] at r1
      obtain ⟨b, hb, -⟩ := r1 o h2
      exact ⟨b, hb⟩
    · obtain ⟨b, hb⟩ := ih ⟨pre, e, post', h', h2, fun p1 e' p2 hp o' =>
        h3 p1 e' (p2 ++ [op]) (by simp [hp]) o'⟩
      cases op with
      | setActive m v =>
        refine ⟨b, ?_⟩
        rw [← hb]
        simp only [sumStep, setMethodActive]
        repeat' split
        all_goals rfl
      | run e' =>
        have r2 := (summaryRun_slot e' (sumAfter dim ops) k).2
        rw [hfl, hdim] at r2
        refine ⟨b, ?_⟩
        rw [← hb]
        refine r2 fun o' ho' => h3 post' e' [] rfl o' ?_
        rw [← h']; exact ho'

/-- **C70, exact.**  After every history of calls, whether or not they raised, the getter of method `k` returns `o` iff the
method is active, the dimension allows it, and `o` is the object constructed by the last run that reached the method;
otherwise it raises `Exception`. -/
theorem C70_getter (dim : ℕ) (hdim : 1 ≤ dim) (ops : List (SumOp O)) (k : MethodKey) :
    (∀ o, getPOD k (sumAfter dim ops) = .ok o ↔
      flagAfter ops k = true ∧ (k = .kriging → 1 < dim) ∧ LastBuilt dim ops k o) ∧
    ((¬ ∃ o, flagAfter ops k = true ∧ (k = .kriging → 1 < dim) ∧ LastBuilt dim ops k o) →
      Raises (getPOD k (sumAfter dim ops)) .exception) := by
  obtain ⟨hfl, hd⟩ := sumAfter_flags dim ops
  have key : ∀ o, getPOD k (sumAfter dim ops) = .ok o ↔
      flagAfter ops k = true ∧ (k = .kriging → 1 < dim) ∧ LastBuilt dim ops k o := by
    intro o
    unfold getPOD
    rw [hfl, hd]
    by_cases hf : flagAfter ops k = true
    · rw [if_neg (by simp [hf])]
      by_cases hk : k = .kriging ∧ dim = 1
      · rw [if_pos hk]
        constructor
        · intro h; cases h
        · rintro ⟨-, h, -⟩; have := h hk.1; omega
      · rw [if_neg hk]
        have hk' : k = .kriging → 1 < dim := fun h => by
          have : dim ≠ 1 := fun h' => hk ⟨h, h'⟩
          omega
        constructor
        · intro h
          split at h
          · cases h
          · rename_i x hx
            rw [Except.ok.injEq] at h
            exact ⟨hf, hk', (slot_spec dim ops k).2 o x.2 (by rw [hx, ← h])⟩
        · rintro ⟨-, -, h⟩
          obtain ⟨b, hb⟩ := slot_of_lastBuilt dim ops k o h
          rw [hb]
    · rw [if_pos (by simpa using hf)]
      constructor
      · intro h; cases h
      · rintro ⟨h, -⟩; exact absurd h hf
  refine ⟨key, fun h => ?_⟩
  have hno : ∀ o, getPOD k (sumAfter dim ops) ≠ .ok o := fun o ho => h ⟨o, (key o).1 ho⟩
  have hr : ∀ (s : Summary O), (∃ o, getPOD k s = .ok o) ∨ Raises (getPOD k s) .exception := by
    intro s
    unfold getPOD
    repeat' split
    all_goals first
      | exact .inl ⟨_, rfl⟩
      | exact .inr ⟨_, rfl⟩
  rcases hr (sumAfter dim ops) with ⟨o, ho⟩ | h'
  · exact absurd ho (hno o)
  · exact h'

/-- **C70.**  When the runs of the history complete, the getter of method `k` returns an object iff the method is active,
was active during some earlier run, and (kriging) the input has more than one column. -/
theorem C70_completed (dim : ℕ) (hdim : 1 ≤ dim) (ops : List (SumOp O)) (k : MethodKey)
    (hc : ∀ pre e post, ops = pre ++ .run e :: post → Completes e (flagAfter pre) dim) :
    (∃ o, getPOD k (sumAfter dim ops) = .ok o) ↔
      flagAfter ops k = true ∧ (k = .kriging → 1 < dim) ∧
        ∃ pre e post, ops = pre ++ .run e :: post ∧ flagAfter pre k = true := by
  obtain ⟨key, -⟩ := C70_getter dim hdim ops k
  constructor
  · rintro ⟨o, ho⟩
    obtain ⟨h1, h2, pre, e, post, h3, h4, -⟩ := (key o).1 ho
    exact ⟨h1, h2, pre, e, post, h3, h4.2.1.1⟩
  · rintro ⟨h1, h2, pre, e, post, h3, h4⟩
    have hcomp := hc pre e post h3
    obtain ⟨⟨o, ho⟩, -⟩ := hcomp.2 k ⟨h4, h2⟩
    have hB : Built e (flagAfter pre) dim k o := ⟨hcomp.1, ⟨h4, h2⟩, ho, fun j _ hj => hcomp.2 j hj⟩
    cases hs : (sumAfter dim ops).slot k with
    | none => exact absurd hB ((slot_spec dim ops k).1 hs pre e post h3 o)
    | some x => exact ⟨x.1, (key x.1).2 ⟨h1, h2, (slot_spec dim ops k).2 x.1 x.2 hs⟩⟩

/-- **C70, activation.**  `setMethodActive` accepts exactly a boolean under one of the six keys; a refused call raises
NameError (key) or ValueError (value) and changes nothing. -/
theorem C70_setActive (s : Summary O) (m : String) (v : PyVal) :
    (∀ k b, m = MethodKey.name k → v = .bool b → (setMethodActive m v s).1 = .ok () ∧
      (setMethodActive m v s).2.active k = b ∧ (∀ j, j ≠ k → (setMethodActive m v s).2.active j = s.active j) ∧
      (setMethodActive m v s).2.slot = s.slot) ∧
    ((∀ k, m ≠ MethodKey.name k) → Raises (setMethodActive m v s).1 .nameError ∧ (setMethodActive m v s).2 = s) ∧
    ((∃ k, m = MethodKey.name k) → (∀ b, v ≠ .bool b) →
      Raises (setMethodActive m v s).1 .valueError ∧ (setMethodActive m v s).2 = s) := by
  refine ⟨?_, ?_, ?_⟩
  · rintro k b rfl rfl
    simp only [setMethodActive, ofName_name]
    refine ⟨trivial, by simp, fun j hj => by simp [Function.update_of_ne hj], trivial⟩
  · intro h
    have : MethodKey.ofName m = none := by
      cases hm : MethodKey.ofName m with
      | none => rfl
      | some k => exact absurd (name_of_ofName hm) (h k)
    simp only [setMethodActive, this]
    exact ⟨⟨_, rfl⟩, trivial⟩
  · rintro ⟨k, rfl⟩ hv
    simp only [setMethodActive, ofName_name]
    cases v with
    | bool b => exact absurd rfl (hv b)
    | _ => exact ⟨⟨_, rfl⟩, trivial⟩

/-- A run in which everything succeeds. -/
noncomputable def okRun (o : O) : SumEnv O :=
  let t : TestResults := ⟨.fin 1, .nan, .fin 1, .fin 1, .fin 1, .fin 1, .fin 1, .fin 1⟩
  ⟨.ok ⟨⟨.fin 0, .fin 1, .fin 1, "", "", "", "Normal", [], t⟩, none, none⟩, fun _ => .ok o, fun _ => .ok ()⟩

theorem okRun_completes (o : O) (fl : MethodKey → Bool) (dim : ℕ) : Completes (okRun o) fl dim :=
  ⟨⟨_, rfl⟩, fun _ _ => ⟨⟨o, rfl⟩, rfl⟩⟩

/-- A history whose runs complete. -/
example : ∀ pre e post, [SumOp.setActive "Kriging" (.bool false), .run (okRun 7)] = pre ++ .run e :: post →
    Completes e (flagAfter pre) 2 := by
  intro pre e post h
  have : e = okRun 7 := by
    match pre with
    | [] => simp at h
    | [a] => simp at h; exact h.2.1.symm
    | a :: b :: c => simp at h
  rw [this]; exact okRun_completes _ _ _

/-! ## C71: the result table -/

/-- The label of the row of a method. -/
def podLabel : MethodKey → String
  | .linearGauss => "Gaussian residuals :"
  | .linearBinomial => "No residuals hypothesis :"
  | .linearKernelSmoothing => "Kernel smoothing on residuals :"
  | .quantileRegression => "Quantile Regression :"
  | .polynomialChaos => "Polynomial chaos :"
  | .kriging => "Kriging :"

/-- The sizes to be shown: those computed, or -1 when the method was not built or its computation raises. -/
def shownSize (f : PodFns O) (s : Summary O) (p c : ℝ) (k : MethodKey) : F ℝ × F ℝ :=
  ((s.slot k).bind fun o => (f.size o.1 p c).toOption).getD (.fin (-1), .fin (-1))

open scoped Classical in
/-- The methods to be shown, in the documented order. -/
noncomputable def shownMethods (s : Summary O) : List MethodKey := order.filter fun k => decide (Usable s.active s.dim k)

theorem detectSize_eq (f : PodFns O) (s : Summary O) (p c : ℝ) (k : MethodKey) :
    detectSize f (s.slot k) p c = shownSize f s p c k := by
  unfold detectSize shownSize
  cases s.slot k with
  | none => rfl
  | some o =>
    simp only [Option.bind_some]
    cases f.size o.1 p c <;> rfl

/-- What the table needs: an analysis when a linear method is active, the R2 of the quantile regression, the R2 and Q2 of
the chaos and the Q2 of the kriging, when these are used. -/
def Ready (f : PodFns O) (s : Summary O) (p : ℝ) : Prop :=
  ((s.active .linearGauss = true ∨ s.active .linearBinomial = true ∨ s.active .linearKernelSmoothing = true) →
    ∃ an, s.analysis = some an) ∧
  (Usable s.active s.dim .quantileRegression → ∃ o b r, s.slot .quantileRegression = some (o, b) ∧ f.r2 o p = .ok r) ∧
  (Usable s.active s.dim .polynomialChaos →
    ∃ o b r q, s.slot .polynomialChaos = some (o, b) ∧ f.r2 o p = .ok r ∧ f.q2 o = .ok q) ∧
  (Usable s.active s.dim .kriging → ∃ o b q, s.slot .kriging = some (o, b) ∧ f.q2 o = .ok q)

theorem attr_ok {s : Summary O} {k : MethodKey} {o : O} (h : attr s k = .ok o) : ∃ b, s.slot k = some (o, b) := by
  unfold attr at h
  cases hs : s.slot k with
  | none => rw [hs] at h; cases h
  | some x => rw [hs] at h; cases h; exact ⟨x.2, rfl⟩

theorem buildLinear_ok (f : PodFns O) (s : Summary O) (p c : ℝ) :
    (∃ r, buildLinear f s p c = .ok r) ↔
      ((s.active .linearGauss = true ∨ s.active .linearBinomial = true ∨ s.active .linearKernelSmoothing = true) →
        ∃ an, s.analysis = some an) := by
  unfold buildLinear
  by_cases h : (s.active .linearGauss || s.active .linearBinomial || s.active .linearKernelSmoothing) = true
  · rw [if_pos h]
    have h' : (s.active .linearGauss = true ∨ s.active .linearBinomial = true ∨ s.active .linearKernelSmoothing = true) := by
      simpa [or_assoc] using h
    cases s.analysis <;> simp [h']
  · rw [if_neg h]
    have h' : ¬ (s.active .linearGauss = true ∨ s.active .linearBinomial = true ∨ s.active .linearKernelSmoothing = true) := by
      simpa [or_assoc] using h
    exact ⟨fun _ h => absurd h h', fun _ => ⟨_, rfl⟩⟩

theorem buildQuantile_ok (f : PodFns O) (t : String) (s : Summary O) (p c : ℝ) :
    (∃ r, buildQuantile f t s p c = .ok r) ↔
      (Usable s.active s.dim .quantileRegression → ∃ o b r, s.slot .quantileRegression = some (o, b) ∧ f.r2 o p = .ok r) := by
  unfold buildQuantile
  by_cases h : s.active .quantileRegression = true
  · rw [if_pos h]
    have hu : Usable s.active s.dim .quantileRegression := ⟨h, by simp⟩
    unfold attr
    cases hs : s.slot .quantileRegression with
    | none => simp [hu]
    | some x =>
      obtain ⟨o, b⟩ := x
      cases hr : f.r2 o p <;> simp [hu, hr]
  · rw [if_neg h]
    exact ⟨fun _ hu => absurd hu.1 h, fun _ => ⟨_, rfl⟩⟩

theorem buildChaos_ok (f : PodFns O) (s : Summary O) (p c : ℝ) :
    (∃ r, buildChaos f s p c = .ok r) ↔
      (Usable s.active s.dim .polynomialChaos →
        ∃ o b r q, s.slot .polynomialChaos = some (o, b) ∧ f.r2 o p = .ok r ∧ f.q2 o = .ok q) := by
  unfold buildChaos
  by_cases h : s.active .polynomialChaos = true
  · rw [if_pos h]
    have hu : Usable s.active s.dim .polynomialChaos := ⟨h, by simp⟩
    unfold attr
    cases hs : s.slot .polynomialChaos with
    | none => simp [hu]
    | some x =>
      obtain ⟨o, b⟩ := x
      cases hr : f.r2 o p <;> cases hq : f.q2 o <;> simp [hu, hr, hq]
  · rw [if_neg h]
    exact ⟨fun _ hu => absurd hu.1 h, fun _ => ⟨_, rfl⟩⟩

theorem buildKriging_ok (f : PodFns O) (s : Summary O) (p c : ℝ) :
    (∃ r, buildKriging f s p c = .ok r) ↔
      (Usable s.active s.dim .kriging → ∃ o b q, s.slot .kriging = some (o, b) ∧ f.q2 o = .ok q) := by
  unfold buildKriging
  by_cases h : (decide (1 < s.dim) && s.active .kriging) = true
  · rw [if_pos h]
    have h2 := h
    rw [Bool.and_eq_true, decide_eq_true_eq] at h2
    have hu : Usable s.active s.dim .kriging := ⟨h2.2, fun _ => h2.1⟩
    unfold attr
    cases hs : s.slot .kriging with
    | none => simp [hu]
    | some x =>
      obtain ⟨o, b⟩ := x
      cases hq : f.q2 o <;> simp [hu, hq]
  · rw [if_neg h]
    refine ⟨fun _ hu => absurd ?_ h, fun _ => ⟨_, rfl⟩⟩
    rw [Bool.and_eq_true, decide_eq_true_eq]
    exact ⟨hu.2 rfl, hu.1⟩

/-- **C71 (restricted), when the table is built.**  Building the tables returns normally iff the validation results it
reads without protection are available.  Missing: the statement wants it always. -/
theorem C71_built_iff_partial (f : PodFns O) (t : String) (s : Summary O) (p c : ℝ) :
    (∃ r, buildPrint f t s p c = .ok r) ↔ Ready f s p := by
  unfold Ready
  rw [← buildLinear_ok f s p c, ← buildQuantile_ok f t s p c, ← buildChaos_ok f s p c, ← buildKriging_ok f s p c]
  unfold buildPrint
  cases buildLinear f s p c <;> cases buildQuantile f t s p c <;> cases buildChaos f s p c <;>
    cases buildKriging f s p c <;> simp

/-- **C71, the rows.**  Whenever the table is built, its method rows are exactly those of the active methods in the
documented order (kriging only with several inputs), each with its rounded sizes, or -1 when they cannot be computed; the
other rows are the header and, iff a linear method is active, the heading and the blank line of the linear part. -/
theorem C71_rows_partial (f : PodFns O) (t : String) (s : Summary O) (p c : ℝ) (v : List ValidRow) (tab : List Row)
    (h : buildPrint f t s p c = .ok (v, tab)) :
    tab.filter (fun r => decide (r.1 ∈ order.map podLabel))
      = (shownMethods s).map (fun k => (podLabel k, .num (round2F (shownSize f s p c k).1),
          .num (round2F (shownSize f s p c k).2))) ∧
    tab.filter (fun r => !decide (r.1 ∈ order.map podLabel))
      = podHeader p c :: (if s.active .linearGauss = true ∨ s.active .linearBinomial = true ∨
            s.active .linearKernelSmoothing = true then
          [("Linear Regression", .txt "", .txt ""), ("", .txt "", .txt "")] else []) := by
  classical
  have hq : buildQuantile f t s p c = .ok ([], []) ∧ s.active .quantileRegression = false ∨
      (∃ r, buildQuantile f t s p c = .ok r ∧ r.2 = [sizeRow f "Quantile Regression :" (s.slot .quantileRegression) p c]) ∧
        s.active .quantileRegression = true ∨ ∃ e, buildQuantile f t s p c = .error e := by
    unfold buildQuantile
    cases s.active .quantileRegression with
    | false => left; exact ⟨rfl, rfl⟩
    | true =>
      right
      rw [if_pos rfl]
      cases attr s .quantileRegression with
      | error e => exact .inr ⟨_, rfl⟩
      | ok o => cases hr : f.r2 o p with
        | error e => exact .inr ⟨e, by simp [hr]⟩
        | ok r => exact .inl ⟨⟨_, by simp only [hr]; rfl, rfl⟩, rfl⟩
  have hch : buildChaos f s p c = .ok ([], []) ∧ s.active .polynomialChaos = false ∨
      (∃ r, buildChaos f s p c = .ok r ∧ r.2 = [sizeRow f "Polynomial chaos :" (s.slot .polynomialChaos) p c]) ∧
        s.active .polynomialChaos = true ∨ ∃ e, buildChaos f s p c = .error e := by
    unfold buildChaos
    cases s.active .polynomialChaos with
    | false => left; exact ⟨rfl, rfl⟩
    | true =>
      right
      rw [if_pos rfl]
      cases attr s .polynomialChaos with
      | error e => exact .inr ⟨_, rfl⟩
      | ok o => cases hr : f.r2 o p with
        | error e => exact .inr ⟨e, by simp [hr]⟩
        | ok r => cases hq2 : f.q2 o with
          | error e => exact .inr ⟨e, by simp [hr, hq2]⟩
          | ok q => exact .inl ⟨⟨_, by simp only [hr, hq2]; rfl, rfl⟩, rfl⟩
  have hk : buildKriging f s p c = .ok ([], []) ∧ ¬ Usable s.active s.dim .kriging ∨
      (∃ r, buildKriging f s p c = .ok r ∧ r.2 = [sizeRow f "Kriging :" (s.slot .kriging) p c]) ∧
        Usable s.active s.dim .kriging ∨ ∃ e, buildKriging f s p c = .error e := by
    unfold buildKriging
    by_cases hu : Usable s.active s.dim .kriging
    · right
      rw [if_pos (by rw [Bool.and_eq_true, decide_eq_true_eq]; exact ⟨hu.2 rfl, hu.1⟩)]
      cases attr s .kriging with
      | error e => exact .inr ⟨_, rfl⟩
      | ok o => cases hr : f.q2 o with
        | error e => exact .inr ⟨e, by simp [hr]⟩
        | ok r => exact .inl ⟨⟨_, by simp only [hr]; rfl, rfl⟩, hu⟩
    · left
      rw [if_neg (by rw [Bool.and_eq_true, decide_eq_true_eq]; exact fun h => hu ⟨h.2, fun _ => h.1⟩)]
      exact ⟨rfl, hu⟩
  have hus : ∀ k, k ≠ .kriging → (Usable s.active s.dim k ↔ s.active k = true) := fun k hk =>
    ⟨fun h => h.1, fun h => ⟨h, fun h' => absurd h' hk⟩⟩
  have hsz : ∀ l k, sizeRow f l (s.slot k) p c =
      (l, .num (round2F (shownSize f s p c k).1), .num (round2F (shownSize f s p c k).2)) := by
    intro l k
    simp only [sizeRow, rnd, detectSize_eq]
  unfold buildPrint at h
  split at h
  · cases h
  rename_i l hl
  have hl' : l.2 = (if s.active .linearGauss = true ∨ s.active .linearBinomial = true ∨
        s.active .linearKernelSmoothing = true then
      [(("Linear Regression", .txt "", .txt "") : Row)]
        ++ (if s.active .linearGauss then [sizeRow f "Gaussian residuals :" (s.slot .linearGauss) p c] else [])
        ++ (if s.active .linearBinomial then [sizeRow f "No residuals hypothesis :" (s.slot .linearBinomial) p c] else [])
        ++ (if s.active .linearKernelSmoothing then
              [sizeRow f "Kernel smoothing on residuals :" (s.slot .linearKernelSmoothing) p c] else [])
        ++ [("", .txt "", .txt "")] else []) := by
    unfold buildLinear at hl
    split at hl
    · rename_i hc
      split at hl
      · cases hl
      · rw [Except.ok.injEq] at hl
        have hc' : s.active .linearGauss = true ∨ s.active .linearBinomial = true ∨
            s.active .linearKernelSmoothing = true := by simpa [or_assoc] using hc
        rw [← hl]
        simp only [if_pos hc']
    · rename_i hc
      rw [Except.ok.injEq] at hl
      rw [← hl, if_neg (by simpa [or_assoc] using hc)]
  clear hl
  rcases hq with ⟨hq, hqa⟩ | ⟨⟨q, hq, hq2⟩, hqa⟩ | ⟨e, hq⟩ <;> rw [hq] at h <;>
  rcases hch with ⟨hch, hcha⟩ | ⟨⟨ch, hch, hch2⟩, hcha⟩ | ⟨e, hch⟩ <;> (try rw [hch] at h) <;>
  rcases hk with ⟨hk, hka⟩ | ⟨⟨kr, hk, hk2⟩, hka⟩ | ⟨e, hk⟩ <;> (try rw [hk] at h) <;>
  (try cases h) <;>
  (cases hg : s.active .linearGauss <;> cases hb : s.active .linearBinomial <;>
   cases hs : s.active .linearKernelSmoothing <;>
   simp_all [shownMethods, order, podLabel, hus, List.filter, podHeader])

end Verif.Props
