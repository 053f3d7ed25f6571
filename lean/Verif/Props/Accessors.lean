import Verif.Model.Accessors
import Verif.Props.Metamodel

/-!
# Histories of settings (C131)
-/

namespace Verif.Props
open Verif.Py Verif.Model

/-- A component that each call either replaces or leaves alone holds the last replacement. -/
theorem foldl_last {σ ι α : Type} (step : σ → ι → σ) (get : σ → α) (arg : ι → Option α)
    (h : ∀ s o, get (step s o) = (arg o).getD (get s)) (ops : List ι) (s : σ) :
    get (ops.foldl step s) = ((ops.filterMap arg).getLast?).getD (get s) := by
  induction ops using List.reverseRecOn with
  | nil => rfl
  | append_singleton l o ih =>
    rw [List.foldl_append, List.foldl_cons, List.foldl_nil, h, ih, List.filterMap_append]
    cases ho : arg o with
    | none => simp [List.filterMap_cons, ho]
    | some a => simp [List.filterMap_cons, ho]

/-- The same for a component that the calls modify under a condition on its current value. -/
theorem foldl_last_on {σ ι α : Type} (step : σ → ι → σ) (Good : σ → Prop) (hg : ∀ s o, Good s → Good (step s o)) (get : σ → α) (arg : ι → Option α)
    (h : ∀ s o, Good s → get (step s o) = (arg o).getD (get s)) (ops : List ι) (s : σ) (hs : Good s) :
    get (ops.foldl step s) = ((ops.filterMap arg).getLast?).getD (get s) := by
  induction ops using List.reverseRecOn with
  | nil => rfl
  | append_singleton l o ih =>
    have hl : Good (l.foldl step s) := by
      clear ih
      induction l using List.reverseRecOn with
      | nil => exact hs
      | append_singleton l' o' ih' =>
        rw [List.foldl_append, List.foldl_cons, List.foldl_nil]
        exact hg _ _ ih'
    rw [List.foldl_append, List.foldl_cons, List.foldl_nil, h _ _ hl, ih, List.filterMap_append]
    cases ho : arg o with
    | none => simp [List.filterMap_cons, ho]
    | some a => simp [List.filterMap_cons, ho]

/-- The last value of a list, or a default. -/
def lastOr {α : Type} (l : List α) (d : α) : α := l.getLast?.getD d

variable {V : Type}

/-! The values asked for by the calls of a history, when acceptable: an integer for the verbosity is not a bool, a distribution must be a joint
distribution (of the right dimension when it is checked), and so on. -/

def askedSampling : SetOp V → Option PyVal | .samplingSize v => some v | _ => none
def askedStart : SetOp V → Option PyVal | .initialStartSize v => some v | _ => none
def askedCandidates : SetOp V → Option PyVal | .candidateSize v => some v | _ => none
def askedSimulation : SetOp V → Option PyVal | .simulationSize v => some v | _ => none
def askedDegree : SetOp V → Option PyVal | .degree v => some v | _ => none
def askedVerbose : SetOp V → Option Bool | .verbose (.bool b) => some b | _ => none
def askedGraph : SetOp V → Option Bool
  | .graph (.bool b) _ _ (.str _) => some b
  | .graph (.bool b) _ _ .none => some b
  | _ => none
def askedMethod : SetOp V → Option String
  | .method (.str m) => if m = "Saltelli" ∨ m = "Jansen" ∨ m = "Martinez" ∨ m = "MauntzKucherenko" then some m else none
  | _ => none
def askedDistribution (dim : Option ℕ) : SetOp V → Option DistArg
  | .distribution (.joint d i) => if dim = none ∨ dim = some d then some (.joint d i) else none
  | _ => none
def askedObject (ctor : ObjKind → V → Option ErrKind) (k : ObjKind) : SetOp V → Option V
  | .object j v => if j = k ∧ ctor j v = none then some v else none
  | _ => none
def askedActive (name : String) : SetOp V → Option Bool
  | .active n (.bool b) => if n = name then some b else none
  | _ => none

/-- Sizes inside the observed range. -/
def InRange (mn mx : ℝ) (l : List ℝ) : Prop := l ≠ [] ∧ ∀ d ∈ l, mn ≤ d ∧ d ≤ mx

open Classical in
noncomputable def askedSizes (mn mx : ℝ) : SetOp V → Option (List ℝ)
  | .defectSizes l => if InRange mn mx l then some l else none
  | _ => none

theorem lookup_map_set (d : List (String × Bool)) (n name : String) (b : Bool) (h : name ∈ d.map Prod.fst) :
    (d.map fun e => if e.1 = n then (e.1, b) else e).lookup name = if n = name then some b else d.lookup name := by
  induction d with
  | nil => simp at h
  | cons e d ih =>
    obtain ⟨k, v⟩ := e
    simp only [List.map_cons, List.lookup_cons]
    by_cases hk : k = name
    · subst hk
      by_cases hn : k = n
      · simp [hn]
      · simp [hn, Ne.symm hn]
    · have h' : name ∈ d.map Prod.fst := by
        simp only [List.map_cons, List.mem_cons] at h
        exact h.resolve_left fun h => hk h.symm
      have hbeq : (name == k) = false := by simp [Ne.symm hk]
      rw [hbeq]
      by_cases hn : k = n
      · rw [if_pos hn, List.lookup_cons, hbeq]
        exact ih h'
      · rw [if_neg hn, List.lookup_cons, hbeq]
        exact ih h'

theorem setActive_keys (n : String) (v : PyVal) (d : List (String × Bool)) : (setActive n v d).2.map Prod.fst = d.map Prod.fst := by
  unfold setActive
  split_ifs with h
  · cases v <;> try rfl
    simp only [List.map_map]
    apply List.map_congr_left
    intro e _
    simp only [Function.comp]
    split_ifs <;> rfl
  · rfl

theorem setActive_lookup (n name : String) (v : PyVal) (d : List (String × Bool)) (h : name ∈ d.map Prod.fst) :
    (setActive n v d).2.lookup name = ((askedActive name (SetOp.active (V := V) n v)).map some).getD (d.lookup name) := by
  unfold setActive
  split_ifs with hn
  · cases v <;> try rfl
    rename_i b
    simp only [askedActive]
    rw [lookup_map_set d n name b h]
    split_ifs <;> rfl
  · cases v <;> try rfl
    have : n ≠ name := by rintro rfl; exact hn h
    simp [askedActive, this]

/-- What `setDefectSizes` leaves in the attribute: the sorted argument, unless it is empty. -/
theorem setDefectSizes_sizes (observed l : List ℝ) (a : SizeAttrs) :
    (setDefectSizes observed l a).2.sizes = if l = [] then a.sizes else sortR l := by
  unfold setDefectSizes
  by_cases hl : l = []
  · rw [if_pos hl, if_pos hl]
  · rw [if_neg hl, if_neg hl]
    dsimp only
    split
    · split_ifs <;> rfl
    · rfl

/-- The sizes after a history: those of the last call with a non-empty argument, accepted or not. -/
theorem sizes_history (observed : List ℝ) (dim : Option ℕ) (ctor : ObjKind → V → Option ErrKind) (ops : List (SetOp V)) (s : Settings V) :
    getDefectSizes (setHistory observed dim ctor ops s) =
      lastOr (ops.filterMap fun o => match o with | .defectSizes l => if l = [] then none else some (sortR l) | _ => none) (getDefectSizes s) := by
  apply foldl_last (fun (s : Settings V) o => (setStep observed dim ctor o s).2) getDefectSizes
  intro s o
  cases o <;> try rfl
  · simp only [setStep, onField, getDefectSizes]
    rw [setDefectSizes_sizes]
    split_ifs <;> rfl
  · simp only [setStep, setObject, getDefectSizes]
    split
    · rfl
    · split_ifs <;> rfl
    · rfl

theorem lastOr_map {α β : Type} (f : α → β) (l : List α) (d : α) : f (lastOr l d) = lastOr (l.map f) (f d) := by
  unfold lastOr
  rw [List.getLast?_map]
  cases l.getLast? <;> rfl

/-- **C131.**  After any history of calls of setters, each getter returns the last value that was accepted for it, or the initial value: no
setter changes another setting, and a rejected value is ignored.  For the defect sizes only if the rejected calls are none (they
overwrite the sizes, see `C131_violated`).  The getters of the POD classes that have nothing to return print a message. -/
theorem C131_history_partial (observed : List ℝ) (mn mx : ℝ) (hmn : IsLeast {x | x ∈ observed} mn) (hmx : IsGreatest {x | x ∈ observed} mx)
    (dim : Option ℕ) (ctor : ObjKind → V → Option ErrKind) (ops : List (SetOp V)) (s : Settings V) :
    let t := setHistory observed dim ctor ops s
    getSamplingSize t = lastOr (ops.filterMap askedSampling) (getSamplingSize s) ∧
    getInitialStartSize t = lastOr (ops.filterMap askedStart) (getInitialStartSize s) ∧
    getCandidateSize t = lastOr (ops.filterMap askedCandidates) (getCandidateSize s) ∧
    getSimulationSize t = lastOr (ops.filterMap askedSimulation) (getSimulationSize s) ∧
    getDegree t = lastOr (ops.filterMap askedDegree) (getDegree s) ∧
    getVerbose t = lastOr (ops.filterMap askedVerbose) (getVerbose s) ∧
    getGraphActive t = lastOr (ops.filterMap askedGraph) (getGraphActive s) ∧
    getSensitivityMethod t = lastOr (ops.filterMap askedMethod) (getSensitivityMethod s) ∧
    getDistributionSens t = lastOr ((ops.filterMap (askedDistribution dim)).map some) (getDistributionSens s) ∧
    (∀ k v, getObject k t = ⟨some v, none⟩ ↔ lastOr ((ops.filterMap (askedObject ctor k)).map some) (getObject k s).value = some v) ∧
    (∀ name ∈ s.active.map Prod.fst, getMethodActive t name = lastOr ((ops.filterMap (askedActive name)).map some) (getMethodActive s name)) ∧
    ((∀ l, SetOp.defectSizes l ∈ ops → InRange mn mx l) →
      (getDefectSizes t).Perm (lastOr (ops.filterMap (askedSizes mn mx)) (getDefectSizes s)) ∧
      ((ops.filterMap (askedSizes mn mx) ≠ [] → (getDefectSizes t).Pairwise (· ≤ ·)))) := by
  intro t
  have base : ∀ {α : Type} (get : Settings V → α) (arg : SetOp V → Option α),
      (∀ s o, get (setStep observed dim ctor o s).2 = (arg o).getD (get s)) → get t = lastOr (ops.filterMap arg) (get s) :=
    fun get arg h => foldl_last _ get arg h ops s
  have obj : ∀ {α : Type} (get : Settings V → α) (k : ObjKind) (v : V), (∀ (s : Settings V) f, get { s with objects := f } = get s) →
      ∀ s, get (setObject ctor k v s).2 = get s := by
    intro α get k v h s
    unfold setObject
    split
    · exact h s _
    · split_ifs <;> rfl
    · rfl
  refine ⟨?_, ?_, ?_, ?_, ?_, ?_, ?_, ?_, ?_, ?_, ?_, ?_⟩
  · apply base
    intro s o
    cases o <;> try rfl
    exact obj getSamplingSize _ _ (fun _ _ => rfl) s
  · apply base
    intro s o
    cases o <;> try rfl
    exact obj getInitialStartSize _ _ (fun _ _ => rfl) s
  · apply base
    intro s o
    cases o <;> try rfl
    exact obj getCandidateSize _ _ (fun _ _ => rfl) s
  · apply base
    intro s o
    cases o <;> try rfl
    exact obj getSimulationSize _ _ (fun _ _ => rfl) s
  · apply base
    intro s o
    cases o <;> try rfl
    exact obj getDegree _ _ (fun _ _ => rfl) s
  · apply base
    intro s o
    cases o <;> try rfl
    · exact obj getVerbose _ _ (fun _ _ => rfl) s
    · rename_i v
      cases v <;> rfl
  · apply base
    intro s o
    cases o <;> try rfl
    · exact obj getGraphActive _ _ (fun _ _ => rfl) s
    · rename_i g p c d
      cases g <;> cases d <;> rfl
  · apply base
    intro s o
    cases o <;> try rfl
    · exact obj getSensitivityMethod _ _ (fun _ _ => rfl) s
    · rename_i v
      cases v <;> try rfl
      rename_i m
      simp only [setStep, onField, setSensitivityMethod, getSensitivityMethod, askedMethod, List.mem_cons, List.not_mem_nil, or_false]
      split_ifs <;> rfl
  · rw [List.map_filterMap]
    apply base
    intro s o
    cases o <;> try rfl
    · rename_i a
      cases a with
      | other v => cases dim <;> rfl
      | joint d i =>
        cases dim with
        | none => rfl
        | some e =>
          simp only [setStep, onField, setDistributionSens, getDistributionSens, askedDistribution]
          by_cases h : d = e
          · subst h; simp
          · simp [h, Ne.symm h]
    · exact obj getDistributionSens _ _ (fun _ _ => rfl) s
  · intro k v
    have hk : ∀ s : Settings V, (getObject k s).value = s.objects k := by
      intro s
      unfold getObject
      cases s.objects k <;> rfl
    have h : t.objects k = lastOr ((ops.filterMap (askedObject ctor k)).map some) (s.objects k) := by
      rw [List.map_filterMap]
      refine foldl_last _ (fun s : Settings V => s.objects k) _ ?_ ops s
      intro s o
      cases o <;> try rfl
      rename_i j w
      simp only [setStep, setObject, askedObject]
      cases hc : ctor j w with
      | none =>
        by_cases hj : j = k
        · simp [hj]
        · simp [hj, Ne.symm hj]
      | some e =>
        simp only [reduceCtorEq, and_false, if_false]
        cases e <;> try rfl
        dsimp only
        split_ifs <;> rfl
    rw [hk, ← h]
    unfold getObject
    cases t.objects k with
    | none => simp [getOrPrint]
    | some w => simp [getOrPrint]
  · intro name hname
    rw [List.map_filterMap]
    refine foldl_last_on _ (fun s : Settings V => name ∈ s.active.map Prod.fst) ?_ (fun s => getMethodActive s name) _ ?_ ops s hname
    · intro s o hs
      cases o <;> try exact hs
      · have := obj (fun s => s.active.map Prod.fst) (by assumption) (by assumption) (fun _ _ => rfl) s
        simp only [setStep]
        rw [this]; exact hs
      · simp only [setStep, onField]
        rw [setActive_keys]; exact hs
    · intro s o hs
      cases o <;> try rfl
      · exact obj (fun s => getMethodActive s name) _ _ (fun _ _ => rfl) s
      · rename_i n v
        exact setActive_lookup n name v s.active hs
  · intro hall
    have h := sizes_history observed dim ctor ops s
    have e : (ops.filterMap fun o => match o with | .defectSizes l => if l = [] then none else some (sortR l) | _ => none)
        = (ops.filterMap (askedSizes mn mx)).map sortR := by
      rw [List.map_filterMap]
      apply List.filterMap_congr
      intro o ho
      cases o <;> try rfl
      rename_i l
      have hl := hall l ho
      simp [askedSizes, hl, hl.1]
    rw [e] at h
    change getDefectSizes t = _ at h
    unfold lastOr at h ⊢
    rw [h, List.getLast?_map]
    cases hlast : (ops.filterMap (askedSizes mn mx)).getLast? with
    | none =>
      refine ⟨List.Perm.refl _, fun hne => ?_⟩
      rw [List.getLast?_eq_none_iff] at hlast
      exact absurd hlast hne
    | some l => exact ⟨sortR_perm l, fun _ => sortR_pairwise l⟩

/-- A rejected `setDefectSizes` is not ignored: whatever the history, `getDefectSizes` returns the rejected sizes. -/
theorem C131_violated (observed : List ℝ) (mn mx : ℝ) (hmn : IsLeast {x | x ∈ observed} mn) (hmx : IsGreatest {x | x ∈ observed} mx)
    (dim : Option ℕ) (ctor : ObjKind → V → Option ErrKind) (ops : List (SetOp V)) (s : Settings V) (l : List ℝ) (hl : ∃ d ∈ l, d < mn ∨ mx < d) :
    Raises (setStep observed dim ctor (.defectSizes l) (setHistory observed dim ctor ops s)).1 .valueError ∧
    (getDefectSizes (setHistory observed dim ctor (ops ++ [.defectSizes l]) s)).Perm l := by
  have hne : l ≠ [] := by rintro rfl; obtain ⟨d, hd, -⟩ := hl; simp at hd
  constructor
  · exact (C32_setDefectSizes observed mn mx hmn hmx l hne _).1.mpr hl
  · rw [sizes_history, List.filterMap_append]
    simp [lastOr, hne, List.filterMap_cons, sortR_perm]

/-- **C131, nothing to return.**  The getters of the POD classes for a distribution or an object of openturns return the last accepted value, without
message; when none was accepted and there is no initial value they return `None` and print the message. -/
theorem C131_message_partial (observed : List ℝ) (mn mx : ℝ) (hmn : IsLeast {x | x ∈ observed} mn) (hmx : IsGreatest {x | x ∈ observed} mx)
    (dim : Option ℕ) (ctor : ObjKind → V → Option ErrKind) (ops : List (SetOp V)) (s : Settings V) :
    let t := setHistory observed dim ctor ops s
    (∀ k, (getObject k t).value = lastOr ((ops.filterMap (askedObject ctor k)).map some) (getObject k s).value) ∧
    (getDistributionPOD t).value = lastOr ((ops.filterMap (askedDistribution dim)).map some) (getDistributionPOD s).value ∧
    (∀ k, (getObject k t).message = if (getObject k t).value = none then some "The run method must be launched first." else none) ∧
    (getDistributionPOD t).message = if (getDistributionPOD t).value = none then some "The run method must be launched first." else none := by
  intro t
  have h := C131_history_partial observed mn mx hmn hmx dim ctor ops s
  have hv : ∀ {α : Type} (o : Option α), (getOrPrint o).value = o := fun o => by cases o <;> rfl
  refine ⟨fun k => ?_, ?_, fun k => ?_, ?_⟩
  · have hk := h.2.2.2.2.2.2.2.2.2.1 k
    have : ∀ v, (getObject k t).value = some v ↔ lastOr ((ops.filterMap (askedObject ctor k)).map some) (getObject k s).value = some v := by
      intro v
      rw [← hk v]
      change _ ↔ getObject k t = _
      unfold getObject
      cases t.objects k <;> simp [getOrPrint]
    exact Option.ext this
  · unfold getDistributionPOD
    rw [hv, hv]
    exact h.2.2.2.2.2.2.2.2.1
  · classical
    unfold getObject
    cases t.objects k <;> simp [getOrPrint]
  · unfold getDistributionPOD
    cases t.distribution <;> simp [getOrPrint]

example (s : Settings ℕ) (ctor : ObjKind → ℕ → Option ErrKind) (h : s.objects .basis = none) :
    (getObject .basis (setHistory [1, 2, 3] none ctor [.verbose (.bool false)] s)).message = some "The run method must be launched first." := by
  obtain ⟨h1, -, h2, -⟩ := C131_message_partial [1, 2, 3] 1 3 (by constructor <;> simp [mem_lowerBounds])
    (by constructor <;> simp [mem_upperBounds]; norm_num) none ctor [.verbose (.bool false)] s
  rw [h2 .basis, h1 .basis]
  simp [askedObject, lastOr, getObject, getOrPrint, h, List.filterMap_cons]

/-- **C131, integration rule.**  `getGaussKronrod` returns the last accepted integration rule, or the initial one, and prints nothing. -/
theorem C131_gaussKronrod (observed : List ℝ) (mn mx : ℝ) (hmn : IsLeast {x | x ∈ observed} mn) (hmx : IsGreatest {x | x ∈ observed} mx)
    (dim : Option ℕ) (ctor : ObjKind → V → Option ErrKind) (ops : List (SetOp V)) (s : Settings V) :
    getGaussKronrod (setHistory observed dim ctor ops s) = lastOr ((ops.filterMap (askedObject ctor .gaussKronrod)).map some) (getGaussKronrod s) := by
  have h := (C131_message_partial observed mn mx hmn hmx dim ctor ops s).1 .gaussKronrod
  have hv : ∀ t : Settings V, (getObject .gaussKronrod t).value = getGaussKronrod t := fun t => by
    unfold getObject getGaussKronrod
    cases t.objects .gaussKronrod <;> rfl
  rw [hv, hv] at h
  exact h

example (s : Settings ℕ) : getGaussKronrod (setHistory [1, 2, 3] none (fun _ v => if v = 0 then some .notImplemented else none)
    [.object .basis 4, .object .gaussKronrod 7, .object .gaussKronrod 0, .object .basis 5] s) = some 7 := by
  rw [C131_gaussKronrod [1, 2, 3] 1 3 (by constructor <;> simp [mem_lowerBounds]) (by constructor <;> simp [mem_upperBounds]; norm_num)]
  simp [askedObject, lastOr, List.filterMap_cons]

/-- The hypotheses of `C131_history_partial` on a history with rejected and accepted calls. -/
example (s : Settings ℕ) (ctor : ObjKind → ℕ → Option ErrKind) :
    getVerbose (setHistory [1, 2, 3] none ctor [.verbose (.bool false), .verbose (.int 1), .degree (.int 4), .defectSizes [3, 1]] s) = false ∧
    getDegree (setHistory [1, 2, 3] none ctor [.verbose (.bool false), .verbose (.int 1), .degree (.int 4), .defectSizes [3, 1]] s) = .int 4 := by
  have h := C131_history_partial [1, 2, 3] 1 3 (by constructor <;> simp [mem_lowerBounds]) (by constructor <;> simp [mem_upperBounds]; norm_num)
    none ctor [.verbose (.bool false), .verbose (.int 1), .degree (.int 4), .defectSizes [3, 1]] s
  exact ⟨h.2.2.2.2.2.1, h.2.2.2.2.1⟩

end Verif.Props
