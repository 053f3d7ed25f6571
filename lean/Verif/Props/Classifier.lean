import Verif.Props.HitMiss
import Verif.Model.Classifier

/-!
# C219, C220: the classifiers of a hit-miss run
-/

namespace Verif.Props
open Verif.Py Verif.Model

variable {V X : Type}

/-- A call that concerns the window only. -/
def WindowCall {P : Type} : HMSetter P → Prop
  | .pmin _ => True
  | .pmax _ => True
  | _ => False

theorem window_calls {P : Type} (defaults : String → P) (cs : List (HMSetter P)) (hc : ∀ c ∈ cs, WindowCall c) (o : HMOptions P) :
    (cs.foldl (fun s c => (hmSet defaults c s).2) o).kind = o.kind ∧ (cs.foldl (fun s c => (hmSet defaults c s).2) o).params = o.params := by
  induction cs generalizing o with
  | nil => exact ⟨rfl, rfl⟩
  | cons c cs ih =>
    have h := ih (fun c h => hc c (List.mem_cons_of_mem _ h)) (hmSet defaults c o).2
    have h1 : (hmSet defaults c o).2.kind = o.kind ∧ (hmSet defaults c o).2.params = o.params := by
      have := hc c List.mem_cons_self
      cases c with
      | pmin p =>
        simp only [hmSet, setPMin]
        split_ifs <;> exact ⟨rfl, rfl⟩
      | pmax p =>
        simp only [hmSet, setPMax]
        split_ifs <;> exact ⟨rfl, rfl⟩
      | kind k => exact absurd this id
      | params p => exact absurd this id
    rw [List.foldl_cons]
    exact ⟨h.1.trans h1.1, h.2.trans h1.2⟩

theorem firstOfMap_error {V : Type} (p : List (List V)) (hp : p.length ≠ 4 ∨ [] ∈ p) :
    ∃ e, (e.kind = .typeError ∨ e.kind = .indexError) ∧ firstOfMap p = .error e := by
  unfold firstOfMap
  split
  · exact ⟨_, Or.inl rfl, rfl⟩
  · simp at hp
  · split_ifs
    · exact ⟨_, Or.inr rfl, rfl⟩
    · exact ⟨_, Or.inl rfl, rfl⟩

/-- **C219 (restricted): which classifier is built.**  After `setClassifierType(k)` it is the one of type `k` with the default arguments; after
`setClassifierParameters` with four lists that are not empty, the one of the current type with the first value of each list; calls on the window in between
do not matter.  With other lists nothing is built. -/
theorem C219_built_partial (o : HMOptions (List (List PyParam))) (cs : List (HMSetter (List (List PyParam)))) (hc : ∀ c ∈ cs, WindowCall c) :
    buildEstimator (cs.foldl (fun s c => (hmSet classifierDefaults c s).2) (setClassifierType classifierDefaults "rf" o).2) =
      .ok ⟨"rf", (.num 100, .pyNone, .num 2, .num 0)⟩ ∧
    buildEstimator (cs.foldl (fun s c => (hmSet classifierDefaults c s).2) (setClassifierType classifierDefaults "svc" o).2) =
      .ok ⟨"svc", (.num 1, .str "poly", .num 3, .bool true)⟩ ∧
    (o.kind = "rf" ∨ o.kind = "svc" → ∀ p : List (List PyParam),
      (∀ a b c d la lb lc ld, p = [a :: la, b :: lb, c :: lc, d :: ld] →
        buildEstimator (cs.foldl (fun s c => (hmSet classifierDefaults c s).2) (setClassifierParameters p o).2) = .ok ⟨o.kind, (a, b, c, d)⟩) ∧
      (p.length ≠ 4 ∨ [] ∈ p → ∃ e, (e.kind = .typeError ∨ e.kind = .indexError) ∧
        buildEstimator (cs.foldl (fun s c => (hmSet classifierDefaults c s).2) (setClassifierParameters p o).2) = .error e)) := by
  refine ⟨?_, ?_, fun hk p => ⟨?_, ?_⟩⟩
  · obtain ⟨h1, h2⟩ := window_calls classifierDefaults cs hc (setClassifierType classifierDefaults "rf" o).2
    rw [buildEstimator, h1, h2]
    simp [setClassifierType, classifierDefaults, firstOfMap]
  · obtain ⟨h1, h2⟩ := window_calls classifierDefaults cs hc (setClassifierType classifierDefaults "svc" o).2
    rw [buildEstimator, h1, h2]
    simp [setClassifierType, classifierDefaults, firstOfMap]
  · rintro a b c d la lb lc ld rfl
    obtain ⟨h1, h2⟩ := window_calls classifierDefaults cs hc (setClassifierParameters [a :: la, b :: lb, c :: lc, d :: ld] o).2
    rw [buildEstimator, h1, h2]
    simp [setClassifierParameters, firstOfMap, hk.symm]
  · intro hp
    obtain ⟨h1, h2⟩ := window_calls classifierDefaults cs hc (setClassifierParameters p o).2
    rw [buildEstimator, h1, h2]
    have hk' : (setClassifierParameters p o).2.kind = "svc" ∨ (setClassifierParameters p o).2.kind = "rf" := hk.symm
    rw [if_pos hk']
    have hpp : (setClassifierParameters p o).2.params = p := rfl
    obtain ⟨e, he, hf⟩ := firstOfMap_error p hp
    rw [hpp, hf]
    exact ⟨e, he, rfl⟩

/-- **C219 (restricted): the run trains that classifier at each iteration.**  On data with two classes. -/
theorem C219_run_partial (sk : SkEnv V X) (o : HMOptions (List (List V))) (est : Estimator V) (hb : buildEstimator o = .ok est) (cand : List X) (nMore : ℕ)
    (s : HMAttrs X) (h0 : false ∈ s.labels) (h1 : true ∈ s.labels) :
    hmFullRun sk o cand nMore s = hmRun ⟨sk.physical, sk.train est, sk.argsort⟩ cand nMore { s with pmin := o.pmin, pmax := o.pmax } := by
  have hone : oneClass s.labels = false := by
    rw [oneClass, Bool.or_eq_false_iff, List.all_eq_false, List.all_eq_false]
    exact ⟨⟨false, h0, by simp⟩, ⟨true, h1, by simp⟩⟩
  have hf : classifierFit sk o = sk.train est := by
    funext it xs ys
    rw [classifierFit, hb]
  rw [hmFullRun]
  dsimp only
  rw [hone, if_neg (by simp), hf]

/-- **C219 violated.**  Further values of the lists are ignored without a message, whatever they are. -/
theorem C219_violated_values (sk : SkEnv V X) (o : HMOptions (List (List V))) (a b c d : V) (la lb lc ld : List V) (cand : List X) (nMore : ℕ) (s : HMAttrs X) :
    hmFullRun sk (setClassifierParameters [a :: la, b :: lb, c :: lc, d :: ld] o).2 cand nMore s =
      hmFullRun sk (setClassifierParameters [[a], [b], [c], [d]] o).2 cand nMore s := by
  have hb : buildEstimator (setClassifierParameters [a :: la, b :: lb, c :: lc, d :: ld] o).2 = buildEstimator (setClassifierParameters [[a], [b], [c], [d]] o).2 := by
    by_cases h : o.kind = "svc" ∨ o.kind = "rf" <;> simp [buildEstimator, setClassifierParameters, firstOfMap, h]
  have hf : classifierFit sk (setClassifierParameters [a :: la, b :: lb, c :: lc, d :: ld] o).2 =
      classifierFit sk (setClassifierParameters [[a], [b], [c], [d]] o).2 := by
    funext it xs ys
    rw [classifierFit, classifierFit, hb]
  rw [hmFullRun, hmFullRun]
  dsimp only
  rw [hb, hf]
  rfl

/-- **C219 violated.**  Naming again the type in force discards the parameters given before. -/
theorem C219_violated_type (o : HMOptions (List (List PyParam))) (hk : o.kind = "rf") (p : List (List PyParam)) :
    (setClassifierType classifierDefaults "rf" (setClassifierParameters p o).2).2 = { o with params := [[.num 100], [.pyNone], [.num 2], [.num 0]] } := by
  cases o
  simp_all [setClassifierType, setClassifierParameters, classifierDefaults]

/-- **C219 violated.**  After parameters that are not four lists with values the run raises, and so does every later run of the object, whatever the user
corrects: `_input` has become a numpy array. -/
theorem C219_violated_recover (sk : SkEnv V X) (o o' : HMOptions (List (List V))) (hbad : o.params.length ≠ 4) (cand cand' : List X) (nMore nMore' : ℕ)
    (s : HMAttrs X) :
    (∃ e, (hmFullRun sk o cand nMore s).1 = .error e) ∧ Raises (hmFullRun sk o' cand' nMore' (hmFullRun sk o cand nMore s).2).1 .attributeError := by
  obtain ⟨e, he⟩ : ∃ e, buildEstimator o = .error e := by
    unfold buildEstimator
    split_ifs with h
    · obtain ⟨e, -, hf⟩ := firstOfMap_error o.params (Or.inl hbad)
      rw [hf]
      exact ⟨_, rfl⟩
    · exact ⟨_, rfl⟩
  have hf : ∀ it xs ys, classifierFit sk o it xs ys = .error e := fun it xs ys => by rw [classifierFit, he]
  have hrun : (∃ e, (hmFullRun sk o cand nMore s).1 = .error e) ∧ (hmFullRun sk o cand nMore s).2.numpy = true := by
    unfold hmFullRun
    dsimp only
    by_cases h1 : oneClass s.labels = true
    · rw [if_pos h1]
      by_cases h2 : s.numpy = true
      · rw [if_pos h2]
        exact ⟨⟨_, rfl⟩, h2⟩
      · rw [if_neg h2, he]
        exact ⟨⟨_, rfl⟩, rfl⟩
    · rw [if_neg h1]
      unfold hmRun
      dsimp only
      by_cases h2 : s.numpy = true
      · rw [if_pos h2]
        exact ⟨⟨_, rfl⟩, h2⟩
      · rw [if_neg h2, hf]
        exact ⟨⟨_, rfl⟩, rfl⟩
  refine ⟨hrun.1, ?_⟩
  have hn := hrun.2
  generalize (hmFullRun sk o cand nMore s).2 = s' at hn
  unfold hmFullRun
  dsimp only
  split_ifs
  · exact ⟨_, rfl⟩
  · unfold hmRun
    dsimp only
    rw [if_pos hn]
    exact ⟨_, rfl⟩

/-- **C220 violated.**  When all labels are equal, accepted by the constructor, no run succeeds: IndexError for the default classifier (unless training
raises itself), ValueError for the other; when points are to be added the object cannot be run any more, whatever the options. -/
theorem C220_violated (sk : SkEnv V X) (o : HMOptions (List (List V))) (est : Estimator V) (hb : buildEstimator o = .ok est) (cand : List X) (nMore : ℕ)
    (s : HMAttrs X) (hn : s.numpy = false) (b : Bool) (hl : ∀ y ∈ s.labels, y = b) :
    (est.kind = "svc" → Raises (hmFullRun sk o cand nMore s).1 .valueError) ∧
    (est.kind ≠ "svc" → (∃ g, sk.train est 0 s.input s.labels = .ok g) → Raises (hmFullRun sk o cand nMore s).1 .indexError) ∧
    (0 < nMore → ∀ o' cand' nMore', Raises (hmFullRun sk o' cand' nMore' (hmFullRun sk o cand nMore s).2).1 .attributeError) := by
  have hone : oneClass s.labels = true := by
    rw [oneClass, Bool.or_eq_true, List.all_eq_true, List.all_eq_true]
    cases b with
    | true => exact Or.inl fun y hy => hl y hy
    | false => exact Or.inr fun y hy => by rw [hl y hy]; rfl
  have hrun : hmFullRun sk o cand nMore s = (if est.kind = "svc" then
        (.error ⟨.valueError, "The number of classes has to be greater than one; got 1 class"⟩, { s with pmin := o.pmin, pmax := o.pmax, numpy := true })
        else
          match sk.train est 0 s.input s.labels with
          | .error e => (.error e, { s with pmin := o.pmin, pmax := o.pmax, numpy := true })
          | .ok g =>
            if 0 < nMore then (.error ⟨.indexError, "index 1 is out of bounds for axis 1 with size 1"⟩,
              { s with pmin := o.pmin, pmax := o.pmax, numpy := true, model := some (.base g, none) })
            else (.error ⟨.indexError, "index 1 is out of bounds for axis 1 with size 1"⟩,
              { s with pmin := o.pmin, pmax := o.pmax, model := some (.base g, none) })) := by
    unfold hmFullRun
    dsimp only
    rw [if_pos hone, hn, if_neg (by simp), hb]
    rfl
  refine ⟨fun h => ?_, fun h ⟨g, hg⟩ => ?_, fun hpos o' cand' nMore' => ?_⟩
  · rw [hrun, if_pos h]
    exact ⟨_, rfl⟩
  · rw [hrun, if_neg h, hg]
    dsimp only
    split_ifs <;> exact ⟨_, rfl⟩
  · have hnum : (hmFullRun sk o cand nMore s).2.numpy = true := by
      rw [hrun]
      split_ifs
      · rfl
      · split <;> rfl
    generalize (hmFullRun sk o cand nMore s).2 = s' at hnum
    unfold hmFullRun
    dsimp only
    split_ifs
    · exact ⟨_, rfl⟩
    · unfold hmRun
      dsimp only
      rw [if_pos hnum]
      exact ⟨_, rfl⟩

/-- **C220 (restricted).**  With both labels in the data, added points or not, the one-column case does not occur: the run is the one studied in C50–C55, and
without added points it succeeds exactly when the classifier can be built and trained. -/
theorem C220_two_classes_partial (sk : SkEnv V X) (o : HMOptions (List (List V))) (cand : List X) (s : HMAttrs X) (hn : s.numpy = false)
    (h0 : false ∈ s.labels) (h1 : true ∈ s.labels) :
    (hmFullRun sk o cand 0 s).1 = .ok () ↔ ∃ est g, buildEstimator o = .ok est ∧ sk.train est 0 s.input s.labels = .ok g := by
  have hone : oneClass s.labels = false := by
    rw [oneClass, Bool.or_eq_false_iff, List.all_eq_false, List.all_eq_false]
    exact ⟨⟨false, h0, by simp⟩, ⟨true, h1, by simp⟩⟩
  have : hmFullRun sk o cand 0 s = hmRun ⟨sk.physical, classifierFit sk o, sk.argsort⟩ cand 0 { s with pmin := o.pmin, pmax := o.pmax } := by
    rw [hmFullRun]
    dsimp only
    rw [hone, if_neg (by simp)]
  rw [this, hmRun]
  dsimp only
  rw [hn, if_neg (by simp), classifierFit]
  cases hb : buildEstimator o with
  | error e => simp
  | ok est =>
    dsimp only
    cases ht : sk.train est 0 s.input s.labels with
    | error e => simp [ht]
    | ok g => simp [ht, hmLoop]

/-- The options of a new object (112-117). -/
noncomputable def newOptions : HMOptions (List (List PyParam)) := ⟨.fin 0.45, .fin 0.52, "rf", classifierDefaults "rf"⟩

/-- An environment in which every training gives the constant 1/2. -/
noncomputable def halfSk : SkEnv PyParam ℝ := ⟨fun _ => .ok true, fun _ _ _ _ => .ok fun _ => .fin (1 / 2), fun l => List.range l.length⟩

/-- The hypotheses of `C219_built_partial`: 500 trees, then another window. -/
example : buildEstimator ([HMSetter.pmin (.fin 0.4)].foldl (fun s c => (hmSet classifierDefaults c s).2)
      (setClassifierParameters [[.num 500, .num 800], [.pyNone], [.num 2], [.num 0]] newOptions).2) = .ok ⟨"rf", (.num 500, .pyNone, .num 2, .num 0)⟩ :=
  ((C219_built_partial newOptions [.pmin (.fin 0.4)] (by simp [WindowCall])).2.2 (Or.inl rfl) _).1 _ _ _ _ _ _ _ _ rfl

/-- The hypotheses of `C219_run_partial` and `C220_two_classes_partial`: a detected and a missed defect. -/
example : (hmFullRun halfSk newOptions [1, 2] 0 ⟨[0, 3], [false, true], false, none, none, .fin 0, .fin 1⟩).1 = .ok () :=
  (C220_two_classes_partial halfSk newOptions [1, 2] ⟨[0, 3], [false, true], false, none, none, .fin 0, .fin 1⟩ rfl (by simp) (by simp)).mpr
    ⟨⟨"rf", (.num 100, .pyNone, .num 2, .num 0)⟩, _, by simp [buildEstimator, newOptions, classifierDefaults, firstOfMap], rfl⟩

example : hmFullRun halfSk newOptions [1, 2] 5 ⟨[0, 3], [false, true], false, none, none, .fin 0, .fin 1⟩ =
    hmRun ⟨halfSk.physical, halfSk.train ⟨"rf", (.num 100, .pyNone, .num 2, .num 0)⟩, halfSk.argsort⟩ [1, 2] 5
      ⟨[0, 3], [false, true], false, none, none, .fin 0.45, .fin 0.52⟩ :=
  C219_run_partial halfSk newOptions ⟨"rf", (.num 100, .pyNone, .num 2, .num 0)⟩ (by simp [buildEstimator, newOptions, classifierDefaults, firstOfMap]) [1, 2] 5
    ⟨[0, 3], [false, true], false, none, none, .fin 0, .fin 1⟩ (by simp) (by simp)

/-- The hypotheses of the violations: an argument without lists, and two detected defects. -/
example : Raises (hmFullRun halfSk newOptions [1] 5 (hmFullRun halfSk { newOptions with params := [] } [1] 5
    ⟨[0, 3], [false, true], false, none, none, .fin 0, .fin 1⟩).2).1 .attributeError :=
  (C219_violated_recover halfSk { newOptions with params := [] } newOptions (by simp) [1] [1] 5 5 ⟨[0, 3], [false, true], false, none, none, .fin 0, .fin 1⟩).2

example : Raises (hmFullRun halfSk newOptions [1] 5 ⟨[0, 3], [true, true], false, none, none, .fin 0, .fin 1⟩).1 .indexError :=
  (C220_violated halfSk newOptions ⟨"rf", (.num 100, .pyNone, .num 2, .num 0)⟩ (by simp [buildEstimator, newOptions, classifierDefaults, firstOfMap]) [1] 5
    ⟨[0, 3], [true, true], false, none, none, .fin 0, .fin 1⟩ rfl true (by simp)).2.1 (by simp) ⟨_, rfl⟩

end Verif.Props
