import Verif.Props.PliPod
import Verif.Model.PliViews

/-!
# C201: the indices returned by the perturbation analysis do not change afterwards
-/

namespace Verif.Props
open Verif.Py Verif.Model

variable {Obj : Type}

/-- A call of the user. -/
noncomputable def memExec : PliOp Obj → PliMem Obj → Res Unit × PliMem Obj
  | .setSizes size, m => memSetSizes size m
  | .run env, m => memRun env m

/-- Any calls; exceptions are caught by the caller. -/
noncomputable def memExecs (ops : List (PliOp Obj)) (m : PliMem Obj) : PliMem Obj := ops.foldl (fun m op => (memExec op m).2) m

/-- The eight branches of `getIndices` index the cube with the three selectors. -/
theorem getIndices_index (c : Cube) (i j k : Option ℤ) : getIndices c i j k = c.index i j k := by
  cases i <;> cases j <;> cases k <;> simp [getIndices]

/-- The shape of a cube. -/
def _root_.Verif.Model.Cube.shape (c : Cube) : ℕ × ℕ × ℕ := (c.n0, c.n1, c.n2)

theorem setSlice_shape (c c' : Cube) (i : ℕ) (m : ℕ → ℕ → F ℝ) (h : c.setSlice i m = .ok c') : c'.shape = c.shape := by
  unfold Cube.setSlice at h
  split at h
  · cases h; rfl
  · cases h

theorem runLoop_shape (env : RunEnv Obj) (pairs : List (ℕ × ℝ)) (s : PliPod Obj × List ℕ) :
    (pliRunLoop env pairs s).2.1.indices.shape = s.1.indices.shape := by
  induction pairs generalizing s with
  | nil => rfl
  | cons q rest ih =>
    obtain ⟨i, d⟩ := q
    have hstep : (pliRunStep env i d s).2.1.indices.shape = s.1.indices.shape := by
      obtain ⟨s, kept⟩ := s
      unfold pliRunStep
      dsimp only
      split
      · split
        · rfl
        · split
          · split
            · rfl
            · rename_i hc; exact setSlice_shape _ _ _ _ hc
          · rfl
      · split
        · split
          · rfl
          · rename_i hc; exact setSlice_shape _ _ _ _ hc
        · rfl
    rw [pliRunLoop]
    dsimp only
    split
    · rename_i h; rw [h] at hstep; exact hstep
    · rename_i h; rw [h] at hstep; rw [ih]; exact hstep

/-- A run keeps the shape of the array, whether it returns or raises: it can be done in place. -/
theorem run_shape (env : RunEnv Obj) (s : PliPod Obj) : (pliRun env s).2.indices.shape = s.indices.shape := by
  have := runLoop_shape env ((List.range s.defectSizes.length).zip s.defectSizes) (s, List.range s.defectNumber)
  unfold pliRun
  dsimp only
  split
  · rename_i h; rw [h] at this; exact this
  · rename_i h
    rw [h] at this
    split <;> exact this

/-- The object behind is that of C65: the arrays do not influence it. -/
theorem memExec_pod (op : PliOp Obj) (m : PliMem Obj) :
    (memExec op m).1 = (pliExec op m.pod).1 ∧ (memExec op m).2.pod = (pliExec op m.pod).2 := by
  cases op with
  | run env => exact ⟨rfl, rfl⟩
  | setSizes size =>
    simp only [memExec, memSetSizes, pliExec]
    cases h : pliSetDefectSizes size m.pod with
    | mk r p => cases r <;> exact ⟨rfl, rfl⟩

/-- An array that is no longer that of the object is never written again. -/
theorem old_prefix (ops : List (PliOp Obj)) (m : PliMem Obj) : ∃ l, (memExecs ops m).old = m.old ++ l := by
  induction ops generalizing m with
  | nil => exact ⟨[], by simp [memExecs]⟩
  | cons op ops ih =>
    obtain ⟨l, hl⟩ := ih (memExec op m).2
    have h1 : ∃ l1, (memExec op m).2.old = m.old ++ l1 := by
      cases op with
      | run env => exact ⟨[], by simp [memExec, memRun]⟩
      | setSizes size =>
        simp only [memExec, memSetSizes]
        cases h : pliSetDefectSizes size m.pod with
        | mk r p =>
          cases r with
          | error e => exact ⟨[], by simp⟩
          | ok u => exact ⟨[m.pod.indices], rfl⟩
    obtain ⟨l1, h1⟩ := h1
    refine ⟨l1 ++ l, ?_⟩
    change (memExecs ops (memExec op m).2).old = _
    rw [hl, h1, List.append_assoc]

/-- Reading at once gives what C66 describes. -/
theorem C201_read_at_once (m : PliMem Obj) (i j k : Option ℤ) (h : Held) (hg : memGet m i j k = .ok h) :
    readHeld m h = getIndices m.pod.indices i j k := by
  unfold memGet at hg
  cases hc : getIndices m.pod.indices i j k with
  | error e => rw [hc] at hg; cases hg
  | ok nd =>
    rw [hc] at hg
    cases nd with
    | d0 x => rw [← Except.ok.inj hg]; rfl
    | d1 n v =>
      rw [← Except.ok.inj hg, readHeld, PliMem.arrays]
      simp [← hc, getIndices_index]
    | d2 n n' v =>
      rw [← Except.ok.inj hg, readHeld, PliMem.arrays]
      simp [← hc, getIndices_index]
    | d3 c =>
      rw [← Except.ok.inj hg, readHeld, PliMem.arrays]
      simp [← hc, getIndices_index]

/-- **C201 (partial).**  A result asked for with all three selectors never changes, whatever is called afterwards; any other result never changes once
new sizes have been accepted, whatever is called after that.  Missing: calls of `run` before new sizes are accepted, for which the claim is
false. -/
theorem C201_snapshot_partial (m : PliMem Obj) (i j k : Option ℤ) (h : Held) (hg : memGet m i j k = .ok h) (ops : List (PliOp Obj)) :
    (i.isSome → j.isSome → k.isSome → readHeld (memExecs ops m) h = getIndices m.pod.indices i j k) ∧
    ∀ size, (memSetSizes size m).1 = .ok () → readHeld (memExecs (.setSizes size :: ops) m) h = getIndices m.pod.indices i j k := by
  have hat := C201_read_at_once m i j k h hg
  constructor
  · intro hi hj hk
    obtain ⟨i, rfl⟩ := Option.isSome_iff_exists.mp hi
    obtain ⟨j, rfl⟩ := Option.isSome_iff_exists.mp hj
    obtain ⟨k, rfl⟩ := Option.isSome_iff_exists.mp hk
    have : ∃ x, h = .number x := by
      unfold memGet at hg
      rw [getIndices_index] at hg
      unfold Cube.index resolveSel at hg
      rcases resolveIdx_cases m.pod.indices.n0 i with ⟨a, ha⟩ | ha <;> rcases resolveIdx_cases m.pod.indices.n1 j with ⟨b, hb⟩ | hb <;>
        rcases resolveIdx_cases m.pod.indices.n2 k with ⟨d, hd⟩ | hd <;> simp [ha, hb, hd] at hg
      exact ⟨_, hg.symm⟩
    obtain ⟨x, rfl⟩ := this
    rw [← hat]; rfl
  · intro size hs
    have hm : ((memSetSizes size m).2 : PliMem Obj).old = m.old ++ [m.pod.indices] := by
      unfold memSetSizes at hs ⊢
      cases hp : pliSetDefectSizes size m.pod with
      | mk r p =>
        rw [hp] at hs
        cases r with
        | error e => cases hs
        | ok u => rfl
    obtain ⟨l, hl⟩ := old_prefix ops (memSetSizes size m).2
    rw [hm] at hl
    rw [← hat]
    cases h with
    | number x => rfl
    | view a s0 s1 s2 =>
      have ha : a = m.old.length := by
        unfold memGet at hg
        cases hc : getIndices m.pod.indices i j k with
        | error e => rw [hc] at hg; cases hg
        | ok nd =>
          rw [hc] at hg
          cases nd <;> simp only [Except.ok.injEq, Held.view.injEq, reduceCtorEq] at hg <;> exact hg.1.symm
      subst ha
      have e1 : (memExecs (.setSizes size :: ops) m).arrays[m.old.length]? = some m.pod.indices := by
        change (memExecs ops (memSetSizes size m).2).arrays[m.old.length]? = _
        rw [PliMem.arrays, hl]
        simp
      have e2 : m.arrays[m.old.length]? = some m.pod.indices := by
        rw [PliMem.arrays]; simp
      rw [readHeld, readHeld, e1, e2]

/-- **C201 is violated.**  A result that is an array (a selector left out) shows, after later runs, the indices of the last of them: whatever was
returned before the runs, and whether they returned or raised on the way. -/
theorem C201_violated (m : PliMem Obj) (i j k : Option ℤ) (h : Held) (hg : memGet m i j k = .ok h) (hne : i = none ∨ j = none ∨ k = none)
    (envs : List (RunEnv Obj)) :
    readHeld (memExecs (envs.map .run) m) h = getIndices (memExecs (envs.map .run) m).pod.indices i j k := by
  have key : ∀ (es : List (RunEnv Obj)) (m : PliMem Obj), (memExecs (es.map .run) m).old = m.old := by
    intro es
    induction es with
    | nil => exact fun m => rfl
    | cons e es ih => exact fun m => ih _
  have hold := key envs m
  have hv : h = .view m.old.length i j k := by
    unfold memGet at hg
    cases hc : getIndices m.pod.indices i j k with
    | error e => rw [hc] at hg; cases hg
    | ok nd =>
      rw [hc] at hg
      cases nd with
      | d0 x =>
        exfalso
        rw [getIndices_index] at hc
        unfold Cube.index at hc
        have hs : ∀ n (o : Option ℤ) r, resolveSel n o = .ok r → (r = none ↔ o = none) := by
          intro n o r hr
          cases o with
          | none => rw [← Except.ok.inj hr]; simp
          | some z =>
            rcases resolveIdx_cases n z with ⟨a, ha⟩ | ha <;> simp [resolveSel, ha] at hr
            rw [← hr]; simp
        cases h0 : resolveSel m.pod.indices.n0 i with
        | error e => simp [h0] at hc
        | ok a =>
        cases h1 : resolveSel m.pod.indices.n1 j with
        | error e => simp [h0, h1] at hc
        | ok b =>
        cases h2 : resolveSel m.pod.indices.n2 k with
        | error e => simp [h0, h1, h2] at hc
        | ok d =>
        rw [← hs _ _ _ h0, ← hs _ _ _ h1, ← hs _ _ _ h2] at hne
        cases a <;> cases b <;> cases d <;> simp [h0, h1, h2] at hc hne
      | d1 n v => exact (Except.ok.inj hg).symm
      | d2 n n' v => exact (Except.ok.inj hg).symm
      | d3 c => exact (Except.ok.inj hg).symm
  subst hv
  rw [readHeld, PliMem.arrays, hold, getIndices_index]
  simp

/-- **C201 is violated, in values.**  The array returned between two completed runs holds, after the second, what the second computed: at every defect
size that is not degenerate for it, its indices. -/
theorem C201_violated_values (env1 env2 : RunEnv Obj) (m m1 m2 : PliMem Obj) (hc : PliConsistent m.pod) (h1 : memRun env1 m = (.ok (), m1))
    (h2 : memRun env2 m1 = (.ok (), m2)) :
    ∃ h, memGet m1 none none none = .ok h ∧ readHeld m1 h = .ok (.d3 m1.pod.indices) ∧
      ∃ c, readHeld m2 h = .ok (.d3 c) ∧ ∀ i, ∀ hi : i < m.pod.defectSizes.length,
        (∀ obj v, NonDegenerate (env1.pf i m.pod.defectSizes[i]) → env1.build i m.pod.defectSizes[i] = .ok (obj, v) →
          ∀ a b, m1.pod.indices.v a b i = v a b) ∧
        (∀ obj v, NonDegenerate (env2.pf i m.pod.defectSizes[i]) → env2.build i m.pod.defectSizes[i] = .ok (obj, v) → ∀ a b, c.v a b i = v a b) ∧
        (¬ NonDegenerate (env2.pf i m.pod.defectSizes[i]) → ∀ a b, c.v a b i = .nan) := by
  have p1 : pliRun env1 m.pod = (.ok (), m1.pod) := by
    have := congrArg Prod.fst h1
    have h' := congrArg (fun r => r.2.pod) h1
    exact Prod.ext this h'
  have p2 : pliRun env2 m1.pod = (.ok (), m2.pod) := by
    have := congrArg Prod.fst h2
    have h' := congrArg (fun r => r.2.pod) h2
    exact Prod.ext this h'
  obtain ⟨c1, d1, v1, -⟩ := C65_after_run_partial env1 _ _ hc p1
  obtain ⟨-, -, v2, -⟩ := C65_after_run_partial env2 _ _ c1 p2
  have hm2 : m2 = memExecs ([env2].map .run) m1 := (congrArg Prod.snd h2).symm
  refine ⟨.view m1.old.length none none none, rfl, C201_read_at_once m1 none none none _ rfl, m2.pod.indices, ?_, ?_⟩
  · rw [hm2]
    exact C201_violated m1 none none none _ rfl (.inl rfl) [env2]
  · intro i hi
    have hv1 := v1 i hi
    have hv2 := v2 i (by rw [d1]; exact hi)
    simp only [d1] at hv2
    refine ⟨?_, ?_, fun hn => (hv2.2 hn).2⟩
    · intro obj v hn hb a b
      obtain ⟨o', v', hb', -, hv⟩ := hv1.1 hn
      rw [hb] at hb'
      simp only [Except.ok.injEq, Prod.mk.injEq] at hb'
      rw [hv, ← hb'.2]
    · intro obj v hn hb a b
      obtain ⟨o', v', hb', -, hv⟩ := hv2.1 hn
      rw [hb] at hb'
      simp only [Except.ok.injEq, Prod.mk.injEq] at hb'
      rw [hv, ← hb'.2]

/-- Runs whose indices are all `x`. -/
noncomputable def constRun (x : ℝ) : RunEnv ℕ where
  pf _ _ := 1 / 2
  build i _ := .ok (i, fun _ _ => .fin x)

/-- The index 1 of the first run turns into 2 in the caller's hands. -/
example : ∃ m1 m2 h, memRun (constRun 1) ⟨[], pliPodInit 1 2 0 1 [1 / 4]⟩ = (.ok (), m1) ∧ memRun (constRun 2) m1 = (.ok (), m2) ∧
    memGet m1 none none none = .ok h ∧ (∃ c, readHeld m1 h = .ok (.d3 c) ∧ c.v 0 0 0 = .fin 1) ∧ ∃ c, readHeld m2 h = .ok (.d3 c) ∧ c.v 0 0 0 = .fin 2 := by
  have hc := pliPodInit_consistent (Obj := ℕ) 1 2 0 1 [1 / 4]
  obtain ⟨s1, r1⟩ := C65_run_returns (constRun 1) _ hc fun i _ _ => ⟨_, rfl⟩
  obtain ⟨s2, r2⟩ := C65_run_returns (constRun 2) s1 (C65_after_run_partial _ _ _ hc r1).1 fun i _ _ => ⟨_, rfl⟩
  have h1 : memRun (constRun 1) ⟨[], pliPodInit 1 2 0 1 [1 / 4]⟩ = (.ok (), ⟨[], s1⟩) := by
    rw [memRun, r1]
  have h2 : memRun (constRun 2) ⟨[], s1⟩ = (.ok (), ⟨[], s2⟩) := by
    rw [memRun, r2]
  obtain ⟨h, hg, hr, c, hrc, hv⟩ := C201_violated_values _ _ _ _ _ hc h1 h2
  have hl : (pliPodInit (Obj := ℕ) 1 2 0 1 [1 / 4]).defectSizes.length = 1 := rfl
  have := hv 0 (by rw [hl]; norm_num)
  have nd : NonDegenerate (1 / 2 : ℝ) := by norm_num [NonDegenerate]
  exact ⟨_, _, h, h1, h2, hg, ⟨_, hr, this.1 _ _ nd rfl 0 0⟩, c, hrc, this.2.1 _ _ nd rfl 0 0⟩

/-- The single number asked for stays 1. -/
example : ∃ m1 m2 h, memRun (constRun 1) ⟨[], pliPodInit 1 2 0 1 [1 / 4]⟩ = (.ok (), m1) ∧ memRun (constRun 2) m1 = (.ok (), m2) ∧
    memGet m1 (some 0) (some 1) (some 0) = .ok h ∧ readHeld m2 h = .ok (.d0 (.fin 1)) := by
  have hc := pliPodInit_consistent (Obj := ℕ) 1 2 0 1 [1 / 4]
  obtain ⟨s1, r1⟩ := C65_run_returns (constRun 1) _ hc fun i _ _ => ⟨_, rfl⟩
  obtain ⟨s2, r2⟩ := C65_run_returns (constRun 2) s1 (C65_after_run_partial _ _ _ hc r1).1 fun i _ _ => ⟨_, rfl⟩
  have h1 : memRun (constRun 1) ⟨[], pliPodInit 1 2 0 1 [1 / 4]⟩ = (.ok (), ⟨[], s1⟩) := by
    rw [memRun, r1]
  have h2 : memRun (constRun 2) ⟨[], s1⟩ = (.ok (), ⟨[], s2⟩) := by
    rw [memRun, r2]
  obtain ⟨h, hg, hr, c, hrc, hv⟩ := C201_violated_values _ _ _ _ _ hc h1 h2
  have hl : (pliPodInit (Obj := ℕ) 1 2 0 1 [1 / 4]).defectSizes.length = 1 := rfl
  have nd : NonDegenerate (1 / 2 : ℝ) := by norm_num [NonDegenerate]
  have hval : s1.indices.v 0 1 0 = .fin 1 := (hv 0 (by rw [hl]; norm_num)).1 _ _ nd rfl 0 1
  have hn : s1.indices.n0 = 1 ∧ s1.indices.n1 = 2 ∧ s1.indices.n2 = 1 := by
    have := run_shape (constRun 1) (pliPodInit (Obj := ℕ) 1 2 0 1 [1 / 4])
    rw [r1] at this
    simpa [Cube.shape, pliPodInit, initMatrix] using this
  have hi : getIndices s1.indices (some 0) (some 1) (some 0) = .ok (.d0 (.fin 1)) := by
    rw [getIndices_index, Cube.index]
    simp [resolveSel, resolveIdx, hn, hval]
  have hg' : memGet (⟨[], s1⟩ : PliMem ℕ) (some 0) (some 1) (some 0) = .ok (.number (.fin 1)) := by
    rw [memGet, hi]
  exact ⟨_, _, _, h1, h2, hg', rfl⟩

end Verif.Props
