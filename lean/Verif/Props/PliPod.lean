import Verif.Model.PliPod
import Mathlib.Tactic.Linarith

/-!
# C65, C66: PLI objects per defect size, slices of the result cube
-/

namespace Verif.Props
open Verif.Py Verif.Model

variable {Obj : Type}

/-- The probability estimate allows the indices to be computed. -/
def NonDegenerate (pf : ℝ) : Prop := 1 / 1000 < pf ∧ pf < 999 / 1000

/-- The attributes describe the same defects. -/
def PliConsistent (s : PliPod Obj) : Prop :=
  s.defectNumber = s.defectSizes.length ∧ s.indices.n2 = s.defectNumber ∧ s.pli.length = s.defectNumber

theorem initMatrix_consistent (s : PliPod Obj) (h : s.defectNumber = s.defectSizes.length) : PliConsistent (initMatrix s) :=
  ⟨h, rfl, by simp [initMatrix]⟩

theorem pliRunStep_spec (env : RunEnv Obj) (i : ℕ) (d : ℝ) (s s' : PliPod Obj) (kept kept' : List ℕ)
    (h : pliRunStep env i d (s, kept) = (.ok (), (s', kept'))) :
    s'.defectSizes = s.defectSizes ∧ s'.defectNumber = s.defectNumber ∧ s'.indices.n2 = s.indices.n2 ∧
    s'.pli.length = s.pli.length ∧
    (∀ j, j ≠ i → s'.pli[j]? = s.pli[j]? ∧ ∀ a b, s'.indices.v a b j = s.indices.v a b j) ∧
    (NonDegenerate (env.pf i d) → kept' = kept ∧ ∃ obj m, env.build i d = .ok (obj, m) ∧ s'.pli[i]? = some (some obj) ∧
      ∀ a b, s'.indices.v a b i = m a b) ∧
    (¬ NonDegenerate (env.pf i d) → kept' = kept.erase i ∧ ∀ a b, s'.indices.v a b i = .nan) := by
  unfold pliRunStep at h
  dsimp only at h
  by_cases hw : env.pf i d > 1 / 1000 ∧ env.pf i d < 999 / 1000
  · rw [if_pos hw] at h
    have hw' : NonDegenerate (env.pf i d) := hw
    split at h
    · simp at h
    · rename_i obj m hb
      split at h
      · rename_i hlt
        unfold Cube.setSlice at h
        split at h
        · simp at h
        · rename_i c hc
          split at hc
          · rw [Except.ok.injEq] at hc
            simp only [Prod.mk.injEq, true_and] at h
            obtain ⟨rfl, rfl⟩ := h
            subst hc
            refine ⟨rfl, rfl, rfl, by simp, ?_, ?_, fun hn => absurd hw' hn⟩
            · intro j hj
              refine ⟨by simp [List.getElem?_set, Ne.symm hj], fun a b => by simp [hj]⟩
            · intro _
              exact ⟨rfl, obj, m, hb, by simp [List.getElem?_set, hlt], fun a b => by simp⟩
          · simp at hc
      · simp at h
  · rw [if_neg hw] at h
    have hw' : ¬ NonDegenerate (env.pf i d) := hw
    split at h
    · unfold Cube.setSlice at h
      split at h
      · simp at h
      · rename_i c hc
        split at hc
        · rw [Except.ok.injEq] at hc
          simp only [Prod.mk.injEq, true_and] at h
          obtain ⟨rfl, rfl⟩ := h
          subst hc
          exact ⟨rfl, rfl, rfl, rfl, fun j hj => ⟨rfl, fun a b => by simp [hj]⟩, fun hn => absurd hn hw',
            fun _ => ⟨rfl, fun a b => by simp⟩⟩
        · simp at hc
    · simp at h

theorem pliRunLoop_spec (env : RunEnv Obj) (pairs : List (ℕ × ℝ)) (s s' : PliPod Obj) (kept kept' : List ℕ)
    (hnd : (pairs.map Prod.fst).Nodup) (hk : kept.Nodup)
    (h : pliRunLoop env pairs (s, kept) = (.ok (), (s', kept'))) :
    s'.defectSizes = s.defectSizes ∧ s'.defectNumber = s.defectNumber ∧ s'.indices.n2 = s.indices.n2 ∧
    s'.pli.length = s.pli.length ∧
    (∀ j, j ∉ pairs.map Prod.fst → (j ∈ kept' ↔ j ∈ kept) ∧ s'.pli[j]? = s.pli[j]? ∧
      ∀ a b, s'.indices.v a b j = s.indices.v a b j) ∧
    (∀ p ∈ pairs, (NonDegenerate (env.pf p.1 p.2) → (p.1 ∈ kept' ↔ p.1 ∈ kept) ∧ ∃ obj m, env.build p.1 p.2 = .ok (obj, m) ∧
        s'.pli[p.1]? = some (some obj) ∧ ∀ a b, s'.indices.v a b p.1 = m a b) ∧
      (¬ NonDegenerate (env.pf p.1 p.2) → p.1 ∉ kept' ∧ ∀ a b, s'.indices.v a b p.1 = .nan)) := by
  induction pairs generalizing s kept with
  | nil =>
    rw [pliRunLoop] at h
    simp only [Prod.mk.injEq, true_and] at h
    obtain ⟨rfl, rfl⟩ := h
    exact ⟨rfl, rfl, rfl, rfl, fun j _ => ⟨Iff.rfl, rfl, fun _ _ => rfl⟩, fun p hp => by simp at hp⟩
  | cons q rest ih =>
    obtain ⟨i, d⟩ := q
    rw [pliRunLoop] at h
    dsimp only at h
    simp only [List.map_cons, List.nodup_cons] at hnd
    split at h
    · simp at h
    · rename_i st hst
      obtain ⟨s1, k1⟩ := st
      obtain ⟨e1, e2, e3, e4, e5, e6, e7⟩ := pliRunStep_spec env i d s s1 kept k1 hst
      have hk1 : k1.Nodup := by
        by_cases hw : NonDegenerate (env.pf i d)
        · rw [(e6 hw).1]; exact hk
        · rw [(e7 hw).1]; exact hk.erase i
      obtain ⟨f1, f2, f3, f4, f5, f6⟩ := ih s1 k1 hnd.2 hk1 h
      have hkj : ∀ j, j ≠ i → (j ∈ k1 ↔ j ∈ kept) := by
        intro j hj
        by_cases hw : NonDegenerate (env.pf i d)
        · rw [(e6 hw).1]
        · rw [(e7 hw).1, List.mem_erase_of_ne hj]
      refine ⟨f1.trans e1, f2.trans e2, f3.trans e3, f4.trans e4, ?_, ?_⟩
      · intro j hj
        simp only [List.map_cons, List.mem_cons, not_or] at hj
        obtain ⟨g1, g2, g3⟩ := f5 j hj.2
        obtain ⟨g4, g5⟩ := e5 j hj.1
        exact ⟨g1.trans (hkj j hj.1), g2.trans g4, fun a b => (g3 a b).trans (g5 a b)⟩
      · intro p hp
        rcases List.mem_cons.mp hp with rfl | hp
        · obtain ⟨g1, g2, g3⟩ := f5 i hnd.1
          constructor
          · intro hw
            obtain ⟨k0, obj, m, hb, hp', hv⟩ := e6 hw
            exact ⟨by rw [g1, k0], obj, m, hb, g2.trans hp', fun a b => (g3 a b).trans (hv a b)⟩
          · intro hw
            obtain ⟨k0, hv⟩ := e7 hw
            refine ⟨?_, fun a b => (g3 a b).trans (hv a b)⟩
            rw [g1, k0]
            exact hk.not_mem_erase
        · have hne : p.1 ≠ i := fun he => hnd.1 (he ▸ List.mem_map_of_mem hp)
          obtain ⟨g1, g2⟩ := f6 p hp
          exact ⟨fun hw => by
            obtain ⟨k0, r⟩ := g1 hw
            exact ⟨k0.trans (hkj p.1 hne), r⟩, g2⟩

theorem enum_fst (l : List ℝ) : (((List.range l.length).zip l).map Prod.fst) = List.range l.length :=
  List.map_fst_zip (l₁ := List.range l.length) (l₂ := l) (by simp)

theorem mem_enum {l : List ℝ} {i : ℕ} (h : i < l.length) : (i, l[i]) ∈ (List.range l.length).zip l := by
  rw [List.mem_iff_getElem]
  exact ⟨i, by simpa using h, by simp⟩

theorem pliRun_loop (env : RunEnv Obj) (s s' : PliPod Obj) (h : pliRun env s = (.ok (), s')) :
    ∃ t kept, pliRunLoop env ((List.range s.defectSizes.length).zip s.defectSizes) (s, List.range s.defectNumber)
      = (.ok (), (t, kept)) ∧ s' = { t with kept := some kept } := by
  unfold pliRun at h
  dsimp only at h
  split at h
  · simp at h
  · rename_i t kept hl
    split at h
    · simp at h
    · simp only [Prod.mk.injEq, true_and] at h
      exact ⟨t, kept, hl, h.symm⟩

/-- **C65 (partial).**  On an object whose attributes agree, after a run that returned: for the defects with an estimate in
(0.001, 0.999) the indices are those of the PLI object built from that simulation and `getPLIObject` returns it; for the
others all the indices are NaN and `getPLIObject` raises; any other number raises.  The attributes still agree. -/
theorem C65_after_run_partial (env : RunEnv Obj) (s s' : PliPod Obj) (hc : PliConsistent s)
    (h : pliRun env s = (.ok (), s')) :
    PliConsistent s' ∧ s'.defectSizes = s.defectSizes ∧
    (∀ i, ∀ hi : i < s.defectSizes.length,
      (NonDegenerate (env.pf i s.defectSizes[i]) → ∃ obj m, env.build i s.defectSizes[i] = .ok (obj, m) ∧
        getPLIObject s' i = .ok (some obj) ∧ ∀ a b, s'.indices.v a b i = m a b) ∧
      (¬ NonDegenerate (env.pf i s.defectSizes[i]) → Raises (getPLIObject s' i) .exception ∧
        ∀ a b, s'.indices.v a b i = .nan)) ∧
    (∀ i, s.defectSizes.length ≤ i → Raises (getPLIObject s' i) .exception) := by
  obtain ⟨t, kept, hl, rfl⟩ := pliRun_loop env s s' h
  obtain ⟨hc1, hc2, hc3⟩ := hc
  obtain ⟨f1, f2, f3, f4, f5, f6⟩ := pliRunLoop_spec env _ s t _ kept
    (by rw [enum_fst]; exact List.nodup_range) List.nodup_range hl
  refine ⟨⟨?_, ?_, ?_⟩, f1, ?_, ?_⟩
  · exact f2.trans (hc1.trans (by rw [f1]))
  · exact f3.trans (hc2.trans f2.symm)
  · exact f4.trans (hc3.trans f2.symm)
  · intro i hi
    obtain ⟨g1, g2⟩ := f6 (i, s.defectSizes[i]) (mem_enum hi)
    constructor
    · intro hw
      obtain ⟨k0, obj, m, hb, hp, hv⟩ := g1 hw
      have hin : i ∈ kept := by
        have hr : i ∈ List.range s.defectNumber := List.mem_range.mpr (by rw [hc1]; exact hi)
        exact k0.mpr hr
      refine ⟨obj, m, hb, ?_, hv⟩
      simp only [getPLIObject, if_pos hin]
      dsimp only at hp
      rw [hp]
    · intro hw
      obtain ⟨k0, hv⟩ := g2 hw
      refine ⟨?_, hv⟩
      simp only [getPLIObject]
      rw [if_neg k0]
      exact ⟨_, rfl⟩
  · intro i hi
    have hnot : i ∉ kept := by
      rw [(f5 i (by rw [enum_fst]; simpa using hi)).1, List.mem_range, hc1]
      omega
    simp only [getPLIObject]
    rw [if_neg hnot]
    exact ⟨_, rfl⟩

/-- **C65.**  A run on consistent attributes returns as soon as the PLI objects it needs can be computed. -/
theorem C65_run_returns (env : RunEnv Obj) (s : PliPod Obj) (hc : PliConsistent s)
    (hb : ∀ i, ∀ hi : i < s.defectSizes.length, NonDegenerate (env.pf i s.defectSizes[i]) →
      ∃ r, env.build i s.defectSizes[i] = .ok r) :
    ∃ s', pliRun env s = (.ok (), s') := by
  obtain ⟨hc1, hc2, hc3⟩ := hc
  have hloop : ∀ (pairs : List (ℕ × ℝ)) (t : PliPod Obj) (kept : List ℕ), (pairs.map Prod.fst).Nodup →
      (∀ p ∈ pairs, p.1 ∈ kept ∧ p.1 < t.pli.length ∧ p.1 < t.indices.n2 ∧
        (NonDegenerate (env.pf p.1 p.2) → ∃ r, env.build p.1 p.2 = .ok r)) →
      ∃ t' kept', pliRunLoop env pairs (t, kept) = (.ok (), (t', kept')) ∧ t'.defectSizes = t.defectSizes ∧
        (∀ i ∈ kept', i ∈ kept) := by
    intro pairs
    induction pairs with
    | nil => intro t kept _ _; exact ⟨t, kept, rfl, rfl, fun i hi => hi⟩
    | cons q rest ih =>
      obtain ⟨i, d⟩ := q
      intro t kept hnd hp
      simp only [List.map_cons, List.nodup_cons] at hnd
      obtain ⟨p1, p2, p3, p4⟩ := hp (i, d) List.mem_cons_self
      dsimp only at p1 p2 p3 p4
      have hstep : ∃ t1 k1, pliRunStep env i d (t, kept) = (.ok (), (t1, k1)) ∧ (∀ j ∈ k1, j ∈ kept) ∧
          (∀ j ∈ kept, j ≠ i → j ∈ k1) := by
        unfold pliRunStep
        dsimp only
        by_cases hw : env.pf i d > 1 / 1000 ∧ env.pf i d < 999 / 1000
        · obtain ⟨⟨obj, m⟩, hr⟩ := p4 hw
          rw [if_pos hw, hr]
          dsimp only
          rw [if_pos p2, Cube.setSlice, if_pos p3]
          exact ⟨_, _, rfl, fun j hj => hj, fun j hj _ => hj⟩
        · rw [if_neg hw, if_pos p1, Cube.setSlice, if_pos p3]
          exact ⟨_, _, rfl, fun j hj => List.mem_of_mem_erase hj, fun j hj hne => (List.mem_erase_of_ne hne).mpr hj⟩
      obtain ⟨t1, k1, hs1, hsub, hkeep⟩ := hstep
      obtain ⟨e1, e2, e3, e4, -⟩ := pliRunStep_spec env i d t t1 kept k1 hs1
      obtain ⟨t', kept', hl, hd, hsub'⟩ := ih t1 k1 hnd.2 (by
        intro p hpr
        obtain ⟨q1, q2, q3, q4⟩ := hp p (List.mem_cons_of_mem _ hpr)
        have hne : p.1 ≠ i := fun he => hnd.1 (he ▸ List.mem_map_of_mem hpr)
        exact ⟨hkeep _ q1 hne, e4 ▸ q2, e3 ▸ q3, q4⟩)
      refine ⟨t', kept', ?_, hd.trans e1, fun j hj => hsub j (hsub' j hj)⟩
      rw [pliRunLoop]; dsimp only; rw [hs1]
      exact hl
  obtain ⟨t', kept', hl, hd, hsub⟩ := hloop ((List.range s.defectSizes.length).zip s.defectSizes) s
    (List.range s.defectNumber) (by rw [enum_fst]; exact List.nodup_range) (by
      intro p hp
      obtain ⟨n, hn, he⟩ := List.mem_iff_getElem.mp hp
      have hn' : n < s.defectSizes.length := by simpa using hn
      have hpe : p = (n, s.defectSizes[n]) := by rw [← he]; simp
      subst hpe
      exact ⟨List.mem_range.mpr (hc1 ▸ hn'), by rw [hc3, hc1]; exact hn', by rw [hc2, hc1]; exact hn', hb n hn'⟩)
  refine ⟨{ t' with kept := some kept' }, ?_⟩
  unfold pliRun
  dsimp only
  rw [hl]
  dsimp only
  have hall : (kept'.all fun i => decide (i < t'.defectSizes.length)) = true := by
    rw [List.all_eq_true]
    intro i hi
    have := List.mem_range.mp (hsub i hi)
    rw [decide_eq_true_eq, hd, ← hc1]; exact this
  rw [if_neg (by rw [hall]; simp)]

/-- Calls on the object. -/
inductive PliOp (Obj : Type)
  | setSizes (size : List ℝ)
  | run (env : RunEnv Obj)

/-- Execute a call (its exception, if any, is caught by the caller). -/
noncomputable def pliExec : PliOp Obj → PliPod Obj → Res Unit × PliPod Obj
  | .setSizes size, s => pliSetDefectSizes size s
  | .run env, s => pliRun env s

noncomputable def pliExecs : List (PliOp Obj) → PliPod Obj → PliPod Obj
  | [], s => s
  | op :: ops, s => pliExecs ops (pliExec op s).2

/-- **C65.**  Before any run every request fails, whatever sizes were set (accepted or not). -/
theorem C65_before_run (nDelta dim : ℕ) (lo hi : ℝ) (sizes : List ℝ) (calls : List (List ℝ)) (i : ℕ) :
    Raises (getPLIObject (pliExecs (calls.map PliOp.setSizes) (pliPodInit (Obj := Obj) nDelta dim lo hi sizes)) i)
      .attributeError := by
  have : ∀ (calls : List (List ℝ)) (s : PliPod Obj), s.kept = none →
      (pliExecs (calls.map PliOp.setSizes) s).kept = none := by
    intro calls
    induction calls with
    | nil => intro s hs; exact hs
    | cons c cs ih =>
      intro s hs
      apply ih
      simp only [pliExec, pliSetDefectSizes]
      split_ifs <;> exact hs
  rw [getPLIObject, this calls _ rfl]
  exact ⟨_, rfl⟩

/-- **C65.**  Every accepted change of sizes and every run that returns keep the attributes consistent, so the description of
`C65_after_run_partial` applies after any history of them ending with a run. -/
theorem C65_histories (nDelta dim : ℕ) (lo hi : ℝ) (sizes : List ℝ) (ops : List (PliOp Obj))
    (hok : ∀ pre op post, ops = pre ++ op :: post →
      (pliExec op (pliExecs pre (pliPodInit nDelta dim lo hi sizes))).1 = .ok ()) :
    PliConsistent (pliExecs ops (pliPodInit nDelta dim lo hi sizes)) := by
  have : ∀ (ops : List (PliOp Obj)) (s : PliPod Obj), PliConsistent s →
      (∀ pre op post, ops = pre ++ op :: post → (pliExec op (pliExecs pre s)).1 = .ok ()) →
      PliConsistent (pliExecs ops s) := by
    intro ops
    induction ops with
    | nil => intro s hs _; exact hs
    | cons op ops ih =>
      intro s hs hok
      apply ih
      · have h0 := hok [] op ops rfl
        rw [pliExecs] at h0
        cases op with
        | setSizes size =>
          simp only [pliExec, pliSetDefectSizes] at h0 ⊢
          split_ifs at h0 ⊢
          exact initMatrix_consistent _ rfl
        | run env =>
          simp only [pliExec] at h0 ⊢
          exact (C65_after_run_partial env s _ hs (Prod.ext h0 rfl)).1
      · intro pre op' post he
        exact hok (op :: pre) op' post (by rw [he]; rfl)
  exact this ops _ (initMatrix_consistent _ rfl) hok

theorem pliPodInit_consistent (nDelta dim : ℕ) (lo hi : ℝ) (sizes : List ℝ) :
    PliConsistent (pliPodInit (Obj := Obj) nDelta dim lo hi sizes) := initMatrix_consistent _ rfl

/-- Two defects; the first has a degenerate estimate. -/
noncomputable def demoRun : RunEnv ℕ := ⟨fun i _ => if i = 0 then 0 else 1 / 2, fun i _ => .ok (i, fun _ _ => .fin 1)⟩

theorem demoRun_ok (sizes : List ℝ) : ∃ s', pliRun demoRun (pliPodInit 1 2 0 1 sizes) = (.ok (), s') :=
  C65_run_returns demoRun _ (pliPodInit_consistent _ _ _ _ _) fun i _ _ => ⟨_, rfl⟩

example : ∃ s', pliRun demoRun (pliPodInit 1 2 0 1 [1 / 4, 1 / 2]) = (.ok (), s') ∧
    getPLIObject s' 1 = .ok (some 1) ∧ Raises (getPLIObject s' 0) .exception := by
  obtain ⟨s', h⟩ := demoRun_ok [1 / 4, 1 / 2]
  obtain ⟨-, -, h1, -⟩ := C65_after_run_partial demoRun _ s' (pliPodInit_consistent _ _ _ _ _) h
  have hl : (pliPodInit (Obj := ℕ) 1 2 0 1 [1 / 4, 1 / 2]).defectSizes.length = 2 := rfl
  refine ⟨s', h, ?_, ?_⟩
  · obtain ⟨obj, m, hb, hg, -⟩ := (h1 1 (by rw [hl]; norm_num)).1 (by norm_num [NonDegenerate, demoRun])
    simp only [demoRun, Except.ok.injEq, Prod.mk.injEq] at hb
    rw [hg, ← hb.1]
  · exact ((h1 0 (by rw [hl]; norm_num)).2 (by norm_num [NonDegenerate, demoRun])).1

/-- **C65 violated.**  After a run, changing the sizes (accepted) leaves the kept list: for every defect kept before, the
placeholder `object` is returned instead of an exception although nothing was computed, and its indices read 0 instead of
NaN. -/
theorem C65_violated (env : RunEnv Obj) (s s1 s2 : PliPod Obj) (hc : PliConsistent s) (h : pliRun env s = (.ok (), s1))
    (size : List ℝ) (h2 : pliSetDefectSizes size s1 = (.ok (), s2)) (i : ℕ) (hi : i < s.defectSizes.length)
    (hpf : NonDegenerate (env.pf i s.defectSizes[i])) :
    (i < size.length → getPLIObject s2 i = .ok none ∧ ∀ a b, s2.indices.v a b i = .fin 0) ∧
    (size.length ≤ i → Raises (getPLIObject s2 i) .indexError) := by
  obtain ⟨-, -, h1, -⟩ := C65_after_run_partial env s s1 hc h
  obtain ⟨obj, m, -, hg, -⟩ := (h1 i hi).1 hpf
  have hk : ∃ kept, s1.kept = some kept ∧ i ∈ kept := by
    rw [getPLIObject] at hg
    split at hg
    · simp at hg
    · rename_i kept hk
      split at hg
      · rename_i hin; exact ⟨kept, hk, hin⟩
      · simp at hg
  obtain ⟨kept, hk, hin⟩ := hk
  unfold pliSetDefectSizes at h2
  split at h2
  · simp at h2
  · dsimp only at h2
    split at h2
    · simp at h2
    · simp only [Prod.mk.injEq, true_and] at h2
      subst h2
      constructor
      · intro hlt
        refine ⟨?_, fun _ _ => rfl⟩
        simp only [getPLIObject, initMatrix, hk, if_pos hin]
        rw [List.getElem?_replicate, if_pos (by rw [sortR_length]; exact hlt)]
      · intro hle
        simp only [getPLIObject, initMatrix, hk, if_pos hin]
        rw [List.getElem?_replicate, if_neg (by rw [sortR_length]; omega)]
        exact ⟨_, rfl⟩

example : ∃ s1 s2, pliRun demoRun (pliPodInit 1 2 0 1 [1 / 4, 1 / 2]) = (.ok (), s1) ∧
    pliSetDefectSizes [1 / 3, 2 / 3] s1 = (.ok (), s2) ∧ getPLIObject s2 1 = .ok none := by
  obtain ⟨s1, h⟩ := demoRun_ok [1 / 4, 1 / 2]
  have hhi : s1.hi = 1 ∧ s1.lo = 0 := by
    obtain ⟨t, kept, hl, rfl⟩ := pliRun_loop demoRun _ s1 h
    have hgen : ∀ (pairs : List (ℕ × ℝ)) (u v : PliPod ℕ × List ℕ), pliRunLoop demoRun pairs u = (.ok (), v) →
        v.1.hi = u.1.hi ∧ v.1.lo = u.1.lo := by
      intro pairs
      induction pairs with
      | nil => intro u v he; rw [pliRunLoop] at he; simp at he; subst he; exact ⟨rfl, rfl⟩
      | cons q rest ih =>
        obtain ⟨j, d⟩ := q
        intro u v he
        rw [pliRunLoop] at he
        dsimp only at he
        split at he
        · simp at he
        · rename_i w hw
          obtain ⟨i1, i2⟩ := ih w v he
          obtain ⟨u, ku⟩ := u
          unfold pliRunStep at hw
          dsimp only at hw
          split at hw
          · split at hw
            · simp at hw
            · split at hw
              · split at hw
                · simp at hw
                · simp only [Prod.mk.injEq, true_and] at hw; subst hw; exact ⟨i1, i2⟩
              · simp at hw
          · split at hw
            · split at hw
              · simp at hw
              · simp only [Prod.mk.injEq, true_and] at hw; subst hw; exact ⟨i1, i2⟩
            · simp at hw
    exact hgen _ _ _ hl
  have hsort : sortR [1 / 3, 2 / 3] = [(1 / 3 : ℝ), 2 / 3] := by
    rw [sortR]; exact List.mergeSort_of_pairwise (by norm_num)
  have h2 : ∃ s2, pliSetDefectSizes [1 / 3, 2 / 3] s1 = (.ok (), s2) := by
    unfold pliSetDefectSizes
    rw [if_neg (by simp), hsort]
    dsimp only
    rw [if_neg (by rw [hhi.1, hhi.2]; norm_num)]
    exact ⟨_, rfl⟩
  obtain ⟨s2, h2⟩ := h2
  have hl : (pliPodInit (Obj := ℕ) 1 2 0 1 [1 / 4, 1 / 2]).defectSizes.length = 2 := rfl
  exact ⟨s1, s2, h, h2, ((C65_violated demoRun _ s1 s2 (pliPodInit_consistent _ _ _ _ _) h _ h2 1 (by rw [hl]; norm_num)
    (by norm_num [NonDegenerate, demoRun])).1 (by norm_num)).1⟩

/-- **C65 violated.**  A rejected change of sizes is stored; with more sizes than before and no degenerate estimate the next
run fails with IndexError. -/
theorem C65_violated_rejected (env : RunEnv Obj) (s s1 : PliPod Obj) (hc : PliConsistent s) (size : List ℝ) (k : ErrKind)
    (h1 : Raises (pliSetDefectSizes size s).1 k) (hs1 : s1 = (pliSetDefectSizes size s).2)
    (hlen : s.defectSizes.length < size.length) (hpf : ∀ i d, NonDegenerate (env.pf i d))
    (hb : ∀ i d, ∃ r, env.build i d = .ok r) : Raises (pliRun env s1).1 .indexError := by
  have hs : s1 = { s with defectSizes := sortR size } := by
    rw [hs1]
    obtain ⟨m, h1⟩ := h1
    unfold pliSetDefectSizes at h1 ⊢
    by_cases he : size = []
    · subst he; simp at hlen
    · rw [if_neg he] at h1 ⊢
      dsimp only at h1 ⊢
      split_ifs at h1 ⊢
      rfl
  obtain ⟨hc1, hc2, hc3⟩ := hc
  have hloop : ∀ (pairs : List (ℕ × ℝ)) (t : PliPod Obj) (kept : List ℕ), (∃ p ∈ pairs, t.pli.length ≤ p.1) →
      t.indices.n2 = t.pli.length →
      ∃ m st, pliRunLoop env pairs (t, kept) = (.error ⟨.indexError, m⟩, st) := by
    intro pairs
    induction pairs with
    | nil => rintro t kept ⟨p, hp, -⟩; simp at hp
    | cons q rest ih =>
      obtain ⟨i, d⟩ := q
      rintro t kept ⟨p, hp, hle⟩ hn
      obtain ⟨⟨obj, mm⟩, hr⟩ := hb i d
      have hw : env.pf i d > 1 / 1000 ∧ env.pf i d < 999 / 1000 := hpf i d
      by_cases hi : i < t.pli.length
      · have hi' : i < t.indices.n2 := hn ▸ hi
        have hstep : pliRunStep env i d (t, kept) = (.ok (), ({ t with
            pli := t.pli.set i (some obj), indices := { t.indices with v := fun a b k => if k = i then mm a b else t.indices.v a b k } }, kept)) := by
          simp only [pliRunStep, if_pos hw, hr, if_pos hi, Cube.setSlice, if_pos hi']
        rw [pliRunLoop]; dsimp only; rw [hstep]
        apply ih
        · rcases List.mem_cons.mp hp with rfl | hp
          · exact absurd hi (not_lt.mpr hle)
          · exact ⟨p, hp, by simpa using hle⟩
        · simpa using hn
      · have hstep : pliRunStep env i d (t, kept) = (.error ⟨.indexError, "list assignment index out of range"⟩, (t, kept)) := by
          simp only [pliRunStep, if_pos hw, hr, if_neg hi]
        rw [pliRunLoop]; dsimp only; rw [hstep]
        exact ⟨_, _, rfl⟩
  subst hs
  obtain ⟨m, st, hl⟩ := hloop ((List.range (sortR size).length).zip (sortR size)) { s with defectSizes := sortR size }
    (List.range s.defectNumber) (by
      have hlt : s.defectSizes.length < (sortR size).length := by rw [sortR_length]; exact hlen
      exact ⟨_, mem_enum hlt, by change s.pli.length ≤ s.defectSizes.length; rw [hc3, hc1]⟩) (by
      change s.indices.n2 = s.pli.length; rw [hc2, hc3])
  refine ⟨m, ?_⟩
  unfold pliRun
  dsimp only
  rw [hl]

/-! ## C66 -/

/-- Read one number of an array, the indices given axis by axis. -/
def Nd.at : Nd → List ℤ → Res (F ℝ)
  | .d0 x, [] => .ok x
  | .d1 n v, [i] =>
    match resolveIdx n i with
    | .error e => .error e
    | .ok a => .ok (v a)
  | .d2 n m v, [i, j] =>
    match resolveIdx n i, resolveIdx m j with
    | .ok a, .ok b => .ok (v a b)
    | .error e, _ => .error e
    | .ok _, .error e => .error e
  | .d3 c, [i, j, k] =>
    match resolveIdx c.n0 i, resolveIdx c.n1 j, resolveIdx c.n2 k with
    | .ok a, .ok b, .ok d => .ok (c.v a b d)
    | .error e, _, _ => .error e
    | .ok _, .error e, _ => .error e
    | .ok _, .ok _, .error e => .error e
  | _, _ => .error ⟨.indexError, "wrong number of indices"⟩

/-- Select some axes in the call (those with `true`) and the others afterwards. -/
def selectThen (c : Cube) (b0 b1 b2 : Bool) (i j k : ℤ) : Res (F ℝ) :=
  match getIndices c (if b0 then some i else none) (if b1 then some j else none) (if b2 then some k else none) with
  | .error e => .error e
  | .ok r => Nd.at r ((if b0 then [] else [i]) ++ (if b1 then [] else [j]) ++ (if b2 then [] else [k]))

theorem resolveIdx_cases (n : ℕ) (i : ℤ) :
    (∃ a, resolveIdx n i = .ok a) ∨ resolveIdx n i = .error ⟨.indexError, "index is out of bounds"⟩ := by
  rw [resolveIdx]; split_ifs <;> simp

/-- **C66.**  Whatever subset of the three selectors is given, selecting the remaining indices in the returned array gives
what the three indices select in the full cube (the same number, or the same IndexError). -/
theorem C66_slices (c : Cube) (b0 b1 b2 : Bool) (i j k : ℤ) : selectThen c b0 b1 b2 i j k = Nd.at (.d3 c) [i, j, k] := by
  rcases resolveIdx_cases c.n0 i with ⟨a, ha⟩ | ha <;> rcases resolveIdx_cases c.n1 j with ⟨b, hb⟩ | hb <;>
    rcases resolveIdx_cases c.n2 k with ⟨d, hd⟩ | hd <;>
    cases b0 <;> cases b1 <;> cases b2 <;>
    simp [selectThen, getIndices, Cube.index, resolveSel, Nd.at, ha, hb, hd]

/-- **C66.**  The shape of the result: the lengths of the axes not selected, in the order delta, marginal, defect. -/
theorem C66_shape (c : Cube) (b0 b1 b2 : Bool) (i j k : ℤ) (hi : 0 ≤ i ∧ i < c.n0) (hj : 0 ≤ j ∧ j < c.n1)
    (hk : 0 ≤ k ∧ k < c.n2) :
    ∃ r, getIndices c (if b0 then some i else none) (if b1 then some j else none) (if b2 then some k else none) = .ok r ∧
      (match r with
        | .d0 _ => []
        | .d1 n _ => [n]
        | .d2 n m _ => [n, m]
        | .d3 c => [c.n0, c.n1, c.n2])
      = (if b0 then [] else [c.n0]) ++ (if b1 then [] else [c.n1]) ++ (if b2 then [] else [c.n2]) := by
  cases b0 <;> cases b1 <;> cases b2 <;>
    simp [getIndices, Cube.index, resolveSel, resolveIdx, hi, hj, hk]

/-- The number read is the one stored at these three positions. -/
theorem C66_full (c : Cube) (i j k : ℕ) (hi : i < c.n0) (hj : j < c.n1) (hk : k < c.n2) :
    getIndices c (some i) (some j) (some k) = .ok (.d0 (c.v i j k)) := by
  simp [getIndices, Cube.index, resolveSel, resolveIdx, hi, hj, hk]

/-- **C66.**  Each of the three selectors may also count from the end of its axis: `i - n` selects what `i` selects. -/
theorem C66_signed (c : Cube) (i j k : ℕ) (hi : i < c.n0) (hj : j < c.n1) (hk : k < c.n2) (b0 b1 b2 : Bool) :
    getIndices c (some (if b0 then (i : ℤ) - c.n0 else i)) (some (if b1 then (j : ℤ) - c.n1 else j))
      (some (if b2 then (k : ℤ) - c.n2 else k)) = .ok (.d0 (c.v i j k)) := by
  have key : ∀ (n a : ℕ) (b : Bool), a < n → resolveIdx n (if b then (a : ℤ) - n else a) = .ok a := by
    intro n a b h
    cases b
    · simp [resolveIdx, h]
    · have h1 : ¬ (0 ≤ (a : ℤ) - n ∧ (a : ℤ) - n < n) := by omega
      have h2 : (a : ℤ) - n < 0 ∧ 0 ≤ (a : ℤ) - n + n := by omega
      simp only [resolveIdx, if_true, if_neg h1, if_pos h2]
      congr 1
      omega
  simp only [getIndices, Cube.index, resolveSel, key _ _ _ hi, key _ _ _ hj, key _ _ _ hk]
  simp

/-- **C66.**  A selector outside of its axis, in either direction, raises an IndexError whatever the others are. -/
theorem C66_out_of_bounds (c : Cube) (i j k : Option ℤ)
    (h : (∃ x, i = some x ∧ (x < -c.n0 ∨ c.n0 ≤ x)) ∨ (∃ x, j = some x ∧ (x < -c.n1 ∨ c.n1 ≤ x)) ∨
      (∃ x, k = some x ∧ (x < -c.n2 ∨ c.n2 ≤ x))) : Raises (getIndices c i j k) .indexError := by
  have key : ∀ (n : ℕ) (x : ℤ), (x < -n ∨ n ≤ x) → resolveIdx n x = .error ⟨.indexError, "index is out of bounds"⟩ := by
    intro n x hx
    rw [resolveIdx, if_neg (by omega), if_neg (by omega)]
  have hs : ∀ (n : ℕ) (o : Option ℤ), (∃ b, resolveSel n o = .ok b) ∨
      resolveSel n o = .error ⟨.indexError, "index is out of bounds"⟩ := by
    intro n o
    cases o with
    | none => exact .inl ⟨_, rfl⟩
    | some x => rcases resolveIdx_cases n x with ⟨a, ha⟩ | ha <;> simp [resolveSel, ha]
  have key' : ∀ (n : ℕ) (x : ℤ), (x < -n ∨ n ≤ x) →
      resolveSel n (some x) = .error ⟨.indexError, "index is out of bounds"⟩ := by
    intro n x hx
    simp [resolveSel, key n x hx]
  have hg : getIndices c i j k = c.index i j k := by
    cases i <;> cases j <;> cases k <;> simp [getIndices]
  refine ⟨"index is out of bounds", ?_⟩
  rw [hg]
  rcases h with ⟨x, rfl, hx⟩ | ⟨x, rfl, hx⟩ | ⟨x, rfl, hx⟩
  · simp [Cube.index, key' _ _ hx]
  · rcases hs c.n0 i with ⟨a, ha⟩ | ha <;> simp [Cube.index, ha, key' _ _ hx]
  · rcases hs c.n0 i with ⟨a, ha⟩ | ha <;> rcases hs c.n1 j with ⟨b, hb⟩ | hb <;>
      simp [Cube.index, ha, hb, key' _ _ hx]

example : Raises (getIndices ⟨2, 3, 4, fun _ _ _ => .nan⟩ none (some (-4)) (some 1)) .indexError :=
  C66_out_of_bounds _ _ _ _ (.inr (.inl ⟨-4, rfl, .inl (by norm_num)⟩))

example : selectThen ⟨2, 3, 4, fun a b d => .fin (a + 10 * b + 100 * d)⟩ false true false 1 (-1) 2 = .ok (.fin 221) := by
  rw [C66_slices]
  norm_num [Nd.at, resolveIdx, show Int.toNat 2 = 2 from rfl]

end Verif.Props
