import Verif.Model.Metamodel
import Verif.Props.QuantileReg

/-!
# C32–C36, C44: defect sizes, interpolated curves, vectorised Monte Carlo
-/

namespace Verif.Props
open Verif.Py Verif.Model

theorem foldl_max_ge (x : ℝ) (xs : List ℝ) :
    (∀ y ∈ x :: xs, y ≤ xs.foldl max x) ∧ xs.foldl max x ∈ x :: xs := by
  induction xs generalizing x with
  | nil => simp
  | cons a as ih =>
    obtain ⟨h1, h2⟩ := ih (max x a)
    rw [List.foldl_cons]
    constructor
    · intro y hy
      have hm := h1 (max x a) (by simp)
      rcases List.mem_cons.mp hy with rfl | hy
      · exact (le_max_left _ _).trans hm
      · rcases List.mem_cons.mp hy with rfl | hy
        · exact (le_max_right _ _).trans hm
        · exact h1 y (by simp [hy])
    · rcases List.mem_cons.mp h2 with h | h
      · rw [h]
        rcases max_choice x a with h' | h' <;> rw [h'] <;> simp
      · simp [h]

theorem sampleMax_spec {l : List ℝ} {mx : ℝ} (h : sampleMax l = .ok mx) : IsGreatest {x | x ∈ l} mx := by
  cases l with
  | nil => simp [sampleMax] at h
  | cons x xs =>
    rw [sampleMax, Except.ok.injEq] at h
    subst h
    exact ⟨(foldl_max_ge x xs).2, fun y hy => (foldl_max_ge x xs).1 y hy⟩

theorem sampleMinMax_ok {l : List ℝ} (h : l ≠ []) : ∃ mn mx, sampleMin l = .ok mn ∧ sampleMax l = .ok mx := by
  cases l with
  | nil => exact absurd rfl h
  | cons x xs => exact ⟨_, _, rfl, rfl⟩

/-! ## C32, C33 -/

/-- **C32.**  For every non-empty observed sample with smallest value `mn` and largest value `mx`, every state and every
non-empty list of sizes: the call raises ValueError iff a value is outside `[mn, mx]`; it otherwise stores exactly the
given values in ascending order, and their number. -/
theorem C32_setDefectSizes (observed : List ℝ) (mn mx : ℝ) (hmn : IsLeast {x | x ∈ observed} mn)
    (hmx : IsGreatest {x | x ∈ observed} mx) (arg : List ℝ) (hne : arg ≠ []) (s : SizeAttrs) :
    let out := setDefectSizes observed arg s
    (Raises out.1 .valueError ↔ ∃ d ∈ arg, d < mn ∨ mx < d) ∧
    (out.1 = .ok () ↔ ∀ d ∈ arg, mn ≤ d ∧ d ≤ mx) ∧
    (out.1 = .ok () → out.2.sizes.Perm arg ∧ out.2.sizes.Pairwise (· ≤ ·) ∧ out.2.number = arg.length) := by
  have hon : observed ≠ [] := by rintro rfl; exact absurd hmn.1 (by simp)
  obtain ⟨a, b, ha, hb⟩ := sampleMinMax_ok hon
  obtain rfl : a = mn := (sampleMin_spec ha).unique hmn
  obtain rfl : b = mx := (sampleMax_spec hb).unique hmx
  intro out
  have hs := sortR_pairwise arg
  obtain ⟨e0, e1⟩ := ends_mem (sortR_ne_nil hne)
  have hcond : (b < (sortR arg).getD ((sortR arg).length - 1) 0 ∨ (sortR arg).getD 0 0 < a) ↔
      ∃ d ∈ arg, d < a ∨ b < d := by
    constructor
    · rintro (h | h)
      · exact ⟨_, mem_sortR.mp e1, .inr h⟩
      · exact ⟨_, mem_sortR.mp e0, .inl h⟩
    · rintro ⟨d, hd, h⟩
      obtain ⟨b0, b1⟩ := sorted_bounds hs (mem_sortR.mpr hd)
      rcases h with h | h
      · right; linarith
      · left; linarith
  have hall : (∀ d ∈ arg, a ≤ d ∧ d ≤ b) ↔ ¬ ∃ d ∈ arg, d < a ∨ b < d := by
    push Not; rfl
  by_cases hc : b < (sortR arg).getD ((sortR arg).length - 1) 0 ∨ (sortR arg).getD 0 0 < a
  · have hout : out = (.error ⟨.valueError, "Defect sizes must range between"⟩, { s with sizes := sortR arg }) := by
      simp only [out, setDefectSizes]; rw [if_neg hne, ha, hb]; dsimp only; rw [if_pos hc]
    rw [hout, hall, ← hcond]
    exact ⟨⟨fun _ => hc, fun _ => ⟨_, rfl⟩⟩, ⟨fun h => absurd h (by simp), fun h => absurd hc h⟩,
      fun h => absurd h (by simp)⟩
  · have hout : out = (.ok (), ⟨sortR arg, (sortR arg).length⟩) := by
      simp only [out, setDefectSizes]; rw [if_neg hne, ha, hb]; dsimp only; rw [if_neg hc]
    rw [hout, hall, ← hcond]
    refine ⟨⟨fun ⟨m, hm⟩ => absurd hm (by simp), fun h => absurd h hc⟩, ⟨fun _ => hc, fun _ => rfl⟩, fun _ => ?_⟩
    exact ⟨sortR_perm arg, hs, sortR_length arg⟩

example : IsLeast {x : ℝ | x ∈ [2, 1, 3]} 1 ∧ IsGreatest {x : ℝ | x ∈ [2, 1, 3]} 3 := by
  refine ⟨⟨by simp, ?_⟩, ⟨by simp, ?_⟩⟩ <;> intro x hx <;> simp at hx <;> rcases hx with rfl | rfl | rfl <;> norm_num

/-- **C33 (restricted).**  A rejected call leaves the stored count unchanged, and an empty argument leaves everything
unchanged.  Missing: the stored sizes, which are overwritten by every rejected non-empty argument. -/
theorem C33_rejected_sizes_partial (observed arg : List ℝ) (s : SizeAttrs)
    (h : (setDefectSizes observed arg s).1 ≠ .ok ()) :
    (setDefectSizes observed arg s).2.number = s.number ∧
    (arg = [] → (setDefectSizes observed arg s).2 = s) ∧
    (arg ≠ [] → (setDefectSizes observed arg s).2.sizes.Perm arg) := by
  unfold setDefectSizes at h ⊢
  by_cases ha : arg = []
  · rw [if_pos ha]; simp [ha]
  · rw [if_neg ha] at h ⊢
    dsimp only at h ⊢
    rcases hmn : sampleMin observed with e | mn
    · exact ⟨rfl, fun h' => absurd h' ha, fun _ => sortR_perm arg⟩
    · rcases hmx : sampleMax observed with e | mx
      · exact ⟨rfl, fun h' => absurd h' ha, fun _ => sortR_perm arg⟩
      · rw [hmn, hmx] at h
        dsimp only at h ⊢
        split_ifs at h ⊢ with hc
        · exact ⟨rfl, fun h' => absurd h' ha, fun _ => sortR_perm arg⟩
        · exact absurd rfl h

/-- **C33 is violated** for every data set, every state and every rejected argument that is not a permutation of the
stored sizes: the call raises and the object now holds the rejected sizes. -/
theorem C33_violated (observed : List ℝ) (mn mx : ℝ) (hmn : IsLeast {x | x ∈ observed} mn)
    (hmx : IsGreatest {x | x ∈ observed} mx) (s : SizeAttrs) (arg : List ℝ) (hout : ∃ d ∈ arg, d < mn ∨ mx < d)
    (hnew : ¬ arg.Perm s.sizes) :
    Raises (setDefectSizes observed arg s).1 .valueError ∧ (setDefectSizes observed arg s).2.sizes ≠ s.sizes ∧
    ∃ d ∈ (setDefectSizes observed arg s).2.sizes, d < mn ∨ mx < d := by
  have hne : arg ≠ [] := by rintro rfl; obtain ⟨d, hd, -⟩ := hout; simp at hd
  have h1 := (C32_setDefectSizes observed mn mx hmn hmx arg hne s).1.mpr hout
  have h2 := C33_rejected_sizes_partial observed arg s (by obtain ⟨m, hm⟩ := h1; rw [hm]; simp)
  refine ⟨h1, fun h => hnew ?_, ?_⟩
  · have := h2.2.2 hne; rw [h] at this; exact this.symm
  · obtain ⟨d, hd, hh⟩ := hout
    exact ⟨d, (h2.2.2 hne).mem_iff.mpr hd, hh⟩

/-- After a rejected call with another number of sizes, `run` raises; with the same number it runs on the rejected
sizes. -/
theorem C33_violated_run (rows : ℕ) (sim : ℕ → ℝ → List ℝ) (s : SimAttrs) (hne : s.sizes.length ≠ s.number) :
    (krigingRunSim rows sim s).1 ≠ .ok () := by
  unfold krigingRunSim
  dsimp only
  split_ifs with h
  · simp
  · rw [interp1d, if_neg]
    · simp
    · simp only [List.length_map, List.length_append, List.length_mapIdx, List.length_replicate]
      omega

/-! ## C34 -/

/-- Interpolation of strictly increasing abscissae: complete description. -/
theorem interp1d_spec (xs ys : List ℝ) (hlen : xs.length = ys.length) (hne : xs ≠ []) (hinc : xs.Pairwise (· < ·)) :
    ∃ f, interp1d xs ys = .ok f ∧
      (∀ t, ¬ (xs.getD 0 0 ≤ t ∧ t ≤ xs.getD (xs.length - 1) 0) → Raises (f t) .valueError) ∧
      (∀ i, i < xs.length → f (xs.getD i 0) = .ok (ys.getD i 0)) ∧
      (∀ i t, i + 1 < xs.length → xs.getD i 0 ≤ t → t ≤ xs.getD (i + 1) 0 →
        f t = .ok (ys.getD i 0 + (ys.getD (i + 1) 0 - ys.getD i 0) *
          ((t - xs.getD i 0) / (xs.getD (i + 1) 0 - xs.getD i 0)))) ∧
      (∀ t, xs.getD 0 0 ≤ t → t ≤ xs.getD (xs.length - 1) 0 →
        ∃ v, f t = .ok v ∧ (∃ y ∈ ys, y ≤ v) ∧ ∃ y ∈ ys, v ≤ y) ∧
      (ys.Pairwise (· ≤ ·) → NonDecreasing f) := by
  cases xs with
  | nil => exact absurd rfl hne
  | cons x xs =>
  cases ys with
  | nil => simp at hlen
  | cons y ys =>
  set pts := (x :: xs).zip (y :: ys) with hpts
  have hcons : pts = (x, y) :: xs.zip ys := by rw [hpts, List.zip_cons_cons]
  have hplen : pts.length = (x :: xs).length := by rw [hpts, List.length_zip, hlen, min_self]
  have hlt : pts.Pairwise (fun a b => a.1 < b.1) := by
    have h := hinc
    rw [← List.map_fst_zip (l₁ := x :: xs) (l₂ := y :: ys) (by rw [hlen]), List.pairwise_map] at h
    exact h
  have hle : pts.Pairwise (fun a b => a.1 ≤ b.1) := hlt.imp fun h => h.le
  have hget : ∀ i, i < (x :: xs).length → ∃ h : i < pts.length, pts[i] = ((x :: xs).getD i 0, (y :: ys).getD i 0) := by
    intro i hi
    refine ⟨by rw [hplen]; exact hi, ?_⟩
    rw [List.getD_eq_getElem _ _ hi, List.getD_eq_getElem _ _ (by rw [← hlen]; exact hi)]
    simp only [hpts, List.getElem_zip]
  have hpne : pts ≠ [] := by rw [hcons]; simp
  have hlast : (pts.getLast hpne).1 = (x :: xs).getD ((x :: xs).length - 1) 0 := by
    rw [List.getLast_eq_getElem]
    obtain ⟨h, e⟩ := hget ((x :: xs).length - 1) (by simp)
    have : pts.length - 1 = (x :: xs).length - 1 := by rw [hplen]
    simp only [this]
    rw [e]
  have hok := fun t => (interpEval_ok_iff (p := (x, y)) (rest := xs.zip ys) (t := t))
  simp only [← hcons] at hok
  have hx0 : (x :: xs).getD 0 0 = x := by simp
  have hval : ∀ t, x ≤ t → t ≤ (x :: xs).getD ((x :: xs).length - 1) 0 → interpEval pts t = .ok (interpGo pts t) :=
    fun t h1 h2 => (hok t).1 ⟨h1, by rw [hlast]; exact h2⟩
  have hinc' : ∀ i j, i ≤ j → j < (x :: xs).length → (x :: xs).getD i 0 ≤ (x :: xs).getD j 0 :=
    fun i j hij hj => getD_mono (hinc.imp fun h => h.le) hij hj
  refine ⟨interpEval pts, by rw [interp1d, if_pos hlen, ← hpts, sortPts_of_sorted hle], ?_, ?_, ?_, ?_, ?_⟩
  · intro t ht
    apply (hok t).2
    rw [hlast, ← hx0]; exact ht
  · intro i hi
    obtain ⟨h, e⟩ := hget i hi
    rw [hval _ (by rw [← hx0]; exact hinc' 0 i (Nat.zero_le i) hi) (hinc' _ _ (by omega) (by simp))]
    have := interpGo_at hlt (List.getElem_mem h)
    rw [e] at this
    exact congrArg _ this
  · intro i t hi h1 h2
    obtain ⟨hA, eA⟩ := hget i (by omega)
    obtain ⟨hB, eB⟩ := hget (i + 1) hi
    rw [hval t (by rw [← hx0]; exact (hinc' 0 i (Nat.zero_le i) (by omega)).trans h1)
      (h2.trans (hinc' _ _ (by omega) (by simp)))]
    have hsplit : pts = pts.take i ++ pts[i] :: pts[i + 1] :: pts.drop (i + 2) := by
      rw [List.getElem_cons_drop, List.getElem_cons_drop, List.take_append_drop]
    have := interpGo_segment (pre := pts.take i) (p := pts[i]) (q := pts[i + 1]) (post := pts.drop (i + 2))
      (by rw [← hsplit]; exact hlt) (t := t) (by rw [eA]; exact h1) (by rw [eB]; exact h2)
    rw [← hsplit, eA, eB] at this
    exact congrArg _ this
  · intro t h1 h2
    refine ⟨_, hval t (by rw [← hx0]; exact h1) h2, ?_⟩
    obtain ⟨a, ha, b, hb, h3, h4⟩ := interpGo_between hle hcons (t := t) (by rw [← hx0]; exact h1)
    exact ⟨⟨a.2, (List.of_mem_zip ha).2, h3⟩, ⟨b.2, (List.of_mem_zip hb).2, h4⟩⟩
  · intro hy
    rw [hcons] at hle ⊢
    refine interpEval_nonDecreasing hle ?_
    rw [← hcons]
    have h := hy
    rw [← List.map_snd_zip (l₁ := x :: xs) (l₂ := y :: ys) (by rw [hlen]), List.pairwise_map] at h
    exact h

/-- **C34.**  When `run` returns, with strictly increasing defect sizes: the curve equals the mean simulated POD at each
size, is linear between neighbouring sizes, raises outside their interval, stays between the smallest and the largest
mean, and does not decrease if the means do not. -/
theorem C34_pod_curve (rows : ℕ) (sim : ℕ → ℝ → List ℝ) (s : SimAttrs) (hne : s.sizes ≠ [])
    (hinc : s.sizes.Pairwise (· < ·)) (h : (krigingRunSim rows sim s).1 = .ok ()) :
    let size := fun i => s.sizes.getD i 0
    let mean := fun i => listMean (sim i (size i))
    ∃ f, (krigingRunSim rows sim s).2.curve = some f ∧
      (∀ i, i < s.sizes.length → f (size i) = .ok (mean i)) ∧
      (∀ i t, i + 1 < s.sizes.length → size i ≤ t → t ≤ size (i + 1) →
        f t = .ok (mean i + (mean (i + 1) - mean i) * ((t - size i) / (size (i + 1) - size i)))) ∧
      (∀ t, ¬ (size 0 ≤ t ∧ t ≤ size (s.sizes.length - 1)) → Raises (f t) .valueError) ∧
      (∀ t, size 0 ≤ t → t ≤ size (s.sizes.length - 1) → ∃ v, f t = .ok v ∧
        (∃ i, i < s.sizes.length ∧ mean i ≤ v) ∧ ∃ i, i < s.sizes.length ∧ v ≤ mean i) ∧
      ((∀ i j, i ≤ j → j < s.sizes.length → mean i ≤ mean j) → NonDecreasing f) := by
  intro size mean
  have hnum : s.sizes.length = s.number := by
    by_contra hc; exact C33_violated_run rows sim s hc h
  set ys := (s.sizes.mapIdx sim).map listMean with hys
  have hl : s.sizes.length = ys.length := by simp [hys]
  have hyi : ∀ i, i < s.sizes.length → ys.getD i 0 = mean i := by
    intro i hi
    rw [List.getD_eq_getElem _ _ (by rw [← hl]; exact hi)]
    simp only [hys, List.getElem_map, List.getElem_mapIdx, mean, size]
    rw [List.getD_eq_getElem _ _ hi]
  obtain ⟨f, hf, h1, h2, h3, h4, h5⟩ := interp1d_spec s.sizes ys hl hne hinc
  have hrun : (krigingRunSim rows sim s).2.curve = some f := by
    unfold krigingRunSim
    dsimp only
    rw [if_neg (by omega), hnum, Nat.sub_self, List.replicate_zero, List.append_nil, ← hys, hf]
  have hmem : ∀ y ∈ ys, ∃ i, i < s.sizes.length ∧ y = mean i := by
    intro y hy
    obtain ⟨i, hi, rfl⟩ := List.mem_iff_getElem.mp hy
    refine ⟨i, by rw [hl]; exact hi, ?_⟩
    rw [← hyi i (by rw [hl]; exact hi), List.getD_eq_getElem _ _ hi]
  refine ⟨f, hrun, ?_, ?_, h1, ?_, ?_⟩
  · intro i hi; rw [← hyi i hi]; exact h2 i hi
  · intro i t hi ha hb
    rw [← hyi i (by omega), ← hyi (i + 1) hi]; exact h3 i t hi ha hb
  · intro t ha hb
    obtain ⟨v, hv, ⟨y, hy, hyv⟩, ⟨y', hy', hyv'⟩⟩ := h4 t ha hb
    obtain ⟨i, hi, rfl⟩ := hmem y hy
    obtain ⟨j, hj, rfl⟩ := hmem y' hy'
    exact ⟨v, hv, ⟨i, hi, hyv⟩, ⟨j, hj, hyv'⟩⟩
  · intro hmono
    apply h5
    rw [List.pairwise_iff_getElem]
    intro i j hi hj hij
    have e1 := hyi i (by rw [hl]; exact hi)
    have e2 := hyi j (by rw [hl]; exact hj)
    rw [List.getD_eq_getElem _ _ hi] at e1
    rw [List.getD_eq_getElem _ _ hj] at e2
    rw [e1, e2]
    exact hmono i j hij.le (by rw [hl]; exact hj)

example : (krigingRunSim 1 (fun _ d => [d / 10]) { sizes := [1, 2], number := 2 }).1 = .ok () := by
  simp [krigingRunSim, interp1d]

/-! ## C35 -/

/-- The sizes are always sorted and non-empty, whatever the history. -/
theorem sim_sizes_sorted (observed : List ℝ) (ops : List SimOp) (s : SimAttrs)
    (hs : s.sizes.Pairwise (· ≤ ·) ∧ s.sizes ≠ []) :
    (simHistory observed ops s).sizes.Pairwise (· ≤ ·) ∧ (simHistory observed ops s).sizes ≠ [] := by
  induction ops generalizing s with
  | nil => exact hs
  | cons op ops ih =>
    apply ih
    change (simStep observed s op).2.sizes.Pairwise (· ≤ ·) ∧ (simStep observed s op).2.sizes ≠ []
    cases op with
    | setSizes arg =>
      have key : (simStep observed s (.setSizes arg)).2.sizes = s.sizes ∨
          arg ≠ [] ∧ (simStep observed s (.setSizes arg)).2.sizes = sortR arg := by
        simp only [simStep, simSetSizes, setDefectSizes]
        by_cases ha : arg = []
        · left; rw [if_pos ha]
        · right
          rw [if_neg ha]
          refine ⟨ha, ?_⟩
          rcases sampleMin observed with e | mn
          · rfl
          · rcases sampleMax observed with e | mx
            · rfl
            · dsimp only; split_ifs <;> rfl
      rcases key with h | ⟨ha, h⟩
      · rw [h]; exact hs
      · rw [h]; exact ⟨sortR_pairwise arg, sortR_ne_nil ha⟩
    | run rows sim =>
      have : (simStep observed s (.run rows sim)).2.sizes = s.sizes := by
        simp only [simStep, krigingRunSim]
        split_ifs
        · rfl
        · rcases interp1d s.sizes _ with e | f <;> rfl
      rw [this]; exact hs

/-- **C35 (restricted).**  After every history, when a `run` returns, the confidence curve asked before any other
`setDefectSizes` exists and equals at every size (if the sizes are distinct) the quantile of order `1-c` of the sample
simulated for that size.  Missing: the sizes may be changed after `run`. -/
theorem C35_confidence_curve_partial (observed : List ℝ) (ops : List SimOp) (s0 : SimAttrs)
    (hs0 : s0.sizes.Pairwise (· ≤ ·) ∧ s0.sizes ≠ []) (rows : ℕ) (sim : ℕ → ℝ → List ℝ) (c : ℝ) :
    let s := simHistory observed ops s0
    s.sizes.Nodup → (krigingRunSim rows sim s).1 = .ok () →
    ∃ f, getPODCLModel (krigingRunSim rows sim s).2 c = .ok f ∧
      ∀ i, i < s.sizes.length → f (s.sizes.getD i 0) = .ok (quantile (sim i (s.sizes.getD i 0)) (1 - c)) := by
  intro s hnd h
  obtain ⟨hsort, hne⟩ := sim_sizes_sorted observed ops s0 hs0
  have hinc : s.sizes.Pairwise (· < ·) := (hsort.and hnd).imp fun ⟨h1, h2⟩ => lt_of_le_of_ne h1 h2
  have hnum : s.sizes.length = s.number := by
    by_contra hc; exact C33_violated_run rows sim s hc h
  have hcols : (krigingRunSim rows sim s).2.perDefect = some (s.sizes.mapIdx sim) ∧
      (krigingRunSim rows sim s).2.sizes = s.sizes := by
    unfold krigingRunSim
    dsimp only
    rw [if_neg (by omega), hnum, Nat.sub_self, List.replicate_zero, List.append_nil]
    rcases interp1d s.sizes _ with e | f <;> exact ⟨rfl, rfl⟩
  rw [getPODCLModel, hcols.1, hcols.2]
  dsimp only
  set ys := (s.sizes.mapIdx sim).map (fun col => quantile col (1 - c)) with hys
  have hl : s.sizes.length = ys.length := by simp [hys]
  obtain ⟨f, hf, -, h2, -⟩ := interp1d_spec s.sizes ys hl hne hinc
  refine ⟨f, hf, fun i hi => ?_⟩
  rw [h2 i hi, List.getD_eq_getElem _ _ (by rw [← hl]; exact hi)]
  simp only [hys, List.getElem_map, List.getElem_mapIdx]
  rw [List.getD_eq_getElem _ _ hi]

example : ({ sizes := [1, 2], number := 2 } : SimAttrs).sizes.Nodup := by simp

/-- **C35 is violated**: after a run with the sizes 1, 2 and an accepted `setDefectSizes([1, 3])`, the confidence curve
takes at 3 the value simulated for 2. -/
theorem C35_violated :
    let sim : ℕ → ℝ → List ℝ := fun _ d => [d / 10]
    let s := simHistory [1, 5] [.run 1 sim, .setSizes [1, 3]] { sizes := [1, 2], number := 2 }
    ∃ f, getPODCLModel s 0.95 = .ok f ∧ f 3 = .ok (2 / 10) ∧ quantile (sim 1 3) (1 - 0.95) = 3 / 10 := by
  intro sim s
  have one : ∀ x : ℝ, quantile [x] (1 - 0.95) = x := by
    intro x
    rw [quantile, sortR_of_sorted (by simp)]
    norm_num [atPos]
  have hs : sortR [(1 : ℝ), 3] = [1, 3] := sortR_of_sorted (by norm_num)
  have hset : setDefectSizes [1, 5] [1, 3] ⟨[1, 2], 2⟩ = (.ok (), ⟨[1, 3], 2⟩) := by
    rw [setDefectSizes, if_neg (by simp), hs]
    norm_num [sampleMin, sampleMax]
  have h1 : s.perDefect = some [[1 / 10], [2 / 10]] ∧ s.sizes = [1, 3] := by
    simp [s, simHistory, simStep, krigingRunSim, interp1d, simSetSizes, hset, sim]
  rw [getPODCLModel, h1.1, h1.2]
  obtain ⟨f, hf, -, h2, -⟩ := interp1d_spec [1, 3] [1 / 10, 2 / 10] rfl (by simp) (by norm_num)
  refine ⟨f, ?_, ?_, ?_⟩
  · simpa [one] using hf
  · have := h2 1 (by simp); simpa using this
  · rw [one]

/-! ## C44 -/

/-- **C44.**  The bounds are rejected with ValueError iff one of them is given and outside the range of defects;
otherwise both drawn bounds are inside the range, the given ones unchanged and the missing ones at the ends. -/
theorem C44_draw_bounds (defects : List ℝ) (mn mx : ℝ) (hmn : IsLeast {x | x ∈ defects} mn)
    (hmx : IsGreatest {x | x ∈ defects} mx) (a b : Option ℝ) :
    (Raises (drawBounds defects a b) .valueError ↔
      (∃ x, a = some x ∧ ¬ (mn ≤ x ∧ x ≤ mx)) ∨ ∃ x, b = some x ∧ ¬ (mn ≤ x ∧ x ≤ mx)) ∧
    (∀ r, drawBounds defects a b = .ok r →
      (mn ≤ r.1 ∧ r.1 ≤ mx) ∧ (mn ≤ r.2 ∧ r.2 ≤ mx) ∧ r.1 = a.getD mn ∧ r.2 = b.getD mx) := by
  have hon : defects ≠ [] := by rintro rfl; exact absurd hmn.1 (by simp)
  have hle : mn ≤ mx := hmn.2 hmx.1
  obtain ⟨u, v, hu, hv⟩ := sampleMinMax_ok hon
  obtain rfl : u = mn := (sampleMin_spec hu).unique hmn
  obtain rfl : v = mx := (sampleMax_spec hv).unique hmx
  unfold drawBounds
  rw [hu, hv]
  dsimp only
  have ok_iff : ∀ {x y : ℝ} {P : Prop}, ¬ P → ((u ≤ x ∧ x ≤ v) ∧ (u ≤ y ∧ y ≤ v) ∧ x = a.getD u ∧ y = b.getD v) →
      (Raises (.ok (x, y) : Res (ℝ × ℝ)) .valueError ↔ P) ∧
      (∀ r, (.ok (x, y) : Res (ℝ × ℝ)) = .ok r →
      (u ≤ r.1 ∧ r.1 ≤ v) ∧ (u ≤ r.2 ∧ r.2 ≤ v) ∧ r.1 = a.getD u ∧ r.2 = b.getD v) := by
    intro x y P hP hxy
    refine ⟨⟨fun ⟨m, hm⟩ => absurd hm (by simp), fun h => absurd h hP⟩, fun r hr => ?_⟩
    rw [Except.ok.injEq] at hr
    subst hr
    exact hxy
  cases a with
  | none =>
    cases b with
    | none => exact ok_iff (by simp) ⟨⟨le_rfl, hle⟩, ⟨hle, le_rfl⟩, rfl, rfl⟩
    | some y =>
      dsimp only
      split_ifs with h1 h2
      · refine ⟨⟨fun _ => ?_, fun _ => ⟨_, rfl⟩⟩, fun r h => by cases h⟩; exact Or.inr ⟨y, rfl, fun h => by linarith [h.2]⟩
      · refine ⟨⟨fun _ => ?_, fun _ => ⟨_, rfl⟩⟩, fun r h => by cases h⟩; exact Or.inr ⟨y, rfl, fun h => by linarith [h.1]⟩
      · push Not at h1 h2
        refine ok_iff ?_ ⟨⟨le_rfl, hle⟩, ⟨h2, h1⟩, rfl, rfl⟩
        rintro (⟨x, hx, -⟩ | ⟨x, hx, hh⟩)
        · simp at hx
        · rw [Option.some.injEq] at hx; subst hx; exact hh ⟨h2, h1⟩
  | some z =>
    dsimp only
    split_ifs with h1 h2
    · refine ⟨⟨fun _ => ?_, fun _ => ⟨_, rfl⟩⟩, fun r h => by cases h⟩; exact Or.inl ⟨z, rfl, fun h => by linarith [h.1]⟩
    · refine ⟨⟨fun _ => ?_, fun _ => ⟨_, rfl⟩⟩, fun r h => by cases h⟩; exact Or.inl ⟨z, rfl, fun h => by linarith [h.2]⟩
    · push Not at h1 h2
      cases b with
      | none =>
        refine ok_iff ?_ ⟨⟨h1, h2⟩, ⟨hle, le_rfl⟩, rfl, rfl⟩
        rintro (⟨x, hx, hh⟩ | ⟨x, hx, -⟩)
        · rw [Option.some.injEq] at hx; subst hx; exact hh ⟨h1, h2⟩
        · simp at hx
      | some y =>
        dsimp only
        split_ifs with h3 h4
        · refine ⟨⟨fun _ => ?_, fun _ => ⟨_, rfl⟩⟩, fun r h => by cases h⟩; exact Or.inr ⟨y, rfl, fun h => by linarith [h.2]⟩
        · refine ⟨⟨fun _ => ?_, fun _ => ⟨_, rfl⟩⟩, fun r h => by cases h⟩; exact Or.inr ⟨y, rfl, fun h => by linarith [h.1]⟩
        · push Not at h3 h4
          refine ok_iff ?_ ⟨⟨h1, h2⟩, ⟨h4, h3⟩, rfl, rfl⟩
          rintro (⟨x, hx, hh⟩ | ⟨x, hx, hh⟩)
          · rw [Option.some.injEq] at hx; subst hx; exact hh ⟨h1, h2⟩
          · rw [Option.some.injEq] at hx; subst hx; exact hh ⟨h4, h3⟩

end Verif.Props
