import Verif.Model.HitMiss
import Mathlib.Tactic.Ring
import Mathlib.Tactic.Linarith
import Mathlib.Tactic.FieldSimp
import Mathlib.Tactic.Positivity
import Mathlib.Tactic.NormNum
import Mathlib.Data.List.GetD
import Mathlib.Data.List.Nodup
import Mathlib.Data.List.Forall2

/-!
# C50–C56: the adaptive hit-miss loop
-/

namespace Verif.Props
open Verif.Py Verif.Model

/-! ## `np.argsort` -/

/-- Contract of `np.argsort` on arrays without NaN (the sort need not be stable): a permutation of the ranks that sorts
the values. -/
def ArgsortSpec (argsort : List (F ℝ) → List ℕ) : Prop :=
  ∀ l : List (F ℝ), (∀ p ∈ l, p ≠ .nan) → (argsort l).Perm (List.range l.length) ∧
    ((argsort l).map fun i => l.getD i .nan).Pairwise fun a b => F.le a b = true

/-- Comparison used by numpy's sort (NaN last). -/
noncomputable def npLe (a b : F ℝ) : Bool := F.isNan b || F.le a b

/-- An argsort that meets the contract. -/
noncomputable def argsortRef (l : List (F ℝ)) : List ℕ :=
  (List.range l.length).mergeSort fun i j => npLe (l.getD i .nan) (l.getD j .nan)

theorem npLe_trans (a b c : F ℝ) (h1 : npLe a b = true) (h2 : npLe b c = true) : npLe a c = true := by
  cases a <;> cases b <;> cases c <;> simp_all [npLe, F.isNan, F.le]
  exact h1.trans h2

theorem npLe_total (a b : F ℝ) : (npLe a b || npLe b a) = true := by
  cases a <;> cases b <;> simp [npLe, F.isNan, F.le]
  exact le_total _ _

theorem argsortRef_spec : ArgsortSpec argsortRef := by
  intro l hl
  have hp : (argsortRef l).Perm (List.range l.length) := List.mergeSort_perm _ _
  refine ⟨hp, ?_⟩
  have h := List.pairwise_mergeSort (le := fun i j => npLe (l.getD i .nan) (l.getD j .nan))
    (fun a b c h1 h2 => npLe_trans _ _ _ h1 h2) (fun a b => npLe_total _ _) (List.range l.length)
  rw [List.pairwise_map]
  refine List.Pairwise.imp_of_mem ?_ h
  intro i j hi hj hle
  have hj' : j < l.length := by
    have := hp.mem_iff.mp hj
    simpa using this
  have hne : l.getD j .nan ≠ .nan := by
    rw [List.getD_eq_getElem _ _ hj']
    exact hl _ (List.getElem_mem hj')
  revert hle hne
  simp only [npLe]
  generalize l.getD j .nan = b
  intro hle hne
  cases b <;> simp_all [F.isNan]

/-! ## Selection -/

/-- The candidate of rank `i` has a probability in `[lo, hi)`. -/
def InWindow (lo hi : F ℝ) (probs : List (F ℝ)) (i : ℕ) : Prop :=
  i < probs.length ∧ F.le lo (probs.getD i .nan) = true ∧ F.lt (probs.getD i .nan) hi = true

noncomputable instance (lo hi : F ℝ) (probs : List (F ℝ)) : DecidablePred (InWindow lo hi probs) := fun _ =>
  Classical.dec _

theorem mem_window (lo hi : F ℝ) (probs : List (F ℝ)) (i : ℕ) : i ∈ window lo hi probs ↔ InWindow lo hi probs i := by
  simp only [window, npWhere, InWindow, List.mem_filter, List.mem_range, decide_eq_true_eq, F.ge]
  tauto

theorem window_nodup (lo hi : F ℝ) (probs : List (F ℝ)) : (window lo hi probs).Nodup :=
  (List.nodup_range.filter _).filter _

theorem window_eq (lo hi : F ℝ) (probs : List (F ℝ)) :
    window lo hi probs = (List.range probs.length).filter fun i => decide (InWindow lo hi probs i) := by
  simp only [window, npWhere, List.filter_filter]
  apply List.filter_congr
  intro i hi'
  have hi' : i < probs.length := by simpa using hi'
  simp only [npWhere, List.mem_filter, List.mem_range, InWindow, F.ge, hi', true_and, Bool.decide_and, Bool.decide_eq_true]
  rw [Bool.and_comm]

/-- The "enlarged" window selects nothing. -/
theorem window_fallback (probs : List (F ℝ)) : window (.fin (8 / 10)) (.fin (1 / 10)) probs = [] := by
  rw [List.eq_nil_iff_forall_not_mem]
  intro i hi
  obtain ⟨-, h1, h2⟩ := (mem_window _ _ _ _).mp hi
  revert h1 h2
  generalize probs.getD i .nan = p
  cases p <;> simp [F.le, F.lt]
  intro h1
  linarith

theorem eligible_eq (lo hi : F ℝ) (probs : List (F ℝ)) : eligible lo hi probs = window lo hi probs := by
  rw [eligible]
  split_ifs with h
  · rw [window_fallback, List.length_eq_zero_iff.mp h]
  · rfl

/-- The five ranks. -/
def ranks (n : ℕ) : List ℕ := [0, n / 4, n / 2, 3 * n / 4, n - 1]

theorem npGet_nat (l : List ℕ) (i : ℕ) (h : i < l.length) : npGet l (i : ℤ) = .ok (l.getD i 0) := by
  unfold npGet
  rw [if_pos (Int.natCast_nonneg i), Int.toNat_natCast, List.getElem?_eq_getElem h]
  dsimp only
  rw [if_pos (by omega), List.getD_eq_getElem _ _ h]

theorem npTake_quant (l : List ℕ) (h : 0 < l.length) :
    npTake l (quant l.length) = .ok ((ranks l.length).map fun i => l.getD i 0) := by
  have e : (l.length : ℤ) - 1 = ((l.length - 1 : ℕ) : ℤ) := by omega
  have h0 : npGet l 0 = .ok (l.getD 0 0) := npGet_nat l 0 h
  simp only [quant, npTake, e, h0, npGet_nat l (l.length / 4) (by omega), npGet_nat l (l.length / 2) (by omega),
    npGet_nat l (3 * l.length / 4) (by omega), npGet_nat l (l.length - 1) (by omega), ranks, List.map_cons, List.map_nil]

theorem window_ne_nan (lo hi : F ℝ) (probs : List (F ℝ)) :
    ∀ p ∈ (window lo hi probs).map (fun i => probs.getD i .nan), p ≠ .nan := by
  intro p hp
  obtain ⟨i, hi, rfl⟩ := List.mem_map.mp hp
  obtain ⟨-, h1, -⟩ := (mem_window _ _ _ _).mp hi
  intro h
  rw [h] at h1
  simp at h1

theorem selectBatch_eq (argsort : List (F ℝ) → List ℕ) (ha : ArgsortSpec argsort) (lo hi : F ℝ) (probs : List (F ℝ)) :
    let ind := window lo hi probs
    let rank := argsort (ind.map fun i => probs.getD i .nan)
    (ind = [] → Raises (selectBatch argsort lo hi probs) .indexError) ∧
    (ind ≠ [] → rank.length = ind.length ∧
      selectBatch argsort lo hi probs = .ok ((ranks ind.length).map fun r => ind.getD (rank.getD r 0) 0)) := by
  intro ind rank
  obtain ⟨hperm, -⟩ := ha _ (window_ne_nan lo hi probs)
  have hlen : rank.length = ind.length := by rw [hperm.length_eq]; simp [ind]
  constructor
  · intro h
    have hr : rank = [] := List.length_eq_zero_iff.mp (by rw [hlen, h]; rfl)
    have : selectBatch argsort lo hi probs = .error ⟨.indexError, ""⟩ := by
      rw [selectBatch]
      rw [eligible_eq]
      change (match npTake rank (quant ind.length) with | .error e => _ | .ok b => _) = _
      rw [hr, h]
      rfl
    exact ⟨"", this⟩
  · intro h
    refine ⟨hlen, ?_⟩
    rw [selectBatch]
    rw [eligible_eq]
    change (match npTake rank (quant ind.length) with | .error e => _ | .ok b => _) = _
    rw [← hlen, npTake_quant rank (by rw [hlen]; exact List.length_pos_iff.mpr h)]
    simp only [List.map_map]
    rfl

theorem ranks_lt (n : ℕ) (h : 0 < n) : ∀ r ∈ ranks n, r < n := by
  intro r hr
  simp only [ranks, List.mem_cons, List.not_mem_nil, or_false] at hr
  omega

theorem rank_lt {argsort : List (F ℝ) → List ℕ} (ha : ArgsortSpec argsort) (lo hi : F ℝ) (probs : List (F ℝ)) (r : ℕ)
    (hr : r < (window lo hi probs).length) :
    (argsort ((window lo hi probs).map fun i => probs.getD i .nan)).getD r 0 < (window lo hi probs).length := by
  obtain ⟨hperm, -⟩ := ha _ (window_ne_nan lo hi probs)
  have hlen := hperm.length_eq
  simp only [List.length_range, List.length_map] at hlen
  rw [List.getD_eq_getElem _ _ (by omega)]
  have := hperm.mem_iff.mp (List.getElem_mem (n := r) (by omega : r < _))
  simpa using this

/-- **C51.**  Every selected candidate has a probability in `[pmin, pmax)`; the batch has five members whose probabilities
are, in ascending order, the values of ranks 0, n/4, n/2, 3n/4 and n-1 in the sorted list of the `n` probabilities of the
window (so the first is the smallest and the last the largest). -/
theorem C51_batch (argsort : List (F ℝ) → List ℕ) (ha : ArgsortSpec argsort) (pmin pmax : F ℝ) (probs : List (F ℝ))
    (batch : List ℕ) (h : selectBatch argsort pmin pmax probs = .ok batch) :
    (∀ i ∈ batch, InWindow pmin pmax probs i) ∧
    ∃ sorted : List (F ℝ),
      sorted.Perm (((List.range probs.length).filter fun i => decide (InWindow pmin pmax probs i)).map
        fun i => probs.getD i .nan) ∧
      sorted.Pairwise (fun a b => F.le a b = true) ∧ sorted ≠ [] ∧
      (batch.map fun i => probs.getD i .nan) = [sorted.getD 0 .nan, sorted.getD (sorted.length / 4) .nan,
        sorted.getD (sorted.length / 2) .nan, sorted.getD (3 * sorted.length / 4) .nan,
        sorted.getD (sorted.length - 1) .nan] ∧
      (batch.map fun i => probs.getD i .nan).Pairwise (fun a b => F.le a b = true) := by
  obtain ⟨h1, h2⟩ := selectBatch_eq argsort ha pmin pmax probs
  set ind := window pmin pmax probs with hind
  set vals := ind.map fun i => probs.getD i .nan with hvals
  by_cases hne : ind = []
  · obtain ⟨m, hm⟩ := h1 hne
    rw [hm] at h; cases h
  · obtain ⟨hlen, h2⟩ := h2 hne
    rw [h2] at h
    cases h
    have hpos : 0 < ind.length := List.length_pos_iff.mpr hne
    obtain ⟨hperm, hsort⟩ := ha _ (window_ne_nan pmin pmax probs)
    rw [← hind, ← hvals] at hperm hsort
    set rank := argsort vals
    have hlt : ∀ r, r < ind.length → rank.getD r 0 < ind.length := fun r hr => rank_lt ha pmin pmax probs r hr
    have hmem : ∀ r, r < ind.length → ind.getD (rank.getD r 0) 0 ∈ ind := by
      intro r hr
      rw [List.getD_eq_getElem _ _ (hlt r hr)]
      exact List.getElem_mem _
    have hval : ∀ r, r < ind.length →
        probs.getD (ind.getD (rank.getD r 0) 0) .nan = (rank.map fun i => vals.getD i .nan).getD r .nan := by
      intro r hr
      have h3 := hlt r hr
      rw [List.getD_eq_getElem (rank.map _) _ (by simp; omega), List.getElem_map,
        List.getD_eq_getElem rank _ (by omega)] at *
      rw [List.getD_eq_getElem vals _ (by simpa [hvals] using h3), List.getD_eq_getElem ind _ h3]
      simp only [hvals, List.getElem_map]
    have hsl : (rank.map fun i => vals.getD i .nan).length = ind.length := by simp [hlen]
    have hbatch : (((ranks ind.length).map fun r => ind.getD (rank.getD r 0) 0).map fun i => probs.getD i .nan)
        = (ranks ind.length).map fun r => (rank.map fun i => vals.getD i .nan).getD r .nan := by
      rw [List.map_map]
      apply List.map_congr_left
      intro r hr
      exact hval r (ranks_lt _ hpos r hr)
    refine ⟨?_, rank.map fun i => vals.getD i .nan, ?_, hsort, ?_, ?_, ?_⟩
    · intro i hi
      obtain ⟨r, hr, rfl⟩ := List.mem_map.mp hi
      exact (mem_window _ _ _ _).mp (hmem r (ranks_lt _ hpos r hr))
    · rw [← window_eq, ← hind, ← hvals]
      have h4 := hperm.map fun i => vals.getD i .nan
      refine h4.trans ?_
      have h5 : (List.range vals.length).map (fun i => vals.getD i .nan) = vals := by
        apply List.ext_getElem
        · simp
        · intro i h6 h7
          rw [List.getElem_map, List.getElem_range, List.getD_eq_getElem _ _ h7]
      rw [h5]
    · intro h0
      rw [h0] at hsl; simp at hsl; omega
    · rw [hbatch, hsl]; rfl
    · rw [hbatch, List.pairwise_map]
      have hmono : ∀ a b, a ≤ b → b < ind.length → F.le ((rank.map fun i => vals.getD i .nan).getD a .nan)
          ((rank.map fun i => vals.getD i .nan).getD b .nan) = true := by
        intro a b hab hb
        rw [List.getD_eq_getElem _ _ (by omega), List.getD_eq_getElem _ _ (by omega)]
        rcases Nat.lt_or_eq_of_le hab with h | h
        · exact List.pairwise_iff_getElem.mp hsort a b (by omega) (by omega) h
        · subst h
          have hn := window_ne_nan pmin pmax probs
          rw [← hind, ← hvals] at hn
          have : (rank.map fun i => vals.getD i .nan)[a]'(by omega) ∈ vals := by
            rw [List.getElem_map, List.getD_eq_getElem]
            · exact List.getElem_mem _
            · have h3 := hlt a (by omega)
              rw [List.getD_eq_getElem _ _ (by omega)] at h3
              simpa [hvals] using h3
          have := hn _ this
          revert this
          generalize (rank.map fun i => vals.getD i .nan)[a]'(by omega) = p
          intro hp
          cases p <;> simp_all [F.le]
      simp only [ranks, List.pairwise_cons, List.mem_cons, List.not_mem_nil, or_false, forall_eq_or_imp, forall_eq,
        false_imp_iff, implies_true, and_true, List.Pairwise.nil]
      refine ⟨⟨?_, ?_, ?_, ?_⟩, ⟨?_, ?_, ?_⟩, ⟨?_, ?_⟩, ?_⟩ <;> apply hmono <;> omega

/-- The hypotheses are met by concrete probabilities. -/
theorem demo_batch : selectBatch argsortRef (.fin 0) (.fin 1) [.fin (1 / 2)] = .ok [0, 0, 0, 0, 0] := by
  have hw : window (.fin 0) (.fin 1) [.fin (1 / 2)] = [0] := by
    norm_num [window, npWhere, List.range_succ]
  have h := (selectBatch_eq argsortRef argsortRef_spec (.fin 0) (.fin 1) [.fin (1 / 2)]).2
  simp only [hw] at h
  obtain ⟨h1, h2⟩ := h (by simp)
  rw [h2]
  have : argsortRef [F.fin (1 / 2)] = [0] := by simp [argsortRef, List.range_succ]
  simp [ranks, this]

/-! ## C52 -/

/-- **C52 is violated**: if no candidate is in the window, nothing is ever added; every iteration raises IndexError. -/
theorem C52_violated {X : Type} (env : HMEnv X) (ha : ArgsortSpec env.argsort) (cand : List X) (nIni nMore : ℕ)
    (loc : HMLocals X) (s : HMAttrs X)
    (hno : ∀ i, ¬ InWindow s.pmin s.pmax (cand.map (loc.cur.eval loc.vars)) i) :
    Raises (hmIter env cand nIni nMore loc s).1 .indexError ∧ (hmIter env cand nIni nMore loc s).2 = s := by
  have hw : window s.pmin s.pmax (cand.map (loc.cur.eval loc.vars)) = [] := by
    rw [List.eq_nil_iff_forall_not_mem]
    exact fun i hi => hno i ((mem_window _ _ _ _).mp hi)
  obtain ⟨m, hm⟩ := (selectBatch_eq env.argsort ha s.pmin s.pmax (cand.map (loc.cur.eval loc.vars))).1 hw
  unfold hmIter
  rw [hm]
  exact ⟨⟨m, rfl⟩, rfl⟩

/-- After any exception inside `run` (for instance that one) the object cannot be run again: AttributeError, whatever is
changed in the environment. -/
theorem C52_violated_unusable {X : Type} (env env' : HMEnv X) (cand cand' : List X) (nMore nMore' : ℕ) (s : HMAttrs X)
    (e : PyErr) (h : (hmRun env cand nMore s).1 = .error e) :
    Raises (hmRun env' cand' nMore' (hmRun env cand nMore s).2).1 .attributeError := by
  have hiter : ∀ nIni loc (s : HMAttrs X), (hmIter env cand nIni nMore loc s).2.numpy = s.numpy := by
    intro nIni loc s
    unfold hmIter
    split
    · rfl
    · dsimp only
      split
      · rfl
      · split <;> rfl
  have hloop : ∀ nIni fuel loc (s : HMAttrs X), (hmLoop env cand nIni nMore fuel loc s).2.numpy = s.numpy := by
    intro nIni fuel
    induction fuel with
    | zero => intro loc s; rw [hmLoop]; dsimp only; split_ifs <;> rfl
    | succ n ih =>
      intro loc s
      have h1 := hiter nIni loc s
      rw [hmLoop]; dsimp only
      split_ifs
      · revert h1
        rcases hmIter env cand nIni nMore loc s with ⟨e | l', s'⟩
        · exact fun h1 => h1
        · intro h1; dsimp only at h1 ⊢; rw [ih, h1]
      · rfl
  have hn : (hmRun env cand nMore s).2.numpy = true := by
    revert h
    unfold hmRun
    split_ifs with h0
    · exact fun _ => h0
    · dsimp only
      split
      · exact fun _ => rfl
      · rename_i g hg
        generalize hs1 : ({ s with numpy := true, model := some (.base g, none) } : HMAttrs X) = s1
        have h2 := hloop s.input.length nMore ⟨[.base g], .base g, none, 0, 0⟩ s1
        have h3 : s1.numpy = true := by rw [← hs1]
        rw [h3] at h2
        revert h2
        rcases hmLoop env cand s.input.length nMore nMore ⟨[.base g], .base g, none, 0, 0⟩ s1 with ⟨e' | l', s'⟩
        · exact fun h2 _ => h2
        · intro _ h3; cases h3
  generalize (hmRun env cand nMore s).2 = s2 at hn
  unfold hmRun
  rw [if_pos hn]
  exact ⟨_, rfl⟩

/-- **C52 (restricted).**  A batch is found iff some candidate is in the original window.  Missing: any enlargement. -/
theorem C52_window_partial (argsort : List (F ℝ) → List ℕ) (ha : ArgsortSpec argsort) (pmin pmax : F ℝ)
    (probs : List (F ℝ)) :
    (∃ batch, selectBatch argsort pmin pmax probs = .ok batch) ↔ ∃ i, InWindow pmin pmax probs i := by
  obtain ⟨h1, h2⟩ := selectBatch_eq argsort ha pmin pmax probs
  by_cases hw : window pmin pmax probs = []
  · obtain ⟨m, hm⟩ := h1 hw
    constructor
    · rintro ⟨b, hb⟩; rw [hm] at hb; cases hb
    · rintro ⟨i, hi⟩
      have := (mem_window _ _ _ _).mpr hi
      rw [hw] at this; simp at this
  · refine ⟨fun _ => ?_, fun _ => ⟨_, (h2 hw).2⟩⟩
    obtain ⟨i, hi⟩ := List.exists_mem_of_ne_nil _ hw
    exact ⟨i, (mem_window _ _ _ _).mp hi⟩

example : ∀ i, ¬ InWindow (.fin (45 / 100)) (.fin (52 / 100)) [.fin 0, .fin 1] i := by
  rintro (_ | _ | i) ⟨h1, h2, h3⟩
  · norm_num at h2
  · norm_num at h3
  · simp at h1; omega

/-! ## C53 -/

/-- **C53 (restricted).**  The five candidates of a batch are pairwise distinct exactly when at least five candidates are
in the window.  Missing: smaller windows. -/
theorem C53_distinct_partial (argsort : List (F ℝ) → List ℕ) (ha : ArgsortSpec argsort) (pmin pmax : F ℝ)
    (probs : List (F ℝ)) (batch : List ℕ) (h : selectBatch argsort pmin pmax probs = .ok batch) :
    batch.Nodup ↔ 5 ≤ ((List.range probs.length).filter fun i => decide (InWindow pmin pmax probs i)).length := by
  rw [← window_eq]
  obtain ⟨h1, h2⟩ := selectBatch_eq argsort ha pmin pmax probs
  by_cases hne : window pmin pmax probs = []
  · obtain ⟨m, hm⟩ := h1 hne
    rw [hm] at h; cases h
  · obtain ⟨hlen, h2⟩ := h2 hne
    rw [h2] at h
    cases h
    have hpos : 0 < (window pmin pmax probs).length := List.length_pos_iff.mpr hne
    obtain ⟨hperm, -⟩ := ha _ (window_ne_nan pmin pmax probs)
    have hnd := hperm.nodup_iff.mpr List.nodup_range
    have hlt := fun r hr => rank_lt ha pmin pmax probs r hr
    have hwn := window_nodup pmin pmax probs
    generalize argsort ((window pmin pmax probs).map fun i => probs.getD i .nan) = rank at *
    generalize window pmin pmax probs = ind at *
    have hinj : ∀ a b, a < ind.length → b < ind.length →
        ind.getD (rank.getD a 0) 0 = ind.getD (rank.getD b 0) 0 → a = b := by
      intro a b ha' hb' he
      have h3 := hlt a ha'
      have h4 := hlt b hb'
      rw [List.getD_eq_getElem _ _ h3, List.getD_eq_getElem _ _ h4] at he
      have h5 := (List.Nodup.getElem_inj_iff hwn).mp he
      rw [List.getD_eq_getElem _ _ (by omega), List.getD_eq_getElem _ _ (by omega)] at h5
      exact (List.Nodup.getElem_inj_iff hnd).mp h5
    constructor
    · intro hb
      have hr : (ranks ind.length).Nodup := List.Nodup.of_map _ hb
      simp only [ranks, List.nodup_cons, List.mem_cons, List.not_mem_nil, or_false] at hr
      omega
    · intro h5
      refine List.Nodup.map_on ?_ ?_
      · intro a ha' b hb' he
        exact hinj a b (ranks_lt _ hpos a ha') (ranks_lt _ hpos b hb') he
      · simp only [ranks, List.nodup_cons, List.mem_cons, List.not_mem_nil, or_false, not_or, not_false_iff,
          List.nodup_nil, and_true]
        omega

/-- **C53 is violated** for every window with one to four candidates: the batch repeats a candidate. -/
theorem C53_violated (argsort : List (F ℝ) → List ℕ) (ha : ArgsortSpec argsort) (pmin pmax : F ℝ) (probs : List (F ℝ))
    (h1 : ∃ i, InWindow pmin pmax probs i)
    (h4 : ((List.range probs.length).filter fun i => decide (InWindow pmin pmax probs i)).length < 5) :
    ∃ batch, selectBatch argsort pmin pmax probs = .ok batch ∧ ¬ batch.Nodup := by
  obtain ⟨b, hb⟩ := (C52_window_partial argsort ha pmin pmax probs).mpr h1
  refine ⟨b, hb, fun hn => ?_⟩
  have := (C53_distinct_partial argsort ha pmin pmax probs b hb).mp hn
  omega

/-! ## C50 -/

theorem labelAll_ok {X : Type} (physical : X → Res Bool) (xs : List X) (zs : List Bool)
    (h : labelAll physical xs = .ok zs) : List.Forall₂ (fun x z => physical x = .ok z) xs zs := by
  induction xs generalizing zs with
  | nil => cases h; exact .nil
  | cons x xs ih =>
    rw [labelAll] at h
    cases hp : physical x with
    | error e => rw [hp] at h; cases h
    | ok b =>
      rw [hp] at h; dsimp only at h
      cases hl : labelAll physical xs with
      | error e => rw [hl] at h; cases h
      | ok bs => rw [hl] at h; cases h; exact .cons hp (ih _ hl)

theorem forall₂_take' {α β : Type} {R : α → β → Prop} {l : List α} {l' : List β} (h : List.Forall₂ R l l') (k : ℕ) :
    List.Forall₂ R (l.take k) (l'.take k) := by
  induction h generalizing k with
  | nil => simp
  | cons hab _ ih =>
    cases k with
    | zero => simp
    | succ k => rw [List.take_succ_cons, List.take_succ_cons]; exact .cons hab (ih k)

theorem batch_points {X : Type} (argsort : List (F ℝ) → List ℕ) (ha : ArgsortSpec argsort) (pmin pmax : F ℝ)
    (cand : List X) (f : X → F ℝ) (batch : List ℕ) (h : selectBatch argsort pmin pmax (cand.map f) = .ok batch) :
    (batch.filterMap fun i => cand[i]?).length = 5 ∧
    ∀ x ∈ batch.filterMap (fun i => cand[i]?), x ∈ cand ∧ F.le pmin (f x) = true ∧ F.lt (f x) pmax = true := by
  obtain ⟨h1, sorted, -, -, -, h2, -⟩ := C51_batch argsort ha pmin pmax _ batch h
  have hlen : batch.length = 5 := by
    have := congrArg List.length h2
    simpa using this
  have hget : ∀ i ∈ batch, ∃ x, cand[i]? = some x ∧ F.le pmin (f x) = true ∧ F.lt (f x) pmax = true := by
    intro i hi
    obtain ⟨h3, h4, h5⟩ := h1 i hi
    have h3' : i < cand.length := by simpa using h3
    rw [List.getD_eq_getElem _ _ h3, List.getElem_map] at h4 h5
    exact ⟨cand[i], List.getElem?_eq_getElem h3', h4, h5⟩
  constructor
  · rw [← hlen]
    clear hlen h h1 h2
    induction batch with
    | nil => rfl
    | cons i is ih =>
      obtain ⟨x, hx, -⟩ := hget i (by simp)
      rw [List.filterMap_cons_some hx]
      simp [ih fun j hj => hget j (by simp [hj])]
  · intro x hx
    obtain ⟨i, hi, hx⟩ := List.mem_filterMap.mp hx
    obtain ⟨x', hx', h3⟩ := hget i hi
    rw [hx] at hx'; cases hx'
    exact ⟨List.mem_of_getElem? hx, h3⟩

/-- What a successful iteration adds. -/
theorem hmIter_ok {X : Type} (env : HMEnv X) (ha : ArgsortSpec env.argsort) (cand : List X) (nIni nMore : ℕ)
    (loc loc' : HMLocals X) (s s' : HMAttrs X) (h : hmIter env cand nIni nMore loc s = (.ok loc', s'))
    (hle : s.input.length ≤ nIni + nMore) :
    ∃ xs zs, s'.input = s.input ++ xs ∧ s'.labels = s.labels ++ zs ∧
      List.Forall₂ (fun x z => env.physical x = .ok z) xs zs ∧
      (∀ x ∈ xs, x ∈ cand ∧ F.le s.pmin (loc.cur.eval loc.vars x) = true ∧ F.lt (loc.cur.eval loc.vars x) s.pmax = true) ∧
      xs.length = min 5 (nIni + nMore - s.input.length) ∧ loc'.nAdded = s.input.length + 5 - nIni ∧
      s'.pmin = s.pmin ∧ s'.pmax = s.pmax := by
  unfold hmIter at h
  split at h
  · simp at h
  · rename_i batch hb
    obtain ⟨hl, hmem⟩ := batch_points env.argsort ha s.pmin s.pmax cand _ batch hb
    dsimp only at h
    split at h
    · simp at h
    · rename_i zs hz
      split at h
      · simp at h
      · rename_i alg hfit
        simp only [Prod.mk.injEq, Except.ok.injEq] at h
        obtain ⟨rfl, rfl⟩ := h
        refine ⟨_, _, rfl, rfl, forall₂_take' (labelAll_ok _ _ _ hz) _, ?_, ?_, ?_, rfl, rfl⟩
        · exact fun x hx => hmem x (List.mem_of_mem_take hx)
        · rw [List.length_take, hl]
          split_ifs <;> omega
        · simp only [hl]

theorem hmLoop_ok {X : Type} (env : HMEnv X) (ha : ArgsortSpec env.argsort) (cand : List X) (nIni nMore fuel : ℕ)
    (loc loc' : HMLocals X) (s s' : HMAttrs X) (h : hmLoop env cand nIni nMore fuel loc s = (.ok loc', s'))
    (hinv : s.input.length = nIni + min loc.nAdded nMore) :
    ∃ xs zs, s'.input = s.input ++ xs ∧ s'.labels = s.labels ++ zs ∧
      List.Forall₂ (fun x z => env.physical x = .ok z) xs zs ∧ (∀ x ∈ xs, x ∈ cand) ∧
      s'.input.length = nIni + nMore := by
  induction fuel generalizing loc s with
  | zero =>
    rw [hmLoop] at h; dsimp only at h
    split_ifs at h with hc
    · simp at h
    · cases h
      exact ⟨[], [], by simp, by simp, .nil, by simp, by omega⟩
  | succ n ih =>
    rw [hmLoop] at h; dsimp only at h
    split_ifs at h with hc
    · cases hit : hmIter env cand nIni nMore loc s with
      | mk r s1 =>
        rw [hit] at h
        cases r with
        | error e => simp at h
        | ok loc1 =>
          dsimp only at h
          obtain ⟨xs, zs, h1, h2, h3, h4, h5, h6, -⟩ := hmIter_ok env ha cand nIni nMore loc loc1 s s1 hit (by omega)
          obtain ⟨xs', zs', h1', h2', h3', h4', h5'⟩ := ih loc1 s1 h (by
            rw [h1, List.length_append, h5, h6]; omega)
          refine ⟨xs ++ xs', zs ++ zs', by rw [h1', h1, List.append_assoc], by rw [h2', h2, List.append_assoc],
            List.rel_append h3 h3', ?_, h5'⟩
          intro x hx
          rcases List.mem_append.mp hx with h | h
          · exact (h4 x h).1
          · exact h4' x h
    · cases h
      exact ⟨[], [], by simp, by simp, .nil, by simp, by omega⟩

/-- **C50.**  A successful run appends exactly `nMore` points to the design, all taken from the candidates, each with the
label given by the physical model, keeps the initial points as a prefix, and leaves `_input` a Sample (so that the object can
be run again). -/
theorem C50_points_added {X : Type} (env : HMEnv X) (ha : ArgsortSpec env.argsort) (cand : List X) (nMore : ℕ)
    (s s' : HMAttrs X) (h : hmRun env cand nMore s = (.ok (), s')) :
    ∃ xs zs, s'.input = s.input ++ xs ∧ s'.labels = s.labels ++ zs ∧ xs.length = nMore ∧ (∀ x ∈ xs, x ∈ cand) ∧
      List.Forall₂ (fun x z => env.physical x = .ok z) xs zs ∧ s'.numpy = false := by
  unfold hmRun at h
  split_ifs at h
  · simp at h
  · dsimp only at h
    split at h
    · simp at h
    · split at h
      · simp at h
      · rename_i g hg loc' s2 hl
        simp only [Prod.mk.injEq, true_and] at h
        subst h
        obtain ⟨xs, zs, h1, h2, h3, h4, h5⟩ := hmLoop_ok env ha cand _ nMore nMore _ _ _ _ hl (by simp)
        refine ⟨xs, zs, h1, h2, ?_, h4, h3, rfl⟩
        rw [h1, List.length_append] at h5
        simpa using h5

/-- The bound on the number of iterations is never reached: more fuel changes nothing. -/
theorem C50_terminates {X : Type} (env : HMEnv X) (ha : ArgsortSpec env.argsort) (cand : List X) (nIni nMore fuel : ℕ)
    (loc : HMLocals X) (s : HMAttrs X) (hinv : s.input.length = nIni + min loc.nAdded nMore)
    (hf : nMore ≤ loc.nAdded + fuel) :
    hmLoop env cand nIni nMore (fuel + 1) loc s = hmLoop env cand nIni nMore fuel loc s ∧
    (loc.nAdded < nMore → 0 < fuel) := by
  refine ⟨?_, by omega⟩
  induction fuel generalizing loc s with
  | zero => simp only [hmLoop]; rw [if_neg (by omega), if_neg (by omega)]
  | succ n ih =>
    rw [hmLoop, hmLoop]; dsimp only
    split_ifs with hc
    · cases hit : hmIter env cand nIni nMore loc s with
      | mk r s1 =>
        cases r with
        | error e => rfl
        | ok loc1 =>
          dsimp only
          obtain ⟨xs, zs, h1, h2, h3, h4, h5, h6, -⟩ := hmIter_ok env ha cand nIni nMore loc loc1 s s1 hit (by omega)
          refine ih loc1 s1 ?_ (by omega)
          rw [h1, List.length_append, h5, h6]; omega
    · rfl

/-! ## C54 -/

/-- **C54.**  For distinct real entries the aggregated classifier returns two numbers of [0,1] with sum 1; the second is the
affine correction `(p - p10)/(p11 - p10)` clipped to [0,1]. -/
theorem C54_aggregated (p11 p10 p : ℝ) (h : p11 ≠ p10) :
    ∃ q : ℝ, aggRow (.fin p11) (.fin p10) (.fin p) = (.fin (1 - q), .fin q) ∧ 0 ≤ q ∧ q ≤ 1 ∧
      ((p - p10) / (p11 - p10) ≤ 0 → q = 0) ∧ (1 ≤ (p - p10) / (p11 - p10) → q = 1) ∧
      (0 ≤ (p - p10) / (p11 - p10) → (p - p10) / (p11 - p10) ≤ 1 → q * (p11 - p10) + p10 = p) := by
  have hc : p11 + -p10 ≠ 0 := by rw [← sub_eq_add_neg]; exact sub_ne_zero.mpr h
  have hagg : aggregate (.fin p11) (.fin p10) (.fin p) = .fin (min (max ((p - p10) / (p11 - p10)) 0) 1) := by
    simp only [aggregate, F.sub, F.neg_fin, F.add_fin, F.div_fin _ hc, F.mul_fin, clip01]
    congr 3
    rw [← sub_eq_add_neg, ← sub_eq_add_neg]; ring
  refine ⟨min (max ((p - p10) / (p11 - p10)) 0) 1, ?_, le_min (le_max_right _ _) zero_le_one, min_le_right _ _, ?_, ?_, ?_⟩
  · simp only [aggRow, hagg, F.sub, F.neg_fin, F.add_fin, sub_eq_add_neg]
  · intro h1
    rw [max_eq_right h1, min_eq_left zero_le_one]
  · intro h1
    rw [max_eq_left (zero_le_one.trans h1), min_eq_right h1]
  · intro h1 h2
    rw [max_eq_left h1, min_eq_left h2, div_mul_cancel₀ _ (sub_ne_zero.mpr h)]; ring

example : aggRow (.fin 1) (.fin 0) (.fin (1 / 4)) = (.fin (3 / 4), .fin (1 / 4)) := by
  obtain ⟨q, hq, -, -, -, -, h⟩ := C54_aggregated 1 0 (1 / 4) (by norm_num)
  have : q = 1 / 4 := by have := h (by norm_num) (by norm_num); linarith
  rw [hq, this]; norm_num

/-- The excluded case: equal entries give 0, 1 or NaN according to the position of the base probability. -/
theorem C54_degenerate (c p : ℝ) :
    aggregate (.fin c) (.fin c) (.fin p) = if p < c then .fin 0 else if p = c then .nan else .fin 1 := by
  have h0 : F.div (.fin (1 : ℝ)) (.fin (c + -c)) = .pinf := by simp [F.div, F.infSign]
  simp only [aggregate, F.sub, F.neg_fin, F.add_fin, h0, F.mul, F.infSign]
  rcases lt_trichotomy p c with h | h | h
  · rw [if_neg (by intro h'; linarith), if_neg (by linarith), if_pos h]; rfl
  · subst h; simp [clip01]
  · rw [if_neg (by intro h'; linarith), if_pos (by linarith), if_neg (by linarith), if_neg h.ne']; rfl

/-! ## C55 -/

/-- The aggregated classifier of an iteration, with the values of that iteration. -/
noncomputable def frozen {X : Type} (a : AggVars X) (x : X) : F ℝ := aggregate a.p11 a.p10 (a.alg x)

/-- `k` successful iterations; the list collects the values of `p11`, `p10` and of the fitted classifier at the end of each. -/
inductive HMSteps {X : Type} (env : HMEnv X) (cand : List X) (nIni nMore : ℕ) :
    HMLocals X → HMAttrs X → List (AggVars X) → HMLocals X → HMAttrs X → Prop
  | refl (l : HMLocals X) (s : HMAttrs X) : HMSteps env cand nIni nMore l s [] l s
  | step {l s vs l1 s1 l2 s2 v} (h1 : HMSteps env cand nIni nMore l s vs l1 s1)
      (h2 : hmIter env cand nIni nMore l1 s1 = (.ok l2, s2)) (hv : l2.vars = some v) :
      HMSteps env cand nIni nMore l s (vs ++ [v]) l2 s2

/-- The local variables before the first iteration. -/
def initLocals {X : Type} (g : X → F ℝ) : HMLocals X := ⟨[.base g], .base g, none, 0, 0⟩

theorem hmIter_clfs {X : Type} (env : HMEnv X) (cand : List X) (nIni nMore : ℕ) (loc loc' : HMLocals X)
    (s s' : HMAttrs X) (h : hmIter env cand nIni nMore loc s = (.ok loc', s')) :
    loc'.clfs = loc.clfs ++ [.agg] ∧
    ∃ conf alg, s'.confMat = some conf ∧ loc'.vars = some ⟨conf true true, conf true false, alg⟩ ∧
      conf = meanConf s'.labels (loc.clfs.map fun c => s'.input.map (c.eval loc.vars)) ∧
      env.fit (loc.it + 1) s'.input s'.labels = .ok alg := by
  unfold hmIter at h
  split at h
  · simp at h
  · dsimp only at h
    split at h
    · simp at h
    · split at h
      · simp at h
      · rename_i alg hfit
        simp only [Prod.mk.injEq, Except.ok.injEq] at h
        obtain ⟨rfl, rfl⟩ := h
        exact ⟨rfl, _, alg, rfl, rfl, rfl, hfit⟩

theorem steps_locals {X : Type} (env : HMEnv X) (cand : List X) (nIni nMore : ℕ) (g : X → F ℝ) (s : HMAttrs X)
    (vs : List (AggVars X)) (l1 : HMLocals X) (s1 : HMAttrs X)
    (h : HMSteps env cand nIni nMore (initLocals g) s vs l1 s1) :
    l1.clfs = .base g :: List.replicate vs.length .agg ∧ l1.vars = vs.getLast? := by
  generalize hl : initLocals g = l0 at h
  induction h with
  | refl => subst hl; exact ⟨rfl, rfl⟩
  | step h1 h2 hv ih =>
    obtain ⟨h3, h4⟩ := ih
    obtain ⟨h5, -⟩ := hmIter_clfs _ _ _ _ _ _ _ _ h2
    refine ⟨?_, ?_⟩
    · rw [h5, h3, List.length_append, List.length_singleton, List.replicate_succ']; rfl
    · rw [hv]; simp

/-- **C55 (restricted).**  In every iteration of every run the matrix is the average of the column-normalised confusion
matrices, on the design of that iteration, of the initial classifier (once) and of the *last* aggregated classifier (as many
times as there are aggregated classifiers); in the first two iterations this is the average over all the successive
classifiers.  Missing: later iterations. -/
theorem C55_confusion_partial {X : Type} (env : HMEnv X) (cand : List X) (nIni nMore : ℕ) (g : X → F ℝ) (s : HMAttrs X)
    (vs : List (AggVars X)) (l1 l2 : HMLocals X) (s1 s2 : HMAttrs X)
    (h : HMSteps env cand nIni nMore (initLocals g) s vs l1 s1)
    (h2 : hmIter env cand nIni nMore l1 s1 = (.ok l2, s2)) :
    (vs = [] → s2.confMat = some (meanConf s2.labels [s2.input.map g])) ∧
    (∀ a, vs.getLast? = some a → s2.confMat =
      some (meanConf s2.labels (s2.input.map g :: List.replicate vs.length (s2.input.map (frozen a))))) ∧
    (vs.length ≤ 1 →
      s2.confMat = some (meanConf s2.labels (s2.input.map g :: vs.map fun a => s2.input.map (frozen a)))) := by
  obtain ⟨hc, hv⟩ := steps_locals env cand nIni nMore g s vs l1 s1 h
  obtain ⟨-, conf, alg, h3, -, h4, -⟩ := hmIter_clfs _ _ _ _ _ _ _ _ h2
  have key : ∀ a, vs.getLast? = some a → s2.confMat =
      some (meanConf s2.labels (s2.input.map g :: List.replicate vs.length (s2.input.map (frozen a)))) := by
    intro a ha
    rw [h3, h4, hc, hv, ha]
    simp only [List.map_cons, List.map_replicate]
    rfl
  have key0 : vs = [] → s2.confMat = some (meanConf s2.labels [s2.input.map g]) := by
    intro h0
    rw [h3, h4, hc, h0]
    rfl
  refine ⟨key0, key, fun hle => ?_⟩
  match vs, hle with
  | [], _ => rw [key0 rfl]; rfl
  | [a], _ => rw [key a rfl]; rfl

/-- Columns sum to one when every classifier predicts both labels on the design. -/
theorem C55_columns (labels : List Bool) (probs : List (List (F ℝ))) (hne : probs ≠ []) (j : Bool)
    (hp : ∀ p ∈ probs, p.length = labels.length ∧ ∃ q ∈ p, F.ge q (.fin (1 / 2)) = j) :
    ∃ a b : ℝ, meanConf labels probs false j = .fin a ∧ meanConf labels probs true j = .fin b ∧ 0 ≤ a ∧ 0 ≤ b ∧
      a + b = 1 := by
  have hone : ∀ p ∈ probs, ∃ a b : ℝ, classifierConf labels p false j = .fin a ∧ classifierConf labels p true j = .fin b ∧
      0 ≤ a ∧ 0 ≤ b ∧ a + b = 1 := by
    intro p hp'
    obtain ⟨hl, q, hq, hj⟩ := hp p hp'
    have hpos : 0 < confCount labels (p.map fun p => F.ge p (.fin (1 / 2))) false j +
        confCount labels (p.map fun p => F.ge p (.fin (1 / 2))) true j := by
      obtain ⟨i, hi, rfl⟩ := List.getElem_of_mem hq
      have hi' : i < labels.length := by omega
      have hmem : (labels[i], j) ∈ labels.zip (p.map fun p => F.ge p (.fin (1 / 2))) := by
        rw [List.mem_iff_getElem]
        refine ⟨i, by simp; omega, ?_⟩
        rw [List.getElem_zip, List.getElem_map, hj]
      rcases hb : labels[i] with _ | _
      · have : 0 < confCount labels (p.map fun p => F.ge p (.fin (1 / 2))) false j := by
          rw [confCount, List.countP_pos_iff]
          exact ⟨_, hmem, by simp [hb]⟩
        omega
      · have : 0 < confCount labels (p.map fun p => F.ge p (.fin (1 / 2))) true j := by
          rw [confCount, List.countP_pos_iff]
          exact ⟨_, hmem, by simp [hb]⟩
        omega
    simp only [classifierConf, colNorm]
    generalize confCount labels (p.map fun p => F.ge p (.fin (1 / 2))) false j = m at *
    generalize confCount labels (p.map fun p => F.ge p (.fin (1 / 2))) true j = n at *
    have hr : (0 : ℝ) < m + n := by exact_mod_cast hpos
    refine ⟨m / (m + n), n / (m + n), F.div_fin _ hr.ne', F.div_fin _ hr.ne', by positivity, by positivity, ?_⟩
    field_simp
  have hfold : ∀ (l : List (List (F ℝ))) (a0 b0 : ℝ), (∀ p ∈ l, p ∈ probs) → 0 ≤ a0 → 0 ≤ b0 →
      ∃ a b : ℝ, l.foldl (fun acc p => F.add (classifierConf labels p false j) acc) (.fin a0) = .fin a ∧
        l.foldl (fun acc p => F.add (classifierConf labels p true j) acc) (.fin b0) = .fin b ∧ 0 ≤ a ∧ 0 ≤ b ∧
        a + b = a0 + b0 + l.length := by
    intro l
    induction l with
    | nil => intro a0 b0 _ h1 h2; exact ⟨a0, b0, rfl, rfl, h1, h2, by simp⟩
    | cons p l ih =>
      intro a0 b0 hl h1 h2
      obtain ⟨a, b, ha, hb, ha0, hb0, hab⟩ := hone p (hl p (by simp))
      obtain ⟨a', b', h3, h4, h5, h6, h7⟩ := ih (a + a0) (b + b0) (fun q hq => hl q (by simp [hq])) (by linarith) (by linarith)
      refine ⟨a', b', ?_, ?_, h5, h6, ?_⟩
      · rw [List.foldl_cons, ha, F.add_fin, h3]
      · rw [List.foldl_cons, hb, F.add_fin, h4]
      · rw [h7]; push_cast [List.length_cons]; linarith
  obtain ⟨a, b, ha, hb, ha0, hb0, hab⟩ := hfold probs 0 0 (fun _ h => h) le_rfl le_rfl
  have hn : (0 : ℝ) < probs.length := by exact_mod_cast List.length_pos_iff.mpr hne
  refine ⟨a / probs.length, b / probs.length, ?_, ?_, by positivity, by positivity, ?_⟩
  · rw [meanConf, ha, F.div_fin _ hn.ne']
  · rw [meanConf, hb, F.div_fin _ hn.ne']
  · rw [← add_div, hab]; simp only [zero_add]; field_simp

/-! The witness: three points 0 (no detection), 1 and 2 (detection); 2 is the only candidate. -/

/-- First classifier: all right. -/
noncomputable def goodAlg (x : ℕ) : F ℝ := if x = 0 then .fin (45 / 100) else .fin (1 / 2)
/-- Second classifier: wrong at 0 and 1. -/
noncomputable def badAlg (x : ℕ) : F ℝ := if x = 1 then .fin (45 / 100) else .fin (1 / 2)

/-- The initial classifier and that of the first iteration are right, the others wrong. -/
noncomputable def lateEnv : HMEnv ℕ where
  physical x := .ok (x != 0)
  fit it _ _ := .ok (if it ≤ 1 then goodAlg else badAlg)
  argsort := argsortRef

/-- Initial object. -/
noncomputable def lateInit : HMAttrs ℕ := ⟨[0, 1], [false, true], true, none, none, .fin (45 / 100), .fin (52 / 100)⟩

theorem selectBatch_single (pmin pmax p : F ℝ) (h1 : F.le pmin p = true) (h2 : F.lt p pmax = true) :
    selectBatch argsortRef pmin pmax [p] = .ok [0, 0, 0, 0, 0] := by
  have hw : window pmin pmax [p] = [0] := by
    rw [window_eq]
    have h0 : InWindow pmin pmax [p] 0 := ⟨by simp, by simpa using h1, by simpa using h2⟩
    simp [List.range_succ, h0]
  have h := (selectBatch_eq argsortRef argsortRef_spec pmin pmax [p]).2
  simp only [hw] at h
  obtain ⟨-, h2⟩ := h (by simp)
  rw [h2]
  have : argsortRef [p] = [0] := by simp [argsortRef, List.range_succ]
  simp [ranks, this]

theorem agg_id (p : ℝ) (h0 : 0 ≤ p) (h1 : p ≤ 1) : aggregate (.fin 1) (.fin 0) (.fin p) = .fin p := by
  simp [aggregate, F.sub, F.div, clip01, h0, h1]

/-- Design after adding the candidate `k` times, and its labels. -/
def lateDesign (k : ℕ) : List ℕ := 0 :: 1 :: List.replicate k 2
/-- Labels of `lateDesign`. -/
def lateLabels (k : ℕ) : List Bool := false :: true :: List.replicate k true

theorem late_iter (k : ℕ) (hk : k + 5 ≤ 15) (loc : HMLocals ℕ) (cm : Option Mat2) (md : Option (Clf ℕ × Option (AggVars ℕ)))
    (hcur : loc.cur.eval loc.vars 2 = .fin (1 / 2)) :
    let conf := meanConf (lateLabels (k + 5)) (loc.clfs.map fun c => (lateDesign (k + 5)).map (c.eval loc.vars))
    let vars := some ⟨conf true true, conf true false, if loc.it + 1 ≤ 1 then goodAlg else badAlg⟩
    hmIter lateEnv [2] 2 15 loc ⟨lateDesign k, lateLabels k, true, cm, md, .fin (45 / 100), .fin (52 / 100)⟩ =
      (.ok ⟨loc.clfs ++ [.agg], .agg, vars, loc.it + 1, k + 5⟩,
        ⟨lateDesign (k + 5), lateLabels (k + 5), true, some conf, some (.agg, vars), .fin (45 / 100), .fin (52 / 100)⟩) := by
  intro conf vars
  have hb : selectBatch lateEnv.argsort (.fin (45 / 100)) (.fin (52 / 100)) ([2].map (loc.cur.eval loc.vars))
      = .ok [0, 0, 0, 0, 0] := by
    rw [List.map_singleton, hcur]
    exact selectBatch_single _ _ _ (by norm_num) (by norm_num)
  have hl : labelAll lateEnv.physical [2, 2, 2, 2, 2] = .ok [true, true, true, true, true] := by decide
  have hd : lateDesign k ++ [2, 2, 2, 2, 2] = lateDesign (k + 5) := by
    simp only [lateDesign, List.cons_append]
    rw [List.replicate_add k 5]; rfl
  have hd' : lateLabels k ++ [true, true, true, true, true] = lateLabels (k + 5) := by
    simp only [lateLabels, List.cons_append]
    rw [List.replicate_add k 5]; rfl
  have hlen : (lateDesign k).length = k + 2 := by simp [lateDesign]
  unfold hmIter
  dsimp only
  rw [hb]
  dsimp only
  have hx : [0, 0, 0, 0, 0].filterMap (fun i => ([2] : List ℕ)[i]?) = [2, 2, 2, 2, 2] := by decide
  rw [hx, hl]
  dsimp only
  rw [hlen, if_neg (by simp; omega)]
  have ht : ([2, 2, 2, 2, 2] : List ℕ).take ([2, 2, 2, 2, 2] : List ℕ).length = [2, 2, 2, 2, 2] := rfl
  have ht' : [true, true, true, true, true].take ([2, 2, 2, 2, 2] : List ℕ).length = [true, true, true, true, true] := rfl
  rw [ht, ht', hd, hd']
  simp only [lateEnv]
  have hn : k + 2 + ([2, 2, 2, 2, 2] : List ℕ).length - 2 = k + 5 := by simp
  rw [hn]

theorem late_counts (f : ℕ → F ℝ) (k : ℕ) (b0 b1 b2 : Bool) (h0 : F.ge (f 0) (.fin (1 / 2)) = b0)
    (h1 : F.ge (f 1) (.fin (1 / 2)) = b1) (h2 : F.ge (f 2) (.fin (1 / 2)) = b2) (i j : Bool) :
    confCount (lateLabels k) (((lateDesign k).map f).map fun p => F.ge p (.fin (1 / 2))) i j =
      (if false = i ∧ b0 = j then 1 else 0) + (if true = i ∧ b1 = j then 1 else 0) + (if true = i ∧ b2 = j then k else 0) := by
  simp only [lateDesign, lateLabels, List.map_cons, List.map_replicate, h0, h1, h2, confCount, List.zip_cons_cons,
    List.countP_cons, List.zip_replicate, Nat.min_self, List.countP_replicate]
  cases i <;> cases j <;> cases b0 <;> cases b1 <;> cases b2 <;> simp +arith

theorem late_good (k : ℕ) : classifierConf (lateLabels k) ((lateDesign k).map goodAlg) true true = .fin 1 ∧
    classifierConf (lateLabels k) ((lateDesign k).map goodAlg) true false = .fin 0 := by
  have h0 : F.ge (goodAlg 0) (.fin (1 / 2)) = false := by norm_num [goodAlg]
  have h1 : F.ge (goodAlg 1) (.fin (1 / 2)) = true := by norm_num [goodAlg]
  have h2 : F.ge (goodAlg 2) (.fin (1 / 2)) = true := by norm_num [goodAlg]
  have hk : (0 : ℝ) + (1 + k) ≠ 0 := by positivity
  constructor
  · simp only [classifierConf, colNorm, late_counts goodAlg k _ _ _ h0 h1 h2]
    rw [F.div_fin _ (by simp; positivity)]
    simp
    exact (by positivity : (1 : ℝ) + k ≠ 0)
  · simp only [classifierConf, colNorm, late_counts goodAlg k _ _ _ h0 h1 h2]
    rw [F.div_fin _ (by simp)]
    simp

theorem late_bad (k : ℕ) : classifierConf (lateLabels k) ((lateDesign k).map badAlg) true true = .fin (k / (1 + k)) := by
  have h0 : F.ge (badAlg 0) (.fin (1 / 2)) = true := by norm_num [badAlg]
  have h1 : F.ge (badAlg 1) (.fin (1 / 2)) = false := by norm_num [badAlg]
  have h2 : F.ge (badAlg 2) (.fin (1 / 2)) = true := by norm_num [badAlg]
  simp only [classifierConf, colNorm, late_counts badAlg k _ _ _ h0 h1 h2]
  rw [F.div_fin _ (by simp; positivity)]
  simp

theorem frozen_good : frozen (⟨.fin 1, .fin 0, goodAlg⟩ : AggVars ℕ) = goodAlg := by
  funext x
  simp only [frozen, goodAlg]
  split_ifs <;> exact agg_id _ (by norm_num) (by norm_num)

theorem frozen_bad : frozen (⟨.fin 1, .fin 0, badAlg⟩ : AggVars ℕ) = badAlg := by
  funext x
  simp only [frozen, badAlg]
  split_ifs <;> exact agg_id _ (by norm_num) (by norm_num)

/-- **C55 is violated**: a run of three iterations whose third matrix is not the average over the three classifiers
(46/48 in place of 47/48 in the corner): both aggregated classifiers are evaluated with the values of the second one. -/
theorem C55_violated : ∃ (vs : List (AggVars ℕ)) (l2 l3 : HMLocals ℕ) (s2 s3 : HMAttrs ℕ),
    HMSteps lateEnv [2] 2 15 (initLocals goodAlg) lateInit vs l2 s2 ∧
    hmIter lateEnv [2] 2 15 l2 s2 = (.ok l3, s3) ∧ vs.length = 2 ∧
    s3.confMat ≠ some (meanConf s3.labels (s3.input.map goodAlg :: vs.map fun a => s3.input.map (frozen a))) := by
  have e2 : ∀ v, (Clf.base goodAlg : Clf ℕ).eval v 2 = .fin (1 / 2) := by intro v; norm_num [Clf.eval, goodAlg]
  have hg : ∀ k i, meanConf (lateLabels k) [(lateDesign k).map goodAlg] true i
      = classifierConf (lateLabels k) ((lateDesign k).map goodAlg) true i := by
    intro k i
    cases i
    · simp [meanConf, (late_good k).2, F.div]
    · simp [meanConf, (late_good k).1, F.div]
  -- first iteration
  have i1 := late_iter 0 (by norm_num) (initLocals goodAlg) none none (e2 _)
  have b1 : (Clf.base goodAlg : Clf ℕ).eval none = goodAlg := rfl
  simp only [initLocals, List.map_singleton, Nat.zero_add, le_refl, if_true, b1] at i1
  simp only [hg, (late_good 5).1, (late_good 5).2] at i1
  -- second
  have c2 : (Clf.agg : Clf ℕ).eval (some ⟨.fin 1, .fin 0, goodAlg⟩) = goodAlg := frozen_good
  have i2 := late_iter 5 (by norm_num) ⟨[.base goodAlg] ++ [.agg], .agg, some ⟨.fin 1, .fin 0, goodAlg⟩, 1, 5⟩
    (some (meanConf (lateLabels 5) [(lateDesign 5).map goodAlg]))
    (some (.agg, some ⟨.fin 1, .fin 0, goodAlg⟩)) (by rw [c2]; norm_num [goodAlg])
  have b2 : (Clf.base goodAlg : Clf ℕ).eval (some ⟨.fin 1, .fin 0, goodAlg⟩) = goodAlg := rfl
  have hgg : ∀ k, meanConf (lateLabels k) [(lateDesign k).map goodAlg, (lateDesign k).map goodAlg] true true = .fin 1 ∧
      meanConf (lateLabels k) [(lateDesign k).map goodAlg, (lateDesign k).map goodAlg] true false = .fin 0 := by
    intro k
    constructor
    · simp [meanConf, (late_good k).1, F.div]
    · simp [meanConf, (late_good k).2, F.div]
  simp only [List.cons_append, List.nil_append, List.map_cons, List.map_nil, c2, b2, (hgg 10).1, (hgg 10).2] at i2
  rw [if_neg (by norm_num)] at i2
  -- third
  have c3 : (Clf.agg : Clf ℕ).eval (some ⟨.fin 1, .fin 0, badAlg⟩) = badAlg := frozen_bad
  have b3 : (Clf.base goodAlg : Clf ℕ).eval (some ⟨.fin 1, .fin 0, badAlg⟩) = goodAlg := rfl
  have i3 := late_iter 10 (by norm_num) ⟨[.base goodAlg, .agg, .agg], .agg, some ⟨.fin 1, .fin 0, badAlg⟩, 2, 10⟩
    (some (meanConf (lateLabels 10) [(lateDesign 10).map goodAlg, (lateDesign 10).map goodAlg]))
    (some (.agg, some ⟨.fin 1, .fin 0, badAlg⟩)) (by rw [c3]; norm_num [badAlg])
  simp only [List.cons_append, List.nil_append, List.map_cons, List.map_nil, c3, b3] at i3
  refine ⟨[⟨.fin 1, .fin 0, goodAlg⟩] ++ [⟨.fin 1, .fin 0, badAlg⟩], _, _, _, _, ?_, i3, rfl, ?_⟩
  · refine HMSteps.step (HMSteps.step (vs := []) (HMSteps.refl _ _) ?_ rfl) i2 rfl
    exact i1
  · simp only [List.cons_append, List.nil_append, List.map_cons, List.map_nil, frozen_good, frozen_bad]
    intro h
    have h := congrFun (congrFun (Option.some.inj h) true) true
    have g1 := (late_good 15).1
    have g2 := late_bad 15
    simp only [meanConf, List.foldl_cons, List.foldl_nil, g1, g2, F.add_fin, List.length_cons, List.length_nil] at h
    rw [F.div_fin _ (by norm_num), F.div_fin _ (by norm_num)] at h
    simp only [F.fin.injEq] at h
    norm_num at h

/-! ## C56 -/

/-- The window bounds are numbers of [0,1] and the classifier is one of the two known ones. -/
def GoodOptions {P : Type} (s : HMOptions P) : Prop :=
  (∃ x : ℝ, s.pmin = .fin x ∧ 0 ≤ x ∧ x ≤ 1) ∧ (∃ x : ℝ, s.pmax = .fin x ∧ 0 ≤ x ∧ x ≤ 1) ∧
    (s.kind = "rf" ∨ s.kind = "svc")

/-- A setter call with numbers that are not NaN, and parameters of the right shape for the current classifier. -/
def GoodCall {P : Type} (shape : String → P → Prop) (s : HMOptions P) : HMSetter P → Prop
  | .pmin p => p ≠ .nan
  | .pmax p => p ≠ .nan
  | .kind _ => True
  | .params p => shape s.kind p

/-- The calls of a history are good at the moment they are made. -/
def GoodHistory {P : Type} (shape : String → P → Prop) (defaults : String → P) : List (HMSetter P) → HMOptions P → Prop
  | [], _ => True
  | c :: cs, s => GoodCall shape s c ∧ GoodHistory shape defaults cs (hmSet defaults c s).2

theorem setBound_ok (p : F ℝ) (hp : p ≠ .nan) :
    (F.lt p (.fin 0) || F.gt p (.fin 1)) = false ↔ ∃ x : ℝ, p = .fin x ∧ 0 ≤ x ∧ x ≤ 1 := by
  cases p <;> simp_all [F.lt, F.gt]

/-- **C56 (restricted).**  A rejected call changes nothing (ValueError), whatever the argument; along every history of calls
with non-NaN bounds and parameters of the right shape, the bounds stay in [0,1], the classifier stays 'rf' or 'svc' and its
parameters keep the right shape.  Missing: pmin < pmax, NaN bounds, unchecked parameters. -/
theorem C56_setters_partial {P : Type} (shape : String → P → Prop) (defaults : String → P)
    (hd : shape "rf" (defaults "rf") ∧ shape "svc" (defaults "svc")) :
    (∀ (c : HMSetter P) (s : HMOptions P) (e : PyErr), (hmSet defaults c s).1 = .error e →
      e.kind = .valueError ∧ (hmSet defaults c s).2 = s) ∧
    (∀ (cs : List (HMSetter P)) (s : HMOptions P), GoodOptions s → shape s.kind s.params →
      GoodHistory shape defaults cs s →
      GoodOptions (cs.foldl (fun s c => (hmSet defaults c s).2) s) ∧
      shape (cs.foldl (fun s c => (hmSet defaults c s).2) s).kind (cs.foldl (fun s c => (hmSet defaults c s).2) s).params) := by
  constructor
  · intro c s e
    cases c <;> simp only [hmSet, setPMin, setPMax, setClassifierType, setClassifierParameters]
    · split_ifs
      · intro h; cases h; exact ⟨rfl, rfl⟩
      · intro h; cases h
    · split_ifs
      · intro h; cases h; exact ⟨rfl, rfl⟩
      · intro h; cases h
    · split_ifs
      all_goals first | (intro h; cases h; exact ⟨rfl, rfl⟩) | (intro h; cases h)
    · intro h; cases h
  · intro cs
    induction cs with
    | nil => intro s h1 h2 _; exact ⟨h1, h2⟩
    | cons c cs ih =>
      intro s h1 h2 h3
      obtain ⟨h3, h4⟩ := h3
      rw [List.foldl_cons]
      refine ih _ ?_ ?_ h4
      · obtain ⟨ha, hb, hk⟩ := h1
        cases c <;> simp only [hmSet, setPMin, setPMax, setClassifierType, setClassifierParameters]
        · rename_i p
          split_ifs with h
          · exact ⟨ha, hb, hk⟩
          · exact ⟨(setBound_ok p h3).mp (by simpa using h), hb, hk⟩
        · rename_i p
          split_ifs with h
          · exact ⟨ha, hb, hk⟩
          · exact ⟨ha, (setBound_ok p h3).mp (by simpa using h), hk⟩
        · rename_i k
          by_cases hr : k = "rf"
          · subst hr; simp only [ne_eq, not_true, false_and, if_false]
            exact ⟨ha, hb, by simp⟩
          · by_cases hs : k = "svc"
            · subst hs; simp only [ne_eq, not_true, and_false, if_false]
              exact ⟨ha, hb, by simp⟩
            · rw [if_pos ⟨hr, hs⟩]; exact ⟨ha, hb, hk⟩
        · exact ⟨ha, hb, hk⟩
      · cases c <;> simp only [hmSet, setPMin, setPMax, setClassifierType, setClassifierParameters]
        · split_ifs <;> exact h2
        · split_ifs <;> exact h2
        · rename_i k
          by_cases hr : k = "rf"
          · subst hr; simpa using hd.1
          · by_cases hs : k = "svc"
            · subst hs; simpa using hd.2
            · rw [if_pos ⟨hr, hs⟩]; exact h2
        · exact h3

example : GoodOptions (P := List ℕ) ⟨.fin (45 / 100), .fin (52 / 100), "rf", [100]⟩ :=
  ⟨⟨_, rfl, by norm_num, by norm_num⟩, ⟨_, rfl, by norm_num, by norm_num⟩, Or.inl rfl⟩

/-- **C56 is violated**: from every state, `setPMin(0.9)` then `setPMax(0.1)` are both accepted, leaving pmin above pmax;
NaN is accepted as a bound; any object is accepted as parameters. -/
theorem C56_violated {P : Type} (s : HMOptions P) (p : P) :
    (setPMin (.fin (9 / 10)) s).1 = .ok () ∧ (setPMax (.fin (1 / 10)) (setPMin (.fin (9 / 10)) s).2).1 = .ok () ∧
    F.lt (setPMax (.fin (1 / 10)) (setPMin (.fin (9 / 10)) s).2).2.pmax
      (setPMax (.fin (1 / 10)) (setPMin (.fin (9 / 10)) s).2).2.pmin = true ∧
    (setPMin .nan s).1 = .ok () ∧ (setPMin .nan s).2.pmin = .nan ∧
    (setClassifierParameters p s).1 = .ok () ∧ (setClassifierParameters p s).2.params = p := by
  norm_num [setPMin, setPMax, setClassifierParameters]

end Verif.Props
