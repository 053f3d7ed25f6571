import Verif.Model.Censoring
import Verif.Spec.Censoring
import Mathlib.Data.Rat.Defs
import Mathlib.Algebra.Order.Ring.Rat
import Mathlib.Algebra.Order.Group.Multiset
import Mathlib.Algebra.Order.Group.Unbundled.Basic
import Mathlib.Tactic.NormNum

/-!
# C01–C04: `filterCensoredData`
-/

set_option linter.unusedSectionVars false

namespace Verif.Props
open Verif.Py Verif.Model Verif.Spec

variable {α K : Type*} [LinearOrder K]

theorem maskSelect_map_fst (obs : List (α × F K)) (p : F K → Bool) :
    maskSelect (obs.map Prod.fst) ((obs.map Prod.snd).map p)
      = (obs.filter fun o => p o.2).map Prod.fst := by
  induction obs with
  | nil => rfl
  | cons o os ih =>
    cases h : p o.2 <;> simp only [List.map_cons, h, maskSelect, List.filter_cons, ih] <;> simp

theorem maskSelect_map_snd (obs : List (α × F K)) (p : F K → Bool) :
    maskSelect (obs.map Prod.snd) ((obs.map Prod.snd).map p)
      = (obs.filter fun o => p o.2).map Prod.snd := by
  induction obs with
  | nil => rfl
  | cons o os ih =>
    cases h : p o.2 <;> simp only [List.map_cons, h, maskSelect, List.filter_cons, ih] <;> simp

theorem lt_iff_ext {a b : F K} (ha : a ≠ .nan) (hb : b ≠ .nan) :
    F.lt a b = true ↔ ext a < ext b := by
  cases a <;> cases b <;> simp_all [F.lt, ext]
  exact WithBot.coe_lt_coe.2 (WithTop.coe_lt_top _)

theorem le_iff_ext {a b : F K} (ha : a ≠ .nan) (hb : b ≠ .nan) :
    F.le a b = true ↔ ext a ≤ ext b := by
  cases a <;> cases b <;> simp_all [F.le, ext]

/-- **C01 (classification).**  For thresholds and signals that are not NaN, the three returned groups are
exactly the observations strictly between, at or below, at or above the thresholds, in the original order. -/
theorem C01_filter_classifies [Neg K] (fmax : K) (obs : List (α × F K)) (tn ts : F K)
    (hn : tn ≠ .nan) (hs : ts ≠ .nan) (hobs : ∀ o ∈ obs, o.2 ≠ .nan) :
    let r := filterCensoredData fmax (obs.map Prod.fst) (obs.map Prod.snd) (some tn) (some ts)
    r.inputUnc = (obs.filter fun o => ext tn < ext o.2 ∧ ext o.2 < ext ts).map Prod.fst ∧
    r.signalsUnc = (obs.filter fun o => ext tn < ext o.2 ∧ ext o.2 < ext ts).map Prod.snd ∧
    r.inputNoise = (obs.filter fun o => ext o.2 ≤ ext tn).map Prod.fst ∧
    r.inputSat = (obs.filter fun o => ext ts ≤ ext o.2).map Prod.fst := by
  simp only [filterCensoredData, effNoise, effSat, maskSelect_map_fst, maskSelect_map_snd]
  have h1 : obs.filter (fun o => F.gt o.2 tn && F.lt o.2 ts)
      = obs.filter (fun o => ext tn < ext o.2 ∧ ext o.2 < ext ts) := by
    apply List.filter_congr
    intro o ho
    have h := hobs o ho
    rw [Bool.eq_iff_iff]
    simp [F.gt, lt_iff_ext hn h, lt_iff_ext h hs]
  refine ⟨by rw [h1], by rw [h1], ?_, ?_⟩
  · congr 1
    apply List.filter_congr
    intro o ho
    rw [Bool.eq_iff_iff]
    simp [le_iff_ext (hobs o ho) hn]
  · congr 1
    apply List.filter_congr
    intro o ho
    rw [Bool.eq_iff_iff]
    simp [F.ge, le_iff_ext hs (hobs o ho)]

/-- **C01 (partition).**  When noise threshold < saturation threshold and no signal is NaN, the multiset of
the input rows is the disjoint sum of the three groups. -/
theorem C01_filter_partition [Neg K] (fmax : K) (obs : List (α × F K)) (tn ts : F K)
    (hn : tn ≠ .nan) (hs : ts ≠ .nan) (hlt : ext tn < ext ts) (hobs : ∀ o ∈ obs, o.2 ≠ .nan) :
    let r := filterCensoredData fmax (obs.map Prod.fst) (obs.map Prod.snd) (some tn) (some ts)
    ((r.inputUnc : Multiset α) + (r.inputNoise : Multiset α) + (r.inputSat : Multiset α)
      = (obs.map Prod.fst : Multiset α)) := by
  obtain ⟨h1, -, h2, h3⟩ := C01_filter_classifies fmax obs tn ts hn hs hobs
  intro r
  rw [h1, h2, h3]
  clear h1 h2 h3 r
  induction obs with
  | nil => rfl
  | cons o os ih =>
    have ih := ih (fun o ho => hobs o (List.mem_cons_of_mem _ ho))
    simp only [List.filter_cons]
    rcases lt_or_ge (ext tn) (ext o.2) with ha | ha
    · rcases lt_or_ge (ext o.2) (ext ts) with hb | hb
      · simp only [ha, hb, not_le.mpr ha, not_le.mpr hb, and_self, decide_true, if_true, decide_false,
          List.map_cons, ← Multiset.cons_coe, Multiset.cons_add, Bool.false_eq_true, if_false]
        rw [ih]
      · simp only [ha, hb, not_le.mpr ha, not_lt.mpr hb, and_false, decide_true, if_true, decide_false,
          List.map_cons, ← Multiset.cons_coe, Multiset.add_cons, Bool.false_eq_true, if_false]
        rw [ih]
    · have hb : ext o.2 < ext ts := lt_of_le_of_lt ha hlt
      simp only [ha, not_lt.mpr ha, not_le.mpr hb, false_and, decide_true, if_true, decide_false,
          List.map_cons, ← Multiset.cons_coe, Multiset.add_cons, Multiset.cons_add, Bool.false_eq_true,
          if_false]
      rw [ih]

/-- The hypotheses of C01 are met by a data set with signals on both boundaries and an infinite one. -/
example :
    let obs : List (ℕ × F ℚ) := [(0, .fin 1), (1, .fin 2), (2, .fin 3), (3, .fin 4), (4, .pinf)]
    (∀ o ∈ obs, o.2 ≠ F.nan) ∧ ext (.fin (2 : ℚ)) < ext (.fin 4) ∧
    filterCensoredData (1000 : ℚ) (obs.map Prod.fst) (obs.map Prod.snd) (some (.fin 2)) (some (.fin 4))
      = ⟨[2], [0, 1], [3, 4], [.fin 3]⟩ := by
  refine ⟨by simp, ?_, by decide +kernel⟩
  simp only [ext, WithBot.coe_lt_coe, WithTop.coe_lt_coe]
  norm_num

/-- **C02.**  Whatever the (optional) thresholds, NaN signals included, the uncensored inputs and signals are
aligned: pairing them gives back original observations, in the original order, and nothing is truncated. -/
theorem C02_filter_aligned [Neg K] (fmax : K) (obs : List (α × F K)) (tn ts : Option (F K)) :
    let r := filterCensoredData fmax (obs.map Prod.fst) (obs.map Prod.snd) tn ts
    r.inputUnc.length = r.signalsUnc.length ∧
    (r.inputUnc.zip r.signalsUnc).Sublist obs ∧
    r.inputNoise.Sublist (obs.map Prod.fst) ∧ r.inputSat.Sublist (obs.map Prod.fst) ∧
    (∀ o ∈ obs, F.lt (effNoise fmax tn) o.2 = true → F.lt o.2 (effSat fmax ts) = true →
      o ∈ r.inputUnc.zip r.signalsUnc) := by
  intro r
  have e1 : r.inputUnc = (obs.filter fun o => F.gt o.2 (effNoise fmax tn) && F.lt o.2 (effSat fmax ts)).map
      Prod.fst := maskSelect_map_fst obs _
  have e2 : r.signalsUnc = (obs.filter fun o => F.gt o.2 (effNoise fmax tn) && F.lt o.2 (effSat fmax ts)).map
      Prod.snd := maskSelect_map_snd obs _
  have ez : r.inputUnc.zip r.signalsUnc
      = obs.filter fun o => F.gt o.2 (effNoise fmax tn) && F.lt o.2 (effSat fmax ts) := by
    rw [e1, e2, List.zip_map']
    simp
  refine ⟨by simp [e1, e2], ?_, ?_, ?_, ?_⟩
  · rw [ez]; exact List.filter_sublist
  · have : r.inputNoise = _ := maskSelect_map_fst obs _
    rw [this]; exact List.Sublist.map _ List.filter_sublist
  · have : r.inputSat = _ := maskSelect_map_fst obs _
    rw [this]; exact List.Sublist.map _ List.filter_sublist
  · intro o ho h1 h2
    rw [ez, List.mem_filter]
    exact ⟨ho, by simp [F.gt, h1, h2]⟩

example : filterCensoredData (1000 : ℚ) ["a", "b", "c"] [.fin 5, .nan, .fin 7] none (some (.fin 8))
    = ⟨["a", "c"], [], [], [.fin 5, .fin 7]⟩ := by decide +kernel

/-- **C03 (restricted).**  When every signal is a finite number strictly inside the float range, a missing
noise threshold gives an empty noisy group and an uncensored group that only depends on the saturation
threshold; symmetrically for a missing saturation threshold; with both missing nothing is censored.
Missing from the full statement: signals equal to `±sys.float_info.max` or infinite. -/
theorem C03_none_means_no_censoring_partial [Neg K] (fmax : K) (obs : List (α × F K)) (t : F K)
    (hobs : ∀ o ∈ obs, ∃ x, o.2 = .fin x ∧ -fmax < x ∧ x < fmax) :
    let f := filterCensoredData fmax (obs.map Prod.fst) (obs.map Prod.snd)
    ((f none (some t)).inputNoise = [] ∧
      (f none (some t)).inputUnc = (obs.filter fun o => F.lt o.2 t).map Prod.fst) ∧
    ((f (some t) none).inputSat = [] ∧
      (f (some t) none).inputUnc = (obs.filter fun o => F.lt t o.2).map Prod.fst) ∧
    f none none = ⟨obs.map Prod.fst, [], [], obs.map Prod.snd⟩ := by
  have hlo : ∀ o ∈ obs, F.le o.2 (.fin (-fmax)) = false ∧ F.lt (.fin (-fmax)) o.2 = true := by
    intro o ho; obtain ⟨x, hx, h1, h2⟩ := hobs o ho; simp [hx, h1]
  have hhi : ∀ o ∈ obs, F.le (.fin fmax) o.2 = false ∧ F.lt o.2 (.fin fmax) = true := by
    intro o ho; obtain ⟨x, hx, h1, h2⟩ := hobs o ho; simp [hx, h2]
  simp only [filterCensoredData, effNoise, effSat, maskSelect_map_fst, maskSelect_map_snd]
  refine ⟨⟨?_, ?_⟩, ⟨?_, ?_⟩, ?_⟩
  · rw [List.map_eq_nil_iff, List.filter_eq_nil_iff]
    intro o ho; simp [(hlo o ho).1]
  · congr 1; apply List.filter_congr; intro o ho; simp [F.gt, (hlo o ho).2]
  · rw [List.map_eq_nil_iff, List.filter_eq_nil_iff]
    intro o ho; simp [F.ge, (hhi o ho).1]
  · congr 1; apply List.filter_congr; intro o ho; simp [F.gt, (hhi o ho).2]
  · have e1 : (obs.filter fun o => F.gt o.2 (.fin (-fmax)) && F.lt o.2 (.fin fmax)) = obs := by
      rw [List.filter_eq_self]; intro o ho; simp [F.gt, (hlo o ho).2, (hhi o ho).2]
    have e2 : (obs.filter fun o => F.le o.2 (.fin (-fmax))) = [] := by
      rw [List.filter_eq_nil_iff]; intro o ho; simp [(hlo o ho).1]
    have e3 : (obs.filter fun o => F.ge o.2 (.fin fmax)) = [] := by
      rw [List.filter_eq_nil_iff]; intro o ho; simp [F.ge, (hhi o ho).1]
    rw [e1, e2, e3]; rfl

example : ∀ o ∈ ([(0, .fin 5), (1, .fin (-3))] : List (ℕ × F ℚ)), ∃ x, o.2 = .fin x ∧ -(1000 : ℚ) < x ∧
    x < 1000 := by
  simp; norm_num

/-- **C03 is violated** by the code for extreme signals: with no threshold at all, a signal `-inf` is put in
the noisy group and a signal equal to the largest float in the saturated group, for every `fmax`. -/
theorem C03_violated (fmax : ℚ) :
    (filterCensoredData fmax ["a"] [.ninf] none none).inputNoise = ["a"] ∧
    (filterCensoredData fmax ["a"] [.fin (-fmax)] none none).inputNoise = ["a"] ∧
    (filterCensoredData fmax ["a"] [.fin fmax] none none).inputSat = ["a"] ∧
    (filterCensoredData fmax ["a"] [.pinf] none none).inputSat = ["a"] := by
  simp [filterCensoredData, effNoise, effSat, maskSelect, F.le, F.ge]

/-- How many of the three groups receive an observation with signal `s`. -/
def groupsOf (tn ts s : F K) : ℕ :=
  (if F.lt tn s && F.lt s ts then 1 else 0) + (if F.le s tn then 1 else 0) + (if F.le ts s then 1 else 0)

/-- **C04 (restricted).**  For arbitrary thresholds and signals: an observation with a NaN signal is in no
group; otherwise it is in exactly one group, except when the saturation threshold does not exceed the noise
threshold and the signal lies between the two, in which case it is counted twice.  The total size of the
three groups is the sum of these counts.  The full statement fails exactly in these two situations. -/
theorem C04_group_counts_partial [Neg K] (fmax : K) (obs : List (α × F K)) (tn ts : F K)
    (hn : tn ≠ .nan) (hs : ts ≠ .nan) :
    let r := filterCensoredData fmax (obs.map Prod.fst) (obs.map Prod.snd) (some tn) (some ts)
    r.inputUnc.length + r.inputNoise.length + r.inputSat.length
      = (obs.map fun o => groupsOf tn ts o.2).sum ∧
    ∀ s, groupsOf tn ts s =
      if s = .nan then 0
      else if ext ts ≤ ext s ∧ ext s ≤ ext tn then 2 else 1 := by
  constructor
  · simp only [filterCensoredData, effNoise, effSat, maskSelect_map_fst, List.length_map]
    induction obs with
    | nil => rfl
    | cons o os ih =>
      simp only [F.gt, F.ge] at ih ⊢
      simp only [List.filter_cons, List.map_cons, List.sum_cons]
      rw [← ih]
      unfold groupsOf
      cases F.lt tn o.2 && F.lt o.2 ts <;> cases F.le o.2 tn <;> cases F.le ts o.2 <;>
        simp <;> omega
  · intro s
    by_cases h : s = .nan
    · subst h; simp [groupsOf]
    · simp only [groupsOf, h, if_false, Bool.and_eq_true, lt_iff_ext hn h, lt_iff_ext h hs,
        le_iff_ext h hn, le_iff_ext hs h]
      rcases lt_or_ge (ext tn) (ext s) with ha | ha <;> rcases lt_or_ge (ext s) (ext ts) with hb | hb <;>
        simp [ha, hb, not_le.mpr, not_lt.mpr]

/-- **C04 is violated**: a NaN signal silently disappears, and with reversed thresholds an observation is
counted both as noise and as saturation. -/
theorem C04_violated :
    filterCensoredData (1000 : ℚ) ["a"] [.nan] (some (.fin 1)) (some (.fin 2)) = ⟨[], [], [], []⟩ ∧
    filterCensoredData (1000 : ℚ) ["a"] [.fin 3] (some (.fin 4)) (some (.fin 2))
      = ⟨[], ["a"], ["a"], []⟩ := by
  constructor <;> decide +kernel

end Verif.Props
