import Verif.Py.Basic
import Mathlib.Data.List.Sort
import Mathlib.Data.List.GetD
import Mathlib.Data.Real.Archimedean
import Mathlib.Algebra.Order.Floor.Semiring
import Mathlib.Tactic.Linarith
import Mathlib.Tactic.Ring

/-!
# Sample quantile of OpenTURNS

`Sample.computeQuantilePerComponent(q)` sorts the values and interpolates linearly between the order statistics
at the (0-based) position `q*size - 1/2`, clamped to the first and last value.
The formula is that of OpenTURNS; it is external code, restated here.
-/

namespace Verif.Py

/-- Ascending order (`sort`, `np.sort`). -/
noncomputable def sortR (xs : List ℝ) : List ℝ := xs.mergeSort (· ≤ ·)

/-- Linear interpolation of a list at a real position, clamped at both ends. -/
noncomputable def atPos (s : List ℝ) (t : ℝ) : ℝ :=
  if t < 0 then s.getD 0 0
  else if (s.length : ℝ) - 1 ≤ t then s.getD (s.length - 1) 0
  else
    let i := ⌊t⌋₊
    (1 - (t - i)) * s.getD i 0 + (t - i) * s.getD (i + 1) 0

/-- `sample.computeQuantilePerComponent(q)[0]` for a one-column sample. -/
noncomputable def quantile (xs : List ℝ) (q : ℝ) : ℝ := atPos (sortR xs) (q * xs.length - 1 / 2)

theorem sortR_perm (xs : List ℝ) : (sortR xs).Perm xs := List.mergeSort_perm xs _

theorem sortR_length (xs : List ℝ) : (sortR xs).length = xs.length := (sortR_perm xs).length_eq

theorem sortR_pairwise (xs : List ℝ) : (sortR xs).Pairwise (· ≤ ·) := by
  have := List.pairwise_mergeSort' (· ≤ ·) xs
  exact this

theorem getD_mono {s : List ℝ} (hs : s.Pairwise (· ≤ ·)) {i j : ℕ} (hij : i ≤ j) (hj : j < s.length) :
    s.getD i 0 ≤ s.getD j 0 := by
  rcases hij.lt_or_eq with h | h
  · rw [List.getD_eq_getElem _ _ (by omega), List.getD_eq_getElem _ _ hj]
    exact List.pairwise_iff_getElem.mp hs i j (by omega) hj h
  · rw [h]

/-- Interpolation lies between the neighbouring values. -/
theorem atPos_between {s : List ℝ} (hs : s.Pairwise (· ≤ ·)) (hne : s ≠ []) (t : ℝ) :
    ∃ i j, i < s.length ∧ j < s.length ∧ i ≤ j ∧ j ≤ i + 1 ∧ s.getD i 0 ≤ atPos s t ∧ atPos s t ≤ s.getD j 0 := by
  have hl : 0 < s.length := List.length_pos_iff.mpr hne
  unfold atPos
  split_ifs with h1 h2
  · exact ⟨0, 0, hl, hl, le_rfl, by omega, le_rfl, le_rfl⟩
  · exact ⟨s.length - 1, s.length - 1, by omega, by omega, le_rfl, by omega, le_rfl, le_rfl⟩
  · push Not at h1 h2
    have hf := Nat.floor_le h1
    have hf2 := Nat.lt_floor_add_one t
    have hi : ⌊t⌋₊ + 1 < s.length := by
      have : (⌊t⌋₊ : ℝ) < s.length - 1 := lt_of_le_of_lt hf h2
      have : ((⌊t⌋₊ + 1 : ℕ) : ℝ) < (s.length : ℝ) := by push_cast; linarith
      exact_mod_cast this
    have hm := getD_mono hs (Nat.le_succ ⌊t⌋₊) hi
    refine ⟨⌊t⌋₊, ⌊t⌋₊ + 1, by omega, hi, by omega, le_rfl, ?_, ?_⟩
    · simp only [Nat.succ_eq_add_one] at hm
      nlinarith
    · simp only [Nat.succ_eq_add_one] at hm
      nlinarith

theorem atPos_mono {s : List ℝ} (hs : s.Pairwise (· ≤ ·)) (hne : s ≠ []) : Monotone (atPos s) := by
  intro t t' htt
  have hl : 0 < s.length := List.length_pos_iff.mpr hne
  by_cases h1 : t < 0
  · have : atPos s t = s.getD 0 0 := by unfold atPos; rw [if_pos h1]
    rw [this]
    obtain ⟨i, j, hi, -, -, -, h, -⟩ := atPos_between hs hne t'
    exact (getD_mono hs (Nat.zero_le i) hi).trans h
  · by_cases h2' : (s.length : ℝ) - 1 ≤ t'
    · have h1' : ¬ t' < 0 := by linarith
      have : atPos s t' = s.getD (s.length - 1) 0 := by unfold atPos; rw [if_neg h1', if_pos h2']
      rw [this]
      obtain ⟨i, j, -, hj, -, -, -, h⟩ := atPos_between hs hne t
      exact h.trans (getD_mono hs (by omega) (by omega))
    · have h1' : ¬ t' < 0 := by linarith
      have h2 : ¬ (s.length : ℝ) - 1 ≤ t := by linarith
      unfold atPos
      rw [if_neg h1, if_neg h2, if_neg h1', if_neg h2']
      push Not at h1 h2 h1' h2'
      dsimp only
      have hb : ∀ u : ℝ, 0 ≤ u → u < s.length - 1 → ⌊u⌋₊ + 1 < s.length := by
        intro u hu hu2
        have hf := Nat.floor_le hu
        have : ((⌊u⌋₊ + 1 : ℕ) : ℝ) < (s.length : ℝ) := by push_cast; linarith
        exact_mod_cast this
      have b1 := hb t h1 h2
      have b2 := hb t' h1' h2'
      have f1 := Nat.floor_le h1
      have f2 := Nat.lt_floor_add_one t
      have g1 := Nat.floor_le h1'
      have g2 := Nat.lt_floor_add_one t'
      have m1 := getD_mono hs (Nat.le_succ ⌊t⌋₊) b1
      have m2 := getD_mono hs (Nat.le_succ ⌊t'⌋₊) b2
      simp only [Nat.succ_eq_add_one] at m1 m2
      have hfl : ⌊t⌋₊ ≤ ⌊t'⌋₊ := Nat.floor_mono htt
      rcases hfl.lt_or_eq with h | h
      · have m3 := getD_mono hs (show ⌊t⌋₊ + 1 ≤ ⌊t'⌋₊ from h) (by omega)
        nlinarith
      · rw [h] at m1 f1 f2 ⊢
        nlinarith

theorem sortR_ne_nil {xs : List ℝ} (h : xs ≠ []) : sortR xs ≠ [] := by
  intro h'
  apply h
  have := sortR_length xs
  rw [h'] at this
  exact List.length_eq_zero_iff.mp this.symm

theorem mem_sortR {xs : List ℝ} {x : ℝ} : x ∈ sortR xs ↔ x ∈ xs := (sortR_perm xs).mem_iff

/-- The quantile lies between two sample values. -/
theorem quantile_between {xs : List ℝ} (h : xs ≠ []) (q : ℝ) :
    ∃ a ∈ xs, ∃ b ∈ xs, a ≤ quantile xs q ∧ quantile xs q ≤ b := by
  obtain ⟨i, j, hi, hj, -, -, h1, h2⟩ := atPos_between (sortR_pairwise xs) (sortR_ne_nil h) (q * xs.length - 1 / 2)
  refine ⟨_, ?_, _, ?_, h1, h2⟩
  · rw [List.getD_eq_getElem _ _ hi, ← mem_sortR]; exact List.getElem_mem hi
  · rw [List.getD_eq_getElem _ _ hj, ← mem_sortR]; exact List.getElem_mem hj

theorem quantile_mono {xs : List ℝ} (h : xs ≠ []) : Monotone (quantile xs) := by
  intro q q' hq
  apply atPos_mono (sortR_pairwise xs) (sortR_ne_nil h)
  have : (0 : ℝ) ≤ xs.length := Nat.cast_nonneg _
  nlinarith

theorem quantile_perm {xs ys : List ℝ} (h : xs.Perm ys) (q : ℝ) : quantile xs q = quantile ys q := by
  have : sortR xs = sortR ys := by
    apply List.Perm.eq_of_pairwise' (r := (· ≤ ·)) (sortR_pairwise xs) (sortR_pairwise ys)
    exact (sortR_perm xs).trans (h.trans (sortR_perm ys).symm)
  rw [quantile, quantile, this, h.length_eq]

/-! ## Order statistics are monotone functions of the sample -/

theorem forall₂_orderedInsert {xs ys : List ℝ} (h : List.Forall₂ (· ≤ ·) xs ys) (hx : xs.Pairwise (· ≤ ·))
    (hy : ys.Pairwise (· ≤ ·)) {a b : ℝ} (hab : a ≤ b) :
    List.Forall₂ (· ≤ ·) (xs.orderedInsert (· ≤ ·) a) (ys.orderedInsert (· ≤ ·) b) := by
  induction h generalizing a b with
  | nil => simpa using hab
  | @cons x y xs ys hxy h ih =>
    rw [List.pairwise_cons] at hx hy
    have keep : ∀ {z : ℝ} {zs : List ℝ}, (∀ w ∈ zs, z ≤ w) → zs.orderedInsert (· ≤ ·) z = z :: zs := by
      intro z zs hz
      cases zs with
      | nil => rfl
      | cons w ws => rw [List.orderedInsert, if_pos (hz w (by simp))]
    rw [List.orderedInsert, List.orderedInsert]
    split_ifs with h1 h2 h2
    · exact .cons hab (.cons hxy h)
    · refine .cons (h1.trans hxy) ?_
      rw [← keep hx.1]
      exact ih hx.2 hy.2 (by linarith)
    · refine .cons (by linarith) ?_
      rw [← keep hy.1]
      exact ih hx.2 hy.2 (by linarith)
    · exact .cons hxy (ih hx.2 hy.2 hab)

theorem sortR_eq_insertionSort (xs : List ℝ) : sortR xs = xs.insertionSort (· ≤ ·) := by
  apply List.Perm.eq_of_pairwise' (r := (· ≤ ·)) (sortR_pairwise xs) (List.pairwise_insertionSort _ _)
  exact (sortR_perm xs).trans (List.perm_insertionSort _ _).symm

theorem sortR_forall₂ {xs ys : List ℝ} (h : List.Forall₂ (· ≤ ·) xs ys) :
    List.Forall₂ (· ≤ ·) (sortR xs) (sortR ys) := by
  rw [sortR_eq_insertionSort, sortR_eq_insertionSort]
  induction h with
  | nil => exact .nil
  | cons hab _ ih =>
    exact forall₂_orderedInsert ih (List.pairwise_insertionSort _ _) (List.pairwise_insertionSort _ _) hab

theorem getD_le_of_forall₂ {xs ys : List ℝ} (h : List.Forall₂ (· ≤ ·) xs ys) (i : ℕ) : xs.getD i 0 ≤ ys.getD i 0 := by
  induction h generalizing i with
  | nil => simp
  | cons hab _ ih =>
    cases i with
    | zero => simpa using hab
    | succ i => simpa using ih i

theorem atPos_le {xs ys : List ℝ} (h : List.Forall₂ (· ≤ ·) xs ys) (t : ℝ) : atPos xs t ≤ atPos ys t := by
  unfold atPos
  rw [h.length_eq]
  split_ifs with h1 h2
  · exact getD_le_of_forall₂ h _
  · exact getD_le_of_forall₂ h _
  · push Not at h1
    have f1 := Nat.floor_le h1
    have f2 := Nat.lt_floor_add_one t
    have a := getD_le_of_forall₂ h ⌊t⌋₊
    have b := getD_le_of_forall₂ h (⌊t⌋₊ + 1)
    dsimp only
    have := mul_le_mul_of_nonneg_left a (show 0 ≤ 1 - (t - ⌊t⌋₊) by linarith)
    have := mul_le_mul_of_nonneg_left b (show 0 ≤ t - ⌊t⌋₊ by linarith)
    linarith

/-- Quantiles are monotone functions of the sample. -/
theorem quantile_le {xs ys : List ℝ} (h : List.Forall₂ (· ≤ ·) xs ys) (q : ℝ) : quantile xs q ≤ quantile ys q := by
  rw [quantile, quantile, h.length_eq]
  exact atPos_le (sortR_forall₂ h) _

end Verif.Py
