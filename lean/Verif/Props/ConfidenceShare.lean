import Verif.Props.RankLaw
import Verif.Props.GaussPOD
import Verif.Props.Metamodel

/-!
# C24: share of the simulations below the confidence curve
-/

namespace Verif.Props
open Verif.Py Verif.Model

theorem quantile_shares {xs : List ℝ} (hne : xs ≠ []) {q : ℝ} (hq0 : 0 ≤ q) (hq1 : q ≤ 1) :
    ((xs.countP fun t => decide (t < quantile xs q) : ℕ) : ℝ) ≤ q * xs.length + 1 / 2 ∧
    q * xs.length - 1 / 2 ≤ ((xs.countP fun t => decide (t ≤ quantile xs q) : ℕ) : ℝ) := by
  obtain ⟨J, -, h1, h2, h3⟩ := quantile_count hne hq0 hq1
  constructor
  · by_contra hc
    have hJ : J + 1 ≤ xs.countP fun t => decide (t < quantile xs q) := by
      have : (J : ℝ) < ((xs.countP fun t => decide (t < quantile xs q) : ℕ) : ℝ) := by linarith
      exact_mod_cast this
    -- the largest value below the quantile
    set l := xs.filter fun t => decide (t < quantile xs q) with hl
    have hlen : l.length = xs.countP fun t => decide (t < quantile xs q) := List.countP_eq_length_filter.symm
    have hl0 : l ≠ [] := by
      intro h
      rw [h, List.length_nil] at hlen
      omega
    obtain ⟨m, hm, hmax⟩ : ∃ m ∈ l, ∀ t ∈ l, t ≤ m := by
      have hf : l.toFinset.Nonempty := by simpa [List.toFinset_nonempty_iff] using hl0
      exact ⟨l.toFinset.max' hf, by simpa using l.toFinset.max'_mem hf, fun t ht => l.toFinset.le_max' t (by simpa using ht)⟩
    have hmlt : m < quantile xs q := by simpa using (List.mem_filter.mp hm).2
    have hle : (xs.countP fun t => decide (t < quantile xs q)) ≤ xs.countP fun t => decide (t ≤ m) := by
      refine List.countP_mono_left fun t ht h => ?_
      simpa using hmax t (List.mem_filter.mpr ⟨ht, h⟩)
    exact absurd ((h3 xs rfl m).1 (by omega)) (not_le.mpr hmlt)
  · have := (h3 xs rfl _).2 le_rfl
    have h4 : (J : ℝ) ≤ ((xs.countP fun t => decide (t ≤ quantile xs q) : ℕ) : ℝ) := by exact_mod_cast this
    linarith

/-- **C24, shares.**  Among the simulated curves, the number of those strictly below the confidence value is at most `(1 - c) N + 1/2`, the number of those
not above it at least `(1 - c) N - 1/2`. -/
theorem C24_shares (coll : List (ℝ → ℝ)) (hne : coll ≠ []) (c : ℝ) (h0 : 0 ≤ c) (h1 : c ≤ 1) (x v : ℝ)
    (h : podClFromCollection coll.length coll c x = .ok v) :
    ((coll.countP fun f => decide (f x < v) : ℕ) : ℝ) ≤ (1 - c) * coll.length + 1 / 2 ∧
    (1 - c) * coll.length - 1 / 2 ≤ ((coll.countP fun f => decide (f x ≤ v) : ℕ) : ℝ) := by
  have hm : (coll.map fun f => f x) ≠ [] := by simpa using hne
  rw [podClFromCollection, collect_range _ _ _ (by simp), map_getD_range _ _ _ le_rfl, List.take_length] at h
  simp only [hm, if_false, Except.ok.injEq] at h
  have hq := quantile_shares hm (q := 1 - c) (by linarith) (by linarith)
  rw [h, List.countP_map, List.countP_map, List.length_map] at hq
  exact hq

/-- **C24, shares for the metamodels.**  The same for the curve built from the sample of POD values of each defect size: at the `j`-th size the number of
values of this size strictly below the curve is at most `(1 - c) N + 1/2`, the number of those not above it at least `(1 - c) N - 1/2`. -/
theorem C24_metamodel_shares (s : SimAttrs) (cols : List (List ℝ)) (hc : s.perDefect = some cols) (hlen : cols.length = s.sizes.length)
    (hs : s.sizes.Pairwise (· < ·)) (c : ℝ) (h0 : 0 ≤ c) (h1 : c ≤ 1) (j : ℕ) (hj : j < s.sizes.length) (col : List ℝ) (hcol : cols[j]? = some col)
    (hne : col ≠ []) :
    ∃ g v, getPODCLModel s c = .ok g ∧ g s.sizes[j] = .ok v ∧
      ((col.countP fun t => decide (t < v) : ℕ) : ℝ) ≤ (1 - c) * col.length + 1 / 2 ∧
      (1 - c) * col.length - 1 / 2 ≤ ((col.countP fun t => decide (t ≤ v) : ℕ) : ℝ) := by
  obtain ⟨g, hg, -, hn, -⟩ := interp1d_spec s.sizes (cols.map fun col => quantile col (1 - c)) (by simp [hlen])
    (by rintro h; simp [h] at hj) hs
  refine ⟨g, quantile col (1 - c), by rw [getPODCLModel, hc]; exact hg, ?_, quantile_shares hne (by linarith) (by linarith)⟩
  have := hn j hj
  rwa [List.getD_eq_getElem _ _ hj, List.getD_eq_getElem?_getD, List.getElem?_map, hcol] at this

/-- Two simulated curves: the value exists, so that `C24_shares` applies. -/
example : ∃ v, podClFromCollection 2 [fun x => x, fun x => x + 1] 0.9 3 = .ok v ∧
    (([fun x => x, fun x => x + 1].countP fun f : ℝ → ℝ => decide (f 3 < v) : ℕ) : ℝ) ≤ (1 - 0.9) * 2 + 1 / 2 := by
  obtain ⟨v, hv, -⟩ := (C24_confidence_quantile [fun x => x, fun x => x + 1] (by simp) 3).1 0.9
  exact ⟨v, hv, (C24_shares [fun x => x, fun x => x + 1] (by simp) 0.9 (by norm_num) (by norm_num) 3 v hv).1⟩

example : ∃ g v, getPODCLModel ⟨⟨[1, 2], 2⟩, some [[0.2, 0.1], [0.8, 0.9]], none⟩ 0.9 = .ok g ∧ g 2 = .ok v ∧
    (([0.8, 0.9].countP fun t : ℝ => decide (t < v) : ℕ) : ℝ) ≤ (1 - 0.9) * 2 + 1 / 2 := by
  obtain ⟨g, v, h1, h2, h3, -⟩ := C24_metamodel_shares ⟨⟨[1, 2], 2⟩, some [[0.2, 0.1], [0.8, 0.9]], none⟩ _ rfl rfl (by norm_num) 0.9 (by norm_num)
    (by norm_num) 1 (by simp) [0.8, 0.9] rfl (by simp)
  exact ⟨g, v, h1, h2, h3⟩

end Verif.Props
