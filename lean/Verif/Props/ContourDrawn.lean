import Verif.Props.PliDraw

/-!
# C99: when the contour figure is drawn
-/

namespace Verif.Props
open Verif.Py Verif.Model

/-- **C99, existence of the figure.**  With a result matrix that belongs to the sizes and the deltas, the contour of a marginal is drawn exactly when the
marginal exists, there are at least two deltas and at least two defect sizes with indices; the figure has a row per delta and a column per kept size. -/
theorem C99_drawn_partial {Obj : Type} (s : PliPod Obj) (deltas : List ℝ) (marginal : ℕ) (kept : List ℕ) (hk : s.kept = some kept)
    (h0 : s.indices.n0 = deltas.length) (h1 : s.indices.n1 = s.dim) (h2 : s.indices.n2 = s.defectSizes.length) (hkept : ∀ i ∈ kept, i < s.defectSizes.length) :
    ((∃ fig, drawContour s deltas marginal = .ok fig) ↔ marginal < s.dim ∧ 2 ≤ deltas.length ∧ 2 ≤ kept.length) ∧
    ∀ fig, drawContour s deltas marginal = .ok fig → fig.nrow = deltas.length ∧ fig.ncol = kept.length := by
  have hall : (kept.all fun i => decide (i < s.defectSizes.length)) = true := by
    rw [List.all_eq_true]
    intro i hi
    simpa using hkept i hi
  have hmin : ∀ l : List ℝ, l ≠ [] → ∃ a b, sampleMin l = .ok a ∧ sampleMax l = .ok b := by
    intro l hl
    cases l with
    | nil => exact absurd rfl hl
    | cons a t => exact ⟨_, _, rfl, rfl⟩
  unfold drawContour
  rw [hk]
  dsimp only
  rw [hall]
  by_cases hm : marginal < s.dim
  · rw [if_neg (by omega), if_neg (by simp)]
    rcases Nat.lt_or_ge kept.length 1 with hk1 | hk1
    · have : kept = [] := List.length_eq_zero_iff.mp (by omega)
      subst this
      simp [sampleMin]
    rcases Nat.lt_or_ge deltas.length 1 with hd1 | hd1
    · have : deltas = [] := List.length_eq_zero_iff.mp (by omega)
      subst this
      obtain ⟨a, b, ha, hb⟩ := hmin (kept.map fun i => s.defectSizes.getD i 0) (by rintro h; simp at h; simp [h] at hk1)
      rw [ha, hb]
      simp [sampleMin]
    obtain ⟨a, b, ha, hb⟩ := hmin (kept.map fun i => s.defectSizes.getD i 0) (by rintro h; simp at h; simp [h] at hk1)
    obtain ⟨c, d, hc, hd⟩ := hmin deltas (by rintro h; simp [h] at hd1)
    have hr : resolveIdx s.indices.n1 (marginal : ℤ) = .ok marginal := by
      rw [resolveIdx, h1, if_pos (by omega)]
      simp
    rw [ha, hb, hc, hd, hr, h2, hall]
    dsimp only
    rw [if_neg (by simp), h0]
    by_cases hlt : deltas.length < 2 ∨ kept.length < 2
    · rw [if_pos hlt]
      refine ⟨⟨fun ⟨_, h⟩ => by simp at h, fun h => by omega⟩, fun _ h => by simp at h⟩
    · rw [if_neg hlt]
      refine ⟨⟨fun _ => ⟨hm, by omega, by omega⟩, fun _ => ⟨_, rfl⟩⟩, fun fig h => ?_⟩
      rw [Except.ok.injEq] at h
      subst h
      exact ⟨rfl, rfl⟩
  · rw [if_pos (by omega)]
    exact ⟨⟨fun ⟨_, h⟩ => by simp at h, fun h => absurd h.1 hm⟩, fun _ h => by simp at h⟩

/-- The hypotheses hold for two deltas, one parameter, and three sizes of which the first and the last have indices. -/
example : ∃ fig, drawContour (⟨2, 1, 0, 3, [1, 2, 3], 3, ⟨2, 1, 3, fun _ _ _ => .fin 0⟩, [none, none, none], some [0, 2]⟩ : PliPod Unit) [0, 1] (0 : ℕ) = .ok fig :=
  (C99_drawn_partial (⟨2, 1, 0, 3, [1, 2, 3], 3, ⟨2, 1, 3, fun _ _ _ => .fin 0⟩, [none, none, none], some [0, 2]⟩ : PliPod Unit) [0, 1] 0 [0, 2] rfl rfl rfl rfl
    (by simp)).1.mpr ⟨by simp, by simp, by simp⟩

end Verif.Props
