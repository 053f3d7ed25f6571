import Verif.Py.Basic
import Mathlib.Data.List.Sort
import Mathlib.Data.Real.Basic
import Mathlib.Tactic.Linarith
import Mathlib.Tactic.FieldSimp
import Mathlib.Tactic.Ring

/-!
# `scipy.interpolate.interp1d(x, y, kind="linear")`

External code, restated: the constructor checks the lengths, needs at least one point, and sorts the points by abscissa
(stable); evaluation raises ValueError outside `[x₀, xₙ]` and otherwise is `np.interp`: with `j` the last index such
that `xⱼ ≤ t`, the value on the segment from point `j` to point `j+1`, or the last ordinate.
-/

namespace Verif.Py

/-- `np.interp` on points sorted by abscissa, for `t` not below the first abscissa. -/
noncomputable def interpGo : List (ℝ × ℝ) → ℝ → ℝ
  | [], _ => 0
  | [p], _ => p.2
  | p :: q :: rest, t =>
    if t < q.1 then (q.2 - p.2) / (q.1 - p.1) * (t - p.1) + p.2 else interpGo (q :: rest) t

/-- Evaluation with the bounds check, on sorted points. -/
noncomputable def interpEval (pts : List (ℝ × ℝ)) (t : ℝ) : Res ℝ :=
  match pts with
  | [] => .error ⟨.valueError, ""⟩
  | p :: rest =>
    if t < p.1 then .error ⟨.valueError, "A value in x_new is below the interpolation range."⟩
    else if ((p :: rest).getLast (by simp)).1 < t then
      .error ⟨.valueError, "A value in x_new is above the interpolation range."⟩
    else .ok (interpGo (p :: rest) t)

/-- Points sorted by abscissa (stable). -/
noncomputable def sortPts (pts : List (ℝ × ℝ)) : List (ℝ × ℝ) := pts.mergeSort (fun a b => decide (a.1 ≤ b.1))

/-- `interp1d(x, y)` : construction, giving the evaluation function. -/
noncomputable def interp1d (xs ys : List ℝ) : Res (ℝ → Res ℝ) :=
  if xs.length = ys.length then .ok (interpEval (sortPts (xs.zip ys)))
  else .error ⟨.valueError, "x and y arrays must be equal in length along interpolation axis."⟩

theorem sortPts_of_sorted {pts : List (ℝ × ℝ)} (h : pts.Pairwise (fun a b => a.1 ≤ b.1)) : sortPts pts = pts := by
  apply List.mergeSort_of_pairwise
  exact h.imp (by simp)

theorem sortPts_pairwise (pts : List (ℝ × ℝ)) : (sortPts pts).Pairwise (fun a b => a.1 ≤ b.1) := by
  have := List.pairwise_mergeSort (le := fun a b : ℝ × ℝ => decide (a.1 ≤ b.1))
    (by intro a b c; simp only [decide_eq_true_eq]; exact le_trans)
    (by intro a b; simp only [Bool.or_eq_true, decide_eq_true_eq]; exact le_total _ _) pts
  exact this.imp (by simp)

theorem sortPts_perm (pts : List (ℝ × ℝ)) : (sortPts pts).Perm pts := List.mergeSort_perm _ _

/-- The sorted points when the abscissae are distinct. -/
theorem sortPts_eq_of_perm {pts pts' : List (ℝ × ℝ)} (hp : pts.Perm pts') (hs : pts'.Pairwise (fun a b => a.1 < b.1)) :
    sortPts pts = pts' := by
  have h2 : (sortPts pts).Perm pts' := (sortPts_perm pts).trans hp
  refine List.Perm.eq_of_pairwise (le := fun a b => a.1 ≤ b.1) ?_ (sortPts_pairwise pts) (hs.imp fun h => h.le) h2
  intro a b ha hb hab hba
  have ha' : a ∈ pts' := h2.mem_iff.mp ha
  obtain ⟨i, hi, rfl⟩ := List.mem_iff_getElem.mp ha'
  obtain ⟨j, hj, rfl⟩ := List.mem_iff_getElem.mp hb
  rw [List.pairwise_iff_getElem] at hs
  rcases lt_trichotomy i j with h | h | h
  · exact absurd (hs i j hi hj h) (not_lt.mpr hba)
  · subst h; rfl
  · exact absurd (hs j i hj hi h) (not_lt.mpr hab)

/-! ## Facts -/

/-- At a listed abscissa with a strictly larger next one, the value is the listed ordinate. -/
theorem interpGo_at {pts : List (ℝ × ℝ)} (h : pts.Pairwise (fun a b => a.1 < b.1)) {p : ℝ × ℝ} (hp : p ∈ pts) :
    interpGo pts p.1 = p.2 := by
  induction pts with
  | nil => simp at hp
  | cons a rest ih =>
    cases rest with
    | nil => simp at hp; subst hp; rfl
    | cons b rest =>
      rw [List.pairwise_cons] at h
      rw [interpGo]
      rcases List.mem_cons.mp hp with rfl | hp
      · rw [if_pos (h.1 b (by simp))]; simp
      · have : ¬ p.1 < b.1 := by
          rcases List.mem_cons.mp hp with rfl | hp'
          · exact lt_irrefl _
          · exact not_lt.mpr ((List.pairwise_cons.mp h.2).1 p hp').le
        rw [if_neg this]
        exact ih h.2 hp

/-- Between two consecutive points the value is on their segment. -/
theorem interpGo_segment {pre post : List (ℝ × ℝ)} {p q : ℝ × ℝ}
    (h : (pre ++ p :: q :: post).Pairwise (fun a b => a.1 < b.1)) {t : ℝ} (h1 : p.1 ≤ t) (h2 : t ≤ q.1) :
    interpGo (pre ++ p :: q :: post) t = p.2 + (q.2 - p.2) * ((t - p.1) / (q.1 - p.1)) := by
  have hpq : p.1 < q.1 := by
    have := (List.pairwise_append.mp h).2.1
    exact (List.pairwise_cons.mp this).1 q (by simp)
  rcases h2.lt_or_eq with h2 | h2
  · induction pre with
    | nil =>
      rw [List.nil_append, interpGo, if_pos h2]
      ring
    | cons a pre ih =>
      have hh := (List.pairwise_cons.mp h)
      have ih := ih hh.2
      cases pre with
      | nil =>
        rw [List.cons_append, List.nil_append, interpGo, if_neg (not_lt.mpr h1)]
        exact ih
      | cons b pre =>
        have hb : b.1 < p.1 := by
          have := (List.pairwise_cons.mp hh.2).1 p (by simp)
          exact this
        rw [List.cons_append, List.cons_append, interpGo, if_neg (by linarith)]
        exact ih
  · rw [h2, interpGo_at h (by simp : q ∈ _), div_self (by linarith)]
    ring

/-- The value lies between two of the ordinates. -/
theorem interpGo_between {pts : List (ℝ × ℝ)} (h : pts.Pairwise (fun a b => a.1 ≤ b.1)) {p : ℝ × ℝ}
    {rest : List (ℝ × ℝ)} (hp : pts = p :: rest) {t : ℝ} (ht : p.1 ≤ t) :
    ∃ a ∈ pts, ∃ b ∈ pts, a.2 ≤ interpGo pts t ∧ interpGo pts t ≤ b.2 := by
  induction pts generalizing p rest with
  | nil => simp at hp
  | cons c l ih =>
    cases l with
    | nil => exact ⟨c, by simp, c, by simp, le_rfl, le_rfl⟩
    | cons q l =>
      rw [List.cons.injEq] at hp
      obtain ⟨rfl, -⟩ := hp
      rw [interpGo]
      split_ifs with hq
      · have hpos : 0 < q.1 - c.1 := by linarith
        set r := (t - c.1) / (q.1 - c.1) with hr
        have hr0 : 0 ≤ r := div_nonneg (by linarith) hpos.le
        have hr1 : r ≤ 1 := by rw [hr, div_le_one hpos]; linarith
        have hv : (q.2 - c.2) / (q.1 - c.1) * (t - c.1) + c.2 = (1 - r) * c.2 + r * q.2 := by
          rw [hr]; field_simp; ring
        rw [hv]
        rcases le_total c.2 q.2 with h' | h'
        · exact ⟨c, by simp, q, by simp, by nlinarith, by nlinarith⟩
        · exact ⟨q, by simp, c, by simp, by nlinarith, by nlinarith⟩
      · obtain ⟨a, ha, b, hb, hab⟩ := ih (List.pairwise_cons.mp h).2 rfl (not_lt.mp hq)
        exact ⟨a, List.mem_cons_of_mem _ ha, b, List.mem_cons_of_mem _ hb, hab⟩

/-- The value is at least the first ordinate when ordinates increase. -/
theorem interpGo_ge_first {p : ℝ × ℝ} {rest : List (ℝ × ℝ)}
    (h : (p :: rest).Pairwise (fun a b => a.1 ≤ b.1)) (hy : (p :: rest).Pairwise (fun a b => a.2 ≤ b.2)) {t : ℝ}
    (ht : p.1 ≤ t) : p.2 ≤ interpGo (p :: rest) t := by
  obtain ⟨a, ha, -, -, hab, -⟩ := interpGo_between h rfl ht
  refine le_trans ?_ hab
  rcases List.mem_cons.mp ha with rfl | ha
  · exact le_rfl
  · exact (List.pairwise_cons.mp hy).1 a ha

/-- Increasing ordinates give an increasing curve. -/
theorem interpGo_mono {p : ℝ × ℝ} {rest : List (ℝ × ℝ)}
    (h : (p :: rest).Pairwise (fun a b => a.1 ≤ b.1)) (hy : (p :: rest).Pairwise (fun a b => a.2 ≤ b.2)) {t t' : ℝ}
    (ht : p.1 ≤ t) (htt : t ≤ t') : interpGo (p :: rest) t ≤ interpGo (p :: rest) t' := by
  induction rest generalizing p with
  | nil => exact le_rfl
  | cons q l ih =>
    rw [interpGo, interpGo]
    have hp := List.pairwise_cons.mp h
    have hyp := List.pairwise_cons.mp hy
    have hpq2 := hyp.1 q (by simp)
    by_cases h1 : t < q.1
    · rw [if_pos h1]
      have hpos : 0 < q.1 - p.1 := by linarith
      have hs : 0 ≤ (q.2 - p.2) / (q.1 - p.1) := div_nonneg (by linarith) hpos.le
      by_cases h2 : t' < q.1
      · rw [if_pos h2]
        nlinarith
      · rw [if_neg h2]
        have h3 := interpGo_ge_first hp.2 hyp.2 (not_lt.mp h2)
        have : (q.2 - p.2) / (q.1 - p.1) * (t - p.1) + p.2 ≤ q.2 := by
          have : (q.2 - p.2) / (q.1 - p.1) * (t - p.1) ≤ (q.2 - p.2) / (q.1 - p.1) * (q.1 - p.1) :=
            mul_le_mul_of_nonneg_left (by linarith) hs
          rw [div_mul_cancel₀ _ hpos.ne'] at this
          linarith
        linarith
    · have h2 : ¬ t' < q.1 := by linarith
      rw [if_neg h1, if_neg h2]
      exact ih hp.2 hyp.2 (not_lt.mp h1)

/-- Strictly increasing curve for strictly increasing ordinates and abscissae, inside the range. -/
theorem interpGo_last {pts : List (ℝ × ℝ)} (hne : pts ≠ []) (h : pts.Pairwise (fun a b => a.1 ≤ b.1)) :
    interpGo pts (pts.getLast hne).1 = (pts.getLast hne).2 := by
  induction pts with
  | nil => exact absurd rfl hne
  | cons p l ih =>
    cases l with
    | nil => rfl
    | cons q l =>
      rw [List.getLast_cons (by simp), interpGo]
      have hh := (List.pairwise_cons.mp h).2
      have : ¬ ((q :: l).getLast (by simp)).1 < q.1 := by
        have hm := List.getLast_mem (show q :: l ≠ [] by simp)
        rcases List.mem_cons.mp hm with hm | hm
        · rw [hm]; exact lt_irrefl _
        · exact not_lt.mpr ((List.pairwise_cons.mp hh).1 _ hm)
      rw [if_neg this]
      exact ih (by simp) hh

/-- The evaluation succeeds exactly inside the range. -/
theorem interpEval_ok_iff {p : ℝ × ℝ} {rest : List (ℝ × ℝ)} {t : ℝ} :
    (p.1 ≤ t ∧ t ≤ ((p :: rest).getLast (by simp)).1 → interpEval (p :: rest) t = .ok (interpGo (p :: rest) t)) ∧
    (¬ (p.1 ≤ t ∧ t ≤ ((p :: rest).getLast (by simp)).1) → Raises (interpEval (p :: rest) t) .valueError) := by
  unfold interpEval
  constructor
  · rintro ⟨h1, h2⟩
    dsimp only
    rw [if_neg (not_lt.mpr h1), if_neg (not_lt.mpr h2)]
  · intro h
    dsimp only
    split_ifs with h1 h2
    · exact ⟨_, rfl⟩
    · exact ⟨_, rfl⟩
    · exact absurd ⟨not_lt.mp h1, not_lt.mp h2⟩ h

end Verif.Py
