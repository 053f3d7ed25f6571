import Mathlib.Data.Real.Archimedean
import Mathlib.Algebra.Order.Floor.Ring
import Mathlib.Tactic.Linarith
import Mathlib.Algebra.Ring.Int.Parity

/-!
# `round`

Python's `round` to an integer: nearest, ties to even.  With a number of digits, `round(x, 2)` is the nearest multiple of
1/100 (the representation error of decimal numbers in binary is outside the model).
-/

namespace Verif.Py

/-- `round(x)`. -/
noncomputable def pyRound (x : ℝ) : ℤ :=
  if x - ⌊x⌋ < 1 / 2 then ⌊x⌋
  else if 1 / 2 < x - ⌊x⌋ then ⌊x⌋ + 1
  else if Even ⌊x⌋ then ⌊x⌋ else ⌊x⌋ + 1

/-- `round(x, 2)`. -/
noncomputable def pyRound2 (x : ℝ) : ℝ := pyRound (x * 100) / 100

theorem pyRound_abs (x : ℝ) : |(pyRound x : ℝ) - x| ≤ 1 / 2 := by
  have h1 := Int.floor_le x
  have h2 := Int.lt_floor_add_one x
  unfold pyRound
  rw [abs_le]
  split_ifs <;> push_cast <;> constructor <;> linarith

theorem pyRound_int (n : ℤ) : pyRound (n : ℝ) = n := by
  unfold pyRound
  rw [if_pos (by simp), Int.floor_intCast]

theorem pyRound_ge {n : ℤ} {x : ℝ} (h : (n : ℝ) ≤ x) : n ≤ pyRound x := by
  have := Int.le_floor.mpr h
  unfold pyRound
  split_ifs <;> omega

theorem pyRound_le {n : ℤ} {x : ℝ} (h : x ≤ (n : ℝ)) : pyRound x ≤ n := by
  have h1 := abs_le.mp (pyRound_abs x)
  by_contra hc
  push Not at hc
  have h2 : (n : ℝ) + 1 ≤ pyRound x := by exact_mod_cast hc
  have h3 : (n : ℝ) + 1 ≤ x + 1 / 2 := by linarith
  linarith

theorem pyRound2_abs (x : ℝ) : |pyRound2 x - x| ≤ 1 / 200 := by
  have h := abs_le.mp (pyRound_abs (x * 100))
  unfold pyRound2
  rw [abs_le]
  constructor <;> linarith [h.1, h.2]

theorem pyRound2_int (n : ℤ) : pyRound2 (n : ℝ) = n := by
  unfold pyRound2
  have : (n : ℝ) * 100 = ((n * 100 : ℤ) : ℝ) := by push_cast; ring
  rw [this, pyRound_int]; push_cast; ring

end Verif.Py
