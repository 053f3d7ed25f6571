import Mathlib.Data.Real.Archimedean
import Mathlib.Algebra.Order.Round
import Mathlib.Algebra.Order.Field.Power
import Mathlib.Data.Int.Log
import Mathlib.Tactic.Positivity
import Mathlib.Tactic.NormNum
import Mathlib.Tactic.Linarith
import Mathlib.Tactic.FieldSimp
import Mathlib.Tactic.Ring

/-!
# Double precision rounding

`IsDouble` are the reals with a 53 bit significand (no bound on the exponent: overflow and underflow play no role here).
`Nearest rd`: `rd` rounds to a nearest double, with any rule for ties.
-/

namespace Verif.Py

/-- A real with a significand of at most 53 bits. -/
def IsDouble (x : ℝ) : Prop := ∃ (m e : ℤ), |m| < 2 ^ 53 ∧ x = m * (2 : ℝ) ^ e

/-- Rounding to a nearest double. -/
def Nearest (rd : ℝ → ℝ) : Prop := ∀ x, IsDouble (rd x) ∧ ∀ y, IsDouble y → |rd x - x| ≤ |y - x|

theorem isDouble_int (n : ℤ) (h : |n| < 2 ^ 53) : IsDouble n := ⟨n, 0, h, by simp⟩

/-- A double between `y₀ < x` and above must not jump over a closer double. -/
theorem Nearest.lt_of_closer {rd : ℝ → ℝ} (h : Nearest rd) {x y z : ℝ} (hy : IsDouble y) (hxz : x ≤ z)
    (hc : |y - x| < z - x) : rd x < z := by
  have h1 := (h x).2 y hy
  by_contra hc'
  push Not at hc'
  have : z - x ≤ |rd x - x| := by rw [abs_of_nonneg (by linarith)]; linarith
  linarith

theorem Nearest.gt_of_closer {rd : ℝ → ℝ} (h : Nearest rd) {x y z : ℝ} (hy : IsDouble y) (hxz : z ≤ x)
    (hc : |y - x| < x - z) : z < rd x := by
  have h1 := (h x).2 y hy
  by_contra hc'
  push Not at hc'
  have : x - z ≤ |rd x - x| := by rw [abs_sub_comm, abs_of_nonneg (by linarith)]; linarith
  linarith

/-- Doubles of absolute value at least `2 ^ (k + 52)` are multiples of `2 ^ k`. -/
theorem IsDouble.multiple {y : ℝ} (h : IsDouble y) {k : ℤ} (hy : (2 : ℝ) ^ (k + 52) ≤ |y|) :
    ∃ n : ℤ, y = n * (2 : ℝ) ^ k := by
  obtain ⟨m, e, hm, rfl⟩ := h
  have hm' : |(m : ℝ)| < 2 ^ 53 := by
    rw [← Int.cast_abs]; exact_mod_cast hm
  rcases le_or_gt k e with hke | hke
  · refine ⟨m * 2 ^ (e - k).toNat, ?_⟩
    push_cast
    rw [mul_assoc, ← zpow_natCast, ← zpow_add₀ (by norm_num)]
    congr 2
    omega
  · exfalso
    rw [abs_mul, abs_of_pos (by positivity : (0 : ℝ) < 2 ^ e)] at hy
    have h1 : (2 : ℝ) ^ e ≤ 2 ^ (k - 1) := zpow_le_zpow_right₀ (by norm_num) (by omega)
    have h2 : |(m : ℝ)| * 2 ^ e < 2 ^ 53 * 2 ^ (k - 1) := by
      calc |(m : ℝ)| * 2 ^ e < 2 ^ 53 * 2 ^ e := by
            apply mul_lt_mul_of_pos_right hm' (by positivity)
        _ ≤ _ := by apply mul_le_mul_of_nonneg_left h1 (by positivity)
    have h3 : (2 : ℝ) ^ (53 : ℕ) * 2 ^ (k - 1) = 2 ^ (k + 52) := by
      rw [← zpow_natCast, ← zpow_add₀ (by norm_num)]
      congr 1; push_cast; ring
    linarith

/-- The exponent used to round `x`. -/
noncomputable def ulpExp (x : ℝ) : ℤ := Int.log 2 |x| - 52

/-- A rounding function. -/
noncomputable def roundDouble (x : ℝ) : ℝ := if x = 0 then 0 else round (x / 2 ^ ulpExp x) * (2 : ℝ) ^ ulpExp x

/-- Rounding to a nearest double exists. -/
theorem nearest_roundDouble : Nearest roundDouble := by
  intro x
  unfold roundDouble
  by_cases hx : x = 0
  · subst hx
    rw [if_pos rfl]
    exact ⟨⟨0, 0, by norm_num, by simp⟩, fun y _ => by simp⟩
  rw [if_neg hx]
  set k := ulpExp x with hk
  have hpos : (0 : ℝ) < 2 ^ k := by positivity
  have habs : 0 < |x| := abs_pos.2 hx
  have hlo : (2 : ℝ) ^ (k + 52) ≤ |x| := by
    have := Int.zpow_log_le_self (b := 2) (by norm_num) habs
    rw [hk, ulpExp, sub_add_cancel]
    exact_mod_cast this
  have hhi : |x| < (2 : ℝ) ^ (k + 53) := by
    have := Int.lt_zpow_succ_log_self (b := 2) (by norm_num) |x|
    rw [hk, ulpExp, show Int.log 2 |x| - 52 + 53 = Int.log 2 |x| + 1 by ring]
    exact_mod_cast this
  set z := x / 2 ^ k with hz
  have hxz : x = z * 2 ^ k := by rw [hz]; field_simp
  have hzabs : |z| = |x| / 2 ^ k := by rw [hz, abs_div, abs_of_pos hpos]
  have hzlo : (2 : ℝ) ^ 52 ≤ |z| := by
    rw [hzabs, le_div_iff₀ hpos]
    calc (2 : ℝ) ^ 52 * 2 ^ k = 2 ^ (k + 52) := by
          rw [add_comm, zpow_add₀ (by norm_num)]; norm_num
      _ ≤ _ := hlo
  have hzhi : |z| < (2 : ℝ) ^ 53 := by
    rw [hzabs, div_lt_iff₀ hpos]
    calc |x| < 2 ^ (k + 53) := hhi
      _ = (2 : ℝ) ^ 53 * 2 ^ k := by rw [add_comm, zpow_add₀ (by norm_num)]; norm_num
  have hnear : ∀ n : ℤ, |(round z : ℝ) - z| ≤ |(n : ℝ) - z| := by
    intro n
    have := round_le z n
    rw [abs_sub_comm, abs_sub_comm (n : ℝ)]
    exact this
  refine ⟨?_, ?_⟩
  · have hle : |round z| ≤ 2 ^ 53 := by
      have h1 := abs_sub_round z
      have h2 : |(round z : ℝ)| < 2 ^ 53 + 1 := by
        have h3 : |(round z : ℝ)| ≤ |z| + |z - round z| := by
          have := abs_sub_abs_le_abs_sub (round z : ℝ) z
          rw [abs_sub_comm] at this
          linarith
        linarith
      have h4 : |round z| < 2 ^ 53 + 1 := by
        rw [← Int.cast_abs] at h2; exact_mod_cast h2
      omega
    rcases lt_or_eq_of_le hle with hlt | heq
    · exact ⟨round z, k, hlt, rfl⟩
    · rcases abs_eq (by positivity : (0:ℤ) ≤ 2 ^ 53) |>.1 heq with h | h
      · refine ⟨2 ^ 52, k + 1, by norm_num, ?_⟩
        rw [h, zpow_add₀ (by norm_num)]; push_cast; ring
      · refine ⟨-2 ^ 52, k + 1, by norm_num, ?_⟩
        rw [h, zpow_add₀ (by norm_num)]; push_cast; ring
  · intro y hy
    have e1 : |(round z : ℝ) * 2 ^ k - x| = |(round z : ℝ) - z| * 2 ^ k := by
      rw [← abs_of_pos hpos, ← abs_mul, abs_of_pos hpos]; congr 1; rw [hxz]; ring
    have e2 : |y - x| = |y / 2 ^ k - z| * 2 ^ k := by
      rw [← abs_of_pos hpos, ← abs_mul, abs_of_pos hpos]; congr 1; rw [hxz]; field_simp
    rw [e1, e2]
    apply mul_le_mul_of_nonneg_right _ hpos.le
    by_cases hbig : (2 : ℝ) ^ (k + 52) ≤ |y|
    · obtain ⟨n, hn⟩ := hy.multiple hbig
      rw [hn, mul_div_cancel_right₀ _ hpos.ne']
      exact hnear n
    · push Not at hbig
      have hw : |y / 2 ^ k| < 2 ^ 52 := by
        rw [abs_div, abs_of_pos hpos, div_lt_iff₀ hpos]
        calc |y| < 2 ^ (k + 52) := hbig
          _ = (2 : ℝ) ^ 52 * 2 ^ k := by rw [add_comm, zpow_add₀ (by norm_num)]; norm_num
      rw [abs_lt] at hw
      rcases le_total 0 z with hz0 | hz0
      · rw [abs_of_nonneg hz0] at hzlo
        refine (hnear (2 ^ 52)).trans ?_
        push_cast
        rw [abs_sub_comm, abs_of_nonneg (by linarith), abs_sub_comm, abs_of_nonneg (by linarith)]
        linarith
      · rw [abs_of_nonpos hz0] at hzlo
        refine (hnear (-2 ^ 52)).trans ?_
        push_cast
        rw [abs_of_nonneg (by linarith), abs_of_nonneg (by linarith)]
        linarith

end Verif.Py
