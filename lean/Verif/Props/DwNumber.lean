import Verif.Props.DwExact

/-!
# C177: when the Durbin-Watson p-value is a number (/repo/otpod/_math_tools.py 179-227)
-/

namespace Verif.Props
open Verif.Py Verif.Model Matrix

variable {m : ℕ}

/-! ## Bounds of the mean and of the variance -/

theorem vnRatio_range (x : Fin (m + 2) → ℝ) : 0 ≤ vnRatio x ∧ vnRatio x ≤ 4 := by
  have h : vnRatio x = durbinWatsonStat (fun i => x i - smean x) := by
    rw [vnRatio, durbinWatsonStat]
    congr 1
    exact Finset.sum_congr rfl fun i _ => by ring
  obtain ⟨a, b, -⟩ := C09_durbinWatson_range (fun i => x i - smean x)
  rw [h]
  exact ⟨a, b⟩

theorem vnRatio2_le (x : Fin (m + 2) → ℝ) : vnRatio2 x ≤ 4 * vnRatio x := by
  have h0 : 0 ≤ ∑ i, (x i - smean x) ^ 2 := Finset.sum_nonneg fun i _ => sq_nonneg _
  rw [vnRatio2, vnRatio, ← mul_div_assoc]
  refine div_le_div_of_nonneg_right ?_ h0
  set d : Fin (m + 1) → ℝ := diffMat ℝ (m + 1) *ᵥ x with hd
  have hA : ∀ i, (dwA ℝ (m + 1) *ᵥ x) i = ((diffMat ℝ (m + 1))ᵀ *ᵥ d) i := by
    intro i; rw [dwA, ← Matrix.mulVec_mulVec]
  have hx : ∑ i : Fin (m + 1), (x i.succ - x i.castSucc) ^ 2 = ∑ i, d i ^ 2 :=
    Finset.sum_congr rfl fun i _ => by rw [hd, diffMat_mulVec]
  simp only [hA, diffT_apply, hx]
  set L : Fin (m + 2) → ℝ := fun j => if h : j.val = 0 then 0 else d ⟨j.val - 1, by omega⟩ with hL
  set R : Fin (m + 2) → ℝ := fun j => if h : j.val = m + 1 then 0 else d ⟨j.val, by omega⟩ with hR
  have sL : ∑ j, L j ^ 2 = ∑ i, d i ^ 2 := by
    rw [Fin.sum_univ_succ]
    simp [hL]
  have sR : ∑ j, R j ^ 2 = ∑ i, d i ^ 2 := by
    rw [Fin.sum_univ_castSucc]
    have hne : ∀ i : Fin (m + 1), ¬ i.val = m + 1 := fun i => by have := i.isLt; omega
    simp [hR, hne]
  have : ∑ j, (L j - R j) ^ 2 ≤ ∑ j, (2 * L j ^ 2 + 2 * R j ^ 2) :=
    Finset.sum_le_sum fun j _ => by nlinarith [sq_nonneg (L j + R j)]
  rw [Finset.sum_add_distrib, ← Finset.mul_sum, ← Finset.mul_sum, sL, sR] at this
  linarith

theorem vnRatio2_ge (x : Fin (m + 2) → ℝ) (hs : ∑ i, (x i - smean x) ^ 2 ≠ 0) : vnRatio x ^ 2 ≤ vnRatio2 x := by
  have h0 : 0 < ∑ i, (x i - smean x) ^ 2 := lt_of_le_of_ne (Finset.sum_nonneg fun i _ => sq_nonneg _) (Ne.symm hs)
  have hcs := Finset.sum_mul_sq_le_sq_mul_sq Finset.univ (fun i => x i - smean x) (fun i => (dwA ℝ (m + 1) *ᵥ x) i)
  have he : ∑ i, (x i - smean x) * (dwA ℝ (m + 1) *ᵥ x) i = ∑ i : Fin (m + 1), (x i.succ - x i.castSucc) ^ 2 := by
    simp only [sub_mul, Finset.sum_sub_distrib, ← Finset.mul_sum, sum_dwA]
    rw [dw_num_eq, dotProduct]
    ring
  rw [he] at hcs
  rw [vnRatio, vnRatio2, div_pow, div_le_div_iff₀ (by positivity) h0]
  nlinarith

theorem dwMean_eq (x : Fin (m + 2) → ℝ) (hs : ∑ i, (x i - smean x) ^ 2 ≠ 0) (hm : 0 < m) : dwMean x = 2 + (2 - vnRatio x) / m := by
  have hm2 : ((m + 2 : ℕ) : ℝ) - (1 + 1) = m := by push_cast; ring
  have hm0 : (m : ℝ) ≠ 0 := by positivity
  rw [dwMean, hm2, dwP_eq x hs]
  push_cast
  field_simp
  ring

theorem dwVar_bounds (x : Fin (m + 2) → ℝ) (hs : ∑ i, (x i - smean x) ^ 2 ≠ 0) (hm : 0 < m) :
    4 * ((m : ℝ) - 4) / (m * (m + 2)) ≤ dwVar x ∧ dwVar x ≤ 4 / (m + 2) := by
  have hm2 : ((m + 2 : ℕ) : ℝ) - (1 + 1) = m := by push_cast; ring
  have hm0 : (0 : ℝ) < m := by positivity
  have hm1 : (1 : ℝ) ≤ m := by exact_mod_cast hm
  obtain ⟨d0, d4⟩ := vnRatio_range x
  have e1 := vnRatio2_le x
  have e2 := vnRatio2_ge x hs
  have hv : dwVar x = 2 / (m * (m + 2)) * ((2 * (3 * (m + 2) - 4) - 2 * vnRatio2 x + vnRatio x ^ 2) - (2 * (m + 1) - vnRatio x) ^ 2 / m) := by
    rw [dwVar, dwMean, hm2, dwP_eq x hs, dwQ_eq x hs]
    push_cast
    field_simp
    ring
  have hv2 : dwVar x = 2 / (m * (m + 2)) * ((m * (2 * (3 * (m + 2) - 4) - 2 * vnRatio2 x + vnRatio x ^ 2) - (2 * (m + 1) - vnRatio x) ^ 2) / m) := by
    rw [hv]; field_simp
  set D := vnRatio x
  set E := vnRatio2 x
  have lo : 2 * (m : ℝ) * (m - 4) ≤ m * (2 * (3 * (m + 2) - 4) - 2 * E + D ^ 2) - (2 * (m + 1) - D) ^ 2 := by
    nlinarith [mul_nonneg hm0.le (sub_nonneg.2 e1), mul_nonneg (sub_nonneg.2 hm1) (sq_nonneg (D - 2))]
  have hi : m * (2 * (3 * (m + 2) - 4) - 2 * E + D ^ 2) - (2 * (m + 1) - D) ^ 2 ≤ 2 * (m : ℝ) * m := by
    nlinarith [mul_nonneg hm0.le (sub_nonneg.2 e2), mul_nonneg (add_nonneg hm0.le one_pos.le) (sq_nonneg (D - 2))]
  have hc : (0 : ℝ) < 2 / (m * (m + 2)) := by positivity
  have q1 : 4 * ((m : ℝ) - 4) / (m * (m + 2)) = 2 / (m * (m + 2)) * (2 * (m : ℝ) * (m - 4) / m) := by field_simp; ring
  have q2 : 4 / ((m : ℝ) + 2) = 2 / (m * (m + 2)) * (2 * (m : ℝ) * m / m) := by field_simp; ring
  rw [hv2, q1, q2]
  exact ⟨mul_le_mul_of_nonneg_left (div_le_div_of_nonneg_right lo hm0.le) hc.le,
    mul_le_mul_of_nonneg_left (div_le_div_of_nonneg_right hi hm0.le) hc.le⟩

/-- **C177, restricted.**  With at least seven observations, not all at the same defect, the variance of the approximation is positive and the p-value of
residuals that are not all zero is a number between 0 and 1: the two tails of the normal law beyond the reduced statistic. -/
theorem C177_number_partial (x r : Fin (m + 7) → ℝ) (hx : ∃ i j, x i ≠ x j) (hr : ∃ i, r i ≠ 0) :
    0 < dwVar (m := m + 5) x ∧ durbinWatsonPValue (m := m + 5) x r = .fin (computeDurbinWatsonTest (m := m + 5) x r .equal) ∧
    0 ≤ computeDurbinWatsonTest (m := m + 5) x r .equal ∧ computeDurbinWatsonTest (m := m + 5) x r .equal ≤ 1 := by
  have hs : ∑ i, (x i - smean x) ^ 2 ≠ 0 := (sxx_pos x hx).ne'
  have hv : 0 < dwVar (m := m + 5) x := by
    refine lt_of_lt_of_le ?_ (dwVar_bounds (m := m + 5) x hs (by omega)).1
    push_cast
    have : (0 : ℝ) ≤ m := Nat.cast_nonneg m
    apply div_pos
    · linarith
    · positivity
  have hr2 : ∑ i, r i ^ 2 ≠ 0 := by
    obtain ⟨i, hi⟩ := hr
    exact (Finset.sum_pos' (fun i _ => sq_nonneg _) ⟨i, Finset.mem_univ _, by positivity⟩).ne'
  have hsq := Real.sqrt_pos.2 hv
  refine ⟨hv, ?_, ?_, ?_⟩
  · rw [durbinWatsonPValue, F.div_fin _ hr2, computeDurbinWatsonTest, durbinWatsonStat]
    simp only [F.div_fin _ hsq.ne', twoSidedNormal, dwPValue]
  · rw [computeDurbinWatsonTest, dwPValue, PhiC_eq]
    have := Phi_lt_one (|durbinWatsonStat r - dwMean (m := m + 5) x| / Real.sqrt (dwVar (m := m + 5) x))
    linarith
  · rw [computeDurbinWatsonTest, dwPValue, PhiC_eq]
    have h0 : 0 ≤ |durbinWatsonStat r - dwMean (m := m + 5) x| / Real.sqrt (dwVar (m := m + 5) x) := by positivity
    have := Phi_strictMono.monotone h0
    rw [Phi_zero] at this
    linarith

/-- Seven observations. -/
example : ∃ p, durbinWatsonPValue (m := 5) ![1, 2, 3, 4, 5, 6, 7] ![1, -1, 2, 0, -3, 1, 0] = .fin p ∧ 0 ≤ p ∧ p ≤ 1 := by
  obtain ⟨-, h1, h2, h3⟩ := C177_number_partial (m := 0) ![1, 2, 3, 4, 5, 6, 7] ![1, -1, 2, 0, -3, 1, 0] ⟨0, 1, by norm_num⟩ ⟨0, by norm_num⟩
  exact ⟨_, h1, h2, h3⟩

/-- **C177, violated.**  With three observations, not all at the same defect, the p-value is NaN for all signals: the statistic always equals `dmean` and
`dvar` is zero. -/
theorem C177_violated (x : Fin 3 → ℝ) (hx : ∃ i j, x i ≠ x j) (y : Fin 3 → ℝ) : durbinWatsonPValue (m := 1) x (olsResiduals x y) = .nan := by
  obtain ⟨b, W, lam, tW, tP, tQ, hz⟩ := dw_form (m := 1) x hx
  obtain ⟨i, rfl⟩ : ∃ i, W = {i} := Finset.card_eq_one.1 (by exact_mod_cast tW)
  simp only [Finset.sum_singleton] at tP tQ hz
  have hmean : dwMean (m := 1) x = lam i := by
    rw [dwMean, ← tP]; norm_num
  have hvar : dwVar (m := 1) x = 0 := by
    rw [dwVar, hmean, ← tP, ← tQ]; ring
  have hy : (fun j => 0 + 0 * x j + 1 * (∑ k, b.repr (WithLp.toLp 2 y) k • (b k).ofLp) j) = y := by
    have h := congrArg WithLp.ofLp (b.sum_repr (WithLp.toLp 2 y))
    rw [WithLp.ofLp_sum] at h
    funext j
    have := congrFun h j
    simp only [WithLp.ofLp_smul] at this
    rw [zero_mul, zero_add, zero_add, one_mul]
    exact this
  obtain ⟨h1, h2⟩ := hz 0 0 1 one_ne_zero (b.repr (WithLp.toLp 2 y))
  rw [hy] at h1 h2
  by_cases hr : ∑ i, olsResiduals x y i ^ 2 = 0
  · have hall : ∀ i, olsResiduals x y i = 0 := fun i =>
      pow_eq_zero_iff two_ne_zero |>.1 ((Finset.sum_eq_zero_iff_of_nonneg fun i _ => sq_nonneg _).1 hr i (Finset.mem_univ i))
    rw [durbinWatsonPValue]
    simp [hall, F.div, F.infSign]
  · have hzi : (b.repr (WithLp.toLp 2 y)) i ^ 2 ≠ 0 := by
      intro h; rw [h] at h2; exact hr (by rw [h2]; ring)
    have hst : durbinWatsonStat (olsResiduals x y) = lam i := by rw [h1, mul_div_assoc, div_self hzi, mul_one]
    rw [durbinWatsonPValue, F.div_fin _ hr]
    change twoSidedNormal (F.div (.fin |durbinWatsonStat (olsResiduals x y) - _|) _) = _
    rw [hst, hmean, hvar]
    simp [F.div, F.infSign, twoSidedNormal]

/-- Signals far from a line. -/
example : durbinWatsonPValue (m := 1) ![1, 2, 4] (olsResiduals ![1, 2, 4] ![3, -8, 100]) = .nan :=
  C177_violated ![1, 2, 4] ⟨0, 1, by norm_num⟩ _

/-- **C177, three observations of another line.**  With three observations the variance used by the test is zero for every design, so for residuals that
are not those of the least squares line (censored fit) the p-value is exactly 0 whenever the statistic differs from `dmean`. -/
theorem C177_three_partial (x : Fin 3 → ℝ) (hx : ∃ i j, x i ≠ x j) (r : Fin 3 → ℝ) (hr : ∃ i, r i ≠ 0)
    (h : durbinWatsonStat r ≠ dwMean (m := 1) x) : durbinWatsonPValue (m := 1) x r = .fin 0 := by
  obtain ⟨b, W, lam, tW, tP, tQ, -⟩ := dw_form (m := 1) x hx
  obtain ⟨i, rfl⟩ : ∃ i, W = {i} := Finset.card_eq_one.1 (by exact_mod_cast tW)
  simp only [Finset.sum_singleton] at tP tQ
  have hmean : dwMean (m := 1) x = lam i := by
    rw [dwMean, ← tP]; norm_num
  have hvar : dwVar (m := 1) x = 0 := by
    rw [dwVar, hmean, ← tP, ← tQ]; ring
  have hr2 : ∑ i, r i ^ 2 ≠ 0 := by
    obtain ⟨i, hi⟩ := hr
    exact (Finset.sum_pos' (fun i _ => sq_nonneg _) ⟨i, Finset.mem_univ _, by positivity⟩).ne'
  rw [durbinWatsonPValue, F.div_fin _ hr2]
  change twoSidedNormal (F.div (.fin |durbinWatsonStat r - dwMean (m := 1) x|) (.fin (Real.sqrt (dwVar (m := 1) x)))) = _
  have hpos : 0 < |durbinWatsonStat r - dwMean (m := 1) x| := abs_pos.2 (sub_ne_zero.2 h)
  rw [hvar, Real.sqrt_zero]
  generalize |durbinWatsonStat r - dwMean (m := 1) x| = d at hpos
  simp [F.div, F.infSign, twoSidedNormal, hpos, hpos.ne']

/-- Three residuals of the same sign: the statistic is 0, `dmean` is 3. -/
example : durbinWatsonPValue (m := 1) ![0, 1, 2] ![1, 1, 1] = .fin 0 := by
  refine C177_three_partial ![0, 1, 2] ⟨0, 1, by norm_num⟩ ![1, 1, 1] ⟨0, by norm_num⟩ ?_
  have hs : ∑ i, ((![0, 1, 2] : Fin 3 → ℝ) i - smean ![0, 1, 2]) ^ 2 ≠ 0 := (sxx_pos _ ⟨0, 1, by norm_num⟩).ne'
  rw [dwMean, dwP_eq (m := 1) _ hs]
  norm_num [durbinWatsonStat, vnRatio, smean, Fin.sum_univ_succ]

end Verif.Props
