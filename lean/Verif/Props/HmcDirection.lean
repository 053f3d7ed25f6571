import Verif.Props.ThreeTests

/-!
# C258: the direction in which the Harrison-McCabe test looks (/repo/otpod/_math_tools.py 156-175)
-/

namespace Verif.Props
open Verif.Py Verif.Model Filter

variable {n : ℕ}

/-- Residuals of the first half multiplied by `s`, of the second half by `t` (the half sample is the one of the test: observations before `n / 2`). -/
def halvesScaled (s t : ℝ) (r : Fin n → ℝ) : Fin n → ℝ := fun i => if i.val < n / 2 then s * r i else t * r i

/-- Sums of squares of the two halves. -/
noncomputable def firstSq (r : Fin n → ℝ) : ℝ := ∑ i ∈ Finset.univ.filter (fun i : Fin n => i.val < n / 2), r i ^ 2
noncomputable def secondSq (r : Fin n → ℝ) : ℝ := ∑ i ∈ Finset.univ.filter (fun i : Fin n => ¬ i.val < n / 2), r i ^ 2

theorem hmcRatio_halves (r : Fin n → ℝ) : hmcRatio (n / 2) r = F.div (.fin (firstSq r)) (.fin (firstSq r + secondSq r)) := by
  rw [hmcRatio, firstSq, secondSq, Finset.sum_filter_add_sum_filter_not]

theorem firstSq_scaled (s t : ℝ) (r : Fin n → ℝ) : firstSq (halvesScaled s t r) = s ^ 2 * firstSq r := by
  rw [firstSq, firstSq, Finset.mul_sum]
  refine Finset.sum_congr rfl fun i hi => ?_
  rw [halvesScaled, if_pos (Finset.mem_filter.1 hi).2, mul_pow]

theorem secondSq_scaled (s t : ℝ) (r : Fin n → ℝ) : secondSq (halvesScaled s t r) = t ^ 2 * secondSq r := by
  rw [secondSq, secondSq, Finset.mul_sum]
  refine Finset.sum_congr rfl fun i hi => ?_
  rw [halvesScaled, if_neg (Finset.mem_filter.1 hi).2, mul_pow]

theorem firstSq_nonneg (r : Fin n → ℝ) : 0 ≤ firstSq r := Finset.sum_nonneg fun _ _ => sq_nonneg _
theorem secondSq_nonneg (r : Fin n → ℝ) : 0 ≤ secondSq r := Finset.sum_nonneg fun _ _ => sq_nonneg _

theorem firstSq_pos (r : Fin n → ℝ) (h : ∃ i, i.val < n / 2 ∧ r i ≠ 0) : 0 < firstSq r := by
  obtain ⟨i, hi, h0⟩ := h
  exact Finset.sum_pos' (fun _ _ => sq_nonneg _) ⟨i, Finset.mem_filter.2 ⟨Finset.mem_univ _, hi⟩, by positivity⟩

theorem secondSq_pos (r : Fin n → ℝ) (h : ∃ i, ¬ i.val < n / 2 ∧ r i ≠ 0) : 0 < secondSq r := by
  obtain ⟨i, hi, h0⟩ := h
  exact Finset.sum_pos' (fun _ _ => sq_nonneg _) ⟨i, Finset.mem_filter.2 ⟨Finset.mem_univ _, hi⟩, by positivity⟩

theorem list_eventually {A : Type} (l : List A) (P : A → ℝ → Prop) (h : ∀ a ∈ l, ∀ᶠ t in atTop, P a t) : ∀ᶠ t in atTop, ∀ a ∈ l, P a t := by
  induction l with
  | nil => exact Eventually.of_forall fun t a ha => absurd ha (by simp)
  | cons a l ih =>
    filter_upwards [h a (by simp), ih fun b hb => h b (List.mem_cons_of_mem _ hb)] with t h1 h2 b hb
    rcases List.mem_cons.1 hb with rfl | hb
    · exact h1
    · exact h2 b hb

/-- The p-value is the share of the simulated samples whose statistic does not exceed that of the residuals. -/
theorem hmc_count (sims : List (Fin n → ℝ)) (hN : sims ≠ []) (r : Fin n → ℝ) :
    harrisonMcCabePValue sims r = .fin (((sims.countP fun s => F.le (hmcRatio (n / 2) s) (hmcRatio (n / 2) r) : ℕ) : ℝ) / sims.length) := by
  have hL : (sims.length : ℝ) ≠ 0 := by simpa using hN
  simp only [harrisonMcCabePValue, breakPoint_half]
  rw [F.div_fin _ hL, List.countP_map]
  rfl

/-- **C258 is violated.**  Multiply the residuals of the first half by `t`: when `t` is large, a very unequal variance, the p-value is exactly 1, for all
residuals that are not zero on the first half and all simulated samples that are not zero on the second half. -/
theorem C258_violated (sims : List (Fin n → ℝ)) (hN : sims ≠ []) (hs : ∀ s ∈ sims, ∃ i, ¬ i.val < n / 2 ∧ s i ≠ 0) (r : Fin n → ℝ)
    (hr : ∃ i, i.val < n / 2 ∧ r i ≠ 0) : ∀ᶠ t in atTop, harrisonMcCabePValue sims (halvesScaled t 1 r) = .fin 1 := by
  have hA := firstSq_pos r hr
  have hB := secondSq_nonneg r
  have key : ∀ᶠ t : ℝ in atTop, ∀ s ∈ sims, F.le (hmcRatio (n / 2) s) (hmcRatio (n / 2) (halvesScaled t 1 r)) = true := by
    refine list_eventually sims _ fun s h => ?_
    have a := firstSq_nonneg s
    have b := secondSq_pos s (hs s h)
    filter_upwards [eventually_ge_atTop (1 : ℝ), eventually_ge_atTop (firstSq s * secondSq r / (firstSq r * secondSq s))] with t h1 h2
    have ht : t ≤ t ^ 2 := by nlinarith
    have h3 : firstSq s * secondSq r ≤ t ^ 2 * firstSq r * secondSq s := by
      rw [div_le_iff₀ (by positivity)] at h2
      calc firstSq s * secondSq r ≤ t * (firstSq r * secondSq s) := h2
        _ ≤ t ^ 2 * (firstSq r * secondSq s) := mul_le_mul_of_nonneg_right ht (by positivity)
        _ = _ := by ring
    have hpos : 0 < t ^ 2 * firstSq r := by positivity
    rw [hmcRatio_halves, hmcRatio_halves, firstSq_scaled, secondSq_scaled, F.div_fin _ (by positivity), F.div_fin _ (by positivity), F.le_fin,
      decide_eq_true_iff, div_le_div_iff₀ (by positivity) (by positivity)]
    nlinarith
  filter_upwards [key] with t ht
  have hL : (sims.length : ℝ) ≠ 0 := by simpa using hN
  rw [hmc_count sims hN, List.countP_eq_length.2 ht, div_self hL]

/-- **C258, restricted.**  Multiply the residuals of the second half by `t`: when `t` is large the p-value is exactly 0. -/
theorem C258_second_partial (sims : List (Fin n → ℝ)) (hN : sims ≠ []) (hs : ∀ s ∈ sims, ∃ i, i.val < n / 2 ∧ s i ≠ 0) (r : Fin n → ℝ)
    (hr : ∃ i, ¬ i.val < n / 2 ∧ r i ≠ 0) : ∀ᶠ t in atTop, harrisonMcCabePValue sims (halvesScaled 1 t r) = .fin 0 := by
  have hA := firstSq_nonneg r
  have hB := secondSq_pos r hr
  have key : ∀ᶠ t : ℝ in atTop, ∀ s ∈ sims, ¬ F.le (hmcRatio (n / 2) s) (hmcRatio (n / 2) (halvesScaled 1 t r)) = true := by
    refine list_eventually sims _ fun s h => ?_
    have a := firstSq_pos s (hs s h)
    have b := secondSq_nonneg s
    filter_upwards [eventually_ge_atTop (1 : ℝ), eventually_gt_atTop (firstSq r * secondSq s / (secondSq r * firstSq s))] with t h1 h2
    have ht : t ≤ t ^ 2 := by nlinarith
    have h3 : firstSq r * secondSq s < t ^ 2 * secondSq r * firstSq s := by
      rw [div_lt_iff₀ (by positivity)] at h2
      calc firstSq r * secondSq s < t * (secondSq r * firstSq s) := h2
        _ ≤ t ^ 2 * (secondSq r * firstSq s) := mul_le_mul_of_nonneg_right ht (by positivity)
        _ = _ := by ring
    have hpos : 0 < t ^ 2 * secondSq r := by positivity
    rw [hmcRatio_halves, hmcRatio_halves, firstSq_scaled, secondSq_scaled, F.div_fin _ (by positivity), F.div_fin _ (by positivity), F.le_fin,
      decide_eq_true_iff, div_le_div_iff₀ (by positivity) (by positivity)]
    nlinarith
  filter_upwards [key] with t ht
  rw [hmc_count sims hN, List.countP_eq_zero.2 ht, Nat.cast_zero, zero_div]

/-- **C258, restricted.**  The p-value does not increase with the factor of the second half and does not decrease with that of the first half. -/
theorem C258_monotone_partial (sims : List (Fin n → ℝ)) (hN : sims ≠ []) (hs : ∀ s ∈ sims, ∃ i, s i ≠ 0) (r : Fin n → ℝ) (h1 : ∃ i, i.val < n / 2 ∧ r i ≠ 0)
    (t u : ℝ) (h0 : 0 < t) (htu : t ≤ u) :
    ∃ p q p' q', harrisonMcCabePValue sims (halvesScaled 1 t r) = .fin p ∧ harrisonMcCabePValue sims (halvesScaled 1 u r) = .fin q ∧
      harrisonMcCabePValue sims (halvesScaled t 1 r) = .fin p' ∧ harrisonMcCabePValue sims (halvesScaled u 1 r) = .fin q' ∧ q ≤ p ∧ p' ≤ q' := by
  have hA := firstSq_pos r h1
  have hB := secondSq_nonneg r
  have hu : 0 < u := h0.trans_le htu
  have hsq : t ^ 2 ≤ u ^ 2 := by nlinarith
  have mono : ∀ r1 r2 : Fin n → ℝ, 0 < firstSq r1 → 0 < firstSq r2 → firstSq r1 * secondSq r2 ≤ firstSq r2 * secondSq r1 →
      ((sims.countP fun s => F.le (hmcRatio (n / 2) s) (hmcRatio (n / 2) r1) : ℕ) : ℝ) / sims.length
        ≤ ((sims.countP fun s => F.le (hmcRatio (n / 2) s) (hmcRatio (n / 2) r2) : ℕ) : ℝ) / sims.length := by
    intro r1 r2 p1 p2 h
    have b1 := secondSq_nonneg r1
    have b2 := secondSq_nonneg r2
    refine div_le_div_of_nonneg_right (Nat.cast_le.2 ?_) (by positivity)
    refine List.countP_mono_left fun s hsm hle => ?_
    have hden : firstSq s + secondSq s ≠ 0 := by
      obtain ⟨i, hi⟩ := hs s hsm
      have : 0 < firstSq s + secondSq s := by
        by_cases hlt : i.val < n / 2
        · exact add_pos_of_pos_of_nonneg (firstSq_pos s ⟨i, hlt, hi⟩) (secondSq_nonneg s)
        · exact add_pos_of_nonneg_of_pos (firstSq_nonneg s) (secondSq_pos s ⟨i, hlt, hi⟩)
      exact this.ne'
    rw [hmcRatio_halves s, hmcRatio_halves r1, F.div_fin _ hden, F.div_fin _ (by positivity), F.le_fin, decide_eq_true_iff] at hle
    rw [hmcRatio_halves s, hmcRatio_halves r2, F.div_fin _ hden, F.div_fin _ (by positivity), F.le_fin, decide_eq_true_iff]
    refine hle.trans ?_
    rw [div_le_div_iff₀ (by positivity) (by positivity)]
    nlinarith
  refine ⟨_, _, _, _, hmc_count sims hN _, hmc_count sims hN _, hmc_count sims hN _, hmc_count sims hN _, mono _ _ ?_ ?_ ?_, mono _ _ ?_ ?_ ?_⟩
  · rw [firstSq_scaled]; positivity
  · rw [firstSq_scaled]; positivity
  · simp only [firstSq_scaled, secondSq_scaled]
    have := mul_le_mul_of_nonneg_right hsq (mul_nonneg hA.le hB)
    nlinarith
  · rw [firstSq_scaled]; positivity
  · rw [firstSq_scaled]; positivity
  · simp only [firstSq_scaled, secondSq_scaled]
    have := mul_le_mul_of_nonneg_right hsq (mul_nonneg hA.le hB)
    nlinarith

/-- Four residuals and two simulated samples. -/
example : (∀ᶠ t in atTop, harrisonMcCabePValue [![1, 2, -1, 0.5], ![-3, 1, 1, 1]] (halvesScaled t 1 ![1, -1, 1, -1]) = .fin 1) ∧
    ∀ᶠ t in atTop, harrisonMcCabePValue [![1, 2, -1, 0.5], ![-3, 1, 1, 1]] (halvesScaled 1 t ![1, -1, 1, -1]) = .fin 0 := by
  refine ⟨C258_violated _ (by simp) ?_ _ ⟨0, by norm_num, by norm_num⟩, C258_second_partial _ (by simp) ?_ _ ⟨2, by norm_num, by simp⟩⟩
  · intro s h
    simp only [List.mem_cons, List.not_mem_nil, or_false] at h
    rcases h with rfl | rfl <;> exact ⟨2, by norm_num, by simp⟩
  · intro s h
    simp only [List.mem_cons, List.not_mem_nil, or_false] at h
    rcases h with rfl | rfl <;> exact ⟨0, by norm_num, by simp⟩

end Verif.Props
