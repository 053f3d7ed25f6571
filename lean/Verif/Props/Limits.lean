import Verif.Props.GaussPOD
import Verif.Props.Binomial
import Verif.Props.PliDraw
import Verif.Props.Base
import Mathlib.Topology.Algebra.Order.Field

/-!
# C114: large defects are detected
-/

namespace Verif.Props
open Verif.Py Verif.Model Matrix MeasureTheory ProbabilityTheory Filter Topology

variable {n : ℕ}

theorem tendsto_Phi_top : Tendsto Phi atTop (𝓝 1) := tendsto_cdf_atTop _

theorem tendsto_Phi_bot : Tendsto Phi atBot (𝓝 0) := tendsto_cdf_atBot _

theorem tendsto_PhiC_top : Tendsto PhiC atTop (𝓝 0) := by
  have : PhiC = fun x => 1 - Phi x := funext PhiC_eq
  rw [this]
  simpa using tendsto_Phi_top.const_sub 1

theorem tendsto_PhiC_bot : Tendsto PhiC atBot (𝓝 1) := by
  have : PhiC = fun x => 1 - Phi x := funext PhiC_eq
  rw [this]
  simpa using tendsto_Phi_bot.const_sub 1

/-- Every level below one is reached and kept, and the curve vanishes for small sizes. -/
def ReachesAllLevels (pod : ℝ → ℝ) : Prop :=
  (∀ p < 1, ∃ a0, ∀ a, a0 ≤ a → p ≤ pod a) ∧ ∀ p, 0 < p → ∃ a0, ∀ a, a ≤ a0 → pod a ≤ p

theorem reaches_of_tendsto {pod : ℝ → ℝ} (h1 : Tendsto pod atTop (𝓝 1)) (h0 : Tendsto pod atBot (𝓝 0)) :
    ReachesAllLevels pod := by
  constructor
  · intro p hp
    obtain ⟨a0, ha⟩ := eventually_atTop.1 (h1.eventually_const_lt hp)
    exact ⟨a0, fun a h => (ha a h).le⟩
  · intro p hp
    obtain ⟨a0, ha⟩ := eventually_atBot.1 (h0.eventually_lt_const hp)
    exact ⟨a0, fun a h => (ha a h).le⟩

/-- **C114 (restricted), binomial.**  With a positive slope the binomial POD is exactly one from some size on, and exactly zero
below some size.  Missing: the Gaussian POD, see `C114_violated`. -/
theorem C114_binomial_partial {N : ℕ} (hN : 0 < N) (r : Fin N → ℝ) (det b0 b1 : ℝ) (hb : 0 < b1) :
    (∃ a0, ∀ a, a0 ≤ a → podBinomial (List.ofFn r) det (fun x => b0 + b1 * x) a = 1) ∧
    (∃ a0, ∀ a, a ≤ a0 → podBinomial (List.ofFn r) det (fun x => b0 + b1 * x) a = 0) ∧
    ReachesAllLevels (podBinomial (List.ofFn r) det fun x => b0 + b1 * x) := by
  have hne : (Finset.univ : Finset (Fin N)).Nonempty := ⟨⟨0, hN⟩, Finset.mem_univ _⟩
  have h1 : ∃ a0, ∀ a, a0 ≤ a → podBinomial (List.ofFn r) det (fun x => b0 + b1 * x) a = 1 := by
    obtain ⟨i, -, hi⟩ := Finset.exists_min_image Finset.univ r hne
    refine ⟨(det - b0 - r i + 1) / b1, fun a ha => ?_⟩
    rw [div_le_iff₀ hb] at ha
    have hall : (List.ofFn r).countP (fun v => decide (det - (b0 + b1 * a) < v)) = (List.ofFn r).length := by
      rw [List.countP_eq_length]
      intro v hv
      obtain ⟨j, rfl⟩ := (List.mem_ofFn' _ _).1 hv
      have := hi j (Finset.mem_univ _)
      rw [decide_eq_true_eq]; nlinarith
    rw [podBinomial, empiricalCCDF, hall, List.length_ofFn, div_self]
    exact_mod_cast hN.ne'
  have h0 : ∃ a0, ∀ a, a ≤ a0 → podBinomial (List.ofFn r) det (fun x => b0 + b1 * x) a = 0 := by
    obtain ⟨i, -, hi⟩ := Finset.exists_max_image Finset.univ r hne
    refine ⟨(det - b0 - r i) / b1, fun a ha => ?_⟩
    rw [le_div_iff₀ hb] at ha
    have hall : (List.ofFn r).countP (fun v => decide (det - (b0 + b1 * a) < v)) = 0 := by
      rw [List.countP_eq_zero]
      intro v hv
      obtain ⟨j, rfl⟩ := (List.mem_ofFn' _ _).1 hv
      have := hi j (Finset.mem_univ _)
      rw [decide_eq_true_eq]; nlinarith
    rw [podBinomial, empiricalCCDF, hall]; simp
  refine ⟨h1, h0, ?_, ?_⟩
  · intro p hp
    obtain ⟨a0, h⟩ := h1
    exact ⟨a0, fun a ha => by rw [h a ha]; exact hp.le⟩
  · intro p hp
    obtain ⟨a0, h⟩ := h0
    exact ⟨a0, fun a ha => by rw [h a ha]; exact hp.le⟩

/-- **C114 (restricted), simulated curves.**  A simulated Gaussian curve reaches all levels iff the drawn slope is positive; with a negative
drawn slope it goes to zero for large defects. -/
theorem C114_simulated_partial (b0 b1 det z0 z1 sigma : ℝ) (hs : 0 < sigma) :
    (ReachesAllLevels (gaussCurve b0 b1 det z0 z1 sigma) ↔ 0 < z1 * sigma + b1) ∧
    (z1 * sigma + b1 < 0 → Tendsto (gaussCurve b0 b1 det z0 z1 sigma) atTop (𝓝 0)) := by
  have hform : gaussCurve b0 b1 det z0 z1 sigma
      = fun x => PhiC ((det - (z0 * sigma + b0)) / sigma + -((z1 * sigma + b1) / sigma) * x) := by
    funext x
    rw [gaussCurve]; congr 1; field_simp; ring
  have hneg : z1 * sigma + b1 < 0 → Tendsto (gaussCurve b0 b1 det z0 z1 sigma) atTop (𝓝 0) := by
    intro h
    rw [hform]
    have hc : 0 < -((z1 * sigma + b1) / sigma) := by rw [← neg_div]; exact div_pos (by linarith) hs
    exact tendsto_PhiC_top.comp (tendsto_atTop_add_const_left _ _ (tendsto_id.const_mul_atTop hc))
  refine ⟨⟨fun h => ?_, fun h => ?_⟩, hneg⟩
  · by_contra hn
    rcases lt_or_eq_of_le (not_lt.1 hn) with h' | h'
    · obtain ⟨a0, ha⟩ := h.1 (1 / 2) (by norm_num)
      obtain ⟨a1, ha1⟩ := eventually_atTop.1 ((hneg h').eventually_lt_const (show (0 : ℝ) < 1 / 2 by norm_num))
      have := ha (max a0 a1) (le_max_left _ _)
      have := ha1 (max a0 a1) (le_max_right _ _)
      linarith
    · obtain ⟨a0, ha⟩ := h.2 (PhiC ((det - (z0 * sigma + b0)) / sigma) / 2) (by
        have := PhiC_pos ((det - (z0 * sigma + b0)) / sigma); linarith)
      have := ha a0 le_rfl
      rw [hform] at this
      simp only [h', zero_div, neg_zero, zero_mul, add_zero] at this
      have := PhiC_pos ((det - (z0 * sigma + b0)) / sigma)
      linarith
  · have hc : -((z1 * sigma + b1) / sigma) < 0 := by rw [neg_lt_zero]; exact div_pos h hs
    apply reaches_of_tendsto
    · rw [hform]
      exact tendsto_PhiC_bot.comp (tendsto_atBot_add_const_left _ _ (tendsto_id.const_mul_atTop_of_neg hc))
    · rw [hform]
      exact tendsto_PhiC_top.comp (tendsto_atTop_add_const_left _ _ (tendsto_id.const_mul_atBot_of_neg hc))

/-- Cauchy-Schwarz for the ratio of the Gaussian POD. -/
theorem ratio_le (k S m c a : ℝ) (hk : 0 < k) (hS : 0 < S) :
    (a - c) / Real.sqrt (k + (a - m) ^ 2 / S) ≤ Real.sqrt (S + (m - c) ^ 2 / k) := by
  have hq : 0 < k + (a - m) ^ 2 / S := by positivity
  rw [div_le_iff₀ (Real.sqrt_pos.2 hq), ← Real.sqrt_mul (by positivity)]
  apply Real.le_sqrt_of_sq_le
  have : (S + (m - c) ^ 2 / k) * (k + (a - m) ^ 2 / S) - (a - c) ^ 2 = (k * S - (a - m) * (m - c)) ^ 2 / (k * S) := by
    field_simp; ring
  have h2 : 0 ≤ (k * S - (a - m) * (m - c)) ^ 2 / (k * S) := by positivity
  linarith

/-- **C114 is violated by the Gaussian POD**: its values are bounded by a number below one, because the standard deviation of the
prediction grows with the defect as fast as the mean.  The detection size of a higher level does not exist in any interval:
`computeDetectionSize` raises. -/
theorem C114_violated (x : Fin n → ℝ) (hx : ∃ i j, x i ≠ x j) (s det b0 b1 : ℝ) (hs : 0 < s) (hb : 0 < b1) :
    let m := (∑ i, x i) / n
    let S := ∑ i, (x i - (∑ j, x j) / n) ^ 2
    let top := Phi (b1 / s * Real.sqrt (S + (m - (det - b0) / b1) ^ 2 / (1 + 1 / n)))
    let pod := podGauss x s det fun x => b0 + b1 * x
    top < 1 ∧ (∀ a, pod a ≤ top) ∧ ¬ ReachesAllLevels pod ∧
    ∀ p, top < p → ∀ solve dataMin dataMax cl c dmin dmax,
      Raises (computeDetectionSize solve dataMin dataMax pod cl (some p) c dmin dmax) .exception := by
  intro m S top pod
  have hS : 0 < S := sxx_pos x hx
  have hk : 0 < 1 + 1 / (n : ℝ) := by positivity
  have hle : ∀ a, pod a ≤ top := by
    intro a
    simp only [pod, top]
    rw [podGauss_ratio x hx s det b0 b1 a hs hb.ne']
    exact Phi_strictMono.monotone (mul_le_mul_of_nonneg_left (ratio_le _ S m _ a hk hS) (div_pos hb hs).le)
  have htop : top < 1 := Phi_lt_one _
  refine ⟨htop, hle, ?_, ?_⟩
  · rintro ⟨h, -⟩
    obtain ⟨a0, ha⟩ := h ((top + 1) / 2) (by linarith)
    have := ha a0 le_rfl
    have := hle a0
    linarith
  · intro p hp solve dataMin dataMax cl c dmin dmax
    unfold computeDetectionSize
    dsimp only
    rw [if_pos (fun h => by have := hle (dmax.getD dataMax); linarith [h.2])]
    exact ⟨_, rfl⟩

theorem ratio_tendsto (k S m c : ℝ) (hk : 0 < k) (hS : 0 < S) :
    Tendsto (fun a => (a - c) / Real.sqrt (k + (a - m) ^ 2 / S)) atTop (𝓝 (Real.sqrt S)) := by
  -- divide by a - m
  have h1 : Tendsto (fun a : ℝ => (a - m)⁻¹) atTop (𝓝 0) :=
    tendsto_inv_atTop_zero.comp (tendsto_atTop_add_const_right _ (-m) tendsto_id)
  have h2 : Tendsto (fun a : ℝ => (1 + (m - c) * (a - m)⁻¹) / Real.sqrt (k * (a - m)⁻¹ ^ 2 + 1 / S)) atTop
      (𝓝 ((1 + (m - c) * 0) / Real.sqrt (k * 0 ^ 2 + 1 / S))) := by
    apply Tendsto.div
    · exact (h1.const_mul _).const_add _
    · exact (((h1.pow 2).const_mul k).add_const _).sqrt
    · rw [Real.sqrt_ne_zero']; positivity
  have h3 : (1 + (m - c) * 0) / Real.sqrt (k * 0 ^ 2 + 1 / S) = Real.sqrt S := by
    simp [Real.sqrt_inv]
  rw [h3] at h2
  refine h2.congr' ?_
  filter_upwards [eventually_gt_atTop m] with a ha
  have hpos : 0 < a - m := by linarith
  have hq : k + (a - m) ^ 2 / S = (a - m) ^ 2 * (k * (a - m)⁻¹ ^ 2 + 1 / S) := by field_simp
  rw [hq, Real.sqrt_mul (sq_nonneg _), Real.sqrt_sq hpos.le, div_eq_div_iff]
  · field_simp; ring
  · rw [Real.sqrt_ne_zero']; positivity
  · apply mul_ne_zero hpos.ne'
    rw [Real.sqrt_ne_zero']; positivity

/-- **C114 (restricted), limit of the Gaussian POD.**  For large defects the Gaussian POD tends to `Φ(b1 √Sxx / s)`, which is
between 1/2 and 1: the level reached in the limit is fixed by the t-statistic of the slope, not by the size. -/
theorem C114_gauss_limit_partial (x : Fin n → ℝ) (hx : ∃ i j, x i ≠ x j) (s det b0 b1 : ℝ) (hs : 0 < s) (hb : 0 < b1) :
    let S := ∑ i, (x i - (∑ j, x j) / n) ^ 2
    Tendsto (podGauss x s det fun x => b0 + b1 * x) atTop (𝓝 (Phi (b1 / s * Real.sqrt S))) ∧
    1 / 2 < Phi (b1 / s * Real.sqrt S) ∧ Phi (b1 / s * Real.sqrt S) < 1 := by
  intro S
  have hS : 0 < S := sxx_pos x hx
  have hk : 0 < 1 + 1 / (n : ℝ) := by positivity
  refine ⟨?_, ?_, Phi_lt_one _⟩
  · have hform : (podGauss x s det fun x => b0 + b1 * x) = fun a => Phi ((b1 / s) * ((a - (det - b0) / b1) /
      Real.sqrt ((1 + 1 / n) + (a - smean x) ^ 2 / ∑ i, (x i - smean x) ^ 2))) :=
      funext fun a => podGauss_ratio x hx s det b0 b1 a hs hb.ne'
    rw [hform]
    exact (Phi_continuous.tendsto _).comp ((ratio_tendsto _ S _ _ hk hS).const_mul _)
  · rw [← Phi_zero]
    exact Phi_strictMono (mul_pos (div_pos hb hs) (Real.sqrt_pos.2 hS))

/-- Non-vacuity: three points. -/
example := C114_violated (fun i : Fin 3 => (i : ℝ)) ⟨0, 1, by norm_num⟩ 1 0 0 1 one_pos one_pos

end Verif.Props
