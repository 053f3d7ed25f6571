import Verif.Props.HalfSize
import Verif.Props.PliDraw

/-!
# C197: the linear POD and a larger signal
-/

namespace Verif.Props
open Verif.Py Verif.Model Filter Topology

variable {n : ℕ}

/-- The Gaussian POD of `g + ε y` with threshold `ε det` is continuous in `ε` at 0. -/
theorem gauss_perturbed (x y g : Fin n → ℝ) (hx : ∃ i j, x i ≠ x j) (hg : 0 < linearStderr x g) (det a : ℝ) :
    Tendsto (fun ε : ℝ => gaussPodOf x (fun i => g i + ε * y i) (ε * det) a) (𝓝 0) (𝓝 (gaussPodOf x g 0 a)) := by
  have hsl : Continuous fun ε : ℝ => olsSlope x (fun i => g i + ε * y i) := by
    simp only [olsSlope, smean]; fun_prop
  have hint : Continuous fun ε : ℝ => olsIntercept x (fun i => g i + ε * y i) := by
    simp only [olsIntercept, smean]; fun_prop
  have hse : Continuous fun ε : ℝ => linearStderr x (fun i => g i + ε * y i) := by
    simp only [linearStderr, linearScale, olsResiduals]; fun_prop
  have hg0 : (fun i => g i + 0 * y i) = g := by funext i; ring
  have hL : 0 < 1 + (1 / (n : ℝ) + (a - smean x) ^ 2 / ∑ i, (x i - smean x) ^ 2) := by
    have := sxx_pos x hx
    positivity
  have hv : Continuous fun ε : ℝ => Real.sqrt (predictionVariance x (linearStderr x (fun i => g i + ε * y i)) a) := by
    simp only [predictionVariance_eq x _ a hx]
    exact Real.continuous_sqrt.comp ((hse.pow 2).mul continuous_const)
  have hv0 : Real.sqrt (predictionVariance x (linearStderr x (fun i => g i + 0 * y i)) a) ≠ 0 := by
    rw [hg0, predictionVariance_eq x _ a hx]
    exact (Real.sqrt_pos.2 (mul_pos (pow_pos hg 2) hL)).ne'
  have hnum : Continuous fun ε : ℝ => ε * det - (olsIntercept x (fun i => g i + ε * y i) + olsSlope x (fun i => g i + ε * y i) * a) := by
    fun_prop
  have hq : ContinuousAt (fun ε : ℝ => gaussPodOf x (fun i => g i + ε * y i) (ε * det) a) 0 := by
    simp only [gaussPodOf, podGauss, PhiC_eq]
    exact continuousAt_const.sub (Phi_continuous.continuousAt.comp (hnum.continuousAt.div hv.continuousAt hv0))
  have h := hq.tendsto
  simp only [zero_mul, add_zero] at h
  exact h

/-- **C197 is violated** by the Gaussian model.  Move the signals of any data set in a direction `g` that does not lie on a line (one signal alone, for
instance): the POD at every size tends to the POD of the direction alone with threshold 0, which depends neither on the data nor on the threshold. -/
theorem C197_violated_limit (x y g : Fin n → ℝ) (hx : ∃ i j, x i ≠ x j) (hg : 0 < linearStderr x g) (det a : ℝ) :
    Tendsto (fun t : ℝ => gaussPodOf x (fun i => y i + t * g i) det a) atTop (𝓝 (gaussPodOf x g 0 a)) := by
  have h := (gauss_perturbed x y g hx hg det a).comp tendsto_inv_atTop_zero
  refine h.congr' ?_
  filter_upwards [eventually_gt_atTop 0] with t ht
  have := C94_gauss_units x (fun i => y i + t * g i) hx 1 0 t⁻¹ 0 det a one_ne_zero (inv_pos.2 ht)
  simp only [one_mul, add_zero] at this
  rw [← this]
  simp only [Function.comp_apply]
  congr 1
  funext i
  field_simp
  ring

theorem gauss_lt_one (x y : Fin n → ℝ) (det a : ℝ) : gaussPodOf x y det a < 1 := by
  simp only [gaussPodOf, podGauss, PhiC_eq]
  linarith [Phi_pos ((det - (olsIntercept x y + olsSlope x y * a)) / Real.sqrt (predictionVariance x (linearStderr x y) a))]

/-- Changing one signal alone is not a change along a line when the other sizes are not all equal. -/
theorem pulse_stderr (x : Fin n → ℝ) (i : Fin n) (hx : ∃ j k, j ≠ i ∧ k ≠ i ∧ x j ≠ x k) : 0 < linearStderr x (Pi.single i 1) := by
  classical
  obtain ⟨j, k, hj, hk, hjk⟩ := hx
  have hn : 2 < n := by
    have h3 : ({i, j, k} : Finset (Fin n)).card = 3 := by
      rw [Finset.card_eq_three]
      exact ⟨i, j, k, hj.symm, hk.symm, fun h => hjk (by rw [h]), rfl⟩
    have := Finset.card_le_univ ({i, j, k} : Finset (Fin n))
    rw [h3, Fintype.card_fin] at this
    omega
  have hN : (0 : ℝ) < (n : ℝ) - 2 := by
    have : (2 : ℝ) < n := by exact_mod_cast hn
    linarith
  rw [linearStderr, Real.sqrt_pos, linearScale]
  refine div_pos ?_ hN
  by_contra hle
  have h0 : ∑ l, olsResiduals x (Pi.single i 1) l ^ 2 = 0 := le_antisymm (not_lt.1 hle) (Finset.sum_nonneg fun l _ => sq_nonneg _)
  rw [Finset.sum_eq_zero_iff_of_nonneg fun l _ => sq_nonneg _] at h0
  have hr : ∀ l, olsResiduals x (Pi.single i 1) l = 0 := fun l => pow_eq_zero_iff two_ne_zero |>.1 (h0 l (Finset.mem_univ _))
  have r1 := hr i
  have r2 := hr j
  have r3 := hr k
  simp only [olsResiduals, Pi.single_eq_same, Pi.single_eq_of_ne hj, Pi.single_eq_of_ne hk] at r1 r2 r3
  have hs : olsSlope x (Pi.single i 1) * (x j - x k) = 0 := by linarith
  have hs0 := (mul_eq_zero.1 hs).resolve_right (sub_ne_zero.2 hjk)
  rw [hs0] at r1 r2
  linarith

/-- **C197 is violated.**  For every data set with residuals, every observation and every size there is a threshold below which a larger value of this one
signal lowers the POD. -/
theorem C197_violated (x y : Fin n → ℝ) (i : Fin n) (hx : ∃ j k, j ≠ i ∧ k ≠ i ∧ x j ≠ x k) (hy : 0 < linearStderr x y) (a : ℝ) :
    ∃ det0, ∀ det ≤ det0, ∃ t > 0, gaussPodOf x (fun l => y l + t * (Pi.single i 1 : Fin n → ℝ) l) det a < gaussPodOf x y det a := by
  have hx' : ∃ i j, x i ≠ x j := by obtain ⟨j, k, -, -, h⟩ := hx; exact ⟨j, k, h⟩
  set L := gaussPodOf x (Pi.single i 1) 0 a with hL
  have hL1 : L < 1 := gauss_lt_one x _ 0 a
  have hL0 : 0 < L := by
    rw [hL]
    simp only [gaussPodOf, podGauss, PhiC_eq]
    linarith [Phi_lt_one ((0 - (olsIntercept x (Pi.single i 1) + olsSlope x (Pi.single i 1) * a))
      / Real.sqrt (predictionVariance x (linearStderr x (Pi.single i 1)) a))]
  obtain ⟨z, hz⟩ := Phi_surj (p := (1 + L) / 2) (by linarith) (by linarith)
  have hlev : 0 < 1 + (1 / (n : ℝ) + (a - smean x) ^ 2 / ∑ i, (x i - smean x) ^ 2) := by
    have := sxx_pos x hx'
    positivity
  set v := Real.sqrt (predictionVariance x (linearStderr x y) a) with hv
  have hv0 : 0 < v := by
    rw [hv, predictionVariance_eq x _ a hx']
    exact Real.sqrt_pos.2 (mul_pos (pow_pos hy 2) hlev)
  refine ⟨olsIntercept x y + olsSlope x y * a - z * v, fun det hdet => ?_⟩
  have hbig : (1 + L) / 2 ≤ gaussPodOf x y det a := by
    simp only [gaussPodOf, podGauss, PhiC_eq, ← hv]
    rw [← Phi_neg, ← hz]
    refine Phi_strictMono.monotone ?_
    rw [← neg_div, le_div_iff₀ hv0]
    linarith
  have hlim := C197_violated_limit x y (Pi.single i 1) hx' (pulse_stderr x i hx) det a
  obtain ⟨t, h1, h2⟩ := ((hlim.eventually (gt_mem_nhds (show L < (1 + L) / 2 by linarith))).and (eventually_gt_atTop 0)).exists
  exact ⟨t, h2, h1.trans_le hbig⟩

/-- **C197 (restricted).**  Raising the signals along a line (all by the same amount, for instance) that is not negative at the size `a` never lowers the
POD at `a`, in the Gaussian and in the binomial model. -/
theorem C197_line_partial (x y : Fin n → ℝ) (hx : ∃ i j, x i ≠ x j) (c0 c1 det a : ℝ) (hc : 0 ≤ c0 + c1 * a) :
    gaussPodOf x y det a ≤ gaussPodOf x (fun i => c0 + c1 * x i + y i) det a ∧
    binomialPodOf x y det a ≤ binomialPodOf x (fun i => c0 + c1 * x i + y i) det a := by
  have hn : 0 < n := by obtain ⟨i, -⟩ := hx; exact i.pos
  have hN : (0 : ℝ) < n := by exact_mod_cast hn
  have hS := (sxx_pos x hx).ne'
  obtain ⟨h1, h2⟩ := fit_scaled x y c0 c1 1 a hn hS
  simp only [one_mul] at h1 h2
  have hs : linearStderr x (fun i => c0 + c1 * x i + y i) = linearStderr x y := by
    simp only [linearStderr, linearScale, h2]
  constructor
  · simp only [gaussPodOf, podGauss, PhiC_eq]
    rw [hs, h1]
    have hd : (det - (c0 + c1 * a + (olsIntercept x y + olsSlope x y * a))) / Real.sqrt (predictionVariance x (linearStderr x y) a)
        ≤ (det - (olsIntercept x y + olsSlope x y * a)) / Real.sqrt (predictionVariance x (linearStderr x y) a) :=
      div_le_div_of_nonneg_right (by linarith) (Real.sqrt_nonneg _)
    linarith [Phi_strictMono.monotone hd]
  · rw [binomial_shifted, binomial_shifted]
    refine div_le_div_of_nonneg_right (Finset.sum_le_sum fun i _ => ?_) hN.le
    have hsl : olsSlope x (fun i => c0 + c1 * x i + y i) = c1 + olsSlope x y := by rw [slope_error x y c0 c1 hn hS]; rfl
    rw [hsl]
    by_cases hd : det < y i + olsSlope x y * (a - x i)
    · rw [if_pos hd, if_pos (by linarith)]
    · rw [if_neg hd]; split <;> norm_num

/-- Sizes 0, 1, 2, 3 with signals 0, 2, 2, 4: making the last signal (the largest one) larger lowers the POD at size 2 for all small thresholds. -/
example : ∃ det0, ∀ det ≤ det0, ∃ t > 0, gaussPodOf ![0, 1, 2, 3] (fun l => (![0, 2, 2, 4] : Fin 4 → ℝ) l + t * (Pi.single 3 1 : Fin 4 → ℝ) l) det 2
    < gaussPodOf ![0, 1, 2, 3] ![0, 2, 2, 4] det 2 := by
  refine C197_violated _ _ 3 ⟨0, 1, by decide, by decide, by simp⟩ ?_ 2
  rw [linearStderr, Real.sqrt_pos, linearScale]
  refine div_pos ?_ (by norm_num)
  have e1 : (![0, 1, 2, 3] : Fin 4 → ℝ) 2 = 2 := rfl
  have e2 : (![0, 1, 2, 3] : Fin 4 → ℝ) 3 = 3 := rfl
  have e3 : (![0, 2, 2, 4] : Fin 4 → ℝ) 2 = 2 := rfl
  have e4 : (![0, 2, 2, 4] : Fin 4 → ℝ) 3 = 4 := rfl
  simp only [olsResiduals, olsIntercept, olsSlope, smean, Fin.sum_univ_four, e1, e2, e3, e4]
  norm_num

end Verif.Props
