import Verif.Model.Tests
import Verif.Props.ResidualVar
import Verif.Props.DwFormula

/-!
# C136: the hypothesis tests do not depend on the units of measurement
-/

namespace Verif.Props
open Verif.Py Verif.Model Matrix

variable {n m : ℕ}

theorem fdiv_scale {a b s : ℝ} (hs : 0 < s) : F.div (.fin (s * a)) (.fin (s * b)) = F.div (.fin a) (.fin b) := by
  simp only [F.div, mul_eq_zero, hs.ne', false_or]
  split
  · simp only [F.infSign, mul_eq_zero, hs.ne', false_or, mul_pos_iff_of_pos_left hs]
  · rw [mul_div_mul_left _ _ hs.ne']

theorem sum_sq_scale {ι : Type} (S : Finset ι) (r : ι → ℝ) (c : ℝ) : ∑ i ∈ S, (c * r i) ^ 2 = c ^ 2 * ∑ i ∈ S, r i ^ 2 := by
  rw [Finset.mul_sum]; exact Finset.sum_congr rfl fun i _ => by ring

theorem smean_scale (r : Fin n → ℝ) (c : ℝ) : smean (fun i => c * r i) = c * smean r := by
  rw [smean, smean, ← Finset.mul_sum, mul_div_assoc]

theorem svar_scale (r : Fin n → ℝ) (c : ℝ) : svar (fun i => c * r i) = c ^ 2 * svar r := by
  have : ∀ i, c * r i - c * smean r = c * (r i - smean r) := fun i => by ring
  simp only [svar, smean_scale, this]
  rw [sum_sq_scale, mul_div_assoc]

theorem hmcRatio_scale (bp : ℕ) (r : Fin n → ℝ) {c : ℝ} (hc : c ≠ 0) : hmcRatio bp (fun i => c * r i) = hmcRatio bp r := by
  rw [hmcRatio, hmcRatio, sum_sq_scale, sum_sq_scale, fdiv_scale (by positivity)]

theorem residProj_affine (x : Fin (m + 2) → ℝ) {k : ℝ} (hk : k ≠ 0) (t : ℝ) : residProj (fun i => k * x i + t) = residProj x := by
  have hX : dwX (fun i => k * x i + t) = dwX x * !![1, t; 0, k] := by
    ext i j
    fin_cases j <;> simp [dwX, Matrix.mul_apply, Fin.sum_univ_two] <;> ring
  have hA : IsUnit (!![1, t; 0, k] : Matrix (Fin 2) (Fin 2) ℝ).det := by rw [Matrix.det_fin_two_of]; simpa using hk
  rw [residProj, residProj, hX]
  congr 1
  set A := (!![1, t; 0, k] : Matrix (Fin 2) (Fin 2) ℝ)
  set X := dwX x
  have hAt : IsUnit (Aᵀ).det := by rwa [Matrix.det_transpose]
  have h : ((X * A)ᵀ * (X * A)) = Aᵀ * (Xᵀ * X) * A := by simp only [Matrix.transpose_mul, Matrix.mul_assoc]
  rw [h, Matrix.mul_inv_rev, Matrix.mul_inv_rev, Matrix.transpose_mul]
  calc X * A * (A⁻¹ * ((Xᵀ * X)⁻¹ * (Aᵀ)⁻¹)) * (Aᵀ * Xᵀ)
      = X * (A * A⁻¹) * (Xᵀ * X)⁻¹ * ((Aᵀ)⁻¹ * Aᵀ) * Xᵀ := by simp only [Matrix.mul_assoc]
    _ = X * (Xᵀ * X)⁻¹ * Xᵀ := by
      rw [Matrix.mul_nonsing_inv _ hA, Matrix.nonsing_inv_mul _ hAt, Matrix.mul_one, Matrix.mul_one]

/-- The test environment treats a sample and its multiples by a positive number alike: the normality tests estimate the scale, and the Kolmogorov
test compares the sample with a law that is rescaled with it. -/
structure ScaleFree (env : TestEnv n) : Prop where
  ad : ∀ (r : Fin n → ℝ) (c : ℝ), 0 < c → env.andersonDarling (fun i => c * r i) = env.andersonDarling r
  cvm : ∀ (r : Fin n → ℝ) (c : ℝ), 0 < c → env.cramerVonMises (fun i => c * r i) = env.cramerVonMises r
  kol : ∀ (r : Fin n → ℝ) (G : ℝ → ℝ) (c : ℝ), 0 < c → env.kolmogorov (fun i => c * r i) (fun s => G (s / c)) = env.kolmogorov r G

/-- **C136.**  Whatever the units of measurement of the defects and of the signals (any affine change of the defect scale, any increasing affine
change of the signal scale), the analysis reports the same R2 and the same p-values, or fails in the same way. -/
theorem C136_units (env : TestEnv (m + 2)) (henv : ScaleFree env) (x y : Fin (m + 2) → ℝ) (G : ℝ → ℝ) (k t c e : ℝ) (hk : k ≠ 0)
    (hc : 0 < c) :
    computeTests env (fun i => k * x i + t) (fun i => c * y i + e)
        (olsResiduals (fun i => k * x i + t) (fun i => c * y i + e)) (fun s => G (s / c))
      = computeTests env x y (olsResiduals x y) G := by
  have hn : m + 2 ≠ 0 := by omega
  rw [resid_affine x y k t c e hn hk]
  set r := olsResiduals x y
  have h2 : 0 < c ^ 2 := by positivity
  have hR2 : computeR2 (fun i => c * y i + e) (fun i => c * r i) = computeR2 y r := by
    have : (fun i => c * y i + e - smean (fun i => c * y i + e)) = fun i => c * (y i - smean y) := by
      funext i; rw [smean_affine hn]; ring
    simp only [computeR2, this, svar_scale, mul_eq_zero, h2.ne', false_or, mul_div_mul_left _ _ h2.ne']
  have hz : zeroMeanPValue env.pStudent (fun i => c * r i) = zeroMeanPValue env.pStudent r := by
    have : Real.sqrt (c ^ 2 * svar r / (m + 2 : ℕ)) = c * Real.sqrt (svar r / (m + 2 : ℕ)) := by
      rw [mul_div_assoc, Real.sqrt_mul h2.le, Real.sqrt_sq hc.le]
    rw [zeroMeanPValue, zeroMeanPValue, smean_scale, svar_scale, this, fdiv_scale hc]
  have hb : breuschPaganPValue env.pChiSquare (fun i => k * x i + t) (fun i => c * r i) = breuschPaganPValue env.pChiSquare x r := by
    set w : Fin (m + 2) → ℝ := fun i => r i ^ 2 - (∑ i, r i ^ 2) / (m + 2 : ℕ) with hwd
    have hw : (fun i => (c * r i) ^ 2 - (∑ i, (c * r i) ^ 2) / (m + 2 : ℕ)) = fun i => c ^ 2 * w i + 0 := by
      funext i; rw [sum_sq_scale, hwd]; ring
    have hl := fun a => line_affine x w k t (c ^ 2) 0 hn hk a
    have h3 : ∑ i, (c ^ 2 * w i + 0) ^ 2 = (c ^ 2) ^ 2 * ∑ i, w i ^ 2 := by
      rw [← sum_sq_scale]; simp only [add_zero]
    have h4 : ∑ i, (c ^ 2 * (olsIntercept x w + olsSlope x w * x i) + 0) ^ 2
        = (c ^ 2) ^ 2 * ∑ i, (olsIntercept x w + olsSlope x w * x i) ^ 2 := by
      rw [← sum_sq_scale]; simp only [add_zero]
    have h5 : ∀ i, (c * r i) ^ 2 - (∑ i, (c * r i) ^ 2) / (m + 2 : ℕ) = c ^ 2 * w i + 0 := fun i => congrFun hw i
    unfold breuschPaganPValue
    simp only [h5, hl, h3, h4]
    rw [mul_left_comm, fdiv_scale (by positivity)]
  have hh : harrisonMcCabePValue env.sims (fun i => c * r i) = harrisonMcCabePValue env.sims r := by
    simp only [harrisonMcCabePValue, hmcRatio_scale _ _ hc.ne']
  have hd : durbinWatsonPValue (fun i => k * x i + t) (fun i => c * r i) = durbinWatsonPValue x r := by
    have h1 : ∀ i : Fin (m + 1), c * r i.succ - c * r i.castSucc = c * (r i.succ - r i.castSucc) := fun i => by ring
    have hm := C11_moments (fun i => k * x i + t)
    rw [residProj_affine x hk] at hm
    have hm' := C11_moments x
    simp only [durbinWatsonPValue, h1, sum_sq_scale, fdiv_scale h2, hm.1, hm.2, hm'.1, hm'.2]
  simp only [computeTests, hR2, hz, hb, hh, hd, henv.ad _ _ hc, henv.cvm _ _ hc, henv.kol _ _ _ hc]

/-- A test environment that is scale free and not constant: p-values computed from the ratio of the largest deviation to the standard deviation, and
from the number of residuals below the median of the law. -/
noncomputable def ratioEnv (n : ℕ) : TestEnv n where
  andersonDarling r := F.div (.fin (smean r)) (.fin (Real.sqrt (svar r)))
  cramerVonMises r := F.div (.fin (smean r)) (.fin (Real.sqrt (svar r)))
  kolmogorov r G := .fin (∑ i, G (r i))
  pStudent _ x := x
  pChiSquare x := x
  sims := [fun i => (i : ℝ), fun i => (i : ℝ) ^ 2 - 1]

theorem ratioEnv_scaleFree (n : ℕ) : ScaleFree (ratioEnv n) := by
  have h : ∀ (r : Fin n → ℝ) (c : ℝ), 0 < c →
      F.div (.fin (smean fun i => c * r i)) (.fin (Real.sqrt (svar fun i => c * r i))) = F.div (.fin (smean r)) (.fin (Real.sqrt (svar r))) := by
    intro r c hc
    rw [smean_scale, svar_scale, Real.sqrt_mul (by positivity), Real.sqrt_sq hc.le, fdiv_scale hc]
  refine ⟨h, h, fun r G c hc => ?_⟩
  simp only [ratioEnv, mul_div_cancel_left₀ _ hc.ne']

/-- **C136, entries.**  When there are at least three observations and the variance `dvar` is not zero, when the signals are not constant, the residuals not all zero and their squares not all equal, and no simulated sample is zero,
every entry of the dictionary is the value of its own test: the entries are not mixed up and no NaN is produced. -/
theorem C136_entries (env : TestEnv (m + 2)) (x y r : Fin (m + 2) → ℝ) (G : ℝ → ℝ)
    (hm : m ≠ 0) (hd : 0 < dwVar x) (hy : (svar fun i => y i - smean y) ≠ 0) (hv : 0 < svar r)
    (hw : ∑ i, (r i ^ 2 - (∑ l, r l ^ 2) / (m + 2 : ℕ)) ^ 2 ≠ 0) (hr : ∑ i, r i ^ 2 ≠ 0) (hN : env.sims ≠ [])
    (hs : ∀ s ∈ env.sims, ∑ i, s i ^ 2 ≠ 0) (q : ℕ → ℝ → ℝ) (hq : ∀ n t, env.pStudent n (.fin t) = .fin (q n t)) :
    ∃ t, computeTests env x y r G = .ok t ∧
      t.R2 = .fin (1 - svar r / svar fun i => y i - smean y) ∧
      t.andersonDarling = env.andersonDarling r ∧ t.cramerVonMises = env.cramerVonMises r ∧ t.kolmogorov = env.kolmogorov r G ∧
      t.zeroMean = .fin (computeZeroMeanTest q r) ∧
      t.breuschPagan = F.sub (.fin 1) (env.pChiSquare (.fin (breuschPaganStat x r))) ∧
      t.harrisonMcCabe = .fin (harrisonMcCabeTest r (1 / 2) env.sims) ∧
      t.durbinWatson = .fin (computeDurbinWatsonTest x r .equal) := by
  have hn : (0 : ℝ) < ((m + 2 : ℕ) : ℝ) := by positivity
  have hR : computeR2 y r = .ok (1 - svar r / svar fun i => y i - smean y) := by
    rw [computeR2]; simp only [hy, if_false]
  refine ⟨_, by rw [computeTests, hR]; exact if_neg hm, rfl, rfl, rfl, rfl, ?_, ?_, ?_, ?_⟩
  · have : Real.sqrt (svar r / (m + 2 : ℕ)) ≠ 0 := (Real.sqrt_pos.mpr (div_pos hv hn)).ne'
    change zeroMeanPValue env.pStudent r = _
    rw [zeroMeanPValue, F.div_fin _ this, negAbs, hq, F.mul_fin, computeZeroMeanTest]
  · change breuschPaganPValue env.pChiSquare x r = _
    simp only [breuschPaganPValue, breuschPaganStat, F.div_fin _ hw]
  · change harrisonMcCabePValue env.sims r = _
    have hfin : ∀ s : Fin (m + 2) → ℝ, ∑ i, s i ^ 2 ≠ 0 → ∀ bp, hmcRatio bp s = .fin (harrisonMcCabeStat bp s) := fun s h bp => by
      rw [hmcRatio, F.div_fin _ h, harrisonMcCabeStat]
    have hL : (env.sims.length : ℝ) ≠ 0 := by simpa using hN
    simp only [harrisonMcCabePValue, harrisonMcCabeTest]
    rw [F.div_fin _ hL, List.countP_map, ← List.countP_eq_length_filter, List.countP_map, hfin r hr]
    congr 3
    refine List.countP_congr fun s h => ?_
    simp only [Function.comp, hfin s (hs s h), F.le_fin]
  · change durbinWatsonPValue x r = _
    rw [durbinWatsonPValue, F.div_fin _ hr, computeDurbinWatsonTest, durbinWatsonStat]
    simp only [F.div_fin _ (Real.sqrt_pos.2 hd).ne', twoSidedNormal, dwPValue]

theorem dwVar_spaced : 0 < dwVar (m := 2) (![1, 2, 3, 4] : Fin 4 → ℝ) := by
  have hs : ∑ i, ((![1, 2, 3, 4] : Fin 4 → ℝ) i - smean ![1, 2, 3, 4]) ^ 2 = 5 := by
    simp [smean, Fin.sum_univ_four]; norm_num
  have h0 : ∑ i, ((![1, 2, 3, 4] : Fin 4 → ℝ) i - smean ![1, 2, 3, 4]) ^ 2 ≠ 0 := by rw [hs]; norm_num
  have h1 : vnRatio (m := 2) (![1, 2, 3, 4] : Fin 4 → ℝ) = 3 / 5 := by
    rw [vnRatio, hs]; simp [Fin.sum_univ_three]; norm_num
  have h2 : vnRatio2 (m := 2) (![1, 2, 3, 4] : Fin 4 → ℝ) = 2 / 5 := by
    rw [vnRatio2, hs]
    simp only [← dwB_one]
    simp [dwB, Fin.sum_univ_four]
    norm_num
  rw [dwVar, dwMean, dwP_eq _ h0, dwQ_eq _ h0, h1, h2]
  norm_num

example : ∃ t, computeTests { ratioEnv 4 with pStudent := fun _ x => x } ![1, 2, 3, 4] ![1, 2, 4, 8] ![1, -2, 0, 1] Phi = .ok t ∧
    t.harrisonMcCabe = .fin (harrisonMcCabeTest ![1, -2, 0, 1] (1 / 2) (ratioEnv 4).sims) := by
  obtain ⟨t, h, -, -, -, -, -, -, h2, -⟩ := C136_entries { ratioEnv 4 with pStudent := fun _ x => x } ![1, 2, 3, 4] ![1, 2, 4, 8] ![1, -2, 0, 1] Phi
    (by norm_num) dwVar_spaced (by simp [svar, smean, Fin.sum_univ_four]; norm_num) (by simp [svar, smean, Fin.sum_univ_four]; norm_num)
    (by simp [Fin.sum_univ_four]; norm_num) (by simp [Fin.sum_univ_four]; norm_num) (by simp [ratioEnv])
    (by
      intro s h
      simp only [ratioEnv, List.mem_cons, List.not_mem_nil, or_false] at h
      rcases h with rfl | rfl <;> simp [Fin.sum_univ_four] <;> norm_num)
    (fun _ t => t) (fun _ _ => rfl)
  exact ⟨t, h, h2⟩

/-- Inches to millimetres for the defects, millivolts to volts for the signals. -/
example : computeTests (ratioEnv 4) (fun i => 25.4 * (![1, 2, 4, 5] : Fin 4 → ℝ) i + 0) (fun i => (1 / 1000) * (![1, 3, 4, 9] : Fin 4 → ℝ) i + 0)
      (olsResiduals (fun i => 25.4 * (![1, 2, 4, 5] : Fin 4 → ℝ) i + 0) (fun i => (1 / 1000) * (![1, 3, 4, 9] : Fin 4 → ℝ) i + 0))
      (fun s => Phi (s / (1 / 1000)))
    = computeTests (ratioEnv 4) ![1, 2, 4, 5] ![1, 3, 4, 9] (olsResiduals ![1, 2, 4, 5] ![1, 3, 4, 9]) Phi :=
  C136_units (ratioEnv 4) (ratioEnv_scaleFree 4) ![1, 2, 4, 5] ![1, 3, 4, 9] Phi 25.4 0 (1 / 1000) 0 (by norm_num) (by norm_num)

end Verif.Props
