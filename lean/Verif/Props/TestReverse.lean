import Verif.Props.HmcDirection
import Verif.Props.DwFormula

/-!
# C259: reading the data file backwards (/repo/otpod/_univariate_linear_model_analysis.py 295-341)
-/

namespace Verif.Props
open Verif.Py Verif.Model

variable {n m : ℕ}

/-- Contract of the tests of OpenTURNS: they do not depend on the order of the sample. -/
structure OrderlessTests (env : TestEnv n) : Prop where
  ad : ∀ (r : Fin n → ℝ) (e : Equiv.Perm (Fin n)), env.andersonDarling (fun i => r (e i)) = env.andersonDarling r
  cvm : ∀ (r : Fin n → ℝ) (e : Equiv.Perm (Fin n)), env.cramerVonMises (fun i => r (e i)) = env.cramerVonMises r
  kol : ∀ (r : Fin n → ℝ) (G : ℝ → ℝ) (e : Equiv.Perm (Fin n)), env.kolmogorov (fun i => r (e i)) G = env.kolmogorov r G

theorem smean_perm' (r : Fin n → ℝ) (e : Equiv.Perm (Fin n)) : (smean fun i => r (e i)) = smean r := by
  rw [smean, smean, Equiv.sum_comp e r]

theorem svar_perm' (r : Fin n → ℝ) (e : Equiv.Perm (Fin n)) : (svar fun i => r (e i)) = svar r := by
  rw [svar, svar, smean_perm', Equiv.sum_comp e fun i => (r i - smean r) ^ 2]

theorem olsSlope_perm' (x y : Fin n → ℝ) (e : Equiv.Perm (Fin n)) : olsSlope (fun i => x (e i)) (fun i => y (e i)) = olsSlope x y := by
  rw [olsSlope, olsSlope, smean_perm', smean_perm', Equiv.sum_comp e fun i => (x i - smean x) * (y i - smean y),
    Equiv.sum_comp e fun i => (x i - smean x) ^ 2]

theorem resid_perm' (x y : Fin n → ℝ) (e : Equiv.Perm (Fin n)) :
    olsResiduals (fun i => x (e i)) (fun i => y (e i)) = fun i => olsResiduals x y (e i) := by
  funext i
  rw [olsResiduals, olsIntercept, olsSlope_perm', smean_perm', smean_perm', olsResiduals, olsIntercept]

theorem normalFitCdf_perm (r : Fin n → ℝ) (e : Equiv.Perm (Fin n)) : (normalFitCdf fun i => r (e i)) = normalFitCdf r := by
  funext s
  rw [normalFitCdf, normalFitCdf, smean_perm', svar_perm']

/-! ## The moments of the Durbin-Watson statistic -/

theorem steps_rev (x : Fin (m + 2) → ℝ) : ∑ i : Fin (m + 1), (x i.succ.rev - x i.castSucc.rev) ^ 2 = ∑ i : Fin (m + 1), (x i.succ - x i.castSucc) ^ 2 := by
  rw [← Equiv.sum_comp Fin.revPerm fun i : Fin (m + 1) => (x i.succ - x i.castSucc) ^ 2]
  refine Finset.sum_congr rfl fun i _ => ?_
  rw [Fin.rev_succ, Fin.rev_castSucc, Fin.revPerm_apply]
  ring

theorem dwB_rev (x : Fin (m + 2) → ℝ) (i : Fin (m + 2)) : dwB (fun i => x i.rev) i 1 = dwB x i.rev 1 := by
  simp only [dwB, Matrix.of_apply, one_ne_zero, if_false]
  have hi := i.isLt
  have hr : i.rev.val = m + 1 - i.val := by rw [Fin.val_rev]; omega
  by_cases h0 : i.val = 0
  · have e1 : (0 : Fin (m + 2)).rev = Fin.last (m + 1) := Fin.rev_zero _
    have e2 : (1 : Fin (m + 2)).rev = ⟨m, by omega⟩ := by
      ext; rw [Fin.val_rev]; simp
    rw [dif_pos h0, dif_neg (by omega), dif_pos (by omega), e1, e2]
  · by_cases hl : i.val = m + 1
    · have e1 : (Fin.last (m + 1)).rev = 0 := Fin.rev_last _
      have e2 : (⟨m, by omega⟩ : Fin (m + 2)).rev = 1 := by
        ext; rw [Fin.val_rev]; simp
      rw [dif_neg h0, dif_pos hl, dif_pos (by omega), e1, e2]
    · rw [dif_neg h0, dif_neg hl, dif_neg (by omega), dif_neg (by omega)]
      have e1 : (⟨i.val - 1, by omega⟩ : Fin (m + 2)).rev = ⟨i.rev.val + 1, by omega⟩ := by
        ext; rw [Fin.val_rev]; simp only []; omega
      have e2 : (⟨i.val + 1, by omega⟩ : Fin (m + 2)).rev = ⟨i.rev.val - 1, by omega⟩ := by
        ext; rw [Fin.val_rev]; simp only []; omega
      rw [e1, e2]
      ring

theorem dw_moments_rev (x : Fin (m + 2) → ℝ) (hx : ∃ i j, x i ≠ x j) : dwMean (fun i => x i.rev) = dwMean x ∧ dwVar (fun i => x i.rev) = dwVar x := by
  have hs := (sxx_pos x hx).ne'
  have hm : (smean fun i => x i.rev) = smean x := smean_perm' x Fin.revPerm
  have hss : ∑ i : Fin (m + 2), (x i.rev - smean fun i => x i.rev) ^ 2 = ∑ i, (x i - smean x) ^ 2 := by
    rw [hm]; exact Equiv.sum_comp Fin.revPerm fun i => (x i - smean x) ^ 2
  have h1 : vnRatio (fun i => x i.rev) = vnRatio x := by rw [vnRatio, vnRatio, hss, steps_rev]
  have h2 : vnRatio2 (fun i => x i.rev) = vnRatio2 x := by
    rw [vnRatio2, vnRatio2, hss]
    simp only [← dwB_one, dwB_rev]
    rw [← Equiv.sum_comp Fin.revPerm fun i => dwB x i 1 ^ 2]
    rfl
  have hP : dwP (fun i => x i.rev) = dwP x := by rw [dwP_eq x hs, dwP_eq _ (by rw [hss]; exact hs), h1]
  have hQ : dwQ (fun i => x i.rev) = dwQ x := by rw [dwQ_eq x hs, dwQ_eq _ (by rw [hss]; exact hs), h1, h2]
  have hM : dwMean (fun i => x i.rev) = dwMean x := by rw [dwMean, dwMean, hP]
  exact ⟨hM, by rw [dwVar, dwVar, hP, hQ, hM]⟩

/-- The p-value of Breusch-Pagan from the centred squares of the residuals. -/
noncomputable def bpOf (pc : F ℝ → F ℝ) (x w : Fin n → ℝ) : F ℝ :=
  F.sub (.fin 1) (pc (F.div (.fin (n * ∑ i, (olsIntercept x w + olsSlope x w * x i) ^ 2)) (.fin (∑ i, w i ^ 2))))

noncomputable def centredSquares (r : Fin n → ℝ) : Fin n → ℝ := fun i => r i ^ 2 - (∑ i, r i ^ 2) / n

theorem bp_eq (pc : F ℝ → F ℝ) (x r : Fin n → ℝ) : breuschPaganPValue pc x r = bpOf pc x (centredSquares r) := rfl

theorem bpOf_perm (pc : F ℝ → F ℝ) (x w : Fin n → ℝ) (e : Equiv.Perm (Fin n)) : bpOf pc (fun i => x (e i)) (fun i => w (e i)) = bpOf pc x w := by
  have hi : olsIntercept (fun i => x (e i)) (fun i => w (e i)) = olsIntercept x w := by
    rw [olsIntercept, olsIntercept, olsSlope_perm', smean_perm', smean_perm']
  rw [bpOf, bpOf, hi, olsSlope_perm', Equiv.sum_comp e fun i => (olsIntercept x w + olsSlope x w * x i) ^ 2, Equiv.sum_comp e fun i => w i ^ 2]

theorem bp_rev (pc : F ℝ → F ℝ) (x r : Fin n → ℝ) : breuschPaganPValue pc (fun i => x i.rev) (fun i => r i.rev) = breuschPaganPValue pc x r := by
  have hsq : ∑ i : Fin n, r i.rev ^ 2 = ∑ i, r i ^ 2 := Equiv.sum_comp Fin.revPerm fun i => r i ^ 2
  have hw : centredSquares (fun i => r i.rev) = fun i => centredSquares r i.rev := by
    funext i
    rw [centredSquares, centredSquares, hsq]
  rw [bp_eq, bp_eq, hw]
  exact bpOf_perm pc x (centredSquares r) Fin.revPerm

/-- **C259, restricted.**  Reading the observations backwards changes neither the R2 nor any p-value but that of the Harrison-McCabe test; the analysis fails
on one file exactly when it fails on the other. -/
theorem C259_backwards_partial (env : TestEnv (m + 2)) (henv : OrderlessTests env) (x y : Fin (m + 2) → ℝ) (hx : ∃ i j, x i ≠ x j) :
    (∀ e, analysisTests env x y = .error e ↔ analysisTests env (fun i => x i.rev) (fun i => y i.rev) = .error e) ∧
    ∀ T U, analysisTests env x y = .ok T → analysisTests env (fun i => x i.rev) (fun i => y i.rev) = .ok U →
      U = { T with harrisonMcCabe := U.harrisonMcCabe } := by
  have hr : olsResiduals (fun i => x i.rev) (fun i => y i.rev) = fun i => olsResiduals x y i.rev := resid_perm' x y Fin.revPerm
  set r := olsResiduals x y with hrd
  have hsm : (smean fun i => r i.rev) = smean r := smean_perm' r Fin.revPerm
  have hsv : (svar fun i => r i.rev) = svar r := svar_perm' r Fin.revPerm
  have hsq : ∑ i : Fin (m + 2), r i.rev ^ 2 = ∑ i, r i ^ 2 := Equiv.sum_comp Fin.revPerm fun i => r i ^ 2
  have hR : computeR2 (fun i => y i.rev) (fun i => r i.rev) = computeR2 y r := by
    have h1 : (smean fun i => y i.rev) = smean y := smean_perm' y Fin.revPerm
    have h2 : (svar fun i => y i.rev - smean y) = svar fun i => y i - smean y := svar_perm' (fun i => y i - smean y) Fin.revPerm
    rw [computeR2, computeR2]
    simp only [h1, h2, hsv]
  have hk : env.kolmogorov (fun i => r i.rev) (normalFitCdf fun i => r i.rev) = env.kolmogorov r (normalFitCdf r) := by
    have : (normalFitCdf fun i => r i.rev) = normalFitCdf r := normalFitCdf_perm r Fin.revPerm
    rw [this]
    exact henv.kol r _ Fin.revPerm
  have hz : zeroMeanPValue env.pStudent (fun i => r i.rev) = zeroMeanPValue env.pStudent r := by
    rw [zeroMeanPValue, zeroMeanPValue, hsm, hsv]
  have hb := bp_rev env.pChiSquare x r
  have hd : durbinWatsonPValue (fun i => x i.rev) (fun i => r i.rev) = durbinWatsonPValue x r := by
    obtain ⟨h1, h2⟩ := dw_moments_rev x hx
    rw [durbinWatsonPValue, durbinWatsonPValue, h1, h2, steps_rev, hsq]
  rw [analysisTests, analysisTests, hr, computeTests, computeTests, hR]
  rcases computeR2 y r with e0 | r2
  · exact ⟨fun e => Iff.rfl, fun T U hT => by cases hT⟩
  by_cases h0 : m = 0
  · dsimp only
    refine ⟨fun e => by rw [if_pos h0, if_pos h0], fun T U hT => ?_⟩
    rw [if_pos h0] at hT
    cases hT
  dsimp only
  refine ⟨fun e => ?_, fun T U hT hU => ?_⟩
  · rw [if_neg h0, if_neg h0]
    constructor <;> (intro h; cases h)
  rw [if_neg h0, Except.ok.injEq] at hT hU
  subst hT hU
  have a1 : env.andersonDarling (fun i => r i.rev) = env.andersonDarling r := henv.ad r Fin.revPerm
  have a2 : env.cramerVonMises (fun i => r i.rev) = env.cramerVonMises r := henv.cvm r Fin.revPerm
  rw [a1, a2, hz, hk, hb, hd]

/-- **C259 is violated.**  At every design of at least six observations there are signals for which the p-value of the Harrison-McCabe test is 1, and 0 when
the same observations are read backwards, with the same simulated samples (not zero on the first half). -/
theorem C259_violated (env : TestEnv (m + 6)) (x : Fin (m + 6) → ℝ) (hN : env.sims ≠ [])
    (hs : ∀ s ∈ env.sims, ∃ i : Fin (m + 6), i.val < (m + 6) / 2 ∧ s i ≠ 0) :
    ∃ y T U, analysisTests (m := m + 4) env x y = .ok T ∧ analysisTests (m := m + 4) env (fun i => x i.rev) (fun i => y i.rev) = .ok U ∧
      T.harrisonMcCabe = .fin 1 ∧ U.harrisonMcCabe = .fin 0 := by
  obtain ⟨y, y0, y1, ⟨i, hi⟩, y2⟩ := three_residuals x ⟨0, by omega⟩ ⟨1, by omega⟩ ⟨2, by omega⟩ (by simp) (by simp) (by simp)
  have ey := own_residuals (m := m + 4) x y y0 y1
  have zero : ∀ j : Fin (m + 6), 3 ≤ j.val → y j = 0 := fun j hj =>
    y2 j (by rintro rfl; simp at hj) (by rintro rfl; simp at hj) (by rintro rfl; simp at hj)
  have hi3 : i.val < 3 := by
    by_contra h
    exact hi (zero i (by omega))
  have er : olsResiduals (fun i => x i.rev) (fun i => y i.rev) = fun i => y i.rev := by
    have : olsResiduals (fun i => x i.rev) (fun i => y i.rev) = fun i => olsResiduals x y i.rev := resid_perm' x y Fin.revPerm
    rw [this, ey]
  have hv : (svar fun i => y i - smean y) ≠ 0 := by
    have hm : smean y = 0 := by rw [smean, y0, zero_div]
    rw [hm]
    simp only [sub_zero]
    rw [svar, hm]
    have : (0 : ℝ) < ((m + 6 : ℕ) : ℝ) - 1 := by push_cast; have : (0 : ℝ) ≤ m := Nat.cast_nonneg m; linarith
    refine (div_pos (Finset.sum_pos' (fun _ _ => sq_nonneg _) ⟨i, Finset.mem_univ _, ?_⟩) this).ne'
    rw [sub_zero]
    positivity
  have hv' : (svar fun i : Fin (m + 6) => y i.rev - smean fun i : Fin (m + 6) => y i.rev) ≠ 0 := by
    have h1 : (smean fun i => y i.rev) = smean y := smean_perm' y Fin.revPerm
    have h2 : (svar fun i => y i.rev - smean y) = svar fun i => y i - smean y := svar_perm' (fun i => y i - smean y) Fin.revPerm
    rw [h1, h2]
    exact hv
  have hA : 0 < firstSq y := firstSq_pos y ⟨i, by omega, hi⟩
  have hB : secondSq y = 0 := Finset.sum_eq_zero fun j hj => by
    rw [zero j (by have := (Finset.mem_filter.1 hj).2; omega)]; simp
  have hA' : firstSq (fun i => y i.rev) = 0 := Finset.sum_eq_zero fun j hj => by
    have := (Finset.mem_filter.1 hj).2
    change y j.rev ^ 2 = 0
    rw [zero j.rev (by rw [Fin.val_rev]; omega)]; simp
  have hB' : 0 < secondSq (fun i => y i.rev) := secondSq_pos _ ⟨i.rev, by rw [Fin.val_rev]; omega, by rw [Fin.rev_rev]; exact hi⟩
  have q1 : hmcRatio ((m + 6) / 2) y = .fin 1 := by
    rw [hmcRatio_halves, hB, add_zero, F.div_fin _ hA.ne', div_self hA.ne']
  have q0 : hmcRatio ((m + 6) / 2) (fun i => y i.rev) = .fin 0 := by
    rw [hmcRatio_halves, hA', zero_add, F.div_fin _ hB'.ne', zero_div]
  have hL : (env.sims.length : ℝ) ≠ 0 := by simpa using hN
  have sim : ∀ s ∈ env.sims, ∃ q, hmcRatio ((m + 6) / 2) s = .fin q ∧ 0 < q ∧ q ≤ 1 := by
    intro s h
    have a := firstSq_pos s (hs s h)
    have b := secondSq_nonneg s
    refine ⟨_, by rw [hmcRatio_halves, F.div_fin _ (by positivity)], by positivity, ?_⟩
    rw [div_le_one (by positivity)]
    linarith
  have p1 : harrisonMcCabePValue env.sims y = .fin 1 := by
    rw [hmc_count _ hN, q1, List.countP_eq_length.2, div_self hL]
    intro s h
    obtain ⟨q, hq, -, hq1⟩ := sim s h
    rw [hq, F.le_fin, decide_eq_true_iff]
    exact hq1
  have p0 : harrisonMcCabePValue env.sims (fun i => y i.rev) = .fin 0 := by
    rw [hmc_count _ hN, q0, List.countP_eq_zero.2, Nat.cast_zero, zero_div]
    intro s h
    obtain ⟨q, hq, hq0, -⟩ := sim s h
    rw [hq, F.le_fin, decide_eq_true_iff, not_le]
    exact hq0
  have hT : ∃ T, analysisTests (m := m + 4) env x y = .ok T ∧ T.harrisonMcCabe = .fin 1 :=
    ⟨_, by rw [analysisTests, computeTests, ey, computeR2]; simp only [hv, if_false]; exact if_neg (by omega), p1⟩
  have hU : ∃ U, analysisTests (m := m + 4) env (fun i => x i.rev) (fun i => y i.rev) = .ok U ∧ U.harrisonMcCabe = .fin 0 :=
    ⟨_, by rw [analysisTests, computeTests, er, computeR2]; simp only [hv', if_false]; exact if_neg (by omega), p0⟩
  obtain ⟨T, hT, hT1⟩ := hT
  obtain ⟨U, hU, hU0⟩ := hU
  exact ⟨y, T, U, hT, hU, hT1, hU0⟩

/-! ## The contract is that of real tests -/

theorem share_perm (r : Fin n → ℝ) (e : Equiv.Perm (Fin n)) (i : Fin n) :
    shareLe (fun i => r (e i)) i = shareLe r (e i) ∧ shareLt (fun i => r (e i)) i = shareLt r (e i) := by
  constructor
  · rw [shareLe, shareLe, Finset.card_filter, Finset.card_filter, Equiv.sum_comp e fun j => if r j ≤ r (e i) then 1 else 0]
  · rw [shareLt, shareLt, Finset.card_filter, Finset.card_filter, Equiv.sum_comp e fun j => if r j < r (e i) then 1 else 0]

theorem statEnv_orderless (n : ℕ) : OrderlessTests (statEnv n) := by
  have sq : ∀ (r : Fin n → ℝ) (e : Equiv.Perm (Fin n)), squareStat (fun i => r (e i)) (normalFitCdf fun i => r (e i)) = squareStat r (normalFitCdf r) := by
    intro r e
    simp only [squareStat, normalFitCdf_perm r e, (share_perm r e _).1, (share_perm r e _).2]
    exact Equiv.sum_comp e fun i => (normalFitCdf r (r i) - (shareLe r i + shareLt r i) / 2) ^ 2
  refine ⟨fun r e => ?_, fun r e => ?_, fun r G e => ?_⟩
  · simp only [statEnv, sq r e]
  · simp only [statEnv, sq r e]
  · simp only [statEnv, gapStat, (share_perm r e _).1, (share_perm r e _).2]
    congr 3
    exact e.iSup_comp (g := fun i => max (shareLe r i - G (r i)) (G (r i) - shareLt r i))

/-- Four observations read in both directions. -/
example (T U : TestResults) (hT : analysisTests (m := 2) (statEnv 4) ![1, 2, 4, 5] ![1, 3, 2, 8] = .ok T)
    (hU : analysisTests (m := 2) (statEnv 4) (fun i => (![1, 2, 4, 5] : Fin 4 → ℝ) i.rev) (fun i => (![1, 3, 2, 8] : Fin 4 → ℝ) i.rev) = .ok U) :
    U.durbinWatson = T.durbinWatson := by
  rw [(C259_backwards_partial (m := 2) (statEnv 4) (statEnv_orderless 4) ![1, 2, 4, 5] ![1, 3, 2, 8] ⟨0, 1, by norm_num⟩).2 T U hT hU]

/-- Six observations at the sizes 0 to 5. -/
example : ∃ y T U, analysisTests (m := 4) (statEnv 6) (fun i => (i.val : ℝ)) y = .ok T ∧
    analysisTests (m := 4) (statEnv 6) (fun i => (i.rev.val : ℝ)) (fun i => y i.rev) = .ok U ∧ T.harrisonMcCabe = .fin 1 ∧ U.harrisonMcCabe = .fin 0 :=
  C259_violated (m := 0) (statEnv 6) (fun i => (i.val : ℝ)) (by simp [statEnv]) (by
    intro s h
    simp only [statEnv, List.mem_cons, List.not_mem_nil, or_false] at h
    rcases h with rfl | rfl <;> exact ⟨0, by norm_num, by simp⟩)

end Verif.Props
