import Verif.Props.DwNumber
import Verif.Props.WeightedClt

/-!
# C179: for many observations the Durbin-Watson test keeps its level
-/

namespace Verif.Props
open Verif.Py Verif.Model MeasureTheory ProbabilityTheory Filter Topology

/-- The fourth moment of the standard normal law. -/
theorem gauss_four : ∫ t, t ^ 4 ∂gaussianReal 0 1 = 3 := by
  have ht : (0 : ℝ) ∈ interior (integrableExpSet id (gaussianReal 0 1)) := by rw [integrableExpSet_id_gaussianReal]; simp
  have h := iteratedDeriv_mgf ht 4
  simp only [zero_mul, Real.exp_zero, mul_one, id] at h
  rw [← h, mgf_id_gaussianReal]
  have e0 : (fun t : ℝ => Real.exp (0 * t + ((1 : NNReal) : ℝ) * t ^ 2 / 2)) = fun t => Real.exp (t ^ 2 / 2) := by funext t; simp
  rw [e0]
  have hd : ∀ t : ℝ, HasDerivAt (fun t : ℝ => Real.exp (t ^ 2 / 2)) (t * Real.exp (t ^ 2 / 2)) t := by
    intro t
    have := ((hasDerivAt_pow 2 t).div_const 2).exp
    convert this using 1
    norm_num
    ring
  have d1 : deriv (fun t : ℝ => Real.exp (t ^ 2 / 2)) = fun t => t * Real.exp (t ^ 2 / 2) := funext fun t => (hd t).deriv
  have d2 : deriv (fun t : ℝ => t * Real.exp (t ^ 2 / 2)) = fun t => (1 + t ^ 2) * Real.exp (t ^ 2 / 2) := by
    funext t
    rw [((hasDerivAt_id' t).fun_mul (hd t)).deriv]
    ring
  have d3 : deriv (fun t : ℝ => (1 + t ^ 2) * Real.exp (t ^ 2 / 2)) = fun t => (3 * t + t ^ 3) * Real.exp (t ^ 2 / 2) := by
    funext t
    rw [(((hasDerivAt_pow 2 t).const_add 1).fun_mul (hd t)).deriv]
    norm_num
    ring
  have d4 : deriv (fun t : ℝ => (3 * t + t ^ 3) * Real.exp (t ^ 2 / 2)) 0 = 3 := by
    rw [((((hasDerivAt_id' (0 : ℝ)).const_mul 3).fun_add (hasDerivAt_pow 3 (0 : ℝ))).fun_mul (hd 0)).deriv]
    norm_num
  rw [iteratedDeriv_succ, iteratedDeriv_succ, iteratedDeriv_succ, iteratedDeriv_one, d1, d2, d3, d4]

/-- The centred and reduced square of a standard normal variable. -/
noncomputable def redSq (t : ℝ) : ℝ := (t ^ 2 - 1) / √2

theorem redSq_moments : ∫ t, redSq t ∂gaussianReal 0 1 = 0 ∧ ∫ t, redSq t ^ 2 ∂gaussianReal 0 1 = 1 := by
  have hid : MemLp (fun t : ℝ => t) 4 (gaussianReal 0 1) := memLp_id_gaussianReal 4
  have hid2 : MemLp (fun t : ℝ => t) 2 (gaussianReal 0 1) := memLp_id_gaussianReal 2
  have sq1 : ∫ t, t ^ 2 ∂gaussianReal 0 1 = 1 := by
    have := variance_eq_sub hid2
    rw [variance_fun_id_gaussianReal] at this
    simp at this
    exact this.symm
  have i2 : Integrable (fun t : ℝ => t ^ 2) (gaussianReal 0 1) := hid2.integrable_sq
  have i4 : Integrable (fun t : ℝ => t ^ 4) (gaussianReal 0 1) := by
    have := hid.integrable_norm_pow (by norm_num)
    refine this.congr (Eventually.of_forall fun t => ?_)
    simp only [Real.norm_eq_abs]
    exact Even.pow_abs (by decide) t
  constructor
  · simp only [redSq]
    rw [integral_div, integral_sub i2 (integrable_const 1), sq1]
    simp
  · have : (fun t : ℝ => redSq t ^ 2) = fun t => (t ^ 4 - (2 * t ^ 2 - 1)) / 2 := by
      funext t
      rw [redSq, div_pow, Real.sq_sqrt (by norm_num)]
      ring
    have hi2 : Integrable (fun t : ℝ => 2 * t ^ 2 - 1) (gaussianReal 0 1) := (i2.const_mul 2).sub (integrable_const 1)
    rw [this, integral_div, integral_sub i4 hi2, integral_sub (i2.const_mul 2) (integrable_const 1), integral_const_mul, sq1, gauss_four]
    simp
    norm_num

/-- One tail of a quadratic form whose coefficients are centred, bounded, and of large sum of squares. -/
theorem form_tail {q : ℝ} (hq : 0 < q) (W : (N : ℕ) → Finset (Fin (N + 2))) (d : (N : ℕ) → Fin (N + 2) → ℝ) (s : ℕ → ℝ)
    (hW : ∀ N, ((W N).card : ℝ) = N) (hd0 : ∀ N, ∑ i ∈ W N, d N i = 0) (hb : ∀ N, ∀ i ∈ W N, |d N i| ≤ 4)
    (hs : ∀ N, s N ^ 2 = 2 / (N * (N + 2)) * ∑ i ∈ W N, d N i ^ 2) (hs0 : ∀ N, 0 ≤ s N)
    (hbig : ∀ᶠ N : ℕ in atTop, 2 * ((N : ℝ) - 4) ≤ ∑ i ∈ W N, d N i ^ 2) :
    Tendsto (fun N => (stdSample (N + 2)).real {z | 0 < ∑ i ∈ W N, (d N i - q * s N) * z i ^ 2}) atTop (𝓝 (PhiC q)) := by
  classical
  let S : ℕ → ℝ := fun N => ∑ i ∈ W N, d N i ^ 2
  let K : ℕ → ℝ := fun N => √(S N + N * (q * s N) ^ 2)
  let w : (N : ℕ) → Fin (N + 2) → ℝ := fun N i => if i ∈ W N then (d N i - q * s N) / K N else 0
  let c : ℕ → ℝ := fun N => -q * √((N : ℝ) / (N + 2 + 2 * q ^ 2))
  have hS0 : ∀ N, 0 ≤ S N := fun N => Finset.sum_nonneg fun i _ => sq_nonneg _
  have hpos : ∀ᶠ N : ℕ in atTop, 0 < S N ∧ 2 * ((N : ℝ) - 4) ≤ S N ∧ 5 ≤ N := by
    filter_upwards [hbig, eventually_ge_atTop 5] with N h1 h2
    have : (5 : ℝ) ≤ N := by exact_mod_cast h2
    refine ⟨lt_of_lt_of_le ?_ h1, h1, h2⟩
    linarith
  have hK2 : ∀ N, K N ^ 2 = S N + N * (q * s N) ^ 2 := fun N => Real.sq_sqrt (by have := hS0 N; positivity)
  have hKpos : ∀ N, 0 < S N → 0 < K N := fun N h => Real.sqrt_pos.2 (by positivity)
  have hsq : ∀ N, ∑ i ∈ W N, (d N i - q * s N) ^ 2 = K N ^ 2 := by
    intro N
    rw [hK2]
    have : ∀ i, (d N i - q * s N) ^ 2 = d N i ^ 2 - 2 * (q * s N) * d N i + (q * s N) ^ 2 := fun i => by ring
    simp only [this, Finset.sum_add_distrib, Finset.sum_sub_distrib, ← Finset.mul_sum, hd0, Finset.sum_const, nsmul_eq_mul, hW]
    simp [S]
  have hw : ∀ᶠ N in atTop, ∑ i, w N i ^ 2 = 1 := by
    filter_upwards [hpos] with N hN
    have hk := hKpos N hN.1
    have : ∀ i, w N i ^ 2 = if i ∈ W N then (d N i - q * s N) ^ 2 / K N ^ 2 else 0 := by
      intro i
      simp only [w]
      split_ifs
      · rw [div_pow]
      · simp
    simp only [this, Finset.sum_ite_mem, Finset.univ_inter]
    rw [← Finset.sum_div, hsq, div_self (by positivity)]
  have hmax : ∀ ε > 0, ∀ᶠ N in atTop, ∀ i, |w N i| ≤ ε := by
    intro ε hε
    have hlim : Tendsto (fun N : ℕ => (16 + 4 * q ^ 2) / ((N : ℝ) - 4)) atTop (𝓝 0) :=
      tendsto_const_nhds.div_atTop (tendsto_atTop_add_const_right _ _ tendsto_natCast_atTop_atTop)
    have hsm := (hlim.eventually (gt_mem_nhds (show (0 : ℝ) < ε ^ 2 by positivity)))
    filter_upwards [hpos, hsm] with N hN hNs i
    have hk := hKpos N hN.1
    have hN5 : (5 : ℝ) ≤ N := by exact_mod_cast hN.2.2
    by_cases hi : i ∈ W N
    · refine abs_le_of_sq_le_sq' ?_ hε.le |> abs_le.2
      simp only [w, if_pos hi]
      rw [div_pow]
      refine le_trans ?_ hNs.le
      have hd16 : d N i ^ 2 ≤ 16 := by
        have := abs_le.1 (hb N i hi)
        nlinarith
      have hSle : S N ≤ 16 * N := by
        calc S N ≤ ∑ i ∈ W N, (16 : ℝ) := Finset.sum_le_sum fun j hj => by
              have := abs_le.1 (hb N j hj)
              nlinarith
          _ = 16 * N := by rw [Finset.sum_const, nsmul_eq_mul, hW, mul_comm]
      have hs32 : s N ^ 2 * (N - 4) ≤ 2 * S N := by
        rw [hs N]
        change 2 / ((N : ℝ) * (N + 2)) * S N * (N - 4) ≤ 2 * S N
        have h1 : 2 / ((N : ℝ) * (N + 2)) * (N - 4) ≤ 2 := by
          rw [div_mul_eq_mul_div, div_le_iff₀ (by positivity)]
          nlinarith
        nlinarith [hS0 N]
      have hnum : (d N i - q * s N) ^ 2 ≤ 2 * 16 + 2 * q ^ 2 * s N ^ 2 := by nlinarith [sq_nonneg (d N i + q * s N)]
      rw [div_le_div_iff₀ (by positivity) (by linarith), hK2]
      have h4 : (0 : ℝ) < N - 4 := by linarith
      have hq2 := sq_nonneg q
      have hNs2 : 0 ≤ (N : ℝ) * (q * s N) ^ 2 := by positivity
      calc (d N i - q * s N) ^ 2 * ((N : ℝ) - 4) ≤ (2 * 16 + 2 * q ^ 2 * s N ^ 2) * (N - 4) := mul_le_mul_of_nonneg_right hnum h4.le
        _ = 16 * (2 * ((N : ℝ) - 4)) + 2 * q ^ 2 * (s N ^ 2 * (N - 4)) := by ring
        _ ≤ 16 * S N + 2 * q ^ 2 * (2 * S N) := by
            have := mul_le_mul_of_nonneg_left hs32 (show 0 ≤ 2 * q ^ 2 by positivity)
            linarith [hN.2.1]
        _ = (16 + 4 * q ^ 2) * S N := by ring
        _ ≤ (16 + 4 * q ^ 2) * (S N + N * (q * s N) ^ 2) := by
            refine mul_le_mul_of_nonneg_left ?_ (by positivity)
            linarith
    · simp only [w, if_neg hi, abs_zero]
      exact hε.le
  have hc : Tendsto c atTop (𝓝 (-q)) := by
    have h1 : Tendsto (fun N : ℕ => (N : ℝ) / (N + 2 + 2 * q ^ 2)) atTop (𝓝 1) := by
      have hden : Tendsto (fun N : ℕ => (N : ℝ) + 2 + 2 * q ^ 2) atTop atTop :=
        tendsto_atTop_add_const_right _ _ (tendsto_atTop_add_const_right _ _ tendsto_natCast_atTop_atTop)
      have h0 : Tendsto (fun N : ℕ => 1 - (2 + 2 * q ^ 2) / ((N : ℝ) + 2 + 2 * q ^ 2)) atTop (𝓝 (1 - 0)) :=
        tendsto_const_nhds.sub (tendsto_const_nhds.div_atTop hden)
      rw [sub_zero] at h0
      refine h0.congr fun N => ?_
      have : (N : ℝ) + 2 + 2 * q ^ 2 ≠ 0 := by positivity
      field_simp
      ring
    have h2 := (Real.continuous_sqrt.tendsto 1).comp h1
    rw [Real.sqrt_one] at h2
    have h3 := h2.const_mul (-q)
    rw [mul_one] at h3
    exact h3
  have hclt := weighted_clt (P := gaussianReal 0 1) (g := redSq) (by unfold redSq; fun_prop) redSq_moments.1 redSq_moments.2 (n := fun N => N + 2) w hw hmax hc
  have hPhi : Phi (-q) = PhiC q := by rw [PhiC_eq, Phi_neg]
  rw [hPhi] at hclt
  refine hclt.congr' ?_
  filter_upwards [hpos] with N hN
  have hk := hKpos N hN.1
  have hN5 : (5 : ℝ) ≤ N := by exact_mod_cast hN.2.2
  congr 1
  ext z
  have hcN : c N * (√2 * K N) = -(N * (q * s N)) := by
    have hsqr : (N : ℝ) * s N = √((N : ℝ) / (N + 2 + 2 * q ^ 2)) * (√2 * K N) := by
      have hl : 0 ≤ (N : ℝ) * s N := mul_nonneg (Nat.cast_nonneg _) (hs0 N)
      refine (sq_eq_sq₀ hl (by positivity)).1 ?_
      rw [mul_pow, mul_pow, mul_pow, Real.sq_sqrt (by positivity), Real.sq_sqrt (by norm_num), hK2, mul_pow, hs N]
      change (N : ℝ) ^ 2 * (2 / ((N : ℝ) * (N + 2)) * S N) = (N : ℝ) / (N + 2 + 2 * q ^ 2) * (2 * (S N + N * (q ^ 2 * (2 / ((N : ℝ) * (N + 2)) * S N))))
      have h1 : (N : ℝ) ≠ 0 := by positivity
      have h2 : (N : ℝ) + 2 + 2 * q ^ 2 ≠ 0 := by positivity
      field_simp
    simp only [c]
    rw [mul_assoc, ← hsqr]
    ring
  have h2 : 0 < √2 * K N := by positivity
  have hsum : (c N + ∑ i, w N i * redSq (z i)) * (√2 * K N) = ∑ i ∈ W N, (d N i - q * s N) * z i ^ 2 := by
    have hterm : ∀ i, w N i * redSq (z i) = if i ∈ W N then (d N i - q * s N) / K N * ((z i ^ 2 - 1) / √2) else 0 := by
      intro i
      simp only [w, redSq]
      split_ifs
      · rfl
      · simp
    simp only [hterm, Finset.sum_ite_mem, Finset.univ_inter]
    rw [add_mul, hcN, Finset.sum_mul]
    have h3 : ∀ i, (d N i - q * s N) / K N * ((z i ^ 2 - 1) / √2) * (√2 * K N) = (d N i - q * s N) * z i ^ 2 - d N i + q * s N := by
      intro i
      have : √2 ≠ 0 := by positivity
      field_simp
      ring
    simp only [h3, Finset.sum_add_distrib, Finset.sum_sub_distrib, hd0, Finset.sum_const, nsmul_eq_mul, hW]
    ring
  change 0 < c N + ∑ i, w N i * redSq (z i) ↔ 0 < ∑ i ∈ W N, (d N i - q * s N) * z i ^ 2
  rw [← hsum]
  exact (mul_pos_iff_of_pos_right h2).symm

/-- The p-value is below `2 (1 - Phi q)` exactly when the statistic is a number further from its mean than `q` standard deviations. -/
theorem dwPValue_lt_iff {m : ℕ} (x r : Fin (m + 2) → ℝ) (hv : 0 < dwVar x) (q : ℝ) :
    F.lt (durbinWatsonPValue x r) (.fin (2 * PhiC q)) = true ↔ ∑ i, r i ^ 2 ≠ 0 ∧ q * √(dwVar x) < |durbinWatsonStat r - dwMean x| := by
  by_cases hr : ∑ i, r i ^ 2 = 0
  · have hn : durbinWatsonPValue x r = .nan := by
      have h0 : ∀ d, F.div (.fin (∑ i : Fin (m + 1), (r i.succ - r i.castSucc) ^ 2)) (.fin (∑ i, r i ^ 2)) ≠ .fin d := by
        intro d
        rw [hr]
        simp only [F.div, if_true, F.infSign]
        split_ifs <;> simp
      rw [durbinWatsonPValue]
      split
      · rename_i d hd; exact absurd hd (h0 d)
      · rfl
    rw [hn]
    simp [F.lt, hr]
  · have hpos := Real.sqrt_pos.2 hv
    rw [durbinWatsonPValue, F.div_fin _ hr]
    change F.lt (twoSidedNormal (F.div (.fin |durbinWatsonStat r - dwMean x|) (.fin (√(dwVar x))))) _ = true ↔ _
    rw [F.div_fin _ hpos.ne', twoSidedNormal, F.lt_fin, decide_eq_true_eq, PhiC_eq, PhiC_eq, ← lt_div_iff₀ hpos]
    constructor
    · intro h
      exact ⟨hr, Phi_strictMono.lt_iff_lt.1 (by linarith)⟩
    · intro h
      have := Phi_strictMono h.2
      linarith

/-- **C179.**  For every sequence of designs, not constant, of growing size, and independent normal errors of the same variance, the probability that the
p-value of the Durbin-Watson test falls below `α` tends to `α`. -/
theorem C179_level (x : (N : ℕ) → Fin (N + 2) → ℝ) (hx : ∀ N, ∃ i j, x N i ≠ x N j) (b0 b1 : ℝ) {σ : ℝ} (hσ : σ ≠ 0) (α : ℝ) (hα : 0 < α) (hα1 : α < 1) :
    Tendsto (fun N => (stdSample (N + 2)).real {e | F.lt (durbinWatsonPValue (x N)
      (olsResiduals (x N) fun i => b0 + b1 * x N i + σ * e i)) (.fin α) = true}) atTop (𝓝 α) := by
  obtain ⟨q, hq⟩ : ∃ q, Phi q = 1 - α / 2 := Phi_surj (by linarith) (by linarith)
  have hqα : 2 * PhiC q = α := by rw [PhiC_eq, hq]; ring
  have hq0 : 0 < q := by
    refine Phi_strictMono.lt_iff_lt.1 ?_
    rw [hq, Phi_zero]
    linarith
  choose b W lam tW tP tQ hz using fun N => dw_form (x N) (hx N)
  have hsx : ∀ N, ∑ i, (x N i - smean (x N)) ^ 2 ≠ 0 := fun N => (sxx_pos (x N) (hx N)).ne'
  have c1 : ∀ N, dwMean (x N) = dwP (x N) / N := by
    intro N
    rw [dwMean]
    congr 1
    push_cast
    ring
  have c2 : ∀ N, dwVar (x N) = 2 / (N * (N + 2)) * (dwQ (x N) - dwP (x N) * (dwP (x N) / N)) := by
    intro N
    have hm2 : ((N + 2 : ℕ) : ℝ) - (1 + 1) = N := by push_cast; ring
    rw [dwVar, c1, hm2]
  -- the weights lie between 0 and 4
  have hlam : ∀ N, ∀ i ∈ W N, 0 ≤ lam N i ∧ lam N i ≤ 4 := by
    intro N i hi
    obtain ⟨h1, -⟩ := hz N 0 0 1 one_ne_zero (Pi.single i 1)
    have e1 : ∑ j ∈ W N, lam N j * (Pi.single i (1 : ℝ) : Fin (N + 2) → ℝ) j ^ 2 = lam N i := by
      rw [Finset.sum_eq_single i]
      · simp
      · intro j _ hj; simp [Pi.single_eq_of_ne hj]
      · intro h; exact absurd hi h
    have e2 : ∑ j ∈ W N, (Pi.single i (1 : ℝ) : Fin (N + 2) → ℝ) j ^ 2 = 1 := by
      rw [Finset.sum_eq_single i]
      · simp
      · intro j _ hj; simp [Pi.single_eq_of_ne hj]
      · intro h; exact absurd hi h
    rw [e1, e2, div_one] at h1
    rw [← h1]
    obtain ⟨r0, r4, -⟩ := C09_durbinWatson_range (olsResiduals (x N) fun i_1 => 0 + 0 * x N i_1 + 1 * (∑ k, (Pi.single i (1 : ℝ) : Fin (N + 2) → ℝ) k • (b N k).ofLp) i_1)
    exact ⟨r0, r4⟩
  have hmu : ∀ N, 0 ≤ dwMean (x N) ∧ dwMean (x N) ≤ 4 := by
    intro N
    rw [c1, ← tP]
    constructor
    · exact div_nonneg (Finset.sum_nonneg fun i hi => (hlam N i hi).1) (Nat.cast_nonneg _)
    · refine div_le_of_le_mul₀ (Nat.cast_nonneg _) (by norm_num) ?_
      calc ∑ i ∈ W N, lam N i ≤ ∑ i ∈ W N, (4 : ℝ) := Finset.sum_le_sum fun i hi => (hlam N i hi).2
        _ = 4 * N := by rw [Finset.sum_const, nsmul_eq_mul, tW, mul_comm]
  have hd0 : ∀ N, ∑ i ∈ W N, (lam N i - dwMean (x N)) = 0 := by
    intro N
    rw [Finset.sum_sub_distrib, Finset.sum_const, nsmul_eq_mul, tW, tP, c1]
    rcases Nat.eq_zero_or_pos N with h0 | h0
    · have hcard : (W N).card = 0 := by
        have := tW N
        rw [h0] at this ⊢
        exact_mod_cast this
      have := tP N
      rw [Finset.card_eq_zero.1 hcard, Finset.sum_empty] at this
      rw [← this]
      simp
    · have : (N : ℝ) ≠ 0 := by positivity
      field_simp
      ring
  have hSS : ∀ N, ∑ i ∈ W N, (lam N i - dwMean (x N)) ^ 2 = dwQ (x N) - dwP (x N) * (dwP (x N) / N) := by
    intro N
    have h1 : ∀ i, (lam N i - dwMean (x N)) ^ 2 = lam N i ^ 2 - dwMean (x N) * lam N i - dwMean (x N) * (lam N i - dwMean (x N)) := fun i => by ring
    simp only [h1]
    rw [Finset.sum_sub_distrib, Finset.sum_sub_distrib, ← Finset.mul_sum, ← Finset.mul_sum, hd0, tP, tQ, c1]
    ring
  have hvar0 : ∀ N, 0 ≤ dwVar (x N) := by
    intro N
    rw [c2, ← hSS]
    exact mul_nonneg (by positivity) (Finset.sum_nonneg fun i _ => sq_nonneg _)
  have hs : ∀ N, √(dwVar (x N)) ^ 2 = 2 / (N * (N + 2)) * ∑ i ∈ W N, (lam N i - dwMean (x N)) ^ 2 := by
    intro N
    rw [Real.sq_sqrt (hvar0 N), hSS, c2]
  have hbig : ∀ᶠ N : ℕ in atTop, 2 * ((N : ℝ) - 4) ≤ ∑ i ∈ W N, (lam N i - dwMean (x N)) ^ 2 := by
    filter_upwards [eventually_gt_atTop 0] with N hN
    have h1 := (dwVar_bounds (x N) (hsx N) hN).1
    have hN0 : (0 : ℝ) < N := by exact_mod_cast hN
    rw [c2, ← hSS, div_mul_eq_mul_div, div_le_div_iff_of_pos_right (by positivity)] at h1
    linarith
  have hb : ∀ N, ∀ i ∈ W N, |lam N i - dwMean (x N)| ≤ 4 := by
    intro N i hi
    have h1 := hlam N i hi
    have h2 := hmu N
    rw [abs_le]
    constructor <;> linarith
  have t1 := form_tail hq0 W (fun N i => lam N i - dwMean (x N)) (fun N => √(dwVar (x N))) tW hd0 hb hs (fun N => Real.sqrt_nonneg _) hbig
  have t2 := form_tail hq0 W (fun N i => -(lam N i - dwMean (x N))) (fun N => √(dwVar (x N))) tW
    (fun N => by rw [Finset.sum_neg_distrib, hd0, neg_zero]) (fun N i hi => by rw [abs_neg]; exact hb N i hi)
    (fun N => by simp only [neg_sq]; exact hs N) (fun N => Real.sqrt_nonneg _) (by simp only [neg_sq]; exact hbig)
  have t3 := t1.add t2
  rw [← two_mul, hqα] at t3
  refine t3.congr' ?_
  filter_upwards [eventually_gt_atTop 4] with N hN
  have hN4 : (4 : ℝ) < N := by exact_mod_cast hN
  have hv : 0 < dwVar (x N) := by
    refine lt_of_lt_of_le ?_ (dwVar_bounds (x N) (hsx N) (by omega)).1
    apply div_pos
    · linarith
    · positivity
  have hmeas : ∀ (c : ℝ) (d : Fin (N + 2) → ℝ), Measurable fun z : Fin (N + 2) → ℝ => ∑ i ∈ W N, (d i - c) * z i ^ 2 := fun c d => by fun_prop
  have hS2 : MeasurableSet {z : Fin (N + 2) → ℝ | 0 < ∑ i ∈ W N, (-(lam N i - dwMean (x N)) - q * √(dwVar (x N))) * z i ^ 2} :=
    measurableSet_lt measurable_const (hmeas _ fun i => -(lam N i - dwMean (x N)))
  rw [← measureReal_union (Set.disjoint_left.2 fun z hz1 hz2 => ?_) hS2]
  · have hp := basis_preserving (b N)
    have hset : {z : Fin (N + 2) → ℝ | 0 < ∑ i ∈ W N, (lam N i - dwMean (x N) - q * √(dwVar (x N))) * z i ^ 2} ∪
        {z | 0 < ∑ i ∈ W N, (-(lam N i - dwMean (x N)) - q * √(dwVar (x N))) * z i ^ 2} =
        (fun z : Fin (N + 2) → ℝ => ∑ i, z i • (b N i).ofLp) ⁻¹' {e | F.lt (durbinWatsonPValue (x N)
          (olsResiduals (x N) fun i => b0 + b1 * x N i + σ * e i)) (.fin α) = true} := by
      ext z
      obtain ⟨h1, h2⟩ := hz N b0 b1 σ hσ z
      have hiff := dwPValue_lt_iff (x N) (olsResiduals (x N) fun i => b0 + b1 * x N i + σ * (∑ k, z k • (b N k).ofLp) i) hv q
      rw [hqα] at hiff
      change 0 < ∑ i ∈ W N, (lam N i - dwMean (x N) - q * √(dwVar (x N))) * z i ^ 2 ∨
        0 < ∑ i ∈ W N, (-(lam N i - dwMean (x N)) - q * √(dwVar (x N))) * z i ^ 2 ↔ _
      change _ ↔ F.lt (durbinWatsonPValue (x N) (olsResiduals (x N) fun i => b0 + b1 * x N i + σ * (∑ k, z k • (b N k).ofLp) i)) (.fin α) = true
      rw [hiff, h1, h2]
      have f1 : ∑ i ∈ W N, (lam N i - dwMean (x N) - q * √(dwVar (x N))) * z i ^ 2 =
          ∑ i ∈ W N, lam N i * z i ^ 2 - (dwMean (x N) + q * √(dwVar (x N))) * ∑ i ∈ W N, z i ^ 2 := by
        rw [Finset.mul_sum, ← Finset.sum_sub_distrib]
        exact Finset.sum_congr rfl fun i _ => by ring
      have f2 : ∑ i ∈ W N, (-(lam N i - dwMean (x N)) - q * √(dwVar (x N))) * z i ^ 2 =
          (dwMean (x N) - q * √(dwVar (x N))) * ∑ i ∈ W N, z i ^ 2 - ∑ i ∈ W N, lam N i * z i ^ 2 := by
        rw [Finset.mul_sum, ← Finset.sum_sub_distrib]
        exact Finset.sum_congr rfl fun i _ => by ring
      rw [f1, f2]
      have hnn : 0 ≤ ∑ i ∈ W N, z i ^ 2 := Finset.sum_nonneg fun i _ => sq_nonneg _
      rcases hnn.eq_or_lt with h0 | hpos
      · have hall : ∀ i ∈ W N, z i ^ 2 = 0 := (Finset.sum_eq_zero_iff_of_nonneg fun i _ => sq_nonneg _).1 h0.symm
        have hl0 : ∑ i ∈ W N, lam N i * z i ^ 2 = 0 := Finset.sum_eq_zero fun i hi => by rw [hall i hi, mul_zero]
        rw [← h0, hl0]
        simp
      · have hne : σ ^ 2 * ∑ i ∈ W N, z i ^ 2 ≠ 0 := mul_ne_zero (pow_ne_zero 2 hσ) hpos.ne'
        rw [sub_pos, sub_pos, ← lt_div_iff₀ hpos, ← div_lt_iff₀ hpos, lt_abs]
        constructor
        · rintro (h | h)
          · exact ⟨hne, Or.inl (by linarith)⟩
          · exact ⟨hne, Or.inr (by linarith)⟩
        · rintro ⟨-, h | h⟩
          · exact Or.inl (by linarith)
          · exact Or.inr (by linarith)
    have hms : MeasurableSet {e : Fin (N + 2) → ℝ | F.lt (durbinWatsonPValue (x N) (olsResiduals (x N) fun i => b0 + b1 * x N i + σ * e i)) (.fin α) = true} := by
      have hD := dwStat_measurable (x N) b0 b1 σ
      have hR : Measurable fun e : Fin (N + 2) → ℝ => ∑ i, olsResiduals (x N) (fun i => b0 + b1 * x N i + σ * e i) i ^ 2 := by
        unfold olsResiduals olsIntercept olsSlope smean
        fun_prop
      have : {e : Fin (N + 2) → ℝ | F.lt (durbinWatsonPValue (x N) (olsResiduals (x N) fun i => b0 + b1 * x N i + σ * e i)) (.fin α) = true} =
          {e | ∑ i, olsResiduals (x N) (fun i => b0 + b1 * x N i + σ * e i) i ^ 2 = 0}ᶜ ∩
          {e | q * √(dwVar (x N)) < |durbinWatsonStat (olsResiduals (x N) fun i => b0 + b1 * x N i + σ * e i) - dwMean (x N)|} := by
        ext e
        have hiff := dwPValue_lt_iff (x N) (olsResiduals (x N) fun i => b0 + b1 * x N i + σ * e i) hv q
        rw [hqα] at hiff
        exact hiff
      rw [this]
      exact (measurableSet_eq_fun hR measurable_const).compl.inter (measurableSet_lt measurable_const (hD.sub_const _).norm)
    rw [hset, measureReal_def, hp.measure_preimage hms.nullMeasurableSet, measureReal_def]
  · have h1 : 0 < ∑ i ∈ W N, (lam N i - dwMean (x N) - q * √(dwVar (x N))) * z i ^ 2 := hz1
    have h2 : 0 < ∑ i ∈ W N, (-(lam N i - dwMean (x N)) - q * √(dwVar (x N))) * z i ^ 2 := hz2
    have h3 := add_pos h1 h2
    rw [← Finset.sum_add_distrib] at h3
    refine absurd h3 (not_lt.2 (Finset.sum_nonpos fun i _ => ?_))
    have h4 : 0 ≤ q * √(dwVar (x N)) * z i ^ 2 := by positivity
    nlinarith

/-- Defects `0, 1, 2, …`: the warning at 0.05 is given for about one data set out of twenty. -/
example : Tendsto (fun N => (stdSample (N + 2)).real {e | F.lt (durbinWatsonPValue (fun i : Fin (N + 2) => ((i : ℕ) : ℝ))
      (olsResiduals (fun i : Fin (N + 2) => ((i : ℕ) : ℝ)) fun i => 3 + 2 * ((i : ℕ) : ℝ) + 5 * e i)) (.fin (1 / 20)) = true}) atTop (𝓝 (1 / 20)) :=
  C179_level (fun N i => ((i : ℕ) : ℝ)) (fun N => ⟨0, 1, by simp⟩) 3 2 (by norm_num) (1 / 20) (by norm_num) (by norm_num)

end Verif.Props
