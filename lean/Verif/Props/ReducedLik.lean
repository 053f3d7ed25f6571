import Verif.Model.ReducedLik
import Verif.Props.Stats
import Verif.Props.BoxCoxSkew
import Mathlib.Probability.Distributions.Gaussian.Real

/-!
# C206: the Box-Cox likelihood with an affine trend is the profile likelihood
-/

namespace Verif.Props
open Verif.Py Verif.Model ProbabilityTheory

variable {n : ℕ}

/-- The logarithm of the density of the signals when their Box-Cox transforms are independent normal variables of standard deviation `s` around the line: the
normal density of the transform times the derivative of the transformation. -/
noncomputable def bcTrendLogLik (x y : Fin n → ℝ) (lam b0 b1 s : ℝ) : ℝ :=
  ∑ i, Real.log (gaussianPDFReal (b0 + b1 * x i) (sqv s) (boxCoxFun lam (y i)) * deriv (boxCoxFun lam) (y i))

theorem boxCoxFun_deriv (lam y : ℝ) (hy : 0 < y) : HasDerivAt (boxCoxFun lam) (y ^ (lam - 1)) y := by
  by_cases h : lam = 0
  · subst h
    have e : boxCoxFun 0 = Real.log := by
      funext t
      simp [boxCoxFun]
    rw [e, zero_sub, Real.rpow_neg_one]
    exact Real.hasDerivAt_log hy.ne'
  · have e : boxCoxFun lam = fun t => (t ^ lam - 1) / lam := by
      funext t
      simp [boxCoxFun, h]
    rw [e]
    have := ((Real.hasDerivAt_rpow_const (p := lam) (Or.inl hy.ne')).sub_const 1).div_const lam
    rwa [mul_div_cancel_left₀ _ h] at this

theorem bcTrendLogLik_eq (x y : Fin n → ℝ) (hy : ∀ i, 0 < y i) (lam b0 b1 s : ℝ) (hs : 0 < s) :
    bcTrendLogLik x y lam b0 b1 s = -(n / 2) * Real.log (2 * Real.pi) - n * Real.log s - sse x (fun i => boxCoxFun lam (y i)) b0 b1 / (2 * s ^ 2) +
      (lam - 1) * ∑ i, Real.log (y i) := by
  have hterm : ∀ i, Real.log (gaussianPDFReal (b0 + b1 * x i) (sqv s) (boxCoxFun lam (y i)) * deriv (boxCoxFun lam) (y i))
      = -(1 / 2) * Real.log (2 * Real.pi) - Real.log s - (boxCoxFun lam (y i) - (b0 + b1 * x i)) ^ 2 / (2 * s ^ 2) + (lam - 1) * Real.log (y i) := by
    intro i
    rw [(boxCoxFun_deriv lam (y i) (hy i)).deriv, gaussianPDFReal, coe_sqv]
    have hp : 0 < 2 * Real.pi := by positivity
    have h1 : 0 < Real.sqrt (2 * Real.pi * s ^ 2) := Real.sqrt_pos.mpr (by positivity)
    rw [Real.log_mul (by positivity) (Real.rpow_pos_of_pos (hy i) _).ne', Real.log_mul (inv_ne_zero h1.ne') (Real.exp_pos _).ne', Real.log_exp, Real.log_inv,
      Real.log_sqrt (by positivity), Real.log_mul hp.ne' (by positivity), Real.log_pow, Real.log_rpow (hy i)]
    push_cast
    ring
  rw [bcTrendLogLik, Finset.sum_congr rfl fun i _ => hterm i]
  rw [Finset.sum_add_distrib, Finset.sum_sub_distrib, Finset.sum_sub_distrib, ← Finset.mul_sum Finset.univ (fun i => Real.log (y i)), ← Finset.sum_div,
    Finset.sum_const, Finset.sum_const,
    Finset.card_univ, Fintype.card_fin, nsmul_eq_mul, nsmul_eq_mul]
  have : ∑ i, (boxCoxFun lam (y i) - (b0 + b1 * x i)) ^ 2 = sse x (fun i => boxCoxFun lam (y i)) b0 b1 := rfl
  rw [this]
  ring

/-- The constant between the two likelihoods. -/
noncomputable def profileConst (n : ℕ) : ℝ := -(n / 2) * Real.log (2 * Real.pi) - n / 2 + n / 2 * Real.log (n / ((n : ℝ) - 2))

theorem reduced_sigma2 (x y : Fin n → ℝ) (hx : ∃ i j, x i ≠ x j) (hn : 3 ≤ n) :
    ((n : ℝ) - 1) / ((n : ℝ) - 2) * svar (fun i => y i - (x i * olsSlope x y + olsIntercept x y)) = sse x y (olsIntercept x y) (olsSlope x y) / ((n : ℝ) - 2) := by
  have hn' : (3 : ℝ) ≤ n := by exact_mod_cast hn
  have e : (fun i => y i - (x i * olsSlope x y + olsIntercept x y)) = olsResiduals x y := by
    funext i
    simp only [olsResiduals]
    ring
  have hm : smean (olsResiduals x y) = 0 := by rw [smean, (C27_ols_optimal x y hx).2.2.1, zero_div]
  rw [e, svar, hm]
  simp only [sub_zero]
  have : ∑ i, olsResiduals x y i ^ 2 = sse x y (olsIntercept x y) (olsSlope x y) := rfl
  rw [this]
  have h1 : (n : ℝ) - 1 ≠ 0 := by linarith
  field_simp

/-- **C206.**  For at least three positive signals and sizes that are not all equal, when the transformed signals are not exactly on a line: up to a constant that
depends on the number of observations only, the value of `ReducedLogLikelihood` is the largest likelihood over all lines and standard deviations, and it is reached. -/
theorem C206_profile (x y : Fin n → ℝ) (hn : 3 ≤ n) (hx : ∃ i j, x i ≠ x j) (hy : ∀ i, 0 < y i) (lam : ℝ)
    (hfit : ¬ ∃ b0 b1, ∀ i, boxCoxFun lam (y i) = b0 + b1 * x i) :
    ∃ v, reducedLogLik x y lam = .ok v ∧ IsGreatest {l | ∃ b0 b1 s, 0 < s ∧ l = bcTrendLogLik x y lam b0 b1 s} (v + profileConst n) := by
  have hn' : (3 : ℝ) ≤ n := by exact_mod_cast hn
  set t : Fin n → ℝ := fun i => boxCoxFun lam (y i) with ht
  set S := sse x t (olsIntercept x t) (olsSlope x t) with hS
  have hSpos : 0 < S := by
    rcases (Finset.sum_nonneg fun i _ => sq_nonneg _ : 0 ≤ S).lt_or_eq with h | h
    · exact h
    · exfalso
      apply hfit
      refine ⟨olsIntercept x t, olsSlope x t, fun i => ?_⟩
      have := (Finset.sum_eq_zero_iff_of_nonneg (fun i _ => sq_nonneg _)).mp h.symm i (Finset.mem_univ i)
      have := pow_eq_zero_iff (two_ne_zero) |>.mp this
      linarith
  have hL : smean (fun i => Real.log (y i)) * n = ∑ i, Real.log (y i) := by
    rw [smean, div_mul_cancel₀ _ (by linarith)]
  have hsig := reduced_sigma2 x t hx hn
  rw [← hS] at hsig
  have hpos : 0 < S / ((n : ℝ) - 2) := div_pos hSpos (by linarith)
  refine ⟨-(1 / 2) * n * Real.log (S / ((n : ℝ) - 2)) + (lam - 1) * ∑ i, Real.log (y i), ?_, ?_, ?_⟩
  · unfold reducedLogLik
    dsimp only
    have e : ((n : ℝ) - 1) / ((n : ℝ) - 2) * svar (fun i => boxCoxFun lam (y i) - (x i * olsSlope x (fun i => boxCoxFun lam (y i)) +
      olsIntercept x fun i => boxCoxFun lam (y i))) = S / ((n : ℝ) - 2) := hsig
    rw [if_neg (by omega), e, if_neg (not_le.mpr hpos), hL]
  · have hs0 : 0 < Real.sqrt (S / n) := Real.sqrt_pos.mpr (by positivity)
    refine ⟨olsIntercept x t, olsSlope x t, Real.sqrt (S / n), hs0, ?_⟩
    rw [bcTrendLogLik_eq x y hy lam _ _ _ hs0, ← ht, ← hS, Real.sq_sqrt (by positivity), Real.log_sqrt (by positivity), profileConst,
      Real.log_div hSpos.ne' (by linarith), Real.log_div hSpos.ne' (by linarith), Real.log_div (by linarith) (by linarith)]
    field_simp
    ring
  · rintro l ⟨b0, b1, s, hs, rfl⟩
    rw [bcTrendLogLik_eq x y hy lam _ _ _ hs, ← ht]
    have hle := (C27_ols_optimal x t hx).1 b0 b1
    rw [← hS] at hle
    have h1 : S / (2 * s ^ 2) ≤ sse x t b0 b1 / (2 * s ^ 2) := div_le_div_of_nonneg_right hle (by positivity)
    have hu : 0 < S / (n * s ^ 2) := by positivity
    have h2 := Real.log_le_sub_one_of_pos hu
    rw [Real.log_div hSpos.ne' (by positivity), Real.log_mul (by linarith) (by positivity), Real.log_pow] at h2
    have h3 : S / (2 * s ^ 2) = n / 2 * (S / (n * s ^ 2)) := by field_simp
    rw [profileConst, Real.log_div hSpos.ne' (by linarith), Real.log_div (by linarith) (by linarith)]
    push_cast at h2
    rw [h3] at h1
    nlinarith

/-- **C206, perfect fit.**  When the transformed signals are exactly on a line the function raises ValueError; the likelihood has no upper bound there. -/
theorem C206_perfect_fit (x y : Fin n → ℝ) (hn : 3 ≤ n) (hx : ∃ i j, x i ≠ x j) (hy : ∀ i, 0 < y i) (lam b0 b1 : ℝ)
    (hfit : ∀ i, boxCoxFun lam (y i) = b0 + b1 * x i) :
    Raises (reducedLogLik x y lam) .valueError ∧ ∀ C, ∃ s, 0 < s ∧ C < bcTrendLogLik x y lam b0 b1 s := by
  have hn' : (3 : ℝ) ≤ n := by exact_mod_cast hn
  set t : Fin n → ℝ := fun i => boxCoxFun lam (y i) with ht
  have h0 : sse x t b0 b1 = 0 := by
    refine Finset.sum_eq_zero fun i _ => ?_
    rw [ht]
    simp only [hfit i]
    ring
  have hS : sse x t (olsIntercept x t) (olsSlope x t) = 0 :=
    le_antisymm (h0 ▸ (C27_ols_optimal x t hx).1 b0 b1) (Finset.sum_nonneg fun i _ => sq_nonneg _)
  have hsig := reduced_sigma2 x t hx hn
  rw [hS, zero_div] at hsig
  constructor
  · refine ⟨"math domain error", ?_⟩
    unfold reducedLogLik
    dsimp only
    have e : ((n : ℝ) - 1) / ((n : ℝ) - 2) * svar (fun i => boxCoxFun lam (y i) - (x i * olsSlope x (fun i => boxCoxFun lam (y i)) +
      olsIntercept x fun i => boxCoxFun lam (y i))) = 0 := hsig
    rw [if_neg (by omega), e, if_pos le_rfl]
  · intro C
    set A := -(n / 2) * Real.log (2 * Real.pi) + (lam - 1) * ∑ i, Real.log (y i) with hA
    refine ⟨Real.exp (-((C - A + 1) / n)), Real.exp_pos _, ?_⟩
    rw [bcTrendLogLik_eq x y hy lam b0 b1 _ (Real.exp_pos _), ← ht, h0, zero_div, Real.log_exp]
    have : (n : ℝ) * (-((C - A + 1) / n)) = -(C - A + 1) := by field_simp
    rw [this]
    linarith

/-- **C206, same maximiser.**  When no exponent puts the signals exactly on a line, an exponent maximises the function exactly when it belongs to a maximiser of the
likelihood in exponent, line and standard deviation together. -/
theorem C206_maximiser (x y : Fin n → ℝ) (hn : 3 ≤ n) (hx : ∃ i j, x i ≠ x j) (hy : ∀ i, 0 < y i)
    (hfit : ∀ lam, ¬ ∃ b0 b1, ∀ i, boxCoxFun lam (y i) = b0 + b1 * x i) (lam : ℝ) :
    (∃ v, reducedLogLik x y lam = .ok v ∧ ∀ mu w, reducedLogLik x y mu = .ok w → w ≤ v) ↔
      ∃ b0 b1 s, 0 < s ∧ ∀ mu c0 c1 u, 0 < u → bcTrendLogLik x y mu c0 c1 u ≤ bcTrendLogLik x y lam b0 b1 s := by
  obtain ⟨v, hv, ⟨b0, b1, s, hs, hatt⟩, hub⟩ := C206_profile x y hn hx hy lam (hfit lam)
  constructor
  · rintro ⟨v', hv', hmax⟩
    rw [hv, Except.ok.injEq] at hv'
    subst hv'
    refine ⟨b0, b1, s, hs, fun mu c0 c1 u hu => ?_⟩
    obtain ⟨w, hw, -, hub'⟩ := C206_profile x y hn hx hy mu (hfit mu)
    have h1 : bcTrendLogLik x y mu c0 c1 u ≤ w + profileConst n := hub' ⟨c0, c1, u, hu, rfl⟩
    have h2 := hmax mu w hw
    linarith
  · rintro ⟨d0, d1, s', hs', hmax⟩
    refine ⟨v, hv, fun mu w hw => ?_⟩
    obtain ⟨w', hw', ⟨c0, c1, u, hu, hatt'⟩, -⟩ := C206_profile x y hn hx hy mu (hfit mu)
    rw [hw, Except.ok.injEq] at hw'
    subst hw'
    have h1 := hmax mu c0 c1 u hu
    have h2 : bcTrendLogLik x y lam d0 d1 s' ≤ v + profileConst n := hub ⟨d0, d1, s', hs', rfl⟩
    linarith

/-- Signals 1, 2, 1 at the sizes 0, 1, 2: no exponent puts them on a line. -/
theorem tent_not_line (lam : ℝ) : ¬ ∃ b0 b1, ∀ i, boxCoxFun lam ((![1, 2, 1] : Fin 3 → ℝ) i) = b0 + b1 * (![0, 1, 2] : Fin 3 → ℝ) i := by
  rintro ⟨b0, b1, h⟩
  have h0 : boxCoxFun lam 1 = b0 + b1 * 0 := h 0
  have h1 : boxCoxFun lam 2 = b0 + b1 * 1 := h 1
  have h2 : boxCoxFun lam 1 = b0 + b1 * 2 := h 2
  have := boxCoxFun_strictMono lam (show (0 : ℝ) < 1 by norm_num) (show (1 : ℝ) < 2 by norm_num)
  linarith

example (lam : ℝ) : ∃ v, reducedLogLik ![0, 1, 2] ![1, 2, 1] lam = .ok v ∧
    IsGreatest {l | ∃ b0 b1 s, 0 < s ∧ l = bcTrendLogLik ![0, 1, 2] ![1, 2, 1] lam b0 b1 s} (v + profileConst 3) :=
  C206_profile _ _ le_rfl ⟨0, 1, by norm_num⟩ (fun i => by fin_cases i <;> norm_num) lam (tent_not_line lam)

example (lam : ℝ) : (∃ v, reducedLogLik ![0, 1, 2] ![1, 2, 1] lam = .ok v ∧ ∀ mu w, reducedLogLik ![0, 1, 2] ![1, 2, 1] mu = .ok w → w ≤ v) ↔
      ∃ b0 b1 s, 0 < s ∧ ∀ mu c0 c1 u, 0 < u → bcTrendLogLik ![0, 1, 2] ![1, 2, 1] mu c0 c1 u ≤ bcTrendLogLik ![0, 1, 2] ![1, 2, 1] lam b0 b1 s :=
  C206_maximiser _ _ le_rfl ⟨0, 1, by norm_num⟩ (fun i => by fin_cases i <;> norm_num) tent_not_line lam

/-- Signals 1, 2, 3 at the sizes 0, 1, 2, exponent 1. -/
example : Raises (reducedLogLik ![0, 1, 2] ![1, 2, 3] 1) .valueError :=
  (C206_perfect_fit _ _ le_rfl ⟨0, 1, by norm_num⟩ (fun i => by fin_cases i <;> norm_num) 1 0 1 (fun i => by fin_cases i <;> norm_num [boxCoxFun])).1

end Verif.Props
