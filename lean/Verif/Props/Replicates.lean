import Verif.Props.SignalOutlier
import Verif.Props.QrOutlier

/-!
# C198: recording every observation several times
-/

namespace Verif.Props
open Verif.Py Verif.Model

variable {n : ℕ}

/-- Every value of `f` repeated `k` times. -/
def repeated (k : ℕ) (f : Fin n → ℝ) : Fin (n * k) → ℝ := fun i => f (finProdFinEquiv.symm i).1

theorem sum_repeated (k : ℕ) (f : Fin n → ℝ) : ∑ i, repeated k f i = k * ∑ i, f i := by
  rw [← Equiv.sum_comp finProdFinEquiv, Fintype.sum_prod_type, Finset.mul_sum]
  simp [repeated]

theorem sum_repeated₂ (k : ℕ) (f g : Fin n → ℝ) (F : ℝ → ℝ → ℝ) :
    ∑ i, F (repeated k f i) (repeated k g i) = k * ∑ i, F (f i) (g i) :=
  sum_repeated k fun i => F (f i) (g i)

theorem smean_repeated (k : ℕ) (hk : 0 < k) (f : Fin n → ℝ) : smean (repeated k f) = smean f := by
  have hk' : (k : ℝ) ≠ 0 := by exact_mod_cast hk.ne'
  rw [smean, sum_repeated, smean]
  push_cast
  rw [mul_comm (n : ℝ), mul_div_mul_left _ _ hk']

theorem slope_repeated (k : ℕ) (hk : 0 < k) (x y : Fin n → ℝ) : olsSlope (repeated k x) (repeated k y) = olsSlope x y := by
  have hk' : (k : ℝ) ≠ 0 := by exact_mod_cast hk.ne'
  rw [olsSlope, smean_repeated k hk, smean_repeated k hk, sum_repeated₂ k x y fun u v => (u - smean x) * (v - smean y),
    sum_repeated₂ k x y fun u _ => (u - smean x) ^ 2, mul_div_mul_left _ _ hk', olsSlope]

theorem intercept_repeated (k : ℕ) (hk : 0 < k) (x y : Fin n → ℝ) : olsIntercept (repeated k x) (repeated k y) = olsIntercept x y := by
  rw [olsIntercept, smean_repeated k hk, smean_repeated k hk, slope_repeated k hk, olsIntercept]

theorem scale_repeated (k : ℕ) (hk : 0 < k) (x y : Fin n → ℝ) :
    linearScale (repeated k x) (repeated k y) = k * (∑ i, olsResiduals x y i ^ 2) / (n * k - 2) := by
  have h := sum_repeated₂ k x y fun u v => (v - (olsIntercept x y + olsSlope x y * u)) ^ 2
  simp only [linearScale, olsResiduals, slope_repeated k hk, intercept_repeated k hk]
  rw [h]
  push_cast
  rfl

/-- **C198 (binomial model).**  Recording every observation `k` times does not change the line and the binomial POD. -/
theorem C198_binomial_partial (k : ℕ) (hk : 0 < k) (x y : Fin n → ℝ) (det a : ℝ) :
    olsIntercept (repeated k x) (repeated k y) + olsSlope (repeated k x) (repeated k y) * a = olsIntercept x y + olsSlope x y * a ∧
    binomialPodOf (repeated k x) (repeated k y) det a = binomialPodOf x y det a := by
  have hk' : (k : ℝ) ≠ 0 := by exact_mod_cast hk.ne'
  refine ⟨by rw [intercept_repeated k hk, slope_repeated k hk], ?_⟩
  rw [binomial_shifted, binomial_shifted, slope_repeated k hk,
    sum_repeated₂ k x y fun u v => if det < v + olsSlope x y * (a - u) then (1 : ℝ) else 0]
  push_cast
  rw [mul_comm (n : ℝ), mul_div_mul_left _ _ hk']

/-- **C198 is violated** by the Gaussian model: for every data set that does not lie on a line, recording the observations `k ≥ 2` times raises the POD at
every size where the line is above the threshold and lowers it where the line is below. -/
theorem C198_violated (k : ℕ) (hk : 2 ≤ k) (x y : Fin n → ℝ) (hx : ∃ i j, x i ≠ x j) (hy : 0 < linearStderr x y) (hn : 2 < n) (det a : ℝ) :
    (det < olsIntercept x y + olsSlope x y * a → gaussPodOf x y det a < gaussPodOf (repeated k x) (repeated k y) det a) ∧
    (olsIntercept x y + olsSlope x y * a < det → gaussPodOf (repeated k x) (repeated k y) det a < gaussPodOf x y det a) := by
  have hk0 : 0 < k := by omega
  have hkR : (2 : ℝ) ≤ k := by exact_mod_cast hk
  have hnR : (2 : ℝ) < n := by exact_mod_cast hn
  have hx' : ∃ i j, repeated k x i ≠ repeated k x j := by
    obtain ⟨i, j, h⟩ := hx
    refine ⟨finProdFinEquiv (i, ⟨0, hk0⟩), finProdFinEquiv (j, ⟨0, hk0⟩), ?_⟩
    simpa [repeated] using h
  have hS := sxx_pos x hx
  set R := ∑ i, olsResiduals x y i ^ 2 with hR
  have hRpos : 0 < R := by
    rw [linearStderr, Real.sqrt_pos, linearScale, ← hR] at hy
    by_contra h
    have : R / ((n : ℝ) - 2) ≤ 0 := div_nonpos_of_nonpos_of_nonneg (not_lt.1 h) (by linarith)
    linarith
  have hsc : 0 < linearScale x y := Real.sqrt_pos.1 hy
  have hsc' : 0 < linearScale (repeated k x) (repeated k y) := by
    rw [scale_repeated k hk0, ← hR]
    exact div_pos (by positivity) (by nlinarith)
  have hv : predictionVariance x (linearStderr x y) a = R / (n - 2) * (1 + lev x a) := by
    rw [predictionVariance_eq x _ a hx, linearStderr, Real.sq_sqrt hsc.le, linearScale, lev, ← hR]
  have hv' : predictionVariance (repeated k x) (linearStderr (repeated k x) (repeated k y)) a = k * R / (n * k - 2) * (1 + lev x a / k) := by
    rw [predictionVariance_eq _ _ a hx', linearStderr, Real.sq_sqrt hsc'.le, scale_repeated k hk0, ← hR, smean_repeated k hk0,
      sum_repeated₂ k x y fun u _ => (u - smean x) ^ 2, lev]
    push_cast
    field_simp
  have hlev : 0 < lev x a := by rw [lev]; positivity
  have hlt : k * R / (n * k - 2) * (1 + lev x a / k) < R / (n - 2) * (1 + lev x a) := by
    have h1 : k * R / (n * k - 2) < R / (n - 2) := by
      rw [div_lt_div_iff₀ (by nlinarith) (by linarith)]
      nlinarith
    have h2 : lev x a / k ≤ lev x a := div_le_self hlev.le (by linarith)
    have h3 : 0 < k * R / (n * k - 2) := div_pos (by positivity) (by nlinarith)
    have h4 : 0 ≤ lev x a / k := by positivity
    nlinarith
  have hpos' : 0 < k * R / (n * k - 2) * (1 + lev x a / k) := mul_pos (div_pos (by positivity) (by nlinarith)) (by positivity)
  set w := Real.sqrt (predictionVariance (repeated k x) (linearStderr (repeated k x) (repeated k y)) a) with hw
  set v := Real.sqrt (predictionVariance x (linearStderr x y) a) with hvv
  have hw0 : 0 < w := by rw [hw, hv']; exact Real.sqrt_pos.2 hpos'
  have hwv : w < v := by rw [hw, hvv, hv, hv']; exact Real.sqrt_lt_sqrt hpos'.le hlt
  simp only [gaussPodOf, podGauss, PhiC_eq, intercept_repeated k hk0, slope_repeated k hk0, ← hw, ← hvv]
  set L := olsIntercept x y + olsSlope x y * a
  constructor
  · intro hd
    have : (det - L) / w < (det - L) / v := by
      rw [div_lt_div_iff₀ hw0 (hw0.trans hwv)]
      exact mul_lt_mul_of_neg_left hwv (by linarith)
    linarith [Phi_strictMono this]
  · intro hd
    have : (det - L) / v < (det - L) / w := div_lt_div_of_pos_left (by linarith) hw0 hwv
    linarith [Phi_strictMono this]

/-! ## Quantile regression -/

/-- A list written `k` times. -/
def repeatedList (k : ℕ) (obs : List (ℝ × ℝ)) : List (ℝ × ℝ) := (List.replicate k obs).flatten

theorem loss_repeated (tau : ℝ) (k : ℕ) (obs : List (ℝ × ℝ)) (b0 b1 : ℝ) : quantLoss tau (repeatedList k obs) b0 b1 = k * quantLoss tau obs b0 b1 := by
  induction k with
  | zero => simp [repeatedList, quantLoss]
  | succ k ih =>
    rw [repeatedList, quantLoss] at ih ⊢
    rw [List.replicate_succ, List.flatten_cons, List.map_append, List.sum_append, ih, quantLoss]
    push_cast
    ring

theorem mem_repeated (k : ℕ) (hk : 0 < k) (obs : List (ℝ × ℝ)) (o : ℝ × ℝ) : o ∈ repeatedList k obs ↔ o ∈ obs := by
  simp only [repeatedList, List.mem_flatten, List.mem_replicate]
  constructor
  · rintro ⟨l, ⟨-, rfl⟩, h⟩; exact h
  · intro h; exact ⟨obs, ⟨hk.ne', rfl⟩, h⟩

theorem sampleMax_repeated (k : ℕ) (hk : 0 < k) (obs : List (ℝ × ℝ)) :
    sampleMax ((repeatedList k obs).map Prod.fst) = sampleMax (obs.map Prod.fst) := by
  cases hobs : obs with
  | nil => simp [repeatedList]
  | cons o l =>
    obtain ⟨m, hm⟩ : ∃ m, sampleMax ((o :: l).map Prod.fst) = .ok m := ⟨_, rfl⟩
    obtain ⟨m', hm'⟩ : ∃ m', sampleMax ((repeatedList k (o :: l)).map Prod.fst) = .ok m' := by
      obtain ⟨j, rfl⟩ := Nat.exists_eq_succ_of_ne_zero hk.ne'
      rw [repeatedList, List.replicate_succ, List.flatten_cons, List.cons_append]
      exact ⟨_, rfl⟩
    rw [hm, hm']
    obtain ⟨a1, a2⟩ := sampleMax_spec hm
    obtain ⟨b1, b2⟩ := sampleMax_spec hm'
    have key : ∀ t, t ∈ (repeatedList k (o :: l)).map Prod.fst ↔ t ∈ (o :: l).map Prod.fst := fun t => by
      simp only [List.mem_map]
      constructor
      · rintro ⟨p, hp, rfl⟩; exact ⟨p, (mem_repeated k hk _ p).1 hp, rfl⟩
      · rintro ⟨p, hp, rfl⟩; exact ⟨p, (mem_repeated k hk _ p).2 hp, rfl⟩
    rw [Except.ok.injEq]
    exact le_antisymm (a2 ((key _).1 b1)) (b2 ((key _).2 a1))

/-- **C198 (quantile regression).**  Recording every observation `k` times does not change the POD curve of `run` and the detection sizes at its levels. -/
theorem C198_quantile_partial {G : Type} (env : QrEnv G) (hex : ∀ obs tau, 0 < tau → tau < 1 → QuantRegExact env.quantReg obs tau) (obs : List (ℝ × ℝ)) (det : ℝ)
    (qs : List ℝ) (hqs : ∀ p ∈ qs, 0 < p ∧ p < 1) (hu : ∀ p ∈ qs, OnlyBest (1 - p) obs (env.quantReg obs (1 - p))) (k : ℕ) (hk : 0 < k)
    (bs bs' : List (List (ℝ × ℝ))) (s : QrAttrs G) :
    (qrPodRun env ⟨repeatedList k obs, det, none, none, false, false, qs⟩ bs' s).2.pod
      = (qrPodRun env ⟨obs, det, none, none, false, false, qs⟩ bs s).2.pod ∧
    ∀ p ∈ qs, ∀ lo hi, qrDetectionSize env.pick (env.quantReg (repeatedList k obs)) det lo hi p
      = qrDetectionSize env.pick (env.quantReg obs) det lo hi p := by
  have hkR : (0 : ℝ) < k := by exact_mod_cast hk
  have hl : ∀ p ∈ qs, (env.quantReg (repeatedList k obs) (1 - p)).intercept = (env.quantReg obs (1 - p)).intercept ∧
      (env.quantReg (repeatedList k obs) (1 - p)).slope = (env.quantReg obs (1 - p)).slope := by
    intro p hp
    refine hu p hp _ _ ?_
    have h := hex (repeatedList k obs) (1 - p) (by linarith [(hqs p hp).2]) (by linarith [(hqs p hp).1])
      (env.quantReg obs (1 - p)).intercept (env.quantReg obs (1 - p)).slope
    rw [loss_repeated, loss_repeated] at h
    exact le_of_mul_le_mul_left h hkR
  constructor
  · simp only [qrPodRun, podRun, Bool.false_eq_true, if_false, Option.getD_some]
    rw [sampleMax_repeated k hk]
    cases hm : sampleMax (obs.map Prod.fst) with
    | error er => rfl
    | ok mx =>
      dsimp only
      rw [solve_same env.pick (env.quantReg obs) (env.quantReg (repeatedList k obs)) det 0 mx qs hl]
      cases hq : qrSolveAll env.pick (env.quantReg obs) det 0 mx qs with
      | error er => rfl
      | ok ds =>
        dsimp only
        cases hcv : qrCurve ds qs mx with
        | error er => rfl
        | ok g =>
          dsimp only
          rw [(qrBootstrap_ok env _ _ _ _ _).2.1, (qrBootstrap_ok env _ _ _ _ _).2.1]
  · intro p hp lo hi
    obtain ⟨g0, g1⟩ := hl p hp
    unfold qrDetectionSize brentLine qrFitFor
    rw [g0, g1]

/-- Sizes 0, 1, 2, 3 with signals 0, 2, 2, 4 recorded twice, threshold 1: the POD at size 2 (line at 2.6) rises. -/
example : gaussPodOf ![0, 1, 2, 3] ![0, 2, 2, 4] 1 2 < gaussPodOf (repeated 2 ![0, 1, 2, 3]) (repeated 2 ![0, 2, 2, 4]) 1 2 := by
  have e1 : (![0, 1, 2, 3] : Fin 4 → ℝ) 2 = 2 := rfl
  have e2 : (![0, 1, 2, 3] : Fin 4 → ℝ) 3 = 3 := rfl
  have e3 : (![0, 2, 2, 4] : Fin 4 → ℝ) 2 = 2 := rfl
  have e4 : (![0, 2, 2, 4] : Fin 4 → ℝ) 3 = 4 := rfl
  refine (C198_violated 2 le_rfl ![0, 1, 2, 3] ![0, 2, 2, 4] ⟨0, 1, by simp⟩ ?_ (by norm_num) 1 2).1 ?_
  · rw [linearStderr, Real.sqrt_pos, linearScale]
    refine div_pos ?_ (by norm_num)
    simp only [olsResiduals, olsIntercept, olsSlope, smean, Fin.sum_univ_four, e1, e2, e3, e4]
    norm_num
  · simp only [olsIntercept, olsSlope, smean, Fin.sum_univ_four, e1, e2, e3, e4]
    norm_num

end Verif.Props
