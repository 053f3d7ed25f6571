import Verif.Model.LinearPOD
import Mathlib.RingTheory.Polynomial.Bernstein
import Mathlib.Probability.Distributions.Binomial
import Mathlib.MeasureTheory.Integral.IntervalIntegral.FundThmCalculus
import Mathlib.Analysis.Calculus.Deriv.Polynomial
import Mathlib.Analysis.Calculus.Deriv.MeanValue
import Mathlib.Analysis.SpecialFunctions.Pow.Real
import Mathlib.Topology.Order.IntermediateValue
import Mathlib.Tactic.Linarith
import Mathlib.Tactic.FieldSimp

/-!
# C19–C21: binomial POD and its confidence curve
-/

namespace Verif.Props
open Verif.Py Verif.Model Polynomial ProbabilityTheory unitInterval Set MeasureTheory

/-! ## C19 -/

open Classical in
/-- Number of residuals strictly above a margin (specification: cardinality of an index set). -/
noncomputable def numAbove {N : ℕ} (r : Fin N → ℝ) (t : ℝ) : ℕ :=
  (Finset.univ.filter fun i => t < r i).card

theorem countP_ofFn {N : ℕ} (r : Fin N → ℝ) (t : ℝ) :
    (List.ofFn r).countP (fun x => decide (t < x)) = numAbove r t := by
  classical
  unfold numAbove
  rw [List.ofFn_eq_map, List.countP_map, List.countP_eq_length_filter,
    ← List.toFinset_card_of_nodup ((List.nodup_finRange N).filter _)]
  congr 1
  ext i
  simp

theorem numAbove_le {N : ℕ} (r : Fin N → ℝ) (t : ℝ) : numAbove r t ≤ N := by
  classical
  unfold numAbove
  exact (Finset.card_le_univ _).trans (by simp)

theorem numAbove_anti {N : ℕ} (r : Fin N → ℝ) {t t' : ℝ} (h : t ≤ t') : numAbove r t' ≤ numAbove r t := by
  classical
  unfold numAbove
  apply Finset.card_le_card
  intro i
  simp only [Finset.mem_filter, Finset.mem_univ, true_and]
  intro hi; linarith

theorem podBinomial_eq {N : ℕ} (r : Fin N → ℝ) (det : ℝ) (lin : ℝ → ℝ) (x : ℝ) :
    podBinomial (List.ofFn r) det lin x = (numAbove r (det - lin x) : ℝ) / N := by
  rw [podBinomial, empiricalCCDF, countP_ofFn, List.length_ofFn]

/-- **C19.**  The POD is the proportion of residuals strictly above the margin, lies in [0,1], and is
non-decreasing in the defect for a non-negative slope (non-increasing for a non-positive one). -/
theorem C19_binomial_pod {N : ℕ} (hN : 0 < N) (r : Fin N → ℝ) (det b0 b1 : ℝ) :
    let pod := podBinomial (List.ofFn r) det (fun x => b0 + b1 * x)
    (∀ a, pod a = (numAbove r (det - (b0 + b1 * a)) : ℝ) / N) ∧
    (∀ a, 0 ≤ pod a ∧ pod a ≤ 1) ∧
    (0 ≤ b1 → Monotone pod) ∧ (b1 ≤ 0 → Antitone pod) := by
  intro pod
  have hN' : (0 : ℝ) < N := Nat.cast_pos.mpr hN
  have hp : ∀ a, pod a = (numAbove r (det - (b0 + b1 * a)) : ℝ) / N := fun a => podBinomial_eq r det _ a
  refine ⟨hp, fun a => ?_, fun hb a a' haa => ?_, fun hb a a' haa => ?_⟩
  · rw [hp]
    refine ⟨by positivity, ?_⟩
    rw [div_le_one hN']
    exact_mod_cast numAbove_le r _
  · rw [hp, hp]
    apply div_le_div_of_nonneg_right _ hN'.le
    exact_mod_cast numAbove_anti r (by nlinarith)
  · rw [hp, hp]
    apply div_le_div_of_nonneg_right _ hN'.le
    exact_mod_cast numAbove_anti r (by nlinarith)

/-- The curve takes intermediate values: two residuals, one above the margin. -/
example : numAbove ![(-1 : ℝ), 1] 0 = 1 := by
  rw [← countP_ofFn]
  norm_num [List.ofFn, Fin.foldr, Fin.foldr.loop, List.countP, List.countP.go]

/-! ## Binomial distribution function -/

/-- `P(Bin(N,p) ≤ n)` as a polynomial in `p`. -/
noncomputable def lowPoly (N n : ℕ) : ℝ[X] := ∑ k ∈ Finset.range (n + 1), bernsteinPolynomial ℝ N k

theorem lowPoly_derivative (N n : ℕ) :
    derivative (lowPoly N n) = -(N : ℝ[X]) * bernsteinPolynomial ℝ (N - 1) n := by
  induction n with
  | zero => simp [lowPoly, bernsteinPolynomial.derivative_zero]
  | succ n ih =>
    rw [lowPoly, Finset.sum_range_succ, derivative_add, ← lowPoly, ih, bernsteinPolynomial.derivative_succ]
    ring

theorem bernstein_eval (N k : ℕ) (x : ℝ) :
    (bernsteinPolynomial ℝ N k).eval x = (N.choose k : ℝ) * x ^ k * (1 - x) ^ (N - k) := by
  simp [bernsteinPolynomial]

theorem lowPoly_eval (N n : ℕ) (p : I) : (lowPoly N n).eval (p : ℝ) = Bin(N, p).real {k | k ≤ n} := by
  have : {k : ℕ | k ≤ n} = ((Finset.range (n + 1) : Finset ℕ) : Set ℕ) := by
    ext k; simp [Nat.lt_succ_iff]
  rw [this, ← sum_measureReal_singleton, lowPoly, eval_finsetSum]
  apply Finset.sum_congr rfl
  intro k _
  rw [bernstein_eval, binomial_real_singleton]

theorem lowPoly_zero (N n : ℕ) : (lowPoly N n).eval 0 = 1 := by
  rw [lowPoly, eval_finsetSum]
  simp [bernsteinPolynomial.eval_at_0]

theorem lowPoly_one {N n : ℕ} (h : n < N) : (lowPoly N n).eval 1 = 0 := by
  rw [lowPoly, eval_finsetSum]
  apply Finset.sum_eq_zero
  intro k hk
  rw [Finset.mem_range] at hk
  rw [bernsteinPolynomial.eval_at_1, if_neg (by omega)]

theorem lowPoly_hasDeriv (N n : ℕ) (x : ℝ) :
    HasDerivAt (fun x => (lowPoly N n).eval x) (-(N * (((N - 1).choose n : ℝ) * x ^ n * (1 - x) ^ (N - 1 - n)))) x := by
  have := (lowPoly N n).hasDerivAt x
  rw [lowPoly_derivative] at this
  refine this.congr_deriv ?_
  rw [eval_mul, bernstein_eval]
  simp

theorem lowPoly_strictAnti {N n : ℕ} (h : n < N) :
    StrictAntiOn (fun x => (lowPoly N n).eval x) (Icc 0 1) := by
  apply strictAntiOn_of_deriv_neg (convex_Icc 0 1) (lowPoly N n).continuous.continuousOn
  intro x hx
  rw [interior_Icc] at hx
  rw [(lowPoly_hasDeriv N n x).deriv]
  have h1 : (0 : ℝ) < (N - 1).choose n := by
    exact_mod_cast Nat.choose_pos (by omega)
  have h2 : (0 : ℝ) < N := by exact_mod_cast (by omega : 0 < N)
  have h3 : (0 : ℝ) < x ^ n := pow_pos hx.1 _
  have h4 : (0 : ℝ) < (1 - x) ^ (N - 1 - n) := pow_pos (by linarith [hx.2]) _
  have : 0 < N * (((N - 1).choose n : ℝ) * x ^ n * (1 - x) ^ (N - 1 - n)) := by positivity
  linarith

/-! ## The Beta quantile -/

/-- Contract of `ot.DistFunc.qBeta(a, b, c)`: the point of (0,1) below which the Beta(a, b) density carries the
mass `c` (unnormalised form). -/
def BetaQuantile (a b : ℕ) (c q : ℝ) : Prop :=
  0 < q ∧ q < 1 ∧
    ∫ t in (0 : ℝ)..q, t ^ (a - 1) * (1 - t) ^ (b - 1) = c * ∫ t in (0 : ℝ)..1, t ^ (a - 1) * (1 - t) ^ (b - 1)

/-- The incomplete Beta integral is a binomial probability. -/
theorem betaInt_eq {N n : ℕ} (h : n < N) (q : ℝ) :
    N * ((N - 1).choose n : ℝ) * ∫ t in (0 : ℝ)..q, t ^ (N - n - 1) * (1 - t) ^ (n + 1 - 1)
      = (lowPoly N n).eval (1 - q) := by
  have hd : ∀ x ∈ uIcc (0 : ℝ) q, HasDerivAt (fun x => (lowPoly N n).eval (1 - x))
      (N * ((N - 1).choose n : ℝ) * (x ^ (N - n - 1) * (1 - x) ^ (n + 1 - 1))) x := by
    intro x _
    have h1 := lowPoly_hasDeriv N n (1 - x)
    have h2 : HasDerivAt (fun x : ℝ => 1 - x) (-1) x := by
      simpa using (hasDerivAt_id x).const_sub 1
    have h3 := h1.comp x h2
    refine h3.congr_deriv ?_
    have e : N - 1 - n = N - n - 1 := by omega
    simp only [sub_sub_cancel, Nat.add_sub_cancel, e]
    ring
  have hc : Continuous fun x : ℝ => N * ((N - 1).choose n : ℝ) * (x ^ (N - n - 1) * (1 - x) ^ (n + 1 - 1)) := by
    fun_prop
  rw [← intervalIntegral.integral_const_mul, intervalIntegral.integral_eq_sub_of_hasDerivAt hd
    (hc.intervalIntegrable _ _)]
  simp [lowPoly_one h]

/-- A Beta quantile in terms of the binomial law. -/
theorem betaQuantile_iff {N n : ℕ} (h : n < N) (c q : ℝ) :
    BetaQuantile (N - n) (n + 1) c q ↔ 0 < q ∧ q < 1 ∧ (lowPoly N n).eval (1 - q) = c := by
  have hk : (N * ((N - 1).choose n : ℝ)) ≠ 0 := by
    have h1 : 0 < (N - 1).choose n := Nat.choose_pos (by omega)
    have h2 : 0 < N := by omega
    positivity
  have e1 := betaInt_eq h q
  have e2 := betaInt_eq h 1
  rw [sub_self, lowPoly_zero] at e2
  unfold BetaQuantile
  refine and_congr_right fun _ => and_congr_right fun _ => ?_
  rw [← mul_right_inj' hk, e1]
  constructor
  · intro hh; rw [hh]; linear_combination c * e2
  · intro hh; rw [hh]; linear_combination -c * e2

/-- The contract is satisfiable for every level in (0,1). -/
theorem betaQuantile_exists {N n : ℕ} (h : n < N) {c : ℝ} (hc : 0 < c) (hc1 : c < 1) :
    ∃ q, BetaQuantile (N - n) (n + 1) c q := by
  have hcont : ContinuousOn (fun x => (lowPoly N n).eval x) (Icc 0 1) := (lowPoly N n).continuous.continuousOn
  have := intermediate_value_Icc' (zero_le_one) hcont
  obtain ⟨p, hp, hpc⟩ := this (show c ∈ Icc ((lowPoly N n).eval 1) ((lowPoly N n).eval 0) by
    rw [lowPoly_one h, lowPoly_zero]; exact ⟨hc.le, hc1.le⟩)
  refine ⟨1 - p, (betaQuantile_iff h c _).mpr ⟨?_, ?_, by simpa using hpc⟩⟩
  · have : p ≠ 1 := by rintro rfl; simp only [lowPoly_one h] at hpc; linarith
    have := lt_of_le_of_ne hp.2 this; linarith
  · have : p ≠ 0 := by rintro rfl; simp only [lowPoly_zero] at hpc; linarith
    have := lt_of_le_of_ne hp.1 (Ne.symm this); linarith

/-- Contract of the external function `qBeta`. -/
def QBetaSpec (qBeta : ℕ → ℕ → ℝ → ℝ) : Prop :=
  ∀ a b c, 1 ≤ a → 1 ≤ b → 0 < c → c < 1 → BetaQuantile a b c (qBeta a b c)

theorem qBetaSpec_nonempty : ∃ qBeta, QBetaSpec qBeta := by
  classical
  refine ⟨fun a b c => if h : ∃ q, BetaQuantile a b c q then h.choose else 0, ?_⟩
  intro a b c ha hb hc hc1
  have h : ∃ q, BetaQuantile a b c q := by
    have := betaQuantile_exists (N := a + b - 1) (n := b - 1) (by omega) hc hc1
    rwa [show a + b - 1 - (b - 1) = a by omega, show b - 1 + 1 = b by omega] at this
  simp only [h, dif_pos]
  exact h.choose_spec

/-! ## The confidence curve -/

theorem podBinomialCl_eq (qBeta : ℕ → ℕ → ℝ → ℝ) {N : ℕ} (hN : 0 < N) (r : Fin N → ℝ) (det : ℝ) (lin : ℝ → ℝ)
    (c x : ℝ) :
    podBinomialCl qBeta (List.ofFn r) det lin c x =
      if numAbove r (det - lin x) = N then c ^ ((1 : ℝ) / N)
      else 1 - qBeta (N - numAbove r (det - lin x)) (numAbove r (det - lin x) + 1) c := by
  have hN' : (N : ℝ) ≠ 0 := by exact_mod_cast hN.ne'
  have h : (pyInt ((N : ℝ) * ((numAbove r (det - lin x) : ℝ) / N))).toNat = numAbove r (det - lin x) := by
    rw [mul_div_cancel₀ _ hN', pyInt, if_pos (by positivity)]
    simp
  unfold podBinomialCl
  simp only [empiricalCCDF, countP_ofFn, List.length_ofFn, h]

/-- The lower Clopper–Pearson bound at level `c` for `n` successes out of `N` (specification). -/
def IsClopperPearsonLower (N n : ℕ) (c : ℝ) (p : I) : Prop := Bin(N, p).real {k | n ≤ k} = 1 - c

theorem upper_eq (N n : ℕ) (p : I) : Bin(N, p).real {k | n + 1 ≤ k} = 1 - Bin(N, p).real {k | k ≤ n} := by
  have : {k : ℕ | n + 1 ≤ k} = {k | k ≤ n}ᶜ := by
    ext k; simp only [Set.mem_ofPred_eq, Set.mem_compl_iff]; omega
  rw [this, probReal_compl_eq_one_sub (by measurability)]

/-- Value of the curve when `n < N` residuals exceed the margin. -/
theorem cl_lt (qBeta : ℕ → ℕ → ℝ → ℝ) (hq : QBetaSpec qBeta) {N n : ℕ} (h : n < N) {c : ℝ} (hc : 0 < c)
    (hc1 : c < 1) :
    0 < 1 - qBeta (N - n) (n + 1) c ∧ 1 - qBeta (N - n) (n + 1) c < 1 ∧
      (lowPoly N n).eval (1 - qBeta (N - n) (n + 1) c) = c := by
  have := (betaQuantile_iff h c _).mp (hq (N - n) (n + 1) c (by omega) (by omega) hc hc1)
  exact ⟨by linarith [this.2.1], by linarith [this.1], this.2.2⟩

/-- **C20 (what the code computes).**  With `n < N` detections the value `p` is the unique number with
`P(Bin(N,p) ≥ n+1) = 1-c`, i.e. the Clopper–Pearson lower bound for one detection more than observed; with
`n = N` it is the number with `p^N = c`.  The full statement (the bound for `n` detections) is false. -/
theorem C20_confidence_value_partial (qBeta : ℕ → ℕ → ℝ → ℝ) (hq : QBetaSpec qBeta) {N : ℕ} (hN : 0 < N)
    (r : Fin N → ℝ) (det : ℝ) (lin : ℝ → ℝ) (c : ℝ) (hc : 0 < c) (hc1 : c < 1) (x : ℝ) :
    let n := numAbove r (det - lin x)
    let v := podBinomialCl qBeta (List.ofFn r) det lin c x
    ∃ p : I, (p : ℝ) = v ∧ 0 < v ∧ v < 1 ∧
      (n < N → IsClopperPearsonLower N (n + 1) c p ∧ ∀ p', IsClopperPearsonLower N (n + 1) c p' → p' = p) ∧
      (n = N → Bin(N, p).real {k | N ≤ k} = c) := by
  intro n v
  have hv : v = if n = N then c ^ ((1 : ℝ) / N) else 1 - qBeta (N - n) (n + 1) c :=
    podBinomialCl_eq qBeta hN r det lin c x
  have hle : n ≤ N := numAbove_le r _
  rcases hle.lt_or_eq with h | h
  · rw [if_neg h.ne] at hv
    obtain ⟨h0, h1, h2⟩ := cl_lt qBeta hq h hc hc1
    rw [← hv] at h0 h1 h2
    refine ⟨⟨v, h0.le, h1.le⟩, rfl, h0, h1, fun _ => ⟨?_, fun p' hp' => ?_⟩, fun h' => absurd h' h.ne⟩
    · unfold IsClopperPearsonLower
      rw [upper_eq, ← lowPoly_eval, h2]
    · unfold IsClopperPearsonLower at hp'
      rw [upper_eq, ← lowPoly_eval] at hp'
      apply Subtype.ext
      apply (lowPoly_strictAnti h).injOn p'.2 ⟨h0.le, h1.le⟩
      simp only
      linarith
  · rw [if_pos h] at hv
    have hN' : (N : ℝ) ≠ 0 := by exact_mod_cast hN.ne'
    have h0 : 0 < v := by rw [hv]; exact Real.rpow_pos_of_pos hc _
    have h1 : v < 1 := by rw [hv]; exact Real.rpow_lt_one hc.le hc1 (by positivity)
    refine ⟨⟨v, h0.le, h1.le⟩, rfl, h0, h1, fun h' => absurd h h'.ne, fun _ => ?_⟩
    have hpow : v ^ N = c := by
      rw [hv, ← Real.rpow_natCast, ← Real.rpow_mul hc.le, one_div_mul_cancel hN', Real.rpow_one]
    obtain ⟨M, rfl⟩ : ∃ M, N = M + 1 := ⟨N - 1, by omega⟩
    rw [upper_eq, ← lowPoly_eval]
    have hs : lowPoly (M + 1) (M + 1) = 1 := bernsteinPolynomial.sum ℝ (M + 1)
    rw [lowPoly, Finset.sum_range_succ, ← lowPoly] at hs
    have := congrArg (Polynomial.eval v) hs
    rw [eval_add, bernstein_eval] at this
    simp at this
    simp only
    linarith

/-- **C20 is violated**: for every sample with at least one and not all residuals above the margin, and every level,
the curve is strictly above the Clopper–Pearson lower bound; with all residuals above it differs from the bound
unless the level is 1/2. -/
theorem C20_violated (qBeta : ℕ → ℕ → ℝ → ℝ) (hq : QBetaSpec qBeta) {N : ℕ} (hN : 0 < N)
    (r : Fin N → ℝ) (det : ℝ) (lin : ℝ → ℝ) (c : ℝ) (hc : 0 < c) (hc1 : c < 1) (x : ℝ) (p : I)
    (hn : 1 ≤ numAbove r (det - lin x)) (hp : IsClopperPearsonLower N (numAbove r (det - lin x)) c p) :
    (numAbove r (det - lin x) < N → (p : ℝ) < podBinomialCl qBeta (List.ofFn r) det lin c x) ∧
    (numAbove r (det - lin x) = N → c ≠ 1 / 2 → (p : ℝ) ≠ podBinomialCl qBeta (List.ofFn r) det lin c x) := by
  obtain ⟨v, hv, h0, h1, hlt, heq⟩ := C20_confidence_value_partial qBeta hq hN r det lin c hc hc1 x
  rw [← hv] at h0 h1 ⊢
  constructor
  · intro h
    obtain ⟨hcp, -⟩ := hlt h
    by_contra hle
    push Not at hle
    obtain ⟨m, hm⟩ : ∃ m, numAbove r (det - lin x) = m + 1 := ⟨numAbove r (det - lin x) - 1, by omega⟩
    rw [hm] at hcp hp h
    unfold IsClopperPearsonLower at hcp hp
    rw [upper_eq, ← lowPoly_eval] at hcp hp
    -- P_p(≤ m) = c, P_v(≤ m+1) = c, v ≤ p
    have h2 : (lowPoly N (m + 1)).eval (v : ℝ) = (lowPoly N m).eval (v : ℝ)
        + (N.choose (m + 1) : ℝ) * (v : ℝ) ^ (m + 1) * (1 - v) ^ (N - (m + 1)) := by
      rw [lowPoly, Finset.sum_range_succ, ← lowPoly, eval_add, bernstein_eval]
    have h3 : 0 < (N.choose (m + 1) : ℝ) * (v : ℝ) ^ (m + 1) * (1 - v) ^ (N - (m + 1)) := by
      have a : (0 : ℝ) < N.choose (m + 1) := by exact_mod_cast Nat.choose_pos (by omega)
      have b : (0 : ℝ) < (v : ℝ) ^ (m + 1) := pow_pos h0 _
      have d : (0 : ℝ) < (1 - (v : ℝ)) ^ (N - (m + 1)) := pow_pos (by linarith) _
      positivity
    have h4 := (lowPoly_strictAnti (show m < N by omega)).antitoneOn v.2 p.2 hle
    linarith
  · intro h hhalf hpe
    have := heq h
    rw [h] at hp
    unfold IsClopperPearsonLower at hp
    have hpv : p = v := Subtype.ext hpe
    rw [hpv, this] at hp
    exact hhalf (by linarith)

/-- The bound exists for `n ≥ 1`, so the hypothesis of `C20_violated` can be met: one success out of one, level 1/4. -/
example : IsClopperPearsonLower 1 1 (1 / 4) ⟨3 / 4, by norm_num, by norm_num⟩ := by
  unfold IsClopperPearsonLower
  rw [upper_eq 1 0, ← lowPoly_eval]
  simp [lowPoly, bernstein_eval]
  norm_num

/-! ## C21 -/

/-- The limit grows strictly with the number of detections (for the last step when the level is more than one half). -/
theorem cl_count_lt (qBeta : ℕ → ℕ → ℝ → ℝ) (hq : QBetaSpec qBeta) {N j k₁ : ℕ} {c : ℝ} (h : j < k₁) (hkN : k₁ ≤ N) (hc : 0 < c)
    (hc1 : c < 1) (hor : k₁ < N ∨ 1 / 2 < c) :
    1 - qBeta (N - j) (j + 1) c < if k₁ = N then c ^ ((1 : ℝ) / N) else 1 - qBeta (N - k₁) (k₁ + 1) c := by
  have hxN : j < N := lt_of_lt_of_le h hkN
  have hN' : (0 : ℝ) < N := by exact_mod_cast (Nat.zero_le j).trans_lt hxN
  obtain ⟨a0, a1, a2⟩ := cl_lt qBeta hq hxN hc hc1
  set a := 1 - qBeta (N - j) (j + 1) c with ha
  -- at `a`, P(≤ m) > c for every larger m
  have hstep : ∀ m, j < m → m ≤ N → c < (lowPoly N m).eval a := by
    intro m hm hmN
    have : (lowPoly N m).eval a = (lowPoly N (j)).eval a
        + ∑ k ∈ Finset.Ico (j + 1) (m + 1), (bernsteinPolynomial ℝ N k).eval a := by
      simp only [lowPoly, eval_finsetSum]
      rw [Finset.sum_range_add_sum_Ico _ (by omega)]
    rw [this, a2]
    have : 0 < ∑ k ∈ Finset.Ico (j + 1) (m + 1), (bernsteinPolynomial ℝ N k).eval a := by
      apply Finset.sum_pos
      · intro k hk
        rw [Finset.mem_Ico] at hk
        rw [bernstein_eval]
        have b1 : (0 : ℝ) < N.choose k := by exact_mod_cast Nat.choose_pos (by omega)
        have b2 : (0 : ℝ) < a ^ k := pow_pos a0 _
        have b3 : (0 : ℝ) < (1 - a) ^ (N - k) := pow_pos (by linarith) _
        positivity
      · exact ⟨j + 1, by rw [Finset.mem_Ico]; omega⟩
    linarith
  rcases hkN.lt_or_eq with hy | hy
  · obtain ⟨b0, b1, b2⟩ := cl_lt qBeta hq hy hc hc1
    rw [if_neg hy.ne]
    have h3 := hstep (k₁) h hy.le
    by_contra hle
    push Not at hle
    have := (lowPoly_strictAnti hy).antitoneOn ⟨b0.le, b1.le⟩ ⟨a0.le, a1.le⟩ hle
    linarith
  · have hhalf : 1 / 2 < c := by
      rcases hor with h' | h'
      · exact absurd hy h'.ne
      · exact h'
    rw [if_pos hy]
    -- a^N ≤ 1 - c... at a: 1 - a^N = P(≤ N-1) ≥ c
    have h5 : c ≤ (lowPoly N (N - 1)).eval a := by
      rcases (Nat.le_sub_one_of_lt hxN).lt_or_eq with h' | h'
      · exact (hstep (N - 1) h' (by omega)).le
      · rw [← h', a2]
    have hs : lowPoly N N = 1 := bernsteinPolynomial.sum ℝ N
    have h6 : (lowPoly N (N - 1)).eval a = 1 - a ^ N := by
      obtain ⟨M, rfl⟩ : ∃ M, N = M + 1 := ⟨N - 1, by omega⟩
      rw [lowPoly, Finset.sum_range_succ, ← lowPoly] at hs
      have := congrArg (Polynomial.eval a) hs
      rw [eval_add, bernstein_eval] at this
      simp at this
      simp only [Nat.add_sub_cancel]
      linarith
    have h7 : a ^ N < c := by
      rw [h6] at h5; linarith
    have h8 : a = (a ^ N) ^ ((1 : ℝ) / N) := by
      rw [← Real.rpow_natCast, ← Real.rpow_mul a0.le, mul_one_div_cancel hN'.ne', Real.rpow_one]
    rw [h8]
    exact Real.rpow_lt_rpow (by positivity) h7 (by positivity)

/-- **C21 (restricted).**  With fewer than `N` detections the curve decreases strictly in the level; it increases
strictly with the number of detections (the step to `N` detections needs a level above 1/2); and it is at most
the POD itself iff `P(Bin(N, n/N) ≤ n) ≤ c`.  The full statement fails for 0 and for `N` detections. -/
theorem C21_confidence_curve_partial (qBeta : ℕ → ℕ → ℝ → ℝ) (hq : QBetaSpec qBeta) {N : ℕ} (hN : 0 < N)
    (r : Fin N → ℝ) (det : ℝ) (lin : ℝ → ℝ) (c c' : ℝ) (hc : 0 < c) (hc1 : c < 1) (hc' : c' < 1) (x y : ℝ) :
    let n := fun x => numAbove r (det - lin x)
    let cl := podBinomialCl qBeta (List.ofFn r) det lin
    (n x < N → c < c' → cl c' x < cl c x) ∧
    (n x < n y → n y < N ∨ 1 / 2 < c → cl c x < cl c y) ∧
    (∀ p : I, n x < N → (p : ℝ) = podBinomial (List.ofFn r) det lin x →
      (cl c x ≤ podBinomial (List.ofFn r) det lin x ↔ Bin(N, p).real {k | k ≤ n x} ≤ c)) := by
  intro n cl
  have hN' : (0 : ℝ) < N := by exact_mod_cast hN
  have hv : ∀ c x, cl c x = if n x = N then c ^ ((1 : ℝ) / N) else 1 - qBeta (N - n x) (n x + 1) c :=
    fun c x => podBinomialCl_eq qBeta hN r det lin c x
  refine ⟨fun h hcc => ?_, fun h hor => ?_, fun p h hp => ?_⟩
  · obtain ⟨a0, a1, a2⟩ := cl_lt qBeta hq h hc hc1
    obtain ⟨b0, b1, b2⟩ := cl_lt qBeta hq h (hc.trans hcc) hc'
    rw [hv, hv, if_neg h.ne, if_neg h.ne]
    by_contra hle
    push Not at hle
    have := (lowPoly_strictAnti h).antitoneOn ⟨a0.le, a1.le⟩ ⟨b0.le, b1.le⟩ hle
    linarith
  · rw [hv, hv]
    exact (if_neg (lt_of_lt_of_le h (numAbove_le r _)).ne).trans_lt (cl_count_lt qBeta hq h (numAbove_le r _) hc hc1 hor)
  · obtain ⟨a0, a1, a2⟩ := cl_lt qBeta hq h hc hc1
    rw [hv, if_neg h.ne, ← lowPoly_eval, ← hp]
    constructor
    · intro hle
      have := (lowPoly_strictAnti h).antitoneOn ⟨a0.le, a1.le⟩ p.2 hle
      linarith
    · intro hle
      by_contra hgt
      push Not at hgt
      have := lowPoly_strictAnti h p.2 ⟨a0.le, a1.le⟩ hgt
      linarith

/-- **C21 is violated**: without any detection the POD is 0 but its confidence curve is positive, whatever the level;
with detections everywhere the curve *increases* with the level. -/
theorem C21_violated (qBeta : ℕ → ℕ → ℝ → ℝ) (hq : QBetaSpec qBeta) {N : ℕ} (hN : 0 < N)
    (r : Fin N → ℝ) (det : ℝ) (lin : ℝ → ℝ) (c c' : ℝ) (hc : 0 < c) (hc1 : c < 1) (hcc : c < c') (x : ℝ) :
    ((∀ i, r i ≤ det - lin x) → podBinomial (List.ofFn r) det lin x = 0 ∧
      0 < podBinomialCl qBeta (List.ofFn r) det lin c x) ∧
    ((∀ i, det - lin x < r i) →
      podBinomialCl qBeta (List.ofFn r) det lin c x < podBinomialCl qBeta (List.ofFn r) det lin c' x) := by
  classical
  constructor
  · intro h
    obtain ⟨p, -, h0, -⟩ := C20_confidence_value_partial qBeta hq hN r det lin c hc hc1 x
    refine ⟨?_, h0⟩
    rw [podBinomial_eq]
    have : numAbove r (det - lin x) = 0 := by
      unfold numAbove
      rw [Finset.card_eq_zero, Finset.filter_eq_empty_iff]
      intro i _; exact not_lt.mpr (h i)
    rw [this]; simp
  · intro h
    have : numAbove r (det - lin x) = N := by
      unfold numAbove
      rw [Finset.filter_true_of_mem (fun i _ => h i)]; simp
    rw [podBinomialCl_eq qBeta hN, podBinomialCl_eq qBeta hN, if_pos this, if_pos this]
    exact Real.rpow_lt_rpow hc.le hcc (by positivity)

example : (∀ i, ![(-1 : ℝ), -2] i ≤ 0 - 0) ∧ (∀ i, (0 : ℝ) - 0 < ![(1 : ℝ), 2] i) := by
  constructor <;> intro i <;> fin_cases i <;> norm_num

end Verif.Props
