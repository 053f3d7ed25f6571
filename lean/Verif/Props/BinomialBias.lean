import Verif.Props.Predictive
import Mathlib.Algebra.Order.Chebyshev

/-!
# C191: expectation of the binomial POD (`_univariate_linear_model_pod.py` 361-369)
-/

namespace Verif.Props
open Verif.Py Verif.Model ProbabilityTheory MeasureTheory Set Filter Topology

/-- The binomial POD counts the signals carried to the size `a` along the fitted line. -/
theorem binomial_shifted {n : ℕ} (x y : Fin n → ℝ) (det a : ℝ) : binomialPodOf x y det a
    = (∑ i, if det < y i + olsSlope x y * (a - x i) then (1 : ℝ) else 0) / n := by
  have hc : ∀ (k : ℕ) (r : Fin k → ℝ) (t : ℝ), (((List.ofFn r).countP fun r => decide (t < r) : ℕ) : ℝ) = ∑ i, if t < r i then (1 : ℝ) else 0 := by
    intro k
    induction k with
    | zero => intro r t; simp
    | succ k ih =>
      intro r t
      rw [List.ofFn_succ, List.countP_cons, Fin.sum_univ_succ, Nat.cast_add, ih]
      by_cases h : t < r 0 <;> simp [h, add_comm]
  rw [binomialPodOf, podBinomial, empiricalCCDF, hc, List.length_ofFn]
  congr 1
  refine Finset.sum_congr rfl fun i _ => ?_
  have : det - (olsIntercept x y + olsSlope x y * a) < olsResiduals x y i ↔ det < y i + olsSlope x y * (a - x i) := by
    rw [olsResiduals]
    constructor <;> intro h <;> linarith
  simp only [this]

/-- Variance factor of the signal of size `x i` carried to the size `a`. -/
noncomputable def carried {n : ℕ} (x : Fin n → ℝ) (a : ℝ) (i : Fin n) : ℝ :=
  1 + ((a - smean x) ^ 2 - (x i - smean x) ^ 2) / ∑ j, (x j - smean x) ^ 2

theorem carried_pos {n : ℕ} (x : Fin n → ℝ) (hn : 0 < n) (hS : 0 < ∑ j, (x j - smean x) ^ 2) (a : ℝ) (i : Fin n) : 0 < carried x a i := by
  have hN : (0 : ℝ) < n := by exact_mod_cast hn
  set S := ∑ j, (x j - smean x) ^ 2 with hSd
  have hsum := sum_centred x hn
  -- the mean of the others
  have h1 : n * (x i - smean x) ^ 2 ≤ (n - 1) * S := by
    have hrest : ∑ j ∈ Finset.univ.erase i, (x j - smean x) = -(x i - smean x) := by
      rw [← Finset.add_sum_erase _ _ (Finset.mem_univ i)] at hsum
      linarith
    have hrest2 : ∑ j ∈ Finset.univ.erase i, (x j - smean x) ^ 2 = S - (x i - smean x) ^ 2 := by
      have := Finset.add_sum_erase Finset.univ (fun j => (x j - smean x) ^ 2) (Finset.mem_univ i)
      rw [← hSd] at this
      linarith
    have hcs : (∑ j ∈ Finset.univ.erase i, (x j - smean x)) ^ 2 ≤ _ := _root_.sq_sum_le_card_mul_sum_sq
    rw [hrest, hrest2, Finset.card_erase_of_mem (Finset.mem_univ i), Finset.card_univ, Fintype.card_fin, neg_sq, Nat.cast_sub (by omega), Nat.cast_one] at hcs
    nlinarith
  have h2 : (x i - smean x) ^ 2 < S := by
    by_contra h
    push Not at h
    nlinarith
  rw [carried, show 1 + ((a - smean x) ^ 2 - (x i - smean x) ^ 2) / S = (S + (a - smean x) ^ 2 - (x i - smean x) ^ 2) / S by field_simp; ring]
  exact div_pos (by nlinarith [sq_nonneg (a - smean x)]) hS

section
variable {Ω : Type} [MeasurableSpace Ω] {Q : Measure Ω} [IsProbabilityMeasure Q]

/-- A combination of independent normal variables. -/
theorem normal_combination {n : ℕ} (e : Fin n → Ω → ℝ) (he : ∀ i, Measurable (e i)) (s : ℝ) (hlaw : ∀ i, Q.map (e i) = gaussianReal 0 (sqv s))
    (hind : iIndepFun e Q) (c : Fin n → ℝ) (J : Finset (Fin n)) : Q.map (fun ω => ∑ i ∈ J, c i * e i ω) = gaussianReal 0 (∑ i ∈ J, sqv (c i * s)) := by
  classical
  induction J using Finset.induction_on with
  | empty =>
    simp only [Finset.sum_empty]
    rw [Measure.map_const, measure_univ, one_smul, gaussianReal_zero_var]
  | insert i J hi ih =>
    have hc : iIndepFun (fun j ω => c j * e j ω) Q := hind.comp (fun j t => c j * t) fun _ => by fun_prop
    have hm : ∀ j, Measurable fun ω => c j * e j ω := fun j => (he j).const_mul _
    have h1 : Q.map (fun ω => c i * e i ω) = gaussianReal 0 (sqv (c i * s)) := by
      have : Q.map (fun ω => c i * e i ω) = (Q.map (e i)).map fun t => c i * t := by rw [Measure.map_map (by fun_prop) (he i)]; rfl
      rw [this, hlaw, gaussianReal_map_const_mul, mul_zero]
      congr 1
      apply NNReal.coe_injective
      push_cast
      rw [coe_sqv, coe_sqv, mul_pow]
    have hI : IndepFun (fun ω => c i * e i ω) (fun ω => ∑ j ∈ J, c j * e j ω) Q := by
      have h := (hc.indepFun_finsetSum_of_notMem₀ (fun j => (hm j).aemeasurable) hi).symm
      have e1 : (∑ j ∈ J, fun ω => c j * e j ω) = fun ω => ∑ j ∈ J, c j * e j ω := by
        funext ω; rw [Finset.sum_apply]
      rw [e1] at h
      exact h
    have h2 := gaussianReal_add_gaussianReal_of_indepFun hI h1 ih
    rw [add_zero] at h2
    rw [Finset.sum_insert hi, ← h2]
    congr 1
    funext ω
    rw [Finset.sum_insert hi]
    rfl

theorem carried_law {n : ℕ} (hn : 0 < n) (x : Fin n → ℝ) (hS : 0 < ∑ j, (x j - smean x) ^ 2) (e : Fin n → Ω → ℝ) (he : ∀ i, Measurable (e i)) (s : ℝ)
    (hlaw : ∀ i, Q.map (e i) = gaussianReal 0 (sqv s)) (hind : iIndepFun e Q) (a : ℝ) (i : Fin n) :
    Q.map (fun ω => e i ω + olsSlope x (fun j => e j ω) * (a - x i)) = gaussianReal 0 (sqv (s * Real.sqrt (carried x a i))) := by
  classical
  set S := ∑ j, (x j - smean x) ^ 2 with hSd
  have hsum := sum_centred x hn
  set c : Fin n → ℝ := fun j => (if j = i then 1 else 0) + (a - x i) * (x j - smean x) / S with hc
  have hlin : ∀ g : Fin n → ℝ, g i + olsSlope x g * (a - x i) = ∑ j, c j * g j := by
    intro g
    have h1 : ∑ j, (x j - smean x) * (g j - smean g) = ∑ j, (x j - smean x) * g j := by
      simp only [mul_sub, Finset.sum_sub_distrib, ← Finset.sum_mul, hsum, zero_mul, sub_zero]
    rw [olsSlope, h1, ← hSd]
    simp only [hc, add_mul, Finset.sum_add_distrib, ite_mul, one_mul, zero_mul, Finset.sum_ite_eq', Finset.mem_univ, if_true]
    congr 1
    rw [Finset.sum_div, Finset.sum_mul]
    exact Finset.sum_congr rfl fun j _ => by ring
  have hsq : ∑ j, c j ^ 2 = carried x a i := by
    have h1 : ∀ j, c j ^ 2 = (if j = i then 1 + 2 * ((a - x i) * (x j - smean x) / S) else 0) + (a - x i) ^ 2 / S ^ 2 * (x j - smean x) ^ 2 := by
      intro j
      simp only [hc]
      by_cases h : j = i <;> simp only [h, if_true, if_false] <;> ring
    simp only [h1, Finset.sum_add_distrib, Finset.sum_ite_eq', Finset.mem_univ, if_true, ← Finset.mul_sum]
    rw [← hSd, carried, ← hSd]
    field_simp
    ring
  have h := normal_combination e he s hlaw hind c Finset.univ
  simp only [← hlin] at h
  rw [h]
  congr 1
  apply NNReal.coe_injective
  push_cast
  simp only [coe_sqv, mul_pow, ← Finset.sum_mul, hsq]
  rw [Real.sq_sqrt (carried_pos x hn hS a i).le]
  ring

/-- Expectation of the binomial POD. -/
theorem binomial_mean {n : ℕ} (hn : 0 < n) (x : Fin n → ℝ) (hx : ∃ i j, x i ≠ x j) (e : Fin n → Ω → ℝ) (he : ∀ i, Measurable (e i)) (s : ℝ)
    (hs : 0 < s) (hlaw : ∀ i, Q.map (e i) = gaussianReal 0 (sqv s)) (hind : iIndepFun e Q) (b0 b1 det a : ℝ) :
    ∫ ω, binomialPodOf x (fun i => b0 + b1 * x i + e i ω) det a ∂Q
      = (∑ i, Phi ((b0 + b1 * a - det) / (s * Real.sqrt (carried x a i)))) / n := by
  classical
  have hS : 0 < ∑ i, (x i - smean x) ^ 2 := by
    have h := svar_eq_zero_iff (n := n) (by obtain ⟨i, j, hij⟩ := hx; rcases n with _ | _ | n
                                            · exact i.elim0
                                            · exact absurd (Fin.ext (by omega) : i = j) (fun h => hij (congrArg x h))
                                            · omega) x
    refine lt_of_le_of_ne (Finset.sum_nonneg fun i _ => sq_nonneg _) fun h0 => ?_
    obtain ⟨i, j, hij⟩ := hx
    exact hij (h.1 (by rw [svar, ← h0, zero_div]) i j)
  have hev : ∀ ω i, (det < b0 + b1 * x i + e i ω + olsSlope x (fun i => b0 + b1 * x i + e i ω) * (a - x i)) ↔
      ω ∈ (fun ω => e i ω + olsSlope x (fun j => e j ω) * (a - x i)) ⁻¹' Ioi (det - (b0 + b1 * a)) := by
    intro ω i
    have h0 : olsSlope x (fun i => b0 + b1 * x i + e i ω) = b1 + olsSlope x (fun i => e i ω) := by
      rw [slope_error x (fun i => e i ω) b0 b1 hn hS.ne']; rfl
    rw [h0]
    change _ ↔ det - (b0 + b1 * a) < e i ω + olsSlope x (fun j => e j ω) * (a - x i)
    constructor <;> intro h <;> linarith
  have hmeas : ∀ i, Measurable fun ω => e i ω + olsSlope x (fun j => e j ω) * (a - x i) := by
    intro i
    simp only [olsSlope, smean]
    fun_prop
  simp only [binomial_shifted, hev]
  have hind1 : ∀ i, (fun ω => if ω ∈ (fun ω => e i ω + olsSlope x (fun j => e j ω) * (a - x i)) ⁻¹' Ioi (det - (b0 + b1 * a)) then (1 : ℝ) else 0)
      = ((fun ω => e i ω + olsSlope x (fun j => e j ω) * (a - x i)) ⁻¹' Ioi (det - (b0 + b1 * a))).indicator fun _ => 1 := by
    intro i; funext ω; rw [indicator_apply]
  rw [integral_div, integral_finsetSum]
  · congr 1
    refine Finset.sum_congr rfl fun i _ => ?_
    rw [hind1, integral_indicator_const _ (hmeas i measurableSet_Ioi), smul_eq_mul, mul_one,
      ← map_measureReal_apply (hmeas i) measurableSet_Ioi, carried_law hn x hS e he s hlaw hind a i]
    have hsd : 0 < s * Real.sqrt (carried x a i) := mul_pos hs (Real.sqrt_pos.2 (carried_pos x hn hS a i))
    have hl : gaussianReal 0 (sqv (s * Real.sqrt (carried x a i))) = (gaussianReal 0 1).map fun u => s * Real.sqrt (carried x a i) * u := by
      rw [gaussianReal_map_const_mul, mul_zero, mul_one]; congr 1
    rw [hl, map_measureReal_apply (by fun_prop) measurableSet_Ioi]
    have hset : (fun u => s * Real.sqrt (carried x a i) * u) ⁻¹' Ioi (det - (b0 + b1 * a)) = Ioi ((det - (b0 + b1 * a)) / (s * Real.sqrt (carried x a i))) := by
      ext u
      change det - (b0 + b1 * a) < s * Real.sqrt (carried x a i) * u ↔ (det - (b0 + b1 * a)) / (s * Real.sqrt (carried x a i)) < u
      rw [div_lt_iff₀ hsd, mul_comm u]
    rw [hset]
    change PhiC _ = _
    rw [PhiC_eq, ← Phi_neg, ← neg_div]
    congr 2
    ring
  · intro i _
    rw [hind1]
    exact (integrable_const (1 : ℝ)).indicator (hmeas i measurableSet_Ioi)

omit [IsProbabilityMeasure Q] in
/-- Probability that a new signal exceeds the threshold. -/
theorem new_signal (e' : Ω → ℝ) (he' : Measurable e') (s : ℝ) (hs : 0 < s) (hlaw' : Q.map e' = gaussianReal 0 (sqv s)) (c det : ℝ) :
    Q.real {ω | det < c + e' ω} = Phi ((c - det) / s) := by
  have hl : gaussianReal 0 (sqv s) = (gaussianReal 0 1).map fun u => s * u := by
    rw [gaussianReal_map_const_mul, mul_zero, mul_one]; congr 1
  have hset : {ω | det < c + e' ω} = e' ⁻¹' Ioi (det - c) := by
    ext ω
    change det < c + e' ω ↔ det - c < e' ω
    constructor <;> intro h <;> linarith
  rw [hset, ← map_measureReal_apply he' measurableSet_Ioi, hlaw', hl, map_measureReal_apply (by fun_prop) measurableSet_Ioi]
  have hset : (fun u => s * u) ⁻¹' Ioi (det - c) = Ioi ((det - c) / s) := by
    ext u
    change det - c < s * u ↔ (det - c) / s < u
    rw [div_lt_iff₀ hs, mul_comm]
  rw [hset]
  change PhiC _ = _
  rw [PhiC_eq, ← Phi_neg, ← neg_div, neg_sub]

/-- **C191 is violated.**  Line plus independent normal errors.  The expectation of the binomial POD at the size `a` is the mean over the observations of
the probabilities computed with the error variance multiplied by one plus the difference of the leverages of `a` and of the observation.  At the mean of
the observed sizes this is above the true probability as soon as that is above one half, and below it when that is below one half. -/
theorem C191_violated {n : ℕ} (hn : 0 < n) (x : Fin n → ℝ) (hx : ∃ i j, x i ≠ x j) (e : Fin n → Ω → ℝ) (e' : Ω → ℝ) (he : ∀ i, Measurable (e i))
    (he' : Measurable e') (s : ℝ) (hs : 0 < s) (hlaw : ∀ i, Q.map (e i) = gaussianReal 0 (sqv s)) (hlaw' : Q.map e' = gaussianReal 0 (sqv s))
    (hind : iIndepFun e Q) (b0 b1 det : ℝ) :
    (∀ a, ∫ ω, binomialPodOf x (fun i => b0 + b1 * x i + e i ω) det a ∂Q
      = (∑ i, Phi ((b0 + b1 * a - det) / (s * Real.sqrt (1 + ((a - smean x) ^ 2 - (x i - smean x) ^ 2) / ∑ j, (x j - smean x) ^ 2)))) / n) ∧
    (1 / 2 < Q.real {ω | det < b0 + b1 * smean x + e' ω} → Q.real {ω | det < b0 + b1 * smean x + e' ω}
      < ∫ ω, binomialPodOf x (fun i => b0 + b1 * x i + e i ω) det (smean x) ∂Q) ∧
    (Q.real {ω | det < b0 + b1 * smean x + e' ω} < 1 / 2 → ∫ ω, binomialPodOf x (fun i => b0 + b1 * x i + e i ω) det (smean x) ∂Q
      < Q.real {ω | det < b0 + b1 * smean x + e' ω}) := by
  have hN : (0 : ℝ) < n := by exact_mod_cast hn
  obtain ⟨i0, hi0⟩ : ∃ i, x i ≠ smean x := by
    by_contra h
    push Not at h
    obtain ⟨i, j, hij⟩ := hx
    exact hij ((h i).trans (h j).symm)
  have hS : 0 < ∑ i, (x i - smean x) ^ 2 :=
    Finset.sum_pos' (fun i _ => sq_nonneg _) ⟨i0, Finset.mem_univ _, by have := sub_ne_zero.2 hi0; positivity⟩
  have hc1 : ∀ i, carried x (smean x) i ≤ 1 := by
    intro i
    rw [carried, sub_self]
    have : 0 ≤ (x i - smean x) ^ 2 / ∑ j, (x j - smean x) ^ 2 := by positivity
    have e : ((0 : ℝ) ^ 2 - (x i - smean x) ^ 2) / ∑ j, (x j - smean x) ^ 2 = -((x i - smean x) ^ 2 / ∑ j, (x j - smean x) ^ 2) := by ring
    rw [e]; linarith
  have hc2 : carried x (smean x) i0 < 1 := by
    rw [carried, sub_self]
    have h0 := sub_ne_zero.2 hi0
    have : 0 < (x i0 - smean x) ^ 2 / ∑ j, (x j - smean x) ^ 2 := by positivity
    have e : ((0 : ℝ) ^ 2 - (x i0 - smean x) ^ 2) / ∑ j, (x j - smean x) ^ 2 = -((x i0 - smean x) ^ 2 / ∑ j, (x j - smean x) ^ 2) := by ring
    rw [e]; linarith
  have hp : ∀ i, 0 < Real.sqrt (carried x (smean x) i) := fun i => Real.sqrt_pos.2 (carried_pos x hn hS _ i)
  have hr1 : ∀ i, Real.sqrt (carried x (smean x) i) ≤ 1 := fun i => Real.sqrt_le_one.2 (hc1 i)
  have hr2 : Real.sqrt (carried x (smean x) i0) < 1 := by
    rw [Real.sqrt_lt' one_pos]; simpa using hc2
  have hconst : ∀ v : ℝ, (∑ _i : Fin n, v) / n = v := fun v => by
    rw [Finset.sum_const, Finset.card_univ, Fintype.card_fin, nsmul_eq_mul]; field_simp
  set u := b0 + b1 * smean x - det with hu
  refine ⟨fun a => binomial_mean hn x hx e he s hs hlaw hind b0 b1 det a, fun h => ?_, fun h => ?_⟩
  · rw [binomial_mean hn x hx e he s hs hlaw hind]
    rw [new_signal e' he' s hs hlaw'] at h ⊢
    rw [← Phi_zero, Phi_strictMono.lt_iff_lt, ← hu] at h
    have hu0 : 0 < u := by
      rcases div_pos_iff.1 h with h | h
      · exact h.1
      · linarith [h.2]
    rw [← hu, ← hconst (Phi (u / s)), div_lt_div_iff_of_pos_right hN]
    refine Finset.sum_lt_sum (fun i _ => Phi_strictMono.monotone ?_) ⟨i0, Finset.mem_univ _, Phi_strictMono ?_⟩
    · exact div_le_div_of_nonneg_left hu0.le (mul_pos hs (hp i)) (by nlinarith [hr1 i])
    · exact div_lt_div_of_pos_left hu0 (mul_pos hs (hp i0)) (by nlinarith)
  · rw [binomial_mean hn x hx e he s hs hlaw hind]
    rw [new_signal e' he' s hs hlaw'] at h ⊢
    rw [← Phi_zero, Phi_strictMono.lt_iff_lt, ← hu] at h
    have hu0 : 0 < -u := by
      rcases div_neg_iff.1 h with h | h
      · linarith [h.2]
      · linarith [h.1]
    have hneg : ∀ d : ℝ, u / d = -(-u / d) := fun d => by ring
    rw [← hu, ← hconst (Phi (u / s)), div_lt_div_iff_of_pos_right hN]
    refine Finset.sum_lt_sum (fun i _ => Phi_strictMono.monotone ?_) ⟨i0, Finset.mem_univ _, Phi_strictMono ?_⟩
    · rw [hneg, hneg s]
      exact neg_le_neg (div_le_div_of_nonneg_left hu0.le (mul_pos hs (hp i)) (by nlinarith [hr1 i]))
    · rw [hneg, hneg s]
      exact neg_lt_neg (div_lt_div_of_pos_left hu0 (mul_pos hs (hp i0)) (by nlinarith))

end

/-- **C191, restricted: small leverages.**  The bias is small when no observation and not the size `a` weighs much in the fitted slope, uniformly over the
designs; the bound depends on the standardised distance to the threshold only.  Missing: a fixed design. -/
theorem C191_limit_partial (u ε : ℝ) (hε : 0 < ε) : ∃ δ > 0, ∀ (n : ℕ) (_ : 0 < n) (Ω : Type) [MeasurableSpace Ω] (Q : Measure Ω)
    [IsProbabilityMeasure Q] (x : Fin n → ℝ) (_ : ∃ i j, x i ≠ x j) (e : Fin n → Ω → ℝ) (e' : Ω → ℝ) (_ : ∀ i, Measurable (e i)) (_ : Measurable e')
    (s : ℝ) (_ : 0 < s) (_ : ∀ i, Q.map (e i) = gaussianReal 0 (sqv s)) (_ : Q.map e' = gaussianReal 0 (sqv s)) (_ : iIndepFun e Q) (b0 b1 det a : ℝ),
    (b0 + b1 * a - det) / s = u → (∀ i, (x i - smean x) ^ 2 ≤ δ * ∑ j, (x j - smean x) ^ 2) → (a - smean x) ^ 2 ≤ δ * ∑ j, (x j - smean x) ^ 2 →
    |∫ ω, binomialPodOf x (fun i => b0 + b1 * x i + e i ω) det a ∂Q - Q.real {ω | det < b0 + b1 * a + e' ω}| < ε := by
  have hcont : ContinuousAt (fun v => Phi (u / Real.sqrt (1 + v))) 0 := by
    refine Phi_continuous.continuousAt.comp (ContinuousAt.div continuousAt_const ?_ (by norm_num))
    exact (Real.continuous_sqrt.comp (by fun_prop)).continuousAt
  obtain ⟨δ, hδ, hball⟩ := Metric.continuousAt_iff.1 hcont (ε / 2) (half_pos hε)
  refine ⟨δ / 2, half_pos hδ, fun n hn Ω _ Q _ x hx e e' he he' s hs hlaw hlaw' hind b0 b1 det a hu hxi ha => ?_⟩
  have hN : (0 : ℝ) < n := by exact_mod_cast hn
  obtain ⟨i0, hi0⟩ : ∃ i, x i ≠ smean x := by
    by_contra h
    push Not at h
    obtain ⟨i, j, hij⟩ := hx
    exact hij ((h i).trans (h j).symm)
  have hS : 0 < ∑ i, (x i - smean x) ^ 2 :=
    Finset.sum_pos' (fun i _ => sq_nonneg _) ⟨i0, Finset.mem_univ _, by have := sub_ne_zero.2 hi0; positivity⟩
  have hconst : ∀ v : ℝ, (∑ _i : Fin n, v) / n = v := fun v => by
    rw [Finset.sum_const, Finset.card_univ, Fintype.card_fin, nsmul_eq_mul]; field_simp
  rw [binomial_mean hn x hx e he s hs hlaw hind, new_signal e' he' s hs hlaw', hu, ← hconst (Phi u), ← sub_div, ← Finset.sum_sub_distrib, abs_div,
    abs_of_pos hN, div_lt_iff₀ hN]
  have hterm : ∀ i ∈ Finset.univ, |Phi ((b0 + b1 * a - det) / (s * Real.sqrt (carried x a i))) - Phi u| ≤ ε / 2 := by
    intro i _
    set w := ((a - smean x) ^ 2 - (x i - smean x) ^ 2) / ∑ j, (x j - smean x) ^ 2 with hw
    have hwb : |w| < δ := by
      rw [hw, abs_div, abs_of_pos hS, div_lt_iff₀ hS, abs_lt]
      constructor <;> nlinarith [hxi i, sq_nonneg (x i - smean x), sq_nonneg (a - smean x), mul_pos hδ hS]
    have := hball (x := w) (by rwa [Real.dist_eq, sub_zero])
    rw [Real.dist_eq, add_zero, Real.sqrt_one, div_one] at this
    rw [← div_div, hu]
    exact this.le
  calc |∑ i, (Phi ((b0 + b1 * a - det) / (s * Real.sqrt (carried x a i))) - Phi u)|
      ≤ ∑ i, |Phi ((b0 + b1 * a - det) / (s * Real.sqrt (carried x a i))) - Phi u| := Finset.abs_sum_le_sum_abs _ _
    _ ≤ n * (ε / 2) := by
        have := Finset.sum_le_card_nsmul _ _ _ hterm
        rwa [Finset.card_univ, Fintype.card_fin, nsmul_eq_mul] at this
    _ < ε * n := by nlinarith

/-! ## Example -/

/-- Sizes 0, 1, 2 and a line above the threshold at the mean size: the binomial POD is larger than the true probability on the average. -/
example : ((Measure.pi fun _ : Fin 3 => gaussianReal 0 (sqv (1 / 2))).prod (gaussianReal 0 (sqv (1 / 2)))).real {ω | 2 < 1 + 2 * smean ![0, 1, 2] + ω.2}
    < ∫ ω, binomialPodOf ![0, 1, 2] (fun i => 1 + 2 * (![0, 1, 2] : Fin 3 → ℝ) i + ω.1 i) 2 (smean ![0, 1, 2])
      ∂((Measure.pi fun _ : Fin 3 => gaussianReal 0 (sqv (1 / 2))).prod (gaussianReal 0 (sqv (1 / 2)))) := by
  set N := gaussianReal 0 (sqv (1 / 2)) with hN
  set Q := (Measure.pi fun _ : Fin 3 => N).prod N with hQ
  have hl : ∀ i : Fin 3, Q.map (fun ω : (Fin 3 → ℝ) × ℝ => ω.1 i) = N := fun i =>
    ((measurePreserving_eval (fun _ : Fin 3 => N) i).comp (measurePreserving_fst (μ := Measure.pi fun _ : Fin 3 => N) (ν := N))).map_eq
  have hl' : Q.map (fun ω : (Fin 3 → ℝ) × ℝ => ω.2) = N := (measurePreserving_snd (μ := Measure.pi fun _ : Fin 3 => N) (ν := N)).map_eq
  have hp : Q.map (fun ω : (Fin 3 → ℝ) × ℝ => ω.1) = Measure.pi fun _ : Fin 3 => N :=
    (measurePreserving_fst (μ := Measure.pi fun _ : Fin 3 => N) (ν := N)).map_eq
  have hi : iIndepFun (fun (i : Fin 3) (ω : (Fin 3 → ℝ) × ℝ) => ω.1 i) Q := by
    rw [iIndepFun_iff_map_fun_eq_pi_map fun i => (by fun_prop : Measurable fun ω : (Fin 3 → ℝ) × ℝ => ω.1 i).aemeasurable]
    refine hp.trans ?_
    congr 1
    funext i
    exact (hl i).symm
  refine (C191_violated (Q := Q) (n := 3) (by norm_num) ![0, 1, 2] ⟨0, 1, by simp⟩ (fun i ω => ω.1 i) (fun ω => ω.2) (fun i => by fun_prop)
    (by fun_prop) (1 / 2) (by norm_num) hl hl' hi 1 2 2).2.1 ?_
  have hm : smean (![0, 1, 2] : Fin 3 → ℝ) = 1 := by simp [smean, Fin.sum_univ_three]; norm_num
  rw [new_signal (fun ω : (Fin 3 → ℝ) × ℝ => ω.2) (by fun_prop) (1 / 2) (by norm_num) hl', hm]
  calc (1 / 2 : ℝ) = Phi 0 := Phi_zero.symm
    _ < _ := Phi_strictMono (by norm_num)

end Verif.Props
