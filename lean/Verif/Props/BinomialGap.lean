import Verif.Props.KernelPod
import Verif.Props.Binomial

/-!
# C173: distance between the binomial confidence curve and the binomial POD (/repo/otpod/_univariate_linear_model_pod.py 361-391)
-/

namespace Verif.Props
open Verif.Py Verif.Model ProbabilityTheory MeasureTheory Set Filter Topology Polynomial

/-! ## Chebyshev inequality for the binomial weights -/

theorem bern_nonneg (N j : ℕ) {v : ℝ} (h0 : 0 ≤ v) (h1 : v ≤ 1) : 0 ≤ (bernsteinPolynomial ℝ N j).eval v := by
  rw [bernstein_eval]
  have : 0 ≤ 1 - v := by linarith
  positivity

theorem bern_sum (N : ℕ) (v : ℝ) : ∑ j ∈ Finset.range (N + 1), (bernsteinPolynomial ℝ N j).eval v = 1 := by
  have := congrArg (fun p : ℝ[X] => p.eval v) (bernsteinPolynomial.sum ℝ N)
  simpa [eval_finsetSum] using this

theorem bern_variance (N : ℕ) (v : ℝ) :
    ∑ j ∈ Finset.range (N + 1), (N * v - j) ^ 2 * (bernsteinPolynomial ℝ N j).eval v = N * v * (1 - v) := by
  have := congrArg (fun p : ℝ[X] => p.eval v) (bernsteinPolynomial.variance ℝ N)
  simpa [eval_finsetSum] using this

theorem bern_part (N : ℕ) {v : ℝ} (h0 : 0 ≤ v) (h1 : v ≤ 1) (S : Finset ℕ) (hS : S ⊆ Finset.range (N + 1)) (d : ℝ)
    (hd : ∀ j ∈ S, d ^ 2 ≤ (N * v - j) ^ 2) : 4 * d ^ 2 * ∑ j ∈ S, (bernsteinPolynomial ℝ N j).eval v ≤ N := by
  have h2 : ∑ j ∈ S, d ^ 2 * (bernsteinPolynomial ℝ N j).eval v ≤ N * v * (1 - v) := by
    rw [← bern_variance]
    refine (Finset.sum_le_sum fun j hj => mul_le_mul_of_nonneg_right (hd j hj) (bern_nonneg N j h0 h1)).trans ?_
    exact Finset.sum_le_sum_of_subset_of_nonneg hS fun j _ _ => mul_nonneg (sq_nonneg _) (bern_nonneg N j h0 h1)
  rw [← Finset.mul_sum] at h2
  have h3 : v * (1 - v) ≤ 1 / 4 := by nlinarith [sq_nonneg (v - 1 / 2)]
  have h4 : (0 : ℝ) ≤ N := Nat.cast_nonneg _
  nlinarith

/-- **C173, distance.**  For every data set, size and level the confidence curve of the binomial POD differs from the POD by at most
`1 / (2 sqrt (N min(c, 1-c)))`. -/
theorem C173_gap (qBeta : ℕ → ℕ → ℝ → ℝ) (hq : QBetaSpec qBeta) {N : ℕ} (hN : 0 < N) (r : Fin N → ℝ) (det : ℝ) (lin : ℝ → ℝ) (c : ℝ) (hc : 0 < c)
    (hc1 : c < 1) (x : ℝ) :
    |podBinomialCl qBeta (List.ofFn r) det lin c x - podBinomial (List.ofFn r) det lin x| ≤ 1 / (2 * Real.sqrt (N * min c (1 - c))) := by
  have hN' : (0 : ℝ) < N := by exact_mod_cast hN
  have hm : 0 < min c (1 - c) := lt_min hc (by linarith)
  set k := numAbove r (det - lin x) with hk
  set v := podBinomialCl qBeta (List.ofFn r) det lin c x with hv
  have hpod : podBinomial (List.ofFn r) det lin x = (k : ℝ) / N := podBinomial_eq r det lin x
  have key : 4 * (N * v - k) ^ 2 * min c (1 - c) ≤ N := by
    have hv' := podBinomialCl_eq qBeta hN r det lin c x
    rw [← hv, ← hk] at hv'
    have hsq : 0 ≤ (N * v - k) ^ 2 := sq_nonneg _
    rcases (numAbove_le r (det - lin x)).lt_or_eq with h | h
    · rw [← hk] at h
      rw [if_neg h.ne] at hv'
      obtain ⟨a0, a1, a2⟩ := cl_lt qBeta hq h hc hc1
      rw [← hv'] at a0 a1 a2
      rw [lowPoly, eval_finsetSum] at a2
      rcases le_total ((k : ℝ)) (N * v) with hle | hle
      · have hb := bern_part N a0.le a1.le (Finset.range (k + 1)) (Finset.range_subset_range.2 (by omega)) (N * v - k) (by
          intro j hj
          have hj' : (j : ℝ) ≤ k := by exact_mod_cast Nat.lt_succ_iff.1 (Finset.mem_range.1 hj)
          nlinarith)
        rw [a2] at hb
        have := min_le_left c (1 - c)
        nlinarith
      · have hsplit := bern_sum N v
        rw [← Finset.sum_sdiff (Finset.range_subset_range.2 (show k + 1 ≤ N + 1 by omega)), a2] at hsplit
        have hb := bern_part N a0.le a1.le (Finset.range (N + 1) \ Finset.range (k + 1)) Finset.sdiff_subset (N * v - k) (by
          intro j hj
          rw [Finset.mem_sdiff, Finset.mem_range, Finset.mem_range] at hj
          have hj' : (k : ℝ) ≤ j := by exact_mod_cast (by omega : k ≤ j)
          nlinarith)
        have hval : ∑ j ∈ Finset.range (N + 1) \ Finset.range (k + 1), (bernsteinPolynomial ℝ N j).eval v = 1 - c := by linarith
        rw [hval] at hb
        have := min_le_right c (1 - c)
        nlinarith
    · rw [← hk] at h
      rw [if_pos h] at hv'
      have hv0 : 0 ≤ v := by rw [hv']; positivity
      have hvN : v ^ N = c := by
        rw [hv', one_div, Real.rpow_inv_natCast_pow hc.le hN.ne']
      have hv1 : v ≤ 1 := by
        rw [hv']
        exact Real.rpow_le_one hc.le hc1.le (by positivity)
      have hb := bern_part N hv0 hv1 {N} (by simp) (N * v - k) (by
        intro j hj
        rw [Finset.mem_singleton] at hj
        rw [hj, h])
      rw [Finset.sum_singleton, bernstein_eval] at hb
      simp only [Nat.choose_self, Nat.cast_one, one_mul, Nat.sub_self, pow_zero, mul_one, hvN] at hb
      have := min_le_left c (1 - c)
      nlinarith
  rw [hpod]
  have hs : 0 < Real.sqrt (N * min c (1 - c)) := Real.sqrt_pos.2 (mul_pos hN' hm)
  have hs2 : Real.sqrt (N * min c (1 - c)) ^ 2 = N * min c (1 - c) := Real.sq_sqrt (mul_pos hN' hm).le
  apply abs_le_of_sq_le_sq _ (by positivity)
  have e1 : v - (k : ℝ) / N = (N * v - k) / N := by field_simp
  rw [e1, div_pow, div_pow, mul_pow, hs2, one_pow, div_le_div_iff₀ (by positivity) (by positivity)]
  nlinarith [mul_le_mul_of_nonneg_left key hN'.le]

/-- Non-vacuity: 100 residuals, level 0.95: the curves differ by at most 1/√20. -/
example (qBeta : ℕ → ℕ → ℝ → ℝ) (hq : QBetaSpec qBeta) (r : Fin 100 → ℝ) (det : ℝ) (lin : ℝ → ℝ) (x : ℝ) :
    |podBinomialCl qBeta (List.ofFn r) det lin 0.95 x - podBinomial (List.ofFn r) det lin x| ≤ 1 / (2 * Real.sqrt 5) := by
  have h := C173_gap qBeta hq (by norm_num) r det lin 0.95 (by norm_num) (by norm_num) x
  have e : ((100 : ℕ) : ℝ) * min 0.95 (1 - 0.95) = 5 := by
    rw [min_eq_right (by norm_num)]
    norm_num
  rwa [e] at h

theorem gap_tendsto {c : ℝ} (hc : 0 < c) (hc1 : c < 1) : Tendsto (fun N : ℕ => 1 / (2 * Real.sqrt (N * min c (1 - c)))) atTop (𝓝 0) := by
  have hm : 0 < min c (1 - c) := lt_min hc (by linarith)
  refine Tendsto.const_div_atTop (Tendsto.const_mul_atTop two_pos ?_) 1
  exact Real.tendsto_sqrt_atTop.comp (tendsto_natCast_atTop_atTop.atTop_mul_const hm)

/-- The confidence curve of a level of at least one half does not decrease when the POD does not. -/
theorem cl_monotone (qBeta : ℕ → ℕ → ℝ → ℝ) (hq : QBetaSpec qBeta) {N : ℕ} (hN : 0 < N) (r : Fin N → ℝ) (det b0 b1 c : ℝ) (hb : 0 ≤ b1) (hc : 1 / 2 < c)
    (hc1 : c < 1) : Monotone (podBinomialCl qBeta (List.ofFn r) det (fun a => b0 + b1 * a) c) := by
  intro u v huv
  have hle : numAbove r (det - (b0 + b1 * u)) ≤ numAbove r (det - (b0 + b1 * v)) := by
    apply numAbove_anti
    have := mul_le_mul_of_nonneg_left huv hb
    linarith
  rcases hle.lt_or_eq with h | h
  · exact ((C21_confidence_curve_partial qBeta hq hN r det (fun a => b0 + b1 * a) c c (by linarith) hc1 hc1 u v).2.1 h (Or.inr hc)).le
  · rw [podBinomialCl_eq qBeta hN, podBinomialCl_eq qBeta hN, h]

section
variable {Ω : Type} [MeasurableSpace Ω] {Q : Measure Ω} [IsProbabilityMeasure Q] {P : Measure (ℝ × ℝ)} [IsProbabilityMeasure P]

/-- **C173, limit.**  The binomial confidence curve converges almost surely to the true probability of detection, at every level. -/
theorem C173_curve (qBeta : ℕ → ℕ → ℝ → ℝ) (hq : QBetaSpec qBeta) (x e : ℕ → Ω → ℝ) (hx : ∀ i, Measurable (x i)) (he : ∀ i, Measurable (e i))
    (hlaw : ∀ i, Q.map (fun ω => (x i ω, e i ω)) = P) (hind : iIndepFun (fun i ω => (x i ω, e i ω)) Q)
    (h1 : MemLp Prod.fst 2 P) (h2 : MemLp Prod.snd 2 P) (hv : 0 < Var[Prod.fst; P])
    (he0 : ∫ w, w.2 ∂P = 0) (hxe : ∫ w, w.1 * w.2 ∂P = 0) (s : ℝ) (hs : 0 < s) (hse : ∫ w, w.2 ^ 2 ∂P = s ^ 2) (b0 b1 det a : ℝ)
    (hatom : P.real {w | b0 + b1 * a + w.2 = det} = 0) :
    ∀ᵐ ω ∂Q, ∀ c, 0 < c → c < 1 →
      Tendsto (fun N => binomialPodClOf qBeta (fun i : Fin N => x i ω) (fun i => b0 + b1 * x i ω + e i ω) det c a) atTop
        (𝓝 (P.real {w | det < b0 + b1 * a + w.2})) := by
  filter_upwards [(C126_consistency x e hx he hlaw hind h1 h2 hv he0 hxe s hs hse b0 b1).2 det a hatom] with ω hω c hc hc1
  have hgap : Tendsto (fun N : ℕ => binomialPodClOf qBeta (fun i : Fin N => x i ω) (fun i => b0 + b1 * x i ω + e i ω) det c a
      - binomialPodOf (fun i : Fin N => x i ω) (fun i => b0 + b1 * x i ω + e i ω) det a) atTop (𝓝 0) := by
    refine squeeze_zero_norm' ?_ (gap_tendsto hc hc1)
    filter_upwards [eventually_gt_atTop 0] with N hN
    exact C173_gap qBeta hq hN _ det _ c hc hc1 a
  simpa using hgap.add hω

/-- The sizes with and without confidence level, for two monotone curves. -/
theorem sizes_close (solve : (ℝ → ℝ) → ℝ → ℝ → ℝ → ℝ) (hso : BracketSpec solve) {f fc : ℝ → ℝ} (hf : Monotone f) (hfc : Monotone fc) {mn mx p ap ε c : ℝ}
    (hε : 0 < ε) (hmn : mn ≤ ap - ε) (hmx : ap + ε ≤ mx) (hlo : f (ap - ε) < p) (hhi : p < f (ap + ε)) (hlo' : fc (ap - ε) < p)
    (hhi' : p < fc (ap + ε)) :
    ∃ d dc, computeDetectionSize solve mn mx f (some fc) (some p) (some c) none none = .ok ([d, dc], [labelP p, labelPC p c]) ∧
      |d - ap| ≤ ε ∧ |dc - ap| ≤ ε := by
  obtain ⟨d, hd1, hd2⟩ := size_close solve hso hf hε hmn hmx hlo hhi
  obtain ⟨dc, hdc1, hdc2⟩ := size_close solve hso hfc hε hmn hmx hlo' hhi'
  obtain ⟨g1, g2, rfl⟩ := detectionSize_ok solve mn mx f none p d _ hd1
  obtain ⟨g3, g4, rfl⟩ := detectionSize_ok solve mn mx fc none p dc _ hdc1
  refine ⟨_, _, ?_, hd2, hdc2⟩
  unfold computeDetectionSize
  simp only [Option.getD_none]
  rw [if_neg (by simpa using ⟨g1, g2⟩), if_neg (by simpa using ⟨g3, g4⟩)]

/-- **C173, detection sizes.**  With an increasing true line, the size detected with probability `p` and the one with probability `p` and confidence
`c` above one half (such as a90 and a90/95) both converge to the size where the true POD crosses `p`. -/
theorem C173_size (qBeta : ℕ → ℕ → ℝ → ℝ) (hq : QBetaSpec qBeta) (x e : ℕ → Ω → ℝ) (hx : ∀ i, Measurable (x i)) (he : ∀ i, Measurable (e i))
    (hlaw : ∀ i, Q.map (fun ω => (x i ω, e i ω)) = P) (hind : iIndepFun (fun i ω => (x i ω, e i ω)) Q)
    (h1 : MemLp Prod.fst 2 P) (h2 : MemLp Prod.snd 2 P) (hv : 0 < Var[Prod.fst; P])
    (he0 : ∫ w, w.2 ∂P = 0) (hxe : ∫ w, w.1 * w.2 ∂P = 0) (s : ℝ) (hs : 0 < s) (hse : ∫ w, w.2 ^ 2 ∂P = s ^ 2) (b0 b1 det : ℝ) (hb : 0 < b1)
    (p ap : ℝ) (hcross : ∀ ε > 0, P.real {w | det < b0 + b1 * (ap - ε) + w.2} < p ∧ p < P.real {w | det < b0 + b1 * (ap + ε) + w.2})
    (hlo : 0 < P.real {w | w.1 < ap}) (hhi : 0 < P.real {w | ap < w.1}) :
    ∀ᵐ ω ∂Q, ∀ (solve : (ℝ → ℝ) → ℝ → ℝ → ℝ → ℝ), BracketSpec solve → ∀ c, 1 / 2 < c → c < 1 →
      ∀ ε > 0, ∀ᶠ N in atTop, ∃ mn mx d dc, sampleMin (List.ofFn fun i : Fin N => x i ω) = .ok mn ∧ sampleMax (List.ofFn fun i : Fin N => x i ω) = .ok mx ∧
        computeDetectionSize solve mn mx (binomialPodOf (fun i : Fin N => x i ω) (fun i => b0 + b1 * x i ω + e i ω) det)
          (some (binomialPodClOf qBeta (fun i : Fin N => x i ω) (fun i => b0 + b1 * x i ω + e i ω) det c)) (some p) (some c) none none
          = .ok ([d, dc], [labelP p, labelPC p c]) ∧ |d - ap| < ε ∧ |dc - ap| < ε := by
  have hz : ∀ i, Measurable fun ω => (x i ω, e i ω) := fun i => (hx i).prodMk (he i)
  choose η hη0 hη1 hη2 hη3 using fun k : ℕ => good_margin (P := P) (b0 + b1 * ap - det) (δ := 1 / ((k : ℝ) + 1)) (by positivity)
  have hηlim : Tendsto η atTop (𝓝 0) :=
    squeeze_zero (fun k => (hη0 k).le) (fun k => (hη1 k).le) tendsto_one_div_add_atTop_nhds_zero_nat
  have hbne : b1 ≠ 0 := hb.ne'
  have at1 : ∀ k, P.real {w | b0 + b1 * (ap - η k / b1) + w.2 = det} = 0 := by
    intro k
    rw [← hη2 k]
    congr 1
    ext w
    simp only [mem_ofPred_eq]
    rw [show b0 + b1 * (ap - η k / b1) = b0 + b1 * ap - η k by field_simp; ring]
    constructor <;> intro h <;> linarith
  have at2 : ∀ k, P.real {w | b0 + b1 * (ap + η k / b1) + w.2 = det} = 0 := by
    intro k
    rw [← hη3 k]
    congr 1
    ext w
    simp only [mem_ofPred_eq]
    rw [show b0 + b1 * (ap + η k / b1) = b0 + b1 * ap + η k by field_simp; ring]
    constructor <;> intro h <;> linarith
  obtain ⟨bfit, bin⟩ := C126_consistency x e hx he hlaw hind h1 h2 hv he0 hxe s hs hse b0 b1
  have c1 := ae_all_iff.2 fun k => bin det (ap - η k / b1) (at1 k)
  have c2 := ae_all_iff.2 fun k => bin det (ap + η k / b1) (at2 k)
  have k1 := ae_all_iff.2 fun k => C173_curve qBeta hq x e hx he hlaw hind h1 h2 hv he0 hxe s hs hse b0 b1 det (ap - η k / b1) (at1 k)
  have k2 := ae_all_iff.2 fun k => C173_curve qBeta hq x e hx he hlaw hind h1 h2 hv he0 hxe s hs hse b0 b1 det (ap + η k / b1) (at2 k)
  have hrange : ∀ A : Set (ℝ × ℝ), MeasurableSet A → 0 < P.real A → ∀ᵐ ω ∂Q, ∃ i, (x i ω, e i ω) ∈ A := by
    intro A hA hpos
    have h := avg_strong hz hlaw hind (f := A.indicator fun _ => (1 : ℝ)) (measurable_const.indicator hA)
      ((integrable_const _).indicator hA)
    rw [integral_indicator hA, setIntegral_const, smul_eq_mul, mul_one] at h
    filter_upwards [h] with ω hω
    obtain ⟨N, hN⟩ := (hω.eventually (eventually_gt_nhds hpos)).exists
    by_contra hcon
    push Not at hcon
    have h0 : avg (fun i ω => (x i ω, e i ω)) (A.indicator fun _ => (1 : ℝ)) N ω = 0 := by
      simp [avg, hcon]
    linarith
  have r1 := hrange {w | w.1 < ap} (measurableSet_lt measurable_fst measurable_const) hlo
  have r2 := hrange {w | ap < w.1} (measurableSet_lt measurable_const measurable_fst) hhi
  filter_upwards [k1, k2, c1, c2, r1, r2, bfit] with ω g1 g2 d1 d2 ⟨i0, hi0⟩ ⟨i1, hi1⟩ bf
  intro solve hso c hc hc1 ε hε
  have hi0' : x i0 ω < ap := hi0
  have hi1' : ap < x i1 ω := hi1
  have hlim : Tendsto (fun k => η k / b1) atTop (𝓝 0) := by simpa using hηlim.div_const b1
  obtain ⟨k, hk⟩ := (hlim.eventually (gt_mem_nhds (show (0 : ℝ) < min ε (min (ap - x i0 ω) (x i1 ω - ap)) from
    lt_min hε (lt_min (by linarith) (by linarith))))).exists
  set r := η k / b1 with hr
  have hr0 : 0 < r := div_pos (hη0 k) hb
  have hk1 : r < ε := lt_of_lt_of_le hk (min_le_left _ _)
  have hk2 : r < ap - x i0 ω := lt_of_lt_of_le hk ((min_le_right _ _).trans (min_le_left _ _))
  have hk3 : r < x i1 ω - ap := lt_of_lt_of_le hk ((min_le_right _ _).trans (min_le_right _ _))
  obtain ⟨hc1', hc2'⟩ := hcross r hr0
  have e1 := (d1 k).eventually (gt_mem_nhds hc1')
  have e2 := (d2 k).eventually (lt_mem_nhds hc2')
  have e3 := bf.2.1.eventually (lt_mem_nhds hb)
  have e4 := (g1 k c (by linarith) hc1).eventually (gt_mem_nhds hc1')
  have e5 := (g2 k c (by linarith) hc1).eventually (lt_mem_nhds hc2')
  filter_upwards [e1, e2, e3, e4, e5, eventually_gt_atTop (max i0 i1)] with N q1 q2 q3 q4 q5 hNi
  have hm0 : x i0 ω ∈ List.ofFn fun i : Fin N => x i ω := (List.mem_ofFn' _ _).2 ⟨⟨i0, by omega⟩, rfl⟩
  have hm1 : x i1 ω ∈ List.ofFn fun i : Fin N => x i ω := (List.mem_ofFn' _ _).2 ⟨⟨i1, by omega⟩, rfl⟩
  obtain ⟨mn, mx, hmn, hmx⟩ := sampleMinMax_ok (l := List.ofFn fun i : Fin N => x i ω) (List.ne_nil_of_mem hm0)
  have b1' : mn ≤ x i0 ω := (sampleMin_spec hmn).2 hm0
  have b2' : x i1 ω ≤ mx := (sampleMax_spec hmx).2 hm1
  have m1 : Monotone (binomialPodOf (fun i : Fin N => x i ω) (fun i => b0 + b1 * x i ω + e i ω) det) := by
    intro u v huv
    refine empiricalCCDF_antitone' _ ?_
    have := mul_le_mul_of_nonneg_left huv q3.le
    linarith
  obtain ⟨d, dc, hd, hd1, hd2⟩ := sizes_close solve hso m1 (cl_monotone qBeta hq (by omega : 0 < N) _ det _ _ c q3.le hc hc1) (mn := mn) (mx := mx) (c := c) hr0
    (by linarith) (by linarith) q1 q2 q4 q5
  exact ⟨mn, mx, d, dc, hmn, hmx, hd, lt_of_le_of_lt hd1 hk1, lt_of_le_of_lt hd2 hk1⟩

end

/-- Instance: standard normal defects and errors, signals `1 + 2 x + e`, threshold 3, level 1/2 with confidence 0.95. -/
example : ∃ qBeta, QBetaSpec qBeta ∧ ∃ solve, BracketSpec solve ∧
    ∀ᵐ ω ∂(Measure.infinitePi fun _ : ℕ => (gaussianReal 0 1).prod (gaussianReal 0 1)),
      ∀ ε > 0, ∀ᶠ N in atTop, ∃ mn mx d dc, sampleMin (List.ofFn fun i : Fin N => (ω i).1) = .ok mn ∧ sampleMax (List.ofFn fun i : Fin N => (ω i).1) = .ok mx ∧
        computeDetectionSize solve mn mx (binomialPodOf (fun i : Fin N => (ω i).1) (fun i => 1 + 2 * (ω i).1 + (ω i).2) 3)
          (some (binomialPodClOf qBeta (fun i : Fin N => (ω i).1) (fun i => 1 + 2 * (ω i).1 + (ω i).2) 3 0.95)) (some (1 / 2)) (some 0.95) none none
          = .ok ([d, dc], [labelP (1 / 2), labelPC (1 / 2) 0.95]) ∧ |d - 1| < ε ∧ |dc - 1| < ε := by
  obtain ⟨qBeta, hq⟩ := qBetaSpec_nonempty
  obtain ⟨solve, hso⟩ := bracketSpec_nonempty
  refine ⟨qBeta, hq, solve, hso, ?_⟩
  obtain ⟨m1, m2, m3, m4, m5, m6⟩ := gaussPair_moments
  obtain ⟨p1, p2, p3⟩ := gaussPair_cross
  have h := C173_size (Q := Measure.infinitePi fun _ : ℕ => (gaussianReal 0 1).prod (gaussianReal 0 1)) (P := (gaussianReal 0 1).prod (gaussianReal 0 1))
    qBeta hq (fun i ω => (ω i).1) (fun i ω => (ω i).2)
    (fun i => measurable_fst.comp (measurable_pi_apply i)) (fun i => measurable_snd.comp (measurable_pi_apply i))
    (fun i => (measurePreserving_eval_infinitePi (fun _ : ℕ => (gaussianReal 0 1).prod (gaussianReal 0 1)) i).map_eq)
    (iIndepFun_infinitePi (P := fun _ : ℕ => (gaussianReal 0 1).prod (gaussianReal 0 1)) (X := fun _ x => x) (fun _ => measurable_id))
    m1 m2 m3 m4 m5 1 one_pos m6 1 2 3 two_pos (1 / 2) 1 p1 p2 p3
  filter_upwards [h] with ω hω
  exact hω solve hso 0.95 (by norm_num) (by norm_num)

end Verif.Props
