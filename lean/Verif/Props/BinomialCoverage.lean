import Verif.Props.Binomial
import Mathlib.Probability.Independence.Basic
import Mathlib.Probability.ProductMeasure
import Mathlib.Probability.Distributions.Gaussian.Real

/-!
# C127: coverage of the confidence curve of the binomial POD

The residuals are independent draws and exceed the margin with the true probability `p`.  The curve is a random
number; its coverage is the probability that it is at most `p`.
-/

namespace Verif.Props
open Verif.Py Verif.Model Polynomial ProbabilityTheory unitInterval Set MeasureTheory

variable {Ω : Type*} [MeasurableSpace Ω] {P : Measure Ω} [IsProbabilityMeasure P]

open Classical in
/-- The pattern "exactly the residuals of `S` exceed `t`". -/
theorem numAbove_pattern {N : ℕ} (r : Fin N → Ω → ℝ) (t : ℝ) (k : ℕ) :
    {ω | numAbove (fun i => r i ω) t = k} =
      ⋃ S ∈ Finset.powersetCard k (Finset.univ : Finset (Fin N)),
        ⋂ i ∈ (Finset.univ : Finset (Fin N)), r i ⁻¹' (if i ∈ S then Ioi t else Iic t) := by
  ext ω
  simp only [Set.mem_ofPred_eq, Set.mem_iUnion, Set.mem_iInter, Set.mem_preimage, Finset.mem_powersetCard,
    Finset.mem_univ, true_implies, Finset.subset_univ, true_and, exists_prop]
  constructor
  · intro h
    refine ⟨Finset.univ.filter fun i => t < r i ω, h, fun i => ?_⟩
    by_cases hi : t < r i ω
    · simp [hi]
    · simp [not_lt.mp hi, hi]
  · rintro ⟨S, hS, h⟩
    rw [← hS, numAbove]
    congr 1
    ext i
    have := h i
    by_cases hi : i ∈ S
    · simp only [hi, if_true, Set.mem_Ioi] at this
      simp [hi, this]
    · simp only [hi, if_false, Set.mem_Iic] at this
      simp [hi, this]

/-- The number of exceedances of independent residuals follows the binomial law. -/
theorem numAbove_binomial {N : ℕ} (r : Fin N → Ω → ℝ) (hm : ∀ i, Measurable (r i)) (hi : iIndepFun r P) (t : ℝ)
    (p : I) (hp : ∀ i, P.real {ω | t < r i ω} = p) (k : ℕ) :
    P.real {ω | numAbove (fun i => r i ω) t = k} = Bin(N, p).real {k} := by
  classical
  have hpat : ∀ S : Finset (Fin N),
      P.real (⋂ i ∈ (Finset.univ : Finset (Fin N)), r i ⁻¹' (if i ∈ S then Ioi t else Iic t)) =
        (p : ℝ) ^ S.card * (1 - p) ^ (N - S.card) := by
    intro S
    rw [measureReal_def, hi.measure_inter_preimage_eq_mul (S := Finset.univ)
      (sets := fun i => if i ∈ S then Ioi t else Iic t)
      (fun i _ => by split_ifs <;> measurability), ENNReal.toReal_prod]
    have e : ∀ i, (P (r i ⁻¹' (if i ∈ S then Ioi t else Iic t))).toReal =
        if i ∈ S then (p : ℝ) else 1 - p := by
      intro i
      split_ifs
      · exact hp i
      · have : r i ⁻¹' Iic t = {ω | t < r i ω}ᶜ := by ext ω; simp
        rw [this, ← measureReal_def, probReal_compl_eq_one_sub (measurableSet_lt measurable_const (hm i)), hp]
    simp only [e]
    rw [Finset.prod_ite]
    simp only [Finset.prod_const]
    have c1 : (Finset.univ.filter fun i => i ∈ S) = S := by ext; simp
    have c2 : (Finset.univ.filter fun i => i ∉ S).card = N - S.card := by
      rw [← Finset.compl_filter, c1, Finset.card_compl, Fintype.card_fin]
    rw [c1, c2]
  rw [numAbove_pattern, measureReal_biUnion_finset, binomial_real_singleton]
  · rw [Finset.sum_congr rfl (g := fun _ => (p : ℝ) ^ k * (1 - p) ^ (N - k))]
    · simp [mul_assoc]
    · intro S hS
      rw [hpat, (Finset.mem_powersetCard.mp hS).2]
  · intro S _ T _ hST
    rw [Function.onFun, Set.disjoint_left]
    intro ω h1 h2
    apply hST
    ext i
    simp only [Set.mem_iInter, Set.mem_preimage] at h1 h2
    have a := h1 i (Finset.mem_univ i)
    have b := h2 i (Finset.mem_univ i)
    by_cases hiS : i ∈ S <;> by_cases hiT : i ∈ T <;> simp [hiS, hiT] at a b ⊢ <;> linarith
  · intro S _
    apply Finset.measurableSet_biInter
    intro i _
    apply hm i
    split_ifs <;> measurability

theorem numAbove_measurable {N : ℕ} (r : Fin N → Ω → ℝ) (hm : ∀ i, Measurable (r i)) (t : ℝ) :
    Measurable fun ω => numAbove (fun i => r i ω) t := by
  classical
  apply measurable_to_countable'
  intro k
  have : (fun ω => numAbove (fun i => r i ω) t) ⁻¹' {k} = {ω | numAbove (fun i => r i ω) t = k} := by ext; simp
  rw [this, numAbove_pattern]
  apply Finset.measurableSet_biUnion
  intro S _
  apply Finset.measurableSet_biInter
  intro i _
  apply hm i
  split_ifs <;> measurability

/-- Hence every event about the count has its binomial probability. -/
theorem numAbove_law {N : ℕ} (r : Fin N → Ω → ℝ) (hm : ∀ i, Measurable (r i)) (hi : iIndepFun r P) (t : ℝ)
    (p : I) (hp : ∀ i, P.real {ω | t < r i ω} = p) (A : Set ℕ) :
    P.real {ω | numAbove (fun i => r i ω) t ∈ A} = Bin(N, p).real A := by
  have hmeas := numAbove_measurable r hm t
  have : P.map (fun ω => numAbove (fun i => r i ω) t) = Bin(N, p) := by
    have := Measure.isProbabilityMeasure_map (μ := P) hmeas.aemeasurable
    apply Measure.ext_of_measureReal_singleton
    intro k
    rw [map_measureReal_apply hmeas (by measurability), ← numAbove_binomial r hm hi t p hp]
    rfl
  rw [← this, map_measureReal_apply hmeas (by measurability)]
  rfl

/-- When the curve is at most `p`. -/
theorem cl_le_iff (qBeta : ℕ → ℕ → ℝ → ℝ) (hq : QBetaSpec qBeta) {N : ℕ} (hN : 0 < N) (r : Fin N → ℝ) (det : ℝ)
    (lin : ℝ → ℝ) (c : ℝ) (hc : 0 < c) (hc1 : c < 1) (x : ℝ) (p : I) :
    podBinomialCl qBeta (List.ofFn r) det lin c x ≤ p ↔
      numAbove r (det - lin x) < N ∧ Bin(N, p).real {j | j ≤ numAbove r (det - lin x)} ≤ c ∨
      numAbove r (det - lin x) = N ∧ c ≤ (p : ℝ) ^ N := by
  rw [podBinomialCl_eq qBeta hN]
  rcases (numAbove_le r (det - lin x)).lt_or_eq with h | h
  · obtain ⟨a0, a1, a2⟩ := cl_lt qBeta hq h hc hc1
    simp only [h.ne, if_false, h, true_and, false_and, or_false, ← lowPoly_eval]
    generalize 1 - qBeta (N - numAbove r (det - lin x)) (numAbove r (det - lin x) + 1) c = v at *
    have := (lowPoly_strictAnti h).le_iff_ge (a := (p : ℝ)) (b := v) ⟨p.2.1, p.2.2⟩ ⟨a0.le, a1.le⟩
    rw [← a2]
    exact this.symm
  · simp only [h, if_true, lt_irrefl, false_and, false_or, true_and]
    have hN' : (N : ℝ) ≠ 0 := by exact_mod_cast hN.ne'
    have e : (c ^ ((1 : ℝ) / N)) ^ N = c := by
      rw [← Real.rpow_natCast, ← Real.rpow_mul hc.le, one_div, inv_mul_cancel₀ hN', Real.rpow_one]
    conv_rhs => rw [← e]
    exact (pow_le_pow_iff_left₀ (by positivity) p.2.1 hN.ne').symm

theorem bin_le_top {N : ℕ} (p : I) : Bin(N, p).real {j | j ≤ N} = 1 := by
  have h := upper_eq N N p
  have : Bin(N, p).real {k | N + 1 ≤ k} = 0 := by
    rw [measureReal_def, ENNReal.toReal_eq_zero_iff]
    left
    have h := ae_le_of_hasLaw_binomial (X := id) (n := N) (p := p) (P := Bin(N, p)) (HasLaw.id)
    rw [ae_iff] at h
    refine measure_mono_null (fun k hk => ?_) h
    simp only [Set.mem_ofPred_eq, id] at hk ⊢; omega
  linarith

/-- The first count from which the binomial distribution function exceeds the level. -/
theorem first_above {N : ℕ} (p : I) {c : ℝ} (hc1 : c < 1) :
    ∃ k ≤ N, (∀ n, Bin(N, p).real {j | j ≤ n} ≤ c ↔ n < k) ∧ Bin(N, p).real {j | j < k} ≤ max c 0 ∧
      (0 < c → Bin(N, p).real {j | j < k} ≤ c) ∧
      c < Bin(N, p).real {j | j < k} + Bin(N, p).real {k} := by
  classical
  have hex : ∃ k, c < Bin(N, p).real {j | j ≤ k} := ⟨N, by rw [bin_le_top]; exact hc1⟩
  have hmono : ∀ a b : ℕ, a ≤ b → Bin(N, p).real {j | j ≤ a} ≤ Bin(N, p).real {j | j ≤ b} := by
    intro a b hab
    exact measureReal_mono fun j hj => le_trans hj hab
  have hlt : Bin(N, p).real {j | j < Nat.find hex} ≤ max c 0 := by
    rcases Nat.eq_zero_or_pos (Nat.find hex) with h | h
    · rw [h]; simp
    · have := Nat.find_min hex (m := Nat.find hex - 1) (by omega)
      push Not at this
      have e : {j : ℕ | j < Nat.find hex} = {j | j ≤ Nat.find hex - 1} := by
        ext j; simp only [Set.mem_ofPred_eq]; omega
      rw [e]
      exact this.trans (le_max_left _ _)
  refine ⟨Nat.find hex, Nat.find_min' hex (by rw [bin_le_top]; exact hc1), fun n => ?_, hlt, fun hc => ?_, ?_⟩
  · constructor
    · intro h
      by_contra hk
      push Not at hk
      have := hmono _ _ hk
      linarith [Nat.find_spec hex]
    · intro h
      exact not_lt.mp (Nat.find_min hex h)
  · rwa [max_eq_left hc.le] at hlt
  · have := Nat.find_spec hex
    have e : {j : ℕ | j ≤ Nat.find hex} = {j | j < Nat.find hex} ∪ {Nat.find hex} := by
      ext j; simp only [Set.mem_ofPred_eq, Set.mem_union, Set.mem_singleton_iff]; omega
    calc c < _ := this
      _ ≤ _ := by rw [e]; exact measureReal_union_le _ _

/-- **C127 is violated.**  The curve is meant to be below the true probability `p` with probability at least the
level.  For independent residuals and a known line, and for every `p` with `p^N` below the level, this probability is
at most the level, and equal to it only for the `p` at which the binomial distribution function takes the level as
a value. -/
theorem C127_violated (qBeta : ℕ → ℕ → ℝ → ℝ) (hq : QBetaSpec qBeta) {N : ℕ} (hN : 0 < N) (r : Fin N → Ω → ℝ)
    (hm : ∀ i, Measurable (r i)) (hi : iIndepFun r P) (det : ℝ) (lin : ℝ → ℝ) (c : ℝ) (hc : 0 < c) (hc1 : c < 1)
    (x : ℝ) (p : I) (hp : ∀ i, P.real {ω | det < lin x + r i ω} = p) (hpc : (p : ℝ) ^ N < c) :
    let coverage := P.real {ω | podBinomialCl qBeta (List.ofFn fun i => r i ω) det lin c x ≤ p}
    coverage ≤ c ∧ (coverage = c ↔ ∃ k, Bin(N, p).real {j | j ≤ k} = c) := by
  intro coverage
  obtain ⟨k, hk, hiff, -, hle, -⟩ := first_above (N := N) p hc1
  have hcov : coverage = Bin(N, p).real {j | j < k} := by
    have hp' : ∀ i, P.real {ω | det - lin x < r i ω} = p := by
      intro i; rw [← hp i]; congr 1; ext ω; simp only [Set.mem_ofPred_eq]; constructor <;> intro <;> linarith
    rw [← numAbove_law r hm hi (det - lin x) p hp']
    simp only [coverage]
    congr 1
    ext ω
    simp only [Set.mem_ofPred_eq, cl_le_iff qBeta hq hN _ det lin c hc hc1 x p, hiff]
    constructor
    · rintro (h | h)
      · exact h.2
      · linarith [h.2]
    · intro h
      exact Or.inl ⟨by omega, h⟩
  rw [hcov]
  refine ⟨hle hc, fun h => ?_, fun ⟨n, hn⟩ => ?_⟩
  · rcases Nat.eq_zero_or_pos k with h0 | h0
    · subst h0; simp at h; linarith
    · refine ⟨k - 1, ?_⟩
      rw [← h]
      congr 1; ext j; simp only [Set.mem_ofPred_eq]; omega
  · refine le_antisymm (hle hc) ?_
    rw [← hn]
    have := (hiff n).mp hn.le
    exact measureReal_mono fun j hj => lt_of_le_of_lt hj this

/-- **C127 (what holds).**  The coverage misses the level by less than the probability of a single count, whatever
`p`; and where `p^N` is at least a level of at least 1/2, the curve is always below `p`.  Missing: coverage of at
least the level. -/
theorem C127_coverage_partial (qBeta : ℕ → ℕ → ℝ → ℝ) (hq : QBetaSpec qBeta) {N : ℕ} (hN : 0 < N)
    (r : Fin N → Ω → ℝ) (hm : ∀ i, Measurable (r i)) (hi : iIndepFun r P) (det : ℝ) (lin : ℝ → ℝ) (c : ℝ)
    (hc : 0 < c) (hc1 : c < 1) (x : ℝ) (p : I) (hp : ∀ i, P.real {ω | det < lin x + r i ω} = p) :
    let coverage := P.real {ω | podBinomialCl qBeta (List.ofFn fun i => r i ω) det lin c x ≤ p}
    (∃ k ≤ N, c - Bin(N, p).real {k} < coverage) ∧ (1 / 2 ≤ c → c ≤ (p : ℝ) ^ N → coverage = 1) := by
  intro coverage
  have hp' : ∀ i, P.real {ω | det - lin x < r i ω} = p := by
    intro i; rw [← hp i]; congr 1; ext ω; simp only [Set.mem_ofPred_eq]; constructor <;> intro <;> linarith
  obtain ⟨k, hk, hiff, -, hle, hgt⟩ := first_above (N := N) p hc1
  constructor
  · refine ⟨k, hk, ?_⟩
    have : Bin(N, p).real {j | j < k} ≤ coverage := by
      rw [← numAbove_law r hm hi (det - lin x) p hp']
      refine measureReal_mono (fun ω h => ?_) (measure_ne_top _ _)
      simp only [Set.mem_ofPred_eq] at h
      simp only [Set.mem_ofPred_eq, cl_le_iff qBeta hq hN _ det lin c hc hc1 x p, hiff]
      exact Or.inl ⟨by omega, h⟩
    linarith
  · intro h2 hpN
    have : {ω | podBinomialCl qBeta (List.ofFn fun i => r i ω) det lin c x ≤ p} = Set.univ := by
      ext ω
      simp only [Set.mem_ofPred_eq, Set.mem_univ, iff_true, cl_le_iff qBeta hq hN _ det lin c hc hc1 x p]
      rcases (numAbove_le (fun i => r i ω) (det - lin x)).lt_or_eq with h | h
      · refine Or.inl ⟨h, ?_⟩
        have h1 : Bin(N, p).real {j | j ≤ numAbove (fun i => r i ω) (det - lin x)} + Bin(N, p).real {N} ≤ 1 := by
          rw [← measureReal_union (by
            rw [Set.disjoint_singleton_right]; simp only [Set.mem_ofPred_eq]; omega) (by measurability)]
          exact measureReal_le_one
        rw [binomial_real_self] at h1
        linarith
      · exact Or.inr ⟨h, hpN⟩
    simp only [coverage, this]
    simp

/-- The hypotheses hold for independent standard Gaussian residuals and a margin of 0: there `p = 1/2`, and with three
residuals and the level 0.95 the coverage is strictly below the level. -/
example : ∃ (r : Fin 3 → (Fin 3 → ℝ) → ℝ) (p : I) (qBeta : ℕ → ℕ → ℝ → ℝ),
    let P := Measure.pi fun _ : Fin 3 => gaussianReal 0 1
    P.real {ω | podBinomialCl qBeta (List.ofFn fun i => r i ω) 0 (fun x => x) (19 / 20) 0 ≤ p} < 19 / 20 ∧
    (∀ i, P.real {ω | (0 : ℝ) < r i ω} = p) ∧ (p : ℝ) = 1 / 2 := by
  obtain ⟨qBeta, hq⟩ := qBetaSpec_nonempty
  have hhalf : (gaussianReal 0 1).real (Ioi (0 : ℝ)) = 1 / 2 := by
    have e1 : (gaussianReal 0 1).real (Iio (0 : ℝ)) = (gaussianReal 0 1).real (Ioi (0 : ℝ)) := by
      have h := gaussianReal_map_neg (μ := 0) (v := 1)
      rw [neg_zero] at h
      conv_lhs => rw [← h]
      rw [map_measureReal_apply measurable_neg measurableSet_Iio]
      congr 1; ext y; simp
    have e2 : (gaussianReal 0 1).real (Iic (0 : ℝ)) = (gaussianReal 0 1).real (Iio (0 : ℝ)) := by
      have : NullSingletonClass (gaussianReal 0 1) := nullSingletonClass_gaussianReal one_ne_zero
      exact measureReal_congr Iio_ae_eq_Iic.symm
    have e3 : (gaussianReal 0 1).real (Ioi (0 : ℝ)) = 1 - (gaussianReal 0 1).real (Iic (0 : ℝ)) := by
      rw [← Set.compl_Iic, probReal_compl_eq_one_sub measurableSet_Iic]
    linarith
  let p : I := ⟨1 / 2, by norm_num, by norm_num⟩
  have hp : ∀ i : Fin 3, (Measure.pi fun _ : Fin 3 => gaussianReal 0 1).real {ω | (0 : ℝ) < ω i} = 1 / 2 := by
    intro i
    have h := (measurePreserving_eval (fun _ : Fin 3 => gaussianReal 0 1) i).measureReal_preimage
      (s := Ioi 0) measurableSet_Ioi.nullMeasurableSet
    rw [hhalf] at h
    exact h
  refine ⟨fun i ω => ω i, p, qBeta, ?_, hp, rfl⟩
  have hind : iIndepFun (fun (i : Fin 3) (ω : Fin 3 → ℝ) => ω i) (Measure.pi fun _ => gaussianReal 0 1) :=
    iIndepFun_pi (X := fun _ (y : ℝ) => y) (fun _ => measurable_id.aemeasurable)
  have := C127_violated qBeta hq (N := 3) (by norm_num) (fun i (ω : Fin 3 → ℝ) => ω i)
    (fun i => measurable_pi_apply i) hind 0 (fun x => x) (19 / 20) (by norm_num) (by norm_num) 0 p
    (fun i => by simpa only [zero_add] using hp i) (by norm_num [p])
  refine lt_of_le_of_ne this.1 fun h => ?_
  obtain ⟨k, hk⟩ := this.2.mp h
  rw [← lowPoly_eval] at hk
  have hk' : (lowPoly 3 k).eval (1 / 2 : ℝ) = 19 / 20 := hk
  rcases lt_or_ge k 3 with h3 | h3
  · interval_cases k <;>
      simp [lowPoly, Finset.sum_range_succ, bernstein_eval, Nat.choose] at hk' <;> norm_num at hk'
  · have : Bin(3, p).real {j | j ≤ 3} ≤ Bin(3, p).real {j | j ≤ k} := measureReal_mono fun j hj => le_trans hj h3
    rw [bin_le_top, ← lowPoly_eval] at this
    have : (1 : ℝ) ≤ 19 / 20 := by rw [← hk']; exact this
    norm_num at this

end Verif.Props
