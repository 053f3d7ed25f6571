import Verif.Model.LinearPOD
import Verif.Props.Stats
import Mathlib.Analysis.Calculus.Deriv.MeanValue
import Mathlib.Analysis.SpecialFunctions.Sqrt
import Mathlib.LinearAlgebra.Matrix.Adjugate
import Mathlib.Tactic.FieldSimp
import Mathlib.Tactic.Linarith
import Mathlib.Tactic.FinCases

/-!
# C22–C25: Gaussian POD, quantile confidence curves, simulation size
-/

namespace Verif.Props
open Verif.Py Verif.Model Matrix MeasureTheory ProbabilityTheory

variable {n : ℕ}

theorem gram_eq (x : Fin n → ℝ) :
    (designMatrix x)ᵀ * designMatrix x = !![(n : ℝ), ∑ i, x i; ∑ i, x i, ∑ i, x i ^ 2] := by
  ext i j
  fin_cases i <;> fin_cases j <;> simp [Matrix.mul_apply, designMatrix, sq]

/-- Leverage of a new point: `1/n + (a-mean)²/Sxx`. -/
theorem leverage_eq (x : Fin n → ℝ) (a : ℝ) (hx : ∃ i j, x i ≠ x j) :
    let S := ∑ i, (x i - smean x) ^ 2
    (![1, a] : Fin 2 → ℝ) ⬝ᵥ (((designMatrix x)ᵀ * designMatrix x)⁻¹ *ᵥ ![1, a])
      = 1 / n + (a - smean x) ^ 2 / S := by
  intro S
  have hS : S ≠ 0 := by
    intro h
    obtain ⟨i, j, hij⟩ := hx
    have := (Finset.sum_eq_zero_iff_of_nonneg (fun i _ => sq_nonneg (x i - smean x))).mp h
    have h1 := this i (Finset.mem_univ _)
    have h2 := this j (Finset.mem_univ _)
    rw [sq_eq_zero_iff] at h1 h2
    exact hij (by linarith)
  have hn0 : n ≠ 0 := by obtain ⟨i, -⟩ := hx; exact fun h => by subst h; exact i.elim0
  have hn : (n : ℝ) ≠ 0 := by exact_mod_cast hn0
  have hsum : ∑ i, x i = n * smean x := by rw [smean]; field_simp
  have hsq : ∑ i, x i ^ 2 = S + n * smean x ^ 2 := by
    have : S = ∑ i, x i ^ 2 - 2 * smean x * ∑ i, x i + n * smean x ^ 2 := by
      simp only [S, sub_sq, Finset.sum_add_distrib, Finset.sum_sub_distrib, Finset.sum_const, Finset.card_univ,
        Fintype.card_fin, nsmul_eq_mul, Finset.mul_sum]
      congr 2
      apply Finset.sum_congr rfl
      intro i _; ring
    rw [this, hsum]; ring
  rw [gram_eq, Matrix.inv_def, Matrix.det_fin_two_of, Matrix.adjugate_fin_two_of, hsum, hsq,
    Ring.inverse_eq_inv']
  have hdet : (n : ℝ) * (S + n * smean x ^ 2) - n * smean x * (n * smean x) = n * S := by ring
  rw [hdet]
  simp only [dotProduct, Matrix.mulVec, Fin.sum_univ_two, Matrix.smul_apply, Matrix.of_apply,
    Matrix.cons_val_zero, Matrix.cons_val_one, smul_eq_mul]
  field_simp
  ring

theorem predictionVariance_eq (x : Fin n → ℝ) (s a : ℝ) (hx : ∃ i j, x i ≠ x j) :
    predictionVariance x s a
      = s ^ 2 * (1 + (1 / n + (a - smean x) ^ 2 / ∑ i, (x i - smean x) ^ 2)) := by
  rw [predictionVariance, leverage_eq x a hx]

theorem sxx_pos (x : Fin n → ℝ) (hx : ∃ i j, x i ≠ x j) : 0 < ∑ i, (x i - smean x) ^ 2 := by
  apply lt_of_le_of_ne (Finset.sum_nonneg fun i _ => sq_nonneg _)
  intro h
  obtain ⟨i, j, hij⟩ := hx
  have := (Finset.sum_eq_zero_iff_of_nonneg (fun i _ => sq_nonneg (x i - smean x))).mp h.symm
  have h1 := this i (Finset.mem_univ _)
  have h2 := this j (Finset.mem_univ _)
  rw [sq_eq_zero_iff] at h1 h2
  exact hij (by linarith)

/-- **C22.**  The Gaussian POD is the probability that a Gaussian variable with the predicted mean and the variance
`s²(1+h)`, `h = 1/n + (a-mean)²/Sxx ≥ 1/n`, exceeds the threshold; it is in (0,1) and equals 1/2 exactly where the
line crosses the threshold. -/
theorem C22_gauss_pod (x : Fin n → ℝ) (hx : ∃ i j, x i ≠ x j) (s det b0 b1 a : ℝ) (hs : 0 < s) :
    let h := 1 / (n : ℝ) + (a - (∑ i, x i) / n) ^ 2 / ∑ i, (x i - (∑ j, x j) / n) ^ 2
    let pod := podGauss x s det (fun x => b0 + b1 * x) a
    1 / (n : ℝ) ≤ h ∧
    pod = (gaussianReal (b0 + b1 * a) (sqv (s * Real.sqrt (1 + h)))).real (Set.Ioi det) ∧
    0 < pod ∧ pod < 1 ∧ (pod = 1 / 2 ↔ b0 + b1 * a = det) := by
  intro h pod
  have hS := sxx_pos x hx
  have hh : 1 / (n : ℝ) ≤ h := by
    have : 0 ≤ (a - (∑ i, x i) / n) ^ 2 / ∑ i, (x i - (∑ j, x j) / n) ^ 2 := by
      apply div_nonneg (sq_nonneg _) (Finset.sum_nonneg fun i _ => sq_nonneg _)
    linarith
  have hn : (0 : ℝ) ≤ 1 / n := by positivity
  have hsd : 0 < s * Real.sqrt (1 + h) := mul_pos hs (Real.sqrt_pos.mpr (by linarith))
  have hpod : pod = PhiC ((det - (b0 + b1 * a)) / (s * Real.sqrt (1 + h))) := by
    simp only [pod, podGauss]
    rw [predictionVariance_eq x s a hx, Real.sqrt_mul (sq_nonneg s), Real.sqrt_sq hs.le]
    rfl
  refine ⟨hh, ?_, ?_, ?_, ?_⟩
  · rw [hpod, gauss_Ioi hsd, PhiC_eq]
  · rw [hpod]; exact PhiC_pos _
  · rw [hpod, PhiC_eq]; linarith [Phi_pos ((det - (b0 + b1 * a)) / (s * Real.sqrt (1 + h)))]
  · rw [hpod, PhiC_eq]
    have : (1 - Phi ((det - (b0 + b1 * a)) / (s * Real.sqrt (1 + h))) = 1 / 2) ↔
        Phi ((det - (b0 + b1 * a)) / (s * Real.sqrt (1 + h))) = Phi 0 := by
      rw [Phi_zero]; constructor <;> intro h <;> linarith
    rw [this, Phi_strictMono.injective.eq_iff, div_eq_zero_iff]
    constructor
    · rintro (h | h)
      · linarith
      · exact absurd h hsd.ne'
    · intro h; left; linarith

example : ∃ i j : Fin 3, ![(1 : ℝ), 2, 4] i ≠ ![(1 : ℝ), 2, 4] j := ⟨0, 1, by norm_num⟩

/-! ## C23 -/

/-- `(a - a*)/√(k + (a-m)²/S)`. -/
theorem ratio_hasDeriv (k S m c a : ℝ) (hk : 0 < k) (hS : 0 < S) :
    HasDerivAt (fun a => (a - c) / Real.sqrt (k + (a - m) ^ 2 / S))
      ((k + (a - m) * (c - m) / S) / Real.sqrt (k + (a - m) ^ 2 / S) ^ 3) a := by
  have hq : 0 < k + (a - m) ^ 2 / S := by positivity
  have h1 : HasDerivAt (fun a => k + (a - m) ^ 2 / S) (2 * (a - m) / S) a := by
    have := (((hasDerivAt_id a).sub_const m).pow 2).div_const S |>.const_add k
    simpa using this
  have h2 := h1.sqrt hq.ne'
  have hr : 0 < Real.sqrt (k + (a - m) ^ 2 / S) := Real.sqrt_pos.mpr hq
  have h3 := ((hasDerivAt_id a).sub_const c).div h2 hr.ne'
  refine h3.congr_deriv ?_
  have hsq : Real.sqrt (k + (a - m) ^ 2 / S) ^ 2 = k + (a - m) ^ 2 / S := Real.sq_sqrt hq.le
  set R := Real.sqrt (k + (a - m) ^ 2 / S)
  simp only [id]
  rw [div_eq_div_iff (by positivity) (by positivity)]
  have : (1 * R - (a - c) * (2 * (a - m) / S / (2 * R))) * R = (k + (a - m) * (c - m) / S) := by
    have : (1 * R - (a - c) * (2 * (a - m) / S / (2 * R))) * R = R ^ 2 - (a - c) * (a - m) / S := by
      field_simp
    rw [this, hsq]; field_simp; ring
  calc _ = ((1 * R - (a - c) * (2 * (a - m) / S / (2 * R))) * R) * R ^ 2 := by ring
    _ = _ := by rw [this]

theorem ratio_mono (k S m c : ℝ) (hk : 0 < k) (hS : 0 < S) :
    StrictMonoOn (fun a => (a - c) / Real.sqrt (k + (a - m) ^ 2 / S)) {a | 0 ≤ k + (a - m) * (c - m) / S} ∧
    StrictAntiOn (fun a => (a - c) / Real.sqrt (k + (a - m) ^ 2 / S)) {a | k + (a - m) * (c - m) / S ≤ 0} := by
  have hd := fun a => ratio_hasDeriv k S m c a hk hS
  have hcont : Continuous (fun a => (a - c) / Real.sqrt (k + (a - m) ^ 2 / S)) :=
    continuous_iff_continuousAt.mpr fun a => (hd a).continuousAt
  have hR : ∀ a, 0 < Real.sqrt (k + (a - m) ^ 2 / S) ^ 3 := by
    intro a
    have : 0 < k + (a - m) ^ 2 / S := by positivity
    have := Real.sqrt_pos.mpr this
    positivity
  -- work on the segment between two points of the set: the linear factor is signed strictly inside
  constructor
  · intro a ha b hb hab
    simp only [Set.mem_ofPred_eq] at ha hb
    have := strictMonoOn_of_deriv_pos (convex_Icc a b) hcont.continuousOn (fun t ht => by
      rw [interior_Icc] at ht
      rw [(hd t).deriv]
      apply div_pos _ (hR t)
      have hw : k + (t - m) * (c - m) / S
          = ((b - t) * (k + (a - m) * (c - m) / S) + (t - a) * (k + (b - m) * (c - m) / S)) / (b - a) := by
        have : b - a ≠ 0 := by linarith
        field_simp; ring
      rcases ha.lt_or_eq with h | h
      · rw [hw]; apply div_pos _ (by linarith)
        have := mul_pos (sub_pos.mpr ht.2) h
        have := mul_nonneg (sub_pos.mpr ht.1).le hb
        linarith
      · rcases hb.lt_or_eq with h' | h'
        · rw [hw]; apply div_pos _ (by linarith)
          have := mul_pos (sub_pos.mpr ht.1) h'
          have := mul_nonneg (sub_pos.mpr ht.2).le ha
          linarith
        · exfalso
          -- equal zeros at two points force c = m, then k = 0
          have h1 : (b - a) * (c - m) / S = 0 := by
            have : (b - a) * (c - m) / S = (k + (b - m) * (c - m) / S) - (k + (a - m) * (c - m) / S) := by ring
            rw [this, ← h, ← h', sub_self]
          have h2 : c - m = 0 := by
            rw [div_eq_zero_iff, mul_eq_zero] at h1
            rcases h1 with (h1 | h1) | h1
            · linarith
            · exact h1
            · linarith
          rw [h2] at h; simp at h; linarith)
    exact this (Set.left_mem_Icc.mpr hab.le) (Set.right_mem_Icc.mpr hab.le) hab
  · intro a ha b hb hab
    simp only [Set.mem_ofPred_eq] at ha hb
    have := strictAntiOn_of_deriv_neg (convex_Icc a b) hcont.continuousOn (fun t ht => by
      rw [interior_Icc] at ht
      rw [(hd t).deriv]
      apply div_neg_of_neg_of_pos _ (hR t)
      have hw : k + (t - m) * (c - m) / S
          = ((b - t) * (k + (a - m) * (c - m) / S) + (t - a) * (k + (b - m) * (c - m) / S)) / (b - a) := by
        have : b - a ≠ 0 := by linarith
        field_simp; ring
      rcases ha.lt_or_eq with h | h
      · rw [hw]; apply div_neg_of_neg_of_pos _ (by linarith)
        have := mul_pos_of_neg_of_neg (sub_neg.mpr ht.2) h
        have := mul_nonpos_of_nonneg_of_nonpos (sub_pos.mpr ht.1).le hb
        linarith
      · rcases hb.lt_or_eq with h' | h'
        · rw [hw]; apply div_neg_of_neg_of_pos _ (by linarith)
          have := mul_pos_of_neg_of_neg (sub_neg.mpr ht.1) h'
          rw [h]; linarith
        · exfalso
          have h1 : (b - a) * (c - m) / S = 0 := by
            have : (b - a) * (c - m) / S = (k + (b - m) * (c - m) / S) - (k + (a - m) * (c - m) / S) := by ring
            rw [this, h, h', sub_self]
          have h2 : c - m = 0 := by
            rw [div_eq_zero_iff, mul_eq_zero] at h1
            rcases h1 with (h1 | h1) | h1
            · linarith
            · exact h1
            · linarith
          rw [h2] at h; simp at h; linarith)
    exact this (Set.left_mem_Icc.mpr hab.le) (Set.right_mem_Icc.mpr hab.le) hab

/-- The POD in terms of the ratio above. -/
theorem podGauss_ratio (x : Fin n → ℝ) (hx : ∃ i j, x i ≠ x j) (s det b0 b1 a : ℝ) (hs : 0 < s) (hb : b1 ≠ 0) :
    podGauss x s det (fun x => b0 + b1 * x) a = Phi ((b1 / s) * ((a - (det - b0) / b1) /
      Real.sqrt ((1 + 1 / n) + (a - smean x) ^ 2 / ∑ i, (x i - smean x) ^ 2))) := by
  rw [podGauss, predictionVariance_eq x s a hx, Real.sqrt_mul (sq_nonneg s), Real.sqrt_sq hs.le, PhiC_eq, ← Phi_neg,
    add_assoc]
  congr 1
  field_simp
  ring

/-- **C23 (exact region).**  For a positive slope let `a* = (det-b0)/b1` be the size at which the line reaches the
threshold.  The POD increases strictly on the half-line `1+1/n + (a-mean)(a*-mean)/Sxx ≥ 0` and decreases strictly on
its complement.  The full statement (everywhere) fails unless `a* = mean`. -/
theorem C23_gauss_monotone_partial (x : Fin n → ℝ) (hx : ∃ i j, x i ≠ x j) (s det b0 b1 : ℝ) (hs : 0 < s)
    (hb : 0 < b1) :
    let m := (∑ i, x i) / n
    let S := ∑ i, (x i - (∑ j, x j) / n) ^ 2
    let q := fun a => 1 + 1 / (n : ℝ) + (a - m) * ((det - b0) / b1 - m) / S
    let pod := podGauss x s det (fun x => b0 + b1 * x)
    StrictMonoOn pod {a | 0 ≤ q a} ∧ StrictAntiOn pod {a | q a ≤ 0} := by
  intro m S q pod
  have hS : 0 < S := sxx_pos x hx
  have hk : 0 < 1 + 1 / (n : ℝ) := by positivity
  obtain ⟨h1, h2⟩ := ratio_mono (1 + 1 / (n : ℝ)) S m ((det - b0) / b1) hk hS
  have hp := fun a => podGauss_ratio x hx s det b0 b1 a hs hb.ne'
  have hbs : 0 < b1 / s := div_pos hb hs
  constructor
  · intro a ha b hb' hab
    simp only [pod]
    rw [hp, hp]
    exact Phi_strictMono (mul_lt_mul_of_pos_left (h1 ha hb' hab) hbs)
  · intro a ha b hb' hab
    simp only [pod]
    rw [hp, hp]
    exact Phi_strictMono (mul_lt_mul_of_pos_left (h2 ha hb' hab) hbs)

/-- **C23 is violated** whenever the threshold is crossed away from the mean defect: there are defect sizes `a < a'` with
a strictly smaller POD at `a'` (or, when `a* > mean`, on the left). -/
theorem C23_violated (x : Fin n → ℝ) (hx : ∃ i j, x i ≠ x j) (s det b0 b1 : ℝ) (hs : 0 < s) (hb : 0 < b1)
    (hne : (det - b0) / b1 ≠ (∑ i, x i) / n) :
    ∃ a a', a < a' ∧ podGauss x s det (fun x => b0 + b1 * x) a' < podGauss x s det (fun x => b0 + b1 * x) a := by
  obtain ⟨-, hanti⟩ := C23_gauss_monotone_partial x hx s det b0 b1 hs hb
  have hS : 0 < ∑ i, (x i - (∑ j, x j) / n) ^ 2 := sxx_pos x hx
  set m := (∑ i, x i) / n with hm
  set S := ∑ i, (x i - m) ^ 2
  set c := (det - b0) / b1
  have hk : 0 < 1 + 1 / (n : ℝ) := by positivity
  rcases lt_or_gt_of_ne hne with h | h
  · -- c < m: decreasing for large a
    have key : ∀ t, 0 ≤ t → 1 + 1 / (n : ℝ) + ((m + (1 + 1 / (n : ℝ) + t) * S / (m - c)) - m) * (c - m) / S ≤ 0 := by
      intro t ht
      have h1 : m - c ≠ 0 := by linarith
      have : 1 + 1 / (n : ℝ) + ((m + (1 + 1 / (n : ℝ) + t) * S / (m - c)) - m) * (c - m) / S = -t := by
        have : (m + (1 + 1 / (n : ℝ) + t) * S / (m - c)) - m = (1 + 1 / (n : ℝ) + t) * S / (m - c) := by ring
        rw [this]
        have h2 : (c - m) = -(m - c) := by ring
        rw [h2, div_mul_eq_mul_div, mul_neg, neg_div, mul_div_assoc, div_self h1, mul_one, neg_div,
          mul_div_assoc, div_self hS.ne']
        ring
      rw [this]; linarith
    refine ⟨_, _, ?_, hanti (key 0 le_rfl) (key 1 zero_le_one) ?_⟩
    · have : (1 + 1 / (n : ℝ) + 0) * S / (m - c) < (1 + 1 / (n : ℝ) + 1) * S / (m - c) := by
        apply div_lt_div_of_pos_right _ (by linarith)
        nlinarith
      linarith
    · have : (1 + 1 / (n : ℝ) + 0) * S / (m - c) < (1 + 1 / (n : ℝ) + 1) * S / (m - c) := by
        apply div_lt_div_of_pos_right _ (by linarith)
        nlinarith
      linarith
  · have key : ∀ t, 0 ≤ t → 1 + 1 / (n : ℝ) + ((m - (1 + 1 / (n : ℝ) + t) * S / (c - m)) - m) * (c - m) / S ≤ 0 := by
      intro t ht
      have h1 : c - m ≠ 0 := by linarith
      have : 1 + 1 / (n : ℝ) + ((m - (1 + 1 / (n : ℝ) + t) * S / (c - m)) - m) * (c - m) / S = -t := by
        have : (m - (1 + 1 / (n : ℝ) + t) * S / (c - m)) - m = -((1 + 1 / (n : ℝ) + t) * S / (c - m)) := by ring
        rw [this, neg_mul, neg_div, div_mul_cancel₀ _ h1, mul_div_assoc, div_self hS.ne']
        ring
      rw [this]; linarith
    have hlt : (1 + 1 / (n : ℝ) + 0) * S / (c - m) < (1 + 1 / (n : ℝ) + 1) * S / (c - m) := by
      apply div_lt_div_of_pos_right _ (by linarith)
      nlinarith
    exact ⟨_, _, by linarith, hanti (key 1 zero_le_one) (key 0 le_rfl) (by linarith)⟩

example : ((1 : ℝ) - 0) / 1 ≠ (∑ i, ![(1 : ℝ), 2, 4] i) / (3 : ℕ) := by
  simp [Fin.sum_univ_three]; norm_num

/-! ## C24 -/

theorem collect_range (coll : List (ℝ → ℝ)) (x : ℝ) (is : List ℕ) :
    (∀ i ∈ is, i < coll.length) → collectCurves coll x is = .ok (is.map fun i => (coll.getD i fun _ => 0) x) := by
  induction is with
  | nil => intro _; rfl
  | cons i is ih =>
    intro h
    have hi : i < coll.length := h i (by simp)
    rw [collectCurves, List.getElem?_eq_getElem hi, ih (fun j hj => h j (by simp [hj]))]
    simp [List.getElem?_eq_getElem hi]

theorem collect_error (coll : List (ℝ → ℝ)) (x : ℝ) (is : List ℕ) (h : ∃ i ∈ is, coll.length ≤ i) :
    ∃ m, collectCurves coll x is = .error ⟨.indexError, m⟩ := by
  induction is with
  | nil => simp at h
  | cons i is ih =>
    rw [collectCurves]
    by_cases hi : i < coll.length
    · rw [List.getElem?_eq_getElem hi]
      obtain ⟨j, hj, hjl⟩ := h
      rcases List.mem_cons.mp hj with rfl | hj
      · omega
      · obtain ⟨m, hm⟩ := ih ⟨j, hj, hjl⟩
        exact ⟨m, by rw [hm]⟩
    · rw [List.getElem?_eq_none (by omega)]
      exact ⟨_, rfl⟩

theorem map_getD_range (coll : List (ℝ → ℝ)) (x : ℝ) (k : ℕ) (hk : k ≤ coll.length) :
    (List.range k).map (fun i => (coll.getD i fun _ => 0) x) = (coll.take k).map fun f => f x := by
  apply List.ext_getElem
  · simp [hk]
  · intro i h1 h2
    simp at h1
    have : i < coll.length := by omega
    simp [List.getElem?_eq_getElem this]

/-- **C24.**  With a non-empty collection of curves and the matching simulation size: the confidence value lies between
two of the simulated values, decreases (weakly) with the level, is in [0,1] when these are, and does not depend on the order of
the simulations. -/
theorem C24_confidence_quantile (coll : List (ℝ → ℝ)) (hne : coll ≠ []) (x : ℝ) :
    (∀ c, ∃ v, podClFromCollection coll.length coll c x = .ok v ∧
      (∃ f ∈ coll, ∃ g ∈ coll, f x ≤ v ∧ v ≤ g x) ∧
      ((∀ f ∈ coll, 0 ≤ f x ∧ f x ≤ 1) → 0 ≤ v ∧ v ≤ 1) ∧
      (∀ coll' : List (ℝ → ℝ), coll'.Perm coll → podClFromCollection coll.length coll' c x = .ok v)) ∧
    (∀ c c' v v', c ≤ c' → podClFromCollection coll.length coll c x = .ok v →
      podClFromCollection coll.length coll c' x = .ok v' → v' ≤ v) := by
  have hval : ∀ (cl : List (ℝ → ℝ)) c, cl ≠ [] → podClFromCollection cl.length cl c x
      = .ok (quantile (cl.map fun f => f x) (1 - c)) := by
    intro cl c hcl
    rw [podClFromCollection, collect_range _ _ _ (by simp), map_getD_range _ _ _ le_rfl, List.take_length]
    simp [hcl]
  constructor
  · intro c
    have hm : (coll.map fun f => f x) ≠ [] := by simpa using hne
    obtain ⟨a, ha, b, hb, hab⟩ := quantile_between hm (1 - c)
    obtain ⟨f, hf, rfl⟩ := List.mem_map.mp ha
    obtain ⟨g, hg, rfl⟩ := List.mem_map.mp hb
    refine ⟨_, hval coll c hne, ⟨f, hf, g, hg, hab⟩, fun h => ?_, fun coll' hp => ?_⟩
    · exact ⟨(h f hf).1.trans hab.1, hab.2.trans (h g hg).2⟩
    · have hne' : coll' ≠ [] := fun h => hne (by rw [h] at hp; exact List.nil_perm.mp hp)
      rw [← hp.length_eq, hval coll' c hne', quantile_perm (hp.map _)]
  · intro c c' v v' hcc h h'
    rw [hval coll _ hne, Except.ok.injEq] at h h'
    rw [← h, ← h']
    exact quantile_mono (by simpa using hne) (by linarith)

/-- Every simulated Gaussian curve has its values in (0,1), so the confidence curve of the Gaussian POD is in [0,1]. -/
theorem C24_gauss_curves_in_unit (b0 b1 det z0 z1 sigma x : ℝ) :
    0 < gaussCurve b0 b1 det z0 z1 sigma x ∧ gaussCurve b0 b1 det z0 z1 sigma x < 1 := by
  rw [gaussCurve]
  refine ⟨PhiC_pos _, ?_⟩
  rw [PhiC_eq]; linarith [Phi_pos ((det - (z0 * sigma + b0 + (z1 * sigma + b1) * x)) / sigma)]

/-! ## C25 -/

/-- The simulation size in force after a history: the last one given, 1000 when none was given. -/
def lastSize (ops : List ClOp) : ℕ :=
  ((ops.filterMap fun | .setSimulationSize n => some n | .run _ => none).getLast?).getD 1000

theorem clRun_size (ops : List ClOp) : (clRun ops).simulationSize = lastSize ops := by
  induction ops using List.reverseRecOn with
  | nil => rfl
  | append_singleton ops op ih =>
    cases op with
    | setSimulationSize n => simp [clRun, clStep, lastSize]
    | run c =>
      have : lastSize (ops ++ [.run c]) = lastSize ops := by simp [lastSize]
      rw [this, ← ih]
      simp [clRun, clStep]

/-- **C25 (restricted).**  After any history ending with `run`, the confidence curve uses exactly the curves of that
run.  After a later `setSimulationSize k`: IndexError iff `k` exceeds the number of curves, and otherwise only the first
`k` curves are used.  The full statement needs all curves. -/
theorem C25_simulation_size_partial (ops : List ClOp) (curves : ℕ → ℝ → ℝ) (k : ℕ) (c x : ℝ) :
    let N := lastSize ops
    let performed := (List.range N).map fun i => curves i x
    (0 < N → clEval (clRun (ops ++ [.run curves])) c x = .ok (quantile performed (1 - c))) ∧
    (Raises (clEval (clRun (ops ++ [.run curves, .setSimulationSize k])) c x) .indexError ↔ N < k) ∧
    (0 < k → k ≤ N → clEval (clRun (ops ++ [.run curves, .setSimulationSize k])) c x
      = .ok (quantile (performed.take k) (1 - c))) := by
  intro N performed
  have h1 : clRun (ops ++ [.run curves]) = ⟨N, some ((List.range N).map curves)⟩ := by
    have := clRun_size ops
    simp only [clRun] at this
    simp [clRun, clStep, N, ← this]
  have h2 : clRun (ops ++ [.run curves, .setSimulationSize k]) = ⟨k, some ((List.range N).map curves)⟩ := by
    have := clRun_size ops
    simp only [clRun] at this
    simp [clRun, clStep, N, ← this]
  have hval : ∀ k, k ≤ N → 0 < k → podClFromCollection k ((List.range N).map curves) c x
      = .ok (quantile (performed.take k) (1 - c)) := by
    intro k hk hk0
    have hl : k ≤ ((List.range N).map curves).length := by simpa using hk
    rw [podClFromCollection, collect_range _ _ _ (fun i hi => by
      have := List.mem_range.mp hi; simp; omega), map_getD_range _ _ _ hl, ← List.map_take, List.map_map]
    have he : ((List.range N).take k).map ((fun f => f x) ∘ curves) = performed.take k := by
      rw [List.map_take]; rfl
    dsimp only
    rw [he, if_neg]
    simp [performed]; omega
  refine ⟨fun hN => ?_, ?_, fun hk0 hk => ?_⟩
  · rw [h1]
    simp only [clEval]
    rw [hval N le_rfl hN, List.take_of_length_le (by simp [performed])]
  · rw [h2]
    simp only [clEval]
    constructor
    · rintro ⟨m, hm⟩
      by_contra hk
      push Not at hk
      rcases Nat.eq_zero_or_pos k with rfl | hk0
      · simp [podClFromCollection, collectCurves] at hm
      · rw [hval k hk hk0] at hm; simp at hm
    · intro hk
      obtain ⟨m, hm⟩ := collect_error ((List.range N).map curves) x (List.range k)
        ⟨N, List.mem_range.mpr hk, by simp⟩
      exact ⟨m, by rw [podClFromCollection, hm]⟩
  · rw [h2]; exact hval k hk hk0

/-- **C25 is violated**: with two simulated curves and the size lowered to one afterwards, the value returned silently is
that of the first curve only. -/
theorem C25_violated :
    let curves : ℕ → ℝ → ℝ := fun i _ => i
    let ops : List ClOp := [.setSimulationSize 2, .run curves]
    clEval (clRun ops) 0 0 = .ok 1 ∧
    clEval (clRun (ops ++ [.setSimulationSize 1])) 0 0 = .ok 0 := by
  intro curves ops
  have hs : ∀ l : List ℝ, l.Pairwise (· ≤ ·) → sortR l = l := by
    intro l hl
    exact List.Perm.eq_of_pairwise' (r := (· ≤ ·)) (sortR_pairwise l) hl (sortR_perm l)
  obtain ⟨a, -, b⟩ := C25_simulation_size_partial [.setSimulationSize 2] curves 1 0 0
  have e1 : lastSize [.setSimulationSize 2] = 2 := rfl
  simp only [e1] at a b
  constructor
  · have := a (by norm_num)
    simp only [List.singleton_append] at this
    rw [this, quantile, hs]
    · norm_num [atPos, curves, List.range_succ]
    · norm_num [curves, List.range_succ]
  · have := b (by norm_num) (by norm_num)
    simp only [List.singleton_append] at this
    simp only [ops, List.cons_append, List.nil_append]
    rw [this, quantile, hs]
    · norm_num [atPos, curves, List.range_succ]
    · norm_num [curves, List.range_succ]

end Verif.Props
