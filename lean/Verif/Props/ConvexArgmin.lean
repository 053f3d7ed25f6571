import Verif.Props.DeltaMethod
import Mathlib.Analysis.Convex.Continuous
import Mathlib.Analysis.Convex.Integral
import Mathlib.Analysis.Normed.Affine.Convex

/-!
# Minimisers of random convex functions

A convex function with one minimum, known up to a small error at finitely many points, determines the minimum up to a small error; with the law of
large numbers at these points, the minimisers of a mean of independent convex functions converge.
-/

namespace Verif.Props
open MeasureTheory ProbabilityTheory Filter Topology Set Metric

section
variable {E : Type} [NormedAddCommGroup E] [NormedSpace ℝ E] [FiniteDimensional ℝ E]

/-- Finitely many values of a convex function close to those of `f` place its low points close to the minimum of `f`. -/
theorem convex_argmin (D : Set E) (hD : IsOpen D) (f : E → ℝ) (hf : ConvexOn ℝ D f) (p : E) (hp : p ∈ D)
    (hmin : ∀ q ∈ D, q ≠ p → f p < f q) (ε : ℝ) (hε : 0 < ε) :
    ∃ S : Finset E, (S : Set E) ⊆ D ∧ ∃ κ > 0, ∀ g : E → ℝ, ConvexOn ℝ D g → (∀ q ∈ S, |g q - f q| ≤ κ) →
      ∀ q ∈ D, g q ≤ g p → dist q p < ε := by
  classical
  obtain ⟨r0, hr0, hball⟩ := Metric.isOpen_iff.1 hD p hp
  obtain ⟨r, hr, hr2, hrε⟩ : ∃ r > 0, 2 * r < r0 ∧ r ≤ ε :=
    ⟨min (r0 / 3) ε, lt_min (by positivity) hε, by linarith [min_le_left (r0 / 3) ε], min_le_right _ _⟩
  have hsub : closedBall p (2 * r) ⊆ D := (closedBall_subset_ball hr2).trans hball
  obtain ⟨V, hV1, hV2⟩ := (convex_closedBall p (2 * r)).exists_subset_interior_convexHull_finset_of_isCompact
    (isCompact_closedBall p (2 * r)) (hD.mem_nhdsSet.2 hsub)
  have hVD : (V : Set E) ⊆ D := (subset_convexHull ℝ _).trans hV2
  have hcont : ContinuousOn f D := hf.continuousOn hD
  have hSph : sphere p r ⊆ D := (sphere_subset_closedBall.trans (closedBall_subset_closedBall (by linarith))).trans hsub
  obtain ⟨c, hc, hcS⟩ : ∃ c > 0, ∀ q ∈ sphere p r, f p + c ≤ f q := by
    rcases (sphere p r).eq_empty_or_nonempty with he | hne
    · exact ⟨1, one_pos, by rw [he]; intro q hq; cases hq⟩
    · obtain ⟨q0, hq0, hq0'⟩ := (isCompact_sphere p r).exists_isMinOn hne (hcont.mono hSph)
      have hne0 : q0 ≠ p := by
        rintro rfl
        rw [mem_sphere, dist_self] at hq0
        linarith
      have := hmin q0 (hSph hq0) hne0
      exact ⟨f q0 - f p, by linarith, fun q hq => by have := hq0' hq; have h3 : f q0 ≤ f q := this; linarith⟩
  set M := ∑ v ∈ V, |f v| with hM
  have hMv : ∀ v ∈ V, f v ≤ M := fun v hv =>
    (le_abs_self _).trans (Finset.single_le_sum (f := fun v => |f v|) (fun _ _ => abs_nonneg _) hv)
  have hM0 : 0 ≤ M := Finset.sum_nonneg fun _ _ => abs_nonneg _
  set A := M + 1 + |f p| with hA
  have hApos : 0 < A := by have := abs_nonneg (f p); linarith
  obtain ⟨η, hη, hη1, hηA⟩ : ∃ η > 0, η ≤ 1 / 2 ∧ η * A ≤ c / 4 := by
    refine ⟨min (1 / 2) (c / 4 / A), lt_min (by norm_num) (by positivity), min_le_left _ _, ?_⟩
    calc min (1 / 2) (c / 4 / A) * A ≤ c / 4 / A * A := mul_le_mul_of_nonneg_right (min_le_right _ _) hApos.le
      _ = c / 4 := by field_simp
  obtain ⟨t, htS, htf, htc⟩ := finite_cover_balls_of_compact (isCompact_sphere p r) (e := η * r) (by positivity)
  refine ⟨V ∪ {p} ∪ htf.toFinset, ?_, min 1 (c / 8), lt_min one_pos (by positivity), fun g hg hgS => ?_⟩
  · intro q hq
    simp only [Finset.coe_union, Finset.coe_singleton, Finite.coe_toFinset, mem_union, mem_singleton_iff] at hq
    rcases hq with (hq | hq) | hq
    · exact hVD hq
    · rw [hq]; exact hp
    · exact hSph (htS hq)
  have hκ1 : min 1 (c / 8) ≤ 1 := min_le_left _ _
  have hκc : min 1 (c / 8) ≤ c / 8 := min_le_right _ _
  have hgp : g p ≤ f p + c / 8 := by
    have := (abs_le.1 (hgS p (by simp))).2
    linarith
  -- no low point on the sphere
  have key : ∀ q ∈ sphere p r, ¬ g q ≤ g p := by
    intro q hq hle
    obtain ⟨s, hs, hqs⟩ := mem_iUnion₂.1 (htc hq)
    have hsS := htS hs
    rw [mem_ball] at hqs
    set z := q + (1 / η) • (s - q) with hz
    have hzb : z ∈ closedBall p (2 * r) := by
      rw [mem_closedBall]
      have h1 : dist z q ≤ r := by
        rw [dist_eq_norm, hz, add_sub_cancel_left, norm_smul, Real.norm_of_nonneg (by positivity), ← dist_eq_norm, dist_comm]
        calc 1 / η * dist q s ≤ 1 / η * (η * r) := by gcongr
          _ = r := by field_simp
      have h2 : dist q p = r := hq
      linarith [dist_triangle z q p]
    have hzV := interior_subset (hV1 hzb)
    have hgz : g z ≤ M + 1 := by
      obtain ⟨v, hv, hle⟩ := (hg.subset hV2 (convex_convexHull ℝ _)).exists_ge_of_mem_convexHull (subset_convexHull ℝ _) hzV
      have := (abs_le.1 (hgS v (by simp [show v ∈ V from hv]))).2
      have := hMv v hv
      linarith
    have hs' : s = (1 - η) • q + η • z := by
      rw [hz, smul_add, smul_smul, mul_one_div_cancel hη.ne', one_smul, sub_smul, one_smul]
      abel
    have h1 := hg.2 (hSph hq) (hV2 hzV) (by linarith : (0 : ℝ) ≤ 1 - η) hη.le (by ring)
    rw [← hs'] at h1
    simp only [smul_eq_mul] at h1
    have h2 := (abs_le.1 (hgS s (by simp [hs]))).1
    have h3 := hcS s hsS
    have h4 : (1 - η) * g q ≤ (1 - η) * (f p + c / 8) := by
      apply mul_le_mul_of_nonneg_left (by linarith) (by linarith)
    have h5 : η * g z ≤ η * (M + 1) := mul_le_mul_of_nonneg_left hgz hη.le
    have h6 : η * (M + 1 - f p) ≤ η * A := by
      apply mul_le_mul_of_nonneg_left _ hη.le
      have := neg_abs_le (f p)
      linarith
    have h7 : 0 ≤ η * (c / 8) := by positivity
    nlinarith
  intro q hq hle
  by_contra hcon
  rw [not_lt] at hcon
  have hd : r ≤ dist q p := hrε.trans hcon
  have hdpos : 0 < dist q p := lt_of_lt_of_le hr hd
  set l := r / dist q p with hl
  have hl0 : 0 < l := by positivity
  have hl1 : l ≤ 1 := (div_le_one hdpos).2 hd
  refine key ((1 - l) • p + l • q) ?_ ?_
  · rw [mem_sphere, dist_eq_norm, show (1 - l) • p + l • q - p = l • (q - p) by rw [sub_smul, one_smul, smul_sub]; abel,
      norm_smul, Real.norm_of_nonneg hl0.le, ← dist_eq_norm, hl]
    field_simp
  · have := hg.2 hp hq (by linarith : 0 ≤ 1 - l) hl0.le (by ring)
    simp only [smul_eq_mul] at this
    have h2 := mul_le_mul_of_nonneg_left hle hl0.le
    linarith

end

section
variable {E : Type} [NormedAddCommGroup E] [NormedSpace ℝ E] [FiniteDimensional ℝ E]
variable {Z Ω : Type} [MeasurableSpace Z] [MeasurableSpace Ω] {Q : Measure Ω} [IsProbabilityMeasure Q] {P : Measure Z} [IsProbabilityMeasure P]

/-- **Low points of a mean of independent convex functions.**  If the expectation has one minimum `p`, then with probability one, for every tolerance
and from some number of terms on, every point where the sum is not above its value at `p` is within the tolerance of `p`. -/
theorem convex_argmin_ae (z : ℕ → Ω → Z) (hz : ∀ i, Measurable (z i)) (hlaw : ∀ i, Q.map (z i) = P) (hind : iIndepFun z Q)
    (D : Set E) (hD : IsOpen D) (loss : E → Z → ℝ) (hconv : ∀ w, ConvexOn ℝ D fun q => loss q w) (hm : ∀ q ∈ D, Measurable (loss q))
    (hint : ∀ q ∈ D, Integrable (loss q) P) (p : E) (hp : p ∈ D) (hmin : ∀ q ∈ D, q ≠ p → ∫ w, loss p w ∂P < ∫ w, loss q w ∂P) :
    ∀ᵐ ω ∂Q, ∀ ε > 0, ∀ᶠ N : ℕ in atTop, ∀ q ∈ D,
      ∑ i ∈ Finset.range N, loss q (z i ω) ≤ ∑ i ∈ Finset.range N, loss p (z i ω) → dist q p < ε := by
  obtain ⟨q0, hq0⟩ : ∃ q, q ∈ D := ⟨p, hp⟩
  have hDc : Convex ℝ D := by
    rcases isEmpty_or_nonempty Z with h | ⟨⟨w⟩⟩
    · exact absurd (measure_univ (μ := P)) (by rw [univ_eq_empty_iff.2 h]; simp)
    · exact (hconv w).1
  have hf : ConvexOn ℝ D fun q => ∫ w, loss q w ∂P := by
    refine ⟨hDc, fun q hq q' hq' a b ha hb hab => ?_⟩
    show ∫ w, loss (a • q + b • q') w ∂P ≤ a • (∫ w, loss q w ∂P) + b • ∫ w, loss q' w ∂P
    rw [smul_eq_mul, smul_eq_mul, ← integral_const_mul, ← integral_const_mul,
      ← integral_add ((hint q hq).const_mul a) ((hint q' hq').const_mul b)]
    exact integral_mono (hint _ (hDc hq hq' ha hb hab)) (((hint q hq).const_mul a).add ((hint q' hq').const_mul b))
      fun w => (hconv w).2 hq hq' ha hb hab
  choose S hS κ hκ hSκ using fun k : ℕ => convex_argmin D hD (fun q => ∫ w, loss q w ∂P) hf p hp hmin (1 / ((k : ℝ) + 1)) (by positivity)
  have hall : ∀ᵐ ω ∂Q, ∀ k : ℕ, ∀ q ∈ S k, Tendsto (fun N => avg z (loss q) N ω) atTop (𝓝 (∫ w, loss q w ∂P)) := by
    rw [ae_all_iff]
    intro k
    refine (ae_ball_iff (S k).countable_toSet).2 fun q hq => ?_
    exact avg_strong hz hlaw hind (hm q (hS k hq)) (hint q (hS k hq))
  filter_upwards [hall] with ω hω ε hε
  obtain ⟨k, hk⟩ := exists_nat_one_div_lt hε
  have hev : ∀ᶠ N in atTop, ∀ q ∈ S k, |avg z (loss q) N ω - ∫ w, loss q w ∂P| ≤ κ k := by
    rw [eventually_all_finset]
    intro q hq
    have := (hω k q hq).eventually (Metric.ball_mem_nhds _ (hκ k))
    filter_upwards [this] with N hN
    rw [Real.dist_eq] at hN
    exact hN.le
  filter_upwards [hev, eventually_gt_atTop 0] with N hN hN0 q hq hle
  have hN' : (0 : ℝ) < N := by exact_mod_cast hN0
  refine lt_trans (hSκ k (fun q => avg z (loss q) N ω) ?_ hN q hq ?_) hk
  · refine ⟨hDc, fun q hq q' hq' a b ha hb hab => ?_⟩
    simp only [avg, smul_eq_mul]
    rw [← mul_div_assoc, ← mul_div_assoc, ← add_div, Finset.mul_sum, Finset.mul_sum, ← Finset.sum_add_distrib]
    exact div_le_div_of_nonneg_right (Finset.sum_le_sum fun i _ => (hconv (z i ω)).2 hq hq' ha hb hab) hN'.le
  · simp only [avg]
    exact div_le_div_of_nonneg_right hle hN'.le

end

end Verif.Props
