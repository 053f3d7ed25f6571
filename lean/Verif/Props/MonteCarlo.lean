import Verif.Model.Metamodel
import Mathlib.Probability.Distributions.Gaussian.Real
import Mathlib.MeasureTheory.Integral.Bochner.SumMeasure
import Mathlib.Data.List.GetD
import Mathlib.LinearAlgebra.Matrix.PosDef

/-!
# C36, C37, C84: vectorised Monte Carlo, law of the kriging POD estimator, kriging trajectories
-/

namespace Verif.Props
open Verif.Py Verif.Model MeasureTheory ProbabilityTheory

/-! ## C36 -/

section Layout
variable {X : Type}

theorem fullSample_aux (zero : ℝ × X) (xs : List X) (sizes : List ℝ) (pre : List (ℝ × X)) (k n : ℕ)
    (hk : pre.length = xs.length * k) (hn : sizes.length ≤ n) :
    (sizes.zipIdx k).foldl (fun full di => assignRows full (xs.length * di.2) (mergeDefectInX di.1 xs))
      (pre ++ List.replicate (xs.length * n) zero)
      = pre ++ sizes.flatMap (fun d => mergeDefectInX d xs) ++ List.replicate (xs.length * (n - sizes.length)) zero := by
  induction sizes generalizing pre k n with
  | nil => simp
  | cons d ds ih =>
    obtain ⟨n', rfl⟩ : ∃ n', n = n' + 1 := ⟨n - 1, by simp at hn; omega⟩
    rw [List.zipIdx_cons, List.foldl_cons]
    have hstep : assignRows (pre ++ List.replicate (xs.length * (n' + 1)) zero) (xs.length * k) (mergeDefectInX d xs)
        = (pre ++ mergeDefectInX d xs) ++ List.replicate (xs.length * n') zero := by
      have hl : (mergeDefectInX d xs).length = xs.length := by simp [mergeDefectInX]
      rw [assignRows, hl, ← hk, List.take_left, List.drop_append, List.drop_eq_nil_of_le (by omega),
        List.nil_append, Nat.add_sub_cancel_left, List.drop_replicate, Nat.mul_succ, Nat.add_sub_cancel]
    rw [hstep, ih (pre ++ mergeDefectInX d xs) (k + 1) n' (by simp [mergeDefectInX, hk, Nat.mul_succ]) (by simp at hn; omega)]
    simp [List.append_assoc, mergeDefectInX]

/-- The rows of the simulated sample: one block of all simulated points per defect size. -/
theorem fullSample_eq (zero : ℝ × X) (sizes : List ℝ) (xs : List X) :
    fullSample zero xs.length sizes.length sizes xs = sizes.flatMap (fun d => mergeDefectInX d xs) := by
  have := fullSample_aux zero xs sizes [] 0 sizes.length (by simp) le_rfl
  simpa [fullSample] using this

theorem block_getElem? {Y : Type} (sizes : List ℝ) (xs : List X) (f : ℝ → X → Y) (j k : ℕ)
    (hj : j < sizes.length) (hk : k < xs.length) :
    (sizes.flatMap (fun d => xs.map (f d)))[xs.length * j + k]? = some (f sizes[j] xs[k]) := by
  induction sizes generalizing j with
  | nil => simp at hj
  | cons d ds ih =>
    rw [List.flatMap_cons]
    cases j with
    | zero => rw [List.getElem?_append_left (by simpa using hk)]; simp [hk]
    | succ j =>
      rw [List.getElem?_append_right (by simp; nlinarith)]
      have : xs.length * (j + 1) + k - (List.map (f d) xs).length = xs.length * j + k := by
        rw [List.length_map, Nat.mul_succ]; omega
      rw [this, ih j (by simpa using hj)]
      simp

/-- **C36, polynomial chaos.**  Value number `j` is the fraction of the simulated points `x` for which the metamodel at
(size `j`, `x`) plus its own noise term exceeds the threshold. -/
theorem C36_chaos_layout (zero : ℝ × X) (chaos : ℝ × X → ℝ) (noise : List ℝ) (detection : ℝ) (sizes : List ℝ)
    (xs : List X) (hnoise : noise.length = xs.length * sizes.length) :
    chaosComputePOD zero chaos noise detection xs.length sizes.length sizes xs
      = sizes.mapIdx fun j d =>
          ((xs.mapIdx fun k x => chaos (d, x) + noise.getD (xs.length * j + k) 0).countP
            (fun y => decide (detection < y)) : ℝ) / xs.length := by
  unfold chaosComputePOD reshapeF
  dsimp only
  rw [fullSample_eq]
  apply List.ext_getElem
  · simp
  · intro j h1 h2
    have hj : j < sizes.length := by simpa using h2
    simp only [List.getElem_map, List.getElem_range, List.getElem_mapIdx]
    have hcol : (List.range xs.length).map (fun k => (List.zipWith (· + ·)
        ((sizes.flatMap fun d => mergeDefectInX d xs).map chaos) noise).getD (xs.length * j + k) 0)
        = xs.mapIdx fun k x => chaos (sizes[j], x) + noise.getD (xs.length * j + k) 0 := by
      apply List.ext_getElem
      · simp
      · intro k hk1 hk2
        have hk : k < xs.length := by simpa using hk2
        simp only [List.getElem_map, List.getElem_range, List.getElem_mapIdx]
        have hb : ((sizes.flatMap fun d => mergeDefectInX d xs).map chaos)[xs.length * j + k]?
            = some (chaos (sizes[j], xs[k])) := by
          have := block_getElem? sizes xs (fun d x => chaos (d, x)) j k hj hk
          rw [List.map_flatMap]
          simpa [mergeDefectInX, Function.comp_def] using this
        have hn : xs.length * j + k < noise.length := by rw [hnoise]; nlinarith
        rw [List.getD_eq_getElem?_getD, List.getElem?_zipWith, hb, List.getElem?_eq_getElem hn,
          List.getD_eq_getElem _ _ hn]
        rfl
    rw [hcol, fracAbove]
    simp

/-- **C36, hit-miss.**  Column `j` of the returned sample holds, row by row, the classifier at (size `j`, `x`). -/
theorem C36_hitmiss_layout (zero : ℝ × X) (classifier : ℝ × X → ℝ) (sizes : List ℝ) (xs : List X) :
    hitMissComputePOD zero classifier xs.length sizes.length sizes xs
      = sizes.map fun d => xs.map fun x => classifier (d, x) := by
  unfold hitMissComputePOD reshapeF
  rw [fullSample_eq]
  apply List.ext_getElem
  · simp
  · intro j h1 h2
    have hj : j < sizes.length := by simpa using h2
    simp only [List.getElem_map, List.getElem_range]
    apply List.ext_getElem
    · simp
    · intro k hk1 hk2
      have hk : k < xs.length := by simpa using hk2
      simp only [List.getElem_map, List.getElem_range]
      have hb : ((sizes.flatMap fun d => mergeDefectInX d xs).map classifier)[xs.length * j + k]?
          = some (classifier (sizes[j], xs[k])) := by
        have := block_getElem? sizes xs (fun d x => classifier (d, x)) j k hj hk
        rw [List.map_flatMap]
        simpa [mergeDefectInX, Function.comp_def] using this
      rw [List.getD_eq_getElem?_getD, hb]
      rfl

example : (hitMissComputePOD (0, 0) (fun p : ℝ × ℝ => p.1 + p.2) 2 2 [10, 20] [1, 2]) = [[11, 12], [21, 22]] := by
  have := C36_hitmiss_layout (X := ℝ) (0, 0) (fun p : ℝ × ℝ => p.1 + p.2) [10, 20] [1, 2]
  simp only [List.length_cons, List.length_nil, Nat.zero_add, Nat.reduceAdd, List.map_cons, List.map_nil] at this
  rw [this]; norm_num

end Layout

/-! ## C37 -/

theorem fracAbove_mem (det : ℝ) (t : List ℝ) : 0 ≤ fracAbove det t ∧ fracAbove det t ≤ 1 := by
  unfold fracAbove
  constructor
  · positivity
  · apply div_le_one_of_le₀
    · exact_mod_cast List.countP_le_length
    · positivity

/-- **C37, the law (restricted).**  For every non-empty trajectory the law of the estimator is the normal law of mean `p`
and variance `p(1-p)/m`, a point mass at 0 (resp. 1) when none (resp. all) of the values exceed the threshold; it has
mean `p`, and the mixture over trajectories has as mean the average of the `p`, which lies in [0,1].
Missing: the simulated values themselves leave [0,1]. -/
theorem C37_estimator_law_partial (det : ℝ) (t : List ℝ) (ht : t ≠ []) :
    let p := fracAbove det t
    ((∀ y ∈ t, ¬ det < y) → (podLaw det t).law = Measure.dirac 0) ∧
    ((∀ y ∈ t, det < y) → (podLaw det t).law = Measure.dirac 1) ∧
    (podLaw det t).law = gaussianReal p (Real.toNNReal (p * (1 - p) / t.length)) ∧
    ∫ x, x ∂(podLaw det t).law = p ∧ IsProbabilityMeasure (podLaw det t).law := by
  intro p
  have hm : (0 : ℝ) < t.length := by exact_mod_cast List.length_pos_iff.mpr ht
  obtain ⟨hp0, hp1⟩ := fracAbove_mem det t
  have hlaw : (podLaw det t).law = gaussianReal p (Real.toNNReal (p * (1 - p) / t.length)) := by
    unfold podLaw
    dsimp only
    change PodLaw.law (if 0 < p * (1 - p) / t.length then .normal p (Real.sqrt (p * (1 - p) / t.length))
      else if p < 1 then .dirac 0 else .dirac 1) = _
    split_ifs with h1 h2
    · simp only [PodLaw.law]
      congr 1
      apply NNReal.eq
      rw [coe_sqv, Real.sq_sqrt h1.le, Real.coe_toNNReal _ h1.le]
    · have hz : p * (1 - p) / t.length = 0 := by
        refine le_antisymm (not_lt.mp h1) ?_
        exact div_nonneg (mul_nonneg hp0 (by linarith)) hm.le
      have hp : p = 0 := by
        rcases (div_eq_zero_iff.mp hz) with h | h
        · rcases mul_eq_zero.mp h with h | h
          · exact h
          · linarith
        · linarith
      rw [hz, hp, Real.toNNReal_zero, gaussianReal_zero_var]; rfl
    · have hp : p = 1 := le_antisymm hp1 (not_lt.mp h2)
      rw [hp, sub_self, mul_zero, zero_div, Real.toNNReal_zero, gaussianReal_zero_var]; rfl
  refine ⟨fun h => ?_, fun h => ?_, hlaw, ?_, ?_⟩
  · have : p = 0 := by
      have : t.countP (fun y => decide (det < y)) = 0 := by rw [List.countP_eq_zero]; simpa using h
      simp [p, fracAbove, this]
    rw [hlaw, this]; simp [gaussianReal_zero_var]
  · have : p = 1 := by
      have : t.countP (fun y => decide (det < y)) = t.length := by rw [List.countP_eq_length]; simpa using h
      simp [p, fracAbove, this, hm.ne']
    rw [hlaw, this]; simp [gaussianReal_zero_var]
  · rw [hlaw, integral_id_gaussianReal]
  · rw [hlaw]; infer_instance

/-- **C37, the mixture (restricted).**  The law from which the POD values are drawn is a probability whose mean is the
average of the fractions; this mean is in [0,1]. -/
theorem C37_mixture_mean_partial (det : ℝ) {n : ℕ} (hn : n ≠ 0) (traj : Fin n → List ℝ) (ht : ∀ i, traj i ≠ []) :
    let μ := mixtureLaw fun i => podLaw det (traj i)
    IsProbabilityMeasure μ ∧ ∫ x, x ∂μ = (∑ i, fracAbove det (traj i)) / n ∧ 0 ≤ ∫ x, x ∂μ ∧ ∫ x, x ∂μ ≤ 1 := by
  intro μ
  have hn' : (n : ℝ) ≠ 0 := Nat.cast_ne_zero.mpr hn
  have hnE : (n : ENNReal) ≠ 0 := Nat.cast_ne_zero.mpr hn
  have hprob : ∀ i, IsProbabilityMeasure (podLaw det (traj i)).law := fun i =>
    (C37_estimator_law_partial det _ (ht i)).2.2.2.2
  have hint : ∀ i, Integrable (fun x : ℝ => x) (podLaw det (traj i)).law := by
    intro i
    rw [(C37_estimator_law_partial det _ (ht i)).2.2.1]
    exact (memLp_id_gaussianReal 1).integrable le_rfl
  have hmean : ∫ x, x ∂μ = (∑ i, fracAbove det (traj i)) / n := by
    simp only [μ, mixtureLaw]
    rw [integral_smul_measure, integral_finset_sum_measure (fun i _ => hint i)]
    have : ∀ i, ∫ x, x ∂(podLaw det (traj i)).law = fracAbove det (traj i) :=
      fun i => (C37_estimator_law_partial det _ (ht i)).2.2.2.1
    simp only [this, ENNReal.toReal_inv, ENNReal.toReal_natCast, smul_eq_mul]
    rw [div_eq_inv_mul]
  refine ⟨⟨?_⟩, hmean, ?_, ?_⟩
  · simp only [μ, mixtureLaw, Measure.smul_apply, Measure.finset_sum_apply, measure_univ, smul_eq_mul, Finset.sum_const,
      Finset.card_univ, Fintype.card_fin, nsmul_eq_mul, mul_one]
    exact ENNReal.inv_mul_cancel hnE (ENNReal.natCast_ne_top n)
  · rw [hmean]
    exact div_nonneg (Finset.sum_nonneg fun i _ => (fracAbove_mem det _).1) (Nat.cast_nonneg n)
  · rw [hmean, div_le_one (by positivity)]
    calc ∑ i, fracAbove det (traj i) ≤ ∑ _i : Fin n, (1 : ℝ) := Finset.sum_le_sum fun i _ => (fracAbove_mem det _).2
      _ = n := by simp

example : (podLaw 1 [0, 2]).law = gaussianReal (1 / 2) (Real.toNNReal (1 / 8)) := by
  have h := (C37_estimator_law_partial 1 [0, 2] (by simp)).2.2.1
  have : fracAbove 1 [0, 2] = 1 / 2 := by norm_num [fracAbove]
  rw [h, this]; norm_num

/-- **C37 is violated**: as soon as one trajectory has some values above and some not above the threshold, the simulated
POD values fall below 0 and above 1 with positive probability. -/
theorem C37_violated (det : ℝ) {n : ℕ} (traj : Fin n → List ℝ) (i : Fin n)
    (h1 : ∃ y ∈ traj i, det < y) (h2 : ∃ y ∈ traj i, ¬ det < y) :
    0 < mixtureLaw (fun i => podLaw det (traj i)) (Set.Iio 0) ∧
    0 < mixtureLaw (fun i => podLaw det (traj i)) (Set.Ioi 1) := by
  have hne : traj i ≠ [] := by obtain ⟨y, hy, -⟩ := h1; exact List.ne_nil_of_mem hy
  have hm : (0 : ℝ) < (traj i).length := by exact_mod_cast List.length_pos_iff.mpr hne
  have hc0 : 0 < (traj i).countP (fun y => decide (det < y)) := by
    rw [List.countP_pos_iff]; obtain ⟨y, hy, h⟩ := h1; exact ⟨y, hy, by simpa using h⟩
  have hc1 : (traj i).countP (fun y => decide (det < y)) < (traj i).length := by
    refine lt_of_le_of_ne List.countP_le_length ?_
    rw [Ne, List.countP_eq_length]
    obtain ⟨y, hy, h⟩ := h2
    intro hh; exact h (by simpa using hh y hy)
  have hp0 : 0 < fracAbove det (traj i) := by
    unfold fracAbove; have : (0 : ℝ) < ((traj i).countP fun y => decide (det < y) : ℕ) := by exact_mod_cast hc0
    positivity
  have hp1 : fracAbove det (traj i) < 1 := by
    unfold fracAbove; rw [div_lt_one hm]; exact_mod_cast hc1
  have hv : 0 < fracAbove det (traj i) * (1 - fracAbove det (traj i)) / (traj i).length := by
    have : 0 < 1 - fracAbove det (traj i) := by linarith
    positivity
  have hlaw := (C37_estimator_law_partial det _ hne).2.2.1
  have hv' : Real.toNNReal (fracAbove det (traj i) * (1 - fracAbove det (traj i)) / (traj i).length) ≠ 0 :=
    (Real.toNNReal_pos.mpr hv).ne'
  have key : ∀ s : Set ℝ, volume s ≠ 0 → 0 < mixtureLaw (fun i => podLaw det (traj i)) s := by
    intro s hs
    have h := gauss_real_pos (μ := fracAbove det (traj i)) hv' hs
    have hpos : 0 < (podLaw det (traj i)).law s := by
      rw [hlaw]
      rw [Measure.real, ENNReal.toReal_pos_iff] at h
      exact h.1
    rw [mixtureLaw, Measure.smul_apply, smul_eq_mul, Measure.finset_sum_apply]
    refine ENNReal.mul_pos ?_ ?_
    · exact ENNReal.inv_ne_zero.mpr (ENNReal.natCast_ne_top n)
    · refine (lt_of_lt_of_le hpos ?_).ne'
      exact Finset.single_le_sum (f := fun i => (podLaw det (traj i)).law s) (fun _ _ => zero_le) (Finset.mem_univ i)
  exact ⟨key _ (by simp), key _ (by simp)⟩

/-! ## C84 -/

/-- **C84 (restricted).**  Every simulated output has the conditional mean and variance (even the whole conditional law) of
its point.  Missing: the covariance between two points, which is the product of the standard deviations because one
deviate per trajectory is broadcast over the points. -/
theorem C84_trajectory_partial {n : ℕ} (mean variance : Fin n → ℝ) (hv : ∀ i, 0 ≤ variance i) (i j : Fin n) :
    -- each marginal is the conditional law of the process
    (gaussianReal 0 1).map (fun z => randomVector (fun _ => z) mean variance 0 i)
      = gaussianReal (mean i) (Real.toNNReal (variance i)) ∧
    -- but the covariance is the product of the standard deviations
    ∫ z, (randomVector (fun _ => z) mean variance 0 i - mean i) *
        (randomVector (fun _ => z) mean variance 0 j - mean j) ∂(gaussianReal 0 1)
      = Real.sqrt (variance i) * Real.sqrt (variance j) := by
  constructor
  · have h1 := gaussianReal_map_mul_const (μ := 0) (v := 1) (Real.sqrt (variance i))
    have h2 : (fun z => randomVector (fun _ => z) mean variance 0 i)
        = (fun y => y + mean i) ∘ (fun z => z * Real.sqrt (variance i)) := rfl
    rw [h2, ← Measure.map_map (by fun_prop) (by fun_prop), h1, gaussianReal_map_add_const]
    congr 1
    · ring
    · apply NNReal.eq
      simp [Real.sq_sqrt (hv i), hv i]
  · have : ∀ z : ℝ, (randomVector (fun _ => z) mean variance 0 i - mean i) *
        (randomVector (fun _ => z) mean variance 0 j - mean j)
        = (Real.sqrt (variance i) * Real.sqrt (variance j)) * z ^ 2 := by
      intro z; simp only [randomVector]; ring
    simp only [this]
    rw [integral_const_mul]
    have hvar := variance_fun_id_gaussianReal (μ := 0) (v := 1)
    rw [variance_eq_integral (by fun_prop), integral_id_gaussianReal] at hvar
    simp only [sub_zero, NNReal.coe_one] at hvar
    rw [hvar, mul_one]

example : ∀ i : Fin 2, (0 : ℝ) ≤ (![1, 4] : Fin 2 → ℝ) i := by intro i; fin_cases i <;> simp

/-- **C84 is violated** by every conditioned process whose posterior covariance at two points is not the product of the
standard deviations (the points are not perfectly correlated); the identity covariance is such a case. -/
theorem C84_violated :
    (∀ {n : ℕ} (mean : Fin n → ℝ) (C : Matrix (Fin n) (Fin n) ℝ), (∀ i, 0 ≤ C i i) → ∀ i j,
      C i j ≠ Real.sqrt (C i i) * Real.sqrt (C j j) →
      ∫ z, (randomVector (fun _ => z) mean (fun i => C i i) 0 i - mean i) *
        (randomVector (fun _ => z) mean (fun i => C i i) 0 j - mean j) ∂(gaussianReal 0 1) ≠ C i j) ∧
    ((1 : Matrix (Fin 2) (Fin 2) ℝ).PosSemidef ∧ (1 : Matrix (Fin 2) (Fin 2) ℝ) 0 1 ≠
      Real.sqrt ((1 : Matrix (Fin 2) (Fin 2) ℝ) 0 0) * Real.sqrt ((1 : Matrix (Fin 2) (Fin 2) ℝ) 1 1)) := by
  refine ⟨fun mean C hC i j hne => ?_, Matrix.PosSemidef.one, by simp⟩
  rw [(C84_trajectory_partial mean (fun i => C i i) hC i j).2]
  exact hne.symm

end Verif.Props
