import Verif.Props.SobolDesign
import Verif.Props.DeltaMethod
import Verif.Props.Consistency
import Verif.Props.DetectionLimit

/-!
# C147: convergence of the total Sobol indices
-/

namespace Verif.Props
open Verif.Py Verif.Model MeasureTheory ProbabilityTheory Filter Topology

/-! ## The exact total index -/

/-- Expected variance when all inputs but one are known. -/
noncomputable def totalVariance {d : ℕ} (law : Fin d → Measure ℝ) (i : Fin d) (g : (Fin d → ℝ) → ℝ) : ℝ :=
  ∫ x, variance (fun t => g (Function.update x i t)) (law i) ∂(Measure.pi law)

/-- Replacing an input by an independent copy does not change the joint law. -/
theorem resample_preserving {d : ℕ} (law : Fin d → Measure ℝ) [∀ i, IsProbabilityMeasure (law i)] (i : Fin d) :
    MeasurePreserving (fun q : (Fin d → ℝ) × ℝ => Function.update q.1 i q.2) ((Measure.pi law).prod (law i)) (Measure.pi law) := by
  have hm : Measurable fun q : (Fin d → ℝ) × ℝ => Function.update q.1 i q.2 := by
    refine measurable_pi_iff.mpr fun j => ?_
    by_cases h : j = i
    · subst h; simpa using measurable_snd
    · simp only [Function.update_of_ne h]; fun_prop
  refine ⟨hm, ?_⟩
  symm
  apply Measure.pi_eq
  intro s hs
  rw [Measure.map_apply hm (MeasurableSet.univ_pi hs)]
  have : (fun q : (Fin d → ℝ) × ℝ => Function.update q.1 i q.2) ⁻¹' (Set.univ.pi s) = (Set.univ.pi (Function.update s i Set.univ)) ×ˢ s i := by
    ext ⟨x, t⟩
    simp only [Set.mem_preimage, Set.mem_pi, Set.mem_univ, true_implies, Set.mem_prod]
    constructor
    · intro h
      refine ⟨fun j => ?_, by simpa using h i⟩
      by_cases hj : j = i
      · subst hj; simp
      · have := h j
        rw [Function.update_of_ne hj] at this ⊢
        exact this
    · rintro ⟨h, ht⟩ j
      by_cases hj : j = i
      · subst hj; simpa using ht
      · have := h j
        rw [Function.update_of_ne hj] at this ⊢
        exact this
  rw [this, Measure.prod_prod, Measure.pi_pi, ← Finset.mul_prod_erase _ _ (Finset.mem_univ i), ← Finset.mul_prod_erase Finset.univ (fun j => law j (s j)) (Finset.mem_univ i)]
  simp only [Function.update_self, measure_univ, one_mul]
  rw [mul_comm]
  congr 1
  apply Finset.prod_congr rfl
  intro j hj
  rw [Function.update_of_ne (Finset.ne_of_mem_erase hj)]

theorem bounded_memLp {α : Type*} [MeasurableSpace α] (P : Measure α) [IsProbabilityMeasure P] {u : α → ℝ} (hu : Measurable u)
    (hb : ∀ a, 0 ≤ u a ∧ u a ≤ 1) : MemLp u 2 P :=
  MemLp.of_bound hu.aestronglyMeasurable 1 (Eventually.of_forall fun a => by
    rw [Real.norm_eq_abs, abs_of_nonneg (hb a).1]; exact (hb a).2)

theorem double_variance (P : Measure ℝ) [IsProbabilityMeasure P] {u : ℝ → ℝ} (hu : Measurable u) (hb : ∀ a, 0 ≤ u a ∧ u a ≤ 1) :
    ∫ s, ∫ t, (u s - u t) ^ 2 ∂P ∂P = 2 * variance u P := by
  have hL := bounded_memLp P hu hb
  have hI := hL.integrable (by norm_num)
  have hS := hL.integrable_sq
  have h1 : ∀ s, ∫ t, (u s - u t) ^ 2 ∂P = u s ^ 2 - 2 * (∫ t, u t ∂P) * u s + ∫ t, u t ^ 2 ∂P := by
    intro s
    have : ∀ t, (u s - u t) ^ 2 = (u s ^ 2 - 2 * u s * u t) + u t ^ 2 := fun t => by ring
    simp only [this]
    have a : Integrable (fun t => u s ^ 2 - 2 * u s * u t) P := (integrable_const _).sub (hI.const_mul _)
    rw [integral_add a hS, integral_sub (integrable_const _) (hI.const_mul _), integral_const_mul]
    simp
    ring
  simp only [h1]
  have a : Integrable (fun s => u s ^ 2 - 2 * (∫ t, u t ∂P) * u s) P := hS.sub (hI.const_mul _)
  rw [integral_add a (integrable_const _), integral_sub hS (hI.const_mul _), integral_const_mul, variance_eq_sub hL]
  simp only [integral_const, probReal_univ, smul_eq_mul, one_mul, Pi.pow_apply]
  ring

/-- Half the mean squared difference between a point and the point with one input drawn again. -/
theorem jansen_identity {d : ℕ} (law : Fin d → Measure ℝ) [∀ i, IsProbabilityMeasure (law i)] (i : Fin d) (g : (Fin d → ℝ) → ℝ) (hg : Measurable g)
    (hb : ∀ x, 0 ≤ g x ∧ g x ≤ 1) :
    ∫ q, (g q.1 - g (Function.update q.1 i (q.2 i))) ^ 2 ∂((Measure.pi law).prod (Measure.pi law)) = 2 * totalVariance law i g := by
  have hmu : Measurable fun q : (Fin d → ℝ) × ℝ => Function.update q.1 i q.2 := (resample_preserving law i).measurable
  set F : (Fin d → ℝ) × ℝ → ℝ := fun q => (g q.1 - g (Function.update q.1 i q.2)) ^ 2 with hF
  have hFm : Measurable F := ((hg.comp measurable_fst).sub (hg.comp hmu)).pow_const 2
  have hFb : ∀ q, 0 ≤ F q ∧ F q ≤ 1 := by
    intro q
    have h1 := hb q.1
    have h2 := hb (Function.update q.1 i q.2)
    refine ⟨sq_nonneg _, ?_⟩
    simp only [hF]
    nlinarith
  have hFi : Integrable F ((Measure.pi law).prod (law i)) := (bounded_memLp _ hFm hFb).integrable (by norm_num)
  have hp : MeasurePreserving (fun q : (Fin d → ℝ) × (Fin d → ℝ) => (q.1, q.2 i)) ((Measure.pi law).prod (Measure.pi law))
      ((Measure.pi law).prod (law i)) := (MeasurePreserving.id _).prod (measurePreserving_eval law i)
  have h1 : ∫ q, (g q.1 - g (Function.update q.1 i (q.2 i))) ^ 2 ∂((Measure.pi law).prod (Measure.pi law))
      = ∫ q, F q ∂((Measure.pi law).prod (law i)) := by
    rw [← hp.map_eq, integral_map hp.measurable.aemeasurable hFm.aestronglyMeasurable]
  rw [h1, integral_prod _ hFi]
  set Φ : (Fin d → ℝ) → ℝ := fun x => ∫ t, F (x, t) ∂(law i) with hΦ
  have hΦm : StronglyMeasurable Φ := hFm.stronglyMeasurable.integral_prod_right
  have hΦi : Integrable Φ (Measure.pi law) := hFi.integral_prod_left
  have h2 : ∫ x, Φ x ∂(Measure.pi law) = ∫ q, Φ (Function.update q.1 i q.2) ∂((Measure.pi law).prod (law i)) := by
    conv_lhs => rw [← (resample_preserving law i).map_eq]
    rw [integral_map hmu.aemeasurable hΦm.aestronglyMeasurable]
  have hΦi2 : Integrable (fun q : (Fin d → ℝ) × ℝ => Φ (Function.update q.1 i q.2)) ((Measure.pi law).prod (law i)) :=
    (resample_preserving law i).integrable_comp_of_integrable hΦi
  rw [h2, integral_prod _ hΦi2, totalVariance, ← integral_const_mul]
  congr 1
  funext x
  have hu : Measurable fun t => g (Function.update x i t) := hg.comp (hmu.comp (measurable_const.prodMk measurable_id))
  rw [← double_variance (law i) hu fun t => hb _]
  simp only [hΦ, hF, Function.update_idem]

/-! ## Layout of the output design -/

theorem ofFn_set {d : ℕ} (x : Fin d → ℝ) (i : Fin d) (t : ℝ) : (List.ofFn x).set i t = List.ofFn (Function.update x i t) := by
  apply List.ext_getElem
  · simp
  · intro k h1 h2
    rw [List.getElem_set]
    by_cases h : (i : ℕ) = k
    · subst h; simp
    · rw [if_neg h]
      simp only [List.getElem_ofFn]
      rw [Function.update_of_ne]
      intro hh
      exact h (by rw [← hh])

/-- Output design of an aggregated POD function `G` for samples `x`, `y`. -/
noncomputable def sobolOutput {d : ℕ} (G : List ℝ → List ℝ) (N : ℕ) (x y : ℕ → Fin d → ℝ) : List (List ℝ) :=
  (sobolDesign d (List.ofFn fun k : Fin N => List.ofFn (x k)) (List.ofFn fun k : Fin N => List.ofFn (y k))).map G

theorem sobolOutput_first {d : ℕ} (G : List ℝ → List ℝ) {N : ℕ} (x y : ℕ → Fin d → ℝ) {k : ℕ} (hk : k < N) :
    (sobolOutput G N x y)[k]? = some (G (List.ofFn (x k))) := by
  rw [sobolOutput, List.getElem?_map, sobolDesign_first (by simp) hk, List.getElem?_eq_getElem (by simpa using hk)]
  simp

theorem sobolOutput_entries {d : ℕ} (G : List ℝ → List ℝ) (g : (Fin d → ℝ) → ℝ) (j : ℕ) (hG : ∀ x, (G (List.ofFn x)).getD j 0 = g x)
    {N : ℕ} (x y : ℕ → Fin d → ℝ) (i : Fin d) {k : ℕ} (hk : k < N) :
    designEntry (sobolOutput G N x y) N 0 k j = g (x k) ∧
    designEntry (sobolOutput G N x y) N (2 + i) k j = g (Function.update (x k) i (y k i)) := by
  constructor
  · rw [designEntry, zero_mul, zero_add, ← hG]
    congr 1
    rw [List.getD_eq_getElem?_getD, sobolOutput_first G x y hk, Option.getD_some]
  · rw [designEntry, ← hG]
    congr 1
    rw [List.getD_eq_getElem?_getD, sobolOutput, List.getElem?_map, sobolDesign_block (by simp) (by simp) i.isLt hk, Option.map_some,
      Option.getD_some, sobolExchange]
    congr 1
    simp [ofFn_set]

/-- `N / (N - 1)` has limit one. -/
theorem ratio_sub_one : Tendsto (fun N : ℕ => (N : ℝ) / (N - 1)) atTop (𝓝 1) := by
  have : Tendsto (fun N : ℕ => 1 + 1 / ((N : ℝ) - 1)) atTop (𝓝 (1 + 0)) := by
    refine tendsto_const_nhds.add ?_
    have h2 : Tendsto (fun N : ℕ => (N : ℝ) - 1) atTop atTop :=
      tendsto_atTop_add_const_right _ (-1) tendsto_natCast_atTop_atTop
    simp only [one_div]
    exact h2.inv_tendsto_atTop
  rw [add_zero] at this
  refine this.congr' ?_
  filter_upwards [eventually_ge_atTop 2] with N hN
  have : (N : ℝ) - 1 ≠ 0 := by
    have : (2 : ℝ) ≤ N := by exact_mod_cast hN
    linarith
  field_simp
  ring

/-- `N / (2 N - 1)` has limit one half. -/
theorem ratio_two_sub_one : Tendsto (fun N : ℕ => (N : ℝ) / (2 * N - 1)) atTop (𝓝 (1 / 2)) := by
  have : Tendsto (fun N : ℕ => 1 / 2 + 1 / 2 * (1 / (2 * (N : ℝ) - 1))) atTop (𝓝 (1 / 2 + 1 / 2 * 0)) := by
    refine tendsto_const_nhds.add (tendsto_const_nhds.mul ?_)
    have h2 : Tendsto (fun N : ℕ => 2 * (N : ℝ) - 1) atTop atTop :=
      tendsto_atTop_add_const_right _ (-1) (tendsto_natCast_atTop_atTop.const_mul_atTop two_pos)
    simp only [one_div]
    exact h2.inv_tendsto_atTop
  rw [mul_zero, add_zero] at this
  refine this.congr' ?_
  filter_upwards [eventually_ge_atTop 2] with N hN
  have : 2 * (N : ℝ) - 1 ≠ 0 := by
    have : (2 : ℝ) ≤ N := by exact_mod_cast hN
    linarith
  field_simp
  ring

/-- Limit of the variance of the first block. -/
theorem firstBlock_variance (out : ℕ → List (List ℝ)) (j : ℕ) (a : ℕ → ℝ) (hlen : ∀ N, N ≤ (out N).length)
    (ha : ∀ N k, k < N → designEntry (out N) N 0 k j = a k) {m M : ℝ}
    (t2 : Tendsto (fun N : ℕ => (∑ k ∈ Finset.range N, a k) / N) atTop (𝓝 m))
    (t3 : Tendsto (fun N : ℕ => (∑ k ∈ Finset.range N, a k ^ 2) / N) atTop (𝓝 M)) :
    Tendsto (fun N => colVariance (((out N).map fun r => r.getD j 0).take N)) atTop (𝓝 (M - m ^ 2)) := by
  have n2 : ∀ N : ℕ, 2 ≤ N → colVariance (((out N).map fun r => r.getD j 0).take N)
      = (N / (N - 1)) * ((∑ k ∈ Finset.range N, a k ^ 2) / N - ((∑ k ∈ Finset.range N, a k) / N) ^ 2) := by
    intro N hN
    have htake : ((out N).map fun r => r.getD j 0).take N = List.ofFn fun k : Fin N => a k := by
      apply List.ext_getElem
      · rw [List.length_take, List.length_map, List.length_ofFn, min_eq_left (hlen N)]
      · intro k h1 h2
        have hk : k < N := by simpa using h2
        rw [List.getElem_take, List.getElem_map, List.getElem_ofFn, ← ha N k hk, designEntry, zero_mul, zero_add,
          List.getD_eq_getElem (l := out N) _ (by have := hlen N; omega)]
    rw [htake]
    have hN0 : (N : ℝ) ≠ 0 := by positivity
    have hN1 : (N : ℝ) - 1 ≠ 0 := by
      have : (2 : ℝ) ≤ N := by exact_mod_cast hN
      linarith
    have hmean : listMean (List.ofFn fun k : Fin N => a k) = (∑ k ∈ Finset.range N, a k) / N := by
      rw [listMean, List.sum_ofFn, List.length_ofFn, Finset.sum_range]
    rw [colVariance, hmean, List.length_ofFn, List.map_ofFn, List.sum_ofFn]
    set mu := (∑ k ∈ Finset.range N, a k) / N with hm
    have hsum : ∑ k : Fin N, a k = N * mu := by
      rw [hm, Finset.sum_range, mul_div_cancel₀ _ hN0]
    have hsum2 : ∑ k : Fin N, a k ^ 2 = N * ((∑ k ∈ Finset.range N, a k ^ 2) / N) := by
      rw [Finset.sum_range, mul_div_cancel₀ _ hN0]
    have : ∑ k : Fin N, ((fun v => (v - mu) ^ 2) ∘ fun k : Fin N => a k) k
        = ∑ k : Fin N, a k ^ 2 - 2 * mu * ∑ k : Fin N, a k + N * mu ^ 2 := by
      simp only [Function.comp, sub_sq, Finset.sum_add_distrib, Finset.sum_sub_distrib, Finset.sum_const, Finset.card_univ, Fintype.card_fin,
        nsmul_eq_mul, Finset.mul_sum]
      congr 2
      apply Finset.sum_congr rfl
      intro k _
      ring
    rw [this, hsum, hsum2]
    field_simp
    ring
  have l2 := ratio_sub_one.mul (t3.sub (t2.pow 2))
  rw [one_mul] at l2
  refine l2.congr' ?_
  filter_upwards [eventually_ge_atTop 2] with N hN
  rw [n2 N hN]

/-- Limit of the estimate from the limits of the means. -/
theorem jansenTotal_tendsto (out : ℕ → List (List ℝ)) (i j : ℕ) (a b : ℕ → ℝ) (hlen : ∀ N, N ≤ (out N).length)
    (ha : ∀ N k, k < N → designEntry (out N) N 0 k j = a k) (hb : ∀ N k, k < N → designEntry (out N) N (2 + i) k j = b k) {T m M : ℝ}
    (t1 : Tendsto (fun N : ℕ => (∑ k ∈ Finset.range N, (a k - b k) ^ 2) / N) atTop (𝓝 (2 * T)))
    (t2 : Tendsto (fun N : ℕ => (∑ k ∈ Finset.range N, a k) / N) atTop (𝓝 m))
    (t3 : Tendsto (fun N : ℕ => (∑ k ∈ Finset.range N, a k ^ 2) / N) atTop (𝓝 M)) (hne : M - m ^ 2 ≠ 0) :
    Tendsto (fun N => jansenTotal N i j (out N)) atTop (𝓝 (T / (M - m ^ 2))) := by
  have n1 : ∀ N : ℕ, 1 ≤ N → jansenGap N i j (out N) / (2 * N - 1) = N / (2 * N - 1) * ((∑ k ∈ Finset.range N, (a k - b k) ^ 2) / N) := by
    intro N hN
    rw [jansenGap, Finset.sum_congr rfl fun k hk => by
      rw [ha N k (Finset.mem_range.mp hk), hb N k (Finset.mem_range.mp hk)]]
    have h0 : (N : ℝ) ≠ 0 := by positivity
    have h1 : 2 * (N : ℝ) - 1 ≠ 0 := by
      have : (1 : ℝ) ≤ N := by exact_mod_cast hN
      linarith
    field_simp
  have l1 := ratio_two_sub_one.mul t1
  rw [show (1 / 2 : ℝ) * (2 * T) = T by ring] at l1
  refine (l1.div (firstBlock_variance out j a hlen ha t2 t3) hne).congr' ?_
  filter_upwards [eventually_ge_atTop 1] with N hN
  rw [jansenTotal, n1 N hN]
  rfl

/-- **C147 (restricted).**  For every deterministic aggregated POD function with values in [0, 1] and independent inputs: the estimate of the total
index computed from the first `N` pairs of independent points converges almost surely to the total index. -/
theorem C147_limit_partial {Ω : Type} [MeasurableSpace Ω] (Q : Measure Ω) [IsProbabilityMeasure Q] {d : ℕ} (law : Fin d → Measure ℝ)
    [∀ i, IsProbabilityMeasure (law i)] (G : List ℝ → List ℝ) (g : (Fin d → ℝ) → ℝ) (hg : Measurable g) (hb : ∀ x, 0 ≤ g x ∧ g x ≤ 1) (j : ℕ)
    (hG : ∀ x, (G (List.ofFn x)).getD j 0 = g x) (xy : ℕ → Ω → (Fin d → ℝ) × (Fin d → ℝ)) (hxy : ∀ k, Measurable (xy k))
    (hlaw : ∀ k, Q.map (xy k) = (Measure.pi law).prod (Measure.pi law)) (hind : iIndepFun xy Q) (i : Fin d)
    (hvar : variance g (Measure.pi law) ≠ 0) :
    ∀ᵐ ω ∂Q, Tendsto (fun N => jansenTotal N i j (sobolOutput G N (fun k => (xy k ω).1) (fun k => (xy k ω).2))) atTop
      (𝓝 (totalVariance law i g / variance g (Measure.pi law))) := by
  set P := (Measure.pi law).prod (Measure.pi law) with hP
  set h : (Fin d → ℝ) × (Fin d → ℝ) → ℝ := fun q => (g q.1 - g (Function.update q.1 i (q.2 i))) ^ 2 with hh
  have hmu : Measurable fun q : (Fin d → ℝ) × (Fin d → ℝ) => Function.update q.1 i (q.2 i) :=
    (resample_preserving law i).measurable.comp (measurable_fst.prodMk ((measurable_pi_apply i).comp measurable_snd))
  have hhm : Measurable h := ((hg.comp measurable_fst).sub (hg.comp hmu)).pow_const 2
  have hhb : ∀ q, 0 ≤ h q ∧ h q ≤ 1 := by
    intro q
    have h1 := hb q.1
    have h2 := hb (Function.update q.1 i (q.2 i))
    refine ⟨sq_nonneg _, ?_⟩
    simp only [hh]
    nlinarith
  have hgm : Measurable fun q : (Fin d → ℝ) × (Fin d → ℝ) => g q.1 := hg.comp measurable_fst
  have hgL : MemLp (fun q : (Fin d → ℝ) × (Fin d → ℝ) => g q.1) 2 P := bounded_memLp P hgm fun q => hb q.1
  have s1 := avg_strong hxy hlaw hind hhm ((bounded_memLp P hhm hhb).integrable (by norm_num))
  have s2 := avg_strong hxy hlaw hind hgm (hgL.integrable (by norm_num))
  have s3 := avg_strong hxy hlaw hind (hgm.pow_const 2) hgL.integrable_sq
  rw [jansen_identity law i g hg hb] at s1
  have e2 : ∫ q, g q.1 ∂P = ∫ x, g x ∂(Measure.pi law) := by
    rw [hP, integral_fun_fst]; simp
  have e3 : ∫ q, (g q.1) ^ 2 ∂P = ∫ x, g x ^ 2 ∂(Measure.pi law) := by
    rw [hP, integral_fun_fst (fun x => g x ^ 2)]; simp
  rw [e2] at s2
  rw [e3] at s3
  filter_upwards [s1, s2, s3] with ω t1 t2 t3
  have hv : variance g (Measure.pi law) = ∫ x, g x ^ 2 ∂(Measure.pi law) - (∫ x, g x ∂(Measure.pi law)) ^ 2 :=
    variance_eq_sub (bounded_memLp _ hg hb)
  rw [hv] at hvar ⊢
  exact jansenTotal_tendsto _ i j (fun k => g (xy k ω).1) (fun k => g (Function.update (xy k ω).1 i ((xy k ω).2 i)))
    (fun N => by
      rw [sobolOutput, List.length_map, sobolDesign_length (N := N) List.length_ofFn List.length_ofFn]
      nlinarith [Nat.zero_le (d * N)])
    (fun N k hk => (sobolOutput_entries G g j hG _ _ i hk).1) (fun N k hk => (sobolOutput_entries G g j hG _ _ i hk).2) t1 t2 t3 hvar

/-- The numbers of a row computed by `PODaggrKriging._exec`. -/
noncomputable def rowValues : Res (List (F ℝ)) → List ℝ
  | .ok r => r.map finValue
  | .error _ => []

/-- **C147 (restricted): kriging.**  The estimates of the total indices of the function evaluated by the analysis (see C68) converge almost surely. -/
theorem C147_kriging_partial {Ω : Type} [MeasurableSpace Ω] (Q : Measure Ω) [IsProbabilityMeasure Q] {d : ℕ} (law : Fin d → Measure ℝ)
    [∀ i, IsProbabilityMeasure (law i)] (condMean condVar : List ℝ → ℝ) (det d0 : ℝ) (ds : List ℝ) (hv : ∀ x : Fin d → ℝ, 0 < condVar (d0 :: List.ofFn x))
    (hmm : ∀ a, Measurable fun x : Fin d → ℝ => condMean (a :: List.ofFn x)) (hvm : Measurable fun x : Fin d → ℝ => condVar (d0 :: List.ofFn x))
    (j : ℕ) (hj : j < (d0 :: ds).length) (g : (Fin d → ℝ) → ℝ)
    (hg : g = fun x => 1 - Phi ((det - condMean ((d0 :: ds)[j] :: List.ofFn x)) / Real.sqrt (condVar (d0 :: List.ofFn x))))
    (xy : ℕ → Ω → (Fin d → ℝ) × (Fin d → ℝ)) (hxy : ∀ k, Measurable (xy k))
    (hlaw : ∀ k, Q.map (xy k) = (Measure.pi law).prod (Measure.pi law)) (hind : iIndepFun xy Q) (i : Fin d)
    (hvar : variance g (Measure.pi law) ≠ 0) :
    ∀ᵐ ω ∂Q, Tendsto (fun N => jansenTotal N i j (sobolOutput (fun x => rowValues (krigExec condMean condVar det (d0 :: ds) x)) N
      (fun k => (xy k ω).1) (fun k => (xy k ω).2))) atTop (𝓝 (totalVariance law i g / variance g (Measure.pi law))) := by
  have hPhi : ∀ t, 1 - Phi t = PhiC t := fun t => (PhiC_eq t).symm
  refine C147_limit_partial Q law _ g ?_ ?_ j ?_ xy hxy hlaw hind i hvar
  · subst hg
    simp only [hPhi]
    exact PhiC_antitone.measurable.comp ((measurable_const.sub (hmm _)).div hvm.sqrt)
  · intro x
    subst hg
    dsimp only
    have p := Phi_pos ((det - condMean ((d0 :: ds)[j] :: List.ofFn x)) / Real.sqrt (condVar (d0 :: List.ofFn x)))
    have q := PhiC_pos ((det - condMean ((d0 :: ds)[j] :: List.ofFn x)) / Real.sqrt (condVar (d0 :: List.ofFn x)))
    rw [PhiC_eq] at q
    exact ⟨q.le, by linarith⟩
  · intro x
    rw [C68_value_partial condMean condVar det d0 ds _ (hv x), rowValues, List.getD_eq_getElem _ _ (by simpa using hj), List.getElem_map,
      List.getElem_map, hg]
    rfl

/-! ## Polynomial chaos -/

section Chaos
variable {S : ℕ} (det : ℝ) {stderr : ℝ}

/-- Probability computed at a point where the simulated metamodels have the values `v`, with the residuals `r`. -/
noncomputable def podHat (det stderr : ℝ) (v r : Fin S → ℝ) : ℝ := (∑ s, exceed det stderr (v s) (r s)) / S

/-- Its expectation: the POD of the metamodel with its random coefficients and residual. -/
noncomputable def podExact (det stderr : ℝ) (v : Fin S → ℝ) : ℝ := (∑ s, PhiC ((det - v s) / stderr)) / S

/-- Its variance. -/
noncomputable def podNoise (det stderr : ℝ) (v : Fin S → ℝ) : ℝ :=
  (∑ s, PhiC ((det - v s) / stderr) * (1 - PhiC ((det - v s) / stderr))) / (S : ℝ) ^ 2

noncomputable def gaussS (S : ℕ) : Measure (Fin S → ℝ) := Measure.pi fun _ : Fin S => gaussianReal 0 1

instance (S : ℕ) : IsProbabilityMeasure (gaussS S) := by unfold gaussS; infer_instance

theorem mean_unit_range {n : ℕ} (w : Fin n → ℝ) (hw : ∀ k, 0 ≤ w k ∧ w k ≤ 1) : 0 ≤ (∑ k, w k) / n ∧ (∑ k, w k) / n ≤ 1 := by
  refine ⟨div_nonneg (Finset.sum_nonneg fun k _ => (hw k).1) (by positivity), ?_⟩
  rcases Nat.eq_zero_or_pos n with h | h
  · subst h; simp
  · have : (0 : ℝ) < n := by exact_mod_cast h
    rw [div_le_one this]
    calc ∑ k, w k ≤ ∑ _k : Fin n, (1 : ℝ) := Finset.sum_le_sum fun k _ => (hw k).2
      _ = n := by simp

theorem podHat_range (stderr : ℝ) (v r : Fin S → ℝ) : 0 ≤ podHat det stderr v r ∧ podHat det stderr v r ≤ 1 :=
  mean_unit_range _ fun _ => exceed_range _ _ _ _

theorem podExact_range (stderr : ℝ) (v : Fin S → ℝ) : 0 ≤ podExact det stderr v ∧ podExact det stderr v ≤ 1 := by
  refine mean_unit_range _ fun s => ?_
  have p := Phi_pos ((det - v s) / stderr)
  have q := PhiC_pos ((det - v s) / stderr)
  rw [PhiC_eq] at q ⊢
  exact ⟨q.le, by linarith⟩

theorem podHat_measurable (stderr : ℝ) {α : Type*} [MeasurableSpace α] {v r : α → Fin S → ℝ} (hv : Measurable v) (hr : Measurable r) :
    Measurable fun a => podHat det stderr (v a) (r a) := by
  unfold podHat
  refine (Finset.measurable_sum _ fun s _ => ?_).div_const _
  unfold exceed
  have h1 : Measurable fun a => v a s := (measurable_pi_apply s).comp hv
  have h2 : Measurable fun a => r a s := (measurable_pi_apply s).comp hr
  exact Measurable.ite (measurableSet_lt measurable_const (by fun_prop)) measurable_const measurable_const

theorem podHat_moments (hs : 0 < stderr) (v : Fin S → ℝ) :
    ∫ r, podHat det stderr v r ∂(gaussS S) = podExact det stderr v ∧
    ∫ r, podHat det stderr v r ^ 2 ∂(gaussS S) = podExact det stderr v ^ 2 + podNoise det stderr v := by
  have hmem : ∀ s : Fin S, MemLp (fun r : Fin S → ℝ => exceed det stderr (v s) (r s)) 2 (gaussS S) := fun s =>
    exceed_memLp _ det stderr (v s) _ (measurable_pi_apply s)
  have hlaw : ∀ s : Fin S, (gaussS S).map (fun r => r s) = gaussianReal 0 1 := fun s =>
    (measurePreserving_eval (fun _ : Fin S => gaussianReal 0 1) s).map_eq
  have hind : iIndepFun (fun s (r : Fin S → ℝ) => exceed det stderr (v s) (r s)) (gaussS S) :=
    iIndepFun_pi (μ := fun _ : Fin S => gaussianReal 0 1) fun s => (exceed_measurable det stderr (v s)).aemeasurable
  have h1 : ∫ r, podHat det stderr v r ∂(gaussS S) = podExact det stderr v := by
    unfold podHat podExact
    rw [integral_div, integral_finsetSum _ fun s _ => (hmem s).integrable (by norm_num)]
    congr 1
    exact Finset.sum_congr rfl fun s _ => exceed_mean _ det hs (v s) _ (measurable_pi_apply s) (hlaw s)
  refine ⟨h1, ?_⟩
  have hL : MemLp (fun r => podHat det stderr v r) 2 (gaussS S) :=
    bounded_memLp _ (podHat_measurable det stderr measurable_const measurable_id) fun r => podHat_range det stderr v r
  have hvar : variance (fun r => podHat det stderr v r) (gaussS S) = podNoise det stderr v := by
    have e : (fun r => podHat det stderr v r) = fun r => (1 / S : ℝ) * (∑ s, fun r : Fin S → ℝ => exceed det stderr (v s) (r s)) r := by
      funext r
      rw [podHat, Finset.sum_apply]
      ring
    rw [e, variance_const_mul, IndepFun.variance_sum (fun s _ => hmem s) fun s _ s' _ hne => hind.indepFun hne, podNoise]
    rw [Finset.sum_congr rfl fun s _ => exceed_variance _ det hs (v s) _ (measurable_pi_apply s) (hlaw s)]
    ring
  have := variance_eq_sub hL
  rw [hvar, h1] at this
  simp only [Pi.pow_apply] at this
  linarith

theorem podNoise_pos (hS : 0 < S) (v : Fin S → ℝ) : 0 < podNoise det stderr v := by
  have hS' : (0 : ℝ) < S := by exact_mod_cast hS
  refine div_pos (Finset.sum_pos (fun s _ => ?_) ⟨⟨0, hS⟩, Finset.mem_univ _⟩) (by positivity)
  have p := PhiC_pos ((det - v s) / stderr)
  have p2 := Phi_pos ((det - v s) / stderr)
  rw [PhiC_eq] at p ⊢
  exact mul_pos p (by linarith)

theorem podNoise_range (hS : 0 < S) (stderr : ℝ) (v : Fin S → ℝ) : 0 ≤ podNoise det stderr v ∧ podNoise det stderr v ≤ 1 := by
  refine ⟨(podNoise_pos det hS v).le, ?_⟩
  have hS' : (1 : ℝ) ≤ S := by exact_mod_cast hS
  rw [podNoise, div_le_one (by positivity)]
  calc _ ≤ ∑ _s : Fin S, (1 : ℝ) := Finset.sum_le_sum fun s _ => by
        have p := PhiC_pos ((det - v s) / stderr)
        nlinarith [sq_nonneg (PhiC ((det - v s) / stderr) - 1 / 2)]
    _ = S := by simp
    _ ≤ (S : ℝ) ^ 2 := by nlinarith

theorem podExact_measurable (stderr : ℝ) {α : Type*} [MeasurableSpace α] {v : α → Fin S → ℝ} (hv : Measurable v) :
    Measurable (fun a => podExact det stderr (v a)) ∧ Measurable (fun a => podNoise det stderr (v a)) := by
  have h1 : ∀ s, Measurable fun a => PhiC ((det - v a s) / stderr) := fun s =>
    PhiC_antitone.measurable.comp ((measurable_const.sub ((measurable_pi_apply s).comp hv)).div_const _)
  exact ⟨(Finset.measurable_sum _ fun s _ => h1 s).div_const _,
    (Finset.measurable_sum _ fun s _ => (h1 s).mul (measurable_const.sub (h1 s))).div_const _⟩

/-- Squared difference of the probabilities computed at two points with independent residuals. -/
theorem podHat_gap (hs : 0 < stderr) (v v' : Fin S → ℝ) :
    ∫ w, (podHat det stderr v w.1 - podHat det stderr v' w.2) ^ 2 ∂((gaussS S).prod (gaussS S))
      = (podExact det stderr v - podExact det stderr v') ^ 2 + podNoise det stderr v + podNoise det stderr v' := by
  have hm : ∀ v : Fin S → ℝ, Measurable fun r => podHat det stderr v r := fun v => podHat_measurable det stderr measurable_const measurable_id
  have hL : ∀ v : Fin S → ℝ, MemLp (fun r => podHat det stderr v r) 2 (gaussS S) := fun v => bounded_memLp _ (hm v) fun r => podHat_range det stderr v r
  have e : ∀ w : (Fin S → ℝ) × (Fin S → ℝ), (podHat det stderr v w.1 - podHat det stderr v' w.2) ^ 2
      = (podHat det stderr v w.1 ^ 2 - 2 * (podHat det stderr v w.1 * podHat det stderr v' w.2)) + podHat det stderr v' w.2 ^ 2 := fun w => by ring
  simp only [e]
  have i1 : Integrable (fun w : (Fin S → ℝ) × (Fin S → ℝ) => podHat det stderr v w.1 ^ 2) ((gaussS S).prod (gaussS S)) :=
    (hL v).integrable_sq.comp_fst _
  have i3 : Integrable (fun w : (Fin S → ℝ) × (Fin S → ℝ) => podHat det stderr v' w.2 ^ 2) ((gaussS S).prod (gaussS S)) :=
    (hL v').integrable_sq.comp_snd _
  have i2 : Integrable (fun w : (Fin S → ℝ) × (Fin S → ℝ) => podHat det stderr v w.1 * podHat det stderr v' w.2) ((gaussS S).prod (gaussS S)) :=
    ((hL v).integrable (by norm_num)).mul_prod ((hL v').integrable (by norm_num))
  have i12 : Integrable (fun w : (Fin S → ℝ) × (Fin S → ℝ) => podHat det stderr v w.1 ^ 2 - 2 * (podHat det stderr v w.1 * podHat det stderr v' w.2))
      ((gaussS S).prod (gaussS S)) := i1.sub (i2.const_mul 2)
  rw [integral_add i12 i3, integral_sub i1 (i2.const_mul 2), integral_const_mul, integral_prod_mul (fun r => podHat det stderr v r) (fun r => podHat det stderr v' r),
    integral_fun_fst (fun r => podHat det stderr v r ^ 2), integral_fun_snd (fun r => podHat det stderr v' r ^ 2)]
  simp only [probReal_univ, one_smul, (podHat_moments det hs v).1, (podHat_moments det hs v).2, (podHat_moments det hs v').1, (podHat_moments det hs v').2]
  ring

theorem chaosOutput_entries {d : ℕ} (f : Fin S → List ℝ → ℝ) (stderr : ℝ) (sizes : List ℝ) (j : ℕ) (hj : j < sizes.length) (x y : ℕ → Fin d → ℝ)
    (z : ℕ → ℕ → Fin S → ℝ) (i : Fin d) {N k : ℕ} (hk : k < N) :
    let X := sobolDesign d (List.ofFn fun k : Fin N => List.ofFn (x k)) (List.ofFn fun k : Fin N => List.ofFn (y k))
    let out := chaosOutput f det stderr d sizes X fun s c => z (c / N) (c % N) s
    designEntry out N 0 k j = podHat det stderr (fun s => f s (sizes[j] :: List.ofFn (x k))) (z 0 k) ∧
    designEntry out N (2 + i) k j
      = podHat det stderr (fun s => f s (sizes[j] :: List.ofFn (Function.update (x k) i (y k i)))) (z (2 + i) k) := by
  intro X out
  have hlen : X.length = (2 + d) * N := sobolDesign_length (N := N) List.length_ofFn List.length_ofFn
  have hi := i.isLt
  have h1 : k < X.length := by rw [hlen]; nlinarith
  have h2 : (2 + i) * N + k < X.length := by rw [hlen]; nlinarith
  have g1 : X[k] = List.ofFn (x k) := by
    have := sobolDesign_first (dim := d) (A := List.ofFn fun k : Fin N => List.ofFn (x k)) (B := List.ofFn fun k : Fin N => List.ofFn (y k))
      List.length_ofFn hk
    rw [List.getElem?_eq_getElem h1, List.getElem?_eq_getElem (by simpa using hk), Option.some.injEq] at this
    rw [this]
    simp
  have g2 : X[(2 + i) * N + k] = List.ofFn (Function.update (x k) i (y k i)) := by
    have := sobolDesign_block (A := List.ofFn fun k : Fin N => List.ofFn (x k)) (B := List.ofFn fun k : Fin N => List.ofFn (y k))
      List.length_ofFn List.length_ofFn hi hk
    rw [List.getElem?_eq_getElem h2, Option.some.injEq] at this
    rw [this, sobolExchange]
    simp [ofFn_set]
  constructor
  · rw [designEntry, zero_mul, zero_add, chaosOutput_entry f det stderr d sizes X _ k j h1 hj, g1]
    simp only [podHat, Nat.div_eq_of_lt hk, Nat.mod_eq_of_lt hk]
  · rw [designEntry, chaosOutput_entry f det stderr d sizes X _ _ j h2 hj, g2]
    have e1 : ((2 + i) * N + k) / N = 2 + i := by
      rw [mul_comm, Nat.mul_add_div (by omega), Nat.div_eq_of_lt hk, add_zero]
    have e2 : ((2 + i) * N + k) % N = k := by
      rw [mul_comm, Nat.mul_add_mod, Nat.mod_eq_of_lt hk]
    simp only [podHat, e1, e2]

set_option maxHeartbeats 1600000 in
/-- **C147 violated: polynomial chaos.**  The residuals of the points of the design (`z b k` for point `k` of block `b`) are independent: the estimate
of the total index converges almost surely, but to `(V_T + n) / (V + n)`, `V_T` and `V` being the total and the global variance of the POD of
the metamodel and `n > 0` the mean variance of the simulation; it is larger than the total index `V_T / V` unless that is one. -/
theorem C147_violated {Ω : Type} [MeasurableSpace Ω] (Q : Measure Ω) [IsProbabilityMeasure Q] {d : ℕ} (law : Fin d → Measure ℝ)
    [∀ i, IsProbabilityMeasure (law i)] (hS : 0 < S) (hs : 0 < stderr) (f : Fin S → List ℝ → ℝ) (sizes : List ℝ) (j : ℕ) (hj : j < sizes.length)
    (hf : Measurable fun (x : Fin d → ℝ) s => f s (sizes[j] :: List.ofFn x)) (i : Fin d)
    (xy : ℕ → Ω → (Fin d → ℝ) × (Fin d → ℝ)) (z : ℕ → ℕ → Ω → Fin S → ℝ) (hm : ∀ k, Measurable fun ω => (xy k ω, (z 0 k ω, z (2 + i) k ω)))
    (hlaw : ∀ k, Q.map (fun ω => (xy k ω, (z 0 k ω, z (2 + i) k ω)))
      = ((Measure.pi law).prod (Measure.pi law)).prod ((gaussS S).prod (gaussS S)))
    (hind : iIndepFun (fun k ω => (xy k ω, (z 0 k ω, z (2 + i) k ω))) Q)
    (g noise : (Fin d → ℝ) → ℝ) (hg : g = fun x => podExact det stderr fun s => f s (sizes[j] :: List.ofFn x))
    (hn : noise = fun x => podNoise det stderr fun s => f s (sizes[j] :: List.ofFn x)) :
    0 < ∫ x, noise x ∂(Measure.pi law) ∧
    (∀ᵐ ω ∂Q, Tendsto (fun N => jansenTotal N i j (chaosOutput f det stderr d sizes
      (sobolDesign d (List.ofFn fun k : Fin N => List.ofFn (xy k ω).1) (List.ofFn fun k : Fin N => List.ofFn (xy k ω).2))
      fun s c => z (c / N) (c % N) ω s)) atTop
      (𝓝 ((totalVariance law i g + ∫ x, noise x ∂(Measure.pi law)) / (variance g (Measure.pi law) + ∫ x, noise x ∂(Measure.pi law))))) ∧
    (totalVariance law i g < variance g (Measure.pi law) → totalVariance law i g / variance g (Measure.pi law)
      < (totalVariance law i g + ∫ x, noise x ∂(Measure.pi law)) / (variance g (Measure.pi law) + ∫ x, noise x ∂(Measure.pi law))) := by
  set v : (Fin d → ℝ) → Fin S → ℝ := fun x s => f s (sizes[j] :: List.ofFn x) with hv
  have hgm : Measurable g := by rw [hg]; exact (podExact_measurable det stderr hf).1
  have hnm : Measurable noise := by rw [hn]; exact (podExact_measurable det stderr hf).2
  have hgb : ∀ x, 0 ≤ g x ∧ g x ≤ 1 := fun x => by rw [hg]; exact podExact_range det stderr _
  have hnb : ∀ x, 0 ≤ noise x ∧ noise x ≤ 1 := fun x => by rw [hn]; exact podNoise_range det hS stderr _
  have hnpos : ∀ x, 0 < noise x := fun x => by rw [hn]; exact podNoise_pos det hS _
  have hgL := bounded_memLp (Measure.pi law) hgm hgb
  have hnI := (bounded_memLp (Measure.pi law) hnm hnb).integrable (by norm_num)
  have hnint : 0 < ∫ x, noise x ∂(Measure.pi law) := by
    rw [integral_pos_iff_support_of_nonneg (fun x => (hnb x).1) hnI]
    have : Function.support noise = Set.univ := by
      ext x; simp [(hnpos x).ne']
    rw [this]
    simp
  have hvarnn : 0 ≤ variance g (Measure.pi law) := variance_nonneg _ _
  refine ⟨hnint, ?_, ?_⟩
  · set P := (Measure.pi law).prod (Measure.pi law) with hP
    set W := (gaussS S).prod (gaussS S) with hW
    have hmu : Measurable fun q : (Fin d → ℝ) × (Fin d → ℝ) => Function.update q.1 i (q.2 i) :=
      (resample_preserving law i).measurable.comp (measurable_fst.prodMk ((measurable_pi_apply i).comp measurable_snd))
    have hpres : MeasurePreserving (fun q : (Fin d → ℝ) × (Fin d → ℝ) => Function.update q.1 i (q.2 i)) P (Measure.pi law) :=
      (resample_preserving law i).comp ((MeasurePreserving.id (Measure.pi law)).prod (measurePreserving_eval law i))
    set A : ((Fin d → ℝ) × (Fin d → ℝ)) × ((Fin S → ℝ) × (Fin S → ℝ)) → ℝ := fun q => podHat det stderr (v q.1.1) q.2.1 with hA
    set B : ((Fin d → ℝ) × (Fin d → ℝ)) × ((Fin S → ℝ) × (Fin S → ℝ)) → ℝ :=
      fun q => podHat det stderr (v (Function.update q.1.1 i (q.1.2 i))) q.2.2 with hB
    have hAm : Measurable A := podHat_measurable det stderr (hf.comp (measurable_fst.comp measurable_fst)) (measurable_fst.comp measurable_snd)
    have hBm : Measurable B := podHat_measurable det stderr (hf.comp (hmu.comp measurable_fst)) (measurable_snd.comp measurable_snd)
    have hAL : MemLp A 2 (P.prod W) := bounded_memLp _ hAm fun q => podHat_range det stderr _ _
    have hBL : MemLp B 2 (P.prod W) := bounded_memLp _ hBm fun q => podHat_range det stderr _ _
    have s1 := avg_strong hm hlaw hind ((hAm.sub hBm).pow_const 2) (hAL.sub hBL).integrable_sq
    have s2 := avg_strong hm hlaw hind hAm (hAL.integrable (by norm_num))
    have s3 := avg_strong hm hlaw hind (hAm.pow_const 2) hAL.integrable_sq
    have e1 : ∫ q, ((A - B) q) ^ 2 ∂(P.prod W) = 2 * (totalVariance law i g + ∫ x, noise x ∂(Measure.pi law)) := by
      rw [integral_prod _ (hAL.sub hBL).integrable_sq]
      have h1 : ∀ p : (Fin d → ℝ) × (Fin d → ℝ), ∫ w, ((A - B) (p, w)) ^ 2 ∂W
          = ((g p.1 - g (Function.update p.1 i (p.2 i))) ^ 2 + noise p.1) + noise (Function.update p.1 i (p.2 i)) := by
        intro p
        have := podHat_gap det hs (v p.1) (v (Function.update p.1 i (p.2 i)))
        rw [hg, hn]
        simpa only [hA, hB, hW, Pi.sub_apply] using this
      simp only [h1]
      have j1 : Integrable (fun p : (Fin d → ℝ) × (Fin d → ℝ) => (g p.1 - g (Function.update p.1 i (p.2 i))) ^ 2) P :=
        ((bounded_memLp P (hgm.comp measurable_fst) fun p => hgb p.1).sub (bounded_memLp P (hgm.comp hmu) fun p => hgb _)).integrable_sq
      have j2 : Integrable (fun p : (Fin d → ℝ) × (Fin d → ℝ) => noise p.1) P := hnI.comp_fst _
      have j3 : Integrable (fun p : (Fin d → ℝ) × (Fin d → ℝ) => noise (Function.update p.1 i (p.2 i))) P := hpres.integrable_comp_of_integrable hnI
      have j12 : Integrable (fun p : (Fin d → ℝ) × (Fin d → ℝ) => (g p.1 - g (Function.update p.1 i (p.2 i))) ^ 2 + noise p.1) P := j1.add j2
      rw [integral_add j12 j3, integral_add j1 j2, jansen_identity law i g hgm hgb]
      have k2 : ∫ p : (Fin d → ℝ) × (Fin d → ℝ), noise p.1 ∂P = ∫ x, noise x ∂(Measure.pi law) := by
        rw [hP, integral_fun_fst]; simp
      have k3 : ∫ p : (Fin d → ℝ) × (Fin d → ℝ), noise (Function.update p.1 i (p.2 i)) ∂P = ∫ x, noise x ∂(Measure.pi law) := by
        rw [← hpres.map_eq, integral_map hmu.aemeasurable hnm.aestronglyMeasurable]
      rw [k2, k3]
      ring
    have e2 : ∫ q, A q ∂(P.prod W) = ∫ x, g x ∂(Measure.pi law) := by
      rw [integral_prod _ (hAL.integrable (by norm_num))]
      have h1 : ∀ p : (Fin d → ℝ) × (Fin d → ℝ), ∫ w, A (p, w) ∂W = g p.1 := by
        intro p
        have := integral_fun_fst (μ := gaussS S) (ν := gaussS S) fun r => podHat det stderr (v p.1) r
        rw [(podHat_moments det hs _).1] at this
        rw [hg]
        simpa [hA, hW] using this
      simp only [h1]
      rw [hP, integral_fun_fst]; simp
    have e3 : ∫ q, A q ^ 2 ∂(P.prod W) = ∫ x, g x ^ 2 ∂(Measure.pi law) + ∫ x, noise x ∂(Measure.pi law) := by
      rw [integral_prod _ hAL.integrable_sq]
      have h1 : ∀ p : (Fin d → ℝ) × (Fin d → ℝ), ∫ w, A (p, w) ^ 2 ∂W = g p.1 ^ 2 + noise p.1 := by
        intro p
        have := integral_fun_fst (μ := gaussS S) (ν := gaussS S) fun r => podHat det stderr (v p.1) r ^ 2
        rw [(podHat_moments det hs _).2] at this
        rw [hg, hn]
        simpa [hA, hW] using this
      simp only [h1]
      rw [hP, integral_fun_fst (fun x => g x ^ 2 + noise x), integral_add hgL.integrable_sq hnI]
      simp
    rw [e2] at s2
    rw [e3] at s3
    have hvg : variance g (Measure.pi law) = ∫ x, g x ^ 2 ∂(Measure.pi law) - (∫ x, g x ∂(Measure.pi law)) ^ 2 := variance_eq_sub hgL
    filter_upwards [s1, s2, s3] with ω t1 t2 t3
    have t1' : Tendsto (fun N : ℕ => (∑ k ∈ Finset.range N, (A (xy k ω, (z 0 k ω, z (2 + i) k ω)) - B (xy k ω, (z 0 k ω, z (2 + i) k ω))) ^ 2) / N)
        atTop (𝓝 (2 * (totalVariance law i g + ∫ x, noise x ∂(Measure.pi law)))) := by
      rw [← e1]; exact t1
    have hden : variance g (Measure.pi law) + ∫ x, noise x ∂(Measure.pi law)
        = ∫ x, g x ^ 2 ∂(Measure.pi law) + ∫ x, noise x ∂(Measure.pi law) - (∫ x, g x ∂(Measure.pi law)) ^ 2 := by
      rw [hvg]; ring
    have hpos : 0 < variance g (Measure.pi law) + ∫ x, noise x ∂(Measure.pi law) := by linarith
    rw [hden] at hpos ⊢
    exact jansenTotal_tendsto _ i j (fun k => A (xy k ω, (z 0 k ω, z (2 + i) k ω))) (fun k => B (xy k ω, (z 0 k ω, z (2 + i) k ω)))
      (fun N => by
        have hl : (sobolDesign d (List.ofFn fun k : Fin N => List.ofFn (xy k ω).1) (List.ofFn fun k : Fin N => List.ofFn (xy k ω).2)).length
            = (2 + d) * N := sobolDesign_length (N := N) List.length_ofFn List.length_ofFn
        rw [chaosOutput, (C69_rows_partial _ _ _ _ _ _).1, hl]
        nlinarith [Nat.zero_le (d * N)])
      (fun N k hk => (chaosOutput_entries det f stderr sizes j hj (fun k => (xy k ω).1) (fun k => (xy k ω).2) (fun b k => z b k ω) i hk).1)
      (fun N k hk => (chaosOutput_entries det f stderr sizes j hj (fun k => (xy k ω).1) (fun k => (xy k ω).2) (fun b k => z b k ω) i hk).2)
      t1' t2 t3 hpos.ne'
  · intro hlt
    have hnn : 0 ≤ totalVariance law i g := integral_nonneg fun x => variance_nonneg _ _
    have hvp : 0 < variance g (Measure.pi law) := by linarith
    rw [div_lt_div_iff₀ hvp (by linarith)]
    nlinarith

end Chaos

/-! ## Examples: two standard normal parameters, of which the metamodel uses the first one -/

/-- A function strictly monotone in the first parameter has a positive variance. -/
theorem variance_first_ne_zero {u : ℝ → ℝ} (hu : Measurable u) (hb : ∀ t, 0 ≤ u t ∧ u t ≤ 1) (hi : Function.Injective u) :
    variance (fun x : Fin 2 → ℝ => u (x 0)) (Measure.pi fun _ : Fin 2 => gaussianReal 0 1) ≠ 0 := by
  intro h
  have hm : Measurable fun x : Fin 2 → ℝ => u (x 0) := hu.comp (measurable_pi_apply 0)
  have hL := bounded_memLp (Measure.pi fun _ : Fin 2 => gaussianReal 0 1) hm fun x => hb (x 0)
  have hz : evariance (fun x : Fin 2 → ℝ => u (x 0)) (Measure.pi fun _ : Fin 2 => gaussianReal 0 1) = 0 := by
    rw [← hL.ofReal_variance_eq, h, ENNReal.ofReal_zero]
  rw [evariance_eq_zero_iff hm.aemeasurable] at hz
  set c := ∫ x : Fin 2 → ℝ, u (x 0) ∂(Measure.pi fun _ : Fin 2 => gaussianReal 0 1) with hc
  have hp := measurePreserving_eval (fun _ : Fin 2 => gaussianReal 0 1) 0
  have h1 : ∀ᵐ t ∂(gaussianReal 0 1), u t = c := by
    rw [← hp.map_eq, ae_map_iff hp.measurable.aemeasurable (measurableSet_eq_fun hu measurable_const)]
    exact hz
  have h2 : {t | u t = c}.Subsingleton := fun a ha b hb => hi (ha.trans hb.symm)
  have h3 : gaussianReal 0 1 {t | u t = c} = 0 := by
    rcases h2.eq_empty_or_singleton with h | ⟨a, h⟩
    · rw [h, measure_empty]
    · rw [h]
      exact gaussianReal_absolutelyContinuous 0 one_ne_zero Real.volume_singleton
  have h4 : gaussianReal 0 1 {t | u t = c} = 1 := (prob_compl_eq_zero_iff (measurableSet_eq_fun hu measurable_const)).mp h1
  rw [h3] at h4
  exact zero_ne_one h4

/-- The total index of the first parameter, with kriging. -/
example : let law := fun _ : Fin 2 => gaussianReal 0 1
    let P := (Measure.pi law).prod (Measure.pi law)
    let g := fun x : Fin 2 → ℝ => 1 - Phi ((3 - (2 + x 0)) / Real.sqrt 1)
    ∀ᵐ ω ∂(Measure.infinitePi fun _ : ℕ => P), Tendsto (fun N => jansenTotal N 0 1
      (sobolOutput (fun x => rowValues (krigExec (fun p => p.getD 0 0 + p.getD 1 0) (fun _ => 1) 3 [1, 2] x)) N
      (fun k => (ω k).1) (fun k => (ω k).2))) atTop (𝓝 (totalVariance law 0 g / variance g (Measure.pi law))) := by
  intro law P g
  refine C147_kriging_partial (Measure.infinitePi fun _ : ℕ => P) law (fun p => p.getD 0 0 + p.getD 1 0) (fun _ => 1) 3 1 [2] (fun _ => one_pos)
    (fun a => ?_) measurable_const 1 (by norm_num) g ?_ (fun k ω => ω k) (fun k => measurable_pi_apply k)
    (fun k => (measurePreserving_eval_infinitePi (fun _ : ℕ => P) k).map_eq)
    (iIndepFun_infinitePi (P := fun _ : ℕ => P) (X := fun _ x => x) (fun _ => measurable_id)) 0 ?_
  · simpa using (measurable_pi_apply (X := fun _ : Fin 2 => ℝ) 0).const_add a
  · funext x; simp [g]
  · have e : g = fun x : Fin 2 → ℝ => PhiC (1 - x 0) := by
      funext x
      simp only [g, Real.sqrt_one, div_one]
      rw [← PhiC_eq]
      congr 1
      ring
    rw [e]
    refine variance_first_ne_zero (u := fun t => PhiC (1 - t)) (PhiC_antitone.measurable.comp (measurable_const.sub measurable_id)) (fun t => ?_) ?_
    · have p := Phi_pos (1 - t)
      have q := PhiC_pos (1 - t)
      refine ⟨q.le, ?_⟩
      rw [PhiC_eq]
      linarith
    · intro a b h
      have := PhiC_strictAnti.injective h
      linarith

/-- With polynomial chaos the second parameter, which has no influence, converges to a positive index. -/
example : let law := fun _ : Fin 2 => gaussianReal 0 1
    let P := ((Measure.pi law).prod (Measure.pi law)).prod ((gaussS 2).prod (gaussS 2))
    ∃ c > 0, ∀ᵐ ω ∂(Measure.infinitePi fun _ : ℕ => P), Tendsto (fun N => jansenTotal N 1 1
      (chaosOutput (fun (_ : Fin 2) p => p.getD 0 0 + p.getD 1 0) 3 1 2 [1, 2]
      (sobolDesign 2 (List.ofFn fun k : Fin N => List.ofFn (ω k).1.1) (List.ofFn fun k : Fin N => List.ofFn (ω k).1.2))
      fun s c => (if c / N = 0 then (ω (c % N)).2.1 else (ω (c % N)).2.2) s)) atTop (𝓝 c) := by
  intro law P
  have h := C147_violated 3 (Measure.infinitePi fun _ : ℕ => P) law two_pos one_pos (fun (_ : Fin 2) p => p.getD 0 0 + p.getD 1 0) [1, 2] 1
    (by norm_num) (by
      refine measurable_pi_lambda _ fun s => ?_
      simpa using (measurable_pi_apply (X := fun _ : Fin 2 => ℝ) 0).const_add 2) 1 (fun k ω => (ω k).1)
    (fun b k ω => if b = 0 then (ω k).2.1 else (ω k).2.2) (fun k => measurable_pi_apply k)
    (fun k => (measurePreserving_eval_infinitePi (fun _ : ℕ => P) k).map_eq)
    (iIndepFun_infinitePi (P := fun _ : ℕ => P) (X := fun _ x => x) (fun _ => measurable_id)) _ _ rfl rfl
  refine ⟨_, ?_, h.2.1⟩
  have h0 := h.1
  refine div_pos (add_pos_of_nonneg_of_pos (integral_nonneg fun x => variance_nonneg _ _) h0)
    (add_pos_of_nonneg_of_pos (variance_nonneg _ _) h0)

end Verif.Props
