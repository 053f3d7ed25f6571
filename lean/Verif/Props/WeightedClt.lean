import Verif.Props.Limits
import Mathlib.Probability.CentralLimitTheorem
import Mathlib.MeasureTheory.Measure.CharacteristicFunction.TaylorExpansion
import Mathlib.MeasureTheory.Measure.LevyConvergence
import Mathlib.Probability.Independence.CharacteristicFunction

/-!
# Central limit theorem for weighted sums of independent variables of the same law (for C179)
-/

namespace Verif.Props
open Verif.Py Verif.Model MeasureTheory ProbabilityTheory Filter Topology

/-- Products of complex numbers of modulus at most 1 differ at most by the sum of the differences. -/
theorem prod_sub_le {n : ℕ} (a b : Fin n → ℂ) (ha : ∀ i, ‖a i‖ ≤ 1) (hb : ∀ i, ‖b i‖ ≤ 1) : ‖∏ i, a i - ∏ i, b i‖ ≤ ∑ i, ‖a i - b i‖ := by
  induction n with
  | zero => simp
  | succ n ih =>
    rw [Fin.prod_univ_succ, Fin.prod_univ_succ, Fin.sum_univ_succ]
    have h1 : a 0 * ∏ i : Fin n, a i.succ - b 0 * ∏ i : Fin n, b i.succ =
        (a 0 - b 0) * ∏ i : Fin n, a i.succ + b 0 * (∏ i : Fin n, a i.succ - ∏ i : Fin n, b i.succ) := by ring
    have h2 : ‖∏ i : Fin n, a i.succ‖ ≤ 1 := by
      rw [norm_prod]
      exact Finset.prod_le_one (fun i _ => norm_nonneg _) fun i _ => ha _
    rw [h1]
    refine (norm_add_le _ _).trans (add_le_add ?_ ?_)
    · rw [norm_mul]
      exact mul_le_of_le_one_right (norm_nonneg _) h2
    · rw [norm_mul]
      refine (mul_le_of_le_one_left (norm_nonneg _) (hb 0)).trans ?_
      exact ih (fun i => a i.succ) (fun i => b i.succ) (fun i => ha _) fun i => hb _

section
variable {E : Type*} [MeasurableSpace E] {P : Measure E} [IsProbabilityMeasure P] {g : E → ℝ}

/-- Characteristic function of `c + ∑ w i * g (z i)`. -/
theorem charFun_weighted (hg : Measurable g) {n : ℕ} (w : Fin n → ℝ) (c t : ℝ) :
    charFun ((Measure.pi fun _ : Fin n => P).map fun z => c + ∑ i, w i * g (z i)) t =
      Complex.exp (t * c * Complex.I) * ∏ i, charFun (P.map g) (t * w i) := by
  have hm : Measurable fun z : Fin n → E => c + ∑ i, w i * g (z i) := by fun_prop
  rw [charFun_apply_real, integral_map hm.aemeasurable (by fun_prop)]
  have h : ∀ z : Fin n → E, Complex.exp (t * ((c + ∑ i, w i * g (z i) : ℝ) : ℂ) * Complex.I) =
      Complex.exp (t * c * Complex.I) * ∏ i, Complex.exp (((t * w i : ℝ) : ℂ) * (g (z i) : ℂ) * Complex.I) := by
    intro z
    rw [← Complex.exp_sum, ← Complex.exp_add]
    congr 1
    push_cast
    rw [mul_add, add_mul, Finset.mul_sum, Finset.sum_mul]
    congr 1
    exact Finset.sum_congr rfl fun i _ => by ring
  simp only [h]
  rw [integral_const_mul, integral_fintype_prod_eq_prod (fun i (y : E) => Complex.exp (((t * w i : ℝ) : ℂ) * (g y : ℂ) * Complex.I))]
  congr 1
  refine Finset.prod_congr rfl fun i _ => ?_
  rw [charFun_apply_real, integral_map hg.aemeasurable (by fun_prop)]

/-- Close to 0 the characteristic function of a centred variable of variance 1 is close to that of the normal law. -/
theorem charFun_near (hg : Measurable g) (h0 : ∫ y, g y ∂P = 0) (h1 : ∫ y, g y ^ 2 ∂P = 1) {ε : ℝ} (hε : 0 < ε) :
    ∃ δ > 0, ∀ s : ℝ, |s| ≤ δ → ‖charFun (P.map g) s - Complex.exp (-(s : ℂ) ^ 2 / 2)‖ ≤ ε * s ^ 2 := by
  have t1 := taylor_charFun_two (P := P) (X := g) hg.aemeasurable h0 (by simpa using h1)
  have t2 := taylor_charFun_two (P := gaussianReal 0 1) (X := (id : ℝ → ℝ)) measurable_id.aemeasurable (by simp) (by
    have := variance_eq_integral (μ := gaussianReal 0 1) (X := (id : ℝ → ℝ)) measurable_id.aemeasurable
    rw [variance_id_gaussianReal] at this
    simp only [id, integral_id_gaussianReal, sub_zero] at this
    simpa using this.symm)
  rw [Measure.map_id] at t2
  have t3 := t1.sub t2
  have := (t3.def hε)
  obtain ⟨δ, hδ, hb⟩ := Metric.eventually_nhds_iff.1 this
  refine ⟨δ / 2, by positivity, fun s hs => ?_⟩
  have h := hb (y := s) (by rw [Real.dist_eq, sub_zero]; linarith)
  have he : charFun (gaussianReal 0 1) s = Complex.exp (-(s : ℂ) ^ 2 / 2) := by
    rw [charFun_gaussianReal]
    congr 1
    push_cast
    ring
  rw [sub_sub_sub_cancel_right, he, Real.norm_of_nonneg (sq_nonneg s)] at h
  exact h

theorem norm_gauss_le (s : ℝ) : ‖Complex.exp (-(s : ℂ) ^ 2 / 2)‖ ≤ 1 := by
  rw [show (-(s : ℂ) ^ 2 / 2) = ((-s ^ 2 / 2 : ℝ) : ℂ) by push_cast; ring, Complex.norm_exp_ofReal, Real.exp_le_one_iff]
  nlinarith [sq_nonneg s]

theorem weighted_charFun (hg : Measurable g) (h0 : ∫ y, g y ∂P = 0) (h1 : ∫ y, g y ^ 2 ∂P = 1) {n : ℕ → ℕ} (w : (N : ℕ) → Fin (n N) → ℝ)
    (hw : ∀ᶠ N in atTop, ∑ i, w N i ^ 2 = 1) (hmax : ∀ ε > 0, ∀ᶠ N in atTop, ∀ i, |w N i| ≤ ε) {c : ℕ → ℝ} {c0 : ℝ} (hc : Tendsto c atTop (𝓝 c0)) (t : ℝ) :
    Tendsto (fun N => charFun ((Measure.pi fun _ : Fin (n N) => P).map fun z => c N + ∑ i, w N i * g (z i)) t) atTop
      (𝓝 (charFun (gaussianReal c0 1) t)) := by
  have key : Tendsto (fun N => ∏ i, charFun (P.map g) (t * w N i)) atTop (𝓝 (Complex.exp (-(t : ℂ) ^ 2 / 2))) := by
    rw [Metric.tendsto_atTop']
    intro η hη
    obtain ⟨δ, hδ, hb⟩ := charFun_near hg h0 h1 (ε := η / (t ^ 2 + 1) / 2) (by positivity)
    obtain ⟨N0, hN0⟩ := eventually_atTop.1 (hw.and (hmax (δ / (|t| + 1)) (by positivity)))
    refine ⟨N0, fun N hN => ?_⟩
    obtain ⟨hs, hx⟩ := hN0 N hN.le
    have hexp : Complex.exp (-(t : ℂ) ^ 2 / 2) = ∏ i, Complex.exp (-((t * w N i : ℝ) : ℂ) ^ 2 / 2) := by
      rw [← Complex.exp_sum]
      congr 1
      have : ∀ i, (-((t * w N i : ℝ) : ℂ) ^ 2 / 2) = (-(t : ℂ) ^ 2 / 2) * ((w N i ^ 2 : ℝ) : ℂ) := fun i => by push_cast; ring
      simp only [this]
      rw [← Finset.mul_sum, ← Complex.ofReal_sum, hs]
      simp
    rw [dist_eq_norm, hexp]
    have hprob : IsProbabilityMeasure (P.map g) := Measure.isProbabilityMeasure_map hg.aemeasurable
    refine lt_of_le_of_lt (prod_sub_le _ _ (fun i => norm_charFun_le_one _) fun i => norm_gauss_le _) ?_
    have hsmall : ∀ i, |t * w N i| ≤ δ := by
      intro i
      rw [abs_mul]
      calc |t| * |w N i| ≤ |t| * (δ / (|t| + 1)) := mul_le_mul_of_nonneg_left (hx i) (abs_nonneg t)
        _ ≤ δ := by
          rw [mul_div_assoc', div_le_iff₀ (by positivity)]
          nlinarith [abs_nonneg t]
    calc ∑ i, ‖charFun (P.map g) (t * w N i) - Complex.exp (-((t * w N i : ℝ) : ℂ) ^ 2 / 2)‖
        ≤ ∑ i, η / (t ^ 2 + 1) / 2 * (t * w N i) ^ 2 := Finset.sum_le_sum fun i _ => hb _ (hsmall i)
      _ = η / (t ^ 2 + 1) / 2 * t ^ 2 * ∑ i, w N i ^ 2 := by
          rw [Finset.mul_sum]
          exact Finset.sum_congr rfl fun i _ => by ring
      _ < η := by
          rw [hs, mul_one, div_div, div_mul_eq_mul_div, div_lt_iff₀ (by positivity)]
          nlinarith [sq_nonneg t]
  have hexpc : Tendsto (fun N => Complex.exp (t * c N * Complex.I)) atTop (𝓝 (Complex.exp (t * c0 * Complex.I))) := by
    have hcc : Tendsto (fun N => ((c N : ℝ) : ℂ)) atTop (𝓝 (c0 : ℂ)) := (Complex.continuous_ofReal.tendsto c0).comp hc
    exact (Complex.continuous_exp.tendsto _).comp ((hcc.const_mul (t : ℂ)).mul_const Complex.I)
  have hprod := hexpc.mul key
  have hlim : charFun (gaussianReal c0 1) t = Complex.exp (t * c0 * Complex.I) * Complex.exp (-(t : ℂ) ^ 2 / 2) := by
    rw [charFun_gaussianReal, ← Complex.exp_add]
    congr 1
    push_cast
    ring
  rw [hlim]
  exact hprod.congr fun N => (charFun_weighted hg _ _ _).symm

/-- **Central limit theorem for weighted sums**: the sum of the squared weights is 1, the largest weight vanishes and the shift converges. -/
theorem weighted_clt (hg : Measurable g) (h0 : ∫ y, g y ∂P = 0) (h1 : ∫ y, g y ^ 2 ∂P = 1) {n : ℕ → ℕ} (w : (N : ℕ) → Fin (n N) → ℝ)
    (hw : ∀ᶠ N in atTop, ∑ i, w N i ^ 2 = 1) (hmax : ∀ ε > 0, ∀ᶠ N in atTop, ∀ i, |w N i| ≤ ε) {c : ℕ → ℝ} {c0 : ℝ} (hc : Tendsto c atTop (𝓝 c0)) :
    Tendsto (fun N => (Measure.pi fun _ : Fin (n N) => P).real {z | 0 < c N + ∑ i, w N i * g (z i)}) atTop (𝓝 (Phi c0)) := by
  have hm : ∀ N, Measurable fun z : Fin (n N) → E => c N + ∑ i, w N i * g (z i) := fun N => by fun_prop
  have hpr : ∀ N, IsProbabilityMeasure ((Measure.pi fun _ : Fin (n N) => P).map fun z => c N + ∑ i, w N i * g (z i)) := fun N =>
    Measure.isProbabilityMeasure_map (hm N).aemeasurable
  let μ : ℕ → ProbabilityMeasure ℝ := fun N => ⟨(Measure.pi fun _ : Fin (n N) => P).map fun z => c N + ∑ i, w N i * g (z i), hpr N⟩
  let μ0 : ProbabilityMeasure ℝ := ⟨gaussianReal c0 1, inferInstance⟩
  have hconv : Tendsto μ atTop (𝓝 μ0) := by
    exact ProbabilityMeasure.tendsto_of_tendsto_charFun (μ := μ) (μ₀ := μ0) fun t => weighted_charFun hg h0 h1 w hw hmax hc t
  have hns := nullSingletonClass_gaussianReal (μ := c0) (v := 1) one_ne_zero
  have hfr : (μ0 : Measure ℝ) (frontier (Set.Ioi 0)) = 0 := by
    rw [frontier_Ioi]
    change (gaussianReal c0 1) {0} = 0
    exact measure_singleton 0
  have hk := ProbabilityMeasure.tendsto_measure_of_null_frontier_of_tendsto' hconv (E := Set.Ioi 0) hfr
  have hk2 := (ENNReal.tendsto_toReal (measure_ne_top _ _)).comp hk
  have hval : ((μ0 : Measure ℝ) (Set.Ioi 0)).toReal = Phi c0 := by
    change ((gaussianReal c0 1) (Set.Ioi 0)).toReal = Phi c0
    have hmap := gaussianReal_map_const_add (μ := 0) (v := 1) c0
    rw [zero_add] at hmap
    rw [← hmap, Measure.map_apply (by fun_prop) measurableSet_Ioi]
    have hset : (fun x : ℝ => c0 + x) ⁻¹' Set.Ioi 0 = (Set.Iic (-c0))ᶜ := by
      ext x
      simp only [Set.mem_preimage, Set.mem_Ioi, Set.mem_compl_iff, Set.mem_Iic, not_le]
      constructor <;> intro h <;> linarith
    rw [hset, ← measureReal_def, probReal_compl_eq_one_sub measurableSet_Iic, ← cdf_eq_real]
    have := Phi_neg c0
    change 1 - Phi (-c0) = Phi c0
    linarith
  rw [hval] at hk2
  refine hk2.congr fun N => ?_
  change (((Measure.pi fun _ : Fin (n N) => P).map fun z => c N + ∑ i, w N i * g (z i)) (Set.Ioi 0)).toReal = _
  rw [Measure.map_apply (hm N) measurableSet_Ioi, measureReal_def]
  rfl

end

end Verif.Props
