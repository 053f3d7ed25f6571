import Mathlib.Probability.CentralLimitTheorem
import Mathlib.Probability.StrongLaw
import Mathlib.MeasureTheory.Measure.Portmanteau
import Mathlib.MeasureTheory.Function.ConvergenceInDistribution

/-!
# Limit theorems for functions of two empirical means

Helpers for C125 and C126: strong law and central limit theorem for `f (x i)` with independent draws `x i` of a law `P`, the
delta method for a function of two means, and the passage from convergence in distribution to probabilities of intervals.
-/

namespace Verif.Props
open MeasureTheory ProbabilityTheory Filter Topology

/-- Mean of `f` over the first `N` draws. -/
noncomputable def avg {Ω E : Type} (x : ℕ → Ω → E) (f : E → ℝ) (N : ℕ) (ω : Ω) : ℝ := (∑ i ∈ Finset.range N, f (x i ω)) / N

section
variable {Ω E : Type} [MeasurableSpace Ω] [MeasurableSpace E] {Q : Measure Ω} [IsProbabilityMeasure Q] {P : Measure E} [IsProbabilityMeasure P]
  {x : ℕ → Ω → E}

theorem avg_measurable (hx : ∀ i, Measurable (x i)) {f : E → ℝ} (hf : Measurable f) (N : ℕ) : Measurable (avg x f N) := by
  unfold avg
  exact (Finset.measurable_sum _ fun i _ => hf.comp (hx i)).div_const _

theorem avg_strong (hx : ∀ i, Measurable (x i)) (hlaw : ∀ i, Q.map (x i) = P) (hind : iIndepFun x Q) {f : E → ℝ} (hf : Measurable f)
    (hfi : Integrable f P) : ∀ᵐ ω ∂Q, Tendsto (fun N => avg x f N ω) atTop (𝓝 (∫ y, f y ∂P)) := by
  have h0 : Integrable (fun ω => f (x 0 ω)) Q := by
    rw [← hlaw 0] at hfi
    exact hfi.comp_measurable (hx 0)
  have h := strong_law_ae_real (μ := Q) (fun i ω => f (x i ω)) h0 (fun i j hij => (hind.indepFun hij).comp hf hf) fun i =>
    (show IdentDistrib (x i) (x 0) Q Q from ⟨(hx i).aemeasurable, (hx 0).aemeasurable, by rw [hlaw i, hlaw 0]⟩).comp hf
  have he : ∫ ω, f (x 0 ω) ∂Q = ∫ y, f y ∂P := by
    rw [← hlaw 0, integral_map (hx 0).aemeasurable hf.aestronglyMeasurable]
  rw [he] at h
  exact h

theorem avg_clt (hx : ∀ i, Measurable (x i)) (hlaw : ∀ i, Q.map (x i) = P) (hind : iIndepFun x Q) {f : E → ℝ} (hf : Measurable f)
    (hf2 : MemLp f 2 P) :
    TendstoInDistribution (fun (N : ℕ) ω => √N * (avg x f N ω - ∫ y, f y ∂P)) atTop id (fun _ => Q)
      (gaussianReal 0 (Var[f; P]).toNNReal) := by
  have he : ∫ ω, f (x 0 ω) ∂Q = ∫ y, f y ∂P := by
    rw [← hlaw 0, integral_map (hx 0).aemeasurable hf.aestronglyMeasurable]
  have hv : Var[fun ω => f (x 0 ω); Q] = Var[f; P] := by
    rw [← hlaw 0, variance_map (by rw [hlaw 0]; exact hf.aemeasurable) (hx 0).aemeasurable]
    rfl
  have h2 : MemLp (fun ω => f (x 0 ω)) 2 Q := by
    rw [← hlaw 0] at hf2
    exact hf2.comp_of_map (hx 0).aemeasurable
  have h := tendstoInDistribution_inv_sqrt_mul_sum_sub (P := Q) (P' := gaussianReal 0 (Var[f; P]).toNNReal) (X := fun i ω => f (x i ω)) (Y := id)
    (by rw [hv]; exact ⟨aemeasurable_id, by rw [Measure.map_id]⟩) h2 (hind.comp _ fun _ => hf) fun i =>
      (show IdentDistrib (x i) (x 0) Q Q from ⟨(hx i).aemeasurable, (hx 0).aemeasurable, by rw [hlaw i, hlaw 0]⟩).comp hf
  convert h using 3 with N ω
  rw [he, avg]
  rcases Nat.eq_zero_or_pos N with rfl | hN
  · simp
  · have hN' : (0 : ℝ) < N := by exact_mod_cast hN
    have hs : √(N : ℝ) ≠ 0 := (Real.sqrt_pos.mpr hN').ne'
    have hss : √(N : ℝ) * √(N : ℝ) = N := Real.mul_self_sqrt hN'.le
    rw [inv_mul_eq_div, eq_div_iff hs]
    have : √(N : ℝ) * ((∑ i ∈ Finset.range N, f (x i ω)) / N - ∫ y, f y ∂P) * √(N : ℝ)
        = (√(N : ℝ) * √(N : ℝ)) * ((∑ i ∈ Finset.range N, f (x i ω)) / N - ∫ y, f y ∂P) := by ring
    rw [this, hss]
    field_simp

end

/-- Convergence in distribution to zero is convergence in probability. -/
theorem tendstoInMeasure_of_distribution_zero {Ω Ω' : Type} [MeasurableSpace Ω] [MeasurableSpace Ω'] {Q : Measure Ω} [IsProbabilityMeasure Q]
    {Q' : Measure Ω'} [IsProbabilityMeasure Q'] {W : ℕ → Ω → ℝ} {Z : Ω' → ℝ} (h : TendstoInDistribution W atTop Z (fun _ => Q) Q')
    (hZ : ∀ ω, Z ω = 0) : TendstoInMeasure Q W atTop (fun _ => 0) := by
  rw [tendstoInMeasure_iff_norm]
  intro ε hε
  have hclosed : IsClosed {y : ℝ | ε ≤ ‖y‖} := isClosed_le continuous_const continuous_norm
  have hl := ProbabilityMeasure.limsup_measure_closed_le_of_tendsto h.tendsto hclosed
  have h0 : (Q'.map Z) {y : ℝ | ε ≤ ‖y‖} = 0 := by
    rw [Measure.map_apply_of_aemeasurable h.aemeasurable_limit hclosed.measurableSet]
    convert measure_empty
    · ext ω
      simp [hZ ω, hε]
    · infer_instance
  simp only [ProbabilityMeasure.coe_mk, h0] at hl
  have hl0 : limsup (fun N => (Q.map (W N)) {y : ℝ | ε ≤ ‖y‖}) atTop = 0 := le_antisymm hl (zero_le)
  have ht : Tendsto (fun N => (Q.map (W N)) {y : ℝ | ε ≤ ‖y‖}) atTop (𝓝 0) :=
    tendsto_of_le_liminf_of_limsup_le (zero_le) hl0.le
  refine ht.congr fun N => ?_
  rw [Measure.map_apply_of_aemeasurable (h.forall_aemeasurable N) hclosed.measurableSet]
  simp

/-- Slutsky's lemma for a product. -/
theorem distribution_mul {Ω Ω' : Type} [MeasurableSpace Ω] [MeasurableSpace Ω'] {Q : Measure Ω} [IsProbabilityMeasure Q]
    {Q' : Measure Ω'} [IsProbabilityMeasure Q'] {X Y : ℕ → Ω → ℝ} {Z : Ω' → ℝ} {c : ℝ} (h : TendstoInDistribution X atTop Z (fun _ => Q) Q')
    (hY : ∀ᵐ ω ∂Q, Tendsto (fun N => Y N ω) atTop (𝓝 c)) (hYm : ∀ N, Measurable (Y N)) :
    TendstoInDistribution (fun N ω => X N ω * Y N ω) atTop (fun ω => Z ω * c) (fun _ => Q) Q' :=
  h.continuous_comp_prodMk_of_tendstoInMeasure_const (g := fun p : ℝ × ℝ => p.1 * p.2) (by fun_prop)
    (tendstoInMeasure_of_tendsto_ae (fun N => (hYm N).aestronglyMeasurable) hY) fun N => (hYm N).aemeasurable

section
variable {Ω E : Type} [MeasurableSpace Ω] [MeasurableSpace E] {Q : Measure Ω} [IsProbabilityMeasure Q] {P : Measure E} [IsProbabilityMeasure P]
  {x : ℕ → Ω → E}

/-- **Delta method** for a function `S` of two means with the expansion `S u v - S p q = G₀ (u - p) + G₁ (v - q)` near `(p, q)` and
slopes continuous at `(p, q)`. -/
theorem delta_two (hx : ∀ i, Measurable (x i)) (hlaw : ∀ i, Q.map (x i) = P) (hind : iIndepFun x Q) {fa fb : E → ℝ}
    (ha : Measurable fa) (hb : Measurable fb) (ha2 : MemLp fa 2 P) (hb2 : MemLp fb 2 P) {p q : ℝ} (hp : ∫ y, fa y ∂P = p) (hq : ∫ y, fb y ∂P = q)
    (S G0 G1 : ℝ × ℝ → ℝ) (hS : Measurable S) (h0 : Measurable G0) (h1 : Measurable G1)
    (hexp : ∀ᶠ z in 𝓝 (p, q), S z - S (p, q) = G0 z * (z.1 - p) + G1 z * (z.2 - q))
    (hc0 : ContinuousAt G0 (p, q)) (hc1 : ContinuousAt G1 (p, q)) :
    TendstoInDistribution (fun (N : ℕ) ω => √N * (S (avg x fa N ω, avg x fb N ω) - S (p, q))) atTop id (fun _ => Q)
      (gaussianReal 0 (Var[fun y => G0 (p, q) * fa y + G1 (p, q) * fb y; P]).toNNReal) := by
  set d0 := G0 (p, q)
  set d1 := G1 (p, q)
  have hai := ha2.integrable (by norm_num)
  have hbi := hb2.integrable (by norm_num)
  have hcm : Measurable fun y => d0 * fa y + d1 * fb y := by fun_prop
  have hc2 : MemLp (fun y => d0 * fa y + d1 * fb y) 2 P := (ha2.const_mul d0).add (hb2.const_mul d1)
  have hcint : ∫ y, (d0 * fa y + d1 * fb y) ∂P = d0 * p + d1 * q := by
    rw [integral_add (hai.const_mul _) (hbi.const_mul _), integral_const_mul, integral_const_mul, hp, hq]
  have sa := avg_strong hx hlaw hind ha hai
  have sb := avg_strong hx hlaw hind hb hbi
  rw [hp] at sa
  rw [hq] at sb
  have am := fun N => avg_measurable hx ha N
  have bm := fun N => avg_measurable hx hb N
  have zm : ∀ N, Measurable fun ω => (avg x fa N ω, avg x fb N ω) := fun N => (am N).prodMk (bm N)
  have sz : ∀ᵐ ω ∂Q, Tendsto (fun N => (avg x fa N ω, avg x fb N ω)) atTop (𝓝 (p, q)) := by
    filter_upwards [sa, sb] with ω h1 h2
    exact h1.prodMk_nhds h2
  -- the slopes converge
  have g0 : ∀ᵐ ω ∂Q, Tendsto (fun N => G0 (avg x fa N ω, avg x fb N ω) - d0) atTop (𝓝 0) := by
    filter_upwards [sz] with ω h
    have := (hc0.tendsto.comp h).sub_const d0
    rw [sub_self] at this
    exact this
  have g1 : ∀ᵐ ω ∂Q, Tendsto (fun N => G1 (avg x fa N ω, avg x fb N ω) - d1) atTop (𝓝 0) := by
    filter_upwards [sz] with ω h
    have := (hc1.tendsto.comp h).sub_const d1
    rw [sub_self] at this
    exact this
  have ca := avg_clt hx hlaw hind ha ha2
  have cb := avg_clt hx hlaw hind hb hb2
  have cc := avg_clt hx hlaw hind hcm hc2
  rw [hp] at ca
  rw [hq] at cb
  rw [hcint] at cc
  have w0m : ∀ N, Measurable fun ω => G0 (avg x fa N ω, avg x fb N ω) - d0 := fun N => (h0.comp (zm N)).sub_const _
  have w1m : ∀ N, Measurable fun ω => G1 (avg x fa N ω, avg x fb N ω) - d1 := fun N => (h1.comp (zm N)).sub_const _
  have w0 := tendstoInMeasure_of_distribution_zero (distribution_mul ca g0 w0m) (fun ω => by simp)
  have w1 := tendstoInMeasure_of_distribution_zero (distribution_mul cb g1 w1m) (fun ω => by simp)
  -- remainder: zero from some point on
  set R : ℕ → Ω → ℝ := fun N ω => √N * (S (avg x fa N ω, avg x fb N ω) - S (p, q)) - √N * (G0 (avg x fa N ω, avg x fb N ω) * (avg x fa N ω - p)
    + G1 (avg x fa N ω, avg x fb N ω) * (avg x fb N ω - q)) with hR
  have Rm : ∀ N, Measurable (R N) := by
    intro N
    have e1 := am N
    have e2 := bm N
    have e3 := h0.comp (zm N)
    have e4 := h1.comp (zm N)
    have e5 := hS.comp (zm N)
    simp only [Function.comp_def] at e3 e4 e5
    simp only [hR]
    fun_prop
  have R0 : ∀ᵐ ω ∂Q, Tendsto (fun N => R N ω) atTop (𝓝 0) := by
    filter_upwards [sz] with ω h
    refine tendsto_const_nhds.congr' ?_
    filter_upwards [h.eventually hexp] with N hN
    simp only [hR]
    rw [hN, sub_self]
  have r := tendstoInMeasure_of_tendsto_ae (fun N => (Rm N).aestronglyMeasurable) R0
  have k := ((cc.add_of_tendstoInMeasure_const w0 fun N => ?_).add_of_tendstoInMeasure_const w1 fun N => ?_).add_of_tendstoInMeasure_const r
    fun N => (Rm N).aemeasurable
  · have e : (fun ω : ℝ => id ω + 0 + 0 + 0) = id := by funext; simp
    rw [e] at k
    convert k using 1
    funext N ω
    have havg : avg x (fun y => d0 * fa y + d1 * fb y) N ω = d0 * avg x fa N ω + d1 * avg x fb N ω := by
      simp only [avg, Finset.sum_add_distrib, ← Finset.mul_sum]
      ring
    simp only [Pi.add_apply, hR, havg]
    ring
  · have e1 := am N
    have e2 := w0m N
    fun_prop
  · have e1 := bm N
    have e2 := w1m N
    fun_prop

/-- Probabilities of symmetric intervals converge when the limit is the standard normal law. -/
theorem distribution_interval {Ω' : Type} [MeasurableSpace Ω'] {Q' : Measure Ω'} [IsProbabilityMeasure Q'] {T : ℕ → Ω → ℝ} {Z : Ω' → ℝ}
    (h : TendstoInDistribution T atTop Z (fun _ => Q) Q') (hZ : Q'.map Z = gaussianReal 0 1) (z : ℝ) :
    Tendsto (fun N => Q.real {ω | |T N ω| ≤ z}) atTop (𝓝 ((gaussianReal 0 1).real (Set.Icc (-z) z))) := by
  have hset : ∀ N, {ω | |T N ω| ≤ z} = T N ⁻¹' Set.Icc (-z) z := by
    intro N
    ext ω
    simp [abs_le]
  have hns := nullSingletonClass_gaussianReal (μ := 0) (v := 1) one_ne_zero
  have hfr : (Q'.map Z) (frontier (Set.Icc (-z) z)) = 0 := by
    rw [hZ]
    rcases le_or_gt (-z) z with h | h
    · rw [frontier_Icc h]
      exact ((Set.countable_singleton z).insert (-z)).measure_zero _
    · rw [Set.Icc_eq_empty (not_le.mpr h)]
      simp
  have hk := ProbabilityMeasure.tendsto_measure_of_null_frontier_of_tendsto' h.tendsto (E := Set.Icc (-z) z) hfr
  simp only [ProbabilityMeasure.coe_mk, hZ] at hk
  have hk2 := (ENNReal.tendsto_toReal (measure_ne_top _ _)).comp hk
  refine hk2.congr fun N => ?_
  simp only [Function.comp]
  rw [Measure.map_apply_of_aemeasurable (h.forall_aemeasurable N) measurableSet_Icc, hset, measureReal_def]

end

end Verif.Props
