import Verif.Props.DeltaMethod
import Verif.Props.Consistency
import Verif.Props.PliDraw

/-!
# C125: coverage of the confidence intervals of the perturbation law indices
-/

namespace Verif.Props
open Verif.Py Verif.Model MeasureTheory ProbabilityTheory Filter Topology

/-! ## The index, its gradient and its variance as functions of the two probabilities -/

theorem cont_piece {p q : ℝ} {F H : ℝ × ℝ → ℝ} (hF : ContinuousAt F (p, q)) (hH : ContinuousAt H (p, q)) (heq : p = q → F (p, q) = H (p, q)) :
    ContinuousAt (fun z : ℝ × ℝ => if z.2 < z.1 then F z else H z) (p, q) := by
  rcases lt_trichotomy q p with h | h | h
  · have he : ∀ᶠ z : ℝ × ℝ in 𝓝 (p, q), z.2 < z.1 := (isOpen_lt continuous_snd continuous_fst).mem_nhds h
    refine hF.congr ?_
    filter_upwards [he] with z hz
    rw [if_pos hz]
  · have e := heq h.symm
    unfold ContinuousAt
    simp only [h, lt_irrefl, if_false]
    subst h
    have h1 : Tendsto F (𝓝 (q, q)) (𝓝 (H (q, q))) := by rw [← e]; exact hF
    exact Tendsto.if' h1 hH
  · have he : ∀ᶠ z : ℝ × ℝ in 𝓝 (p, q), z.1 < z.2 := (isOpen_lt continuous_fst continuous_snd).mem_nhds h
    refine hH.congr ?_
    filter_upwards [he] with z hz
    rw [if_neg (not_lt.mpr hz.le)]

/-- Value of the index as a plain function. -/
noncomputable def indexVal (z : ℝ × ℝ) : ℝ := if z.2 < z.1 then (z.2 - z.1) / z.2 else (z.2 - z.1) / z.1

theorem div_zero_not_fin (a s : ℝ) : F.div (.fin a) (.fin (0 : ℝ)) ≠ .fin s := by
  show (if (0 : ℝ) = 0 then F.infSign a else F.fin (a / 0)) ≠ .fin s
  rw [if_pos rfl]
  unfold F.infSign
  split_ifs <;> simp

theorem indexVal_eq (z : ℝ × ℝ) (s : ℝ) : pliIndex z.1 z.2 = .fin s → s = indexVal z := by
  intro h
  rw [pliIndex] at h
  unfold indexVal
  split at h <;> rename_i hc
  · rw [if_pos hc]
    by_cases h0 : z.2 = 0
    · rw [h0] at h
      exact absurd h (div_zero_not_fin _ _)
    · rw [F.div_fin _ h0] at h
      injection h with h
      exact h.symm
  · rw [if_neg hc]
    by_cases h0 : z.1 = 0
    · rw [h0] at h
      exact absurd h (div_zero_not_fin _ _)
    · rw [F.div_fin _ h0] at h
      injection h with h
      exact h.symm

theorem index_fin_iff (z : ℝ × ℝ) : (∃ s, pliIndex z.1 z.2 = .fin s) ↔ (z.2 < z.1 ∧ z.2 ≠ 0) ∨ (¬ z.2 < z.1 ∧ z.1 ≠ 0) := by
  rw [pliIndex]
  by_cases hc : z.2 < z.1
  · simp only [hc, if_true, true_and, not_true_eq_false, false_and, or_false]
    constructor
    · rintro ⟨s, hs⟩ h0
      rw [h0] at hs
      exact div_zero_not_fin _ _ hs
    · intro h0
      exact ⟨_, F.div_fin _ h0⟩
  · simp only [hc, if_false, false_and, not_false_eq_true, true_and, false_or]
    constructor
    · rintro ⟨s, hs⟩ h0
      rw [h0] at hs
      exact div_zero_not_fin _ _ hs
    · intro h0
      exact ⟨_, F.div_fin _ h0⟩

theorem index_fin_measurable : MeasurableSet {z : ℝ × ℝ | ∃ s, pliIndex z.1 z.2 = .fin s} := by
  simp only [index_fin_iff]
  have h1 : MeasurableSet {z : ℝ × ℝ | z.2 < z.1} := measurableSet_lt measurable_snd measurable_fst
  have h2 : MeasurableSet {z : ℝ × ℝ | z.2 ≠ 0} := (measurable_snd (measurableSet_singleton 0)).compl
  have h3 : MeasurableSet {z : ℝ × ℝ | z.1 ≠ 0} := (measurable_fst (measurableSet_singleton 0)).compl
  exact (h1.inter h2).union (h1.compl.inter h3)

theorem index_fin {z : ℝ × ℝ} (h1 : 0 < z.1) (h2 : 0 < z.2) : pliIndex z.1 z.2 = .fin (indexVal z) := by
  have : ∃ s, pliIndex z.1 z.2 = .fin s := by
    rcases lt_or_ge z.2 z.1 with h | h
    · exact ⟨_, pliIndex_below h2 h⟩
    · exact ⟨_, pliIndex_above h1 h⟩
  obtain ⟨s, hs⟩ := this
  rw [hs, indexVal_eq z s hs]

theorem indexVal_measurable : Measurable indexVal := by
  unfold indexVal
  exact Measurable.ite (measurableSet_lt measurable_snd measurable_fst) (by fun_prop) (by fun_prop)

theorem grad0_eq (z : ℝ × ℝ) : pliGrad z.1 z.2 0 = if z.2 < z.1 then -1 / z.2 else -z.2 / z.1 ^ 2 := by
  unfold pliGrad; split <;> rfl

theorem grad1_eq (z : ℝ × ℝ) : pliGrad z.1 z.2 1 = if z.2 < z.1 then z.1 / z.2 ^ 2 else 1 / z.1 := by
  unfold pliGrad; split <;> rfl

theorem grad0_cont {p q : ℝ} (hp : 0 < p) (hq : 0 < q) : ContinuousAt (fun z : ℝ × ℝ => pliGrad z.1 z.2 0) (p, q) := by
  simp only [grad0_eq]
  refine cont_piece ?_ ?_ ?_
  · exact ContinuousAt.div (by fun_prop) (by fun_prop) hq.ne'
  · exact ContinuousAt.div (by fun_prop) (by fun_prop) (by simpa using hp.ne')
  · rintro rfl; simp only; field_simp

theorem grad1_cont {p q : ℝ} (hp : 0 < p) (hq : 0 < q) : ContinuousAt (fun z : ℝ × ℝ => pliGrad z.1 z.2 1) (p, q) := by
  simp only [grad1_eq]
  refine cont_piece ?_ ?_ ?_
  · exact ContinuousAt.div (by fun_prop) (by fun_prop) (by simpa using hq.ne')
  · exact ContinuousAt.div (by fun_prop) (by fun_prop) hp.ne'
  · rintro rfl; simp only; field_simp

theorem grad0_measurable : Measurable fun z : ℝ × ℝ => pliGrad z.1 z.2 0 := by
  simp only [grad0_eq]
  exact Measurable.ite (measurableSet_lt measurable_snd measurable_fst) (by fun_prop) (by fun_prop)

theorem grad1_measurable : Measurable fun z : ℝ × ℝ => pliGrad z.1 z.2 1 := by
  simp only [grad1_eq]
  exact Measurable.ite (measurableSet_lt measurable_snd measurable_fst) (by fun_prop) (by fun_prop)

theorem pliVar_expand (u v w : ℝ) : pliVar u v w = pliGrad u v 0 ^ 2 * (u * (1 - u)) + 2 * (pliGrad u v 0 * pliGrad u v 1) * (v * (1 - u))
    + pliGrad u v 1 ^ 2 * w := by
  simp only [pliVar, pliCov, dotProduct, Matrix.mulVec, Fin.sum_univ_two, Matrix.of_apply, Matrix.cons_val_zero, Matrix.cons_val_one,
    Matrix.cons_val', Matrix.cons_val_fin_one]
  ring

/-- Expansion of the index around `(p, q)` with slopes continuous at `(p, q)` whose values there are the gradient of the code. -/
theorem index_expansion {p q : ℝ} (hp : 0 < p) (hq : 0 < q) : ∃ G0 G1 : ℝ × ℝ → ℝ, Measurable G0 ∧ Measurable G1 ∧
    (∀ᶠ z in 𝓝 (p, q), indexVal z - indexVal (p, q) = G0 z * (z.1 - p) + G1 z * (z.2 - q)) ∧
    ContinuousAt G0 (p, q) ∧ ContinuousAt G1 (p, q) ∧ G0 (p, q) = pliGrad p q 0 ∧ G1 (p, q) = pliGrad p q 1 := by
  have hpos : ∀ᶠ z : ℝ × ℝ in 𝓝 (p, q), 0 < z.1 ∧ 0 < z.2 :=
    ((isOpen_lt continuous_const continuous_fst).inter (isOpen_lt continuous_const continuous_snd)).mem_nhds ⟨hp, hq⟩
  have g0 := grad0_eq (p, q)
  have g1 := grad1_eq (p, q)
  simp only at g0 g1
  rcases lt_trichotomy q p with h | h | h
  · refine ⟨fun z => -1 / z.2, fun z => p / (q * z.2), by fun_prop, by fun_prop, ?_, ?_, ?_, ?_, ?_⟩
    · have he : ∀ᶠ z : ℝ × ℝ in 𝓝 (p, q), z.2 < z.1 := (isOpen_lt continuous_snd continuous_fst).mem_nhds h
      filter_upwards [he, hpos] with z hz hz0
      have h1 := hz0.1.ne'
      have h2 := hz0.2.ne'
      unfold indexVal
      rw [if_pos hz, if_pos h]
      field_simp
      ring
    · exact ContinuousAt.div (by fun_prop) (by fun_prop) hq.ne'
    · exact ContinuousAt.div (by fun_prop) (by fun_prop) (by simp [hq.ne'])
    · rw [g0, if_pos h]
    · rw [g1, if_pos h, sq]
  · subst h
    refine ⟨fun z => -1 / min z.1 z.2, fun z => 1 / min z.1 z.2, by fun_prop, by fun_prop, ?_, ?_, ?_, ?_, ?_⟩
    · filter_upwards [hpos] with z hz0
      have h1 := hz0.1.ne'
      have h2 := hz0.2.ne'
      unfold indexVal
      simp only [lt_irrefl, if_false, sub_self, zero_div, sub_zero]
      rcases lt_or_ge z.2 z.1 with hz | hz
      · rw [if_pos hz, min_eq_right hz.le]
        ring
      · rw [if_neg (not_lt.mpr hz), min_eq_left hz]
        ring
    · exact ContinuousAt.div (by fun_prop) (by fun_prop) (by simp [hq.ne'])
    · exact ContinuousAt.div (by fun_prop) (by fun_prop) (by simp [hq.ne'])
    · rw [g0, if_neg (lt_irrefl _)]
      simp only [min_self]
      field_simp
    · rw [g1, if_neg (lt_irrefl _)]
      simp only [min_self]
  · refine ⟨fun z => -q / (p * z.1), fun z => 1 / z.1, by fun_prop, by fun_prop, ?_, ?_, ?_, ?_, ?_⟩
    · have he : ∀ᶠ z : ℝ × ℝ in 𝓝 (p, q), z.1 < z.2 := (isOpen_lt continuous_fst continuous_snd).mem_nhds h
      filter_upwards [he, hpos] with z hz hz0
      have h1 := hz0.1.ne'
      have h2 := hz0.2.ne'
      unfold indexVal
      rw [if_neg (not_lt.mpr hz.le), if_neg (not_lt.mpr h.le)]
      field_simp
      ring
    · exact ContinuousAt.div (by fun_prop) (by fun_prop) (by simp [hp.ne'])
    · exact ContinuousAt.div (by fun_prop) (by fun_prop) hp.ne'
    · rw [g0, if_neg (not_lt.mpr h.le), sq]
    · rw [g1, if_neg (not_lt.mpr h.le)]

/-- The standard deviation as a plain function of the variance. -/
noncomputable def sigmaVal (N : ℕ) (var : ℝ) : ℝ := (pliSigma N var).getD 0

theorem sigmaVal_measurable (N : ℕ) : Measurable (sigmaVal N) := by
  have : sigmaVal N = fun var : ℝ => if (|var| < 1 / 10 ^ 6 ∧ var < 0) ∨ var = 0 then 1 / 10 ^ 30 else if var / N < 0 then 0 else Real.sqrt (var / N) := by
    funext var
    unfold sigmaVal pliSigma
    split_ifs <;> rfl
  rw [this]
  refine Measurable.ite ?_ measurable_const (Measurable.ite ?_ measurable_const (by fun_prop))
  · exact ((measurableSet_lt (f := fun var : ℝ => |var|) (by fun_prop) measurable_const).inter (measurableSet_lt measurable_id measurable_const)).union
      (measurableSet_singleton 0)
  · exact measurableSet_lt (f := fun var : ℝ => var / N) (by fun_prop) measurable_const

/-- Probability of a symmetric interval under the standard normal law. -/
theorem gauss_Icc {z l : ℝ} (hz : 0 < z) (h : Phi z = (1 + l) / 2) : (gaussianReal 0 1).real (Set.Icc (-z) z) = l := by
  have := nullSingletonClass_gaussianReal (μ := 0) (v := 1) one_ne_zero
  have e : (gaussianReal 0 1).real (Set.Icc (-z) z) = (gaussianReal 0 1).real (Set.Ioc (-z) z) := by
    rw [measureReal_def, measureReal_def, measure_congr Ioc_ae_eq_Icc]
  rw [e, show Set.Ioc (-z) z = Set.Iic z \ Set.Iic (-z) by ext y; simp [and_comm],
    measureReal_sdiff (Set.Iic_subset_Iic.mpr (by linarith)) measurableSet_Iic, ← Phi_eq, ← Phi_eq, Phi_neg, h]
  ring

/-! ## Coverage for two means, one of an indicator -/

section
variable {Ω E : Type} [MeasurableSpace Ω] [MeasurableSpace E] {Q : Measure Ω} [IsProbabilityMeasure Q] {P : Measure E} [IsProbabilityMeasure P]
  {x : ℕ → Ω → E}

theorem var_influence {fa fb : E → ℝ} (ha2 : MemLp fa 2 P) (hb2 : MemLp fb 2 P) (haa : ∀ y, fa y * fa y = fa y) (hab : ∀ y, fa y * fb y = fb y)
    {p q : ℝ} (hp : ∫ y, fa y ∂P = p) (hq : ∫ y, fb y ∂P = q) :
    Var[fun y => pliGrad p q 0 * fa y + pliGrad p q 1 * fb y; P] = pliVar p q ((∫ y, fb y ^ 2 ∂P) - q ^ 2) := by
  set d0 := pliGrad p q 0 with hd0
  set d1 := pliGrad p q 1 with hd1
  have hai := ha2.integrable (by norm_num)
  have hbi := hb2.integrable (by norm_num)
  have hb2i : Integrable (fun y => fb y ^ 2) P := hb2.integrable_sq
  have hc2 : MemLp (fun y => d0 * fa y + d1 * fb y) 2 P := (ha2.const_mul d0).add (hb2.const_mul d1)
  have hcint : ∫ y, (d0 * fa y + d1 * fb y) ∂P = d0 * p + d1 * q := by
    rw [integral_add (hai.const_mul _) (hbi.const_mul _), integral_const_mul, integral_const_mul, hp, hq]
  have hsq : (fun y => d0 * fa y + d1 * fb y) ^ 2 = fun y => (d0 ^ 2 * fa y + 2 * (d0 * d1) * fb y) + d1 ^ 2 * fb y ^ 2 := by
    funext y
    have h1 := haa y
    have h2 := hab y
    simp only [Pi.pow_apply]
    linear_combination d0 ^ 2 * h1 + 2 * d0 * d1 * h2
  have hi1 : Integrable (fun y => d0 ^ 2 * fa y + 2 * (d0 * d1) * fb y) P := (hai.const_mul _).add (hbi.const_mul _)
  rw [variance_eq_sub hc2, hcint, hsq, integral_add hi1 (hb2i.const_mul _),
    integral_add (hai.const_mul _) (hbi.const_mul _), integral_const_mul, integral_const_mul, integral_const_mul, hp, hq, pliVar_expand]
  ring

theorem index_coverage (hx : ∀ i, Measurable (x i)) (hlaw : ∀ i, Q.map (x i) = P) (hind : iIndepFun x Q) {fa fb : E → ℝ}
    (ha : Measurable fa) (hb : Measurable fb) (ha2 : MemLp fa 2 P) (hb2 : MemLp fb 2 P) (haa : ∀ y, fa y * fa y = fa y)
    (hab : ∀ y, fa y * fb y = fb y) {p q : ℝ} (hp : ∫ y, fa y ∂P = p) (hq : ∫ y, fb y ∂P = q) (hp0 : 0 < p) (hq0 : 0 < q)
    (hvar : 0 < pliVar p q ((∫ y, fb y ^ 2 ∂P) - q ^ 2)) (z : ℝ) :
    Tendsto (fun N => Q.real {ω | (∃ s, pliIndex (avg x fa N ω) (avg x fb N ω) = .fin s) ∧
        |indexVal (avg x fa N ω, avg x fb N ω) - indexVal (p, q)|
          ≤ z * sigmaVal N (pliVar (avg x fa N ω) (avg x fb N ω) (avg x (fun y => fb y ^ 2) N ω - avg x fb N ω ^ 2))
        ∧ 0 < sigmaVal N (pliVar (avg x fa N ω) (avg x fb N ω) (avg x (fun y => fb y ^ 2) N ω - avg x fb N ω ^ 2))}) atTop
      (𝓝 ((gaussianReal 0 1).real (Set.Icc (-z) z))) := by
  obtain ⟨G0, G1, m0, m1, hexp, c0, c1, e0, e1⟩ := index_expansion hp0 hq0
  have hclt := delta_two hx hlaw hind ha hb ha2 hb2 hp hq indexVal G0 G1 indexVal_measurable m0 m1 hexp c0 c1
  rw [e0, e1, var_influence ha2 hb2 haa hab hp hq] at hclt
  set V := pliVar p q ((∫ y, fb y ^ 2 ∂P) - q ^ 2) with hV
  have hai := ha2.integrable (by norm_num)
  have hbi := hb2.integrable (by norm_num)
  have hb2i : Integrable (fun y => fb y ^ 2) P := hb2.integrable_sq
  have sa := avg_strong hx hlaw hind ha hai
  have sb := avg_strong hx hlaw hind hb hbi
  have sc := avg_strong hx hlaw hind (hb.pow_const 2) hb2i
  rw [hp] at sa
  rw [hq] at sb
  have am := fun N => avg_measurable hx ha N
  have bm := fun N => avg_measurable hx hb N
  have cm := fun N => avg_measurable hx (hb.pow_const 2) N
  set vN : ℕ → Ω → ℝ := fun N ω => pliVar (avg x fa N ω) (avg x fb N ω) (avg x (fun y => fb y ^ 2) N ω - avg x fb N ω ^ 2) with hvN
  have vm : ∀ N, Measurable (vN N) := by
    intro N
    have q0 := grad0_measurable.comp ((am N).prodMk (bm N))
    have q1 := grad1_measurable.comp ((am N).prodMk (bm N))
    simp only [Function.comp_def] at q0 q1
    have q2 := am N
    have q3 := bm N
    have q4 := cm N
    simp only [hvN, pliVar_expand]
    fun_prop
  have sv : ∀ᵐ ω ∂Q, Tendsto (fun N => vN N ω) atTop (𝓝 V) := by
    filter_upwards [sa, sb, sc] with ω h1 h2 h3
    have k0 := (grad0_cont hp0 hq0).tendsto.comp (h1.prodMk_nhds h2)
    have k1 := (grad1_cont hp0 hq0).tendsto.comp (h1.prodMk_nhds h2)
    simp only [hvN, hV, pliVar_expand]
    exact (((k0.pow 2).mul (h1.mul (h1.const_sub 1))).add (((k0.mul k1).const_mul 2).mul (h2.mul (h1.const_sub 1)))).add
      ((k1.pow 2).mul (h3.sub (h2.pow 2)))
  set Y : ℕ → Ω → ℝ := fun N ω => (√N * sigmaVal N (vN N ω))⁻¹ with hY
  have Ym : ∀ N, Measurable (Y N) := fun N => ((measurable_const.mul ((sigmaVal_measurable N).comp (vm N)))).inv
  have Ys : ∀ᵐ ω ∂Q, Tendsto (fun N => Y N ω) atTop (𝓝 (√V)⁻¹) := by
    filter_upwards [sv] with ω h
    refine Tendsto.inv₀ ?_ (Real.sqrt_pos.mpr hvar).ne'
    have h1 := (Real.continuous_sqrt.tendsto V).comp h
    refine h1.congr' ?_
    filter_upwards [h.eventually (lt_mem_nhds hvar), eventually_gt_atTop 0] with N hN hN0
    have hNr : (0 : ℝ) < N := by exact_mod_cast hN0
    simp only [Function.comp]
    rw [sigmaVal, pliSigma, if_neg (by rintro (⟨-, h⟩ | h) <;> linarith), if_neg (not_lt.mpr (by positivity)), Option.getD_some,
      ← Real.sqrt_mul hNr.le, mul_div_cancel₀ _ hNr.ne']
  have hT := distribution_mul hclt Ys Ym
  -- outside the regular case the statistic is moved out of the interval
  set bad : ℕ → Set Ω := fun N => {ω | ¬ ((∃ s, pliIndex (avg x fa N ω) (avg x fb N ω) = .fin s) ∧ 0 < sigmaVal N (vN N ω))} with hbad
  have badm : ∀ N, MeasurableSet (bad N) := by
    intro N
    have b1 : MeasurableSet {ω | ∃ s, pliIndex (avg x fa N ω) (avg x fb N ω) = .fin s} := ((am N).prodMk (bm N)) index_fin_measurable
    have b2 : MeasurableSet {ω | 0 < sigmaVal N (vN N ω)} := measurableSet_lt measurable_const ((sigmaVal_measurable N).comp (vm N))
    exact (b1.inter b2).compl
  set T : ℕ → Ω → ℝ := fun N ω => √N * (indexVal (avg x fa N ω, avg x fb N ω) - indexVal (p, q)) * Y N ω with hTdef
  have Tm : ∀ N, Measurable (T N) := fun N =>
    (((indexVal_measurable.comp ((am N).prodMk (bm N))).sub_const _).const_mul _).mul (Ym N)
  set C : ℕ → Ω → ℝ := fun N => (bad N).indicator fun ω => |z| + 1 - T N ω with hC
  have Cm : ∀ N, Measurable (C N) := fun N => ((Tm N).const_sub _).indicator (badm N)
  have C0 : ∀ᵐ ω ∂Q, Tendsto (fun N => C N ω) atTop (𝓝 0) := by
    filter_upwards [sa, sb, sv] with ω h1 h2 h3
    refine tendsto_const_nhds.congr' ?_
    filter_upwards [h1.eventually (lt_mem_nhds hp0), h2.eventually (lt_mem_nhds hq0), h3.eventually (lt_mem_nhds hvar), eventually_gt_atTop 0]
      with N k1 k2 k3 hN0
    have hNr : (0 : ℝ) < N := by exact_mod_cast hN0
    simp only [hC]
    rw [Set.indicator_of_notMem]
    simp only [hbad, Set.mem_ofPred_eq, not_not]
    refine ⟨⟨_, index_fin (z := (avg x fa N ω, avg x fb N ω)) k1 k2⟩, ?_⟩
    rw [sigmaVal, pliSigma, if_neg (by rintro (⟨-, h⟩ | h) <;> linarith), if_neg (not_lt.mpr (by positivity)), Option.getD_some]
    exact Real.sqrt_pos.mpr (by positivity)
  have hT' := hT.add_of_tendstoInMeasure_const (tendstoInMeasure_of_tendsto_ae (fun N => (Cm N).aestronglyMeasurable) C0)
    fun N => (Cm N).aemeasurable
  have hlim := distribution_interval hT' (by
    simp only [id, add_zero]
    rw [gaussianReal_map_mul_const]
    congr 1
    · simp
    · ext
      push_cast
      rw [Real.coe_toNNReal _ hvar.le]
      have := Real.sq_sqrt hvar.le
      simp only [NNReal.coe_mk, inv_pow, this]
      exact inv_mul_cancel₀ hvar.ne') z
  refine hlim.congr' ?_
  filter_upwards [eventually_gt_atTop 0] with N hN0
  have hNr : (0 : ℝ) < √(N : ℝ) := Real.sqrt_pos.mpr (by exact_mod_cast hN0)
  congr 1
  ext ω
  simp only [Set.mem_ofPred_eq, Pi.add_apply]
  by_cases hb' : ω ∈ bad N
  · simp only [hC, Set.indicator_of_mem hb']
    constructor
    · intro h
      rw [show T N ω + (|z| + 1 - T N ω) = |z| + 1 by ring] at h
      have h2 := le_abs_self z
      have h3 := le_abs_self (|z| + 1)
      linarith
    · rintro ⟨h1, -, h3⟩
      exact absurd ⟨h1, h3⟩ hb'
  · have hg := hb'
    simp only [hbad, Set.mem_ofPred_eq, not_not] at hg
    simp only [hC, Set.indicator_of_notMem hb', add_zero]
    have hTe : T N ω
        = (indexVal (avg x fa N ω, avg x fb N ω) - indexVal (p, q)) / sigmaVal N (vN N ω) := by
      simp only [hTdef, hY]
      have h1 := hg.2.ne'
      field_simp
    rw [hTe, abs_div, abs_of_pos hg.2, div_le_iff₀ hg.2]
    exact ⟨fun h => ⟨hg.1, h, hg.2⟩, fun h => h.2.1⟩

end

/-! ## C125 -/

/-- Sum of any function over the failure sample. -/
theorem failureSample_sum {d N : ℕ} (h : (Fin d → ℝ) → ℝ) (g : (Fin d → ℝ) → ℝ) (thr : ℝ) (ω : Fin N → Fin d → ℝ) (fs : List (Fin d → ℝ))
    (hfs : failureSample .greater thr (List.ofFn fun i => (ω i, g (ω i))) = .ok fs) :
    (fs.map h).sum = ∑ i, Set.indicator {x | thr < g x} h (ω i) := by
  rw [failureSample, Except.ok.injEq] at hfs
  subst hfs
  have key : ∀ l : List ((Fin d → ℝ) × ℝ), (∀ p ∈ l, p.2 = g p.1) →
      (((l.filter fun p => decide (p.2 > thr)).map Prod.fst).map h).sum
        = (l.map fun p => Set.indicator {x | thr < g x} h p.1).sum := by
    intro l hl
    induction l with
    | nil => simp
    | cons p t ih =>
      have ih := ih fun q hq => hl q (List.mem_cons_of_mem _ hq)
      have hp := hl p (by simp)
      by_cases hc : p.2 > thr
      · rw [List.filter_cons_of_pos (by simpa using hc), List.map_cons, List.map_cons, List.sum_cons, ih, List.map_cons, List.sum_cons,
          Set.indicator_of_mem (by rw [hp] at hc; exact hc)]
      · rw [List.filter_cons_of_neg (by simpa using hc), ih, List.map_cons, List.sum_cons,
          Set.indicator_of_notMem (by rw [hp] at hc; exact hc), zero_add]
  rw [key _ (by
    intro p hp
    rw [List.mem_ofFn] at hp
    obtain ⟨i, rfl⟩ := hp
    rfl), List.map_ofFn, List.sum_ofFn]
  rfl

/-- The entries of one run written with the means over the draws. -/
theorem entry_avg {Ω : Type} {d : ℕ} (pdf : Fin d → ℝ → ℝ) (k : Fin d) (pert : ℝ → ℝ) (g : (Fin d → ℝ) → ℝ) (thr : ℝ) (x : ℕ → Ω → Fin d → ℝ)
    (N : ℕ) (ω : Ω) :
    let fa := Set.indicator {y | thr < g y} fun _ : Fin d → ℝ => (1 : ℝ)
    let fb := pliTerm pdf k pert {y | thr < g y}
    let v := avg x (fun y => fb y ^ 2) N ω - avg x fb N ω ^ 2
    pliEntryAfter .greater thr (thr < ·) true [] (List.ofFn fun i : Fin N => (x i ω, g (x i ω))) pdf k pert
      = .ok (avg x fb N ω, v, pliIndex (avg x fa N ω) (avg x fb N ω), pliSigma N (pliVar (avg x fa N ω) (avg x fb N ω) v)) := by
  intro fa fb v
  obtain ⟨fs, hfs⟩ : ∃ fs, failureSample .greater thr (List.ofFn fun i : Fin N => (x i ω, g (x i ω))) = .ok fs := ⟨_, rfl⟩
  have e1 : pfDelta N (pliWeights pdf k pert fs) = avg x fb N ω := by
    rw [pfDelta_sample pdf k pert g thr (fun i : Fin N => x i ω) fs hfs, one_div, inv_mul_eq_div,
      Fin.sum_univ_eq_sum_range (fun i => pliTerm pdf k pert _ (x i ω)) N]
    rfl
  have e2 : monteCarloEstimate (thr < ·) (List.ofFn fun i : Fin N => (x i ω, g (x i ω))) = avg x fa N ω := by
    have hl := failureSample_length g thr (fun i : Fin N => x i ω) fs hfs
    have hn : ((List.ofFn fun i : Fin N => (x i ω, g (x i ω))).filter fun p => decide (thr < p.2)).length = fs.length := by
      rw [failureSample, Except.ok.injEq] at hfs
      rw [← hfs, List.length_map]
    rw [Fin.sum_univ_eq_sum_range (fun i => fa (x i ω)) N] at hl
    rw [monteCarloEstimate, List.length_ofFn, avg, ← hl, ← hn]
  have e3 : varPfDelta N (pliWeights pdf k pert fs) = v := by
    rw [varPfDelta, e1]
    congr 1
    rw [pliWeights, List.map_map, failureSample_sum _ g thr (fun i : Fin N => x i ω) fs hfs, one_div, inv_mul_eq_div,
      Fin.sum_univ_eq_sum_range (fun i => Set.indicator {y | thr < g y} _ (x i ω)) N, avg]
    congr 1
    refine Finset.sum_congr rfl fun i _ => ?_
    simp only [fb, pliTerm]
    by_cases hm : x i ω ∈ {y | thr < g y}
    · rw [Set.indicator_of_mem hm, Set.indicator_of_mem hm]; rfl
    · rw [Set.indicator_of_notMem hm, Set.indicator_of_notMem hm]; norm_num
  rw [pliEntryAfter, historyAfter, if_pos rfl, pliEntry, hfs]
  simp only [e1, e2, e3, List.length_ofFn]

theorem pliTerm_ae {d : ℕ} {pdf : Fin d → ℝ → ℝ} (hpdf : ∀ i, IsDensity (pdf i)) (k : Fin d) (pert : ℝ → ℝ) :
    ∀ᵐ y ∂(densityLaw (jointPDF pdf)), perturbedPDF pdf k pert y / jointPDF pdf y = pert (y k) / pdf k (y k) := by
  obtain ⟨j1, j2, j3, j4⟩ := jointPDF_density hpdf
  rw [densityLaw, ae_withDensity_iff j1.ennreal_ofReal]
  refine Filter.Eventually.of_forall fun y hy => ?_
  have hj : jointPDF pdf y ≠ 0 := by
    intro h
    rw [h, ENNReal.ofReal_zero] at hy
    exact hy rfl
  rw [jointPDF, Finset.prod_ne_zero_iff] at hj
  rw [perturbedPDF, jointPDF, ← Finset.mul_prod_erase _ _ (Finset.mem_univ k), ← Finset.mul_prod_erase _ (fun i => pdf i (y i)) (Finset.mem_univ k),
    Function.update_self]
  have : ∏ i ∈ Finset.univ.erase k, Function.update pdf k pert i (y i) = ∏ i ∈ Finset.univ.erase k, pdf i (y i) := by
    refine Finset.prod_congr rfl fun i hi => ?_
    rw [Function.update_of_ne (Finset.ne_of_mem_erase hi)]
  rw [this, mul_div_mul_right _ _ (Finset.prod_ne_zero_iff.mpr fun i _ => hj i (Finset.mem_univ i))]

/-- **C125.**  Asymptotic coverage.  The run uses `N` independent draws of the original law.  When both probabilities are positive, the ratio of
the densities has a second moment on the event and is not constant on it, the probability that the interval of level `l` returned by
`computeConfidenceInterval` contains the exact index tends to `l`. -/
theorem C125_coverage {Ω : Type} [MeasurableSpace Ω] (Q : Measure Ω) [IsProbabilityMeasure Q] {d : ℕ} (pdf : Fin d → ℝ → ℝ)
    (hpdf : ∀ i, IsDensity (pdf i)) (k : Fin d) (pert : ℝ → ℝ) (hpert : IsDensity pert) (hsupp : ∀ x, pdf k x = 0 → pert x = 0)
    (g : (Fin d → ℝ) → ℝ) (hg : Measurable g) (thr : ℝ) (x : ℕ → Ω → Fin d → ℝ) (hx : ∀ i, Measurable (x i))
    (hlaw : ∀ i, Q.map (x i) = densityLaw (jointPDF pdf)) (hind : iIndepFun x Q)
    (hsq : IntegrableOn (fun y => (pert (y k) / pdf k (y k)) ^ 2) {y | thr < g y} (densityLaw (jointPDF pdf)))
    (hnd : ¬ ∃ c, ∀ᵐ y ∂(densityLaw (jointPDF pdf)), thr < g y → pert (y k) / pdf k (y k) = c)
    (p q S : ℝ) (hp : p = (densityLaw (jointPDF pdf)).real {x | thr < g x})
    (hq : q = (densityLaw (jointPDF (Function.update pdf k pert))).real {x | thr < g x}) (hp0 : 0 < p) (hq0 : 0 < q)
    (hS : S = if q < p then 1 - p / q else q / p - 1) (bilateral : ℝ × ℝ → ℝ → ℝ × ℝ) (hb : BilateralSpec bilateral) (l : ℝ) (h0 : 0 < l)
    (h1 : l < 1) :
    Tendsto (fun N : ℕ => Q.real {ω | ∃ pfd v s σ,
        pliEntryAfter .greater thr (thr < ·) true [] (List.ofFn fun i : Fin N => (x i ω, g (x i ω))) pdf k pert = .ok (pfd, v, .fin s, some σ) ∧
        0 < σ ∧ (bilateral (s, σ) l).1 ≤ S ∧ S ≤ (bilateral (s, σ) l).2}) atTop (𝓝 l) := by
  have := densityLaw_isProbability hpdf
  set P := densityLaw (jointPDF pdf) with hP
  set E : Set (Fin d → ℝ) := {x | thr < g x} with hE
  have hEm : MeasurableSet E := measurableSet_lt measurable_const hg
  have hupd : ∀ i, IsDensity (Function.update pdf k pert i) := by
    intro i
    by_cases h : i = k
    · subst h; rw [Function.update_self]; exact hpert
    · rw [Function.update_of_ne h]; exact hpdf i
  obtain ⟨j1, j2, j3, j4⟩ := jointPDF_density hpdf
  obtain ⟨q1, q2, q3, q4⟩ := jointPDF_density hupd
  have hmeasd : Measurable fun x => ENNReal.ofReal (jointPDF pdf x) := j1.ennreal_ofReal
  have hterm : Measurable (pliTerm pdf k pert E) := by
    unfold pliTerm
    exact (Measurable.div q1 j1).indicator hEm
  have hprod : ∀ x, (ENNReal.ofReal (jointPDF pdf x)).toReal • pliTerm pdf k pert E x
      = E.indicator (jointPDF (Function.update pdf k pert)) x := by
    intro x
    rw [ENNReal.toReal_ofReal (j2 x), smul_eq_mul, term_mul_joint pdf k pert hsupp, perturbedPDF_eq]
  have hval : ∫ x, pliTerm pdf k pert E x ∂P = q := by
    rw [hq, hP, densityLaw, integral_withDensity_eq_integral_toReal_smul hmeasd (Filter.Eventually.of_forall fun _ => ENNReal.ofReal_lt_top)]
    simp only [hprod]
    rw [integral_indicator hEm, measureReal_def, densityLaw, withDensity_apply _ hEm,
      ← ofReal_integral_eq_lintegral_ofReal q3.integrableOn (Filter.Eventually.of_forall q2), ENNReal.toReal_ofReal]
    exact integral_nonneg q2
  have hindm : Measurable (E.indicator fun _ : Fin d → ℝ => (1 : ℝ)) := measurable_const.indicator hEm
  have hpint : ∫ y, E.indicator (fun _ => (1 : ℝ)) y ∂P = p := by
    rw [integral_indicator_const _ hEm, smul_eq_mul, mul_one, hp]
  have hae := pliTerm_ae hpdf k pert
  rw [← hP] at hae
  have hterm2 : MemLp (pliTerm pdf k pert E) 2 P := by
    rw [memLp_two_iff_integrable_sq hterm.aestronglyMeasurable]
    have h2 : Integrable (E.indicator fun y => (pert (y k) / pdf k (y k)) ^ 2) P := (integrable_indicator_iff hEm).mpr hsq
    refine h2.congr ?_
    filter_upwards [hae] with y hy
    by_cases hm : y ∈ E
    · rw [pliTerm, Set.indicator_of_mem hm, Set.indicator_of_mem hm, hy]
    · rw [pliTerm, Set.indicator_of_notMem hm, Set.indicator_of_notMem hm]; norm_num
  have ha2 : MemLp (E.indicator fun _ : Fin d → ℝ => (1 : ℝ)) 2 P := (memLp_const (1 : ℝ)).indicator hEm
  have haa : ∀ y, E.indicator (fun _ => (1 : ℝ)) y * E.indicator (fun _ => (1 : ℝ)) y = E.indicator (fun _ => (1 : ℝ)) y := by
    intro y
    by_cases hm : y ∈ E
    · simp [hm]
    · simp [hm]
  have hab : ∀ y, E.indicator (fun _ => (1 : ℝ)) y * pliTerm pdf k pert E y = pliTerm pdf k pert E y := by
    intro y
    by_cases hm : y ∈ E
    · simp [hm]
    · simp [hm, pliTerm]
  have hd1 : 0 < pliGrad p q 1 := by
    have := grad1_eq (p, q)
    simp only at this
    rw [this]
    split <;> positivity
  have hvar : 0 < pliVar p q ((∫ y, pliTerm pdf k pert E y ^ 2 ∂P) - q ^ 2) := by
    rw [← var_influence ha2 hterm2 haa hab hpint hval]
    refine lt_of_le_of_ne (variance_nonneg _ _) fun hz => hnd ?_
    have hc2 : MemLp (fun y => pliGrad p q 0 * E.indicator (fun _ => (1 : ℝ)) y + pliGrad p q 1 * pliTerm pdf k pert E y) 2 P :=
      (ha2.const_mul _).add (hterm2.const_mul _)
    have hcc := ae_eq_integral_of_variance_eq_zero hc2 hz.symm
    refine ⟨(P[fun y => pliGrad p q 0 * E.indicator (fun _ => (1 : ℝ)) y + pliGrad p q 1 * pliTerm pdf k pert E y] - pliGrad p q 0)
      / pliGrad p q 1, ?_⟩
    filter_upwards [hcc, hae] with y hy hy2 hm
    have hm : y ∈ E := hm
    rw [pliTerm, Set.indicator_of_mem hm, Set.indicator_of_mem hm, hy2] at hy
    rw [eq_div_iff hd1.ne', ← hy]
    ring
  obtain ⟨z, hz0, hz, -⟩ := bilateral_bounds hb (m := 0) (s := 1) one_pos h0 h1
  have hcov := index_coverage hx hlaw hind hindm hterm ha2 hterm2 haa hab hpint hval hp0 hq0 hvar z
  rw [gauss_Icc hz0 hz] at hcov
  have hSv : indexVal (p, q) = S := by
    rw [hS, indexVal]
    split
    · rw [sub_div, div_self hq0.ne']
    · rw [sub_div, div_self hp0.ne']
  refine hcov.congr fun N => ?_
  congr 1
  ext ω
  simp only [Set.mem_ofPred_eq, entry_avg, hSv]
  set u := avg x (E.indicator fun _ => (1 : ℝ)) N ω
  set v := avg x (pliTerm pdf k pert E) N ω
  set w := pliVar u v (avg x (fun y => pliTerm pdf k pert E y ^ 2) N ω - v ^ 2)
  have hint : ∀ s σ, 0 < σ → ((bilateral (s, σ) l).1 ≤ S ∧ S ≤ (bilateral (s, σ) l).2 ↔ |s - S| ≤ z * σ) := by
    intro s σ hσ
    obtain ⟨z', hz0', hz', he⟩ := bilateral_bounds hb (m := s) hσ h0 h1
    have hzz : z' = z := Phi_strictMono.injective (hz'.trans hz.symm)
    rw [he, hzz, abs_le]
    constructor
    · rintro ⟨a, b⟩; constructor <;> nlinarith
    · rintro ⟨a, b⟩; constructor <;> nlinarith
  constructor
  · rintro ⟨⟨s, hs⟩, h2, h3⟩
    have hsv := indexVal_eq (u, v) s hs
    cases hσ : pliSigma N w with
    | none => rw [sigmaVal, hσ] at h3; exact absurd h3 (lt_irrefl _)
    | some σ =>
      have hσv : sigmaVal N w = σ := by rw [sigmaVal, hσ]; rfl
      rw [hσv] at h2 h3
      refine ⟨v, _, s, σ, by rw [hs], h3, (hint s σ h3).mpr ?_⟩
      rw [hsv]; exact h2
  · rintro ⟨pfd, v', s, σ, he, hσ0, hcov'⟩
    rw [Except.ok.injEq, Prod.mk.injEq, Prod.mk.injEq, Prod.mk.injEq] at he
    obtain ⟨-, -, hs, hσ⟩ := he
    have hσv : sigmaVal N w = σ := by rw [sigmaVal, hσ]; rfl
    rw [hσv]
    refine ⟨⟨s, hs⟩, ?_, hσ0⟩
    rw [← indexVal_eq (u, v) s hs]
    exact (hint s σ hσ0).mp hcov'

/-- Non-vacuity: one Normal marginal whose standard deviation is halved, event "positive", independent draws. -/
example (P : Measure (Fin 1 → ℝ)) (hP : P = densityLaw (jointPDF fun _ : Fin 1 => (Marg.normal 0 1).pdf)) [IsProbabilityMeasure P] :
    ∃ (bilateral : ℝ × ℝ → ℝ → ℝ × ℝ) (S : ℝ),
    Tendsto (fun N : ℕ => (Measure.infinitePi fun _ : ℕ => P).real {ω : ℕ → Fin 1 → ℝ | ∃ pfd v s σ,
        pliEntryAfter .greater 0 ((0 : ℝ) < ·) true [] (List.ofFn fun i : Fin N => (ω i, ω i 0)) (fun _ : Fin 1 => (Marg.normal 0 1).pdf) 0
          (Marg.normal 0 (1/2)).pdf = .ok (pfd, v, .fin s, some σ) ∧
        0 < σ ∧ (bilateral (s, σ) 0.95).1 ≤ S ∧ S ≤ (bilateral (s, σ) 0.95).2}) atTop (𝓝 0.95) := by
  have hn : ∀ s : ℝ, 0 < s → IsDensity (Marg.normal 0 s).pdf := fun s hs => goodMarg_density (m := .normal 0 s) hs
  have hpos : ∀ s : ℝ, 0 < s → ∀ t, 0 < (Marg.normal 0 s).pdf t := by
    intro s hs t
    simp only [Marg.pdf]
    positivity
  -- open sets have positive probability
  have hopen : ∀ (f : Fin 1 → ℝ → ℝ), (∀ i, IsDensity (f i)) → (∀ i t, 0 < f i t) → ∀ A : Set (Fin 1 → ℝ), IsOpen A → A.Nonempty →
      densityLaw (jointPDF f) A ≠ 0 := by
    intro f hf hf0 A hA hne hz
    have hac : volume ≪ densityLaw (jointPDF f) := by
      refine withDensity_absolutelyContinuous' ((jointPDF_density hf).1.ennreal_ofReal).aemeasurable (Filter.Eventually.of_forall fun y => ?_)
      exact (ENNReal.ofReal_pos.mpr (Finset.prod_pos fun i _ => hf0 i _)).ne'
    exact (hA.measure_pos volume hne).ne' (hac hz)
  obtain ⟨b, hb⟩ := bilateralSpec_nonempty
  have hratio : ∀ t : ℝ, (Marg.normal 0 (1/2)).pdf t / (Marg.normal 0 1).pdf t = 2 * Real.exp (-(3 * t ^ 2 / 2)) := by
    intro t
    simp only [Marg.pdf]
    have h2 : Real.sqrt (2 * Real.pi) ≠ 0 := (Real.sqrt_pos.mpr (by positivity)).ne'
    rw [show -(3 * t ^ 2 / 2) = -0.5 * ((t - 0) / (1/2)) ^ 2 - -0.5 * ((t - 0) / 1) ^ 2 by ring, Real.exp_sub]
    have h3 := (Real.exp_pos (-0.5 * ((t - 0) / 1) ^ 2)).ne'
    field_simp
  have hpp : ∀ (f : Fin 1 → ℝ → ℝ), (∀ i, IsDensity (f i)) → (∀ i t, 0 < f i t) →
      0 < (densityLaw (jointPDF f)).real {y : Fin 1 → ℝ | 0 < y 0} := by
    intro f hf hf0
    have := densityLaw_isProbability hf
    rw [measureReal_def, ENNReal.toReal_pos_iff]
    exact ⟨pos_iff_ne_zero.mpr (hopen f hf hf0 _ (isOpen_lt continuous_const (continuous_apply 0)) ⟨fun _ => 1, by simp⟩), measure_lt_top _ _⟩
  refine ⟨b, _, C125_coverage (Measure.infinitePi fun _ : ℕ => P) (fun _ : Fin 1 => (Marg.normal 0 1).pdf) (fun _ => hn 1 one_pos) 0
    (Marg.normal 0 (1/2)).pdf (hn _ (by norm_num)) (fun t ht => absurd ht (hpos 1 one_pos t).ne') (fun y => y 0) (by fun_prop) 0
    (fun i ω => ω i) (fun i => measurable_pi_apply i) (fun i => by rw [← hP]; exact (measurePreserving_eval_infinitePi (fun _ : ℕ => P) i).map_eq)
    (iIndepFun_infinitePi (P := fun _ : ℕ => P) (X := fun _ x => x) (fun _ => measurable_id)) ?_ ?_ _ _ _ rfl rfl ?_ ?_ rfl b hb 0.95
    (by norm_num) (by norm_num)⟩
  · simp only [hratio]
    have := densityLaw_isProbability (pdf := fun _ : Fin 1 => (Marg.normal 0 1).pdf) (fun _ => hn 1 one_pos)
    refine Integrable.of_bound (C := 4) (Measurable.aestronglyMeasurable (by fun_prop)) (Filter.Eventually.of_forall fun y => ?_)
    have h1 : Real.exp (-(3 * y 0 ^ 2 / 2)) ≤ 1 := Real.exp_le_one_iff.mpr (by nlinarith [sq_nonneg (y 0)])
    have h2 := Real.exp_pos (-(3 * y 0 ^ 2 / 2))
    rw [Real.norm_eq_abs, abs_of_nonneg (sq_nonneg _)]
    nlinarith
  · rintro ⟨c, hc⟩
    simp only [hratio] at hc
    -- a point of each of two disjoint strips
    have hpt : ∀ a b : ℝ, 0 < a → a < b → ∃ t, a < t ∧ t < b ∧ 2 * Real.exp (-(3 * t ^ 2 / 2)) = c := by
      intro a b ha hab
      by_contra hno
      push Not at hno
      refine hopen (fun _ : Fin 1 => (Marg.normal 0 1).pdf) (fun _ => hn 1 one_pos) (fun _ => hpos 1 one_pos) {y | a < y 0 ∧ y 0 < b}
        ((isOpen_lt continuous_const (continuous_apply 0)).inter (isOpen_lt (continuous_apply 0) continuous_const))
        ⟨fun _ => (a + b) / 2, by constructor <;> simp only <;> linarith⟩ ?_
      refine measure_mono_null ?_ (ae_iff.mp hc)
      intro y hy
      simp only [Set.mem_ofPred_eq, Classical.not_imp]
      exact ⟨ha.trans hy.1, hno _ hy.1 hy.2⟩
    obtain ⟨t, h1, h2, h3⟩ := hpt 1 2 (by norm_num) (by norm_num)
    obtain ⟨t', h1', h2', h3'⟩ := hpt 3 4 (by norm_num) (by norm_num)
    have : Real.exp (-(3 * t' ^ 2 / 2)) < Real.exp (-(3 * t ^ 2 / 2)) := Real.exp_lt_exp.mpr (by nlinarith)
    linarith
  · exact hpp _ (fun _ => hn 1 one_pos) fun _ => hpos 1 one_pos
  · refine hpp _ (fun i => ?_) fun i => ?_
    · rw [Subsingleton.elim i 0, Function.update_self]; exact hn _ (by norm_num)
    · rw [Subsingleton.elim i 0, Function.update_self]; exact hpos _ (by norm_num)

end Verif.Props
