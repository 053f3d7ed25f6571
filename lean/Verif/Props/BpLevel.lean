import Verif.Props.BpPower

/-!
# C175: for large samples the Breusch-Pagan test keeps its level (/repo/otpod/_math_tools.py 137-151)
-/

namespace Verif.Props
open Verif.Py Verif.Model MeasureTheory ProbabilityTheory Filter Topology Set

/-- An event that almost surely stops happening becomes improbable. -/
theorem bad_tendsto {Ω : Type} [MeasurableSpace Ω] {Q : Measure Ω} [IsProbabilityMeasure Q] (bad : ℕ → Set Ω) (hm : ∀ N, MeasurableSet (bad N))
    (h : ∀ᵐ ω ∂Q, ∀ᶠ N in atTop, ω ∉ bad N) : Tendsto (fun N => Q.real (bad N)) atTop (𝓝 0) := by
  have hc : ∀ᵐ ω ∂Q, Tendsto (fun N => (bad N).indicator (fun _ => (1 : ℝ)) ω) atTop (𝓝 0) := by
    filter_upwards [h] with ω hω
    refine tendsto_const_nhds.congr' ?_
    filter_upwards [hω] with N hN
    rw [Set.indicator_of_notMem hN]
  have h1 := tendstoInMeasure_of_tendsto_ae (fun N => (measurable_const.indicator (hm N)).aestronglyMeasurable) hc
  rw [tendstoInMeasure_iff_norm] at h1
  have h2 := (ENNReal.tendsto_toReal ENNReal.zero_ne_top).comp (h1 1 one_pos)
  rw [ENNReal.toReal_zero] at h2
  refine h2.congr fun N => ?_
  simp only [Function.comp, measureReal_def]
  congr 2
  ext ω
  by_cases hω : ω ∈ bad N
  · simp [hω]
  · simp [hω]

/-- Two events that differ only on an improbable one have the same limit probability. -/
theorem real_tendsto_of_bad {Ω : Type} [MeasurableSpace Ω] {Q : Measure Ω} [IsProbabilityMeasure Q] {A B bad : ℕ → Set Ω} {l : ℝ}
    (hA : Tendsto (fun N => Q.real (A N)) atTop (𝓝 l)) (hbad : Tendsto (fun N => Q.real (bad N)) atTop (𝓝 0))
    (h : ∀ᶠ N in atTop, ∀ ω, ω ∉ bad N → (ω ∈ A N ↔ ω ∈ B N)) : Tendsto (fun N => Q.real (B N)) atTop (𝓝 l) := by
  have h1 : Tendsto (fun N => Q.real (A N) - Q.real (bad N)) atTop (𝓝 l) := by simpa using hA.sub hbad
  have h2 : Tendsto (fun N => Q.real (A N) + Q.real (bad N)) atTop (𝓝 l) := by simpa using hA.add hbad
  refine tendsto_of_tendsto_of_tendsto_of_le_of_le' h1 h2 ?_ ?_
  · filter_upwards [h] with N hN
    have : Q.real (A N) ≤ Q.real (B N) + Q.real (bad N) := (measureReal_mono (show A N ⊆ B N ∪ bad N from fun ω hω => by
      by_cases hb : ω ∈ bad N
      · exact Or.inr hb
      · exact Or.inl ((hN ω hb).1 hω))).trans (measureReal_union_le _ _)
    linarith
  · filter_upwards [h] with N hN
    exact (measureReal_mono (show B N ⊆ A N ∪ bad N from fun ω hω => by
      by_cases hb : ω ∈ bad N
      · exact Or.inr hb
      · exact Or.inl ((hN ω hb).2 hω))).trans (measureReal_union_le _ _)

section
variable {Ω : Type} [MeasurableSpace Ω] {Q : Measure Ω} [IsProbabilityMeasure Q]

theorem smom_measurable (x e : ℕ → Ω → ℝ) (hx : ∀ i, Measurable (x i)) (he : ∀ i, Measurable (e i)) (m : ℝ) (j k N : ℕ) :
    Measurable fun ω => smom (fun i : Fin N => x i ω) (fun i => e i ω) m j k := by
  unfold smom
  refine (Finset.measurable_sum _ fun i _ => ?_).div_const _
  exact (((hx i).sub_const m).pow_const j).mul ((he i).pow_const k)

/-- The remainder of the expansion of the covariance. -/
theorem bpC_expand (p : ℕ → ℕ → ℝ) (v : ℝ) (hD : bpD p ≠ 0) :
    bpC p = (p 1 2 - v * p 1 0) + p 1 0 * (-(bpR2 p - v) - p 0 1 * ((bpSl p * p 3 0 - 2 * p 2 1 - p 1 0 * (bpIc p * p 1 0 - 2 * p 1 1 + 2 * bpSl p * p 2 0)) / bpD p))
      + p 0 1 * (bpIc p * p 1 0 - 2 * p 1 1 + 2 * bpSl p * p 2 0)
      + p 1 1 * ((bpSl p * p 3 0 - 2 * p 2 1 - p 1 0 * (bpIc p * p 1 0 - 2 * p 1 1 + 2 * bpSl p * p 2 0)) / bpD p) := by
  have hsl : bpSl p = (p 1 1 - p 1 0 * p 0 1) / bpD p := rfl
  have e1 : bpC p = (p 1 2 - v * p 1 0) - p 1 0 * (bpR2 p - v) + bpIc p * (bpIc p * p 1 0 - 2 * p 1 1 + 2 * bpSl p * p 2 0) + bpSl p * (bpSl p * p 3 0 - 2 * p 2 1) := by
    unfold bpC; ring
  set a := bpIc p * p 1 0 - 2 * p 1 1 + 2 * bpSl p * p 2 0
  set b := bpSl p * p 3 0 - 2 * p 2 1
  have e2 : bpIc p = p 0 1 - bpSl p * p 1 0 := rfl
  have e3 : bpIc p * a + bpSl p * b = p 0 1 * a + bpSl p * (b - p 1 0 * a) := by rw [e2]; ring
  rw [e1, add_assoc, e3, hsl]
  ring

/-- Slutsky for a term `√N · u · ε` with `√N · u` converging in distribution and `ε → 0`. -/
theorem slutsky_zero {W ε : ℕ → Ω → ℝ} {v : NNReal} (h : TendstoInDistribution W atTop id (fun _ => Q) (gaussianReal 0 v))
    (hε : ∀ᵐ ω ∂Q, Tendsto (fun N => ε N ω) atTop (𝓝 0)) (hm : ∀ N, Measurable (ε N)) :
    TendstoInMeasure Q (fun N ω => W N ω * ε N ω) atTop (fun _ => 0) :=
  tendstoInMeasure_of_distribution_zero (distribution_mul h hε hm) fun ω => by simp

/-- Mass of a symmetric interval. -/
theorem gauss_Icc_lt_iff {z s : ℝ} (hz : 0 < z) (hs : 0 ≤ s) :
    (gaussianReal 0 1).real (Icc (-z) z) < (gaussianReal 0 1).real (Icc (-s) s) ↔ z < s := by
  have hval : ∀ t : ℝ, 0 < t → (gaussianReal 0 1).real (Icc (-t) t) = 2 * Phi t - 1 := by
    intro t ht
    exact gauss_Icc ht (by ring)
  rcases hs.eq_or_lt with h | h
  · subst h
    have h0 : (gaussianReal 0 1).real (Icc (-0 : ℝ) 0) = 0 := by
      have hns := nullSingletonClass_gaussianReal (μ := 0) (v := 1) one_ne_zero
      simp [measureReal_def]
    rw [h0]
    constructor
    · intro h; exact absurd h (not_lt.2 measureReal_nonneg)
    · intro h; linarith
  · rw [hval z hz, hval s h]
    constructor
    · intro hlt
      by_contra hcon
      have := Phi_strictMono.monotone (not_lt.1 hcon)
      linarith
    · intro hlt
      have := Phi_strictMono hlt
      linarith

/-- **C175.**  Defects and errors independent, the errors centred and of no constant absolute value, fourth moments: the probability that the p-value of
the Breusch-Pagan test falls below `α` tends to `α`, whatever the laws.  `pChi` is the cdf of the chi-square law with one degree of freedom. -/
theorem C175_level (μ ν : Measure ℝ) [IsProbabilityMeasure μ] [IsProbabilityMeasure ν] (x e : ℕ → Ω → ℝ) (hx : ∀ i, Measurable (x i))
    (he : ∀ i, Measurable (e i)) (hlaw : ∀ i, Q.map (fun ω => (x i ω, e i ω)) = μ.prod ν) (hind : iIndepFun (fun i ω => (x i ω, e i ω)) Q)
    (h1 : MemLp (fun t : ℝ => t) 4 μ) (h2 : MemLp (fun t : ℝ => t) 4 ν) (hvar : 0 < Var[fun t : ℝ => t; μ]) (he0 : ∫ t, t ∂ν = 0)
    (hk : (∫ t, t ^ 2 ∂ν) ^ 2 < ∫ t, t ^ 4 ∂ν) (b0 b1 : ℝ)
    (pChi : F ℝ → F ℝ) (hchi : ∀ t, 0 ≤ t → pChi (.fin t) = .fin ((gaussianReal 0 1).real (Icc (-√t) (√t)))) (α : ℝ) (hα : 0 < α) (hα1 : α < 1) :
    Tendsto (fun N => Q.real {ω | ∃ p, breuschPaganPValue pChi (fun i : Fin N => x i ω)
      (olsResiduals (fun i : Fin N => x i ω) fun i => b0 + b1 * x i ω + e i ω) = .fin p ∧ p < α}) atTop (𝓝 α) := by
  have hz : ∀ i, Measurable fun ω => (x i ω, e i ω) := fun i => (hx i).prodMk (he i)
  have mp1 : MeasurePreserving Prod.fst (μ.prod ν) μ := measurePreserving_fst
  have mp2 : MeasurePreserving Prod.snd (μ.prod ν) ν := measurePreserving_snd
  have hf1 : MemLp (Prod.fst : ℝ × ℝ → ℝ) 4 (μ.prod ν) := h1.comp_measurePreserving mp1
  have hf2 : MemLp (Prod.snd : ℝ × ℝ → ℝ) 4 (μ.prod ν) := h2.comp_measurePreserving mp2
  set m := ∫ t, t ∂μ with hm
  set v := ∫ t, t ^ 2 ∂ν with hv
  have m1 : MemLp (fun t : ℝ => t) 2 μ := h1.mono_exponent (by norm_num)
  have m2 : MemLp (fun t : ℝ => t) 2 ν := h2.mono_exponent (by norm_num)
  have hl : ∀ j k, lmom (μ.prod ν) m j k = (∫ t, (t - m) ^ j ∂μ) * ∫ t, t ^ k ∂ν := fun j k =>
    integral_prod_mul (μ := μ) (ν := ν) (fun t => (t - m) ^ j) (fun t => t ^ k)
  have c1 : ∫ t, (t - m) ^ 1 ∂μ = 0 := by
    simp only [pow_one]
    rw [integral_sub (m1.integrable (by norm_num)) (integrable_const _)]
    simp [hm]
  have c2 : ∫ t, (t - m) ^ 2 ∂μ = Var[fun t : ℝ => t; μ] := by
    rw [variance_eq_integral (by fun_prop)]
  have d1 : ∫ t, t ^ 1 ∂ν = 0 := by simpa using he0
  set vx := Var[fun t : ℝ => t; μ] with hvx
  set k4 := ∫ t, t ^ 4 ∂ν with hk4
  have l10 : lmom (μ.prod ν) m 1 0 = 0 := by rw [hl, c1, zero_mul]
  have l01 : lmom (μ.prod ν) m 0 1 = 0 := by rw [hl, d1, mul_zero]
  have l11 : lmom (μ.prod ν) m 1 1 = 0 := by rw [hl, d1, mul_zero]
  have l21 : lmom (μ.prod ν) m 2 1 = 0 := by rw [hl, d1, mul_zero]
  have l20 : lmom (μ.prod ν) m 2 0 = vx := by rw [hl, c2]; simp
  have l02 : lmom (μ.prod ν) m 0 2 = v := by rw [hl]; simp [hv]
  have l04 : lmom (μ.prod ν) m 0 4 = k4 := by rw [hl]; simp [hk4]
  -- the sample moments
  set p : ℕ → Ω → ℕ → ℕ → ℝ := fun N ω => smom (fun i : Fin N => x i ω) (fun i => e i ω) m with hp
  have pm : ∀ j k N, Measurable fun ω => p N ω j k := fun j k N => smom_measurable x e hx he m j k N
  have Dm : ∀ N, Measurable fun ω => bpD (p N ω) := by
    intro N
    have q1 := pm 2 0 N
    have q2 := pm 1 0 N
    unfold bpD; fun_prop
  have Slm : ∀ N, Measurable fun ω => bpSl (p N ω) := by
    intro N
    have q1 := pm 1 1 N
    have q2 := pm 1 0 N
    have q3 := pm 0 1 N
    have q4 := Dm N
    unfold bpSl; fun_prop
  have Icm : ∀ N, Measurable fun ω => bpIc (p N ω) := by
    intro N
    have q2 := pm 1 0 N
    have q3 := pm 0 1 N
    have q4 := Slm N
    unfold bpIc; fun_prop
  have R2m : ∀ N, Measurable fun ω => bpR2 (p N ω) := by
    intro N
    have q1 := pm 1 0 N
    have q2 := pm 0 1 N
    have q3 := pm 1 1 N
    have q4 := pm 2 0 N
    have q5 := pm 0 2 N
    have q6 := Slm N
    have q7 := Icm N
    unfold bpR2; fun_prop
  have R4m : ∀ N, Measurable fun ω => bpR4 (p N ω) := by
    intro N
    have q1 := pm 1 0 N
    have q2 := pm 0 1 N
    have q3 := pm 1 1 N
    have q4 := pm 2 0 N
    have q5 := pm 0 2 N
    have q8 := pm 0 3 N
    have q9 := pm 0 4 N
    have q10 := pm 1 2 N
    have q11 := pm 1 3 N
    have q12 := pm 2 1 N
    have q13 := pm 2 2 N
    have q14 := pm 3 0 N
    have q15 := pm 3 1 N
    have q16 := pm 4 0 N
    have q6 := Slm N
    have q7 := Icm N
    unfold bpR4; fun_prop
  have Cm : ∀ N, Measurable fun ω => bpC (p N ω) := by
    intro N
    have q1 := pm 1 0 N
    have q3 := pm 1 1 N
    have q4 := pm 2 0 N
    have q10 := pm 1 2 N
    have q12 := pm 2 1 N
    have q14 := pm 3 0 N
    have q6 := Slm N
    have q7 := Icm N
    have q8 := R2m N
    unfold bpC; fun_prop
  have hlim := smom_tendsto x e hx he hlaw hind hf1 hf2 m
  have hall : ∀ᵐ ω ∂Q, (∀ j k, j + k ≤ 4 → Tendsto (fun N => p N ω j k) atTop (𝓝 (lmom (μ.prod ν) m j k))) ∧
      Tendsto (fun N => bpD (p N ω)) atTop (𝓝 vx) ∧ Tendsto (fun N => bpSl (p N ω)) atTop (𝓝 0) ∧ Tendsto (fun N => bpIc (p N ω)) atTop (𝓝 0) ∧
      Tendsto (fun N => bpR2 (p N ω)) atTop (𝓝 v) ∧ Tendsto (fun N => bpR4 (p N ω)) atTop (𝓝 k4) := by
    filter_upwards [hlim] with ω hω
    obtain ⟨a1, a2, a3, a4, a5, -⟩ := bp_limits hω l10 l01 l11 (by rw [l20]; exact hvar.ne')
    rw [l20] at a1
    rw [l02] at a4
    rw [l04] at a5
    exact ⟨hω, a1, a2, a3, a4, a5⟩
  -- central limit theorems
  have havg : ∀ j k N ω, avg (fun i ω => (x i ω, e i ω)) (fun w => (w.1 - m) ^ j * w.2 ^ k) N ω = p N ω j k := by
    intro j k N ω
    simp only [avg, hp, smom]
    rw [Fin.sum_univ_eq_sum_range fun i => (x i ω - m) ^ j * e i ω ^ k]
  have sq_mem : ∀ (f g : ℝ → ℝ), Measurable f → Measurable g → MemLp f 2 μ → MemLp g 2 ν → MemLp (fun w : ℝ × ℝ => f w.1 * g w.2) 2 (μ.prod ν) := by
    intro f g hfm hgm hf hg
    rw [memLp_two_iff_integrable_sq (by fun_prop)]
    have := hf.integrable_sq.mul_prod hg.integrable_sq
    refine this.congr (Eventually.of_forall fun w => ?_)
    simp only [mul_pow]
  have mX : MemLp (fun t : ℝ => t - m) 2 μ := m1.sub (memLp_const m)
  have mone : MemLp (fun _ : ℝ => (1 : ℝ)) 2 μ := memLp_const 1
  have mone' : MemLp (fun _ : ℝ => (1 : ℝ)) 2 ν := memLp_const 1
  have i4 : Integrable (fun t : ℝ => t ^ 4) ν := by
    have := h2.integrable_norm_pow (p := 4) (by norm_num)
    refine this.congr (Eventually.of_forall fun w => ?_)
    simp only [Real.norm_eq_abs, ← abs_pow]
    exact abs_of_nonneg (by positivity)
  have mE2 : MemLp (fun t : ℝ => t ^ 2 - v) 2 ν := by
    refine MemLp.sub ?_ (memLp_const v)
    rw [memLp_two_iff_integrable_sq (by fun_prop)]
    refine i4.congr (Eventually.of_forall fun t => ?_)
    ring
  have clt10 := avg_clt hz hlaw hind (f := fun w : ℝ × ℝ => (w.1 - m) ^ 1 * w.2 ^ 0) (by fun_prop)
    (by simpa using sq_mem _ _ (by fun_prop) (by fun_prop) mX mone')
  have clt01 := avg_clt hz hlaw hind (f := fun w : ℝ × ℝ => (w.1 - m) ^ 0 * w.2 ^ 1) (by fun_prop)
    (by simpa using sq_mem _ _ (by fun_prop) (by fun_prop) mone m2)
  have clt11 := avg_clt hz hlaw hind (f := fun w : ℝ × ℝ => (w.1 - m) ^ 1 * w.2 ^ 1) (by fun_prop)
    (by simpa using sq_mem _ _ (by fun_prop) (by fun_prop) mX m2)
  have hFmem := sq_mem (fun t => t - m) (fun t => t ^ 2 - v) (by fun_prop) (by fun_prop) mX mE2
  have cltF := avg_clt hz hlaw hind (f := fun w : ℝ × ℝ => (w.1 - m) * (w.2 ^ 2 - v)) (by fun_prop) hFmem
  have hF0 : ∫ w : ℝ × ℝ, (w.1 - m) * (w.2 ^ 2 - v) ∂(μ.prod ν) = 0 := by
    rw [integral_prod_mul (μ := μ) (ν := ν) (fun t => t - m) (fun t => t ^ 2 - v)]
    simp only [pow_one] at c1
    rw [c1, zero_mul]
  have hFv : Var[fun w : ℝ × ℝ => (w.1 - m) * (w.2 ^ 2 - v); μ.prod ν] = vx * (k4 - v ^ 2) := by
    rw [variance_of_integral_eq_zero (by fun_prop) hF0]
    have e1 : ∀ w : ℝ × ℝ, ((w.1 - m) * (w.2 ^ 2 - v)) ^ 2 = (w.1 - m) ^ 2 * (w.2 ^ 2 - v) ^ 2 := fun w => mul_pow _ _ _
    simp only [e1]
    rw [integral_prod_mul (μ := μ) (ν := ν) (fun t => (t - m) ^ 2) (fun t => (t ^ 2 - v) ^ 2), c2]
    congr 1
    have e2 : ∀ t : ℝ, (t ^ 2 - v) ^ 2 = t ^ 4 - (2 * v) * t ^ 2 + v ^ 2 := by intro t; ring
    simp only [e2]
    have j1 : Integrable (fun t : ℝ => t ^ 4 - (2 * v) * t ^ 2) ν := i4.sub (m2.integrable_sq.const_mul _)
    rw [integral_add j1 (integrable_const _), integral_sub i4 (m2.integrable_sq.const_mul _), integral_const_mul]
    simp only [integral_const, probReal_univ, smul_eq_mul, one_mul, ← hv, ← hk4]
    ring
  simp only [havg] at clt10 clt01 clt11
  have z10 : ∫ w : ℝ × ℝ, (w.1 - m) ^ 1 * w.2 ^ 0 ∂(μ.prod ν) = 0 := l10
  have z01 : ∫ w : ℝ × ℝ, (w.1 - m) ^ 0 * w.2 ^ 1 ∂(μ.prod ν) = 0 := l01
  have z11 : ∫ w : ℝ × ℝ, (w.1 - m) ^ 1 * w.2 ^ 1 ∂(μ.prod ν) = 0 := l11
  rw [z10] at clt10
  rw [z01] at clt01
  rw [z11] at clt11
  rw [hF0, hFv] at cltF
  simp only [sub_zero] at clt10 clt01 clt11 cltF
  have havgF : ∀ N ω, avg (fun i ω => (x i ω, e i ω)) (fun w : ℝ × ℝ => (w.1 - m) * (w.2 ^ 2 - v)) N ω = p N ω 1 2 - v * p N ω 1 0 := by
    intro N ω
    rw [← havg 1 2, ← havg 1 0]
    simp only [avg, ← mul_div_assoc, ← sub_div, Finset.mul_sum, ← Finset.sum_sub_distrib]
    congr 1
    refine Finset.sum_congr rfl fun i _ => ?_
    ring
  simp only [havgF] at cltF
  set a : ℕ → Ω → ℝ := fun N ω => bpIc (p N ω) * p N ω 1 0 - 2 * p N ω 1 1 + 2 * bpSl (p N ω) * p N ω 2 0 with ha
  set b : ℕ → Ω → ℝ := fun N ω => (bpSl (p N ω) * p N ω 3 0 - 2 * p N ω 2 1 - p N ω 1 0 * a N ω) / bpD (p N ω) with hb
  have am : ∀ N, Measurable (a N) := by
    intro N
    have q1 := pm 1 0 N
    have q3 := pm 1 1 N
    have q4 := pm 2 0 N
    have q6 := Slm N
    have q7 := Icm N
    simp only [ha]; fun_prop
  have bm : ∀ N, Measurable (b N) := by
    intro N
    have q1 := pm 1 0 N
    have q3 := pm 3 0 N
    have q4 := pm 2 1 N
    have q6 := Slm N
    have q7 := am N
    have q8 := Dm N
    simp only [hb]; fun_prop
  have a0 : ∀ᵐ ω ∂Q, Tendsto (fun N => a N ω) atTop (𝓝 0) := by
    filter_upwards [hall] with ω ⟨w1, w2, w3, w4, w5, w6⟩
    have := ((w4.mul (w1 1 0 (by norm_num))).sub ((w1 1 1 (by norm_num)).const_mul 2)).add ((w3.const_mul 2).mul (w1 2 0 (by norm_num)))
    rw [l11] at this
    simpa [ha] using this
  have b0' : ∀ᵐ ω ∂Q, Tendsto (fun N => b N ω) atTop (𝓝 0) := by
    filter_upwards [hall, a0] with ω ⟨w1, w2, w3, w4, w5, w6⟩ wa
    have := (((w3.mul (w1 3 0 (by norm_num))).sub ((w1 2 1 (by norm_num)).const_mul 2)).sub ((w1 1 0 (by norm_num)).mul wa)).div w2 hvar.ne'
    rw [l21] at this
    simp only [zero_mul, mul_zero, sub_zero, zero_div] at this
    exact this
  set ε1 : ℕ → Ω → ℝ := fun N ω => -(bpR2 (p N ω) - v) - p N ω 0 1 * b N ω with hε1
  have ε1m : ∀ N, Measurable (ε1 N) := by
    intro N
    have q1 := pm 0 1 N
    have q2 := R2m N
    have q3 := bm N
    simp only [hε1]; fun_prop
  have ε10 : ∀ᵐ ω ∂Q, Tendsto (fun N => ε1 N ω) atTop (𝓝 0) := by
    filter_upwards [hall, b0'] with ω ⟨w1, w2, w3, w4, w5, w6⟩ wb
    have := ((w5.sub_const v).neg).sub ((w1 0 1 (by norm_num)).mul wb)
    simpa [hε1] using this
  have k1 := slutsky_zero clt10 ε10 ε1m
  have k2 := slutsky_zero clt01 a0 am
  have k3 := slutsky_zero clt11 b0' bm
  have hsum := ((cltF.add_of_tendstoInMeasure_const k1 fun N => ?_).add_of_tendstoInMeasure_const k2 fun N => ?_).add_of_tendstoInMeasure_const k3 fun N => ?_
  rotate_left
  · have q1 := pm 1 0 N
    have q2 := ε1m N
    fun_prop
  · have q1 := pm 0 1 N
    have q2 := am N
    fun_prop
  · have q1 := pm 1 1 N
    have q2 := bm N
    fun_prop
  have V0 : 0 < vx * (k4 - v ^ 2) := mul_pos hvar (by linarith)
  set V := vx * (k4 - v ^ 2) with hV
  set Y : ℕ → Ω → ℝ := fun N ω => (√(bpD (p N ω) * (bpR4 (p N ω) - bpR2 (p N ω) ^ 2)))⁻¹ with hY
  have Ym : ∀ N, Measurable (Y N) := by
    intro N
    have q1 := Dm N
    have q2 := R4m N
    have q3 := R2m N
    simp only [hY]
    exact ((q1.mul (q2.sub (q3.pow_const 2))).sqrt).inv
  have Ys : ∀ᵐ ω ∂Q, Tendsto (fun N => Y N ω) atTop (𝓝 (√V)⁻¹) := by
    filter_upwards [hall] with ω ⟨w1, w2, w3, w4, w5, w6⟩
    exact ((w2.mul (w6.sub (w5.pow 2))).sqrt).inv₀ (Real.sqrt_pos.mpr V0).ne'
  have hT := distribution_mul hsum Ys Ym
  obtain ⟨z, hz⟩ := Phi_surj (p := (1 + (1 - α)) / 2) (by linarith) (by linarith)
  have hz0 : 0 < z := by
    by_contra hcon
    have := Phi_strictMono.monotone (not_lt.1 hcon)
    rw [Phi_zero] at this
    linarith
  have hmass := gauss_Icc hz0 hz
  have hint := distribution_interval hT (by
    simp only [id, add_zero]
    rw [gaussianReal_map_mul_const]
    congr 1
    · simp
    · ext
      push_cast
      rw [Real.coe_toNNReal _ V0.le]
      have := Real.sq_sqrt V0.le
      simp only [inv_pow, this]
      exact inv_mul_cancel₀ V0.ne') z
  rw [hmass] at hint
  set T : ℕ → Ω → ℝ := fun N ω => (√N * bpC (p N ω)) * Y N ω with hTd
  have Tm : ∀ N, Measurable (T N) := fun N => ((Cm N).const_mul _).mul (Ym N)
  set bad : ℕ → Set Ω := fun N => {ω | ¬ (0 < bpD (p N ω) ∧ 0 < bpR4 (p N ω) - bpR2 (p N ω) ^ 2)} with hbad
  have badm : ∀ N, MeasurableSet (bad N) := fun N =>
    ((measurableSet_lt measurable_const (Dm N)).inter (measurableSet_lt measurable_const ((R4m N).sub ((R2m N).pow_const 2)))).compl
  have bad0 : Tendsto (fun N => Q.real (bad N)) atTop (𝓝 0) := by
    refine bad_tendsto bad badm ?_
    filter_upwards [hall] with ω ⟨w1, w2, w3, w4, w5, w6⟩
    filter_upwards [w2.eventually (lt_mem_nhds hvar), (w6.sub (w5.pow 2)).eventually (lt_mem_nhds (show 0 < k4 - v ^ 2 by linarith))] with N g1 g2
    simp only [hbad, mem_ofPred_eq, not_not]
    exact ⟨g1, g2⟩
  have hint' : Tendsto (fun N => Q.real {ω | |T N ω| ≤ z}) atTop (𝓝 (1 - α)) := by
    refine real_tendsto_of_bad hint bad0 (Eventually.of_forall fun N ω hω => ?_)
    simp only [hbad, mem_ofPred_eq, not_not] at hω
    simp only [mem_ofPred_eq, Pi.add_apply]
    have : √(N : ℝ) * bpC (p N ω) = √N * (p N ω 1 2 - v * p N ω 1 0) + √N * p N ω 1 0 * ε1 N ω + √N * p N ω 0 1 * a N ω + √N * p N ω 1 1 * b N ω := by
      rw [bpC_expand (p N ω) v hω.1.ne']
      simp only [hε1, hb, ha]
      ring
    rw [hTd]
    simp only [this]
  have hcomp : Tendsto (fun N => Q.real {ω | z < |T N ω|}) atTop (𝓝 α) := by
    have := hint'.const_sub 1
    rw [sub_sub_cancel] at this
    refine this.congr fun N => ?_
    have hms : MeasurableSet {ω | |T N ω| ≤ z} := measurableSet_le (by simpa only [Real.norm_eq_abs] using (Tm N).norm) measurable_const
    rw [← probReal_compl_eq_one_sub hms]
    congr 1
    ext ω
    simp
  refine real_tendsto_of_bad hcomp bad0 ?_
  filter_upwards [eventually_gt_atTop 0] with N hN ω hω
  simp only [hbad, mem_ofPred_eq, not_not] at hω
  obtain ⟨g1, g2⟩ := hω
  have hst := bp_stat (fun i : Fin N => x i ω) (fun i => e i ω) m b0 b1 hN g1.ne' g2.ne' pChi
  change z < |T N ω| ↔ ∃ q, breuschPaganPValue pChi (fun i : Fin N => x i ω)
    (olsResiduals (fun i : Fin N => x i ω) fun i => b0 + b1 * x i ω + e i ω) = .fin q ∧ q < α
  rw [hst]
  have hstat : (N : ℝ) * bpC (p N ω) ^ 2 / (bpD (p N ω) * (bpR4 (p N ω) - bpR2 (p N ω) ^ 2)) = T N ω ^ 2 := by
    simp only [hTd, hY]
    rw [mul_pow, mul_pow, inv_pow, Real.sq_sqrt (by positivity), Real.sq_sqrt (mul_pos g1 g2).le]
    rfl
  have hstat' : (N : ℝ) * bpC (smom (fun i : Fin N => x i ω) (fun i => e i ω) m) ^ 2 / (bpD (smom (fun i : Fin N => x i ω) (fun i => e i ω) m) *
      (bpR4 (smom (fun i : Fin N => x i ω) (fun i => e i ω) m) - bpR2 (smom (fun i : Fin N => x i ω) (fun i => e i ω) m) ^ 2)) = T N ω ^ 2 := hstat
  rw [hstat', hchi _ (sq_nonneg _), Real.sqrt_sq_eq_abs, ← gauss_Icc_lt_iff hz0 (abs_nonneg _), hmass]
  constructor
  · intro h
    exact ⟨_, rfl, by linarith⟩
  · rintro ⟨q, hq, hlt⟩
    have hq' : F.fin (1 - (gaussianReal 0 1).real (Icc (-|T N ω|) |T N ω|)) = .fin q := hq
    rw [F.fin.injEq] at hq'
    linarith

end
/-- Normal defects and normal errors. -/
example (pChi : F ℝ → F ℝ) (hchi : ∀ t, 0 ≤ t → pChi (.fin t) = .fin ((gaussianReal 0 1).real (Icc (-√t) (√t)))) :
    Tendsto (fun N => (Measure.infinitePi fun _ : ℕ => (gaussianReal 0 1).prod (gaussianReal 0 1)).real
      {ω | ∃ p, breuschPaganPValue pChi (fun i : Fin N => (ω i).1)
        (olsResiduals (fun i : Fin N => (ω i).1) fun i => 3 + 2 * (ω i).1 + (ω i).2) = .fin p ∧ p < 1 / 20}) atTop (𝓝 (1 / 20)) := by
  set g := gaussianReal 0 1 with hg
  have hid : MemLp (fun t : ℝ => t) 4 g := memLp_id_gaussianReal 4
  have hid2 : MemLp (fun t : ℝ => t) 2 g := memLp_id_gaussianReal 2
  have e0 : ∫ t, t ∂g = 0 := integral_id_gaussianReal
  have v1 : Var[fun t : ℝ => t; g] = 1 := by rw [hg, variance_fun_id_gaussianReal]; rfl
  have sq1 : ∫ t, t ^ 2 ∂g = 1 := by
    have := variance_eq_sub hid2
    rw [v1] at this
    simp [e0] at this
    exact this.symm
  have i2 : Integrable (fun t : ℝ => t ^ 2) g := hid2.integrable_sq
  have i4 : Integrable (fun t : ℝ => t ^ 4) g := by
    have := hid.integrable_norm_pow (by norm_num)
    refine this.congr (Eventually.of_forall fun t => ?_)
    simp only [Real.norm_eq_abs]
    exact Even.pow_abs (by decide) t
  have hk : (∫ t, t ^ 2 ∂g) ^ 2 < ∫ t, t ^ 4 ∂g := by
    have hs : ∫ t, (t ^ 2 - 1) ^ 2 ∂g = ∫ t, t ^ 4 ∂g - 1 := by
      have : (fun t : ℝ => (t ^ 2 - 1) ^ 2) = fun t => t ^ 4 - (2 * t ^ 2 - 1) := by funext t; ring
      have hi2 : Integrable (fun t : ℝ => 2 * t ^ 2 - 1) g := (i2.const_mul 2).sub (integrable_const 1)
      rw [this, integral_sub i4 hi2, integral_sub (i2.const_mul 2) (integrable_const 1),
        integral_const_mul, sq1]
      simp
      norm_num
    have hi : Integrable (fun t : ℝ => (t ^ 2 - 1) ^ 2) g := by
      have : (fun t : ℝ => (t ^ 2 - 1) ^ 2) = fun t => t ^ 4 - (2 * t ^ 2 - 1) := by funext t; ring
      rw [this]
      exact i4.sub ((i2.const_mul 2).sub (integrable_const 1))
    have hpos : 0 < ∫ t, (t ^ 2 - 1) ^ 2 ∂g := by
      rw [integral_pos_iff_support_of_nonneg (fun t => sq_nonneg _) hi]
      have hna := nullSingletonClass_gaussianReal (μ := 0) (v := 1) one_ne_zero
      have : Function.support (fun t : ℝ => (t ^ 2 - 1) ^ 2) = ({1, -1} : Set ℝ)ᶜ := by
        ext t
        simp only [Function.mem_support, ne_eq, pow_eq_zero_iff two_ne_zero, sub_eq_zero, mem_compl_iff, mem_insert_iff,
          mem_singleton_iff, sq_eq_one_iff]
      rw [this, prob_compl_eq_one_sub (by measurability), Set.Finite.measure_zero (by simp) g]
      simp
    rw [sq1]
    linarith
  exact C175_level (Q := Measure.infinitePi fun _ : ℕ => g.prod g) g g (fun i ω => (ω i).1) (fun i ω => (ω i).2)
    (fun i => measurable_fst.comp (measurable_pi_apply i)) (fun i => measurable_snd.comp (measurable_pi_apply i))
    (fun i => (measurePreserving_eval_infinitePi (fun _ : ℕ => g.prod g) i).map_eq)
    (iIndepFun_infinitePi (P := fun _ : ℕ => g.prod g) (X := fun _ w => w) (fun _ => measurable_id))
    hid hid (by rw [v1]; exact one_pos) e0 hk 3 2 pChi hchi (1 / 20) (by norm_num) (by norm_num)

end Verif.Props
