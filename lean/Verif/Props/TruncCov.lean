import Verif.Props.CensoredZeroMean

/-!
# Covariance of the size and the error on the kept observations
-/

namespace Verif.Props
open Verif.Model Verif.Py MeasureTheory ProbabilityTheory Filter Set Topology

theorem keptSig_between (noise sat : Option ℝ) {a b c : ℝ} (ha : a ∈ keptSig noise sat) (hc : c ∈ keptSig noise sat) (h1 : a ≤ b) (h2 : b ≤ c) :
    b ∈ keptSig noise sat := ⟨fun t ht => lt_of_lt_of_le (ha.1 t ht) h1, fun t ht => lt_of_le_of_lt h2 (hc.2 t ht)⟩

/-- Two windows of errors, for the centres `y0 < y1`: values of the errors kept for the one but not for the other. -/
theorem window_values (noise sat : Option ℝ) (hts : ∀ t ∈ noise, ∀ u ∈ sat, t < u) (hthr : noise.isSome ∨ sat.isSome) {y0 y1 : ℝ} (hy : y0 < y1) :
    ∃ l h l' h' : ℝ, l < h ∧ l' < h' ∧ ∀ e, l < e → e < h → ∀ e', l' < e' → e' < h' → e' < e ∧ y0 + e ∈ keptSig noise sat ∧
      y1 + e' ∈ keptSig noise sat ∧ ¬ (y0 + e' ∈ keptSig noise sat ∧ y1 + e ∈ keptSig noise sat) := by
  rcases noise with _ | t
  · rcases sat with _ | u
    · simp at hthr
    · refine ⟨u - y1, u - y0, u - y1 - 1, u - y1, by linarith, by linarith, fun e h1 h2 e' h3 h4 => ⟨by linarith, ⟨by simp, ?_⟩, ⟨by simp, ?_⟩, ?_⟩⟩
      · rintro _ ⟨⟩; linarith
      · rintro _ ⟨⟩; linarith
      · rintro ⟨-, -, h⟩
        have := h u rfl
        linarith
  · have hup : ∃ c, t < c ∧ ∀ u ∈ sat, c ≤ u := by
      rcases sat with _ | u
      · exact ⟨t + 1, by linarith, by simp⟩
      · exact ⟨u, hts t rfl u rfl, by rintro _ ⟨⟩; exact le_rfl⟩
    obtain ⟨c, hc, hcu⟩ := hup
    refine ⟨t - y0, c - y0, t - y1, min (t - y0) (c - y1), by linarith, lt_min (by linarith) (by linarith), fun e h1 h2 e' h3 h4 => ?_⟩
    obtain ⟨h5, h6⟩ := lt_min_iff.1 h4
    refine ⟨by linarith, ⟨?_, ?_⟩, ⟨?_, ?_⟩, ?_⟩
    · rintro _ ⟨⟩; linarith
    · intro u hu; have := hcu u hu; linarith
    · rintro _ ⟨⟩; linarith
    · intro u hu; have := hcu u hu; linarith
    · rintro ⟨⟨h, -⟩, -⟩
      have := h t rfl
      linarith

/-- The mean of the kept errors is smaller for the larger centre. -/
theorem window_mean (s : ℝ) (hs : 0 < s) (noise sat : Option ℝ) (hts : ∀ t ∈ noise, ∀ u ∈ sat, t < u) (hthr : noise.isSome ∨ sat.isSome) {y0 y1 : ℝ}
    (hy : y0 < y1) :
    (∫ e, {e : ℝ | y0 + e ∈ keptSig noise sat}.indicator (fun _ => (1 : ℝ)) e ∂gaussianReal 0 (sqv s))
        * (∫ e, {e : ℝ | y1 + e ∈ keptSig noise sat}.indicator (fun e => e) e ∂gaussianReal 0 (sqv s)) <
      (∫ e, {e : ℝ | y0 + e ∈ keptSig noise sat}.indicator (fun e => e) e ∂gaussianReal 0 (sqv s))
        * ∫ e, {e : ℝ | y1 + e ∈ keptSig noise sat}.indicator (fun _ => (1 : ℝ)) e ∂gaussianReal 0 (sqv s) := by
  classical
  set γ := gaussianReal 0 (sqv s) with hγ
  set I := keptSig noise sat with hI
  have hIm : MeasurableSet I := keptSig_meas noise sat
  set J := {e : ℝ | y0 + e ∈ I} with hJ
  set J' := {e : ℝ | y1 + e ∈ I} with hJ'
  have hJm : MeasurableSet J := hIm.preimage (by fun_prop : Measurable fun e : ℝ => y0 + e)
  have hJm' : MeasurableSet J' := hIm.preimage (by fun_prop : Measurable fun e : ℝ => y1 + e)
  have hid : Integrable (fun e : ℝ => e) γ := (memLp_id_gaussianReal 2 : MemLp (fun t : ℝ => t) 2 γ).integrable (by norm_num)
  have h1 : Integrable (fun _ : ℝ => (1 : ℝ)) γ := integrable_const 1
  set f1 := J.indicator (fun e : ℝ => e) with hf1
  set f0 := J.indicator (fun _ : ℝ => (1 : ℝ)) with hf0
  set g1 := J'.indicator (fun e : ℝ => e) with hg1
  set g0 := J'.indicator (fun _ : ℝ => (1 : ℝ)) with hg0
  have iA : Integrable (fun w : ℝ × ℝ => f1 w.1 * g0 w.2) (γ.prod γ) := (hid.indicator hJm).mul_prod (h1.indicator hJm')
  have iB : Integrable (fun w : ℝ × ℝ => f0 w.1 * g1 w.2) (γ.prod γ) := (h1.indicator hJm).mul_prod (hid.indicator hJm')
  set k : ℝ × ℝ → ℝ := fun w => f1 w.1 * g0 w.2 - f0 w.1 * g1 w.2 with hk
  have ik : Integrable k (γ.prod γ) := iA.sub iB
  have hkint : ∫ w, k w ∂(γ.prod γ) = (∫ e, f1 e ∂γ) * (∫ e, g0 e ∂γ) - (∫ e, f0 e ∂γ) * ∫ e, g1 e ∂γ := by
    rw [hk, integral_sub iA iB]
    congr 1
    · exact integral_prod_mul f1 g0
    · exact integral_prod_mul f0 g1
  have hsw : ∫ w, k w.swap ∂(γ.prod γ) = ∫ w, k w ∂(γ.prod γ) := integral_prod_swap k
  have iks : Integrable (fun w : ℝ × ℝ => k w.swap) (γ.prod γ) := ik.swap
  have hval : ∀ w : ℝ × ℝ, k w + k w.swap = (w.1 - w.2) * ((if w.1 ∈ J ∧ w.2 ∈ J' then 1 else 0) - if w.2 ∈ J ∧ w.1 ∈ J' then 1 else 0) := by
    intro w
    simp only [hk, hf1, hf0, hg1, hg0, indicator_apply, Prod.fst_swap, Prod.snd_swap]
    by_cases a : w.1 ∈ J <;> by_cases b : w.2 ∈ J <;> by_cases c : w.1 ∈ J' <;> by_cases d : w.2 ∈ J' <;> simp [a, b, c, d] <;> ring
  have hnn : ∀ w : ℝ × ℝ, 0 ≤ k w + k w.swap := by
    intro w
    rw [hval]
    rcases le_total w.2 w.1 with hle | hle
    · refine mul_nonneg (by linarith) ?_
      split_ifs with p q q
      · norm_num
      · norm_num
      · refine absurd ⟨?_, ?_⟩ p
        · exact keptSig_between noise sat q.1 q.2 (by linarith) (by linarith)
        · exact keptSig_between noise sat q.1 q.2 (by linarith) (by linarith)
      · norm_num
    · refine mul_nonneg_of_nonpos_of_nonpos (by linarith) ?_
      split_ifs with p q q
      · norm_num
      · refine absurd ⟨?_, ?_⟩ q
        · exact keptSig_between noise sat p.1 p.2 (by linarith) (by linarith)
        · exact keptSig_between noise sat p.1 p.2 (by linarith) (by linarith)
      · norm_num
      · norm_num
  obtain ⟨l, h, l', h', hlh, hlh', hw⟩ := window_values noise sat hts hthr hy
  have hpos : 0 < ∫ w, (k w + k w.swap) ∂(γ.prod γ) := by
    rw [integral_pos_iff_support_of_nonneg hnn (ik.add iks)]
    have hsub : Ioo l h ×ˢ Ioo l' h' ⊆ Function.support fun w : ℝ × ℝ => k w + k w.swap := by
      rintro ⟨e, e'⟩ ⟨⟨p1, p2⟩, p3, p4⟩
      obtain ⟨r1, r2, r3, r4⟩ := hw e p1 p2 e' p3 p4
      rw [Function.mem_support, hval, if_pos (show (e, e').1 ∈ J ∧ (e, e').2 ∈ J' from ⟨r2, r3⟩), if_neg (show ¬ ((e, e').2 ∈ J ∧ (e, e').1 ∈ J') from r4)]
      simp only
      rw [sub_zero, mul_one]
      exact (sub_pos.2 r1).ne'
    refine lt_of_lt_of_le ?_ (measure_mono hsub)
    rw [Measure.prod_prod]
    have hv : sqv s ≠ 0 := by
      intro h
      have := coe_sqv s
      rw [h] at this
      have h2 : s ^ 2 = 0 := by simpa using this.symm
      exact hs.ne' (pow_eq_zero_iff two_ne_zero |>.1 h2)
    have hop := gaussianReal_absolutelyContinuous' 0 hv
    have hpI : ∀ p q : ℝ, p < q → 0 < γ (Ioo p q) := by
      intro p q hpq
      rw [pos_iff_ne_zero]
      intro h0
      have := hop h0
      rw [Real.volume_Ioo, ENNReal.ofReal_eq_zero] at this
      linarith
    exact ENNReal.mul_pos (hpI _ _ hlh).ne' (hpI _ _ hlh').ne'
  rw [integral_add ik iks, hsw, hkint] at hpos
  linarith

section
variable {ν : Measure ℝ} [IsProbabilityMeasure ν]

/-- The sizes take different values. -/
theorem sizes_differ (hv : 0 < Var[fun t : ℝ => t; ν]) : 0 < (ν.prod ν) {w : ℝ × ℝ | w.1 ≠ w.2} := by
  rw [pos_iff_ne_zero]
  intro h0
  have hae : ∀ᵐ w ∂(ν.prod ν), w.1 = w.2 := by
    rw [ae_iff]; exact h0
  obtain ⟨a, ha⟩ := (Measure.ae_ae_of_ae_prod hae).exists
  have hc : (fun t : ℝ => t) =ᵐ[ν] fun _ => a := by
    filter_upwards [ha] with t ht using ht.symm
  rw [variance_congr hc] at hv
  simp [variance, evariance] at hv

/-- On the kept observations the covariance of the size and the error has the sign opposite to the slope. -/
theorem kept_cov (b0 b1 s : ℝ) (hs : 0 < s) (hν : MemLp (fun t : ℝ => t) 2 ν) (hv : 0 < Var[fun t : ℝ => t; ν]) (hb : b1 ≠ 0) (noise sat : Option ℝ)
    (hts : ∀ t ∈ noise, ∀ u ∈ sat, t < u) (hthr : noise.isSome ∨ sat.isSome) :
    b1 * ((ν.prod (gaussianReal 0 (sqv s))).real (keptSet b0 b1 noise sat)
        * (∫ w, (keptSet b0 b1 noise sat).indicator (fun w => w.1 * w.2) w ∂(ν.prod (gaussianReal 0 (sqv s))))
      - (∫ w, (keptSet b0 b1 noise sat).indicator Prod.fst w ∂(ν.prod (gaussianReal 0 (sqv s))))
        * ∫ w, (keptSet b0 b1 noise sat).indicator Prod.snd w ∂(ν.prod (gaussianReal 0 (sqv s)))) < 0 := by
  classical
  set γ := gaussianReal 0 (sqv s) with hγ
  set P := ν.prod γ with hP
  set K := keptSet b0 b1 noise sat with hK
  have hKm : MeasurableSet K := keptSet_meas b0 b1 noise sat
  have h2m : MemLp (Prod.snd : ℝ × ℝ → ℝ) 2 P := gauss_memLp s
  have h1m : MemLp (Prod.fst : ℝ × ℝ → ℝ) 2 P := size_memLp s hν
  have i2 : Integrable (Prod.snd : ℝ × ℝ → ℝ) P := h2m.integrable (by norm_num)
  have i1 : Integrable (Prod.fst : ℝ × ℝ → ℝ) P := h1m.integrable (by norm_num)
  have i12 : Integrable (fun w : ℝ × ℝ => w.1 * w.2) P := h1m.integrable_mul h2m
  set A : ℝ → ℝ := fun x => ∫ e, {e : ℝ | (b0 + b1 * x) + e ∈ keptSig noise sat}.indicator (fun _ => (1 : ℝ)) e ∂γ with hA
  set E : ℝ → ℝ := fun x => ∫ e, {e : ℝ | (b0 + b1 * x) + e ∈ keptSig noise sat}.indicator (fun e => e) e ∂γ with hE
  have sect : ∀ (f : ℝ × ℝ → ℝ) (x e : ℝ), K.indicator f (x, e) = {e : ℝ | (b0 + b1 * x) + e ∈ keptSig noise sat}.indicator (fun e => f (x, e)) e := by
    intro f x e
    by_cases h : (x, e) ∈ K
    · rw [indicator_of_mem h, indicator_of_mem (show e ∈ {e : ℝ | (b0 + b1 * x) + e ∈ keptSig noise sat} from h)]
    · rw [indicator_of_notMem h, indicator_of_notMem (show e ∉ {e : ℝ | (b0 + b1 * x) + e ∈ keptSig noise sat} from h)]
  have d0 : (fun x => ∫ e, K.indicator (fun _ => (1 : ℝ)) (x, e) ∂γ) = A := by
    funext x; simp only [sect, hA]
  have d2 : (fun x => ∫ e, K.indicator Prod.snd (x, e) ∂γ) = E := by
    funext x; simp only [sect, hE]
  have d1 : (fun x => ∫ e, K.indicator Prod.fst (x, e) ∂γ) = fun x => x * A x := by
    funext x
    simp only [hA]
    rw [← integral_const_mul]
    refine integral_congr_ae (Eventually.of_forall fun e => ?_)
    simp only [sect, indicator_apply, mul_ite, mul_one, mul_zero]
  have d12 : (fun x => ∫ e, K.indicator (fun w => w.1 * w.2) (x, e) ∂γ) = fun x => x * E x := by
    funext x
    simp only [hE]
    rw [← integral_const_mul]
    refine integral_congr_ae (Eventually.of_forall fun e => ?_)
    simp only [sect, indicator_apply, mul_ite, mul_zero]
  have j0 : Integrable A ν := by rw [← d0]; exact ((integrable_const (1 : ℝ)).indicator hKm : Integrable (K.indicator fun _ => (1 : ℝ)) P).integral_prod_left
  have j1 : Integrable (fun x => x * A x) ν := by rw [← d1]; exact (i1.indicator hKm).integral_prod_left
  have j2 : Integrable E ν := by rw [← d2]; exact (i2.indicator hKm).integral_prod_left
  have j12 : Integrable (fun x => x * E x) ν := by rw [← d12]; exact (i12.indicator hKm).integral_prod_left
  have e0 : P.real K = ∫ x, A x ∂ν := by
    rw [← d0, ← integral_prod _ ((integrable_const (1 : ℝ)).indicator hKm), integral_indicator hKm, setIntegral_const, smul_eq_mul, mul_one]
  have e1 : ∫ w, K.indicator Prod.fst w ∂P = ∫ x, x * A x ∂ν := by rw [hP, integral_prod _ (i1.indicator hKm), d1]
  have e2 : ∫ w, K.indicator Prod.snd w ∂P = ∫ x, E x ∂ν := by rw [hP, integral_prod _ (i2.indicator hKm), d2]
  have e12 : ∫ w, K.indicator (fun w => w.1 * w.2) w ∂P = ∫ x, x * E x ∂ν := by rw [hP, integral_prod _ (i12.indicator hKm), d12]
  rw [e0, e1, e2, e12]
  have p1 : Integrable (fun w : ℝ × ℝ => w.1 * E w.1 * A w.2) (ν.prod ν) := j12.mul_prod j0
  have p2 : Integrable (fun w : ℝ × ℝ => w.1 * A w.1 * E w.2) (ν.prod ν) := j1.mul_prod j2
  have p3 : Integrable (fun w : ℝ × ℝ => E w.1 * (w.2 * A w.2)) (ν.prod ν) := j2.mul_prod j1
  have p4 : Integrable (fun w : ℝ × ℝ => A w.1 * (w.2 * E w.2)) (ν.prod ν) := j0.mul_prod j12
  set G : ℝ × ℝ → ℝ := fun w => w.1 * E w.1 * A w.2 - w.1 * A w.1 * E w.2 - (E w.1 * (w.2 * A w.2) - A w.1 * (w.2 * E w.2)) with hG
  have iG : Integrable G (ν.prod ν) := (p1.sub p2).sub (p3.sub p4)
  have hGi : ∫ w, G w ∂(ν.prod ν) = 2 * ((∫ x, A x ∂ν) * (∫ x, x * E x ∂ν) - (∫ x, x * A x ∂ν) * ∫ x, E x ∂ν) := by
    have q12 : Integrable (fun w : ℝ × ℝ => w.1 * E w.1 * A w.2 - w.1 * A w.1 * E w.2) (ν.prod ν) := p1.sub p2
    have q34 : Integrable (fun w : ℝ × ℝ => E w.1 * (w.2 * A w.2) - A w.1 * (w.2 * E w.2)) (ν.prod ν) := p3.sub p4
    rw [hG, integral_sub q12 q34, integral_sub p1 p2, integral_sub p3 p4]
    rw [(integral_prod_mul (fun x => x * E x) A : ∫ w : ℝ × ℝ, w.1 * E w.1 * A w.2 ∂(ν.prod ν) = _),
      (integral_prod_mul (fun x => x * A x) E : ∫ w : ℝ × ℝ, w.1 * A w.1 * E w.2 ∂(ν.prod ν) = _),
      (integral_prod_mul E (fun x => x * A x) : ∫ w : ℝ × ℝ, E w.1 * (w.2 * A w.2) ∂(ν.prod ν) = _),
      (integral_prod_mul A (fun x => x * E x) : ∫ w : ℝ × ℝ, A w.1 * (w.2 * E w.2) ∂(ν.prod ν) = _)]
    ring
  have hmono : ∀ x x' : ℝ, b0 + b1 * x < b0 + b1 * x' → A x * E x' < E x * A x' := fun x x' h => window_mean s hs noise sat hts hthr h
  have hGv : ∀ w : ℝ × ℝ, G w = (w.1 - w.2) * (E w.1 * A w.2 - A w.1 * E w.2) := fun w => by simp only [hG]; ring
  have hneg : ∀ w : ℝ × ℝ, w.1 ≠ w.2 → 0 < -(b1 * G w) := by
    intro w hw
    rw [hGv]
    have hne : b1 * (w.1 - w.2) ≠ 0 := mul_ne_zero hb (sub_ne_zero.2 hw)
    rcases lt_or_gt_of_ne hne with h | h
    · have := hmono w.1 w.2 (by linarith)
      nlinarith
    · have := hmono w.2 w.1 (by linarith)
      nlinarith
  have hnn : ∀ w : ℝ × ℝ, 0 ≤ -(b1 * G w) := by
    intro w
    by_cases h : w.1 = w.2
    · rw [hGv, h]; simp
    · exact (hneg w h).le
  have hpos : 0 < ∫ w, -(b1 * G w) ∂(ν.prod ν) := by
    rw [integral_pos_iff_support_of_nonneg hnn (iG.const_mul b1).neg]
    exact lt_of_lt_of_le (sizes_differ hv) (measure_mono fun w hw => (hneg w hw).ne')
  rw [integral_neg, integral_const_mul, hGi] at hpos
  linarith

end

end Verif.Props
