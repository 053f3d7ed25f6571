import Verif.Props.BpMoments
import Verif.Props.KernelPod

/-!
# C174, C175: power and level of the Breusch-Pagan test for large samples (/repo/otpod/_math_tools.py 137-151)
-/

namespace Verif.Props
open Verif.Py Verif.Model MeasureTheory ProbabilityTheory Filter Topology Set

theorem pow_dominated (a b : ℝ) (j k : ℕ) (h : j + k ≤ 4) : |a ^ j * b ^ k| ≤ 1 + a ^ 4 + b ^ 4 := by
  rw [abs_mul, abs_pow, abs_pow]
  set t := max 1 (max |a| |b|) with ht
  have h1 : 1 ≤ t := le_max_left _ _
  have ha : |a| ≤ t := (le_max_left _ _).trans (le_max_right _ _)
  have hb : |b| ≤ t := (le_max_right _ _).trans (le_max_right _ _)
  have : |a| ^ j * |b| ^ k ≤ t ^ 4 := calc
    |a| ^ j * |b| ^ k ≤ t ^ j * t ^ k := by gcongr
    _ = t ^ (j + k) := (pow_add _ _ _).symm
    _ ≤ t ^ 4 := pow_le_pow_right₀ h1 h
  have ha4 : |a| ^ 4 = a ^ 4 := by rw [← abs_pow]; exact abs_of_nonneg (by positivity)
  have hb4 : |b| ^ 4 = b ^ 4 := by rw [← abs_pow]; exact abs_of_nonneg (by positivity)
  have pa : 0 ≤ a ^ 4 := by positivity
  have pb : 0 ≤ b ^ 4 := by positivity
  have ht4 : t ^ 4 ≤ 1 + a ^ 4 + b ^ 4 := by
    rcases max_choice 1 (max |a| |b|) with h' | h'
    · rw [ht, h']; linarith
    · rw [ht, h']
      rcases max_choice |a| |b| with h'' | h''
      · rw [h'', ha4]; linarith
      · rw [h'', hb4]; linarith
  linarith

section
variable {Ω : Type} [MeasurableSpace Ω] {Q : Measure Ω} [IsProbabilityMeasure Q] {P : Measure (ℝ × ℝ)} [IsProbabilityMeasure P]

theorem mom_integrable (h1 : MemLp Prod.fst 4 P) (h2 : MemLp Prod.snd 4 P) (m : ℝ) (j k : ℕ) (h : j + k ≤ 4) :
    Integrable (fun w : ℝ × ℝ => (w.1 - m) ^ j * w.2 ^ k) P := by
  have a1 : MemLp (fun w : ℝ × ℝ => w.1 - m) 4 P := h1.sub (memLp_const m)
  have i1 : Integrable (fun w : ℝ × ℝ => (w.1 - m) ^ 4) P := by
    have := a1.integrable_norm_pow (p := 4) (by norm_num)
    refine this.congr (Eventually.of_forall fun w => ?_)
    simp only [Real.norm_eq_abs, ← abs_pow]
    exact abs_of_nonneg (by positivity)
  have i2 : Integrable (fun w : ℝ × ℝ => w.2 ^ 4) P := by
    have := h2.integrable_norm_pow (p := 4) (by norm_num)
    refine this.congr (Eventually.of_forall fun w => ?_)
    simp only [Real.norm_eq_abs, ← abs_pow]
    exact abs_of_nonneg (by positivity)
  have i0 : Integrable (fun w : ℝ × ℝ => 1 + (w.1 - m) ^ 4 + w.2 ^ 4) P := ((integrable_const 1).add i1).add i2
  refine i0.mono' (by fun_prop) (Eventually.of_forall fun w => ?_)
  rw [Real.norm_eq_abs]
  exact pow_dominated _ _ j k h

/-- Moments of the law. -/
noncomputable def lmom (P : Measure (ℝ × ℝ)) (m : ℝ) (j k : ℕ) : ℝ := ∫ w, (w.1 - m) ^ j * w.2 ^ k ∂P

/-- The sample moments converge. -/
theorem smom_tendsto (x e : ℕ → Ω → ℝ) (hx : ∀ i, Measurable (x i)) (he : ∀ i, Measurable (e i))
    (hlaw : ∀ i, Q.map (fun ω => (x i ω, e i ω)) = P) (hind : iIndepFun (fun i ω => (x i ω, e i ω)) Q)
    (h1 : MemLp Prod.fst 4 P) (h2 : MemLp Prod.snd 4 P) (m : ℝ) :
    ∀ᵐ ω ∂Q, ∀ j k, j + k ≤ 4 → Tendsto (fun N => smom (fun i : Fin N => x i ω) (fun i => e i ω) m j k) atTop (𝓝 (lmom P m j k)) := by
  have hz : ∀ i, Measurable fun ω => (x i ω, e i ω) := fun i => (hx i).prodMk (he i)
  refine ae_all_iff.2 fun j => ae_all_iff.2 fun k => ?_
  by_cases h : j + k ≤ 4
  · filter_upwards [avg_strong hz hlaw hind (f := fun w : ℝ × ℝ => (w.1 - m) ^ j * w.2 ^ k) (by fun_prop) (mom_integrable h1 h2 m j k h)] with ω hω _
    refine hω.congr fun N => ?_
    rw [avg, smom, Fin.sum_univ_eq_sum_range fun i => (x i ω - m) ^ j * e i ω ^ k]
  · exact Eventually.of_forall fun ω hh => absurd hh h

/-- Limits of the ingredients of the statistic. -/
theorem bp_limits {p : ℕ → ℕ → ℕ → ℝ} {l : ℕ → ℕ → ℝ} (hp : ∀ j k, j + k ≤ 4 → Tendsto (fun N => p N j k) atTop (𝓝 (l j k)))
    (h10 : l 1 0 = 0) (h01 : l 0 1 = 0) (h11 : l 1 1 = 0) (h20 : l 2 0 ≠ 0) :
    Tendsto (fun N => bpD (p N)) atTop (𝓝 (l 2 0)) ∧ Tendsto (fun N => bpSl (p N)) atTop (𝓝 0) ∧ Tendsto (fun N => bpIc (p N)) atTop (𝓝 0) ∧
    Tendsto (fun N => bpR2 (p N)) atTop (𝓝 (l 0 2)) ∧ Tendsto (fun N => bpR4 (p N)) atTop (𝓝 (l 0 4)) ∧
    Tendsto (fun N => bpC (p N)) atTop (𝓝 (l 1 2)) := by
  have q := fun j k (h : j + k ≤ 4) => hp j k h
  have tD : Tendsto (fun N => bpD (p N)) atTop (𝓝 (l 2 0)) := by
    have := (q 2 0 (by norm_num)).sub ((q 1 0 (by norm_num)).pow 2)
    rw [h10] at this
    simpa [bpD] using this
  have tS : Tendsto (fun N => bpSl (p N)) atTop (𝓝 0) := by
    have := ((q 1 1 (by norm_num)).sub ((q 1 0 (by norm_num)).mul (q 0 1 (by norm_num)))).div tD h20
    rw [h10, h01, h11] at this
    simp only [mul_zero, sub_zero, zero_div] at this
    exact this
  have tI : Tendsto (fun N => bpIc (p N)) atTop (𝓝 0) := by
    have := (q 0 1 (by norm_num)).sub (tS.mul (q 1 0 (by norm_num)))
    rw [h10, h01] at this
    simpa [bpIc] using this
  have tR2 : Tendsto (fun N => bpR2 (p N)) atTop (𝓝 (l 0 2)) := by
    have := (((((q 0 2 (by norm_num)).add (tI.pow 2)).add ((tS.pow 2).mul (q 2 0 (by norm_num)))).sub ((tI.const_mul 2).mul (q 0 1 (by norm_num)))).sub
      ((tS.const_mul 2).mul (q 1 1 (by norm_num)))).add (((tI.const_mul 2).mul tS).mul (q 1 0 (by norm_num)))
    simpa [bpR2] using this
  have tR4 : Tendsto (fun N => bpR4 (p N)) atTop (𝓝 (l 0 4)) := by
    have := ((((((((((((((q 0 4 (by norm_num)).sub ((tI.const_mul 4).mul (q 0 3 (by norm_num)))).sub ((tS.const_mul 4).mul (q 1 3 (by norm_num)))).add
      (((tI.pow 2).const_mul 6).mul (q 0 2 (by norm_num)))).add (((tI.const_mul 12).mul tS).mul (q 1 2 (by norm_num)))).add
      (((tS.pow 2).const_mul 6).mul (q 2 2 (by norm_num)))).sub (((tI.pow 3).const_mul 4).mul (q 0 1 (by norm_num)))).sub
      ((((tI.pow 2).const_mul 12).mul tS).mul (q 1 1 (by norm_num)))).sub (((tI.const_mul 12).mul (tS.pow 2)).mul (q 2 1 (by norm_num)))).sub
      (((tS.pow 3).const_mul 4).mul (q 3 1 (by norm_num)))).add (tI.pow 4)).add ((((tI.pow 3).const_mul 4).mul tS).mul (q 1 0 (by norm_num)))).add
      ((((tI.pow 2).const_mul 6).mul (tS.pow 2)).mul (q 2 0 (by norm_num)))).add (((tI.const_mul 4).mul (tS.pow 3)).mul (q 3 0 (by norm_num)))).add
      ((tS.pow 4).mul (q 4 0 (by norm_num)))
    simpa [bpR4] using this
  refine ⟨tD, tS, tI, tR2, tR4, ?_⟩
  have := ((((((q 1 2 (by norm_num)).add ((tI.pow 2).mul (q 1 0 (by norm_num)))).add ((tS.pow 2).mul (q 3 0 (by norm_num)))).sub
    ((tI.const_mul 2).mul (q 1 1 (by norm_num)))).sub ((tS.const_mul 2).mul (q 2 1 (by norm_num)))).add
    (((tI.const_mul 2).mul tS).mul (q 2 0 (by norm_num)))).sub ((q 1 0 (by norm_num)).mul tR2)
  rw [h10] at this
  simpa [bpC] using this

/-- **C174, Breusch-Pagan.**  Independent observations with errors centred and uncorrelated with the defects, whose square is correlated with the
defects: the p-value of the Breusch-Pagan test of the residuals tends to zero almost surely, so that the warning is given from some number of
observations on. -/
theorem C174_breuschPagan_partial (x e : ℕ → Ω → ℝ) (hx : ∀ i, Measurable (x i)) (he : ∀ i, Measurable (e i))
    (hlaw : ∀ i, Q.map (fun ω => (x i ω, e i ω)) = P) (hind : iIndepFun (fun i ω => (x i ω, e i ω)) Q)
    (h1 : MemLp Prod.fst 4 P) (h2 : MemLp Prod.snd 4 P)
    (he0 : ∫ w, w.2 ∂P = 0) (hxe : ∫ w, w.1 * w.2 ∂P = 0) (hdep : ∫ w, w.1 * w.2 ^ 2 ∂P ≠ (∫ w, w.1 ∂P) * ∫ w, w.2 ^ 2 ∂P) (b0 b1 : ℝ)
    (pChi : F ℝ → F ℝ) (G : ℝ → ℝ) (hchi : ∀ t, pChi (.fin t) = .fin (G t)) (hG : Tendsto G atTop (𝓝 1)) :
    ∀ᵐ ω ∂Q, ∃ pv : ℕ → ℝ, (∀ᶠ N in atTop, breuschPaganPValue pChi (fun i : Fin N => x i ω)
        (olsResiduals (fun i : Fin N => x i ω) fun i => b0 + b1 * x i ω + e i ω) = .fin (pv N)) ∧ Tendsto pv atTop (𝓝 0) := by
  set m := ∫ w, w.1 ∂P with hm
  have hint := mom_integrable h1 h2
  have i10 : Integrable (fun w : ℝ × ℝ => w.1) P := by simpa using hint 0 1 0 (by norm_num)
  have i01 : Integrable (fun w : ℝ × ℝ => w.2) P := by simpa using hint 0 0 1 (by norm_num)
  have i11 : Integrable (fun w : ℝ × ℝ => w.1 * w.2) P := by simpa using hint 0 1 1 (by norm_num)
  have i12 : Integrable (fun w : ℝ × ℝ => w.1 * w.2 ^ 2) P := by simpa using hint 0 1 2 (by norm_num)
  have i02 : Integrable (fun w : ℝ × ℝ => w.2 ^ 2) P := by simpa using hint 0 0 2 (by norm_num)
  have l10 : lmom P m 1 0 = 0 := by
    simp only [lmom, pow_one, pow_zero, mul_one]
    rw [integral_sub i10 (integrable_const _)]
    simp [hm]
  have l01 : lmom P m 0 1 = 0 := by simpa [lmom] using he0
  have l11 : lmom P m 1 1 = 0 := by
    simp only [lmom, pow_one, sub_mul]
    rw [integral_sub i11 (i01.const_mul _), integral_const_mul, hxe, he0]
    simp
  have l12 : lmom P m 1 2 ≠ 0 := by
    simp only [lmom, pow_one, sub_mul]
    rw [integral_sub i12 (i02.const_mul _), integral_const_mul]
    exact sub_ne_zero.2 hdep
  -- Cauchy-Schwarz: both variances are positive
  set v := ∫ w, w.2 ^ 2 ∂P with hv
  have cs : ∀ s : ℝ, 0 ≤ lmom P m 2 0 + 2 * s * lmom P m 1 2 + s ^ 2 * (lmom P m 0 4 - v ^ 2) := by
    intro s
    have hnn : 0 ≤ ∫ w, ((w.1 - m) + s * (w.2 ^ 2 - v)) ^ 2 ∂P := integral_nonneg fun w => sq_nonneg _
    have k20 := hint m 2 0 (by norm_num)
    have k12 := hint m 1 2 (by norm_num)
    have k10 := hint m 1 0 (by norm_num)
    have k04 := hint m 0 4 (by norm_num)
    have k02 := hint m 0 2 (by norm_num)
    have e1 : ∀ w : ℝ × ℝ, ((w.1 - m) + s * (w.2 ^ 2 - v)) ^ 2 = (w.1 - m) ^ 2 * w.2 ^ 0 + (2 * s) * ((w.1 - m) ^ 1 * w.2 ^ 2)
        + (-(2 * s * v)) * ((w.1 - m) ^ 1 * w.2 ^ 0) + s ^ 2 * ((w.1 - m) ^ 0 * w.2 ^ 4) + (-(2 * s ^ 2 * v)) * ((w.1 - m) ^ 0 * w.2 ^ 2)
        + s ^ 2 * v ^ 2 := by intro w; ring
    have e2 : ∫ w, ((w.1 - m) + s * (w.2 ^ 2 - v)) ^ 2 ∂P = lmom P m 2 0 + (2 * s) * lmom P m 1 2 + (-(2 * s * v)) * lmom P m 1 0
        + s ^ 2 * lmom P m 0 4 + (-(2 * s ^ 2 * v)) * lmom P m 0 2 + s ^ 2 * v ^ 2 := by
      simp only [e1]
      have j1 := k20.add (k12.const_mul (2 * s))
      have j2 := j1.add (k10.const_mul (-(2 * s * v)))
      have j3 := j2.add (k04.const_mul (s ^ 2))
      have j4 := j3.add (k02.const_mul (-(2 * s ^ 2 * v)))
      simp only [Pi.add_def] at j1 j2 j3 j4
      rw [integral_add j4 (integrable_const _), integral_add j3 (k02.const_mul _), integral_add j2 (k04.const_mul _), integral_add j1 (k10.const_mul _),
        integral_add k20 (k12.const_mul _)]
      simp only [integral_const_mul, lmom]
      simp
    have l02 : lmom P m 0 2 = v := by simp [lmom, hv]
    rw [e2, l10, l02] at hnn
    nlinarith
  have hA : 0 < lmom P m 2 0 := by
    by_contra hcon
    push Not at hcon
    have hB : 0 ≤ lmom P m 0 4 - v ^ 2 ∨ lmom P m 0 4 - v ^ 2 < 0 := le_or_gt _ _
    set A := lmom P m 2 0
    set c := lmom P m 1 2
    set B := lmom P m 0 4 - v ^ 2
    have c2 : 0 < c ^ 2 := by positivity
    rcases hB with hB | hB
    · have := cs (-c / (B + 1))
      have hB1 : 0 < B + 1 := by linarith
      have e : A + 2 * (-c / (B + 1)) * c + (-c / (B + 1)) ^ 2 * B = A + (-(c ^ 2) * (B + 2)) / (B + 1) ^ 2 := by field_simp; ring
      rw [e] at this
      have hneg : (-(c ^ 2) * (B + 2)) / (B + 1) ^ 2 < 0 := div_neg_of_neg_of_pos (by nlinarith) (by positivity)
      linarith
    · have h3 := cs c
      have h4 := cs (-c)
      nlinarith
  have hB : 0 < lmom P m 0 4 - v ^ 2 := by
    by_contra hcon
    push Not at hcon
    set A := lmom P m 2 0
    set c := lmom P m 1 2
    set B := lmom P m 0 4 - v ^ 2
    have c2 : 0 < c ^ 2 := by positivity
    have := cs (-A / c)
    have e : A + 2 * (-A / c) * c + (-A / c) ^ 2 * B = -A + (A / c) ^ 2 * B := by field_simp; ring
    rw [e] at this
    nlinarith [sq_nonneg (A / c)]
  filter_upwards [smom_tendsto x e hx he hlaw hind h1 h2 m] with ω hω
  obtain ⟨tD, -, -, t2, t4, tC⟩ := bp_limits hω l10 l01 l11 hA.ne'
  have l02 : lmom P m 0 2 = v := by simp [lmom, hv]
  rw [l02] at t2
  set p : ℕ → ℕ → ℕ → ℝ := fun N => smom (fun i : Fin N => x i ω) (fun i => e i ω) m with hp
  have tW : Tendsto (fun N => bpR4 (p N) - bpR2 (p N) ^ 2) atTop (𝓝 (lmom P m 0 4 - v ^ 2)) := t4.sub (t2.pow 2)
  have tK : Tendsto (fun N => bpC (p N) ^ 2 / (bpD (p N) * (bpR4 (p N) - bpR2 (p N) ^ 2))) atTop
      (𝓝 (lmom P m 1 2 ^ 2 / (lmom P m 2 0 * (lmom P m 0 4 - v ^ 2)))) := (tC.pow 2).div (tD.mul tW) (mul_pos hA hB).ne'
  have hpos : 0 < lmom P m 1 2 ^ 2 / (lmom P m 2 0 * (lmom P m 0 4 - v ^ 2)) := div_pos (by positivity) (mul_pos hA hB)
  have tT : Tendsto (fun N : ℕ => (N : ℝ) * (bpC (p N) ^ 2 / (bpD (p N) * (bpR4 (p N) - bpR2 (p N) ^ 2)))) atTop atTop :=
    tendsto_natCast_atTop_atTop.atTop_mul_pos hpos tK
  refine ⟨fun N => 1 - G (N * (bpC (p N) ^ 2 / (bpD (p N) * (bpR4 (p N) - bpR2 (p N) ^ 2)))), ?_, by simpa using (hG.comp tT).const_sub 1⟩
  filter_upwards [tD.eventually (lt_mem_nhds hA), tW.eventually (lt_mem_nhds hB), eventually_gt_atTop 0] with N n1 n2 n3
  rw [bp_stat _ _ m b0 b1 n3 n1.ne' n2.ne', hchi, ← mul_div_assoc]
  rfl

end
/-- Defects 0 and 1, errors `±1` for the first and `±2` for the second. -/
example (pChi : F ℝ → F ℝ) (G : ℝ → ℝ) (hchi : ∀ t, pChi (.fin t) = .fin (G t)) (hG : Tendsto G atTop (𝓝 1)) :
    ∃ P : Measure (ℝ × ℝ), ∃ _ : IsProbabilityMeasure P, ∀ᵐ ω ∂(Measure.infinitePi fun _ : ℕ => P), ∃ pv : ℕ → ℝ,
      (∀ᶠ N in atTop, breuschPaganPValue pChi (fun i : Fin N => (ω i).1)
        (olsResiduals (fun i : Fin N => (ω i).1) fun i => 3 + 2 * (ω i).1 + (ω i).2) = .fin (pv N)) ∧ Tendsto pv atTop (𝓝 0) := by
  set P : Measure (ℝ × ℝ) := (4 : ENNReal)⁻¹ • (Measure.dirac (0, 1) + Measure.dirac (0, -1) + Measure.dirac (1, 2) + Measure.dirac (1, -2)) with hP
  have hprob : IsProbabilityMeasure P := ⟨by
    simp only [hP, Measure.smul_apply, Measure.add_apply, measure_univ, smul_eq_mul]
    have : (1 : ENNReal) + 1 + 1 + 1 = 4 := by norm_num
    rw [this, ENNReal.inv_mul_cancel (by norm_num) (by norm_num)]⟩
  have hint : ∀ f : ℝ × ℝ → ℝ, Measurable f → ∫ w, f w ∂P = 1 / 4 * (f (0, 1) + f (0, -1) + f (1, 2) + f (1, -2)) := by
    intro f hf
    have hi : ∀ a : ℝ × ℝ, Integrable f (Measure.dirac a) := fun a => by
      refine integrable_dirac (by simp)
    rw [hP, integral_smul_measure, integral_add_measure (((hi _).add_measure (hi _)).add_measure (hi _)) (hi _),
      integral_add_measure ((hi _).add_measure (hi _)) (hi _), integral_add_measure (hi _) (hi _)]
    simp only [integral_dirac, smul_eq_mul, ENNReal.toReal_inv]
    norm_num
  have hae : ∀ᵐ w ∂P, |w.1| ≤ 2 ∧ |w.2| ≤ 2 := by
    refine Measure.ae_smul_measure ?_ _
    simp only [ae_add_measure_iff, ae_dirac_eq, eventually_pure]
    norm_num
  refine ⟨P, hprob, C174_breuschPagan_partial (Q := Measure.infinitePi fun _ : ℕ => P) (P := P) (fun i ω => (ω i).1) (fun i ω => (ω i).2)
    (fun i => measurable_fst.comp (measurable_pi_apply i)) (fun i => measurable_snd.comp (measurable_pi_apply i))
    (fun i => (measurePreserving_eval_infinitePi (fun _ : ℕ => P) i).map_eq) ?_
    (MemLp.of_bound measurable_fst.aestronglyMeasurable 2 (hae.mono fun w h => h.1))
    (MemLp.of_bound measurable_snd.aestronglyMeasurable 2 (hae.mono fun w h => h.2)) ?_ ?_ ?_ 3 2 pChi G hchi hG⟩
  · exact iIndepFun_infinitePi (P := fun _ : ℕ => P) (X := fun _ w => w) (fun _ => measurable_id)
  · rw [hint _ (by fun_prop)]; norm_num
  · rw [hint _ (by fun_prop)]; norm_num
  · rw [hint _ (by fun_prop), hint _ (by fun_prop), hint _ (by fun_prop)]; norm_num

end Verif.Props
