import Verif.Props.ConvexArgmin
import Verif.Props.CensoredUnique
import Verif.Props.KlClosest

/-!
# Loss of one observation in the censored fit

The negative log likelihood of one observation in the coordinates of `olsen`: convex, integrable, and least in expectation at the true parameters.
-/

namespace Verif.Props
open Verif.Py Verif.Model ProbabilityTheory MeasureTheory Set Filter Topology
open scoped ENNReal

/-- Signals not above the noise threshold. -/
def noisySig (noise : Option ℝ) : Set ℝ := {y | ∃ t ∈ noise, y ≤ t}

/-- Signals not below the saturation threshold. -/
def satSig (sat : Option ℝ) : Set ℝ := {y | ∃ t ∈ sat, t ≤ y}

theorem noisySig_none : noisySig none = ∅ := by ext y; simp [noisySig]

theorem noisySig_some (t : ℝ) : noisySig (some t) = Iic t := by ext y; simp [noisySig]

theorem satSig_none : satSig none = ∅ := by ext y; simp [satSig]

theorem satSig_some (t : ℝ) : satSig (some t) = Ici t := by ext y; simp [satSig]

theorem noisySig_meas (noise : Option ℝ) : MeasurableSet (noisySig noise) := by
  cases noise with
  | none => rw [noisySig_none]; exact MeasurableSet.empty
  | some t => rw [noisySig_some]; exact measurableSet_Iic

theorem satSig_meas (sat : Option ℝ) : MeasurableSet (satSig sat) := by
  cases sat with
  | none => rw [satSig_none]; exact MeasurableSet.empty
  | some t => rw [satSig_some]; exact measurableSet_Ici

/-- Signals strictly between the given thresholds. -/
def keptSig (noise sat : Option ℝ) : Set ℝ := {y | (∀ t ∈ noise, t < y) ∧ ∀ t ∈ sat, y < t}

theorem keptSig_eq (noise sat : Option ℝ) : keptSig noise sat = (noisySig noise)ᶜ ∩ (satSig sat)ᶜ := by
  ext y
  simp only [keptSig, noisySig, satSig, mem_inter_iff, mem_compl_iff, mem_setOf_eq]
  push Not
  rfl

theorem keptSig_meas (noise sat : Option ℝ) : MeasurableSet (keptSig noise sat) := by
  rw [keptSig_eq]; exact (noisySig_meas _).compl.inter (satSig_meas _).compl

/-- There is room between the thresholds. -/
theorem keptSig_interval (noise sat : Option ℝ) (hts : ∀ t ∈ noise, ∀ u ∈ sat, t < u) : ∃ l h, l < h ∧ Ioo l h ⊆ keptSig noise sat := by
  cases noise with
  | none =>
    cases sat with
    | none => exact ⟨0, 1, by norm_num, fun y _ => by simp [keptSig]⟩
    | some u => exact ⟨u - 1, u, by linarith, fun y hy => by simpa [keptSig] using hy.2⟩
  | some t =>
    cases sat with
    | none => exact ⟨t, t + 1, by linarith, fun y hy => by simpa [keptSig] using hy.1⟩
    | some u => exact ⟨t, u, hts t rfl u rfl, fun y hy => by simpa [keptSig] using hy⟩

open Classical in
/-- Negative log likelihood of one observation in the coordinates of `olsen`. -/
noncomputable def cLoss (noise sat : Option ℝ) (W : ℝ × ℝ × ℝ) (o : ℝ × ℝ) : ℝ :=
  if o.2 ∈ noisySig noise then -Real.log (Phi (W.2.2 * noise.getD 0 - (W.1 + W.2.1 * o.1)))
  else if o.2 ∈ satSig sat then -Real.log (1 - Phi (W.2.2 * sat.getD 0 - (W.1 + W.2.1 * o.1)))
  else Real.log (Real.sqrt (2 * Real.pi)) - Real.log W.2.2 + (W.2.2 * o.2 - (W.1 + W.2.1 * o.1)) ^ 2 / 2

theorem cLoss_obsLik (noise sat : Option ℝ) (X : ℝ × ℝ × ℝ) (hX : 0 < X.2.2) (o : ℝ × ℝ) :
    0 < obsLik id noise sat X o ∧ Real.log (obsLik id noise sat X o) = -cLoss noise sat (olsen X) o := by
  obtain ⟨b0, b1, s⟩ := X
  have hs : 0 < s := hX
  have hs' : s ≠ 0 := hs.ne'
  have hz : ∀ t x : ℝ, (t - (b0 + b1 * x)) / s = 1 / s * t - (b0 / s + b1 / s * x) := by
    intro t x; field_simp
  by_cases h1 : ∃ t ∈ noise, o.2 ≤ t
  · have h1' : o.2 ∈ noisySig noise := h1
    simp only [obsLik, cLoss, if_pos h1, if_pos h1', id_eq, olsen]
    rw [gauss_Iic hs, hz, neg_neg]
    exact ⟨Phi_pos _, rfl⟩
  · have h1' : o.2 ∉ noisySig noise := h1
    by_cases h2 : ∃ t ∈ sat, t ≤ o.2
    · have h2' : o.2 ∈ satSig sat := h2
      simp only [obsLik, cLoss, if_neg h1, if_neg h1', if_pos h2, if_pos h2', id_eq, olsen]
      rw [gauss_Ioi hs, hz, neg_neg]
      exact ⟨by have := Phi_lt_one (1 / s * sat.getD 0 - (b0 / s + b1 / s * o.1)); linarith, rfl⟩
    · have h2' : o.2 ∉ satSig sat := h2
      simp only [obsLik, cLoss, if_neg h1, if_neg h1', if_neg h2, if_neg h2', id_eq, olsen]
      refine ⟨gaussianPDFReal_pos _ _ _ (sqv_ne hs), ?_⟩
      have hpi : Real.sqrt (2 * Real.pi) ≠ 0 := by positivity
      rw [gaussianPDFReal, coe_sqv, Real.log_mul (by positivity) (Real.exp_pos _).ne', Real.log_exp, Real.log_inv,
        Real.sqrt_mul (by positivity), Real.sqrt_sq hs.le, Real.log_mul hpi hs', one_div, Real.log_inv]
      field_simp
      ring

/-- The loss of a data set is its negative log likelihood. -/
theorem cLoss_dataLik (noise sat : Option ℝ) (X : ℝ × ℝ × ℝ) (hX : 0 < X.2.2) (obs : List (ℝ × ℝ)) :
    0 < dataLik id noise sat obs X ∧ (obs.map (cLoss noise sat (olsen X))).sum = -Real.log (dataLik id noise sat obs X) := by
  induction obs with
  | nil => simp [dataLik]
  | cons o l ih =>
    obtain ⟨h1, h2⟩ := cLoss_obsLik noise sat X hX o
    have e : dataLik id noise sat (o :: l) X = obsLik id noise sat X o * dataLik id noise sat l X := by
      simp [dataLik]
    rw [e, Real.log_mul h1.ne' ih.1.ne', List.map_cons, List.sum_cons, ih.2, h2]
    exact ⟨mul_pos h1 ih.1, by ring⟩

/-- Convexity of the parts. -/
theorem cLoss_convex (noise sat : Option ℝ) (o : ℝ × ℝ) : ConvexOn ℝ {W : ℝ × ℝ × ℝ | 0 < W.2.2} fun W => cLoss noise sat W o := by
  refine ⟨?_, ?_⟩
  · intro W hW V hV a b ha hb hab
    have hW : 0 < W.2.2 := hW
    have hV : 0 < V.2.2 := hV
    show 0 < a * W.2.2 + b * V.2.2
    rcases ha.eq_or_lt with h0 | h0
    · rw [← h0] at hab ⊢
      rw [zero_add] at hab
      rw [hab]; linarith
    · nlinarith [mul_pos h0 hW, mul_nonneg hb hV.le]
  · rintro ⟨α, β, θ⟩ hW ⟨α', β', θ'⟩ hV a b ha hb hab
    have hW : 0 < θ := hW
    have hV : 0 < θ' := hV
    show cLoss noise sat (a * α + b * α', a * β + b * β', a * θ + b * θ') o
      ≤ a * cLoss noise sat (α, β, θ) o + b * cLoss noise sat (α', β', θ') o
    have hlin : ∀ t : ℝ, (a * θ + b * θ') * t - (a * α + b * α' + (a * β + b * β') * o.1)
        = a * (θ * t - (α + β * o.1)) + b * (θ' * t - (α' + β' * o.1)) := by intro t; ring
    simp only [cLoss, hlin]
    split_ifs
    · have := logPhi_le (θ * noise.getD 0 - (α + β * o.1)) (θ' * noise.getD 0 - (α' + β' * o.1)) a b ha hb hab
      linarith
    · have := logPhiC_le (θ * sat.getD 0 - (α + β * o.1)) (θ' * sat.getD 0 - (α' + β' * o.1)) a b ha hb hab
      linarith
    · have hlog : a * Real.log θ + b * Real.log θ' ≤ Real.log (a * θ + b * θ') := by
        have := strictConcaveOn_log_Ioi.concaveOn.2 (show θ ∈ Ioi 0 from hW) (show θ' ∈ Ioi 0 from hV) ha hb hab
        simpa using this
      set u := θ * o.2 - (α + β * o.1)
      set v := θ' * o.2 - (α' + β' * o.1)
      have hsq : (a * u + b * v) ^ 2 ≤ a * u ^ 2 + b * v ^ 2 := by
        have hb' : b = 1 - a := by linarith
        have : a * u ^ 2 + b * v ^ 2 - (a * u + b * v) ^ 2 = a * b * (u - v) ^ 2 := by rw [hb']; ring
        nlinarith [mul_nonneg (mul_nonneg ha hb) (sq_nonneg (u - v))]
      have hc : a * Real.log (Real.sqrt (2 * Real.pi)) + b * Real.log (Real.sqrt (2 * Real.pi)) = Real.log (Real.sqrt (2 * Real.pi)) := by
        rw [← add_mul, hab, one_mul]
      nlinarith

/-- For kept signals the convexity is strict unless the scales and the lines at that size agree. -/
theorem cLoss_strict (noise sat : Option ℝ) (o : ℝ × ℝ) (ho : o.2 ∈ keptSig noise sat) (α β θ α' β' θ' : ℝ) (hW : 0 < θ) (hV : 0 < θ')
    (hne : θ ≠ θ' ∨ θ = θ' ∧ α + β * o.1 ≠ α' + β' * o.1) :
    cLoss noise sat ((α + α') / 2, (β + β') / 2, (θ + θ') / 2) o
      < (cLoss noise sat (α, β, θ) o + cLoss noise sat (α', β', θ') o) / 2 := by
  rw [keptSig_eq] at ho
  have h1 : o.2 ∉ noisySig noise := ho.1
  have h2 : o.2 ∉ satSig sat := ho.2
  simp only [cLoss, if_neg h1, if_neg h2]
  set u := θ * o.2 - (α + β * o.1) with hu
  set v := θ' * o.2 - (α' + β' * o.1) with hv
  have e : (θ + θ') / 2 * o.2 - ((α + α') / 2 + (β + β') / 2 * o.1) = (u + v) / 2 := by rw [hu, hv]; ring
  rw [e]
  rcases hne with h | ⟨h, h'⟩
  · have hlog : Real.log θ / 2 + Real.log θ' / 2 < Real.log ((θ + θ') / 2) := by
      have := strictConcaveOn_log_Ioi.2 (show θ ∈ Ioi 0 from hW) (show θ' ∈ Ioi 0 from hV) h (by norm_num : (0 : ℝ) < 1 / 2)
        (by norm_num : (0 : ℝ) < 1 / 2) (by norm_num)
      simp only [smul_eq_mul] at this
      rw [show (1 : ℝ) / 2 * θ + 1 / 2 * θ' = (θ + θ') / 2 by ring] at this
      linarith
    nlinarith [sq_nonneg (u - v)]
  · have huv : u - v ≠ 0 := by
      rw [hu, hv, ← h]; intro hh; apply h'; linarith
    have := pow_pos (abs_pos.2 huv) 2
    rw [sq_abs] at this
    have hl : (θ + θ') / 2 = θ := by rw [← h]; ring
    rw [hl, ← h]
    nlinarith

theorem cLoss_measurable (noise sat : Option ℝ) (W : ℝ × ℝ × ℝ) : Measurable (cLoss noise sat W) := by
  have hPhi : Measurable Phi := Phi_continuous.measurable
  unfold cLoss
  refine Measurable.ite ((noisySig_meas noise).preimage measurable_snd) ?_ (Measurable.ite ((satSig_meas sat).preimage measurable_snd) ?_ ?_)
  · exact (Real.measurable_log.comp (hPhi.comp (by fun_prop))).neg
  · exact (Real.measurable_log.comp ((measurable_const).sub (hPhi.comp (by fun_prop)))).neg
  · fun_prop

/-- Growth of `-log Φ`. -/
theorem neg_logPhi_le (z : ℝ) : 0 ≤ -Real.log (Phi z) ∧ -Real.log (Phi z) ≤ z ^ 2 + 1 + Real.log (Real.sqrt (2 * Real.pi)) := by
  refine ⟨by rw [neg_nonneg]; exact Real.log_nonpos (Phi_pos z).le (Phi_lt_one z).le, ?_⟩
  have hpi : 0 < Real.sqrt (2 * Real.pi) := by positivity
  have h1 : Phi z - Phi (z - 1) = ∫ x in (z - 1)..z, gaussDens x := Phi_sub (by linarith)
  have hlow : (Real.sqrt (2 * Real.pi))⁻¹ * Real.exp (-(z ^ 2 + 1)) ≤ ∫ x in (z - 1)..z, gaussDens x := by
    have hc : ∫ _x in (z - 1)..z, (Real.sqrt (2 * Real.pi))⁻¹ * Real.exp (-(z ^ 2 + 1))
        = (Real.sqrt (2 * Real.pi))⁻¹ * Real.exp (-(z ^ 2 + 1)) := by
      rw [intervalIntegral.integral_const]; simp
    rw [← hc]
    refine intervalIntegral.integral_mono_on (by linarith) (by simp) (gaussDens_continuous.intervalIntegrable _ _) fun x hx => ?_
    rw [gaussDens]
    refine mul_le_mul_of_nonneg_left (Real.exp_le_exp.2 ?_) (by positivity)
    have h2 : x ^ 2 ≤ 2 * z ^ 2 + 2 := by nlinarith [hx.1, hx.2, sq_nonneg (z - (z - x)), sq_nonneg (z + (z - x))]
    linarith
  have h2 : (Real.sqrt (2 * Real.pi))⁻¹ * Real.exp (-(z ^ 2 + 1)) ≤ Phi z := by
    have := (Phi_pos (z - 1)).le
    linarith
  have h3 := Real.log_le_log (by positivity) h2
  rw [Real.log_mul (by positivity) (Real.exp_pos _).ne', Real.log_exp, Real.log_inv] at h3
  linarith

/-- The loss is integrable as soon as size and signal are square integrable. -/
theorem cLoss_integrable (noise sat : Option ℝ) (W : ℝ × ℝ × ℝ) {P : Measure (ℝ × ℝ)} [IsProbabilityMeasure P] (h1 : MemLp Prod.fst 2 P)
    (h2 : MemLp Prod.snd 2 P) : Integrable (cLoss noise sat W) P := by
  have hlin : ∀ t : ℝ, MemLp (fun o : ℝ × ℝ => W.2.2 * t - (W.1 + W.2.1 * o.1)) 2 P := by
    intro t
    have a1 : MemLp (fun o : ℝ × ℝ => W.1 + W.2.1 * o.1) 2 P := MemLp.add (memLp_const W.1) (MemLp.const_mul h1 W.2.1)
    exact MemLp.sub (memLp_const (W.2.2 * t)) a1
  have hy : MemLp (fun o : ℝ × ℝ => W.2.2 * o.2 - (W.1 + W.2.1 * o.1)) 2 P := by
    have a1 : MemLp (fun o : ℝ × ℝ => W.1 + W.2.1 * o.1) 2 P := MemLp.add (memLp_const W.1) (MemLp.const_mul h1 W.2.1)
    exact MemLp.sub (MemLp.const_mul h2 W.2.2) a1
  set L := Real.log (Real.sqrt (2 * Real.pi)) with hL
  have i1 := (hlin (noise.getD 0)).integrable_sq
  have i2 := (hlin (sat.getD 0)).integrable_sq
  have i3 := hy.integrable_sq
  have hb : Integrable (fun o : ℝ × ℝ => (W.2.2 * noise.getD 0 - (W.1 + W.2.1 * o.1)) ^ 2
      + (W.2.2 * sat.getD 0 - (W.1 + W.2.1 * o.1)) ^ 2 + (W.2.2 * o.2 - (W.1 + W.2.1 * o.1)) ^ 2
      + (2 + 3 * |L| + |Real.log W.2.2|)) P := by
    have h12 := Integrable.add i1 i2
    have h123 := Integrable.add h12 i3
    exact Integrable.add h123 (integrable_const (2 + 3 * |L| + |Real.log W.2.2|))
  refine hb.mono' (cLoss_measurable noise sat W).aestronglyMeasurable (Eventually.of_forall fun o => ?_)
  have q1 := sq_nonneg (W.2.2 * noise.getD 0 - (W.1 + W.2.1 * o.1))
  have q2 := sq_nonneg (W.2.2 * sat.getD 0 - (W.1 + W.2.1 * o.1))
  have q3 := sq_nonneg (W.2.2 * o.2 - (W.1 + W.2.1 * o.1))
  have q4 := abs_nonneg L
  have q5 := abs_nonneg (Real.log W.2.2)
  have q6 := le_abs_self L
  rw [Real.norm_eq_abs]
  simp only [cLoss]
  split_ifs
  · obtain ⟨g1, g2⟩ := neg_logPhi_le (W.2.2 * noise.getD 0 - (W.1 + W.2.1 * o.1))
    rw [abs_of_nonneg g1]; linarith
  · obtain ⟨g1, g2⟩ := neg_logPhi_le (-(W.2.2 * sat.getD 0 - (W.1 + W.2.1 * o.1)))
    rw [Phi_neg] at g1 g2
    rw [abs_of_nonneg g1]
    rw [neg_sq] at g2
    linarith
  · rw [← hL, abs_le]
    have q7 := neg_abs_le L
    have q8 := neg_abs_le (Real.log W.2.2)
    have q9 := le_abs_self (Real.log W.2.2)
    constructor <;> linarith

/-! ## The true parameters have the least expected loss -/

open Classical in
/-- Likelihood ratio of two Gaussian laws when the signals in `A` and in `B` are only known to be there: expectation at most one. -/
theorem gibbs_ratio (m m' s s' : ℝ) (hs : 0 < s) (hs' : 0 < s') (A B : Set ℝ) (hA : MeasurableSet A) (hB : MeasurableSet B) :
    ∫⁻ y, (if y ∈ A then ENNReal.ofReal ((gaussianReal m' (sqv s')).real A / (gaussianReal m (sqv s)).real A)
      else if y ∈ B then ENNReal.ofReal ((gaussianReal m' (sqv s')).real B / (gaussianReal m (sqv s)).real B)
      else ENNReal.ofReal (gaussianPDFReal m' (sqv s') y / gaussianPDFReal m (sqv s) y)) ∂gaussianReal m (sqv s)
    ≤ gaussianReal m' (sqv s') A + (gaussianReal m' (sqv s') B + gaussianReal m' (sqv s') (Aᶜ ∩ Bᶜ)) := by
  set μ := gaussianReal m (sqv s) with hμ
  set μ' := gaussianReal m' (sqv s') with hμ'
  have hcell : ∀ C : Set ℝ, ENNReal.ofReal (μ'.real C / μ.real C) * μ C ≤ μ' C := by
    intro C
    by_cases h0 : μ.real C = 0
    · rw [h0, div_zero, ENNReal.ofReal_zero, zero_mul]; exact zero_le
    · have hpos : 0 < μ.real C := lt_of_le_of_ne measureReal_nonneg (Ne.symm h0)
      have e : μ C = ENNReal.ofReal (μ.real C) := (ofReal_measureReal).symm
      have e' : μ' C = ENNReal.ofReal (μ'.real C) := (ofReal_measureReal).symm
      rw [e, e', ← ENNReal.ofReal_mul (by positivity), div_mul_cancel₀ _ h0]
  have hdens : ∫⁻ y in Aᶜ ∩ Bᶜ, ENNReal.ofReal (gaussianPDFReal m' (sqv s') y / gaussianPDFReal m (sqv s) y) ∂μ = μ' (Aᶜ ∩ Bᶜ) := by
    rw [hμ', gaussianReal_apply _ (sqv_ne hs'), hμ, gaussianReal_of_var_ne_zero _ (sqv_ne hs),
      restrict_withDensity (hA.compl.inter hB.compl), lintegral_withDensity_eq_lintegral_mul _ (measurable_gaussianPDF _ _)]
    · refine lintegral_congr fun y => ?_
      have hp := gaussianPDFReal_pos m (sqv s) y (sqv_ne hs)
      rw [Pi.mul_apply, gaussianPDF, gaussianPDF, ← ENNReal.ofReal_mul hp.le, mul_div_cancel₀ _ hp.ne']
    · exact ((measurable_gaussianPDFReal _ _).div (measurable_gaussianPDFReal _ _)).ennreal_ofReal
  rw [← lintegral_add_compl _ hA]
  refine add_le_add ?_ ?_
  · rw [setLIntegral_congr_fun (g := fun _ => ENNReal.ofReal (μ'.real A / μ.real A)) hA fun y hy => by rw [if_pos hy], setLIntegral_const]
    exact hcell A
  · rw [← lintegral_inter_add_sdiff (μ := μ) _ Aᶜ hB]
    refine add_le_add ?_ ?_
    · rw [setLIntegral_congr_fun (g := fun _ => ENNReal.ofReal (μ'.real B / μ.real B)) (hA.compl.inter hB)
        fun y hy => by rw [if_neg hy.1, if_pos hy.2], setLIntegral_const]
      exact (mul_le_mul_right (measure_mono inter_subset_right) _).trans (hcell B)
    · rw [← hdens, ← sdiff_eq]
      refine le_of_eq (setLIntegral_congr_fun (hA.compl.diff hB) fun y hy => ?_)
      rw [if_neg hy.1, if_neg hy.2]

end Verif.Props
