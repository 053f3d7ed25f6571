import Verif.Props.CensoredLoss

/-!
# Expected loss of the censored fit under a Gaussian regression
-/

namespace Verif.Props
open Verif.Py Verif.Model ProbabilityTheory MeasureTheory Set Filter Topology
open scoped ENNReal

/-- Size and signal of the regression, from size and error. -/
def sigObs (b0 b1 : ℝ) (w : ℝ × ℝ) : ℝ × ℝ := (w.1, b0 + b1 * w.1 + w.2)

theorem sigObs_meas (b0 b1 : ℝ) : Measurable (sigObs b0 b1) := by unfold sigObs; fun_prop

section
variable {ν : Measure ℝ} [IsProbabilityMeasure ν]

theorem gauss_memLp (s : ℝ) : MemLp (Prod.snd : ℝ × ℝ → ℝ) 2 (ν.prod (gaussianReal 0 (sqv s))) :=
  (memLp_id_gaussianReal 2 : MemLp (fun t : ℝ => t) 2 (gaussianReal 0 (sqv s))).comp_measurePreserving measurePreserving_snd

theorem size_memLp (s : ℝ) (hν : MemLp (fun t : ℝ => t) 2 ν) : MemLp (Prod.fst : ℝ × ℝ → ℝ) 2 (ν.prod (gaussianReal 0 (sqv s))) :=
  hν.comp_measurePreserving measurePreserving_fst

theorem sigObs_integrable (noise sat : Option ℝ) (b0 b1 s : ℝ) (hν : MemLp (fun t : ℝ => t) 2 ν) (W : ℝ × ℝ × ℝ) :
    Integrable (fun w => cLoss noise sat W (sigObs b0 b1 w)) (ν.prod (gaussianReal 0 (sqv s))) := by
  set P := ν.prod (gaussianReal 0 (sqv s)) with hP
  have hm := sigObs_meas b0 b1
  haveI : IsProbabilityMeasure (P.map (sigObs b0 b1)) := Measure.isProbabilityMeasure_map hm.aemeasurable
  have hx := size_memLp s hν
  have he := gauss_memLp (ν := ν) s
  have h1 : MemLp (Prod.fst : ℝ × ℝ → ℝ) 2 (P.map (sigObs b0 b1)) :=
    (memLp_map_measure_iff measurable_fst.aestronglyMeasurable hm.aemeasurable).2 hx
  have h2 : MemLp (Prod.snd : ℝ × ℝ → ℝ) 2 (P.map (sigObs b0 b1)) := by
    refine (memLp_map_measure_iff measurable_snd.aestronglyMeasurable hm.aemeasurable).2 ?_
    have a1 : MemLp (fun w : ℝ × ℝ => b0 + b1 * w.1) 2 P := MemLp.add (memLp_const b0) (MemLp.const_mul hx b1)
    exact MemLp.add a1 he
  exact (cLoss_integrable noise sat W h1 h2).comp_measurable hm

/-- The likelihood ratio has expectation at most one. -/
theorem ratio_lintegral (noise sat : Option ℝ) (hts : ∀ t ∈ noise, ∀ u ∈ sat, t < u) (b0 b1 s : ℝ) (hs : 0 < s) (X : ℝ × ℝ × ℝ)
    (hX : 0 < X.2.2) :
    ∫⁻ w, ENNReal.ofReal (Real.exp (cLoss noise sat (olsen (b0, b1, s)) (sigObs b0 b1 w) - cLoss noise sat (olsen X) (sigObs b0 b1 w)))
      ∂(ν.prod (gaussianReal 0 (sqv s))) ≤ 1 := by
  classical
  have hmeas : Measurable fun o : ℝ × ℝ =>
      ENNReal.ofReal (Real.exp (cLoss noise sat (olsen (b0, b1, s)) o - cLoss noise sat (olsen X) o)) :=
    (Real.measurable_exp.comp ((cLoss_measurable _ _ _).sub (cLoss_measurable _ _ _))).ennreal_ofReal
  have hm2 : Measurable fun w : ℝ × ℝ =>
      ENNReal.ofReal (Real.exp (cLoss noise sat (olsen (b0, b1, s)) (sigObs b0 b1 w) - cLoss noise sat (olsen X) (sigObs b0 b1 w))) :=
    hmeas.comp (sigObs_meas b0 b1)
  rw [lintegral_prod _ hm2.aemeasurable]
  suffices h : ∀ x : ℝ, ∫⁻ e, ENNReal.ofReal (Real.exp (cLoss noise sat (olsen (b0, b1, s)) (sigObs b0 b1 (x, e))
      - cLoss noise sat (olsen X) (sigObs b0 b1 (x, e)))) ∂(gaussianReal 0 (sqv s)) ≤ 1 by
    calc _ ≤ ∫⁻ _x, 1 ∂ν := lintegral_mono h
      _ = 1 := by simp
  intro x
  set m := b0 + b1 * x with hm
  set m' := X.1 + X.2.1 * x with hm'
  have hmap : gaussianReal m (sqv s) = (gaussianReal 0 (sqv s)).map (fun e => m + e) := by
    rw [gaussianReal_map_const_add, zero_add]
  have e1 : ∫⁻ e, ENNReal.ofReal (Real.exp (cLoss noise sat (olsen (b0, b1, s)) (sigObs b0 b1 (x, e))
      - cLoss noise sat (olsen X) (sigObs b0 b1 (x, e)))) ∂(gaussianReal 0 (sqv s))
      = ∫⁻ y, ENNReal.ofReal (Real.exp (cLoss noise sat (olsen (b0, b1, s)) (x, y) - cLoss noise sat (olsen X) (x, y)))
        ∂(gaussianReal m (sqv s)) := by
    have hm3 : Measurable fun y : ℝ =>
        ENNReal.ofReal (Real.exp (cLoss noise sat (olsen (b0, b1, s)) (x, y) - cLoss noise sat (olsen X) (x, y))) :=
      hmeas.comp measurable_prodMk_left
    rw [hmap, lintegral_map hm3 (measurable_const_add m)]
    rfl
  rw [e1]
  have hval : ∀ y : ℝ, Real.exp (cLoss noise sat (olsen (b0, b1, s)) (x, y) - cLoss noise sat (olsen X) (x, y))
      = obsLik id noise sat X (x, y) / obsLik id noise sat (b0, b1, s) (x, y) := by
    intro y
    obtain ⟨p1, q1⟩ := cLoss_obsLik noise sat (b0, b1, s) hs (x, y)
    obtain ⟨p2, q2⟩ := cLoss_obsLik noise sat X hX (x, y)
    rw [show cLoss noise sat (olsen (b0, b1, s)) (x, y) - cLoss noise sat (olsen X) (x, y)
      = Real.log (obsLik id noise sat X (x, y)) - Real.log (obsLik id noise sat (b0, b1, s) (x, y)) by rw [q1, q2]; ring,
      Real.exp_sub, Real.exp_log p1, Real.exp_log p2]
  have hcell : ∀ y : ℝ, ENNReal.ofReal (Real.exp (cLoss noise sat (olsen (b0, b1, s)) (x, y) - cLoss noise sat (olsen X) (x, y)))
      = if y ∈ noisySig noise then
          ENNReal.ofReal ((gaussianReal m' (sqv X.2.2)).real (noisySig noise) / (gaussianReal m (sqv s)).real (noisySig noise))
        else if y ∈ satSig sat then
          ENNReal.ofReal ((gaussianReal m' (sqv X.2.2)).real (satSig sat) / (gaussianReal m (sqv s)).real (satSig sat))
        else ENNReal.ofReal (gaussianPDFReal m' (sqv X.2.2) y / gaussianPDFReal m (sqv s) y) := by
    intro y
    rw [hval y]
    by_cases h1 : y ∈ noisySig noise
    · have h1' : ∃ t ∈ noise, y ≤ t := h1
      simp only [obsLik, if_pos h1', if_pos h1, id_eq]
      obtain ⟨t, ht, -⟩ := h1'
      rw [Option.mem_def] at ht
      subst ht
      rw [noisySig_some]
      rfl
    · have h1' : ¬ ∃ t ∈ noise, y ≤ t := h1
      by_cases h2 : y ∈ satSig sat
      · have h2' : ∃ t ∈ sat, t ≤ y := h2
        simp only [obsLik, if_neg h1', if_neg h1, if_pos h2', if_pos h2, id_eq]
        obtain ⟨t, ht, -⟩ := h2'
        rw [Option.mem_def] at ht
        subst ht
        have hI : ∀ (a c : ℝ), 0 < c → (gaussianReal a (sqv c)).real (Ici t) = (gaussianReal a (sqv c)).real (Ioi t) := by
          intro a c hc
          have := nullSingletonClass_gaussianReal (μ := a) (sqv_ne hc)
          rw [measureReal_def, measureReal_def, measure_congr Ioi_ae_eq_Ici]
        rw [satSig_some, hI _ _ hX, hI _ _ hs]
        rfl
      · have h2' : ¬ ∃ t ∈ sat, t ≤ y := h2
        simp only [obsLik, if_neg h1', if_neg h1, if_neg h2', if_neg h2, id_eq]
        rfl
  simp only [hcell]
  refine (gibbs_ratio m m' s X.2.2 hs hX _ _ (noisySig_meas noise) (satSig_meas sat)).trans ?_
  have hdisj : Disjoint (noisySig noise) (satSig sat) := by
    rw [Set.disjoint_left]
    rintro y ⟨t, ht, hy⟩ ⟨u, hu, hy'⟩
    have := hts t ht u hu
    linarith
  have hA := noisySig_meas noise
  have hB := satSig_meas sat
  rw [← measure_union (by
    rw [Set.disjoint_left]; intro y hy hy'; exact hy'.2 hy) (hA.compl.inter hB.compl), ← measure_union (by
    rw [Set.disjoint_left]
    rintro y hy (hy' | hy')
    · exact Set.disjoint_left.1 hdisj hy hy'
    · exact hy'.1 hy) (hB.union (hA.compl.inter hB.compl))]
  exact prob_le_one

/-- **The true parameters have the least expected loss.** -/
theorem pop_min (noise sat : Option ℝ) (hts : ∀ t ∈ noise, ∀ u ∈ sat, t < u) (b0 b1 s : ℝ) (hs : 0 < s)
    (hν : MemLp (fun t : ℝ => t) 2 ν) (X : ℝ × ℝ × ℝ) (hX : 0 < X.2.2) :
    ∫ w, cLoss noise sat (olsen (b0, b1, s)) (sigObs b0 b1 w) ∂(ν.prod (gaussianReal 0 (sqv s)))
      ≤ ∫ w, cLoss noise sat (olsen X) (sigObs b0 b1 w) ∂(ν.prod (gaussianReal 0 (sqv s))) := by
  set P := ν.prod (gaussianReal 0 (sqv s)) with hP
  have i1 := sigObs_integrable noise sat b0 b1 s hν (olsen (b0, b1, s))
  have i2 := sigObs_integrable noise sat b0 b1 s hν (olsen X)
  set d : ℝ × ℝ → ℝ := fun w => cLoss noise sat (olsen (b0, b1, s)) (sigObs b0 b1 w) - cLoss noise sat (olsen X) (sigObs b0 b1 w) with hd
  have hdm : Measurable d := ((cLoss_measurable _ _ _).comp (sigObs_meas b0 b1)).sub ((cLoss_measurable _ _ _).comp (sigObs_meas b0 b1))
  have hR := ratio_lintegral (ν := ν) noise sat hts b0 b1 s hs X hX
  have hRi : Integrable (fun w => Real.exp (d w)) P := by
    refine ⟨(Real.measurable_exp.comp hdm).aestronglyMeasurable, ?_⟩
    rw [hasFiniteIntegral_iff_ofReal (Eventually.of_forall fun w => (Real.exp_pos _).le)]
    exact lt_of_le_of_lt hR ENNReal.one_lt_top
  have hle : ∫ w, Real.exp (d w) ∂P ≤ 1 := by
    rw [integral_eq_lintegral_of_nonneg_ae (Eventually.of_forall fun w => (Real.exp_pos _).le) hRi.1]
    have := ENNReal.toReal_mono ENNReal.one_ne_top hR
    simpa using this
  have hint : ∫ w, d w ∂P ≤ ∫ w, (Real.exp (d w) - 1) ∂P :=
    integral_mono (i1.sub i2) (hRi.sub (integrable_const 1)) fun w => by
      have := Real.add_one_le_exp (d w)
      show d w ≤ Real.exp (d w) - 1
      linarith
  rw [integral_sub hRi (integrable_const 1), hd, integral_sub i1 i2] at hint
  simp only [integral_const, smul_eq_mul, mul_one, probReal_univ] at hint
  linarith

/-- Sizes in a set of positive probability with a signal in a given interval have positive probability. -/
theorem cell_pos (b0 b1 s : ℝ) (hs : 0 < s) (S : Set ℝ) (hS : MeasurableSet S) (hpos : 0 < ν S) (l h : ℝ) (hlh : l < h) :
    0 < (ν.prod (gaussianReal 0 (sqv s))).real {w | w.1 ∈ S ∧ (sigObs b0 b1 w).2 ∈ Ioo l h} := by
  have hA : MeasurableSet {w : ℝ × ℝ | w.1 ∈ S ∧ (sigObs b0 b1 w).2 ∈ Ioo l h} :=
    (hS.preimage measurable_fst).inter (measurableSet_Ioo.preimage (measurable_snd.comp (sigObs_meas b0 b1)))
  rw [measureReal_def, ENNReal.toReal_pos_iff]
  refine ⟨?_, measure_lt_top _ _⟩
  rw [pos_iff_ne_zero]
  intro h0
  rw [Measure.measure_prod_null hA] at h0
  have : ν S = 0 := by
    have hsub : S ⊆ {x | ¬ (fun x => gaussianReal 0 (sqv s) (Prod.mk x ⁻¹' {w : ℝ × ℝ | w.1 ∈ S ∧ (sigObs b0 b1 w).2 ∈ Ioo l h})) x
        = (0 : ℝ → ℝ≥0∞) x} := by
      intro x hx hz
      have hz : gaussianReal 0 (sqv s) (Prod.mk x ⁻¹' {w : ℝ × ℝ | w.1 ∈ S ∧ (sigObs b0 b1 w).2 ∈ Ioo l h}) = 0 := hz
      have hsub : Ioo (l - (b0 + b1 * x)) (h - (b0 + b1 * x)) ⊆ Prod.mk x ⁻¹' {w : ℝ × ℝ | w.1 ∈ S ∧ (sigObs b0 b1 w).2 ∈ Ioo l h} := by
        intro e he
        refine ⟨hx, ?_, ?_⟩
        · show l < b0 + b1 * x + e
          have := he.1; linarith
        · show b0 + b1 * x + e < h
          have := he.2; linarith
      have h1 := gauss_real_pos (μ := 0) (sqv_ne hs) (s := Ioo (l - (b0 + b1 * x)) (h - (b0 + b1 * x))) (by simp; linarith)
      rw [measureReal_def, measure_mono_null hsub hz] at h1
      simp at h1
    exact measure_mono_null hsub h0
  exact hpos.ne' this

/-- A size that is not almost surely constant is below its mean with positive probability, and above it too. -/
theorem mean_sides (hν : MemLp (fun t : ℝ => t) 2 ν) (hv : 0 < Var[fun t : ℝ => t; ν]) :
    0 < ν (Iio (∫ t, t ∂ν)) ∧ 0 < ν (Ioi (∫ t, t ∂ν)) := by
  set m := ∫ t, t ∂ν with hm
  have hi : Integrable (fun t : ℝ => t) ν := hν.integrable (by norm_num)
  have hvar : Var[fun t : ℝ => t; ν] = ∫ t, (t - m) ^ 2 ∂ν := by
    rw [variance_eq_integral hν.1.aemeasurable]
  have hconst : ¬ (∀ᵐ t ∂ν, t - m = 0) := by
    intro h
    rw [hvar, integral_congr_ae (g := fun _ => (0 : ℝ)) (by filter_upwards [h] with t ht; rw [ht]; ring)] at hv
    simp at hv
  have h0 : ∫ t, (t - m) ∂ν = 0 := by
    rw [integral_sub hi (integrable_const m)]; simp [hm]
  constructor
  · rw [pos_iff_ne_zero]
    intro hz
    apply hconst
    have hge : ∀ᵐ t ∂ν, 0 ≤ t - m := by
      rw [ae_iff]
      refine measure_mono_null (fun t ht => ?_) hz
      have : ¬ 0 ≤ t - m := ht
      show t < m
      linarith
    exact (integral_eq_zero_iff_of_nonneg_ae hge (hi.sub (integrable_const m))).1 h0
  · rw [pos_iff_ne_zero]
    intro hz
    apply hconst
    have hge : ∀ᵐ t ∂ν, 0 ≤ m - t := by
      rw [ae_iff]
      refine measure_mono_null (fun t ht => ?_) hz
      have : ¬ 0 ≤ m - t := ht
      show m < t
      linarith
    have h1 : ∫ t, (m - t) ∂ν = 0 := by
      rw [integral_sub (integrable_const m) hi]; simp [hm]
    filter_upwards [(integral_eq_zero_iff_of_nonneg_ae hge ((integrable_const m).sub hi)).1 h1] with t ht
    have : m - t = 0 := ht
    linarith

/-- Two different lines differ on a set of sizes of positive probability. -/
theorem lines_differ (hν : MemLp (fun t : ℝ => t) 2 ν) (hv : 0 < Var[fun t : ℝ => t; ν]) (α β α' β' : ℝ) (hne : ¬ (α = α' ∧ β = β')) :
    0 < ν {t | α + β * t ≠ α' + β' * t} := by
  obtain ⟨h1, h2⟩ := mean_sides hν hv
  set m := ∫ t, t ∂ν
  by_contra h0
  have h0 : ν {t | α + β * t ≠ α' + β' * t} = 0 := by simpa using h0
  have ex : ∀ A : Set ℝ, 0 < ν A → ∃ t ∈ A, α + β * t = α' + β' * t := by
    intro A hA
    by_contra hcon
    push Not at hcon
    exact hA.ne' (measure_mono_null (fun t ht => hcon t ht) h0)
  obtain ⟨t, ht, e1⟩ := ex _ h1
  obtain ⟨u, hu, e2⟩ := ex _ h2
  have htu : t - u ≠ 0 := by
    have h3 : t < m := ht
    have h4 : m < u := hu
    intro h; linarith
  have e3 : (β - β') * (t - u) = 0 := by linear_combination e1 - e2
  rcases mul_eq_zero.1 e3 with h | h
  · apply hne
    have hb : β = β' := by linarith
    exact ⟨by rw [hb] at e1; linarith, hb⟩
  · exact htu h

/-- **The minimum is unique.** -/
theorem pop_unique (noise sat : Option ℝ) (hts : ∀ t ∈ noise, ∀ u ∈ sat, t < u) (b0 b1 s : ℝ) (hs : 0 < s)
    (hν : MemLp (fun t : ℝ => t) 2 ν) (hv : 0 < Var[fun t : ℝ => t; ν]) (W : ℝ × ℝ × ℝ) (hW : 0 < W.2.2)
    (hne : W ≠ olsen (b0, b1, s)) :
    ∫ w, cLoss noise sat (olsen (b0, b1, s)) (sigObs b0 b1 w) ∂(ν.prod (gaussianReal 0 (sqv s)))
      < ∫ w, cLoss noise sat W (sigObs b0 b1 w) ∂(ν.prod (gaussianReal 0 (sqv s))) := by
  set P := ν.prod (gaussianReal 0 (sqv s)) with hP
  have hV0 : 0 < (olsen (b0, b1, s)).2.2 := olsen_pos _ hs
  set V := olsen (b0, b1, s) with hV
  by_contra hcon
  rw [not_lt] at hcon
  set U : ℝ × ℝ × ℝ := ((V.1 + W.1) / 2, (V.2.1 + W.2.1) / 2, (V.2.2 + W.2.2) / 2) with hU
  have hU0 : 0 < U.2.2 := by show 0 < (V.2.2 + W.2.2) / 2; linarith
  have hUmin := pop_min (ν := ν) noise sat hts b0 b1 s hs hν (olsen U) (olsen_pos U hU0)
  rw [olsen_olsen U hU0, ← hV, ← hP] at hUmin
  have iV := sigObs_integrable noise sat b0 b1 s hν V
  have iW := sigObs_integrable noise sat b0 b1 s hν W
  have iU := sigObs_integrable noise sat b0 b1 s hν U
  set gap : ℝ × ℝ → ℝ := fun w => (cLoss noise sat V (sigObs b0 b1 w) + cLoss noise sat W (sigObs b0 b1 w)) / 2
    - cLoss noise sat U (sigObs b0 b1 w) with hgap
  have igap : Integrable gap P := ((iV.add iW).div_const 2).sub iU
  have hnn : ∀ w, 0 ≤ gap w := by
    intro w
    have := (cLoss_convex noise sat (sigObs b0 b1 w)).2 (show V ∈ {W : ℝ × ℝ × ℝ | 0 < W.2.2} from hV0) (show W ∈ _ from hW)
      (by norm_num : (0 : ℝ) ≤ 1 / 2) (by norm_num : (0 : ℝ) ≤ 1 / 2) (by norm_num)
    have e : (1 / 2 : ℝ) • V + (1 / 2 : ℝ) • W = U := by
      rw [hU]
      refine Prod.ext ?_ (Prod.ext ?_ ?_)
      · show 1 / 2 * V.1 + 1 / 2 * W.1 = (V.1 + W.1) / 2; ring
      · show 1 / 2 * V.2.1 + 1 / 2 * W.2.1 = (V.2.1 + W.2.1) / 2; ring
      · show 1 / 2 * V.2.2 + 1 / 2 * W.2.2 = (V.2.2 + W.2.2) / 2; ring
    rw [e] at this
    simp only [smul_eq_mul] at this
    simp only [hgap]
    linarith
  have hzero : ∫ w, gap w ∂P ≤ 0 := by
    have : ∫ w, gap w ∂P = (∫ w, cLoss noise sat V (sigObs b0 b1 w) ∂P + ∫ w, cLoss noise sat W (sigObs b0 b1 w) ∂P) / 2
        - ∫ w, cLoss noise sat U (sigObs b0 b1 w) ∂P := by
      have e1 := integral_sub ((iV.add iW).div_const 2) iU
      have e2 := integral_add iV iW
      rw [← e2, ← integral_div]
      exact e1
    rw [this]; linarith
  obtain ⟨l, h, hlh, hkept⟩ := keptSig_interval noise sat hts
  have hpos : 0 < ∫ w, gap w ∂P := by
    rw [integral_pos_iff_support_of_nonneg hnn igap]
    have hstrict : ∀ w : ℝ × ℝ, (sigObs b0 b1 w).2 ∈ Ioo l h →
        (V.2.2 ≠ W.2.2 ∨ V.2.2 = W.2.2 ∧ V.1 + V.2.1 * w.1 ≠ W.1 + W.2.1 * w.1) → w ∈ Function.support gap := by
      intro w hw hd
      have := cLoss_strict noise sat (sigObs b0 b1 w) (hkept hw) V.1 V.2.1 V.2.2 W.1 W.2.1 W.2.2 hV0 hW hd
      rw [Function.mem_support, hgap]
      have e : cLoss noise sat U (sigObs b0 b1 w)
          = cLoss noise sat ((V.1 + W.1) / 2, (V.2.1 + W.2.1) / 2, (V.2.2 + W.2.2) / 2) (sigObs b0 b1 w) := rfl
      simp only
      rw [e]
      have : cLoss noise sat (V.1, V.2.1, V.2.2) (sigObs b0 b1 w) = cLoss noise sat V (sigObs b0 b1 w) := rfl
      have : cLoss noise sat (W.1, W.2.1, W.2.2) (sigObs b0 b1 w) = cLoss noise sat W (sigObs b0 b1 w) := rfl
      intro h0
      linarith
    by_cases hθ : V.2.2 = W.2.2
    · have hl : ¬ (V.1 = W.1 ∧ V.2.1 = W.2.1) := by
        rintro ⟨a1, a2⟩
        exact hne (Prod.ext a1.symm (Prod.ext a2.symm hθ.symm))
      have hS := lines_differ hν hv V.1 V.2.1 W.1 W.2.1 hl
      have hSm : MeasurableSet {t : ℝ | V.1 + V.2.1 * t ≠ W.1 + W.2.1 * t} :=
        (measurableSet_eq_fun (by fun_prop) (by fun_prop)).compl
      have hc := cell_pos b0 b1 s hs _ hSm hS l h hlh
      rw [measureReal_def, ENNReal.toReal_pos_iff] at hc
      exact lt_of_lt_of_le hc.1 (measure_mono fun w hw => hstrict w hw.2 (Or.inr ⟨hθ, hw.1⟩))
    · have hc := cell_pos (ν := ν) b0 b1 s hs univ MeasurableSet.univ (by simp) l h hlh
      rw [measureReal_def, ENNReal.toReal_pos_iff] at hc
      exact lt_of_lt_of_le hc.1 (measure_mono fun w hw => hstrict w hw.2 (Or.inl hθ))
  linarith

end

end Verif.Props
