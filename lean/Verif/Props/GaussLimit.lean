import Verif.Props.GaussCoverage
import Verif.Props.SimLimit
import Verif.Props.PliDraw

/-!
# C205: the confidence curve of the Gaussian linear POD for many simulations
-/

namespace Verif.Props
open Verif.Py Verif.Model MeasureTheory ProbabilityTheory Set Filter Topology Matrix

/-- A law without atoms has a continuous distribution function. -/
theorem cdf_continuous_of (μ : Measure ℝ) [IsProbabilityMeasure μ] (h : ∀ t, μ {t} = 0) : Continuous (cdf μ) := by
  rw [continuous_iff_continuousAt]
  intro x
  have hm : Monotone (cdf μ) := monotone_cdf _
  have h1 : (cdf μ).measure {x} = 0 := by rw [measure_cdf]; exact h x
  rw [StieltjesFunction.measure_singleton, ENNReal.ofReal_eq_zero] at h1
  have h2 := hm.leftLim_le (le_refl x)
  have h3 : Function.rightLim (cdf μ) x = cdf μ x := StieltjesFunction.rightLim_eq _ x
  exact hm.continuousAt_iff_leftLim_eq_rightLim.mpr (by rw [h3]; linarith : Function.leftLim (cdf μ) x = _)

/-- The law of `α(c) g + β(c)` for a standard Gaussian `g` and an independent `c` with a Chi law. -/
noncomputable def affineLaw (m : ℕ) (α β : ℝ → ℝ) : Measure ℝ := ((gaussianReal 0 1).prod (chiLaw m)).map fun p => α p.2 * p.1 + β p.2

section Affine
variable {m : ℕ} (hm : 0 < m) {α β : ℝ → ℝ} (hα : Measurable α) (hβ : Measurable β) (hpos : ∀ c, 0 < c → 0 < α c)
include hα hβ

theorem affine_measurable : Measurable fun p : ℝ × ℝ => α p.2 * p.1 + β p.2 :=
  ((hα.comp measurable_snd).mul measurable_fst).add (hβ.comp measurable_snd)

theorem affineLaw_isProbability : IsProbabilityMeasure (affineLaw m α β) :=
  Measure.isProbabilityMeasure_map (affine_measurable hα hβ).aemeasurable

include hm hpos

theorem affineLaw_null (A : Set ℝ) (hA : MeasurableSet A) :
    affineLaw m α β A = 0 ↔ ∀ᵐ c ∂(chiLaw m), gaussianReal 0 1 {g | α c * g + β c ∈ A} = 0 := by
  have hms : MeasurableSet ((fun p : ℝ × ℝ => α p.2 * p.1 + β p.2) ⁻¹' A) := affine_measurable hα hβ hA
  rw [affineLaw, Measure.map_apply (affine_measurable hα hβ) hA, ← Measure.prod_swap, Measure.map_apply measurable_swap hms,
    Measure.measure_prod_null (measurable_swap hms)]
  rfl

theorem affineLaw_atomless (t : ℝ) : affineLaw m α β {t} = 0 := by
  have : NullSingletonClass (gaussianReal 0 1) := nullSingletonClass_gaussianReal one_ne_zero
  rw [affineLaw_null hm hα hβ hpos _ (measurableSet_singleton t)]
  filter_upwards [chiLaw_pos hm] with c hc
  refine measure_mono_null (t := {(t - β c) / α c}) (fun g hg => ?_) (by simp)
  have hg' : α c * g + β c = t := hg
  rw [mem_singleton_iff, eq_div_iff (hpos c hc).ne', ← hg']
  ring

theorem affineLaw_strictMono : StrictMono (cdf (affineLaw m α β)) := by
  have := affineLaw_isProbability (m := m) hα hβ
  intro s t hst
  rw [cdf_eq_real, cdf_eq_real]
  have hne : affineLaw m α β (Ioc s t) ≠ 0 := by
    intro h
    rw [affineLaw_null hm hα hβ hpos _ measurableSet_Ioc] at h
    obtain ⟨c, h1, h2⟩ := (h.and (chiLaw_pos hm)).exists
    have ha := hpos c h2
    have h3 : {g | α c * g + β c ∈ Ioc s t} = Ioc ((s - β c) / α c) ((t - β c) / α c) := by
      ext g
      simp only [mem_ofPred_eq, mem_Ioc, div_lt_iff₀ ha, le_div_iff₀ ha]
      constructor <;> rintro ⟨h4, h5⟩ <;> constructor <;> linarith
    rw [h3] at h1
    have h4 : 0 < (gaussianReal 0 1).real (Ioc ((s - β c) / α c) ((t - β c) / α c)) := by
      apply gauss_real_pos one_ne_zero
      rw [Real.volume_Ioc]
      simp only [ne_eq, ENNReal.ofReal_eq_zero, not_le]
      rw [← sub_div]
      exact div_pos (by linarith) ha
    rw [Measure.real, h1] at h4
    simp at h4
  have hsplit : (affineLaw m α β).real (Iic t) = (affineLaw m α β).real (Iic s) + (affineLaw m α β).real (Ioc s t) := by
    rw [← measureReal_union (by
      rw [Set.disjoint_left]
      intro u h1 h2
      exact absurd h2.1 (not_lt.mpr h1)) measurableSet_Ioc, Iic_union_Ioc_eq_Iic hst.le]
  rw [hsplit]
  have : 0 < (affineLaw m α β).real (Ioc s t) := by
    rw [Measure.real]
    exact ENNReal.toReal_pos hne (measure_ne_top _ _)
  linarith

theorem affineLaw_quantile (q : ℝ) (h0 : 0 < q) (h1 : q < 1) : ∃ t, cdf (affineLaw m α β) t = q := by
  have := affineLaw_isProbability (m := m) hα hβ
  obtain ⟨a, ha⟩ := ((tendsto_cdf_atBot (affineLaw m α β)).eventually_lt_const h0).exists
  obtain ⟨b, hb⟩ := ((tendsto_cdf_atTop (affineLaw m α β)).eventually_const_lt h1).exists
  exact mem_range_of_exists_le_of_exists_ge (cdf_continuous_of _ (affineLaw_atomless hm hα hβ hpos)) ⟨a, ha.le⟩ ⟨b, hb.le⟩

end Affine

variable {Ω Ω' : Type} [MeasurableSpace Ω] [MeasurableSpace Ω']

/-- The quantile of the first values converges when the quantile of the law is unique. -/
theorem quantile_limit (Q : Measure Ω) [IsProbabilityMeasure Q] (law : Measure ℝ) [IsProbabilityMeasure law] (h : ℝ → ℝ) (hh : Measurable h)
    (x : ℕ → Ω → ℝ) (hx : ∀ k, Measurable (x k)) (hlaw : ∀ k, Q.map (x k) = law) (hind : iIndepFun x Q) (q : ℝ) (hq0 : 0 ≤ q) (hq1 : q ≤ 1) (v : ℝ)
    (hup : ∀ u, v < u → q < law.real {y | h y ≤ u}) (hlow : ∀ u, u < v → law.real {y | h y ≤ u} < q) :
    ∀ᵐ ω ∂Q, Tendsto (fun n : ℕ => quantile ((List.range n).map fun k => h (x k ω)) q) atTop (𝓝 v) := by
  have hall := ae_all_iff.mpr fun r : ℚ => share_tendsto Q law h hh x hx hlaw hind r
  filter_upwards [hall] with ω hall
  have key := fun r : ℚ => quantile_eventually (fun k => h (x k ω)) r _ q hq0 hq1 (hall r)
  have e : ∀ n : ℕ, (List.range n).map (fun k => h (x k ω)) = List.ofFn fun k : Fin n => h (x k ω) := by
    intro n
    apply List.ext_getElem <;> simp
  simp only [e]
  rw [tendsto_order]
  constructor
  · intro u hu
    obtain ⟨r, hr1, hr2⟩ := exists_rat_btwn hu
    filter_upwards [(key r).2 (hlow _ hr2)] with n hn
    exact hr1.trans hn
  · intro u hu
    obtain ⟨r, hr1, hr2⟩ := exists_rat_btwn hu
    filter_upwards [(key r).1 (hup _ hr1)] with n hn
    exact hn.trans_lt hr2

/-- The two variables behind a simulated curve at a size. -/
theorem draw_law {n : ℕ} (x : Fin n → ℝ) (hx : ∃ i j, x i ≠ x j) (a : ℝ) (Ps : Measure Ω') [IsProbabilityMeasure Ps] (z : Ω' → Fin 2 → ℝ) (chi : Ω' → ℝ)
    (hz : NormalVector Ps z ((designMatrix x)ᵀ * designMatrix x)⁻¹) (hcm : Measurable chi) (hchi : Ps.map chi = chiLaw (n - 2)) (hzc : IndepFun z chi Ps) :
    Ps.map (fun ω => ((z ω 0 + z ω 1 * a) / Real.sqrt (lev x a), chi ω)) = (gaussianReal 0 1).prod (chiLaw (n - 2)) := by
  have hn : 0 < n := by obtain ⟨i, -⟩ := hx; exact i.pos
  have hS := sxx_pos x hx
  have hh : 0 < lev x a := by
    have : (0 : ℝ) < n := by exact_mod_cast hn
    unfold lev
    positivity
  have hr : 0 < Real.sqrt (lev x a) := Real.sqrt_pos.mpr hh
  set r := Real.sqrt (lev x a) with hrdef
  let u : Fin 2 → ℝ := ![1 / r, a / r]
  have hum : Measurable fun q : Fin 2 → ℝ => u ⬝ᵥ q := by
    unfold dotProduct
    exact Finset.measurable_sum _ fun i _ => (measurable_pi_apply i).const_mul _
  have he : (fun ω => (z ω 0 + z ω 1 * a) / r) = fun ω => u ⬝ᵥ z ω := by
    funext ω
    simp only [u, dotProduct, Fin.sum_univ_two, Matrix.cons_val_zero, Matrix.cons_val_one]
    ring
  have hi : IndepFun (fun ω => u ⬝ᵥ z ω) chi Ps := hzc.comp hum measurable_id
  have h1 := (indepFun_iff_map_prod_eq_prod_map_map (hum.comp hz.meas).aemeasurable hcm.aemeasurable).mp hi
  have h2 : Ps.map (fun ω => u ⬝ᵥ z ω) = gaussianReal 0 1 := by
    rw [hz.law u]
    congr 1
    have hu : u = (1 / r) • (![1, a] : Fin 2 → ℝ) := by
      funext i
      fin_cases i
      · simp [u]
      · simp [u]; ring
    rw [hu, Matrix.mulVec_smul, smul_dotProduct, dotProduct_smul, leverage_eq x a hx]
    have h3 : (1 / n : ℝ) + (a - smean x) ^ 2 / ∑ i, (x i - smean x) ^ 2 = r ^ 2 := by
      rw [hrdef, Real.sq_sqrt hh.le, lev]
    rw [h3, smul_eq_mul, smul_eq_mul]
    have : 1 / r * (1 / r * r ^ 2) = 1 := by field_simp
    rw [this, Real.toNNReal_one]
  rw [← h2, ← hchi]
  refine Eq.trans ?_ h1
  congr 1
  funext ω
  exact Prod.ext (congrFun he ω) rfl

/-- A simulated curve in terms of these variables. -/
theorem gaussCurve_phi {n : ℕ} (hn : 3 ≤ n) (b0 b1 det z0 z1 se chi a : ℝ) (hse : 0 < se) (hchi : 0 < chi) :
    gaussCurve b0 b1 det z0 z1 (sigmaDraw n se chi) a = Phi ((z0 + z1 * a) + (b0 + b1 * a - det) / (Real.sqrt ((n : ℝ) - 2) * se) * chi) := by
  have hn' : (3 : ℝ) ≤ n := by exact_mod_cast hn
  have hq : 0 < Real.sqrt ((n : ℝ) - 2) := Real.sqrt_pos.mpr (by linarith)
  rw [gaussCurve, PhiC_eq, sigmaDraw, ← Phi_neg]
  congr 1
  field_simp
  ring

/-- The coefficient of the Chi draw. -/
noncomputable def chiFactor {n : ℕ} (x y : Fin n → ℝ) (det a : ℝ) : ℝ := (olsIntercept x y + olsSlope x y * a - det) / (Real.sqrt ((n : ℝ) - 2) * linearStderr x y)

theorem lev_sqrt_pos {n : ℕ} (x : Fin n → ℝ) (hx : ∃ i j, x i ≠ x j) (a : ℝ) : 0 < Real.sqrt (lev x a) := by
  have hn : 0 < n := by obtain ⟨i, -⟩ := hx; exact i.pos
  have hS := sxx_pos x hx
  have : (0 : ℝ) < n := by exact_mod_cast hn
  refine Real.sqrt_pos.mpr ?_
  unfold lev
  positivity

theorem draw_affine {n : ℕ} (x : Fin n → ℝ) (hx : ∃ i j, x i ≠ x j) (a : ℝ) (Ps : Measure Ω') [IsProbabilityMeasure Ps] (z : Ω' → Fin 2 → ℝ) (chi : Ω' → ℝ)
    (hz : NormalVector Ps z ((designMatrix x)ᵀ * designMatrix x)⁻¹) (hcm : Measurable chi) (hchi : Ps.map chi = chiLaw (n - 2)) (hzc : IndepFun z chi Ps) (κ : ℝ) :
    Ps.map (fun ω => (z ω 0 + z ω 1 * a) + κ * chi ω) = affineLaw (n - 2) (fun _ => Real.sqrt (lev x a)) (fun c => κ * c) := by
  have hr := lev_sqrt_pos x hx a
  have hm1 : Measurable fun ω => ((z ω 0 + z ω 1 * a) / Real.sqrt (lev x a), chi ω) :=
    ((((measurable_pi_apply 0).comp hz.meas).add (((measurable_pi_apply 1).comp hz.meas).mul_const a)).div_const _).prodMk hcm
  rw [affineLaw, ← draw_law x hx a Ps z chi hz hcm hchi hzc,
    Measure.map_map (affine_measurable (α := fun _ => Real.sqrt (lev x a)) (β := fun c => κ * c) measurable_const (measurable_id.const_mul κ)) hm1]
  congr 1
  funext ω
  simp only [Function.comp]
  field_simp

/-- The limit of the confidence curve through the quantile of an explicit law. -/
theorem gauss_limit_core {n : ℕ} (hn : 3 ≤ n) (x y : Fin n → ℝ) (hx : ∃ i j, x i ≠ x j) (hse : 0 < linearStderr x y) (det a : ℝ)
    (Ps : Measure Ω') [IsProbabilityMeasure Ps] (z : ℕ → Ω' → Fin 2 → ℝ) (chi : ℕ → Ω' → ℝ)
    (hz : ∀ k, NormalVector Ps (z k) ((designMatrix x)ᵀ * designMatrix x)⁻¹) (hcm : ∀ k, Measurable (chi k))
    (hchi : ∀ k, Ps.map (chi k) = chiLaw (n - 2)) (hzc : ∀ k, IndepFun (z k) (chi k) Ps)
    (hdraw : iIndepFun (fun k ω => (z k ω, chi k ω)) Ps) (c : ℝ) (hc0 : 0 < c) (hc1 : c < 1) :
    ∃ t, (∀ s, (∀ k, Ps.real {ω | gaussCurve (olsIntercept x y) (olsSlope x y) det (z k ω 0) (z k ω 1) (sigmaDraw n (linearStderr x y) (chi k ω)) a ≤ Phi s}
        = cdf (affineLaw (n - 2) (fun _ => Real.sqrt (lev x a)) (fun u => chiFactor x y det a * u)) s)) ∧
      cdf (affineLaw (n - 2) (fun _ => Real.sqrt (lev x a)) (fun u => chiFactor x y det a * u)) t = 1 - c ∧
      ∀ᵐ ω ∂Ps, ∃ w : ℕ → ℝ, (∀ M, 1 ≤ M → gaussClOf x y det (fun k => z k ω) (fun k => chi k ω) M c a = .ok (w M)) ∧ Tendsto w atTop (𝓝 (Phi t)) := by
  have hm : 0 < n - 2 := by omega
  have hr := lev_sqrt_pos x hx a
  set κ := chiFactor x y det a with hκ
  set law := affineLaw (n - 2) (fun _ => Real.sqrt (lev x a)) (fun u => κ * u) with hlawdef
  have hα : Measurable fun _ : ℝ => Real.sqrt (lev x a) := measurable_const
  have hβ : Measurable fun u : ℝ => κ * u := measurable_id.const_mul κ
  have hp : IsProbabilityMeasure law := affineLaw_isProbability hα hβ
  have hmono : StrictMono (cdf law) := affineLaw_strictMono hm hα hβ fun _ _ => hr
  obtain ⟨t, ht⟩ := affineLaw_quantile hm hα hβ (fun _ _ => hr) (1 - c) (by linarith) (by linarith)
  let T : ℕ → Ω' → ℝ := fun k ω => (z k ω 0 + z k ω 1 * a) + κ * chi k ω
  have hq : ∀ i : Fin 2, Measurable fun q : (Fin 2 → ℝ) × ℝ => q.1 i := fun i => (measurable_pi_apply i).comp measurable_fst
  have hfm : Measurable fun q : (Fin 2 → ℝ) × ℝ => (q.1 0 + q.1 1 * a) + κ * q.2 :=
    ((hq 0).add ((hq 1).mul_const a)).add (measurable_snd.const_mul κ)
  have hT : ∀ k, Measurable (T k) := fun k => hfm.comp ((hz k).meas.prodMk (hcm k))
  have hTl : ∀ k, Ps.map (T k) = law := fun k => draw_affine x hx a Ps (z k) (chi k) (hz k) (hcm k) (hchi k) (hzc k) κ
  have hTi : iIndepFun T Ps := hdraw.comp (fun _ q => (q.1 0 + q.1 1 * a) + κ * q.2) fun _ => hfm
  have hcpos : ∀ᵐ ω ∂Ps, ∀ k, 0 < chi k ω := by
    rw [ae_all_iff]
    intro k
    have h1 := chiLaw_pos hm
    rw [← hchi k] at h1
    exact ae_of_ae_map (hcm k).aemeasurable h1
  have hcurve : ∀ᵐ ω ∂Ps, ∀ k, gaussCurve (olsIntercept x y) (olsSlope x y) det (z k ω 0) (z k ω 1) (sigmaDraw n (linearStderr x y) (chi k ω)) a = Phi (T k ω) := by
    filter_upwards [hcpos] with ω h k
    exact gaussCurve_phi hn _ _ _ _ _ _ _ _ hse (h k)
  refine ⟨t, fun s k => ?_, ht, ?_⟩
  · rw [cdf_eq_real, ← hTl k, Measure.real, Measure.real, Measure.map_apply (hT k) measurableSet_Iic]
    congr 1
    apply measure_congr
    filter_upwards [hcurve] with ω h
    apply propext
    change gaussCurve _ _ _ _ _ _ _ ≤ Phi s ↔ T k ω ≤ s
    rw [h k, Phi_strictMono.le_iff_le]
  · have hlim := quantile_limit Ps law Phi Phi_strictMono.monotone.measurable T hT hTl hTi (1 - c) (by linarith) (by linarith) (Phi t)
      (fun u hu => by
        obtain ⟨s, h1, h2⟩ : ∃ s, t < s ∧ Phi s < u := by
          have h := (Phi_continuous.continuousAt (x := t)).eventually_lt_const hu
          obtain ⟨s, h3, h4⟩ := (h.filter_mono nhdsWithin_le_nhds |>.and (self_mem_nhdsWithin (s := Ioi t))).exists
          exact ⟨s, h4, h3⟩
        rw [← ht]
        refine (hmono h1).trans_le ?_
        rw [cdf_eq_real]
        exact measureReal_mono fun w hw => (Phi_strictMono.monotone hw).trans h2.le)
      (fun u hu => by
        obtain ⟨s, h1, h2⟩ : ∃ s, s < t ∧ u < Phi s := by
          have h := (Phi_continuous.continuousAt (x := t)).eventually_const_lt hu
          obtain ⟨s, h3, h4⟩ := (h.filter_mono nhdsWithin_le_nhds |>.and (self_mem_nhdsWithin (s := Iio t))).exists
          exact ⟨s, h4, h3⟩
        rw [← ht]
        refine lt_of_le_of_lt ?_ (hmono h1)
        rw [cdf_eq_real]
        exact measureReal_mono fun w hw => by
          by_contra hc
          exact absurd (Phi_strictMono (not_le.mp hc)) (not_lt.mpr ((show Phi w ≤ u from hw).trans h2.le)))
    filter_upwards [hlim, hcurve] with ω h1 h2
    refine ⟨_, fun M hM => ?_, h1⟩
    rw [gaussCl_eq x y det _ _ M hM c a]
    simp only [h2]

/-- **C205.**  For every data set with different defect sizes and a positive residual standard deviation, the confidence curve at a size converges almost
surely, when the number of simulations grows, to the value which a simulated curve does not exceed with probability `1 - c`. -/
theorem C205_limit {n : ℕ} (hn : 3 ≤ n) (x y : Fin n → ℝ) (hx : ∃ i j, x i ≠ x j) (hse : 0 < linearStderr x y) (det a : ℝ)
    (Ps : Measure Ω') [IsProbabilityMeasure Ps] (z : ℕ → Ω' → Fin 2 → ℝ) (chi : ℕ → Ω' → ℝ)
    (hz : ∀ k, NormalVector Ps (z k) ((designMatrix x)ᵀ * designMatrix x)⁻¹) (hcm : ∀ k, Measurable (chi k))
    (hchi : ∀ k, Ps.map (chi k) = chiLaw (n - 2)) (hzc : ∀ k, IndepFun (z k) (chi k) Ps)
    (hdraw : iIndepFun (fun k ω => (z k ω, chi k ω)) Ps) (c : ℝ) (hc0 : 0 < c) (hc1 : c < 1) :
    ∃ v, 0 < v ∧ v < 1 ∧
      (∀ k, Ps.real {ω | gaussCurve (olsIntercept x y) (olsSlope x y) det (z k ω 0) (z k ω 1) (sigmaDraw n (linearStderr x y) (chi k ω)) a ≤ v} = 1 - c) ∧
      ∀ᵐ ω ∂Ps, ∃ w : ℕ → ℝ, (∀ M, 1 ≤ M → gaussClOf x y det (fun k => z k ω) (fun k => chi k ω) M c a = .ok (w M)) ∧ Tendsto w atTop (𝓝 v) := by
  obtain ⟨t, h1, h2, h3⟩ := gauss_limit_core hn x y hx hse det a Ps z chi hz hcm hchi hzc hdraw c hc0 hc1
  exact ⟨Phi t, Phi_pos t, Phi_lt_one t, fun k => (h1 t k).trans h2, h3⟩

/-- **C205, coverage.**  Whatever function of the data is the limit of the confidence curve, it lies below the true POD with probability exactly `c`. -/
theorem C205_exact_coverage {n : ℕ} (hn : 3 ≤ n) (x : Fin n → ℝ) (hx : ∃ i j, x i ≠ x j) (b0 b1 s det a : ℝ) (hs : 0 < s)
    (Pd : Measure Ω) [IsProbabilityMeasure Pd] (e : Fin n → Ω → ℝ) (he : ∀ i, Measurable (e i)) (hind : iIndepFun e Pd)
    (hlaw : ∀ i, Pd.map (e i) = gaussianReal 0 (sqv s))
    (Ps : Measure Ω') [IsProbabilityMeasure Ps] (z : ℕ → Ω' → Fin 2 → ℝ) (chi : ℕ → Ω' → ℝ)
    (hz : ∀ k, NormalVector Ps (z k) ((designMatrix x)ᵀ * designMatrix x)⁻¹) (hcm : ∀ k, Measurable (chi k))
    (hchi : ∀ k, Ps.map (chi k) = chiLaw (n - 2)) (hzc : ∀ k, IndepFun (z k) (chi k) Ps)
    (hdraw : iIndepFun (fun k ω => (z k ω, chi k ω)) Ps) (c : ℝ) (hc0 : 0 < c) (hc1 : c < 1)
    (V : (Fin n → ℝ) → ℝ)
    (hV : ∀ y, 0 < linearStderr x y → ∀ᵐ ω ∂Ps, Tendsto (fun M => (gaussClOf x y det (fun k => z k ω) (fun k => chi k ω) M c a).toOption.getD 0) atTop (𝓝 (V y))) :
    Pd.real {ω | V (fun i => b0 + b1 * x i + e i ω) ≤ (gaussianReal (b0 + b1 * a) (sqv s)).real (Ioi det)} = c := by
  obtain ⟨m, rfl⟩ : ∃ m, n = m + 2 := ⟨n - 2, by omega⟩
  have hm : 0 < m := by omega
  have hS := sxx_pos x hx
  have hr := lev_sqrt_pos x hx a
  set r := Real.sqrt (lev x a) with hrdef
  set th := (b0 + b1 * a - det) / s with hth
  set P0 := (gaussianReal 0 1).prod (chiLaw m) with hP0
  -- the law of the pivot
  have hα : Measurable fun u : ℝ => r / u := measurable_const.div measurable_id
  have hβ : Measurable fun u : ℝ => th / u := measurable_const.div measurable_id
  have hαp : ∀ u : ℝ, 0 < u → 0 < r / u := fun u hu => div_pos hr hu
  set τ := affineLaw m (fun u => r / u) (fun u => th / u) with hτdef
  have hτp : IsProbabilityMeasure τ := affineLaw_isProbability hα hβ
  have hτm : StrictMono (cdf τ) := affineLaw_strictMono hm hα hβ hαp
  have hτ : τ = P0.map (pivot th r) := by
    rw [hτdef, affineLaw]
    congr 1
    funext p
    simp only [pivot]
    ring
  -- the pivot of the data
  let g : Ω → Fin (m + 2) → ℝ := fun ω i => e i ω / s
  have hgm : Measurable g := measurable_pi_lambda _ fun i => (he i).div_const s
  have hg : Pd.map g = Measure.pi fun _ : Fin (m + 2) => gaussianReal 0 1 := by
    have h1 : iIndepFun (fun i ω => e i ω / s) Pd := hind.comp (fun _ t => t / s) fun _ => measurable_id.div_const s
    have h2 := h1.map_fun_eq_pi_map (fun i => ((he i).div_const s).aemeasurable)
    rw [show g = fun ω i => e i ω / s from rfl, h2]
    congr 1
    funext i
    have h3 : Pd.map (fun ω => e i ω / s) = (Pd.map (e i)).map (fun t => t / s) :=
      (Measure.map_map (measurable_id.div_const s) (he i)).symm
    rw [h3, hlaw i, gaussianReal_map_div_const]
    congr 1
    · simp
    · apply NNReal.coe_injective
      push_cast
      rw [coe_sqv]
      field_simp
  have hDm : Measurable fun g : Fin (m + 2) → ℝ =>
      ((olsIntercept x g + olsSlope x g * a) / r, Real.sqrt (∑ i, olsResiduals x g i ^ 2)) := by
    have hsm : Measurable fun g : Fin (m + 2) → ℝ => smean g := by
      unfold smean
      exact (Finset.measurable_sum _ fun i _ => measurable_pi_apply i).div_const _
    have hsl : Measurable fun g : Fin (m + 2) → ℝ => olsSlope x g := by
      unfold olsSlope
      exact (Finset.measurable_sum _ fun i _ => ((measurable_pi_apply i).sub hsm).const_mul _).div_const _
    have hin : Measurable fun g : Fin (m + 2) → ℝ => olsIntercept x g := by
      unfold olsIntercept
      exact hsm.sub (hsl.mul_const _)
    have hre : ∀ i, Measurable fun g : Fin (m + 2) → ℝ => olsResiduals x g i := by
      intro i
      unfold olsResiduals
      exact (measurable_pi_apply i).sub (hin.add (hsl.mul_const _))
    exact ((hin.add (hsl.mul_const a)).div_const r).prodMk
      (Real.continuous_sqrt.measurable.comp (Finset.measurable_sum _ fun i _ => (hre i).pow_const 2))
  let D : Ω → ℝ × ℝ := fun ω => ((olsIntercept x (g ω) + olsSlope x (g ω) * a) / r, Real.sqrt (∑ i, olsResiduals x (g ω) i ^ 2))
  have hD : Measurable D := hDm.comp hgm
  have hDlaw : Pd.map D = P0 := by
    have h := fit_law x a hS
    rw [← hg, Measure.map_map hDm hgm] at h
    exact h
  have hTm : Measurable fun ω => pivot th r (D ω) := (pivot_measurable th r).comp hD
  have hTlaw : Pd.map (fun ω => pivot th r (D ω)) = τ := by
    rw [hτ, ← hDlaw, Measure.map_map (pivot_measurable th r) hD]; rfl
  have hRpos : ∀ᵐ ω ∂Pd, 0 < (D ω).2 := by
    have h1 : ∀ᵐ p ∂P0, 0 < p.2 := (measurePreserving_snd (μ := gaussianReal 0 1) (ν := chiLaw m)).quasiMeasurePreserving.ae (chiLaw_pos hm)
    rw [← hDlaw] at h1
    exact ae_of_ae_map hD.aemeasurable h1
  have hcpos : ∀ᵐ ω ∂Ps, 0 < chi 0 ω := by
    have h1 := chiLaw_pos hm
    rw [show m = m + 2 - 2 by omega, ← hchi 0] at h1
    exact ae_of_ae_map (hcm 0).aemeasurable h1
  -- the simulated pivot
  have hneg : NormalVector Ps (fun ω => -z 0 ω) ((designMatrix x)ᵀ * designMatrix x)⁻¹ := by
    refine ⟨(hz 0).meas.neg, fun u => ?_⟩
    have h := (hz 0).law (-u)
    have e1 : (fun ω => -u ⬝ᵥ z 0 ω) = fun ω => u ⬝ᵥ -z 0 ω := by
      funext ω
      rw [neg_dotProduct, dotProduct_neg]
    rw [e1] at h
    rw [h]
    congr 2
    rw [Matrix.mulVec_neg, neg_dotProduct, dotProduct_neg, neg_neg]
  have hsl := draw_law x hx a Ps (fun ω => -z 0 ω) (chi 0) hneg (hcm 0) (hchi 0) ((hzc 0).comp measurable_neg measurable_id)
  rw [Nat.add_sub_cancel] at hsl
  simp only [Pi.neg_apply] at hsl
  rw [← hrdef] at hsl
  have hZm : Measurable fun ω => ((-z 0 ω 0 + -z 0 ω 1 * a) / r, chi 0 ω) :=
    ((((measurable_pi_apply 0).comp (hz 0).meas).neg.add (((measurable_pi_apply 1).comp (hz 0).meas).neg.mul_const a)).div_const _).prodMk (hcm 0)
  have hT'law : Ps.map (fun ω => (th - (z 0 ω 0 + z 0 ω 1 * a)) / chi 0 ω) = τ := by
    rw [hτ, hP0, ← hsl, Measure.map_map (pivot_measurable th r) hZm]
    congr 1
    funext ω
    simp only [Function.comp, pivot]
    rw [mul_div_cancel₀ _ hr.ne']
    congr 1
    ring
  have hT'm : Measurable fun ω => (th - (z 0 ω 0 + z 0 ω 1 * a)) / chi 0 ω :=
    ((((measurable_pi_apply 0).comp (hz 0).meas).add (((measurable_pi_apply 1).comp (hz 0).meas).mul_const a)).const_sub th).div (hcm 0)
  -- the true POD
  set p := (gaussianReal (b0 + b1 * a) (sqv s)).real (Ioi det) with hp
  obtain ⟨tp, htp⟩ : ∃ tp, p = Phi tp := ⟨-((det - (b0 + b1 * a)) / s), by rw [hp, gauss_Ioi hs, Phi_neg]⟩
  obtain ⟨tc, htc⟩ := affineLaw_quantile hm hα hβ hαp c hc0 hc1
  have key : ∀ᵐ ω ∂Pd, V (fun i => b0 + b1 * x i + e i ω) ≤ p ↔ pivot th r (D ω) ≤ tc := by
    filter_upwards [hRpos] with ω hR
    let y : Fin (m + 2) → ℝ := fun i => b0 + b1 * x i + e i ω
    have hy : y = fun i => b0 + b1 * x i + s * g ω i := by
      funext i
      simp only [y, g]
      field_simp
    have hse : 0 < linearStderr x y := by
      have h := sigmaDraw_eq hm x (g ω) hS.ne' b0 b1 s hs 1
      rw [← hy, sigmaDraw] at h
      have h2 : 0 < s * Real.sqrt (∑ i, olsResiduals x (g ω) i ^ 2) / 1 := by
        rw [div_one]
        exact mul_pos hs hR
      rw [← h] at h2
      by_contra hc
      have hq := Real.sqrt_nonneg (((m + 2 : ℕ) : ℝ) - 2)
      nlinarith
    obtain ⟨t, h1, h2, h3⟩ := gauss_limit_core hn x y hx hse det a Ps z chi hz hcm hchi hzc hdraw c hc0 hc1
    have hVt : V y = Phi t := by
      obtain ⟨ω', ⟨w, h4, h5⟩, h6⟩ := (h3.and (hV y hse)).exists
      refine tendsto_nhds_unique h6 (h5.congr' ?_)
      filter_upwards [eventually_ge_atTop 1] with M hM
      rw [h4 M hM]
      rfl
    have hmono : StrictMono (cdf (affineLaw (m + 2 - 2) (fun _ => Real.sqrt (lev x a)) (fun u => chiFactor x y det a * u))) :=
      affineLaw_strictMono (by omega) measurable_const (measurable_id.const_mul _) fun _ _ => hr
    change V y ≤ p ↔ _
    rw [hVt, htp, Phi_strictMono.le_iff_le, ← hmono.le_iff_le, h2, ← h1 tp 0, ← htp]
    have h7 : Ps.real {ω | gaussCurve (olsIntercept x y) (olsSlope x y) det (z 0 ω 0) (z 0 ω 1) (sigmaDraw (m + 2) (linearStderr x y) (chi 0 ω)) a ≤ p}
        = 1 - cdf τ (pivot th r (D ω)) := by
      have h8 : Ps.real {ω | gaussCurve (olsIntercept x y) (olsSlope x y) det (z 0 ω 0) (z 0 ω 1) (sigmaDraw (m + 2) (linearStderr x y) (chi 0 ω)) a ≤ p}
          = τ.real (Ici (pivot th r (D ω))) := by
        rw [← hT'law, Measure.real, Measure.real, Measure.map_apply hT'm measurableSet_Ici]
        congr 1
        apply measure_congr
        filter_upwards [hcpos] with ω' hc'
        apply propext
        change gaussCurve _ _ _ _ _ _ _ ≤ p ↔ pivot th r (D ω) ≤ _
        have h := curve_below hm x (g ω) hS.ne' b0 b1 s a det hs hR (z 0 ω' 0) (z 0 ω' 1) (chi 0 ω') hc'
        rw [hy]
        refine h.trans ?_
        have e1 : pivot th r (D ω) = (th + (olsIntercept x (g ω) + olsSlope x (g ω) * a)) / Real.sqrt (∑ i, olsResiduals x (g ω) i ^ 2) := by
          simp only [pivot, D]
          rw [mul_div_cancel₀ _ hr.ne']
        rw [e1]
      rw [h8, cdf_eq_real]
      have h9 : τ.real (Iio (pivot th r (D ω))) = τ.real (Iic (pivot th r (D ω))) := by
        rw [Measure.real, Measure.real]
        congr 1
        have := affineLaw_atomless hm hα hβ hαp (pivot th r (D ω))
        exact measure_congr (Iio_ae_eq_Iic' this)
      rw [← h9, ← compl_Iio, probReal_compl_eq_one_sub measurableSet_Iio]
    rw [h7, ← hτm.le_iff_le (b := tc), htc]
    constructor <;> intro h <;> linarith
  have : Pd.real {ω | V (fun i => b0 + b1 * x i + e i ω) ≤ p} = τ.real (Iic tc) := by
    rw [← hTlaw, Measure.real, Measure.real, Measure.map_apply hTm measurableSet_Iic]
    congr 1
    apply measure_congr
    filter_upwards [key] with ω h
    exact propext h
  rw [this, ← cdf_eq_real, htc]

/-- The hypotheses are met by four sizes, errors of standard deviation 2, the level 0.95, and for `V` the limit itself. -/
example : ∃ Ps : Measure (ℕ → (Fin 2 → ℝ) × ℝ), IsProbabilityMeasure Ps ∧ ∃ V : (Fin 4 → ℝ) → ℝ,
    (∀ y, 0 < linearStderr ![1, 2, 4, 5] y → ∀ᵐ ω ∂Ps, Tendsto (fun M =>
      (gaussClOf (n := 4) ![1, 2, 4, 5] y 9 (fun k => (ω k).1) (fun k => (ω k).2) M (19 / 20) 3).toOption.getD 0) atTop (𝓝 (V y))) ∧
    (Measure.pi fun _ : Fin 4 => gaussianReal 0 (sqv 2)).real {ω | V (fun i => 1 + 3 * (![1, 2, 4, 5] : Fin 4 → ℝ) i + ω i)
      ≤ (gaussianReal (1 + 3 * 3) (sqv 2)).real (Ioi 9)} = 19 / 20 := by
  classical
  obtain ⟨Ps, hp, h1, h2, h3, h4⟩ := gaussDraws_exist (![1, 2, 4, 5] : Fin 4 → ℝ) (4 - 2)
  have hx : ∃ i j, (![1, 2, 4, 5] : Fin 4 → ℝ) i ≠ (![1, 2, 4, 5] : Fin 4 → ℝ) j := ⟨0, 1, by simp⟩
  have hm2 : ∀ k : ℕ, Measurable fun ω : ℕ → (Fin 2 → ℝ) × ℝ => (ω k).2 := fun k => measurable_snd.comp (measurable_pi_apply k)
  have hex : ∀ y, ∃ v, 0 < linearStderr ![1, 2, 4, 5] y → ∀ᵐ ω ∂Ps, Tendsto (fun M =>
      (gaussClOf (n := 4) ![1, 2, 4, 5] y 9 (fun k => (ω k).1) (fun k => (ω k).2) M (19 / 20) 3).toOption.getD 0) atTop (𝓝 v) := by
    intro y
    by_cases hse : 0 < linearStderr ![1, 2, 4, 5] y
    · obtain ⟨v, -, -, -, hv⟩ := C205_limit (by norm_num) _ y hx hse 9 3 Ps (fun k ω => (ω k).1) (fun k ω => (ω k).2) h1 hm2 h2 h3 h4 (19 / 20)
        (by norm_num) (by norm_num)
      refine ⟨v, fun _ => ?_⟩
      filter_upwards [hv] with ω ⟨w, h5, h6⟩
      refine h6.congr' ?_
      filter_upwards [eventually_ge_atTop 1] with M hM
      rw [h5 M hM]
      rfl
    · exact ⟨0, fun h => absurd h hse⟩
  choose V hV using hex
  refine ⟨Ps, hp, V, hV, ?_⟩
  have hi : iIndepFun (fun (i : Fin 4) (ω : Fin 4 → ℝ) => ω i) (Measure.pi fun _ : Fin 4 => gaussianReal 0 (sqv 2)) :=
    iIndepFun_pi (X := fun _ t => t) fun _ => aemeasurable_id
  have hl : ∀ i : Fin 4, (Measure.pi fun _ : Fin 4 => gaussianReal 0 (sqv 2)).map (fun ω => ω i) = gaussianReal 0 (sqv 2) := fun i =>
    (measurePreserving_eval (fun _ : Fin 4 => gaussianReal 0 (sqv 2)) i).map_eq
  exact C205_exact_coverage (Ω := Fin 4 → ℝ) (by norm_num) _ hx 1 3 2 9 3 (by norm_num) _ (fun (i : Fin 4) (ω : Fin 4 → ℝ) => ω i)
    (fun i => measurable_pi_apply i) hi hl Ps (fun k ω => (ω k).1) (fun k ω => (ω k).2) h1 hm2 h2 h3 h4 (19 / 20) (by norm_num) (by norm_num) V hV

end Verif.Props
