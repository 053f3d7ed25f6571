import Verif.Model.GaussCl
import Verif.Props.ChiLaw
import Verif.Props.RankLaw
import Verif.Props.MeanCurve
import Mathlib.Probability.Independence.InfinitePi

/-!
# Coverage of the confidence curve of the Gaussian linear POD (C128)
-/

namespace Verif.Props
open Verif.Py Verif.Model MeasureTheory ProbabilityTheory Set Filter Topology Matrix

/-- The confidence curve of a collection is the quantile of its values. -/
theorem gaussCl_eq {n : ℕ} (x y : Fin n → ℝ) (det : ℝ) (z : ℕ → Fin 2 → ℝ) (chi : ℕ → ℝ) (M : ℕ) (hM : 1 ≤ M) (c a : ℝ) :
    gaussClOf x y det z chi M c a = .ok (quantile ((List.range M).map fun k =>
      gaussCurve (olsIntercept x y) (olsSlope x y) det (z k 0) (z k 1) (sigmaDraw n (linearStderr x y) (chi k)) a) (1 - c)) := by
  rw [gaussClOf, podClFromCollection, collect_range _ _ _ (fun i hi => by simpa [gaussColl] using hi)]
  have hmap : ((List.range M).map fun i =>
      ((gaussColl n (olsIntercept x y) (olsSlope x y) (linearStderr x y) det z chi M).getD i fun _ => 0) a)
      = (List.range M).map fun k =>
        gaussCurve (olsIntercept x y) (olsSlope x y) det (z k 0) (z k 1) (sigmaDraw n (linearStderr x y) (chi k)) a := by
    apply List.map_congr_left
    intro k hk
    have hk' : k < M := by simpa using hk
    simp [gaussColl, List.getD_eq_getElem?_getD, hk']
  rw [hmap]
  have hne : ((List.range M).map fun k =>
      gaussCurve (olsIntercept x y) (olsSlope x y) det (z k 0) (z k 1) (sigmaDraw n (linearStderr x y) (chi k)) a) ≠ [] := by
    simp; omega
  simp only [if_neg hne]

/-- A simulated residual standard deviation. -/
theorem sigmaDraw_eq {m : ℕ} (hm : 0 < m) (x g : Fin (m + 2) → ℝ) (hS : ∑ i, (x i - smean x) ^ 2 ≠ 0) (b0 b1 s : ℝ) (hs : 0 < s) (chi : ℝ) :
    sigmaDraw (m + 2) (linearStderr x fun i => b0 + b1 * x i + s * g i) chi = s * Real.sqrt (∑ i, olsResiduals x g i ^ 2) / chi := by
  obtain ⟨-, hres⟩ := fit_scaled x g b0 b1 s 0 (by omega) hS
  have hm' : (0 : ℝ) < m := by exact_mod_cast hm
  have hsq : 0 < Real.sqrt m := Real.sqrt_pos.mpr hm'
  set y := fun i => b0 + b1 * x i + s * g i
  set R := Real.sqrt (∑ i, olsResiduals x g i ^ 2) with hRdef
  have hse : linearStderr x y = s * R / Real.sqrt m := by
    rw [linearStderr, linearScale]
    have : ∑ i, olsResiduals x y i ^ 2 = s ^ 2 * ∑ i, olsResiduals x g i ^ 2 := by
      rw [Finset.mul_sum]
      exact Finset.sum_congr rfl fun i _ => by rw [hres i]; ring
    rw [this, show (((m + 2 : ℕ) : ℝ) - 2) = m by push_cast; ring, Real.sqrt_div (by positivity), Real.sqrt_mul (sq_nonneg s),
      Real.sqrt_sq hs.le]
  rw [sigmaDraw, hse, show (((m + 2 : ℕ) : ℝ) - 2) = m by push_cast; ring]
  field_simp

/-- A simulated curve is below the true POD exactly when the pivot of the data is below the simulated pivot. -/
theorem curve_below {m : ℕ} (hm : 0 < m) (x g : Fin (m + 2) → ℝ) (hS : ∑ i, (x i - smean x) ^ 2 ≠ 0) (b0 b1 s a det : ℝ) (hs : 0 < s)
    (hR : 0 < Real.sqrt (∑ i, olsResiduals x g i ^ 2)) (z0 z1 chi : ℝ) (hchi : 0 < chi) :
    let y := fun i => b0 + b1 * x i + s * g i
    let th := (b0 + b1 * a - det) / s
    gaussCurve (olsIntercept x y) (olsSlope x y) det z0 z1 (sigmaDraw (m + 2) (linearStderr x y) chi) a
        ≤ (gaussianReal (b0 + b1 * a) (sqv s)).real (Ioi det) ↔
      (th + (olsIntercept x g + olsSlope x g * a)) / Real.sqrt (∑ i, olsResiduals x g i ^ 2) ≤ (th - (z0 + z1 * a)) / chi := by
  intro y th
  obtain ⟨hfit, -⟩ := fit_scaled x g b0 b1 s a (by omega) hS
  set R := Real.sqrt (∑ i, olsResiduals x g i ^ 2) with hRdef
  have hsig : sigmaDraw (m + 2) (linearStderr x y) chi = s * R / chi := sigmaDraw_eq hm x g hS b0 b1 s hs chi
  rw [hsig, gauss_Ioi hs, gaussCurve, PhiC_eq]
  set fg := olsIntercept x g + olsSlope x g * a with hfg
  have hsum : z0 * (s * R / chi) + olsIntercept x y + (z1 * (s * R / chi) + olsSlope x y) * a
      = (b0 + b1 * a + s * fg) + (z0 + z1 * a) * (s * R / chi) := by
    have := hfit
    simp only [y]
    linarith
  rw [hsum, sub_le_sub_iff_left, Phi_strictMono.le_iff_le, div_le_div_iff₀ hs (by positivity), div_le_div_iff₀ hR hchi]
  have hd : b0 + b1 * a = det + s * th := by simp only [th]; field_simp; ring
  have e1 : (det - (b0 + b1 * a)) * (s * R / chi) = - (s * th) * (s * R / chi) := by rw [hd]; ring
  have e2 : (det - (b0 + b1 * a + s * fg + (z0 + z1 * a) * (s * R / chi))) * s
      = - (s * th + s * fg + (z0 + z1 * a) * (s * R / chi)) * s := by rw [hd]; ring
  rw [e1, e2]
  have hk : 0 < s * s / chi := by positivity
  have e3 : -(s * th) * (s * R / chi) = (s * s / chi) * (-(th * R)) := by field_simp
  have e4 : -(s * th + s * fg + (z0 + z1 * a) * (s * R / chi)) * s
      = (s * s / chi) * (-((th + fg) * chi + (z0 + z1 * a) * R)) := by field_simp
  rw [e3, e4, mul_le_mul_iff_right₀ hk]
  constructor <;> intro h <;> nlinarith

/-- The pivot. -/
noncomputable def pivot (th r : ℝ) (p : ℝ × ℝ) : ℝ := (th + r * p.1) / p.2

theorem pivot_measurable (th r : ℝ) : Measurable (pivot th r) :=
  ((measurable_fst.const_mul r).const_add th).div measurable_snd

theorem pivot_atomless {m : ℕ} (hm : 0 < m) (th r : ℝ) (hr : 0 < r) (v : ℝ) :
    (((gaussianReal 0 1).prod (chiLaw m)).map (pivot th r)) {v} = 0 := by
  have : NullSingletonClass (gaussianReal 0 1) := nullSingletonClass_gaussianReal one_ne_zero
  rw [Measure.map_apply (pivot_measurable th r) (measurableSet_singleton v)]
  have hms : MeasurableSet (pivot th r ⁻¹' {v}) := pivot_measurable th r (measurableSet_singleton v)
  rw [← Measure.prod_swap, Measure.map_apply measurable_swap hms, Measure.measure_prod_null (measurable_swap hms)]
  filter_upwards [chiLaw_pos hm] with t ht
  change (gaussianReal 0 1) _ = 0
  refine measure_mono_null (t := {(v * t - th) / r}) (fun w hw => ?_) (by simp)
  have hw' : (th + r * w) / t = v := hw
  rw [mem_singleton_iff, eq_div_iff hr.ne', ← hw']
  field_simp
  ring

variable {Ω Ω' : Type*} [MeasurableSpace Ω] [MeasurableSpace Ω']

/-- The event that the confidence curve is below the true POD lies between two measurable events of known probability. -/
theorem coverage_sets {n : ℕ} (hn : 3 ≤ n) (x : Fin n → ℝ) (hx : ∃ i j, x i ≠ x j) (b0 b1 s det a : ℝ) (hs : 0 < s)
    (Pd : Measure Ω) [IsProbabilityMeasure Pd] (e : Fin n → Ω → ℝ) (he : ∀ i, Measurable (e i)) (hind : iIndepFun e Pd)
    (hlaw : ∀ i, Pd.map (e i) = gaussianReal 0 (sqv s))
    (Ps : Measure Ω') [IsProbabilityMeasure Ps] (z : ℕ → Ω' → Fin 2 → ℝ) (chi : ℕ → Ω' → ℝ)
    (hz : ∀ k, NormalVector Ps (z k) ((designMatrix x)ᵀ * designMatrix x)⁻¹) (hcm : ∀ k, Measurable (chi k))
    (hchi : ∀ k, Ps.map (chi k) = chiLaw (n - 2)) (hzc : ∀ k, IndepFun (z k) (chi k) Ps)
    (hdraw : iIndepFun (fun k ω => (z k ω, chi k ω)) Ps) (M : ℕ) (hM : 1 ≤ M) (c : ℝ) (hc0 : 0 ≤ c) (hc1 : c ≤ 1) :
    ∃ L U : Set (Ω × Ω'), MeasurableSet L ∧ MeasurableSet U ∧
      (∀ᵐ ω ∂(Pd.prod Ps), ω ∈ L → ∃ v, gaussClOf x (fun i => b0 + b1 * x i + e i ω.1) det (fun k => z k ω.2) (fun k => chi k ω.2) M c a = .ok v ∧
        v ≤ (gaussianReal (b0 + b1 * a) (sqv s)).real (Ioi det)) ∧
      (∀ᵐ ω ∂(Pd.prod Ps), (∃ v, gaussClOf x (fun i => b0 + b1 * x i + e i ω.1) det (fun k => z k ω.2) (fun k => chi k ω.2) M c a = .ok v ∧
        v ≤ (gaussianReal (b0 + b1 * a) (sqv s)).real (Ioi det)) → ω ∈ U) ∧
      c - 3 / 2 / (M + 1) ≤ (Pd.prod Ps).real L ∧ (Pd.prod Ps).real U ≤ c + 3 / 2 / (M + 1) ∧
      ∀ᵐ ω ∂(Pd.prod Ps), ∀ k, 0 < sigmaDraw n (linearStderr x fun i => b0 + b1 * x i + e i ω.1) (chi k ω.2) := by
  obtain ⟨m, rfl⟩ : ∃ m, n = m + 2 := ⟨n - 2, by omega⟩
  have hm : 0 < m := by omega
  rw [Nat.add_sub_cancel] at hchi
  have hS := sxx_pos x hx
  have hh : 0 < lev x a := by
    have : (0 : ℝ) < (m + 2 : ℕ) := by positivity
    unfold lev
    positivity
  have hr : 0 < Real.sqrt (lev x a) := Real.sqrt_pos.mpr hh
  set r := Real.sqrt (lev x a) with hrdef
  set th := (b0 + b1 * a - det) / s with hth
  set P0 := (gaussianReal 0 1).prod (chiLaw m) with hP0
  set τ := P0.map (pivot th r) with hτ
  have hτp : IsProbabilityMeasure τ := Measure.isProbabilityMeasure_map (pivot_measurable th r).aemeasurable
  -- the pivot of the data
  let g : Ω → Fin (m + 2) → ℝ := fun ω i => e i ω / s
  have hgm : Measurable g := measurable_pi_lambda _ fun i => (he i).div_const s
  have hg : Pd.map g = Measure.pi fun _ : Fin (m + 2) => gaussianReal 0 1 := by
    have h1 : iIndepFun (fun i ω => e i ω / s) Pd := hind.comp (fun _ t => t / s) fun _ => measurable_id.div_const s
    have h2 := h1.map_fun_eq_pi_map (fun i => ((he i).div_const s).aemeasurable)
    rw [show g = fun ω i => e i ω / s from rfl, h2]
    congr 1
    funext i
    have h3 : Pd.map (fun ω => e i ω / s) = (Pd.map (e i)).map (fun t => t / s) :=
      (Measure.map_map (measurable_id.div_const s) (he i)).symm
    rw [h3, hlaw i, gaussianReal_map_div_const]
    congr 1
    · simp
    · apply NNReal.coe_injective
      push_cast
      rw [coe_sqv]
      field_simp
  have hDm : Measurable fun g : Fin (m + 2) → ℝ =>
      ((olsIntercept x g + olsSlope x g * a) / r, Real.sqrt (∑ i, olsResiduals x g i ^ 2)) := by
    have hsm : Measurable fun g : Fin (m + 2) → ℝ => smean g := by
      unfold smean
      exact (Finset.measurable_sum _ fun i _ => measurable_pi_apply i).div_const _
    have hsl : Measurable fun g : Fin (m + 2) → ℝ => olsSlope x g := by
      unfold olsSlope
      exact (Finset.measurable_sum _ fun i _ => ((measurable_pi_apply i).sub hsm).const_mul _).div_const _
    have hin : Measurable fun g : Fin (m + 2) → ℝ => olsIntercept x g := by
      unfold olsIntercept
      exact hsm.sub (hsl.mul_const _)
    have hre : ∀ i, Measurable fun g : Fin (m + 2) → ℝ => olsResiduals x g i := by
      intro i
      unfold olsResiduals
      exact (measurable_pi_apply i).sub (hin.add (hsl.mul_const _))
    exact ((hin.add (hsl.mul_const a)).div_const r).prodMk
      (Real.continuous_sqrt.measurable.comp (Finset.measurable_sum _ fun i _ => (hre i).pow_const 2))
  let D : Ω → ℝ × ℝ := fun ω => ((olsIntercept x (g ω) + olsSlope x (g ω) * a) / r, Real.sqrt (∑ i, olsResiduals x (g ω) i ^ 2))
  have hD : Measurable D := hDm.comp hgm
  have hDlaw : Pd.map D = P0 := by
    have h := fit_law x a hS
    rw [← hg, Measure.map_map hDm hgm] at h
    exact h
  have hT : Measurable fun ω => pivot th r (D ω) := (pivot_measurable th r).comp hD
  have hTlaw : Pd.map (fun ω => pivot th r (D ω)) = τ := by
    rw [hτ, ← hDlaw, Measure.map_map (pivot_measurable th r) hD]; rfl
  -- the simulated pivots
  let u : Fin 2 → ℝ := ![-(1 / r), -(a / r)]
  let Z : (Fin 2 → ℝ) × ℝ → ℝ × ℝ := fun q => (u ⬝ᵥ q.1, q.2)
  have hum : Measurable fun q : Fin 2 → ℝ => u ⬝ᵥ q := by
    unfold dotProduct
    exact Finset.measurable_sum _ fun i _ => (measurable_pi_apply i).const_mul _
  have hZ : Measurable Z := (hum.comp measurable_fst).prodMk measurable_snd
  have hdm : ∀ k, Measurable fun ω => (z k ω, chi k ω) := fun k => (hz k).meas.prodMk (hcm k)
  have hSlaw : ∀ k, Ps.map (fun ω => Z (z k ω, chi k ω)) = P0 := by
    intro k
    have hi : IndepFun (fun ω => u ⬝ᵥ z k ω) (chi k) Ps := (hzc k).comp hum measurable_id
    have h1 := (indepFun_iff_map_prod_eq_prod_map_map (hum.comp (hz k).meas).aemeasurable (hcm k).aemeasurable).mp hi
    have h2 : Ps.map (fun ω => u ⬝ᵥ z k ω) = gaussianReal 0 1 := by
      rw [(hz k).law u]
      congr 1
      have hu : u = (-(1 / r)) • (![1, a] : Fin 2 → ℝ) := by
        funext i
        fin_cases i
        · simp [u]
        · simp [u]; ring
      rw [hu, Matrix.mulVec_smul, smul_dotProduct, dotProduct_smul, leverage_eq x a hx]
      have h3 : (1 / (m + 2 : ℕ) : ℝ) + (a - smean x) ^ 2 / ∑ i, (x i - smean x) ^ 2 = r ^ 2 := by
        rw [hrdef, Real.sq_sqrt hh.le, lev]
      rw [h3, smul_eq_mul, smul_eq_mul]
      have : -(1 / r) * (-(1 / r) * r ^ 2) = 1 := by field_simp
      rw [this, Real.toNNReal_one]
    rw [hP0, ← h2, ← hchi k]
    exact h1
  let T' : ℕ → Ω' → ℝ := fun k ω => pivot th r (Z (z k ω, chi k ω))
  have hT' : ∀ k, Measurable (T' k) := fun k => (pivot_measurable th r).comp (hZ.comp (hdm k))
  have hT'k : ∀ k, Ps.map (T' k) = τ := by
    intro k
    have hZd : Measurable fun ω => Z (z k ω, chi k ω) := hZ.comp (hdm k)
    rw [hτ, ← hSlaw k, Measure.map_map (pivot_measurable th r) hZd]; rfl
  have hT'law : Ps.map (fun ω (k : Fin M) => T' k ω) = Measure.pi fun _ => τ := by
    have h1 : iIndepFun T' Ps := hdraw.comp (fun _ q => pivot th r (Z q)) fun _ => (pivot_measurable th r).comp hZ
    have h2 : iIndepFun (fun (k : Fin M) ω => T' k ω) Ps := h1.precomp Fin.val_injective
    rw [iIndepFun.map_fun_eq_pi_map (f := fun (k : Fin M) ω => T' k ω) (fun k => (hT' k).aemeasurable) h2]
    congr 1
    funext k
    exact hT'k k
  have huni := fun j hj => above_uniform τ (pivot_atomless hm th r hr) Pd Ps (fun ω => pivot th r (D ω)) T' hT hT' M hTlaw hT'law j hj
  -- the positivity of the norms
  have hRpos : ∀ᵐ ω ∂(Pd.prod Ps), 0 < (D ω.1).2 := by
    have h1 : ∀ᵐ p ∂P0, 0 < p.2 := (measurePreserving_snd (μ := gaussianReal 0 1) (ν := chiLaw m)).quasiMeasurePreserving.ae (chiLaw_pos hm)
    rw [← hDlaw] at h1
    have h2 := ae_of_ae_map hD.aemeasurable h1
    exact Measure.quasiMeasurePreserving_fst.ae h2
  have hcpos : ∀ᵐ ω ∂(Pd.prod Ps), ∀ k, 0 < chi k ω.2 := by
    have h1 : ∀ᵐ ω ∂Ps, ∀ k, 0 < chi k ω := by
      rw [ae_all_iff]
      intro k
      have h1 := chiLaw_pos hm
      rw [← hchi k] at h1
      exact ae_of_ae_map (hcm k).aemeasurable h1
    exact Measure.quasiMeasurePreserving_snd.ae h1
  -- the event and the counts
  set E := {ω : Ω × Ω' | ∃ v, gaussClOf x (fun i => b0 + b1 * x i + e i ω.1) det (fun k => z k ω.2) (fun k => chi k ω.2) M c a = .ok v ∧
        v ≤ (gaussianReal (b0 + b1 * a) (sqv s)).real (Ioi det)} with hE
  set p := (gaussianReal (b0 + b1 * a) (sqv s)).real (Ioi det) with hp
  let cnt : Ω × Ω' → ℕ := fun ω => ((Finset.range M).filter fun k => pivot th r (D ω.1) ≤ T' k ω.2).card
  obtain ⟨J, hJM, hJ1, hJ2, hJ⟩ := quantile_count (xs := List.range M |>.map fun _ => (0 : ℝ)) (by simp; omega)
    (show 0 ≤ 1 - c by linarith) (show 1 - c ≤ 1 by linarith)
  simp only [List.length_map, List.length_range] at hJM hJ1 hJ2 hJ
  have key : ∀ᵐ ω ∂(Pd.prod Ps), (J + 1 ≤ cnt ω → ω ∈ E) ∧ (ω ∈ E → J ≤ cnt ω) := by
    filter_upwards [hRpos, hcpos] with ω h1 h2
    let y : Fin (m + 2) → ℝ := fun i => b0 + b1 * x i + e i ω.1
    have hy : y = fun i => b0 + b1 * x i + s * g ω.1 i := by
      funext i
      simp only [y, g]
      field_simp
    let cv : ℕ → ℝ := fun k =>
      gaussCurve (olsIntercept x y) (olsSlope x y) det (z k ω.2 0) (z k ω.2 1) (sigmaDraw (m + 2) (linearStderr x y) (chi k ω.2)) a
    have hcv : ∀ k, cv k ≤ p ↔ pivot th r (D ω.1) ≤ T' k ω.2 := by
      intro k
      have h := curve_below hm x (g ω.1) hS.ne' b0 b1 s a det hs h1 (z k ω.2 0) (z k ω.2 1) (chi k ω.2) (h2 k)
      simp only [cv, hy]
      refine h.trans ?_
      rw [← hth]
      have e1 : pivot th r (D ω.1) = (th + (olsIntercept x (g ω.1) + olsSlope x (g ω.1) * a)) / Real.sqrt (∑ i, olsResiduals x (g ω.1) i ^ 2) := by
        simp only [pivot, D]
        rw [mul_div_cancel₀ _ hr.ne']
      have e2 : T' k ω.2 = (th - (z k ω.2 0 + z k ω.2 1 * a)) / chi k ω.2 := by
        simp only [T', pivot, Z, u, dotProduct, Fin.sum_univ_two, Matrix.cons_val_zero, Matrix.cons_val_one]
        congr 1
        field_simp
        ring
      rw [e1, e2]
    have hcount : ((List.range M).map cv).countP (fun t => decide (t ≤ p)) = cnt ω := by
      rw [List.countP_map]
      simp only [Function.comp_def, hcv, cnt]
      rw [List.countP_eq_length_filter]
      rfl
    have hEω : ω ∈ E ↔ quantile ((List.range M).map cv) (1 - c) ≤ p := by
      rw [hE, mem_ofPred_eq]
      have h := gaussCl_eq x y det (fun k => z k ω.2) (fun k => chi k ω.2) M hM c a
      rw [show (fun i => b0 + b1 * x i + e i ω.1) = y from rfl, h]
      constructor
      · rintro ⟨v, hv, hvp⟩
        rw [Except.ok.injEq] at hv
        rw [← hv] at hvp
        exact hvp
      · intro h'
        exact ⟨_, rfl, h'⟩
    have := hJ ((List.range M).map cv) (by simp) p
    rw [hcount, ← hEω] at this
    exact this
  have hM' : (0 : ℝ) < (M : ℝ) + 1 := by positivity
  have hmc : Measurable cnt := by
    simp only [cnt, Finset.card_filter]
    refine Finset.measurable_sum _ fun k _ => ?_
    exact Measurable.ite (measurableSet_le (hT.comp measurable_fst) ((hT' k).comp measurable_snd)) measurable_const measurable_const
  have hup : (Pd.prod Ps).real {ω | J ≤ cnt ω} = ((M : ℝ) + 1 - J) / (M + 1) := huni J (by omega)
  have hlow : (Pd.prod Ps).real {ω | J + 1 ≤ cnt ω} = ((M : ℝ) + 1 - (J + 1 : ℕ)) / (M + 1) := huni (J + 1) (by omega)
  refine ⟨{ω | J + 1 ≤ cnt ω}, {ω | J ≤ cnt ω}, hmc measurableSet_Ici, hmc measurableSet_Ici, ?_, ?_, ?_, ?_, ?_⟩
  · filter_upwards [key] with ω h using h.1
  · filter_upwards [key] with ω h using h.2
  · rw [hlow, sub_le_iff_le_add, ← add_div, le_div_iff₀ hM']
    push_cast
    nlinarith
  · rw [hup, ← sub_le_iff_le_add, ← sub_div, div_le_iff₀ hM']
    nlinarith
  · filter_upwards [hRpos, hcpos] with ω h1 h2 k
    have hy : (fun i => b0 + b1 * x i + e i ω.1) = fun i => b0 + b1 * x i + s * g ω.1 i := by
      funext i
      simp only [g]
      field_simp
    rw [hy, sigmaDraw_eq hm x (g ω.1) hS.ne' b0 b1 s hs]
    exact div_pos (mul_pos hs h1) (h2 k)

/-- **C128.**  Coverage of the confidence curve of the Gaussian linear POD, for every number of simulations. -/
theorem C128_coverage {n : ℕ} (hn : 3 ≤ n) (x : Fin n → ℝ) (hx : ∃ i j, x i ≠ x j) (b0 b1 s det a : ℝ) (hs : 0 < s)
    (Pd : Measure Ω) [IsProbabilityMeasure Pd] (e : Fin n → Ω → ℝ) (he : ∀ i, Measurable (e i)) (hind : iIndepFun e Pd)
    (hlaw : ∀ i, Pd.map (e i) = gaussianReal 0 (sqv s))
    (Ps : Measure Ω') [IsProbabilityMeasure Ps] (z : ℕ → Ω' → Fin 2 → ℝ) (chi : ℕ → Ω' → ℝ)
    (hz : ∀ k, NormalVector Ps (z k) ((designMatrix x)ᵀ * designMatrix x)⁻¹) (hcm : ∀ k, Measurable (chi k))
    (hchi : ∀ k, Ps.map (chi k) = chiLaw (n - 2)) (hzc : ∀ k, IndepFun (z k) (chi k) Ps)
    (hdraw : iIndepFun (fun k ω => (z k ω, chi k ω)) Ps) (M : ℕ) (hM : 1 ≤ M) (c : ℝ) (hc0 : 0 ≤ c) (hc1 : c ≤ 1) :
    |(Pd.prod Ps).real {ω | ∃ v, gaussClOf x (fun i => b0 + b1 * x i + e i ω.1) det (fun k => z k ω.2) (fun k => chi k ω.2) M c a = .ok v ∧
        v ≤ (gaussianReal (b0 + b1 * a) (sqv s)).real (Ioi det)} - c| ≤ 3 / 2 / (M + 1) := by
  obtain ⟨L, U, -, -, hL, hU, h1, h2, -⟩ := coverage_sets hn x hx b0 b1 s det a hs Pd e he hind hlaw Ps z chi hz hcm hchi hzc hdraw M hM c hc0 hc1
  have hup := ENNReal.toReal_mono (measure_ne_top _ _) (measure_mono_ae hU)
  have hlow := ENNReal.toReal_mono (measure_ne_top _ _) (measure_mono_ae hL)
  rw [abs_le]
  constructor
  · exact neg_le_sub_iff_le_add'.mpr ((sub_le_iff_le_add.mp (h1.trans hlow)).trans (le_of_eq (add_comm _ _)))
  · exact (sub_le_iff_le_add'.mpr (hup.trans h2) :)

/-- **C128, limit.**  The coverage tends to the confidence level. -/
theorem C128_limit {n : ℕ} (hn : 3 ≤ n) (x : Fin n → ℝ) (hx : ∃ i j, x i ≠ x j) (b0 b1 s det a : ℝ) (hs : 0 < s)
    (Pd : Measure Ω) [IsProbabilityMeasure Pd] (e : Fin n → Ω → ℝ) (he : ∀ i, Measurable (e i)) (hind : iIndepFun e Pd)
    (hlaw : ∀ i, Pd.map (e i) = gaussianReal 0 (sqv s))
    (Ps : Measure Ω') [IsProbabilityMeasure Ps] (z : ℕ → Ω' → Fin 2 → ℝ) (chi : ℕ → Ω' → ℝ)
    (hz : ∀ k, NormalVector Ps (z k) ((designMatrix x)ᵀ * designMatrix x)⁻¹) (hcm : ∀ k, Measurable (chi k))
    (hchi : ∀ k, Ps.map (chi k) = chiLaw (n - 2)) (hzc : ∀ k, IndepFun (z k) (chi k) Ps)
    (hdraw : iIndepFun (fun k ω => (z k ω, chi k ω)) Ps) (c : ℝ) (hc0 : 0 ≤ c) (hc1 : c ≤ 1) :
    Tendsto (fun M => (Pd.prod Ps).real
      {ω | ∃ v, gaussClOf x (fun i => b0 + b1 * x i + e i ω.1) det (fun k => z k ω.2) (fun k => chi k ω.2) M c a = .ok v ∧
        v ≤ (gaussianReal (b0 + b1 * a) (sqv s)).real (Ioi det)}) atTop (𝓝 c) := by
  rw [tendsto_iff_dist_tendsto_zero]
  have hb : Tendsto (fun M : ℕ => (3 / 2 : ℝ) / ((M : ℝ) + 1)) atTop (𝓝 0) :=
    tendsto_const_nhds.div_atTop (tendsto_atTop_add_const_right _ _ tendsto_natCast_atTop_atTop)
  refine squeeze_zero' (Eventually.of_forall fun _ => dist_nonneg) ?_ hb
  filter_upwards [eventually_ge_atTop 1] with M hM
  rw [Real.dist_eq]
  exact C128_coverage hn x hx b0 b1 s det a hs Pd e he hind hlaw Ps z chi hz hcm hchi hzc hdraw M hM c hc0 hc1

/-- Draws meeting the hypotheses exist. -/
theorem gaussDraws_exist {n : ℕ} (x : Fin n → ℝ) (m : ℕ) :
    ∃ (Ps : Measure (ℕ → (Fin 2 → ℝ) × ℝ)), IsProbabilityMeasure Ps ∧
      (∀ k, NormalVector Ps (fun ω => (ω k).1) ((designMatrix x)ᵀ * designMatrix x)⁻¹) ∧
      (∀ k : ℕ, Ps.map (fun ω => (ω k).2) = chiLaw m) ∧ (∀ k : ℕ, IndepFun (fun ω => (ω k).1) (fun ω => (ω k).2) Ps) ∧
      iIndepFun (fun (k : ℕ) (ω : ℕ → (Fin 2 → ℝ) × ℝ) => ((ω k).1, (ω k).2)) Ps := by
  have hnv := normalVector_exists _ (gram_inv_posSemidef (designMatrix x))
  generalize ((designMatrix x)ᵀ * designMatrix x)⁻¹ = S at hnv ⊢
  set νz := (multivariateGaussian 0 S).map fun w : EuclideanSpace ℝ (Fin 2) => WithLp.ofLp w with hνz
  have hνp : IsProbabilityMeasure νz := Measure.isProbabilityMeasure_map hnv.meas.aemeasurable
  have hlaw : ∀ c : Fin 2 → ℝ, νz.map (fun w => c ⬝ᵥ w) = gaussianReal 0 (Real.toNNReal (c ⬝ᵥ (S *ᵥ c))) := by
    intro c
    have hdot : Measurable fun w : Fin 2 → ℝ => c ⬝ᵥ w := measurable_dot measurable_const measurable_id
    rw [hνz, Measure.map_map hdot hnv.meas]
    exact hnv.law c
  clear_value νz
  have hev : ∀ k : ℕ, MeasurePreserving (fun ω : ℕ → (Fin 2 → ℝ) × ℝ => ω k) (Measure.infinitePi fun _ : ℕ => νz.prod (chiLaw m))
      (νz.prod (chiLaw m)) := fun k => measurePreserving_eval_infinitePi (fun _ : ℕ => νz.prod (chiLaw m)) k
  have h1 : ∀ k : ℕ, (Measure.infinitePi fun _ : ℕ => νz.prod (chiLaw m)).map (fun ω => (ω k).1) = νz := fun k =>
    ((measurePreserving_fst (μ := νz) (ν := chiLaw m)).comp (hev k)).map_eq
  have h2 : ∀ k : ℕ, (Measure.infinitePi fun _ : ℕ => νz.prod (chiLaw m)).map (fun ω => (ω k).2) = chiLaw m := fun k =>
    ((measurePreserving_snd (μ := νz) (ν := chiLaw m)).comp (hev k)).map_eq
  have m1 : ∀ k : ℕ, Measurable fun ω : ℕ → (Fin 2 → ℝ) × ℝ => (ω k).1 := fun k => measurable_fst.comp (measurable_pi_apply k)
  have m2 : ∀ k : ℕ, Measurable fun ω : ℕ → (Fin 2 → ℝ) × ℝ => (ω k).2 := fun k => measurable_snd.comp (measurable_pi_apply k)
  refine ⟨Measure.infinitePi fun _ : ℕ => νz.prod (chiLaw m), inferInstance, fun k => ⟨m1 k, fun c => ?_⟩, h2, fun k => ?_, ?_⟩
  · have hdot : Measurable fun w : Fin 2 → ℝ => c ⬝ᵥ w := measurable_dot measurable_const measurable_id
    have h := Measure.map_map (μ := Measure.infinitePi fun _ : ℕ => νz.prod (chiLaw m)) hdot (m1 k)
    rw [h1 k] at h
    rw [← hlaw c, h]
    rfl
  · rw [indepFun_iff_map_prod_eq_prod_map_map (m1 k).aemeasurable (m2 k).aemeasurable, h1, h2]
    exact (hev k).map_eq
  · exact iIndepFun_infinitePi (P := fun _ : ℕ => νz.prod (chiLaw m)) (X := fun _ q => q) fun _ => measurable_id

/-- Four sizes, errors of standard deviation 2, level 0.95: the hypotheses are met for every number of simulations. -/
example : ∃ Ps : Measure (ℕ → (Fin 2 → ℝ) × ℝ), IsProbabilityMeasure Ps ∧ ∀ M : ℕ, 1 ≤ M →
    |((Measure.pi fun _ : Fin 4 => gaussianReal 0 (sqv 2)).prod Ps).real
      {ω : (Fin 4 → ℝ) × (ℕ → (Fin 2 → ℝ) × ℝ) | ∃ v : ℝ, gaussClOf (n := 4) ![1, 2, 4, 5] (fun i : Fin 4 => 1 + 3 * (![1, 2, 4, 5] : Fin 4 → ℝ) i + ω.1 i) 9 (fun k => (ω.2 k).1)
        (fun k => (ω.2 k).2) M (19 / 20) 3 = .ok v ∧ v ≤ (gaussianReal (1 + 3 * 3) (sqv 2)).real (Ioi 9)} - 19 / 20| ≤ 3 / 2 / (M + 1) := by
  obtain ⟨Ps, hp, h1, h2, h3, h4⟩ := gaussDraws_exist (![1, 2, 4, 5] : Fin 4 → ℝ) (4 - 2)
  refine ⟨Ps, hp, fun M hM => ?_⟩
  have hi : iIndepFun (fun (i : Fin 4) (ω : Fin 4 → ℝ) => ω i) (Measure.pi fun _ : Fin 4 => gaussianReal 0 (sqv 2)) :=
    iIndepFun_pi (X := fun _ t => t) fun _ => aemeasurable_id
  have hl : ∀ i : Fin 4, (Measure.pi fun _ : Fin 4 => gaussianReal 0 (sqv 2)).map (fun ω => ω i) = gaussianReal 0 (sqv 2) := fun i =>
    (measurePreserving_eval (fun _ : Fin 4 => gaussianReal 0 (sqv 2)) i).map_eq
  have hx : ∃ i j, (![1, 2, 4, 5] : Fin 4 → ℝ) i ≠ (![1, 2, 4, 5] : Fin 4 → ℝ) j := ⟨0, 1, by simp⟩
  exact C128_coverage (Ω := Fin 4 → ℝ) (by norm_num) _ hx 1 3 2 9 3 (by norm_num) _ (fun (i : Fin 4) (ω : Fin 4 → ℝ) => ω i)
    (fun i => measurable_pi_apply i) hi hl Ps (fun k ω => (ω k).1) (fun k ω => (ω k).2) h1
    (fun k => measurable_snd.comp (measurable_pi_apply k)) h2 h3 h4 M hM (19 / 20) (by norm_num) (by norm_num)

end Verif.Props
