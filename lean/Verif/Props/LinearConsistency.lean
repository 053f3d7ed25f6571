import Verif.Model.ResidualVar
import Verif.Props.GaussPOD
import Verif.Props.Binomial
import Verif.Props.DeltaMethod
import Verif.Props.PliDraw
import Mathlib.Probability.Independence.InfinitePi

/-!
# C126: consistency of the linear POD

The defects `x i` and the errors `e i` are independent draws of pairs; the signals are `b0 + b1 x + e`.
-/

namespace Verif.Props
open Verif.Py Verif.Model MeasureTheory ProbabilityTheory Filter Topology Set

/-! ## Algebra of the fit on a data set -/

section
variable {n : ℕ}

theorem centred_cross (u v : Fin n → ℝ) (hn : 0 < n) :
    ∑ i, (u i - smean u) * (v i - smean v) = ∑ i, u i * v i - n * (smean u * smean v) := by
  have hn' : (n : ℝ) ≠ 0 := by exact_mod_cast hn.ne'
  have hu : ∑ i, u i = n * smean u := by rw [smean]; field_simp
  have hv : ∑ i, v i = n * smean v := by rw [smean]; field_simp
  have : ∀ i, (u i - smean u) * (v i - smean v) = u i * v i - smean u * v i - u i * smean v + smean u * smean v := by
    intro i; ring
  simp only [this, Finset.sum_add_distrib, Finset.sum_sub_distrib, ← Finset.mul_sum, ← Finset.sum_mul, hu, hv]
  simp
  ring

theorem centred_signal (x e : Fin n → ℝ) (b0 b1 : ℝ) (hn : 0 < n) (i : Fin n) :
    (b0 + b1 * x i + e i) - smean (fun i => b0 + b1 * x i + e i) = b1 * (x i - smean x) + (e i - smean e) := by
  have hn' : (n : ℝ) ≠ 0 := by exact_mod_cast hn.ne'
  have : smean (fun i => b0 + b1 * x i + e i) = b0 + b1 * smean x + smean e := by
    simp only [smean, Finset.sum_add_distrib, ← Finset.mul_sum]
    simp
    field_simp
  rw [this]; ring

theorem smean_signal (x e : Fin n → ℝ) (b0 b1 : ℝ) (hn : 0 < n) :
    smean (fun i => b0 + b1 * x i + e i) = b0 + b1 * smean x + smean e := by
  have hn' : (n : ℝ) ≠ 0 := by exact_mod_cast hn.ne'
  simp only [smean, Finset.sum_add_distrib, ← Finset.mul_sum]
  simp
  field_simp

/-- Error of the slope. -/
theorem slope_error (x e : Fin n → ℝ) (b0 b1 : ℝ) (hn : 0 < n) (hS : ∑ i, (x i - smean x) ^ 2 ≠ 0) :
    olsSlope x (fun i => b0 + b1 * x i + e i) =
      b1 + (∑ i, (x i - smean x) * (e i - smean e)) / ∑ i, (x i - smean x) ^ 2 := by
  rw [olsSlope]
  simp only [centred_signal x e b0 b1 hn]
  rw [div_eq_iff hS, add_mul, div_mul_cancel₀ _ hS, Finset.mul_sum, ← Finset.sum_add_distrib]
  apply Finset.sum_congr rfl
  intro i _; ring

/-- The residuals in terms of the errors. -/
theorem residual_error (x e : Fin n → ℝ) (b0 b1 : ℝ) (hn : 0 < n) (i : Fin n) :
    olsResiduals x (fun i => b0 + b1 * x i + e i) i =
      (e i - smean e) - (olsSlope x (fun i => b0 + b1 * x i + e i) - b1) * (x i - smean x) := by
  simp only [olsResiduals, olsIntercept, smean_signal x e b0 b1 hn]
  ring

/-- Sum of squared residuals. -/
theorem sse_error (x e : Fin n → ℝ) (b0 b1 : ℝ) (hn : 0 < n) :
    let d := olsSlope x (fun i => b0 + b1 * x i + e i) - b1
    ∑ i, olsResiduals x (fun i => b0 + b1 * x i + e i) i ^ 2 =
      ∑ i, (e i - smean e) ^ 2 - 2 * d * ∑ i, (x i - smean x) * (e i - smean e) + d ^ 2 * ∑ i, (x i - smean x) ^ 2 := by
  intro d
  rw [Finset.mul_sum, Finset.mul_sum, ← Finset.sum_sub_distrib, ← Finset.sum_add_distrib]
  apply Finset.sum_congr rfl
  intro i _
  rw [residual_error x e b0 b1 hn i]
  ring

/-- The number of residuals above the margin is a number of errors, up to the error of the slope. -/
theorem residual_above (x e : Fin n → ℝ) (b0 b1 det a : ℝ) (hn : 0 < n) (i : Fin n) :
    let y := fun i => b0 + b1 * x i + e i
    det - (olsIntercept x y + olsSlope x y * a) < olsResiduals x y i ↔
      det - (b0 + b1 * a) < e i + (b1 - olsSlope x y) * (x i - a) := by
  intro y
  have h1 : olsIntercept x y = b0 + b1 * smean x + smean e - olsSlope x y * smean x := by
    rw [olsIntercept, smean_signal x e b0 b1 hn]
  have h2 : olsResiduals x y i = (e i - smean e) - (olsSlope x y - b1) * (x i - smean x) := residual_error x e b0 b1 hn i
  rw [h1, h2]
  constructor <;> intro h <;> nlinarith

end

/-! ## Limits -/

section
variable {Ω : Type} [MeasurableSpace Ω] {Q : Measure Ω} [IsProbabilityMeasure Q] {P : Measure (ℝ × ℝ)} [IsProbabilityMeasure P]

/-- Squares and products of square-integrable coordinates are integrable. -/
theorem moments (h1 : MemLp Prod.fst 2 P) (h2 : MemLp Prod.snd 2 P) :
    Integrable (fun z : ℝ × ℝ => z.1 ^ 2) P ∧ Integrable (fun z : ℝ × ℝ => z.1 * z.2) P ∧ Integrable (fun z : ℝ × ℝ => z.2 ^ 2) P :=
  ⟨h1.integrable_sq, h1.integrable_mul h2, h2.integrable_sq⟩

/-- Limits of the centred sums of a sequence of data sets whose moments converge, and of the fit. -/
theorem fit_limits (z : ℕ → ℝ × ℝ) (b0 b1 mx vx s : ℝ) (hv : 0 < vx) (hs : 0 < s)
    (l1 : Tendsto (fun N : ℕ => (∑ i ∈ Finset.range N, (z i).1) / (N : ℝ)) atTop (𝓝 mx))
    (l2 : Tendsto (fun N : ℕ => (∑ i ∈ Finset.range N, (z i).2) / (N : ℝ)) atTop (𝓝 0))
    (l11 : Tendsto (fun N : ℕ => (∑ i ∈ Finset.range N, (z i).1 ^ 2) / (N : ℝ)) atTop (𝓝 (vx + mx ^ 2)))
    (l12 : Tendsto (fun N : ℕ => (∑ i ∈ Finset.range N, (z i).1 * (z i).2) / (N : ℝ)) atTop (𝓝 0))
    (l22 : Tendsto (fun N : ℕ => (∑ i ∈ Finset.range N, (z i).2 ^ 2) / (N : ℝ)) atTop (𝓝 (s ^ 2))) :
    let x : (N : ℕ) → Fin N → ℝ := fun N i => (z i).1
    let y : (N : ℕ) → Fin N → ℝ := fun N i => b0 + b1 * (z i).1 + (z i).2
    Tendsto (fun N => olsSlope (x N) (y N)) atTop (𝓝 b1) ∧
    Tendsto (fun N => olsIntercept (x N) (y N)) atTop (𝓝 b0) ∧
    Tendsto (fun N => linearStderr (x N) (y N)) atTop (𝓝 s) ∧
    (∀ᶠ N in atTop, ∃ i j, x N i ≠ x N j) ∧
    (∀ det a, Tendsto (fun N => gaussPodOf (x N) (y N) det a) atTop (𝓝 (PhiC ((det - (b0 + b1 * a)) / s)))) ∧
    Tendsto (fun N => smean (x N)) atTop (𝓝 mx) ∧
    Tendsto (fun N : ℕ => (∑ i, (x N i - smean (x N)) ^ 2) / (N : ℝ)) atTop (𝓝 vx) := by
  intro x y
  let e : (N : ℕ) → Fin N → ℝ := fun N i => (z i).2
  have conv : ∀ (f : ℕ → ℝ) (N : ℕ), ∑ i : Fin N, f i = ∑ i ∈ Finset.range N, f i := fun f N => Fin.sum_univ_eq_sum_range f N
  have mxl : Tendsto (fun N => smean (x N)) atTop (𝓝 mx) := by
    refine l1.congr fun N => ?_
    simp only [smean, x, conv fun i => (z i).1]
  have mel : Tendsto (fun N => smean (e N)) atTop (𝓝 0) := by
    refine l2.congr fun N => ?_
    simp only [smean, e, conv fun i => (z i).2]
  -- centred second moments
  have cross : ∀ (u v : ℕ → ℝ) (lu lv luv : ℝ),
      Tendsto (fun N : ℕ => smean (fun i : Fin N => u i)) atTop (𝓝 lu) → Tendsto (fun N : ℕ => smean (fun i : Fin N => v i)) atTop (𝓝 lv) →
      Tendsto (fun N : ℕ => (∑ i ∈ Finset.range N, u i * v i) / (N : ℝ)) atTop (𝓝 luv) →
      Tendsto (fun N : ℕ => (∑ i : Fin N, (u i - smean (fun i : Fin N => u i)) * (v i - smean (fun i : Fin N => v i))) / (N : ℝ)) atTop
        (𝓝 (luv - lu * lv)) := by
    intro u v lu lv luv hu hv' huv
    refine (huv.sub (hu.mul hv')).congr' ?_
    filter_upwards [eventually_gt_atTop 0] with N hN
    rw [centred_cross (fun i : Fin N => u i) (fun i : Fin N => v i) hN, conv fun i => u i * v i]
    have : (N : ℝ) ≠ 0 := by exact_mod_cast hN.ne'
    field_simp
  have sxx : Tendsto (fun N : ℕ => (∑ i, (x N i - smean (x N)) ^ 2) / (N : ℝ)) atTop (𝓝 vx) := by
    have h := cross (fun i => (z i).1) (fun i => (z i).1) mx mx (vx + mx ^ 2) mxl mxl (by simpa only [← sq] using l11)
    rw [show vx + mx ^ 2 - mx * mx = vx by ring] at h
    simpa only [← sq] using h
  have see : Tendsto (fun N : ℕ => (∑ i, (e N i - smean (e N)) ^ 2) / (N : ℝ)) atTop (𝓝 (s ^ 2)) := by
    have h := cross (fun i => (z i).2) (fun i => (z i).2) 0 0 (s ^ 2) mel mel (by simpa only [← sq] using l22)
    rw [show s ^ 2 - 0 * 0 = s ^ 2 by ring] at h
    simpa only [← sq] using h
  have sxe : Tendsto (fun N : ℕ => (∑ i, (x N i - smean (x N)) * (e N i - smean (e N))) / (N : ℝ)) atTop (𝓝 0) := by
    have h := cross (fun i => (z i).1) (fun i => (z i).2) mx 0 0 mxl mel l12
    rwa [show (0 : ℝ) - mx * 0 = 0 by ring] at h
  have hpos : ∀ᶠ N : ℕ in atTop, 0 < ∑ i, (x N i - smean (x N)) ^ 2 := by
    filter_upwards [sxx.eventually (eventually_gt_nhds hv), eventually_gt_atTop 0] with N h hN
    have : (0 : ℝ) < N := by exact_mod_cast hN
    exact (div_pos_iff_of_pos_right this).mp h
  have hne : ∀ᶠ N in atTop, ∃ i j, x N i ≠ x N j := by
    filter_upwards [hpos, eventually_gt_atTop 0] with N h hN
    by_contra hcon
    push Not at hcon
    have : ∀ i, x N i - smean (x N) = 0 := by
      intro i
      have : smean (x N) = x N i := by
        rw [smean, Finset.sum_congr rfl fun j _ => hcon j i]
        have : (N : ℝ) ≠ 0 := by exact_mod_cast hN.ne'
        simp [this]
      rw [this, sub_self]
    simp [this] at h
  have hd : Tendsto (fun N => olsSlope (x N) (y N) - b1) atTop (𝓝 0) := by
    have h := sxe.div sxx hv.ne'
    rw [zero_div] at h
    refine h.congr' ?_
    filter_upwards [hpos, eventually_gt_atTop 0] with N h hN
    have e1 : olsSlope (x N) (y N) = _ := slope_error (x N) (e N) b0 b1 hN h.ne'
    have : (N : ℝ) ≠ 0 := by exact_mod_cast hN.ne'
    rw [e1, Pi.div_apply, add_sub_cancel_left]
    field_simp
  have hslope : Tendsto (fun N => olsSlope (x N) (y N)) atTop (𝓝 b1) := by
    simpa using hd.add_const b1
  have hint : Tendsto (fun N => olsIntercept (x N) (y N)) atTop (𝓝 b0) := by
    have h := (((mxl.const_mul b1).const_add b0).add mel).sub (hslope.mul mxl)
    rw [show b0 + b1 * mx + 0 - b1 * mx = b0 by ring] at h
    refine h.congr' ?_
    filter_upwards [eventually_gt_atTop 0] with N hN
    have e1 : smean (y N) = _ := smean_signal (x N) (e N) b0 b1 hN
    rw [olsIntercept, e1]
  have hscale : Tendsto (fun N => linearScale (x N) (y N)) atTop (𝓝 (s ^ 2)) := by
    have hratio : Tendsto (fun N : ℕ => (N : ℝ) / ((N : ℝ) - 2)) atTop (𝓝 1) := by
      have := tendsto_natCast_div_add_atTop (𝕜 := ℝ) (-2)
      simpa [sub_eq_add_neg] using this
    have h := hratio.mul ((see.sub (((hd.const_mul 2).mul sxe))).add ((hd.pow 2).mul sxx))
    rw [show 1 * (s ^ 2 - 2 * 0 * 0 + 0 ^ 2 * vx) = s ^ 2 by ring] at h
    refine h.congr' ?_
    filter_upwards [eventually_gt_atTop 0] with N hN
    have e1 : ∑ i, olsResiduals (x N) (y N) i ^ 2 = _ := sse_error (x N) (e N) b0 b1 hN
    have : (N : ℝ) ≠ 0 := by exact_mod_cast hN.ne'
    rw [linearScale, e1]
    simp only [show ∀ M, (fun i => b0 + b1 * x M i + e M i) = y M from fun _ => rfl]
    rw [div_mul_eq_mul_div]
    congr 1
    field_simp
  have hstderr : Tendsto (fun N => linearStderr (x N) (y N)) atTop (𝓝 s) := by
    have := hscale.sqrt
    rwa [Real.sqrt_sq hs.le] at this
  refine ⟨hslope, hint, hstderr, hne, fun det a => ?_, mxl, sxx⟩
  have hpv : Tendsto (fun N => predictionVariance (x N) (linearStderr (x N) (y N)) a) atTop (𝓝 (s ^ 2)) := by
    have hinv : Tendsto (fun N : ℕ => 1 / (N : ℝ)) atTop (𝓝 0) := tendsto_one_div_atTop_nhds_zero_nat
    have hq : Tendsto (fun N : ℕ => (1 / (N : ℝ)) * ((a - smean (x N)) ^ 2 / ((∑ i, (x N i - smean (x N)) ^ 2) / (N : ℝ)))) atTop (𝓝 0) := by
      have := hinv.mul ((((tendsto_const_nhds (x := a)).sub mxl).pow 2).div sxx hv.ne')
      rwa [zero_mul] at this
    have h := (hstderr.pow 2).mul ((hinv.add hq).const_add 1)
    rw [show s ^ 2 * (1 + (0 + 0)) = s ^ 2 by ring] at h
    refine h.congr' ?_
    filter_upwards [hne, hpos, eventually_gt_atTop 0] with N h1 h2 hN
    rw [predictionVariance_eq _ _ _ h1]
    have : (N : ℝ) ≠ 0 := by exact_mod_cast hN.ne'
    congr 3
    field_simp
  have hsq := hpv.sqrt
  rw [Real.sqrt_sq hs.le] at hsq
  have harg := ((hint.add (hslope.mul_const a)).const_sub det).div hsq hs.ne'
  have hc : Continuous PhiC := by
    have : PhiC = fun t => 1 - Phi t := by ext t; exact PhiC_eq t
    rw [this]; exact continuous_const.sub Phi_continuous
  exact (hc.tendsto _).comp harg

/-- The binomial POD of a data set is squeezed between two frequencies as soon as the slope is within `η` of the truth. -/
theorem binomial_squeeze (z : ℕ → ℝ × ℝ) (b0 b1 det a η : ℝ) (N : ℕ) (hN : 0 < N)
    (h : |olsSlope (fun i : Fin N => (z i).1) (fun i => b0 + b1 * (z i).1 + (z i).2) - b1| ≤ η) :
    let pod := binomialPodOf (fun i : Fin N => (z i).1) (fun i => b0 + b1 * (z i).1 + (z i).2) det a
    let freq := fun A : Set (ℝ × ℝ) => (∑ i ∈ Finset.range N, A.indicator (fun _ => (1 : ℝ)) (z i)) / N
    freq {w | det - (b0 + b1 * a) < w.2 - η * |w.1 - a|} ≤ pod ∧ pod ≤ freq {w | det - (b0 + b1 * a) < w.2 + η * |w.1 - a|} := by
  classical
  intro pod freq
  set x : Fin N → ℝ := fun i => (z i).1
  set e : Fin N → ℝ := fun i => (z i).2
  set y : Fin N → ℝ := fun i => b0 + b1 * (z i).1 + (z i).2
  have hN' : (0 : ℝ) < N := by exact_mod_cast hN
  have hpod : pod = (∑ i : Fin N, if det - (b0 + b1 * a) < e i + (b1 - olsSlope x y) * (x i - a) then (1 : ℝ) else 0) / N := by
    simp only [pod, binomialPodOf]
    rw [podBinomial_eq, numAbove, Finset.card_filter, Nat.cast_sum]
    congr 1
    apply Finset.sum_congr rfl
    intro i _
    have := residual_above x e b0 b1 det a hN i
    by_cases hi : det - (olsIntercept x y + olsSlope x y * a) < olsResiduals x y i
    · rw [if_pos hi, if_pos (this.mp hi)]; simp
    · rw [if_neg hi, if_neg fun hh => hi (this.mpr hh)]; simp
  have hfreq : ∀ A, freq A = (∑ i : Fin N, if z i ∈ A then (1 : ℝ) else 0) / N := by
    intro A
    simp only [freq]
    rw [← Fin.sum_univ_eq_sum_range (fun i => A.indicator (fun _ => (1 : ℝ)) (z i)) N]
    simp [Set.indicator_apply]
  have hb : ∀ i, |(b1 - olsSlope x y) * (x i - a)| ≤ η * |x i - a| := by
    intro i
    rw [abs_mul, abs_sub_comm]
    exact mul_le_mul_of_nonneg_right h (abs_nonneg _)
  have ite_le : ∀ p q : Prop, (p → q) → (if p then (1 : ℝ) else 0) ≤ if q then (1 : ℝ) else 0 := by
    intro p q hpq
    by_cases hp : p
    · rw [if_pos hp, if_pos (hpq hp)]
    · rw [if_neg hp]; split_ifs <;> norm_num
  rw [hpod, hfreq, hfreq]
  constructor
  · apply div_le_div_of_nonneg_right _ hN'.le
    apply Finset.sum_le_sum
    intro i _
    apply ite_le
    intro hi
    have := (abs_le.mp (hb i)).1
    simp only [Set.mem_ofPred_eq] at hi
    simp only [x, e] at this ⊢
    linarith
  · apply div_le_div_of_nonneg_right _ hN'.le
    apply Finset.sum_le_sum
    intro i _
    apply ite_le
    intro hi
    have := (abs_le.mp (hb i)).2
    simp only [Set.mem_ofPred_eq]
    simp only [x, e] at this hi
    linarith

/-- The two bounding probabilities tend to the probability of the event when the tolerance shrinks. -/
theorem band_limits (m a : ℝ) (h0 : P.real {w | w.2 = m} = 0) :
    Tendsto (fun k : ℕ => P.real {w | m < w.2 - 1 / ((k : ℝ) + 1) * |w.1 - a|}) atTop (𝓝 (P.real {w | m < w.2})) ∧
    Tendsto (fun k : ℕ => P.real {w | m < w.2 + 1 / ((k : ℝ) + 1) * |w.1 - a|}) atTop (𝓝 (P.real {w | m < w.2})) := by
  have hη : Tendsto (fun k : ℕ => 1 / ((k : ℝ) + 1)) atTop (𝓝 0) := tendsto_one_div_add_atTop_nhds_zero_nat
  have hanti : ∀ k l : ℕ, k ≤ l → 1 / ((l : ℝ) + 1) ≤ 1 / ((k : ℝ) + 1) := fun k l h => Nat.one_div_le_one_div h
  have hae : P.real {w : ℝ × ℝ | m ≤ w.2} = P.real {w | m < w.2} := by
    have : {w : ℝ × ℝ | m ≤ w.2} = {w | m < w.2} ∪ {w | w.2 = m} := by
      ext w; simp only [Set.mem_ofPred_eq, Set.mem_union]; rw [le_iff_lt_or_eq, eq_comm (a := m)]
    apply le_antisymm
    · rw [this]; exact (measureReal_union_le _ _).trans (by rw [h0, add_zero])
    · exact measureReal_mono fun w (hw : m < w.2) => hw.le
  constructor
  · have hmono : Monotone fun k : ℕ => {w : ℝ × ℝ | m < w.2 - 1 / ((k : ℝ) + 1) * |w.1 - a|} := by
      intro k l hkl w hw
      simp only [Set.mem_ofPred_eq] at hw ⊢
      nlinarith [abs_nonneg (w.1 - a), hanti k l hkl]
    have h := tendsto_measure_iUnion_atTop (μ := P) hmono
    have hU : (⋃ k : ℕ, {w : ℝ × ℝ | m < w.2 - 1 / ((k : ℝ) + 1) * |w.1 - a|}) = {w | m < w.2} := by
      ext w
      simp only [Set.mem_iUnion, Set.mem_ofPred_eq]
      constructor
      · rintro ⟨k, hk⟩
        have : 0 ≤ 1 / ((k : ℝ) + 1) * |w.1 - a| := by positivity
        linarith
      · intro hw
        have ht := ((hη.mul_const |w.1 - a|).const_sub w.2)
        rw [zero_mul, sub_zero] at ht
        exact (ht.eventually (eventually_gt_nhds hw)).exists
    rw [hU] at h
    exact (ENNReal.tendsto_toReal (measure_ne_top _ _)).comp h
  · have hmono : Antitone fun k : ℕ => {w : ℝ × ℝ | m < w.2 + 1 / ((k : ℝ) + 1) * |w.1 - a|} := by
      intro k l hkl w hw
      simp only [Set.mem_ofPred_eq] at hw ⊢
      nlinarith [abs_nonneg (w.1 - a), hanti k l hkl]
    have h := tendsto_measure_iInter_atTop (μ := P) (s := fun k : ℕ => {w : ℝ × ℝ | m < w.2 + 1 / ((k : ℝ) + 1) * |w.1 - a|})
      (fun k => (measurableSet_lt measurable_const (by fun_prop)).nullMeasurableSet) hmono ⟨0, measure_ne_top _ _⟩
    have h' := (ENNReal.tendsto_toReal (measure_ne_top _ _)).comp h
    have hle : P.real (⋂ k : ℕ, {w : ℝ × ℝ | m < w.2 + 1 / ((k : ℝ) + 1) * |w.1 - a|}) = P.real {w | m < w.2} := by
      apply le_antisymm
      · rw [← hae]
        refine measureReal_mono (fun w hw => ?_) (measure_ne_top _ _)
        simp only [Set.mem_iInter, Set.mem_ofPred_eq] at hw ⊢
        have ht := ((hη.mul_const |w.1 - a|).const_add w.2)
        rw [zero_mul, add_zero] at ht
        exact ge_of_tendsto' ht fun k => (hw k).le
      · refine measureReal_mono (fun w hw => ?_) (measure_ne_top _ _)
        simp only [Set.mem_iInter, Set.mem_ofPred_eq] at hw ⊢
        intro k
        have : 0 ≤ 1 / ((k : ℝ) + 1) * |w.1 - a| := by positivity
        linarith
    rw [← hle]
    exact h'

/-- **C126.**  For independent pairs of a defect and a centred error uncorrelated with it (square integrable, defects not
almost surely constant, errors of standard deviation `s > 0`), with probability one and as the number of observations grows: intercept,
slope and standard error converge to the truth; the Gaussian POD converges at every size, to the probability that the true line plus a centred
Gaussian error of standard deviation `s` exceeds the threshold; the binomial POD converges at every size to the probability that the
true line plus the error exceeds the threshold, whatever the law of the error, unless it has an atom at the margin. -/
theorem C126_consistency (x e : ℕ → Ω → ℝ) (hx : ∀ i, Measurable (x i)) (he : ∀ i, Measurable (e i))
    (hlaw : ∀ i, Q.map (fun ω => (x i ω, e i ω)) = P) (hind : iIndepFun (fun i ω => (x i ω, e i ω)) Q)
    (h1 : MemLp Prod.fst 2 P) (h2 : MemLp Prod.snd 2 P) (hv : 0 < Var[Prod.fst; P])
    (he0 : ∫ w, w.2 ∂P = 0) (hxe : ∫ w, w.1 * w.2 ∂P = 0) (s : ℝ) (hs : 0 < s) (hse : ∫ w, w.2 ^ 2 ∂P = s ^ 2) (b0 b1 : ℝ) :
    let X : (N : ℕ) → Ω → Fin N → ℝ := fun _ ω i => x i ω
    let Y : (N : ℕ) → Ω → Fin N → ℝ := fun _ ω i => b0 + b1 * x i ω + e i ω
    (∀ᵐ ω ∂Q, Tendsto (fun N => olsIntercept (X N ω) (Y N ω)) atTop (𝓝 b0) ∧
      Tendsto (fun N => olsSlope (X N ω) (Y N ω)) atTop (𝓝 b1) ∧
      Tendsto (fun N => linearStderr (X N ω) (Y N ω)) atTop (𝓝 s) ∧
      ∀ det a, Tendsto (fun N => gaussPodOf (X N ω) (Y N ω) det a) atTop
        (𝓝 ((gaussianReal (b0 + b1 * a) (sqv s)).real (Ioi det)))) ∧
    ∀ det a, P.real {w | b0 + b1 * a + w.2 = det} = 0 →
      ∀ᵐ ω ∂Q, Tendsto (fun N => binomialPodOf (X N ω) (Y N ω) det a) atTop (𝓝 (P.real {w | det < b0 + b1 * a + w.2})) := by
  intro X Y
  have hz : ∀ i, Measurable fun ω => (x i ω, e i ω) := fun i => (hx i).prodMk (he i)
  obtain ⟨i11, i12, i22⟩ := moments h1 h2
  have a1 := avg_strong hz hlaw hind measurable_fst (h1.integrable (by norm_num))
  have a2 := avg_strong hz hlaw hind measurable_snd (h2.integrable (by norm_num))
  have a11 := avg_strong hz hlaw hind (f := fun w : ℝ × ℝ => w.1 ^ 2) (by fun_prop) i11
  have a12 := avg_strong hz hlaw hind (f := fun w : ℝ × ℝ => w.1 * w.2) (by fun_prop) i12
  have a22 := avg_strong hz hlaw hind (f := fun w : ℝ × ℝ => w.2 ^ 2) (by fun_prop) i22
  have hvar : ∫ w, w.1 ^ 2 ∂P = Var[Prod.fst; P] + (∫ w, w.1 ∂P) ^ 2 := by
    rw [variance_eq_sub h1]
    simp
  have all : ∀ᵐ ω ∂Q, Tendsto (fun N => olsSlope (X N ω) (Y N ω)) atTop (𝓝 b1) ∧
      Tendsto (fun N => olsIntercept (X N ω) (Y N ω)) atTop (𝓝 b0) ∧
      Tendsto (fun N => linearStderr (X N ω) (Y N ω)) atTop (𝓝 s) ∧
      (∀ᶠ N in atTop, ∃ i j, X N ω i ≠ X N ω j) ∧
      ∀ det a, Tendsto (fun N => gaussPodOf (X N ω) (Y N ω) det a) atTop (𝓝 (PhiC ((det - (b0 + b1 * a)) / s))) := by
    filter_upwards [a1, a2, a11, a12, a22] with ω t1 t2 t11 t12 t22
    rw [he0] at t2
    rw [hxe] at t12
    rw [hse] at t22
    rw [hvar] at t11
    obtain ⟨l1, l2, l3, l4, l5, -⟩ := fit_limits (fun i => (x i ω, e i ω)) b0 b1 _ _ s hv hs t1 t2 t11 t12 t22
    exact ⟨l1, l2, l3, l4, l5⟩
  constructor
  · filter_upwards [all] with ω ⟨l1, l2, l3, _, l5⟩
    refine ⟨l2, l1, l3, fun det a => ?_⟩
    rw [gauss_Ioi hs, ← PhiC_eq]
    exact l5 det a
  · intro det a h0
    have hset : {w : ℝ × ℝ | det < b0 + b1 * a + w.2} = {w | det - (b0 + b1 * a) < w.2} := by
      ext w; simp only [Set.mem_ofPred_eq]; constructor <;> intro <;> linarith
    have h0' : P.real {w : ℝ × ℝ | w.2 = det - (b0 + b1 * a)} = 0 := by
      rw [← h0]; congr 1; ext w; simp only [Set.mem_ofPred_eq]; constructor <;> intro <;> linarith
    rw [hset]
    set m := det - (b0 + b1 * a) with hm
    obtain ⟨bl, bu⟩ := band_limits (P := P) m a h0'
    let L : ℕ → Set (ℝ × ℝ) := fun k => {w | m < w.2 - 1 / ((k : ℝ) + 1) * |w.1 - a|}
    let U : ℕ → Set (ℝ × ℝ) := fun k => {w | m < w.2 + 1 / ((k : ℝ) + 1) * |w.1 - a|}
    have hLm : ∀ k, MeasurableSet (L k) := fun k => measurableSet_lt measurable_const (by fun_prop)
    have hUm : ∀ k, MeasurableSet (U k) := fun k => measurableSet_lt measurable_const (by fun_prop)
    have slln : ∀ A : Set (ℝ × ℝ), MeasurableSet A →
        ∀ᵐ ω ∂Q, Tendsto (fun N : ℕ => (∑ i ∈ Finset.range N, A.indicator (fun _ => (1 : ℝ)) (x i ω, e i ω)) / (N : ℝ)) atTop (𝓝 (P.real A)) := by
      intro A hA
      have := avg_strong hz hlaw hind (f := A.indicator fun _ => (1 : ℝ)) (measurable_const.indicator hA)
        ((integrable_const _).indicator hA)
      rw [integral_indicator hA, setIntegral_const, smul_eq_mul, mul_one] at this
      exact this
    have hL := ae_all_iff.mpr fun k => slln (L k) (hLm k)
    have hU := ae_all_iff.mpr fun k => slln (U k) (hUm k)
    filter_upwards [all, hL, hU] with ω ⟨l1, _⟩ sL sU
    have near : ∀ k : ℕ, ∀ᶠ N : ℕ in atTop, 0 < N ∧ |olsSlope (X N ω) (Y N ω) - b1| ≤ 1 / ((k : ℝ) + 1) := by
      intro k
      have hk : (0 : ℝ) < 1 / ((k : ℝ) + 1) := by positivity
      filter_upwards [eventually_gt_atTop 0, (Metric.tendsto_nhds.mp l1) _ hk] with N hN h
      exact ⟨hN, by rw [Real.dist_eq] at h; exact h.le⟩
    rw [tendsto_order]
    constructor
    · intro t ht
      obtain ⟨k, hk⟩ := (bl.eventually (eventually_gt_nhds ht)).exists
      filter_upwards [near k, (sL k).eventually (eventually_gt_nhds hk)] with N ⟨hN, hn⟩ hh
      exact lt_of_lt_of_le hh (binomial_squeeze (fun i => (x i ω, e i ω)) b0 b1 det a _ N hN hn).1
    · intro t ht
      obtain ⟨k, hk⟩ := (bu.eventually (eventually_lt_nhds ht)).exists
      filter_upwards [near k, (sU k).eventually (eventually_lt_nhds hk)] with N ⟨hN, hn⟩ hh
      exact lt_of_le_of_lt (binomial_squeeze (fun i => (x i ω, e i ω)) b0 b1 det a _ N hN hn).2 hh

end

/-- Non-vacuity: independent standard Gaussian defects and errors, signals `1 + 2 x + e`.  Both curves converge to the same truth. -/
example : ∀ᵐ ω ∂(Measure.infinitePi fun _ : ℕ => (gaussianReal 0 1).prod (gaussianReal 0 1)),
    Tendsto (fun N => gaussPodOf (fun i : Fin N => (ω i).1) (fun i : Fin N => 1 + 2 * (ω i).1 + (ω i).2) 3 1) atTop (𝓝 (1 / 2)) ∧
    Tendsto (fun N => binomialPodOf (fun i : Fin N => (ω i).1) (fun i : Fin N => 1 + 2 * (ω i).1 + (ω i).2) 3 1) atTop (𝓝 (1 / 2)) := by
  set g := gaussianReal 0 1 with hg
  have hid : MemLp (fun t : ℝ => t) 2 g := memLp_id_gaussianReal 2
  have mp1 : MeasurePreserving Prod.fst (g.prod g) g := measurePreserving_fst
  have mp2 : MeasurePreserving Prod.snd (g.prod g) g := measurePreserving_snd
  have h1 : MemLp (Prod.fst : ℝ × ℝ → ℝ) 2 (g.prod g) := hid.comp_measurePreserving mp1
  have h2 : MemLp (Prod.snd : ℝ × ℝ → ℝ) 2 (g.prod g) := hid.comp_measurePreserving mp2
  have e0 : ∫ t, t ∂g = 0 := integral_id_gaussianReal
  have v1 : Var[fun t : ℝ => t; g] = 1 := by rw [hg, variance_fun_id_gaussianReal]; rfl
  have sq1 : ∫ t, t ^ 2 ∂g = 1 := by
    have := variance_eq_sub hid
    rw [v1] at this
    simp [e0] at this
    exact this.symm
  have hsnd : ∫ w : ℝ × ℝ, w.2 ∂(g.prod g) = 0 := by
    have := integral_prod_mul (μ := g) (ν := g) (fun _ : ℝ => (1 : ℝ)) (fun t : ℝ => t)
    simpa [e0] using this
  have hmul : ∫ w : ℝ × ℝ, w.1 * w.2 ∂(g.prod g) = 0 := by
    rw [integral_prod_mul (μ := g) (ν := g) (fun t : ℝ => t) (fun t : ℝ => t), e0, zero_mul]
  have hsq : ∫ w : ℝ × ℝ, w.2 ^ 2 ∂(g.prod g) = 1 ^ 2 := by
    have := integral_prod_mul (μ := g) (ν := g) (fun _ : ℝ => (1 : ℝ)) (fun t : ℝ => t ^ 2)
    simpa [sq1] using this
  have hvar : 0 < Var[(Prod.fst : ℝ × ℝ → ℝ); g.prod g] := by
    have : Var[(Prod.fst : ℝ × ℝ → ℝ); g.prod g] = Var[fun t : ℝ => t; g] := by
      conv_rhs => rw [← mp1.map_eq]
      rw [variance_map (X := fun t : ℝ => t) measurable_id.aemeasurable mp1.measurable.aemeasurable]
      rfl
    rw [this, v1]; exact one_pos
  have hPhi : g.real (Ioi (0 : ℝ)) = 1 / 2 := by
    have := gauss_Ioi (μ := 0) (s := 1) one_pos 0
    have e : sqv 1 = 1 := by simp [sqv]
    rw [e, sub_zero, zero_div, Phi_zero] at this
    rw [hg, this]; norm_num
  obtain ⟨c1, c2⟩ := C126_consistency (Q := Measure.infinitePi fun _ : ℕ => g.prod g) (P := g.prod g) (fun i ω => (ω i).1) (fun i ω => (ω i).2)
    (fun i => measurable_fst.comp (measurable_pi_apply i)) (fun i => measurable_snd.comp (measurable_pi_apply i))
    (fun i => (measurePreserving_eval_infinitePi (fun _ : ℕ => g.prod g) i).map_eq)
    (iIndepFun_infinitePi (P := fun _ : ℕ => g.prod g) (X := fun _ x => x) (fun _ => measurable_id)) h1 h2 hvar hsnd hmul 1 one_pos hsq 1 2
  have c2' := c2 3 1 (by
    have : {w : ℝ × ℝ | (1 : ℝ) + 2 * 1 + w.2 = 3} = Prod.snd ⁻¹' {0} := by
      ext w; simp only [Set.mem_ofPred_eq, Set.mem_preimage, Set.mem_singleton_iff]; constructor <;> intro <;> linarith
    rw [this, mp2.measureReal_preimage (MeasurableSet.singleton _).nullMeasurableSet]
    have : NullSingletonClass g := nullSingletonClass_gaussianReal one_ne_zero
    simp [measureReal_def])
  have hset : (g.prod g).real {w : ℝ × ℝ | (3 : ℝ) < 1 + 2 * 1 + w.2} = 1 / 2 := by
    have : {w : ℝ × ℝ | (3 : ℝ) < 1 + 2 * 1 + w.2} = Prod.snd ⁻¹' Ioi 0 := by
      ext w; simp only [Set.mem_ofPred_eq, Set.mem_preimage, Set.mem_Ioi]; constructor <;> intro <;> linarith
    rw [this, mp2.measureReal_preimage measurableSet_Ioi.nullMeasurableSet, hPhi]
  have hgs : (gaussianReal (1 + 2 * 1) (sqv 1)).real (Ioi 3) = 1 / 2 := by
    have := gauss_Ioi (μ := 1 + 2 * 1) (s := 1) one_pos 3
    rw [this, show ((3 : ℝ) - (1 + 2 * 1)) / 1 = 0 by norm_num, Phi_zero]; norm_num
  rw [hset] at c2'
  filter_upwards [c1, c2'] with ω hω hω'
  refine ⟨?_, hω'⟩
  have := hω.2.2.2 3 1
  rwa [hgs] at this

end Verif.Props
