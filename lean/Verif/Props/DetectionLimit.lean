import Verif.Props.GaussDetection
import Verif.Props.LinearConsistency

/-!
# Consistency of the detection size of the linear POD (C130)
-/

namespace Verif.Props
open Verif.Py Verif.Model MeasureTheory ProbabilityTheory Filter Topology Set

/-- If the terms are negligible before their rank, so is each term up to a rank. -/
theorem negligible_max (u v : ℕ → ℝ) (hu : ∀ i, 0 ≤ u i) (h : Tendsto (fun i : ℕ => u i / ((i : ℝ) + 1)) atTop (𝓝 0))
    (hv : ∀ᶠ N in atTop, 0 ≤ v N ∧ ∃ i < N, v N ≤ u i) : Tendsto (fun N : ℕ => v N / (N : ℝ)) atTop (𝓝 0) := by
  rw [NormedAddCommGroup.tendsto_nhds_zero] at h ⊢
  intro ε hε
  obtain ⟨K, hK⟩ := eventually_atTop.mp (h (ε / 2) (by linarith))
  set C := ∑ i ∈ Finset.range K, u i with hC
  have hbig : ∀ᶠ N : ℕ in atTop, C / (ε / 2) ≤ (N : ℝ) := tendsto_natCast_atTop_atTop.eventually_ge_atTop _
  filter_upwards [hv, hbig, eventually_gt_atTop 0] with N ⟨h0, i, hi, hvi⟩ hb hN
  have hN' : (0 : ℝ) < N := by exact_mod_cast hN
  rw [Real.norm_of_nonneg (by positivity), div_lt_iff₀ hN']
  have hle : u i ≤ ε / 2 * N := by
    rcases lt_or_ge i K with hiK | hiK
    · have h1 : u i ≤ C := Finset.single_le_sum (fun j _ => hu j) (Finset.mem_range.mpr hiK)
      rw [div_le_iff₀ (by linarith)] at hb
      linarith
    · have h1 := hK i hiK
      have hi1 : (0 : ℝ) < (i : ℝ) + 1 := by positivity
      rw [Real.norm_of_nonneg (div_nonneg (hu i) hi1.le), div_lt_iff₀ hi1] at h1
      have h2 : (i : ℝ) + 1 ≤ N := by exact_mod_cast hi
      nlinarith
  nlinarith

/-- The terms of a sequence whose averages converge are negligible before their rank. -/
theorem negligible_term (u : ℕ → ℝ) (l : ℝ) (h : Tendsto (fun N : ℕ => (∑ i ∈ Finset.range N, u i) / (N : ℝ)) atTop (𝓝 l)) :
    Tendsto (fun i : ℕ => u i / ((i : ℝ) + 1)) atTop (𝓝 0) := by
  have h1 : Tendsto (fun N : ℕ => (∑ i ∈ Finset.range (N + 1), u i) / ((N : ℝ) + 1)) atTop (𝓝 l) := by
    have := (tendsto_add_atTop_iff_nat 1).mpr h
    simpa using this
  have h2 : Tendsto (fun N : ℕ => (N : ℝ) / ((N : ℝ) + 1)) atTop (𝓝 1) := by
    simpa using tendsto_natCast_div_add_atTop (𝕜 := ℝ) 1
  have h3 := h1.sub (h.mul h2)
  rw [mul_one, sub_self] at h3
  refine h3.congr' ?_
  filter_upwards [eventually_gt_atTop 0] with N hN
  have hN' : (N : ℝ) ≠ 0 := by exact_mod_cast hN.ne'
  have : (N : ℝ) + 1 ≠ 0 := by positivity
  rw [Finset.sum_range_succ]
  field_simp
  ring

theorem PhiC_strictAnti : StrictAnti PhiC := by
  intro a b h
  rw [PhiC_eq, PhiC_eq]
  exact sub_lt_sub_left (Phi_strictMono h) 1

theorem PhiC_continuous : Continuous PhiC := by
  have : PhiC = fun t => 1 - Phi t := by ext t; exact PhiC_eq t
  rw [this]; exact continuous_const.sub Phi_continuous

/-- The prediction variance of a fit is positive and the Gaussian POD is continuous. -/
theorem gaussPod_continuous {n : ℕ} (x y : Fin n → ℝ) (det : ℝ) (hx : ∃ i j, x i ≠ x j) (hs : 0 < linearStderr x y) :
    (∀ a, 0 < Real.sqrt (predictionVariance x (linearStderr x y) a)) ∧ Continuous (gaussPodOf x y det) := by
  have hpv : ∀ a, 0 < predictionVariance x (linearStderr x y) a := by
    intro a
    rw [predictionVariance_eq _ _ _ hx]
    have := sxx_pos x hx
    positivity
  have hpc : Continuous fun a => predictionVariance x (linearStderr x y) a := by
    have : (fun a => predictionVariance x (linearStderr x y) a) = fun a =>
        linearStderr x y ^ 2 * (1 + (1 / n + (a - smean x) ^ 2 / ∑ i, (x i - smean x) ^ 2)) := by
      funext a; exact predictionVariance_eq _ _ _ hx
    rw [this]; fun_prop
  refine ⟨fun a => Real.sqrt_pos.mpr (hpv a), ?_⟩
  unfold gaussPodOf podGauss
  refine PhiC_continuous.comp (Continuous.div (by fun_prop) (Real.continuous_sqrt.comp hpc) fun a => ?_)
  exact (Real.sqrt_pos.mpr (hpv a)).ne'

theorem sq_le_of_between {d a b : ℝ} (h1 : a ≤ d) (h2 : d ≤ b) : d ^ 2 ≤ a ^ 2 ∨ d ^ 2 ≤ b ^ 2 := by
  rcases le_total 0 d with h | h
  · right; nlinarith
  · left; nlinarith

/-- Limit of the detection size along a sequence of data sets whose moments converge. -/
theorem detection_limit (solve : (ℝ → ℝ) → ℝ → ℝ → ℝ → ℝ) (hso : SolveSpec solve) (w : ℕ → ℝ × ℝ) (b0 b1 mx vx s det ap : ℝ)
    (hb : 0 < b1) (hv : 0 < vx) (hs : 0 < s)
    (l1 : Tendsto (fun N : ℕ => (∑ i ∈ Finset.range N, (w i).1) / (N : ℝ)) atTop (𝓝 mx))
    (l2 : Tendsto (fun N : ℕ => (∑ i ∈ Finset.range N, (w i).2) / (N : ℝ)) atTop (𝓝 0))
    (l11 : Tendsto (fun N : ℕ => (∑ i ∈ Finset.range N, (w i).1 ^ 2) / (N : ℝ)) atTop (𝓝 (vx + mx ^ 2)))
    (l12 : Tendsto (fun N : ℕ => (∑ i ∈ Finset.range N, (w i).1 * (w i).2) / (N : ℝ)) atTop (𝓝 0))
    (l22 : Tendsto (fun N : ℕ => (∑ i ∈ Finset.range N, (w i).2 ^ 2) / (N : ℝ)) atTop (𝓝 (s ^ 2)))
    (i0 i1 : ℕ) (hlo : (w i0).1 < ap) (hhi : ap < (w i1).1) (z : ℕ → Fin 2 → ℝ) (chi : ℕ → ℝ) (M : ℕ) :
    let x : (N : ℕ) → Fin N → ℝ := fun N i => (w i).1
    let y : (N : ℕ) → Fin N → ℝ := fun N i => b0 + b1 * (w i).1 + (w i).2
    let p := PhiC ((det - (b0 + b1 * ap)) / s)
    ∃ d : ℕ → ℝ, (∀ᶠ N in atTop, gaussDetectionOf solve (x N) (y N) det z chi M p none = .ok ([d N], [labelP p])) ∧
      Tendsto d atTop (𝓝 ap) := by
  intro x y p
  obtain ⟨hslope, hint, hstderr, hne, -, mxl, sxx⟩ := fit_limits w b0 b1 mx vx s hv hs l1 l2 l11 l12 l22
  set zp := (det - (b0 + b1 * ap)) / s with hzp
  have hneg := negligible_term (fun i => (w i).1 ^ 2) _ l11
  -- the standard error of a prediction at a size of the range
  have hden : ∀ t : ℕ → ℝ, (∀ᶠ N in atTop, ∃ i < N, t N ^ 2 ≤ (w i).1 ^ 2) →
      Tendsto (fun N => Real.sqrt (predictionVariance (x N) (linearStderr (x N) (y N)) (t N))) atTop (𝓝 s) := by
    intro t ht
    have hinv : Tendsto (fun N : ℕ => 1 / (N : ℝ)) atTop (𝓝 0) := tendsto_one_div_atTop_nhds_zero_nat
    have h1 : Tendsto (fun N : ℕ => t N ^ 2 / (N : ℝ)) atTop (𝓝 0) :=
      negligible_max (fun i => (w i).1 ^ 2) (fun N => t N ^ 2) (fun i => sq_nonneg _) hneg (ht.mono fun N h => ⟨sq_nonneg _, h⟩)
    have h2 : Tendsto (fun N : ℕ => (t N - smean (x N)) ^ 2 / (N : ℝ)) atTop (𝓝 0) := by
      have hup : Tendsto (fun N : ℕ => 2 * (t N ^ 2 / (N : ℝ)) + 2 * (smean (x N) ^ 2 * (1 / (N : ℝ)))) atTop (𝓝 0) := by
        have := (h1.const_mul 2).add (((mxl.pow 2).mul hinv).const_mul 2)
        simpa using this
      refine squeeze_zero (fun N => by positivity) (fun N => ?_) hup
      have : 2 * (t N ^ 2 / (N : ℝ)) + 2 * (smean (x N) ^ 2 * (1 / (N : ℝ))) = (2 * t N ^ 2 + 2 * smean (x N) ^ 2) / (N : ℝ) := by ring
      rw [this]
      apply div_le_div_of_nonneg_right _ (Nat.cast_nonneg _)
      nlinarith [sq_nonneg (t N + smean (x N))]
    have h3 := h2.div sxx hv.ne'
    rw [zero_div] at h3
    have h := ((hstderr.pow 2).mul ((hinv.add h3).const_add 1)).sqrt
    rw [show s ^ 2 * (1 + (0 + 0)) = s ^ 2 by ring, Real.sqrt_sq hs.le] at h
    refine h.congr' ?_
    filter_upwards [hne, eventually_gt_atTop 0] with N h4 hN
    have hN' : (N : ℝ) ≠ 0 := by exact_mod_cast hN.ne'
    rw [predictionVariance_eq _ _ _ h4, Pi.div_apply, div_div_div_cancel_right₀ hN']
  let mn : ℕ → ℝ := fun N => (sampleMin (List.ofFn (x N))).toOption.getD 0
  let mxN : ℕ → ℝ := fun N => (sampleMax (List.ofFn (x N))).toOption.getD 0
  have hrange : ∀ᶠ N in atTop, sampleMin (List.ofFn (x N)) = .ok (mn N) ∧ sampleMax (List.ofFn (x N)) = .ok (mxN N) ∧
      IsLeast {u | u ∈ List.ofFn (x N)} (mn N) ∧ IsGreatest {u | u ∈ List.ofFn (x N)} (mxN N) := by
    filter_upwards [eventually_gt_atTop 0] with N hN
    obtain ⟨u, v, hu, hv'⟩ := sampleMinMax_ok (l := List.ofFn (x N)) (by
      intro h0
      have := congrArg List.length h0
      simp at this
      omega)
    have e1 : mn N = u := by simp only [mn]; rw [hu]; rfl
    have e2 : mxN N = v := by simp only [mxN]; rw [hv']; rfl
    exact ⟨by rw [e1, hu], by rw [e2, hv'], e1 ▸ sampleMin_spec hu, e2 ▸ sampleMax_spec hv'⟩
  have hmem : ∀ N u, u ∈ List.ofFn (x N) ↔ ∃ i < N, (w i).1 = u := by
    intro N u
    rw [List.mem_ofFn]
    constructor
    · rintro ⟨i, hi⟩; exact ⟨i, i.2, hi⟩
    · rintro ⟨i, hi, h⟩; exact ⟨⟨i, hi⟩, h⟩
  have hmnI : ∀ᶠ N in atTop, ∃ i < N, mn N ^ 2 ≤ (w i).1 ^ 2 := by
    filter_upwards [hrange] with N ⟨_, _, h3, _⟩
    obtain ⟨i, hi, h⟩ := (hmem N _).mp h3.1
    exact ⟨i, hi, by rw [h]⟩
  have hmxI : ∀ᶠ N in atTop, ∃ i < N, mxN N ^ 2 ≤ (w i).1 ^ 2 := by
    filter_upwards [hrange] with N ⟨_, _, _, h4⟩
    obtain ⟨i, hi, h⟩ := (hmem N _).mp h4.1
    exact ⟨i, hi, by rw [h]⟩
  have hspos : ∀ᶠ N in atTop, 0 < linearStderr (x N) (y N) := hstderr.eventually (eventually_gt_nhds hs)
  have hbpos : ∀ᶠ N in atTop, 0 < olsSlope (x N) (y N) := hslope.eventually (eventually_gt_nhds hb)
  -- the level is in the range of the curve
  have hleft : ∀ᶠ N in atTop, gaussPodOf (x N) (y N) det (mn N) ≤ p := by
    have hlim := ((hint.add (hslope.mul_const (w i0).1)).const_sub det).div (hden mn hmnI) hs.ne'
    have hgt : zp < (det - (b0 + b1 * (w i0).1)) / s := by
      rw [hzp, div_lt_div_iff_of_pos_right hs]; nlinarith
    filter_upwards [hlim.eventually (eventually_gt_nhds hgt), hrange, hspos, hbpos, hne, eventually_gt_atTop i0]
      with N h1 ⟨_, _, h2, _⟩ h3 h4 h5 h6
    apply PhiC_strictAnti.antitone
    refine h1.le.trans ?_
    have hp := (gaussPod_continuous (x N) (y N) det h5 h3).1 (mn N)
    rw [Pi.div_apply]
    apply div_le_div_of_nonneg_right _ hp.le
    have : mn N ≤ (w i0).1 := h2.2 ((hmem N _).mpr ⟨i0, h6, rfl⟩)
    have h7 : olsSlope (x N) (y N) * mn N ≤ olsSlope (x N) (y N) * (w i0).1 := mul_le_mul_of_nonneg_left this h4.le
    exact sub_le_sub_left (by linarith) _
  have hright : ∀ᶠ N in atTop, p ≤ gaussPodOf (x N) (y N) det (mxN N) := by
    have hlim := ((hint.add (hslope.mul_const (w i1).1)).const_sub det).div (hden mxN hmxI) hs.ne'
    have hgt : (det - (b0 + b1 * (w i1).1)) / s < zp := by
      rw [hzp, div_lt_div_iff_of_pos_right hs]; nlinarith
    filter_upwards [hlim.eventually (eventually_lt_nhds hgt), hrange, hspos, hbpos, hne, eventually_gt_atTop i1]
      with N h1 ⟨_, _, _, h2⟩ h3 h4 h5 h6
    apply PhiC_strictAnti.antitone
    refine le_trans ?_ h1.le
    have hp := (gaussPod_continuous (x N) (y N) det h5 h3).1 (mxN N)
    rw [Pi.div_apply]
    apply div_le_div_of_nonneg_right _ hp.le
    have : (w i1).1 ≤ mxN N := h2.2 ((hmem N _).mpr ⟨i1, h6, rfl⟩)
    have h7 : olsSlope (x N) (y N) * (w i1).1 ≤ olsSlope (x N) (y N) * mxN N := mul_le_mul_of_nonneg_left this h4.le
    exact sub_le_sub_left (by linarith) _
  let d : ℕ → ℝ := fun N => solve (gaussPodOf (x N) (y N) det) p (mn N) (mxN N)
  have hroot : ∀ᶠ N in atTop, mn N ≤ d N ∧ d N ≤ mxN N ∧ gaussPodOf (x N) (y N) det (d N) = p := by
    filter_upwards [hleft, hright, hrange, hspos, hne] with N h1 h2 ⟨_, _, h3, h4⟩ h5 h6
    obtain ⟨h7, h8⟩ := hso (gaussPodOf (x N) (y N) det) p (mn N) (mxN N) (h3.2 h4.1)
      (gaussPod_continuous (x N) (y N) det h6 h5).2.continuousOn h1 h2
    exact ⟨h7.1, h7.2, h8⟩
  refine ⟨d, ?_, ?_⟩
  · filter_upwards [hleft, hright, hrange] with N h1 h2 ⟨h3, h4, _, _⟩
    rw [gaussDetectionOf, h3, h4]
    dsimp only
    rw [computeDetectionSize]
    dsimp only [Option.getD_none]
    rw [if_neg (not_not.mpr ⟨h1, h2⟩)]
  · have hdI : ∀ᶠ N in atTop, ∃ i < N, d N ^ 2 ≤ (w i).1 ^ 2 := by
      filter_upwards [hroot, hmnI, hmxI] with N ⟨h1, h2, _⟩ ⟨i, hi, h3⟩ ⟨j, hj, h4⟩
      rcases sq_le_of_between h1 h2 with h | h
      · exact ⟨i, hi, h.trans h3⟩
      · exact ⟨j, hj, h.trans h4⟩
    have hlim := ((hint.const_sub det).sub ((hden d hdI).const_mul zp)).div hslope hb.ne'
    rw [show (det - b0 - zp * s) / b1 = ap by rw [hzp]; field_simp; ring] at hlim
    refine hlim.congr' ?_
    filter_upwards [hroot, hspos, hbpos, hne] with N ⟨_, _, h1⟩ h2 h3 h4
    have hp := (gaussPod_continuous (x N) (y N) det h4 h2).1 (d N)
    have h5 := PhiC_strictAnti.injective h1
    rw [div_eq_iff hp.ne'] at h5
    rw [Pi.div_apply, div_eq_iff h3.ne']
    linarith

variable {Ω : Type} [MeasurableSpace Ω] {Q : Measure Ω} [IsProbabilityMeasure Q] {P : Measure (ℝ × ℝ)} [IsProbabilityMeasure P]

/-- **C130.**  The detection size of the Gaussian linear POD is a consistent estimator of the size detected with probability `p`, as
soon as sizes on both sides of it can be observed. -/
theorem C130_detection_size_consistent (x e : ℕ → Ω → ℝ) (hx : ∀ i, Measurable (x i)) (he : ∀ i, Measurable (e i))
    (hlaw : ∀ i, Q.map (fun ω => (x i ω, e i ω)) = P) (hind : iIndepFun (fun i ω => (x i ω, e i ω)) Q)
    (h1 : MemLp Prod.fst 2 P) (h2 : MemLp Prod.snd 2 P) (hv : 0 < Var[Prod.fst; P])
    (he0 : ∫ w, w.2 ∂P = 0) (hxe : ∫ w, w.1 * w.2 ∂P = 0) (s : ℝ) (hs : 0 < s) (hse : ∫ w, w.2 ^ 2 ∂P = s ^ 2) (b0 b1 : ℝ) (hb : 0 < b1)
    (det ap p : ℝ) (hp : (gaussianReal (b0 + b1 * ap) (sqv s)).real (Ioi det) = p)
    (hlo : 0 < P.real {w | w.1 < ap}) (hhi : 0 < P.real {w | ap < w.1})
    (solve : (ℝ → ℝ) → ℝ → ℝ → ℝ → ℝ) (hso : SolveSpec solve) (z : ℕ → Fin 2 → ℝ) (chi : ℕ → ℝ) (M : ℕ) :
    ∀ᵐ ω ∂Q, ∃ d : ℕ → ℝ, (∀ᶠ N in atTop,
        gaussDetectionOf solve (n := N) (fun i => x i ω) (fun i => b0 + b1 * x i ω + e i ω) det z chi M p none = .ok ([d N], [labelP p])) ∧
      Tendsto d atTop (𝓝 ap) := by
  have hz : ∀ i, Measurable fun ω => (x i ω, e i ω) := fun i => (hx i).prodMk (he i)
  obtain ⟨i11, i12, i22⟩ := moments h1 h2
  have a1 := avg_strong hz hlaw hind measurable_fst (h1.integrable (by norm_num))
  have a2 := avg_strong hz hlaw hind measurable_snd (h2.integrable (by norm_num))
  have a11 := avg_strong hz hlaw hind (f := fun w : ℝ × ℝ => w.1 ^ 2) (by fun_prop) i11
  have a12 := avg_strong hz hlaw hind (f := fun w : ℝ × ℝ => w.1 * w.2) (by fun_prop) i12
  have a22 := avg_strong hz hlaw hind (f := fun w : ℝ × ℝ => w.2 ^ 2) (by fun_prop) i22
  have hvar : ∫ w, w.1 ^ 2 ∂P = Var[Prod.fst; P] + (∫ w, w.1 ∂P) ^ 2 := by
    rw [variance_eq_sub h1]
    simp
  have hit : ∀ A : Set (ℝ × ℝ), MeasurableSet A → 0 < P.real A → ∀ᵐ ω ∂Q, ∃ i, (x i ω, e i ω) ∈ A := by
    intro A hA hpos
    have h := avg_strong hz hlaw hind (f := A.indicator fun _ => (1 : ℝ)) (measurable_const.indicator hA)
      ((integrable_const _).indicator hA)
    rw [integral_indicator hA, setIntegral_const, smul_eq_mul, mul_one] at h
    filter_upwards [h] with ω hω
    obtain ⟨N, hN⟩ := (hω.eventually (eventually_gt_nhds hpos)).exists
    by_contra hcon
    push Not at hcon
    have h0 : avg (fun i ω => (x i ω, e i ω)) (A.indicator fun _ => (1 : ℝ)) N ω = 0 := by
      simp [avg, Set.indicator_apply, hcon]
    linarith
  have b1' := hit {w | w.1 < ap} (measurableSet_lt measurable_fst measurable_const) hlo
  have b2' := hit {w | ap < w.1} (measurableSet_lt measurable_const measurable_fst) hhi
  filter_upwards [a1, a2, a11, a12, a22, b1', b2'] with ω t1 t2 t11 t12 t22 ⟨i0, hi0⟩ ⟨i1, hi1⟩
  rw [he0] at t2
  rw [hxe] at t12
  rw [hse] at t22
  rw [hvar] at t11
  have h := detection_limit solve hso (fun i => (x i ω, e i ω)) b0 b1 _ _ s det ap hb hv hs t1 t2 t11 t12 t22 i0 i1 hi0 hi1 z chi M
  rw [gauss_Ioi hs, ← PhiC_eq] at hp
  rw [← hp]
  exact h

/-- Non-vacuity: independent standard Gaussian defects and errors, signals `1 + 2 x + e`, threshold 3: the size detected with
probability 1/2 is 1. -/
example : ∃ solve, SolveSpec solve ∧ ∀ᵐ ω ∂(Measure.infinitePi fun _ : ℕ => (gaussianReal 0 1).prod (gaussianReal 0 1)),
    ∃ d : ℕ → ℝ, (∀ᶠ N in atTop, gaussDetectionOf solve (n := N) (fun i => (ω i).1) (fun i => 1 + 2 * (ω i).1 + (ω i).2) 3
      (fun _ _ => 0) (fun _ => 1) 1 (1 / 2) none = .ok ([d N], [labelP (1 / 2)])) ∧ Tendsto d atTop (𝓝 1) := by
  obtain ⟨solve, hso⟩ := solveSpec_nonempty
  refine ⟨solve, hso, ?_⟩
  set g := gaussianReal 0 1 with hg
  have hid : MemLp (fun t : ℝ => t) 2 g := memLp_id_gaussianReal 2
  have mp1 : MeasurePreserving Prod.fst (g.prod g) g := measurePreserving_fst
  have mp2 : MeasurePreserving Prod.snd (g.prod g) g := measurePreserving_snd
  have h1 : MemLp (Prod.fst : ℝ × ℝ → ℝ) 2 (g.prod g) := hid.comp_measurePreserving mp1
  have h2 : MemLp (Prod.snd : ℝ × ℝ → ℝ) 2 (g.prod g) := hid.comp_measurePreserving mp2
  have e0 : ∫ t, t ∂g = 0 := integral_id_gaussianReal
  have v1 : Var[fun t : ℝ => t; g] = 1 := by rw [hg, variance_fun_id_gaussianReal]; rfl
  have sq1 : ∫ t, t ^ 2 ∂g = 1 := by
    have := variance_eq_sub hid
    rw [v1] at this
    simp [e0] at this
    exact this.symm
  have hsnd : ∫ w : ℝ × ℝ, w.2 ∂(g.prod g) = 0 := by
    have := integral_prod_mul (μ := g) (ν := g) (fun _ : ℝ => (1 : ℝ)) (fun t : ℝ => t)
    simpa [e0] using this
  have hmul : ∫ w : ℝ × ℝ, w.1 * w.2 ∂(g.prod g) = 0 := by
    rw [integral_prod_mul (μ := g) (ν := g) (fun t : ℝ => t) (fun t : ℝ => t), e0, zero_mul]
  have hsq : ∫ w : ℝ × ℝ, w.2 ^ 2 ∂(g.prod g) = 1 ^ 2 := by
    have := integral_prod_mul (μ := g) (ν := g) (fun _ : ℝ => (1 : ℝ)) (fun t : ℝ => t ^ 2)
    simpa [sq1] using this
  have hvar : 0 < Var[(Prod.fst : ℝ × ℝ → ℝ); g.prod g] := by
    have : Var[(Prod.fst : ℝ × ℝ → ℝ); g.prod g] = Var[fun t : ℝ => t; g] := by
      conv_rhs => rw [← mp1.map_eq]
      rw [variance_map (X := fun t : ℝ => t) measurable_id.aemeasurable mp1.measurable.aemeasurable]
      rfl
    rw [this, v1]; exact one_pos
  have hone : sqv 1 = 1 := by simp [sqv]
  have hlo : 0 < (g.prod g).real (Prod.fst ⁻¹' Iio (1 : ℝ)) := by
    rw [mp1.measureReal_preimage measurableSet_Iio.nullMeasurableSet]
    have h := gauss_Iic (μ := 0) (s := 1) one_pos 0
    rw [hone, sub_zero, zero_div, Phi_zero] at h
    have hle : g.real (Iic 0) ≤ g.real (Iio 1) := measureReal_mono (fun t (ht : t ≤ 0) => lt_of_le_of_lt ht one_pos) (measure_ne_top _ _)
    rw [hg] at hle ⊢
    linarith
  have hhi : 0 < (g.prod g).real (Prod.fst ⁻¹' Ioi (1 : ℝ)) := by
    rw [mp1.measureReal_preimage measurableSet_Ioi.nullMeasurableSet]
    have h := gauss_Ioi (μ := 0) (s := 1) one_pos 1
    rw [hone, ← PhiC_eq] at h
    rw [hg, h]
    exact PhiC_pos _
  have hgs : (gaussianReal (1 + 2 * 1) (sqv 1)).real (Ioi 3) = 1 / 2 := by
    have := gauss_Ioi (μ := 1 + 2 * 1) (s := 1) one_pos 3
    rw [this, show ((3 : ℝ) - (1 + 2 * 1)) / 1 = 0 by norm_num, Phi_zero]; norm_num
  exact C130_detection_size_consistent (Q := Measure.infinitePi fun _ : ℕ => g.prod g) (P := g.prod g) (fun i ω => (ω i).1) (fun i ω => (ω i).2)
    (fun i => measurable_fst.comp (measurable_pi_apply i)) (fun i => measurable_snd.comp (measurable_pi_apply i))
    (fun i => (measurePreserving_eval_infinitePi (fun _ : ℕ => g.prod g) i).map_eq)
    (iIndepFun_infinitePi (P := fun _ : ℕ => g.prod g) (X := fun _ x => x) (fun _ => measurable_id)) h1 h2 hvar hsnd hmul 1 one_pos hsq 1 2
    (by norm_num) 3 1 (1 / 2) hgs hlo hhi solve hso _ _ 1

end Verif.Props
