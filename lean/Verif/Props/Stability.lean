import Verif.Props.DetectionLimit
import Verif.Props.BinomialBias
import Verif.Props.HalfSize

/-!
# C202: small changes of the data change the linear POD and its detection size little
-/

namespace Verif.Props
open Verif.Py Verif.Model Filter Topology Set

variable {n : ℕ}

/-- Defects, signals, threshold. -/
abbrev Data (n : ℕ) := (Fin n → ℝ) × (Fin n → ℝ) × ℝ

theorem differs_nhds (x : Fin n → ℝ) (hx : ∃ i j, x i ≠ x j) : ∀ᶠ x' in 𝓝 x, ∃ i j, x' i ≠ x' j := by
  obtain ⟨i, j, hij⟩ := hx
  have : ∀ᶠ x' in 𝓝 x, x' i ≠ x' j :=
    (isOpen_ne_fun (continuous_apply i) (continuous_apply j)).mem_nhds hij
  exact this.mono fun x' h => ⟨i, j, h⟩

theorem smean_cont : Continuous fun x : Fin n → ℝ => smean x := by
  simp only [smean]; fun_prop

theorem slope_contAt (x y : Fin n → ℝ) (hx : ∃ i j, x i ≠ x j) :
    ContinuousAt (fun w : (Fin n → ℝ) × (Fin n → ℝ) => olsSlope w.1 w.2) (x, y) := by
  have h1 : Continuous fun w : (Fin n → ℝ) × (Fin n → ℝ) => ∑ i, (w.1 i - smean w.1) * (w.2 i - smean w.2) := by
    simp only [smean]; fun_prop
  have h2 : Continuous fun w : (Fin n → ℝ) × (Fin n → ℝ) => ∑ i, (w.1 i - smean w.1) ^ 2 := by
    simp only [smean]; fun_prop
  exact h1.continuousAt.div h2.continuousAt (sxx_pos x hx).ne'

theorem intercept_contAt (x y : Fin n → ℝ) (hx : ∃ i j, x i ≠ x j) :
    ContinuousAt (fun w : (Fin n → ℝ) × (Fin n → ℝ) => olsIntercept w.1 w.2) (x, y) :=
  (smean_cont.comp continuous_snd).continuousAt.sub ((slope_contAt x y hx).mul (smean_cont.comp continuous_fst).continuousAt)

theorem residual_contAt (x y : Fin n → ℝ) (hx : ∃ i j, x i ≠ x j) (i : Fin n) :
    ContinuousAt (fun w : (Fin n → ℝ) × (Fin n → ℝ) => olsResiduals w.1 w.2 i) (x, y) := by
  have h1 : Continuous fun w : (Fin n → ℝ) × (Fin n → ℝ) => w.2 i := by fun_prop
  have h2 : Continuous fun w : (Fin n → ℝ) × (Fin n → ℝ) => w.1 i := by fun_prop
  exact h1.continuousAt.sub ((intercept_contAt x y hx).add ((slope_contAt x y hx).mul h2.continuousAt))

theorem stderr_contAt (x y : Fin n → ℝ) (hx : ∃ i j, x i ≠ x j) :
    ContinuousAt (fun w : (Fin n → ℝ) × (Fin n → ℝ) => linearStderr w.1 w.2) (x, y) := by
  simp only [linearStderr, linearScale]
  apply Real.continuous_sqrt.continuousAt.comp
  apply ContinuousAt.div_const
  exact tendsto_finsetSum _ fun i _ => (residual_contAt x y hx i).pow 2

/-- **C202, Gaussian model.**  The POD is a continuous function of the defects, the signals, the threshold and the size together, at all data that do not
lie on a line. -/
theorem C202_gauss_partial (x y : Fin n → ℝ) (hx : ∃ i j, x i ≠ x j) (hs : 0 < linearStderr x y) (det a : ℝ) :
    ContinuousAt (fun w : Data n × ℝ => gaussPodOf w.1.1 w.1.2.1 w.1.2.2 w.2) ((x, y, det), a) := by
  have c0 : ContinuousAt (fun w : Data n × ℝ => (w.1.1, w.1.2.1)) ((x, y, det), a) := by fun_prop
  have csl : ContinuousAt (fun w : Data n × ℝ => olsSlope w.1.1 w.1.2.1) ((x, y, det), a) :=
    ContinuousAt.comp (g := fun w : (Fin n → ℝ) × (Fin n → ℝ) => olsSlope w.1 w.2) (f := fun w : Data n × ℝ => (w.1.1, w.1.2.1)) (slope_contAt x y hx) c0
  have cin : ContinuousAt (fun w : Data n × ℝ => olsIntercept w.1.1 w.1.2.1) ((x, y, det), a) :=
    ContinuousAt.comp (g := fun w : (Fin n → ℝ) × (Fin n → ℝ) => olsIntercept w.1 w.2) (f := fun w : Data n × ℝ => (w.1.1, w.1.2.1)) (intercept_contAt x y hx) c0
  have cst : ContinuousAt (fun w : Data n × ℝ => linearStderr w.1.1 w.1.2.1) ((x, y, det), a) :=
    ContinuousAt.comp (g := fun w : (Fin n → ℝ) × (Fin n → ℝ) => linearStderr w.1 w.2) (f := fun w : Data n × ℝ => (w.1.1, w.1.2.1)) (stderr_contAt x y hx) c0
  have hS := sxx_pos x hx
  have c2 : Continuous fun w : Data n × ℝ => ∑ i, (w.1.1 i - smean w.1.1) ^ 2 := by
    simp only [smean]; fun_prop
  have c3 : Continuous fun w : Data n × ℝ => (w.2 - smean w.1.1) ^ 2 := by
    simp only [smean]; fun_prop
  have cv : ContinuousAt (fun w : Data n × ℝ => predictionVariance w.1.1 (linearStderr w.1.1 w.1.2.1) w.2) ((x, y, det), a) := by
    have : ContinuousAt (fun w : Data n × ℝ => linearStderr w.1.1 w.1.2.1 ^ 2 *
        (1 + (1 / n + (w.2 - smean w.1.1) ^ 2 / ∑ i, (w.1.1 i - smean w.1.1) ^ 2))) ((x, y, det), a) :=
      (cst.pow 2).mul (continuousAt_const.add (continuousAt_const.add (c3.continuousAt.div c2.continuousAt hS.ne')))
    refine this.congr ?_
    have hfst : Tendsto (fun w : Data n × ℝ => w.1.1) (𝓝 ((x, y, det), a)) (𝓝 x) := by
      have : Continuous fun w : Data n × ℝ => w.1.1 := by fun_prop
      exact this.tendsto _
    filter_upwards [hfst.eventually (differs_nhds x hx)] with w hw
    exact (predictionVariance_eq _ _ _ hw).symm
  have hv0 : 0 < predictionVariance x (linearStderr x y) a := by
    rw [predictionVariance_eq x _ a hx]
    positivity
  have cnum : ContinuousAt (fun w : Data n × ℝ => w.1.2.2 - (olsIntercept w.1.1 w.1.2.1 + olsSlope w.1.1 w.1.2.1 * w.2)) ((x, y, det), a) := by
    have h1 : ContinuousAt (fun w : Data n × ℝ => w.1.2.2) ((x, y, det), a) := by fun_prop
    have h2 : ContinuousAt (fun w : Data n × ℝ => w.2) ((x, y, det), a) := by fun_prop
    exact h1.sub (cin.add (csl.mul h2))
  simp only [gaussPodOf, podGauss, PhiC_eq]
  refine continuousAt_const.sub (Phi_continuous.continuousAt.comp (cnum.div ?_ (Real.sqrt_pos.2 hv0).ne'))
  exact Real.continuous_sqrt.continuousAt.comp cv

/-- The range of the defects, as functions of them. -/
theorem range_contAt [NeZero n] : ∃ mn mx : (Fin n → ℝ) → ℝ, Continuous mn ∧ Continuous mx ∧
    ∀ x, sampleMin (List.ofFn x) = .ok (mn x) ∧ sampleMax (List.ofFn x) = .ok (mx x) := by
  have hne : (Finset.univ : Finset (Fin n)).Nonempty := Finset.univ_nonempty
  refine ⟨fun x => Finset.univ.inf' hne x, fun x => Finset.univ.sup' hne x, ?_, ?_, fun x => ?_⟩
  · exact Continuous.finset_inf'_apply hne fun i _ => continuous_apply i
  · exact Continuous.finset_sup'_apply hne fun i _ => continuous_apply i
  · obtain ⟨u, v, hu, hv⟩ := sampleMinMax_ok (l := List.ofFn x) (by
      intro h0
      have := congrArg List.length h0
      simp only [List.length_ofFn, List.length_nil] at this
      exact NeZero.ne n this)
    have su := sampleMin_spec hu
    have sv := sampleMax_spec hv
    have mem : ∀ t, t ∈ List.ofFn x ↔ ∃ i, x i = t := fun t => List.mem_ofFn
    constructor
    · rw [hu]
      congr 1
      apply le_antisymm
      · exact Finset.le_inf' _ _ fun i _ => su.2 ((mem _).2 ⟨i, rfl⟩)
      · obtain ⟨i, hi⟩ := (mem u).1 su.1
        rw [← hi]; exact Finset.inf'_le _ (Finset.mem_univ i)
    · rw [hv]
      congr 1
      apply le_antisymm
      · obtain ⟨i, hi⟩ := (mem v).1 sv.1
        rw [← hi]; exact Finset.le_sup' _ (Finset.mem_univ i)
      · exact Finset.sup'_le _ _ fun i _ => sv.2 ((mem _).2 ⟨i, rfl⟩)

set_option maxHeartbeats 1000000 in
/-- **C202, detection size.**  If the POD is below the level on the left of `d0` and above it on the right, inside the range of the defects, the detection size
of all data close enough exists and is as close to `d0` as desired. -/
theorem C202_detection_size_partial (solve : (ℝ → ℝ) → ℝ → ℝ → ℝ → ℝ) (hso : SolveSpec solve) (x y : Fin n → ℝ) (hx : ∃ i j, x i ≠ x j)
    (hs : 0 < linearStderr x y) (det p d0 lo hi : ℝ) (hlo : sampleMin (List.ofFn x) = .ok lo) (hhi : sampleMax (List.ofFn x) = .ok hi)
    (hd : d0 ∈ Ioo lo hi) (hl : ∀ t ∈ Ico lo d0, gaussPodOf x y det t < p) (hr : ∀ t ∈ Ioc d0 hi, p < gaussPodOf x y det t)
    (z : ℕ → Fin 2 → ℝ) (chi : ℕ → ℝ) (M : ℕ) (ε : ℝ) (hε : 0 < ε) :
    ∀ᶠ w : Data n in 𝓝 (x, y, det), ∃ d, gaussDetectionOf solve w.1 w.2.1 w.2.2 z chi M p none = .ok ([d], [labelP p]) ∧ |d - d0| < ε := by
  have : NeZero n := ⟨by rintro rfl; obtain ⟨i, -⟩ := hx; exact i.elim0⟩
  obtain ⟨mn, mx, cmn, cmx, hmm⟩ := range_contAt (n := n)
  have elo : mn x = lo := by have := (hmm x).1; rw [hlo] at this; exact (Except.ok.inj this).symm
  have ehi : mx x = hi := by have := (hmm x).2; rw [hhi] at this; exact (Except.ok.inj this).symm
  have hw : 0 < hi - lo := by linarith [hd.1, hd.2]
  -- the size at the fraction `s` of the range
  let A : Data n × ℝ → ℝ := fun w => mn w.1.1 + w.2 * (mx w.1.1 - mn w.1.1)
  have cA : Continuous A := by
    have h1 : Continuous fun w : Data n × ℝ => mn w.1.1 := cmn.comp (by fun_prop)
    have h2 : Continuous fun w : Data n × ℝ => mx w.1.1 := cmx.comp (by fun_prop)
    have h3 : Continuous fun w : Data n × ℝ => w.2 := by fun_prop
    exact h1.add (h3.mul (h2.sub h1))
  have A0 : ∀ s, A ((x, y, det), s) = lo + s * (hi - lo) := fun s => by simp only [A, elo, ehi]
  set tl := max lo (d0 - ε / 2) with htl
  set tr := min hi (d0 + ε / 2) with htr
  have tl1 : lo ≤ tl := le_max_left _ _
  have tl2 : tl < d0 := max_lt hd.1 (by linarith)
  have tl3 : d0 - ε < tl := lt_of_lt_of_le (by linarith) (le_max_right _ _)
  have tr1 : tr ≤ hi := min_le_left _ _
  have tr2 : d0 < tr := lt_min hd.2 (by linarith)
  have tr3 : tr < d0 + ε := lt_of_le_of_lt (min_le_right _ _) (by linarith)
  set sl := (tl - lo) / (hi - lo) with hsl
  set sr := (tr - lo) / (hi - lo) with hsr
  have Al : A ((x, y, det), sl) = tl := by rw [A0, hsl, div_mul_cancel₀ _ hw.ne']; ring
  have Ar : A ((x, y, det), sr) = tr := by rw [A0, hsr, div_mul_cancel₀ _ hw.ne']; ring
  have cg : ∀ s, ContinuousAt (fun w : Data n × ℝ => gaussPodOf w.1.1 w.1.2.1 w.1.2.2 (A w)) ((x, y, det), s) := by
    intro s
    have h1 : ContinuousAt (fun w : Data n × ℝ => (w.1, A w)) ((x, y, det), s) :=
      continuousAt_fst.prodMk cA.continuousAt
    exact ContinuousAt.comp (g := fun w : Data n × ℝ => gaussPodOf w.1.1 w.1.2.1 w.1.2.2 w.2) (f := fun w : Data n × ℝ => (w.1, A w))
      (C202_gauss_partial x y hx hs det (A ((x, y, det), s))) h1
  have evl : ∀ᶠ w : Data n in 𝓝 (x, y, det), ∀ s ∈ Icc 0 sl, gaussPodOf w.1 w.2.1 w.2.2 (A (w, s)) < p := by
    apply isCompact_Icc.eventually_forall_of_forall_eventually (P := fun (w : Data n) s => gaussPodOf w.1 w.2.1 w.2.2 (A (w, s)) < p)
    intro s hs'
    refine (cg s).eventually (eventually_lt_nhds (hl _ ?_))
    rw [A0]
    have : s * (hi - lo) ≤ tl - lo := (le_div_iff₀ hw).1 hs'.2
    exact ⟨by nlinarith [hs'.1], by linarith⟩
  have evr : ∀ᶠ w : Data n in 𝓝 (x, y, det), ∀ s ∈ Icc sr 1, p < gaussPodOf w.1 w.2.1 w.2.2 (A (w, s)) := by
    apply isCompact_Icc.eventually_forall_of_forall_eventually (P := fun (w : Data n) s => p < gaussPodOf w.1 w.2.1 w.2.2 (A (w, s)))
    intro s hs'
    refine (cg s).eventually (eventually_gt_nhds (hr _ ?_))
    rw [A0]
    have : tr - lo ≤ s * (hi - lo) := (div_le_iff₀ hw).1 hs'.1
    exact ⟨by linarith, by nlinarith [hs'.2]⟩
  have cA' : ∀ s, Tendsto (fun w : Data n => A (w, s)) (𝓝 (x, y, det)) (𝓝 (A ((x, y, det), s))) := fun s =>
    (cA.comp (by fun_prop : Continuous fun w : Data n => (w, s))).tendsto _
  have e1 := (cA' sl).eventually (eventually_gt_nhds (show d0 - ε < A ((x, y, det), sl) by rw [Al]; exact tl3))
  have e2 := (cA' sr).eventually (eventually_lt_nhds (show A ((x, y, det), sr) < d0 + ε by rw [Ar]; exact tr3))
  have e3 : ∀ᶠ w : Data n in 𝓝 (x, y, det), 0 < mx w.1 - mn w.1 := by
    have c : Continuous fun w : Data n => mx w.1 - mn w.1 := (cmx.comp continuous_fst).sub (cmn.comp continuous_fst)
    exact (c.tendsto _).eventually (eventually_gt_nhds (by simp only [elo, ehi]; exact hw))
  have e4 : ∀ᶠ w : Data n in 𝓝 (x, y, det), ∃ i j, w.1 i ≠ w.1 j := by
    have c : Continuous fun w : Data n => w.1 := continuous_fst
    exact (c.tendsto (x, y, det)).eventually (differs_nhds x hx)
  have e5 : ∀ᶠ w : Data n in 𝓝 (x, y, det), 0 < linearStderr w.1 w.2.1 := by
    have c : ContinuousAt (fun w : Data n => (w.1, w.2.1)) (x, y, det) := by fun_prop
    have c' : ContinuousAt (fun w : Data n => linearStderr w.1 w.2.1) (x, y, det) :=
      ContinuousAt.comp (g := fun w : (Fin n → ℝ) × (Fin n → ℝ) => linearStderr w.1 w.2) (f := fun w : Data n => (w.1, w.2.1))
        (stderr_contAt x y hx) c
    exact c'.eventually (eventually_gt_nhds hs)
  have sl0 : 0 ≤ sl := div_nonneg (by linarith) hw.le
  have sr1 : sr ≤ 1 := (div_le_one hw).2 (by linarith)
  filter_upwards [evl, evr, e1, e2, e3, e4, e5] with w h1 h2 h3 h4 h5 h6 h7
  have b1 : gaussPodOf w.1 w.2.1 w.2.2 (mn w.1) < p := by
    have := h1 0 ⟨le_rfl, sl0⟩
    simpa only [A, zero_mul, add_zero] using this
  have b2 : p < gaussPodOf w.1 w.2.1 w.2.2 (mx w.1) := by
    have := h2 1 ⟨sr1, le_rfl⟩
    simpa only [A, one_mul, add_sub_cancel] using this
  obtain ⟨d1, d2⟩ := hso (gaussPodOf w.1 w.2.1 w.2.2) p (mn w.1) (mx w.1) (by linarith)
    (gaussPod_continuous w.1 w.2.1 w.2.2 h6 h7).2.continuousOn b1.le b2.le
  refine ⟨solve (gaussPodOf w.1 w.2.1 w.2.2) p (mn w.1) (mx w.1), ?_, ?_⟩
  · rw [gaussDetectionOf, (hmm w.1).1, (hmm w.1).2]
    dsimp only
    rw [computeDetectionSize]
    dsimp only [Option.getD_none]
    rw [if_neg (not_not.mpr ⟨b1.le, b2.le⟩)]
  · set d := solve (gaussPodOf w.1 w.2.1 w.2.2) p (mn w.1) (mx w.1)
    set s := (d - mn w.1) / (mx w.1 - mn w.1) with hsd
    have As : A (w, s) = d := by simp only [A]; rw [hsd, div_mul_cancel₀ _ h5.ne']; ring
    have s0 : 0 ≤ s := div_nonneg (by linarith [d1.1]) h5.le
    have s1 : s ≤ 1 := (div_le_one h5).2 (by linarith [d1.2])
    have g1 : sl < s := by
      by_contra h
      have := h1 s ⟨s0, not_lt.1 h⟩
      rw [As, d2] at this
      exact lt_irrefl _ this
    have g2 : s < sr := by
      by_contra h
      have := h2 s ⟨not_lt.1 h, s1⟩
      rw [As, d2] at this
      exact lt_irrefl _ this
    have m1 : A (w, sl) < A (w, s) := by simp only [A]; nlinarith
    have m2 : A (w, s) < A (w, sr) := by simp only [A]; nlinarith
    rw [As] at m1 m2
    rw [abs_lt]
    constructor <;> linarith

/-- **C202, binomial model.**  When no residual is exactly at the margin, the POD does not change at all under changes of the data, the threshold and
the size that are small enough. -/
theorem C202_binomial_partial (x y : Fin n → ℝ) (hx : ∃ i j, x i ≠ x j) (det a : ℝ)
    (hne : ∀ i, olsResiduals x y i ≠ det - (olsIntercept x y + olsSlope x y * a)) :
    ∀ᶠ w : Data n × ℝ in 𝓝 ((x, y, det), a), binomialPodOf w.1.1 w.1.2.1 w.1.2.2 w.2 = binomialPodOf x y det a := by
  have c0 : ContinuousAt (fun w : Data n × ℝ => (w.1.1, w.1.2.1)) ((x, y, det), a) := by fun_prop
  have csl : ContinuousAt (fun w : Data n × ℝ => olsSlope w.1.1 w.1.2.1) ((x, y, det), a) :=
    ContinuousAt.comp (g := fun w : (Fin n → ℝ) × (Fin n → ℝ) => olsSlope w.1 w.2) (f := fun w : Data n × ℝ => (w.1.1, w.1.2.1))
      (slope_contAt x y hx) c0
  have hev : ∀ i, ∀ᶠ w : Data n × ℝ in 𝓝 ((x, y, det), a),
      (w.1.2.2 < w.1.2.1 i + olsSlope w.1.1 w.1.2.1 * (w.2 - w.1.1 i) ↔ det < y i + olsSlope x y * (a - x i)) := by
    intro i
    have h1 : ContinuousAt (fun w : Data n × ℝ => w.1.2.1 i + olsSlope w.1.1 w.1.2.1 * (w.2 - w.1.1 i) - w.1.2.2) ((x, y, det), a) := by
      have a1 : ContinuousAt (fun w : Data n × ℝ => w.1.2.1 i) ((x, y, det), a) := by fun_prop
      have a2 : ContinuousAt (fun w : Data n × ℝ => w.2 - w.1.1 i) ((x, y, det), a) := by fun_prop
      have a3 : ContinuousAt (fun w : Data n × ℝ => w.1.2.2) ((x, y, det), a) := by fun_prop
      exact (a1.add (csl.mul a2)).sub a3
    have hi : y i + olsSlope x y * (a - x i) - det ≠ 0 := by
      intro h
      apply hne i
      rw [olsResiduals]
      linarith
    rcases lt_or_gt_of_ne hi with h | h
    · filter_upwards [h1.eventually (eventually_lt_nhds h)] with w hw
      constructor <;> intro h' <;> linarith
    · filter_upwards [h1.eventually (eventually_gt_nhds h)] with w hw
      constructor <;> intro h' <;> linarith
  filter_upwards [eventually_all.2 hev] with w hw
  rw [binomial_shifted, binomial_shifted]
  congr 1
  exact Finset.sum_congr rfl fun i _ => by simp only [hw i]

/-- **C202 is violated** by the binomial model: for all data and every size there are thresholds (one for each observation) below which an arbitrarily
small change of the threshold, or an arbitrarily small common change of all signals, moves the POD by at least `1/n`. -/
theorem C202_violated (x y : Fin n → ℝ) (a : ℝ) (i : Fin n) (ε : ℝ) (hε : 0 < ε) :
    let det := olsIntercept x y + olsSlope x y * a + olsResiduals x y i
    binomialPodOf x y det a + 1 / n ≤ binomialPodOf x y (det - ε) a ∧
    binomialPodOf x y det a + 1 / n ≤ binomialPodOf x (fun j => y j + ε) det a := by
  intro det
  have hn : n ≠ 0 := by rintro rfl; exact i.elim0
  have hdet : det = y i + olsSlope x y * (a - x i) := by
    simp only [det, olsResiduals]; ring
  have h1 : binomialPodOf x y det a + 1 / n ≤ binomialPodOf x y (det - ε) a := by
    rw [binomial_shifted, binomial_shifted, ← add_div]
    apply div_le_div_of_nonneg_right _ (Nat.cast_nonneg _)
    rw [← Finset.add_sum_erase _ _ (Finset.mem_univ i), ← Finset.add_sum_erase (a := i) _ _ (Finset.mem_univ i), if_neg (by rw [hdet]; exact lt_irrefl _),
      if_pos (by rw [hdet]; linarith)]
    have : ∑ j ∈ Finset.univ.erase i, (if det < y j + olsSlope x y * (a - x j) then (1 : ℝ) else 0)
        ≤ ∑ j ∈ Finset.univ.erase i, if det - ε < y j + olsSlope x y * (a - x j) then (1 : ℝ) else 0 := by
      apply Finset.sum_le_sum
      intro j _
      by_cases h : det < y j + olsSlope x y * (a - x j)
      · rw [if_pos h, if_pos (by linarith)]
      · rw [if_neg h]; split <;> norm_num
    linarith
  refine ⟨h1, ?_⟩
  have h2 := (C94_binomial_units x y hn (fun _ _ _ => 0) 1 0 1 ε (det - ε) 0 a one_ne_zero one_pos).1
  simp only [one_mul, add_zero, sub_add_cancel] at h2
  rw [h2]
  exact h1

/-- Three observations, sizes 0, 1, 2 and signals 0, 2, 1: a change of the threshold as small as desired moves the POD at size 1 by a third. -/
example (ε : ℝ) (hε : 0 < ε) : ∃ det : ℝ, binomialPodOf ![0, 1, 2] ![0, 2, 1] det 1 + 1 / (3 : ℕ) ≤ binomialPodOf ![0, 1, 2] ![0, 2, 1] (det - ε) 1 :=
  ⟨_, (C202_violated (n := 3) ![0, 1, 2] ![0, 2, 1] 1 0 ε hε).1⟩

/-- The fit of these observations: line `1/2 + a/2`, residuals `-1/2, 1, -1/2`. -/
theorem three_fit : olsSlope (![0, 1, 2] : Fin 3 → ℝ) ![0, 2, 1] = 1 / 2 ∧ olsIntercept (![0, 1, 2] : Fin 3 → ℝ) ![0, 2, 1] = 1 / 2 ∧
    0 < linearStderr (![0, 1, 2] : Fin 3 → ℝ) ![0, 2, 1] := by
  have h1 : olsSlope (![0, 1, 2] : Fin 3 → ℝ) ![0, 2, 1] = 1 / 2 := by
    norm_num [olsSlope, smean, Fin.sum_univ_succ]
  have h2 : olsIntercept (![0, 1, 2] : Fin 3 → ℝ) ![0, 2, 1] = 1 / 2 := by
    rw [olsIntercept, h1]
    norm_num [smean, Fin.sum_univ_succ]
  refine ⟨h1, h2, Real.sqrt_pos.2 ?_⟩
  norm_num [linearScale, olsResiduals, h1, h2, Fin.sum_univ_succ]

theorem three_differ : ∃ i j, (![0, 1, 2] : Fin 3 → ℝ) i ≠ ![0, 1, 2] j := ⟨0, 1, by norm_num⟩

example (det a : ℝ) : ContinuousAt (fun w : Data 3 × ℝ => gaussPodOf w.1.1 w.1.2.1 w.1.2.2 w.2) ((![0, 1, 2], ![0, 2, 1], det), a) :=
  C202_gauss_partial _ _ three_differ three_fit.2.2 det a

/-- With threshold 1 the size detected once in two is 1; nearby data give a size nearby. -/
example (solve : (ℝ → ℝ) → ℝ → ℝ → ℝ → ℝ) (hso : SolveSpec solve) (ε : ℝ) (hε : 0 < ε) :
    ∀ᶠ w : Data 3 in 𝓝 (![0, 1, 2], ![0, 2, 1], 1), ∃ d, gaussDetectionOf solve w.1 w.2.1 w.2.2 0 0 0 (1 / 2) none = .ok ([d], [labelP (1 / 2)]) ∧
      |d - 1| < ε := by
  obtain ⟨h1, h2, h3⟩ := three_fit
  have hmono := (C23_gauss_monotone_partial ![0, 1, 2] three_differ _ 1 (1 / 2) (1 / 2) h3 (by norm_num)).1
  have e : gaussPodOf ![0, 1, 2] ![0, 2, 1] 1 = podGauss ![0, 1, 2] (linearStderr ![0, 1, 2] ![0, 2, 1]) 1 fun a => 1 / 2 + 1 / 2 * a := by
    rw [gaussPodOf, h1, h2]
  have hm : (∑ i, (![0, 1, 2] : Fin 3 → ℝ) i) / (3 : ℕ) = 1 := by norm_num [Fin.sum_univ_succ]
  simp only [hm] at hmono
  rw [← e] at hmono
  have hp : gaussPodOf ![0, 1, 2] ![0, 2, 1] 1 1 = 1 / 2 := by
    rw [e, podGauss, PhiC_eq]
    norm_num [Phi_zero]
  have hall : ∀ t : ℝ, t ∈ {a : ℝ | 0 ≤ 1 + 1 / ((3 : ℕ) : ℝ) + (a - 1) * ((1 - 1 / 2) / (1 / 2) - 1) / ∑ i, ((![0, 1, 2] : Fin 3 → ℝ) i - 1) ^ 2} := by
    intro t
    change 0 ≤ 1 + 1 / ((3 : ℕ) : ℝ) + (t - 1) * ((1 - 1 / 2) / (1 / 2) - 1) / ∑ i, ((![0, 1, 2] : Fin 3 → ℝ) i - 1) ^ 2
    norm_num
  refine C202_detection_size_partial solve hso _ _ three_differ h3 1 (1 / 2) 1 0 2 ?_ ?_ ⟨by norm_num, by norm_num⟩ ?_ ?_ 0 0 0 ε hε
  · norm_num [sampleMin, List.ofFn, Fin.foldr, Fin.foldr.loop]
  · norm_num [sampleMax, List.ofFn, Fin.foldr, Fin.foldr.loop]
  · intro t ht
    rw [← hp]
    exact hmono (hall t) (hall 1) ht.2
  · intro t ht
    rw [← hp]
    exact hmono (hall 1) (hall t) ht.1

/-- With threshold 1 no residual is at the margin of size 1/2, so nothing changes there. -/
example : ∀ᶠ w : Data 3 × ℝ in 𝓝 ((![0, 1, 2], ![0, 2, 1], 1), 1 / 2), binomialPodOf w.1.1 w.1.2.1 w.1.2.2 w.2 = binomialPodOf ![0, 1, 2] ![0, 2, 1] 1 (1 / 2) := by
  refine C202_binomial_partial _ _ three_differ 1 (1 / 2) fun i => ?_
  obtain ⟨h1, h2, -⟩ := three_fit
  rw [olsResiduals, h1, h2]
  fin_cases i <;> norm_num

end Verif.Props
