import Verif.Props.ChaosSizes
import Verif.Props.KrigRandom

/-!
# C246: with many observations the detection sizes of the kriging POD converge (/repo/otpod/_kriging_pod.py 140-219; _kriging_tools.py 59-77)
-/

namespace Verif.Props
open Verif.Py Verif.Model ProbabilityTheory MeasureTheory Set Filter Topology

section
variable {Ω : Type} [MeasurableSpace Ω] {Q : Measure Ω} [IsProbabilityMeasure Q] {d : ℕ} {P : Measure (Fin (d + 1) → ℝ)} [IsProbabilityMeasure P]
  {xs : ℕ → Ω → Fin (d + 1) → ℝ}

/-- **C246.**  The signal is affine in the defect plus a sum of products of smooth functions of the inputs; its true POD is continuous and strictly increasing on `[a, b]` and
equals `p` at `d0`.  For every precision `ε` there is a gap `δ` such that for all lists of sizes from `a` to `b` with gaps of at most `δ`, almost all designs and almost all
draws, whatever the estimated scales and amplitudes: when the sampling size and then the number of observations grow, `run` succeeds, both curves have values on `[a, b]`, and
`computeDetectionSize(p)` and `computeDetectionSize(p, level)` are within `ε` of `d0`. -/
theorem C246_sizes (hx : ∀ i, Measurable (xs i)) (hlaw : ∀ i, Q.map (xs i) = P) (hind : iIndepFun xs Q) (R : ℝ) (hP : DesignLaw P R)
    {Ω' : Type} [MeasurableSpace Ω'] (Q' : Measure Ω') [IsProbabilityMeasure Q'] (L : Measure (Fin d → ℝ)) [IsProbabilityMeasure L]
    (b0 b1 : ℝ) {q : ℕ} (u : Fin q → Fin (d + 1) → ℝ → ℝ) (hu : ∀ r j, ContDiff ℝ 1 (u r j)) (det : ℝ)
    (truth : ℝ → ℝ) (htruth : truth = fun a => L.real {x | det < b0 + b1 * a + tensorSignal u (fullPoint (a, x))}) (a b p d0 : ℝ)
    (hsupp : ∀ t ∈ Icc a b, ∀ᵐ x ∂L, fullPoint (t, x) ∈ P.support ∧ b0 + b1 * t + tensorSignal u (fullPoint (t, x)) ≠ det)
    (hcont : ContinuousOn truth (Icc a b)) (hmono : StrictMonoOn truth (Icc a b)) (hd0 : d0 ∈ Ioo a b) (hp : truth d0 = p)
    (solve : (ℝ → ℝ) → ℝ → ℝ → ℝ → ℝ) (hsolve : SolveSpec solve) (dataMin dataMax : ℝ)
    (sim : ℕ) (x : ℕ → ℕ → Ω' → Fin d → ℝ) (g : ℕ → ℕ → Ω' → ℝ) (hxm : ∀ i k, Measurable (x i k)) (hxl : ∀ i k, Q'.map (x i k) = L)
    (hxi : ∀ i, iIndepFun (x i) Q') (hg : ∀ i k, Measurable (g i k)) (hgl : ∀ i k, Q'.map (g i k) = gaussianReal 0 1) (hgi : ∀ i, iIndepFun (g i) Q')
    (ε : ℝ) (hε : 0 < ε) :
    ∃ δ > 0, ∀ s : SimAttrs, s.number = s.sizes.length → FineSizes a b δ s.sizes →
    ∀ᵐ ω ∂Q, ∀ᵐ ω' ∂Q', ∀ (θ : ℕ → Fin (d + 1) → ℝ) (τ : ℕ → ℝ), ModelRange θ τ → ∀ (z : ℕ → ℕ → ℝ) (c : ℕ → ℕ → ℕ), (∀ i k, c i k < sim) →
      ∀ level, ∀ᶠ m in atTop, ∀ᶠ N in atTop,
        ∃ s' r rc, krigingDesignRun (fun a b => τ N * absExp (θ N) a b) defectTrend (fun i : Fin N => xs i ω)
            (fun i => b0 + b1 * xs i ω 0 + tensorSignal u (xs i ω)) det (sim * m)
            (fun i => krigDraws sim m (fun k => x i k ω') (z i) (c i) fun k => g i k ω') s = (.ok (), s') ∧
          s'.curve = some r ∧ getPODCLModel s' level = .ok rc ∧ (∀ t ∈ Icc a b, ∃ w wc, r t = .ok w ∧ rc t = .ok wc) ∧
          ∀ (model : ℝ → ℝ) (modelCl : ℝ → ℝ → ℝ), (∀ t ∈ Icc a b, r t = .ok (model t) ∧ rc t = .ok (modelCl level t)) →
            ∃ e ec, sizesDetection solve dataMin dataMax a b model modelCl p none = .ok ([e], [labelP p]) ∧
              sizesDetection solve dataMin dataMax a b model modelCl p (some level) = .ok ([e, ec], [labelP p, labelPC p level]) ∧
              |e - d0| < ε ∧ |ec - d0| < ε := by
  obtain ⟨m', hm', hdet'⟩ := detection_near solve hsolve dataMin dataMax a b p d0 truth hmono hd0 hp ε hε
  obtain ⟨δ, hδ, hchord⟩ := chord_uniform a b truth hcont (m' / 2) (by linarith)
  refine ⟨δ, hδ, fun s hnum hfine => ?_⟩
  have hmem := fine_mem hfine
  obtain ⟨hne, hinc, h0, h1, hgap⟩ := hfine
  have key : ∀ i t, i + 1 < s.sizes.length → s.sizes.getD i 0 ≤ t → t ≤ s.sizes.getD (i + 1) 0 →
      |truth (s.sizes.getD i 0) + (truth (s.sizes.getD (i + 1) 0) - truth (s.sizes.getD i 0)) *
        ((t - s.sizes.getD i 0) / (s.sizes.getD (i + 1) 0 - s.sizes.getD i 0)) - truth t| ≤ m' / 2 := by
    intro i t hi ha hb
    refine hchord _ le_rfl _ _ t (hmem i (by omega)) (hmem _ hi) ?_ (hgap i hi) ha hb
    rw [List.getD_eq_getElem _ _ (by omega : i < s.sizes.length), List.getD_eq_getElem _ _ hi]
    exact List.pairwise_iff_getElem.mp hinc i (i + 1) _ _ (by omega)
  have hin : ∀ t ∈ s.sizes, t ∈ Icc a b := by
    intro t ht
    obtain ⟨i, hi, hit⟩ := List.mem_iff_getElem.1 ht
    have := hmem i hi
    rwa [List.getD_eq_getElem _ _ hi, hit] at this
  obtain ⟨pod, hpod, hmain⟩ := C180_pod hx hlaw hind R hP Q' L b0 b1 u hu det s (hinc.imp fun h => h.le) hnum (fun t ht => hsupp t (hin t ht)) sim x g hxm hxl hxi hg hgl hgi
  have hnode : ∀ t ∈ s.sizes, pod t = .ok (truth t) := by
    intro t ht
    obtain ⟨i, hi, hit⟩ := List.mem_iff_getElem.1 ht
    obtain ⟨g', hg', -, hn, -⟩ := interp1d_spec s.sizes (s.sizes.map truth) (List.length_map _).symm hne hinc
    rw [htruth, hpod, Except.ok.injEq] at hg'
    subst hg'
    have hn := hn i hi
    rwa [List.getD_eq_getElem _ _ hi, hit, List.getD_eq_getElem _ _ (by simpa using hi), List.getElem_map, hit] at hn
  filter_upwards [hmain] with ω hω
  filter_upwards [hω] with ω' hω'
  intro θ τ hM z c hc level
  have hev := (Filter.eventually_all_finset s.sizes.toFinset).2 fun t ht =>
    hω' θ τ hM z c hc t (truth t) (hnode t (List.mem_toFinset.1 ht)) level (m' / 2) (by linarith)
  filter_upwards [hev] with m hm
  have hev2 := (Filter.eventually_all_finset _).2 hm
  filter_upwards [hev2] with N hN
  obtain ⟨t0, ht0⟩ := List.exists_mem_of_ne_nil _ hne
  obtain ⟨s', hs', ⟨r, y, hr, -, -⟩, rc, yc, hrc, -, -⟩ := hN t0 (List.mem_toFinset.2 ht0)
  refine ⟨s', r, rc, hs', hr, hrc, ?_⟩
  have hs2 := congrArg Prod.snd hs'
  dsimp only at hs2
  obtain ⟨⟨ys, -, hys⟩, ysc, -, hysc⟩ := krig_interp _ _ s hnum level r rc (by rw [← hr, ← hs2]; rfl) (by rw [← hrc, ← hs2]; rfl)
  have hall : ∀ t ∈ s.sizes, (∃ v, r t = .ok v ∧ |v - truth t| ≤ m' / 2) ∧ ∃ v, rc t = .ok v ∧ |v - truth t| ≤ m' / 2 := by
    intro t ht
    obtain ⟨s'', hs'', ⟨r1, y1, hr1, k1, k2⟩, r2, y2, hr2, k3, k4⟩ := hN t (List.mem_toFinset.2 ht)
    have es : s'' = s' := congrArg Prod.snd (hs''.symm.trans hs')
    subst es
    rw [hr, Option.some.injEq] at hr1
    rw [hrc, Except.ok.injEq] at hr2
    subst hr1 hr2
    exact ⟨⟨_, k1, k2.le⟩, _, k3, k4.le⟩
  obtain ⟨g, g1, g2, g3⟩ := interp_from_nodes s.sizes ys hinc hne r hys truth (m' / 2) (m' / 2) (by linarith) (fun t ht => (hall t ht).1) key
  obtain ⟨gc, gc1, gc2, gc3⟩ := interp_from_nodes s.sizes ysc hinc hne rc hysc truth (m' / 2) (m' / 2) (by linarith) (fun t ht => (hall t ht).2) key
  rw [h0, h1] at g1 g2 g3 gc1 gc2 gc3
  refine ⟨fun t ht => ⟨_, _, g1 t ht.1 ht.2, gc1 t ht.1 ht.2⟩, fun model modelCl hmod => ?_⟩
  have em : ∀ t ∈ Icc a b, model t = g t := fun t ht => by
    have := (hmod t ht).1; rw [g1 t ht.1 ht.2, Except.ok.injEq] at this; exact this.symm
  have emc : ∀ t ∈ Icc a b, modelCl level t = gc t := fun t ht => by
    have := (hmod t ht).2; rw [gc1 t ht.1 ht.2, Except.ok.injEq] at this; exact this.symm
  exact hdet' level model (modelCl level) (g2.congr em) (gc2.congr emc) fun t ht => by
    rw [em t ht, emc t ht]
    have e1 := g3 t ht.1 ht.2
    have e2 := gc3 t ht.1 ht.2
    constructor <;> linarith

end

/-- Signal `a + x²` with `x` uniform, threshold 1: the POD is `1 - √(1-a)`, and the size detected with probability `1 - √(1/2)` is `1/2`. -/
example : let L := Measure.pi fun _ : Fin 1 => volume.restrict (Icc (0 : ℝ) 1)
    let truth := fun a => L.real {x | 1 < 0 + 1 * a + tensorSignal squareTerm (fullPoint (a, x))}
    (∀ t ∈ Icc (1 / 4 : ℝ) (3 / 4), ∀ᵐ x ∂L, fullPoint (t, x) ∈ squareLaw.support ∧ 0 + 1 * t + tensorSignal squareTerm (fullPoint (t, x)) ≠ 1) ∧
    ContinuousOn truth (Icc (1 / 4) (3 / 4)) ∧ StrictMonoOn truth (Icc (1 / 4) (3 / 4)) ∧ truth (1 / 2) = 1 - Real.sqrt (1 / 2) := by
  intro L truth
  have e : ∀ (a : ℝ) (x : Fin 1 → ℝ), tensorSignal squareTerm (fullPoint (a, x)) = x 0 ^ 2 := by
    intro a x
    simp [tensorSignal, squareTerm, fullPoint, Fin.prod_univ_two]
  have hmp := measurePreserving_eval (fun _ : Fin 1 => volume.restrict (Icc (0 : ℝ) 1)) 0
  have ht : ∀ a ∈ Icc (1 / 4 : ℝ) (3 / 4), truth a = 1 - Real.sqrt (1 - a) := by
    intro a ha
    have hset : {x : Fin 1 → ℝ | 1 < 0 + 1 * a + tensorSignal squareTerm (fullPoint (a, x))} = Function.eval 0 ⁻¹' {t : ℝ | 1 < a + t ^ 2} := by
      ext x
      simp only [mem_ofPred_eq, mem_preimage, Function.eval, e]
      constructor <;> intro h <;> linarith
    have hms : MeasurableSet {t : ℝ | 1 < a + t ^ 2} := measurableSet_lt measurable_const (by fun_prop)
    have hs1 : 0 ≤ Real.sqrt (1 - a) := Real.sqrt_nonneg _
    have hs2 : Real.sqrt (1 - a) ≤ 1 := Real.sqrt_le_one.2 (by linarith [ha.1])
    have hI : {t : ℝ | 1 < a + t ^ 2} ∩ Icc 0 1 = Ioc (Real.sqrt (1 - a)) 1 := by
      ext t
      simp only [mem_inter_iff, mem_ofPred_eq, mem_Icc, mem_Ioc]
      constructor
      · rintro ⟨h1, h2, h3⟩
        refine ⟨(Real.sqrt_lt' (lt_of_le_of_ne h2 fun h0 => ?_)).2 (by linarith), h3⟩
        rw [← h0] at h1
        linarith [ha.2]
      · rintro ⟨h1, h2⟩
        have h0 : 0 < t := hs1.trans_lt h1
        exact ⟨by linarith [(Real.sqrt_lt' h0).1 h1], h0.le, h2⟩
    change L.real _ = _
    rw [hset, measureReal_def, hmp.measure_preimage hms.nullMeasurableSet, Measure.restrict_apply hms, hI, Real.volume_Ioc, ENNReal.toReal_ofReal (by linarith)]
  refine ⟨?_, ?_, ?_, ?_⟩
  · intro a ha
    have ha01 : a ∈ Ioo (0 : ℝ) 1 := ⟨by linarith [ha.1], by linarith [ha.2]⟩
    have hae : ∀ᵐ t ∂(volume.restrict (Icc (0 : ℝ) 1)), t ∈ Ioo (0 : ℝ) 1 ∧ t ≠ Real.sqrt (1 - a) := by
      have h0 : ∀ b : ℝ, ∀ᵐ t ∂(volume.restrict (Icc (0 : ℝ) 1)), t ≠ b := fun b => by
        rw [ae_iff]; simp
      filter_upwards [ae_restrict_mem measurableSet_Icc, h0 0, h0 1, h0 (Real.sqrt (1 - a))] with t h1 h2 h3 h4
      exact ⟨⟨lt_of_le_of_ne h1.1 (Ne.symm h2), lt_of_le_of_ne h1.2 h3⟩, h4⟩
    filter_upwards [hmp.quasiMeasurePreserving.ae hae] with x hx
    obtain ⟨hx1, hx2⟩ := hx
    refine ⟨squareLaw_support fun j => ?_, ?_⟩
    · fin_cases j
      · exact ha01
      · exact hx1
    · intro he
      rw [e] at he
      apply hx2
      have : x 0 ^ 2 = 1 - a := by linarith
      have hx0 : 0 ≤ x 0 := hx1.1.le
      change x 0 = _
      rw [← this, Real.sqrt_sq hx0]
  · exact ContinuousOn.congr (by fun_prop) ht
  · intro s hs t ht' hst
    rw [ht s hs, ht t ht']
    linarith [Real.sqrt_lt_sqrt (by linarith [ht'.2] : (0 : ℝ) ≤ 1 - t) (by linarith : 1 - t < 1 - s)]
  · rw [ht _ (by norm_num)]
    norm_num

end Verif.Props
