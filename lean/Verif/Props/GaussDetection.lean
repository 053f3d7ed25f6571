import Verif.Props.GaussCoverage

/-!
# Defect size at a confidence level (C129)
-/

namespace Verif.Py

theorem sortR_add (xs : List ℝ) (d : ℝ) : sortR (xs.map (· + d)) = (sortR xs).map (· + d) := by
  apply List.Perm.eq_of_pairwise' (r := (· ≤ ·)) (sortR_pairwise _)
  · rw [List.pairwise_map]
    exact (sortR_pairwise xs).imp fun h => by linarith
  · exact (sortR_perm _).trans ((sortR_perm xs).map _).symm

theorem atPos_add {s : List ℝ} (hne : s ≠ []) (d t : ℝ) : atPos (s.map (· + d)) t = atPos s t + d := by
  have hl : 0 < s.length := List.length_pos_iff.mpr hne
  have hg : ∀ i < s.length, (s.map (· + d)).getD i 0 = s.getD i 0 + d := by
    intro i hi
    simp [List.getD_eq_getElem?_getD, hi]
  unfold atPos
  rw [List.length_map]
  split_ifs with h1 h2
  · exact hg 0 hl
  · exact hg _ (by omega)
  · push Not at h1 h2
    have f1 := Nat.floor_le h1
    have h3 : ⌊t⌋₊ + 1 < s.length := by
      have : ((⌊t⌋₊ + 1 : ℕ) : ℝ) < s.length := by push_cast; linarith
      exact_mod_cast this
    dsimp only
    rw [hg _ (by omega), hg _ h3]
    ring

/-- Quantiles follow a translation of the sample. -/
theorem quantile_add {xs : List ℝ} (hne : xs ≠ []) (d q : ℝ) : quantile (xs.map (· + d)) q = quantile xs q + d := by
  rw [quantile, quantile, sortR_add, atPos_add (sortR_ne_nil hne), List.length_map]

/-- If each value grows by at least `d`, so does the quantile. -/
theorem quantile_shift {M : ℕ} (hM : 1 ≤ M) (f g : ℕ → ℝ) (d q : ℝ) (h : ∀ k < M, f k + d ≤ g k) :
    quantile ((List.range M).map f) q + d ≤ quantile ((List.range M).map g) q := by
  rw [← quantile_add (by simp; omega)]
  apply quantile_le
  rw [List.map_map, List.forall₂_map_left_iff, List.forall₂_map_right_iff, List.forall₂_same]
  intro k hk
  exact h k (by simpa using hk)

end Verif.Py

namespace Verif.Props
open Verif.Py Verif.Model MeasureTheory ProbabilityTheory Set Filter Topology Matrix

/-- The quantile of strictly increasing curves is strictly increasing. -/
theorem quantile_strictMono {M : ℕ} (hM : 1 ≤ M) (f : ℕ → ℝ → ℝ) (q : ℝ) (h : ∀ k < M, StrictMono (f k)) :
    StrictMono fun a => quantile ((List.range M).map fun k => f k a) q := by
  intro a b hab
  obtain ⟨j, hj, hmin⟩ := Finset.exists_min_image (Finset.range M) (fun k => f k b - f k a) ⟨0, by simp; omega⟩
  have hpos : 0 < f j b - f j a := sub_pos.mpr (h j (by simpa using hj) hab)
  have := quantile_shift hM (fun k => f k a) (fun k => f k b) (f j b - f j a) q
    fun k hk => by have := hmin k (by simpa using hk); linarith
  dsimp only
  linarith

/-- The quantile of continuous curves is continuous. -/
theorem quantile_continuous {M : ℕ} (hM : 1 ≤ M) (f : ℕ → ℝ → ℝ) (q : ℝ) (h : ∀ k < M, Continuous (f k)) :
    Continuous fun a => quantile ((List.range M).map fun k => f k a) q := by
  rw [Metric.continuous_iff']
  intro a ε hε
  have hall : ∀ᶠ b in 𝓝 a, ∀ k ∈ Finset.range M, |f k b - f k a| < ε / 2 := by
    rw [Filter.eventually_all_finset]
    intro k hk
    have := Metric.continuous_iff'.mp (h k (by simpa using hk)) a (ε / 2) (by linarith)
    simpa [Real.dist_eq] using this
  filter_upwards [hall] with b hb
  rw [Real.dist_eq]
  have h1 := quantile_shift hM (fun k => f k a) (fun k => f k b) (-(ε / 2)) q
    fun k hk => by have := (abs_lt.mp (hb k (by simpa using hk))).1; linarith
  have h2 := quantile_shift hM (fun k => f k b) (fun k => f k a) (-(ε / 2)) q
    fun k hk => by have := (abs_lt.mp (hb k (by simpa using hk))).2; linarith
  rw [abs_lt]
  constructor <;> linarith

theorem gaussCurve_strictMono (b0 b1 det z0 z1 sg : ℝ) (hs : 0 < sg) (h1 : 0 < z1 * sg + b1) :
    StrictMono (gaussCurve b0 b1 det z0 z1 sg) := by
  intro u v huv
  rw [gaussCurve, gaussCurve, PhiC_eq, PhiC_eq]
  apply sub_lt_sub_left
  apply Phi_strictMono
  rw [div_lt_div_iff_of_pos_right hs]
  nlinarith

theorem gaussCurve_continuous (b0 b1 det z0 z1 sg : ℝ) : Continuous (gaussCurve b0 b1 det z0 z1 sg) := by
  have : gaussCurve b0 b1 det z0 z1 sg = fun v => 1 - Phi ((det - ((z0 * sg + b0) + (z1 * sg + b1) * v)) / sg) := by
    funext v
    rw [gaussCurve, PhiC_eq]
  rw [this]
  exact continuous_const.sub (Phi_continuous.comp (by fun_prop))

/-- The confidence curve, when every simulated slope is positive. -/
theorem gaussCl_shape {n : ℕ} (x y : Fin n → ℝ) (det : ℝ) (z : ℕ → Fin 2 → ℝ) (chi : ℕ → ℝ) (M : ℕ) (hM : 1 ≤ M) (c : ℝ)
    (hsg : ∀ k, 0 < sigmaDraw n (linearStderr x y) (chi k))
    (hsl : ∀ k < M, 0 < z k 1 * sigmaDraw n (linearStderr x y) (chi k) + olsSlope x y) :
    ∃ f : ℝ → ℝ, (∀ a, gaussClOf x y det z chi M c a = .ok (f a)) ∧ StrictMono f ∧ Continuous f := by
  refine ⟨_, fun a => gaussCl_eq x y det z chi M hM c a, ?_, ?_⟩
  · exact quantile_strictMono hM (fun k => gaussCurve (olsIntercept x y) (olsSlope x y) det (z k 0) (z k 1)
      (sigmaDraw n (linearStderr x y) (chi k))) (1 - c) fun k hk => gaussCurve_strictMono _ _ _ _ _ _ (hsg k) (hsl k hk)
  · exact quantile_continuous hM (fun k => gaussCurve (olsIntercept x y) (olsSlope x y) det (z k 0) (z k 1)
      (sigmaDraw n (linearStderr x y) (chi k))) (1 - c) fun k hk => gaussCurve_continuous _ _ _ _ _ _

/-- The size returned at the confidence level is where the confidence curve has the requested level. -/
theorem gaussDetection_root (solve : (ℝ → ℝ) → ℝ → ℝ → ℝ → ℝ) (hso : SolveSpec solve) {n : ℕ} (x y : Fin n → ℝ) (det : ℝ)
    (z : ℕ → Fin 2 → ℝ) (chi : ℕ → ℝ) (M : ℕ) (p c : ℝ) (f : ℝ → ℝ) (hf : ∀ a, gaussClOf x y det z chi M c a = .ok (f a))
    (hc : Continuous f) (d dc : ℝ) (lbl : List String) (h : gaussDetectionOf solve x y det z chi M p (some c) = .ok ([d, dc], lbl)) : f dc = p := by
  have hfun : (fun a => (gaussClOf x y det z chi M c a).toOption.getD 0) = f := by
    funext a
    rw [hf a]; rfl
  rw [gaussDetectionOf, Option.map_some, hfun] at h
  split at h
  · rename_i mn mx hmn hmx
    have hle : mn ≤ mx := (sampleMin_spec hmn).2 (sampleMax_spec hmx).1
    rw [computeDetectionSize] at h
    dsimp only [Option.getD_none] at h
    split_ifs at h with h1 h2
    rw [Except.ok.injEq, Prod.mk.injEq] at h
    obtain ⟨-, h3⟩ := hso f p mn mx hle hc.continuousOn h2.1 h2.2
    have h4 : solve f p mn mx = dc := by simpa using (congrArg (fun l => l.getD 1 0) h.1 :)
    rw [← h4, h3]
  · cases h

variable {Ω Ω' : Type*} [MeasurableSpace Ω] [MeasurableSpace Ω']

/-- **C129.**  `ap` is the size detected with probability `p`.  Among the runs where every simulated slope is positive and a size is
returned, the size at the confidence level is below `ap` with probability at most `1 - c`, and above with probability at most `c`, up to
`3 / 2 / (M + 1)`. -/
theorem C129_conservative_size {n : ℕ} (hn : 3 ≤ n) (x : Fin n → ℝ) (hx : ∃ i j, x i ≠ x j) (b0 b1 s det ap p : ℝ) (hs : 0 < s)
    (hp : (gaussianReal (b0 + b1 * ap) (sqv s)).real (Ioi det) = p)
    (Pd : Measure Ω) [IsProbabilityMeasure Pd] (e : Fin n → Ω → ℝ) (he : ∀ i, Measurable (e i)) (hind : iIndepFun e Pd)
    (hlaw : ∀ i, Pd.map (e i) = gaussianReal 0 (sqv s))
    (Ps : Measure Ω') [IsProbabilityMeasure Ps] (z : ℕ → Ω' → Fin 2 → ℝ) (chi : ℕ → Ω' → ℝ)
    (hz : ∀ k, NormalVector Ps (z k) ((designMatrix x)ᵀ * designMatrix x)⁻¹) (hcm : ∀ k, Measurable (chi k))
    (hchi : ∀ k, Ps.map (chi k) = chiLaw (n - 2)) (hzc : ∀ k, IndepFun (z k) (chi k) Ps)
    (hdraw : iIndepFun (fun k ω => (z k ω, chi k ω)) Ps) (M : ℕ) (hM : 1 ≤ M) (c : ℝ) (hc0 : 0 ≤ c) (hc1 : c ≤ 1)
    (solve : (ℝ → ℝ) → ℝ → ℝ → ℝ → ℝ) (hso : SolveSpec solve) :
    let y : Ω → Fin n → ℝ := fun ω i => b0 + b1 * x i + e i ω
    let steep : Set (Ω × Ω') := {ω | ∀ k < M, 0 < z k ω.2 1 * sigmaDraw n (linearStderr x (y ω.1)) (chi k ω.2) + olsSlope x (y ω.1)}
    let size (Q : ℝ → Prop) : Set (Ω × Ω') := {ω | ∃ d dc lbl,
      gaussDetectionOf solve x (y ω.1) det (fun k => z k ω.2) (fun k => chi k ω.2) M p (some c) = .ok ([d, dc], lbl) ∧ Q dc}
    (Pd.prod Ps).real (steep ∩ size (· < ap)) ≤ 1 - c + 3 / 2 / (M + 1) ∧
    (Pd.prod Ps).real (steep ∩ size (ap ≤ ·)) ≤ c + 3 / 2 / (M + 1) := by
  intro y steep size
  obtain ⟨L, U, hLm, -, hL, hU, h1, h2, hsg⟩ :=
    coverage_sets hn x hx b0 b1 s det ap hs Pd e he hind hlaw Ps z chi hz hcm hchi hzc hdraw M hM c hc0 hc1
  rw [hp] at hL hU
  constructor
  · have hsub : ∀ᵐ ω ∂(Pd.prod Ps), ω ∈ steep ∩ size (· < ap) → ω ∈ Lᶜ := by
      filter_upwards [hL, hsg] with ω hω hsgω
      rintro ⟨hst, d, dc, lbl, hr, hlt⟩ hin
      obtain ⟨f, hf, hmono, hcont⟩ := gaussCl_shape x (y ω.1) det (fun k => z k ω.2) (fun k => chi k ω.2) M hM c hsgω hst
      have hroot := gaussDetection_root solve hso x (y ω.1) det _ _ M p c f hf hcont d dc lbl hr
      obtain ⟨v, hv, hvp⟩ := hω hin
      have hv' : f ap = v := by
        have := (hf ap).symm.trans hv
        rwa [Except.ok.injEq] at this
      have := hmono hlt
      linarith
    have hm := ENNReal.toReal_mono (measure_ne_top _ _) (measure_mono_ae hsub)
    have hcompl : (Pd.prod Ps).real Lᶜ = 1 - (Pd.prod Ps).real L := probReal_compl_eq_one_sub hLm
    have hm' : (Pd.prod Ps).real (steep ∩ size (· < ap)) ≤ (Pd.prod Ps).real Lᶜ := hm
    linarith
  · have hsub : ∀ᵐ ω ∂(Pd.prod Ps), ω ∈ steep ∩ size (ap ≤ ·) → ω ∈ U := by
      filter_upwards [hU, hsg] with ω hω hsgω
      rintro ⟨hst, d, dc, lbl, hr, hle⟩
      obtain ⟨f, hf, hmono, hcont⟩ := gaussCl_shape x (y ω.1) det (fun k => z k ω.2) (fun k => chi k ω.2) M hM c hsgω hst
      have hroot := gaussDetection_root solve hso x (y ω.1) det _ _ M p c f hf hcont d dc lbl hr
      exact hω ⟨f ap, hf ap, hroot ▸ hmono.monotone hle⟩
    have hm := ENNReal.toReal_mono (measure_ne_top _ _) (measure_mono_ae hsub)
    exact le_trans hm h2

/-- Four sizes, errors of standard deviation 2, threshold 9, level 1/2 (detected with probability 1/2 at size 8/3). -/
example : ∃ (Ps : Measure (ℕ → (Fin 2 → ℝ) × ℝ)) (solve : (ℝ → ℝ) → ℝ → ℝ → ℝ → ℝ), IsProbabilityMeasure Ps ∧ SolveSpec solve ∧
    ∀ M : ℕ, 1 ≤ M → ((Measure.pi fun _ : Fin 4 => gaussianReal 0 (sqv 2)).prod Ps).real
      {ω : (Fin 4 → ℝ) × (ℕ → (Fin 2 → ℝ) × ℝ) |
        (∀ k < M, 0 < (ω.2 k).1 1 * sigmaDraw 4 (linearStderr ![1, 2, 4, 5] fun i : Fin 4 => 1 + 3 * (![1, 2, 4, 5] : Fin 4 → ℝ) i + ω.1 i)
          (ω.2 k).2 + olsSlope ![1, 2, 4, 5] fun i : Fin 4 => 1 + 3 * (![1, 2, 4, 5] : Fin 4 → ℝ) i + ω.1 i) ∧
        ∃ d dc lbl, gaussDetectionOf solve (n := 4) ![1, 2, 4, 5] (fun i : Fin 4 => 1 + 3 * (![1, 2, 4, 5] : Fin 4 → ℝ) i + ω.1 i) 9
          (fun k => (ω.2 k).1) (fun k => (ω.2 k).2) M (1 / 2) (some (19 / 20)) = .ok ([d, dc], lbl) ∧ dc < 8 / 3} ≤ 1 - 19 / 20 + 3 / 2 / (M + 1) := by
  obtain ⟨Ps, hp, h1, h2, h3, h4⟩ := gaussDraws_exist (![1, 2, 4, 5] : Fin 4 → ℝ) (4 - 2)
  obtain ⟨solve, hso⟩ := solveSpec_nonempty
  refine ⟨Ps, solve, hp, hso, fun M hM => ?_⟩
  have hi : iIndepFun (fun (i : Fin 4) (ω : Fin 4 → ℝ) => ω i) (Measure.pi fun _ : Fin 4 => gaussianReal 0 (sqv 2)) :=
    iIndepFun_pi (X := fun _ t => t) fun _ => aemeasurable_id
  have hl : ∀ i : Fin 4, (Measure.pi fun _ : Fin 4 => gaussianReal 0 (sqv 2)).map (fun ω => ω i) = gaussianReal 0 (sqv 2) := fun i =>
    (measurePreserving_eval (fun _ : Fin 4 => gaussianReal 0 (sqv 2)) i).map_eq
  have hx : ∃ i j, (![1, 2, 4, 5] : Fin 4 → ℝ) i ≠ (![1, 2, 4, 5] : Fin 4 → ℝ) j := ⟨0, 1, by simp⟩
  have hpp : (gaussianReal (1 + 3 * (8 / 3)) (sqv 2)).real (Ioi 9) = 1 / 2 := by
    rw [gauss_Ioi (by norm_num), show ((9 : ℝ) - (1 + 3 * (8 / 3))) / 2 = 0 by norm_num, Phi_zero]
    norm_num
  exact (C129_conservative_size (Ω := Fin 4 → ℝ) (by norm_num) _ hx 1 3 2 9 (8 / 3) (1 / 2) (by norm_num) hpp _
    (fun (i : Fin 4) (ω : Fin 4 → ℝ) => ω i)
    (fun i => measurable_pi_apply i) hi hl Ps (fun k ω => (ω k).1) (fun k ω => (ω k).2) h1
    (fun k => measurable_snd.comp (measurable_pi_apply k)) h2 h3 h4 M hM (19 / 20) (by norm_num) (by norm_num) solve hso).1

end Verif.Props
