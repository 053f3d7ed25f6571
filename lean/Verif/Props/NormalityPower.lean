import Verif.Model.NormalFit
import Verif.Props.LinearConsistency
import Verif.Props.PliDraw
import Verif.Props.KernelPod

/-!
# C182: errors that are not normal are found (/repo/otpod/_univariate_linear_model_analysis.py 274-279, 318-330)
-/

namespace Verif.Props
open Verif.Py Verif.Model ProbabilityTheory MeasureTheory Set Filter Topology
open scoped ENNReal

/-! ## Distances between a sample and a normal law -/

/-- Empirical distribution function of a sample. -/
noncomputable def ecdf {n : ℕ} (r : Fin n → ℝ) (t : ℝ) : ℝ := ((Finset.univ.filter fun i => r i ≤ t).card : ℝ) / n

theorem ecdf_mono {n : ℕ} (r : Fin n → ℝ) : Monotone (ecdf r) := by
  intro s t h
  unfold ecdf
  gcongr

theorem ecdf_range {n : ℕ} (r : Fin n → ℝ) (t : ℝ) : 0 ≤ ecdf r t ∧ ecdf r t ≤ 1 := by
  unfold ecdf
  refine ⟨by positivity, div_le_one_of_le₀ ?_ (by positivity)⟩
  have := Finset.card_le_univ (Finset.univ.filter fun i => r i ≤ t)
  rw [Fintype.card_fin] at this
  exact_mod_cast this

theorem ecdf_eq {n : ℕ} (hn : 0 < n) (r : Fin n → ℝ) (t : ℝ) : ecdf r t = 1 - empiricalCCDF (List.ofFn r) t := by
  have hc : (List.ofFn r).countP (fun v => decide (t < v)) = (Finset.univ.filter fun i => t < r i).card := by
    rw [List.ofFn_eq_map, List.countP_map, List.countP_eq_length_filter, ← List.toFinset_card_of_nodup]
    · congr 1
      ext i
      simp
    · exact (List.nodup_finRange n).filter _
  have hsum : (Finset.univ.filter fun i => r i ≤ t).card + (Finset.univ.filter fun i => t < r i).card = n := by
    have := Finset.card_filter_add_card_filter_not (s := (Finset.univ : Finset (Fin n))) (fun i => r i ≤ t)
    simpa [not_le] using this
  have hsum' : ((Finset.univ.filter fun i => r i ≤ t).card : ℝ) + ((Finset.univ.filter fun i => t < r i).card : ℝ) = n := by exact_mod_cast hsum
  have hn' : (n : ℝ) ≠ 0 := by positivity
  rw [ecdf, empiricalCCDF, hc, List.length_ofFn, eq_sub_iff_add_eq, ← add_div, hsum', div_self hn']

/-- Squared distance of Cramér and von Mises between a sample and the normal law with the mean and deviation of the sample. -/
noncomputable def cvmDistance {n : ℕ} (r : Fin n → ℝ) : ℝ≥0∞ :=
  ∫⁻ t, ENNReal.ofReal ((ecdf r t - Phi ((t - smean r) / Real.sqrt (svar r))) ^ 2) ∂gaussianReal (smean r) (sqv (Real.sqrt (svar r)))

/-- Squared distance of Anderson and Darling. -/
noncomputable def adDistance {n : ℕ} (r : Fin n → ℝ) : ℝ≥0∞ :=
  ∫⁻ t, ENNReal.ofReal ((ecdf r t - Phi ((t - smean r) / Real.sqrt (svar r))) ^ 2
      / (Phi ((t - smean r) / Real.sqrt (svar r)) * (1 - Phi ((t - smean r) / Real.sqrt (svar r))))) ∂gaussianReal (smean r) (sqv (Real.sqrt (svar r)))

/-- A difference at one point bounds the two distances from below. -/
theorem distance_lower {n : ℕ} (r : Fin n → ℝ) (hs : 0 < svar r) {D t : ℝ} (hD : 0 < D)
    (h : D ≤ |ecdf r t - Phi ((t - smean r) / Real.sqrt (svar r))|) :
    ENNReal.ofReal (D ^ 3 / 8) ≤ cvmDistance r ∧ ENNReal.ofReal (D ^ 3 / 8) ≤ adDistance r := by
  set m := smean r
  set s := Real.sqrt (svar r) with hsd
  have hs0 : 0 < s := Real.sqrt_pos.2 hs
  set G : ℝ → ℝ := fun u => Phi ((u - m) / s) with hG
  have hGI : ∀ u, (gaussianReal m (sqv s)).real (Iic u) = G u := fun u => gauss_Iic hs0 u
  have hG01 : ∀ u, 0 < G u ∧ G u < 1 := fun u => ⟨Phi_pos _, Phi_lt_one _⟩
  -- an interval where the difference is at least `D / 2` and whose mass is `D / 2`
  obtain ⟨l, u, hlu, hmass, hdiff⟩ : ∃ l u, l ≤ u ∧ G u - G l = D / 2 ∧ ∀ v ∈ Ioc l u, D / 2 ≤ |ecdf r v - G v| := by
    have hm := ecdf_mono r
    have hr := ecdf_range r t
    have hmono : ∀ a b, a ≤ b → G a ≤ G b := fun a b hab => Phi_strictMono.monotone (by
      have : a - m ≤ b - m := by linarith
      gcongr)
    have hsurj : ∀ p, 0 < p → p < 1 → ∃ v, G v = p := by
      intro p h0 h1
      obtain ⟨z, hz⟩ := Phi_surj h0 h1
      refine ⟨m + s * z, ?_⟩
      simp only [hG]
      rw [add_sub_cancel_left, mul_div_cancel_left₀ _ hs0.ne', hz]
    rcases le_abs.1 h with h | h
    · obtain ⟨v, hv⟩ := hsurj (G t + D / 2) (by have := (hG01 t).1; linarith) (by
        have : D ≤ ecdf r t - G t := h
        linarith [hr.2])
      have htv : t ≤ v := by
        by_contra hcon
        have := hmono v t (not_le.1 hcon).le
        linarith
      refine ⟨t, v, htv, by linarith, fun w hw => ?_⟩
      have h1 := hm hw.1.le
      have h2 := hmono w v hw.2
      have : D ≤ ecdf r t - G t := h
      rw [le_abs]
      left
      linarith
    · obtain ⟨v, hv⟩ := hsurj (G t - D / 2) (by
        have : D ≤ -(ecdf r t - G t) := h
        linarith [hr.1]) (by have := (hG01 t).2; linarith)
      have htv : v ≤ t := by
        by_contra hcon
        have := hmono t v (not_le.1 hcon).le
        linarith
      refine ⟨v, t, htv, by linarith, fun w hw => ?_⟩
      have h1 := hm hw.2
      have h2 := hmono v w hw.1.le
      have : D ≤ -(ecdf r t - G t) := h
      rw [le_abs]
      right
      linarith
  have hI : (gaussianReal m (sqv s)) (Ioc l u) = ENNReal.ofReal (D / 2) := by
    rw [← hmass, ← hGI, ← hGI, show Ioc l u = Iic u \ Iic l from (by ext v; simp [and_comm]), ← measureReal_diff (Iic_subset_Iic.2 hlu) measurableSet_Iic, ofReal_measureReal]
  have hlow : ∀ f : ℝ → ℝ≥0∞, (∀ v ∈ Ioc l u, ENNReal.ofReal ((D / 2) ^ 2) ≤ f v) →
      ENNReal.ofReal (D ^ 3 / 8) ≤ ∫⁻ v, f v ∂gaussianReal m (sqv s) := by
    intro f hf
    calc ENNReal.ofReal (D ^ 3 / 8) = ENNReal.ofReal ((D / 2) ^ 2) * gaussianReal m (sqv s) (Ioc l u) := by
          rw [hI, ← ENNReal.ofReal_mul (by positivity)]; congr 1; ring
      _ = ∫⁻ _ in Ioc l u, ENNReal.ofReal ((D / 2) ^ 2) ∂gaussianReal m (sqv s) := by rw [setLIntegral_const]
      _ ≤ ∫⁻ v in Ioc l u, f v ∂gaussianReal m (sqv s) := setLIntegral_mono' measurableSet_Ioc hf
      _ ≤ _ := setLIntegral_le_lintegral _ _
  have hsq : ∀ v ∈ Ioc l u, (D / 2) ^ 2 ≤ (ecdf r v - G v) ^ 2 := by
    intro v hv
    rw [← sq_abs (ecdf r v - G v)]
    exact pow_le_pow_left₀ (by positivity) (hdiff v hv) 2
  refine ⟨hlow _ fun v hv => ENNReal.ofReal_le_ofReal (hsq v hv), hlow _ fun v hv => ENNReal.ofReal_le_ofReal ((hsq v hv).trans ?_)⟩
  have h1 : 0 < G v * (1 - G v) := mul_pos (hG01 v).1 (by linarith [(hG01 v).2])
  change _ ≤ (ecdf r v - G v) ^ 2 / (G v * (1 - G v))
  rw [le_div_iff₀ h1]
  have h2 : G v * (1 - G v) ≤ 1 := by nlinarith [(hG01 v).1, (hG01 v).2]
  nlinarith [sq_nonneg (ecdf r v - G v)]

/-! ## The contract of the three tests -/

/-- Contract of the three p-values of OpenTURNS for a growing number of observations: they are small, uniformly in the sample, when the distance between
the sample and the law is bounded away from zero. -/
structure FittingTests (env : ∀ n, TestEnv n) : Prop where
  kol : ∀ δ > 0, ∀ ε > 0, ∀ᶠ n in atTop, ∀ (r : Fin n → ℝ) (G : ℝ → ℝ), (∀ t, 0 ≤ G t ∧ G t ≤ 1) → (∃ t, δ ≤ |ecdf r t - G t|) →
    ∃ p, (env n).kolmogorov r G = .fin p ∧ 0 ≤ p ∧ p ≤ ε
  cvm : ∀ δ > 0, ∀ ε > 0, ∀ᶠ n in atTop, ∀ r : Fin n → ℝ, 0 < svar r → ENNReal.ofReal δ ≤ cvmDistance r →
    ∃ p, (env n).cramerVonMises r = .fin p ∧ 0 ≤ p ∧ p ≤ ε
  ad : ∀ δ > 0, ∀ ε > 0, ∀ᶠ n in atTop, ∀ r : Fin n → ℝ, 0 < svar r → ENNReal.ofReal δ ≤ adDistance r →
    ∃ p, (env n).andersonDarling r = .fin p ∧ 0 ≤ p ∧ p ≤ ε

/-- The contract can be met. -/
theorem fittingTests_exist : ∃ env : ∀ n, TestEnv n, FittingTests env := by
  have hexp : ∀ δ > 0, ∀ ε > 0, ∀ᶠ n : ℕ in atTop, ∀ x : ℝ, δ ≤ x → 0 ≤ Real.exp (-(n * x)) ∧ Real.exp (-(n * x)) ≤ ε := by
    intro δ hδ ε hε
    have h : Tendsto (fun n : ℕ => Real.exp (-((n : ℝ) * δ))) atTop (𝓝 0) :=
      Real.tendsto_exp_neg_atTop_nhds_zero.comp (tendsto_natCast_atTop_atTop.atTop_mul_const hδ)
    filter_upwards [h.eventually (gt_mem_nhds hε)] with n hn x hx
    refine ⟨(Real.exp_pos _).le, le_trans (Real.exp_le_exp.2 ?_) hn.le⟩
    have := mul_le_mul_of_nonneg_left hx (Nat.cast_nonneg (α := ℝ) n)
    linarith
  have hmin : ∀ (I : ℝ≥0∞) (δ : ℝ), 0 < δ → ENNReal.ofReal δ ≤ I → min 1 δ ≤ (min 1 I).toReal := by
    intro I δ hδ h
    rw [← ENNReal.ofReal_le_iff_le_toReal (ne_top_of_le_ne_top ENNReal.one_ne_top (min_le_left _ _))]
    refine le_min ?_ ((ENNReal.ofReal_le_ofReal (min_le_right _ _)).trans h)
    rw [← ENNReal.ofReal_one]
    exact ENNReal.ofReal_le_ofReal (min_le_left _ _)
  refine ⟨fun n =>
    { andersonDarling := fun r => .fin (Real.exp (-(n * (min 1 (adDistance r)).toReal)))
      cramerVonMises := fun r => .fin (Real.exp (-(n * (min 1 (cvmDistance r)).toReal)))
      kolmogorov := fun r G => .fin (Real.exp (-(n * ⨆ t, |ecdf r t - G t|)))
      pStudent := fun _ x => x
      pChiSquare := fun x => x
      sims := [] }, ?_, ?_, ?_⟩
  · intro δ hδ ε hε
    filter_upwards [hexp δ hδ ε hε] with n hn r G hG ht
    obtain ⟨t, ht⟩ := ht
    refine ⟨_, rfl, hn _ (ht.trans (le_ciSup (f := fun t => |ecdf r t - G t|) ⟨1, ?_⟩ t))⟩
    rintro _ ⟨u, rfl⟩
    have h1 := ecdf_range r u
    have h2 := hG u
    rw [abs_le]
    constructor <;> linarith
  · intro δ hδ ε hε
    filter_upwards [hexp (min 1 δ) (lt_min one_pos hδ) ε hε] with n hn r _ hI
    exact ⟨_, rfl, hn _ (hmin _ δ hδ hI)⟩
  · intro δ hδ ε hε
    filter_upwards [hexp (min 1 δ) (lt_min one_pos hδ) ε hε] with n hn r _ hI
    exact ⟨_, rfl, hn _ (hmin _ δ hδ hI)⟩

/-! ## Errors that are not normal -/

/-- A law that differs from a centred normal law has a distribution function that differs at a point without mass. -/
theorem nonnormal_point (μ : Measure ℝ) [IsProbabilityMeasure μ] {s : ℝ} (hs : 0 < s) (hne : μ ≠ gaussianReal 0 (sqv s)) :
    ∃ t, μ.real {t} = 0 ∧ μ.real (Iic t) ≠ Phi (t / s) := by
  by_contra hcon
  push Not at hcon
  apply hne
  have hc : Set.Countable {t : ℝ | 0 < μ {u | u = t}} := Measure.countable_meas_level_set_pos (g := fun u : ℝ => u) measurable_id
  have hdense : Dense {t : ℝ | 0 < μ {u | u = t}}ᶜ := hc.dense_compl ℝ
  have hgood : ∀ t ∈ {t : ℝ | 0 < μ {u | u = t}}ᶜ, cdf μ t = cdf (gaussianReal 0 (sqv s)) t := by
    intro t ht
    have h0 : μ {t} = 0 := by
      simp only [mem_compl_iff, mem_ofPred_eq, not_lt, nonpos_iff_eq_zero] at ht
      exact ht
    rw [cdf_eq_real, cdf_eq_real, gauss_Iic hs, sub_zero]
    exact hcon t (by rw [measureReal_def, h0]; rfl)
  refine Measure.ext_of_Iic _ _ fun a => ?_
  have h1 : Tendsto (cdf μ) (𝓝[>] a) (𝓝 (cdf μ a)) := ((cdf μ).right_continuous a).mono Ioi_subset_Ici_self
  have h2 : Tendsto (cdf (gaussianReal 0 (sqv s))) (𝓝[>] a) (𝓝 (cdf (gaussianReal 0 (sqv s)) a)) :=
    ((cdf (gaussianReal 0 (sqv s))).right_continuous a).mono Ioi_subset_Ici_self
  -- points without mass accumulate on the right of `a`
  have hfreq : ∃ᶠ t in 𝓝[>] a, t ∈ {t : ℝ | 0 < μ {u | u = t}}ᶜ := by
    rw [frequently_iff]
    intro U hU
    obtain ⟨b, hb, hsub⟩ := mem_nhdsGT_iff_exists_Ioo_subset.1 hU
    obtain ⟨t, ht1, ht2⟩ := hdense.exists_mem_open isOpen_Ioo (nonempty_Ioo.2 hb)
    exact ⟨t, hsub ht2, ht1⟩
  have heq : cdf μ a = cdf (gaussianReal 0 (sqv s)) a := by
    by_contra hneq
    have hd : Tendsto (fun t => cdf μ t - cdf (gaussianReal 0 (sqv s)) t) (𝓝[>] a) (𝓝 (cdf μ a - cdf (gaussianReal 0 (sqv s)) a)) := h1.sub h2
    have hev := hd.eventually (isOpen_ne.mem_nhds (sub_ne_zero.2 hneq))
    obtain ⟨t, ht1, ht2⟩ := (hfreq.and_eventually hev).exists
    exact ht2 (sub_eq_zero.2 (hgood t ht1))
  rw [cdf_eq_real, cdf_eq_real] at heq
  rw [measureReal_def, measureReal_def] at heq
  exact (ENNReal.toReal_eq_toReal_iff' (measure_ne_top _ _) (measure_ne_top _ _)).1 heq

/-- If a sample differs from its fitted normal law at a point by a fixed amount for all large numbers of observations, the three p-values tend to zero. -/
theorem small_pvalues (env : ∀ n, TestEnv n) (henv : FittingTests env) (r : ∀ n, Fin n → ℝ) {D : ℝ} (hD : 0 < D)
    (h : ∀ᶠ n in atTop, 0 < svar (r n) ∧ ∃ t, D ≤ |ecdf (r n) t - normalFitCdf (r n) t|) {ε : ℝ} (hε : 0 < ε) :
    ∀ᶠ n in atTop, (∃ p, (env n).kolmogorov (r n) (normalFitCdf (r n)) = .fin p ∧ 0 ≤ p ∧ p ≤ ε) ∧
      (∃ p, (env n).cramerVonMises (r n) = .fin p ∧ 0 ≤ p ∧ p ≤ ε) ∧ ∃ p, (env n).andersonDarling (r n) = .fin p ∧ 0 ≤ p ∧ p ≤ ε := by
  filter_upwards [h, henv.kol D hD ε hε, henv.cvm (D ^ 3 / 8) (by positivity) ε hε, henv.ad (D ^ 3 / 8) (by positivity) ε hε]
    with n ⟨hv, t, ht⟩ k1 k2 k3
  obtain ⟨d1, d2⟩ := distance_lower (r n) hv hD ht
  exact ⟨k1 _ _ (fun u => ⟨(Phi_pos _).le, (Phi_lt_one _).le⟩) ⟨t, ht⟩, k2 _ hv d1, k3 _ hv d2⟩

section
variable {Ω : Type} [MeasurableSpace Ω] {Q : Measure Ω} [IsProbabilityMeasure Q] {P : Measure (ℝ × ℝ)} [IsProbabilityMeasure P]

/-- **C182.**  Independent pairs of a defect and a centred error uncorrelated with it, whose law is not normal.  Then almost surely the p-values of the
Kolmogorov test (with the default factory), of the test of Cramér and von Mises and of the test of Anderson and Darling in the result of the analysis
tend to zero. -/
theorem C182_normality (x e : ℕ → Ω → ℝ) (hx : ∀ i, Measurable (x i)) (he : ∀ i, Measurable (e i))
    (hlaw : ∀ i, Q.map (fun ω => (x i ω, e i ω)) = P) (hind : iIndepFun (fun i ω => (x i ω, e i ω)) Q)
    (h1 : MemLp Prod.fst 2 P) (h2 : MemLp Prod.snd 2 P) (hv : 0 < Var[Prod.fst; P])
    (he0 : ∫ w, w.2 ∂P = 0) (hxe : ∫ w, w.1 * w.2 ∂P = 0) (s : ℝ) (hs : 0 < s) (hse : ∫ w, w.2 ^ 2 ∂P = s ^ 2) (b0 b1 : ℝ)
    (hnn : P.map Prod.snd ≠ gaussianReal 0 (sqv s)) :
    ∀ᵐ ω ∂Q, ∀ env : ∀ n, TestEnv n, FittingTests env → ∀ ε > 0, ∀ᶠ m in atTop, ∃ T,
      analysisTests (env (m + 2)) (fun i : Fin (m + 2) => x i ω) (fun i => b0 + b1 * x i ω + e i ω) = .ok T ∧
      (∃ p, T.kolmogorov = .fin p ∧ 0 ≤ p ∧ p ≤ ε) ∧ (∃ p, T.cramerVonMises = .fin p ∧ 0 ≤ p ∧ p ≤ ε) ∧
      ∃ p, T.andersonDarling = .fin p ∧ 0 ≤ p ∧ p ≤ ε := by
  have hprob : IsProbabilityMeasure (P.map Prod.snd) := Measure.isProbabilityMeasure_map measurable_snd.aemeasurable
  obtain ⟨t0, hatom, hne⟩ := nonnormal_point (P.map Prod.snd) hs hnn
  have hC := C126_consistency x e hx he hlaw hind h1 h2 hv he0 hxe s hs hse b0 b1
  have hbin := hC.2 (b0 + t0) 0 (by
    rw [map_measureReal_apply measurable_snd (MeasurableSet.singleton _)] at hatom
    refine Eq.trans ?_ hatom
    congr 1
    ext w
    simp only [mem_ofPred_eq, mem_preimage, mem_singleton_iff]
    constructor <;> intro h <;> linarith)
  have hF : P.real {w | b0 + t0 < b0 + b1 * 0 + w.2} = 1 - (P.map Prod.snd).real (Iic t0) := by
    rw [← probReal_compl_eq_one_sub measurableSet_Iic, map_measureReal_apply measurable_snd measurableSet_Iic.compl]
    congr 1
    ext w
    simp only [mem_ofPred_eq, mem_preimage, mem_compl_iff, mem_Iic, not_le]
    constructor <;> intro h <;> linarith
  rw [hF] at hbin
  set F0 := (P.map Prod.snd).real (Iic t0) with hF0
  -- the defects are eventually not all equal
  have hz : ∀ i, Measurable fun ω => (x i ω, e i ω) := fun i => (hx i).prodMk (he i)
  obtain ⟨i11, i12, i22⟩ := moments h1 h2
  have a1 := avg_strong hz hlaw hind measurable_fst (h1.integrable (by norm_num))
  have a2 := avg_strong hz hlaw hind measurable_snd (h2.integrable (by norm_num))
  have a11 := avg_strong hz hlaw hind (f := fun w : ℝ × ℝ => w.1 ^ 2) (by fun_prop) i11
  have a12 := avg_strong hz hlaw hind (f := fun w : ℝ × ℝ => w.1 * w.2) (by fun_prop) i12
  have a22 := avg_strong hz hlaw hind (f := fun w : ℝ × ℝ => w.2 ^ 2) (by fun_prop) i22
  have hvar : ∫ w, w.1 ^ 2 ∂P = Var[Prod.fst; P] + (∫ w, w.1 ∂P) ^ 2 := by
    rw [variance_eq_sub h1]
    simp
  filter_upwards [a1, a2, a11, a12, a22, hbin] with ω t1 t2 t11 t12 t22 tb
  rw [he0] at t2
  rw [hxe] at t12
  rw [hse] at t22
  rw [hvar] at t11
  obtain ⟨hslope, hint, hstderr, hdiff, -, -, -⟩ := fit_limits (fun i => (x i ω, e i ω)) b0 b1 _ _ s hv hs t1 t2 t11 t12 t22
  intro env henv ε hε
  let X : (N : ℕ) → Fin N → ℝ := fun N i => x i ω
  let Y : (N : ℕ) → Fin N → ℝ := fun N i => b0 + b1 * x i ω + e i ω
  let r : (N : ℕ) → Fin N → ℝ := fun N => olsResiduals (X N) (Y N)
  -- standard deviation of the residuals
  have hsd : Tendsto (fun N => Real.sqrt (svar (r N))) atTop (𝓝 s) := by
    have hratio : Tendsto (fun N : ℕ => Real.sqrt (((N : ℝ) - 2) / ((N : ℝ) - 1))) atTop (𝓝 (Real.sqrt 1)) := by
      refine Real.continuous_sqrt.continuousAt.tendsto.comp ?_
      have h : Tendsto (fun N : ℕ => 1 - 1 / ((N : ℝ) - 1)) atTop (𝓝 (1 - 0)) :=
        tendsto_const_nhds.sub (tendsto_const_nhds.div_atTop (tendsto_natCast_atTop_atTop.atTop_add tendsto_const_nhds))
      rw [sub_zero] at h
      refine h.congr' ?_
      filter_upwards [eventually_gt_atTop 1] with N hN
      have : (N : ℝ) - 1 ≠ 0 := by
        have : (1 : ℝ) < N := by exact_mod_cast hN
        linarith
      field_simp
      ring
    have h := hratio.mul hstderr
    rw [Real.sqrt_one, one_mul] at h
    refine h.congr' ?_
    filter_upwards [hdiff, eventually_gt_atTop 2] with N hN hN2
    have hN2' : (2 : ℝ) < N := by exact_mod_cast hN2
    have hsum : ∑ i, r N i = 0 := (C27_ols_optimal (X N) (Y N) hN).2.2.1
    rw [svar_of_sum_zero hsum, linearStderr, linearScale, ← Real.sqrt_mul (by apply div_nonneg <;> linarith)]
    congr 1
    have e1 : (N : ℝ) - 1 ≠ 0 := by linarith
    have e2 : (N : ℝ) - 2 ≠ 0 := by linarith
    change _ / _ * ((∑ i, r N i ^ 2) / _) = _
    field_simp
  -- the point of comparison
  let t : ℕ → ℝ := fun N => b0 + t0 - (olsIntercept (X N) (Y N) + olsSlope (X N) (Y N) * 0)
  have ht : Tendsto t atTop (𝓝 t0) := by
    have h := (hint.add (hslope.mul_const 0)).const_sub (b0 + t0)
    have e : b0 + t0 - (b0 + b1 * 0) = t0 := by ring
    rw [e] at h
    exact h
  have hE : Tendsto (fun N => ecdf (r N) (t N)) atTop (𝓝 F0) := by
    have h := tb.const_sub 1
    rw [sub_sub_cancel] at h
    refine h.congr' ?_
    filter_upwards [eventually_gt_atTop 0] with N hN
    rw [ecdf_eq hN]
    rfl
  have hG : Tendsto (fun N => normalFitCdf (r N) (t N)) atTop (𝓝 (Phi (t0 / s))) := by
    refine ((Phi_continuous.tendsto _).comp (ht.div hsd hs.ne')).congr' ?_
    filter_upwards [hdiff] with N hN
    have hsum : ∑ i, r N i = 0 := (C27_ols_optimal (X N) (Y N) hN).2.2.1
    simp only [Function.comp, normalFitCdf, Pi.div_apply]
    rw [smean, hsum, zero_div, sub_zero]
  have hpos : 0 < |F0 - Phi (t0 / s)| := abs_pos.2 (sub_ne_zero.2 hne)
  have hev : ∀ᶠ N in atTop, 0 < svar (r N) ∧ ∃ u, |F0 - Phi (t0 / s)| / 2 ≤ |ecdf (r N) u - normalFitCdf (r N) u| := by
    filter_upwards [hsd.eventually (lt_mem_nhds hs), (hE.sub hG).abs.eventually (lt_mem_nhds (half_lt_self hpos))] with N n1 n2
    exact ⟨Real.sqrt_pos.1 n1, t N, n2.le⟩
  have hsmall := small_pvalues env henv r (half_pos hpos) hev hε
  have hfin : ∀ᶠ N in atTop, svar (Y N) ≠ 0 := by
    filter_upwards [hsd.eventually (lt_mem_nhds hs), hdiff, eventually_ge_atTop 2] with N n1 n2 n3
    intro h0
    have hc := (svar_eq_zero_iff n3 (Y N)).1 h0
    -- constant signals have null residuals
    have hopt := (C27_ols_optimal (X N) (Y N) n2).1 (Y N ⟨0, by omega⟩) 0
    have hz : ∑ i, (Y N i - (Y N ⟨0, by omega⟩ + 0 * X N i)) ^ 2 = 0 := by
      refine Finset.sum_eq_zero fun i _ => ?_
      rw [hc i ⟨0, by omega⟩]
      ring
    change ∑ i, r N i ^ 2 ≤ ∑ i, (Y N i - (Y N ⟨0, by omega⟩ + 0 * X N i)) ^ 2 at hopt
    rw [hz] at hopt
    have hr0 : ∑ i, r N i ^ 2 = 0 := le_antisymm hopt (Finset.sum_nonneg fun i _ => sq_nonneg _)
    have hsum : ∑ i, r N i = 0 := (C27_ols_optimal (X N) (Y N) n2).2.2.1
    have := Real.sqrt_pos.1 n1
    rw [svar_of_sum_zero hsum, hr0, zero_div] at this
    exact lt_irrefl _ this
  have hboth := (tendsto_add_atTop_nat 2).eventually (hsmall.and hfin)
  filter_upwards [hboth, eventually_gt_atTop 0] with m ⟨⟨k1, k2, k3⟩, k4⟩ hm
  have hT : ∃ T, analysisTests (env (m + 2)) (X (m + 2)) (Y (m + 2)) = .ok T ∧ T.kolmogorov = (env (m + 2)).kolmogorov (r (m + 2)) (normalFitCdf (r (m + 2)))
      ∧ T.cramerVonMises = (env (m + 2)).cramerVonMises (r (m + 2)) ∧ T.andersonDarling = (env (m + 2)).andersonDarling (r (m + 2)) := by
    rw [analysisTests, computeTests, computeR2, if_neg (by
      rw [svar_centered]
      exact k4)]
    dsimp only
    rw [if_neg hm.ne']
    exact ⟨_, rfl, rfl, rfl, rfl⟩
  obtain ⟨T, T0, T1, T2, T3⟩ := hT
  exact ⟨T, T0, T1 ▸ k1, T2 ▸ k2, T3 ▸ k3⟩

end

/-- Errors `-1` or `1` with equal probabilities. -/
noncomputable def signErr : Measure ℝ := (1 / 2 : ENNReal) • Measure.dirac (-1) + (1 / 2 : ENNReal) • Measure.dirac 1

noncomputable instance : IsProbabilityMeasure signErr := ⟨by
  simp only [signErr, Measure.coe_add, Measure.coe_smul, Pi.add_apply, Pi.smul_apply, measure_univ, smul_eq_mul, mul_one]
  exact ENNReal.add_halves 1⟩

theorem signErr_integral (f : ℝ → ℝ) : ∫ t, f t ∂signErr = (f (-1) + f 1) / 2 := by
  rw [signErr, integral_add_measure ((integrable_dirac (by simp)).smul_measure (by simp)) ((integrable_dirac (by simp)).smul_measure (by simp)),
    integral_smul_measure, integral_smul_measure, integral_dirac, integral_dirac]
  simp
  ring

theorem signErr_memLp : MemLp (fun t : ℝ => t) 2 signErr := by
  refine MemLp.of_bound measurable_id.aestronglyMeasurable 1 ?_
  rw [signErr, ae_add_measure_iff]
  constructor
  · refine Measure.ae_smul_measure ?_ _
    rw [ae_dirac_iff (measurableSet_le (by fun_prop) measurable_const)]
    simp
  · refine Measure.ae_smul_measure ?_ _
    rw [ae_dirac_iff (measurableSet_le (by fun_prop) measurable_const)]
    simp

/-- Instance: standard normal defects, line `1 + 2 a`, errors plus or minus one. -/
example : ∀ᵐ ω ∂(Measure.infinitePi fun _ : ℕ => (gaussianReal 0 1).prod signErr), ∀ env : ∀ n, TestEnv n, FittingTests env →
    ∀ ε > 0, ∀ᶠ m in atTop, ∃ T,
      analysisTests (env (m + 2)) (fun i : Fin (m + 2) => (ω i).1) (fun i => 1 + 2 * (ω i).1 + (ω i).2) = .ok T ∧
      (∃ p, T.kolmogorov = .fin p ∧ 0 ≤ p ∧ p ≤ ε) ∧ (∃ p, T.cramerVonMises = .fin p ∧ 0 ≤ p ∧ p ≤ ε) ∧
      ∃ p, T.andersonDarling = .fin p ∧ 0 ≤ p ∧ p ≤ ε := by
  have mp1 : MeasurePreserving Prod.fst ((gaussianReal 0 1).prod signErr) (gaussianReal 0 1) := measurePreserving_fst
  have mp2 : MeasurePreserving Prod.snd ((gaussianReal 0 1).prod signErr) signErr := measurePreserving_snd
  have hid : MemLp (fun t : ℝ => t) 2 (gaussianReal 0 1) := memLp_id_gaussianReal 2
  refine C182_normality (Q := Measure.infinitePi fun _ : ℕ => (gaussianReal 0 1).prod signErr) (P := (gaussianReal 0 1).prod signErr)
    (fun i ω => (ω i).1) (fun i ω => (ω i).2)
    (fun i => measurable_fst.comp (measurable_pi_apply i)) (fun i => measurable_snd.comp (measurable_pi_apply i))
    (fun i => (measurePreserving_eval_infinitePi (fun _ : ℕ => (gaussianReal 0 1).prod signErr) i).map_eq)
    (iIndepFun_infinitePi (P := fun _ : ℕ => (gaussianReal 0 1).prod signErr) (X := fun _ x => x) (fun _ => measurable_id))
    (hid.comp_measurePreserving mp1) (signErr_memLp.comp_measurePreserving mp2) ?_ ?_ ?_ 1 one_pos ?_ 1 2 ?_
  · have : Var[(Prod.fst : ℝ × ℝ → ℝ); (gaussianReal 0 1).prod signErr] = Var[fun t : ℝ => t; gaussianReal 0 1] := by
      conv_rhs => rw [← mp1.map_eq]
      rw [variance_map (X := fun t : ℝ => t) measurable_id.aemeasurable mp1.measurable.aemeasurable]
      rfl
    rw [this, variance_fun_id_gaussianReal]
    exact one_pos
  · have := integral_prod_mul (μ := gaussianReal 0 1) (ν := signErr) (fun _ : ℝ => (1 : ℝ)) (fun t : ℝ => t)
    simpa [signErr_integral] using this
  · rw [integral_prod_mul (μ := gaussianReal 0 1) (ν := signErr) (fun t : ℝ => t) (fun t : ℝ => t), signErr_integral]
    simp
  · have := integral_prod_mul (μ := gaussianReal 0 1) (ν := signErr) (fun _ : ℝ => (1 : ℝ)) (fun t : ℝ => t ^ 2)
    simpa [signErr_integral] using this
  · rw [mp2.map_eq]
    intro h
    have h1 := congrArg (fun m : Measure ℝ => m {1}) h
    have hn := nullSingletonClass_gaussianReal (μ := 0) (v := sqv 1) (by simp [sqv])
    simp only [measure_singleton] at h1
    simp [signErr] at h1

end Verif.Props
