import Verif.Props.DetectionLimit
import Verif.Props.DetectionLevels
import Verif.Props.CensoredMin
import Verif.Props.Limits
import Verif.Props.MeanCurve
import Verif.Model.Bootstrap
import Mathlib.Analysis.SpecialFunctions.Pow.Asymptotics
import Mathlib.Topology.Algebra.Module.Cardinality

/-!
# C172: the linear POD with kernel smoothing of the residuals, and the detection sizes without hypothesis on the residuals
(/repo/otpod/_univariate_linear_model_pod.py 139-213, 361-369, 461-469)
-/

namespace Verif.Props
open Verif.Py Verif.Model ProbabilityTheory MeasureTheory Set Filter Topology

/-- `computeComplementaryCDF` of a kernel mixture on the residuals: `K` is the complementary distribution function of the kernel, `h` the
bandwidth. -/
noncomputable def kernelCcdf (K : ℝ → ℝ) (h : ℝ) (rs : List ℝ) (t : ℝ) : ℝ := (rs.map fun r => K ((t - r) / h)).sum / rs.length

/-- Sample standard deviation. -/
noncomputable def listStd (rs : List ℝ) : ℝ :=
  Real.sqrt ((rs.map fun r => (r - rs.sum / rs.length) ^ 2).sum / ((rs.length : ℝ) - 1))

/-- Contract of `ot.KernelSmoothing().build`: on residuals that are not all equal, a kernel mixture whose bandwidth is at most a multiple of the
standard deviation times a negative power of the size (Silverman's rule: power 1/5). -/
structure KernelFactory (build : List ℝ → Res (ℝ → ℝ)) (K : ℝ → ℝ) (bw : List ℝ → ℝ) : Prop where
  anti : Antitone K
  unit : ∀ t, 0 ≤ K t ∧ K t ≤ 1
  top : Tendsto K atTop (𝓝 0)
  bot : Tendsto K atBot (𝓝 1)
  law : ∀ rs, (∃ r ∈ rs, ∃ r' ∈ rs, r ≠ r') → build rs = .ok (kernelCcdf K (bw rs) rs)
  width : ∃ c γ : ℝ, 0 < γ ∧ ∀ rs, (∃ r ∈ rs, ∃ r' ∈ rs, r ≠ r') → 0 < bw rs ∧ bw rs ≤ c * listStd rs * (rs.length : ℝ) ^ (-γ)

/-! ## Kernel mixture and empirical law -/

theorem kernel_upper {K : ℝ → ℝ} (hK : Antitone K) (hu : ∀ t, 0 ≤ K t ∧ K t ≤ 1) {h M η t : ℝ} (hh : 0 < h) (hη : M * h ≤ η) (rs : List ℝ) (hne : rs ≠ []) :
    kernelCcdf K h rs t ≤ empiricalCCDF rs (t - η) + K M := by
  have hlen : (0 : ℝ) < rs.length := by exact_mod_cast List.length_pos_iff.2 hne
  have key : (rs.map fun r => K ((t - r) / h)).sum ≤ rs.countP (fun r => decide (t - η < r)) + K M * rs.length := by
    clear hne hlen
    induction rs with
    | nil => simp
    | cons r rs ih =>
      rw [List.map_cons, List.sum_cons, List.countP_cons, List.length_cons]
      push_cast
      by_cases hr : t - η < r
      · simp only [hr, decide_true, if_true]
        have := (hu ((t - r) / h)).2
        have := (hu M).1
        linarith
      · simp only [hr, decide_false, Bool.false_eq_true, if_false]
        have h1 : M ≤ (t - r) / h := by
          rw [le_div_iff₀ hh]
          linarith
        have := hK h1
        push_cast
        linarith
  rw [kernelCcdf, empiricalCCDF, div_le_iff₀ hlen, add_mul, div_mul_cancel₀ _ hlen.ne']
  exact key

theorem kernel_lower {K : ℝ → ℝ} (hK : Antitone K) (hu : ∀ t, 0 ≤ K t ∧ K t ≤ 1) {h M η t : ℝ} (hh : 0 < h) (hη : M * h ≤ η) (rs : List ℝ) (hne : rs ≠ []) :
    empiricalCCDF rs (t + η) - (1 - K (-M)) ≤ kernelCcdf K h rs t := by
  have hlen : (0 : ℝ) < rs.length := by exact_mod_cast List.length_pos_iff.2 hne
  have key : (rs.countP (fun r => decide (t + η < r)) : ℝ) ≤ (rs.map fun r => K ((t - r) / h)).sum + (1 - K (-M)) * rs.length := by
    clear hne hlen
    induction rs with
    | nil => simp
    | cons r rs ih =>
      rw [List.map_cons, List.sum_cons, List.countP_cons, List.length_cons]
      push_cast
      have h0 := (hu ((t - r) / h)).1
      have h1 := (hu (-M)).2
      by_cases hr : t + η < r
      · simp only [hr, decide_true, if_true]
        have h2 : (t - r) / h ≤ -M := by
          rw [div_le_iff₀ hh]
          linarith
        have := hK h2
        push_cast
        linarith
      · simp only [hr, decide_false, Bool.false_eq_true, if_false]
        push_cast
        linarith
  rw [kernelCcdf, empiricalCCDF, sub_le_iff_le_add, div_le_iff₀ hlen, add_mul, div_mul_cancel₀ _ hlen.ne']
  exact key

theorem kernelCcdf_antitone {K : ℝ → ℝ} (hK : Antitone K) {h : ℝ} (hh : 0 < h) (rs : List ℝ) : Antitone (kernelCcdf K h rs) := by
  intro t u htu
  refine div_le_div_of_nonneg_right ?_ (Nat.cast_nonneg _)
  refine List.sum_le_sum fun r _ => hK ?_
  gcongr

theorem empiricalCCDF_antitone' (rs : List ℝ) : Antitone (empiricalCCDF rs) := by
  intro t u htu
  refine div_le_div_of_nonneg_right ?_ (Nat.cast_nonneg _)
  refine Nat.cast_le.2 (List.countP_mono_left fun r _ h => ?_)
  simp only [decide_eq_true_eq] at h ⊢
  linarith

/-! ## Standard deviation of the residuals -/

theorem listStd_le {n : ℕ} (hn : 3 ≤ n) (r : Fin n → ℝ) (hsum : ∑ i, r i = 0) :
    listStd (List.ofFn r) ≤ Real.sqrt ((∑ i, r i ^ 2) / ((n : ℝ) - 2)) := by
  have h3 : (3 : ℝ) ≤ n := by exact_mod_cast hn
  apply Real.sqrt_le_sqrt
  have hs : (List.ofFn r).sum = 0 := by rw [List.sum_ofFn, hsum]
  rw [hs, zero_div, List.map_ofFn, List.sum_ofFn, List.length_ofFn]
  simp only [Function.comp_apply, sub_zero]
  have : 0 ≤ ∑ i, r i ^ 2 := Finset.sum_nonneg fun i _ => sq_nonneg _
  apply div_le_div_of_nonneg_left this <;> linarith

/-! ## The run on a data set without censoring and without Box-Cox -/

theorem ols_ofFn (env : LinEnv) (henv : ExactFit env) {n : ℕ} (x y : Fin n → ℝ) (hx : ∃ i j, x i ≠ x j) :
    env.ols (List.ofFn fun i => (x i, y i)) = (olsIntercept x y, olsSlope x y, linearStderr x y) := by
  have hmem : ∃ o ∈ List.ofFn (fun i => (x i, y i)), ∃ o' ∈ List.ofFn (fun i => (x i, y i)), o.1 ≠ o'.1 := by
    obtain ⟨i, j, hij⟩ := hx
    exact ⟨(x i, y i), (List.mem_ofFn' _ _).2 ⟨i, rfl⟩, (x j, y j), (List.mem_ofFn' _ _).2 ⟨j, rfl⟩, hij⟩
  rw [henv.ols _ hmem]
  have gen : ∀ (l : List (ℝ × ℝ)) (hl : l.length = n) (hg : ∀ i : Fin n, l[i]'(by rw [hl]; exact i.2) = (x i, y i)),
      (olsIntercept (fun i : Fin l.length => l[i].1) (fun i => l[i].2), olsSlope (fun i : Fin l.length => l[i].1) (fun i => l[i].2),
        linearStderr (fun i : Fin l.length => l[i].1) (fun i => l[i].2)) = (olsIntercept x y, olsSlope x y, linearStderr x y) := by
    intro l hl hg
    subst hl
    have e1 : (fun i : Fin l.length => l[i].1) = x := by
      funext i
      exact congrArg Prod.fst (hg i)
    have e2 : (fun i : Fin l.length => l[i].2) = y := by
      funext i
      exact congrArg Prod.snd (hg i)
    rw [e1, e2]
  exact gen _ (by simp) (by simp)

theorem linearRun_pod (fmax : ℝ) (env : PodEnv) (henv : ExactFit env.lin) {n : ℕ} (x y : Fin n → ℝ) (hx : ∃ i j, x i ≠ x j) (det : ℝ) (fact : ResFact)
    (w : PodDraws) (s : PodRunAttrs) :
    (fact = .binomial → (linearPodRun fmax env ⟨List.ofFn fun i => (x i, y i), det, none, none, false, false, fact⟩ w s).2.pod
      = some (binomialPodOf x y det)) ∧
    ∀ name ccdf, fact = .other name → env.fitLaw name (List.ofFn (olsResiduals x y)) = .ok ccdf →
      (linearPodRun fmax env ⟨List.ofFn fun i => (x i, y i), det, none, none, false, false, fact⟩ w s).2.pod
        = some fun a => ccdf (det - (olsIntercept x y + olsSlope x y * a)) := by
  have hres : lineResiduals (olsIntercept x y) (olsSlope x y) (List.ofFn fun i => (x i, y i)) = List.ofFn (olsResiduals x y) := by
    rw [lineResiduals, List.map_ofFn]
    rfl
  have hmodel : ∃ r, computeLinearModel fmax env.lin w.starts (List.ofFn fun i => (x i, y i)) det none none false false = .ok r ∧
      r.fit.intercept = olsIntercept x y ∧ r.fit.slope = olsSlope x y ∧ r.fit.residuals = List.ofFn (olsResiduals x y) ∧ r.detection = det := by
    refine ⟨_, by
      simp only [computeLinearModel, linFit, Bool.false_eq_true, if_false, ols_ofFn env.lin henv x y hx]
      exact rfl, rfl, rfl, hres, rfl⟩
  obtain ⟨r, hr, h1, h2, h3, h4⟩ := hmodel
  constructor
  · rintro rfl
    simp only [linearPodRun, hr, podFunction, h1, h2, h3, h4]
    rfl
  · rintro name ccdf rfl hlaw
    simp only [linearPodRun, hr, podFunction, h1, h2, h3, h4, hlaw]
    cases bootstrapColl fmax env ⟨List.ofFn fun i => (x i, y i), det, none, none, false, false, .other name⟩ name w.resamples <;> rfl

/-! ## Curves -/

section
variable {Ω : Type} [MeasurableSpace Ω] {Q : Measure Ω} [IsProbabilityMeasure Q] {P : Measure (ℝ × ℝ)} [IsProbabilityMeasure P]

/-- The true POD as a function of the threshold is continuous where the errors have no atom. -/
theorem truePod_tendsto (m : ℝ) (hm : P.real {w | m + w.2 = 0} = 0) {u : ℕ → ℝ} (hu : Tendsto u atTop (𝓝 m)) :
    Tendsto (fun k => P.real {w | 0 < u k + w.2}) atTop (𝓝 (P.real {w | 0 < m + w.2})) := by
  have hset : ∀ c : ℝ, MeasurableSet {w : ℝ × ℝ | 0 < c + w.2} := fun c => measurableSet_lt measurable_const (by fun_prop)
  have hI : ∀ c : ℝ, P.real {w : ℝ × ℝ | 0 < c + w.2} = ∫ w, {w : ℝ × ℝ | 0 < c + w.2}.indicator (fun _ => (1 : ℝ)) w ∂P := by
    intro c
    rw [integral_indicator (hset c), setIntegral_const, smul_eq_mul, mul_one]
  simp only [hI]
  refine tendsto_integral_of_dominated_convergence (fun _ => (1 : ℝ)) (fun k => (measurable_const.indicator (hset _)).aestronglyMeasurable)
    (integrable_const 1) (fun k => Eventually.of_forall fun w => ?_) ?_
  · rw [Real.norm_eq_abs, Set.indicator_apply]
    split_ifs <;> simp
  · have hae : ∀ᵐ w ∂P, m + w.2 ≠ 0 := by
      rw [ae_iff]
      simp only [not_not]
      exact (measureReal_eq_zero_iff).1 hm
    filter_upwards [hae] with w hw
    have hlim : Tendsto (fun k => u k + w.2) atTop (𝓝 (m + w.2)) := hu.add_const _
    rcases lt_or_gt_of_ne hw with h | h
    · refine tendsto_const_nhds.congr' ?_
      filter_upwards [hlim.eventually (gt_mem_nhds h)] with k hk
      rw [Set.indicator_of_notMem (by simpa using h.le), Set.indicator_of_notMem (by simpa using hk.le)]
    · refine tendsto_const_nhds.congr' ?_
      filter_upwards [hlim.eventually (lt_mem_nhds h)] with k hk
      rw [Set.indicator_of_mem (by simpa using h), Set.indicator_of_mem (by simpa using hk)]

/-- Values of the margin that the errors do not charge are dense. -/
theorem good_margin (m : ℝ) {δ : ℝ} (hδ : 0 < δ) :
    ∃ η, 0 < η ∧ η < δ ∧ P.real {w | (m - η) + w.2 = 0} = 0 ∧ P.real {w | (m + η) + w.2 = 0} = 0 := by
  have hc : Set.Countable {t : ℝ | 0 < P {w : ℝ × ℝ | w.2 = t}} := Measure.countable_meas_level_set_pos measurable_snd
  set D := {t : ℝ | 0 < P {w : ℝ × ℝ | w.2 = t}} with hD
  have hc2 : Set.Countable (((fun t => t + m) '' D) ∪ ((fun t => -t - m) '' D)) := (hc.image _).union (hc.image _)
  have hdense := hc2.dense_compl ℝ
  obtain ⟨η, h1, h2⟩ := hdense.exists_mem_open isOpen_Ioo (nonempty_Ioo.2 hδ)
  have hzero : ∀ t, t ∉ D → P.real {w : ℝ × ℝ | w.2 = t} = 0 := by
    intro t ht
    have h0 : P {w : ℝ × ℝ | w.2 = t} = 0 := by
      by_contra h0
      exact ht (pos_iff_ne_zero.2 h0)
    rw [measureReal_def, h0]
    rfl
  refine ⟨η, h2.1, h2.2, ?_, ?_⟩
  · have : {w : ℝ × ℝ | (m - η) + w.2 = 0} = {w | w.2 = η - m} := by
      ext w
      simp only [mem_ofPred_eq]
      constructor <;> intro h <;> linarith
    rw [this]
    exact hzero _ fun hd => h1 (Or.inl ⟨η - m, hd, by ring⟩)
  · have : {w : ℝ × ℝ | (m + η) + w.2 = 0} = {w | w.2 = -η - m} := by
      ext w
      simp only [mem_ofPred_eq]
      constructor <;> intro h <;> linarith
    rw [this]
    exact hzero _ fun hd => h1 (Or.inr ⟨-η - m, hd, by ring⟩)

/-- **C172, curve.**  Independent pairs of a defect and a centred error uncorrelated with it.  The POD of a run with kernel smoothing of the residuals
converges almost surely, at every size where the law of the errors has no atom at the margin, to the true probability of detection, whatever the law
of the errors. -/
theorem C172_curve (x e : ℕ → Ω → ℝ) (hx : ∀ i, Measurable (x i)) (he : ∀ i, Measurable (e i))
    (hlaw : ∀ i, Q.map (fun ω => (x i ω, e i ω)) = P) (hind : iIndepFun (fun i ω => (x i ω, e i ω)) Q)
    (h1 : MemLp Prod.fst 2 P) (h2 : MemLp Prod.snd 2 P) (hv : 0 < Var[Prod.fst; P])
    (he0 : ∫ w, w.2 ∂P = 0) (hxe : ∫ w, w.1 * w.2 ∂P = 0) (s : ℝ) (hs : 0 < s) (hse : ∫ w, w.2 ^ 2 ∂P = s ^ 2) (b0 b1 det a : ℝ)
    (hatom : P.real {w | b0 + b1 * a + w.2 = det} = 0) :
    ∀ᵐ ω ∂Q, ∀ (fmax : ℝ) (env : PodEnv) (name : String) (K : ℝ → ℝ) (bw : List ℝ → ℝ), ExactFit env.lin → KernelFactory (env.fitLaw name) K bw →
      ∀ ε > 0, ∀ᶠ N in atTop, ∀ draws attrs, ∃ f,
        (linearPodRun fmax env ⟨List.ofFn fun i : Fin N => (x i ω, b0 + b1 * x i ω + e i ω), det, none, none, false, false, .other name⟩ draws attrs).2.pod
          = some f ∧ (0 < b1 → Monotone f) ∧ |f a - P.real {w | det < b0 + b1 * a + w.2}| < ε := by
  have hz : ∀ i, Measurable fun ω => (x i ω, e i ω) := fun i => (hx i).prodMk (he i)
  obtain ⟨i11, i12, i22⟩ := moments h1 h2
  have a1 := avg_strong hz hlaw hind measurable_fst (h1.integrable (by norm_num))
  have a2 := avg_strong hz hlaw hind measurable_snd (h2.integrable (by norm_num))
  have a11 := avg_strong hz hlaw hind (f := fun w : ℝ × ℝ => w.1 ^ 2) (by fun_prop) i11
  have a12 := avg_strong hz hlaw hind (f := fun w : ℝ × ℝ => w.1 * w.2) (by fun_prop) i12
  have a22 := avg_strong hz hlaw hind (f := fun w : ℝ × ℝ => w.2 ^ 2) (by fun_prop) i22
  have hvar : ∫ w, w.1 ^ 2 ∂P = Var[Prod.fst; P] + (∫ w, w.1 ∂P) ^ 2 := by
    rw [variance_eq_sub h1]
    simp
  have hbin := (C126_consistency x e hx he hlaw hind h1 h2 hv he0 hxe s hs hse b0 b1).2
  set m := b0 + b1 * a - det with hm
  have hmatom : P.real {w | m + w.2 = 0} = 0 := by
    rw [← hatom]
    congr 1
    ext w
    simp only [mem_ofPred_eq, hm]
    constructor <;> intro h <;> linarith
  choose η hη0 hη1 hη2 hη3 using fun k : ℕ => good_margin (P := P) m (δ := 1 / ((k : ℝ) + 1)) (by positivity)
  have hηlim : Tendsto η atTop (𝓝 0) :=
    squeeze_zero (fun k => (hη0 k).le) (fun k => (hη1 k).le) tendsto_one_div_add_atTop_nhds_zero_nat
  have hset : ∀ t, {w : ℝ × ℝ | t < b0 + b1 * a + w.2} = {w | 0 < (b0 + b1 * a - t) + w.2} := by
    intro t
    ext w
    simp only [mem_ofPred_eq]
    constructor <;> intro h <;> linarith
  have hup : ∀ᵐ ω ∂Q, ∀ k, Tendsto (fun N : ℕ => binomialPodOf (fun i : Fin N => x i ω) (fun i => b0 + b1 * x i ω + e i ω) (det - η k) a) atTop
      (𝓝 (P.real {w | 0 < (m + η k) + w.2})) := by
    refine ae_all_iff.2 fun k => ?_
    have h := hbin (det - η k) a (by
      rw [← hη3 k]
      congr 1
      ext w
      simp only [mem_ofPred_eq, hm]
      constructor <;> intro h <;> linarith)
    rw [hset, show b0 + b1 * a - (det - η k) = m + η k by rw [hm]; ring] at h
    exact h
  have hlow : ∀ᵐ ω ∂Q, ∀ k, Tendsto (fun N : ℕ => binomialPodOf (fun i : Fin N => x i ω) (fun i => b0 + b1 * x i ω + e i ω) (det + η k) a) atTop
      (𝓝 (P.real {w | 0 < (m - η k) + w.2})) := by
    refine ae_all_iff.2 fun k => ?_
    have h := hbin (det + η k) a (by
      rw [← hη2 k]
      congr 1
      ext w
      simp only [mem_ofPred_eq, hm]
      constructor <;> intro h <;> linarith)
    rw [hset, show b0 + b1 * a - (det + η k) = m - η k by rw [hm]; ring] at h
    exact h
  have hTup := truePod_tendsto (P := P) m hmatom (u := fun k => m + η k) (by simpa using hηlim.const_add m)
  have hTlow := truePod_tendsto (P := P) m hmatom (u := fun k => m - η k) (by simpa using hηlim.const_sub m)
  filter_upwards [a1, a2, a11, a12, a22, hup, hlow] with ω t1 t2 t11 t12 t22 tu tl
  rw [he0] at t2
  rw [hxe] at t12
  rw [hse] at t22
  rw [hvar] at t11
  obtain ⟨hslope, hint, hstderr, hne, -, -, -⟩ := fit_limits (fun i => (x i ω, e i ω)) b0 b1 _ _ s hv hs t1 t2 t11 t12 t22
  intro fmax env name K bw henv hK ε hε
  rw [hset, ← hm]
  set T := P.real {w | 0 < m + w.2} with hT
  obtain ⟨c, γ, hγ, hw⟩ := hK.width
  -- bandwidth
  have hbw : Tendsto (fun N : ℕ => |c| * linearStderr (fun i : Fin N => x i ω) (fun i => b0 + b1 * x i ω + e i ω) * (N : ℝ) ^ (-γ)) atTop (𝓝 0) := by
    have h := (hstderr.const_mul |c|).mul ((tendsto_rpow_neg_atTop hγ).comp tendsto_natCast_atTop_atTop)
    rw [mul_zero] at h
    exact h
  -- kernel tails
  obtain ⟨M, hM1, hM2⟩ : ∃ M : ℝ, K M < ε / 4 ∧ 1 - K (-M) < ε / 4 := by
    have e1 := hK.top.eventually (gt_mem_nhds (show (0 : ℝ) < ε / 4 by linarith))
    have e2 := (hK.bot.comp tendsto_neg_atTop_atBot).eventually (lt_mem_nhds (show 1 - ε / 4 < (1 : ℝ) by linarith))
    obtain ⟨M, h3, h4⟩ := (e1.and e2).exists
    exact ⟨M, h3, by have h4' : 1 - ε / 4 < K (-M) := h4; linarith⟩
  obtain ⟨k, hk1, hk2⟩ := ((hTup.eventually (gt_mem_nhds (show T < T + ε / 4 by linarith))).and
    (hTlow.eventually (lt_mem_nhds (show T - ε / 4 < T by linarith)))).exists
  have e1 := (tu k).eventually (gt_mem_nhds (show P.real {w | 0 < (m + η k) + w.2} < T + ε / 2 by linarith))
  have e2 := (tl k).eventually (lt_mem_nhds (show T - ε / 2 < P.real {w | 0 < (m - η k) + w.2} by linarith))
  have e3 := hbw.eventually (gt_mem_nhds (show (0 : ℝ) < η k / (|M| + 1) by have := hη0 k; positivity))
  have e4 := hstderr.eventually (lt_mem_nhds hs)
  have e5 : ∀ᶠ N : ℕ in atTop, 0 < b1 → 0 < olsSlope (fun i : Fin N => x i ω) (fun i => b0 + b1 * x i ω + e i ω) := by
    by_cases hb : 0 < b1
    · filter_upwards [hslope.eventually (lt_mem_nhds hb)] with N hN _
      exact hN
    · exact Eventually.of_forall fun _ h => absurd h hb
  filter_upwards [e1, e2, e3, e4, e5, hne, eventually_ge_atTop 3] with N f1 f2 f3 f4 f5 f6 hN draws attrs
  set X : Fin N → ℝ := fun i => x i ω with hX
  set Y : Fin N → ℝ := fun i => b0 + b1 * x i ω + e i ω with hY
  set rs := List.ofFn (olsResiduals X Y) with hrs
  have hsum : ∑ i, olsResiduals X Y i = 0 := (C27_ols_optimal X Y f6).2.2.1
  have hnonconst : ∃ r ∈ rs, ∃ r' ∈ rs, r ≠ r' := by
    by_contra hcon
    push Not at hcon
    have hall : ∀ i j, olsResiduals X Y i = olsResiduals X Y j := fun i j =>
      hcon _ ((List.mem_ofFn' _ _).2 ⟨i, rfl⟩) _ ((List.mem_ofFn' _ _).2 ⟨j, rfl⟩)
    have hz0 : ∀ i, olsResiduals X Y i = 0 := by
      intro i
      have h : ∑ j, olsResiduals X Y j = N * olsResiduals X Y i := by
        rw [Finset.sum_congr rfl fun j _ => hall j i]
        simp
      rw [hsum] at h
      have hN0 : (N : ℝ) ≠ 0 := by exact_mod_cast (by omega : N ≠ 0)
      exact (mul_eq_zero.1 h.symm).resolve_left hN0
    have h0 : linearStderr X Y = 0 := by
      rw [linearStderr, linearScale]
      simp [hz0]
    have f4' : 0 < linearStderr X Y := f4
    rw [h0] at f4'
    exact lt_irrefl _ f4'
  have hlen : rs.length = N := by simp [hrs]
  have hrsne : rs ≠ [] := by
    rw [← List.length_pos_iff, hlen]
    omega
  obtain ⟨hw1, hw2⟩ := hw rs hnonconst
  have hwle : bw rs ≤ |c| * linearStderr X Y * (N : ℝ) ^ (-γ) := by
    refine hw2.trans ?_
    rw [hlen]
    refine mul_le_mul_of_nonneg_right ?_ (Real.rpow_nonneg (Nat.cast_nonneg _) _)
    exact mul_le_mul (le_abs_self c) (listStd_le hN _ hsum) (Real.sqrt_nonneg _) (abs_nonneg _)
  have hMh : M * bw rs ≤ η k := by
    have f3' : |c| * linearStderr X Y * (N : ℝ) ^ (-γ) < η k / (|M| + 1) := f3
    have hb : bw rs < η k / (|M| + 1) := lt_of_le_of_lt hwle f3'
    rw [lt_div_iff₀ (by positivity)] at hb
    have : M * bw rs ≤ |M| * bw rs := mul_le_mul_of_nonneg_right (le_abs_self M) hw1.le
    nlinarith
  have hrun := (linearRun_pod fmax env henv X Y f6 det (.other name) draws attrs).2 name _ rfl (hK.law rs hnonconst)
  refine ⟨_, hrun, ?_, ?_⟩
  · intro hb u v huv
    refine kernelCcdf_antitone hK.anti hw1 rs ?_
    have := mul_le_mul_of_nonneg_left huv (f5 hb).le
    linarith
  · have up := kernel_upper hK.anti hK.unit (t := det - (olsIntercept X Y + olsSlope X Y * a)) hw1 hMh rs hrsne
    have low := kernel_lower hK.anti hK.unit (t := det - (olsIntercept X Y + olsSlope X Y * a)) hw1 hMh rs hrsne
    have eu : empiricalCCDF rs (det - (olsIntercept X Y + olsSlope X Y * a) - η k) = binomialPodOf X Y (det - η k) a := by
      rw [binomialPodOf, podBinomial]
      congr 1
      ring
    have el : empiricalCCDF rs (det - (olsIntercept X Y + olsSlope X Y * a) + η k) = binomialPodOf X Y (det + η k) a := by
      rw [binomialPodOf, podBinomial]
      congr 1
      ring
    rw [eu] at up
    rw [el] at low
    have f1' : binomialPodOf X Y (det - η k) a < T + ε / 2 := f1
    have f2' : T - ε / 2 < binomialPodOf X Y (det + η k) a := f2
    rw [abs_lt]
    constructor <;> linarith

/-- Detection size of a monotone curve that crosses the level near `ap`. -/
theorem size_close (solve : (ℝ → ℝ) → ℝ → ℝ → ℝ → ℝ) (hso : BracketSpec solve) {f : ℝ → ℝ} (hf : Monotone f) {mn mx p ap ε : ℝ} (hε : 0 < ε)
    (hmn : mn ≤ ap - ε) (hmx : ap + ε ≤ mx) (hlo : f (ap - ε) < p) (hhi : p < f (ap + ε)) :
    ∃ d, computeDetectionSize solve mn mx f none (some p) none none none = .ok ([d], [labelP p]) ∧ |d - ap| ≤ ε := by
  have h1 : f mn ≤ p := (hf hmn).trans hlo.le
  have h2 : p ≤ f mx := hhi.le.trans (hf hmx)
  refine ⟨solve f p mn mx, ?_, ?_⟩
  · unfold computeDetectionSize
    simp only [Option.getD_none]
    rw [if_neg (by simpa using ⟨h1, h2⟩)]
  · obtain ⟨-, hb⟩ := hso f p mn mx (by linarith) h1 h2
    rw [abs_le]
    constructor
    · by_contra hcon
      push Not at hcon
      obtain ⟨u, -, hu1, hu2⟩ := (hb (-ε - (solve f p mn mx - ap)) (by linarith)).2
      have : u ≤ ap - ε := by
        have := (abs_lt.1 hu1).2
        linarith
      linarith [hf this]
    · by_contra hcon
      push Not at hcon
      obtain ⟨u, -, hu1, hu2⟩ := (hb (solve f p mn mx - ap - ε) (by linarith)).1
      have : ap + ε ≤ u := by
        have := (abs_lt.1 hu1).1
        linarith
      linarith [hf this]

/-- **C172, detection sizes.**  With an increasing true line, when the true POD crosses the level at one size, inside the range of the defects, the
detection sizes of the binomial POD and of the POD with kernel smoothing converge almost surely to that size, whatever the law of the errors. -/
theorem C172_size (x e : ℕ → Ω → ℝ) (hx : ∀ i, Measurable (x i)) (he : ∀ i, Measurable (e i))
    (hlaw : ∀ i, Q.map (fun ω => (x i ω, e i ω)) = P) (hind : iIndepFun (fun i ω => (x i ω, e i ω)) Q)
    (h1 : MemLp Prod.fst 2 P) (h2 : MemLp Prod.snd 2 P) (hv : 0 < Var[Prod.fst; P])
    (he0 : ∫ w, w.2 ∂P = 0) (hxe : ∫ w, w.1 * w.2 ∂P = 0) (s : ℝ) (hs : 0 < s) (hse : ∫ w, w.2 ^ 2 ∂P = s ^ 2) (b0 b1 det : ℝ) (hb : 0 < b1)
    (p ap : ℝ) (hcross : ∀ ε > 0, P.real {w | det < b0 + b1 * (ap - ε) + w.2} < p ∧ p < P.real {w | det < b0 + b1 * (ap + ε) + w.2})
    (hlo : 0 < P.real {w | w.1 < ap}) (hhi : 0 < P.real {w | ap < w.1}) :
    ∀ᵐ ω ∂Q, ∀ (fmax : ℝ) (env : PodEnv) (fact : ResFact) (K : ℝ → ℝ) (bw : List ℝ → ℝ) (solve : (ℝ → ℝ) → ℝ → ℝ → ℝ → ℝ), ExactFit env.lin →
      (fact = .binomial ∨ ∃ name, fact = .other name ∧ KernelFactory (env.fitLaw name) K bw) → BracketSpec solve →
      ∀ ε > 0, ∀ᶠ N in atTop, ∀ draws attrs, ∃ f mn mx d,
        (linearPodRun fmax env ⟨List.ofFn fun i : Fin N => (x i ω, b0 + b1 * x i ω + e i ω), det, none, none, false, false, fact⟩ draws attrs).2.pod
          = some f ∧ sampleMin (List.ofFn fun i : Fin N => x i ω) = .ok mn ∧ sampleMax (List.ofFn fun i : Fin N => x i ω) = .ok mx ∧
        computeDetectionSize solve mn mx f none (some p) none none none = .ok ([d], [labelP p]) ∧ |d - ap| < ε := by
  have hz : ∀ i, Measurable fun ω => (x i ω, e i ω) := fun i => (hx i).prodMk (he i)
  choose η hη0 hη1 hη2 hη3 using fun k : ℕ => good_margin (P := P) (b0 + b1 * ap - det) (δ := 1 / ((k : ℝ) + 1)) (by positivity)
  have hηlim : Tendsto η atTop (𝓝 0) :=
    squeeze_zero (fun k => (hη0 k).le) (fun k => (hη1 k).le) tendsto_one_div_add_atTop_nhds_zero_nat
  have hbne : b1 ≠ 0 := hb.ne'
  have at1 : ∀ k, P.real {w | b0 + b1 * (ap - η k / b1) + w.2 = det} = 0 := by
    intro k
    rw [← hη2 k]
    congr 1
    ext w
    simp only [mem_ofPred_eq]
    rw [show b0 + b1 * (ap - η k / b1) = b0 + b1 * ap - η k by field_simp; ring]
    constructor <;> intro h <;> linarith
  have at2 : ∀ k, P.real {w | b0 + b1 * (ap + η k / b1) + w.2 = det} = 0 := by
    intro k
    rw [← hη3 k]
    congr 1
    ext w
    simp only [mem_ofPred_eq]
    rw [show b0 + b1 * (ap + η k / b1) = b0 + b1 * ap + η k by field_simp; ring]
    constructor <;> intro h <;> linarith
  have k1 := ae_all_iff.2 fun k => C172_curve x e hx he hlaw hind h1 h2 hv he0 hxe s hs hse b0 b1 det (ap - η k / b1) (at1 k)
  have k2 := ae_all_iff.2 fun k => C172_curve x e hx he hlaw hind h1 h2 hv he0 hxe s hs hse b0 b1 det (ap + η k / b1) (at2 k)
  obtain ⟨bfit, bin⟩ := C126_consistency x e hx he hlaw hind h1 h2 hv he0 hxe s hs hse b0 b1
  have c1 := ae_all_iff.2 fun k => bin det (ap - η k / b1) (at1 k)
  have c2 := ae_all_iff.2 fun k => bin det (ap + η k / b1) (at2 k)
  -- the range of the defects
  have hrange : ∀ A : Set (ℝ × ℝ), MeasurableSet A → 0 < P.real A → ∀ᵐ ω ∂Q, ∃ i, (x i ω, e i ω) ∈ A := by
    intro A hA hpos
    have h := avg_strong hz hlaw hind (f := A.indicator fun _ => (1 : ℝ)) (measurable_const.indicator hA)
      ((integrable_const _).indicator hA)
    rw [integral_indicator hA, setIntegral_const, smul_eq_mul, mul_one] at h
    filter_upwards [h] with ω hω
    obtain ⟨N, hN⟩ := (hω.eventually (eventually_gt_nhds hpos)).exists
    by_contra hcon
    push Not at hcon
    have h0 : avg (fun i ω => (x i ω, e i ω)) (A.indicator fun _ => (1 : ℝ)) N ω = 0 := by
      simp [avg, Set.indicator_apply, hcon]
    linarith
  have r1 := hrange {w | w.1 < ap} (measurableSet_lt measurable_fst measurable_const) hlo
  have r2 := hrange {w | ap < w.1} (measurableSet_lt measurable_const measurable_fst) hhi
  filter_upwards [k1, k2, c1, c2, r1, r2, bfit] with ω g1 g2 d1 d2 ⟨i0, hi0⟩ ⟨i1, hi1⟩ bf
  intro fmax env fact K bw solve henv hfact hso ε hε
  have hi0' : x i0 ω < ap := hi0
  have hi1' : ap < x i1 ω := hi1
  have hlim : Tendsto (fun k => η k / b1) atTop (𝓝 0) := by simpa using hηlim.div_const b1
  obtain ⟨k, hk⟩ := (hlim.eventually (gt_mem_nhds (show (0 : ℝ) < min ε (min (ap - x i0 ω) (x i1 ω - ap)) from
    lt_min hε (lt_min (by linarith) (by linarith))))).exists
  set r := η k / b1 with hr
  have hr0 : 0 < r := div_pos (hη0 k) hb
  have hk1 : r < ε := lt_of_lt_of_le hk (min_le_left _ _)
  have hk2 : r < ap - x i0 ω := lt_of_lt_of_le hk ((min_le_right _ _).trans (min_le_left _ _))
  have hk3 : r < x i1 ω - ap := lt_of_lt_of_le hk ((min_le_right _ _).trans (min_le_right _ _))
  obtain ⟨hc1, hc2⟩ := hcross r hr0
  -- the run gives a monotone curve close to the truth at both sizes
  have hcurve : ∀ᶠ N in atTop, ∀ draws attrs, ∃ f,
      (linearPodRun fmax env ⟨List.ofFn fun i : Fin N => (x i ω, b0 + b1 * x i ω + e i ω), det, none, none, false, false, fact⟩ draws attrs).2.pod
        = some f ∧ Monotone f ∧ f (ap - r) < p ∧ p < f (ap + r) := by
    rcases hfact with rfl | ⟨name, rfl, hK⟩
    · have e1 := (d1 k).eventually (gt_mem_nhds hc1)
      have e2 := (d2 k).eventually (lt_mem_nhds hc2)
      have e3 := bf.2.1.eventually (lt_mem_nhds hb)
      filter_upwards [e1, e2, e3, eventually_gt_atTop (max i0 i1)] with N q1 q2 q3 hN draws attrs
      have hxx : ∃ i j : Fin N, x i ω ≠ x j ω :=
        ⟨⟨i0, by omega⟩, ⟨i1, by omega⟩, by dsimp only; exact (hi0'.trans hi1').ne⟩
      refine ⟨_, (linearRun_pod fmax env henv (fun i : Fin N => x i ω) (fun i => b0 + b1 * x i ω + e i ω) hxx det .binomial draws attrs).1 rfl, ?_, q1, q2⟩
      intro u v huv
      refine empiricalCCDF_antitone' _ ?_
      have := mul_le_mul_of_nonneg_left huv q3.le
      linarith
    · have e1 := g1 k fmax env name K bw henv hK (p - P.real {w | det < b0 + b1 * (ap - r) + w.2}) (by linarith)
      have e2 := g2 k fmax env name K bw henv hK (P.real {w | det < b0 + b1 * (ap + r) + w.2} - p) (by linarith)
      filter_upwards [e1, e2] with N q1 q2 draws attrs
      obtain ⟨f, hf1, hf2, hf3⟩ := q1 draws attrs
      obtain ⟨f', hf1', -, hf3'⟩ := q2 draws attrs
      rw [hf1, Option.some.injEq] at hf1'
      subst hf1'
      refine ⟨f, hf1, hf2 hb, ?_, ?_⟩
      · have := (abs_lt.1 hf3).2
        linarith
      · have := (abs_lt.1 hf3').1
        linarith
  filter_upwards [hcurve, eventually_gt_atTop (max i0 i1)] with N hN hNi draws attrs
  obtain ⟨f, hf1, hf2, hf3, hf4⟩ := hN draws attrs
  have hm0 : x i0 ω ∈ List.ofFn fun i : Fin N => x i ω := (List.mem_ofFn' _ _).2 ⟨⟨i0, by omega⟩, rfl⟩
  have hm1 : x i1 ω ∈ List.ofFn fun i : Fin N => x i ω := (List.mem_ofFn' _ _).2 ⟨⟨i1, by omega⟩, rfl⟩
  obtain ⟨mn, mx, hmn, hmx⟩ := sampleMinMax_ok (l := List.ofFn fun i : Fin N => x i ω) (List.ne_nil_of_mem hm0)
  have b1' : mn ≤ x i0 ω := (sampleMin_spec hmn).2 hm0
  have b2' : x i1 ω ≤ mx := (sampleMax_spec hmx).2 hm1
  obtain ⟨d, hd1, hd2⟩ := size_close solve hso hf2 (mn := mn) (mx := mx) hr0 (by linarith) (by linarith) hf3 hf4
  exact ⟨f, mn, mx, d, hf1, hmn, hmx, hd1, lt_of_le_of_lt hd2 hk1⟩

end

/-! ## Instance -/

/-- Silverman's rule with factor 1. -/
noncomputable def silverman (rs : List ℝ) : ℝ := listStd rs * (rs.length : ℝ) ^ (-(1 / 5) : ℝ)

theorem listStd_pos {rs : List ℝ} (h : ∃ r ∈ rs, ∃ r' ∈ rs, r ≠ r') : 0 < listStd rs := by
  obtain ⟨r, hr, r', hr', hne⟩ := h
  have hlen : 1 < rs.length := by
    rcases rs with _ | ⟨a, _ | ⟨b, t⟩⟩
    · simp at hr
    · simp only [List.mem_singleton] at hr hr'
      exact absurd (hr.trans hr'.symm) hne
    · simp
  have hlen' : (1 : ℝ) < rs.length := by exact_mod_cast hlen
  have hex : ∃ q ∈ rs, q ≠ rs.sum / rs.length := by
    by_contra hcon
    push Not at hcon
    exact hne ((hcon r hr).trans (hcon r' hr').symm)
  obtain ⟨q, hq, hqne⟩ := hex
  refine Real.sqrt_pos.2 (div_pos ?_ (by linarith))
  refine lt_of_lt_of_le (pow_pos (abs_pos.2 (sub_ne_zero.2 hqne)) 2) ?_
  rw [sq_abs]
  exact List.single_le_sum (fun u hu => by obtain ⟨v, -, rfl⟩ := List.mem_map.1 hu; exact sq_nonneg _) _ (List.mem_map.2 ⟨q, hq, rfl⟩)

/-- The contract can be met: Gaussian kernel with Silverman's bandwidth. -/
theorem kernelFactory_exists : KernelFactory (fun rs => .ok (kernelCcdf PhiC (silverman rs) rs)) PhiC silverman where
  anti := PhiC_antitone
  unit := PhiC_bounds
  top := tendsto_PhiC_top
  bot := tendsto_PhiC_bot
  law := fun _ _ => rfl
  width := ⟨1, 1 / 5, by norm_num, fun rs h => by
    have hpos := listStd_pos h
    have hlen : (0 : ℝ) < rs.length := by
      obtain ⟨r, hr, -⟩ := h
      exact_mod_cast List.length_pos_iff.2 (List.ne_nil_of_mem hr)
    exact ⟨mul_pos hpos (Real.rpow_pos_of_pos hlen _), by rw [silverman, one_mul]⟩⟩

/-- Moments of a pair of independent standard normal variables. -/
theorem gaussPair_moments : let g := gaussianReal 0 1
    MemLp (Prod.fst : ℝ × ℝ → ℝ) 2 (g.prod g) ∧ MemLp (Prod.snd : ℝ × ℝ → ℝ) 2 (g.prod g) ∧ 0 < Var[(Prod.fst : ℝ × ℝ → ℝ); g.prod g] ∧
    ∫ w : ℝ × ℝ, w.2 ∂(g.prod g) = 0 ∧ ∫ w : ℝ × ℝ, w.1 * w.2 ∂(g.prod g) = 0 ∧ ∫ w : ℝ × ℝ, w.2 ^ 2 ∂(g.prod g) = 1 ^ 2 := by
  intro g
  have hid : MemLp (fun t : ℝ => t) 2 g := memLp_id_gaussianReal 2
  have mp1 : MeasurePreserving Prod.fst (g.prod g) g := measurePreserving_fst
  have mp2 : MeasurePreserving Prod.snd (g.prod g) g := measurePreserving_snd
  have e0 : ∫ t, t ∂g = 0 := integral_id_gaussianReal
  have v1 : Var[fun t : ℝ => t; g] = 1 := by simp only [g]; rw [variance_fun_id_gaussianReal]; rfl
  have sq1 : ∫ t, t ^ 2 ∂g = 1 := by
    have := variance_eq_sub hid
    rw [v1] at this
    simp [e0] at this
    exact this.symm
  refine ⟨hid.comp_measurePreserving mp1, hid.comp_measurePreserving mp2, ?_, ?_, ?_, ?_⟩
  · have : Var[(Prod.fst : ℝ × ℝ → ℝ); g.prod g] = Var[fun t : ℝ => t; g] := by
      conv_rhs => rw [← mp1.map_eq]
      rw [variance_map (X := fun t : ℝ => t) measurable_id.aemeasurable mp1.measurable.aemeasurable]
      rfl
    rw [this, v1]; exact one_pos
  · have := integral_prod_mul (μ := g) (ν := g) (fun _ : ℝ => (1 : ℝ)) (fun t : ℝ => t)
    simpa [e0] using this
  · rw [integral_prod_mul (μ := g) (ν := g) (fun t : ℝ => t) (fun t : ℝ => t), e0, zero_mul]
  · have := integral_prod_mul (μ := g) (ν := g) (fun _ : ℝ => (1 : ℝ)) (fun t : ℝ => t ^ 2)
    simpa [sq1] using this

theorem gaussPair_pod (c : ℝ) : ((gaussianReal 0 1).prod (gaussianReal 0 1)).real {w : ℝ × ℝ | 0 < c + w.2} = Phi c := by
  have mp2 : MeasurePreserving Prod.snd ((gaussianReal 0 1).prod (gaussianReal 0 1)) (gaussianReal 0 1) := measurePreserving_snd
  have : {w : ℝ × ℝ | 0 < c + w.2} = Prod.snd ⁻¹' Ioi (-c) := by
    ext w
    simp only [mem_ofPred_eq, mem_preimage, mem_Ioi]
    constructor <;> intro h <;> linarith
  rw [this, mp2.measureReal_preimage measurableSet_Ioi.nullMeasurableSet]
  have h := gauss_Ioi (μ := 0) (s := 1) one_pos (-c)
  rw [show sqv 1 = 1 by simp [sqv], sub_zero, div_one] at h
  rw [h, Phi_neg]
  ring

/-- The true POD of the signals `1 + 2 x + e`, threshold 3, crosses 1/2 at the size 1, inside the range of the defects. -/
theorem gaussPair_cross :
    (∀ ε > 0, ((gaussianReal 0 1).prod (gaussianReal 0 1)).real {w : ℝ × ℝ | (3 : ℝ) < 1 + 2 * (1 - ε) + w.2} < 1 / 2 ∧
      1 / 2 < ((gaussianReal 0 1).prod (gaussianReal 0 1)).real {w : ℝ × ℝ | (3 : ℝ) < 1 + 2 * (1 + ε) + w.2}) ∧
    0 < ((gaussianReal 0 1).prod (gaussianReal 0 1)).real {w : ℝ × ℝ | w.1 < 1} ∧
    0 < ((gaussianReal 0 1).prod (gaussianReal 0 1)).real {w : ℝ × ℝ | 1 < w.1} := by
  have hpod : ∀ t : ℝ, ((gaussianReal 0 1).prod (gaussianReal 0 1)).real {w : ℝ × ℝ | 3 < 1 + 2 * (1 + t) + w.2} = Phi (2 * t) := by
    intro t
    rw [← gaussPair_pod (2 * t)]
    congr 1
    ext w
    simp only [mem_ofPred_eq]
    constructor <;> intro h <;> linarith
  have mp1 : MeasurePreserving Prod.fst ((gaussianReal 0 1).prod (gaussianReal 0 1)) (gaussianReal 0 1) := measurePreserving_fst
  refine ⟨fun ε hε => ?_, ?_, ?_⟩
  · have e1 := hpod (-ε)
    have e2 := hpod ε
    rw [← sub_eq_add_neg] at e1
    rw [e1, e2, ← Phi_zero]
    exact ⟨Phi_strictMono (by linarith), Phi_strictMono (by linarith)⟩
  · have : {w : ℝ × ℝ | w.1 < 1} = Prod.fst ⁻¹' Iio (1 : ℝ) := rfl
    rw [this, mp1.measureReal_preimage measurableSet_Iio.nullMeasurableSet]
    exact gauss_real_pos one_ne_zero (by simp)
  · have : {w : ℝ × ℝ | 1 < w.1} = Prod.fst ⁻¹' Ioi (1 : ℝ) := rfl
    rw [this, mp1.measureReal_preimage measurableSet_Ioi.nullMeasurableSet]
    exact gauss_real_pos one_ne_zero (by simp)

/-- Instance: independent standard normal defects and errors, signals `1 + 2 x + e`, threshold 3: both sizes detected with probability 1/2 tend to 1. -/
example : ∃ env : PodEnv, ExactFit env.lin ∧ KernelFactory (env.fitLaw "KernelSmoothing") PhiC silverman ∧ ∃ solve, BracketSpec solve ∧
    ∀ᵐ ω ∂(Measure.infinitePi fun _ : ℕ => (gaussianReal 0 1).prod (gaussianReal 0 1)), ∀ fact ∈ [ResFact.binomial, .other "KernelSmoothing"],
      ∀ ε > 0, ∀ᶠ N in atTop, ∀ draws attrs, ∃ f mn mx d,
        (linearPodRun 10 env ⟨List.ofFn fun i : Fin N => ((ω i).1, 1 + 2 * (ω i).1 + (ω i).2), 3, none, none, false, false, fact⟩ draws attrs).2.pod
          = some f ∧ sampleMin (List.ofFn fun i : Fin N => (ω i).1) = .ok mn ∧ sampleMax (List.ofFn fun i : Fin N => (ω i).1) = .ok mx ∧
        computeDetectionSize solve mn mx f none (some (1 / 2)) none none none = .ok ([d], [labelP (1 / 2)]) ∧ |d - 1| < ε := by
  obtain ⟨lin, hlin⟩ := exactFit_exists
  obtain ⟨solve, hso⟩ := bracketSpec_nonempty
  refine ⟨⟨lin, fun _ rs => .ok (kernelCcdf PhiC (silverman rs) rs)⟩, hlin, kernelFactory_exists, solve, hso, ?_⟩
  obtain ⟨m1, m2, m3, m4, m5, m6⟩ := gaussPair_moments
  obtain ⟨p1, p2, p3⟩ := gaussPair_cross
  have h := C172_size (Q := Measure.infinitePi fun _ : ℕ => (gaussianReal 0 1).prod (gaussianReal 0 1)) (P := (gaussianReal 0 1).prod (gaussianReal 0 1))
    (fun i ω => (ω i).1) (fun i ω => (ω i).2)
    (fun i => measurable_fst.comp (measurable_pi_apply i)) (fun i => measurable_snd.comp (measurable_pi_apply i))
    (fun i => (measurePreserving_eval_infinitePi (fun _ : ℕ => (gaussianReal 0 1).prod (gaussianReal 0 1)) i).map_eq)
    (iIndepFun_infinitePi (P := fun _ : ℕ => (gaussianReal 0 1).prod (gaussianReal 0 1)) (X := fun _ x => x) (fun _ => measurable_id))
    m1 m2 m3 m4 m5 1 one_pos m6 1 2 3 two_pos (1 / 2) 1 p1 p2 p3
  filter_upwards [h] with ω hω fact hfact
  refine hω 10 _ fact PhiC silverman solve hlin ?_ hso
  simp only [List.mem_cons, List.not_mem_nil, or_false] at hfact
  rcases hfact with rfl | rfl
  · exact Or.inl rfl
  · exact Or.inr ⟨"KernelSmoothing", rfl, kernelFactory_exists⟩

end Verif.Props
