import Verif.Model.Bootstrap
import Verif.Props.LinearRun

/-!
# C100, C101: the bootstrap of the linear-model POD
-/

namespace Verif.Props
open Verif.Py Verif.Model

/-- A new object: nothing has been run. -/
def freshPod : PodRunAttrs := ⟨none, none, none⟩

/-- Contract of a distribution factory: the complementary distribution function of the law it returns is non-increasing with values
in [0, 1]. -/
def LawSpec (fitLaw : String → List ℝ → Res (ℝ → ℝ)) : Prop :=
  ∀ name l c, fitLaw name l = .ok c → Antitone c ∧ ∀ t, c t ∈ Set.Icc (0 : ℝ) 1

/-- A factory meeting the contract: the empirical law, which raises without data. -/
noncomputable def empiricalLaw (_ : String) (l : List ℝ) : Res (ℝ → ℝ) :=
  if l = [] then .error ⟨.typeError, "empty sample"⟩ else .ok (empiricalCCDF l)

theorem lawSpec_nonempty : LawSpec empiricalLaw := by
  intro name l c h
  unfold empiricalLaw at h
  split_ifs at h with h0
  rw [Except.ok.injEq] at h
  subst h
  have hl : (0 : ℝ) < l.length := by exact_mod_cast List.length_pos_iff.mpr h0
  refine ⟨fun a b hab => ?_, fun t => ⟨by unfold empiricalCCDF; positivity, ?_⟩⟩
  · unfold empiricalCCDF
    apply div_le_div_of_nonneg_right _ hl.le
    exact_mod_cast List.countP_mono_left fun x _ h => by
      simp only [decide_eq_true_eq] at h ⊢; linarith
  · unfold empiricalCCDF
    rw [div_le_one hl]
    exact_mod_cast List.countP_le_length

theorem bootstrapColl_ok (fmax : ℝ) (env : PodEnv) (d : PodData) (name : String)
    (l : List (List (ℝ × ℝ) × (ℕ → ℝ × ℝ × ℝ))) (fs : List (ℝ → ℝ)) :
    bootstrapColl fmax env d name l = .ok fs ↔ List.Forall₂ (fun s f => bootstrapModel fmax env d name s = .ok f) l fs := by
  induction l generalizing fs with
  | nil =>
    rw [bootstrapColl, List.forall₂_nil_left_iff, Except.ok.injEq, eq_comm]
  | cons s rest ih =>
    rw [bootstrapColl]
    cases hm : bootstrapModel fmax env d name s with
    | error e =>
      constructor
      · intro h; cases h
      · intro h; cases h with | cons h1 _ => rw [hm] at h1; cases h1
    | ok f =>
      dsimp only
      cases hr : bootstrapColl fmax env d name rest with
      | error e =>
        constructor
        · intro h; cases h
        · intro h
          cases h with
          | cons _ h2 => rw [(ih _).mpr h2] at hr; cases hr
      | ok fs' =>
        dsimp only
        rw [Except.ok.injEq]
        constructor
        · rintro rfl
          exact .cons hm ((ih _).mp hr)
        · intro h
          cases h with
          | cons h1 h2 =>
            rw [hm, Except.ok.injEq] at h1
            rw [(ih _).mpr h2, Except.ok.injEq] at hr
            rw [h1, hr]

/-- A bootstrap curve is the POD function that a run on the resample computes. -/
theorem bootstrapModel_eq (fmax : ℝ) (env : PodEnv) (d : PodData) (name : String) (hf : d.fact = .other name)
    (sample : List (ℝ × ℝ) × (ℕ → ℝ × ℝ × ℝ)) (f : ℝ → ℝ) (h : bootstrapModel fmax env d name sample = .ok f) :
    linearPodRun fmax env { d with obs := sample.1 } ⟨sample.2, [], []⟩ freshPod
      = (.ok (), ⟨(linearPodRun fmax env { d with obs := sample.1 } ⟨sample.2, [], []⟩ freshPod).2.model, some f, some []⟩) := by
  unfold bootstrapModel at h
  unfold linearPodRun podFunction
  dsimp only
  rw [hf]
  cases hm : computeLinearModel fmax env.lin sample.2 sample.1 d.detection d.noise d.sat d.boxCox d.censored with
  | error e => rw [hm] at h; cases h
  | ok r =>
    rw [hm] at h
    dsimp only at h ⊢
    cases hl : env.fitLaw name r.fit.residuals with
    | error e => rw [hl] at h; cases h
    | ok c =>
      rw [hl] at h
      dsimp only at h ⊢
      rw [Except.ok.injEq] at h
      rw [bootstrapColl, ← h]
      rfl

theorem bootstrapModel_shape (fmax : ℝ) (env : PodEnv) (d : PodData) (name : String) (hlaw : LawSpec env.fitLaw)
    (sample : List (ℝ × ℝ) × (ℕ → ℝ × ℝ × ℝ)) (f : ℝ → ℝ) (h : bootstrapModel fmax env d name sample = .ok f) :
    (∀ x, f x ∈ Set.Icc (0 : ℝ) 1) ∧ (Monotone f ∨ Antitone f) := by
  unfold bootstrapModel at h
  split at h
  · cases h
  · split at h
    · cases h
    · rename_i _ r _ _ c hc
      rw [Except.ok.injEq] at h
      obtain ⟨hanti, hmem⟩ := hlaw _ _ _ hc
      refine ⟨fun x => by rw [← h]; exact hmem _, ?_⟩
      rcases le_total 0 r.fit.slope with hs | hs
      · left
        intro a b hab
        rw [← h]
        apply hanti
        have := mul_le_mul_of_nonneg_left hab hs
        linarith
      · right
        intro a b hab
        rw [← h]
        apply hanti
        have := mul_le_mul_of_nonpos_left hab hs
        linarith

/-- **C100.**  After a successful run with a factory other than `NormalFactory`, there is one curve per simulation; the i-th one is
the POD function that a new object, constructed on the i-th resample with the same arguments, would compute by its own run.  All
curves have values in [0, 1] and are monotone.  In particular, resampling the data itself gives the POD function of the object. -/
theorem C100_bootstrap (fmax : ℝ) (env : PodEnv) (hlaw : LawSpec env.fitLaw) (d : PodData) (name : String)
    (hf : d.fact = .other name) (w : PodDraws) (s s' : PodRunAttrs) (h : linearPodRun fmax env d w s = (.ok (), s')) :
    ∃ cs, s'.coll = some cs ∧ cs.length = w.resamples.length ∧
      (∀ (i : ℕ) sample, w.resamples[i]? = some sample → ∃ f s'', cs[i]? = some f ∧
        linearPodRun fmax env { d with obs := sample.1 } ⟨sample.2, [], []⟩ freshPod = (.ok (), s'') ∧ s''.pod = some f) ∧
      (∀ f ∈ cs, (∀ x, f x ∈ Set.Icc (0 : ℝ) 1) ∧ (Monotone f ∨ Antitone f)) ∧
      (∀ i : ℕ, w.resamples[i]? = some (d.obs, w.starts) → cs[i]? = s'.pod) := by
  unfold linearPodRun at h
  rw [hf] at h
  cases hm : computeLinearModel fmax env.lin w.starts d.obs d.detection d.noise d.sat d.boxCox d.censored with
  | error e => rw [hm] at h; cases h
  | ok r =>
    rw [hm] at h
    dsimp only at h
    cases hp : podFunction env (.other name) r with
    | error e => rw [hp] at h; cases h
    | ok g =>
      rw [hp] at h
      dsimp only at h
      cases hb : bootstrapColl fmax env d name w.resamples with
      | error e => rw [hb] at h; cases h
      | ok fs =>
        rw [hb] at h
        dsimp only at h
        rw [Prod.mk.injEq] at h
        obtain ⟨-, rfl⟩ := h
        have h2 := (bootstrapColl_ok _ _ _ _ _ _).mp hb
        have hget : ∀ (i : ℕ) sample, w.resamples[i]? = some sample →
            ∃ f, fs[i]? = some f ∧ bootstrapModel fmax env d name sample = .ok f := by
          intro i sample hi
          obtain ⟨hi', he⟩ := List.getElem?_eq_some_iff.mp hi
          have hj : i < fs.length := by rw [← h2.length_eq]; exact hi'
          refine ⟨fs[i], List.getElem?_eq_getElem hj, ?_⟩
          rw [← he]
          exact h2.get hi' hj
        refine ⟨fs, rfl, h2.length_eq.symm, ?_, ?_, ?_⟩
        · intro i sample hi
          obtain ⟨f, hfi, hmod⟩ := hget i sample hi
          exact ⟨f, _, hfi, bootstrapModel_eq fmax env d name hf sample f hmod, rfl⟩
        · intro f hfm
          obtain ⟨j, hj, rfl⟩ := List.getElem_of_mem hfm
          have hj' : j < w.resamples.length := by rw [h2.length_eq]; exact hj
          exact bootstrapModel_shape fmax env d name hlaw _ _ (h2.get hj' hj)
        · intro i hi
          obtain ⟨f, hfi, hmod⟩ := hget i _ hi
          rw [hfi]
          unfold podFunction at hp
          unfold bootstrapModel at hmod
          rw [hm] at hmod
          dsimp only at hmod hp
          cases hl : env.fitLaw name r.fit.residuals with
          | error e => rw [hl] at hp; cases hp
          | ok c =>
            rw [hl] at hmod hp
            dsimp only at hmod hp
            rw [Except.ok.injEq] at hmod hp
            rw [← hmod, ← hp]
            rfl

/-- **C100, the other laws of the residuals.**  Without factory there is no collection of curves; with `NormalFactory` there is one
curve per draw: the argument of the Gaussian POD of the fitted line, at the drawn deviation, shifted by the drawn line `z0 + z1 x`. -/
theorem C100_other_laws (fmax : ℝ) (env : PodEnv) (d : PodData) (w : PodDraws) (s s' : PodRunAttrs)
    (h : linearPodRun fmax env d w s = (.ok (), s')) :
    (d.fact = .binomial → s'.coll = s.coll) ∧
    (d.fact = .normal → ∃ cs r, s'.coll = some cs ∧ s'.model = some r ∧ cs.length = w.gauss.length ∧
      ∀ (i : ℕ) z0 z1 sigma, sigma ≠ 0 → w.gauss[i]? = some (z0, z1, sigma) →
        cs[i]? = some fun x => PhiC ((r.detection - (r.fit.intercept + r.fit.slope * x)) / sigma - (z0 + z1 * x))) := by
  unfold linearPodRun at h
  cases hm : computeLinearModel fmax env.lin w.starts d.obs d.detection d.noise d.sat d.boxCox d.censored with
  | error e => rw [hm] at h; cases h
  | ok r =>
    rw [hm] at h
    dsimp only at h
    constructor
    · intro hf
      rw [hf] at h
      simp only [podFunction, Prod.mk.injEq, true_and] at h
      rw [← h]
    · intro hf
      rw [hf] at h
      simp only [podFunction, Prod.mk.injEq, true_and] at h
      refine ⟨_, r, by rw [← h], by rw [← h], by simp, ?_⟩
      intro i z0 z1 sigma hs hi
      rw [List.getElem?_map, hi]
      simp only [Option.map_some, Option.some.injEq]
      funext x
      rw [gaussCurve]
      congr 1
      field_simp
      ring

/-! ## C101 -/

/-- **C101, restricted.**  Once the model of the data is fitted, a bootstrap run succeeds exactly when the refit of every resample
does; otherwise it stops with the exception of the first failing resample, leaving the new POD function next to the collection of
curves of the previous run (none for a new object). -/
theorem C101_run_iff_partial (fmax : ℝ) (env : PodEnv) (d : PodData) (name : String) (hf : d.fact = .other name) (w : PodDraws)
    (s s0 : PodRunAttrs) (hmain : linearPodRun fmax env d { w with resamples := [] } s = (.ok (), s0)) :
    ((linearPodRun fmax env d w s).1 = .ok () ↔ ∀ r ∈ w.resamples, ∃ f, bootstrapModel fmax env d name r = .ok f) ∧
    (linearPodRun fmax env d w s).2.pod = s0.pod ∧
    (∀ e, (linearPodRun fmax env d w s).1 = .error e → (linearPodRun fmax env d w s).2.coll = s.coll) := by
  unfold linearPodRun at hmain ⊢
  rw [hf] at hmain ⊢
  dsimp only at hmain ⊢
  cases hm : computeLinearModel fmax env.lin w.starts d.obs d.detection d.noise d.sat d.boxCox d.censored with
  | error e => rw [hm] at hmain; cases hmain
  | ok r =>
    rw [hm] at hmain
    dsimp only at hmain ⊢
    cases hp : podFunction env (.other name) r with
    | error e => rw [hp] at hmain; cases hmain
    | ok g =>
      rw [hp] at hmain
      dsimp only at hmain ⊢
      rw [bootstrapColl] at hmain
      dsimp only at hmain
      rw [Prod.mk.injEq] at hmain
      obtain ⟨-, rfl⟩ := hmain
      cases hb : bootstrapColl fmax env d name w.resamples with
      | error e =>
        refine ⟨⟨fun h => (by cases h), fun h => ?_⟩, rfl, fun _ _ => rfl⟩
        exfalso
        choose! g hg using h
        have : bootstrapColl fmax env d name w.resamples = .ok (w.resamples.map g) := by
          rw [bootstrapColl_ok, List.forall₂_map_right_iff, List.forall₂_same]
          exact hg
        rw [this] at hb
        cases hb
      | ok fs =>
        refine ⟨⟨fun _ r hr => ?_, fun _ => rfl⟩, rfl, fun e h => by cases h⟩
        have h2 := (bootstrapColl_ok _ _ _ _ _ _).mp hb
        obtain ⟨j, hj, rfl⟩ := List.getElem_of_mem hr
        exact ⟨_, h2.get hj (by rw [← h2.length_eq]; exact hj)⟩

/-- **C101, attributes after an exception.**  A run that raises keeps the collection of curves.  If the line could not be fitted nothing
changes; otherwise the new line is stored, and the POD function is replaced exactly when the law of the residuals could be built. -/
theorem C101_attributes (fmax : ℝ) (env : PodEnv) (d : PodData) (w : PodDraws) (s s' : PodRunAttrs) (e : PyErr)
    (h : linearPodRun fmax env d w s = (.error e, s')) :
    s'.coll = s.coll ∧
    (computeLinearModel fmax env.lin w.starts d.obs d.detection d.noise d.sat d.boxCox d.censored = .error e → s' = s) ∧
    ∀ r, computeLinearModel fmax env.lin w.starts d.obs d.detection d.noise d.sat d.boxCox d.censored = .ok r →
      s'.model = some r ∧ (podFunction env d.fact r = .error e → s'.pod = s.pod) ∧
      ∀ f, podFunction env d.fact r = .ok f → s'.pod = some f := by
  unfold linearPodRun at h
  cases hm : computeLinearModel fmax env.lin w.starts d.obs d.detection d.noise d.sat d.boxCox d.censored with
  | error e' =>
    rw [hm, Prod.mk.injEq] at h
    obtain ⟨-, rfl⟩ := h
    exact ⟨rfl, fun _ => rfl, fun r hr => by cases hr⟩
  | ok r =>
    rw [hm] at h
    dsimp only at h
    suffices hc : s'.coll = s.coll ∧ s'.model = some r ∧ (podFunction env d.fact r = .error e → s'.pod = s.pod) ∧
        ∀ f, podFunction env d.fact r = .ok f → s'.pod = some f by
      refine ⟨hc.1, fun h => (by cases h), fun r' hr' => ?_⟩
      rw [Except.ok.injEq] at hr'
      subst hr'
      exact hc.2
    cases hp : podFunction env d.fact r with
    | error e' =>
      rw [hp, Prod.mk.injEq] at h
      obtain ⟨-, rfl⟩ := h
      exact ⟨rfl, rfl, fun _ => rfl, fun f hf => by cases hf⟩
    | ok f =>
      rw [hp] at h
      dsimp only at h
      split at h
      · cases h
      · cases h
      · split at h
        · rw [Prod.mk.injEq] at h
          obtain ⟨-, rfl⟩ := h
          exact ⟨rfl, rfl, fun hf => (by cases hf), fun f' hf => by rw [Except.ok.injEq] at hf; rw [hf]⟩
        · cases h

/-- A law that cannot be fitted: the line of the new run stands next to the POD function of the previous one. -/
example : ∃ s', linearPodRun 10 ⟨demoLin, fun _ _ => .error ⟨.exception, "law"⟩⟩
      ⟨[(1, 1), (2, 2), (3, 3)], 2, none, none, false, false, .other "Student"⟩ ⟨fun _ => (0, 0, 0), [], []⟩
      ⟨none, some fun _ => 7, none⟩ = (.error ⟨.exception, "law"⟩, s') ∧ s'.model.isSome ∧ s'.pod.isSome := by
  simp [linearPodRun, computeLinearModel, linFit, podFunction]

/-- **C101 is violated.**  With a noise threshold and Box-Cox, a resample may consist of a censored observation only (it has positive
probability as soon as one observation is censored).  Then the run raises, although the model of the data was fitted: no
uncensored signal is left whose minimum could be computed. -/
theorem C101_violated (fmax : ℝ) (env : PodEnv) (d : PodData) (name : String) (hf : d.fact = .other name) (hb : d.boxCox = true)
    (hc : d.censored = true) (noise : ℝ) (hn : d.noise = some noise) (o : ℝ × ℝ) (_ : o ∈ d.obs) (hcens : o.2 ≤ noise)
    (w : PodDraws) (st : ℕ → ℝ × ℝ × ℝ) (hw : (List.replicate d.obs.length o, st) ∈ w.resamples) (s s0 : PodRunAttrs)
    (hmain : linearPodRun fmax env d { w with resamples := [] } s = (.ok (), s0)) :
    (∀ p ∈ List.replicate d.obs.length o, p ∈ d.obs) ∧ ∃ e, (linearPodRun fmax env d w s).1 = .error e := by
  refine ⟨fun p hp => by rw [List.eq_of_mem_replicate hp]; assumption, ?_⟩
  cases hr : (linearPodRun fmax env d w s).1 with
  | error e => exact ⟨e, rfl⟩
  | ok u =>
    exfalso
    obtain ⟨f, hmod⟩ := ((C101_run_iff_partial fmax env d name hf w s s0 hmain).1.mp hr) _ hw
    have hunc : uncensoredObs fmax (List.replicate d.obs.length o) (some noise) d.sat = [] := by
      rw [uncensoredObs, List.filter_eq_nil_iff]
      intro p hp
      rw [List.eq_of_mem_replicate hp]
      simp only [Option.getD_some, Bool.and_eq_true, decide_eq_true_eq, not_and]
      intro h
      linarith
    unfold bootstrapModel computeLinearModel at hmod
    rw [hc, hb, hn] at hmod
    simp only [if_true, hunc, List.map_nil, boxCoxShift, sampleMin] at hmod
    cases hmod

/-! ## Examples -/

/-- External functions of the examples: the line y = x, lambda = 1, an optimiser that stays where it is, the empirical law. -/
noncomputable def demoPodEnv : PodEnv :=
  ⟨⟨fun _ _ _ => .ok 1, fun _ => (0, 1, 1), fun _ x => ⟨x, 0⟩⟩, empiricalLaw⟩

/-- Three observations, no threshold, no Box-Cox. -/
def demoPodData : PodData := ⟨[(1, 1), (2, 3), (3, 2)], 2, none, none, false, false, .other "KernelSmoothing"⟩

theorem demoPod_ok (w : PodDraws) (hw : ∀ r ∈ w.resamples, r.1 ≠ []) (s : PodRunAttrs) :
    (linearPodRun 10 demoPodEnv demoPodData w s).1 = .ok () := by
  have hmain : ∃ s0, linearPodRun 10 demoPodEnv demoPodData { w with resamples := [] } s = (.ok (), s0) := by
    have h1 : (linearPodRun 10 demoPodEnv demoPodData { w with resamples := [] } s).1 = .ok () := by
      simp [linearPodRun, computeLinearModel, demoPodData, linFit, podFunction, demoPodEnv, empiricalLaw, lineResiduals,
        bootstrapColl]
    exact ⟨_, Prod.ext h1 rfl⟩
  obtain ⟨s0, hs⟩ := hmain
  rw [(C101_run_iff_partial 10 demoPodEnv demoPodData "KernelSmoothing" rfl w s s0 hs).1]
  intro r hr
  have := hw r hr
  simp [bootstrapModel, computeLinearModel, demoPodData, linFit, demoPodEnv, empiricalLaw, lineResiduals, this]

example : ∃ s', linearPodRun 10 demoPodEnv demoPodData
    ⟨fun _ => (0, 0, 0), [], [([(1, 1), (2, 3), (3, 2)], fun _ => (0, 0, 0)), ([(1, 1), (1, 1), (3, 2)], fun _ => (1, 1, 1))]⟩
    freshPod = (.ok (), s') ∧ ∃ cs, s'.coll = some cs ∧ cs.length = 2 ∧ cs[0]? = s'.pod := by
  have h := demoPod_ok ⟨fun _ => (0, 0, 0), [],
    [([(1, 1), (2, 3), (3, 2)], fun _ => (0, 0, 0)), ([(1, 1), (1, 1), (3, 2)], fun _ => (1, 1, 1))]⟩ (by simp) freshPod
  obtain ⟨cs, h1, h2, -, -, h5⟩ := C100_bootstrap 10 demoPodEnv lawSpec_nonempty demoPodData "KernelSmoothing" rfl _ freshPod _
    (Prod.ext h rfl)
  exact ⟨_, Prod.ext h rfl, cs, h1, h2, h5 0 rfl⟩

/-- The same data with thresholds and Box-Cox. -/
noncomputable def demoPodCens : PodData :=
  ⟨[(1, 1), (2, 3), (3, 2)], 2, some 1.5, some 9, true, true, .other "KernelSmoothing"⟩

theorem demo_censoredFit (draws : ℕ → ℝ × ℝ × ℝ) (unc : List (ℝ × ℝ)) (dn ds : List ℝ) (tn ts : ℝ) :
    censoredFit demoPodEnv.lin draws (0, 1, 1) unc dn ds (some tn) (some ts) = .ok ⟨0, 1, 1, lineResiduals 0 1 unc⟩ := by
  obtain ⟨m, hm, -⟩ := C06_MLE_is_neg_log_likelihood 0 1 1 tn ts one_pos unc dn ds
  have ho : mleObjective unc dn ds (some tn) (some ts) (0, 1, 1) ≠ .pinf := by
    rw [mleObjective, hm]; simp
  unfold censoredFit
  rw [hm]
  simp only [computeLinearParametersCensored, if_neg ho, demoPodEnv]

theorem demoPodCens_ok (w : PodDraws) (s : PodRunAttrs) :
    (linearPodRun 10 demoPodEnv demoPodCens { w with resamples := [] } s).1 = .ok () := by
  have hu : uncensoredObs (10 : ℝ) [((1 : ℝ), (1 : ℝ)), (2, 3), (3, 2)] (some 1.5) (some 9) = [(2, 3), (3, 2)] := by
    norm_num [uncensoredObs]
  have hsh : boxCoxShift [(3 : ℝ), 2] = .ok 0 := by norm_num [boxCoxShift, sampleMin]
  have hbs : boxCoxSample 1 [(3 : ℝ), 2] = .ok [boxCoxFun 1 3, boxCoxFun 1 2] := by
    norm_num [boxCoxSample]
  have ht : ∀ x : ℝ, 0 < x → boxCoxTransform 1 x = .ok (boxCoxFun 1 x) := fun x hx => by simp [boxCoxTransform, hx]
  have h1 := ht 1.5 (by norm_num)
  have h2 := ht 9 (by norm_num)
  have h3 := ht 2 (by norm_num)
  have hlin : computeLinearModel 10 demoPodEnv.lin w.starts demoPodCens.obs demoPodCens.detection demoPodCens.noise demoPodCens.sat
      demoPodCens.boxCox demoPodCens.censored = .ok ⟨[(2, boxCoxFun 1 3), (3, boxCoxFun 1 2)],
        ⟨0, 1, 1, lineResiduals 0 1 [(2, boxCoxFun 1 3), (3, boxCoxFun 1 2)]⟩, boxCoxFun 1 2, some 1⟩ := by
    have he : ∀ d s sh, demoPodEnv.lin.boxCox d s sh = .ok 1 := fun _ _ _ => rfl
    have ho : ∀ u, demoPodEnv.lin.ols u = (0, 1, 1) := fun _ => rfl
    simp only [computeLinearModel, demoPodCens, hu, if_true, List.map_cons, List.map_nil, hsh, add_zero, he, hbs,
      boxCoxThreshold, h1, h2, h3, linFit, ho, demo_censoredFit, List.zip_cons_cons, List.zip_nil_right]
  unfold linearPodRun
  dsimp only
  rw [hlin]
  simp [podFunction, demoPodCens, demoPodEnv, empiricalLaw, lineResiduals, bootstrapColl]

example : ∃ e, (linearPodRun 10 demoPodEnv demoPodCens
    ⟨fun _ => (0, 0, 0), [], [(List.replicate 3 (1, 1), fun _ => (0, 0, 0))]⟩ freshPod).1 = .error e :=
  (C101_violated 10 demoPodEnv demoPodCens "KernelSmoothing" rfl rfl rfl 1.5 rfl (1, 1) (by simp [demoPodCens]) (by norm_num)
    ⟨fun _ => (0, 0, 0), [], [(List.replicate 3 (1, 1), fun _ => (0, 0, 0))]⟩ (fun _ => (0, 0, 0)) (by simp [demoPodCens]) freshPod
    _ (Prod.ext (demoPodCens_ok _ _) rfl)).2

end Verif.Props
