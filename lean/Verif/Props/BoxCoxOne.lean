import Verif.Props.BoxCoxUnits
import Verif.Props.CensoredUnits
import Verif.Props.QrRun
import Verif.Model.Bootstrap

/-!
# C200: a Box-Cox transformation with parameter one changes nothing
-/

namespace Verif.Props
open Verif.Py Verif.Model

/-- The observations with all signals raised by `e`. -/
def raised (e : ℝ) (obs : List (ℝ × ℝ)) : List (ℝ × ℝ) := obs.map fun o => (o.1, o.2 + e)

theorem raised_fst (e : ℝ) (obs : List (ℝ × ℝ)) : (raised e obs).map Prod.fst = obs.map Prod.fst := by
  simp [raised, List.map_map, Function.comp_def]

theorem raised_inUnits (e : ℝ) (obs : List (ℝ × ℝ)) : raised e obs = inUnits 1 0 1 e obs := by
  simp [raised, inUnits]

theorem zip_raised (s : ℝ) (obs : List (ℝ × ℝ)) (ys : List ℝ)
    (h : boxCoxSample 1 ((obs.map Prod.snd).map (· + s)) = .ok ys) : (obs.map Prod.fst).zip ys = raised (s - 1) obs := by
  unfold boxCoxSample at h
  split at h
  · rw [Except.ok.injEq] at h
    subst h
    rw [raised, List.map_map, List.map_map, List.zip_map', List.map_inj_left]
    intro o _
    simp [boxCoxFun]
    ring
  · cases h

theorem transform_one (x y : ℝ) (h : boxCoxTransform 1 x = .ok y) : y = x - 1 := by
  unfold boxCoxTransform at h
  split at h
  · rw [Except.ok.injEq] at h
    rw [← h]; simp [boxCoxFun]
  · cases h

theorem threshold_one (s : ℝ) (t t' : Option ℝ) (h : boxCoxThreshold 1 s t = .ok t') : t' = t.map (· + (s - 1)) := by
  cases t with
  | none => rw [boxCoxThreshold, Except.ok.injEq] at h; rw [← h]; rfl
  | some v =>
    rw [boxCoxThreshold] at h
    cases hv : boxCoxTransform 1 (v + s) with
    | error e => rw [hv] at h; cases h
    | ok y =>
      rw [hv] at h
      dsimp only at h
      rw [Except.ok.injEq] at h
      rw [← h, transform_one _ _ hv, Option.map_some]
      congr 1; ring

/-- A fit after Box-Cox with parameter one is the fit of the raised observations with the raised thresholds. -/
theorem one_is_raised (fmax : ℝ) (env : LinEnv) (draws : ℕ → ℝ × ℝ × ℝ) (obs : List (ℝ × ℝ)) (det : ℝ) (noise sat : Option ℝ)
    (censored : Bool) (r : LinModelResult) (h : computeLinearModel fmax env draws obs det noise sat true censored = .ok r)
    (hl : r.lambda = some 1) :
    let unc := if censored then uncensoredObs fmax obs noise sat else obs
    unc ≠ [] ∧ ∃ e, r.detection = det + e ∧ r.obs = raised e unc ∧
      linFit env draws censored (raised e unc) (noiseDefects fmax obs noise) (satDefects fmax obs sat)
        ((if censored then noise else none).map (· + e)) ((if censored then sat else none).map (· + e)) = .ok r.fit := by
  intro unc
  unfold computeLinearModel at h
  dsimp only at h
  rw [if_pos rfl] at h
  change (match boxCoxShift (unc.map Prod.snd) with | .error e => _ | .ok shift => _) = _ at h
  cases hs : boxCoxShift (unc.map Prod.snd) with
  | error e => rw [hs] at h; cases h
  | ok shift =>
  have hne : unc ≠ [] := by
    intro hu
    rw [hu] at hs
    simp [boxCoxShift, sampleMin] at hs
  rw [hs] at h
  dsimp only at h
  change (match env.boxCox (unc.map Prod.fst) (unc.map Prod.snd) shift with | .error e => _ | .ok lam => _) = _ at h
  cases hb : env.boxCox (unc.map Prod.fst) (unc.map Prod.snd) shift with
  | error e => rw [hb] at h; cases h
  | ok lam =>
  rw [hb] at h
  dsimp only at h
  change (match boxCoxSample lam ((unc.map Prod.snd).map (· + shift)) with | .error e => _ | .ok signals => _) = _ at h
  cases hy : boxCoxSample lam ((unc.map Prod.snd).map (· + shift)) with
  | error e => rw [hy] at h; cases h
  | ok ys =>
  rw [hy] at h
  dsimp only at h
  cases hn : boxCoxThreshold lam shift (if censored then noise else none) with
  | error e => rw [hn] at h; cases h
  | ok noise' =>
  rw [hn] at h
  dsimp only at h
  cases ht : boxCoxThreshold lam shift (if censored then sat else none) with
  | error e => rw [ht] at h; cases h
  | ok sat' =>
  rw [ht] at h
  dsimp only at h
  cases hd : boxCoxTransform lam (det + shift) with
  | error e => rw [hd] at h; cases h
  | ok det' =>
  rw [hd] at h
  dsimp only at h
  change (match linFit env draws censored ((unc.map Prod.fst).zip ys) (noiseDefects fmax obs noise) (satDefects fmax obs sat) noise' sat' with
    | .error e => _ | .ok fit => _) = _ at h
  cases hf : linFit env draws censored ((unc.map Prod.fst).zip ys) (noiseDefects fmax obs noise) (satDefects fmax obs sat) noise' sat' with
  | error e => rw [hf] at h; cases h
  | ok fit =>
  rw [hf] at h
  dsimp only at h
  rw [Except.ok.injEq] at h
  subst h
  have hlam : lam = 1 := Option.some.inj hl
  subst hlam
  refine ⟨hne, shift - 1, ?_, ?_, ?_⟩
  · dsimp only
    rw [transform_one _ _ hd]; ring
  · exact zip_raised shift unc ys hy
  · rw [zip_raised shift unc ys hy, threshold_one _ _ _ hn, threshold_one _ _ _ ht] at hf
    exact hf

/-! ## Without censoring -/

/-- Least squares on raised signals. -/
theorem ols_raised (ols : List (ℝ × ℝ) → ℝ × ℝ × ℝ) (hols : OlsExact ols) (e : ℝ) (obs : List (ℝ × ℝ)) (hne : obs ≠ []) :
    ols (raised e obs) = ((ols obs).1 + e, (ols obs).2.1, (ols obs).2.2) := by
  set x : Fin obs.length → ℝ := fun i => (obs.get i).1 with hx
  set y : Fin obs.length → ℝ := fun i => (obs.get i).2 with hy
  have h1 : obs = List.ofFn fun i => (x i, y i) := by
    apply List.ext_getElem
    · simp
    · intro i a b; simp [hx, hy]
  have h2 : raised e obs = List.ofFn fun i => (x i, y i + e) := by
    apply List.ext_getElem
    · simp [raised]
    · intro i a b; simp [raised, hx, hy]
  have hn : (obs.length : ℝ) ≠ 0 := by
    have := List.length_pos_iff.mpr hne
    positivity
  rw [ols_get ols hols x (fun i => y i + e) _ h2, hols obs]
  have hm : smean (fun i => y i + e) = smean y + e := by
    simp only [smean, Finset.sum_add_distrib, Finset.sum_const, Finset.card_univ, Fintype.card_fin, nsmul_eq_mul]
    field_simp
  have hs : olsSlope x (fun i => y i + e) = olsSlope x y := by
    rw [olsSlope, olsSlope, hm]
    congr 1
    exact Finset.sum_congr rfl fun i _ => by ring
  have hi : olsIntercept x (fun i => y i + e) = olsIntercept x y + e := by
    rw [olsIntercept, olsIntercept, hm, hs]; ring
  have hr : olsResiduals x (fun i => y i + e) = olsResiduals x y := by
    funext i
    rw [olsResiduals, olsResiduals, hs, hi]; ring
  rw [hi, hs, linearStderr, linearStderr, linearScale, linearScale, hr]

theorem residuals_raised (e b0 b1 : ℝ) (obs : List (ℝ × ℝ)) : lineResiduals (b0 + e) b1 (raised e obs) = lineResiduals b0 b1 obs := by
  rw [lineResiduals, lineResiduals, raised, List.map_map, List.map_inj_left]
  intro o _
  simp only [Function.comp_apply]
  ring

/-- The same fitted line up to a constant of the signals. -/
def SameUpTo (e : ℝ) (r r0 : LinModelResult) : Prop :=
  r.obs = raised e r0.obs ∧ r.detection = r0.detection + e ∧ r.fit.intercept = r0.fit.intercept + e ∧ r.fit.slope = r0.fit.slope ∧
    r.fit.stderr = r0.fit.stderr ∧ r.fit.residuals = r0.fit.residuals

theorem one_uncensored (fmax : ℝ) (env : LinEnv) (hols : OlsExact env.ols) (draws : ℕ → ℝ × ℝ × ℝ) (obs : List (ℝ × ℝ)) (det : ℝ)
    (noise sat : Option ℝ) (r : LinModelResult) (h : computeLinearModel fmax env draws obs det noise sat true false = .ok r)
    (hl : r.lambda = some 1) :
    ∃ r0, computeLinearModel fmax env draws obs det noise sat false false = .ok r0 ∧ ∃ e, SameUpTo e r r0 := by
  obtain ⟨hne, e, h1, h2, h3⟩ := one_is_raised fmax env draws obs det noise sat false r h hl
  simp only [Bool.false_eq_true, if_false] at hne h2 h3
  have ho := ols_raised env.ols hols e obs hne
  rw [linFit, ho] at h3
  simp only [Bool.false_eq_true, if_false, Except.ok.injEq] at h3
  refine ⟨⟨obs, ⟨(env.ols obs).1, (env.ols obs).2.1, (env.ols obs).2.2, lineResiduals (env.ols obs).1 (env.ols obs).2.1 obs⟩, det, none⟩, ?_,
    e, h2, h1, ?_, ?_, ?_, ?_⟩
  · simp [computeLinearModel, linFit]
  · rw [← h3]
  · rw [← h3]
  · rw [← h3]
  · rw [← h3]; exact residuals_raised e _ _ obs

theorem podGauss_raised (e : ℝ) (obs : List (ℝ × ℝ)) (S d : ℝ) (L : ℝ → ℝ) (a : ℝ) :
    podGauss (fun i : Fin (raised e obs).length => ((raised e obs).get i).1) S d L a =
      podGauss (fun i : Fin obs.length => (obs.get i).1) S d L a := by
  apply podGauss_get (fun i : Fin obs.length => (obs.get i).1) (fun i => (obs.get i).2 + e)
  apply List.ext_getElem
  · simp [raised]
  · intro i a b; simp [raised]

/-- Two fits that agree up to a constant of the signals give the same POD function, whatever the factory. -/
theorem podFunction_same (env : PodEnv) (fact : ResFact) (r r0 : LinModelResult) (e : ℝ) (h : SameUpTo e r r0) :
    podFunction env fact r = podFunction env fact r0 := by
  obtain ⟨h1, h2, h3, h4, h5, h6⟩ := h
  have hd : ∀ x, r.detection - (r.fit.intercept + r.fit.slope * x) = r0.detection - (r0.fit.intercept + r0.fit.slope * x) := by
    intro x; rw [h2, h3, h4]; ring
  cases fact with
  | binomial =>
    simp only [podFunction, Except.ok.injEq]
    funext x
    rw [podBinomial, podBinomial, hd, h6]
  | normal =>
    simp only [podFunction, Except.ok.injEq]
    funext x
    have := podGauss_raised e r0.obs r.fit.stderr r.detection (fun x => r.fit.intercept + r.fit.slope * x) x
    rw [← h1] at this
    refine this.trans ?_
    rw [podGauss, podGauss, hd, h5]
    rfl
  | other name =>
    simp only [podFunction, h6]
    cases env.fitLaw name r0.fit.residuals with
    | error er => rfl
    | ok c =>
      simp only [Except.ok.injEq]
      funext x
      rw [hd]

/-- Every fit with Box-Cox on the given samples finds the parameter one. -/
def FindsOne (fmax : ℝ) (env : LinEnv) (d : PodData) (samples : List (List (ℝ × ℝ) × (ℕ → ℝ × ℝ × ℝ))) : Prop :=
  ∀ smp ∈ samples, ∀ r, computeLinearModel fmax env smp.2 smp.1 d.detection d.noise d.sat true d.censored = .ok r → r.lambda = some 1

theorem bootstrap_same (fmax : ℝ) (env : PodEnv) (hols : OlsExact env.lin.ols) (d : PodData) (hc : d.censored = false) (name : String)
    (rs : List (List (ℝ × ℝ) × (ℕ → ℝ × ℝ × ℝ))) (fs : List (ℝ → ℝ)) (hone : FindsOne fmax env.lin d rs)
    (h : bootstrapColl fmax env { d with boxCox := true } name rs = .ok fs) :
    bootstrapColl fmax env { d with boxCox := false } name rs = .ok fs := by
  induction rs generalizing fs with
  | nil => exact h
  | cons smp rs ih =>
    rw [bootstrapColl] at h ⊢
    cases hm : bootstrapModel fmax env { d with boxCox := true } name smp with
    | error e => rw [hm] at h; cases h
    | ok f =>
    rw [hm] at h
    dsimp only at h
    cases hb : bootstrapColl fmax env { d with boxCox := true } name rs with
    | error e => rw [hb] at h; cases h
    | ok gs =>
    rw [hb] at h
    dsimp only at h
    rw [ih gs (fun s hs => hone s (List.mem_cons_of_mem _ hs)) hb]
    have hm0 : bootstrapModel fmax env { d with boxCox := false } name smp = .ok f := by
      unfold bootstrapModel at hm ⊢
      dsimp only at hm ⊢
      cases hr : computeLinearModel fmax env.lin smp.2 smp.1 d.detection d.noise d.sat true d.censored with
      | error e => rw [hr] at hm; cases hm
      | ok r =>
      have hl := hone smp List.mem_cons_self r hr
      rw [hr] at hm
      rw [hc] at hr ⊢
      obtain ⟨r0, h0, e, h1, h2, h3, h4, h5, h6⟩ := one_uncensored fmax env.lin hols _ _ _ _ _ r hr hl
      rw [h0]
      dsimp only at hm ⊢
      rw [← h6]
      cases hf : env.fitLaw name r.fit.residuals with
      | error e => rw [hf] at hm; cases hm
      | ok c =>
        rw [hf] at hm
        dsimp only at hm ⊢
        rw [← hm]
        congr 1
        funext x
        rw [bootstrapCurve, bootstrapCurve, h2, h3, h4]
        congr 1; ring
    rw [hm0]
    exact h

/-- **C200, linear model.**  When the Box-Cox parameter found is one for the data (and, with a bootstrap, for the resamples),
a run with Box-Cox that returns leaves the same POD function and the same simulated curves as the run without Box-Cox with the
same random numbers, for every factory; only the line and the threshold are moved by the same constant. -/
theorem C200_linear (fmax : ℝ) (env : PodEnv) (hols : OlsExact env.lin.ols) (d : PodData) (hc : d.censored = false) (w : PodDraws)
    (s : PodRunAttrs) (hone : FindsOne fmax env.lin d ((d.obs, w.starts) :: w.resamples))
    (h : (linearPodRun fmax env { d with boxCox := true } w s).1 = .ok ()) :
    let t := linearPodRun fmax env { d with boxCox := true } w s
    let t0 := linearPodRun fmax env { d with boxCox := false } w s
    t0.1 = .ok () ∧ t0.2.pod = t.2.pod ∧ t0.2.coll = t.2.coll ∧
      ∃ r r0, t.2.model = some r ∧ t0.2.model = some r0 ∧ ∃ e, SameUpTo e r r0 := by
  intro t t0
  simp only [t, t0]
  unfold linearPodRun at h ⊢
  dsimp only at h ⊢
  cases hr : computeLinearModel fmax env.lin w.starts d.obs d.detection d.noise d.sat true d.censored with
  | error e => rw [hr] at h; cases h
  | ok r =>
  have hl := hone _ List.mem_cons_self r hr
  rw [hr] at h
  have hr' := hr
  rw [hc] at hr'
  obtain ⟨r0, h0, e, hsame⟩ := one_uncensored fmax env.lin hols _ _ _ _ _ r hr' hl
  have h0' : computeLinearModel fmax env.lin w.starts d.obs d.detection d.noise d.sat false d.censored = .ok r0 := by rw [hc]; exact h0
  rw [h0']
  dsimp only at h ⊢
  rw [← podFunction_same env d.fact r r0 e hsame]
  cases hp : podFunction env d.fact r with
  | error er => rw [hp] at h; cases h
  | ok f =>
  rw [hp] at h
  dsimp only at h ⊢
  have hsame' := hsame
  obtain ⟨h1, h2, h3, h4, h5, h6⟩ := hsame'
  cases hf : d.fact with
  | binomial => exact ⟨rfl, rfl, rfl, r, r0, rfl, rfl, e, hsame⟩
  | normal =>
    refine ⟨rfl, rfl, ?_, r, r0, rfl, rfl, e, hsame⟩
    dsimp only
    congr 1
    rw [List.map_inj_left]
    intro z _
    funext x
    rw [gaussCurve, gaussCurve, h2, h3, h4]
    congr 2; ring
  | other name =>
    rw [hf] at h
    dsimp only at h ⊢
    cases hb : bootstrapColl fmax env { d with boxCox := true } name w.resamples with
    | error er => rw [hf] at hb; rw [hb] at h; cases h
    | ok fs =>
      have := bootstrap_same fmax env hols d hc name w.resamples fs (fun smp hs => hone smp (List.mem_cons_of_mem _ hs)) hb
      rw [hf] at hb this
      rw [hb, this]
      exact ⟨rfl, rfl, rfl, r, r0, rfl, rfl, e, hsame⟩

/-! ## With thresholds -/

/-- **C200, censored data.**  With thresholds and exact fits: when the Box-Cox parameter found is one, the fit without Box-Cox
succeeds too and the Gaussian and the binomial POD are the same. -/
theorem C200_censored (fmax : ℝ) (env : LinEnv) (henv : ExactFit env) (draws draws' : ℕ → ℝ × ℝ × ℝ) (obs : List (ℝ × ℝ)) (det : ℝ)
    (noise sat : Option ℝ) (r : LinModelResult) (h : computeLinearModel fmax env draws obs det noise sat true true = .ok r)
    (hl : r.lambda = some 1) (hfin : ∀ o ∈ obs, -fmax < o.2 ∧ o.2 < fmax)
    (hfin' : ∀ o ∈ obs, -fmax < o.2 + (r.detection - det) ∧ o.2 + (r.detection - det) < fmax)
    (hx : ∃ o ∈ keptObs id noise sat obs, ∃ o' ∈ keptObs id noise sat obs, o.1 ≠ o'.1)
    (hline : ¬ ∃ b0 b1 : ℝ, ∀ o ∈ keptObs id noise sat obs, o.2 = b0 + b1 * o.1) (hn : 3 ≤ (keptObs id noise sat obs).length) :
    ∃ r0, computeLinearModel fmax env draws' obs det noise sat false true = .ok r0 ∧
      (∀ a, runGaussPod r a = runGaussPod r0 a) ∧ ∀ a, runBinomialPod r a = runBinomialPod r0 a := by
  obtain ⟨-, e, h1, h2, h3⟩ := one_is_raised fmax env draws obs det noise sat true r h hl
  simp only [if_true] at h2 h3
  have he : r.detection - det = e := by rw [h1]; ring
  rw [he] at hfin'
  have hfin1 : ∀ o ∈ obs, -fmax < 1 * o.2 + e ∧ 1 * o.2 + e < fmax := fun o ho => by rw [one_mul]; exact hfin' o ho
  obtain ⟨r0, r1, e0, e1, -, e3, e4⟩ := C159_units fmax env env henv henv draws' draws obs det noise sat 1 0 1 e one_ne_zero one_pos
    hfin hfin1 hx hline hn
  have hmapf : (fun s : ℝ => 1 * s + e) = (· + e) := by funext s; rw [one_mul]
  rw [hmapf] at e1
  have hk : uncensoredObs fmax obs noise sat = keptObs id noise sat obs := by
    rw [← keptObs_eq fmax id noise sat obs hfin]; simp
  have hfin2 : ∀ o ∈ inUnits 1 0 1 e obs, -fmax < o.2 ∧ o.2 < fmax := by
    intro o ho
    obtain ⟨p, hp, rfl⟩ := List.mem_map.1 ho
    exact hfin1 p hp
  have hk' : uncensoredObs fmax (inUnits 1 0 1 e obs) (noise.map (· + e)) (sat.map (· + e)) = raised e (uncensoredObs fmax obs noise sat) := by
    have a1 := keptObs_eq fmax id (noise.map (· + e)) (sat.map (· + e)) (inUnits 1 0 1 e obs) hfin2
    have a2 := keptObs_units 1 0 1 e obs noise sat one_pos
    rw [hmapf] at a2
    rw [hk, raised_inUnits, ← a2, ← a1]
    simp
  have hnd := noiseDefects_units fmax 1 0 1 e obs noise one_pos (fun o ho => (hfin o ho).1) (fun o ho => (hfin1 o ho).1)
  have hsd := satDefects_units fmax 1 0 1 e obs sat one_pos (fun o ho => (hfin o ho).2) (fun o ho => (hfin1 o ho).2)
  rw [hmapf] at hnd hsd
  have hid : ∀ l : List ℝ, l.map (fun x => 1 * x + 0) = l := by intro l; simp
  rw [hid] at hnd hsd
  have e1' := e1
  unfold computeLinearModel at e1'
  simp only [if_true, Bool.false_eq_true, if_false] at e1'
  rw [hk', hnd, hsd, h3] at e1'
  dsimp only at e1'
  rw [Except.ok.injEq] at e1'
  have hr1 : r1 = ⟨r.obs, r.fit, r.detection, none⟩ := by
    rw [← e1', h2, h1, one_mul]
  refine ⟨r0, e0, fun a => ?_, fun a => ?_⟩
  · have := e3 a
    rw [one_mul, add_zero, hr1] at this
    exact this
  · have := e4 a
    rw [one_mul, add_zero, hr1] at this
    exact this

/-! ## Quantile regression -/

/-- The preliminary analysis with Box-Cox and parameter one raises the signals and the threshold by a constant. -/
theorem podRun_one {G : Type} (fmax : ℝ) (bc : List ℝ → List ℝ → ℝ → Res (ℝ × G)) (obs : List (ℝ × ℝ)) (det : ℝ) (noise sat : Option ℝ)
    (st st' : BoxCoxAttrs G) (r : RunResult ℝ) (h : podRun fmax bc obs (some det) noise sat true false st = (.ok r, st'))
    (hl : st'.lambda = some 1) : obs ≠ [] ∧ ∃ e, r.obs = raised e obs ∧ r.detection = some (det + e) := by
  unfold podRun at h
  dsimp only at h
  simp only [if_true, Bool.false_eq_true, if_false] at h
  cases hs : boxCoxShift (obs.map Prod.snd) with
  | error e => rw [hs] at h; cases h
  | ok shift =>
  have hne : obs ≠ [] := by
    intro hu
    rw [hu] at hs
    simp [boxCoxShift, sampleMin] at hs
  rw [hs] at h
  dsimp only at h
  cases hb : bc (obs.map Prod.fst) (obs.map Prod.snd) shift with
  | error e => rw [hb] at h; cases h
  | ok lg =>
  obtain ⟨lam, g⟩ := lg
  rw [hb] at h
  dsimp only at h
  cases hy : boxCoxSample lam ((obs.map Prod.snd).map (· + shift)) with
  | error e => rw [hy] at h; cases h
  | ok ys =>
  rw [hy] at h
  dsimp only [boxCoxThreshold] at h
  cases hd : boxCoxTransform lam (det + shift) with
  | error e => rw [hd] at h; cases h
  | ok det' =>
  rw [hd] at h
  dsimp only at h
  simp only [Prod.mk.injEq, Except.ok.injEq] at h
  obtain ⟨rfl, rfl⟩ := h
  have hlam : lam = 1 := Option.some.inj hl
  subst hlam
  refine ⟨hne, shift - 1, zip_raised shift obs ys hy, ?_⟩
  dsimp only
  rw [transform_one _ _ hd]
  congr 1; ring

/-- **C200, quantile regression.**  When the Box-Cox parameter found for the data is one and the regressions are exact with
unique solutions, the POD curve is that of the run without Box-Cox, and so are the detection sizes. -/
theorem C200_quantile {G : Type} (env : QrEnv G) (hex : ∀ obs tau, 0 < tau → tau < 1 → QuantRegExact env.quantReg obs tau)
    (obs : List (ℝ × ℝ)) (det : ℝ) (qs : List ℝ) (hqs : ∀ p ∈ qs, 0 < p ∧ p < 1) (hu : ∀ p ∈ qs, UniqueLine (1 - p) obs)
    (bootstraps bootstraps' : List (List (ℝ × ℝ))) (s s' : QrAttrs G) (r : RunResult ℝ) (bc : BoxCoxAttrs G)
    (hrun : podRun env.fmax env.boxCox obs (some det) none none true false s.bc = (.ok r, bc)) (hl : bc.lambda = some 1) (f : ℝ → Res ℝ)
    (hf : (qrPodRun env ⟨obs, det, none, none, true, false, qs⟩ bootstraps { s with pod := none }).2.pod = some f) :
    (qrPodRun env ⟨obs, det, none, none, false, false, qs⟩ bootstraps' { s' with pod := none }).2.pod = some f ∧
    ∀ p lo hi, 0 < p → p < 1 → UniqueLine (1 - p) obs →
      qrDetectionSize env.pick (env.quantReg r.obs) (r.detection.getD 0) lo hi p = qrDetectionSize env.pick (env.quantReg obs) det lo hi p := by
  obtain ⟨-, e, h1, h2⟩ := podRun_one env.fmax env.boxCox obs det none none s.bc bc r hrun hl
  have hobs : raised e obs = obs.map fun o => (1 * o.1, 1 * o.2 + e) := by simp [raised]
  have hinv : obs = (raised e obs).map fun o => (1 * o.1, 1 * o.2 + -e) := by
    rw [raised, List.map_map]
    conv_lhs => rw [← List.map_id obs]
    rw [List.map_inj_left]
    intro o _
    simp
  have huniq : ∀ tau, 0 < tau → tau < 1 → UniqueLine tau obs → UniqueLine tau (raised e obs) := by
    intro tau h0 h1 hu b0 b1 b0' b1' hm hm'
    have hloss : ∀ c0 c1, quantLoss tau (raised e obs) c0 c1 = quantLoss tau obs (c0 - e) c1 := by
      intro c0 c1
      have := quantLoss_scale tau obs one_pos one_pos e (c0 - e) c1
      rw [← hobs] at this
      simpa using this
    have red : ∀ c0 c1, (∀ d0 d1, quantLoss tau (raised e obs) c0 c1 ≤ quantLoss tau (raised e obs) d0 d1) →
        ∀ d0 d1, quantLoss tau obs (c0 - e) c1 ≤ quantLoss tau obs d0 d1 := by
      intro c0 c1 h d0 d1
      have := h (d0 + e) d1
      rw [hloss, hloss] at this
      simpa using this
    obtain ⟨u0, u1, u2⟩ := hu _ _ _ _ (red b0 b1 hm) (red b0' b1' hm')
    exact ⟨by linarith, u1, u2⟩
  have hdet : 1 * (det + e) + -e = det := by ring
  obtain ⟨k1, -⟩ := C145_units env hex (raised e obs) (det + e) qs hqs 1 1 (-e) one_pos one_pos
    (fun p hp => huniq _ (by have := (hqs p hp).2; linarith) (by have := (hqs p hp).1; linarith) (hu p hp)) bootstraps bootstraps' s s'
  obtain ⟨-, k2⟩ := C145_units env hex obs det qs hqs 1 1 e one_pos one_pos hu bootstraps bootstraps' s s'
  rw [← hinv, hdet] at k1
  constructor
  · have hpod : (qrPodRun env ⟨raised e obs, det + e, none, none, false, false, qs⟩ bootstraps { s with pod := none }).2.pod = some f := by
      rw [← hf]
      unfold qrPodRun
      dsimp only
      rw [hrun]
      simp only [podRun, Bool.false_eq_true, if_false, h1, h2, Option.getD_some]
      cases sampleMax ((raised e obs).map Prod.fst) with
      | error er => rfl
      | ok mx =>
        dsimp only
        cases qrSolveAll env.pick (env.quantReg (raised e obs)) (det + e) 0 mx qs with
        | error er => rfl
        | ok ds =>
          dsimp only
          cases qrCurve ds qs mx with
          | error er => rfl
          | ok g =>
            dsimp only
            rw [(qrBootstrap_ok env _ _ _ _ _).2.1, (qrBootstrap_ok env _ _ _ _ _).2.1]
    obtain ⟨f', hf', hv⟩ := k1 f hpod
    rw [hf']
    congr 1
    funext x
    have := hv x
    rwa [one_mul] at this
  · intro p lo hi p0 p1 hup
    have := k2 p lo hi p0 p1 hup
    rw [← hobs, one_mul, one_mul, one_mul] at this
    rw [h1, h2, Option.getD_some, this]
    cases qrDetectionSize env.pick (env.quantReg obs) det lo hi p with
    | error er => rfl
    | ok v => simp [Except.map]

/-! ## Examples -/

/-- The hypotheses of the linear case: a search that finds one, three observations with a negative signal. -/
example : ∃ env : PodEnv, OlsExact env.lin.ols ∧
    (∀ w : PodDraws, FindsOne 1000 env.lin ⟨[(1, -1), (2, 3), (3, 4)], 2, none, none, true, false, .normal⟩
      (([(1, -1), (2, 3), (3, 4)], w.starts) :: w.resamples)) ∧
    ∀ w s, (linearPodRun 1000 env ⟨[(1, -1), (2, 3), (3, 4)], 2, none, none, true, false, .normal⟩ w s).1 = .ok () := by
  refine ⟨⟨⟨fun _ _ _ => .ok 1, fun obs => (olsIntercept (fun i : Fin obs.length => (obs.get i).1) (fun i => (obs.get i).2),
     olsSlope (fun i : Fin obs.length => (obs.get i).1) (fun i => (obs.get i).2),
     linearStderr (fun i : Fin obs.length => (obs.get i).1) (fun i => (obs.get i).2)), fun _ x => ⟨x, 0⟩⟩, fun _ _ => .ok fun _ => 0⟩,
    fun obs => rfl, ?_, ?_⟩
  · intro w smp _ r h
    unfold computeLinearModel at h
    dsimp only at h
    rw [if_pos rfl] at h
    split at h
    · cases h
    · split at h
      · cases h
      · split at h
        · cases h
        · split at h
          · cases h
          · split at h
            · cases h
            · split at h
              · cases h
              · rw [← Except.ok.inj h]
  · intro w s
    have hs : boxCoxShift [-1, 3, 4] = .ok 101 := by
      simp only [boxCoxShift, sampleMin, List.foldl]
      norm_num
    simp only [linearPodRun, computeLinearModel, Bool.false_eq_true, if_false, if_true, List.map_cons, List.map_nil, hs, boxCoxSample,
      boxCoxThreshold, boxCoxTransform, linFit, podFunction]
    norm_num

end Verif.Props
