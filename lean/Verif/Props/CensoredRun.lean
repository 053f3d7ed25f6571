import Verif.Props.CensoredMin
import Verif.Props.Order

/-!
# C120: the censored runs maximise the likelihood of the whole data set
-/

namespace Verif.Props
open Verif.Py Verif.Model ProbabilityTheory MeasureTheory Set

open Classical in
/-- Specification: contribution of one observation `(defect, signal)` to the likelihood of the censored Gaussian regression.  A signal that
is not above the noise threshold contributes the probability of being at most that threshold, a signal that is not below the saturation
threshold the probability of being above it, any other signal its density.  `g` is the transformation of the signals. -/
noncomputable def obsLik (g : ℝ → ℝ) (noise sat : Option ℝ) (X : ℝ × ℝ × ℝ) (o : ℝ × ℝ) : ℝ :=
  if ∃ t ∈ noise, o.2 ≤ t then (gaussianReal (X.1 + X.2.1 * o.1) (sqv X.2.2)).real (Iic (g (noise.getD 0)))
  else if ∃ t ∈ sat, t ≤ o.2 then (gaussianReal (X.1 + X.2.1 * o.1) (sqv X.2.2)).real (Ioi (g (sat.getD 0)))
  else gaussianPDFReal (X.1 + X.2.1 * o.1) (sqv X.2.2) (g o.2)

/-- Likelihood of all observations. -/
noncomputable def dataLik (g : ℝ → ℝ) (noise sat : Option ℝ) (obs : List (ℝ × ℝ)) (X : ℝ × ℝ × ℝ) : ℝ :=
  (obs.map (obsLik g noise sat X)).prod

/-- The three groups of observations cover the data: the likelihood written with the groups is the product over all observations. -/
theorem dataLik_groups (fmax : ℝ) (g : ℝ → ℝ) (noise sat : Option ℝ) (obs : List (ℝ × ℝ)) (X : ℝ × ℝ × ℝ)
    (hfin : ∀ o ∈ obs, -fmax < o.2 ∧ o.2 < fmax) (hts : ∀ t ∈ noise, ∀ u ∈ sat, t < u) :
    likelihood X.1 X.2.1 X.2.2 ((uncensoredObs fmax obs noise sat).map fun o => (o.1, g o.2)) (noiseDefects fmax obs noise)
      (satDefects fmax obs sat) (g (noise.getD 0)) (g (sat.getD 0)) = dataLik g noise sat obs X := by
  induction obs with
  | nil => simp [likelihood, dataLik, uncensoredObs, noiseDefects, satDefects]
  | cons o l ih =>
    have ih' := ih fun p hp => hfin p (by simp [hp])
    obtain ⟨h1, h2⟩ := hfin o (by simp)
    rw [dataLik, List.map_cons, List.prod_cons, ← dataLik, ← ih']
    have hn : (o.2 ≤ noise.getD (-fmax)) ↔ ∃ t ∈ noise, o.2 ≤ t := by
      cases noise with
      | none => simpa using h1
      | some t => simp
    have hs : (sat.getD fmax ≤ o.2) ↔ ∃ t ∈ sat, t ≤ o.2 := by
      cases sat with
      | none => simpa using h2
      | some t => simp
    by_cases hA : ∃ t ∈ noise, o.2 ≤ t
    · have hB : ¬ ∃ t ∈ sat, t ≤ o.2 := by
        rintro ⟨u, hu, hu'⟩
        obtain ⟨t, ht, ht'⟩ := hA
        have := hts t ht u hu
        linarith
      have a1 := hn.2 hA
      have b1 : ¬ (sat.getD fmax ≤ o.2) := fun h => hB (hs.1 h)
      simp only [obsLik, hA, if_true, likelihood, uncensoredObs, noiseDefects, satDefects, List.filter_cons, a1, b1, decide_true,
        decide_false, Bool.false_eq_true, if_false, not_lt.2 a1, Bool.false_and, List.map_cons, List.prod_cons]
      ring
    · have a1 : ¬ (o.2 ≤ noise.getD (-fmax)) := fun h => hA (hn.1 h)
      by_cases hB : ∃ t ∈ sat, t ≤ o.2
      · have b1 := hs.2 hB
        simp only [obsLik, hA, hB, if_true, likelihood, uncensoredObs, noiseDefects, satDefects, List.filter_cons, a1, b1, decide_true,
          decide_false, Bool.false_eq_true, if_false, not_lt.2 b1, Bool.and_false, List.map_cons, List.prod_cons]
        ring
      · have b1 : ¬ (sat.getD fmax ≤ o.2) := fun h => hB (hs.1 h)
        simp only [obsLik, hA, hB, likelihood, uncensoredObs, noiseDefects, satDefects, List.filter_cons, a1, b1, decide_true,
          decide_false, Bool.false_eq_true, if_false, if_true, not_le.1 a1, not_le.1 b1, Bool.and_self, List.map_cons, List.prod_cons]
        ring

/-- With no threshold of a kind there is no observation of that kind. -/
theorem MLE_thresholds (fmax : ℝ) (noise sat : Option ℝ) (g : ℝ → ℝ) (obs : List (ℝ × ℝ))
    (hfin : ∀ o ∈ obs, -fmax < o.2 ∧ o.2 < fmax) (X : ℝ × ℝ × ℝ) (d y : List ℝ) :
    MLE X d (noiseDefects fmax obs noise) (satDefects fmax obs sat) y (noise.map g) (sat.map g)
      = MLE X d (noiseDefects fmax obs noise) (satDefects fmax obs sat) y (some (g (noise.getD 0))) (some (g (sat.getD 0))) := by
  have hn : noise = none → noiseDefects fmax obs noise = [] := by
    rintro rfl
    rw [noiseDefects, List.map_eq_nil_iff, List.filter_eq_nil_iff]
    intro o ho
    simpa using (hfin o ho).1
  have hs : sat = none → satDefects fmax obs sat = [] := by
    rintro rfl
    rw [satDefects, List.map_eq_nil_iff, List.filter_eq_nil_iff]
    intro o ho
    simpa using (hfin o ho).2
  have e1 : MLE X d (noiseDefects fmax obs noise) (satDefects fmax obs sat) y (noise.map g) (sat.map g)
      = MLE X d (noiseDefects fmax obs noise) (satDefects fmax obs sat) y (some (g (noise.getD 0))) (sat.map g) := by
    cases noise with
    | some t => rfl
    | none => rw [hn rfl]; exact (C06_MLE_none X d [] _ y _).2.2.1 _
  rw [e1]
  cases sat with
  | some t => rfl
  | none => rw [hs rfl]; exact (C06_MLE_none X d _ [] y _).2.2.2 _

/-- The minimiser of an exact optimiser maximises the likelihood. -/
theorem censoredFit_max (env : LinEnv) (henv : ExactFit env) (draws : ℕ → ℝ × ℝ × ℝ) (start : ℝ × ℝ × ℝ) (unc : List (ℝ × ℝ))
    (dNoise dSat : List ℝ) (noise' sat' : Option ℝ) (tn ts : ℝ)
    (hM : ∀ X, MLE X (unc.map Prod.fst) dNoise dSat (unc.map Prod.snd) noise' sat'
      = MLE X (unc.map Prod.fst) dNoise dSat (unc.map Prod.snd) (some tn) (some ts))
    (hx : ∃ o ∈ unc, ∃ o' ∈ unc, o.1 ≠ o'.1) (hline : ¬ ∃ b0 b1 : ℝ, ∀ o ∈ unc, o.2 = b0 + b1 * o.1)
    (fit : LineFit) (h : censoredFit env draws start unc dNoise dSat noise' sat' = .ok fit) :
    0 < fit.stderr ∧ ∀ b0 b1 s, 0 < s → likelihood b0 b1 s unc dNoise dSat tn ts
      ≤ likelihood fit.intercept fit.slope fit.stderr unc dNoise dSat tn ts := by
  set obj := mleObjective unc dNoise dSat noise' sat' with hobjdef
  have hobj : ∀ X, MLE X (unc.map Prod.fst) dNoise dSat (unc.map Prod.snd) (some tn) (some ts) = .ok (obj X) := by
    intro X
    rw [hobjdef, mleObjective, hM X]
    by_cases hs : 0 < X.2.2
    · rw [MLE_eq_nll _ _ _ _ _ _ hs]
    · obtain ⟨b0, b1, s⟩ := X
      rw [C06_MLE_nonpos_scale b0 b1 s tn ts (not_lt.1 hs)]
  unfold censoredFit at h
  rw [hM start, hobj start] at h
  dsimp only at h
  cases hr : (computeLinearParametersCensored obj env.fmin draws start).result with
  | error e => rw [hr] at h; cases h
  | ok p =>
    obtain ⟨x, w⟩ := p
    rw [hr, Except.ok.injEq] at h
    obtain ⟨-, hno, hyes⟩ := C05_start_search_iff_partial obj env.fmin draws start
    obtain ⟨x0, -, -, hx0⟩ := hyes (by rw [hr]; rintro ⟨m, hm⟩; cases hm)
    rw [hr, Except.ok.injEq, Prod.mk.injEq] at hx0
    obtain ⟨X, v, hXs, hXv, hXmin⟩ := C115_minimum unc dNoise dSat tn ts hx hline
    have hmin : ∀ Y, F.le (obj X) (obj Y) = true := by
      intro Y
      obtain ⟨w', hw', hle⟩ := hXmin Y
      rw [hobj X, Except.ok.injEq] at hXv
      rw [hobj Y, Except.ok.injEq] at hw'
      rw [hXv, hw']; exact hle
    have hbest : ∀ Y, F.le (obj x) (obj Y) = true := by
      intro Y
      rw [hx0.1]
      exact henv.fmin obj x0 ⟨X, hmin⟩ Y
    have hpos : 0 < x.2.2 := by
      by_contra hs
      have h1 := hobj x
      obtain ⟨b0, b1, s⟩ := x
      rw [C06_MLE_nonpos_scale b0 b1 s tn ts (not_lt.1 hs), Except.ok.injEq] at h1
      have h2 := hobj X
      rw [MLE_eq_nll _ _ _ _ _ _ hXs, Except.ok.injEq] at h2
      have h3 := hbest X
      rw [← h1, ← h2] at h3
      cases h3
    rw [← h]
    refine ⟨hpos, fun b0 b1 s hs => ?_⟩
    obtain ⟨m, hm, hml, -⟩ := C06_MLE_is_neg_log_likelihood b0 b1 s tn ts hs unc dNoise dSat
    obtain ⟨m', hm', hml', -⟩ := C06_MLE_is_neg_log_likelihood x.1 x.2.1 x.2.2 tn ts hpos unc dNoise dSat
    dsimp only
    rw [← hml, ← hml']
    have h4 := hbest (b0, b1, s)
    rw [hobj (b0, b1, s), Except.ok.injEq] at hm
    have hm'' := hobj x
    rw [show x = (x.1, x.2.1, x.2.2) from rfl, hm', Except.ok.injEq] at hm''
    rw [hm, show x = (x.1, x.2.1, x.2.2) from rfl, ← hm'', F.le_fin, decide_eq_true_eq] at h4
    exact Real.exp_le_exp.2 (by linarith)

open Classical in
/-- The observations strictly between the given thresholds, with transformed signals. -/
noncomputable def keptObs (g : ℝ → ℝ) (noise sat : Option ℝ) (obs : List (ℝ × ℝ)) : List (ℝ × ℝ) :=
  (obs.filter fun o => decide ((∀ t ∈ noise, t < o.2) ∧ ∀ t ∈ sat, o.2 < t)).map fun o => (o.1, g o.2)

theorem keptObs_eq (fmax : ℝ) (g : ℝ → ℝ) (noise sat : Option ℝ) (obs : List (ℝ × ℝ))
    (hfin : ∀ o ∈ obs, -fmax < o.2 ∧ o.2 < fmax) :
    (uncensoredObs fmax obs noise sat).map (fun o => (o.1, g o.2)) = keptObs g noise sat obs := by
  rw [keptObs, uncensoredObs]
  congr 1
  apply List.filter_congr
  intro o ho
  obtain ⟨h1, h2⟩ := hfin o ho
  cases noise <;> cases sat <;> simp [h1, h2]

/-- The transformation of the signals in a run: none without Box-Cox, the Box-Cox function of the parameter after a shift otherwise. -/
def RunTransform (boxCox : Bool) (lambda : Option ℝ) (g : ℝ → ℝ) : Prop :=
  (boxCox = false → lambda = none ∧ g = id) ∧
  (boxCox = true → ∃ lam shift, lambda = some lam ∧ g = fun s => boxCoxFun lam (s + shift))

theorem boxCoxThreshold_map (lam shift : ℝ) (t t' : Option ℝ) (h : boxCoxThreshold lam shift t = .ok t') :
    t' = t.map fun s => boxCoxFun lam (s + shift) := by
  cases t with
  | none => simp only [boxCoxThreshold, Except.ok.injEq] at h; rw [← h]; rfl
  | some t =>
    rw [boxCoxThreshold, boxCoxTransform] at h
    split_ifs at h with hp
    simp only [Except.ok.injEq] at h; rw [← h]; rfl

theorem boxCoxSample_zip (lam shift : ℝ) (unc : List (ℝ × ℝ)) (ys : List ℝ)
    (h : boxCoxSample lam ((unc.map Prod.snd).map (· + shift)) = .ok ys) :
    (unc.map Prod.fst).zip ys = unc.map fun o => (o.1, boxCoxFun lam (o.2 + shift)) := by
  rw [boxCoxSample] at h
  split_ifs at h with hp
  rw [Except.ok.injEq] at h
  rw [← h, List.map_map, List.map_map, List.zip_map']
  rfl

/-- Shape of a run of the POD class. -/
theorem podRun_shape (fmax : ℝ) (env : LinEnv) (draws : ℕ → ℝ × ℝ × ℝ) (obs : List (ℝ × ℝ)) (det : ℝ) (noise sat : Option ℝ)
    (boxCox censored : Bool) (r : LinModelResult) (h : computeLinearModel fmax env draws obs det noise sat boxCox censored = .ok r) :
    ∃ g, RunTransform boxCox r.lambda g ∧ r.detection = g det ∧
      r.obs = (if censored then uncensoredObs fmax obs noise sat else obs).map (fun o => (o.1, g o.2)) ∧
      linFit env draws censored r.obs (noiseDefects fmax obs noise) (satDefects fmax obs sat)
        ((if censored || !boxCox then noise else none).map g) ((if censored || !boxCox then sat else none).map g) = .ok r.fit := by
  unfold computeLinearModel at h
  dsimp only at h
  generalize (if censored = true then uncensoredObs fmax obs noise sat else obs) = unc at *
  cases boxCox with
  | false =>
    simp only [Bool.false_eq_true, if_false] at h
    cases hl : linFit env draws censored unc (noiseDefects fmax obs noise) (satDefects fmax obs sat) noise sat with
    | error e => rw [hl] at h; cases h
    | ok fit =>
      rw [hl, Except.ok.injEq] at h
      subst h
      refine ⟨id, ⟨fun _ => ⟨rfl, rfl⟩, by simp⟩, rfl, by simp, ?_⟩
      simpa using hl
  | true =>
    simp only [if_true] at h
    cases h1 : boxCoxShift (unc.map Prod.snd) with
    | error e => rw [h1] at h; cases h
    | ok shift =>
      rw [h1] at h; dsimp only at h
      cases h2 : env.boxCox (unc.map Prod.fst) (unc.map Prod.snd) shift with
      | error e => rw [h2] at h; cases h
      | ok lam =>
        rw [h2] at h; dsimp only at h
        cases h3 : boxCoxSample lam ((unc.map Prod.snd).map (· + shift)) with
        | error e => rw [h3] at h; cases h
        | ok ys =>
          rw [h3] at h; dsimp only at h
          cases h4 : boxCoxThreshold lam shift (if censored = true then noise else none) with
          | error e => rw [h4] at h; cases h
          | ok noise' =>
            rw [h4] at h; dsimp only at h
            cases h5 : boxCoxThreshold lam shift (if censored = true then sat else none) with
            | error e => rw [h5] at h; cases h
            | ok sat' =>
              rw [h5] at h; dsimp only at h
              cases h6 : boxCoxTransform lam (det + shift) with
              | error e => rw [h6] at h; cases h
              | ok d =>
                rw [h6] at h; dsimp only at h
                cases hl : linFit env draws censored ((unc.map Prod.fst).zip ys) (noiseDefects fmax obs noise)
                    (satDefects fmax obs sat) noise' sat' with
                | error e => rw [hl] at h; cases h
                | ok fit =>
                  rw [hl, Except.ok.injEq] at h
                  subst h
                  refine ⟨fun s => boxCoxFun lam (s + shift), ⟨by simp, fun _ => ⟨lam, shift, rfl, rfl⟩⟩, ?_,
                    boxCoxSample_zip lam shift unc ys h3, ?_⟩
                  · rw [boxCoxTransform] at h6
                    split_ifs at h6
                    rw [Except.ok.injEq] at h6
                    exact h6.symm
                  · rw [boxCoxThreshold_map _ _ _ _ h4, boxCoxThreshold_map _ _ _ _ h5] at hl
                    simpa using hl

/-- Shape of a run of the analysis. -/
theorem analysisRun_shape (fmax : ℝ) (env : LinEnv) (draws : ℕ → ℝ × ℝ × ℝ) (obs : List (ℝ × ℝ)) (noise sat : Option ℝ)
    (boxCox : Bool) (userLambda : Option ℝ) (an : AnalysisFit)
    (h : analysisRun fmax env draws obs noise sat boxCox userLambda = .ok an) :
    ∃ g, RunTransform boxCox an.lambda g ∧
      an.obs = (if (noise.isSome || sat.isSome) then uncensoredObs fmax obs noise sat else obs).map (fun o => (o.1, g o.2)) ∧
      analysisFits env draws (noise.isSome || sat.isSome) an.obs (noiseDefects fmax obs noise) (satDefects fmax obs sat)
        (noise.map g) (sat.map g) an.lambda = .ok an := by
  unfold analysisRun at h
  dsimp only at h
  generalize hc : (noise.isSome || sat.isSome) = cens at *
  generalize (if cens = true then uncensoredObs fmax obs noise sat else obs) = unc at *
  cases boxCox with
  | false =>
    simp only [Bool.false_eq_true, if_false] at h
    obtain ⟨-, ho, hl⟩ := linFit_analysis env draws draws cens unc _ _ noise sat none an h (Or.inl rfl)
    exact ⟨id, ⟨fun _ => ⟨hl, rfl⟩, by simp⟩, by simpa using ho, by rw [ho, hl]; simpa using h⟩
  | true =>
    simp only [if_true] at h
    cases h1 : boxCoxShift (unc.map Prod.snd) with
    | error e => rw [h1] at h; cases h
    | ok shift =>
      rw [h1] at h; dsimp only at h
      have key : ∀ q : Res ℝ, (match q with
          | .error e => .error e
          | .ok lam =>
            match boxCoxSample lam ((unc.map Prod.snd).map (· + shift)) with
            | .error e => .error e
            | .ok signals =>
              match boxCoxThreshold lam shift noise with
              | .error e => .error e
              | .ok noise' =>
                match boxCoxThreshold lam shift sat with
                | .error e => .error e
                | .ok sat' =>
                  analysisFits env draws cens ((unc.map Prod.fst).zip signals) (noiseDefects fmax obs noise)
                    (satDefects fmax obs sat) noise' sat' (some lam) : Res AnalysisFit) = .ok an →
          ∃ g, RunTransform true an.lambda g ∧ an.obs = unc.map (fun o => (o.1, g o.2)) ∧
            analysisFits env draws cens an.obs (noiseDefects fmax obs noise) (satDefects fmax obs sat)
              (noise.map g) (sat.map g) an.lambda = .ok an := by
        intro q h
        cases q with
        | error e => cases h
        | ok lam =>
          dsimp only at h
          cases h3 : boxCoxSample lam ((unc.map Prod.snd).map (· + shift)) with
          | error e => rw [h3] at h; cases h
          | ok ys =>
            rw [h3] at h; dsimp only at h
            cases h4 : boxCoxThreshold lam shift noise with
            | error e => rw [h4] at h; cases h
            | ok noise' =>
              rw [h4] at h; dsimp only at h
              cases h5 : boxCoxThreshold lam shift sat with
              | error e => rw [h5] at h; cases h
              | ok sat' =>
                rw [h5] at h; dsimp only at h
                obtain ⟨-, ho, hl⟩ := linFit_analysis env draws draws cens _ _ _ _ _ _ an h (Or.inl rfl)
                refine ⟨fun s => boxCoxFun lam (s + shift), ⟨by simp, fun _ => ⟨lam, shift, hl, rfl⟩⟩,
                  ho.trans (boxCoxSample_zip lam shift unc ys h3), ?_⟩
                rw [ho, hl]
                rw [boxCoxThreshold_map _ _ _ _ h4, boxCoxThreshold_map _ _ _ _ h5] at h
                exact h
      cases userLambda with
      | none => exact key _ h
      | some l => exact key (.ok l) h

/-- The residuals of a fit are the differences between signals and line. -/
def ResidualsOf (fit : LineFit) (obs : List (ℝ × ℝ)) : Prop :=
  List.Forall₂ (fun o e => o.2 = fit.intercept + fit.slope * o.1 + e) obs fit.residuals

theorem lineResiduals_of (b0 b1 s : ℝ) (obs : List (ℝ × ℝ)) : ResidualsOf ⟨b0, b1, s, lineResiduals b0 b1 obs⟩ obs := by
  unfold ResidualsOf lineResiduals
  induction obs with
  | nil => exact List.Forall₂.nil
  | cons o l ih => exact List.Forall₂.cons (by dsimp only; ring) ih

theorem censoredFit_residuals (env : LinEnv) (draws : ℕ → ℝ × ℝ × ℝ) (start : ℝ × ℝ × ℝ) (unc : List (ℝ × ℝ))
    (dNoise dSat : List ℝ) (noise sat : Option ℝ) (fit : LineFit)
    (h : censoredFit env draws start unc dNoise dSat noise sat = .ok fit) : ResidualsOf fit unc := by
  unfold censoredFit at h
  cases h1 : MLE start (unc.map Prod.fst) dNoise dSat (unc.map Prod.snd) noise sat with
  | error e => rw [h1] at h; cases h
  | ok v =>
    rw [h1] at h
    dsimp only at h
    cases h2 : (computeLinearParametersCensored (mleObjective unc dNoise dSat noise sat) env.fmin draws start).result with
    | error e => rw [h2] at h; cases h
    | ok p =>
      obtain ⟨x, w⟩ := p
      rw [h2, Except.ok.injEq] at h
      rw [← h]
      exact lineResiduals_of _ _ _ _

/-- `(b0, b1, s)` of a fit maximises the likelihood of the data set. -/
def MaxLik (g : ℝ → ℝ) (noise sat : Option ℝ) (obs : List (ℝ × ℝ)) (fit : LineFit) : Prop :=
  0 < fit.stderr ∧ ∀ b0 b1 s, 0 < s →
    dataLik g noise sat obs (b0, b1, s) ≤ dataLik g noise sat obs (fit.intercept, fit.slope, fit.stderr)

theorem censoredFit_maxLik (fmax : ℝ) (env : LinEnv) (henv : ExactFit env) (draws : ℕ → ℝ × ℝ × ℝ) (start : ℝ × ℝ × ℝ)
    (g : ℝ → ℝ) (noise sat : Option ℝ) (obs : List (ℝ × ℝ)) (hfin : ∀ o ∈ obs, -fmax < o.2 ∧ o.2 < fmax)
    (hts : ∀ t ∈ noise, ∀ u ∈ sat, t < u)
    (hx : ∃ o ∈ keptObs g noise sat obs, ∃ o' ∈ keptObs g noise sat obs, o.1 ≠ o'.1)
    (hline : ¬ ∃ b0 b1 : ℝ, ∀ o ∈ keptObs g noise sat obs, o.2 = b0 + b1 * o.1) (fit : LineFit)
    (h : censoredFit env draws start (keptObs g noise sat obs) (noiseDefects fmax obs noise) (satDefects fmax obs sat)
      (noise.map g) (sat.map g) = .ok fit) : MaxLik g noise sat obs fit := by
  obtain ⟨h1, h2⟩ := censoredFit_max env henv draws start _ _ _ _ _ (g (noise.getD 0)) (g (sat.getD 0))
    (fun X => MLE_thresholds fmax noise sat g obs hfin X _ _) hx hline fit h
  refine ⟨h1, fun b0 b1 s hs => ?_⟩
  have := h2 b0 b1 s hs
  rw [← keptObs_eq fmax g noise sat obs hfin] at this
  rw [← dataLik_groups fmax g noise sat obs (b0, b1, s) hfin hts, ← dataLik_groups fmax g noise sat obs _ hfin hts]
  exact this

/-- **C120, POD class.**  A run with censoring works on the observations strictly between the thresholds (transformed when Box-Cox is
enabled), its residuals are those of the returned line on them, its detection threshold is transformed in the same way, and its
intercept, slope and standard error maximise the likelihood of the **whole** data set: every censored observation counts once, on
the right side. -/
theorem C120_pod (fmax : ℝ) (env : LinEnv) (henv : ExactFit env) (draws : ℕ → ℝ × ℝ × ℝ) (obs : List (ℝ × ℝ)) (det : ℝ)
    (noise sat : Option ℝ) (boxCox : Bool) (hfin : ∀ o ∈ obs, -fmax < o.2 ∧ o.2 < fmax)
    (hts : ∀ t ∈ noise, ∀ u ∈ sat, t < u) (r : LinModelResult)
    (h : computeLinearModel fmax env draws obs det noise sat boxCox true = .ok r) :
    ∃ g, RunTransform boxCox r.lambda g ∧ r.detection = g det ∧ r.obs = keptObs g noise sat obs ∧ ResidualsOf r.fit r.obs ∧
      ((∃ o ∈ r.obs, ∃ o' ∈ r.obs, o.1 ≠ o'.1) → (¬ ∃ b0 b1 : ℝ, ∀ o ∈ r.obs, o.2 = b0 + b1 * o.1) →
        MaxLik g noise sat obs r.fit) := by
  obtain ⟨g, hg, hd, ho, hf⟩ := podRun_shape fmax env draws obs det noise sat boxCox true r h
  simp only [if_true, Bool.true_or] at ho hf
  rw [keptObs_eq fmax g noise sat obs hfin] at ho
  rw [linFit, if_pos rfl] at hf
  refine ⟨g, hg, hd, ho, censoredFit_residuals _ _ _ _ _ _ _ _ _ hf, fun hx hline => ?_⟩
  rw [ho] at hx hline hf
  exact censoredFit_maxLik fmax env henv draws _ g noise sat obs hfin hts hx hline _ hf

/-- **C120, POD class without censoring.**  All observations are kept; the line is their least squares line, whatever the thresholds. -/
theorem C120_pod_uncensored (fmax : ℝ) (env : LinEnv) (henv : ExactFit env) (draws : ℕ → ℝ × ℝ × ℝ) (obs : List (ℝ × ℝ)) (det : ℝ)
    (noise sat : Option ℝ) (boxCox : Bool) (r : LinModelResult)
    (h : computeLinearModel fmax env draws obs det noise sat boxCox false = .ok r) :
    ∃ g, RunTransform boxCox r.lambda g ∧ r.detection = g det ∧ r.obs = obs.map (fun o => (o.1, g o.2)) ∧ ResidualsOf r.fit r.obs ∧
      ((∃ o ∈ obs, ∃ o' ∈ obs, o.1 ≠ o'.1) → ∀ b0 b1, (r.fit.residuals.map (· ^ 2)).sum ≤ listSse r.obs b0 b1) := by
  obtain ⟨g, hg, hd, ho, hf⟩ := podRun_shape fmax env draws obs det noise sat boxCox false r h
  simp only [Bool.false_eq_true, if_false] at ho
  rw [linFit, if_neg (by simp), Except.ok.injEq] at hf
  refine ⟨g, hg, hd, ho, by rw [← hf]; exact lineResiduals_of _ _ _ _, fun hx b0 b1 => ?_⟩
  have hx' : ∃ o ∈ r.obs, ∃ o' ∈ r.obs, o.1 ≠ o'.1 := by
    obtain ⟨o, h1, o', h2, h3⟩ := hx
    rw [ho]
    exact ⟨_, List.mem_map.2 ⟨o, h1, rfl⟩, _, List.mem_map.2 ⟨o', h2, rfl⟩, h3⟩
  have hols := henv.ols r.obs hx'
  have hxx : ∃ i j, (fun i : Fin r.obs.length => r.obs[i].1) i ≠ (fun i : Fin r.obs.length => r.obs[i].1) j := by
    obtain ⟨o, h1, o', h2, h3⟩ := hx'
    obtain ⟨i, hi, rfl⟩ := List.getElem_of_mem h1
    obtain ⟨j, hj, rfl⟩ := List.getElem_of_mem h2
    exact ⟨⟨i, hi⟩, ⟨j, hj⟩, h3⟩
  have hres : (r.fit.residuals.map (· ^ 2)).sum = listSse r.obs (env.ols r.obs).1 (env.ols r.obs).2.1 := by
    rw [← hf, lineResiduals, List.map_map]; rfl
  rw [hres, hols, listSse_fin, listSse_fin]
  exact (C27_ols_optimal _ _ hxx).1 b0 b1

/-- **C120, success.**  Without Box-Cox a censored run succeeds as soon as at least three observations are kept, not all at one size and not on
one line: least squares gives a start with a finite objective. -/
theorem C120_succeeds (fmax : ℝ) (env : LinEnv) (henv : ExactFit env) (draws : ℕ → ℝ × ℝ × ℝ) (obs : List (ℝ × ℝ)) (det : ℝ)
    (noise sat : Option ℝ) (hfin : ∀ o ∈ obs, -fmax < o.2 ∧ o.2 < fmax)
    (hx : ∃ o ∈ keptObs id noise sat obs, ∃ o' ∈ keptObs id noise sat obs, o.1 ≠ o'.1)
    (hline : ¬ ∃ b0 b1 : ℝ, ∀ o ∈ keptObs id noise sat obs, o.2 = b0 + b1 * o.1) (hn : 3 ≤ (keptObs id noise sat obs).length) :
    ∃ r, computeLinearModel fmax env draws obs det noise sat false true = .ok r := by
  have hk : uncensoredObs fmax obs noise sat = keptObs id noise sat obs := by
    rw [← keptObs_eq fmax id noise sat obs hfin]; simp
  have hols := henv.ols _ hx
  set unc := keptObs id noise sat obs with hunc
  set x : Fin unc.length → ℝ := fun i => unc[i].1
  set y : Fin unc.length → ℝ := fun i => unc[i].2
  have hst : 0 < linearStderr x y := by
    have hR : 0 < sse x y (olsIntercept x y) (olsSlope x y) := by
      obtain ⟨s0, hs0, h⟩ := listSse_pos unc hx hline
      have := h (olsIntercept x y) (olsSlope x y)
      rw [listSse_fin] at this
      linarith
    have hn3 : (3 : ℝ) ≤ unc.length := by exact_mod_cast hn
    have e : linearStderr x y = Real.sqrt (sse x y (olsIntercept x y) (olsSlope x y) / (unc.length - 2)) := by
      rw [linearStderr, linearScale]; rfl
    rw [e]; exact Real.sqrt_pos.2 (div_pos hR (by linarith))
  have hs : 0 < (env.ols unc).2.2 := by rw [hols]; exact hst
  have hmle : MLE (env.ols unc) (unc.map Prod.fst) (noiseDefects fmax obs noise) (satDefects fmax obs sat) (unc.map Prod.snd)
      noise sat = .ok (.fin (nll unc (noiseDefects fmax obs noise) (satDefects fmax obs sat) (noise.getD 0) (sat.getD 0)
        (env.ols unc))) := by
    have := MLE_thresholds fmax noise sat id obs hfin (env.ols unc) (unc.map Prod.fst) (unc.map Prod.snd)
    simp only [Option.map_id, id_eq] at this
    rw [this, MLE_eq_nll _ _ _ _ _ _ hs]
  have hstart : mleObjective unc (noiseDefects fmax obs noise) (satDefects fmax obs sat) noise sat (env.ols unc) ≠ .pinf := by
    rw [mleObjective, hmle]
    intro h; cases h
  simp only [computeLinearModel, if_true, hk, Bool.false_eq_true, if_false, linFit, censoredFit, hmle,
    computeLinearParametersCensored, hstart]
  exact ⟨_, rfl⟩

/-- Five observations, one in the noise and one saturated (both at the thresholds). -/
def demoCensored : List (ℝ × ℝ) := [(0, 1), (1, 2), (2, 4), (3, 3), (4, 5)]

theorem demoCensored_kept : keptObs id (some 1) (some 5) demoCensored = [(1, 2), (2, 4), (3, 3)] := by
  norm_num [keptObs, demoCensored, List.filter_cons]

theorem demoCensored_line : ¬ ∃ b0 b1 : ℝ, ∀ o ∈ ([(1, 2), (2, 4), (3, 3)] : List (ℝ × ℝ)), o.2 = b0 + b1 * o.1 := by
  rintro ⟨b0, b1, h⟩
  have h1 := h (1, 2) (by simp)
  have h2 := h (2, 4) (by simp)
  have h3 := h (3, 3) (by simp)
  norm_num at h1 h2 h3
  linarith

/-- The likelihood of the example has two factors for the observations at the thresholds. -/
example (b0 b1 s : ℝ) : dataLik id (some 1) (some 5) demoCensored (b0, b1, s)
    = (gaussianReal (b0 + b1 * 0) (sqv s)).real (Iic 1) * (gaussianPDFReal (b0 + b1 * 1) (sqv s) 2 *
      (gaussianPDFReal (b0 + b1 * 2) (sqv s) 4 * (gaussianPDFReal (b0 + b1 * 3) (sqv s) 3 *
        (gaussianReal (b0 + b1 * 4) (sqv s)).real (Ioi 5)))) := by
  norm_num [dataLik, demoCensored, obsLik]

/-- The hypotheses of C120 on the example: the run succeeds, and its parameters maximise that likelihood. -/
example (draws : ℕ → ℝ × ℝ × ℝ) : ∃ env r, ExactFit env ∧
    computeLinearModel 1000 env draws demoCensored 3 (some 1) (some 5) false true = .ok r ∧
    MaxLik id (some 1) (some 5) demoCensored r.fit := by
  obtain ⟨env, henv⟩ := exactFit_exists
  have hfin : ∀ o ∈ demoCensored, -(1000 : ℝ) < o.2 ∧ o.2 < 1000 := by norm_num [demoCensored]
  have hx : ∃ o ∈ keptObs id (some 1) (some 5) demoCensored, ∃ o' ∈ keptObs id (some 1) (some 5) demoCensored, o.1 ≠ o'.1 := by
    rw [demoCensored_kept]; exact ⟨(1, 2), by simp, (2, 4), by simp, by norm_num⟩
  have hl := demoCensored_line
  rw [← demoCensored_kept] at hl
  obtain ⟨r, hr⟩ := C120_succeeds 1000 env henv draws demoCensored 3 (some 1) (some 5) hfin hx hl
    (by rw [demoCensored_kept]; simp)
  obtain ⟨g, hg, -, ho, -, hm⟩ := C120_pod 1000 env henv draws demoCensored 3 (some 1) (some 5) false hfin
    (by norm_num) r hr
  obtain ⟨-, rfl⟩ := hg.1 rfl
  exact ⟨env, r, henv, hr, hm (by rw [ho]; exact hx) (by rw [ho]; exact hl)⟩

/-- **C120, analysis.**  The analysis keeps two fits on the observations strictly between the thresholds.  The uncensored one is the one an
analysis of these observations without thresholds would give; the censored one exists exactly when a threshold was given, and
maximises the likelihood of the whole data set.  The residuals of each fit are those of its own line. -/
theorem C120_analysis (fmax : ℝ) (env : LinEnv) (henv : ExactFit env) (draws draws' : ℕ → ℝ × ℝ × ℝ) (obs : List (ℝ × ℝ))
    (noise sat : Option ℝ) (boxCox : Bool) (userLambda : Option ℝ) (hfin : ∀ o ∈ obs, -fmax < o.2 ∧ o.2 < fmax)
    (hts : ∀ t ∈ noise, ∀ u ∈ sat, t < u) (an : AnalysisFit)
    (h : analysisRun fmax env draws obs noise sat boxCox userLambda = .ok an) :
    ∃ g, RunTransform boxCox an.lambda g ∧ an.obs = keptObs g noise sat obs ∧ ResidualsOf an.unc an.obs ∧
      (∃ an', analysisRun fmax env draws' an.obs none none false none = .ok an' ∧ an'.unc = an.unc ∧ an'.cens = none) ∧
      (an.cens.isSome ↔ noise.isSome ∨ sat.isSome) ∧
      ∀ fit ∈ an.cens, ResidualsOf fit an.obs ∧
        ((∃ o ∈ an.obs, ∃ o' ∈ an.obs, o.1 ≠ o'.1) → (¬ ∃ b0 b1 : ℝ, ∀ o ∈ an.obs, o.2 = b0 + b1 * o.1) →
          MaxLik g noise sat obs fit) := by
  obtain ⟨g, hg, ho, hf⟩ := analysisRun_shape fmax env draws obs noise sat boxCox userLambda an h
  have ho' : an.obs = keptObs g noise sat obs := by
    rw [ho, ← keptObs_eq fmax g noise sat obs hfin]
    cases noise <;> cases sat <;> simp
    rw [uncensoredObs, List.filter_eq_self.2]
    intro o ho
    simpa using hfin o ho
  have hrun : analysisRun fmax env draws' an.obs none none false none = .ok ⟨an.obs, ⟨(env.ols an.obs).1, (env.ols an.obs).2.1,
      (env.ols an.obs).2.2, lineResiduals (env.ols an.obs).1 (env.ols an.obs).2.1 an.obs⟩, none, none⟩ := by
    simp [analysisRun, analysisFits]
  unfold analysisFits at hf
  dsimp only at hf
  by_cases hc : (noise.isSome || sat.isSome) = true
  · rw [if_pos hc] at hf
    cases hfit : censoredFit env draws (env.ols an.obs) an.obs (noiseDefects fmax obs noise) (satDefects fmax obs sat)
        (noise.map g) (sat.map g) with
    | error e => rw [hfit] at hf; cases hf
    | ok fit =>
      rw [hfit, Except.ok.injEq] at hf
      have hu : an.unc = ⟨(env.ols an.obs).1, (env.ols an.obs).2.1,
        (env.ols an.obs).2.2, lineResiduals (env.ols an.obs).1 (env.ols an.obs).2.1 an.obs⟩ := by rw [← hf]
      have hcens : an.cens = some fit := by rw [← hf]
      refine ⟨g, hg, ho', by rw [hu]; exact lineResiduals_of _ _ _ _, ⟨_, hrun, hu.symm, rfl⟩, ?_, ?_⟩
      · rw [hcens]; simpa using hc
      · intro fit' hfit'
        rw [hcens, Option.mem_some_iff] at hfit'
        subst hfit'
        refine ⟨censoredFit_residuals _ _ _ _ _ _ _ _ _ hfit, fun hx hline => ?_⟩
        rw [ho'] at hx hline hfit
        exact censoredFit_maxLik fmax env henv draws _ g noise sat obs hfin hts hx hline _ hfit
  · rw [if_neg hc, Except.ok.injEq] at hf
    have hu : an.unc = ⟨(env.ols an.obs).1, (env.ols an.obs).2.1,
      (env.ols an.obs).2.2, lineResiduals (env.ols an.obs).1 (env.ols an.obs).2.1 an.obs⟩ := by rw [← hf]
    have hcens : an.cens = none := by rw [← hf]
    refine ⟨g, hg, ho', by rw [hu]; exact lineResiduals_of _ _ _ _, ⟨_, hrun, hu.symm, rfl⟩, ?_, ?_⟩
    · rw [hcens]; simpa using hc
    · rw [hcens]; rintro fit hfit; cases hfit

/-- Without Box-Cox the analysis succeeds exactly when the POD run with censoring does. -/
theorem analysis_of_pod (fmax : ℝ) (env : LinEnv) (draws : ℕ → ℝ × ℝ × ℝ) (obs : List (ℝ × ℝ)) (det t : ℝ) (sat : Option ℝ)
    (r : LinModelResult) (h : computeLinearModel fmax env draws obs det (some t) sat false true = .ok r) :
    ∃ an, analysisRun fmax env draws obs (some t) sat false none = .ok an ∧ an.cens = some r.fit := by
  simp only [computeLinearModel, Bool.false_eq_true, if_false, if_true, linFit] at h
  cases hf : censoredFit env draws (env.ols (uncensoredObs fmax obs (some t) sat)) (uncensoredObs fmax obs (some t) sat)
      (noiseDefects fmax obs (some t)) (satDefects fmax obs sat) (some t) sat with
  | error e => rw [hf] at h; cases h
  | ok fit =>
    rw [hf, Except.ok.injEq] at h
    simp only [analysisRun, Option.isSome_some, Bool.true_or, if_true, Bool.false_eq_true, if_false, analysisFits, hf]
    exact ⟨_, rfl, by rw [← h]⟩

/-- The analysis of the example. -/
example (draws : ℕ → ℝ × ℝ × ℝ) : ∃ env an fit, ExactFit env ∧
    analysisRun 1000 env draws demoCensored (some 1) (some 5) false none = .ok an ∧ an.cens = some fit ∧
    an.obs = [(1, 2), (2, 4), (3, 3)] ∧ MaxLik id (some 1) (some 5) demoCensored fit := by
  obtain ⟨env, henv⟩ := exactFit_exists
  have hfin : ∀ o ∈ demoCensored, -(1000 : ℝ) < o.2 ∧ o.2 < 1000 := by norm_num [demoCensored]
  have hx : ∃ o ∈ keptObs id (some 1) (some 5) demoCensored, ∃ o' ∈ keptObs id (some 1) (some 5) demoCensored, o.1 ≠ o'.1 := by
    rw [demoCensored_kept]; exact ⟨(1, 2), by simp, (2, 4), by simp, by norm_num⟩
  have hl := demoCensored_line
  rw [← demoCensored_kept] at hl
  obtain ⟨r, hr⟩ := C120_succeeds 1000 env henv draws demoCensored 3 (some 1) (some 5) hfin hx hl
    (by rw [demoCensored_kept]; simp)
  obtain ⟨an, han, hc⟩ := analysis_of_pod 1000 env draws demoCensored 3 1 (some 5) r hr
  obtain ⟨g, hg, ho, -, -, -, hm⟩ := C120_analysis 1000 env henv draws draws demoCensored (some 1) (some 5) false none hfin
    (by norm_num) an han
  obtain ⟨-, rfl⟩ := hg.1 rfl
  exact ⟨env, an, r.fit, henv, han, hc, ho.trans demoCensored_kept,
    (hm r.fit (by rw [hc]; rfl)).2 (by rw [ho]; exact hx) (by rw [ho]; exact hl)⟩

/-- A run without censoring. -/
example (draws : ℕ → ℝ × ℝ × ℝ) : ∃ env r, ExactFit env ∧
    computeLinearModel 1000 env draws demoCensored 3 (some 1) none false false = .ok r ∧ r.obs = demoCensored ∧
    ∀ b0 b1, (r.fit.residuals.map (· ^ 2)).sum ≤ listSse demoCensored b0 b1 := by
  obtain ⟨env, henv⟩ := exactFit_exists
  obtain ⟨r, hr⟩ : ∃ r, computeLinearModel 1000 env draws demoCensored 3 (some 1) none false false = .ok r := by
    simp [computeLinearModel, linFit]
  obtain ⟨g, hg, -, ho, -, hm⟩ := C120_pod_uncensored 1000 env henv draws demoCensored 3 (some 1) none false r hr
  obtain ⟨-, rfl⟩ := hg.1 rfl
  have ho' : r.obs = demoCensored := by simpa using ho
  rw [ho'] at hm
  exact ⟨env, r, henv, hr, ho', hm ⟨(0, 1), by simp [demoCensored], (1, 2), by simp [demoCensored], by norm_num⟩⟩

end Verif.Props
