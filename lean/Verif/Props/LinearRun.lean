import Verif.Model.LinearRun
import Verif.Props.Base
import Verif.Props.CensoredFit

/-!
# C93: the linear model of a POD built from an analysis
-/

namespace Verif.Props
open Verif.Py Verif.Model

/-- The line of an analysis: the censored one when there is one. -/
def AnalysisFit.line (a : AnalysisFit) : LineFit := a.cens.getD a.unc

theorem ctr_start_independent {X K : Type} [DecidableEq K] (func : X → F K) (fmin : (X → F K) → X → FminResult X)
    (draws draws' : ℕ → X) (start : X) (h : func start ≠ .pinf) :
    computeLinearParametersCensored func fmin draws start = computeLinearParametersCensored func fmin draws' start := by
  unfold computeLinearParametersCensored
  simp only [if_neg h]

/-- The censored fit can start from the least-squares line: the likelihood of that line is not zero. -/
def GoodStart (fmax : ℝ) (env : LinEnv) (obs : List (ℝ × ℝ)) (noise sat : Option ℝ) (unc : List (ℝ × ℝ))
    (noise' sat' : Option ℝ) : Prop :=
  mleObjective unc (noiseDefects fmax obs noise) (satDefects fmax obs sat) noise' sat' (env.ols unc) ≠ .pinf

theorem linFit_analysis (env : LinEnv) (draws draws' : ℕ → ℝ × ℝ × ℝ) (censored : Bool) (unc : List (ℝ × ℝ))
    (dNoise dSat : List ℝ) (noise sat lam : Option ℝ) (an : AnalysisFit)
    (h : analysisFits env draws censored unc dNoise dSat noise sat lam = .ok an)
    (hd : draws = draws' ∨ censored = false ∨ mleObjective unc dNoise dSat noise sat (env.ols unc) ≠ .pinf) :
    linFit env draws' censored unc dNoise dSat noise sat = .ok (AnalysisFit.line an) ∧ an.obs = unc ∧ an.lambda = lam := by
  unfold analysisFits at h
  unfold linFit
  cases censored with
  | false =>
    simp only [Bool.false_eq_true, if_false, Except.ok.injEq] at h ⊢
    subst h
    exact ⟨rfl, rfl, rfl⟩
  | true =>
    simp only [if_true] at h ⊢
    have hc : censoredFit env draws (env.ols unc) unc dNoise dSat noise sat
        = censoredFit env draws' (env.ols unc) unc dNoise dSat noise sat := by
      rcases hd with rfl | h' | h'
      · rfl
      · cases h'
      · unfold censoredFit
        rw [ctr_start_independent _ _ draws draws' _ h']
    rw [hc] at h
    split at h
    · simp at h
    · rename_i fit hfit
      rw [Except.ok.injEq] at h
      subst h
      exact ⟨hfit, rfl, rfl⟩

theorem analysisFits_obs (env : LinEnv) (draws : ℕ → ℝ × ℝ × ℝ) (censored : Bool) (unc : List (ℝ × ℝ))
    (dNoise dSat : List ℝ) (noise sat lam : Option ℝ) (an : AnalysisFit)
    (h : analysisFits env draws censored unc dNoise dSat noise sat lam = .ok an) : an.obs = unc :=
  (linFit_analysis env draws draws censored unc dNoise dSat noise sat lam an h (Or.inl rfl)).2.1

theorem threshold_isSome {b : Bool} (lam shift : ℝ) (t : Option ℝ) (h : t.isSome = true → b = true) :
    boxCoxThreshold lam shift (if b then t else none) = boxCoxThreshold lam shift t := by
  cases t with
  | none => cases b <;> rfl
  | some t => rw [h rfl]; rfl

/-- **C93, restricted.**  For an analysis whose Box-Cox parameter was optimised (or without Box-Cox), a POD built from it and run on the
same data, with the same external functions, works on the same transformed observations, with the same Box-Cox parameter and the same
line (intercept, slope, standard error and residuals; the censored line when there is censoring) — provided the random starts of the
censored fit are the same or are not used. -/
theorem C93_pod_reproduces_analysis_partial (fmax : ℝ) (env : LinEnv) (draws draws' : ℕ → ℝ × ℝ × ℝ) (obs : List (ℝ × ℝ))
    (noise sat : Option ℝ) (boxCox : Bool) (an : AnalysisFit) (detection : ℝ)
    (h : analysisRun fmax env draws obs noise sat boxCox none = .ok an)
    (hd : draws = draws' ∨ noise.isSome = false ∧ sat.isSome = false ∨
      ∀ noise' sat', GoodStart fmax env obs noise sat an.obs noise' sat')
    (r : LinModelResult) (hr : podFromAnalysis fmax env draws' obs detection noise sat an = .ok r) :
    r.obs = an.obs ∧ r.fit = AnalysisFit.line an ∧ r.lambda = an.lambda := by
  have hd' : ∀ unc noise' sat', an.obs = unc → draws = draws' ∨ (noise.isSome || sat.isSome) = false ∨
      mleObjective unc (noiseDefects fmax obs noise) (satDefects fmax obs sat) noise' sat' (env.ols unc) ≠ .pinf := by
    intro unc noise' sat' hu
    rcases hd with h | ⟨h1, h2⟩ | h
    · exact Or.inl h
    · exact Or.inr (Or.inl (by rw [h1, h2]; rfl))
    · exact Or.inr (Or.inr (hu ▸ h noise' sat'))
  unfold analysisRun at h
  unfold podFromAnalysis computeLinearModel at hr
  dsimp only at h hr
  have hn : noise.isSome = true → (noise.isSome || sat.isSome) = true := fun h => by rw [h]; rfl
  have hs : sat.isSome = true → (noise.isSome || sat.isSome) = true := fun h => by rw [h]; simp
  generalize (noise.isSome || sat.isSome) = cens at *
  generalize (if cens = true then uncensoredObs fmax obs noise sat else obs) = unc at *
  cases boxCox with
  | false =>
    simp only [Bool.false_eq_true, if_false] at h
    obtain ⟨h1, h2, h3⟩ := linFit_analysis env draws draws' cens unc _ _ noise sat none an h (hd' _ _ _ (analysisFits_obs _ _ _ _ _ _ _ _ _ _ h))
    rw [h3] at hr
    simp only [Option.isSome_none, Bool.false_eq_true, if_false, h1, Except.ok.injEq] at hr
    subst hr
    exact ⟨h2.symm, rfl, h3.symm⟩
  | true =>
    simp only [if_true] at h
    cases hshift : boxCoxShift (unc.map Prod.snd) with
    | error e => rw [hshift] at h; simp at h
    | ok shift =>
      rw [hshift] at h hr
      dsimp only at h hr
      cases hb : env.boxCox (unc.map Prod.fst) (unc.map Prod.snd) shift with
      | error e => rw [hb] at h; simp at h
      | ok lam =>
        rw [hb] at h hr
        dsimp only at h hr
        cases hsig : boxCoxSample lam ((unc.map Prod.snd).map (· + shift)) with
        | error e => rw [hsig] at h; simp at h
        | ok signals =>
          rw [hsig] at h hr
          dsimp only at h hr
          rw [threshold_isSome lam shift noise hn, threshold_isSome lam shift sat hs] at hr
          cases hno : boxCoxThreshold lam shift noise with
          | error e => rw [hno] at h; simp at h
          | ok noise' =>
            rw [hno] at h hr
            dsimp only at h hr
            cases hsa : boxCoxThreshold lam shift sat with
            | error e => rw [hsa] at h; simp at h
            | ok sat' =>
              rw [hsa] at h hr
              dsimp only at h hr
              obtain ⟨h1, h2, h3⟩ := linFit_analysis env draws draws' cens _ _ _ noise' sat' (some lam) an h (hd' _ _ _ (analysisFits_obs _ _ _ _ _ _ _ _ _ _ h))
              rw [h3] at hr
              simp only [Option.isSome_some, if_true] at hr
              cases hdet : boxCoxTransform lam (detection + shift) with
              | error e => rw [hdet] at hr; simp at hr
              | ok det =>
                rw [hdet] at hr
                simp only [h1, Except.ok.injEq] at hr
                subst hr
                exact ⟨h2.symm, rfl, h3.symm⟩

/-- **C93 violated.**  When the analysis was given the Box-Cox parameter `l` and the optimiser finds another value `lam`, the POD built from this
analysis does not use `l`: it reports `lam`, its observations are transformed with `lam`. -/
theorem C93_violated (fmax : ℝ) (env : LinEnv) (draws draws' : ℕ → ℝ × ℝ × ℝ) (obs : List (ℝ × ℝ)) (noise sat : Option ℝ)
    (l lam : ℝ) (hlam : ∀ xs ys shift, env.boxCox xs ys shift = .ok lam) (an : AnalysisFit) (detection : ℝ)
    (h : analysisRun fmax env draws obs noise sat true (some l) = .ok an)
    (r : LinModelResult) (hr : podFromAnalysis fmax env draws' obs detection noise sat an = .ok r) :
    an.lambda = some l ∧ r.lambda = some lam ∧
    ∃ shift, ∃ unc : List (ℝ × ℝ), an.obs = unc.map (fun o => (o.1, boxCoxFun l (o.2 + shift))) ∧
      r.obs = unc.map fun o => (o.1, boxCoxFun lam (o.2 + shift)) := by
  unfold analysisRun at h
  unfold podFromAnalysis computeLinearModel at hr
  dsimp only at h hr
  generalize (noise.isSome || sat.isSome) = cens at *
  generalize (if cens = true then uncensoredObs fmax obs noise sat else obs) = unc at *
  simp only [if_true] at h
  have zip_lem : ∀ (l shift : ℝ) (signals : List ℝ), boxCoxSample l ((unc.map Prod.snd).map (· + shift)) = .ok signals →
      (unc.map Prod.fst).zip signals = unc.map fun o => (o.1, boxCoxFun l (o.2 + shift)) := by
    intro l shift signals hs
    rw [boxCoxSample] at hs
    split_ifs at hs
    rw [Except.ok.injEq] at hs
    subst hs
    rw [List.map_map, List.map_map, List.zip_map']
    rfl
  cases hshift : boxCoxShift (unc.map Prod.snd) with
  | error e => rw [hshift] at h; simp at h
  | ok shift =>
    rw [hshift] at h hr
    dsimp only at h hr
    cases hsig : boxCoxSample l ((unc.map Prod.snd).map (· + shift)) with
    | error e => rw [hsig] at h; simp at h
    | ok signals =>
      rw [hsig] at h
      dsimp only at h
      cases hno : boxCoxThreshold l shift noise with
      | error e => rw [hno] at h; simp at h
      | ok noise' =>
        rw [hno] at h
        dsimp only at h
        cases hsa : boxCoxThreshold l shift sat with
        | error e => rw [hsa] at h; simp at h
        | ok sat' =>
          rw [hsa] at h
          dsimp only at h
          obtain ⟨-, h2, h3⟩ := linFit_analysis env draws draws cens _ _ _ noise' sat' (some l) an h (Or.inl rfl)
          rw [h3, hlam] at hr
          simp only [Option.isSome_some, if_true] at hr
          cases hsig2 : boxCoxSample lam ((unc.map Prod.snd).map (· + shift)) with
          | error e => rw [hsig2] at hr; simp at hr
          | ok signals2 =>
            rw [hsig2] at hr
            dsimp only at hr
            split at hr
            · simp at hr
            · split at hr
              · simp at hr
              · split at hr
                · simp at hr
                · split at hr
                  · simp at hr
                  · rw [Except.ok.injEq] at hr
                    subst hr
                    exact ⟨h3, rfl, shift, unc, by rw [h2, zip_lem l shift _ hsig], zip_lem lam shift _ hsig2⟩

/-- Demonstration functions: the optimiser always finds 0 (logarithm), least squares always gives the slope `n`. -/
noncomputable def demoLin : LinEnv where
  boxCox _ _ _ := .ok 0
  ols obs := (0, obs.length, 1)
  fmin _ x := ⟨x, 0⟩

theorem demoLin_shift : boxCoxShift [1, 2, (3 : ℝ)] = .ok 0 := by norm_num [boxCoxShift, sampleMin]

/-- An analysis with the parameter 1 given on the signals 1, 2, 3, and the POD built from it: the analysis works with the signals 0, 1, 2, the
POD with their logarithms. -/
example : ∃ an r, analysisRun 1000 demoLin (fun _ => (0, 0, 0)) [(1, 1), (2, 2), (3, 3)] none none true (some 1) = .ok an ∧
    podFromAnalysis 1000 demoLin (fun _ => (0, 0, 0)) [(1, 1), (2, 2), (3, 3)] 2 none none an = .ok r ∧
    an.obs = [(1, 0), (2, 1), (3, 2)] ∧ r.obs = [(1, 0), (2, Real.log 2), (3, Real.log 3)] := by
  have hsh := demoLin_shift
  have h1 : ∃ an, analysisRun 1000 demoLin (fun _ => (0, 0, 0)) [(1, 1), (2, 2), (3, 3)] none none true (some 1) = .ok an := by
    simp [analysisRun, hsh, boxCoxSample, boxCoxThreshold, analysisFits]
  obtain ⟨an, h1⟩ := h1
  have h2 : ∃ r, podFromAnalysis 1000 demoLin (fun _ => (0, 0, 0)) [(1, 1), (2, 2), (3, 3)] 2 none none an = .ok r := by
    have : an.lambda = some 1 := by
      simp [analysisRun, hsh, boxCoxSample, boxCoxThreshold, analysisFits] at h1
      rw [← h1]
    simp [podFromAnalysis, computeLinearModel, this, hsh, demoLin, boxCoxSample, boxCoxThreshold, linFit, boxCoxTransform]
  obtain ⟨r, h2⟩ := h2
  refine ⟨an, r, h1, h2, ?_, ?_⟩
  · simp [analysisRun, hsh, boxCoxSample, boxCoxThreshold, analysisFits] at h1
    rw [← h1]
    norm_num [boxCoxFun]
  · obtain ⟨hl, -, -⟩ := C93_violated 1000 demoLin _ _ _ none none 1 0 (fun _ _ _ => rfl) an 2 h1 r h2
    simp [podFromAnalysis, computeLinearModel, hl, hsh, demoLin, boxCoxSample, boxCoxThreshold, linFit, boxCoxTransform] at h2
    rw [← h2]
    simp [boxCoxFun]

/-- The hypotheses of the restricted statement, on the same data with the optimised parameter. -/
example : ∃ an r, analysisRun 1000 demoLin (fun _ => (0, 0, 0)) [(1, 1), (2, 2), (3, 3)] none none true none = .ok an ∧
    podFromAnalysis 1000 demoLin (fun _ => (1, 1, 1)) [(1, 1), (2, 2), (3, 3)] 2 none none an = .ok r ∧
    r.fit = AnalysisFit.line an ∧ r.fit.slope = 3 := by
  have hsh := demoLin_shift
  have h1 : ∃ an, analysisRun 1000 demoLin (fun _ => (0, 0, 0)) [(1, 1), (2, 2), (3, 3)] none none true none = .ok an := by
    simp [analysisRun, hsh, boxCoxSample, boxCoxThreshold, analysisFits, demoLin]
  obtain ⟨an, h1⟩ := h1
  have hl : an.lambda = some 0 ∧ an.unc.slope = 3 ∧ an.cens = none := by
    simp [analysisRun, hsh, boxCoxSample, boxCoxThreshold, analysisFits, demoLin] at h1
    rw [← h1]; simp
  have h2 : ∃ r, podFromAnalysis 1000 demoLin (fun _ => (1, 1, 1)) [(1, 1), (2, 2), (3, 3)] 2 none none an = .ok r := by
    simp [podFromAnalysis, computeLinearModel, hl.1, hsh, demoLin, boxCoxSample, boxCoxThreshold, linFit, boxCoxTransform]
  obtain ⟨r, h2⟩ := h2
  obtain ⟨-, hf, -⟩ := C93_pod_reproduces_analysis_partial 1000 demoLin _ _ _ none none true an 2 h1 (Or.inr (Or.inl ⟨rfl, rfl⟩)) r h2
  refine ⟨an, r, h1, h2, hf, ?_⟩
  rw [hf, AnalysisFit.line, hl.2.2]
  exact hl.2.1

end Verif.Props
