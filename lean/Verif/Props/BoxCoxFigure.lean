import Verif.Model.BoxCoxFigure
import Verif.Props.QuantileReg

/-!
# C207: the figure of the Box-Cox likelihood
-/

namespace Verif.Props
open Verif.Py Verif.Model

/-- The likelihood of a data set: the optimisation of the parameter on the observations that are not censored, with the automatic shift. -/
def LikelihoodOf {α G : Type} (fmax : ℝ) (bc : List α → List ℝ → ℝ → Res (ℝ × G)) (obs : List (α × ℝ)) (noise sat : Option ℝ) (cens : Bool) (lam : ℝ) (g : G) : Prop :=
  ∃ shift, boxCoxShift ((if cens then uncensoredObs fmax obs noise sat else obs).map Prod.snd) = .ok shift ∧
    bc ((if cens then uncensoredObs fmax obs noise sat else obs).map Prod.fst) ((if cens then uncensoredObs fmax obs noise sat else obs).map Prod.snd) shift = .ok (lam, g)

theorem podRun_likelihood {α G : Type} (fmax : ℝ) (bc : List α → List ℝ → ℝ → Res (ℝ × G)) (obs : List (α × ℝ)) (det noise sat : Option ℝ) (cens : Bool)
    (st st' : BoxCoxAttrs G) (r : RunResult α) (h : podRun fmax bc obs det noise sat true cens st = (.ok r, st')) :
    ∃ lam g, LikelihoodOf fmax bc obs noise sat cens lam g ∧ st' = ⟨some lam, some g⟩ ∧ r.transform = some lam := by
  unfold podRun at h
  simp only [if_true] at h
  unfold LikelihoodOf
  generalize (if cens = true then uncensoredObs fmax obs noise sat else obs) = obs' at h ⊢
  cases h1 : boxCoxShift (obs'.map Prod.snd) with
  | error e => rw [h1] at h; simp at h
  | ok shift =>
    rw [h1] at h
    dsimp only at h
    cases h2 : bc (obs'.map Prod.fst) (obs'.map Prod.snd) shift with
    | error e => rw [h2] at h; simp at h
    | ok lg =>
      obtain ⟨lam, g⟩ := lg
      rw [h2] at h
      dsimp only at h
      refine ⟨lam, g, ⟨shift, rfl, h2⟩, ?_⟩
      repeat' split at h
      all_goals simp only [Prod.mk.injEq, reduceCtorEq, false_and, Except.ok.injEq] at h
      exact ⟨h.2.symm, by rw [← h.1]⟩

/-- **C207 (restricted), metamodels.**  The constructor of a kriging, chaos or adaptive POD runs `_run`.  With `boxCox` the figure is the likelihood of the data
the POD uses, its parameter is the one reported and used; without, the documented exception is raised, whatever the object went through. -/
theorem C207_metamodel_partial {α G : Type} (fmax : ℝ) (bc : List α → List ℝ → ℝ → Res (ℝ × G)) (obs : List (α × ℝ)) (det noise sat : Option ℝ) (cens : Bool)
    (st st' : BoxCoxAttrs G) (r : RunResult α) :
    (podRun fmax bc obs det noise sat true cens st = (.ok r, st') →
      ∃ lam g, LikelihoodOf fmax bc obs noise sat cens lam g ∧ drawBoxCoxLikelihood true st' = .ok g ∧ st'.lambda = some lam ∧ r.transform = some lam) ∧
    drawBoxCoxLikelihood false st' = .error ⟨.exception, "The Box Cox transformation is not enabled."⟩ := by
  refine ⟨fun h => ?_, rfl⟩
  obtain ⟨lam, g, h1, rfl, h3⟩ := podRun_likelihood fmax bc obs det noise sat cens st st' r h
  exact ⟨lam, g, h1, rfl, rfl, h3⟩

/-- **C207 (restricted), linear POD** after a run: the likelihood of the data; a later run that fails leaves the figure of the last one that succeeded. -/
theorem C207_linear_partial {G : Type} (fmax : ℝ) (bc : List ℝ → List ℝ → ℝ → Res (ℝ × G)) (fit : RunResult ℝ → Res Unit) (obs : List (ℝ × ℝ)) (det : ℝ)
    (noise sat : Option ℝ) (cens : Bool) (st : BoxCoxAttrs G) :
    ((linearBoxCoxRun fmax bc fit obs det noise sat true cens st).1 = .ok () →
      ∃ lam g, LikelihoodOf fmax bc obs noise sat cens lam g ∧ drawBoxCoxLikelihood true (linearBoxCoxRun fmax bc fit obs det noise sat true cens st).2 = .ok g ∧
        (linearBoxCoxRun fmax bc fit obs det noise sat true cens st).2.lambda = some lam) ∧
    ((linearBoxCoxRun fmax bc fit obs det noise sat true cens st).1 ≠ .ok () → (linearBoxCoxRun fmax bc fit obs det noise sat true cens st).2 = st) := by
  unfold linearBoxCoxRun
  cases h : podRun fmax bc obs (some det) noise sat true cens ⟨none, none⟩ with
  | mk res st' =>
    cases res with
    | error e => exact ⟨fun h => by simp at h, fun _ => rfl⟩
    | ok r =>
      dsimp only
      cases hf : fit r with
      | error e => exact ⟨fun h => by simp at h, fun _ => rfl⟩
      | ok u =>
        dsimp only
        obtain ⟨lam, g, h1, rfl, -⟩ := podRun_likelihood fmax bc obs (some det) noise sat cens _ st' r h
        exact ⟨fun _ => ⟨lam, g, h1, rfl, rfl⟩, fun hn => absurd rfl hn⟩

/-- **C207 (restricted), analysis** created with `boxCox=True`. -/
theorem C207_analysis_partial {α G : Type} (bc : List α → List ℝ → ℝ → Res (ℝ × G)) (obs : List (α × ℝ)) (out : List ℝ) (st' : BoxCoxAttrs G)
    (h : analysisBoxCox bc obs true (freshBoxCox (.other true)) = (.ok out, st')) :
    ∃ lam g, LikelihoodOf 0 bc obs none none false lam g ∧ drawBoxCoxLikelihood true st' = .ok g ∧ st'.lambda = some lam := by
  unfold analysisBoxCox freshBoxCox at h
  simp only [if_true, boxCoxInit] at h
  unfold LikelihoodOf
  simp only [Bool.false_eq_true, if_false]
  cases h1 : boxCoxShift (obs.map Prod.snd) with
  | error e => rw [h1] at h; simp at h
  | ok shift =>
    rw [h1] at h
    dsimp only at h
    cases h2 : bc (obs.map Prod.fst) (obs.map Prod.snd) shift with
    | error e => rw [h2] at h; simp at h
    | ok lg =>
      obtain ⟨lam, g⟩ := lg
      rw [h2] at h
      simp only [Prod.mk.injEq] at h
      refine ⟨lam, g, ⟨shift, rfl, h2⟩, ?_⟩
      rw [← h.2]
      exact ⟨rfl, rfl⟩

/-- **C207 is violated** by the analysis with a given parameter, for every parameter and all data on which it succeeds: `AttributeError` in place of the
documented exception or of the figure. -/
theorem C207_violated {α G : Type} (bc : List α → List ℝ → ℝ → Res (ℝ × G)) (obs : List (α × ℝ)) (lam : ℝ) (out : List ℝ) (st' : BoxCoxAttrs G)
    (h : analysisBoxCox bc obs true (freshBoxCox (.float lam)) = (.ok out, st')) : Raises (drawBoxCoxLikelihood true st') .attributeError := by
  unfold analysisBoxCox freshBoxCox at h
  simp only [if_true, boxCoxInit] at h
  cases h1 : boxCoxShift (obs.map Prod.snd) with
  | error e => rw [h1] at h; simp at h
  | ok shift =>
    rw [h1] at h
    simp only [Prod.mk.injEq] at h
    rw [← h.2]
    exact ⟨_, rfl⟩

/-- … and by the linear and the quantile regression PODs before `run`. -/
theorem C207_violated_before {G : Type} (b : BoxCoxArg ℝ) (hb : (boxCoxInit b).2 = true) :
    Raises (drawBoxCoxLikelihood (boxCoxInit b).2 (freshBoxCox b : BoxCoxAttrs G)) .attributeError := by
  rw [hb]
  exact ⟨_, rfl⟩

theorem qrRun_go_graph {α G : Type} (fmax : ℝ) (bc : List α → List ℝ → ℝ → Res (ℝ × G)) (det noise sat : Option ℝ) (cens : Bool) (r r' : RunResult α)
    (bs : List (List (α × ℝ))) (st st' : BoxCoxAttrs G) (h : qrRun.go fmax bc det noise sat true cens r bs st = (.ok r', st')) (pre : List (List (α × ℝ)))
    (b : List (α × ℝ)) (hb : bs = pre ++ [b]) : ∃ lam g, LikelihoodOf fmax bc b noise sat cens lam g ∧ st' = ⟨some lam, some g⟩ := by
  induction bs generalizing st pre with
  | nil => simp at hb
  | cons c cs ih =>
    rw [qrRun.go] at h
    cases h1 : podRun fmax bc c det noise sat true cens st with
    | mk res st1 =>
      rw [h1] at h
      cases res with
      | error e => simp at h
      | ok rc =>
        dsimp only at h
        cases pre with
        | nil =>
          simp only [List.nil_append, List.cons.injEq] at hb
          obtain ⟨rfl, rfl⟩ := hb
          obtain ⟨lam, g, k1, k2, -⟩ := podRun_likelihood fmax bc c det noise sat cens st st1 rc h1
          rw [qrRun.go, Prod.mk.injEq] at h
          exact ⟨lam, g, k1, h.2 ▸ k2⟩
        | cons d pre =>
          rw [List.cons_append, List.cons.injEq] at hb
          exact ih st1 h pre hb.2

/-- **C207 is violated** by the quantile regression after a run: for all data the figure is the likelihood of the last bootstrap sample. -/
theorem C207_violated_bootstrap {α G : Type} (fmax : ℝ) (bc : List α → List ℝ → ℝ → Res (ℝ × G)) (data : List (α × ℝ)) (det noise sat : Option ℝ) (cens : Bool)
    (pre : List (List (α × ℝ))) (b : List (α × ℝ)) (st st' : BoxCoxAttrs G) (r : RunResult α)
    (h : qrRun fmax bc data det noise sat true cens (pre ++ [b]) st = (.ok r, st')) :
    ∃ lam g, LikelihoodOf fmax bc b noise sat cens lam g ∧ drawBoxCoxLikelihood true st' = .ok g := by
  rw [qrRun] at h
  cases h1 : podRun fmax bc data det noise sat true cens st with
  | mk res st1 =>
    rw [h1] at h
    cases res with
    | error e => simp at h
    | ok rd =>
      dsimp only at h
      obtain ⟨lam, g, k1, rfl⟩ := qrRun_go_graph fmax bc det noise sat cens rd r (pre ++ [b]) st1 st' h pre b rfl
      exact ⟨lam, g, k1, rfl⟩

/-- A run on the signals 1, 2, 3 whose bootstrap sample is 2, 2, 3: the figure is that of 2, 2, 3 (the graph stands for the signals it was computed from). -/
example :
    let bc : List Unit → List ℝ → ℝ → Res (ℝ × List ℝ) := fun _ s _ => .ok (1, s)
    ∃ r st', qrRun 1000 bc [((), 1), ((), 2), ((), 3)] (some 2) none none true false [[((), 2), ((), 2), ((), 3)]] ⟨none, none⟩ = (.ok r, st') ∧
      drawBoxCoxLikelihood true st' = .ok [2, 2, 3] ∧ (podRun 1000 bc [((), 1), ((), 2), ((), 3)] (some 2) none none true false ⟨none, none⟩).2.graph = some [1, 2, 3] := by
  intro bc
  have h1 : boxCoxShift [1, 2, (3 : ℝ)] = .ok 0 := by norm_num [boxCoxShift, sampleMin]
  have h2 : boxCoxShift [2, 2, (3 : ℝ)] = .ok 0 := by norm_num [boxCoxShift, sampleMin]
  refine ⟨⟨[((), boxCoxFun 1 1), ((), boxCoxFun 1 2), ((), boxCoxFun 1 3)], 0, some (boxCoxFun 1 2), some 1⟩,
    ⟨some 1, some [2, 2, 3]⟩, ?_, rfl, ?_⟩
  · simp [qrRun, qrRun.go, podRun, h1, h2, bc, boxCoxSample, boxCoxThreshold, boxCoxTransform]
  · simp [podRun, h1, bc, boxCoxSample, boxCoxThreshold, boxCoxTransform]

/-- An analysis with the given parameter 0 on the signals 1, 2, 3. -/
example : ∃ out st', analysisBoxCox (fun (_ : List Unit) s _ => .ok (1, s)) [((), 1), ((), 2), ((), 3)] true (freshBoxCox (.float 0)) = (.ok out, st') ∧
    Raises (drawBoxCoxLikelihood true st') .attributeError := by
  have h1 : boxCoxShift [1, 2, (3 : ℝ)] = .ok 0 := by norm_num [boxCoxShift, sampleMin]
  have h : analysisBoxCox (fun (_ : List Unit) s _ => .ok (1, s)) [((), 1), ((), 2), ((), 3)] true (freshBoxCox (.float 0)) =
      (.ok [boxCoxFun 0 1, boxCoxFun 0 2, boxCoxFun 0 3], freshBoxCox (.float 0)) := by
    simp [analysisBoxCox, freshBoxCox, boxCoxInit, h1, boxCoxSample]
  exact ⟨_, _, h, C207_violated _ _ _ _ _ h⟩

/-- The linear POD on the signals 1, 2, 3. -/
example : ∃ lam g, LikelihoodOf 1000 (fun _ s _ => .ok (1, s)) [((0 : ℝ), 1), (1, 2), (2, 3)] none none false lam g ∧
    drawBoxCoxLikelihood true (linearBoxCoxRun 1000 (fun _ s _ => .ok (1, s)) (fun _ => .ok ()) [((0 : ℝ), 1), (1, 2), (2, 3)] 2 none none true false ⟨none, none⟩).2 =
      .ok g ∧ (linearBoxCoxRun 1000 (fun _ s _ => .ok (1, s)) (fun _ => .ok ()) [((0 : ℝ), 1), (1, 2), (2, 3)] 2 none none true false ⟨none, none⟩).2.lambda = some lam := by
  have h1 : boxCoxShift [1, 2, (3 : ℝ)] = .ok 0 := by norm_num [boxCoxShift, sampleMin]
  refine (C207_linear_partial 1000 _ _ _ 2 none none false ⟨none, none⟩).1 ?_
  simp [linearBoxCoxRun, podRun, h1, boxCoxSample, boxCoxThreshold, boxCoxTransform]

end Verif.Props
