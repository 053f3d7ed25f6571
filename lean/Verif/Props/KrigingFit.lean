import Verif.Model.KrigingFit
import Verif.Props.AdaptiveSignal

/-!
# C121–C123: estimation and update of the covariance parameters
-/

namespace Verif.Props
open Verif.Py Verif.Model

variable {D C B R : Type}

/-- What the fitting routine is trusted for.  `theta` reads the estimated parameters of a covariance model: without optimisation
they are those given; the trend basis is the one given; with optimisation in a box the estimates are in the box. -/
structure FitSpec (ext : KrigExt D C B R) (theta : C → List ℝ) : Prop where
  fixed : ∀ f d r, f.optimise = false → ext.fitRun f d = .ok r → theta (ext.covOf r) = theta f.cov
  basis : ∀ f d r, ext.fitRun f d = .ok r → ext.basisOf r = f.basis
  inside : ∀ f d r lo up, f.optimise = true → f.bounds = some (lo, up) → ext.fitRun f d = .ok r →
    List.Forall₂ (fun (t : ℝ) (p : ℝ × ℝ) => p.1 ≤ t ∧ t ≤ p.2) (theta (ext.covOf r)) (lo.zip up)

/-- A low discrepancy design in the unit cube: the requested number of points, of the requested dimension. -/
def UnitSpec (unit : ℕ → ℕ → List (List ℝ)) : Prop :=
  ∀ dim size, (unit dim size).length = size ∧ ∀ u ∈ unit dim size, u.length = dim ∧ ∀ t ∈ u, 0 ≤ t ∧ t ≤ 1

/-! ## C121 -/

/-- Whatever the settings, the regression object can not be optimised again. -/
theorem reoptimise_regression (ext : KrigExt D C B R) (unit : ℕ → ℕ → List (List ℝ)) (n : ℕ) (size : ℤ) (d : D) (r : R) :
    reoptimise ext unit n size d (.regression r) = .error (noMethod "setOptimizeParameters") := rfl

/-- What a successful update does. -/
theorem updateFit_ok (ext : KrigExt D C B R) (unit : ℕ → ℕ → List (List ℝ)) (n : ℕ) (size : ℤ) (d : D) (s s' : KState C B R)
    (r : R) (h : updateFit ext unit n size d s = (.ok r, s')) :
    ext.fitRun ⟨s.cov.getD ext.defaultCov, s.basis.getD ext.defaultBasis, false, none, []⟩ d = .ok r ∧
    ∃ v, ext.q2 d r = .ok v ∧ F.lt v (.fin 0.95) = false ∧ s' = loopState ext r v := by
  unfold updateFit buildKrigingAlgo at h
  dsimp only at h
  cases hf : ext.fitRun ⟨s.cov.getD ext.defaultCov, s.basis.getD ext.defaultBasis, false, none, []⟩ d with
  | error e => rw [hf] at h; simp at h
  | ok r0 =>
    rw [hf] at h
    dsimp only at h
    cases hq : ext.q2 d r0 with
    | error e => rw [hq] at h; simp at h
    | ok v =>
      rw [hq] at h
      dsimp only at h
      cases hlt : F.lt v (.fin 0.95) with
      | true => rw [hlt, if_pos rfl, reoptimise_regression] at h; simp at h
      | false =>
        rw [hlt, if_neg (by simp)] at h
        dsimp only at h
        rw [hq] at h
        simp only [Prod.mk.injEq, Except.ok.injEq] at h
        obtain ⟨rfl, rfl⟩ := h
        exact ⟨rfl, v, hq, hlt, rfl⟩

/-- **C121 is violated.**  From every state and for every starting size, if the validation of the updated model is below 0.95 then
the update raises AttributeError instead of optimising again; the new value of Q2 is stored but the kriging result, which it does
not describe, is the old one. -/
theorem C121_violated (ext : KrigExt D C B R) (unit : ℕ → ℕ → List (List ℝ)) (n : ℕ) (size : ℤ) (d : D) (s : KState C B R)
    (r0 : R) (v : F ℝ)
    (hfit : ext.fitRun ⟨s.cov.getD ext.defaultCov, s.basis.getD ext.defaultBasis, false, none, []⟩ d = .ok r0)
    (hq : ext.q2 d r0 = .ok v) (hlow : F.lt v (.fin 0.95) = true) :
    Raises (updateFit ext unit n size d s).1 .attributeError ∧
    (updateFit ext unit n size d s).2.q2 = some v ∧ (updateFit ext unit n size d s).2.result = s.result := by
  have : updateFit ext unit n size d s = (.error (noMethod "setOptimizeParameters"),
      ⟨some (s.basis.getD ext.defaultBasis), some (s.cov.getD ext.defaultCov), s.result, some v⟩) := by
    unfold updateFit buildKrigingAlgo
    dsimp only
    rw [hfit]; dsimp only
    rw [hq]; dsimp only
    rw [hlow, if_pos rfl, reoptimise_regression]
  rw [this]
  exact ⟨⟨_, rfl⟩, rfl, rfl⟩

/-- **C121 is violated in a run.**  If the validation after the first added point is below 0.95, then the run raises, whatever
the number of iterations asked for: the point and its signal are in the design, the model is still the initial one. -/
theorem C121_violated_run {X : Type} (ext : KrigExt (List X × List ℝ) C B R) (unit : ℕ → ℕ → List (List ℝ)) (size : ℤ)
    (s0 : KState C B R) (physical : X → Res ℝ) (crit : ℕ → R → R → List X → List ℝ → ℕ → X → Res (F ℝ))
    (cands : List X) (n : ℕ) (s : AdAttrs X R) (m0 r1 : R) (c v : F ℝ) (k : ℕ) (x : X) (y : ℝ)
    (hm0 : (adaptiveFit ext unit size (s.input, s.signals) s0).1 = .ok m0)
    (hscan : scanGo (crit 0 m0 m0 s.input s.signals) 0 cands (.fin 1000000000, none) = .ok (c, some k))
    (hx : cands[k]? = some x)
    (hy : respond (krigEnv ext unit size s0 physical crit) s.boxCox x = .ok y)
    (hfit : ext.fitRun ⟨ext.covOf m0, ext.basisOf m0, false, none, []⟩ (s.input ++ [x], s.signals ++ [y]) = .ok r1)
    (hq : ext.q2 (s.input ++ [x], s.signals ++ [y]) r1 = .ok v) (hlow : F.lt v (.fin 0.95) = true) :
    Raises (adRun (krigEnv ext unit size s0 physical crit) cands (n + 1) s).1 .attributeError ∧
    (adRun (krigEnv ext unit size s0 physical crit) cands (n + 1) s).2 =
      ⟨s.input ++ [x], s.signals ++ [y], s.boxCox, some m0⟩ := by
  have hre : ∃ msg, (krigEnv ext unit size s0 physical crit).refit m0 (s.input ++ [x]) (s.signals ++ [y]) =
      .error ⟨.attributeError, msg⟩ :=
    (C121_violated ext unit (ext.llDim (buildKrigingAlgo ext s0).1) size _ (loopState ext m0 .nan) r1 v hfit hq hlow).1
  obtain ⟨msg, hre⟩ := hre
  have : adRun (krigEnv ext unit size s0 physical crit) cands (n + 1) s =
      (.error ⟨.attributeError, msg⟩, ⟨s.input ++ [x], s.signals ++ [y], s.boxCox, some m0⟩) := by
    rw [adRun]
    rw [show (krigEnv ext unit size s0 physical crit).fit s.input s.signals = .ok m0 from hm0]
    dsimp only
    rw [adLoop]
    dsimp only
    rw [adIter]
    dsimp only
    rw [show scanGo ((krigEnv ext unit size s0 physical crit).crit 0 m0 m0 s.input s.signals) 0 cands
      (.fin 1000000000, none) = .ok (c, some k) from hscan]
    dsimp only
    rw [hx]
    dsimp only
    rw [hy]
    dsimp only
    rw [hre]
  rw [this]
  exact ⟨⟨_, rfl⟩, rfl⟩

theorem krigEnv_refit_ok {X : Type} (ext : KrigExt (List X × List ℝ) C B R) (unit : ℕ → ℕ → List (List ℝ)) (size : ℤ)
    (s0 : KState C B R) (physical : X → Res ℝ) (crit : ℕ → R → R → List X → List ℝ → ℕ → X → Res (F ℝ))
    (m r : R) (xs : List X) (ys : List ℝ) (h : (krigEnv ext unit size s0 physical crit).refit m xs ys = .ok r) :
    ext.fitRun ⟨ext.covOf m, ext.basisOf m, false, none, []⟩ (xs, ys) = .ok r ∧
    ∃ v, ext.q2 (xs, ys) r = .ok v ∧ F.lt v (.fin 0.95) = false := by
  obtain ⟨h1, v, h2, h3, -⟩ := updateFit_ok ext unit (ext.llDim (buildKrigingAlgo ext s0).1) size (xs, ys)
    (loopState ext m .nan) _ r (Prod.ext h rfl)
  exact ⟨h1, v, h2, h3⟩

/-- **C121 (restricted).**  A run that returns never needed to optimise again: the covariance parameters and the trend basis of its
final model are those estimated on the initial design, and after at least one iteration the validation of the final model on the
final design is not below 0.95.  Missing: the runs in which the validation gets below 0.95. -/
theorem C121_success_partial {X : Type} (ext : KrigExt (List X × List ℝ) C B R) (theta : C → List ℝ) (hs : FitSpec ext theta)
    (unit : ℕ → ℕ → List (List ℝ)) (size : ℤ) (s0 : KState C B R) (physical : X → Res ℝ)
    (crit : ℕ → R → R → List X → List ℝ → ℕ → X → Res (F ℝ)) (cands : List X) (n : ℕ) (s s' : AdAttrs X R) (mf : R)
    (h : adRun (krigEnv ext unit size s0 physical crit) cands n s = (.ok mf, s')) :
    ∃ m0, (adaptiveFit ext unit size (s.input, s.signals) s0).1 = .ok m0 ∧
      theta (ext.covOf mf) = theta (ext.covOf m0) ∧ ext.basisOf mf = ext.basisOf m0 ∧
      (0 < n → ∃ v, ext.q2 (s'.input, s'.signals) mf = .ok v ∧ F.lt v (.fin 0.95) = false) := by
  have loop : ∀ (ref : R) (n it : ℕ) (cand : List X) (idx : Option ℕ) (m : R) (s : AdAttrs X R),
      adLoop (krigEnv ext unit size s0 physical crit) ref n it cand idx m s = (.ok mf, s') →
      theta (ext.covOf mf) = theta (ext.covOf m) ∧ ext.basisOf mf = ext.basisOf m ∧ (n = 0 → mf = m ∧ s' = s) ∧
      (0 < n → ∃ v, ext.q2 (s'.input, s'.signals) mf = .ok v ∧ F.lt v (.fin 0.95) = false) := by
    intro ref n
    induction n with
    | zero =>
      intro it cand idx m s h
      simp only [adLoop, Prod.mk.injEq, Except.ok.injEq] at h
      obtain ⟨rfl, rfl⟩ := h
      exact ⟨rfl, rfl, by simp, by simp⟩
    | succ n ih =>
      intro it cand idx m s h
      rw [adLoop] at h; dsimp only at h
      split at h
      · simp at h
      · rename_i cand' idx' m' s1 hit
        obtain ⟨k, x, y, rfl, hx, rfl, hy, hin, hsig, hbc, hmod, hre, c, hscan⟩ := adIter_ok _ _ _ _ _ _ _ _ _ _ _ hit
        obtain ⟨hf, v, hv, hlt⟩ := krigEnv_refit_ok ext unit size s0 physical crit _ _ _ _ hre
        obtain ⟨h1, h2, h3, h4⟩ := ih _ _ _ _ _ h
        refine ⟨h1.trans (hs.fixed _ _ _ rfl hf), h2.trans (hs.basis _ _ _ hf), by omega, fun _ => ?_⟩
        rcases Nat.eq_zero_or_pos n with h0 | h0
        · obtain ⟨rfl, rfl⟩ := h3 h0
          exact ⟨v, hv, hlt⟩
        · exact h4 h0
  rw [adRun] at h
  split at h
  · simp at h
  · rename_i m0 hm0
    obtain ⟨h1, h2, -, h4⟩ := loop _ _ _ _ _ _ _ h
    exact ⟨m0, hm0, h1, h2, h4⟩

open Classical in
/-- A toy library: the covariance parameter is one number, optimisation between 0.001 and 50 sets it to 2; the validation of a design of `k` points is
`q k`. -/
noncomputable def toyKrig (q : ℕ → ℝ) : KrigExt (List ℕ × List ℝ) ℝ Unit ℝ where
  defaultCov := 1
  defaultBasis := ()
  llDim _ := 1
  fitRun f _ := if f.optimise then (if f.bounds = some ([0.001], [50]) then .ok 2 else .error ⟨.runtime, ""⟩) else .ok f.cov
  covOf r := r
  basisOf _ := ()
  q2 d _ := .ok (.fin (q d.1.length))

/-- The unit design made of the origin repeated. -/
noncomputable def toyUnit (dim size : ℕ) : List (List ℝ) := List.replicate size (List.replicate dim 0)

theorem toyUnit_spec : UnitSpec toyUnit := by
  intro dim size
  refine ⟨by simp [toyUnit], fun u hu => ?_⟩
  obtain ⟨-, rfl⟩ := List.mem_replicate.mp hu
  refine ⟨by simp, fun t ht => ?_⟩
  obtain ⟨-, rfl⟩ := List.mem_replicate.mp ht
  norm_num

/-- The contract is met. -/
theorem toyKrig_spec (q : ℕ → ℝ) : FitSpec (toyKrig q) (fun c => [c]) where
  fixed := by
    intro f d r ho h
    simp only [toyKrig, ho] at h
    cases h; rfl
  basis := fun _ _ _ _ => rfl
  inside := by
    intro f d r lo up ho hb h
    simp only [toyKrig, ho, hb, if_true] at h
    split_ifs at h with hbo
    simp only [Option.some.injEq, Prod.mk.injEq] at hbo
    obtain ⟨rfl, rfl⟩ := hbo
    cases h
    exact .cons (by norm_num [toyKrig]) .nil

/-- Both outcomes in the toy library: two points are added when the validation stays at 0.97; with a validation of 0.9 on the
enlarged design the run stops after the first point. -/
example :
    let crit : ℕ → ℝ → ℝ → List ℕ → List ℝ → ℕ → ℕ → Res (F ℝ) := fun _ _ _ _ _ _ x => .ok (.fin x)
    adRun (krigEnv (toyKrig fun _ => 0.97) toyUnit 3 ⟨none, none, none, none⟩ (fun x => .ok x) crit) [5, 3, 7] 2
      ⟨[1], [1], none, none⟩ = (.ok 2, ⟨[1, 3, 5], [1, 3, 5], none, some 2⟩) ∧
    Raises (adRun (krigEnv (toyKrig fun k => if k = 1 then 0.97 else 0.9) toyUnit 3 ⟨none, none, none, none⟩ (fun x => .ok x) crit)
      [5, 3, 7] 2 ⟨[1], [1], none, none⟩).1 .attributeError := by
  constructor
  · simp [adRun, krigEnv, toyKrig, adaptiveFit, fitOptimised, buildKrigingAlgo, estimKrigingTheta, KAlgo.setBounds,
      KAlgo.setStarts, KAlgo.run, adLoop, adIter, scanGo, respond, updateFit, loopState]
    norm_num [adLoop, adIter, scanGo, respond, updateFit, loopState, buildKrigingAlgo]
  · refine (C121_violated_run (toyKrig fun k => if k = 1 then 0.97 else 0.9) toyUnit 3 ⟨none, none, none, none⟩ (fun x => .ok x)
      (fun _ _ _ _ _ _ x => .ok (.fin x)) [5, 3, 7] 1 ⟨[1], [1], none, none⟩ 2 2 (.fin 3) (.fin 0.9) 1 3 3 ?_ ?_ rfl ?_ ?_ ?_ ?_).1
    · simp [toyKrig, adaptiveFit, fitOptimised, buildKrigingAlgo, estimKrigingTheta, KAlgo.setBounds, KAlgo.setStarts, KAlgo.run]
    · norm_num [scanGo]
    · simp [respond, krigEnv]
    · simp [toyKrig]
    · simp [toyKrig]
    · norm_num

/-! ## C122 -/

/-- **C122 (restricted to the adaptive class).**  After a fit or an update of the adaptive class returns, `getCovarianceModel`,
`getBasis` and `getQ2` describe the stored kriging result; a KrigingPOD fit keeps the basis.  Missing: the covariance model of a
KrigingPOD. -/
theorem C122_accessors_partial (ext : KrigExt D C B R) (theta : C → List ℝ) (hs : FitSpec ext theta)
    (unit : ℕ → ℕ → List (List ℝ)) (n : ℕ) (size : ℤ) (d : D) (s s' : KState C B R) (r : R) :
    (adaptiveFit ext unit size d s = (.ok r, s') ∨ updateFit ext unit n size d s = (.ok r, s') →
      s'.result = some r ∧ s'.cov = some (ext.covOf r) ∧ s'.basis = some (ext.basisOf r) ∧
      ∃ v, s'.q2 = some v ∧ ext.q2 d r = .ok v) ∧
    (krigingPodFit ext unit size d s = (.ok r, s') →
      s'.result = some r ∧ s'.basis = some (ext.basisOf r) ∧ ∃ v, s'.q2 = some v ∧ ext.q2 d r = .ok v) := by
  have hfit : ∀ r s1, fitOptimised ext unit size d s = (.ok r, s1) →
      s1.result = some r ∧ s1.basis = some (ext.basisOf r) := by
    intro r s1 h
    unfold fitOptimised buildKrigingAlgo estimKrigingTheta at h
    dsimp only at h
    split_ifs at h with hsz <;>
    · simp only [KAlgo.setBounds, KAlgo.setStarts, KAlgo.setOptimize, KAlgo.run] at h
      split at h
      · simp at h
      · rename_i r' hr
        simp only [Prod.mk.injEq, Except.ok.injEq] at h
        obtain ⟨rfl, rfl⟩ := h
        exact ⟨rfl, by rw [hs.basis _ _ _ hr]⟩
  constructor
  · rintro (h | h)
    · unfold adaptiveFit at h
      split at h
      · simp at h
      · rename_i r1 s1 h1
        obtain ⟨h2, h3⟩ := hfit r1 s1 h1
        dsimp only at h
        split at h
        · simp at h
        · rename_i v hv
          simp only [Prod.mk.injEq, Except.ok.injEq] at h
          obtain ⟨rfl, rfl⟩ := h
          exact ⟨h2, rfl, rfl, v, rfl, hv⟩
    · obtain ⟨-, v, hv, -, rfl⟩ := updateFit_ok _ _ _ _ _ _ _ _ h
      exact ⟨rfl, rfl, rfl, v, rfl, hv⟩
  · intro h
    unfold krigingPodFit at h
    split at h
    · simp at h
    · rename_i r1 s1 h1
      obtain ⟨h2, h3⟩ := hfit r1 s1 h1
      split at h
      · simp at h
      · rename_i v hv
        simp only [Prod.mk.injEq, Except.ok.injEq] at h
        obtain ⟨rfl, rfl⟩ := h
        exact ⟨h2, h3, v, rfl, hv⟩

theorem krigingPodFit_ok (ext : KrigExt D C B R) (unit : ℕ → ℕ → List (List ℝ)) (size : ℤ) (d : D) (s s' : KState C B R) (r : R)
    (h : krigingPodFit ext unit size d s = (.ok r, s')) :
    s'.cov = some (s.cov.getD ext.defaultCov) ∧ s'.basis = some (s.basis.getD ext.defaultBasis) ∧ s'.result = some r ∧
    ∃ v, ext.q2 d r = .ok v ∧ s'.q2 = some v := by
  unfold krigingPodFit at h
  split at h
  · simp at h
  · rename_i r1 s1 h1
    split at h
    · simp at h
    · rename_i v hv
      simp only [Prod.mk.injEq, Except.ok.injEq] at h
      obtain ⟨rfl, rfl⟩ := h
      unfold fitOptimised buildKrigingAlgo at h1
      dsimp only at h1
      split at h1
      · simp at h1
      · split at h1
        · simp at h1
        · simp only [Prod.mk.injEq, Except.ok.injEq] at h1
          obtain ⟨rfl, rfl⟩ := h1
          exact ⟨rfl, rfl, rfl, v, hv, rfl⟩

/-- **C122 is violated** by `KrigingPOD`: after every successful fit `getCovarianceModel` returns the covariance model as it was
before the estimation (the user's or the default one); as soon as the estimation moved a parameter this is not the model of the
kriging result. -/
theorem C122_violated (ext : KrigExt D C B R) (theta : C → List ℝ) (unit : ℕ → ℕ → List (List ℝ)) (size : ℤ) (d : D)
    (s s' : KState C B R) (r : R) (h : krigingPodFit ext unit size d s = (.ok r, s'))
    (hmove : theta (ext.covOf r) ≠ theta (s.cov.getD ext.defaultCov)) :
    s'.cov = some (s.cov.getD ext.defaultCov) ∧ s'.cov ≠ some (ext.covOf r) := by
  obtain ⟨h1, -⟩ := krigingPodFit_ok ext unit size d s s' r h
  refine ⟨h1, fun h2 => hmove ?_⟩
  rw [h1, Option.some.injEq] at h2
  rw [h2]

/-- **C122, consequence.**  As nothing of the estimation is kept, fitting a KrigingPOD a second time to the same data gives the
same model and leaves every attribute as it is. -/
theorem C122_second_fit (ext : KrigExt D C B R) (unit : ℕ → ℕ → List (List ℝ)) (size : ℤ) (d : D) (s s' : KState C B R) (r : R)
    (h : krigingPodFit ext unit size d s = (.ok r, s')) : krigingPodFit ext unit size d s' = (.ok r, s') := by
  obtain ⟨h1, h2, h3, v, hv, h4⟩ := krigingPodFit_ok ext unit size d s s' r h
  obtain ⟨b', c', r', q'⟩ := s'
  dsimp only at h1 h2 h3 h4
  subst h1 h2 h3 h4
  have hb : (buildKrigingAlgo ext (⟨some (s.basis.getD ext.defaultBasis), some (s.cov.getD ext.defaultCov), some r, some v⟩ :
      KState C B R)).1 = (buildKrigingAlgo ext s).1 := rfl
  have hfit : (fitOptimised ext unit size d s).1 = .ok r := by
    unfold krigingPodFit at h
    split at h
    · simp at h
    · rename_i r1 s1 hh
      split at h
      · simp at h
      · simp only [Prod.mk.injEq, Except.ok.injEq] at h
        rw [hh, h.1]
  have hfit2 : fitOptimised ext unit size d ⟨some (s.basis.getD ext.defaultBasis), some (s.cov.getD ext.defaultCov), some r, some v⟩ =
      (.ok r, ⟨some (s.basis.getD ext.defaultBasis), some (s.cov.getD ext.defaultCov), some r, some v⟩) := by
    unfold fitOptimised at hfit ⊢
    dsimp only at hfit ⊢
    rw [hb]
    split at hfit
    · simp at hfit
    · rename_i a ha
      split at hfit
      · simp at hfit
      · rename_i r2 hr2
        simp only [Except.ok.injEq] at hfit
        subst hfit
        rfl
  unfold krigingPodFit
  rw [hfit2]
  dsimp only
  rw [hv]

example : krigingPodFit (toyKrig fun _ => 0.97) toyUnit 3 ([1], [1]) ⟨none, none, none, none⟩ =
    (.ok 2, ⟨some (), some 1, some 2, some (.fin 0.97)⟩) := by
  simp [toyKrig, krigingPodFit, fitOptimised, buildKrigingAlgo, estimKrigingTheta, KAlgo.setBounds, KAlgo.setStarts, KAlgo.run]

/-! ## C123 -/

theorem boxDesign_spec (unit : ℕ → ℕ → List (List ℝ)) (hu : UnitSpec unit) (n size : ℕ) (lo up : ℝ) (hlo : lo ≤ up) :
    (boxDesign unit (List.replicate n lo) (List.replicate n up) size).length = size ∧
    ∀ p ∈ boxDesign unit (List.replicate n lo) (List.replicate n up) size, p.length = n ∧ ∀ t ∈ p, lo ≤ t ∧ t ≤ up := by
  unfold boxDesign
  rw [List.length_replicate]
  refine ⟨by rw [List.length_map]; exact (hu n size).1, fun p hp => ?_⟩
  obtain ⟨u, hu', rfl⟩ := List.mem_map.mp hp
  obtain ⟨hl, ht⟩ := (hu n size).2 u hu'
  refine ⟨by simp [hl], fun t htm => ?_⟩
  obtain ⟨i, hi, rfl⟩ := List.mem_iff_getElem.mp htm
  have hi' : i < u.length := by simp at hi; omega
  simp only [List.getElem_zipWith, List.getElem_zip, List.getElem_replicate]
  obtain ⟨h0, h1⟩ := ht u[i] (List.getElem_mem hi')
  constructor <;> nlinarith

/-- **C123.**  With a positive `initialStartSize` the parameters of the given covariance model are optimised between 0.001 and 50
(on the normalised inputs), from exactly that many starting points, all in this box, and the estimates are in it.  With a size that
is not positive the covariance model keeps its parameters. -/
theorem C123_search (ext : KrigExt D C B R) (theta : C → List ℝ) (hs : FitSpec ext theta) (unit : ℕ → ℕ → List (List ℝ))
    (hu : UnitSpec unit) (size : ℤ) (d : D) (s s' : KState C B R) (r : R) (h : fitOptimised ext unit size d s = (.ok r, s')) :
    (0 < size → ∃ f : Fitter C B, ext.fitRun f d = .ok r ∧ f.cov = s.cov.getD ext.defaultCov ∧ f.optimise = true ∧
      (f.starts.length : ℤ) = size ∧
      (∀ p ∈ f.starts, p.length = (theta (ext.covOf r)).length ∧ ∀ t ∈ p, (0.001 : ℝ) ≤ t ∧ t ≤ 50) ∧
      ∀ t ∈ theta (ext.covOf r), (0.001 : ℝ) ≤ t ∧ t ≤ 50) ∧
    (size ≤ 0 → theta (ext.covOf r) = theta (s.cov.getD ext.defaultCov)) := by
  unfold fitOptimised buildKrigingAlgo estimKrigingTheta at h
  dsimp only at h
  constructor
  · intro hpos
    rw [if_pos hpos] at h
    simp only [KAlgo.setBounds, KAlgo.setStarts, KAlgo.run] at h
    split at h
    · simp at h
    · rename_i r' hr
      simp only [Prod.mk.injEq, Except.ok.injEq] at h
      obtain ⟨rfl, -⟩ := h
      set n := ext.llDim ⟨s.cov.getD ext.defaultCov, s.basis.getD ext.defaultBasis, true, none, []⟩ with hn
      have hin := hs.inside _ _ _ _ _ rfl rfl hr
      obtain ⟨hd1, hd2⟩ := boxDesign_spec unit hu n size.toNat 0.001 50 (by norm_num)
      have hlen := hin.length_eq
      simp only [List.length_zip, List.length_replicate, min_self] at hlen
      refine ⟨_, hr, rfl, rfl, ?_, ?_, ?_⟩
      · dsimp only
        rw [hd1]; exact Int.toNat_of_nonneg hpos.le
      · intro p hp
        rw [hlen]
        exact hd2 p hp
      · intro t ht
        obtain ⟨i, hi, rfl⟩ := List.mem_iff_getElem.mp ht
        have := List.Forall₂.get hin hi (by simp; omega)
        simpa using this
  · intro hneg
    rw [if_neg (by omega)] at h
    simp only [KAlgo.setOptimize, KAlgo.run] at h
    split at h
    · simp at h
    · rename_i r' hr
      simp only [Prod.mk.injEq, Except.ok.injEq] at h
      obtain ⟨rfl, -⟩ := h
      exact hs.fixed _ _ _ rfl hr

example : (fitOptimised (toyKrig fun _ => 1) toyUnit 3 ([1], [1]) ⟨none, none, none, none⟩).1 = .ok 2 ∧
    (fitOptimised (toyKrig fun _ => 1) toyUnit 0 ([1], [1]) ⟨none, some 7, none, none⟩).1 = .ok 7 ∧ UnitSpec toyUnit := by
  refine ⟨?_, ?_, toyUnit_spec⟩ <;>
    simp [toyKrig, fitOptimised, buildKrigingAlgo, estimKrigingTheta, KAlgo.setBounds, KAlgo.setStarts, KAlgo.run, KAlgo.setOptimize]

end Verif.Props
