import Verif.Props.Classifier
import Verif.Props.SimLimit
import Verif.Model.HitMissSeed

/-!
# C225: the seed of OpenTURNS and the result of a hit-miss run
-/

namespace Verif.Props
open Verif.Py Verif.Model

variable {X : Type}

/-- The classifier is an `ExtraTreesClassifier` with a given `random_state`. -/
def HasSeed (o : HMOptions (List (List PyParam))) : Prop :=
  o.kind = "rf" ∧ ∀ a b c d, firstOfMap o.params = .ok (a, b, c, d) → d ≠ .pyNone

/-- **C225 (restricted): `ExtraTreesClassifier` with a `random_state`, the default.**  The draws of OpenTURNS determine the result of the run and all
attributes, whatever the state of the numpy generator. -/
theorem C225_seed_partial (sk : SeededSk (ℝ × X)) (st st' : ℕ → ℕ) (o : HMOptions (List (List PyParam))) (ho : HasSeed o) (cand : List (ℝ × X)) (nMore : ℕ)
    (zero : ℝ × X) (xs : List X) (s : HMAttrs (ℝ × X) × SimAttrs) :
    hmPodRun sk st o cand nMore zero xs s = hmPodRun sk st' o cand nMore zero xs s := by
  have key : ∀ est, buildEstimator o = .ok est → ∀ k k', fitSeed est k = fitSeed est k' := by
    intro est hb k k'
    unfold buildEstimator at hb
    rw [if_pos (Or.inr ho.1)] at hb
    cases hf : firstOfMap o.params with
    | error e => rw [hf] at hb; simp at hb
    | ok t =>
      rw [hf] at hb
      obtain ⟨a, b, c, d⟩ := t
      have hd := ho.2 a b c d hf
      have : est = ⟨o.kind, (a, b, c, d)⟩ := (Except.ok.inj hb).symm
      subst this
      unfold fitSeed
      rw [if_pos ho.1, if_pos ho.1]
      cases d with
      | pyNone => exact absurd rfl hd
      | num x => rfl
      | str x => rfl
      | bool x => rfl
  have hrun : hmFullRun (sk.withStream st) o cand nMore = hmFullRun (sk.withStream st') o cand nMore := by
    have hfit : classifierFit (sk.withStream st) o = classifierFit (sk.withStream st') o := by
      funext it ys ls
      unfold classifierFit
      cases hb : buildEstimator o with
      | error e => rfl
      | ok est =>
        change sk.train est (fitSeed est (st it)) ys ls = sk.train est (fitSeed est (st' it)) ys ls
        rw [key est hb (st it) (st' it)]
    funext h
    unfold hmFullRun
    dsimp only
    rw [hfit]
    cases hb : buildEstimator o with
    | error e => rfl
    | ok est =>
      have ht : (sk.withStream st).train est 0 = (sk.withStream st').train est 0 := by
        change sk.train est (fitSeed est (st 0)) = sk.train est (fitSeed est (st' 0))
        rw [key est hb (st 0) (st' 0)]
      dsimp only
      rw [ht]
      rfl
  unfold hmPodRun
  rw [hrun]

/-- Without added points, on data with two classes: the curve at a requested size is the mean of the probabilities given by the classifier trained with
the first number of the numpy generator. -/
theorem seeded_value (sk : SeededSk (ℝ × X)) (st : ℕ → ℕ) (o : HMOptions (List (List PyParam))) (est : Estimator PyParam) (hb : buildEstimator o = .ok est)
    (hd : est.kind ≠ "rf" ∨ est.args.2.2.2 = .pyNone) (cand : List (ℝ × X)) (zero : ℝ × X) (xs : List X) (h : HMAttrs (ℝ × X)) (hn : h.numpy = false)
    (h0 : false ∈ h.labels) (h1 : true ∈ h.labels) (p : ℝ × X → ℝ) (hp : sk.train est (.num (st 0)) h.input h.labels = .ok fun z => .fin (p z))
    (s : SimAttrs) (hs : s.sizes.Pairwise (· < ·)) (hnum : s.number = s.sizes.length) (a : ℝ) (ha : a ∈ s.sizes) :
    ∃ f, (hmPodRun sk st o cand 0 zero xs (h, s)).1 = .ok () ∧ (hmPodRun sk st o cand 0 zero xs (h, s)).2.2.curve = some f ∧
      f a = .ok (listMean (xs.map fun x => p (a, x))) := by
  have hseed : fitSeed est (st 0) = .num (st 0) := by
    unfold fitSeed
    by_cases hk : est.kind = "rf"
    · rw [if_pos hk, hd.resolve_left (fun h => h hk)]
    · rw [if_neg hk]
  have hfull : ∃ h', hmFullRun (sk.withStream st) o cand 0 h = (.ok (), h') ∧ h'.model = some (.base fun z => .fin (p z), none) := by
    rw [C219_run_partial (sk.withStream st) o est hb cand 0 h h0 h1]
    unfold hmRun
    dsimp only
    rw [hn, if_neg (by simp)]
    have ht : (sk.withStream st).train est 0 h.input h.labels = .ok fun z => .fin (p z) := by
      change sk.train est (fitSeed est (st 0)) h.input h.labels = _
      rw [hseed, hp]
    rw [ht]
    refine ⟨_, rfl, rfl⟩
  obtain ⟨h', hrun, hm⟩ := hfull
  obtain ⟨f, g, hf, -, hval, -⟩ := hitMiss_nodes zero p xs s hs hnum 0 a ha
  obtain ⟨f', hr, -⟩ := hitMissRunSim_eq zero p xs s (hs.imp fun h => h.le) hnum
  have e : hmPodRun sk st o cand 0 zero xs (h, s) = ((hitMissRunSim zero p xs s).1, h', (hitMissRunSim zero p xs s).2) := by
    unfold hmPodRun
    dsimp only
    rw [hrun]
    dsimp only
    rw [hm]
    rfl
  refine ⟨f, ?_, ?_, hval⟩
  · rw [e, hr]
  · rw [e]
    exact hf

/-- **C225 violated: `SVC`, or no `random_state`.**  Whenever two numbers of the numpy generator give classifiers with different mean probabilities at a
requested size, the two runs, with the same data and the same draws of OpenTURNS, give PODs that differ there. -/
theorem C225_violated (sk : SeededSk (ℝ × X)) (st st' : ℕ → ℕ) (o : HMOptions (List (List PyParam))) (est : Estimator PyParam)
    (hb : buildEstimator o = .ok est) (hd : est.kind ≠ "rf" ∨ est.args.2.2.2 = .pyNone) (cand : List (ℝ × X)) (zero : ℝ × X) (xs : List X)
    (h : HMAttrs (ℝ × X)) (hn : h.numpy = false) (h0 : false ∈ h.labels) (h1 : true ∈ h.labels) (p p' : ℝ × X → ℝ)
    (hp : sk.train est (.num (st 0)) h.input h.labels = .ok fun z => .fin (p z))
    (hp' : sk.train est (.num (st' 0)) h.input h.labels = .ok fun z => .fin (p' z))
    (s : SimAttrs) (hs : s.sizes.Pairwise (· < ·)) (hnum : s.number = s.sizes.length) (a : ℝ) (ha : a ∈ s.sizes)
    (hdiff : listMean (xs.map fun x => p (a, x)) ≠ listMean (xs.map fun x => p' (a, x))) :
    ∃ f f', (hmPodRun sk st o cand 0 zero xs (h, s)).1 = .ok () ∧ (hmPodRun sk st o cand 0 zero xs (h, s)).2.2.curve = some f ∧
      (hmPodRun sk st' o cand 0 zero xs (h, s)).1 = .ok () ∧ (hmPodRun sk st' o cand 0 zero xs (h, s)).2.2.curve = some f' ∧
      ∃ y y', f a = .ok y ∧ f' a = .ok y' ∧ y ≠ y' := by
  obtain ⟨f, r1, r2, r3⟩ := seeded_value sk st o est hb hd cand zero xs h hn h0 h1 p hp s hs hnum a ha
  obtain ⟨f', r1', r2', r3'⟩ := seeded_value sk st' o est hb hd cand zero xs h hn h0 h1 p' hp' s hs hnum a ha
  exact ⟨f, f', r1, r2, r1', r2', _, _, r3, r3', hdiff⟩

/-- A new object has a `random_state`. -/
example : HasSeed newOptions := by
  refine ⟨rfl, fun a b c d h => ?_⟩
  simp only [newOptions, classifierDefaults, firstOfMap] at h
  simp only [show ("rf" = "svc") = False by decide, if_false, Except.ok.injEq, Prod.mk.injEq] at h
  rw [← h.2.2.2]
  simp

/-- A classifier that depends on the number: the calibration of the probabilities of `SVC` by a random cross validation. -/
noncomputable def plattSk : SeededSk (ℝ × ℝ) :=
  ⟨fun _ => .ok true, fun _ r _ _ => .ok fun z => .fin (match r with | .num k => max 0 (min 1 (z.1 / (2 + k))) | _ => 0), fun l => List.range l.length⟩

/-- The hypotheses of `C225_violated`: after `setClassifierType("svc")`, the first numbers 0 and 1; at size 1 the POD is 1/2 or 1/3. -/
example : ∃ f f', (hmPodRun plattSk (fun _ => 0) (setClassifierType classifierDefaults "svc" newOptions).2 [] 0 (0, 0) [5]
      (⟨[(0, 0), (3, 0)], [false, true], false, none, none, .fin 0, .fin 1⟩, { sizes := [1, 2], number := 2 })).2.2.curve = some f ∧
    (hmPodRun plattSk (fun _ => 1) (setClassifierType classifierDefaults "svc" newOptions).2 [] 0 (0, 0) [5]
      (⟨[(0, 0), (3, 0)], [false, true], false, none, none, .fin 0, .fin 1⟩, { sizes := [1, 2], number := 2 })).2.2.curve = some f' ∧
    ∃ y y', f 1 = .ok y ∧ f' 1 = .ok y' ∧ y ≠ y' := by
  obtain ⟨f, f', -, h1, -, h2, h3⟩ := C225_violated plattSk (fun _ => 0) (fun _ => 1) (setClassifierType classifierDefaults "svc" newOptions).2
    ⟨"svc", (.num 1, .str "poly", .num 3, .bool true)⟩ (C219_built_partial newOptions [] (by simp)).2.1 (Or.inl (by simp)) [] (0, 0) [5]
    ⟨[(0, 0), (3, 0)], [false, true], false, none, none, .fin 0, .fin 1⟩ rfl (by simp) (by simp)
    (fun z => max 0 (min 1 (z.1 / 2))) (fun z => max 0 (min 1 (z.1 / 3))) (by simp [plattSk]) (by norm_num [plattSk])
    { sizes := [1, 2], number := 2 } (by simp) (by simp) 1 (by simp) (by norm_num [listMean])
  exact ⟨f, f', h1, h2, h3⟩

end Verif.Props
