import Verif.Model.MetaRun
import Mathlib.Tactic.Common

/-!
# C42, C43: user metamodels and settings between runs
-/

namespace Verif.Props
open Verif.Py Verif.Model

/-! ## C42 -/

/-- **C42 is violated** by `KrigingPOD`: for every object and every valid result, `run` after `setKrigingResult` raises
UnboundLocalError and computes nothing, whatever the data and even after an earlier successful run. -/
theorem C42_violated {R T D P : Type} (r : R) (fit : Res (R × T)) (q2 : R → T → Res ℝ) (defaultDist : List ℝ → D)
    (compute : R → T → D → List ℝ → Res P) (s : KrigingAttrs R T D P) :
    let s1 := (setKrigingResult r s).2
    Raises (krigingRun fit q2 defaultDist compute s1).1 .unboundLocal ∧
      (krigingRun fit q2 defaultDist compute s1).2.pod = s.pod := by
  simp [setKrigingResult, krigingRun, Raises]

/-- The chaos class has a similar defect when no distribution was given. -/
theorem C42_violated_chaos {R D P : Type} (r : R) (defaultDist : List ℝ → D) (fit : D → Strategy D → Res R)
    (compute : R → D → List ℝ → Res P) (s : ChaosAttrs R D P) (hd : s.distribution = none) :
    Raises (chaosRun defaultDist fit compute (setPolynomialChaosResult r s).2).1 .attributeError := by
  simp [setPolynomialChaosResult, chaosRun, chaosRun.finish, hd, Raises]

/-- **C42 (restricted).**  The chaos class uses the given result once a distribution is known: `run` succeeds iff the POD
computation with the given result succeeds, and then the POD is the one of that result.  Missing: kriging, and chaos
without a distribution. -/
theorem C42_user_chaos_partial {R D P : Type} (r : R) (defaultDist : List ℝ → D) (fit : D → Strategy D → Res R)
    (compute : R → D → List ℝ → Res P) (s : ChaosAttrs R D P) (d : D) (hd : s.distribution = some d) :
    let out := chaosRun defaultDist fit compute (setPolynomialChaosResult r s).2
    out.1 = (compute r d s.sizes).map (fun _ => ()) ∧
    (∀ p, compute r d s.sizes = .ok p → out.2.pod = some p) := by
  simp only [setPolynomialChaosResult, chaosRun, if_true, chaosRun.finish, hd]
  cases h : compute r d s.sizes with
  | error e => simp [Except.map]
  | ok p => simp [Except.map]

example : (chaosRun (R := ℕ) (P := ℕ) (fun _ => ()) (fun _ _ => .ok 0) (fun r _ _ => .ok r)
    (setPolynomialChaosResult 7 ⟨false, none, some (), none, 3, [], none⟩).2).2.pod = some 7 := rfl

/-! ## C43 -/

/-- **C43 (restricted).**  The first run uses the settings of the moment: the strategy has the current degree and the given
distribution, or the default distribution for the current defect sizes.  Missing: later runs. -/
theorem C43_first_run_partial {R D P : Type} (defaultDist : List ℝ → D) (fit : D → Strategy D → Res R)
    (compute : R → D → List ℝ → Res P) (s : ChaosAttrs R D P) (hu : s.userChaos = false) (ha : s.adaptive = none) :
    let d := s.distribution.getD (defaultDist s.sizes)
    (chaosRun defaultDist fit compute s).2.adaptive = some ⟨s.degree, d⟩ ∧
    (chaosRun defaultDist fit compute s).2.distribution = some d ∧
    (∀ r p, fit d ⟨s.degree, d⟩ = .ok r → compute r d s.sizes = .ok p →
      (chaosRun defaultDist fit compute s).2.pod = some p) := by
  intro d
  have hd : s.distribution.getD (defaultDist s.sizes) = d := rfl
  simp only [chaosRun, hu, Bool.false_eq_true, if_false, chaosBuild, ha, Option.getD_none, hd]
  cases hf : fit d ⟨s.degree, d⟩ with
  | error e => simp
  | ok r =>
    simp only [chaosRun.finish]
    cases hc : compute r d s.sizes with
    | error e =>
      refine ⟨rfl, rfl, ?_⟩
      rintro r' p' h1 h2
      cases h1; rw [hc] at h2; cases h2
    | ok p =>
      refine ⟨rfl, rfl, ?_⟩
      rintro r' p' h1 h2
      cases h1; rw [hc] at h2; cases h2; rfl

/-- Once a strategy is cached no history of calls changes it. -/
theorem chaos_strategy_frozen {R D P : Type} (defaultDist : List ℝ → D) (fit : D → Strategy D → Res R)
    (compute : R → D → List ℝ → Res P) (ops : List (ChaosOp D)) (s : ChaosAttrs R D P) (a : Strategy D)
    (ha : s.adaptive = some a) : (ops.foldl (chaosStep defaultDist fit compute) s).adaptive = some a := by
  induction ops generalizing s with
  | nil => exact ha
  | cons op ops ih =>
    rw [List.foldl_cons]
    apply ih
    cases op with
    | setDegree k => exact ha
    | setSizes l => exact ha
    | setDistribution d => exact ha
    | run =>
      have hfin : ∀ s' : ChaosAttrs R D P, (chaosRun.finish compute s').2.adaptive = s'.adaptive := by
        intro s'
        unfold chaosRun.finish
        rcases s'.chaosResult with _ | r
        · rfl
        · rcases s'.distribution with _ | d
          · rfl
          · dsimp only
            rcases compute r d s'.sizes with e | p <;> rfl
      simp only [chaosStep, chaosRun]
      split_ifs with hu
      · rw [hfin]; exact ha
      · simp only [chaosBuild, ha, Option.getD_some]
        rcases fit _ a with e | r
        · rfl
        · rw [hfin]

/-- **C43 is violated**: after a first run no history of `setDegree`, `setDefectSizes`, `setDistribution` and `run` calls
changes the degree or the polynomial family used by the following runs. -/
theorem C43_violated {R D P : Type} (defaultDist : List ℝ → D) (fit : D → Strategy D → Res R)
    (compute : R → D → List ℝ → Res P) (s : ChaosAttrs R D P) (hu : s.userChaos = false) (ha : s.adaptive = none)
    (ops : List (ChaosOp D)) :
    (ops.foldl (chaosStep defaultDist fit compute) (chaosRun defaultDist fit compute s).2).adaptive
      = some ⟨s.degree, s.distribution.getD (defaultDist s.sizes)⟩ :=
  chaos_strategy_frozen _ _ _ ops _ _ (C43_first_run_partial defaultDist fit compute s hu ha).1

/-- A concrete history: degree 3, run, degree 5, run: the POD is still that of degree 3. -/
theorem C43_violated_witness :
    let step := chaosStep (R := ℕ) (D := Unit) (P := ℕ) (fun _ => ()) (fun _ a => .ok a.degree) (fun r _ _ => .ok r)
    ([ChaosOp.run, .setDegree 5, .run].foldl step ⟨false, none, none, none, 3, [], none⟩).pod = some 3 := rfl

/-- Kriging: the default distribution of the first run is kept when the defect sizes change. -/
theorem C43_violated_kriging {R T D P : Type} (fit : Res (R × T)) (q2 : R → T → Res ℝ) (defaultDist : List ℝ → D)
    (compute : R → T → D → List ℝ → Res P) (s : KrigingAttrs R T D P) (d : D) (hd : s.distribution = some d)
    (sizes : List ℝ) :
    (krigingRun fit q2 defaultDist compute { s with sizes := sizes }).2.distribution = some d := by
  unfold krigingRun
  split_ifs
  · exact hd
  · rcases fit with e | ⟨r, t⟩
    · exact hd
    · dsimp only
      rcases q2 r t with e | q
      · exact hd
      · simp only [hd, Option.getD_some]
        rcases compute r t d sizes with e | p <;> rfl

end Verif.Props
