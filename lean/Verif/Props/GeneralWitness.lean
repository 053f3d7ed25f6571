import Verif.Props.DetectionLevels
import Verif.Props.Pli
import Verif.Props.QuantileReg
import Verif.Props.QrRun

/-!
# Violations of C63, C81, C82 and C85 beyond single numbers

The witnesses of these claims are extended to all data of a kind, or to a run on observations.
-/

namespace Verif.Props

open Verif.Py Verif.Model

/-- **C63 violated.**  For a positive mean and standard deviation the variance computed from a delta is the documented `variance x delta` for at most two
deltas: of three different ones at least one gives another variance. -/
theorem C63_violated_deltas (mean std : ℝ) (hm : 0 < mean) (d1 d2 d3 : ℝ) (h12 : d1 ≠ d2) (h13 : d1 ≠ d3) (h23 : d2 ≠ d3) :
    ∃ δ ∈ [d1, d2, d3], ∃ dv, pliVarianceInit 1 true [mean] [std] (.vec [δ]) true = .ok [[dv]] ∧ dv ≠ std ^ 2 * δ := by
  have hval : ∀ δ, pliVarianceInit 1 true [mean] [std] (.vec [δ]) true = .ok [[(mean * δ + std) ^ 2]] := by
    intro δ; simp [pliVarianceInit, pliInit, vstackDeltas]; ring
  by_contra hno
  push Not at hno
  have e : ∀ δ ∈ [d1, d2, d3], (mean * δ + std) ^ 2 = std ^ 2 * δ := fun δ hδ => hno δ hδ _ (hval δ)
  have e1 := e d1 (by simp)
  have e2 := e d2 (by simp)
  have e3 := e d3 (by simp)
  have f1 : (d1 - d2) * (mean ^ 2 * (d1 + d2) + 2 * mean * std - std ^ 2) = 0 := by linear_combination e1 - e2
  have f2 : (d1 - d3) * (mean ^ 2 * (d1 + d3) + 2 * mean * std - std ^ 2) = 0 := by linear_combination e1 - e3
  have g1 := (mul_eq_zero.mp f1).resolve_left (sub_ne_zero.mpr h12)
  have g2 := (mul_eq_zero.mp f2).resolve_left (sub_ne_zero.mpr h13)
  have g3 : mean ^ 2 * (d2 - d3) = 0 := by linear_combination g1 - g2
  rcases mul_eq_zero.mp g3 with h | h
  · exact absurd h (by positivity)
  · exact h23 (sub_eq_zero.mp h)

/-- Mean 10, deviation 2, deltas 0.5, 1, 2. -/
example : ∃ δ ∈ [(0.5 : ℝ), 1, 2], ∃ dv, pliVarianceInit 1 true [10] [2] (.vec [δ]) true = .ok [[dv]] ∧ dv ≠ 2 ^ 2 * δ :=
  C63_violated_deltas 10 2 (by norm_num) _ _ _ (by norm_num) (by norm_num) (by norm_num)

/-- **C81 is violated** for every class and all data: whatever thresholds are added to accepted data, the model is built on the observations strictly
between them as soon as one is left, even if fewer than three are. -/
theorem C81_violated_filter (fmax : ℝ) (c : PodClass) (dim : ℕ) (obs r : List (List ℝ × ℝ)) (h : metamodelData fmax c dim obs none none = .ok r)
    (noise sat : Option ℝ) (hth : noise.isSome ∨ sat.isSome) (o : List ℝ × ℝ) (ho : o ∈ obs) (h1 : noise.getD (-fmax) < o.2) (h2 : o.2 < sat.getD fmax) :
    metamodelData fmax c dim obs noise sat = .ok (obs.filter fun o => decide (noise.getD (-fmax) < o.2) && decide (o.2 < sat.getD fmax)) := by
  have hne : uncensoredObs fmax obs noise sat ≠ [] := by
    refine List.ne_nil_of_mem (a := o) ?_
    rw [uncensoredObs, List.mem_filter]
    exact ⟨ho, by simp [h1, h2]⟩
  have hn : (noise.isSome || sat.isSome) = true := by
    rcases hth with h' | h' <;> simp [h']
  have h3 := (C81_three_observations_partial fmax c dim obs r h)
  obtain ⟨rfl, h3⟩ := h3
  unfold metamodelData at h ⊢
  have hd : dimCheck c dim = .ok () := by
    cases hd : dimCheck c dim with
    | ok u => rfl
    | error e =>
      have : subclassInit c (⟨r.length, dim, r.length, 1, none, none, .other false⟩ : CtorArgs ℝ) = .error e := by
        cases c <;> simp_all [subclassInit, podInit, ctorArgsFor]
      rw [this] at h
      cases h
  have hs : ∃ st, subclassInit c (⟨r.length, dim, r.length, 1, noise, sat, .other false⟩ : CtorArgs ℝ) = .ok st ∧ st.censored = true := by
    cases c <;> simp_all [subclassInit, podInit, ctorArgsFor]
  obtain ⟨st, e1, e2⟩ := hs
  rw [e1]
  dsimp only
  rw [e2, if_pos rfl, if_neg hne]
  rfl

/-- Four observations, the last two above the noise. -/
example : metamodelData 1000 .chaos 1 [([1], 1), ([2], 2), ([3], 30), ([4], 40)] (some 5) none = .ok [([3], 30), ([4], 40)] := by
  have h : metamodelData 1000 .chaos 1 [([1], 1), ([2], 2), ([3], 30), ([4], 40)] none none = .ok [([1], 1), ([2], 2), ([3], 30), ([4], 40)] := by
    simp [metamodelData, subclassInit, podInit, dimCheck, ctorArgsFor]
  rw [C81_violated_filter 1000 .chaos 1 _ _ h (some 5) none (by simp) ([3], 30) (by simp) (by norm_num) (by norm_num)]
  norm_num [List.filter]

/-- **C82 is violated** for all simulated defects and levels: with as many new levels as old ones and increasing defects, the curve takes at the defect
simulated for the old level number `i` the new level number `i`. -/
theorem C82_violated_levels (cols : List (List ℝ)) (q q' arg : List ℝ) (dmax c : ℝ) (hset : setQuantile arg q = (.ok (), q')) (hl : cols.length = q.length)
    (hl' : q'.length = q.length) (hinc : (0 :: ((cols.map fun col => quantile col c) ++ [dmax])).Pairwise (· < ·)) :
    ∃ f g, qrCurveCl cols q dmax c = .ok f ∧ qrCurveCl cols (setQuantile arg q).2 dmax c = .ok g ∧
      ∀ i, i < cols.length → f (quantile (cols.getD i []) c) = .ok (q.getD i 0) ∧ g (quantile (cols.getD i []) c) = .ok (q'.getD i 0) := by
  have key : ∀ p : List ℝ, cols.length = p.length → ∃ f, qrCurveCl cols p dmax c = .ok f ∧
      ∀ i, i < cols.length → f (quantile (cols.getD i []) c) = .ok (p.getD i 0) := by
    intro p hp
    obtain ⟨f, hf, -, hn, -⟩ := interp1d_spec (0 :: ((cols.map fun col => quantile col c) ++ [dmax])) (0 :: (p ++ [p.getD (p.length - 1) 0]))
      (by simp [hp]) (by simp) hinc
    refine ⟨f, hf, fun i hi => ?_⟩
    have h := hn (i + 1) (by simp; omega)
    have e1 : (0 :: ((cols.map fun col => quantile col c) ++ [dmax])).getD (i + 1) 0 = quantile (cols.getD i []) c := by
      rw [List.getD_cons_succ, List.getD_eq_getElem _ _ (by simp; omega), List.getElem_append_left (by simpa using hi), List.getElem_map,
        List.getD_eq_getElem _ _ hi]
    have e2 : (0 :: (p ++ [p.getD (p.length - 1) 0])).getD (i + 1) 0 = p.getD i 0 := by
      rw [List.getD_cons_succ, List.getD_eq_getElem _ _ (by simp; omega), List.getElem_append_left (by omega), List.getD_eq_getElem _ _ (by omega)]
    rw [e1, e2] at h
    exact h
  obtain ⟨f, h1, h2⟩ := key q hl
  obtain ⟨g, h3, h4⟩ := key q' (hl.trans hl'.symm)
  exact ⟨f, g, h1, by rw [hset]; exact h3, fun i hi => ⟨h2 i hi, h4 i hi⟩⟩

/-- Two levels replaced by two others. -/
example : ∃ f g, qrCurveCl [[1], [2]] [0.3, 0.6] 3 0.95 = .ok f ∧ qrCurveCl [[1], [2]] (setQuantile [0.8, 0.9] [0.3, 0.6]).2 3 0.95 = .ok g ∧
    ∀ i, i < 2 → f (quantile ([[1], [2]].getD i []) 0.95) = .ok ([0.3, 0.6].getD i 0) ∧ g (quantile ([[1], [2]].getD i []) 0.95) = .ok ([0.8, 0.9].getD i 0) := by
  have one : ∀ x : ℝ, quantile [x] 0.95 = x := by
    intro x
    rw [quantile, sortR_of_sorted (by simp)]
    norm_num [atPos]
  refine C82_violated_levels [[1], [2]] [0.3, 0.6] [0.8, 0.9] [0.8, 0.9] 3 0.95 ?_ rfl rfl ?_
  · rw [setQuantile, if_neg (by simp), sortR_of_sorted (by norm_num)]
    norm_num
  · simp only [List.map_cons, List.map_nil, one]
    norm_num

/-- **C85 is violated by a run.**  On the defects 0, 2, 3, 4 with the signals 0, 1, 2, 3, the threshold 5/2 and the levels 0.5 and 0.9, a run with exact
regression lines succeeds and its POD curve goes down from 0.9 at the defect 3.5 to 0.5 at the defect 3.75. -/
theorem C85_violated_run {G : Type} (env : QrEnv G)
    (hex : ∀ tau, 0 < tau → tau < 1 → ∀ c0 c1,
      quantLoss tau crossObs (env.quantReg crossObs tau).intercept (env.quantReg crossObs tau).slope ≤ quantLoss tau crossObs c0 c1) (s : QrAttrs G) :
    ∃ f, (qrPodRun env ⟨crossObs, 5 / 2, none, none, false, false, [1 / 2, 9 / 10]⟩ [] s).1 = .ok () ∧
      (qrPodRun env ⟨crossObs, 5 / 2, none, none, false, false, [1 / 2, 9 / 10]⟩ [] s).2.pod = some f ∧
      f (7 / 2) = .ok (9 / 10) ∧ f (15 / 4) = .ok (1 / 2) ∧ ¬ NonDecreasing f := by
  obtain ⟨a1, a2⟩ := crossObs_half _ _ (hex (1 / 2) (by norm_num) (by norm_num))
  obtain ⟨a3, a4⟩ := crossObs_tenth _ _ (hex (1 / 10) (by norm_num) (by norm_num))
  have hsolve : qrSolveAll env.pick (env.quantReg crossObs) (5 / 2) 0 4 [1 / 2, 9 / 10] = .ok [15 / 4, 7 / 2] := by
    have b1 : brentLine env.pick (qrFitFor (env.quantReg crossObs) (1 / 2)) (5 / 2) 0 4 = .ok (15 / 4) := by
      rw [qrFitFor, brentLine, show (1 : ℝ) - 1 / 2 = 1 / 2 by norm_num, a1, a2]
      norm_num
    have b2 : brentLine env.pick (qrFitFor (env.quantReg crossObs) (9 / 10)) (5 / 2) 0 4 = .ok (7 / 2) := by
      rw [qrFitFor, brentLine, show (1 : ℝ) - 9 / 10 = 1 / 10 by norm_num, a3, a4]
      norm_num
    rw [qrSolveAll, b1]
    dsimp only
    rw [qrSolveAll, b2]
    rfl
  have hmax : sampleMax (crossObs.map Prod.fst) = .ok 4 := by
    norm_num [sampleMax, crossObs]
  have hpod : podRun env.fmax env.boxCox crossObs (some (5 / 2)) none none false false s.bc = (.ok ⟨crossObs, 0, some (5 / 2), none⟩, { s.bc with lambda := none }) := by
    simp [podRun]
  have swap : ∀ {a b c d : ℝ × ℝ}, [a, b, c, d].Perm [a, c, b, d] := fun {a b c d} => .cons a (.swap _ _ _)
  have hs : sortPts [(0, 0), (15 / 4, 1 / 2), (7 / 2, 9 / 10), ((4 : ℝ), (9 / 10 : ℝ))] = [(0, 0), (7 / 2, 9 / 10), (15 / 4, 1 / 2), (4, 9 / 10)] :=
    sortPts_eq_of_perm swap (by norm_num)
  have hcurve : qrCurve [15 / 4, 7 / 2] [1 / 2, 9 / 10] 4 = .ok (interpEval [(0, 0), (7 / 2, 9 / 10), (15 / 4, 1 / 2), (4, 9 / 10)]) := by
    rw [← hs, qrCurve, interp1d, if_pos (by simp)]
    rfl
  have h1 : interpEval [(0, 0), (7 / 2, 9 / 10), (15 / 4, 1 / 2), ((4 : ℝ), (9 / 10 : ℝ))] (7 / 2) = .ok (9 / 10) := by norm_num [interpEval, interpGo]
  have h2 : interpEval [(0, 0), (7 / 2, 9 / 10), (15 / 4, 1 / 2), ((4 : ℝ), (9 / 10 : ℝ))] (15 / 4) = .ok (1 / 2) := by norm_num [interpEval, interpGo]
  refine ⟨_, ?_, ?_, h1, h2, fun h => absurd (h _ _ _ _ (by norm_num) h1 h2) (by norm_num)⟩
  · rw [qrPodRun]
    dsimp only
    rw [hpod]
    dsimp only [Option.getD_some]
    rw [hmax]
    dsimp only
    rw [hsolve]
    dsimp only
    rw [hcurve]
    rfl
  · rw [qrPodRun]
    dsimp only
    rw [hpod]
    dsimp only [Option.getD_some]
    rw [hmax]
    dsimp only
    rw [hsolve]
    dsimp only
    rw [hcurve]
    rfl

/-- Exact regression lines exist. -/
example : ∃ q : List (ℝ × ℝ) → ℝ → QuantFit, ∀ tau, 0 < tau → tau < 1 → ∀ c0 c1,
    quantLoss tau crossObs (q crossObs tau).intercept (q crossObs tau).slope ≤ quantLoss tau crossObs c0 c1 := by
  obtain ⟨q, hq⟩ := quantReg_exists
  exact ⟨q, fun tau h0 h1 => hq crossObs tau h0 h1⟩

end Verif.Props
