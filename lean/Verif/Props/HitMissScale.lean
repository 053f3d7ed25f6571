import Verif.Props.DefaultDist

/-!
# The scale of the signals of a hit-miss study (C232)

`AdaptiveHitMissPOD` uses the signals and the physical model only through their comparison with the detection threshold.  Hence the
scale in which the signal is expressed (volts or decibels, say) is immaterial, and a study with a signal and a threshold is the study
with the signals coded as 0 or 1 beforehand.
-/

namespace Verif.Props

open Verif.Py Verif.Model

/-- The physical model expressed in another scale of the signal. -/
def rescaled {X : Type} (h : ℝ → ℝ) (f : X → Res ℝ) (x : X) : Res ℝ :=
  match f x with
  | .error e => .error e
  | .ok y => .ok (h y)

/-- The physical model coded as 0 or 1. -/
noncomputable def coded {X : Type} (det : ℝ) (f : X → Res ℝ) (x : X) : Res ℝ :=
  match f x with
  | .error e => .error e
  | .ok y => .ok (if det < y then 1 else 0)

/-- **C232.**  Signals, physical model and all the thresholds given are expressed in another scale `h`, strictly increasing (volts to
decibels for instance): construction and run end with the same result - the same error, or the same observations kept, the same
points added, the same labels, the same classifiers and confusion matrix.  The signals lie in the range of the floating point numbers
in both scales. -/
theorem C232_scale {X : Type} (fmax : ℝ) (fit : ℕ → List X → List Bool → Res (X → F ℝ)) (argsort : List (F ℝ) → List ℕ)
    (obs : List (X × ℝ)) (f : X → Res ℝ) (det : ℝ) (noise sat : Option ℝ) (cand : List X) (nMore : ℕ) (h : ℝ → ℝ)
    (hh : StrictMono h) (hr : ∀ o ∈ obs, |o.2| < fmax ∧ |h o.2| < fmax) :
    hmCtorRun fmax fit argsort (obs.map fun o => (o.1, h o.2)) (some (rescaled h f)) (some (h det)) (noise.map h) (sat.map h) cand
      nMore = hmCtorRun fmax fit argsort obs (some f) (some det) noise sat cand nMore := by
  have hk : hmKept fmax (obs.map fun o => (o.1, h o.2)) (noise.map h) (sat.map h)
      = (hmKept fmax obs noise sat).map fun o => (o.1, h o.2) := by
    rw [hmKept, hmKept]
    have e : (noise.map h = none ∧ sat.map h = none) ↔ (noise = none ∧ sat = none) := by simp
    by_cases hc : noise = none ∧ sat = none
    · rw [if_pos hc, if_pos (e.mpr hc)]
    · rw [if_neg hc, if_neg (fun c => hc (e.mp c)), uncensoredObs, uncensoredObs, List.filter_map]
      congr 1
      refine List.filter_congr fun o ho => ?_
      obtain ⟨h1, h2⟩ := hr o ho
      have h1' := abs_lt.mp h1
      have h2' := abs_lt.mp h2
      simp only [Function.comp]
      congr 1
      · cases noise with
        | none => simp [h1'.1, h2'.1]
        | some t => simp [hh.lt_iff_lt]
      · cases sat with
        | none => simp [h1'.2, h2'.2]
        | some t => simp [hh.lt_iff_lt]
  have h1 : ((hmKept fmax obs noise sat).map fun o => (o.1, h o.2)).map (·.1) = (hmKept fmax obs noise sat).map (·.1) := by
    simp [Function.comp]
  have h2 : ((hmKept fmax obs noise sat).map fun o => (o.1, h o.2)).map (fun o => decide (h det < o.2))
      = (hmKept fmax obs noise sat).map fun o => decide (det < o.2) := by
    rw [List.map_map]
    refine List.map_congr_left fun o _ => ?_
    simp [Function.comp, hh.lt_iff_lt]
  have hi : hmInit ((hmKept fmax obs noise sat).map fun o => (o.1, h o.2)) (some (rescaled h f)) (some (h det))
      = hmInit (hmKept fmax obs noise sat) (some f) (some det) := by
    simp only [hmInit, h1, h2]
    congr 4
    funext x
    rw [rescaled]
    cases f x with
    | error e => rfl
    | ok y => simp [hh.lt_iff_lt]
  rw [hmCtorRun, hk, hi, hmCtorRun]

/-- **C232.**  A study with a signal and a threshold is the study without threshold in which the signals and the values of the
physical model were coded as 1 (above the threshold) or 0 beforehand: same result, same error. -/
theorem C232_coded {X : Type} (fmax : ℝ) (fit : ℕ → List X → List Bool → Res (X → F ℝ)) (argsort : List (F ℝ) → List ℕ)
    (obs : List (X × ℝ)) (f : X → Res ℝ) (det : ℝ) (cand : List X) (nMore : ℕ) :
    hmCtorRun fmax fit argsort (obs.map fun o => (o.1, if det < o.2 then 1 else 0)) (some (coded det f)) none none none cand nMore
      = hmCtorRun fmax fit argsort obs (some f) (some det) none none cand nMore := by
  have lab : ∀ y : ℝ, asLabel (if det < y then 1 else 0) = decide (det < y) := by
    intro y
    rw [asLabel]
    by_cases c : det < y <;> simp [c]
  have h1 : (obs.map fun o => (o.1, if det < o.2 then (1 : ℝ) else 0)).map (·.1) = obs.map (·.1) := by simp [Function.comp]
  have h2 : (obs.map fun o => (o.1, if det < o.2 then (1 : ℝ) else 0)).map (fun o => asLabel o.2)
      = obs.map fun o => decide (det < o.2) := by
    rw [List.map_map]
    exact List.map_congr_left fun o _ => lab o.2
  have hk : ∀ l : List (X × ℝ), hmKept fmax l none none = l := fun l => by rw [hmKept, if_pos ⟨rfl, rfl⟩]
  have hi : hmInit (obs.map fun o => (o.1, if det < o.2 then (1 : ℝ) else 0)) (some (coded det f)) none
      = hmInit obs (some f) (some det) := by
    simp only [hmInit, h1, h2, Option.map_some]
    congr 4
    funext x
    rw [coded]
    cases f x with
    | error e => rfl
    | ok y => simp only [lab]
  rw [hmCtorRun, hk, hi, hmCtorRun, hk]

/-- Both theorems apply to the run with one added point of `demoHitMiss`; the decibel-like scale is `y ↦ y³ + y`. -/
example : ∃ s, hmCtorRun 1000000 (fun _ _ _ => .ok fun _ : ℝ => .fin (1 / 2)) argsortRef
      ([(1, 10), (2, 30), (3, 50)].map fun o : ℝ × ℝ => (o.1, o.2 ^ 3 + o.2)) (some (rescaled (fun y => y ^ 3 + y) fun x => .ok (20 * x)))
      (some ((25 : ℝ) ^ 3 + 25)) ((some (15 : ℝ)).map fun y => y ^ 3 + y) none [(5 : ℝ)] 1 = .ok s ∧ s.labels.length = 3 := by
  have mono : StrictMono fun y : ℝ => y ^ 3 + y := by
    intro a b hab
    have : a ^ 3 < b ^ 3 := by
      have h3 : Odd 3 := by decide
      exact h3.strictMono_pow hab
    show a ^ 3 + a < b ^ 3 + b
    linarith
  have e := C232_scale 1000000 (fun _ _ _ => .ok fun _ : ℝ => .fin (1 / 2)) argsortRef [(1, 10), (2, 30), (3, 50)] (fun x => .ok (20 * x)) 25
    (some 15) none [(5 : ℝ)] 1 (fun y => y ^ 3 + y) mono (by
      intro o ho
      simp only [List.mem_cons, List.not_mem_nil, or_false] at ho
      rcases ho with rfl | rfl | rfl <;> norm_num)
  rw [show ((none : Option ℝ).map fun y => y ^ 3 + y) = none from rfl] at e
  have hb : selectBatch argsortRef (.fin 0.45) (.fin 0.52) [.fin (1 / 2)] = .ok [0, 0, 0, 0, 0] := by
    have h1 : eligible (.fin 0.45) (.fin 0.52) [.fin (1 / 2)] = [0] := by
      have h2 : window (.fin 0.45) (.fin 0.52) [.fin (1 / 2)] = [0] := by
        norm_num [window, npWhere, F.ge, F.lt, F.le, List.range_succ]
      rw [eligible, h2]; rfl
    rw [selectBatch, h1]
    simp [argsortRef, npTake, npGet, quant]
  have hk : hmKept 1000000 [((1 : ℝ), (10 : ℝ)), (2, 30), (3, 50)] (some 15) none = [(2, 30), (3, 50)] := by
    rw [hmKept, if_neg (by simp)]
    norm_num [uncensoredObs]
  have : ∃ s, hmCtorRun 1000000 (fun _ _ _ => .ok fun _ : ℝ => .fin (1 / 2)) argsortRef [(1, 10), (2, 30), (3, 50)]
      (some fun x => .ok (20 * x)) (some 25) (some 15) none [(5 : ℝ)] 1 = .ok s ∧ s.labels.length = 3 := by
    simp only [hmCtorRun, hmInit, hk, hmRun, hmLoop, hmIter, List.map_cons, List.map_nil, Clf.eval, hb]
    simp [labelAll]
  obtain ⟨s, hs, hl⟩ := this
  exact ⟨s, e.trans hs, hl⟩

end Verif.Props
