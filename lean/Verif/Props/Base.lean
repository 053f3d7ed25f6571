import Verif.Model.Base
import Verif.Props.Censoring
import Mathlib.Topology.Order.IntermediateValue
import Mathlib.Analysis.SpecialFunctions.Pow.Real
import Mathlib.Tactic.Linarith
import Mathlib.Tactic.FieldSimp

/-!
# C12–C18, C26, C77, C81: base class, Box-Cox, detection size
-/

namespace Verif.Props
open Verif.Py Verif.Model

/-! ## C12 -/

/-- Input dimensions accepted by each class (specification). -/
def dimOK : PodClass → ℕ → Prop
  | .linear, d => d = 1
  | .quantile, d => d = 1
  | .kriging, d => 1 < d
  | .adaptiveSignal, d => 1 < d
  | .chaos, _ => True
  | .hitMiss, _ => True

theorem dimCheck_spec (c : PodClass) (d : ℕ) :
    (dimOK c d → dimCheck c d = .ok ()) ∧ (¬ dimOK c d → ∃ m, dimCheck c d = .error ⟨.assertion, m⟩) := by
  unfold dimOK dimCheck
  cases c <;> dsimp only <;> constructor <;> intro h <;>
    first
    | rw [if_pos h]
    | (rw [if_neg h]; exact ⟨_, rfl⟩)
    | rfl
    | exact absurd trivial h

/-- **C12.**  A constructor accepts exactly the well-formed shapes; otherwise it raises AssertionError, the
size being checked first, then the equality of the sizes, then the output dimension, then the input dimension;
on success the attributes are those of the arguments, the censoring flag is set iff a threshold is given, and the Box-Cox
flag and parameter are those of the argument (a float is the parameter), except for hit-miss which never transforms. -/
theorem C12_constructor {K : Type} (c : PodClass) (a : CtorArgs K) :
    ((∃ st, subclassInit c a = .ok st) ↔
      3 ≤ a.inSize ∧ a.inSize = a.outSize ∧ a.outDim = 1 ∧ dimOK c a.inDim) ∧
    (∀ e, subclassInit c a = .error e → e.kind = .assertion) ∧
    (a.inSize < 3 → subclassInit c a = .error ⟨.assertion, "Not enough observations."⟩) ∧
    (3 ≤ a.inSize → a.inSize ≠ a.outSize →
      subclassInit c a = .error ⟨.assertion, "InputSample and outputSample must have the same size."⟩) ∧
    (3 ≤ a.inSize → a.inSize = a.outSize → a.outDim ≠ 1 →
      subclassInit c a = .error ⟨.assertion, "Dimension outputSample must be 1."⟩) ∧
    (∀ st, subclassInit c a = .ok st → st.size = a.inSize ∧ st.dim = a.inDim ∧ st.simulationSize = 1000 ∧
      (st.censored = true ↔ a.noiseThres ≠ none ∨ a.saturationThres ≠ none)) ∧
    (∀ st, subclassInit c a = .ok st →
      (c = .hitMiss → st.lambda = none ∧ st.boxCox = false) ∧
      (c ≠ .hitMiss → (∀ l, a.boxCox = .float l → st.lambda = some l ∧ st.boxCox = true) ∧
        ∀ b, a.boxCox = .other b → st.lambda = none ∧ st.boxCox = b)) := by
  suffices h : _ ∧ _ ∧ _ ∧ _ ∧ _ ∧ _ from ⟨h.1, h.2.1, h.2.2.1, h.2.2.2.1, h.2.2.2.2.1, h.2.2.2.2.2, by
    intro st hst
    have hok : podInit (ctorArgsFor c a) = .ok st := by
      unfold subclassInit at hst
      cases hp : podInit (ctorArgsFor c a) with
      | error e => rw [hp] at hst; cases hst
      | ok st' =>
        rw [hp] at hst
        dsimp only at hst
        cases hdc : dimCheck c st'.dim with
        | error e => rw [hdc] at hst; cases hst
        | ok u => rw [hdc] at hst; exact hst
    unfold podInit at hok
    split_ifs at hok
    rw [Except.ok.injEq] at hok
    subst hok
    dsimp only
    refine ⟨fun hc => by subst hc; exact ⟨rfl, rfl⟩, fun hc => ?_⟩
    have hB : (ctorArgsFor c a).boxCox = a.boxCox := by cases c <;> first | rfl | exact absurd rfl hc
    rw [hB]
    exact ⟨fun l hl => by rw [hl]; exact ⟨rfl, rfl⟩, fun b hb => by rw [hb]; exact ⟨rfl, rfl⟩⟩⟩
  obtain ⟨hd1, hd2⟩ := dimCheck_spec c a.inDim
  have hA : ctorArgsFor c a = { a with boxCox := (ctorArgsFor c a).boxCox } := by
    cases c <;> rfl
  have hc : (a.noiseThres.isSome || a.saturationThres.isSome) = true
      ↔ a.noiseThres ≠ none ∨ a.saturationThres ≠ none := by
    cases a.noiseThres <;> cases a.saturationThres <;> simp
  unfold subclassInit
  rw [hA]
  unfold podInit
  by_cases h1 : 3 ≤ a.inSize
  · by_cases h2 : a.inSize = a.outSize
    · by_cases h3 : a.outDim = 1
      · simp only [h1, ← h2, h3, not_true, if_false]
        by_cases h4 : dimOK c a.inDim
        · rw [hd1 h4]
          simp only [h4, and_true, true_and, Except.ok.injEq, exists_eq', reduceCtorEq, forall_eq']
          refine ⟨by simp, by omega, by simp, by simp, hc⟩
        · obtain ⟨m, hm⟩ := hd2 h4
          rw [hm]
          simp only [h4, and_false, reduceCtorEq, exists_false, Except.error.injEq, forall_eq']
          refine ⟨trivial, trivial, by omega, by simp, by simp, by simp⟩
      · have h1' : 3 ≤ a.outSize := h2 ▸ h1
        simp [h1', h2, h3]
    · simp [h1, h2]
  · have : a.inSize < 3 := by omega
    simp [h1, this]

example : subclassInit .kriging (⟨5, 2, 5, 1, some 1, none, .float 2⟩ : CtorArgs ℚ)
    = .ok ⟨5, 2, true, some 2, true, 1000⟩ := by decide +kernel

/-! ## C26 -/

/-- **C26.**  The constructor with an analysis raises AttributeError iff any other data argument is present or
detection is missing (whatever the `boxCox` argument); otherwise all data are those of the analysis. -/
theorem C26_analysis_constructor {S K R : Type} (a : LinearCtorArgs S K R) (an : AnalysisData S K R)
    (h : a.analysis = some an) :
    (Raises (resolveLinearArgs a) .attributeError ↔
      a.inputSample ≠ none ∨ a.outputSample ≠ none ∨ a.noiseThres ≠ none ∨ a.saturationThres ≠ none ∨
      a.resDistFact ≠ none ∨ a.detection = none) ∧
    (∀ r, resolveLinearArgs a = .ok r →
      r.inputSample = some an.inputSample ∧ r.outputSample = some an.outputSample ∧
      r.noiseThres = an.noiseThres ∧ r.saturationThres = an.saturationThres ∧
      r.resDistFact = some an.resDistFact ∧ r.detection = a.detection ∧
      (∀ l, an.boxCoxParameter = some l → r.boxCox = .float l) ∧
      (an.boxCoxParameter = none → r.boxCox = .other false)) := by
  unfold resolveLinearArgs
  rw [h]
  dsimp only
  split_ifs with hc
  · obtain ⟨h1, h2, h3, h4, h5, h6⟩ := hc
    rw [Option.isNone_iff_eq_none] at h1 h2 h3 h4 h5
    rw [Option.isSome_iff_ne_none] at h6
    constructor
    · constructor
      · rintro ⟨m, hm⟩; exact absurd hm (by simp)
      · intro hh; simp_all
    · intro r hr
      rw [Except.ok.injEq] at hr
      subst hr
      refine ⟨rfl, rfl, rfl, rfl, rfl, rfl, ?_, ?_⟩
      · intro l hl; simp [hl]
      · intro hl; simp [hl]
  · constructor
    · constructor
      · intro _
        by_contra hh
        apply hc
        simp only [not_or, ne_eq, not_not] at hh
        obtain ⟨h1, h2, h3, h4, h5, h6⟩ := hh
        refine ⟨by simp [h1], by simp [h2], by simp [h3], by simp [h4], by simp [h5], ?_⟩
        rw [Option.isSome_iff_ne_none]; exact h6
      · intro _; exact ⟨_, rfl⟩
    · intro r hr; exact absurd hr (by simp)

example : ∃ r, resolveLinearArgs (⟨none, none, some 3, none, none, none, .other true,
    some ⟨"in", "out", some 1, none, some 2, ()⟩⟩ : LinearCtorArgs String ℚ Unit) = .ok r ∧
    r.boxCox = .float 2 := ⟨_, rfl, rfl⟩

/-! ## Filtering of finite data is the model of `filterCensoredData` -/

/-- **C01 (in `run`).**  The restriction used by `podRun` is that of `filterCensoredData` on finite signals. -/
theorem C01_run_uses_filter {α : Type} (fmax : ℝ) (obs : List (α × ℝ)) (noise sat : Option ℝ) :
    let r := filterCensoredData fmax (obs.map Prod.fst) (obs.map fun o => F.fin o.2)
      (noise.map F.fin) (sat.map F.fin)
    r.inputUnc = (uncensoredObs fmax obs noise sat).map Prod.fst ∧
    r.signalsUnc = (uncensoredObs fmax obs noise sat).map fun o => F.fin o.2 := by
  have e1 : effNoise fmax (noise.map F.fin) = F.fin (noise.getD (-fmax)) := by cases noise <;> rfl
  have e2 : effSat fmax (sat.map F.fin) = F.fin (sat.getD fmax) := by cases sat <;> rfl
  have hz : obs.map Prod.fst = (obs.map fun o => (o.1, F.fin o.2)).map Prod.fst := by simp
  have hs : (obs.map fun o => F.fin o.2) = (obs.map fun o => (o.1, F.fin o.2)).map Prod.snd := by simp
  dsimp only [filterCensoredData]
  rw [e1, e2, hz, hs, maskSelect_map_fst, maskSelect_map_snd, uncensoredObs, List.filter_map]
  constructor <;> simp [Function.comp_def]

/-! ## C13 -/

/-- **C13 is violated** by every POD class: after `_run` with Box-Cox, the stored parameter is the optimised one,
whatever the user gave; two different user values give the same outcome. -/
theorem C13_violated {α G : Type} (fmax : ℝ) (bc : List α → List ℝ → ℝ → Res (ℝ × G)) (obs : List (α × ℝ))
    (det noise sat : Option ℝ) (cens : Bool) (g g' : Option G) (userLambda userLambda' : ℝ) :
    (podRun fmax bc obs det noise sat true cens ⟨some userLambda, g⟩).1
      = (podRun fmax bc obs det noise sat true cens ⟨some userLambda', g'⟩).1 ∧
    (∀ r, (podRun fmax bc obs det noise sat true cens ⟨some userLambda, g⟩).1 = .ok r →
      ∃ lam gr shift, bc (r.obs.map Prod.fst) ((if cens then uncensoredObs fmax obs noise sat else obs).map Prod.snd)
          shift = .ok (lam, gr) ∧
        (podRun fmax bc obs det noise sat true cens ⟨some userLambda, g⟩).2.lambda = some lam ∧
        r.transform = some lam) := by
  unfold podRun
  simp only [if_true]
  generalize (if cens = true then uncensoredObs fmax obs noise sat else obs) = obs'
  cases h1 : boxCoxShift (obs'.map Prod.snd) with
  | error e => simp
  | ok shift =>
    dsimp only
    cases h2 : bc (obs'.map Prod.fst) (obs'.map Prod.snd) shift with
    | error e => simp
    | ok lg =>
      obtain ⟨lam, gr⟩ := lg
      dsimp only
      cases h3 : boxCoxSample lam ((obs'.map Prod.snd).map (· + shift)) with
      | error e => simp
      | ok sg =>
        have hl : sg.length = obs'.length := by
          rw [boxCoxSample] at h3
          split_ifs at h3
          rw [Except.ok.injEq] at h3
          rw [← h3]; simp
        dsimp only
        cases h4 : boxCoxThreshold lam shift (if cens then noise else none) with
        | error e => simp
        | ok _ =>
          dsimp only
          cases h5 : boxCoxThreshold lam shift (if cens then sat else none) with
          | error e => simp
          | ok _ =>
            dsimp only
            cases det with
            | none => simp
            | some d =>
              dsimp only
              cases h6 : boxCoxTransform lam (d + shift) with
              | error e => simp
              | ok d' =>
                refine ⟨rfl, ?_⟩
                intro r hr
                rw [Except.ok.injEq] at hr
                subst hr
                refine ⟨lam, gr, shift, ?_, rfl, rfl⟩
                rw [← h2]
                congr 1
                rw [List.map_fst_zip]
                simp [hl]

/-- A concrete violation: the user asks for `0.5`, the optimiser finds `2`, the POD uses and reports `2`. -/
theorem C13_violated_witness :
    ∃ r, (podRun (α := Unit) (G := Unit) 1000 (fun _ _ _ => .ok (2, ())) [((), 1), ((), 2), ((), 3)]
        (some 2) none none true false ⟨some 0.5, none⟩) = (.ok r, ⟨some 2, some ()⟩) ∧ r.transform = some 2 := by
  have h1 : boxCoxShift [1, 2, (3 : ℝ)] = .ok 0 := by
    norm_num [boxCoxShift, sampleMin]
  refine ⟨⟨[((), boxCoxFun 2 1), ((), boxCoxFun 2 2), ((), boxCoxFun 2 3)], 0, some (boxCoxFun 2 2), some 2⟩, ?_, rfl⟩
  · simp [podRun, h1, boxCoxSample, boxCoxThreshold, boxCoxTransform]

/-- **C13 (restricted).**  The analysis class honours a given parameter: the transformed signals use it, the
optimiser is not consulted, and `getBoxCoxParameter` returns it.  Without a given parameter the optimised one
is used.  (The POD classes ignore it, see `C13_violated`.) -/
theorem C13_analysis_honours_partial {α G : Type} (bc : List α → List ℝ → ℝ → Res (ℝ × G))
    (obs : List (α × ℝ)) (userLambda : ℝ) (g : Option G) (out : List ℝ) (st : BoxCoxAttrs G)
    (h : analysisBoxCox bc obs true ⟨some userLambda, g⟩ = (.ok out, st)) :
    st.lambda = some userLambda ∧
    ∃ shift, boxCoxShift (obs.map Prod.snd) = .ok shift ∧
      out = obs.map fun o => boxCoxFun userLambda (o.2 + shift) := by
  unfold analysisBoxCox at h
  simp only [if_true] at h
  cases h1 : boxCoxShift (obs.map Prod.snd) with
  | error e => rw [h1] at h; simp at h
  | ok shift =>
    rw [h1] at h
    simp only [Prod.mk.injEq] at h
    obtain ⟨ha, hb⟩ := h
    refine ⟨by rw [← hb], shift, rfl, ?_⟩
    rw [boxCoxSample] at ha
    split_ifs at ha
    rw [Except.ok.injEq] at ha
    rw [← ha]; simp [Function.comp_def]

/-! ## C14 -/

theorem boxCoxFun_strictMono (lam : ℝ) {x y : ℝ} (hx : 0 < x) (hxy : x < y) :
    boxCoxFun lam x < boxCoxFun lam y := by
  unfold boxCoxFun
  split_ifs with h
  · exact Real.log_lt_log hx hxy
  · rcases lt_or_gt_of_ne h with h | h
    · have := Real.rpow_lt_rpow_of_neg hx hxy h
      rw [div_lt_div_right_of_neg h]; linarith
    · have := Real.rpow_lt_rpow hx.le hxy h
      rw [div_lt_div_iff_of_pos_right h]; linarith

/-- **C14.**  Comparisons of positive values are unchanged by the transformation, for every exponent. -/
theorem C14_boxcox_preserves_decisions (lam x t y z : ℝ)
    (hx : boxCoxTransform lam x = .ok y) (ht : boxCoxTransform lam t = .ok z) :
    (z < y ↔ t < x) ∧ (y ≤ z ↔ x ≤ t) ∧ (y = z ↔ x = t) := by
  have key : ∀ u v, boxCoxTransform lam u = .ok v → 0 < u ∧ v = boxCoxFun lam u := by
    intro u v h
    rw [boxCoxTransform] at h
    split_ifs at h with hu
    rw [Except.ok.injEq] at h
    exact ⟨hu, h.symm⟩
  obtain ⟨hx0, rfl⟩ := key x y hx
  obtain ⟨ht0, rfl⟩ := key t z ht
  rcases lt_trichotomy x t with h | h | h
  · have := boxCoxFun_strictMono lam hx0 h
    exact ⟨⟨fun h' => by linarith, fun h' => by linarith⟩, ⟨fun _ => h.le, fun _ => this.le⟩,
      ⟨fun h' => by linarith, fun h' => by linarith⟩⟩
  · subst h; simp
  · have := boxCoxFun_strictMono lam ht0 h
    exact ⟨⟨fun _ => h, fun _ => this⟩, ⟨fun h' => by linarith, fun h' => by linarith⟩,
      ⟨fun h' => by linarith, fun h' => by linarith⟩⟩

/-- C14 at the level of `_run`: in the returned data a transformed signal exceeds the transformed detection
threshold iff the raw signal exceeds the raw threshold. -/
theorem C14_run_preserves_decisions {α G : Type} (fmax : ℝ) (bc : List α → List ℝ → ℝ → Res (ℝ × G))
    (obs : List (α × ℝ)) (d : ℝ) (noise sat : Option ℝ) (boxCox cens : Bool) (st st' : BoxCoxAttrs G)
    (r : RunResult α) (h : podRun fmax bc obs (some d) noise sat boxCox cens st = (.ok r, st')) :
    let obs' := if cens then uncensoredObs fmax obs noise sat else obs
    ∃ d', r.detection = some d' ∧ r.obs.length = obs'.length ∧
      r.obs.map (fun o => (o.1, decide (d' < o.2))) = obs'.map fun o => (o.1, decide (d < o.2)) := by
  unfold podRun at h
  dsimp only at h ⊢
  generalize (if cens = true then uncensoredObs fmax obs noise sat else obs) = obs' at h ⊢
  cases boxCox with
  | false =>
    simp only [Bool.false_eq_true, if_false, Prod.mk.injEq, Except.ok.injEq] at h
    obtain ⟨h, -⟩ := h
    subst h
    exact ⟨d, rfl, rfl, rfl⟩
  | true =>
    simp only [if_true] at h
    cases h1 : boxCoxShift (obs'.map Prod.snd) with
    | error e => rw [h1] at h; simp at h
    | ok shift =>
      rw [h1] at h; dsimp only at h
      cases h2 : bc (obs'.map Prod.fst) (obs'.map Prod.snd) shift with
      | error e => rw [h2] at h; simp at h
      | ok lg =>
        obtain ⟨lam, gr⟩ := lg
        rw [h2] at h; dsimp only at h
        cases h3 : boxCoxSample lam ((obs'.map Prod.snd).map (· + shift)) with
        | error e => rw [h3] at h; simp at h
        | ok sg =>
          rw [h3] at h; dsimp only at h
          cases h4 : boxCoxThreshold lam shift (if cens then noise else none) with
          | error e => rw [h4] at h; simp at h
          | ok _ =>
            rw [h4] at h; dsimp only at h
            cases h5 : boxCoxThreshold lam shift (if cens then sat else none) with
            | error e => rw [h5] at h; simp at h
            | ok _ =>
              rw [h5] at h; dsimp only at h
              cases h6 : boxCoxTransform lam (d + shift) with
              | error e => rw [h6] at h; simp at h
              | ok d' =>
                rw [h6] at h
                simp only [Prod.mk.injEq, Except.ok.injEq] at h
                obtain ⟨h, -⟩ := h
                subst h
                rw [boxCoxSample] at h3
                split_ifs at h3 with hpos
                rw [Except.ok.injEq] at h3
                subst h3
                refine ⟨d', rfl, by simp, ?_⟩
                clear h1 h2 h4 h5
                induction obs' with
                | nil => rfl
                | cons o os ih =>
                  have hp0 : 0 < o.2 + shift := hpos _ (by simp)
                  have e := (C14_boxcox_preserves_decisions lam (o.2 + shift) (d + shift)
                    (boxCoxFun lam (o.2 + shift)) d' (by simp [boxCoxTransform, hp0]) h6).1
                  have ih := ih (fun x hx => hpos x (by simp at hx ⊢; exact Or.inr hx))
                  simp only [List.map_cons, List.zip_cons_cons, List.cons.injEq, Prod.mk.injEq, true_and]
                  refine ⟨?_, ih⟩
                  rw [decide_eq_decide, e]
                  constructor <;> intro h <;> linarith

/-! ## C15 -/

theorem foldl_min_le (x : ℝ) (xs : List ℝ) :
    xs.foldl min x ≤ x ∧ (∀ y ∈ xs, xs.foldl min x ≤ y) ∧ (xs.foldl min x = x ∨ xs.foldl min x ∈ xs) := by
  induction xs generalizing x with
  | nil => simp
  | cons a l ih =>
    obtain ⟨h1, h2, h3⟩ := ih (min x a)
    simp only [List.foldl_cons, List.mem_cons, forall_eq_or_imp]
    refine ⟨h1.trans (min_le_left _ _), ⟨h1.trans (min_le_right _ _), h2⟩, ?_⟩
    rcases h3 with h3 | h3
    · rcases min_choice x a with h | h
      · left; rw [h3, h]
      · right; left; rw [h3, h]
    · right; right; exact h3

/-- `getMin` is the least element. -/
theorem sampleMin_spec {l : List ℝ} {mn : ℝ} (h : sampleMin l = .ok mn) : IsLeast {x | x ∈ l} mn := by
  cases l with
  | nil => simp [sampleMin] at h
  | cons x xs =>
    rw [sampleMin, Except.ok.injEq] at h
    obtain ⟨h1, h2, h3⟩ := foldl_min_le x xs
    rw [h] at h1 h2 h3
    refine ⟨?_, ?_⟩
    · simp only [Set.mem_ofPred_eq, List.mem_cons]; exact h3
    · rintro y hy
      simp only [Set.mem_ofPred_eq, List.mem_cons] at hy
      rcases hy with rfl | hy
      · exact h1
      · exact h2 y hy

/-- **C15 (restricted).**  With `mn` the smallest signal: if `mn ≠ 0` all shifted signals are positive; they are
positive exactly when `mn ≠ 0`.  A shifted threshold is positive iff it exceeds `mn - 100` (when `mn < 0`) or
zero (when `mn ≥ 0`).  The full statement fails for `mn = 0` and for lower thresholds. -/
theorem C15_shift_positive_partial (signals : List ℝ) (mn shift : ℝ) (hmn : IsLeast {x | x ∈ signals} mn)
    (h : boxCoxShift signals = .ok shift) :
    ((∀ x ∈ signals, 0 < x + shift) ↔ mn ≠ 0) ∧
    (∀ t, 0 < t + shift ↔ (if mn < 0 then mn - 100 else 0) < t) := by
  cases hs : sampleMin signals with
  | error e => rw [boxCoxShift, hs] at h; simp at h
  | ok m =>
    have hm := sampleMin_spec hs
    have he : m = mn := hm.unique hmn
    subst he
    rw [boxCoxShift, hs, Except.ok.injEq] at h
    subst h
    split_ifs with h0
    · refine ⟨⟨fun _ => h0.ne, fun _ x hx => ?_⟩, fun t => ⟨fun h => by linarith, fun h => by linarith⟩⟩
      have := hmn.2 hx; linarith
    · refine ⟨⟨fun hh => ?_, fun hh x hx => ?_⟩, fun t => by simp⟩
      · have := hh m hmn.1; simp at this; exact this.ne'
      · have h1 := hmn.2 hx
        have : 0 < m := lt_of_le_of_ne (not_lt.mp h0) (Ne.symm hh)
        linarith

/-- **C15 is violated**: signals with minimum 0 are not shifted, and then `_run` raises for every λ; a detection
threshold more than 100 below the smallest negative signal raises too. -/
theorem C15_violated {G : Type} (g : G) (lam : ℝ) (st : BoxCoxAttrs G) :
    Raises (podRun (α := Unit) 1000 (fun _ _ _ => .ok (lam, g)) [((), 0), ((), 1), ((), 2)] (some 1)
      none none true false st).1 .typeError ∧
    Raises (podRun (α := Unit) 1000 (fun _ _ _ => .ok (lam, g)) [((), -1), ((), 1), ((), 2)] (some (-200))
      none none true false st).1 .typeError := by
  have h1 : boxCoxShift [0, 1, (2 : ℝ)] = .ok 0 := by norm_num [boxCoxShift, sampleMin]
  have h2 : boxCoxShift [-1, 1, (2 : ℝ)] = .ok 101 := by norm_num [boxCoxShift, sampleMin]
  refine ⟨⟨"", ?_⟩, ⟨"", ?_⟩⟩
  · simp [podRun, h1, boxCoxSample]
  · have h3 : ¬ (0 < (-200 : ℝ) + 101) := by norm_num
    have h4 : (0 < (-1 : ℝ) + 101) := by norm_num
    have h5 : (0 < (1 : ℝ) + 101) := by norm_num
    have h6 : (0 < (2 : ℝ) + 101) := by norm_num
    simp [podRun, h2, boxCoxSample, boxCoxThreshold, boxCoxTransform, h3, h4, h5, h6]

/-! ## C16, C18 -/

/-- Contract of the root finder on an interval with a sign change. -/
def SolveSpec (solve : (ℝ → ℝ) → ℝ → ℝ → ℝ → ℝ) : Prop :=
  ∀ f v a b, a ≤ b → ContinuousOn f (Set.Icc a b) → f a ≤ v → v ≤ f b →
    solve f v a b ∈ Set.Icc a b ∧ f (solve f v a b) = v

/-- The contract is satisfiable (intermediate value theorem). -/
theorem solveSpec_nonempty : ∃ solve, SolveSpec solve := by
  classical
  refine ⟨fun f v a b => if h : ∃ x ∈ Set.Icc a b, f x = v then h.choose else 0, ?_⟩
  intro f v a b hab hf h1 h2
  have h : ∃ x ∈ Set.Icc a b, f x = v := by
    obtain ⟨x, hx, hv⟩ := intermediate_value_Icc hab hf ⟨h1, h2⟩
    exact ⟨x, hx, hv⟩
  simp only [h, dif_pos]
  exact h.choose_spec

/-- **C16.**  For continuous curves: without confidence level the call raises iff the level is not between the
POD values at the ends of the interval, and otherwise returns a size in the interval where the POD is the
level.  With a confidence level it raises iff the level is out of range for one of the two curves, and
otherwise returns the two sizes.  Missing bounds are those of the data. -/
theorem C16_detection_size (solve : (ℝ → ℝ) → ℝ → ℝ → ℝ → ℝ) (hs : SolveSpec solve) (dataMin dataMax : ℝ)
    (f fc : ℝ → ℝ) (p c : ℝ) (dmin dmax : Option ℝ)
    (hab : dmin.getD dataMin ≤ dmax.getD dataMax)
    (hf : ContinuousOn f (Set.Icc (dmin.getD dataMin) (dmax.getD dataMax)))
    (hfc : ContinuousOn fc (Set.Icc (dmin.getD dataMin) (dmax.getD dataMax))) :
    let a := dmin.getD dataMin
    let b := dmax.getD dataMax
    let r1 := computeDetectionSize solve dataMin dataMax f (some fc) (some p) none dmin dmax
    let r2 := computeDetectionSize solve dataMin dataMax f (some fc) (some p) (some c) dmin dmax
    (Raises r1 .exception ↔ ¬ (f a ≤ p ∧ p ≤ f b)) ∧
    (f a ≤ p ∧ p ≤ f b → ∃ d, r1 = .ok ([d], [labelP p]) ∧ d ∈ Set.Icc a b ∧ f d = p) ∧
    (Raises r2 .exception ↔ ¬ ((f a ≤ p ∧ p ≤ f b) ∧ (fc a ≤ p ∧ p ≤ fc b))) ∧
    ((f a ≤ p ∧ p ≤ f b) ∧ (fc a ≤ p ∧ p ≤ fc b) →
      ∃ d dc, r2 = .ok ([d, dc], [labelP p, labelPC p c]) ∧ d ∈ Set.Icc a b ∧ f d = p ∧
        dc ∈ Set.Icc a b ∧ fc dc = p) := by
  intro a b r1 r2
  have e1 : r1 = if ¬ (f a ≤ p ∧ p ≤ f b) then .error ⟨.exception, "The POD model does not contain, for the given defect interval, the wanted probability level."⟩
      else .ok ([solve f p a b], [labelP p]) := rfl
  have e2 : r2 = if ¬ (f a ≤ p ∧ p ≤ f b) then .error ⟨.exception, "The POD model does not contain, for the given defect interval, the wanted probability level."⟩
      else if ¬ (fc a ≤ p ∧ p ≤ fc b) then .error ⟨.exception, "The POD model at the confidence level does not contain, for the given defect interval, the wanted probability level."⟩
      else .ok ([solve f p a b, solve fc p a b], [labelP p, labelPC p c]) := rfl
  rw [e1, e2]
  refine ⟨?_, ?_, ?_, ?_⟩
  · by_cases h : f a ≤ p ∧ p ≤ f b
    · rw [if_neg (by simpa using h)]
      constructor
      · rintro ⟨m, hm⟩; exact absurd hm (by simp)
      · intro h'; exact absurd h h'
    · rw [if_pos h]; exact ⟨fun _ => h, fun _ => ⟨_, rfl⟩⟩
  · intro h
    rw [if_neg (by simpa using h)]
    obtain ⟨h1, h2⟩ := hs f p a b hab hf h.1 h.2
    exact ⟨_, rfl, h1, h2⟩
  · by_cases h : f a ≤ p ∧ p ≤ f b
    · rw [if_neg (by simpa using h)]
      by_cases h' : fc a ≤ p ∧ p ≤ fc b
      · rw [if_neg (by simpa using h')]
        constructor
        · rintro ⟨m, hm⟩; exact absurd hm (by simp)
        · intro h''; exact absurd ⟨h, h'⟩ h''
      · rw [if_pos h']; exact ⟨fun _ hh => h' hh.2, fun _ => ⟨_, rfl⟩⟩
    · rw [if_pos h]; exact ⟨fun _ hh => h hh.1, fun _ => ⟨_, rfl⟩⟩
  · rintro ⟨h, h'⟩
    rw [if_neg (by simpa using h), if_neg (by simpa using h')]
    obtain ⟨h1, h2⟩ := hs f p a b hab hf h.1 h.2
    obtain ⟨h3, h4⟩ := hs fc p a b hab hfc h'.1 h'.2
    exact ⟨_, _, rfl, h1, h2, h3, h4⟩

/-- Instance: the curve `x ↦ x/10` on `[0,10]` at level 9/10. -/
example : ContinuousOn (fun x : ℝ => x / 10) (Set.Icc 0 10) ∧ (0 : ℝ) / 10 ≤ 9 / 10 ∧ (9 : ℝ) / 10 ≤ 10 / 10 :=
  ⟨by fun_prop, by norm_num, by norm_num⟩

/-- **C18.**  If the confidence curve is below a strictly increasing POD curve on the interval, the size at the
confidence level is at least the size without. -/
theorem C18_confidence_size_ge (solve : (ℝ → ℝ) → ℝ → ℝ → ℝ → ℝ) (hs : SolveSpec solve) (dataMin dataMax : ℝ)
    (f fc : ℝ → ℝ) (p c d dc : ℝ) (dmin dmax : Option ℝ) (lbl : List String)
    (hab : dmin.getD dataMin ≤ dmax.getD dataMax)
    (hf : ContinuousOn f (Set.Icc (dmin.getD dataMin) (dmax.getD dataMax)))
    (hfc : ContinuousOn fc (Set.Icc (dmin.getD dataMin) (dmax.getD dataMax)))
    (hmono : StrictMonoOn f (Set.Icc (dmin.getD dataMin) (dmax.getD dataMax)))
    (hle : ∀ x ∈ Set.Icc (dmin.getD dataMin) (dmax.getD dataMax), fc x ≤ f x)
    (h : computeDetectionSize solve dataMin dataMax f (some fc) (some p) (some c) dmin dmax
      = .ok ([d, dc], lbl)) : d ≤ dc := by
  obtain ⟨-, -, hr, hok⟩ := C16_detection_size solve hs dataMin dataMax f fc p c dmin dmax hab hf hfc
  have hcond : (f (dmin.getD dataMin) ≤ p ∧ p ≤ f (dmax.getD dataMax)) ∧
      (fc (dmin.getD dataMin) ≤ p ∧ p ≤ fc (dmax.getD dataMax)) := by
    by_contra hn
    obtain ⟨m, hm⟩ := hr.mpr hn
    rw [h] at hm; exact absurd hm (by simp)
  obtain ⟨d1, dc1, h1, h2, h3, h4, h5⟩ := hok hcond
  rw [h, Except.ok.injEq, Prod.mk.injEq] at h1
  obtain ⟨h1, -⟩ := h1
  simp only [List.cons.injEq, and_true] at h1
  obtain ⟨rfl, rfl⟩ := h1
  by_contra hlt
  have := hmono h4 h2 (not_le.mp hlt)
  have := hle dc h4
  linarith

/-- Instance of the hypotheses: `x/10` and `x/20`. -/
example : StrictMonoOn (fun x : ℝ => x / 10) (Set.Icc 0 10) ∧ ∀ x ∈ Set.Icc (0 : ℝ) 10, x / 20 ≤ x / 10 := by
  constructor
  · intro a _ b _ h; simp only; linarith
  · intro x hx; have := hx.1; linarith

/-! ## C17 -/

/-- **C17 (restricted).**  On exact numbers the label of the level `k/100` is `a k`.  Missing: binary rounding. -/
theorem C17_label_exact_partial (k j : ℕ) :
    labelP ((k : ℝ) / 100) = "a" ++ toString k ∧
    labelPC ((k : ℝ) / 100) ((j : ℝ) / 100) = "a" ++ toString k ++ "/" ++ toString j := by
  have h : ∀ n : ℕ, pyInt ((n : ℝ) / 100 * 100) = n := by
    intro n
    rw [div_mul_cancel₀ _ (by norm_num), pyInt, if_pos (by positivity)]
    exact Int.floor_natCast n
  have ht : ∀ n : ℕ, toString (n : ℤ) = toString n := fun n => rfl
  constructor
  · rw [labelP, h, ht]
  · rw [labelPC, h, h, ht, ht]

/-- **C17 is violated** on doubles: exactly the levels 29 %, 57 % and 58 % (of the 99 integer percentages) are
labelled with the integer below.  The statement covers the whole finite domain of integer percentages. -/
theorem C17_violated : ∀ k < 100, 0 < k →
    labelDouble k = if k = 29 ∨ k = 57 ∨ k = 58 then (k : ℤ) - 1 else k := by
  decide +kernel

/-! ## C77 -/

/-- **C77 (restricted).**  For non-negative values the limits contain all points.  Missing: negative values. -/
theorem C77_limits_contain_partial (target prediction : List ℝ) (lo hi : ℝ)
    (h : validationLimits target prediction = .ok (lo, hi)) (hpos : ∀ x ∈ target ++ prediction, 0 ≤ x) :
    ∀ x ∈ target ++ prediction, lo ≤ x ∧ x ≤ hi := by
  unfold validationLimits at h
  cases h1 : sampleMin (target ++ prediction) with
  | error e => rw [h1] at h; simp at h
  | ok mn =>
    cases h2 : sampleMax (target ++ prediction) with
    | error e => rw [h1, h2] at h; simp at h
    | ok mx =>
      rw [h1, h2] at h
      simp only [Except.ok.injEq, Prod.mk.injEq] at h
      obtain ⟨rfl, rfl⟩ := h
      have hmn := sampleMin_spec h1
      have hmx : ∀ y ∈ target ++ prediction, y ≤ mx := by
        generalize target ++ prediction = l at h2
        cases l with
        | nil => simp [sampleMax] at h2
        | cons a l =>
          rw [sampleMax, Except.ok.injEq] at h2
          have : ∀ (l : List ℝ) (a : ℝ), a ≤ l.foldl max a ∧ ∀ y ∈ l, y ≤ l.foldl max a := by
            intro l
            induction l with
            | nil => intro a; simp
            | cons b l ih =>
              intro a
              obtain ⟨i1, i2⟩ := ih (max a b)
              simp only [List.foldl_cons, List.mem_cons, forall_eq_or_imp]
              exact ⟨(le_max_left _ _).trans i1, (le_max_right _ _).trans i1, i2⟩
          obtain ⟨i1, i2⟩ := this l a
          rw [h2] at i1 i2
          intro y hy
          rcases List.mem_cons.mp hy with rfl | hy
          · exact i1
          · exact i2 y hy
      intro x hx
      have a1 := hmn.2 hx
      have a2 := hmx x hx
      have a3 := hpos mn hmn.1
      have a4 := hpos x hx
      constructor <;> linarith

/-- **C77 is violated** as soon as a value is negative: the smallest point is cut off. -/
theorem C77_violated (target prediction : List ℝ) (mn : ℝ) (hm : IsLeast {x | x ∈ target ++ prediction} mn)
    (hneg : mn < 0) (lo hi : ℝ) (h : validationLimits target prediction = .ok (lo, hi)) : mn < lo := by
  unfold validationLimits at h
  cases h1 : sampleMin (target ++ prediction) with
  | error e => rw [h1] at h; simp at h
  | ok m =>
    cases h2 : sampleMax (target ++ prediction) with
    | error e => rw [h1, h2] at h; simp at h
    | ok mx =>
      rw [h1, h2] at h
      simp only [Except.ok.injEq, Prod.mk.injEq] at h
      obtain ⟨rfl, rfl⟩ := h
      have := (sampleMin_spec h1).unique hm
      subst this
      linarith

example : IsLeast {x : ℝ | x ∈ [-2, 1] ++ [3, -1]} (-2) := by
  constructor
  · simp
  · intro y hy; simp at hy; rcases hy with rfl | rfl | rfl | rfl <;> norm_num

/-! ## C81 -/

/-- **C81 (restricted).**  Without thresholds the data of the model are the given ones, at least three.  Missing:
censored data. -/
theorem C81_three_observations_partial (fmax : ℝ) (c : PodClass) (dim : ℕ) (obs r : List (List ℝ × ℝ))
    (h : metamodelData fmax c dim obs none none = .ok r) : r = obs ∧ 3 ≤ r.length := by
  unfold metamodelData at h
  cases h1 : subclassInit c (⟨obs.length, dim, obs.length, 1, none, none, .other false⟩ : CtorArgs ℝ) with
  | error e => rw [h1] at h; simp at h
  | ok st =>
    rw [h1] at h
    obtain ⟨hiff, -, -, -, -, hst, -⟩ := C12_constructor c
      (⟨obs.length, dim, obs.length, 1, none, none, .other false⟩ : CtorArgs ℝ)
    have hc : st.censored = false := by
      have := (hst st h1).2.2.2
      simpa using this
    have h3 := (hiff.mp ⟨st, h1⟩).1
    simp only [hc, Bool.false_eq_true, if_false] at h
    split_ifs at h
    rw [Except.ok.injEq] at h
    subst h
    exact ⟨rfl, h3⟩

/-- **C81 is violated**: three observations of which two are below the noise threshold are accepted, and the
model is built on a single observation. -/
theorem C81_violated :
    metamodelData 1000 .kriging 2 [([1, 1], 1), ([2, 1], 2), ([3, 1], 30)] (some 5) none
      = .ok [([3, 1], 30)] := by
  have h : subclassInit .kriging (⟨3, 2, 3, 1, some 5, none, .other false⟩ : CtorArgs ℝ)
      = .ok ⟨3, 2, true, none, false, 1000⟩ := by
    simp [subclassInit, podInit, ctorArgsFor, dimCheck, boxCoxInit]
  have h1 : ¬ ((5 : ℝ) < 1) := by norm_num
  have h2 : ¬ ((5 : ℝ) < 2) := by norm_num
  have h3 : ((5 : ℝ) < 30) := by norm_num
  have h4 : ((30 : ℝ) < 1000) := by norm_num
  simp [metamodelData, h, uncensoredObs, h1, h2, h3, h4]

end Verif.Props
