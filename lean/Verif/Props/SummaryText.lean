import Verif.Model.SummaryText
import Verif.Props.Summary2
import Verif.Props.Accessors
import Verif.Props.Summary

/-!
# `PODSummary`: sizes of the table, text of the results, settings given to the methods (C132, C133, C134)
-/

namespace Verif.Props
open Verif.Py Verif.Model

/-! ## C132: sizes that exist are shown -/

/-- **C132 (restricted).**  When both curves reach the probability level in the observed range, the row shows both roots, rounded. -/
theorem C132_row_partial {O : Type} (f : PodFns O) (solve : (ℝ → ℝ) → ℝ → ℝ → ℝ → ℝ) (lo hi : ℝ) (model : ℝ → ℝ) (modelCl : ℝ → ℝ → ℝ) (o : O)
    (hf : ∀ p c, f.size o p c = curveSizes solve lo hi model modelCl p c) (label : String) (b : Bool) (p c : ℝ)
    (hp : model lo ≤ p ∧ p ≤ model hi) (hc : modelCl c lo ≤ p ∧ p ≤ modelCl c hi) :
    sizeRow f label (some (o, b)) p c =
      (label, .num (round2F (.fin (solve model p lo hi))), .num (round2F (.fin (solve (modelCl c) p lo hi)))) := by
  have : detectSize f (some (o, b)) p c = (.fin (solve model p lo hi), .fin (solve (modelCl c) p lo hi)) := by
    simp [detectSize, hf, curveSizes, computeDetectionSize, hp.1, hp.2, hc.1, hc.2]
  unfold sizeRow
  rw [this]
  rfl

/-- **C132 is violated**: whatever the method and its curve, when the curve at the confidence level does not reach the probability level in the
observed range, the table shows -1 in the column of the detection size although `computeDetectionSize(p)` returns it. -/
theorem C132_violated {O : Type} (f : PodFns O) (solve : (ℝ → ℝ) → ℝ → ℝ → ℝ → ℝ) (lo hi : ℝ) (model : ℝ → ℝ) (modelCl : ℝ → ℝ → ℝ) (o : O)
    (hf : ∀ p c, f.size o p c = curveSizes solve lo hi model modelCl p c) (label : String) (b : Bool) (p c : ℝ)
    (hp : model lo ≤ p ∧ p ≤ model hi) (hc : modelCl c hi < p) :
    computeDetectionSize solve lo hi model (some (modelCl c)) (some p) none none none = .ok ([solve model p lo hi], [labelP p]) ∧
    sizeRow f label (some (o, b)) p c = (label, .num (round2F (.fin (-1))), .num (round2F (.fin (-1)))) := by
  have h1 : ¬ (modelCl c lo ≤ p ∧ p ≤ modelCl c hi) := fun h => absurd h.2 (not_le.2 hc)
  refine ⟨by simp [computeDetectionSize, hp.1, hp.2], ?_⟩
  have : detectSize f (some (o, b)) p c = (.fin (-1), .fin (-1)) := by
    simp only [detectSize, hf, curveSizes, computeDetectionSize]
    simp [hp.1, hp.2, h1]
  unfold sizeRow
  rw [this]
  rfl

/-- A curve that reaches 9/10 at 9 and a curve at the confidence level that stays below 8/10. -/
example : ∃ (f : PodFns Unit),
    sizeRow f "Kriging :" (some ((), true)) (9/10) (95/100) = ("Kriging :", .num (round2F (.fin (-1))), .num (round2F (.fin (-1)))) := by
  refine ⟨{ size := fun _ p c => curveSizes (fun _ _ _ _ => 9) 0 10 (fun a => a / 10) (fun _ a => a * 8 / 100) p c
            r2 := fun _ _ => .ok (.fin 1), q2 := fun _ => .ok (.fin 1), drawPOD := fun _ _ _ => .ok (), drawModel := fun _ _ => .ok ()
            drawValidation := fun _ => .ok () }, ?_⟩
  exact (C132_violated _ (fun _ _ _ _ => 9) 0 10 (fun a => a / 10) (fun _ a => a * 8 / 100) () (fun _ _ => rfl) "Kriging :" true (9/10) (95/100)
    (by norm_num) (by norm_num)).2

/-! ## C133: text of the results -/

/-- The name of a method in the warning. -/
def warnName : MethodKey → Option (List Char)
  | .quantileRegression => some "quantile regression".toList
  | .polynomialChaos => some "polynomial chaos".toList
  | .kriging => some "kriging".toList
  | _ => none

/-- The methods whose results are computed after removal of the censored observations; those of the linear model use them in the likelihood. -/
def UsesFiltered (k : MethodKey) : Prop := k = .quantileRegression ∨ k = .polynomialChaos ∨ k = .kriging

/-- **C133 (restricted), the warning.**  Without censoring there is no warning; with censoring it names exactly the active methods that use the
filtered data (kriging with several inputs). -/
theorem C133_warning_partial (censored : Bool) (dim : ℕ) (active : MethodKey → Bool) :
    (censored = false → filteredWarning censored dim active = none) ∧
    (censored = true → ∃ msg, filteredWarning censored dim active = some msg ∧ '\n' ∉ msg ∧
      ∀ k name, warnName k = some name → (name <:+: msg ↔ active k = true ∧ (k = .kriging → 1 < dim))) := by
  refine ⟨fun h => by simp [filteredWarning, h], fun h => ?_⟩
  subst h
  have key : ∀ b1 b2 b3 : Bool,
      let msg := (if b3 then (if b2 then (if b1 then "Warning : For ".toList ++ "quantile regression, ".toList else "Warning : For ".toList)
            ++ "polynomial chaos, ".toList else (if b1 then "Warning : For ".toList ++ "quantile regression, ".toList else "Warning : For ".toList))
            ++ "kriging, ".toList else (if b2 then (if b1 then "Warning : For ".toList ++ "quantile regression, ".toList else "Warning : For ".toList)
            ++ "polynomial chaos, ".toList else (if b1 then "Warning : For ".toList ++ "quantile regression, ".toList else "Warning : For ".toList)))
            ++ "results are given for filtered data.".toList
      '\n' ∉ msg ∧ ("quantile regression".toList <:+: msg ↔ b1 = true) ∧ ("polynomial chaos".toList <:+: msg ↔ b2 = true) ∧
        ("kriging".toList <:+: msg ↔ b3 = true) := by
    decide +kernel
  obtain ⟨k0, k1, k2, k3⟩ := key (active .quantileRegression) (active .polynomialChaos) (decide (1 < dim) && active .kriging)
  refine ⟨_, rfl, k0, ?_⟩
  intro k name hk
  cases k <;> simp only [warnName, Option.some.injEq, reduceCtorEq] at hk <;> subst hk
  · exact k1.trans (by simp)
  · exact k2.trans (by simp)
  · exact k3.trans (by simp [and_comm])

/-- **C133 is violated**: with censored data and no active method that uses the filtered data, the warning is given nevertheless, and names no
method. -/
theorem C133_violated (dim : ℕ) (active : MethodKey → Bool) (h : ∀ k, UsesFiltered k → active k = false) :
    filteredWarning true dim active = some "Warning : For results are given for filtered data.".toList := by
  have h1 := h .quantileRegression (.inl rfl)
  have h2 := h .polynomialChaos (.inr (.inl rfl))
  have h3 := h .kriging (.inr (.inr rfl))
  simp only [filteredWarning, h1, h2, h3, Bool.and_false]
  decide

/-- **C133, the lines.**  For all tables without line breaks in their rows, the text consists of exactly these lines, each title and each row of the two
tables being a line of its own, in order, and the warning being the last line. -/
theorem C133_lines_partial (val pod : List (List Char)) (warning : Option (List Char)) (hv : val ≠ []) (hp : pod ≠ [])
    (h : ∀ r ∈ val ++ pod, '\n' ∉ r) (hw : ∀ msg, warning = some msg → '\n' ∉ msg) :
    lines (resultsText val pod warning) =
      [[], List.replicate 80 '-', "         Model validation results".toList, List.replicate 80 '-'] ++ val
        ++ [List.replicate 80 '-', [], List.replicate 80 '-', "         POD results".toList, List.replicate 80 '-'] ++ pod
        ++ [List.replicate 80 '-', [], warning.getD []] := by
  have key : resultsText val pod warning = joinLines
      ([[], List.replicate 80 '-', "         Model validation results".toList, List.replicate 80 '-'] ++ (val
        ++ ([List.replicate 80 '-', [], List.replicate 80 '-', "         POD results".toList, List.replicate 80 '-'] ++ (pod
        ++ ([List.replicate 80 '-', []] ++ [warning.getD []]))))) := by
    rw [join_append (by simp) (by simp), join_append hv (by simp), join_append (by simp) (by simp), join_append hp (by simp),
      join_append (by simp) (by simp)]
    have e1 : ['\n'] ++ dashes ++ "         Model validation results\n".toList ++ dashes
        = joinLines [[], List.replicate 80 '-', "         Model validation results".toList, List.replicate 80 '-'] ++ ['\n'] := by
      decide +kernel
    have e2 : dashes ++ ['\n'] ++ dashes ++ "         POD results\n".toList ++ dashes
        = joinLines [List.replicate 80 '-', [], List.replicate 80 '-', "         POD results".toList, List.replicate 80 '-'] ++ ['\n'] := by
      decide +kernel
    have e3 : dashes ++ ['\n'] = joinLines [List.replicate 80 '-', []] ++ ['\n'] := by decide +kernel
    have e4 : joinLines [warning.getD []] = warning.getD [] := by simp [joinLines]
    have hfull : resultsText val pod warning =
        (['\n'] ++ dashes ++ "         Model validation results\n".toList ++ dashes) ++ (joinLines val ++ ('\n' ::
          ((dashes ++ ['\n'] ++ dashes ++ "         POD results\n".toList ++ dashes) ++ (joinLines pod ++ ('\n' ::
            ((dashes ++ ['\n']) ++ warning.getD [])))))) := by
      cases warning <;> simp only [resultsText, Option.getD_none, Option.getD_some, List.append_assoc, List.cons_append, List.nil_append,
        List.append_nil]
    rw [hfull, e1, e2, e3, e4]
    simp only [List.append_assoc, List.cons_append, List.nil_append]
  rw [key, lines, joinLines, List.splitOn_intercalate]
  · simp only [List.append_assoc, List.cons_append, List.nil_append]
  · have hd : ∀ t ∈ [[], List.replicate 80 '-', "         Model validation results".toList, "         POD results".toList], '\n' ∉ t := by decide
    have hwd : '\n' ∉ warning.getD [] := by
      cases warning with
      | none => simp
      | some msg => exact hw msg rfl
    intro l hl
    simp only [List.mem_append, List.mem_cons, List.not_mem_nil, or_false] at hl
    rcases hl with (rfl | rfl | rfl | rfl) | hl | (rfl | rfl | rfl | rfl | rfl) | hl | (rfl | rfl) | rfl
    · exact hd _ (by simp)
    · exact hd _ (by simp)
    · exact hd _ (by simp)
    · exact hd _ (by simp)
    · exact h _ (by simp [hl])
    · exact hd _ (by simp)
    · exact hd _ (by simp)
    · exact hd _ (by simp)
    · exact hd _ (by simp)
    · exact hd _ (by simp)
    · exact h _ (by simp [hl])
    · exact hd _ (by simp)
    · exact hd _ (by simp)
    · exact hwd
  · simp

/-- The warning names kriging and not the deactivated chaos. -/
example : ∃ msg, filteredWarning true 2 (fun k => decide (k ≠ .polynomialChaos)) = some msg ∧ "kriging".toList <:+: msg ∧
    ¬ "polynomial chaos".toList <:+: msg := by
  obtain ⟨msg, h1, -, h2⟩ := (C133_warning_partial true 2 (fun k => decide (k ≠ .polynomialChaos))).2 rfl
  exact ⟨msg, h1, (h2 .kriging _ rfl).2 (by decide), fun h => absurd ((h2 .polynomialChaos _ rfl).1 h).1 (by decide)⟩

example : lines (resultsText [['a'], ['b']] [['c']] none) =
    [[], List.replicate 80 '-', "         Model validation results".toList, List.replicate 80 '-'] ++ [['a'], ['b']]
        ++ [List.replicate 80 '-', [], List.replicate 80 '-', "         POD results".toList, List.replicate 80 '-'] ++ [['c']]
        ++ [List.replicate 80 '-', [], []] :=
  C133_lines_partial _ _ none (by simp) (by simp) (by decide) (fun _ h => by cases h)

/-! ## C134: settings given to the methods -/

def callVerbose : SumCall → Option Bool | .setVerbose (.bool b) => some b | _ => none
def callSimulation : SumCall → Option PyVal | .setSimulationSize v => some v | _ => none
def callSampling : SumCall → Option PyVal | .setSamplingSize v => some v | _ => none
def callActive (k : MethodKey) : SumCall → Option Bool
  | .setMethodActive m (.bool b) => if m = k.name then some b else none
  | _ => none

/-- The method `k` is used by a run in a state with these calls before. -/
def InUse (dim : ℕ) (before : List SumCall) (k : MethodKey) : Prop :=
  lastOr (before.filterMap (callActive k)) true = true ∧ (k = .kriging → 1 < dim)

/-- A run constructs an object for `k`: the analysis succeeds, the constructor too, and no exception comes from the methods used before it. -/
def Constructs (dim : ℕ) (before : List SumCall) (r : RunOutcome) (k : MethodKey) : Prop :=
  (∃ an, r.analysis = .ok an) ∧ InUse dim before k ∧ r.ctor k = .ok () ∧
    ∀ j, order.idxOf j < order.idxOf k → InUse dim before j → r.ctor j = .ok () ∧ r.exec j = .ok ()

/-- The hypothesis on the residuals in the name of each method of the linear model. -/
def lawOf : MethodKey → Option ResidualLaw
  | .linearGauss => some .normal
  | .linearBinomial => some .unspecified
  | .linearKernelSmoothing => some .kernelSmoothing
  | _ => none

/-- The documented use of the settings by each method: the sampling size for polynomial chaos and kriging, all input columns for the same ones, the
number of simulations for the methods that simulate (all but the one without hypothesis on the residuals). -/
structure Follows (d : SumData) (before : List SumCall) (k : MethodKey) (o : PodConfig) : Prop where
  data : o.data = d
  columns : o.allColumns = true ↔ k = .polynomialChaos ∨ k = .kriging
  residuals : o.residuals = lawOf k
  verbose : o.verbose = lastOr (before.filterMap callVerbose) true
  simulation : k ≠ .linearBinomial → o.simulationSize = lastOr (before.filterMap callSimulation) (.int 1000)
  sampling : k = .polynomialChaos ∨ k = .kriging → o.samplingSize = some (lastOr (before.filterMap callSampling) (.int 5000))

theorem sumObj_settings (d : SumData) (dim : ℕ) (calls : List SumCall) :
    (sumObjAfter d dim calls).settings.verbose = lastOr (calls.filterMap callVerbose) true ∧
    (sumObjAfter d dim calls).settings.simulationSize = lastOr (calls.filterMap callSimulation) (.int 1000) ∧
    (sumObjAfter d dim calls).settings.samplingSize = lastOr (calls.filterMap callSampling) (.int 5000) := by
  refine ⟨?_, ?_, ?_⟩
  · exact foldl_last _ (fun s : SumObj => s.settings.verbose) callVerbose (fun s o => by
      cases o with
      | setVerbose v => cases v <;> rfl
      | _ => rfl) calls _
  · exact foldl_last _ (fun s : SumObj => s.settings.simulationSize) callSimulation (fun s o => by cases o <;> rfl) calls _
  · exact foldl_last _ (fun s : SumObj => s.settings.samplingSize) callSampling (fun s o => by cases o <;> rfl) calls _

theorem sumObj_flags (d : SumData) (dim : ℕ) (calls : List SumCall) :
    (∀ k, (sumObjAfter d dim calls).core.active k = lastOr (calls.filterMap (callActive k)) true) ∧
      (sumObjAfter d dim calls).core.dim = dim := by
  refine ⟨fun k => ?_, ?_⟩
  · refine foldl_last _ (fun s : SumObj => s.core.active k) (callActive k) (fun s o => ?_) calls _
    cases o with
    | run r => exact congrFun (summaryRun_frame _ _).1 k
    | setMethodActive m v =>
      simp only [sumCall, setMethodActive]
      cases hm : MethodKey.ofName m with
      | none =>
        have hne : m ≠ k.name := by rintro rfl; rw [ofName_name] at hm; cases hm
        cases v <;> simp [callActive, hne]
      | some k' =>
        have hn := name_of_ofName hm
        cases v with
        | bool b =>
          by_cases hk : k = k'
          · subst hk; simp [callActive, hn]
          · have hne : m ≠ k.name := by
              rintro rfl
              rw [ofName_name] at hm; cases hm; exact hk rfl
            simp [callActive, hne, Function.update_of_ne hk]
        | _ => simp [callActive]
    | _ => rfl
  · induction calls using List.reverseRecOn with
    | nil => rfl
    | append_singleton l o ih =>
      rw [sumObjAfter, List.foldl_append, List.foldl_cons, List.foldl_nil]
      rw [sumObjAfter] at ih
      cases o with
      | run r => exact (summaryRun_frame _ _).2.trans ih
      | setMethodActive m v =>
        refine Eq.trans ?_ ih
        simp only [sumCall, setMethodActive]
        repeat' split
        all_goals rfl
      | _ => exact ih

/-- The environment of a run. -/
def envOf (d : SumData) (s : SumSettings) (r : RunOutcome) : SumEnv PodConfig :=
  { analysis := r.analysis
    make := fun k =>
      match r.ctor k with
      | .error err => .error err
      | .ok () => .ok (configure d s k)
    exec := r.exec }

theorem built_env (d : SumData) (dim : ℕ) (calls : List SumCall) (r : RunOutcome) (k : MethodKey) (o : PodConfig) :
    Built (envOf d (sumObjAfter d dim calls).settings r) (sumObjAfter d dim calls).core.active (sumObjAfter d dim calls).core.dim k o ↔
      Constructs dim calls r k ∧ o = configure d (sumObjAfter d dim calls).settings k := by
  obtain ⟨hf, hd⟩ := sumObj_flags d dim calls
  have hu : ∀ j, Usable (sumObjAfter d dim calls).core.active (sumObjAfter d dim calls).core.dim j ↔ InUse dim calls j := by
    intro j
    unfold Usable InUse
    rw [hf, hd]
  have hfine : ∀ j, Fine (envOf d (sumObjAfter d dim calls).settings r) j ↔ r.ctor j = .ok () ∧ r.exec j = .ok () := by
    intro j
    unfold Fine envOf
    cases hc : r.ctor j with
    | error e => simp [hc]
    | ok u => simp [hc]
  have hmake : (envOf d (sumObjAfter d dim calls).settings r).make k = .ok o ↔
      r.ctor k = .ok () ∧ o = configure d (sumObjAfter d dim calls).settings k := by
    unfold envOf
    cases hc : r.ctor k with
    | error e => simp [hc]
    | ok u => simp [hc, eq_comm]
  unfold Built Constructs
  simp only [hu, hfine, hmake]
  change ((∃ an, r.analysis = .ok an) ∧ _) ↔ _
  tauto

/-- **C134.**  After every history of calls, whether or not they raised, an object returned by the getter of a method was constructed by the last run
that reached this method, with the data, thresholds, Box-Cox option of the summary and the last verbosity, number of simulations and sampling size
accepted before this run. -/
theorem C134_settings_followed (d : SumData) (dim : ℕ) (calls : List SumCall) (k : MethodKey) (o : PodConfig)
    (h : getPOD k (sumObjAfter d dim calls).core = .ok o) :
    ∃ before r after, calls = before ++ .run r :: after ∧ Constructs dim before r k ∧ Follows d before k o ∧
      ∀ l r' l', after = l ++ .run r' :: l' → ¬ Constructs dim (before ++ .run r :: l) r' k := by
  have hslot : ∃ b, (sumObjAfter d dim calls).core.slot k = some (o, b) := by
    unfold getPOD at h
    split_ifs at h
    cases hs : (sumObjAfter d dim calls).core.slot k with
    | none => rw [hs] at h; cases h
    | some x =>
      rw [hs] at h
      cases h
      exact ⟨x.2, rfl⟩
  obtain ⟨b, hb⟩ := hslot
  clear h
  induction calls using List.reverseRecOn generalizing b with
  | nil => simp [sumObjAfter, summaryInit] at hb
  | append_singleton l c ih =>
    have step : sumObjAfter d dim (l ++ [c]) = (sumCall d c (sumObjAfter d dim l)).2 := by simp [sumObjAfter]
    rw [step] at hb
    have keep : (∀ r, c = .run r → ¬ Constructs dim l r k) → (sumObjAfter d dim l).core.slot k = some (o, b) →
        ∃ before r after, l ++ [c] = before ++ .run r :: after ∧ Constructs dim before r k ∧ Follows d before k o ∧
          ∀ m r' m', after = m ++ .run r' :: m' → ¬ Constructs dim (before ++ .run r :: m) r' k := by
      intro hn hs
      obtain ⟨before, r, after, h1, h2, h3, h4⟩ := ih b hs
      refine ⟨before, r, after ++ [c], by simp [h1], h2, h3, ?_⟩
      intro m r' m' heq
      rcases snoc_split heq with ⟨-, rfl, h'⟩ | ⟨post', -, h'⟩
      · rw [← h1]; exact hn r' h'
      · exact h4 m r' post' h'
    cases c with
    | run r =>
      have hs : (summaryRun (envOf d (sumObjAfter d dim l).settings r) (sumObjAfter d dim l).core).2.slot k = some (o, b) := hb
      obtain ⟨r1, r2⟩ := summaryRun_slot (envOf d (sumObjAfter d dim l).settings r) (sumObjAfter d dim l).core k
      by_cases hc : Constructs dim l r k
      · obtain ⟨b', hb', -⟩ := r1 _ ((built_env d dim l r k _).2 ⟨hc, rfl⟩)
        rw [hs] at hb'
        have ho : o = configure d (sumObjAfter d dim l).settings k := by
          simp only [Option.some.injEq, Prod.mk.injEq] at hb'
          exact hb'.1
        obtain ⟨s1, s2, s3⟩ := sumObj_settings d dim l
        refine ⟨l, r, [], rfl, hc, ?_, fun m r' m' h => by simp at h⟩
        subst ho
        exact ⟨by cases k <;> rfl, by cases k <;> simp [configure], by cases k <;> rfl, s1 ▸ (by cases k <;> rfl), fun hk => s2 ▸ (by
          cases k <;> first | rfl | exact absurd rfl hk), by
            rintro (rfl | rfl) <;> exact congrArg some s3⟩
      · refine keep (fun r' h' => by cases h'; exact hc) ?_
        rw [← r2 fun o' ho' => hc ((built_env d dim l r k o').1 ho').1]
        exact hs
    | setMethodActive m v =>
      refine keep (fun r' h' => by cases h') ?_
      rw [← hb]
      simp only [sumCall, setMethodActive]
      repeat' split
      all_goals rfl
    | _ => exact keep (fun r' h' => by cases h') hb

/-- A history: the sampling size is set, the chaos method runs, then the sampling size changes; the object has the value at the time of the run. -/
example (d : SumData) (an : Analysis) (o : PodConfig)
    (h : getPOD .polynomialChaos (sumObjAfter d 2 [.setSamplingSize (.int 7), .run ⟨.ok an, fun _ => .ok (), fun _ => .ok ()⟩,
      .setSamplingSize (.int 9)]).core = .ok o) : o.samplingSize = some (.int 7) := by
  obtain ⟨before, r, after, h1, h2, h3, h4⟩ := C134_settings_followed d 2 _ .polynomialChaos o h
  have hb : before = [.setSamplingSize (.int 7)] := by
    match before, h1 with
    | [], h1 => simp at h1
    | [x], h1 => simp at h1; simp [h1.1]
    | [x, y], h1 => simp at h1
    | x :: y :: z :: w, h1 => simp at h1
  rw [hb] at h3
  exact h3.sampling (.inl rfl)

/-- The getter does return an object in such a history. -/
example (d : SumData) (an : Analysis) : ∃ o, getPOD .polynomialChaos (sumObjAfter d 2 [.setSamplingSize (.int 7),
    .run ⟨.ok an, fun _ => .ok (), fun _ => .ok ()⟩, .setSamplingSize (.int 9)]).core = .ok o := ⟨_, rfl⟩

end Verif.Props
