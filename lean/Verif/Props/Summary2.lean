import Verif.Props.Summary
import Verif.Py.Double
import Mathlib.Algebra.Order.Floor.Ring
import Mathlib.Data.Real.Archimedean
import Mathlib.Tactic.Positivity
import Mathlib.Tactic.FieldSimp
import Mathlib.Algebra.Order.Field.Power

/-!
# C71, C72, C87, C88: tables, graphs and saved file of `PODSummary`
-/

namespace Verif.Props
open Verif.Py Verif.Model

variable {O : Type}

/-- After a run that completes, the table can be built. -/
theorem completes_slot (e : SumEnv O) (s : Summary O) (hc : Completes e s.active s.dim) :
    (summaryRun e s).2.active = s.active ∧ (summaryRun e s).2.dim = s.dim ∧ (∃ an, (summaryRun e s).2.analysis = some an) ∧
    ∀ k, Usable s.active s.dim k → ∃ o, e.make k = .ok o ∧ (summaryRun e s).2.slot k = some (o, true) := by
  obtain ⟨⟨an, han⟩, hf⟩ := hc
  refine ⟨(summaryRun_frame e s).1, (summaryRun_frame e s).2, ?_, ?_⟩
  · rw [summaryRun_eq, han]
    exact ⟨an, (runList_frame e order _).2.2⟩
  · intro k hk
    obtain ⟨⟨o, ho⟩, hx⟩ := hf k hk
    obtain ⟨b, h1, h2⟩ := (summaryRun_slot e s k).1 o ⟨⟨an, han⟩, hk, ho, fun j _ hj => hf j hj⟩
    exact ⟨o, ho, by rw [h1, h2.2 hx]⟩

/-- **C71 (restricted), after a run.**  After every history ending with a run that completes, the table is built, provided
the validation results of the constructed objects can be computed. -/
theorem C71_after_run_partial (f : PodFns O) (t : String) (dim : ℕ) (ops : List (SumOp O)) (e : SumEnv O) (p c : ℝ)
    (hc : Completes e (flagAfter ops) dim)
    (hr : ∀ k o, e.make k = .ok o → (∃ r, f.r2 o p = .ok r) ∧ ∃ q, f.q2 o = .ok q) :
    ∃ r, buildPrint f t (sumAfter dim (ops ++ [.run e])) p c = .ok r := by
  rw [C71_built_iff_partial, sumAfter_snoc]
  obtain ⟨hfl, hd⟩ := sumAfter_flags dim ops
  have hc' : Completes e (sumAfter dim ops).active (sumAfter dim ops).dim := by rw [hfl, hd]; exact hc
  obtain ⟨h1, h2, h3, h4⟩ := completes_slot e _ hc'
  refine ⟨fun _ => h3, fun hu => ?_, fun hu => ?_, fun hu => ?_⟩
  all_goals
    change Usable (summaryRun e (sumAfter dim ops)).2.active (summaryRun e (sumAfter dim ops)).2.dim _ at hu
    rw [h1, h2] at hu
    obtain ⟨o, ho, hs⟩ := h4 _ hu
    obtain ⟨⟨r, hr1⟩, ⟨q, hq1⟩⟩ := hr _ o ho
  · exact ⟨o, true, r, hs, hr1⟩
  · exact ⟨o, true, r, q, hs, hr1, hq1⟩
  · exact ⟨o, true, q, hs, hq1⟩

/-- **C71 is violated**: whenever the quantile regression, the chaos or (several inputs) the kriging is active but was not
built by a run, the table cannot be built, in every state. -/
theorem C71_violated (f : PodFns O) (t : String) (s : Summary O) (p c : ℝ) (k : MethodKey)
    (hk : k ∈ [MethodKey.quantileRegression, .polynomialChaos, .kriging]) (hu : Usable s.active s.dim k)
    (hs : s.slot k = none) : ¬ ∃ r, buildPrint f t s p c = .ok r := by
  rw [C71_built_iff_partial]
  rintro ⟨-, h1, h2, h3⟩
  simp only [List.mem_cons, List.not_mem_nil, or_false] at hk
  rcases hk with rfl | rfl | rfl
  · obtain ⟨o, b, r, h, -⟩ := h1 hu; rw [hs] at h; cases h
  · obtain ⟨o, b, r, q, h, -⟩ := h2 hu; rw [hs] at h; cases h
  · obtain ⟨o, b, q, h, -⟩ := h3 hu; rw [hs] at h; cases h

/-- **C71 is violated, witness**: deactivate the quantile regression, run, activate it again, ask for the results. -/
theorem C71_violated_witness (f : PodFns O) (t : String) (o : O) (dim : ℕ) (p c : ℝ) :
    ¬ ∃ r, buildPrint f t (sumAfter dim [.setActive "QuantileRegression" (.bool false), .run (okRun o),
      .setActive "QuantileRegression" (.bool true)]) p c = .ok r := by
  set ops : List (SumOp O) := [.setActive "QuantileRegression" (.bool false), .run (okRun o),
      .setActive "QuantileRegression" (.bool true)] with hops
  obtain ⟨hfl, hd⟩ := sumAfter_flags dim ops
  refine C71_violated f t _ p c .quantileRegression (by simp) ?_ ?_
  · rw [hfl, hd]
    refine ⟨?_, by simp⟩
    simp [flagAfter, hops, setsTo, MethodKey.name]
  · cases hs : (sumAfter dim ops).slot .quantileRegression with
    | none => rfl
    | some x =>
      exfalso
      obtain ⟨pre, e, post, h1, h2, -⟩ := (slot_spec dim ops .quantileRegression).2 x.1 x.2 hs
      have hf := h2.2.1.1
      rw [hops] at h1
      match pre, h1 with
      | [], h1 => simp at h1
      | [a], h1 =>
        simp at h1
        rw [← h1.1] at hf
        simp [flagAfter, setsTo, MethodKey.name] at hf
      | [a, b], h1 => simp at h1
      | a :: b :: c' :: d, h1 => simp at h1

/-- A summary whose three linear methods were not run although active shows -1, and does not raise. -/
example (f : PodFns O) (t : String) (an : Analysis) (p c : ℝ) :
    ∃ r, buildPrint f t (⟨1, fun k => k = .linearGauss, fun _ => none, some an⟩ : Summary O) p c = .ok r := by
  rw [C71_built_iff_partial]
  refine ⟨fun _ => ⟨an, rfl⟩, ?_, ?_, ?_⟩ <;> (rintro ⟨h, -⟩; simp at h)

open Classical in
/-- **C71 (restricted), the validation table.**  Whenever the tables are built, the validation table is its header (four rows) followed by one
row for each family that is shown, in the documented order: the linear regression (if one of its three methods is active) with
the uncensored R2 and, if there is a censored model, its R2 in the last column; the quantile regression with its R2; the chaos
with R2 and Q2 in this order; the kriging with its Q2 only. -/
theorem C71_validation_partial (f : PodFns O) (t : String) (s : Summary O) (p c : ℝ) (v : List ValidRow) (tab : List Row)
    (h : buildPrint f t s p c = .ok (v, tab)) :
    ∃ lin qr ch kr : List ValidRow, v.drop 4 = lin ++ qr ++ ch ++ kr ∧
      (v.take 4).map Prod.fst = ["", "", "", ""] ∧ v[2]? = some ("", .txt "R2", .txt "Q2", .txt "R2") ∧
      (if s.active .linearGauss = true ∨ s.active .linearBinomial = true ∨ s.active .linearKernelSmoothing = true then
        ∃ an, s.analysis = some an ∧ lin = [("Linear Regression (> 0.8):", .num (round2F an.unc.tests.R2), .txt "",
          (an.cens.map fun r => Cell.num (round2F r.tests.R2)).getD (.txt ""))]
      else lin = []) ∧
      (if Usable s.active s.dim .quantileRegression then
        ∃ o b r, s.slot .quantileRegression = some (o, b) ∧ f.r2 o p = .ok r ∧
          qr = [("Quantile Regression at level " ++ t ++ " (> 0.6):", .num (round2F r), .txt "", .txt "")]
      else qr = []) ∧
      (if Usable s.active s.dim .polynomialChaos then
        ∃ o b r q, s.slot .polynomialChaos = some (o, b) ∧ f.r2 o p = .ok r ∧ f.q2 o = .ok q ∧
          ch = [("Polynomial Chaos (> 0.8):", .num (round2F r), .num (round2F q), .txt "")]
      else ch = []) ∧
      (if Usable s.active s.dim .kriging then
        ∃ o b q, s.slot .kriging = some (o, b) ∧ f.q2 o = .ok q ∧
          kr = [("Kriging (> 0.8):", .txt "", .num (round2F q), .txt "")]
      else kr = []) := by
  have hus : ∀ k, k ≠ .kriging → (Usable s.active s.dim k ↔ s.active k = true) := fun k hk =>
    ⟨fun h => h.1, fun h => ⟨h, fun h' => absurd h' hk⟩⟩
  have hok : (decide (1 < s.dim) && s.active .kriging) = true ↔ Usable s.active s.dim .kriging := by
    rw [Bool.and_eq_true, decide_eq_true_eq]; exact ⟨fun h => ⟨h.2, fun _ => h.1⟩, fun h => ⟨h.2 rfl, h.1⟩⟩
  unfold buildPrint at h
  split at h
  · cases h
  rename_i l hl
  split at h
  · cases h
  rename_i q hq
  split at h
  · cases h
  rename_i ch hch
  split at h
  · cases h
  rename_i k hk
  rw [Except.ok.injEq, Prod.mk.injEq] at h
  refine ⟨l.1, q.1, ch.1, k.1, ?_, ?_, ?_, ?_, ?_, ?_, ?_⟩
  · rw [← h.1]; simp [validHeader]
  · rw [← h.1]; simp [validHeader]
  · rw [← h.1]; simp [validHeader]
  · unfold buildLinear at hl
    split at hl
    · rename_i hc
      rw [if_pos (by simpa [or_assoc] using hc)]
      split at hl
      · cases hl
      · rename_i an han
        rw [Except.ok.injEq] at hl
        refine ⟨an, han, ?_⟩
        rw [← hl]
        cases an.cens <;> rfl
    · rename_i hc
      rw [if_neg (by simpa [or_assoc] using hc)]
      rw [Except.ok.injEq] at hl
      rw [← hl]
  · unfold buildQuantile at hq
    split at hq
    · rename_i hc
      rw [if_pos ((hus _ (by simp)).2 hc)]
      split at hq
      · cases hq
      rename_i o ho
      obtain ⟨b, hb⟩ := attr_ok ho
      split at hq
      · cases hq
      rename_i r hr
      rw [Except.ok.injEq] at hq
      exact ⟨o, b, r, hb, hr, by rw [← hq]; rfl⟩
    · rename_i hc
      rw [if_neg (fun h => hc ((hus _ (by simp)).1 h))]
      rw [Except.ok.injEq] at hq
      rw [← hq]
  · unfold buildChaos at hch
    split at hch
    · rename_i hc
      rw [if_pos ((hus _ (by simp)).2 hc)]
      split at hch
      · cases hch
      rename_i o ho
      obtain ⟨b, hb⟩ := attr_ok ho
      split at hch
      · cases hch
      rename_i r hr
      split at hch
      · cases hch
      rename_i q' hq'
      rw [Except.ok.injEq] at hch
      exact ⟨o, b, r, q', hb, hr, hq', by rw [← hch]; rfl⟩
    · rename_i hc
      rw [if_neg (fun h => hc ((hus _ (by simp)).1 h))]
      rw [Except.ok.injEq] at hch
      rw [← hch]
  · unfold buildKriging at hk
    split at hk
    · rename_i hc
      rw [if_pos (hok.1 hc)]
      split at hk
      · cases hk
      rename_i o ho
      obtain ⟨b, hb⟩ := attr_ok ho
      split at hk
      · cases hk
      rename_i q' hq'
      rw [Except.ok.injEq] at hk
      exact ⟨o, b, q', hb, hq', by rw [← hk]; rfl⟩
    · rename_i hc
      rw [if_neg (fun h => hc (hok.2 h))]
      rw [Except.ok.injEq] at hk
      rw [← hk]

/-! ## C72: graphs -/

/-- What `drawGraphs` needs: the analysis, no nonzero float `boxCox`, a probability level for the quantile regression,
and constructed objects whose validation graphs can be drawn. -/
def DrawReady (f : PodFns O) (b : BoxCoxArg ℝ) (s : Summary O) (p : Option ℝ) : Prop :=
  (∃ an, s.analysis = some an) ∧ (∀ x, b = .float x → x = 0) ∧
  (Usable s.active s.dim .quantileRegression → ∃ o b x, s.slot .quantileRegression = some (o, b) ∧ p = some x ∧
    f.drawModel o x = .ok ()) ∧
  (Usable s.active s.dim .polynomialChaos → ∃ o b, s.slot .polynomialChaos = some (o, b) ∧ f.drawValidation o = .ok ()) ∧
  (Usable s.active s.dim .kriging → ∃ o b, s.slot .kriging = some (o, b) ∧ f.drawValidation o = .ok ())

theorem drawAnalysis_ok (an : Option Analysis) (b : BoxCoxArg ℝ) (cens : Bool) :
    (∃ g, drawAnalysis an b cens = .ok g) ↔ (∃ a, an = some a) ∧ (∀ x, b = .float x → x = 0) := by
  unfold drawAnalysis
  cases an with
  | none => simp
  | some a =>
    cases b with
    | float x =>
      by_cases hx : x = 0
      · simp [BoxCoxArg.truthy, hx]
      · simp [BoxCoxArg.truthy, hx, drawLikelihood]
    | other t => cases t <;> simp [BoxCoxArg.truthy, drawLikelihood]

/-- The graphs of `drawGraphs` that depend on the methods. -/
def podGraph : MethodKey → String
  | .linearGauss => "POD_Gauss"
  | .linearBinomial => "POD_Binomial"
  | .linearKernelSmoothing => "POD_Kernel_Smoothing"
  | .quantileRegression => "POD_Quantile_Regression"
  | .polynomialChaos => "POD_Polynomial_chaos"
  | .kriging => "POD_Kriging"

theorem mem_guard (f : PodFns O) (s : Summary O) (k : MethodKey) (p c : Option ℝ) (n g : String) :
    g ∈ drawPODGuard f (s.slot k) p c n ↔ g = n ∧ ∃ o b, s.slot k = some (o, b) ∧ f.drawPOD o p c = .ok () := by
  unfold drawPODGuard
  cases hs : s.slot k with
  | none => simp
  | some x =>
    obtain ⟨o, b⟩ := x
    cases hd : f.drawPOD o p c <;> simp [hd]

/-- **C72 (restricted), when the graphs are drawn.**  `drawGraphs` returns normally iff `DrawReady`. Missing: the statement
wants it for the default arguments too. -/
theorem C72_drawn_iff_partial (f : PodFns O) (b : BoxCoxArg ℝ) (cens : Bool) (s : Summary O) (p c : Option ℝ) :
    (∃ g, drawGraphs f b cens s p c = .ok g) ↔ DrawReady f b s p := by
  unfold DrawReady
  rw [← and_assoc, ← drawAnalysis_ok s.analysis b cens]
  unfold drawGraphs
  cases ha : drawAnalysis s.analysis b cens with
  | error e => simp
  | ok g =>
    have hq : (∃ r, (if s.active .quantileRegression then
        match drawQuantileModel f (s.slot .quantileRegression) p with
        | .error e => (.error e : Res Graphs)
        | .ok m => .ok (drawPODGuard f (s.slot .quantileRegression) p c "POD_Quantile_Regression" ++ m)
      else .ok []) = .ok r) ↔ (Usable s.active s.dim .quantileRegression → ∃ o b x,
        s.slot .quantileRegression = some (o, b) ∧ p = some x ∧ f.drawModel o x = .ok ()) := by
      by_cases h : s.active .quantileRegression = true
      · have hu : Usable s.active s.dim .quantileRegression := ⟨h, by simp⟩
        rw [if_pos h]
        unfold drawQuantileModel
        cases hs : s.slot .quantileRegression with
        | none => simp [hu]
        | some x =>
          obtain ⟨o, b⟩ := x
          cases p with
          | none => simp [hu]
          | some y => cases hd : f.drawModel o y <;> simp [hu, hd]
      · rw [if_neg h]
        exact ⟨fun _ hu => absurd hu.1 h, fun _ => ⟨_, rfl⟩⟩
    have hv : ∀ (k : MethodKey) (n m : String) (cond : Bool), (cond = true ↔ Usable s.active s.dim k) →
        ((∃ r, (if cond then
        match drawValid f (s.slot k) n with
        | .error e => (.error e : Res Graphs)
        | .ok g => .ok (drawPODGuard f (s.slot k) p c m ++ g)
      else .ok []) = .ok r) ↔ (Usable s.active s.dim k → ∃ o b, s.slot k = some (o, b) ∧ f.drawValidation o = .ok ())) := by
      intro k n m cond hcond
      by_cases h : cond = true
      · have hu := hcond.1 h
        rw [if_pos h]
        unfold drawValid
        cases hs : s.slot k with
        | none => simp [hu]
        | some x =>
          obtain ⟨o, b⟩ := x
          cases hd : f.drawValidation o <;> simp [hu, hd]
      · rw [if_neg h]
        exact ⟨fun _ hu => absurd (hcond.2 hu) h, fun _ => ⟨_, rfl⟩⟩
    have hch := hv .polynomialChaos "Validation_graph_Polynomial_chaos" "POD_Polynomial_chaos" (s.active .polynomialChaos)
      (by simp [Usable])
    have hk := hv .kriging "Validation_graph_Kriging" "POD_Kriging" (decide (1 < s.dim) && s.active .kriging)
      (by simp [Usable, and_comm])
    rw [← hq, ← hch, ← hk]
    simp only []
    generalize (if s.active .quantileRegression then
        match drawQuantileModel f (s.slot .quantileRegression) p with
        | .error e => (.error e : Res Graphs)
        | .ok m => .ok (drawPODGuard f (s.slot .quantileRegression) p c "POD_Quantile_Regression" ++ m)
      else .ok []) = Q
    generalize (if s.active .polynomialChaos then
        match drawValid f (s.slot .polynomialChaos) "Validation_graph_Polynomial_chaos" with
        | .error e => (.error e : Res Graphs)
        | .ok g => .ok (drawPODGuard f (s.slot .polynomialChaos) p c "POD_Polynomial_chaos" ++ g)
      else .ok []) = C
    generalize (if (decide (1 < s.dim) && s.active .kriging) then
        match drawValid f (s.slot .kriging) "Validation_graph_Kriging" with
        | .error e => (.error e : Res Graphs)
        | .ok g => .ok (drawPODGuard f (s.slot .kriging) p c "POD_Kriging" ++ g)
      else .ok []) = K
    cases Q <;> cases C <;> cases K <;> simp

/-- The figures of the linear analysis: the Box-Cox likelihood if the transformation is enabled, four figures of the uncensored
model, and the four of the censored model if there is one. -/
def AnalysisGraph (b : BoxCoxArg ℝ) (cens : Bool) (x : String) : Prop :=
  (x = "BoxCox_likelihood" ∧ b.truthy = true) ∨
  x ∈ ["Linear_model", "Residuals", "Residuals_distribution", "Residuals_QQ_plot"] ∨
  (cens = true ∧
    x ∈ ["Linear_model_censored", "Residuals_censored", "Residuals_distribution_censored", "Residuals_QQ_plot_censored"])

/-- The further figure of a method: the regression line of the quantile regression, the validation graph of the metamodels. -/
def extraGraph : MethodKey → Option String
  | .quantileRegression => some "Quantile_regression_model"
  | .polynomialChaos => some "Validation_graph_Polynomial_chaos"
  | .kriging => some "Validation_graph_Kriging"
  | _ => none

/-- **C72 (restricted), the figures.**  Whenever `drawGraphs` returns, the figures are exactly: those of the analysis, the POD
graphs of the usable methods whose POD can be drawn (the others are skipped), and the further figure of every usable method. -/
theorem C72_figures_partial (f : PodFns O) (b : BoxCoxArg ℝ) (cens : Bool) (s : Summary O) (p c : Option ℝ) (g : Graphs)
    (h : drawGraphs f b cens s p c = .ok g) (x : String) :
    x ∈ g ↔ AnalysisGraph b cens x ∨
      (∃ k, x = podGraph k ∧ Usable s.active s.dim k ∧ ∃ o b, s.slot k = some (o, b) ∧ f.drawPOD o p c = .ok ()) ∨
      ∃ k, Usable s.active s.dim k ∧ extraGraph k = some x := by
  have hA : ∀ g₀, drawAnalysis s.analysis b cens = .ok g₀ → (x ∈ g₀ ↔ AnalysisGraph b cens x) := by
    intro g₀ h₀
    unfold drawAnalysis at h₀
    split at h₀
    · cases h₀
    split at h₀
    · cases h₀
    rename_i g₁ h₁
    rw [Except.ok.injEq] at h₀
    rw [← h₀]
    have h₁' : (x ∈ g₁ ↔ x = "BoxCox_likelihood" ∧ b.truthy = true) := by
      split at h₁
      · split at h₁
        · cases h₁
        · rename_i ht _ _
          rw [Except.ok.injEq] at h₁; simp [← h₁, ht]
      · rename_i ht
        rw [Except.ok.injEq] at h₁; simp [← h₁, ht]
    unfold AnalysisGraph
    rw [List.mem_append, List.mem_append, h₁']
    cases cens <;> simp [or_assoc]
  have hQ : ∀ m, drawQuantileModel f (s.slot .quantileRegression) p = .ok m → m = ["Quantile_regression_model"] := by
    intro m hm
    unfold drawQuantileModel at hm
    split at hm
    · cases hm
    split at hm
    · cases hm
    split at hm
    · cases hm
    · rw [Except.ok.injEq] at hm; exact hm.symm
  have hV : ∀ j n m, drawValid f (s.slot j) n = .ok m → m = [n] := by
    intro j n m hm
    unfold drawValid at hm
    split at hm
    · cases hm
    split at hm
    · cases hm
    · rw [Except.ok.injEq] at hm; exact hm.symm
  unfold drawGraphs at h
  split at h
  · cases h
  rename_i g₀ h₀
  have hg₀ := hA g₀ h₀
  dsimp only at h
  split at h
  · cases h
  rename_i q hq
  have hq' : ∀ x, x ∈ q ↔ s.active .quantileRegression = true ∧
      (x ∈ drawPODGuard f (s.slot .quantileRegression) p c "POD_Quantile_Regression" ∨ x = "Quantile_regression_model") := by
    split at hq
    · rename_i ha
      split at hq
      · cases hq
      · rename_i m hm
        rw [Except.ok.injEq] at hq
        intro x
        rw [← hq, hQ m hm, List.mem_append, List.mem_singleton]
        simp [ha]
    · rename_i ha
      rw [Except.ok.injEq] at hq
      intro x
      simp [← hq, ha]
  split at h
  · cases h
  rename_i ch hch
  have hch' : ∀ x, x ∈ ch ↔ s.active .polynomialChaos = true ∧
      (x ∈ drawPODGuard f (s.slot .polynomialChaos) p c "POD_Polynomial_chaos" ∨ x = "Validation_graph_Polynomial_chaos") := by
    split at hch
    · rename_i ha
      split at hch
      · cases hch
      · rename_i m hm
        rw [Except.ok.injEq] at hch
        intro x
        rw [← hch, hV _ _ m hm, List.mem_append, List.mem_singleton]
        simp [ha]
    · rename_i ha
      rw [Except.ok.injEq] at hch
      intro x
      simp [← hch, ha]
  split at h
  · cases h
  rename_i kr hkr
  have hkr' : ∀ x, x ∈ kr ↔ (decide (1 < s.dim) && s.active .kriging) = true ∧
      (x ∈ drawPODGuard f (s.slot .kriging) p c "POD_Kriging" ∨ x = "Validation_graph_Kriging") := by
    split at hkr
    · rename_i ha
      split at hkr
      · cases hkr
      · rename_i m hm
        rw [Except.ok.injEq] at hkr
        intro x
        rw [← hkr, hV _ _ m hm, List.mem_append, List.mem_singleton]
        simp [ha]
    · rename_i ha
      rw [Except.ok.injEq] at hkr
      intro x
      rw [← hkr]
      simp only [List.not_mem_nil, false_iff]
      exact fun h => ha h.1
  rw [Except.ok.injEq] at h
  rw [← h]
  clear h hq hch hkr hA hQ hV
  have hite : ∀ (b : Bool) (l : List String) (x : String), x ∈ (if b = true then l else []) ↔ b = true ∧ x ∈ l := by
    intro b l x; cases b <;> simp
  simp only [List.mem_append, hq', hch', hkr', hite, mem_guard, hg₀]
  constructor
  · rintro ((((((h | ⟨h, h'⟩) | ⟨h, h'⟩) | ⟨h, h'⟩) | ⟨h, h'⟩) | ⟨h, h'⟩) | ⟨h, h'⟩)
    · exact .inl h
    · exact .inr (.inl ⟨.linearGauss, h'.1, ⟨h, by simp⟩, h'.2⟩)
    · exact .inr (.inl ⟨.linearBinomial, h'.1, ⟨h, by simp⟩, h'.2⟩)
    · exact .inr (.inl ⟨.linearKernelSmoothing, h'.1, ⟨h, by simp⟩, h'.2⟩)
    · rcases h' with h' | h'
      · exact .inr (.inl ⟨.quantileRegression, h'.1, ⟨h, by simp⟩, h'.2⟩)
      · exact .inr (.inr ⟨.quantileRegression, ⟨h, by simp⟩, h' ▸ rfl⟩)
    · rcases h' with h' | h'
      · exact .inr (.inl ⟨.polynomialChaos, h'.1, ⟨h, by simp⟩, h'.2⟩)
      · exact .inr (.inr ⟨.polynomialChaos, ⟨h, by simp⟩, h' ▸ rfl⟩)
    · have hk : Usable s.active s.dim .kriging := by
        rw [Bool.and_eq_true, decide_eq_true_eq] at h; exact ⟨h.2, fun _ => h.1⟩
      rcases h' with h' | h'
      · exact .inr (.inl ⟨.kriging, h'.1, hk, h'.2⟩)
      · exact .inr (.inr ⟨.kriging, hk, h' ▸ rfl⟩)
  · have hkr : Usable s.active s.dim .kriging → (decide (1 < s.dim) && s.active .kriging) = true := by
      rintro ⟨h1, h2⟩; simp [h1, h2 rfl]
    rintro (h | ⟨k, hx, hu, ho⟩ | ⟨k, hu, hx⟩)
    · simp [h]
    · cases k
      case kriging => exact .inr ⟨hkr hu, .inl ⟨hx, ho⟩⟩
      case linearGauss => exact .inl (.inl (.inl (.inl (.inl (.inr ⟨hu.1, hx, ho⟩)))))
      case linearBinomial => exact .inl (.inl (.inl (.inl (.inr ⟨hu.1, hx, ho⟩))))
      case linearKernelSmoothing => exact .inl (.inl (.inl (.inr ⟨hu.1, hx, ho⟩)))
      case quantileRegression => exact .inl (.inl (.inr ⟨hu.1, .inl ⟨hx, ho⟩⟩))
      case polynomialChaos => exact .inl (.inr ⟨hu.1, .inl ⟨hx, ho⟩⟩)
    · cases k
      case kriging => exact .inr ⟨hkr hu, .inr (Option.some.inj hx.symm)⟩
      all_goals first | (cases hx; done) | (have h1 := hu.1; have hx' := Option.some.inj hx; subst hx'; simp [h1])

/-- **C72 (restricted), which POD graphs.**  Whenever `drawGraphs` returns, the POD graph of a method is among the figures
iff the method is usable, was built, and its POD can be drawn: the others are skipped. -/
theorem C72_graphs_partial (f : PodFns O) (b : BoxCoxArg ℝ) (cens : Bool) (s : Summary O) (p c : Option ℝ) (g : Graphs)
    (h : drawGraphs f b cens s p c = .ok g) (k : MethodKey) :
    podGraph k ∈ g ↔ Usable s.active s.dim k ∧ ∃ o b, s.slot k = some (o, b) ∧ f.drawPOD o p c = .ok () := by
  rw [C72_figures_partial f b cens s p c g h]
  have hinj : ∀ j, podGraph k = podGraph j → k = j := by intro j; cases k <;> cases j <;> simp [podGraph]
  constructor
  · rintro (h | ⟨j, hj, hu⟩ | ⟨j, -, hj⟩)
    · exfalso; unfold AnalysisGraph at h; cases k <;> simp [podGraph] at h
    · rw [hinj j hj]; exact hu
    · exfalso; cases k <;> cases j <;> simp [podGraph, extraGraph] at hj
  · rintro ⟨hu, ho⟩
    exact .inr (.inl ⟨k, rfl, hu, ho⟩)

/-- **C72 is violated**: with the default arguments (`probabilityLevel = None`), `drawGraphs` always fails while the quantile
regression is active, which is the default. -/
theorem C72_default_violated (f : PodFns O) (b : BoxCoxArg ℝ) (cens : Bool) (s : Summary O)
    (h : s.active .quantileRegression = true) : ¬ ∃ g, drawGraphs f b cens s none none = .ok g := by
  rw [C72_drawn_iff_partial]
  rintro ⟨-, -, hq, -⟩
  obtain ⟨o, b, x, -, hx, -⟩ := hq ⟨h, by simp⟩
  cases hx

/-- **C72 is violated, Box-Cox**: with a nonzero float `boxCox`, `drawGraphs` always fails. -/
theorem C72_float_violated (f : PodFns O) (x : ℝ) (hx : x ≠ 0) (cens : Bool) (s : Summary O) (p c : Option ℝ) :
    ¬ ∃ g, drawGraphs f (.float x) cens s p c = .ok g := by
  rw [C72_drawn_iff_partial]
  rintro ⟨-, h, -⟩
  exact hx (h x rfl)

/-- **C72 (restricted), after a run.**  After every history ending with a run that completes, with the quantile regression
not active or a probability level given, and no float `boxCox`, the graphs are drawn, provided the regression and
validation graphs can be. -/
theorem C72_after_run_partial (f : PodFns O) (t : Bool) (cens : Bool) (dim : ℕ) (ops : List (SumOp O)) (e : SumEnv O)
    (p c : Option ℝ) (hc : Completes e (flagAfter ops) dim)
    (hp : flagAfter ops .quantileRegression = true → ∃ x, p = some x)
    (hr : ∀ k o, e.make k = .ok o → (∀ x, f.drawModel o x = .ok ()) ∧ f.drawValidation o = .ok ()) :
    ∃ g, drawGraphs f (.other t) cens (sumAfter dim (ops ++ [.run e])) p c = .ok g := by
  rw [C72_drawn_iff_partial, sumAfter_snoc]
  obtain ⟨hfl, hd⟩ := sumAfter_flags dim ops
  have hc' : Completes e (sumAfter dim ops).active (sumAfter dim ops).dim := by rw [hfl, hd]; exact hc
  rw [← hfl] at hp
  obtain ⟨h1, h2, h3, h4⟩ := completes_slot e _ hc'
  refine ⟨h3, (fun x h => by cases h), fun hu => ?_, fun hu => ?_, fun hu => ?_⟩
  all_goals
    change Usable (summaryRun e (sumAfter dim ops)).2.active (summaryRun e (sumAfter dim ops)).2.dim _ at hu
    rw [h1, h2] at hu
    obtain ⟨o, ho, hs⟩ := h4 _ hu
    obtain ⟨hr1, hq1⟩ := hr _ o ho
  · obtain ⟨x, hx⟩ := hp hu.1
    exact ⟨o, true, x, hs, hx, hr1 x⟩
  · exact ⟨o, true, hs, hq1⟩
  · exact ⟨o, true, hs, hq1⟩

/-- `flagAfter` is true by default, so `C72_default_violated` applies to a fresh summary that was run. -/
example (o : O) (dim : ℕ) : (sumAfter dim [.run (okRun o)]).active .quantileRegression = true := by
  rw [(sumAfter_flags dim _).1]; rfl

/-! ## C87: labels of the levels -/

/-- **C87 (restricted).**  For a level that is a whole number of percents the header shows that number. -/
theorem C87_label_partial (n m : ℤ) :
    podHeader (n / 100) (m / 100) = ("", .txt ("a" ++ toString n), .txt ("a" ++ toString n ++ "/" ++ toString m)) := by
  have h : ∀ k : ℤ, percentLabel ((k : ℝ) / 100) = toString k := by
    intro k
    unfold percentLabel
    rw [div_mul_cancel₀ _ (by norm_num : (100 : ℝ) ≠ 0), Int.floor_intCast]
  simp only [podHeader, h]

/-- **C87 is violated**: every level strictly between two percents is shown as the lower one: 0.975 is shown as 97. -/
theorem C87_violated (n : ℤ) (p : ℝ) (h1 : (n : ℝ) / 100 < p) (h2 : p < (n + 1) / 100) :
    percentLabel p = percentLabel (n / 100) ∧ p ≠ n / 100 := by
  refine ⟨?_, ne_of_gt h1⟩
  unfold percentLabel
  rw [div_mul_cancel₀ _ (by norm_num : (100 : ℝ) ≠ 0), Int.floor_intCast]
  congr 1
  rw [Int.floor_eq_iff]
  constructor <;> linarith

example : ((97 : ℤ) : ℝ) / 100 < 975 / 1000 ∧ (975 / 1000 : ℝ) < ((97 : ℤ) + 1) / 100 := by norm_num

/-- `str(int(p * 100))` in double precision: the literal and the product are rounded. -/
noncomputable def percentLabelDouble (rd : ℝ → ℝ) (p : ℝ) : String := toString ⌊rd (rd p * 100)⌋

/-- **C87 is violated in floating point even for whole percents**: with any rounding to nearest, the level 0.29 is shown as
28. -/
theorem C87_violated_double (rd : ℝ → ℝ) (h : Nearest rd) : percentLabelDouble rd (29 / 100) = toString (28 : ℤ) := by
  have hd : rd (29 / 100) = (5224175567749775 : ℤ) * (2 : ℝ) ^ (-54 : ℤ) := by
    have hdd : IsDouble ((5224175567749775 : ℤ) * (2 : ℝ) ^ (-54 : ℤ)) := ⟨5224175567749775, -54, by norm_num, rfl⟩
    have hge : (2 : ℝ) ^ ((-54 : ℤ) + 52) < rd (29 / 100) := by
      apply h.gt_of_closer hdd
      · norm_num
      · rw [abs_lt]; constructor <;> norm_num
    obtain ⟨n, hn⟩ := (h (29 / 100)).1.multiple (k := -54) (hge.le.trans (le_abs_self _))
    have hle := (h (29 / 100)).2 _ hdd
    rw [hn] at hle ⊢
    have hr : |((5224175567749775 : ℤ) : ℝ) * (2 : ℝ) ^ (-54 : ℤ) - 29 / 100| = 36 / 100 * 2 ^ (-54 : ℤ) := by
      rw [abs_of_nonpos (by norm_num)]; norm_num
    rw [hr, abs_le] at hle
    have h1 : (n : ℝ) < 5224175567749776 := by
      have := hle.2
      norm_num at this ⊢
      linarith
    have h2 : (5224175567749774 : ℝ) < n := by
      have := hle.1
      norm_num at this ⊢
      linarith
    have h1' : n < 5224175567749776 := by exact_mod_cast h1
    have h2' : 5224175567749774 < n := by exact_mod_cast h2
    have : n = 5224175567749775 := by omega
    rw [this]
  unfold percentLabelDouble
  rw [hd]
  congr 1
  rw [Int.floor_eq_iff]
  have hy : IsDouble ((8162774324609023 : ℤ) * (2 : ℝ) ^ (-48 : ℤ)) := ⟨8162774324609023, -48, by norm_num, rfl⟩
  constructor
  · apply le_of_lt
    apply h.gt_of_closer hy
    · norm_num
    · rw [abs_lt]; constructor <;> norm_num
  · apply h.lt_of_closer hy
    · norm_num
    · rw [abs_lt]; constructor <;> norm_num

example : Nearest roundDouble := nearest_roundDouble

/-! ## C88: the saved file -/

/-- The lines of a text. -/
def lines (t : List Char) : List (List Char) := t.splitOn '\n'

theorem join_append {a b : List (List Char)} (ha : a ≠ []) (hb : b ≠ []) :
    joinLines (a ++ b) = joinLines a ++ '\n' :: joinLines b := by
  unfold joinLines
  induction a with
  | nil => exact absurd rfl ha
  | cons x a ih =>
    cases a with
    | nil =>
      rw [List.singleton_append, List.intercalate_cons_of_ne_nil hb]
      simp
    | cons y a =>
      rw [List.cons_append, List.intercalate_cons_of_ne_nil (by simp), List.intercalate_cons_of_ne_nil (by simp),
        ih (by simp)]
      simp

theorem join_last (a : List (List Char)) (x y : List Char) :
    joinLines (a ++ [x ++ y]) = joinLines (a ++ [x]) ++ y := by
  cases a with
  | nil => simp [joinLines]
  | cons z a =>
    rw [join_append (by simp) (by simp), join_append (by simp) (by simp)]
    simp [joinLines]

/-- **C88 (restricted), the lines of the file.**  For all tables (non-empty, no newline inside a row), the file consists of
exactly these lines: titles, blank lines and rows in order, except that the third title is glued to the last row of the
residual table. -/
theorem C88_lines_partial (reg res : List (List Char)) (last : List Char) (val pod : List (List Char))
    (h : ∀ r ∈ reg ++ res ++ [last] ++ val ++ pod, '\n' ∉ r) (h1 : reg ≠ []) (h3 : val ≠ []) (h4 : pod ≠ []) :
    lines (saveText reg (res ++ [last]) val pod) =
      ["Linear model analysis results".toList, []] ++ reg ++ [[], "Residuals analysis results".toList, []] ++ res
        ++ [last ++ "Model validation results".toList, []] ++ val ++ [[], "POD results".toList, []] ++ pod := by
  have key : saveText reg (res ++ [last]) val pod = joinLines
      (["Linear model analysis results".toList, []] ++ (reg ++ ([[], "Residuals analysis results".toList, []] ++
        ((res ++ [last ++ "Model validation results".toList]) ++ ([[]] ++ (val ++ ([[], "POD results".toList, []] ++ pod))))))) := by
    rw [join_append (by simp) (by simp [h1]), join_append h1 (by simp), join_append (by simp) (by simp),
      join_append (by simp) (by simp), join_append (a := [[]]) (by simp) (by simp), join_append h3 (by simp),
      join_append (by simp) h4, join_last]
    unfold saveText
    have e1 : "Linear model analysis results\n\n".toList = joinLines ["Linear model analysis results".toList, []] ++ ['\n'] := by
      decide
    have e2 : "\n\nResiduals analysis results\n\n".toList
        = '\n' :: (joinLines [[], "Residuals analysis results".toList, []] ++ ['\n']) := by decide
    have e3 : "Model validation results\n\n".toList = "Model validation results".toList ++ ['\n', '\n'] := by decide
    have e4 : "\n\nPOD results\n\n".toList = '\n' :: (joinLines [[], "POD results".toList, []] ++ ['\n']) := by decide
    have e5 : joinLines [[]] = [] := by decide
    rw [e1, e2, e3, e4, e5]
    simp only [List.append_assoc, List.cons_append, List.nil_append]
  rw [key, lines, joinLines, List.splitOn_intercalate]
  · simp only [List.append_assoc, List.cons_append, List.nil_append]
  · have hd : ∀ t : List Char, t ∈ ["Linear model analysis results".toList, "Residuals analysis results".toList,
        "Model validation results".toList, "POD results".toList, []] → '\n' ∉ t := by decide
    have hr : ∀ r, r ∈ reg ∨ r ∈ res ∨ r = last ∨ r ∈ val ∨ r ∈ pod → '\n' ∉ r := fun r hr => h r (by
      simp only [List.mem_append, List.mem_singleton]; tauto)
    intro l hl
    simp only [List.mem_append, List.mem_cons, List.not_mem_nil, or_false] at hl
    have ht : ∀ t, t ∈ ["Linear model analysis results".toList, "Residuals analysis results".toList,
        "Model validation results".toList, "POD results".toList, []] → '\n' ∉ t := hd
    rcases hl with (rfl | rfl) | hl | (rfl | rfl | rfl) | (hl | rfl) | rfl | hl | (rfl | rfl | rfl) | hl
    · exact ht _ (by simp)
    · exact ht _ (by simp)
    · exact hr _ (by tauto)
    · exact ht _ (by simp)
    · exact ht _ (by simp)
    · exact ht _ (by simp)
    · exact hr _ (by tauto)
    · rw [List.mem_append, not_or]
      exact ⟨hr _ (by tauto), ht _ (by simp)⟩
    · exact ht _ (by simp)
    · exact hr _ (by tauto)
    · exact ht _ (by simp)
    · exact ht _ (by simp)
    · exact ht _ (by simp)
    · exact hr _ (by tauto)
  · simp

/-- **C88 is violated**: whatever the tables (no row equal to a title, last residual row non-empty, as in the code where it
is the Durbin Watson row), the title "Model validation results" is not a line of the file. -/
theorem C88_violated (reg res : List (List Char)) (last : List Char) (val pod : List (List Char))
    (h : ∀ r ∈ reg ++ res ++ [last] ++ val ++ pod, '\n' ∉ r) (h1 : reg ≠ []) (h3 : val ≠ []) (h4 : pod ≠ [])
    (hrow : "Model validation results".toList ∉ reg ++ res ++ val ++ pod) (hlast : last ≠ []) :
    "Model validation results".toList ∉ lines (saveText reg (res ++ [last]) val pod) := by
  rw [C88_lines_partial reg res last val pod h h1 h3 h4]
  simp only [List.mem_append, not_or] at hrow
  have hl : "Model validation results".toList ≠ last ++ "Model validation results".toList := by
    intro he
    exact hlast (by simpa using he)
  have n1 : "Model validation results".toList ≠ "Linear model analysis results".toList := by decide
  have n2 : "Model validation results".toList ≠ "Residuals analysis results".toList := by decide
  have n3 : "Model validation results".toList ≠ "POD results".toList := by decide
  have n4 : "Model validation results".toList ≠ [] := by decide
  simp only [List.mem_append, List.mem_cons, List.not_mem_nil, or_false, not_or]
  exact ⟨⟨⟨⟨⟨⟨⟨⟨n1, n4⟩, hrow.1.1.1⟩, ⟨n4, n2, n4⟩⟩, hrow.1.1.2⟩, ⟨hl, n4⟩⟩, hrow.1.2⟩, ⟨n4, n3, n4⟩⟩, hrow.2⟩

/-- The hypotheses hold for one-row tables. -/
example : "Model validation results".toList ∉ lines (saveText [['a']] [['b']] [['c']] [['d']]) :=
  C88_violated [['a']] [] ['b'] [['c']] [['d']] (by decide) (by decide) (by decide) (by decide) (by decide) (by decide)

end Verif.Props
