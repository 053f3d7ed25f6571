import Verif.Model.Analysis
import Mathlib.Tactic.IntervalCases
import Mathlib.Tactic.Tauto

/-!
# C73, C74, C75: tables, accessors and warnings of the linear analysis
-/

namespace Verif.Props
open Verif.Py Verif.Model

/-! ## C73 -/

/-- What a table row shows in its second column, given the results of the case of this column. -/
inductive Shows
  | blank
  | heading (s : String)
  | value (f : Results → F ℝ)

/-- The second cell of a row when data are censored. -/
noncomputable def Shows.cell : Shows → Option Results → Cell
  | .blank, _ => .txt ""
  | .heading _, none => .txt ""
  | .heading s, some _ => .txt s
  | .value _, none => .txt ""
  | .value f, some c => .num (round2F (f c))

/-- The rows of the regression table which report a quantity, with the quantity. -/
def regressionQuantities : List (String × (Results → F ℝ)) :=
  [("Intercept coefficient :", (·.intercept)), ("Slope coefficient :", (·.slope)),
   ("Standard error of the estimate :", (·.stderr)), ("R2 (> 0.8):", (·.tests.R2))]

/-- The rows of the residual table which report a quantity, with the quantity. -/
def residualQuantities : List (String × (Results → F ℝ)) :=
  [("Kolmogorov p-value (> 0.05):", (·.tests.kolmogorov)), ("Anderson Darling p-value (> 0.05):", (·.tests.andersonDarling)),
   ("Cramer Von Mises p-value (> 0.05):", (·.tests.cramerVonMises)), ("p-value (> 0.05):", (·.tests.zeroMean)),
   ("Breush Pagan p-value (> 0.05):", (·.tests.breuschPagan)), ("Harrison McCabe p-value (> 0.05):", (·.tests.harrisonMcCabe)),
   ("Durbin Watson p-value (> 0.05):", (·.tests.durbinWatson))]

/-- **C73, regression table.**  For all results: the first row with the label of a quantity shows in its columns the rounded
uncensored value and, if data are censored, the rounded censored value (otherwise nothing); every other row, except the
column heading, has an empty second column. -/
theorem C73_regression (a : Analysis) :
    (∀ q ∈ regressionQuantities,
      (dataRegression a).find? (fun r => r.1 == q.1)
        = some (q.1, .num (round2F (q.2 a.unc)), (Shows.value q.2).cell a.cens)) ∧
    (dataRegression a).length = 15 ∧
    (∀ i, i < 15 → i ∉ [2, 4, 5, 6, 14] → ((dataRegression a)[i]?).map (·.2.2) = some (.txt "")) ∧
    (dataRegression a)[2]? = some ("", .txt "Uncensored", (Shows.heading "Censored").cell a.cens) := by
  rcases a with ⟨u, _ | c, b⟩
  · refine ⟨?_, rfl, ?_, rfl⟩
    · intro q hq
      simp only [regressionQuantities, List.mem_cons, List.not_mem_nil, or_false] at hq
      rcases hq with rfl | rfl | rfl | rfl <;>
        simp [dataRegression, regressionUnc, rnd, Shows.cell, List.find?]
    · intro i hi hn
      simp at hn
      interval_cases i <;> simp_all [dataRegression, regressionUnc]
  · refine ⟨?_, rfl, ?_, rfl⟩
    · intro q hq
      simp only [regressionQuantities, List.mem_cons, List.not_mem_nil, or_false] at hq
      rcases hq with rfl | rfl | rfl | rfl <;>
        simp [dataRegression, regressionUnc, rnd, Shows.cell, List.find?, setCell2]
    · intro i hi hn
      simp at hn
      interval_cases i <;> simp_all [dataRegression, regressionUnc, setCell2]

/-- **C73, confidence intervals and Box-Cox row.**  The two rows following the heading "Confidence interval on coefficients"
show the intervals of the uncensored coefficients, the first row of the table the rounded Box-Cox parameter iff it is
enabled. -/
theorem C73_confidence (a : Analysis) :
    (∀ i, ((dataRegression a)[i]?).map (·.1) = some "Confidence interval on coefficients" →
      (dataRegression a)[i + 1]? = some ("Intercept coefficient :", .txt a.unc.confInt0, .txt "") ∧
      (dataRegression a)[i + 2]? = some ("Slope coefficient :", .txt a.unc.confInt1, .txt "")) ∧
    (∃ i : ℕ, ((dataRegression a)[i]?).map (·.1) = some "Confidence interval on coefficients") ∧
    (dataRegression a).head? = some ("Box Cox parameter :",
      a.boxCox.elim (.txt "Not enabled") (fun l => .num (.fin (pyRound2 l))), .txt "") := by
  have hlen := (C73_regression a).2.1
  refine ⟨?_, ⟨8, ?_⟩, ?_⟩
  · intro i hi
    have hlt : i < 15 := by
      by_contra hc
      rw [List.getElem?_eq_none (by omega)] at hi
      simp at hi
    rcases a with ⟨u, _ | c, b⟩
    · interval_cases i <;> simp_all [dataRegression, regressionUnc]
    · interval_cases i <;> simp_all [dataRegression, regressionUnc, setCell2]
  · rcases a with ⟨u, _ | c, b⟩ <;> simp [dataRegression, regressionUnc, setCell2]
  · rcases a with ⟨u, _ | c, _ | b⟩ <;> simp [dataRegression, regressionUnc, setCell2]

/-- **C73, residual table.**  Same for the residual table, whose rows are shifted by one when data are censored; the fitted
distributions are in the rows bearing their names. -/
theorem C73_residuals (a : Analysis) :
    (∀ q ∈ residualQuantities,
      (dataResiduals a).filter (fun r => r.1 == q.1)
        = [(q.1, .num (round2F (q.2 a.unc)), (Shows.value q.2).cell a.cens)]) ∧
    (dataResiduals a).filter (fun r => r.1 == "Fitted distribution (uncensored) :")
      = [("Fitted distribution (uncensored) :", .txt a.unc.resDist, .txt "")] ∧
    (dataResiduals a).filter (fun r => r.1 == "Fitted distribution (censored) :")
      = (match a.cens with
         | some c => [("Fitted distribution (censored) :", .txt c.resDist, .txt "")]
         | none => []) ∧
    (dataResiduals a).filter (fun r => decide (r.1 ∉ residualQuantities.map (·.1)) && r.1 != "" &&
        r.1 != "Fitted distribution (uncensored) :" && r.1 != "Fitted distribution (censored) :")
      = ["Distribution fitting test", "Normality test", "Zero residual mean test",
         "Homoskedasticity test (constant variance)", "Non autocorrelation test"].map (fun l => (l, .txt "", .txt "")) ∧
    (dataResiduals a).filter (fun r => r.1 == "")
      = ("", .txt "", .txt "") :: ("", .txt "Uncensored", (Shows.heading "Censored").cell a.cens)
        :: List.replicate 4 ("", .txt "", .txt "") := by
  rcases a with ⟨u, _ | c, b⟩
  · refine ⟨?_, ?_, ?_, ?_, ?_⟩
    · intro q hq
      simp only [residualQuantities, List.mem_cons, List.not_mem_nil, or_false] at hq
      rcases hq with rfl | rfl | rfl | rfl | rfl | rfl | rfl <;>
        simp [dataResiduals, residualsUnc, rnd, Shows.cell, List.filter]
    all_goals simp [dataResiduals, residualsUnc, residualQuantities, Shows.cell, List.filter, List.replicate]
  · refine ⟨?_, ?_, ?_, ?_, ?_⟩
    · intro q hq
      simp only [residualQuantities, List.mem_cons, List.not_mem_nil, or_false] at hq
      rcases hq with rfl | rfl | rfl | rfl | rfl | rfl | rfl <;>
        simp [dataResiduals, residualsUnc, rnd, Shows.cell, List.filter, setCell2]
    all_goals simp [dataResiduals, residualsUnc, residualQuantities, Shows.cell, List.filter, List.replicate, setCell2]

/-- **C73, order of the rows.**  Both tables show their rows in a fixed order: each test result is under the title of its test,
and the distribution fitted to the residuals of the censored model is just below the one of the uncensored model. -/
theorem C73_order (a : Analysis) :
    (dataRegression a).map (·.1) = ["Box Cox parameter :", "", "", "", "Intercept coefficient :", "Slope coefficient :",
      "Standard error of the estimate :", "", "Confidence interval on coefficients", "Intercept coefficient :",
      "Slope coefficient :", "Level :", "", "Quality of regression", "R2 (> 0.8):"] ∧
    (dataResiduals a).map (·.1) = ["Fitted distribution (uncensored) :"] ++
      (if a.cens.isSome then ["Fitted distribution (censored) :"] else []) ++
      ["", "", "Distribution fitting test", "Kolmogorov p-value (> 0.05):", "",
       "Normality test", "Anderson Darling p-value (> 0.05):", "Cramer Von Mises p-value (> 0.05):", "",
       "Zero residual mean test", "p-value (> 0.05):", "",
       "Homoskedasticity test (constant variance)", "Breush Pagan p-value (> 0.05):", "Harrison McCabe p-value (> 0.05):", "",
       "Non autocorrelation test", "Durbin Watson p-value (> 0.05):"] ∧
    ((dataRegression a)[11]?).map (·.2.1) = some (.num (.fin (95 / 100))) := by
  rcases a with ⟨u, _ | c, b⟩
  · exact ⟨rfl, rfl, rfl⟩
  · refine ⟨?_, ?_, ?_⟩ <;> simp [dataRegression, regressionUnc, dataResiduals, residualsUnc, setCell2]

/-! ## C74 -/

/-- The quantity an accessor is documented to return. -/
def documented : Accessor → Results → F ℝ
  | .getIntercept, r => r.intercept
  | .getSlope, r => r.slope
  | .getStandardError, r => r.stderr
  | .getR2, r => r.tests.R2
  | .getAndersonDarlingPValue, r => r.tests.andersonDarling
  | .getCramerVonMisesPValue, r => r.tests.cramerVonMises
  | .getKolmogorovPValue, r => r.tests.kolmogorov
  | .getZeroMeanPValue, r => r.tests.zeroMean
  | .getBreuschPaganPValue, r => r.tests.breuschPagan
  | .getHarrisonMcCabePValue, r => r.tests.harrisonMcCabe
  | .getDurbinWatsonPValue, r => r.tests.durbinWatson

/-- **C74, accessors.**  For every analysis every accessor returns the documented quantity: one value when data are not
censored, two (uncensored first) otherwise, with pairwise different descriptions. -/
theorem C74_accessors (a : Analysis) (acc : Accessor) :
    ∃ l, callAccessor a acc = .ok l ∧
      l.map (·.2) = (a.unc :: a.cens.toList).map (documented acc) ∧ (l.map (·.1)).Nodup := by
  rcases a with ⟨u, _ | c, b⟩ <;> cases acc <;>
    simp [callAccessor, getResultValue, TestResults.get, documented]

/-- **C74, residuals.**  The residuals and their laws: one per case, uncensored first; the two residual columns have the
common length of the two samples, and columns of different lengths are refused. -/
theorem C74_residuals (a : Analysis) :
    getResidualsDistribution a = (a.unc :: a.cens.toList).map (·.resDist) ∧
    (getResiduals a = .ok ((a.unc :: a.cens.toList).map (·.residuals)) ↔
      ∀ c, a.cens = some c → c.residuals.length = a.unc.residuals.length) := by
  rcases a with ⟨u, _ | c, b⟩
  · simp [getResidualsDistribution, getResiduals]
  · by_cases h : c.residuals.length = u.residuals.length <;> simp [getResidualsDistribution, getResiduals, h]

/-- Two results with residuals of the same length. -/
noncomputable example : Analysis :=
  let t : TestResults := ⟨.fin 1, .nan, .fin 1, .fin 1, .fin 1, .fin 1, .fin 1, .fin 1⟩
  let r : Results := ⟨.fin 0, .fin 1, .fin 1, "[0.00, 1.00]", "[1.00, 2.00]", "Normal(0,1)", "Normal", [1, -1], t⟩
  have : ∀ c, (some r) = some c → c.residuals.length = r.residuals.length := by rintro c ⟨⟩; rfl
  ⟨r, some r, some 0⟩

/-- **C74, graphs.**  The graphs of the uncensored case always use its results; those of the censored case are available iff
data are censored, and then use the censored results; any other name raises NameError. -/
theorem C74_graphs (a : Analysis) (model : String) :
    (model = "uncensored" → drawSelect a model = .ok a.unc) ∧
    (model = "censored" → (∀ c, a.cens = some c → drawSelect a model = .ok c) ∧
      (a.cens = none → Raises (drawSelect a model) .nameError)) ∧
    (model ≠ "uncensored" → model ≠ "censored" → Raises (drawSelect a model) .nameError) := by
  refine ⟨?_, ?_, ?_⟩
  · rintro rfl; simp [drawSelect]
  · rintro rfl
    rcases a with ⟨u, _ | c, b⟩ <;> simp [drawSelect, Raises]
  · intro h1 h2; simp [drawSelect, h1, h2, Raises]

/-! ## C75 -/

/-- The p-values of the seven hypothesis tests (not R2). -/
def pValues (t : TestResults) : List (F ℝ) :=
  [t.andersonDarling, t.cramerVonMises, t.zeroMean, t.kolmogorov, t.breuschPagan, t.harrisonMcCabe, t.durbinWatson]

/-- Some hypothesis test is rejected at level 5%, in one of the cases. -/
def SomeTestFails (a : Analysis) : Prop :=
  (∃ p ∈ pValues a.unc.tests, F.lt p (.fin (5 / 100)) = true) ∨
  ∃ c, a.cens = some c ∧ ∃ p ∈ pValues c.tests, F.lt p (.fin (5 / 100)) = true

/-- R2 is below 5% in one of the cases. -/
def LowR2 (a : Analysis) : Prop :=
  F.lt a.unc.tests.R2 (.fin (5 / 100)) = true ∨ ∃ c, a.cens = some c ∧ F.lt c.tests.R2 (.fin (5 / 100)) = true

theorem values_any (t : TestResults) (p : F ℝ → Bool) :
    t.values.any p = true ↔ p t.R2 = true ∨ ∃ v ∈ pValues t, p v = true := by
  simp [TestResults.values, pValues]

/-- **C75 (restricted), exact condition.**  The messages are exactly: use Box-Cox iff (some test fails or R2 is low) and it is
not enabled; use another method iff (some test fails or R2 is low) and it is enabled; not normal iff the uncensored residual
law is not Normal.  Missing: R2 should play no role. -/
theorem C75_exact_partial (a : Analysis) :
    ((printWarnings a).useBoxCox = true ↔ (SomeTestFails a ∨ LowR2 a) ∧ a.boxCox = none) ∧
    ((printWarnings a).useOther = true ↔ (SomeTestFails a ∨ LowR2 a) ∧ a.boxCox ≠ none) ∧
    ((printWarnings a).notNormal = true ↔ a.unc.resDistClass ≠ "Normal") := by
  rcases a with ⟨u, _ | c, _ | l⟩ <;>
    simp only [printWarnings, SomeTestFails, LowR2, Bool.and_eq_true, Bool.or_eq_true, values_any] <;>
    simp [or_comm, or_left_comm, or_assoc]

/-- **C75 (restricted).**  When R2 is at least 5% in every case, the warning is issued iff some p-value is below 0.05. -/
theorem C75_warnings_partial (a : Analysis) (h : ¬ LowR2 a) :
    (((printWarnings a).useBoxCox = true ∨ (printWarnings a).useOther = true) ↔ SomeTestFails a) ∧
    ((printWarnings a).useBoxCox = true → a.boxCox = none) ∧ ((printWarnings a).useOther = true → a.boxCox ≠ none) := by
  obtain ⟨h1, h2, -⟩ := C75_exact_partial a
  rw [h1, h2]
  by_cases hb : a.boxCox = none <;> simp [h, hb]

/-- **C75 is violated**: for every analysis in which R2 is below 5%, whatever the tests, the message "some hypothesis tests
failed" is issued. -/
theorem C75_violated (a : Analysis) (hr : LowR2 a) :
    (printWarnings a).useBoxCox = true ∨ (printWarnings a).useOther = true := by
  obtain ⟨h1, h2, -⟩ := C75_exact_partial a
  rw [h1, h2]
  by_cases hb : a.boxCox = none <;> simp [hr, hb]

/-- An analysis with p-values 1/2 and the given R2. -/
noncomputable def exAnalysis (r2 : ℝ) : Analysis :=
  let t : TestResults := ⟨.fin r2, .fin (1/2), .fin (1/2), .fin (1/2), .fin (1/2), .fin (1/2), .fin (1/2), .fin (1/2)⟩
  ⟨⟨.fin 0, .fin 1, .fin 1, "", "", "", "Normal", [], t⟩, none, none⟩

theorem exAnalysis_noFail (r : ℝ) : ¬ SomeTestFails (exAnalysis r) := by
  norm_num [SomeTestFails, exAnalysis, pValues]
  intro x hx; cases hx

/-- **C75 is violated, witness**: R2 = 0.01 and all p-values 1/2: no test fails and the warning is issued. -/
theorem C75_violated_witness :
    ¬ SomeTestFails (exAnalysis (1 / 100)) ∧ (printWarnings (exAnalysis (1 / 100))).useBoxCox = true := by
  refine ⟨exAnalysis_noFail _, ?_⟩
  rw [(C75_exact_partial _).1]
  exact ⟨.inr (.inl (by norm_num [exAnalysis])), rfl⟩

example : ¬ LowR2 (exAnalysis (9 / 10)) := by
  norm_num [LowR2, exAnalysis]
  intro x hx; cases hx

end Verif.Props
