import Verif.Model.Package
import Mathlib.Tactic.Linarith
import Mathlib.Tactic.NormNum

/-!
# C203, C204: what importing the package does
-/

namespace Verif.Props
open Verif.Model

/-! ## C203: the logging of the application -/

/-- A logger takes the level of the root exactly when no level is set on the way. -/
theorem effective_inherited (root : ℕ) (chain : List ℕ) (h : ∀ l ∈ chain, l = 0) : effectiveLevel root chain = root := by
  induction chain with
  | nil => rfl
  | cons l rest ih =>
    rw [effectiveLevel, if_pos (h l (by simp)), ih fun l hl => h l (by simp [hl])]

theorem effective_own (root root' : ℕ) (chain : List ℕ) (h : ∃ l ∈ chain, l ≠ 0) : effectiveLevel root chain = effectiveLevel root' chain := by
  induction chain with
  | nil => obtain ⟨l, hl, -⟩ := h; simp at hl
  | cons l rest ih =>
    rw [effectiveLevel, effectiveLevel]
    split
    · rename_i h0
      obtain ⟨l', hl', hne⟩ := h
      rcases List.mem_cons.1 hl' with rfl | hm
      · exact absurd h0 hne
      · exact ih ⟨l', hm, hne⟩
    · rfl

/-- **C203 (partial).**  Loggers with a level of their own, or below one that has, are not affected; no logger is affected when the root is at INFO already;
and messages of level WARNING or more pass after the import when they passed before.  Missing: the messages between INFO and the level of
the root, see the violation. -/
theorem C203_unaffected_partial (root : ℕ) (chain : List ℕ) (level : ℕ) :
    ((∃ l ∈ chain, l ≠ 0) → (passes (initializing root) chain level ↔ passes root chain level)) ∧
    (root = 20 → (passes (initializing root) chain level ↔ passes root chain level)) ∧
    (30 ≤ level → passes root chain level → passes (initializing root) chain level) := by
  refine ⟨fun h => ?_, fun h => ?_, fun h hp => ?_⟩
  · rw [passes, passes, effective_own _ root _ h]
  · rw [h]; exact Iff.rfl
  · by_cases hc : ∃ l ∈ chain, l ≠ 0
    · rw [passes, effective_own _ root _ hc]; exact hp
    · push Not at hc
      rw [passes, effective_inherited _ _ hc, initializing]
      omega

/-- **C203 is violated.**  For every logger of the application without a level of its own: if the root was above INFO (it is WARNING by default), the messages
from INFO up to its level were suppressed and are shown after the import; if it was below INFO, the messages from its level up to INFO were shown and
are suppressed. -/
theorem C203_violated (root : ℕ) (chain : List ℕ) (hc : ∀ l ∈ chain, l = 0) (level : ℕ) :
    (20 ≤ level → level < root → ¬ passes root chain level ∧ passes (initializing root) chain level) ∧
    (root ≤ level → level < 20 → passes root chain level ∧ ¬ passes (initializing root) chain level) := by
  rw [passes, passes, effective_inherited _ _ hc, effective_inherited _ _ hc, initializing]
  constructor <;> intro h1 h2 <;> omega

/-- The default root level and an INFO message of another library. -/
example : ¬ passes 30 [0, 0] 20 ∧ passes (initializing 30) [0, 0] 20 :=
  (C203_violated 30 [0, 0] (by simp) 20).1 (by norm_num) (by norm_num)

/-- A DEBUG message of an application that debugs. -/
example : passes 10 [] 10 ∧ ¬ passes (initializing 10) [] 10 := (C203_violated 10 [] (by simp) 10).2 (by norm_num) (by norm_num)

example : passes (initializing 30) [0, 40, 0] 30 ↔ passes 30 [0, 40, 0] 30 := (C203_unaffected_partial 30 [0, 40, 0] 30).1 ⟨40, by simp, by norm_num⟩

/-! ## C204: the names of the package -/

/-- The classes of the user manual (/repo/doc/source/user_manual.rst 12-65). -/
def publicClasses : List String :=
  ["UnivariateLinearModelAnalysis", "UnivariateLinearModelPOD", "QuantileRegressionPOD", "PolynomialChaosPOD", "KrigingPOD", "AdaptiveSignalPOD",
    "AdaptiveHitMissPOD", "PODSummary", "SobolIndices", "PLIMean", "PLIVariance", "PLI", "DataHandling"]

/-- **C204 (partial).**  Every documented class is an attribute of the package and nothing else is public there; `from otpod import *` binds only such
attributes, and all of them but the three of the perturbation analysis.  Missing: these three, see the violation. -/
theorem C204_names_partial (name : String) :
    (name ∈ packageNames ↔ name ∈ publicClasses) ∧ (name ∈ packageAll → name ∈ packageNames) ∧
    (name ∈ publicClasses → name ≠ "PLI" → name ≠ "PLIMean" → name ≠ "PLIVariance" → name ∈ packageAll) := by
  simp only [packageNames, packageAll, importedModules, listedModules, List.flatMap_cons, List.flatMap_nil, moduleExports, publicClasses, List.cons_append,
    List.nil_append, List.mem_cons, List.not_mem_nil]
  refine ⟨trivial, by tauto, by tauto⟩

/-- **C204 is violated**: `from otpod import *` binds none of the classes of the perturbation analysis, though the package has them. -/
theorem C204_violated : ∀ name ∈ ["PLI", "PLIMean", "PLIVariance"], name ∈ packageNames ∧ name ∉ packageAll := by
  decide +kernel

example : "KrigingPOD" ∈ packageAll := (C204_names_partial "KrigingPOD").2.2 (by decide +kernel) (by decide) (by decide) (by decide)

end Verif.Props
