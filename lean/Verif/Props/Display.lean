import Verif.Props.Analysis
import Verif.Props.SummaryText

/-!
# What the tables tell: rounding of the displayed numbers (C212)
-/

namespace Verif.Props
open Verif.Py Verif.Model

/-- The cell shows the number with two decimals, at most half a unit of the last one away; NaN and infinities are shown as they are. -/
def Displays (cell : Cell) : F ℝ → Prop
  | .fin x => ∃ k : ℤ, cell = .num (.fin (k / 100)) ∧ |(k : ℝ) / 100 - x| ≤ 1 / 200
  | v => cell = .num v

theorem displays_round (v : F ℝ) : Displays (.num (round2F v)) v := by
  cases v with
  | fin x => exact ⟨pyRound (x * 100), rfl, pyRound2_abs x⟩
  | nan => rfl
  | pinf => rfl
  | ninf => rfl

/-- **C212 (restricted), the tables of the analysis.**  For all results: every row of a quantity shows the values of the quantity with two decimals
and an error of at most 0.005, in the column of its case. -/
theorem C212_tables_partial (a : Analysis) :
    (∀ q ∈ regressionQuantities, ∃ r, (dataRegression a).find? (fun r => r.1 == q.1) = some r ∧ Displays r.2.1 (q.2 a.unc) ∧
      ∀ c, a.cens = some c → Displays r.2.2 (q.2 c)) ∧
    (∀ q ∈ residualQuantities, (∃ r ∈ dataResiduals a, r.1 = q.1) ∧ ∀ r ∈ dataResiduals a, r.1 = q.1 → Displays r.2.1 (q.2 a.unc) ∧
      ∀ c, a.cens = some c → Displays r.2.2 (q.2 c)) := by
  constructor
  · intro q hq
    refine ⟨_, (C73_regression a).1 q hq, displays_round _, fun c hc => ?_⟩
    rw [hc]; exact displays_round _
  · intro q hq
    have h := (C73_residuals a).1 q hq
    constructor
    · have : (q.1, Cell.num (round2F (q.2 a.unc)), (Shows.value q.2).cell a.cens) ∈ (dataResiduals a).filter (fun r => r.1 == q.1) := by
        rw [h]; exact List.mem_singleton_self _
      exact ⟨_, (List.mem_filter.1 this).1, rfl⟩
    · intro r hr he
      have : r ∈ (dataResiduals a).filter (fun r => r.1 == q.1) := List.mem_filter.2 ⟨hr, by simpa using he⟩
      rw [h, List.mem_singleton] at this
      subst this
      refine ⟨displays_round _, fun c hc => ?_⟩
      rw [hc]; exact displays_round _

/-- **C212 (restricted), the verdicts.**  A displayed p-value is on the side of 0.05 on which the exact one is, unless the exact one is between 0.045
and 0.055. -/
theorem C212_verdict_partial (a : Analysis) (q : String × (Results → F ℝ)) (hq : q ∈ residualQuantities) (x : ℝ) (hx : q.2 a.unc = .fin x)
    (r : Row) (hr : r ∈ dataResiduals a) (hl : r.1 = q.1) :
    ∃ w, r.2.1 = .num (.fin w) ∧ (x < 45 / 1000 → w < 5 / 100) ∧ (55 / 1000 < x → 5 / 100 < w) := by
  have h := (((C212_tables_partial a).2 q hq).2 r hr hl).1
  rw [hx] at h
  obtain ⟨k, hk, hd⟩ := h
  obtain ⟨h1, h2⟩ := abs_le.1 hd
  exact ⟨_, hk, fun _ => by linarith, fun _ => by linarith⟩

theorem round2_near {x : ℝ} (h1 : 45 / 1000 < x) (h2 : x < 55 / 1000) : round2F (.fin x) = .fin (5 / 100) := by
  have h := abs_le.1 (pyRound_abs (x * 100))
  have hk : pyRound (x * 100) = 5 := by
    have h3 : (4 : ℝ) < pyRound (x * 100) := by linarith [h.1]
    have h4 : (pyRound (x * 100) : ℝ) < 6 := by linarith [h.2]
    have h5 : 4 < pyRound (x * 100) := by exact_mod_cast h3
    have h6 : pyRound (x * 100) < 6 := by exact_mod_cast h4
    omega
  change F.fin (((pyRound (x * 100) : ℤ) : ℝ) / 100) = _
  rw [hk]; norm_num

/-- The analysis with another p-value of the Kolmogorov test. -/
def withKolmogorov (a : Analysis) (p : F ℝ) : Analysis := { a with unc := { a.unc with tests := { a.unc.tests with kolmogorov := p } } }

/-- **C212 is violated, verdicts.**  For every analysis without censored data whose other tests pass: with a p-value of the Kolmogorov test slightly
below 0.05 or slightly above, the two tables are the same, cell by cell, while the library warns that a test failed in the first case and does not in
the second one. -/
theorem C212_violated_verdict (a : Analysis) (hc : a.cens = none) (hn : ¬ SomeTestFails (withKolmogorov a (.fin 1))) (hR : ¬ LowR2 a) (p p' : ℝ)
    (h1 : 45 / 1000 < p) (h2 : p < 5 / 100) (h3 : 5 / 100 ≤ p') (h4 : p' < 55 / 1000) :
    dataRegression (withKolmogorov a (.fin p)) = dataRegression (withKolmogorov a (.fin p')) ∧
    dataResiduals (withKolmogorov a (.fin p)) = dataResiduals (withKolmogorov a (.fin p')) ∧
    ((printWarnings (withKolmogorov a (.fin p))).useBoxCox = true ∨ (printWarnings (withKolmogorov a (.fin p))).useOther = true) ∧
    ¬ ((printWarnings (withKolmogorov a (.fin p'))).useBoxCox = true ∨ (printWarnings (withKolmogorov a (.fin p'))).useOther = true) := by
  have e1 := round2_near h1 (by linarith : p < 55 / 1000)
  have e2 := round2_near (by linarith : 45 / 1000 < p') h4
  have hl : ∀ v, ¬ LowR2 (withKolmogorov a v) := fun v h => hR h
  rw [(C75_warnings_partial _ (hl _)).1, (C75_warnings_partial _ (hl _)).1]
  rcases a with ⟨u, c, b⟩
  dsimp only at hc
  subst hc
  refine ⟨rfl, ?_, .inl ⟨.fin p, by simp [withKolmogorov, pValues], by simpa [F.lt] using h2⟩, ?_⟩
  · simp [dataResiduals, residualsUnc, withKolmogorov, rnd, e1, e2]
  · rintro (⟨v, hv, hlt⟩ | ⟨c, hc, -⟩)
    · by_cases hv' : v = .fin p'
      · subst hv'
        have : p' < 5 / 100 := by simpa [F.lt] using hlt
        linarith
      · exact hn (.inl ⟨v, by simp only [pValues, withKolmogorov, List.mem_cons, List.not_mem_nil, or_false] at hv ⊢; tauto, hlt⟩)
    · cases hc

/-- The hypotheses are met. -/
example : (exAnalysis (9 / 10)).cens = none ∧ ¬ SomeTestFails (withKolmogorov (exAnalysis (9 / 10)) (.fin 1)) ∧ ¬ LowR2 (exAnalysis (9 / 10)) ∧
    (45 / 1000 : ℝ) < 48 / 1000 ∧ (48 / 1000 : ℝ) < 5 / 100 ∧ (5 / 100 : ℝ) ≤ 52 / 1000 ∧ (52 / 1000 : ℝ) < 55 / 1000 := by
  refine ⟨rfl, ?_, ?_, by norm_num, by norm_num, by norm_num, by norm_num⟩
  · rintro (⟨v, hv, hlt⟩ | ⟨c, hc, -⟩)
    · simp only [pValues, withKolmogorov, exAnalysis, List.mem_cons, List.not_mem_nil, or_false] at hv
      rcases hv with rfl | rfl | rfl | rfl | rfl | rfl | rfl <;> norm_num [F.lt] at hlt
    · cases hc
  · norm_num [LowR2, exAnalysis]
    intro x hx; cases hx

/-! ## Sizes -/

/-- **C212 (restricted), the table of the sizes.**  A size of the table is the computed one with two decimals and an error of at most 0.005. -/
theorem C212_sizes_partial {O : Type} (f : PodFns O) (solve : (ℝ → ℝ) → ℝ → ℝ → ℝ → ℝ) (lo hi : ℝ) (model : ℝ → ℝ) (modelCl : ℝ → ℝ → ℝ) (o : O)
    (hf : ∀ p c, f.size o p c = curveSizes solve lo hi model modelCl p c) (label : String) (b : Bool) (p c : ℝ)
    (hp : model lo ≤ p ∧ p ≤ model hi) (hc : modelCl c lo ≤ p ∧ p ≤ modelCl c hi) :
    (sizeRow f label (some (o, b)) p c).1 = label ∧
    Displays (sizeRow f label (some (o, b)) p c).2.1 (.fin (solve model p lo hi)) ∧
    Displays (sizeRow f label (some (o, b)) p c).2.2 (.fin (solve (modelCl c) p lo hi)) := by
  rw [C132_row_partial f solve lo hi model modelCl o hf label b p c hp hc]
  exact ⟨rfl, displays_round _, displays_round _⟩

/-- **C212 is violated, sizes.**  For every increasing curve, whatever the method: when the third decimal of the exact size is below 5 (and the size
is not a multiple of 0.01), the table shows a size whose probability of detection is below the requested level, in both columns; a size below 0.005,
for instance in metres, is shown as 0. -/
theorem C212_violated_size {O : Type} (f : PodFns O) (solve : (ℝ → ℝ) → ℝ → ℝ → ℝ → ℝ) (lo hi : ℝ) (model : ℝ → ℝ) (modelCl : ℝ → ℝ → ℝ) (o : O)
    (hf : ∀ p c, f.size o p c = curveSizes solve lo hi model modelCl p c) (label : String) (b : Bool) (p c : ℝ)
    (hp : model lo ≤ p ∧ p ≤ model hi) (hc : modelCl c lo ≤ p ∧ p ≤ modelCl c hi) (hm : StrictMono model) (hmc : StrictMono (modelCl c))
    (hs : model (solve model p lo hi) = p) (hsc : modelCl c (solve (modelCl c) p lo hi) = p) :
    (∀ n : ℤ, (n : ℝ) / 100 < solve model p lo hi → solve model p lo hi < n / 100 + 1 / 200 →
      (sizeRow f label (some (o, b)) p c).2.1 = .num (.fin (n / 100)) ∧ model (n / 100) < p) ∧
    (∀ n : ℤ, (n : ℝ) / 100 < solve (modelCl c) p lo hi → solve (modelCl c) p lo hi < n / 100 + 1 / 200 →
      (sizeRow f label (some (o, b)) p c).2.2 = .num (.fin (n / 100)) ∧ modelCl c (n / 100) < p) ∧
    (0 < solve model p lo hi → solve model p lo hi < 1 / 200 →
      (sizeRow f label (some (o, b)) p c).2.1 = .num (.fin 0) ∧ model 0 < p) := by
  obtain ⟨-, h1, h2⟩ := C212_sizes_partial f solve lo hi model modelCl o hf label b p c hp hc
  have key : ∀ (cell : Cell) (s : ℝ) (n : ℤ), Displays cell (.fin s) → (n : ℝ) / 100 < s → s < n / 100 + 1 / 200 → cell = .num (.fin (n / 100)) := by
    rintro cell s n ⟨k, rfl, hk⟩ ha hb
    obtain ⟨h3, h4⟩ := abs_le.1 hk
    have h5 : (n : ℝ) - 1 < k := by linarith
    have h6 : (k : ℝ) < n + 1 := by linarith
    have h7 : n - 1 < k := by exact_mod_cast h5
    have h8 : k < n + 1 := by exact_mod_cast h6
    rw [show k = n by omega]
  refine ⟨fun n ha hb => ⟨key _ _ n h1 ha hb, ?_⟩, fun n ha hb => ⟨key _ _ n h2 ha hb, ?_⟩, fun ha hb => ⟨?_, ?_⟩⟩
  · have := hm ha; rwa [hs] at this
  · have := hmc ha; rwa [hsc] at this
  · have := key _ _ 0 h1 (by simpa using ha) (by simpa using hb)
    simpa using this
  · have := hm ha; rwa [hs] at this

/-- A curve with detection size 0.124 and 0.9 at the confidence level, on an interval of length one: the table shows 0.12. -/
example : ∃ f : PodFns Unit, (sizeRow f "Kriging :" (some ((), true)) (9/10) (95/100)).2.1 = .num (.fin ((12 : ℤ) / 100)) ∧
    (12 / 100 : ℝ) + 776 / 1000 < 9 / 10 := by
  let m : ℝ → ℝ := fun a => a + 776 / 1000
  let f : PodFns Unit :=
    { size := fun _ p c => curveSizes (fun g p _ _ => p - g 0) 0 1 m (fun _ a => a) p c
      r2 := fun _ _ => .ok (.fin 1), q2 := fun _ => .ok (.fin 1), drawPOD := fun _ _ _ => .ok (), drawModel := fun _ _ => .ok ()
      drawValidation := fun _ => .ok () }
  have h := (C212_violated_size f (fun g p _ _ => p - g 0) 0 1 m (fun _ a => a) () (fun _ _ => rfl) "Kriging :" true (9/10) (95/100)
    (by norm_num [m]) (by norm_num) (fun a b hab => by simpa [m] using hab) (fun a b hab => hab) (by norm_num [m]) (by norm_num)).1 12
    (by norm_num [m]) (by norm_num [m])
  exact ⟨f, h.1, by norm_num⟩

end Verif.Props
