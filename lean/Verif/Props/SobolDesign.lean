import Verif.Model.SobolDesign
import Verif.Props.Sobol
import Verif.Props.McExpect
import Verif.Props.MeanCurve
import Mathlib.Probability.Moments.Variance
import Mathlib.Probability.Independence.Basic

/-!
# C146: total Sobol index of an input without influence
-/

namespace Verif.Props
open Verif.Py Verif.Model MeasureTheory ProbabilityTheory

/-! ## Layout of the design -/

theorem sobolDesign_length {dim N : ℕ} {A B : List (List ℝ)} (hA : A.length = N) (hB : B.length = N) :
    (sobolDesign dim A B).length = (2 + dim) * N := by
  have : ((List.range dim).flatMap fun i => List.zipWith (sobolExchange i) A B).length = dim * N := by
    rw [List.length_flatMap]
    simp [hA, hB]
  rw [sobolDesign, List.length_append, List.length_append, this, hA, hB]
  ring

theorem sobolDesign_first {dim N : ℕ} {A B : List (List ℝ)} (hA : A.length = N) {k : ℕ} (hk : k < N) :
    (sobolDesign dim A B)[k]? = A[k]? := by
  rw [sobolDesign, List.append_assoc, List.getElem?_append_left (by omega)]

theorem sobolDesign_block {dim N : ℕ} {A B : List (List ℝ)} (hA : A.length = N) (hB : B.length = N) {i k : ℕ} (hi : i < dim) (hk : k < N) :
    (sobolDesign dim A B)[(2 + i) * N + k]? = some (sobolExchange i (A[k]'(by omega)) (B[k]'(by omega))) := by
  rw [sobolDesign, List.getElem?_append_right (by rw [List.length_append, hA, hB]; nlinarith)]
  have e : (2 + i) * N + k - (A ++ B).length = i * N + k := by
    rw [List.length_append, hA, hB, add_mul]
    omega
  rw [e, flatMap_getElem? N (fun i => List.zipWith (sobolExchange i) A B) (by simp [hA, hB]) _ i k (by simpa using hi) hk]
  rw [List.getElem?_eq_getElem (by simp [hA, hB]; exact hk), List.getElem_zipWith]
  simp

/-! ## Kriging -/

/-- The function does not depend on the parameter at this position. -/
def Ignores {β : Type} (i : ℕ) (g : List ℝ → β) : Prop := ∀ x t, g (x.set i t) = g x

theorem designEntry_map_eq {dim N : ℕ} {A B : List (List ℝ)} (hA : A.length = N) (hB : B.length = N) {i : ℕ} (hi : i < dim)
    (g : List ℝ → List ℝ) (hg : Ignores i g) {k : ℕ} (hk : k < N) (j : ℕ) :
    designEntry ((sobolDesign dim A B).map g) N 0 k j = designEntry ((sobolDesign dim A B).map g) N (2 + i) k j := by
  unfold designEntry
  rw [zero_mul, zero_add]
  simp only [List.getD_eq_getElem?_getD (l := (sobolDesign dim A B).map g)]
  rw [List.getElem?_map, List.getElem?_map, sobolDesign_block hA hB hi hk, sobolDesign_first hA hk, List.getElem?_eq_getElem (by omega)]
  simp only [Option.map_some, Option.getD_some]
  rw [sobolExchange, hg]

/-- **C146 (restricted): kriging.**  When the conditional mean and variance do not depend on an input, its total index is exactly zero,
for all samples, defect sizes and thresholds (`val` reads the row of a call as numbers). -/
theorem C146_kriging_partial (condMean condVar : List ℝ → ℝ) (det : ℝ) (sizes : List ℝ) {dim N : ℕ} {A B : List (List ℝ)} (hA : A.length = N)
    (hB : B.length = N) {i : ℕ} (hi : i < dim) (hm : Ignores (i + 1) condMean) (hv : Ignores (i + 1) condVar)
    (val : Res (List (F ℝ)) → List ℝ) (j : ℕ) :
    jansenTotal N i j ((sobolDesign dim A B).map fun x => val (krigExec condMean condVar det sizes x)) = 0 := by
  have hg : Ignores i fun x => val (krigExec condMean condVar det sizes x) := by
    intro x t
    have h : ∀ (f : List ℝ → ℝ), Ignores (i + 1) f → (sizes.map fun d => d :: x.set i t).map f = (sizes.map fun d => d :: x).map f := by
      intro f hf
      rw [List.map_map, List.map_map]
      apply List.map_congr_left
      intro d _
      exact hf (d :: x) t
    dsimp only
    unfold krigExec
    dsimp only
    rw [h condMean hm, h condVar hv]
  have : jansenGap N i j ((sobolDesign dim A B).map fun x => val (krigExec condMean condVar det sizes x)) = 0 := by
    apply Finset.sum_eq_zero
    intro k hk
    rw [designEntry_map_eq hA hB hi _ hg (Finset.mem_range.mp hk), sub_self]
    norm_num
  rw [jansenTotal, this]
  simp

/-! ## Polynomial chaos -/

/-- Residuals of one call of `_exec_sample`: independent standard normal numbers, one row per simulated chaos, one column per point. -/
noncomputable def residualLaw (S n : ℕ) : Measure (Fin S → Fin n → ℝ) :=
  Measure.pi fun _ : Fin S => Measure.pi fun _ : Fin n => gaussianReal 0 1

instance (S n : ℕ) : IsProbabilityMeasure (residualLaw S n) := by unfold residualLaw; infer_instance

/-- The output design of a chaos analysis: `f s` is the metamodel with the `s`-th vector of simulated coefficients. -/
noncomputable def chaosOutput {S : ℕ} (f : Fin S → List ℝ → ℝ) (det stderr : ℝ) (dim : ℕ) (sizes : List ℝ) (X : List (List ℝ))
    (R : Fin S → Fin X.length → ℝ) : List (List ℝ) :=
  chaosExecSample (fun p => List.ofFn fun s => f s p) det dim sizes X (List.ofFn fun s => List.ofFn fun c => R s c * stderr)

/-- Does the simulated signal exceed the threshold? -/
noncomputable def exceed (det stderr v z : ℝ) : ℝ := if det < v + z * stderr then 1 else 0

theorem chaosOutput_entry {S : ℕ} (f : Fin S → List ℝ → ℝ) (det stderr : ℝ) (dim : ℕ) (sizes : List ℝ) (X : List (List ℝ))
    (R : Fin S → Fin X.length → ℝ) (r j : ℕ) (hr : r < X.length) (hj : j < sizes.length) :
    ((chaosOutput f det stderr dim sizes X R).getD r []).getD j 0
      = (∑ s, exceed det stderr (f s (sizes[j] :: X[r])) (R s ⟨r, hr⟩)) / S := by
  obtain ⟨row, h1, h2⟩ := (C69_rows_partial (fun p => List.ofFn fun s => f s p) det dim sizes X
    (List.ofFn fun s => List.ofFn fun c => R s c * stderr)).2 r hr
  have h3 : (chaosOutput f det stderr dim sizes X R).getD r [] = row := by
    rw [chaosOutput, List.getD_eq_getElem?_getD, h1, Option.getD_some]
  rw [h3]
  unfold chaosExec at h2
  rw [if_neg (by simp), Except.ok.injEq] at h2
  rw [← h2, List.getD_eq_getElem _ _ (by simpa using hj), List.getElem_map, List.getElem_map]
  have : List.zipWith (· + ·) (List.ofFn fun s => f s (sizes[j] :: X[r]))
      ((List.ofFn fun s => List.ofFn fun c => R s c * stderr).map fun q : List ℝ => q.getD r 0)
      = List.ofFn fun s => f s (sizes[j] :: X[r]) + R s ⟨r, hr⟩ * stderr := by
    apply List.ext_getElem
    · simp
    · intro k g1 g2
      simp [List.getD_eq_getElem?_getD, hr]
  refine (congrArg (fracAbove det) this).trans ?_
  rw [fracAbove_ofFn]
  rfl

theorem exceed_measurable (det stderr v : ℝ) : Measurable (exceed det stderr v) := by
  unfold exceed
  exact Measurable.ite (measurableSet_lt measurable_const (by fun_prop)) measurable_const measurable_const

theorem exceed_range (det stderr v z : ℝ) : 0 ≤ exceed det stderr v z ∧ exceed det stderr v z ≤ 1 := by
  unfold exceed; split_ifs <;> norm_num

theorem exceed_sq (det stderr v z : ℝ) : exceed det stderr v z ^ 2 = exceed det stderr v z := by
  unfold exceed; split_ifs <;> norm_num

theorem exceed_memLp {Ω : Type*} [MeasurableSpace Ω] (P : Measure Ω) [IsProbabilityMeasure P] (det stderr v : ℝ) (Z : Ω → ℝ) (hZ : Measurable Z) :
    MemLp (fun ω => exceed det stderr v (Z ω)) 2 P := by
  refine MemLp.of_bound ((exceed_measurable det stderr v).comp hZ).aestronglyMeasurable 1 (Filter.Eventually.of_forall fun ω => ?_)
  rw [Real.norm_eq_abs, abs_of_nonneg (exceed_range _ _ _ _).1]
  exact (exceed_range _ _ _ _).2

theorem exceed_mean {Ω : Type*} [MeasurableSpace Ω] (P : Measure Ω) [IsProbabilityMeasure P] (det : ℝ) {stderr : ℝ} (hs : 0 < stderr) (v : ℝ)
    (Z : Ω → ℝ) (hZ : Measurable Z) (hlaw : P.map Z = gaussianReal 0 1) :
    ∫ ω, exceed det stderr v (Z ω) ∂P = PhiC ((det - v) / stderr) := by
  have h1 : ∫ ω, exceed det stderr v (Z ω) ∂P = ∫ z, exceed det stderr v z ∂(P.map Z) :=
    (integral_map hZ.aemeasurable (exceed_measurable det stderr v).aestronglyMeasurable).symm
  rw [h1, hlaw, PhiC]
  have h2 : exceed det stderr v = (Set.Ioi ((det - v) / stderr)).indicator fun _ => (1 : ℝ) := by
    funext z
    rw [exceed, Set.indicator]
    have : det < v + z * stderr ↔ z ∈ Set.Ioi ((det - v) / stderr) := by
      rw [Set.mem_Ioi, div_lt_iff₀ hs]
      constructor <;> intro h <;> linarith
    by_cases hz : det < v + z * stderr
    · rw [if_pos hz, if_pos (this.mp hz)]
    · rw [if_neg hz, if_neg fun h => hz (this.mpr h)]
  rw [h2, integral_indicator measurableSet_Ioi]
  simp [measureReal_def]

theorem exceed_variance {Ω : Type*} [MeasurableSpace Ω] (P : Measure Ω) [IsProbabilityMeasure P] (det : ℝ) {stderr : ℝ} (hs : 0 < stderr) (v : ℝ)
    (Z : Ω → ℝ) (hZ : Measurable Z) (hlaw : P.map Z = gaussianReal 0 1) :
    variance (fun ω => exceed det stderr v (Z ω)) P = PhiC ((det - v) / stderr) * (1 - PhiC ((det - v) / stderr)) := by
  rw [variance_eq_sub (exceed_memLp P det stderr v Z hZ)]
  have : (fun ω => exceed det stderr v (Z ω)) ^ 2 = fun ω => exceed det stderr v (Z ω) := by
    funext ω
    exact exceed_sq _ _ _ _
  rw [this, exceed_mean P det hs v Z hZ hlaw]
  ring

/-- Mean squared difference between two columns of residuals. -/
theorem gap_expectation {S n : ℕ} (det : ℝ) {stderr : ℝ} (hs : 0 < stderr) (v : Fin S → ℝ) (c c' : Fin n) (hcc : c ≠ c') :
    ∫ R, ((∑ s, exceed det stderr (v s) (R s c)) / S - (∑ s, exceed det stderr (v s) (R s c')) / S) ^ 2 ∂(residualLaw S n)
      = 2 / (S : ℝ) ^ 2 * ∑ s, PhiC ((det - v s) / stderr) * (1 - PhiC ((det - v s) / stderr)) := by
  set D : Fin S → (Fin S → Fin n → ℝ) → ℝ := fun s R => exceed det stderr (v s) (R s c) - exceed det stderr (v s) (R s c') with hD
  set d : Fin S → (Fin n → ℝ) → ℝ := fun s r => exceed det stderr (v s) (r c) - exceed det stderr (v s) (r c') with hd
  have hdm : ∀ s, Measurable (d s) := fun s =>
    ((exceed_measurable det stderr (v s)).comp (measurable_pi_apply c)).sub ((exceed_measurable det stderr (v s)).comp (measurable_pi_apply c'))
  have hcol : ∀ s c, Measurable fun R : Fin S → Fin n → ℝ => R s c := fun s c => (measurable_pi_apply c).comp (measurable_pi_apply s)
  have hlaw : ∀ s c, (residualLaw S n).map (fun R => R s c) = gaussianReal 0 1 := by
    intro s c
    have e1 := (measurePreserving_eval (fun _ : Fin S => Measure.pi fun _ : Fin n => gaussianReal 0 1) s)
    have e2 := (measurePreserving_eval (fun _ : Fin n => gaussianReal 0 1) c)
    exact (e2.comp e1).map_eq
  have hmem : ∀ s c, MemLp (fun R : Fin S → Fin n → ℝ => exceed det stderr (v s) (R s c)) 2 (residualLaw S n) := fun s c =>
    exceed_memLp _ det stderr (v s) _ (hcol s c)
  have hDmem : ∀ s, MemLp (D s) 2 (residualLaw S n) := fun s => (hmem s c).sub (hmem s c')
  -- rows are independent
  have hrows : iIndepFun (fun s (R : Fin S → Fin n → ℝ) => d s (R s)) (residualLaw S n) :=
    iIndepFun_pi (μ := fun _ : Fin S => Measure.pi fun _ : Fin n => gaussianReal 0 1) fun s => (hdm s).aemeasurable
  -- columns are independent
  have hcols : iIndepFun (fun c (r : Fin n → ℝ) => r c) (Measure.pi fun _ : Fin n => gaussianReal 0 1) :=
    iIndepFun_pi (μ := fun _ : Fin n => gaussianReal 0 1) (X := fun _ z => z) fun c => aemeasurable_id
  have hmean : ∀ s, ∫ R, D s R ∂(residualLaw S n) = 0 := by
    intro s
    rw [hD]
    dsimp only
    rw [integral_sub ((hmem s c).integrable (by norm_num)) ((hmem s c').integrable (by norm_num)),
      exceed_mean _ det hs (v s) _ (hcol s c) (hlaw s c), exceed_mean _ det hs (v s) _ (hcol s c') (hlaw s c'), sub_self]
  have hvarD : ∀ s, variance (D s) (residualLaw S n) = 2 * (PhiC ((det - v s) / stderr) * (1 - PhiC ((det - v s) / stderr))) := by
    intro s
    have hind : IndepFun (fun R : Fin S → Fin n → ℝ => exceed det stderr (v s) (R s c)) (fun R => exceed det stderr (v s) (R s c'))
        (residualLaw S n) := by
      have h0 := hcols.indepFun hcc
      have e1 := (measurePreserving_eval (fun _ : Fin S => Measure.pi fun _ : Fin n => gaussianReal 0 1) s)
      rw [← e1.map_eq] at h0
      have he : Measurable (Function.eval s : (Fin S → Fin n → ℝ) → Fin n → ℝ) := e1.measurable
      have h1 := (indepFun_iff_map_prod_eq_prod_map_map ((hcol s c).aemeasurable (μ := residualLaw S n)) (hcol s c').aemeasurable).mpr (by
        have h2 := (indepFun_iff_map_prod_eq_prod_map_map (measurable_pi_apply c).aemeasurable (measurable_pi_apply c').aemeasurable).mp h0
        rw [Measure.map_map (by fun_prop) he, Measure.map_map (measurable_pi_apply c) he,
          Measure.map_map (measurable_pi_apply c') he] at h2
        exact h2)
      exact h1.comp (exceed_measurable det stderr (v s)) (exceed_measurable det stderr (v s))
    have := variance_sub (hmem s c) (hmem s c')
    rw [hind.covariance_eq_zero (hmem s c) (hmem s c'), mul_zero, sub_zero] at this
    rw [show D s = (fun R : Fin S → Fin n → ℝ => exceed det stderr (v s) (R s c)) - fun R => exceed det stderr (v s) (R s c') from rfl, this,
      exceed_variance _ det hs (v s) _ (hcol s c) (hlaw s c), exceed_variance _ det hs (v s) _ (hcol s c') (hlaw s c')]
    ring
  have hsum : variance (∑ s, D s) (residualLaw S n) = ∑ s, variance (D s) (residualLaw S n) :=
    IndepFun.variance_sum (fun s _ => hDmem s) fun s _ s' _ hne => hrows.indepFun hne
  have hsum0 : ∫ R, (∑ s, D s) R ∂(residualLaw S n) = 0 := by
    simp only [Finset.sum_apply]
    rw [integral_finsetSum _ fun s _ => (hDmem s).integrable (by norm_num)]
    simp [hmean]
  rw [variance_of_integral_eq_zero (by
    have := memLp_finsetSum' Finset.univ fun s _ => hDmem s
    exact this.1.aemeasurable) hsum0] at hsum
  have hpt : ∀ R : Fin S → Fin n → ℝ, ((∑ s, exceed det stderr (v s) (R s c)) / S - (∑ s, exceed det stderr (v s) (R s c')) / S) ^ 2
      = 1 / (S : ℝ) ^ 2 * ((∑ s, D s) R) ^ 2 := by
    intro R
    rw [Finset.sum_apply, ← sub_div, ← Finset.sum_sub_distrib, div_pow]
    ring
  simp only [hpt]
  rw [integral_const_mul, hsum]
  simp only [hvarD, ← Finset.mul_sum]
  ring

theorem jansenGap_expectation {S : ℕ} (f : Fin S → List ℝ → ℝ) (det : ℝ) {stderr : ℝ} (hs : 0 < stderr) (sizes : List ℝ) {dim N : ℕ}
    {A B : List (List ℝ)} (hA : A.length = N) (hB : B.length = N) {i : ℕ} (hi : i < dim) (hf : ∀ s, Ignores (i + 1) (f s)) {j : ℕ}
    (hj : j < sizes.length) :
    ∫ R, jansenGap N i j (chaosOutput f det stderr dim sizes (sobolDesign dim A B) R) ∂(residualLaw S (sobolDesign dim A B).length)
      = ∑ k ∈ Finset.range N, 2 / (S : ℝ) ^ 2 *
        ∑ s, PhiC ((det - f s (sizes[j] :: A.getD k [])) / stderr) * (1 - PhiC ((det - f s (sizes[j] :: A.getD k [])) / stderr)) := by
  have hlen := sobolDesign_length (dim := dim) hA hB
  have key : ∀ k (hk : k < N) (R : Fin S → Fin (sobolDesign dim A B).length → ℝ),
      designEntry (chaosOutput f det stderr dim sizes (sobolDesign dim A B) R) N 0 k j
        - designEntry (chaosOutput f det stderr dim sizes (sobolDesign dim A B) R) N (2 + i) k j
      = (∑ s, exceed det stderr (f s (sizes[j] :: A.getD k [])) (R s ⟨k, by rw [hlen]; nlinarith⟩)) / S
        - (∑ s, exceed det stderr (f s (sizes[j] :: A.getD k [])) (R s ⟨(2 + i) * N + k, by rw [hlen]; nlinarith⟩)) / S := by
    intro k hk R
    have h1 : k < (sobolDesign dim A B).length := by rw [hlen]; nlinarith
    have h2 : (2 + i) * N + k < (sobolDesign dim A B).length := by rw [hlen]; nlinarith
    have g1 : (sobolDesign dim A B)[k] = A.getD k [] := by
      have := sobolDesign_first (dim := dim) (B := B) hA hk
      rw [List.getElem?_eq_getElem h1] at this
      rw [List.getD_eq_getElem?_getD, ← this, Option.getD_some]
    have g2 : (sobolDesign dim A B)[(2 + i) * N + k] = (A.getD k []).set i ((B.getD k []).getD i 0) := by
      have := sobolDesign_block hA hB hi hk
      rw [List.getElem?_eq_getElem h2, Option.some.injEq] at this
      rw [this, sobolExchange, List.getD_eq_getElem _ _ (by omega : k < A.length), List.getD_eq_getElem _ _ (by omega : k < B.length)]
    have g3 : ∀ s, f s (sizes[j] :: (sobolDesign dim A B)[(2 + i) * N + k]) = f s (sizes[j] :: A.getD k []) := by
      intro s
      rw [g2]
      exact hf s (sizes[j] :: A.getD k []) _
    unfold designEntry
    rw [chaosOutput_entry f det stderr dim sizes _ R ((2 + i) * N + k) j h2 hj]
    simp only [zero_mul, zero_add]
    rw [chaosOutput_entry f det stderr dim sizes _ R k j h1 hj, g1]
    simp only [g3]
  unfold jansenGap
  rw [integral_finsetSum]
  · apply Finset.sum_congr rfl
    intro k hk
    have hk := Finset.mem_range.mp hk
    simp only [key k hk]
    exact gap_expectation det hs (fun s => f s (sizes[j] :: A.getD k [])) _ _ (by
      intro h
      have := congrArg Fin.val h
      simp only at this
      nlinarith)
  · intro k hk
    have hk := Finset.mem_range.mp hk
    simp only [key k hk]
    have hcol : ∀ s c, Measurable fun R : Fin S → Fin (sobolDesign dim A B).length → ℝ => R s c :=
      fun s c => (measurable_pi_apply c).comp (measurable_pi_apply s)
    have hm : ∀ c, MemLp (fun R : Fin S → Fin (sobolDesign dim A B).length → ℝ => (∑ s, exceed det stderr (f s (sizes[j] :: A.getD k [])) (R s c)) / S) 2
        (residualLaw S (sobolDesign dim A B).length) := by
      intro c
      have := memLp_finsetSum Finset.univ fun s (_ : s ∈ Finset.univ) => exceed_memLp (residualLaw S (sobolDesign dim A B).length) det stderr
        (f s (sizes[j] :: A.getD k [])) _ (hcol s c)
      have h2 := this.const_mul (1 / S : ℝ)
      refine h2.ae_eq (Filter.Eventually.of_forall fun R => ?_)
      dsimp only
      ring
    exact ((hm _).sub (hm _)).integrable_sq

/-- **C146 (restricted): polynomial chaos.**  When the metamodel does not depend on an input, the squared differences from which the total index
of the input is computed have an expectation of at most `N / (2 S)`, `S` being the simulation size. -/
theorem C146_chaos_partial {S : ℕ} (f : Fin S → List ℝ → ℝ) (det : ℝ) {stderr : ℝ} (hs : 0 < stderr) (sizes : List ℝ) {dim N : ℕ}
    {A B : List (List ℝ)} (hA : A.length = N) (hB : B.length = N) {i : ℕ} (hi : i < dim) (hf : ∀ s, Ignores (i + 1) (f s)) {j : ℕ}
    (hj : j < sizes.length) :
    ∫ R, jansenGap N i j (chaosOutput f det stderr dim sizes (sobolDesign dim A B) R) ∂(residualLaw S (sobolDesign dim A B).length)
      ≤ N / (2 * S) := by
  rw [jansenGap_expectation f det hs sizes hA hB hi hf hj]
  have hq : ∀ q : ℝ, q * (1 - q) ≤ 1 / 4 := fun q => by nlinarith [sq_nonneg (q - 1 / 2)]
  have : ∀ k, 2 / (S : ℝ) ^ 2 * ∑ s : Fin S, PhiC ((det - f s (sizes[j] :: A.getD k [])) / stderr)
      * (1 - PhiC ((det - f s (sizes[j] :: A.getD k [])) / stderr)) ≤ 1 / (2 * S) := by
    intro k
    have h1 : ∑ s : Fin S, PhiC ((det - f s (sizes[j] :: A.getD k [])) / stderr)
      * (1 - PhiC ((det - f s (sizes[j] :: A.getD k [])) / stderr)) ≤ S * (1 / 4) := by
      refine (Finset.sum_le_card_nsmul _ _ (1 / 4) fun s _ => hq _).trans ?_
      simp
    refine (mul_le_mul_of_nonneg_left h1 (by positivity)).trans ?_
    rcases Nat.eq_zero_or_pos S with h | h
    · subst h; simp
    · have : (0 : ℝ) < S := by exact_mod_cast h
      rw [div_mul_eq_mul_div, div_le_div_iff₀ (by positivity) (by positivity)]
      nlinarith
  refine (Finset.sum_le_card_nsmul _ _ _ fun k _ => this k).trans ?_
  rw [Finset.card_range, nsmul_eq_mul]
  apply le_of_eq
  ring

/-- **C146 violated: polynomial chaos.**  The residuals are drawn again for each point of the design, hence a point and the point that differs
from it only by an input without influence have different probabilities: for all metamodels, simulated coefficients, samples, sizes and
thresholds, the numerator of the total index has a positive expectation and is not zero with a positive probability. -/
theorem C146_violated {S : ℕ} (hS : 0 < S) (f : Fin S → List ℝ → ℝ) (det : ℝ) {stderr : ℝ} (hs : 0 < stderr) (sizes : List ℝ) {dim N : ℕ} (hN : 0 < N)
    {A B : List (List ℝ)} (hA : A.length = N) (hB : B.length = N) {i : ℕ} (hi : i < dim) (hf : ∀ s, Ignores (i + 1) (f s)) {j : ℕ}
    (hj : j < sizes.length) :
    0 < ∫ R, jansenGap N i j (chaosOutput f det stderr dim sizes (sobolDesign dim A B) R) ∂(residualLaw S (sobolDesign dim A B).length) ∧
    0 < residualLaw S (sobolDesign dim A B).length {R | 0 < jansenGap N i j (chaosOutput f det stderr dim sizes (sobolDesign dim A B) R)} := by
  have h1 : 0 < ∫ R, jansenGap N i j (chaosOutput f det stderr dim sizes (sobolDesign dim A B) R) ∂(residualLaw S (sobolDesign dim A B).length) := by
    rw [jansenGap_expectation f det hs sizes hA hB hi hf hj]
    have hS' : (0 : ℝ) < S := by exact_mod_cast hS
    refine Finset.sum_pos (fun k _ => mul_pos (by positivity) (Finset.sum_pos (fun s _ => ?_) ⟨⟨0, hS⟩, Finset.mem_univ _⟩))
      ⟨0, Finset.mem_range.mpr hN⟩
    have p := PhiC_pos ((det - f s (sizes[j] :: A.getD k [])) / stderr)
    have p2 := Phi_pos ((det - f s (sizes[j] :: A.getD k [])) / stderr)
    rw [PhiC_eq] at p ⊢
    exact mul_pos p (by linarith)
  refine ⟨h1, ?_⟩
  rw [pos_iff_ne_zero]
  intro h0
  have : ∫ R, jansenGap N i j (chaosOutput f det stderr dim sizes (sobolDesign dim A B) R) ∂(residualLaw S (sobolDesign dim A B).length) = 0 := by
    apply integral_eq_zero_of_ae
    have hae : ∀ᵐ R ∂(residualLaw S (sobolDesign dim A B).length),
        ¬ 0 < jansenGap N i j (chaosOutput f det stderr dim sizes (sobolDesign dim A B) R) := by
      rw [ae_iff]
      simpa using h0
    filter_upwards [hae] with R hR
    exact le_antisymm (not_lt.mp hR) (Finset.sum_nonneg fun k _ => sq_nonneg _)
  rw [this] at h1
  exact lt_irrefl _ h1

theorem ignores_example (c : ℝ) : Ignores (1 + 1) fun p : List ℝ => c * p.getD 0 0 + p.getD 1 0 := by
  intro p t
  rcases p with _ | ⟨a, _ | ⟨b, _ | ⟨e, p⟩⟩⟩ <;> simp

/-- A kriging model of the defect and the first of two parameters; the second one has a null total index. -/
example (val : Res (List (F ℝ)) → List ℝ) : jansenTotal 2 1 0 ((sobolDesign 2 [[1, 2], [3, 4]] [[5, 6], [7, 8]]).map fun x =>
    val (krigExec (fun p => 3 * p.getD 0 0 + p.getD 1 0) (fun _ => 1) 3 [1, 2] x)) = 0 :=
  C146_kriging_partial (fun p => 3 * p.getD 0 0 + p.getD 1 0) (fun _ => 1) 3 [1, 2] (N := 2) (i := 1) rfl rfl (by norm_num)
    (ignores_example 3) (fun _ _ => rfl) val 0

/-- The same with two simulated vectors of coefficients and a standard error of 1. -/
example : 0 < ∫ R, jansenGap 2 1 0 (chaosOutput (fun (s : Fin 2) p => (s : ℝ) * p.getD 0 0 + p.getD 1 0) 3 1 2 [1, 2]
    (sobolDesign 2 [[1, 2], [3, 4]] [[5, 6], [7, 8]]) R) ∂(residualLaw 2 (sobolDesign 2 [[1, 2], [3, 4]] [[5, 6], [7, 8]]).length) :=
  (C146_violated (S := 2) (N := 2) (dim := 2) (i := 1) (j := 0) (A := [[1, 2], [3, 4]]) (B := [[5, 6], [7, 8]]) (by norm_num)
    (fun (s : Fin 2) p => (s : ℝ) * p.getD 0 0 + p.getD 1 0) 3 one_pos [1, 2] (by norm_num) rfl rfl (by norm_num)
    (fun s => ignores_example s) (by norm_num)).1

end Verif.Props
