import Verif.Props.SimLimit

/-!
# C247: coverage of the hit-miss confidence curve (/repo/otpod/_adaptive_hitmiss_pod.py 401-451)

The classifier is exact here: `detect (a, y)` is the probability of detecting a defect of size `a` when the other parameters are `y`.
-/

namespace Verif.Props
open Verif.Py Verif.Model ProbabilityTheory MeasureTheory Set Filter Topology

variable {Ω X : Type} [MeasurableSpace Ω] [MeasurableSpace X]

/-- **C247 violated.**  Even with the exact classifier: if at a size less than a share `1 - level` of the parameters has a detection probability of at most `v`, where `v` is
above the true POD, then for almost all draws the curve at this confidence level is above `v`, hence above the true POD, for all large sampling sizes. -/
theorem C247_violated (Q : Measure Ω) [IsProbabilityMeasure Q] (law : Measure X) [IsProbabilityMeasure law] (zero : ℝ × X) (detect : ℝ × X → ℝ)
    (hc : ∀ a, Measurable fun y => detect (a, y)) (x : ℕ → Ω → X) (hx : ∀ k, Measurable (x k))
    (hlaw : ∀ k, Q.map (x k) = law) (hind : iIndepFun x Q) (s : SimAttrs) (hs : s.sizes.Pairwise (· < ·)) (hnum : s.number = s.sizes.length)
    (level : ℝ) (hl0 : 0 ≤ level) (hl1 : level ≤ 1) (a : ℝ) (ha : a ∈ s.sizes) (v : ℝ) (hv : ∫ y, detect (a, y) ∂law < v)
    (hshare : law.real {y | detect (a, y) ≤ v} < 1 - level) :
    ∀ᵐ ω ∂Q, ∀ᶠ n in atTop, ∃ g w, getPODCLModel (hitMissRunSim zero detect (List.ofFn fun k : Fin n => x k ω) s).2 level = .ok g ∧ g a = .ok w ∧
      ∫ y, detect (a, y) ∂law < v ∧ v < w := by
  filter_upwards [share_tendsto Q law (fun y => detect (a, y)) (hc a) x hx hlaw hind v] with ω h
  filter_upwards [(quantile_eventually (fun k => detect (a, x k ω)) v _ (1 - level) (by linarith) (by linarith) h).2 hshare] with n hn
  obtain ⟨f, g, -, hg, -, hw⟩ := hitMiss_nodes zero detect (List.ofFn fun k : Fin n => x k ω) s hs hnum level a ha
  refine ⟨g, _, hg, hw, hv, ?_⟩
  rw [List.map_ofFn]
  exact hn

/-- **C247 (restricted).**  With the exact classifier: for almost all draws and for all large sampling sizes the curve is below the true POD at each size where more than a share
`1 - level` of the parameters has a detection probability of at most some `v` below the true POD; and at every size `level` times the curve exceeds the true POD by at most any
`ε > 0`.  Missing: the factor `level` at the other sizes. -/
theorem C247_below_partial (Q : Measure Ω) [IsProbabilityMeasure Q] (law : Measure X) [IsProbabilityMeasure law] (zero : ℝ × X) (detect : ℝ × X → ℝ)
    (hc : ∀ a, Measurable fun y => detect (a, y)) (hc01 : ∀ p, 0 ≤ detect p ∧ detect p ≤ 1) (x : ℕ → Ω → X) (hx : ∀ k, Measurable (x k))
    (hlaw : ∀ k, Q.map (x k) = law) (hind : iIndepFun x Q) (s : SimAttrs) (hs : s.sizes.Pairwise (· < ·)) (hnum : s.number = s.sizes.length)
    (level : ℝ) (hl0 : 0 ≤ level) (hl1 : level ≤ 1) (a : ℝ) (ha : a ∈ s.sizes) :
    (∀ v < ∫ y, detect (a, y) ∂law, 1 - level < law.real {y | detect (a, y) ≤ v} → ∀ᵐ ω ∂Q, ∀ᶠ n in atTop,
      ∃ g w, getPODCLModel (hitMissRunSim zero detect (List.ofFn fun k : Fin n => x k ω) s).2 level = .ok g ∧ g a = .ok w ∧ w < ∫ y, detect (a, y) ∂law) ∧
    ∀ᵐ ω ∂Q, ∀ ε > 0, ∀ᶠ n in atTop,
      ∃ g w, getPODCLModel (hitMissRunSim zero detect (List.ofFn fun k : Fin n => x k ω) s).2 level = .ok g ∧ g a = .ok w ∧ level * w < ∫ y, detect (a, y) ∂law + ε := by
  constructor
  · intro v hv hshare
    filter_upwards [share_tendsto Q law (fun y => detect (a, y)) (hc a) x hx hlaw hind v] with ω h
    filter_upwards [(quantile_eventually (fun k => detect (a, x k ω)) v _ (1 - level) (by linarith) (by linarith) h).1 hshare] with n hn
    obtain ⟨f, g, -, hg, -, hw⟩ := hitMiss_nodes zero detect (List.ofFn fun k : Fin n => x k ω) s hs hnum level a ha
    refine ⟨g, _, hg, hw, lt_of_le_of_lt ?_ hv⟩
    rw [List.map_ofFn]
    exact hn
  · filter_upwards [avg_strong hx hlaw hind (hc a) ((memLp_unit law (hc a) fun y => hc01 _).integrable (by norm_num))] with ω h ε hε
    filter_upwards [h.eventually_lt_const (lt_add_of_pos_right _ hε), eventually_gt_atTop 0] with n hn hn0
    have hne : (List.ofFn fun k : Fin n => x k ω) ≠ [] := by
      rw [Ne, List.ofFn_eq_nil_iff]
      omega
    obtain ⟨f, g, hf, hg, hfa, hw⟩ := hitMiss_nodes zero detect (List.ofFn fun k : Fin n => x k ω) s hs hnum level a ha
    obtain ⟨f', g', hf', hg', hle⟩ := C151_hitmiss_partial zero detect hc01 (List.ofFn fun k : Fin n => x k ω) hne s (hs.imp fun h => h.le) hnum level hl0 hl1
    rw [hf, Option.some.injEq] at hf'
    rw [hg, Except.ok.injEq] at hg'
    subst hf' hg'
    refine ⟨g, _, hg, hw, lt_of_le_of_lt (hle a _ _ hfa hw) ?_⟩
    have e1 : listMean ((List.ofFn fun k : Fin n => x k ω).map fun x => detect (a, x)) = avg x (fun y => detect (a, y)) n ω := by
      rw [listMean, avg, List.map_ofFn, List.sum_ofFn, List.length_ofFn, Finset.sum_range]
      rfl
    rw [e1]
    exact hn

/-- At every confidence level below 1 there is such a case: one parameter, uniform; all defects are detected except when the parameter is below half of `1 - level`. -/
example (level : ℝ) (hl0 : 0 ≤ level) (hl1 : level < 1) :
    let law : Measure ℝ := volume.restrict (Icc 0 1)
    let detect : ℝ × ℝ → ℝ := fun p => if p.2 ≤ (1 - level) / 2 then 0 else 1
    let v := 1 - (1 - level) / 4
    ∫ y, detect (5, y) ∂law < v ∧ law.real {y | detect (5, y) ≤ v} < 1 - level := by
  intro law detect v
  have hset : {y : ℝ | detect (5, y) ≤ v} = Iic ((1 - level) / 2) := by
    ext y
    simp only [mem_ofPred_eq, mem_Iic, detect, v]
    split_ifs with h
    · exact ⟨fun _ => h, fun _ => by linarith⟩
    · exact ⟨fun h1 => absurd h1 (by linarith), fun h1 => absurd h1 h⟩
  have hm : law.real (Iic ((1 - level) / 2)) = (1 - level) / 2 := by
    have hI : Iic ((1 - level) / 2) ∩ Icc (0 : ℝ) 1 = Icc 0 ((1 - level) / 2) := by
      ext y
      simp only [mem_inter_iff, mem_Iic, mem_Icc]
      constructor
      · rintro ⟨h1, h2, -⟩
        exact ⟨h2, h1⟩
      · rintro ⟨h1, h2⟩
        exact ⟨h2, h1, by linarith⟩
    rw [measureReal_def, Measure.restrict_apply measurableSet_Iic, hI, Real.volume_Icc, ENNReal.toReal_ofReal (by linarith)]
    ring
  have : IsProbabilityMeasure law := ⟨by simp [law]⟩
  refine ⟨?_, by rw [hset, hm]; linarith⟩
  have hd : (fun y => detect (5, y)) = (Ioi ((1 - level) / 2)).indicator 1 := by
    funext y
    simp only [detect, indicator, mem_Ioi, Pi.one_apply]
    by_cases h : y ≤ (1 - level) / 2
    · rw [if_pos h, if_neg (not_lt.2 h)]
    · rw [if_neg h, if_pos (not_le.1 h)]
  rw [hd, integral_indicator_one measurableSet_Ioi, ← compl_Iic, probReal_compl_eq_one_sub measurableSet_Iic, hm]
  simp only [v]
  linarith

end Verif.Props
