import Verif.Props.HmcCalibration
import Verif.Props.BpPower

/-!
# C174: the Harrison-McCabe test does not see a variance that depends on the defect (/repo/otpod/_math_tools.py 156-175)
-/

namespace Verif.Props
open Verif.Py Verif.Model MeasureTheory ProbabilityTheory Set

/-! ## Reversing the order of the observations -/

theorem smean_rev {n : ℕ} (x : Fin n → ℝ) : smean (fun i => x i.rev) = smean x := by
  rw [smean, smean, ← Equiv.sum_comp Fin.revPerm x]
  rfl

theorem olsResiduals_rev {n : ℕ} (x y : Fin n → ℝ) (i : Fin n) :
    olsResiduals (fun i => x i.rev) (fun i => y i.rev) i = olsResiduals x y i.rev := by
  have hs : olsSlope (fun i => x i.rev) (fun i => y i.rev) = olsSlope x y := by
    rw [olsSlope, olsSlope, smean_rev, smean_rev, ← Equiv.sum_comp Fin.revPerm (fun i => (x i - smean x) * (y i - smean y)),
      ← Equiv.sum_comp Fin.revPerm (fun i => (x i - smean x) ^ 2)]
    rfl
  simp only [olsResiduals, olsIntercept, hs, smean_rev]

/-- With an even number of values the statistic of the reversed sample is the complement. -/
theorem hmcStat_rev (j : ℕ) (r : Fin (2 * j + 2) → ℝ) (h : ∑ i, r i ^ 2 ≠ 0) :
    harrisonMcCabeStat (j + 1) (fun i => r i.rev) = 1 - harrisonMcCabeStat (j + 1) r := by
  have hall : ∑ i : Fin (2 * j + 2), r i.rev ^ 2 = ∑ i, r i ^ 2 := Equiv.sum_comp Fin.revPerm (fun i => r i ^ 2)
  have hpart : ∑ i ∈ Finset.univ.filter (fun i : Fin (2 * j + 2) => i.val < j + 1), r i.rev ^ 2
      = ∑ i ∈ Finset.univ.filter (fun i : Fin (2 * j + 2) => ¬ i.val < j + 1), r i ^ 2 := by
    refine Finset.sum_nbij' Fin.rev Fin.rev ?_ ?_ ?_ ?_ ?_
    · intro i hi
      simp only [Finset.mem_filter, Finset.mem_univ, true_and, Fin.val_rev] at hi ⊢
      omega
    · intro i hi
      simp only [Finset.mem_filter, Finset.mem_univ, true_and, Fin.val_rev] at hi ⊢
      omega
    · intro i _; exact Fin.rev_rev i
    · intro i _; exact Fin.rev_rev i
    · intro i _; rfl
  have hsplit := Finset.sum_filter_add_sum_filter_not Finset.univ (fun i : Fin (2 * j + 2) => i.val < j + 1) (fun i => r i ^ 2)
  rw [harrisonMcCabeStat, harrisonMcCabeStat, hall, hpart, eq_sub_iff_add_eq, ← add_div, add_comm, hsplit, div_self h]

theorem breakPoint_even (j : ℕ) : breakPoint (1 / 2 : ℝ) (2 * j + 2) = j + 1 := by
  have : ⌊(1 / 2 : ℝ) * ((2 * j + 2 : ℕ) : ℝ)⌋ = ((j + 1 : ℕ) : ℤ) := by
    rw [Int.floor_eq_iff]
    push_cast
    constructor <;> linarith
  rw [breakPoint, this, Int.toNat_natCast]

theorem measurePreserving_rev {E : Type} [MeasurableSpace E] (ρ : Measure E) [IsProbabilityMeasure ρ] (n : ℕ) :
    MeasurePreserving (fun (t : Fin n → E) (i : Fin n) => t i.rev) (Measure.pi fun _ => ρ) (Measure.pi fun _ => ρ) := by
  have hmp := measurePreserving_piCongrLeft (α := fun _ : Fin n => E) (fun _ => ρ) Fin.revPerm
  convert hmp using 1
  funext t i
  have := Equiv.piCongrLeft_apply_apply (fun _ : Fin n => E) Fin.revPerm t i.rev
  rw [Fin.revPerm_apply, Fin.rev_rev] at this
  exact this.symm

/-- An event that happens for a point or for its image has probability at least one half. -/
theorem half_le_of_involution {E : Type} [MeasurableSpace E] (ρ : Measure E) [IsProbabilityMeasure ρ] {T : E → E} (hT : MeasurePreserving T ρ ρ)
    {A : Set E} (hA : MeasurableSet A) (h : ∀ᵐ t ∂ρ, t ∈ A ∨ T t ∈ A) : 1 / 2 ≤ ρ.real A := by
  have h1 : ρ.real (T ⁻¹' A) = ρ.real A := by rw [measureReal_def, measureReal_def, hT.measure_preimage hA.nullMeasurableSet]
  have h2 : ρ.real (A ∪ T ⁻¹' A) = 1 := by
    rw [measureReal_def, (mem_ae_iff_prob_eq_one₀ (hA.nullMeasurableSet.union (hA.nullMeasurableSet.preimage hT.quasiMeasurePreserving))).1 h]
    rfl
  have := measureReal_union_le (μ := ρ) A (T ⁻¹' A)
  linarith

theorem hmcData_measurable (n bp : ℕ) :
    Measurable fun d : Fin n → ℝ × ℝ => harrisonMcCabeStat bp (olsResiduals (fun i => (d i).1) (fun i => (d i).2)) := by
  unfold harrisonMcCabeStat olsResiduals olsIntercept olsSlope smean
  fun_prop

/-- Observations of a law without atom in the defect and without line of positive mass are almost surely not on a line. -/
theorem residuals_ne (P : Measure (ℝ × ℝ)) [IsProbabilityMeasure P] (hx : ∀ c, P {w | w.1 = c} = 0) (hl : ∀ a b, P {w | w.2 = a + b * w.1} = 0)
    (n : ℕ) : ∀ᵐ d ∂(Measure.pi fun _ : Fin (n + 3) => P), ∑ i, olsResiduals (fun i => (d i).1) (fun i => (d i).2) i ^ 2 ≠ 0 := by
  have hinj : ∀ᵐ d ∂(Measure.pi fun _ : Fin (n + 3) => P), Function.Injective fun i => (d i).1 := by
    have : IsProbabilityMeasure (P.map Prod.fst) := Measure.isProbabilityMeasure_map measurable_fst.aemeasurable
    have h1 := no_ties (P.map Prod.fst) (fun v => by
      rw [Measure.map_apply measurable_fst (measurableSet_singleton v)]; exact hx v) (n + 2)
    have hmp : MeasurePreserving (fun (d : Fin (n + 3) → ℝ × ℝ) i => (d i).1) (Measure.pi fun _ => P) (Measure.pi fun _ => P.map Prod.fst) :=
      measurePreserving_pi (fun _ => P) (fun _ => P.map Prod.fst) fun _ => ⟨measurable_fst, rfl⟩
    exact hmp.quasiMeasurePreserving.ae h1
  have hline : ∀ᵐ d ∂(Measure.pi fun _ : Fin (n + 3) => P),
      (d 0).2 ≠ ((d 1).2 - ((d 2).2 - (d 1).2) / ((d 2).1 - (d 1).1) * (d 1).1) + ((d 2).2 - (d 1).2) / ((d 2).1 - (d 1).1) * (d 0).1 := by
    have hp := measurePreserving_piFinSuccAbove (fun _ : Fin (n + 3) => P) 0
    set T : Set ((ℝ × ℝ) × (Fin (n + 2) → ℝ × ℝ)) :=
      {q | q.1.2 = ((q.2 0).2 - ((q.2 1).2 - (q.2 0).2) / ((q.2 1).1 - (q.2 0).1) * (q.2 0).1)
        + ((q.2 1).2 - (q.2 0).2) / ((q.2 1).1 - (q.2 0).1) * q.1.1} with hT
    have hmeas : MeasurableSet T := measurableSet_eq_fun (by fun_prop) (by fun_prop)
    have h0 : (P.prod (Measure.pi fun _ : Fin (n + 2) => P)) T = 0 := by
      rw [← Measure.prod_swap, Measure.map_apply measurable_swap hmeas, Measure.measure_prod_null (measurable_swap hmeas)]
      exact Filter.Eventually.of_forall fun u =>
        hl ((u 0).2 - ((u 1).2 - (u 0).2) / ((u 1).1 - (u 0).1) * (u 0).1) (((u 1).2 - (u 0).2) / ((u 1).1 - (u 0).1))
    have h3 := hp.measure_preimage hmeas.nullMeasurableSet
    rw [h0] at h3
    rw [ae_iff]
    convert h3 using 2
    ext d
    simp only [ne_eq, not_not, mem_preimage]
    rfl
  filter_upwards [hinj, hline] with d h1 h2 h0
  have hz : ∀ i, olsResiduals (fun i => (d i).1) (fun i => (d i).2) i = 0 := by
    intro i
    have := (Finset.sum_eq_zero_iff_of_nonneg fun i _ => sq_nonneg _).1 h0 i (Finset.mem_univ i)
    exact pow_eq_zero_iff two_ne_zero |>.1 this
  have hne : (d 2).1 - (d 1).1 ≠ 0 := by
    intro h
    have := h1 (a₁ := 2) (a₂ := 1) (by simp only; linarith)
    rw [Fin.ext_iff, Fin.val_two, Fin.val_one] at this
    omega
  have e0 := hz 0
  have e1 := hz 1
  have e2 := hz 2
  simp only [olsResiduals] at e0 e1 e2
  set A := olsIntercept (fun i => (d i).1) (fun i => (d i).2)
  set B := olsSlope (fun i => (d i).1) (fun i => (d i).2)
  have hB : ((d 2).2 - (d 1).2) / ((d 2).1 - (d 1).1) = B := by
    rw [div_eq_iff hne]; linarith
  rw [hB] at h2
  exact h2 (by linarith)

/-- **C174, violated for the test of Harrison and McCabe.**  Whatever the law of the observations (the defect has no atom and no line has a positive
mass) and so whatever the dependence of the variance on the defect, for every even number of observations and every number of simulations, the p-value
is less than `1/2` with a probability of at most `3/4`: the warning, given below `0.05`, is not given more often when the observations are more
numerous. -/
theorem C174_violated (P : Measure (ℝ × ℝ)) [IsProbabilityMeasure P] (hx : ∀ c, P {w | w.1 = c} = 0)
    (hl : ∀ a b, P {w | w.2 = a + b * w.1} = 0) (j N : ℕ) (hj : 1 ≤ j) (hN : 0 < N) :
    ((Measure.pi fun _ : Fin (2 * j + 2) => P).prod (Measure.pi fun _ : Fin N => stdSample (2 * j + 2))).real
        {ω | F.lt (harrisonMcCabePValue (List.ofFn fun k => standardise (ω.2 k))
          (olsResiduals (fun i => (ω.1 i).1) (fun i => (ω.1 i).2))) (.fin (1 / 2)) = true}
      ≤ 3 / 4 := by
  set f : (Fin (2 * j + 2) → ℝ × ℝ) → ℝ := fun d => harrisonMcCabeStat (j + 1) (olsResiduals (fun i => (d i).1) (fun i => (d i).2)) with hf
  set g : (Fin (2 * j + 2) → ℝ) → ℝ := fun z => harrisonMcCabeStat (j + 1) fun i => z i - smean z with hg
  have hfm : Measurable f := hmcData_measurable _ _
  have hgm : Measurable g := hmcStat_measurable _
  have hres : ∀ᵐ d ∂(Measure.pi fun _ : Fin (2 * j + 2) => P), ∑ i, olsResiduals (fun i => (d i).1) (fun i => (d i).2) i ^ 2 ≠ 0 := by
    obtain ⟨k, rfl⟩ : ∃ k, j = k + 1 := ⟨j - 1, by omega⟩
    exact residuals_ne P hx hl (2 * k + 1)
  have hinj : ∀ᵐ z ∂(Measure.pi fun _ : Fin N => stdSample (2 * j + 2)), ∀ k, Function.Injective (z k) := by
    rw [ae_all_iff]
    intro k
    have h1 : ∀ᵐ z ∂stdSample (2 * j + 2), Function.Injective z :=
      no_ties (gaussianReal 0 1) (fun v => by
        have := nullSingletonClass_gaussianReal (μ := 0) (v := 1) one_ne_zero
        exact measure_singleton v) (2 * j + 1)
    exact (measurePreserving_eval (fun _ : Fin N => stdSample (2 * j + 2)) k).quasiMeasurePreserving.ae h1
  have hA : 1 / 2 ≤ (Measure.pi fun _ : Fin (2 * j + 2) => P).real {d | 1 / 2 ≤ f d} := by
    refine half_le_of_involution _ (measurePreserving_rev P (2 * j + 2)) (measurableSet_le measurable_const hfm) ?_
    filter_upwards [hres] with d hd
    have : f (fun i => d i.rev) = 1 - f d := by
      simp only [hf]
      rw [← hmcStat_rev j _ hd]
      congr 1
      funext i
      exact olsResiduals_rev (fun i => (d i).1) (fun i => (d i).2) i
    change 1 / 2 ≤ f d ∨ 1 / 2 ≤ f (fun i => d i.rev)
    rw [this]
    rcases le_total (1 / 2) (f d) with h | h
    · exact Or.inl h
    · exact Or.inr (by linarith)
  set C : (Fin N → Fin (2 * j + 2) → ℝ) → ℕ := fun z => (Finset.univ.filter fun k => g (z k) ≤ 1 / 2).card with hC
  have hCm : Measurable C := by
    have : C = fun z => ∑ k, if g (z k) ≤ 1 / 2 then 1 else 0 := by
      funext z; simp only [hC, Finset.card_filter]
    rw [this]
    exact Finset.measurable_sum _ fun k _ => Measurable.ite (measurableSet_le (hgm.comp (measurable_pi_apply k)) measurable_const)
      measurable_const measurable_const
  have hB : 1 / 2 ≤ (Measure.pi fun _ : Fin N => stdSample (2 * j + 2)).real {z | N ≤ 2 * C z} := by
    have hmp : MeasurePreserving (fun (z : Fin N → Fin (2 * j + 2) → ℝ) k i => z k i.rev) (Measure.pi fun _ => stdSample (2 * j + 2))
        (Measure.pi fun _ => stdSample (2 * j + 2)) :=
      measurePreserving_pi (fun _ => stdSample (2 * j + 2)) (fun _ => stdSample (2 * j + 2)) fun _ =>
        measurePreserving_rev (gaussianReal 0 1) (2 * j + 2)
    have hBm : MeasurableSet {z | N ≤ 2 * C z} := measurableSet_le measurable_const (measurable_const.mul hCm)
    refine half_le_of_involution _ hmp hBm ?_
    filter_upwards [hinj] with z hz
    have hrev : ∀ k, g (fun i => z k i.rev) = 1 - g (z k) := by
      intro k
      simp only [hg]
      rw [smean_rev, ← hmcStat_rev j _ (centred_ne (z k) (hz k))]
    have hsum : N ≤ C z + C (fun k i => z k i.rev) := by
      have h1 : (Finset.univ : Finset (Fin N)) ⊆ (Finset.univ.filter fun k => g (z k) ≤ 1 / 2)
          ∪ (Finset.univ.filter fun k => g (fun i => z k i.rev) ≤ 1 / 2) := by
        intro k _
        simp only [Finset.mem_union, Finset.mem_filter, Finset.mem_univ, true_and, hrev]
        rcases le_total (g (z k)) (1 / 2) with h | h
        · exact Or.inl h
        · exact Or.inr (by linarith)
      have h2 := (Finset.card_le_card h1).trans (Finset.card_union_le _ _)
      rw [Finset.card_univ, Fintype.card_fin] at h2
      exact h2
    change N ≤ 2 * C z ∨ N ≤ 2 * C (fun k i => z k i.rev)
    omega
  set Q1 := Measure.pi fun _ : Fin (2 * j + 2) => P with hQ1
  set Q2 := Measure.pi fun _ : Fin N => stdSample (2 * j + 2) with hQ2
  have hprod : 1 / 4 ≤ (Q1.prod Q2).real ({d | 1 / 2 ≤ f d} ×ˢ {z | N ≤ 2 * C z}) := by
    rw [measureReal_prod_prod]
    nlinarith
  have hms : MeasurableSet ({d | 1 / 2 ≤ f d} ×ˢ {z | N ≤ 2 * C z}) :=
    (measurableSet_le measurable_const hfm).prod (measurableSet_le measurable_const (measurable_const.mul hCm))
  have hcompl := measureReal_compl (μ := Q1.prod Q2) hms
  have hone : (Q1.prod Q2).real univ = 1 := by simp
  have himp : ∀ᵐ ω ∂(Q1.prod Q2), ω ∈ {ω : (Fin (2 * j + 2) → ℝ × ℝ) × (Fin N → Fin (2 * j + 2) → ℝ) |
        F.lt (harrisonMcCabePValue (List.ofFn fun k => standardise (ω.2 k))
          (olsResiduals (fun i => (ω.1 i).1) (fun i => (ω.1 i).2))) (.fin (1 / 2)) = true} →
      ω ∈ ({d | 1 / 2 ≤ f d} ×ˢ {z | N ≤ 2 * C z})ᶜ := by
    have a1 : ∀ᵐ ω ∂(Q1.prod Q2), ∑ i, olsResiduals (fun i => (ω.1 i).1) (fun i => (ω.1 i).2) i ^ 2 ≠ 0 :=
      Measure.quasiMeasurePreserving_fst.ae hres
    have a2 : ∀ᵐ ω ∂(Q1.prod Q2), ∀ k, Function.Injective (ω.2 k) := Measure.quasiMeasurePreserving_snd.ae hinj
    filter_upwards [a1, a2] with ω h1 h2 hlt hmem
    obtain ⟨hd, hz⟩ := hmem
    change 1 / 2 ≤ f ω.1 at hd
    change N ≤ 2 * C ω.2 at hz
    change F.lt _ _ = true at hlt
    have hN' : (0 : ℝ) < N := Nat.cast_pos.mpr hN
    have hcount : C ω.2 ≤ ((List.ofFn fun k => standardise (ω.2 k)).map (hmcRatio (j + 1))).countP (fun s => F.le s (.fin (f ω.1))) := by
      rw [List.map_ofFn, countP_ofFn']
      refine Finset.card_le_card fun k hk => ?_
      simp only [Finset.mem_filter, Finset.mem_univ, true_and, Function.comp, hmcRatio_standardise (j + 1) _ (h2 k), F.le_fin,
        decide_eq_true_eq] at hk ⊢
      exact hk.trans hd
    rw [harrisonMcCabePValue, breakPoint_even, hmcRatio_fin _ _ h1, List.length_ofFn, F.div_fin _ hN'.ne', F.lt_fin, decide_eq_true_eq,
      div_lt_iff₀ hN'] at hlt
    have hc2 : (C ω.2 : ℝ) ≤ _ := Nat.cast_le.2 hcount
    have hz2 : (N : ℝ) ≤ 2 * C ω.2 := by exact_mod_cast hz
    simp only [hf] at hc2
    linarith
  have hle : (Q1.prod Q2).real ({d | 1 / 2 ≤ f d} ×ˢ {z | N ≤ 2 * C z})ᶜ ≤ 3 / 4 := by
    rw [hcompl, hone]
    linarith
  exact le_trans (ENNReal.toReal_mono (measure_ne_top _ _) (measure_mono_ae himp)) hle

/-- Signals `(1 + |x|) u` with a normal defect `x` and a normal error `u`: the standard deviation grows with the size of the defect.  A million
observations, the 1000 simulations of the code. -/
example : ((Measure.pi fun _ : Fin (2 * 499999 + 2) => ((gaussianReal 0 1).prod (gaussianReal 0 1)).map fun w : ℝ × ℝ => (w.1, (1 + |w.1|) * w.2)).prod
      (Measure.pi fun _ : Fin 1000 => stdSample (2 * 499999 + 2))).real
        {ω | F.lt (harrisonMcCabePValue (List.ofFn fun k => standardise (ω.2 k))
          (olsResiduals (fun i => (ω.1 i).1) (fun i => (ω.1 i).2))) (.fin (1 / 2)) = true}
      ≤ 3 / 4 := by
  have hm : Measurable fun w : ℝ × ℝ => (w.1, (1 + |w.1|) * w.2) := by fun_prop
  have : IsProbabilityMeasure (((gaussianReal 0 1).prod (gaussianReal 0 1)).map fun w : ℝ × ℝ => (w.1, (1 + |w.1|) * w.2)) :=
    Measure.isProbabilityMeasure_map hm.aemeasurable
  have hna := nullSingletonClass_gaussianReal (μ := 0) (v := 1) one_ne_zero
  refine C174_violated _ (fun c => ?_) (fun a b => ?_) 499999 1000 (by norm_num) (by norm_num)
  · have hs : MeasurableSet {w : ℝ × ℝ | w.1 = c} := measurableSet_eq_fun (by fun_prop) (by fun_prop)
    rw [Measure.map_apply hm hs]
    have : (fun w : ℝ × ℝ => (w.1, (1 + |w.1|) * w.2)) ⁻¹' {w | w.1 = c} = {c} ×ˢ univ := by
      ext w; simp
    rw [this, Measure.prod_prod, measure_singleton, zero_mul]
  · have hs : MeasurableSet {w : ℝ × ℝ | w.2 = a + b * w.1} := measurableSet_eq_fun (by fun_prop) (by fun_prop)
    rw [Measure.map_apply hm hs, Measure.measure_prod_null (hm hs)]
    refine Filter.Eventually.of_forall fun x => ?_
    change gaussianReal 0 1 {u | (1 + |x|) * u = a + b * x} = 0
    have hpos : (1 + |x|) ≠ 0 := by have := abs_nonneg x; linarith
    have : {u : ℝ | (1 + |x|) * u = a + b * x} = {(a + b * x) / (1 + |x|)} := by
      ext u
      simp only [mem_singleton_iff, eq_div_iff hpos]
      change _ = _ ↔ _
      rw [mul_comm]
    rw [this, measure_singleton]

end Verif.Props
