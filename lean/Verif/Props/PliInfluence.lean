import Verif.Props.Consistency
import Verif.Props.Limits

/-!
# C138 (inputs without influence), C139 (range of the perturbed probability), C140 (direction of a mean perturbation)
-/

namespace Verif.Props
open Verif.Py Verif.Model MeasureTheory ProbabilityTheory Filter Topology

/-! ## C138 -/

/-- The probability of an event that does not depend on coordinate `k` does not depend on the density of that coordinate. -/
theorem prob_uninfluential {d : ℕ} (pdf : Fin d → ℝ → ℝ) (hpdf : ∀ i, IsDensity (pdf i)) (k : Fin d) (pert : ℝ → ℝ) (hpert : IsDensity pert)
    (E : Set (Fin d → ℝ)) (hE : MeasurableSet E) (hk : ∀ x t, x ∈ E ↔ Function.update x k t ∈ E) :
    (densityLaw (jointPDF (Function.update pdf k pert))).real E = (densityLaw (jointPDF pdf)).real E := by
  cases d with
  | zero => exact k.elim0
  | succ n =>
    have hupd : ∀ i, IsDensity (Function.update pdf k pert i) := by
      intro i
      by_cases h : i = k
      · subst h; rw [Function.update_self]; exact hpert
      · rw [Function.update_of_ne h]; exact hpdf i
    have key : ∀ f : Fin (n + 1) → ℝ → ℝ, (∀ i, IsDensity (f i)) → (densityLaw (jointPDF f)).real E
        = ∫ y : Fin n → ℝ, {y | k.insertNth 0 y ∈ E}.indicator (fun y => ∏ i, f (k.succAbove i) (y i)) y := by
      intro f hf
      obtain ⟨j1, j2, j3, j4⟩ := jointPDF_density hf
      have h1 : (densityLaw (jointPDF f)).real E = ∫ x, E.indicator (jointPDF f) x := by
        rw [integral_indicator hE, measureReal_def, densityLaw, withDensity_apply _ hE,
          ← ofReal_integral_eq_lintegral_ofReal j3.integrableOn (Eventually.of_forall j2), ENNReal.toReal_ofReal]
        exact integral_nonneg j2
      have hp := (volume_preserving_piFinSuccAbove (fun _ : Fin (n + 1) => ℝ) k).symm
      rw [h1, ← hp.integral_comp (MeasurableEquiv.measurableEmbedding _)]
      have h2 : ∀ q : ℝ × (Fin n → ℝ), E.indicator (jointPDF f) ((MeasurableEquiv.piFinSuccAbove (fun _ => ℝ) k).symm q)
          = f k q.1 * {y | k.insertNth 0 y ∈ E}.indicator (fun y => ∏ i, f (k.succAbove i) (y i)) q.2 := by
        rintro ⟨t, y⟩
        have e : (MeasurableEquiv.piFinSuccAbove (fun _ : Fin (n + 1) => ℝ) k).symm (t, y) = k.insertNth t y := rfl
        rw [e]
        have hmem : k.insertNth t y ∈ E ↔ (k.insertNth 0 y : Fin (n + 1) → ℝ) ∈ E := by
          rw [hk (k.insertNth 0 y) t, Fin.update_insertNth]
        by_cases hy : (k.insertNth 0 y : Fin (n + 1) → ℝ) ∈ E
        · rw [Set.indicator_of_mem (hmem.mpr hy), Set.indicator_of_mem (by exact hy), jointPDF, Fin.prod_univ_succAbove _ k]
          simp
        · rw [Set.indicator_of_notMem (fun h => hy (hmem.mp h)), Set.indicator_of_notMem (by exact hy), mul_zero]
      simp only [h2]
      rw [Measure.volume_eq_prod, integral_prod_mul (f k), (hf k).mass, one_mul]
    rw [key _ hupd, key _ hpdf]
    simp

/-- **C138.**  When the performance function does not depend on input `k`, whatever the perturbation of that input: the expectation of the perturbed
probability is the probability of the event, and almost surely the index computed from the first `N` draws tends to 0. -/
theorem C138_null_index {Ω : Type} [MeasurableSpace Ω] (Q : Measure Ω) [IsProbabilityMeasure Q] {d : ℕ} (pdf : Fin d → ℝ → ℝ)
    (hpdf : ∀ i, IsDensity (pdf i)) (k : Fin d) (pert : ℝ → ℝ) (hpert : IsDensity pert) (hsupp : ∀ x, pdf k x = 0 → pert x = 0)
    (g : (Fin d → ℝ) → ℝ) (hg : Measurable g) (hk : ∀ x t, g (Function.update x k t) = g x) (thr : ℝ)
    (hpos : 0 < (densityLaw (jointPDF pdf)).real {x | thr < g x})
    (x : ℕ → Ω → Fin d → ℝ) (hx : ∀ i, Measurable (x i))
    (hlaw : ∀ i, Q.map (x i) = densityLaw (jointPDF pdf)) (hind : Pairwise fun i j => IndepFun (x i) (x j) Q)
    (fs : ℕ → Ω → List (Fin d → ℝ))
    (hfs : ∀ N ω, failureSample .greater thr (List.ofFn fun i : Fin N => (x i ω, g (x i ω))) = .ok (fs N ω)) :
    ∀ᵐ ω ∂Q, (∀ᶠ N in atTop, ∃ s, pliIndex ((fs N ω).length / N) (pfDelta N (pliWeights pdf k pert (fs N ω))) = .fin s) ∧
      Tendsto (fun N => finValue (pliIndex ((fs N ω).length / N) (pfDelta N (pliWeights pdf k pert (fs N ω))))) atTop (𝓝 0) := by
  have hq := prob_uninfluential pdf hpdf k pert hpert {x | thr < g x} (measurableSet_lt measurable_const hg)
    (fun x t => by simp [hk])
  filter_upwards [C119_convergence Q pdf hpdf k pert hpert hsupp g hg thr x hx hlaw hind fs hfs _ _ rfl rfl] with ω h
  obtain ⟨-, -, h3⟩ := h
  rw [hq] at h3
  obtain ⟨h4, h5⟩ := h3 hpos hpos
  refine ⟨h4, ?_⟩
  convert h5 using 2
  rw [pliIndex, if_neg (lt_irrefl _), sub_self, F.div_fin _ hpos.ne', zero_div]
  rfl

/-- **C138, every number of simulations.**  The perturbed probability of an input without influence is an unbiased estimate of the probability. -/
theorem C138_unbiased {d N : ℕ} (hN : 0 < N) (pdf : Fin d → ℝ → ℝ) (hpdf : ∀ i, IsDensity (pdf i)) (k : Fin d) (pert : ℝ → ℝ)
    (hpert : IsDensity pert) (hsupp : ∀ x, pdf k x = 0 → pert x = 0) (g : (Fin d → ℝ) → ℝ) (hg : Measurable g)
    (hk : ∀ x t, g (Function.update x k t) = g x) (thr : ℝ) (fs : (Fin N → Fin d → ℝ) → List (Fin d → ℝ))
    (hfs : ∀ ω, failureSample .greater thr (List.ofFn fun i => (ω i, g (ω i))) = .ok (fs ω)) :
    ∫ ω, pfDelta N (pliWeights pdf k pert (fs ω)) ∂(Measure.pi fun _ : Fin N => densityLaw (jointPDF pdf))
      = (densityLaw (jointPDF pdf)).real {x | thr < g x} := by
  rw [C107_unbiased hN pdf hpdf k pert hpert hsupp g hg thr fs hfs,
    prob_uninfluential pdf hpdf k pert hpert {x | thr < g x} (measurableSet_lt measurable_const hg) (fun x t => by simp [hk])]

/-- Two standard normal inputs, the performance function is the first one, the mean of the second one is moved. -/
example (fs : (Fin 10 → Fin 2 → ℝ) → List (Fin 2 → ℝ))
    (hfs : ∀ ω, failureSample .greater 3 (List.ofFn fun i => (ω i, ω i 0)) = .ok (fs ω)) :
    ∫ ω, pfDelta 10 (pliWeights (fun _ => (Marg.normal 0 1).pdf) 1 (Marg.normal 5 1).pdf (fs ω))
        ∂(Measure.pi fun _ : Fin 10 => densityLaw (jointPDF fun _ : Fin 2 => (Marg.normal 0 1).pdf))
      = (densityLaw (jointPDF fun _ : Fin 2 => (Marg.normal 0 1).pdf)).real {x | 3 < x 0} :=
  C138_unbiased (by norm_num) _ (fun _ => goodMarg_density (m := .normal 0 1) (show (0 : ℝ) < 1 from one_pos)) 1 _
    (goodMarg_density (m := .normal 5 1) (show (0 : ℝ) < 1 from one_pos)) (fun x hx => absurd hx (by simp only [Marg.pdf]; positivity))
    (fun x => x 0) (by fun_prop) (fun x t => by simp) 3 fs hfs

/-! ## C139 -/

theorem meanPert_normal (solve : ℝ → ℝ → ℝ → ℝ) (μ σ δ : ℝ) : meanPert solve (.normal μ σ) δ = .ok (Marg.normal δ σ).pdf := by
  by_cases h : δ = μ
  · subst h; rw [meanPert, if_pos (show δ = (Marg.normal δ σ).mean from rfl)]
  · rw [meanPert, if_neg (show ¬ δ = (Marg.normal μ σ).mean from h)]; rfl

/-- The weight of a failure point under a mean perturbation of a Normal input. -/
theorem weight_normal {d : ℕ} (marg : Fin d → Marg) (k : Fin d) (μ σ δ : ℝ) (hσ : 0 < σ) (hk : marg k = .normal μ σ) (x : Fin d → ℝ)
    (hx : ∀ i, i ≠ k → (marg i).pdf (x i) ≠ 0) :
    perturbedPDF (fun i => (marg i).pdf) k (Marg.normal δ σ).pdf x / jointPDF (fun i => (marg i).pdf) x
      = Real.exp (((x k - μ) ^ 2 - (x k - δ) ^ 2) / (2 * σ ^ 2)) := by
  have h1 : perturbedPDF (fun i => (marg i).pdf) k (Marg.normal δ σ).pdf x
      = (Marg.normal δ σ).pdf (x k) * ∏ i ∈ Finset.univ.erase k, (marg i).pdf (x i) := by
    rw [perturbedPDF, ← Finset.mul_prod_erase _ _ (Finset.mem_univ k), Function.update_self]
    congr 1
    refine Finset.prod_congr rfl fun i hi => ?_
    rw [Function.update_of_ne (Finset.ne_of_mem_erase hi)]
  have h2 : jointPDF (fun i => (marg i).pdf) x = (marg k).pdf (x k) * ∏ i ∈ Finset.univ.erase k, (marg i).pdf (x i) := by
    rw [jointPDF, ← Finset.mul_prod_erase _ _ (Finset.mem_univ k)]
  have h3 : ∏ i ∈ Finset.univ.erase k, (marg i).pdf (x i) ≠ 0 :=
    Finset.prod_ne_zero_iff.mpr fun i hi => hx i (Finset.ne_of_mem_erase hi)
  rw [h1, h2, mul_div_mul_right _ _ h3, hk]
  simp only [Marg.pdf]
  have hc : 1 / (σ * Real.sqrt (2 * Real.pi)) ≠ 0 := by positivity
  rw [mul_div_mul_left _ _ hc, ← Real.exp_sub]
  congr 1
  field_simp
  ring

theorem pliTerm_integrable {d : ℕ} (pdf : Fin d → ℝ → ℝ) (hpdf : ∀ i, IsDensity (pdf i)) (k : Fin d) (pert : ℝ → ℝ)
    (hpert : IsDensity pert) (hsupp : ∀ x, pdf k x = 0 → pert x = 0) {E : Set (Fin d → ℝ)} (hE : MeasurableSet E) :
    Integrable (pliTerm pdf k pert E) (densityLaw (jointPDF pdf)) := by
  have hupd : ∀ i, IsDensity (Function.update pdf k pert i) := by
    intro i
    by_cases h : i = k
    · subst h; rw [Function.update_self]; exact hpert
    · rw [Function.update_of_ne h]; exact hpdf i
  obtain ⟨j1, j2, j3, j4⟩ := jointPDF_density hpdf
  obtain ⟨q1, q2, q3, q4⟩ := jointPDF_density hupd
  rw [densityLaw, integrable_withDensity_iff_integrable_smul' j1.ennreal_ofReal (Eventually.of_forall fun _ => ENNReal.ofReal_lt_top)]
  have hprod : ∀ x, (ENNReal.ofReal (jointPDF pdf x)).toReal • pliTerm pdf k pert E x
      = E.indicator (jointPDF (Function.update pdf k pert)) x := by
    intro x
    rw [ENNReal.toReal_ofReal (j2 x), smul_eq_mul, term_mul_joint pdf k pert hsupp, perturbedPDF_eq]
  simp only [hprod]
  exact q3.indicator hE

/-- **C139, restricted.**  The perturbed probability is not negative, its expectation is at most 1, and it exceeds `c` with probability at most
`1 / c`.  What is missing: the value itself can exceed 1. -/
theorem C139_range_partial {d N : ℕ} (hN : 0 < N) (pdf : Fin d → ℝ → ℝ) (hpdf : ∀ i, IsDensity (pdf i)) (k : Fin d) (pert : ℝ → ℝ)
    (hpert : IsDensity pert) (hsupp : ∀ x, pdf k x = 0 → pert x = 0) (g : (Fin d → ℝ) → ℝ) (hg : Measurable g) (thr : ℝ)
    (fs : (Fin N → Fin d → ℝ) → List (Fin d → ℝ))
    (hfs : ∀ ω, failureSample .greater thr (List.ofFn fun i => (ω i, g (ω i))) = .ok (fs ω)) (c : ℝ) (hc : 0 < c) :
    (∀ ω, 0 ≤ pfDelta N (pliWeights pdf k pert (fs ω))) ∧
    (∫ ω, pfDelta N (pliWeights pdf k pert (fs ω)) ∂(Measure.pi fun _ : Fin N => densityLaw (jointPDF pdf)) ≤ 1) ∧
    (Measure.pi fun _ : Fin N => densityLaw (jointPDF pdf)).real {ω | c ≤ pfDelta N (pliWeights pdf k pert (fs ω))} ≤ 1 / c := by
  have := densityLaw_isProbability hpdf
  have hupd : ∀ i, IsDensity (Function.update pdf k pert i) := by
    intro i
    by_cases h : i = k
    · subst h; rw [Function.update_self]; exact hpert
    · rw [Function.update_of_ne h]; exact hpdf i
  have := densityLaw_isProbability hupd
  have h0 : ∀ ω, 0 ≤ pfDelta N (pliWeights pdf k pert (fs ω)) := by
    intro ω
    rw [pfDelta, pliWeights]
    refine mul_nonneg (by positivity) (List.sum_nonneg ?_)
    intro w hw
    rw [List.mem_map] at hw
    obtain ⟨x, -, rfl⟩ := hw
    exact div_nonneg ((jointPDF_density hupd).2.1 x) ((jointPDF_density hpdf).2.1 x)
  have h1 : ∫ ω, pfDelta N (pliWeights pdf k pert (fs ω)) ∂(Measure.pi fun _ : Fin N => densityLaw (jointPDF pdf)) ≤ 1 := by
    rw [C107_unbiased hN pdf hpdf k pert hpert hsupp g hg thr fs hfs]
    exact measureReal_le_one
  refine ⟨h0, h1, ?_⟩
  have hint : Integrable (fun ω => pfDelta N (pliWeights pdf k pert (fs ω))) (Measure.pi fun _ : Fin N => densityLaw (jointPDF pdf)) := by
    have e : (fun ω => pfDelta N (pliWeights pdf k pert (fs ω)))
        = fun ω => 1 / (N : ℝ) * ∑ i, pliTerm pdf k pert {x | thr < g x} (ω i) :=
      funext fun ω => pfDelta_sample pdf k pert g thr ω (fs ω) (hfs ω)
    rw [e]
    refine (integrable_finsetSum _ fun i _ => ?_).const_mul _
    exact (measurePreserving_eval (fun _ : Fin N => densityLaw (jointPDF pdf)) i).integrable_comp_of_integrable
      (pliTerm_integrable pdf hpdf k pert hpert hsupp (measurableSet_lt measurable_const hg))
  have hm := mul_meas_ge_le_integral_of_nonneg (Eventually.of_forall h0) hint c
  rw [le_div_iff₀ hc, mul_comm]
  exact hm.trans h1

/-- Ten simulations of a standard normal input, its mean moved to 1: the perturbed probability is 2 or more with probability at most 1/2. -/
example (fs : (Fin 10 → Fin 1 → ℝ) → List (Fin 1 → ℝ))
    (hfs : ∀ ω, failureSample .greater 3 (List.ofFn fun i => (ω i, ω i 0)) = .ok (fs ω)) :
    (Measure.pi fun _ : Fin 10 => densityLaw (jointPDF fun _ : Fin 1 => (Marg.normal 0 1).pdf)).real
      {ω | 2 ≤ pfDelta 10 (pliWeights (fun _ => (Marg.normal 0 1).pdf) 0 (Marg.normal 1 1).pdf (fs ω))} ≤ 1 / 2 :=
  (C139_range_partial (by norm_num) _ (fun _ => goodMarg_density (m := .normal 0 1) (show (0 : ℝ) < 1 from one_pos)) 0 _
    (goodMarg_density (m := .normal 1 1) (show (0 : ℝ) < 1 from one_pos)) (fun x hx => absurd hx (by simp only [Marg.pdf]; positivity))
    (fun x => x 0) (by fun_prop) 3 fs hfs 2 (by norm_num)).2.2

/-- **C139, violated.**  For a Normal input, every number of simulations and every bound `B`, there are a mean and a history of simulations, all in the
event, such that the perturbed probability exceeds `B` (and the index exceeds `B - 1`, whereas `(1 - pf) / pf = 0` is the largest possible index). -/
theorem C139_violated (μ σ : ℝ) (hσ : 0 < σ) (N : ℕ) (hN : 0 < N) (B : ℝ) (solve : ℝ → ℝ → ℝ → ℝ) :
    ∃ (δ : ℝ) (p : ℝ → ℝ) (hist : List ((Fin 1 → ℝ) × ℝ)) (pfd v s : ℝ) (sd : Option ℝ),
      hist.length = N ∧ (∀ h ∈ hist, 0 < h.2) ∧ meanPert solve (.normal μ σ) δ = .ok p ∧
      pliEntry .greater 0 hist N 1 (fun _ => (Marg.normal μ σ).pdf) 0 p = .ok (pfd, v, .fin s, sd) ∧ B < pfd ∧ 1 < pfd ∧ B - 1 < s := by
  set t := |B| + 1 with ht
  have ht0 : 0 < t := by positivity
  set x := μ + σ * Real.sqrt (2 * t)
  have hw : perturbedPDF (fun _ : Fin 1 => (Marg.normal μ σ).pdf) 0 (Marg.normal x σ).pdf (fun _ => x)
      / jointPDF (fun _ : Fin 1 => (Marg.normal μ σ).pdf) (fun _ => x) = Real.exp t := by
    rw [weight_normal (fun _ => .normal μ σ) 0 μ σ x hσ rfl (fun _ => x) (fun i hi => absurd (Subsingleton.elim i 0) hi)]
    congr 1
    have : (x - μ) ^ 2 = σ ^ 2 * (2 * t) := by
      rw [show x - μ = σ * Real.sqrt (2 * t) by simp [x], mul_pow, Real.sq_sqrt (by positivity)]
    rw [this]
    field_simp
    ring
  have hexp : t + 1 < Real.exp t := Real.add_one_lt_exp ht0.ne'
  have hB : B ≤ |B| := le_abs_self B
  have hf : failureSample .greater 0 (List.replicate N ((fun _ => x : Fin 1 → ℝ), (1 : ℝ))) = .ok (List.replicate N fun _ => x) := by
    rw [failureSample, List.filter_replicate]
    simp
  have hpf : pfDelta N (pliWeights (fun _ : Fin 1 => (Marg.normal μ σ).pdf) 0 (Marg.normal x σ).pdf (List.replicate N fun _ => x))
      = Real.exp t := by
    rw [pfDelta, pliWeights, List.map_replicate, hw, List.sum_replicate, nsmul_eq_mul]
    have : (N : ℝ) ≠ 0 := Nat.cast_ne_zero.mpr hN.ne'
    field_simp
  have hi : pliIndex 1 (Real.exp t) = .fin (Real.exp t - 1) := by
    rw [pliIndex, if_neg (by rw [not_lt]; linarith [abs_nonneg B]), F.div_fin _ one_ne_zero, div_one]
  set w := varPfDelta N (pliWeights (fun _ : Fin 1 => (Marg.normal μ σ).pdf) 0 (Marg.normal x σ).pdf (List.replicate N fun _ => x))
  refine ⟨x, _, List.replicate N (fun _ => x, 1), Real.exp t, w, Real.exp t - 1, pliSigma N (pliVar 1 (Real.exp t) w), by simp, ?_, meanPert_normal solve μ σ x, ?_, ?_, ?_, ?_⟩
  · intro h hh
    rw [List.eq_of_mem_replicate hh]
    exact one_pos
  · simp only [pliEntry, hf, hpf, hi, w]
  · linarith
  · linarith [abs_nonneg B]
  · linarith

/-- A standard normal input and 1000 simulations. -/
example (solve : ℝ → ℝ → ℝ → ℝ) := C139_violated 0 1 one_pos 1000 (by norm_num) 50 solve

/-! ## C140 -/

/-- **C140, restricted, exact probabilities.**  When the performance function increases with input `k`, which is Normal, the probability of the event
under the law with the mean moved to `δ` increases with `δ`. -/
theorem C140_exact_partial {d : ℕ} (marg : Fin d → Marg) (hm : ∀ i, GoodMarg (marg i)) (k : Fin d) (μ σ : ℝ) (hk : marg k = .normal μ σ)
    (g : (Fin d → ℝ) → ℝ) (hg : Measurable g) (hmono : ∀ x s t, s ≤ t → g (Function.update x k s) ≤ g (Function.update x k t)) (thr : ℝ)
    (solve : ℝ → ℝ → ℝ → ℝ) (δ δ' : ℝ) (hδ : δ ≤ δ') (p p' : ℝ → ℝ) (hp : meanPert solve (marg k) δ = .ok p)
    (hp' : meanPert solve (marg k) δ' = .ok p') :
    (densityLaw (jointPDF (Function.update (fun i => (marg i).pdf) k p))).real {x | thr < g x}
      ≤ (densityLaw (jointPDF (Function.update (fun i => (marg i).pdf) k p'))).real {x | thr < g x} := by
  have hσ : 0 < σ := by have := hm k; rw [hk] at this; exact this
  rw [hk, meanPert_normal, Except.ok.injEq] at hp hp'
  subst hp; subst hp'
  have hupd : ∀ e i, IsDensity (Function.update (fun i => (marg i).pdf) k (Marg.normal e σ).pdf i) := by
    intro e i
    by_cases h : i = k
    · subst h; rw [Function.update_self]; exact goodMarg_density (m := .normal e σ) hσ
    · rw [Function.update_of_ne h]; exact goodMarg_density (hm i)
  set v : Fin d → ℝ := Pi.single k (δ' - δ)
  have hshift : ∀ x, jointPDF (Function.update (fun i => (marg i).pdf) k (Marg.normal δ' σ).pdf) (x + v)
      = jointPDF (Function.update (fun i => (marg i).pdf) k (Marg.normal δ σ).pdf) x := by
    intro x
    rw [jointPDF, jointPDF]
    refine Finset.prod_congr rfl fun i _ => ?_
    by_cases h : i = k
    · subst h
      rw [Function.update_self, Function.update_self]
      have : (x + v) i = x i + (δ' - δ) := by simp [v]
      rw [this]
      simp only [Marg.pdf]
      rw [show x i + (δ' - δ) - δ' = x i - δ by ring]
    · rw [Function.update_of_ne h, Function.update_of_ne h]
      have : (x + v) i = x i := by simp [v, h]
      rw [this]
  have hE : MeasurableSet {x | thr < g x} := measurableSet_lt measurable_const hg
  have key : ∀ e (S : Set (Fin d → ℝ)), MeasurableSet S →
      densityLaw (jointPDF (Function.update (fun i => (marg i).pdf) k (Marg.normal e σ).pdf)) S
        = ∫⁻ x, S.indicator (fun x => ENNReal.ofReal (jointPDF (Function.update (fun i => (marg i).pdf) k (Marg.normal e σ).pdf) x)) x := by
    intro e S hS
    rw [densityLaw, withDensity_apply _ hS, lintegral_indicator hS]
  have := densityLaw_isProbability (hupd δ')
  refine ENNReal.toReal_mono (measure_ne_top _ _) ?_
  rw [key δ _ hE, key δ' _ hE,
    ← lintegral_add_right_eq_self
      (fun x => {x | thr < g x}.indicator (fun x => ENNReal.ofReal (jointPDF (Function.update (fun i => (marg i).pdf) k (Marg.normal δ' σ).pdf) x)) x) v]
  refine lintegral_mono fun x => ?_
  simp only [Set.indicator]
  by_cases h : thr < g x
  · have h' : thr < g (x + v) := by
      have e1 : x + v = Function.update x k (x k + (δ' - δ)) := by
        funext i
        by_cases hi : i = k
        · subst hi; simp [v]
        · simp [v, hi]
      have := hmono x (x k) (x k + (δ' - δ)) (by linarith)
      rw [Function.update_eq_self, ← e1] at this
      exact h.trans_le this
    rw [if_pos (by exact h), if_pos (by exact h'), hshift]
  · rw [if_neg (by exact h)]
    exact zero_le

/-- **C140, restricted, estimates.**  The estimated probability increases with the new mean as long as the new mean is not above the value of the
input in any failure point. -/
theorem C140_estimate_partial {d N : ℕ} (marg : Fin d → Marg) (k : Fin d) (μ σ : ℝ) (hσ : 0 < σ) (hk : marg k = .normal μ σ)
    (fs : List (Fin d → ℝ)) (hfs : ∀ x ∈ fs, ∀ i, i ≠ k → (marg i).pdf (x i) ≠ 0) (δ δ' : ℝ) (hδ : δ ≤ δ') (hmin : ∀ x ∈ fs, δ' ≤ x k)
    (solve : ℝ → ℝ → ℝ → ℝ) (p p' : ℝ → ℝ) (hp : meanPert solve (marg k) δ = .ok p) (hp' : meanPert solve (marg k) δ' = .ok p') :
    pfDelta N (pliWeights (fun i => (marg i).pdf) k p fs) ≤ pfDelta N (pliWeights (fun i => (marg i).pdf) k p' fs) := by
  rw [hk, meanPert_normal, Except.ok.injEq] at hp hp'
  subst hp; subst hp'
  rw [pfDelta, pfDelta]
  refine mul_le_mul_of_nonneg_left ?_ (by positivity)
  rw [pliWeights, pliWeights]
  refine List.sum_le_sum fun x hx => ?_
  rw [weight_normal marg k μ σ δ hσ hk x (hfs x hx), weight_normal marg k μ σ δ' hσ hk x (hfs x hx), Real.exp_le_exp]
  have := hmin x hx
  refine div_le_div_of_nonneg_right ?_ (by positivity)
  nlinarith

/-- **C140, violated.**  Whatever the performance function, the history of simulations and the estimated probability `pf > 0`: when the mean of a Normal
input is moved far enough, the perturbed probability computed from the failure points is below any `ε > 0`, hence its index is negative, in
particular when the performance function increases with the input and the probability of the event tends to one. -/
theorem C140_violated {d N : ℕ} (marg : Fin d → Marg) (k : Fin d) (μ σ : ℝ) (hσ : 0 < σ) (hk : marg k = .normal μ σ)
    (fs : List (Fin d → ℝ)) (hfs : ∀ x ∈ fs, ∀ i, i ≠ k → (marg i).pdf (x i) ≠ 0) (solve : ℝ → ℝ → ℝ → ℝ) (ε : ℝ) (hε : 0 < ε) :
    ∃ M, ∀ δ, M ≤ δ → ∀ p, meanPert solve (marg k) δ = .ok p → pfDelta N (pliWeights (fun i => (marg i).pdf) k p fs) < ε := by
  have hlim : Tendsto (fun δ => (fs.map fun x => Real.exp (((x k - μ) ^ 2 - (x k - δ) ^ 2) / (2 * σ ^ 2))).sum) atTop (𝓝 0) := by
    clear hfs
    induction fs with
    | nil => simp
    | cons x t ih =>
      simp only [List.map_cons, List.sum_cons]
      rw [← add_zero (0 : ℝ)]
      refine Tendsto.add ?_ ih
      refine Real.tendsto_exp_atBot.comp ?_
      have h1 : Tendsto (fun δ : ℝ => (x k - δ) ^ 2) atTop atTop := by
        have : (fun δ : ℝ => (x k - δ) ^ 2) = fun δ => (δ - x k) ^ 2 := by funext δ; ring
        rw [this]
        exact (tendsto_pow_atTop two_ne_zero).comp (tendsto_atTop_add_const_right _ (-x k) tendsto_id)
      have h2 : Tendsto (fun δ : ℝ => (x k - μ) ^ 2 - (x k - δ) ^ 2) atTop atBot := by
        simp only [sub_eq_add_neg ((x k - μ) ^ 2)]
        exact tendsto_atBot_add_const_left _ _ (tendsto_neg_atTop_atBot.comp h1)
      exact h2.atBot_div_const (by positivity)
  have hlim2 := hlim.const_mul (1 / (N : ℝ))
  rw [mul_zero] at hlim2
  obtain ⟨M, hM⟩ := eventually_atTop.mp (hlim2.eventually (gt_mem_nhds hε))
  refine ⟨M, fun δ hδ p hp => ?_⟩
  rw [hk, meanPert_normal, Except.ok.injEq] at hp
  subst hp
  refine lt_of_le_of_lt (le_of_eq ?_) (hM δ hδ)
  rw [pfDelta, pliWeights]
  congr 2
  exact List.map_congr_left fun x hx => weight_normal marg k μ σ δ hσ hk x (hfs x hx)

/-- **C140, violated, exact probability.**  For a single Normal input and the event "larger than `thr`", the probability under the perturbed law tends to
one when the mean tends to infinity. -/
theorem C140_violated_exact (μ σ thr : ℝ) (hσ : 0 < σ) (solve : ℝ → ℝ → ℝ → ℝ) (ε : ℝ) (hε : 0 < ε) :
    ∃ M, ∀ δ, M ≤ δ → ∀ p, meanPert solve (.normal μ σ) δ = .ok p → 1 - ε < ∫ x in Set.Ioi thr, p x := by
  have hlim : Tendsto (fun δ : ℝ => 1 - Phi ((thr - δ) / σ)) atTop (𝓝 1) := by
    have h1 : Tendsto (fun δ : ℝ => (thr - δ) / σ) atTop atBot := by
      refine Tendsto.atBot_div_const hσ ?_
      have h2 : Tendsto (fun δ : ℝ => thr + -δ) atTop atBot := tendsto_atBot_add_const_left _ _ tendsto_neg_atTop_atBot
      exact h2.congr fun δ => (sub_eq_add_neg _ _).symm
    simpa using (tendsto_Phi_bot.comp h1).const_sub 1
  obtain ⟨M, hM⟩ := eventually_atTop.mp (hlim.eventually (lt_mem_nhds (by linarith : 1 - ε < 1)))
  refine ⟨M, fun δ hδ p hp => ?_⟩
  rw [(C61_normal μ σ δ hσ solve).1, Except.ok.injEq] at hp
  subst hp
  have hv : sqv σ ≠ 0 := by
    intro h0
    have := congrArg NNReal.toReal h0
    rw [coe_sqv, NNReal.coe_zero] at this
    exact (pow_pos hσ 2).ne' this
  have h2 := hM δ hδ
  rw [← gauss_Ioi hσ, measureReal_def, gaussianReal_apply_eq_integral _ hv, ENNReal.toReal_ofReal] at h2
  · exact h2
  · exact integral_nonneg fun x => gaussianPDFReal_nonneg _ _ x

/-- Two failure points at 3 and 4 among 100 simulations of a standard normal input: the estimate increases until the mean is 3, and it is below 1/1000
for large means. -/
example (solve : ℝ → ℝ → ℝ → ℝ) :
    pfDelta 100 (pliWeights (fun _ : Fin 1 => (Marg.normal 0 1).pdf) 0 (Marg.normal 1 1).pdf [fun _ => 3, fun _ => 4])
        ≤ pfDelta 100 (pliWeights (fun _ : Fin 1 => (Marg.normal 0 1).pdf) 0 (Marg.normal 3 1).pdf [fun _ => 3, fun _ => 4]) ∧
    ∃ M, ∀ δ, M ≤ δ → ∀ p, meanPert solve (.normal 0 1) δ = .ok p →
      pfDelta 100 (pliWeights (fun _ : Fin 1 => (Marg.normal 0 1).pdf) 0 p [fun _ => 3, fun _ => 4]) < 1 / 1000 := by
  have hne : ∀ x ∈ ([fun _ => 3, fun _ => 4] : List (Fin 1 → ℝ)), ∀ i : Fin 1, i ≠ 0 → (Marg.normal 0 1).pdf (x i) ≠ 0 :=
    fun x _ i hi => absurd (Subsingleton.elim i 0) hi
  refine ⟨C140_estimate_partial (fun _ => .normal 0 1) 0 0 1 one_pos rfl _ hne 1 3 (by norm_num) ?_ solve _ _ (meanPert_normal _ _ _ _)
    (meanPert_normal _ _ _ _), C140_violated (fun _ => .normal 0 1) 0 0 1 one_pos rfl _ hne solve _ (by norm_num)⟩
  intro x hx
  simp only [List.mem_cons, List.not_mem_nil, or_false] at hx
  rcases hx with rfl | rfl <;> norm_num

/-- The sum of two inputs increases with each of them. -/
example (solve : ℝ → ℝ → ℝ → ℝ) (δ δ' : ℝ) (h : δ ≤ δ') :
    (densityLaw (jointPDF (Function.update (fun _ : Fin 2 => (Marg.normal 0 1).pdf) 0 (Marg.normal δ 1).pdf))).real {x | 3 < x 0 + x 1}
      ≤ (densityLaw (jointPDF (Function.update (fun _ : Fin 2 => (Marg.normal 0 1).pdf) 0 (Marg.normal δ' 1).pdf))).real {x | 3 < x 0 + x 1} :=
  C140_exact_partial (fun _ => .normal 0 1) (fun _ => one_pos) 0 0 1 rfl (fun x => x 0 + x 1) (by fun_prop) (fun x s t hst => by simpa using hst) 3
    solve δ δ' h _ _ (meanPert_normal _ _ _ _) (meanPert_normal _ _ _ _)

end Verif.Props
