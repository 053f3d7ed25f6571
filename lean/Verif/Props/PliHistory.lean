import Verif.Model.PliHistory
import Verif.Props.Pli
import Verif.Props.PliDensity
import Mathlib.MeasureTheory.Integral.Pi
import Mathlib.MeasureTheory.Integral.Bochner.ContinuousLinearMap
import Mathlib.MeasureTheory.Constructions.Pi
import Mathlib.Probability.Distributions.Gaussian.Real

/-!
# C106 and C107: points used by the PLI, reweighted estimate of the perturbed probability
-/

namespace Verif.Props
open Verif.Py Verif.Model

/-! ## C106 -/

theorem monteCarloEstimate_eq {X : Type} (op : CmpOp) (thr : ℝ) (mc : List (X × ℝ)) :
    monteCarloEstimate (InEvent op thr) mc = ((eventRows op thr mc).length : ℝ) / mc.length := by
  rw [monteCarloEstimate, eventRows, List.length_map]

theorem failureSample_append {X : Type} (op : CmpOp) (thr : ℝ) (prior mc : List (X × ℝ)) (h : ∀ p ∈ prior, ¬ InEvent op thr p.2) :
    failureSample op thr (prior ++ mc) = failureSample op thr mc := by
  have key : ∀ P : X × ℝ → Bool, (∀ p ∈ prior, P p = false) → (prior ++ mc).filter P = mc.filter P := by
    intro P hP
    rw [List.filter_append, List.filter_eq_nil_iff.mpr (fun p hp => by simp [hP p hp]), List.nil_append]
  cases op with
  | less => rw [failureSample, failureSample, key _ fun p hp => decide_eq_false (show ¬ p.2 < thr from h p hp)]
  | lessOrEqual => rw [failureSample, failureSample, key _ fun p hp => decide_eq_false fun hlt => h p hp hlt.le]
  | greater => rw [failureSample, failureSample, key _ fun p hp => decide_eq_false (show ¬ p.2 > thr from h p hp)]
  | greaterOrEqual =>
    rw [failureSample, failureSample, key _ fun p hp => decide_eq_false fun hlt => h p hp (le_of_lt hlt)]
  | other => rfl

/-- **C106.**  With a cleared history (the wrappers for the POD), or when no point evaluated before the simulation is in the event, the
results are those of the simulation alone. -/
theorem C106_simulation_only_partial {d : ℕ} (op : CmpOp) (thr : ℝ) (clear : Bool) (prior mc : List ((Fin d → ℝ) × ℝ))
    (pdf : Fin d → ℝ → ℝ) (k : Fin d) (pert : ℝ → ℝ) (h : clear = true ∨ ∀ p ∈ prior, ¬ InEvent op thr p.2) :
    pliEntryAfter op thr (InEvent op thr) clear prior mc pdf k pert
      = pliEntry op thr mc mc.length (((eventRows op thr mc).length : ℝ) / mc.length) pdf k pert := by
  rw [pliEntryAfter, monteCarloEstimate_eq]
  cases clear with
  | true => rfl
  | false =>
    rcases h with h | h
    · cases h
    · rw [pliEntry, pliEntry, historyAfter, if_neg (by simp), failureSample_append op thr prior mc h]

theorem eventRows_append {X : Type} (op : CmpOp) (thr : ℝ) (prior mc : List (X × ℝ)) :
    eventRows op thr (prior ++ mc) = eventRows op thr prior ++ eventRows op thr mc := by
  rw [eventRows, eventRows, eventRows, List.filter_append, List.map_append]

theorem pliEntry_unperturbed {d : ℕ} (marg : Fin d → Marg) (k : Fin d) (op : CmpOp) (hop : op = .less ∨ op = .greater) (thr : ℝ)
    (hist : List ((Fin d → ℝ) × ℝ)) (N : ℕ) (pf : ℝ) (hpos : ∀ p ∈ hist, ∀ i, (marg i).pdf (p.1 i) ≠ 0) :
    ∃ v σ, pliEntry op thr hist N pf (fun i => (marg i).pdf) k (marg k).pdf
      = .ok (((eventRows op thr hist).length : ℝ) / N, v, pliIndex pf (((eventRows op thr hist).length : ℝ) / N), σ) := by
  have hfs := (C59_failure_sample_partial op thr hist).1 (by tauto)
  have hmem : ∀ x ∈ eventRows op thr hist, ∀ i, (marg i).pdf (x i) ≠ 0 := by
    intro x hx
    rw [eventRows, List.mem_map] at hx
    obtain ⟨p, hp, rfl⟩ := hx
    exact hpos p (List.mem_of_mem_filter hp)
  have hw := pliWeights_self (fun i => (marg i).pdf) k _ hmem
  have hpfd : pfDelta N (pliWeights (fun i => (marg i).pdf) k (marg k).pdf (eventRows op thr hist))
      = ((eventRows op thr hist).length : ℝ) / N := by
    rw [hw, pfDelta, List.sum_replicate, nsmul_eq_mul, mul_one, one_div, inv_mul_eq_div]
  rw [pliEntry, hfs]
  dsimp only
  rw [hpfd]
  exact ⟨_, _, rfl⟩

/-- **C106 is violated.**  As soon as the function was evaluated before the simulation at a point of the event, the perturbed
probability of an unperturbed law is larger than the probability of the simulation and the index is positive, for every event and every
simulation. -/
theorem C106_violated {d : ℕ} (marg : Fin d → Marg) (k : Fin d) (op : CmpOp) (hop : op = .less ∨ op = .greater) (thr : ℝ)
    (prior mc : List ((Fin d → ℝ) × ℝ)) (hpos : ∀ p ∈ prior ++ mc, ∀ i, (marg i).pdf (p.1 i) ≠ 0) (hmc : mc ≠ [])
    (hbad : ∃ p ∈ prior, InEvent op thr p.2) :
    ∃ pfd v s σ, pliEntryAfter op thr (InEvent op thr) false prior mc (fun i => (marg i).pdf) k (marg k).pdf = .ok (pfd, v, s, σ) ∧
      monteCarloEstimate (InEvent op thr) mc < pfd ∧ F.lt (.fin 0) s = true := by
  obtain ⟨v, σ, h⟩ := pliEntry_unperturbed marg k op hop thr (prior ++ mc) mc.length (monteCarloEstimate (InEvent op thr) mc) hpos
  have hN : (0 : ℝ) < mc.length := by exact_mod_cast List.length_pos_iff.mpr hmc
  have hlt : monteCarloEstimate (InEvent op thr) mc < ((eventRows op thr (prior ++ mc)).length : ℝ) / mc.length := by
    rw [monteCarloEstimate_eq, div_lt_div_iff_of_pos_right hN, eventRows_append, List.length_append]
    obtain ⟨p, hp, he⟩ := hbad
    have h1 : p.1 ∈ eventRows op thr prior := by
      rw [eventRows, List.mem_map]
      exact ⟨p, List.mem_filter.mpr ⟨hp, by simpa using he⟩, rfl⟩
    have h2 := List.length_pos_of_mem h1
    exact_mod_cast (by omega : (eventRows op thr mc).length < (eventRows op thr prior).length + (eventRows op thr mc).length)
  refine ⟨_, v, _, σ, h, hlt, ?_⟩
  have h0 : 0 ≤ monteCarloEstimate (InEvent op thr) mc := by
    rw [monteCarloEstimate]; positivity
  rcases h0.eq_or_lt with h0 | h0
  · rw [← h0] at hlt ⊢
    generalize ((eventRows op thr (prior ++ mc)).length : ℝ) / mc.length = q at hlt ⊢
    have hd : F.div (.fin q) (.fin 0) = .pinf := by simp [F.div, F.infSign, hlt, hlt.ne']
    rw [pliIndex, if_neg (not_lt.mpr hlt.le), sub_zero, hd]
    rfl
  · rw [pliIndex_above h0 hlt.le]
    have := (one_lt_div h0).mpr hlt
    simp only [F.lt, decide_eq_true_iff]
    linarith

/-- A second simulation with the same function: if both runs have the same points, every unperturbed index is 1 instead of 0. -/
theorem C106_violated_rerun {d : ℕ} (marg : Fin d → Marg) (k : Fin d) (op : CmpOp) (hop : op = .less ∨ op = .greater) (thr : ℝ)
    (mc : List ((Fin d → ℝ) × ℝ)) (hpos : ∀ p ∈ mc, ∀ i, (marg i).pdf (p.1 i) ≠ 0) (hev : ∃ p ∈ mc, InEvent op thr p.2) :
    ∃ v σ, pliEntryAfter op thr (InEvent op thr) false mc mc (fun i => (marg i).pdf) k (marg k).pdf
      = .ok (2 * monteCarloEstimate (InEvent op thr) mc, v, .fin 1, σ) := by
  obtain ⟨v, σ, h⟩ := pliEntry_unperturbed marg k op hop thr (mc ++ mc) mc.length (monteCarloEstimate (InEvent op thr) mc)
    (by intro p hp; rw [List.mem_append, or_self] at hp; exact hpos p hp)
  obtain ⟨p, hp, he⟩ := hev
  have h1 : p.1 ∈ eventRows op thr mc := by
    rw [eventRows, List.mem_map]
    exact ⟨p, List.mem_filter.mpr ⟨hp, by simpa using he⟩, rfl⟩
  have h2 : (0 : ℝ) < (eventRows op thr mc).length := by exact_mod_cast List.length_pos_of_mem h1
  have h3 : (0 : ℝ) < mc.length := by exact_mod_cast List.length_pos_of_mem hp
  have hpf : 0 < monteCarloEstimate (InEvent op thr) mc := by rw [monteCarloEstimate_eq]; exact div_pos h2 h3
  have hdouble : ((eventRows op thr (mc ++ mc)).length : ℝ) / mc.length = 2 * monteCarloEstimate (InEvent op thr) mc := by
    rw [monteCarloEstimate_eq, eventRows_append, List.length_append]; push_cast; ring
  rw [hdouble, pliIndex_above hpf (by linarith), mul_div_assoc, div_self hpf.ne'] at h
  exact ⟨v, σ, by rw [pliEntryAfter, historyAfter, if_neg (by simp), h]; norm_num⟩

example : ∃ v σ, pliEntryAfter .greater 1 (InEvent .greater 1) false [((fun _ : Fin 1 => (1 : ℝ)), (2 : ℝ)), (fun _ => 0, 0)]
    [(fun _ => 1, 2), (fun _ => 0, 0)] (fun _ => (Marg.uniform 0 4).pdf) 0 (Marg.uniform 0 4).pdf
      = .ok (2 * monteCarloEstimate (InEvent .greater 1) [((fun _ : Fin 1 => (1 : ℝ)), (2 : ℝ)), (fun _ => 0, 0)], v, .fin 1, σ) :=
  C106_violated_rerun (fun _ => Marg.uniform 0 4) 0 .greater (.inr rfl) 1 _ (by
    intro p hp i
    simp only [List.mem_cons, List.not_mem_nil, or_false] at hp
    rcases hp with rfl | rfl <;> norm_num [Marg.pdf]) ⟨(fun _ => 1, 2), by simp, by norm_num [InEvent]⟩

/-! ## C107 -/

open MeasureTheory ProbabilityTheory

/-- The law on `ℝ^d` with a density. -/
noncomputable def densityLaw {d : ℕ} (f : (Fin d → ℝ) → ℝ) : Measure (Fin d → ℝ) := volume.withDensity fun x => ENNReal.ofReal (f x)

/-- A probability density on the line. -/
structure IsDensity (p : ℝ → ℝ) : Prop where
  meas : Measurable p
  nonneg : ∀ x, 0 ≤ p x
  integrable : Integrable p
  mass : ∫ x, p x = 1

theorem measurable_joint {d : ℕ} {pdf : Fin d → ℝ → ℝ} (h : ∀ i, Measurable (pdf i)) : Measurable (jointPDF pdf) := by
  unfold jointPDF
  exact Finset.measurable_prod _ fun i _ => (h i).comp (measurable_pi_apply i)

theorem jointPDF_density {d : ℕ} {pdf : Fin d → ℝ → ℝ} (h : ∀ i, IsDensity (pdf i)) :
    Measurable (jointPDF pdf) ∧ (∀ x, 0 ≤ jointPDF pdf x) ∧ Integrable (jointPDF pdf) ∧ ∫ x, jointPDF pdf x = 1 := by
  refine ⟨measurable_joint fun i => (h i).meas, fun x => Finset.prod_nonneg fun i _ => (h i).nonneg _, ?_, ?_⟩
  · exact Integrable.fintype_prod (f := pdf) fun i => (h i).integrable
  · unfold jointPDF
    rw [integral_fintype_prod_volume_eq_prod]
    exact Finset.prod_eq_one fun i _ => (h i).mass

theorem perturbedPDF_eq {d : ℕ} (pdf : Fin d → ℝ → ℝ) (k : Fin d) (pert : ℝ → ℝ) :
    perturbedPDF pdf k pert = jointPDF (Function.update pdf k pert) := rfl

theorem densityLaw_isProbability {d : ℕ} {pdf : Fin d → ℝ → ℝ} (h : ∀ i, IsDensity (pdf i)) :
    IsProbabilityMeasure (densityLaw (jointPDF pdf)) := by
  obtain ⟨-, h2, h3, h4⟩ := jointPDF_density h
  constructor
  rw [densityLaw, withDensity_apply _ MeasurableSet.univ, Measure.restrict_univ,
    ← ofReal_integral_eq_lintegral_ofReal h3 (Filter.Eventually.of_forall h2), h4, ENNReal.ofReal_one]

/-- One term of the estimate. -/
noncomputable def pliTerm {d : ℕ} (pdf : Fin d → ℝ → ℝ) (k : Fin d) (pert : ℝ → ℝ) (E : Set (Fin d → ℝ)) (x : Fin d → ℝ) : ℝ :=
  E.indicator (fun x => perturbedPDF pdf k pert x / jointPDF pdf x) x

theorem pfDelta_sample {d N : ℕ} (pdf : Fin d → ℝ → ℝ) (k : Fin d) (pert : ℝ → ℝ) (g : (Fin d → ℝ) → ℝ) (thr : ℝ)
    (ω : Fin N → Fin d → ℝ) (fs : List (Fin d → ℝ))
    (hfs : failureSample .greater thr (List.ofFn fun i => (ω i, g (ω i))) = .ok fs) :
    pfDelta N (pliWeights pdf k pert fs) = 1 / (N : ℝ) * ∑ i, pliTerm pdf k pert {x | thr < g x} (ω i) := by
  rw [failureSample, Except.ok.injEq] at hfs
  subst hfs
  rw [pfDelta, pliWeights]
  congr 1
  have key : ∀ l : List ((Fin d → ℝ) × ℝ), (∀ p ∈ l, p.2 = g p.1) →
      (((l.filter fun p => decide (p.2 > thr)).map Prod.fst).map fun x => perturbedPDF pdf k pert x / jointPDF pdf x).sum
        = (l.map fun p => pliTerm pdf k pert {x | thr < g x} p.1).sum := by
    intro l hl
    induction l with
    | nil => simp
    | cons p t ih =>
      have ih := ih fun q hq => hl q (List.mem_cons_of_mem _ hq)
      have hp := hl p (by simp)
      by_cases h : p.2 > thr
      · rw [List.filter_cons_of_pos (by simpa using h), List.map_cons, List.map_cons, List.sum_cons, List.map_cons, List.sum_cons, ih,
          pliTerm, Set.indicator_of_mem (by rw [hp] at h; exact h)]
      · rw [List.filter_cons_of_neg (by simpa using h), List.map_cons, List.sum_cons, ih, pliTerm,
          Set.indicator_of_notMem (by rw [hp] at h; exact h), zero_add]
  rw [key _ (by
    intro p hp
    rw [List.mem_ofFn] at hp
    obtain ⟨i, rfl⟩ := hp
    rfl), List.map_ofFn, List.sum_ofFn]
  rfl

theorem term_mul_joint {d : ℕ} (pdf : Fin d → ℝ → ℝ) (k : Fin d) (pert : ℝ → ℝ) (hsupp : ∀ x, pdf k x = 0 → pert x = 0)
    (E : Set (Fin d → ℝ)) (x : Fin d → ℝ) :
    jointPDF pdf x * pliTerm pdf k pert E x = E.indicator (perturbedPDF pdf k pert) x := by
  by_cases hx : x ∈ E
  · rw [pliTerm, Set.indicator_of_mem hx, Set.indicator_of_mem hx]
    by_cases h0 : jointPDF pdf x = 0
    · rw [h0, zero_mul, perturbedPDF]
      rw [jointPDF, Finset.prod_eq_zero_iff] at h0
      obtain ⟨i, -, hi⟩ := h0
      symm
      refine Finset.prod_eq_zero (Finset.mem_univ i) ?_
      by_cases hik : i = k
      · subst hik
        rw [Function.update_self]
        exact hsupp _ hi
      · rw [Function.update_of_ne hik]
        exact hi
    · field_simp
  · rw [pliTerm, Set.indicator_of_notMem hx, Set.indicator_of_notMem hx, mul_zero]

/-- **C107.**  Over independent Monte-Carlo samples of the original law, the expectation of the perturbed probability computed by the PLI
is the probability of the event under the law with the perturbed marginal, whatever the performance function, the threshold, the
marginal and the sample size are. -/
theorem C107_unbiased {d N : ℕ} (hN : 0 < N) (pdf : Fin d → ℝ → ℝ) (hpdf : ∀ i, IsDensity (pdf i)) (k : Fin d) (pert : ℝ → ℝ)
    (hpert : IsDensity pert) (hsupp : ∀ x, pdf k x = 0 → pert x = 0) (g : (Fin d → ℝ) → ℝ) (hg : Measurable g) (thr : ℝ)
    (fs : (Fin N → Fin d → ℝ) → List (Fin d → ℝ))
    (hfs : ∀ ω, failureSample .greater thr (List.ofFn fun i => (ω i, g (ω i))) = .ok (fs ω)) :
    ∫ ω, pfDelta N (pliWeights pdf k pert (fs ω)) ∂(Measure.pi fun _ : Fin N => densityLaw (jointPDF pdf))
      = (densityLaw (jointPDF (Function.update pdf k pert))).real {x | thr < g x} := by
  haveI := densityLaw_isProbability hpdf
  set P := densityLaw (jointPDF pdf) with hP
  set E : Set (Fin d → ℝ) := {x | thr < g x} with hE
  have hEm : MeasurableSet E := measurableSet_lt measurable_const hg
  have hupd : ∀ i, IsDensity (Function.update pdf k pert i) := by
    intro i
    by_cases h : i = k
    · subst h; rw [Function.update_self]; exact hpert
    · rw [Function.update_of_ne h]; exact hpdf i
  obtain ⟨j1, j2, j3, j4⟩ := jointPDF_density hpdf
  obtain ⟨q1, q2, q3, q4⟩ := jointPDF_density hupd
  have hmeasd : Measurable fun x => ENNReal.ofReal (jointPDF pdf x) := j1.ennreal_ofReal
  have hterm : Measurable (pliTerm pdf k pert E) := by
    unfold pliTerm
    exact (Measurable.div q1 j1).indicator hEm
  have hprod : ∀ x, (ENNReal.ofReal (jointPDF pdf x)).toReal • pliTerm pdf k pert E x
      = E.indicator (jointPDF (Function.update pdf k pert)) x := by
    intro x
    rw [ENNReal.toReal_ofReal (j2 x), smul_eq_mul, term_mul_joint pdf k pert hsupp, perturbedPDF_eq]
  have hint : Integrable (pliTerm pdf k pert E) P := by
    rw [hP, densityLaw, integrable_withDensity_iff_integrable_smul' hmeasd (Filter.Eventually.of_forall fun _ => ENNReal.ofReal_lt_top)]
    simp only [hprod]
    exact q3.indicator hEm
  have hval : ∫ x, pliTerm pdf k pert E x ∂P = (densityLaw (jointPDF (Function.update pdf k pert))).real E := by
    rw [hP, densityLaw, integral_withDensity_eq_integral_toReal_smul hmeasd (Filter.Eventually.of_forall fun _ => ENNReal.ofReal_lt_top)]
    simp only [hprod]
    rw [integral_indicator hEm, measureReal_def, densityLaw, withDensity_apply _ hEm,
      ← ofReal_integral_eq_lintegral_ofReal q3.integrableOn (Filter.Eventually.of_forall q2), ENNReal.toReal_ofReal]
    exact integral_nonneg q2
  have hpres : ∀ i : Fin N, MeasurePreserving (Function.eval i) (Measure.pi fun _ : Fin N => P) P := fun i =>
    measurePreserving_eval (fun _ : Fin N => P) i
  have hcoord : ∀ i : Fin N, ∫ ω, pliTerm pdf k pert E (ω i) ∂(Measure.pi fun _ : Fin N => P)
      = (densityLaw (jointPDF (Function.update pdf k pert))).real E := by
    intro i
    have h := integral_map (μ := Measure.pi fun _ : Fin N => P) (hpres i).measurable.aemeasurable
      (f := pliTerm pdf k pert E) hterm.aestronglyMeasurable
    rw [(hpres i).map_eq] at h
    rw [← hval, h]
  have hicoord : ∀ i : Fin N, Integrable (fun ω : Fin N → Fin d → ℝ => pliTerm pdf k pert E (ω i)) (Measure.pi fun _ : Fin N => P) :=
    fun i => (hpres i).integrable_comp_of_integrable hint
  simp only [fun ω => pfDelta_sample pdf k pert g thr ω (fs ω) (hfs ω)]
  rw [integral_const_mul, integral_finsetSum _ fun i _ => hicoord i, Finset.sum_congr rfl fun i _ => hcoord i, Finset.sum_const,
    Finset.card_univ, Fintype.card_fin, nsmul_eq_mul]
  have : (N : ℝ) ≠ 0 := by exact_mod_cast hN.ne'
  field_simp

/-- Marginals accepted by the PLI with their parameters. -/
def GoodMarg : Marg → Prop
  | .normal _ σ => 0 < σ
  | .uniform a b => a < b
  | .other _ _ _ => False

theorem goodMarg_density {m : Marg} (h : GoodMarg m) : IsDensity m.pdf := by
  cases m with
  | normal μ σ =>
    have hσ : 0 < σ := h
    have hok := (C61_normal μ σ μ hσ (fun _ _ _ => 0)).1
    rw [meanPert, if_pos (show μ = (Marg.normal μ σ).mean from rfl), Except.ok.injEq] at hok
    rw [hok]
    have hv : sqv σ ≠ 0 := by
      intro h0
      have h1 : ((sqv σ : NNReal) : ℝ) = σ ^ 2 := coe_sqv σ
      rw [h0] at h1
      exact (pow_pos hσ 2).ne' h1.symm
    exact ⟨measurable_gaussianPDFReal _ _, fun x => gaussianPDFReal_nonneg _ _ x, integrable_gaussianPDFReal _ _,
      integral_gaussianPDFReal_eq_one _ hv⟩
  | uniform a b =>
    have hab : a < b := h
    have hba : 0 < b - a := sub_pos.mpr hab
    have hmass : ∫ x, (Marg.uniform a b).pdf x = 1 := by
      have : (Marg.uniform a b).pdf = (Set.Icc a b).indicator fun _ => 1 / (b - a) := by
        funext x
        simp only [Marg.pdf, Set.indicator_apply, Set.mem_Icc]
      rw [this, integral_indicator measurableSet_Icc, setIntegral_const, measureReal_def, Real.volume_Icc,
        ENNReal.toReal_ofReal hba.le, smul_eq_mul]
      field_simp
    refine ⟨?_, ?_, integrable_of_integral_eq_one hmass, hmass⟩
    · exact Measurable.ite (measurableSet_Icc (a := a) (b := b)) measurable_const measurable_const
    · intro x
      simp only [Marg.pdf]
      split_ifs
      · positivity
      · exact le_rfl
  | other => exact h.elim

theorem meanPert_density {solve : ℝ → ℝ → ℝ → ℝ} {m : Marg} (h : GoodMarg m) {δ : ℝ}
    (hroot : ∀ a b, m = .uniform a b → δ ≠ (a + b) / 2 → mPrimeOverM (solve a b δ) a b δ = 0) {p : ℝ → ℝ}
    (hp : meanPert solve m δ = .ok p) : IsDensity p ∧ ∀ x, m.pdf x = 0 → p x = 0 := by
  cases m with
  | normal μ σ =>
    have hσ : 0 < σ := h
    have h1 := (C61_normal μ σ δ hσ solve).1
    rw [h1, Except.ok.injEq] at hp
    subst hp
    have h2 := goodMarg_density (m := .normal δ σ) hσ
    have h3 := (C61_normal δ σ δ hσ solve).1
    rw [meanPert, if_pos (show δ = (Marg.normal δ σ).mean from rfl), Except.ok.injEq] at h3
    rw [h3] at h2
    refine ⟨h2, fun x hx => ?_⟩
    have : (Marg.normal μ σ).pdf x ≠ 0 := by
      simp only [Marg.pdf]
      positivity
    exact absurd hx this
  | uniform a b =>
    have hab : a < b := h
    by_cases hδ : δ = (a + b) / 2
    · rw [meanPert, if_pos (show δ = (Marg.uniform a b).mean from hδ), Except.ok.injEq] at hp
      subst hp
      exact ⟨goodMarg_density h, fun _ hx => hx⟩
    · obtain ⟨c1, c2, c3, -⟩ := C61_uniform a b δ hab solve hδ (hroot a b rfl hδ) p hp
      refine ⟨⟨?_, c1, integrable_of_integral_eq_one c3, c3⟩, fun x hx => c2 x fun hx' => ?_⟩
      · rw [meanPert, if_neg (show ¬ δ = (Marg.uniform a b).mean from hδ)] at hp
        simp only [Except.ok.injEq] at hp
        rw [← hp]
        refine Measurable.mul (by fun_prop) ?_
        refine Measurable.ite ?_ measurable_const measurable_const
        exact (measurableSet_le measurable_id measurable_const).inter (measurableSet_le measurable_const measurable_id)
      · have : (Marg.uniform a b).pdf x = 1 / (b - a) := by
          have hx2 : a ≤ x ∧ x ≤ b := hx'
          simp only [Marg.pdf, if_pos hx2]
        rw [this] at hx
        exact (one_div_pos.mpr (sub_pos.mpr hab)).ne' hx
  | other => exact h.elim

theorem varPert_density {optimize : (ℝ → ℝ) → ℝ → ℝ → ℝ × ℝ → ℝ × ℝ} {m : Marg} (h : GoodMarg m) {δ : ℝ} (hδ0 : 0 < δ)
    (hmin : ∀ a b, m = .uniform a b → δ ≠ (b - a) ^ 2 / 12 →
      IsLocalMin (dualH (Marg.uniform a b).pdf a b ((a + b) / 2, δ + ((a + b) / 2) ^ 2))
        (optimize (Marg.uniform a b).pdf a b ((a + b) / 2, δ + ((a + b) / 2) ^ 2))) {p : ℝ → ℝ}
    (hp : varPert optimize m δ = .ok p) : IsDensity p ∧ ∀ x, m.pdf x = 0 → p x = 0 := by
  cases m with
  | normal μ σ =>
    have hσ : 0 < σ := h
    have h1 := (C62_normal μ σ δ hσ hδ0 optimize).1
    rw [h1, Except.ok.injEq] at hp
    subst hp
    have hv : δ.toNNReal ≠ 0 := (Real.toNNReal_pos.mpr hδ0).ne'
    refine ⟨⟨measurable_gaussianPDFReal _ _, fun x => gaussianPDFReal_nonneg _ _ x, integrable_gaussianPDFReal _ _,
      integral_gaussianPDFReal_eq_one _ hv⟩, fun x hx => ?_⟩
    have : (Marg.normal μ σ).pdf x ≠ 0 := by
      simp only [Marg.pdf]
      positivity
    exact absurd hx this
  | uniform a b =>
    have hab : a < b := h
    by_cases hδ : δ = (b - a) ^ 2 / 12
    · rw [varPert, if_pos (show δ = (Marg.uniform a b).var from hδ), Except.ok.injEq] at hp
      subst hp
      exact ⟨goodMarg_density h, fun _ hx => hx⟩
    · obtain ⟨c1, c2, c3, -, -⟩ := C62_uniform a b δ hab optimize hδ (hmin a b rfl hδ) p hp
      have hform := hp
      rw [varPert, if_neg (show ¬ δ = (Marg.uniform a b).var from hδ)] at hform
      simp only [Except.ok.injEq] at hform
      refine ⟨⟨?_, c1, integrable_of_integral_eq_one c3, c3⟩, fun x hx => ?_⟩
      · rw [← hform]
        exact Measurable.mul (by fun_prop) (goodMarg_density (m := .uniform a b) hab).meas
      · rw [← hform]
        simp only [hx, mul_zero]
  | other => exact h.elim

/-- **C107.**  The same for the laws accepted by the PLI: Normal and Uniform marginals, mean or variance perturbed by the code itself
(root finder and optimiser taken at their contracts). -/
theorem C107_normal_uniform {d N : ℕ} (hN : 0 < N) (marg : Fin d → Marg) (hm : ∀ i, GoodMarg (marg i)) (k : Fin d) (δ : ℝ)
    (solve : ℝ → ℝ → ℝ → ℝ) (optimize : (ℝ → ℝ) → ℝ → ℝ → ℝ × ℝ → ℝ × ℝ)
    (hroot : ∀ a b, marg k = .uniform a b → δ ≠ (a + b) / 2 → mPrimeOverM (solve a b δ) a b δ = 0)
    (hmin : ∀ a b, marg k = .uniform a b → δ ≠ (b - a) ^ 2 / 12 →
      IsLocalMin (dualH (Marg.uniform a b).pdf a b ((a + b) / 2, δ + ((a + b) / 2) ^ 2))
        (optimize (Marg.uniform a b).pdf a b ((a + b) / 2, δ + ((a + b) / 2) ^ 2)))
    (p : ℝ → ℝ) (hp : meanPert solve (marg k) δ = .ok p ∨ 0 < δ ∧ varPert optimize (marg k) δ = .ok p)
    (g : (Fin d → ℝ) → ℝ) (hg : Measurable g) (thr : ℝ) (fs : (Fin N → Fin d → ℝ) → List (Fin d → ℝ))
    (hfs : ∀ ω, failureSample .greater thr (List.ofFn fun i => (ω i, g (ω i))) = .ok (fs ω)) :
    ∫ ω, pfDelta N (pliWeights (fun i => (marg i).pdf) k p (fs ω))
        ∂(Measure.pi fun _ : Fin N => densityLaw (jointPDF fun i => (marg i).pdf))
      = (densityLaw (jointPDF (Function.update (fun i => (marg i).pdf) k p))).real {x | thr < g x} := by
  have h : IsDensity p ∧ ∀ x, (marg k).pdf x = 0 → p x = 0 := by
    rcases hp with hp | ⟨hδ, hp⟩
    · exact meanPert_density (hm k) hroot hp
    · exact varPert_density (hm k) hδ hmin hp
  exact C107_unbiased hN _ (fun i => goodMarg_density (hm i)) k p h.1 h.2 g hg thr fs hfs

/-- Two Normal marginals, the first mean moved to one, event "sum larger than three", ten points. -/
example (fs : (Fin 10 → Fin 2 → ℝ) → List (Fin 2 → ℝ))
    (hfs : ∀ ω, failureSample .greater 3 (List.ofFn fun i => (ω i, ω i 0 + ω i 1)) = .ok (fs ω)) :
    ∫ ω, pfDelta 10 (pliWeights (fun _ => (Marg.normal 0 1).pdf) 0 (Marg.normal 1 1).pdf (fs ω))
        ∂(Measure.pi fun _ : Fin 10 => densityLaw (jointPDF fun _ : Fin 2 => (Marg.normal 0 1).pdf))
      = (densityLaw (jointPDF (Function.update (fun _ : Fin 2 => (Marg.normal 0 1).pdf) 0 (Marg.normal 1 1).pdf))).real
        {x | 3 < x 0 + x 1} := by
  refine C107_normal_uniform (by norm_num) (fun _ => .normal 0 1) (fun _ => one_pos) 0 1 (fun _ _ _ => 0) (fun _ _ _ r => r) ?_ ?_ _
    (.inl ?_) (fun x => x 0 + x 1) (by fun_prop) 3 fs hfs
  · intro a b h; cases h
  · intro a b h; cases h
  · rw [meanPert, if_neg (by norm_num [Marg.mean])]
    rfl

example : ∃ fs : (Fin 10 → Fin 2 → ℝ) → List (Fin 2 → ℝ),
    ∀ ω, failureSample .greater 3 (List.ofFn fun i => (ω i, ω i 0 + ω i 1)) = .ok (fs ω) := ⟨_, fun _ => rfl⟩

end Verif.Props
