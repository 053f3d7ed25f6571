import Verif.Model.Pli
import Verif.Props.PliDensity
import Verif.Props.PliBox
import Mathlib.MeasureTheory.Measure.Haar.NormedSpace

/-!
# C163: the perturbation law indices and the units of the inputs
-/

namespace Verif.Props
open Verif.Py Verif.Model MeasureTheory ProbabilityTheory Set

/-- The same marginal in another unit: the law of `α X + t`. -/
noncomputable def inUnit (α t : ℝ) : Marg → Marg
  | .normal μ σ => .normal (α * μ + t) (α * σ)
  | .uniform a b => .uniform (α * a + t) (α * b + t)
  | .other p m v => .other (fun x => p ((x - t) / α) / α) (α * m + t) (α ^ 2 * v)

theorem inUnit_pdf {α : ℝ} (hα : 0 < α) (t : ℝ) (m : Marg) (x : ℝ) : (inUnit α t m).pdf (α * x + t) = m.pdf x / α := by
  cases m with
  | normal μ σ =>
    simp only [inUnit, Marg.pdf]
    have h : (α * x + t - (α * μ + t)) / (α * σ) = (x - μ) / σ := by
      rw [← mul_div_mul_left (x - μ) σ hα.ne']; congr 1; ring
    rw [h, mul_assoc, one_div, mul_inv, one_div]
    ring
  | uniform a b =>
    simp only [inUnit, Marg.pdf]
    have h : (α * a + t ≤ α * x + t ∧ α * x + t ≤ α * b + t) ↔ (a ≤ x ∧ x ≤ b) := by
      rw [add_le_add_iff_right, add_le_add_iff_right, mul_le_mul_iff_right₀ hα, mul_le_mul_iff_right₀ hα]
    by_cases hx : a ≤ x ∧ x ≤ b
    · rw [if_pos (h.mpr hx), if_pos hx, add_sub_add_right_eq_sub, ← mul_sub, one_div, mul_inv, one_div]
      ring
    · rw [if_neg (fun c => hx (h.mp c)), if_neg hx, zero_div]
  | other p m v =>
    simp only [inUnit, Marg.pdf]
    rw [add_sub_cancel_right, mul_div_cancel_left₀ _ hα.ne']

theorem inUnit_mean (α t : ℝ) (m : Marg) : (inUnit α t m).mean = α * m.mean + t := by
  cases m <;> simp only [inUnit, Marg.mean]
  ring

theorem inUnit_var (α t : ℝ) (m : Marg) : (inUnit α t m).var = α ^ 2 * m.var := by
  cases m <;> simp only [inUnit, Marg.var] <;> ring

theorem inUnit_std {α : ℝ} (hα : 0 < α) (t : ℝ) (m : Marg) : Real.sqrt (inUnit α t m).var = α * Real.sqrt m.var := by
  rw [inUnit_var, Real.sqrt_mul (sq_nonneg α), Real.sqrt_sq hα.le]

/-- The history of the performance function with the inputs in other units. -/
def histInUnit {d : ℕ} (α t : Fin d → ℝ) (hist : List ((Fin d → ℝ) × ℝ)) : List ((Fin d → ℝ) × ℝ) :=
  hist.map fun p => (fun j => α j * p.1 j + t j, p.2)

theorem failureSample_inUnit {d : ℕ} (α t : Fin d → ℝ) (op : CmpOp) (thr : ℝ) (hist : List ((Fin d → ℝ) × ℝ)) :
    failureSample op thr (histInUnit α t hist)
      = (failureSample op thr hist).map (fun fs => fs.map fun x j => α j * x j + t j) := by
  have h : ∀ q : ℝ → Bool, ((histInUnit α t hist).filter fun p => q p.2).map Prod.fst
      = ((hist.filter fun p => q p.2).map Prod.fst).map fun x j => α j * x j + t j := by
    intro q
    rw [histInUnit, List.filter_map, List.map_map, List.map_map]
    rfl
  cases op <;> simp only [failureSample, Except.map] <;> first | rw [h (fun y => decide (y < thr))] | rw [h (fun y => decide (y > thr))] | rfl

/-- If the densities change as densities do, the weights and everything computed from them are the same. -/
theorem pliEntry_inUnit {d : ℕ} (α t : Fin d → ℝ) (hα : ∀ j, 0 < α j) (op : CmpOp) (thr : ℝ) (hist : List ((Fin d → ℝ) × ℝ)) (N : ℕ)
    (pf : ℝ) (marg : Fin d → Marg) (k : Fin d) (p p' : ℝ → ℝ) (hp : ∀ x, p' (α k * x + t k) = p x / α k) :
    pliEntry op thr (histInUnit α t hist) N pf (fun j => (inUnit (α j) (t j) (marg j)).pdf) k p'
      = pliEntry op thr hist N pf (fun j => (marg j).pdf) k p := by
  have hw : ∀ fs : List (Fin d → ℝ), pliWeights (fun j => (inUnit (α j) (t j) (marg j)).pdf) k p' (fs.map fun x j => α j * x j + t j)
      = pliWeights (fun j => (marg j).pdf) k p fs := by
    intro fs
    rw [pliWeights, pliWeights, List.map_map]
    apply List.map_congr_left
    intro x _
    have hP : (∏ j, α j) ≠ 0 := Finset.prod_ne_zero_iff.mpr fun j _ => (hα j).ne'
    have h1 : jointPDF (fun j => (inUnit (α j) (t j) (marg j)).pdf) (fun j => α j * x j + t j)
        = jointPDF (fun j => (marg j).pdf) x / ∏ j, α j := by
      rw [jointPDF, jointPDF, ← Finset.prod_div_distrib]
      exact Finset.prod_congr rfl fun j _ => inUnit_pdf (hα j) _ _ _
    have h2 : perturbedPDF (fun j => (inUnit (α j) (t j) (marg j)).pdf) k p' (fun j => α j * x j + t j)
        = perturbedPDF (fun j => (marg j).pdf) k p x / ∏ j, α j := by
      rw [perturbedPDF, perturbedPDF, ← Finset.prod_div_distrib]
      refine Finset.prod_congr rfl fun j _ => ?_
      by_cases hj : j = k
      · subst hj
        rw [Function.update_self, Function.update_self, hp]
      · rw [Function.update_of_ne hj, Function.update_of_ne hj, inUnit_pdf (hα j)]
    simp only [Function.comp]
    rw [h1, h2, div_div_div_cancel_right₀ hP]
  rw [pliEntry, pliEntry, failureSample_inUnit]
  cases failureSample op thr hist with
  | error e => rfl
  | ok fs =>
    simp only [Except.map]
    rw [hw]

/-! ## Perturbation of the mean -/

theorem tiltedShift_inUnit {a b δ lam α t : ℝ} (hα : 0 < α) :
    tiltedShift (α * a + t) (α * b + t) (α * δ + t) (lam / α) = α ^ 2 * tiltedShift a b δ lam := by
  have h := intervalIntegral.integral_comp_mul_add (a := a) (b := b)
    (fun x => (x - (α * δ + t)) * Real.exp (lam / α * (x - (α * δ + t)))) hα.ne' t
  rw [smul_eq_mul] at h
  rw [tiltedShift, tiltedShift]
  have e : (fun x : ℝ => (α * x + t - (α * δ + t)) * Real.exp (lam / α * (α * x + t - (α * δ + t))))
      = fun x => α * ((x - δ) * Real.exp (lam * (x - δ))) := by
    funext x
    have e1 : α * x + t - (α * δ + t) = α * (x - δ) := by ring
    have e2 : lam / α * (α * (x - δ)) = lam * (x - δ) := by field_simp
    rw [e1, e2]; ring
  rw [e, intervalIntegral.integral_const_mul] at h
  have h' := congrArg (α * ·) h
  simp only [← mul_assoc, mul_inv_cancel₀ hα.ne', one_mul] at h'
  rw [← h', sq]

/-- What `fsolve` is asked for: a root of the equation, when there is one. -/
def RootSpec (solve : ℝ → ℝ → ℝ → ℝ) : Prop := ∀ a b δ, a < δ → δ < b → mPrimeOverM (solve a b δ) a b δ = 0

/-- A marginal the constructor accepts with a perturbed mean inside its range. -/
def MeanAdmissible (δ : ℝ) : Marg → Prop
  | .normal _ σ => 0 < σ
  | .uniform a b => a < δ ∧ δ < b
  | .other _ _ _ => True

/-- The marginal perturbed in its mean, in another unit, is the perturbed marginal in that unit. -/
theorem meanPert_inUnit {α t δ : ℝ} (hα : 0 < α) (solve : ℝ → ℝ → ℝ → ℝ) (hs : RootSpec solve) (m : Marg) (hm : MeanAdmissible δ m)
    {p : ℝ → ℝ} (hp : meanPert solve m δ = .ok p) :
    ∃ p', meanPert solve (inUnit α t m) (α * δ + t) = .ok p' ∧ ∀ x, p' (α * x + t) = p x / α := by
  rw [meanPert.eq_def] at hp ⊢
  rw [inUnit_mean]
  by_cases hδ : δ = m.mean
  · rw [if_pos hδ, Except.ok.injEq] at hp
    refine ⟨_, if_pos (by rw [hδ]), fun x => ?_⟩
    rw [inUnit_pdf hα, hp]
  · have hδ' : ¬ α * δ + t = α * m.mean + t := fun c => hδ (mul_left_cancel₀ hα.ne' (add_right_cancel c))
    rw [if_neg hδ] at hp
    rw [if_neg hδ']
    cases m with
    | normal μ σ =>
      simp only [Except.ok.injEq] at hp
      refine ⟨_, rfl, fun x => ?_⟩
      rw [← hp]
      have h : (α * x + t - (α * δ + t)) / (α * σ) = (x - δ) / σ := by
        rw [← mul_div_mul_left (x - δ) σ hα.ne']; congr 1; ring
      dsimp only
      rw [h, mul_assoc, one_div, mul_inv, one_div]
      ring
    | uniform a b =>
      obtain ⟨ha, hb⟩ := hm
      have hab : a < b := ha.trans hb
      simp only [Except.ok.injEq] at hp
      have hlt : ∀ {x y : ℝ}, x < y → α * x + t < α * y + t := fun h => by
        have := mul_lt_mul_of_pos_left h hα; linarith
      have h1 := (mPrimeOverM_eq_zero_iff hab).mp (hs a b δ ha hb)
      have h2 := (mPrimeOverM_eq_zero_iff (hlt hab)).mpr
        ((tiltedShift_inUnit (lam := solve a b δ) (a := a) (b := b) (δ := δ) (t := t) hα).trans (by rw [h1, mul_zero]))
      have hl := (C61_admissible _ _ (α * δ + t) (hlt hab)).2 _ _ (hs _ _ _ (hlt ha) (hlt hb)) h2
      refine ⟨_, rfl, fun x => ?_⟩
      rw [← hp]
      dsimp only
      rw [hl]
      set lam := solve a b δ
      have hx : (α * x + t ≤ α * b + t ∧ α * x + t ≥ α * a + t) ↔ (x ≤ b ∧ x ≥ a) := by
        rw [ge_iff_le, ge_iff_le, add_le_add_iff_right, add_le_add_iff_right, mul_le_mul_iff_right₀ hα, mul_le_mul_iff_right₀ hα]
      have he : ∀ y, Real.exp (lam / α * (α * y + t)) = Real.exp (lam / α * t) * Real.exp (lam * y) := by
        intro y
        rw [← Real.exp_add]; congr 1; field_simp; ring
      rw [he, he, he, ← mul_sub]
      have hE := (Real.exp_pos (lam / α * t)).ne'
      generalize Real.exp (lam / α * t) = E at hE
      generalize Real.exp (lam * b) - Real.exp (lam * a) = D
      generalize Real.exp (lam * x) = X
      have hq : lam / α / (E * D) * (E * X) = lam / D * X / α := by
        rw [div_div, div_mul_eq_mul_div, div_mul_eq_mul_div, div_div, show lam * (E * X) = E * (lam * X) by ring,
          show α * (E * D) = E * (D * α) by ring, mul_div_mul_left _ _ hE]
      rw [hq]
      by_cases hxx : x ≤ b ∧ x ≥ a
      · rw [if_pos (hx.mpr hxx), if_pos hxx, mul_one, mul_one]
      · rw [if_neg (fun c => hxx (hx.mp c)), if_neg hxx, mul_zero, mul_zero, zero_div]
    | other q mm v =>
      exact absurd hp (by simp)

/-- **C163.**  Indices of the mean, deltas counted in standard deviations (`sigmaScaled`).  Write the inputs in other units and with other
origins, `xⱼ ↦ αⱼ xⱼ + tⱼ`: the constructor converts each perturbed mean as a mean is, and every result of `run` (perturbed probability,
variance, index, standard deviation) is unchanged. -/
theorem C163_mean {d : ℕ} (α t : Fin d → ℝ) (hα : ∀ j, 0 < α j) (marg : Fin d → Marg) (rs : List ℝ) (hrs : rs ≠ []) (H : ℕ) (hH : H ≠ 0)
    (op : CmpOp) (thr : ℝ) (hist : List ((Fin d → ℝ) × ℝ)) (N : ℕ) (pf : ℝ) (solve : ℝ → ℝ → ℝ → ℝ) (hs : RootSpec solve) :
    ∃ dv dv', pliMeanInit H true (List.ofFn fun j => (marg j).mean) (List.ofFn fun j => Real.sqrt (marg j).var) (.vec rs) true = .ok dv ∧
      pliMeanInit H true (List.ofFn fun j => (inUnit (α j) (t j) (marg j)).mean)
        (List.ofFn fun j => Real.sqrt (inUnit (α j) (t j) (marg j)).var) (.vec rs) true = .ok dv' ∧
      dv.length = rs.length ∧ dv'.length = rs.length ∧
      ∀ (i : ℕ) (hi : i < rs.length) (k : Fin d), ∃ δ, (dv.getD i []).getD k 0 = δ ∧ δ = rs[i] * Real.sqrt (marg k).var + (marg k).mean ∧
        (dv'.getD i []).getD k 0 = α k * δ + t k ∧
        ∀ p, MeanAdmissible δ (marg k) → meanPert solve (marg k) δ = .ok p →
          ∃ p', meanPert solve (inUnit (α k) (t k) (marg k)) (α k * δ + t k) = .ok p' ∧
            pliEntry op thr (histInUnit α t hist) N pf (fun j => (inUnit (α j) (t j) (marg j)).pdf) k p'
              = pliEntry op thr hist N pf (fun j => (marg j).pdf) k p := by
  obtain ⟨r0, rs', rfl⟩ := List.exists_cons_of_ne_nil hrs
  set rs := r0 :: rs' with hrsd
  have hinit : ∀ mean std : List ℝ, pliMeanInit H true mean std (.vec rs) true
      = .ok (rs.map fun r => List.zipWith (· + ·) (List.zipWith (· * ·) (List.replicate mean.length r) std) mean) := by
    intro mean std
    simp [pliMeanInit, pliInit, vstackDeltas, hH, hrsd]
  refine ⟨_, _, hinit _ _, hinit _ _, by simp, by simp, fun i hi k => ?_⟩
  refine ⟨rs[i] * Real.sqrt (marg k).var + (marg k).mean, ?_, rfl, ?_, ?_⟩
  · simp [List.getD_eq_getElem?_getD, hi]
  · simp only [List.length_ofFn]
    simp [List.getD_eq_getElem?_getD, hi, inUnit_mean, inUnit_std (hα k)]
    ring
  · intro p hm hp
    obtain ⟨p', h1, h2⟩ := meanPert_inUnit (α := α k) (t := t k) (hα k) solve hs (marg k) hm hp
    exact ⟨p', h1, pliEntry_inUnit α t hα op thr hist N pf marg k p p' h2⟩

/-- A solver meeting the contract exists. -/
theorem rootSpec_nonempty : ∃ solve, RootSpec solve := by
  classical
  refine ⟨fun a b δ => if h : ∃ lam, mPrimeOverM lam a b δ = 0 then h.choose else 0, fun a b δ ha hb => ?_⟩
  have h := ((C61_admissible a b δ (ha.trans hb)).1).mpr ⟨ha, hb⟩
  dsimp only
  rw [dif_pos h]
  exact h.choose_spec

/-- **C163.**  A Normal and a Uniform input, written in other units and with other origins; deltas of half a standard deviation. -/
example : ∃ solve, RootSpec solve ∧ ∀ k : Fin 2,
    MeanAdmissible (1 / 2 * Real.sqrt ((![Marg.normal 1 2, Marg.uniform 0 3] : Fin 2 → Marg) k).var
      + ((![Marg.normal 1 2, Marg.uniform 0 3] : Fin 2 → Marg) k).mean) ((![Marg.normal 1 2, Marg.uniform 0 3] : Fin 2 → Marg) k) := by
  obtain ⟨solve, h⟩ := rootSpec_nonempty
  refine ⟨solve, h, fun k => ?_⟩
  fin_cases k
  · show (0 : ℝ) < 2
    norm_num
  · have h1 : Real.sqrt ((Marg.uniform 0 3).var) < 1 := by
      rw [Real.sqrt_lt' one_pos]; norm_num [Marg.var]
    have h2 := Real.sqrt_nonneg ((Marg.uniform 0 3).var)
    show (0 : ℝ) < 1 / 2 * Real.sqrt ((Marg.uniform 0 3).var) + (0 + 3) / 2 ∧ 1 / 2 * Real.sqrt ((Marg.uniform 0 3).var) + (0 + 3) / 2 < 3
    constructor <;> linarith

/-! ## Perturbation of the variance -/

/-- The moments of a tilted uniform law in another unit. -/
theorem qm_inUnit {a b α t : ℝ} (hα : 0 < α) (lam : ℝ × ℝ) :
    let lam' : ℝ × ℝ := (lam.1 / α - 2 * t * lam.2 / α ^ 2, lam.2 / α ^ 2)
    let E := Real.exp (lam'.1 * t + lam'.2 * t ^ 2)
    (∀ u, Real.exp (lam'.1 * (α * u + t) + lam'.2 * (α * u + t) ^ 2) = E * Real.exp (lam.1 * u + lam.2 * u ^ 2)) ∧
    qm (α * a + t) (α * b + t) 0 lam' = α * E * qm a b 0 lam ∧
    qm (α * a + t) (α * b + t) 1 lam' = α * E * (α * qm a b 1 lam + t * qm a b 0 lam) ∧
    qm (α * a + t) (α * b + t) 2 lam' = α * E * (α ^ 2 * qm a b 2 lam + 2 * α * t * qm a b 1 lam + t ^ 2 * qm a b 0 lam) := by
  intro lam' E
  have hexp : ∀ u, Real.exp (lam'.1 * (α * u + t) + lam'.2 * (α * u + t) ^ 2) = E * Real.exp (lam.1 * u + lam.2 * u ^ 2) := by
    intro u
    rw [← Real.exp_add]
    congr 1
    show (lam.1 / α - 2 * t * lam.2 / α ^ 2) * (α * u + t) + lam.2 / α ^ 2 * (α * u + t) ^ 2
      = (lam.1 / α - 2 * t * lam.2 / α ^ 2) * t + lam.2 / α ^ 2 * t ^ 2 + (lam.1 * u + lam.2 * u ^ 2)
    field_simp
    ring
  have hch : ∀ k : ℕ, qm (α * a + t) (α * b + t) k lam'
      = α * E * ∫ u in a..b, (α * u + t) ^ k * Real.exp (lam.1 * u + lam.2 * u ^ 2) := by
    intro k
    have h := intervalIntegral.integral_comp_mul_add (a := a) (b := b)
      (fun x => x ^ k * Real.exp (lam'.1 * x + lam'.2 * x ^ 2)) hα.ne' t
    rw [smul_eq_mul, ← qm] at h
    have e : (fun x : ℝ => (α * x + t) ^ k * Real.exp (lam'.1 * (α * x + t) + lam'.2 * (α * x + t) ^ 2))
        = fun u => E * ((α * u + t) ^ k * Real.exp (lam.1 * u + lam.2 * u ^ 2)) := by
      funext u; rw [hexp]; ring
    rw [e, intervalIntegral.integral_const_mul] at h
    rw [mul_assoc, h, ← mul_assoc, mul_inv_cancel₀ hα.ne', one_mul]
  have hii : ∀ f : ℝ → ℝ, Continuous f → IntervalIntegrable f volume a b := fun f hf => hf.intervalIntegrable _ _
  refine ⟨hexp, ?_, ?_, ?_⟩
  · rw [hch 0, qm]; simp only [pow_zero, one_mul]
  · rw [hch 1]
    congr 1
    rw [qm, qm, ← intervalIntegral.integral_const_mul, ← intervalIntegral.integral_const_mul,
      ← intervalIntegral.integral_add (hii _ (by fun_prop)) (hii _ (by fun_prop))]
    apply intervalIntegral.integral_congr; intro u _; ring
  · rw [hch 2]
    congr 1
    rw [qm, qm, qm, ← intervalIntegral.integral_const_mul, ← intervalIntegral.integral_const_mul,
      ← intervalIntegral.integral_const_mul, ← intervalIntegral.integral_add (hii _ (by fun_prop)) (hii _ (by fun_prop)),
      ← intervalIntegral.integral_add (hii _ (by fun_prop)) (hii _ (by fun_prop))]
    apply intervalIntegral.integral_congr; intro u _; ring

/-- The perturbed variance is one the code can reach: positive for a Normal law; for a Uniform law the perturbed marginal has it. -/
def VarReached (optimize : (ℝ → ℝ) → ℝ → ℝ → ℝ × ℝ → ℝ × ℝ) (δ : ℝ) : Marg → Prop
  | .normal _ σ => 0 < σ ∧ 0 < δ
  | .uniform a b => a < b ∧ ∀ p, varPert optimize (.uniform a b) δ = .ok p → Honoured a b δ p
  | .other _ _ _ => True

/-- The marginal perturbed in its variance, in another unit, is the perturbed marginal in that unit. -/
theorem varPert_inUnit {α t δ : ℝ} (hα : 0 < α) (optimize : (ℝ → ℝ) → ℝ → ℝ → ℝ × ℝ → ℝ × ℝ) (m : Marg) (hm : VarReached optimize δ m)
    (hm' : VarReached optimize (α ^ 2 * δ) (inUnit α t m)) {p : ℝ → ℝ} (hp : varPert optimize m δ = .ok p) :
    ∃ p', varPert optimize (inUnit α t m) (α ^ 2 * δ) = .ok p' ∧ ∀ x, p' (α * x + t) = p x / α := by
  have hp0 := hp
  have hα2 : α ^ 2 ≠ 0 := (pow_pos hα 2).ne'
  by_cases hδ : δ = m.var
  · rw [varPert.eq_def, if_pos hδ, Except.ok.injEq] at hp
    refine ⟨(inUnit α t m).pdf, ?_, fun x => ?_⟩
    · rw [varPert.eq_def, if_pos (by rw [inUnit_var, hδ])]
    · rw [inUnit_pdf hα, hp]
  · have hδ' : ¬ α ^ 2 * δ = (inUnit α t m).var := by
      rw [inUnit_var]; exact fun c => hδ (mul_left_cancel₀ hα2 c)
    rw [varPert.eq_def, if_neg hδ] at hp
    cases m with
    | normal μ σ =>
      simp only [Except.ok.injEq] at hp
      refine ⟨_, by rw [varPert.eq_def, if_neg hδ']; rfl, fun x => ?_⟩
      rw [← hp]
      have hsq : Real.sqrt (α ^ 2 * δ) = α * Real.sqrt δ := by rw [Real.sqrt_mul (sq_nonneg α), Real.sqrt_sq hα.le]
      have h : (α * x + t - (α * μ + t)) / (α * Real.sqrt δ) = (x - μ) / Real.sqrt δ := by
        rw [← mul_div_mul_left (x - μ) _ hα.ne']; congr 1; ring
      dsimp only
      rw [hsq, h, mul_assoc, one_div, mul_inv, one_div]
      ring
    | uniform a b =>
      obtain ⟨hab, hH⟩ := hm
      obtain ⟨hab', hH'⟩ := hm'
      obtain ⟨p', hp'⟩ : ∃ p', varPert optimize (inUnit α t (.uniform a b)) (α ^ 2 * δ) = .ok p' := by
        rw [varPert.eq_def, if_neg hδ']; exact ⟨_, rfl⟩
      refine ⟨p', hp', ?_⟩
      have hp'' : varPert optimize (.uniform (α * a + t) (α * b + t)) (α ^ 2 * δ) = .ok p' := hp'
      have hne' : α ^ 2 * δ ≠ (α * b + t - (α * a + t)) ^ 2 / 12 := hδ'
      have hne : δ ≠ (b - a) ^ 2 / 12 := hδ
      set lam := optimize (Marg.uniform a b).pdf a b ((a + b) / 2, δ + ((a + b) / 2) ^ 2) with hl
      set mu := optimize (Marg.uniform (α * a + t) (α * b + t)).pdf (α * a + t) (α * b + t)
        ((α * a + t + (α * b + t)) / 2, α ^ 2 * δ + ((α * a + t + (α * b + t)) / 2) ^ 2) with hmu
      obtain ⟨e1, e2⟩ := (varPert_honoured_iff hab optimize hne hp0 hl.symm).mp (hH p hp0)
      obtain ⟨f1, f2⟩ := (varPert_honoured_iff hab' optimize hne' hp'' hmu.symm).mp (hH' p' hp'')
      obtain ⟨g, g0, g1, g2⟩ := qm_inUnit (a := a) (b := b) (t := t) hα lam
      have hmul := qm_unique hab' mu _ f1 f2 (by rw [g1, g0, e1]; ring) (by rw [g2, g0, e1, e2]; ring)
      obtain ⟨i1, o1, _⟩ := varPert_moments hab optimize hne hp0 hl.symm
      obtain ⟨i2, o2, _⟩ := varPert_moments hab' optimize hne' hp'' hmu.symm
      intro x
      have hx : (α * x + t ∈ Icc (α * a + t) (α * b + t)) ↔ x ∈ Icc a b := by
        rw [mem_Icc, mem_Icc, add_le_add_iff_right, add_le_add_iff_right, mul_le_mul_iff_right₀ hα, mul_le_mul_iff_right₀ hα]
      by_cases hxx : x ∈ Icc a b
      · rw [i1 x hxx, i2 _ (hx.mpr hxx), hmul, g, g0]
        have hE := (Real.exp_pos ((lam.1 / α - 2 * t * lam.2 / α ^ 2) * t + lam.2 / α ^ 2 * t ^ 2)).ne'
        have hq := (qm_pos hab lam).ne'
        generalize Real.exp ((lam.1 / α - 2 * t * lam.2 / α ^ 2) * t + lam.2 / α ^ 2 * t ^ 2) = E at hE ⊢
        generalize Real.exp (lam.1 * x + lam.2 * x ^ 2) = X
        field_simp
      · rw [o1 x hxx, o2 _ (fun c => hxx (hx.mp c)), zero_div]
    | other q mm v =>
      exact absurd hp (by simp)

/-- **C163 (partial).**  Indices of the variance, deltas counted with the coefficient of variation (`covScaled`).  Multiply the inputs by
`αⱼ > 0`, keeping their origins: the constructor converts each perturbed variance as a variance is, and every result of `run` is unchanged,
provided that in both units the perturbed variance is reached.  Missing: changes of origin, and the units in which the box of the
optimiser prevents the variance from being reached; both are false, see the `violated` theorems. -/
theorem C163_variance_partial {d : ℕ} (α : Fin d → ℝ) (hα : ∀ j, 0 < α j) (marg : Fin d → Marg) (rs : List ℝ) (hrs : rs ≠ []) (H : ℕ) (hH : H ≠ 0)
    (op : CmpOp) (thr : ℝ) (hist : List ((Fin d → ℝ) × ℝ)) (N : ℕ) (pf : ℝ) (optimize : (ℝ → ℝ) → ℝ → ℝ → ℝ × ℝ → ℝ × ℝ) :
    ∃ dv dv', pliVarianceInit H true (List.ofFn fun j => (marg j).mean) (List.ofFn fun j => Real.sqrt (marg j).var) (.vec rs) true = .ok dv ∧
      pliVarianceInit H true (List.ofFn fun j => (inUnit (α j) 0 (marg j)).mean)
        (List.ofFn fun j => Real.sqrt (inUnit (α j) 0 (marg j)).var) (.vec rs) true = .ok dv' ∧
      dv.length = rs.length ∧ dv'.length = rs.length ∧
      ∀ (i : ℕ) (hi : i < rs.length) (k : Fin d), ∃ δ, (dv.getD i []).getD k 0 = δ ∧ δ = (rs[i] * (marg k).mean + Real.sqrt (marg k).var) ^ 2 ∧
        (dv'.getD i []).getD k 0 = α k ^ 2 * δ ∧
        ∀ p, VarReached optimize δ (marg k) → VarReached optimize (α k ^ 2 * δ) (inUnit (α k) 0 (marg k)) →
          varPert optimize (marg k) δ = .ok p →
          ∃ p', varPert optimize (inUnit (α k) 0 (marg k)) (α k ^ 2 * δ) = .ok p' ∧
            pliEntry op thr (histInUnit α 0 hist) N pf (fun j => (inUnit (α j) 0 (marg j)).pdf) k p'
              = pliEntry op thr hist N pf (fun j => (marg j).pdf) k p := by
  obtain ⟨r0, rs', rfl⟩ := List.exists_cons_of_ne_nil hrs
  set rs := r0 :: rs' with hrsd
  have hinit : ∀ mean std : List ℝ, pliVarianceInit H true mean std (.vec rs) true
      = .ok (rs.map fun r => (List.zipWith (· + ·) (List.zipWith (· * ·) (List.replicate mean.length r) mean) std).map (· ^ 2)) := by
    intro mean std
    simp [pliVarianceInit, pliInit, vstackDeltas, hH, hrsd]
  refine ⟨_, _, hinit _ _, hinit _ _, by simp, by simp, fun i hi k => ?_⟩
  refine ⟨(rs[i] * (marg k).mean + Real.sqrt (marg k).var) ^ 2, ?_, rfl, ?_, ?_⟩
  · simp [List.getD_eq_getElem?_getD, hi]
  · simp only [List.length_ofFn]
    simp [List.getD_eq_getElem?_getD, hi, inUnit_mean, inUnit_std (hα k)]
    ring
  · intro p hm hm' hp
    obtain ⟨p', h1, h2⟩ := varPert_inUnit (α := α k) (t := 0) (hα k) optimize (marg k) hm hm' hp
    exact ⟨p', h1, pliEntry_inUnit α 0 hα op thr hist N pf marg k p p' h2⟩

/-- **C163.**  Millimetres to inches: a Normal input with mean 1 and standard deviation 2, a delta of 10 %. -/
example (optimize : (ℝ → ℝ) → ℝ → ℝ → ℝ × ℝ → ℝ × ℝ) : VarReached optimize ((1 / 10 * 1 + 2) ^ 2) (.normal 1 2) ∧
    VarReached optimize (25.4 ^ 2 * (1 / 10 * 1 + 2) ^ 2) (inUnit 25.4 0 (.normal 1 2)) := by
  refine ⟨⟨by norm_num, by norm_num⟩, ?_, ?_⟩ <;> norm_num

/-- One failing point, one input: the perturbed probability. -/
theorem pliEntry_one (m : Marg) (p : ℝ → ℝ) (x : ℝ) (N : ℕ) (pf : ℝ) {r : ℝ × ℝ × F ℝ × Option ℝ}
    (h : pliEntry .greater 0 [((fun _ : Fin 1 => x), (1 : ℝ))] N pf (fun _ => m.pdf) 0 p = .ok r) : r.1 = 1 / (N : ℝ) * (p x / m.pdf x) := by
  simp only [pliEntry, failureSample, List.filter_cons, gt_iff_lt, zero_lt_one, decide_true, if_true, List.filter_nil, List.map_cons,
    List.map_nil, Except.ok.injEq] at h
  rw [← h]
  simp [pfDelta, pliWeights, perturbedPDF, jointPDF]

/-- **C163 (violated): change of origin.**  A Normal input; the same delta with the coefficient of variation.  Unless the two perturbed
standard deviations happen to coincide, shifting the origin of the input (degrees Celsius, kelvins) changes the perturbed probability of a
one-point failure sample.  For a mean `0` the delta has no effect at all. -/
theorem C163_origin_violated (μ σ r t : ℝ) (hσ : 0 < σ) (h1 : 0 < r * μ + σ) (h2 : 0 < r * (μ + t) + σ) (hr : r ≠ 0) (ht : t ≠ 0)
    (optimize : (ℝ → ℝ) → ℝ → ℝ → ℝ × ℝ → ℝ × ℝ) (N : ℕ) (hN : N ≠ 0) (pf : ℝ) (H : ℕ) (hH : H ≠ 0) :
    ∃ δ δ' p p' e e', pliVarianceInit H true [(Marg.normal μ σ).mean] [Real.sqrt (Marg.normal μ σ).var] (.vec [r]) true = .ok [[δ]] ∧
      pliVarianceInit H true [(inUnit 1 t (.normal μ σ)).mean] [Real.sqrt (inUnit 1 t (.normal μ σ)).var] (.vec [r]) true = .ok [[δ']] ∧
      varPert optimize (.normal μ σ) δ = .ok p ∧ varPert optimize (inUnit 1 t (.normal μ σ)) δ' = .ok p' ∧
      pliEntry .greater 0 [((fun _ : Fin 1 => μ), (1 : ℝ))] N pf (fun _ => (Marg.normal μ σ).pdf) 0 p = .ok e ∧
      pliEntry .greater 0 (histInUnit (fun _ => 1) (fun _ => t) [((fun _ : Fin 1 => μ), (1 : ℝ))]) N pf
        (fun _ => (inUnit 1 t (.normal μ σ)).pdf) 0 p' = .ok e' ∧ e.1 ≠ e'.1 ∧ (μ = 0 → p = (Marg.normal μ σ).pdf) := by
  have hpeak : ∀ m s δ : ℝ, 0 < s → ∃ p, varPert optimize (.normal m s) δ = .ok p ∧ p m = 1 / (Real.sqrt δ * Real.sqrt (2 * Real.pi)) := by
    intro m s δ hs
    by_cases hδ : δ = (Marg.normal m s).var
    · refine ⟨_, by rw [varPert.eq_def, if_pos hδ], ?_⟩
      rw [hδ]
      simp only [Marg.pdf, Marg.var, Real.sqrt_sq hs.le, sub_self, zero_div]
      norm_num
    · refine ⟨_, by rw [varPert.eq_def, if_neg hδ], ?_⟩
      simp only [sub_self, zero_div]
      norm_num
  have hs1 : Real.sqrt (Marg.normal μ σ).var = σ := by simp only [Marg.var, Real.sqrt_sq hσ.le]
  have hs2 : Real.sqrt (inUnit 1 t (.normal μ σ)).var = σ := by rw [inUnit_std one_pos, hs1, one_mul]
  have hinit : ∀ m s : ℝ, pliVarianceInit H true [m] [s] (.vec [r]) true = .ok [[(r * m + s) ^ 2]] := by
    intro m s; simp [pliVarianceInit, pliInit, vstackDeltas, hH]
  obtain ⟨p, hp, hpv⟩ := hpeak μ σ ((r * μ + σ) ^ 2) hσ
  obtain ⟨p', hp', hpv'⟩ := hpeak (1 * μ + t) (1 * σ) ((r * (1 * μ + t) + σ) ^ 2) (by linarith)
  have hpos : 0 < Real.sqrt (2 * Real.pi) := Real.sqrt_pos.mpr (by positivity)
  have hNR : (N : ℝ) ≠ 0 := Nat.cast_ne_zero.mpr hN
  have hex : ∀ (m : Marg) (x : ℝ) (q : ℝ → ℝ), ∃ e, pliEntry .greater 0 [((fun _ : Fin 1 => x), (1 : ℝ))] N pf (fun _ => m.pdf) 0 q = .ok e :=
    fun m x q => ⟨_, rfl⟩
  obtain ⟨e, he⟩ := hex (.normal μ σ) μ p
  obtain ⟨e', he'⟩ := hex (inUnit 1 t (.normal μ σ)) (1 * μ + t) p'
  refine ⟨_, _, p, p', e, e', by rw [hs1]; exact hinit _ _, by rw [hs2]; exact hinit _ _, hp, hp', he, he', ?_, ?_⟩
  · have a1 := pliEntry_one _ _ _ _ _ he
    have a2 := pliEntry_one _ _ _ _ _ he'
    have hpk : 0 < (Marg.normal μ σ).pdf μ := by simp only [Marg.pdf]; positivity
    rw [a1, a2, inUnit_pdf one_pos, div_one, hpv, hpv', Real.sqrt_sq h1.le, Real.sqrt_sq (by linarith)]
    intro c
    have c1 := mul_left_cancel₀ (one_div_ne_zero hNR) c
    rw [div_left_inj' hpk.ne', one_div, one_div, inv_inj] at c1
    have c2 := mul_right_cancel₀ hpos.ne' c1
    have c3 : r * t = 0 := by linarith
    rcases mul_eq_zero.mp c3 with c4 | c4
    · exact hr c4
    · exact ht c4
  · intro h0
    subst h0
    rw [varPert.eq_def, if_pos (by simp [Marg.var])] at hp
    exact (Except.ok.inj hp).symm

/-- **C163.**  A length with mean 1 and standard deviation 1/2, a delta of 10 %, the origin moved by 3. -/
example : (0 : ℝ) < 1 / 10 * 1 + 1 / 2 ∧ (0 : ℝ) < 1 / 10 * (1 + 3) + 1 / 2 := by norm_num

/-- **C163 (violated): change of unit.**  A Uniform input on `[0, 1]`, a delta `r` whose perturbed variance is admissible.  There are a
unit `w₁` (the input written on `[0, w₁]`) and a threshold `w₀` such that in every unit `w < w₀` some one-point failure sample has
another perturbed probability: the optimiser searches its multipliers in `[-1000, 1000]` whatever the unit. -/
theorem C163_unit_violated (r : ℝ) (h0 : 0 < r * (1 / 2) + Real.sqrt (1 / 12)) (h1 : r * (1 / 2) + Real.sqrt (1 / 12) < 1 / 2) (hr : r ≠ 0)
    (optimize : (ℝ → ℝ) → ℝ → ℝ → ℝ × ℝ → ℝ × ℝ)
    (hopt : ∀ a b rhs, a < b → BoxMin (Marg.uniform a b).pdf a b rhs (optimize (Marg.uniform a b).pdf a b rhs))
    (N : ℕ) (hN : N ≠ 0) (pf : ℝ) (H : ℕ) (hH : H ≠ 0) :
    ∃ w₁ w₀ : ℝ, 0 < w₁ ∧ 0 < w₀ ∧ ∀ w, 0 < w → w < w₀ → ∃ δ δ' p p' e e' u,
      pliVarianceInit H true [(Marg.uniform 0 w₁).mean] [Real.sqrt (Marg.uniform 0 w₁).var] (.vec [r]) true = .ok [[δ]] ∧
      pliVarianceInit H true [(Marg.uniform 0 w).mean] [Real.sqrt (Marg.uniform 0 w).var] (.vec [r]) true = .ok [[δ']] ∧
      varPert optimize (.uniform 0 w₁) δ = .ok p ∧ varPert optimize (.uniform 0 w) δ' = .ok p' ∧ 0 ≤ u ∧ u ≤ 1 ∧
      pliEntry .greater 0 [((fun _ : Fin 1 => w₁ * u), (1 : ℝ))] N pf (fun _ => (Marg.uniform 0 w₁).pdf) 0 p = .ok e ∧
      pliEntry .greater 0 [((fun _ : Fin 1 => w * u), (1 : ℝ))] N pf (fun _ => (Marg.uniform 0 w).pdf) 0 p' = .ok e' ∧ e.1 ≠ e'.1 := by
  set s := r * (1 / 2) + Real.sqrt (1 / 12) with hs
  have hq0 : 0 < s ^ 2 := by positivity
  have hq1 : s ^ 2 < 1 / 4 := by nlinarith
  have hsq12 : Real.sqrt (1 / 12) ^ 2 = 1 / 12 := Real.sq_sqrt (by norm_num)
  have hsp : 0 < Real.sqrt (1 / 12) := Real.sqrt_pos.mpr (by norm_num)
  have hq2 : s ^ 2 ≠ 1 / 12 := by
    intro c
    rw [← hsq12] at c
    have := (pow_left_inj₀ h0.le hsp.le (two_ne_zero)).mp c
    rw [hs] at this
    apply hr; linarith
  obtain ⟨T, hT0, hT⟩ := C153_exact_partial (s ^ 2) hq0 hq1 hq2
  have hTp : 0 < |T| := abs_pos.mpr hT0
  have hδ : ∀ w, 0 < w → pliVarianceInit H true [(Marg.uniform 0 w).mean] [Real.sqrt (Marg.uniform 0 w).var] (.vec [r]) true
      = .ok [[s ^ 2 * (w - 0) ^ 2]] := by
    intro w hw
    have hstd : Real.sqrt (Marg.uniform 0 w).var = w * Real.sqrt (1 / 12) := by
      have : (Marg.uniform 0 w).var = w ^ 2 * (1 / 12) := by simp only [Marg.var]; ring
      rw [this, Real.sqrt_mul (sq_nonneg w), Real.sqrt_sq hw.le]
    have hmean : (Marg.uniform 0 w).mean = w * (1 / 2) := by simp only [Marg.mean]; ring
    rw [hstd, hmean]
    have : (r * (w * (1 / 2)) + w * Real.sqrt (1 / 12)) ^ 2 = s ^ 2 * (w - 0) ^ 2 := by rw [hs]; ring
    rw [← this]
    simp [pliVarianceInit, pliInit, vstackDeltas, hH]
  have hw1 : (1 : ℝ) ≤ 1 + |T| := by linarith
  refine ⟨1 + |T|, Real.sqrt (|T| / 1000), by linarith, Real.sqrt_pos.mpr (by positivity), fun w hw hww => ?_⟩
  set w₁ := 1 + |T| with hw₁
  have hw1p : 0 < w₁ := by linarith
  obtain ⟨p, hp, hpi, hpH⟩ := hT 0 w₁ hw1p optimize (hopt _ _ _ hw1p)
  obtain ⟨p', hp', hpi', hpH'⟩ := hT 0 w hw optimize (hopt _ _ _ hw)
  have hyes : Honoured 0 w₁ (s ^ 2 * (w₁ - 0) ^ 2) p := by
    rw [hpH, sub_zero, zero_add, abs_mul, abs_of_pos hw1p]
    constructor <;> nlinarith
  have hno : ¬ Honoured 0 w (s ^ 2 * (w - 0) ^ 2) p' := by
    rw [hpH', sub_zero]
    intro c
    have := (Real.lt_sqrt hw.le).mp hww
    have := c.1
    linarith
  -- if all weights agreed, the second density would be the first in the other unit, with its moments
  have hex : ∃ u, 0 ≤ u ∧ u ≤ 1 ∧ w₁ * p (w₁ * u) ≠ w * p' (w * u) := by
    by_contra hc
    push Not at hc
    have hne : s ^ 2 * (w₁ - 0) ^ 2 ≠ (w₁ - 0) ^ 2 / 12 := by
      intro c; apply hq2
      have hz : (w₁ - 0) ^ 2 ≠ 0 := by rw [sub_zero]; positivity
      exact mul_right_cancel₀ hz (by rw [c]; ring)
    have hne' : s ^ 2 * (w - 0) ^ 2 ≠ (w - 0) ^ 2 / 12 := by
      intro c; apply hq2
      have hz : (w - 0) ^ 2 ≠ 0 := by rw [sub_zero]; positivity
      exact mul_right_cancel₀ hz (by rw [c]; ring)
    obtain ⟨_, o1, _⟩ := varPert_moments hw1p optimize hne hp rfl
    obtain ⟨_, o2, _⟩ := varPert_moments hw optimize hne' hp' rfl
    have hall : ∀ u, p (w₁ / w * u) = w / w₁ * p' u := by
      intro u
      by_cases hu : u ∈ Icc 0 w
      · have h := hc (u / w) (div_nonneg hu.1 hw.le) ((div_le_one hw).mpr hu.2)
        rw [mul_div_cancel₀ _ hw.ne'] at h
        rw [show w₁ / w * u = w₁ * (u / w) by ring]
        rw [div_mul_eq_mul_div, eq_div_iff hw1p.ne', mul_comm]
        exact h
      · rw [o2 u hu, mul_zero]
        apply o1
        intro c
        apply hu
        have hk : 0 < w₁ / w := div_pos hw1p hw
        refine ⟨?_, ?_⟩
        · by_contra hneg
          push Not at hneg
          have := mul_neg_of_pos_of_neg hk hneg
          linarith [c.1]
        · have := c.2
          rw [div_mul_eq_mul_div, div_le_iff₀ hw] at this
          exact le_of_mul_le_mul_left this hw1p
    have hk : 0 < w₁ / w := div_pos hw1p hw
    have hmom : ∀ g : ℝ → ℝ, ∫ x, g (w₁ / w * x) * p' x = ∫ y, g y * p y := by
      intro g
      have h := Measure.integral_comp_mul_left (fun y => g y * p y) (w₁ / w)
      simp only [hall, smul_eq_mul] at h
      rw [abs_of_pos (inv_pos.mpr hk)] at h
      have h3 : (fun x : ℝ => g (w₁ / w * x) * (w / w₁ * p' x)) = fun x => (w₁ / w)⁻¹ * (g (w₁ / w * x) * p' x) := by
        funext x; rw [inv_div]; ring
      rw [h3, integral_const_mul] at h
      exact mul_left_cancel₀ (inv_pos.mpr hk).ne' h
    apply hno
    obtain ⟨y1, y2⟩ := hyes
    have m1 := hmom (fun y => y)
    have m2 := hmom (fun y => (y - (0 + w₁) / 2) ^ 2)
    rw [y1] at m1
    rw [y2] at m2
    constructor
    · have e : (fun x : ℝ => w₁ / w * x * p' x) = fun x => w₁ / w * (x * p' x) := by funext x; ring
      rw [e, integral_const_mul] at m1
      have : ∫ x, x * p' x = (w₁ / w)⁻¹ * ((0 + w₁) / 2) := by rw [← m1, ← mul_assoc, inv_mul_cancel₀ hk.ne', one_mul]
      rw [this, zero_add, zero_add]; field_simp
    · have e : (fun x : ℝ => (w₁ / w * x - (0 + w₁) / 2) ^ 2 * p' x) = fun x => (w₁ / w) ^ 2 * ((x - (0 + w) / 2) ^ 2 * p' x) := by
        funext x
        have : w₁ / w * x - (0 + w₁) / 2 = w₁ / w * (x - (0 + w) / 2) := by rw [zero_add, zero_add]; field_simp
        rw [this]; ring
      rw [e, integral_const_mul] at m2
      have hk2 : (w₁ / w) ^ 2 ≠ 0 := (pow_pos hk 2).ne'
      have : ∫ x, (x - (0 + w) / 2) ^ 2 * p' x = ((w₁ / w) ^ 2)⁻¹ * (s ^ 2 * (w₁ - 0) ^ 2) := by
        rw [← m2, ← mul_assoc, inv_mul_cancel₀ hk2, one_mul]
      rw [this, sub_zero, sub_zero]; field_simp
  obtain ⟨u, hu0, hu1, hu⟩ := hex
  have hent : ∀ (m : Marg) (x : ℝ) (q : ℝ → ℝ), ∃ e, pliEntry .greater 0 [((fun _ : Fin 1 => x), (1 : ℝ))] N pf (fun _ => m.pdf) 0 q = .ok e :=
    fun m x q => ⟨_, rfl⟩
  obtain ⟨e, he⟩ := hent (.uniform 0 w₁) (w₁ * u) p
  obtain ⟨e', he'⟩ := hent (.uniform 0 w) (w * u) p'
  refine ⟨_, _, p, p', e, e', u, hδ w₁ hw1p, hδ w hw, hp, hp', hu0, hu1, he, he', ?_⟩
  have hpdf : ∀ v, 0 < v → (Marg.uniform 0 v).pdf (v * u) = 1 / v := by
    intro v hv
    simp only [Marg.pdf, sub_zero]
    exact if_pos ⟨by positivity, by nlinarith⟩
  rw [pliEntry_one _ _ _ _ _ he, pliEntry_one _ _ _ _ _ he', hpdf _ hw1p, hpdf _ hw]
  intro c
  have c1 := mul_left_cancel₀ (one_div_ne_zero (Nat.cast_ne_zero.mpr hN : (N : ℝ) ≠ 0)) c
  rw [div_div_eq_mul_div, div_div_eq_mul_div, div_one, div_one] at c1
  apply hu
  linarith

/-- **C163.**  A delta of 10 % of the mean is admissible, and optimisers meeting the contract exist. -/
example : 0 < (1 / 10 : ℝ) * (1 / 2) + Real.sqrt (1 / 12) ∧ (1 / 10 : ℝ) * (1 / 2) + Real.sqrt (1 / 12) < 1 / 2 := by
  have h1 : Real.sqrt (1 / 12) < 0.3 := by rw [Real.sqrt_lt' (by norm_num)]; norm_num
  have h2 := Real.sqrt_nonneg (1 / 12)
  constructor <;> linarith

end Verif.Props
