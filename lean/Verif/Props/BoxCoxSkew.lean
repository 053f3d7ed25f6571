import Verif.Props.BoxCoxUnits
import Mathlib.Analysis.Convex.Deriv
import Mathlib.Analysis.Calculus.ParametricIntervalIntegral

/-!
# C157: which transformation Box-Cox finds
-/

namespace Verif.Props
open Verif.Py Verif.Model Set Filter Topology MeasureTheory

variable {n : ℕ}

theorem bcGap_deriv_zero (a b : ℝ) : HasDerivAt (bcGap a b) ((b ^ 2 - a ^ 2) / 2) 0 := by
  have h := (intervalIntegral.hasDerivAt_integral_of_dominated_loc_of_deriv_le (μ := volume) (a := a) (b := b)
    (F := fun lam t => Real.exp (lam * t)) (F' := fun lam t => Real.exp (lam * t) * t) (x₀ := (0 : ℝ)) (s := Metric.ball 0 1)
    (bound := fun t => Real.exp |t| * |t|) (Metric.ball_mem_nhds 0 one_pos)
    (Eventually.of_forall fun lam => (by fun_prop : Continuous fun t => Real.exp (lam * t)).aestronglyMeasurable)
    (bcInt a b 0) ((by fun_prop : Continuous fun t : ℝ => Real.exp ((0 : ℝ) * t) * t).aestronglyMeasurable)
    (Eventually.of_forall fun t _ lam hlam => ?_)
    ((by fun_prop : Continuous fun t : ℝ => Real.exp |t| * |t|).intervalIntegrable a b)
    (Eventually.of_forall fun t _ lam _ => ?_)).2
  · simp only [zero_mul, Real.exp_zero, one_mul, integral_id] at h
    exact h
  · rw [Real.norm_eq_abs, abs_mul, Real.abs_exp]
    apply mul_le_mul_of_nonneg_right _ (abs_nonneg t)
    apply Real.exp_le_exp.2
    have : |lam| ≤ 1 := by
      rw [Metric.mem_ball, Real.dist_eq, sub_zero] at hlam
      exact hlam.le
    calc lam * t ≤ |lam * t| := le_abs_self _
      _ = |lam| * |t| := abs_mul _ _
      _ ≤ 1 * |t| := mul_le_mul_of_nonneg_right this (abs_nonneg t)
      _ = |t| := one_mul _
  · have h1 : HasDerivAt (fun lam : ℝ => lam * t) t lam := by simpa using (hasDerivAt_id lam).mul_const t
    exact h1.exp

theorem bcGap_zero (a b : ℝ) : bcGap a b 0 = b - a := by simp [bcGap]

theorem bcSpread_deriv_zero (u : Fin n → ℝ) (h0 : ∑ i, u i = 0) : HasDerivAt (bcSpread u) (2 * n * ∑ i, u i ^ 3) 0 := by
  have h : HasDerivAt (bcSpread u) (∑ i, ∑ j, 2 * (u j - u i) * ((u j ^ 2 - u i ^ 2) / 2)) 0 := by
    unfold bcSpread
    apply HasDerivAt.fun_sum
    intro i _
    apply HasDerivAt.fun_sum
    intro j _
    have := (bcGap_deriv_zero (u i) (u j)).fun_pow 2
    rw [bcGap_zero] at this
    exact this.congr_deriv (by norm_num)
  refine h.congr_deriv ?_
  have e : ∀ i j, 2 * (u j - u i) * ((u j ^ 2 - u i ^ 2) / 2) = u j ^ 3 - u i * u j ^ 2 - u i ^ 2 * u j + u i ^ 3 := fun i j => by ring
  simp only [e, Finset.sum_add_distrib, Finset.sum_sub_distrib, ← Finset.mul_sum, ← Finset.sum_mul, h0, Finset.sum_const,
    Finset.card_univ, Fintype.card_fin, nsmul_eq_mul]
  ring

/-- Third central moment, up to the factor `1/n`. -/
noncomputable def thirdMoment (z : Fin n → ℝ) : ℝ := ∑ i, (z i - smean z) ^ 3

/-- **C157, sign of the parameter.**  The Box-Cox parameter is zero exactly when the third central moment of the logarithms of the signals
vanishes, positive exactly when it is negative, negative exactly when it is positive. -/
theorem C157_sign (y : Fin n → ℝ) (hy : ∀ i, 0 < y i) (hne : ∃ i j, y i ≠ y j) (lam : ℝ) (hl : ∀ mu, bcLogLik y mu ≤ bcLogLik y lam) :
    (lam = 0 ↔ thirdMoment (fun i => Real.log (y i)) = 0) ∧ (0 < lam ↔ thirdMoment (fun i => Real.log (y i)) < 0) ∧
      (lam < 0 ↔ 0 < thirdMoment fun i => Real.log (y i)) := by
  have hn0 : (0 : ℝ) < n := by exact_mod_cast (by have := two_le_of_ne hne; omega : 0 < n)
  have hu := centredLog_ne y hy hne
  have hstr := bcSpread_strict _ hu
  have hmin : ∀ mu, bcSpread (centredLog y) lam ≤ bcSpread (centredLog y) mu := fun mu => (bcLogLik_le_iff y hy hne lam mu).1 (hl mu)
  have hd := bcSpread_deriv_zero (centredLog y) (centredLog_sum y)
  have ht : ∑ i, centredLog y i ^ 3 = thirdMoment fun i => Real.log (y i) := rfl
  rw [ht] at hd
  set T := thirdMoment fun i => Real.log (y i) with hT
  have c0 : lam = 0 → T = 0 := by
    intro h
    subst h
    have hloc : IsLocalMin (bcSpread (centredLog y)) 0 := Eventually.of_forall hmin
    have := hloc.hasDerivAt_eq_zero hd
    have h2 : (2 * (n : ℝ)) ≠ 0 := by positivity
    exact (mul_eq_zero.1 this).resolve_left h2
  have hlt : lam ≠ 0 → bcSpread (centredLog y) lam < bcSpread (centredLog y) 0 := by
    intro h
    refine lt_of_le_of_ne (hmin 0) fun h' => h ?_
    exact hstr.eq_of_isMinOn (fun z _ => hmin z) (fun z _ => by rw [mem_setOf_eq, ← h']; exact hmin z) (mem_univ _) (mem_univ _)
  have cneg : lam < 0 → 0 < T := by
    intro h
    have h1 := hstr.convexOn.slope_le_of_hasDerivAt (mem_univ lam) (mem_univ 0) h hd
    rw [slope_def_field] at h1
    have h2 : 0 < (bcSpread (centredLog y) 0 - bcSpread (centredLog y) lam) / (0 - lam) :=
      div_pos (sub_pos.2 (hlt h.ne)) (by linarith)
    have h3 : 0 < 2 * (n : ℝ) * T := lt_of_lt_of_le h2 h1
    exact (mul_pos_iff_of_pos_left (by positivity)).1 h3
  have cpos : 0 < lam → T < 0 := by
    intro h
    have h1 := hstr.convexOn.le_slope_of_hasDerivAt (mem_univ 0) (mem_univ lam) h hd
    rw [slope_def_field] at h1
    have h2 : (bcSpread (centredLog y) lam - bcSpread (centredLog y) 0) / (lam - 0) < 0 :=
      div_neg_of_neg_of_pos (sub_neg.2 (hlt h.ne')) (by linarith)
    have h3 : 2 * (n : ℝ) * T < 0 := lt_of_le_of_lt h1 h2
    by_contra hc
    push Not at hc
    have := mul_nonneg (by positivity : (0 : ℝ) ≤ 2 * n) hc
    linarith
  refine ⟨⟨c0, fun h => ?_⟩, ⟨cpos, fun h => ?_⟩, ⟨cneg, fun h => ?_⟩⟩
  · rcases lt_trichotomy lam 0 with h' | h' | h'
    · linarith [cneg h']
    · exact h'
    · linarith [cpos h']
  · rcases lt_trichotomy lam 0 with h' | h' | h'
    · linarith [cneg h']
    · linarith [c0 h']
    · exact h'
  · rcases lt_trichotomy lam 0 with h' | h' | h'
    · exact h'
    · linarith [c0 h']
    · linarith [cpos h']

/-- **C157, the defects are ignored.**  Two data sets with the same signals get the same parameter, whatever the defects. -/
theorem C157_defects_ignored (fmax : ℝ) (env : LinEnv) (hbc : BoxCoxOptimal env.boxCox) (hols : OlsExact env.ols)
    (draws draws' : ℕ → ℝ × ℝ × ℝ) (x x' y : Fin n → ℝ) (det det' : ℝ) (noise sat noise' sat' : Option ℝ) (hy : ∀ i, 0 < y i)
    (hne : ∃ i j, y i ≠ y j) (hdet : 0 < det) (hdet' : 0 < det') :
    ∃ r r', computeLinearModel fmax env draws (List.ofFn fun i => (x i, y i)) det noise sat true false = .ok r ∧
      computeLinearModel fmax env draws' (List.ofFn fun i => (x' i, y i)) det' noise' sat' true false = .ok r' ∧
      r.lambda = r'.lambda := by
  have hn : n ≠ 0 := by have := two_le_of_ne hne; omega
  obtain ⟨r, lam, h1, h2, h3, -⟩ := bcRun_ok fmax env hbc hols draws x y det noise sat 0 (boxCoxShift_pos y hn hy)
    (fun i => by simpa using hy i) hne (by simpa using hdet)
  obtain ⟨r', lam', h1', h2', h3', -⟩ := bcRun_ok fmax env hbc hols draws' x' y det' noise' sat' 0 (boxCoxShift_pos y hn hy)
    (fun i => by simpa using hy i) hne (by simpa using hdet')
  simp only [add_zero] at h3 h3'
  exact ⟨r, r', h1, h1', by rw [h2, h2', (C155_unique y hy hne).unique h3 h3']⟩

theorem thirdMoment_affine (x : Fin n → ℝ) (hn : n ≠ 0) (b0 b1 : ℝ) : thirdMoment (fun i => b1 * x i + b0) = b1 ^ 3 * thirdMoment x := by
  rw [thirdMoment, thirdMoment, smean_affine hn, Finset.mul_sum]
  refine Finset.sum_congr rfl fun i _ => by ring

/-- Three positive numbers with different images by two power-like transformations cannot be aligned in both. -/
theorem boxCox_exp_not_affine (lam : ℝ) (hl : lam ≠ 0) (p q r : ℝ) (hpq : p < q) (hqr : q < r) (A B : ℝ)
    (h : ∀ z ∈ ({p, q, r} : Set ℝ), boxCoxFun lam (Real.exp z) = A + B * z) : False := by
  have hb : ∀ z, boxCoxFun lam (Real.exp z) = (Real.exp (lam * z) - 1) / lam := fun z => by
    rw [boxCoxFun, if_neg hl, ← Real.exp_mul, mul_comm z]
  have he : ∀ z ∈ ({p, q, r} : Set ℝ), Real.exp (lam * z) = lam * (A + B * z) + 1 := by
    intro z hz
    have := h z hz
    rw [hb, div_eq_iff hl] at this
    linarith
  have h1 := he p (by simp)
  have h2 := he q (by simp)
  have h3 := he r (by simp)
  have hrp : 0 < r - p := by linarith
  have hconv := strictConvexOn_exp.2 (mem_univ (lam * p)) (mem_univ (lam * r))
    (fun h => by have := mul_left_cancel₀ hl h; linarith) (show 0 < (r - q) / (r - p) from div_pos (by linarith) hrp)
    (show 0 < (q - p) / (r - p) from div_pos (by linarith) hrp) (by field_simp; ring)
  simp only [smul_eq_mul] at hconv
  rw [show (r - q) / (r - p) * (lam * p) + (q - p) / (r - p) * (lam * r) = lam * q by field_simp; ring, h1, h2, h3] at hconv
  have : (r - q) / (r - p) * (lam * (A + B * p) + 1) + (q - p) / (r - p) * (lam * (A + B * r) + 1) = lam * (A + B * q) + 1 := by
    field_simp; ring
  linarith

theorem olsResiduals_line (x : Fin n → ℝ) (hx : ∃ i j, x i ≠ x j) (c e : ℝ) (i : Fin n) : olsResiduals x (fun i => c * x i + e) i = 0 := by
  have hn : n ≠ 0 := by have := two_le_of_ne hx; omega
  have h := resid_affine x x 1 0 c e hn one_ne_zero
  simp only [one_mul, add_zero] at h
  have hs : olsSlope x x = 1 := by
    rw [olsSlope]
    have h2 := sxx_pos x hx
    simp only [← sq]
    exact div_self h2.ne'
  rw [h]
  simp only [olsResiduals, olsIntercept, hs]
  ring

theorem exp_line_ne (x : Fin n → ℝ) (hx : ∃ i j, x i ≠ x j) (b0 b1 : ℝ) (hb : b1 ≠ 0) :
    ∃ i j, Real.exp (b1 * x i + b0) ≠ Real.exp (b1 * x j + b0) := by
  obtain ⟨i, j, h⟩ := hx
  refine ⟨i, j, fun h' => h ?_⟩
  have := Real.exp_injective h'
  exact mul_left_cancel₀ hb (by linarith)

/-- **C157, recovered.**  When the logarithm of the signals is exactly linear in the defects, the run finds the logarithm (parameter 0)
exactly when the third central moment of the defects vanishes; all residuals are then zero. -/
theorem C157_recovered_partial (fmax : ℝ) (env : LinEnv) (hbc : BoxCoxOptimal env.boxCox) (hols : OlsExact env.ols)
    (draws : ℕ → ℝ × ℝ × ℝ) (x : Fin n → ℝ) (b0 b1 det : ℝ) (noise sat : Option ℝ) (hx : ∃ i j, x i ≠ x j) (hb : b1 ≠ 0) (hdet : 0 < det) :
    ∃ r lam, computeLinearModel fmax env draws (List.ofFn fun i => (x i, Real.exp (b1 * x i + b0))) det noise sat true false = .ok r ∧
      r.lambda = some lam ∧ (lam = 0 ↔ thirdMoment x = 0) ∧ (lam = 0 → ∀ v ∈ r.fit.residuals, v = 0) := by
  have hpos : ∀ i, 0 < Real.exp (b1 * x i + b0) := fun i => Real.exp_pos _
  have hne := exp_line_ne x hx b0 b1 hb
  have hn : n ≠ 0 := by have := two_le_of_ne hne; omega
  obtain ⟨r, lam, h1, h2, h3, -, -, h6, -⟩ := bcRun_full fmax env hbc hols draws x (fun i => Real.exp (b1 * x i + b0)) det noise sat 0
    (boxCoxShift_pos _ hn hpos) (fun i => by simpa using hpos i) hne (by simpa using hdet)
  simp only [add_zero] at h3 h6
  have hs := (C157_sign _ hpos hne lam h3).1
  simp only [Real.log_exp] at hs
  rw [thirdMoment_affine x hn] at hs
  refine ⟨r, lam, h1, h2, hs.trans ⟨fun h => (mul_eq_zero.1 h).resolve_left (pow_ne_zero 3 hb), fun h => by rw [h, mul_zero]⟩, ?_⟩
  rintro rfl v hv
  rw [h6] at hv
  obtain ⟨i, rfl⟩ := List.mem_ofFn.1 hv
  have : (fun i => boxCoxFun 0 (Real.exp (b1 * x i + b0))) = fun i => b1 * x i + b0 := by
    funext i; rw [boxCoxFun, if_pos rfl, Real.log_exp]
  rw [this]
  exact olsResiduals_line x hx b1 b0 i

/-- **C157, violated.**  For every set of defects with at least three different values and a third central moment that is not zero, and
signals whose logarithm is exactly linear in the defects, the run does not find the logarithm: the parameter has the sign opposite to
that of the slope times the moment, the transformed signals are not on a line and the standard error is positive. -/
theorem C157_violated (fmax : ℝ) (env : LinEnv) (hbc : BoxCoxOptimal env.boxCox) (hols : OlsExact env.ols)
    (draws : ℕ → ℝ × ℝ × ℝ) (x : Fin n → ℝ) (b0 b1 det : ℝ) (noise sat : Option ℝ) (i j k : Fin n) (hij : x i < x j) (hjk : x j < x k)
    (hb : b1 ≠ 0) (hdet : 0 < det) (ht : thirdMoment x ≠ 0) :
    ∃ r lam, computeLinearModel fmax env draws (List.ofFn fun i => (x i, Real.exp (b1 * x i + b0))) det noise sat true false = .ok r ∧
      r.lambda = some lam ∧ lam * (b1 * thirdMoment x) < 0 ∧ (∃ v ∈ r.fit.residuals, v ≠ 0) ∧ 0 < r.fit.stderr := by
  have hx : ∃ i j, x i ≠ x j := ⟨i, j, hij.ne⟩
  have hpos : ∀ i, 0 < Real.exp (b1 * x i + b0) := fun i => Real.exp_pos _
  have hne := exp_line_ne x hx b0 b1 hb
  have hn : n ≠ 0 := by have := two_le_of_ne hne; omega
  have hn3 : 2 < n := by
    have h1 : i.1 ≠ j.1 := fun h => hij.ne (by rw [Fin.ext h])
    have h2 : j.1 ≠ k.1 := fun h => hjk.ne (by rw [Fin.ext h])
    have h3 : i.1 ≠ k.1 := fun h => (hij.trans hjk).ne (by rw [Fin.ext h])
    have := i.2; have := j.2; have := k.2
    omega
  obtain ⟨r, lam, h1, h2, h3, -, -, h6, h7⟩ := bcRun_full fmax env hbc hols draws x (fun i => Real.exp (b1 * x i + b0)) det noise sat 0
    (boxCoxShift_pos _ hn hpos) (fun i => by simpa using hpos i) hne (by simpa using hdet)
  simp only [add_zero] at h3 h6 h7
  have hs := C157_sign _ hpos hne lam h3
  simp only [Real.log_exp] at hs
  rw [thirdMoment_affine x hn] at hs
  obtain ⟨hs0, hs1, hs2⟩ := hs
  have hb2 : 0 < b1 ^ 2 := by positivity
  have e : b1 ^ 3 * thirdMoment x = b1 ^ 2 * (b1 * thirdMoment x) := by ring
  rw [e] at hs0 hs1 hs2
  have hsign : lam * (b1 * thirdMoment x) < 0 := by
    rcases lt_trichotomy lam 0 with h | h | h
    · exact mul_neg_of_neg_of_pos h ((mul_pos_iff_of_pos_left hb2).1 (hs2.1 h))
    · exact absurd (hs0.1 h) (mul_ne_zero hb2.ne' (mul_ne_zero hb ht))
    · refine mul_neg_of_pos_of_neg h ?_
      have := hs1.1 h
      by_contra hc
      push Not at hc
      linarith [mul_nonneg hb2.le hc]
  have hl : lam ≠ 0 := by rintro rfl; simp at hsign
  have hres : ∃ m, olsResiduals x (fun i => boxCoxFun lam (Real.exp (b1 * x i + b0))) m ≠ 0 := by
    by_contra hc
    push Not at hc
    set Y : Fin n → ℝ := fun i => boxCoxFun lam (Real.exp (b1 * x i + b0)) with hY
    have hline : ∀ m, boxCoxFun lam (Real.exp (b1 * x m + b0))
        = (olsIntercept x Y - olsSlope x Y * b0 / b1) + olsSlope x Y / b1 * (b1 * x m + b0) := by
      intro m
      have h := hc m
      rw [olsResiduals, sub_eq_zero] at h
      rw [show boxCoxFun lam (Real.exp (b1 * x m + b0)) = Y m from rfl, h]
      field_simp
      ring
    rcases lt_or_gt_of_ne hb with hb' | hb'
    · refine boxCox_exp_not_affine lam hl (b1 * x k + b0) (b1 * x j + b0) (b1 * x i + b0) (by nlinarith) (by nlinarith)
        (olsIntercept x Y - olsSlope x Y * b0 / b1) (olsSlope x Y / b1) ?_
      rintro z (rfl | rfl | rfl)
      · exact hline k
      · exact hline j
      · exact hline i
    · refine boxCox_exp_not_affine lam hl (b1 * x i + b0) (b1 * x j + b0) (b1 * x k + b0) (by nlinarith) (by nlinarith)
        (olsIntercept x Y - olsSlope x Y * b0 / b1) (olsSlope x Y / b1) ?_
      rintro z (rfl | rfl | rfl)
      · exact hline i
      · exact hline j
      · exact hline k
  refine ⟨r, lam, h1, h2, hsign, ?_, ?_⟩
  · obtain ⟨m, hm⟩ := hres
    exact ⟨_, by rw [h6]; exact List.mem_ofFn.2 ⟨m, rfl⟩, hm⟩
  · rw [h7]; exact linearStderr_pos x _ hn3 hres

/-- **C157, violated for linear signals.**  Signals equal to the defects (no transformation needed) whose logarithms have a vanishing third
central moment, for instance a geometric progression: the run takes the logarithm and the transformed signals are not on a line. -/
theorem C157_linear_violated (fmax : ℝ) (env : LinEnv) (hbc : BoxCoxOptimal env.boxCox) (hols : OlsExact env.ols)
    (draws : ℕ → ℝ × ℝ × ℝ) (x : Fin n → ℝ) (det : ℝ) (noise sat : Option ℝ) (i j k : Fin n) (hij : x i < x j) (hjk : x j < x k)
    (hpos : ∀ i, 0 < x i) (hdet : 0 < det) (ht : thirdMoment (fun i => Real.log (x i)) = 0) :
    ∃ r, computeLinearModel fmax env draws (List.ofFn fun i => (x i, x i)) det noise sat true false = .ok r ∧
      r.lambda = some 0 ∧ ∃ v ∈ r.fit.residuals, v ≠ 0 := by
  have hx : ∃ i j, x i ≠ x j := ⟨i, j, hij.ne⟩
  have hn : n ≠ 0 := by have := two_le_of_ne hx; omega
  obtain ⟨r, lam, h1, h2, h3, -, -, h6, -⟩ := bcRun_full fmax env hbc hols draws x x det noise sat 0
    (boxCoxShift_pos _ hn hpos) (fun i => by simpa using hpos i) hx (by simpa using hdet)
  simp only [add_zero] at h3 h6
  obtain rfl := (C157_sign _ hpos hx lam h3).1.2 ht
  refine ⟨r, h1, h2, ?_⟩
  by_contra hc
  push Not at hc
  have hline : ∀ m, Real.log (x m) = olsIntercept x (fun i => boxCoxFun 0 (x i)) + olsSlope x (fun i => boxCoxFun 0 (x i)) * x m := by
    intro m
    have h := hc (olsResiduals x (fun i => boxCoxFun 0 (x i)) m) (by rw [h6]; exact List.mem_ofFn.2 ⟨m, rfl⟩)
    rw [olsResiduals, sub_eq_zero] at h
    rw [← h, boxCoxFun, if_pos rfl]
  have hki : 0 < x k - x i := by linarith
  have hconc := strictConcaveOn_log_Ioi.2 (mem_Ioi.2 (hpos i)) (mem_Ioi.2 (hpos k)) (hij.trans hjk).ne
    (show 0 < (x k - x j) / (x k - x i) from div_pos (by linarith) hki)
    (show 0 < (x j - x i) / (x k - x i) from div_pos (by linarith) hki) (by field_simp; ring)
  simp only [smul_eq_mul] at hconc
  rw [show (x k - x j) / (x k - x i) * x i + (x j - x i) / (x k - x i) * x k = x j by field_simp; ring, hline i, hline j, hline k] at hconc
  set A := olsIntercept x (fun i => boxCoxFun 0 (x i))
  set B := olsSlope x (fun i => boxCoxFun 0 (x i))
  have : (x k - x j) / (x k - x i) * (A + B * x i) + (x j - x i) / (x k - x i) * (A + B * x k) = A + B * x j := by
    field_simp; ring
  linarith

/-! ## Examples -/

/-- Equally spaced defects: the logarithm is found. -/
example : ∃ r, computeLinearModel 1000 bcEnv (fun _ => (0, 0, 1)) (List.ofFn fun i => ((![1, 2, 3] : Fin 3 → ℝ) i,
      Real.exp (1 * (![1, 2, 3] : Fin 3 → ℝ) i + 0))) 2 none none true false = .ok r ∧ r.lambda = some 0 ∧ ∀ v ∈ r.fit.residuals, v = 0 := by
  have ht : thirdMoment (![1, 2, 3] : Fin 3 → ℝ) = 0 := by
    simp [thirdMoment, smean, Fin.sum_univ_three]; norm_num
  obtain ⟨r, lam, h1, h2, h3, h4⟩ := C157_recovered_partial 1000 bcEnv bcRef_optimal (fun _ => rfl) (fun _ => (0, 0, 1)) ![1, 2, 3] 0 1 2
    none none ⟨0, 1, by norm_num⟩ one_ne_zero (by norm_num)
  obtain rfl := h3.2 ht
  exact ⟨r, h1, h2, h4 rfl⟩

/-- Defects 1, 2, 4 with exponential signals: a negative parameter instead of zero. -/
example : ∃ r lam, computeLinearModel 1000 bcEnv (fun _ => (0, 0, 1)) (List.ofFn fun i => ((![1, 2, 4] : Fin 3 → ℝ) i,
      Real.exp (1 * (![1, 2, 4] : Fin 3 → ℝ) i + 0))) 2 none none true false = .ok r ∧ r.lambda = some lam ∧ lam < 0 ∧ 0 < r.fit.stderr := by
  have ht : 0 < thirdMoment (![1, 2, 4] : Fin 3 → ℝ) := by
    simp [thirdMoment, smean, Fin.sum_univ_three]; norm_num
  obtain ⟨r, lam, h1, h2, h3, -, h5⟩ := C157_violated 1000 bcEnv bcRef_optimal (fun _ => rfl) (fun _ => (0, 0, 1)) ![1, 2, 4] 0 1 2
    none none 0 1 2 (by norm_num) (by simp; norm_num) one_ne_zero (by norm_num) ht.ne'
  refine ⟨r, lam, h1, h2, ?_, h5⟩
  by_contra hc
  push Not at hc
  rw [one_mul] at h3
  linarith [mul_nonneg hc ht.le]

/-- Signals 1, 2, 4 equal to the defects: the logarithm is taken. -/
example : ∃ r, computeLinearModel 1000 bcEnv (fun _ => (0, 0, 1)) (List.ofFn fun i => ((![1, 2, 4] : Fin 3 → ℝ) i, (![1, 2, 4] : Fin 3 → ℝ) i)) 2
      none none true false = .ok r ∧ r.lambda = some 0 ∧ ∃ v ∈ r.fit.residuals, v ≠ 0 := by
  refine C157_linear_violated 1000 bcEnv bcRef_optimal (fun _ => rfl) (fun _ => (0, 0, 1)) ![1, 2, 4] 2 none none 0 1 2 (by norm_num)
    (by simp; norm_num) (by intro i; fin_cases i <;> norm_num) (by norm_num) ?_
  have h4 : Real.log 4 = 2 * Real.log 2 := by
    rw [show (4 : ℝ) = 2 ^ (2 : ℕ) by norm_num, Real.log_pow]; norm_num
  simp [thirdMoment, smean, Fin.sum_univ_three, h4]
  ring

end Verif.Props
