import Verif.Model.ExactLine
import Verif.Props.GaussCoverage
import Verif.Props.BoxCoxUnits
import Verif.Props.DetectionLevels
import Verif.Props.Stability

/-!
# C208: the linear POD of signals exactly on a line
-/

namespace Verif.Props
open Verif.Py Verif.Model Set

variable {n : ℕ}

/-- Least squares find a line that goes through all points. -/
theorem line_fit (x y : Fin n → ℝ) (hx : ∃ i j, x i ≠ x j) (b0 b1 : ℝ) (hy : ∀ i, y i = b0 + b1 * x i) :
    olsIntercept x y = b0 ∧ olsSlope x y = b1 ∧ (∀ i, olsResiduals x y i = 0) ∧ linearStderr x y = 0 := by
  have h0 : sse x y b0 b1 = 0 := by
    rw [sse]
    exact Finset.sum_eq_zero fun i _ => by rw [hy i]; ring
  have hmin := (C27_ols_optimal x y hx).1 b0 b1
  have hnn : 0 ≤ sse x y (olsIntercept x y) (olsSlope x y) := by
    rw [sse]
    exact Finset.sum_nonneg fun i _ => sq_nonneg _
  obtain ⟨e0, e1⟩ := (C27_ols_optimal x y hx).2.1 b0 b1 (by linarith)
  have hr : ∀ i, olsResiduals x y i = 0 := fun i => by rw [olsResiduals, ← e0, ← e1, hy i]; ring
  refine ⟨e0.symm, e1.symm, hr, ?_⟩
  rw [linearStderr, linearScale]
  simp [hr]

theorem allFinite_map (l : List ℝ) : allFinite (l.map F.fin) = some l := by
  induction l with
  | nil => rfl
  | cons a l ih => rw [List.map_cons, allFinite, ih]

/-- The quotient by zero of a number that is not zero. -/
theorem step_of_zero (t : ℝ) (ht : t ≠ 0) : fpNormalC (F.div (.fin t) (.fin 0)) = .fin (if t < 0 then 1 else 0) := by
  rw [F.div, if_pos rfl, F.infSign, if_neg ht]
  rcases lt_or_gt_of_ne ht with h | h
  · rw [if_neg (not_lt.2 h.le), if_pos h, fpNormalC]
  · rw [if_pos h, if_neg (not_lt.2 h.le), fpNormalC]

theorem collectCurves_range (f : ℕ → ℝ → ℝ) (M : ℕ) (a : ℝ) :
    ∀ l : List ℕ, (∀ i ∈ l, i < M) → collectCurves ((List.range M).map f) a l = .ok (l.map fun k => f k a) := by
  intro l
  induction l with
  | nil => intro _; rfl
  | cons i l ih =>
    intro h
    have hi : i < M := h i (by simp)
    rw [collectCurves, List.getElem?_map, List.getElem?_range hi]
    dsimp only [Option.map]
    rw [ih fun j hj => h j (by simp [hj])]
    rfl

/-- **C208, the real number model is right off the line.**  When the observations do not lie on a line no division by zero happens: the curves computed with the
arithmetic of numpy are those of the real number model, for all sizes, thresholds, draws and levels. -/
theorem C208_refines (x y : Fin n → ℝ) (hn : 3 ≤ n) (hx : ∃ i j, x i ≠ x j) (hr : ∃ i, olsResiduals x y i ≠ 0) (det a : ℝ) :
    gaussPodOfF x y det a = .fin (gaussPodOf x y det a) ∧
    ∀ (z : ℕ → Fin 2 → ℝ) (chi : ℕ → ℝ) (M : ℕ) (c : ℝ), (∀ k < M, 0 < chi k) → 1 ≤ M →
      ∃ v, gaussClOf x y det z chi M c a = .ok v ∧ gaussClOfF x y det z chi M c a = .ok (.fin v) := by
  have hs := linearStderr_pos x y (by omega) hr
  have hS := sxx_pos x hx
  constructor
  · rw [gaussPodOfF, podGaussF, gaussPodOf, podGauss, F.div_fin, fpNormalC]
    apply (Real.sqrt_pos.2 ?_).ne'
    rw [predictionVariance_eq x _ a hx]
    positivity
  · intro z chi M c hchi hM
    have hn' : (3 : ℝ) ≤ n := by exact_mod_cast hn
    have hv : (List.range M).map (fun k => gaussCurveF (olsIntercept x y) (olsSlope x y) det (z k 0) (z k 1) (sigmaDraw n (linearStderr x y) (chi k)) a) =
        ((List.range M).map fun k => gaussCurve (olsIntercept x y) (olsSlope x y) det (z k 0) (z k 1) (sigmaDraw n (linearStderr x y) (chi k)) a).map F.fin := by
      rw [List.map_map]
      apply List.map_congr_left
      intro k hk
      have h1 : 0 < chi k := hchi k (List.mem_range.1 hk)
      have h2 : 0 < Real.sqrt ((n : ℝ) - 2) := Real.sqrt_pos.2 (by linarith)
      have h3 : sigmaDraw n (linearStderr x y) (chi k) ≠ 0 := by
        rw [sigmaDraw]
        positivity
      rw [gaussCurveF, F.div_fin _ h3, fpNormalC, Function.comp_apply, gaussCurve]
    have hne : (List.range M).map (fun k => gaussCurve (olsIntercept x y) (olsSlope x y) det (z k 0) (z k 1) (sigmaDraw n (linearStderr x y) (chi k)) a) ≠ [] := by
      simp only [ne_eq, List.map_eq_nil_iff, List.range_eq_nil]
      omega
    refine ⟨quantile ((List.range M).map fun k => gaussCurve (olsIntercept x y) (olsSlope x y) det (z k 0) (z k 1) (sigmaDraw n (linearStderr x y) (chi k)) a) (1 - c), ?_, ?_⟩
    · rw [gaussClOf, podClFromCollection, gaussColl, collectCurves_range _ M a _ fun i hi => List.mem_range.1 hi]
      dsimp only
      rw [if_neg hne]
    · rw [gaussClOfF]
      rw [hv, if_neg (by simpa using hne), allFinite_map]

/-- **C208 (restricted), the curves.**  Signals exactly on a line: at every size whose signal is not the threshold itself, the Gaussian POD is 1 above the threshold and
0 below, and so is its confidence curve for every level, every number of simulations and all draws; the binomial POD is at every size. -/
theorem C208_step_partial (x y : Fin n → ℝ) (hn : 0 < n) (hx : ∃ i j, x i ≠ x j) (b0 b1 : ℝ) (hy : ∀ i, y i = b0 + b1 * x i) (det a : ℝ) :
    (b0 + b1 * a ≠ det → gaussPodOfF x y det a = .fin (if det < b0 + b1 * a then 1 else 0) ∧
      ∀ (z : ℕ → Fin 2 → ℝ) (chi : ℕ → ℝ) (M : ℕ) (c : ℝ), 1 ≤ M → gaussClOfF x y det z chi M c a = .ok (.fin (if det < b0 + b1 * a then 1 else 0))) ∧
    binomialPodOf x y det a = if det < b0 + b1 * a then 1 else 0 := by
  obtain ⟨e0, e1, er, es⟩ := line_fit x y hx b0 b1 hy
  refine ⟨fun hne => ⟨?_, fun z chi M c hM => ?_⟩, ?_⟩
  · rw [gaussPodOfF, podGaussF, es, e0, e1, predictionVariance_eq x _ a hx]
    simp only [ne_eq, OfNat.ofNat_ne_zero, not_false_eq_true, zero_pow, zero_mul, Real.sqrt_zero]
    rw [step_of_zero _ (sub_ne_zero.2 hne.symm)]
    simp only [sub_neg]
  · have hv : (List.range M).map (fun k => gaussCurveF (olsIntercept x y) (olsSlope x y) det (z k 0) (z k 1) (sigmaDraw n (linearStderr x y) (chi k)) a) =
        ((List.range M).map fun _ => (if det < b0 + b1 * a then (1 : ℝ) else 0)).map F.fin := by
      rw [List.map_map]
      apply List.map_congr_left
      intro k _
      rw [gaussCurveF, sigmaDraw, es, e0, e1]
      simp only [mul_zero, zero_add]
      rw [step_of_zero _ (sub_ne_zero.2 hne.symm)]
      simp only [sub_neg, Function.comp_apply]
    have hne' : (List.range M).map (fun _ => (if det < b0 + b1 * a then (1 : ℝ) else 0)) ≠ [] := by
      simp only [ne_eq, List.map_eq_nil_iff, List.range_eq_nil]
      omega
    rw [gaussClOfF]
    rw [hv, if_neg (by simpa using hne'), allFinite_map]
    dsimp only
    congr 2
    obtain ⟨u, hu, w, hw, hu', hw'⟩ := quantile_between hne' (1 - c)
    rw [List.mem_map] at hu hw
    obtain ⟨_, _, rfl⟩ := hu
    obtain ⟨_, _, rfl⟩ := hw
    exact le_antisymm hw' hu'
  · rw [binomialPodOf, podBinomial, empiricalCCDF, e0, e1]
    have hl : List.ofFn (olsResiduals x y) = List.replicate n 0 := by
      rw [← List.ofFn_const]
      congr 1
      funext i
      exact er i
    rw [hl, List.countP_replicate, List.length_replicate]
    simp only [sub_neg, decide_eq_true_eq]
    split_ifs with h
    · rw [div_self]
      exact_mod_cast hn.ne'
    · simp

/-- **C208 is violated** at the size whose signal is the threshold: for every exact line with a slope the Gaussian POD there is not a number, whatever the data. -/
theorem C208_violated (x y : Fin n → ℝ) (hx : ∃ i j, x i ≠ x j) (b0 b1 : ℝ) (hb : b1 ≠ 0) (hy : ∀ i, y i = b0 + b1 * x i) (det : ℝ) :
    gaussPodOfF x y det ((det - b0) / b1) = .nan := by
  obtain ⟨e0, e1, -, es⟩ := line_fit x y hx b0 b1 hy
  rw [gaussPodOfF, podGaussF, es, e0, e1, predictionVariance_eq x _ _ hx]
  have : det - (b0 + b1 * ((det - b0) / b1)) = 0 := by
    field_simp
    ring
  rw [this]
  simp [F.div, F.infSign, fpNormalC]

/-- **C208 (restricted), the detection sizes.**  For an increasing exact line which meets the threshold strictly inside the range of the defects, every detection size,
at every probability level strictly between 0 and 1 and every confidence level, is the size where the line meets the threshold.  `f` and `fc` are the curves seen by
the root finder: any values where the POD is not a number. -/
theorem C208_size_partial (solve : (ℝ → ℝ) → ℝ → ℝ → ℝ → ℝ) (hso : BracketSpec solve) (x y : Fin n → ℝ) (hx : ∃ i j, x i ≠ x j) (b0 b1 : ℝ) (hb : 0 < b1)
    (hy : ∀ i, y i = b0 + b1 * x i) (det mn mx : ℝ) (hmn : b0 + b1 * mn < det) (hmx : det < b0 + b1 * mx) (z : ℕ → Fin 2 → ℝ) (chi : ℕ → ℝ) (M : ℕ) (hM : 1 ≤ M)
    (c p : ℝ) (hp0 : 0 < p) (hp1 : p < 1) (f fc : ℝ → ℝ) (hf : ∀ a v, gaussPodOfF x y det a = .fin v → f a = v)
    (hfc : ∀ a v, gaussClOfF x y det z chi M c a = .ok (.fin v) → fc a = v) :
    computeDetectionSize solve mn mx f (some fc) (some p) (some c) none none =
      .ok ([(det - b0) / b1, (det - b0) / b1], [labelP p, labelPC p c]) := by
  have hn : 0 < n := by
    obtain ⟨i, -⟩ := hx
    exact Fin.pos i
  have hlow : ∀ a, b0 + b1 * a < det → f a = 0 ∧ fc a = 0 := by
    intro a ha
    obtain ⟨h1, h2⟩ := (C208_step_partial x y hn hx b0 b1 hy det a).1 ha.ne
    rw [if_neg (not_lt.2 ha.le)] at h1
    have h2' := h2 z chi M c hM
    rw [if_neg (not_lt.2 ha.le)] at h2'
    exact ⟨hf a _ h1, hfc a _ h2'⟩
  have hhigh : ∀ a, det < b0 + b1 * a → f a = 1 ∧ fc a = 1 := by
    intro a ha
    obtain ⟨h1, h2⟩ := (C208_step_partial x y hn hx b0 b1 hy det a).1 ha.ne'
    rw [if_pos ha] at h1
    have h2' := h2 z chi M c hM
    rw [if_pos ha] at h2'
    exact ⟨hf a _ h1, hfc a _ h2'⟩
  have hle : mn ≤ mx := by
    by_contra h
    push Not at h
    nlinarith
  have key : ∀ g : ℝ → ℝ, (∀ a, b0 + b1 * a < det → g a = 0) → (∀ a, det < b0 + b1 * a → g a = 1) → g mn ≤ p ∧ p ≤ g mx ∧ solve g p mn mx = (det - b0) / b1 := by
    intro g g0 g1
    have h1 : g mn ≤ p := by rw [g0 mn hmn]; exact hp0.le
    have h2 : p ≤ g mx := by rw [g1 mx hmx]; exact hp1.le
    refine ⟨h1, h2, ?_⟩
    obtain ⟨-, hs⟩ := hso g p mn mx hle h1 h2
    set d := solve g p mn mx
    have hup : ∀ t, g t ≤ p → t ≤ (det - b0) / b1 := by
      intro t ht
      rw [le_div_iff₀ hb]
      by_contra h
      push Not at h
      rw [g1 t (by linarith)] at ht
      linarith
    have hdn : ∀ t, p ≤ g t → (det - b0) / b1 ≤ t := by
      intro t ht
      rw [div_le_iff₀ hb]
      by_contra h
      push Not at h
      rw [g0 t (by linarith)] at ht
      linarith
    apply le_antisymm
    · apply le_of_forall_pos_le_add
      intro ε hε
      obtain ⟨⟨t, -, ht, hgt⟩, -⟩ := hs ε hε
      have := hup t hgt
      rw [abs_lt] at ht
      linarith
    · apply le_of_forall_pos_le_add
      intro ε hε
      obtain ⟨-, ⟨t, -, ht, hgt⟩⟩ := hs ε hε
      have := hdn t hgt
      rw [abs_lt] at ht
      linarith
  obtain ⟨k1, k2, k3⟩ := key f (fun a ha => (hlow a ha).1) fun a ha => (hhigh a ha).1
  obtain ⟨l1, l2, l3⟩ := key fc (fun a ha => (hlow a ha).2) fun a ha => (hhigh a ha).2
  rw [computeDetectionSize]
  simp only [Option.getD_none]
  rw [if_neg (not_not.2 ⟨k1, k2⟩), if_neg (not_not.2 ⟨l1, l2⟩), k3, l3]

/-- Signals 1, 3, 5 at the sizes 0, 1, 2, threshold 2: the POD jumps at 1/2. -/
example : gaussPodOfF (![0, 1, 2] : Fin 3 → ℝ) ![1, 3, 5] 2 1 = .fin 1 ∧ gaussPodOfF (![0, 1, 2] : Fin 3 → ℝ) ![1, 3, 5] 2 0 = .fin 0 ∧
    gaussPodOfF (![0, 1, 2] : Fin 3 → ℝ) ![1, 3, 5] 2 (1 / 2) = .nan := by
  have hy : ∀ i, (![1, 3, 5] : Fin 3 → ℝ) i = 1 + 2 * (![0, 1, 2] : Fin 3 → ℝ) i := fun i => by fin_cases i <;> norm_num
  refine ⟨?_, ?_, ?_⟩
  · rw [((C208_step_partial _ _ (by norm_num) three_differ 1 2 hy 2 1).1 (by norm_num)).1]
    norm_num
  · rw [((C208_step_partial _ _ (by norm_num) three_differ 1 2 hy 2 0).1 (by norm_num)).1]
    norm_num
  · have := C208_violated _ _ three_differ 1 2 (by norm_num) hy 2
    norm_num at this
    norm_num
    exact this

/-- The same data: all detection sizes are 1/2. -/
example : ∃ solve, BracketSpec solve ∧ ∃ f fc : ℝ → ℝ, computeDetectionSize solve 0 2 f (some fc) (some (9 / 10)) (some (19 / 20)) none none =
    .ok ([1 / 2, 1 / 2], [labelP (9 / 10), labelPC (9 / 10) (19 / 20)]) := by
  obtain ⟨solve, hso⟩ := bracketSpec_nonempty
  have hy : ∀ i, (![1, 3, 5] : Fin 3 → ℝ) i = 1 + 2 * (![0, 1, 2] : Fin 3 → ℝ) i := fun i => by fin_cases i <;> norm_num
  have h0 : ([(2 - 1) / 2, (2 - 1) / 2] : List ℝ) = [1 / 2, 1 / 2] := by norm_num
  rw [← h0]
  exact ⟨solve, hso, _, _, C208_size_partial solve hso _ _ three_differ 1 2 (by norm_num) hy 2 0 2 (by norm_num) (by norm_num) (fun _ _ => 0) (fun _ => 1) 1 le_rfl
    (19 / 20) (9 / 10) (by norm_num) (by norm_num)
    (fun a => match gaussPodOfF (![0, 1, 2] : Fin 3 → ℝ) ![1, 3, 5] 2 a with | .fin v => v | _ => 0)
    (fun a => match gaussClOfF (![0, 1, 2] : Fin 3 → ℝ) ![1, 3, 5] 2 (fun _ _ => 0) (fun _ => 1) 1 (19 / 20) a with | .ok (.fin v) => v | _ => 0)
    (fun a v h => by rw [h]) (fun a v h => by rw [h])⟩

/-- Signals 0, 2, 1 at these sizes do not lie on a line. -/
example (det a : ℝ) : gaussPodOfF (![0, 1, 2] : Fin 3 → ℝ) ![0, 2, 1] det a = .fin (gaussPodOf ![0, 1, 2] ![0, 2, 1] det a) :=
  (C208_refines _ _ le_rfl three_differ ⟨1, by rw [olsResiduals, three_fit.1, three_fit.2.1]; norm_num⟩ det a).1

/-- **C208, without a simulation.**  A confidence curve without any simulated curve raises, on a line or not: it is never a number. -/
theorem C208_none_partial (x y : Fin n → ℝ) (det a : ℝ) (z : ℕ → Fin 2 → ℝ) (chi : ℕ → ℝ) (M : ℕ) (c : ℝ) :
    Raises (gaussClOfF x y det z chi M c a) .runtime ↔ M = 0 := by
  constructor
  · rintro ⟨m, h⟩
    by_contra hM
    rw [gaussClOfF] at h
    rw [if_neg (by simpa using hM)] at h
    split at h <;> cases h
  · rintro rfl
    exact ⟨"", by rw [gaussClOfF, if_pos (by simp)]⟩

example : Raises (gaussClOfF (![0, 1, 2] : Fin 3 → ℝ) ![1, 3, 5] 2 (fun _ _ => 0) (fun _ => 1) 0 (19 / 20) 1) .runtime :=
  (C208_none_partial _ _ _ _ _ _ _ _).2 rfl

end Verif.Props
