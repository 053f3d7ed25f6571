import Verif.Model.CensoredFit
import Mathlib.Tactic.FieldSimp
import Mathlib.Tactic.Positivity

/-!
# C05, C06: censored maximum likelihood
-/

namespace Verif.Props
open Verif.Py Verif.Model ProbabilityTheory MeasureTheory Set

section C05
variable {X K : Type*} [DecidableEq K]

/-- From iteration `i`, if draws `i … j-1` have infinite objective, draw `j` is the first finite one
(`j < 100`), the loop stops after draw `j`. -/
theorem startLoop_found (func : X → F K) (draws : ℕ → X) (j : ℕ) (hj : j < 100)
    (hfin : func (draws j) ≠ .pinf) :
    ∀ i x, i ≤ j → (∀ k, i ≤ k → k < j → func (draws k) = .pinf) →
      startLoop func draws .pinf i x = (func (draws j), j + 1, draws j) := by
  intro i
  induction h : j - i generalizing i with
  | zero =>
    intro x hij _
    have : i = j := by omega
    subst this
    rw [startLoop, if_pos ⟨rfl, hj⟩, startLoop, if_neg (by simp [hfin])]
  | succ n ih =>
    intro x hij hall
    rw [startLoop, if_pos ⟨rfl, by omega⟩, hall i le_rfl (by omega)]
    exact ih (i + 1) (by omega) _ (by omega) (fun k hk hk' => hall k (by omega) hk')

/-- If draws `i … 99` are all infinite the loop stops at iteration 100. -/
theorem startLoop_exhausted (func : X → F K) (draws : ℕ → X) :
    ∀ i x, i ≤ 100 → (∀ k, i ≤ k → k < 100 → func (draws k) = .pinf) →
      (startLoop func draws .pinf i x).2.1 = 100 := by
  intro i
  induction h : 100 - i generalizing i with
  | zero =>
    intro x hi _
    have : i = 100 := by omega
    subst this
    rw [startLoop, if_neg (by simp)]
  | succ n ih =>
    intro x hi hall
    rw [startLoop, if_pos ⟨rfl, by omega⟩, hall i le_rfl (by omega)]
    exact ih (i + 1) (by omega) _ (by omega) (fun k hk hk' => hall k (by omega) hk')

/-- Specification of the search: the index of the first admissible draw among the first `n`. -/
def firstGood (func : X → F K) (draws : ℕ → X) (n : ℕ) (k : ℕ) : Prop :=
  k < n ∧ func (draws k) ≠ .pinf ∧ ∀ i < k, func (draws i) = .pinf

/-- **C05 (restricted).**  Complete description of the search: with a usable regression start no draw is made;
otherwise the first usable draw among the first **99** is handed to the optimiser; if none of these 99 is
usable the function raises after exactly 100 draws.  (The full statement wants 100 instead of 99: a
successful hundredth draw is thrown away, see `C05_violated`.) -/
theorem C05_start_search_partial (func : X → F K) (fmin : (X → F K) → X → FminResult X)
    (draws : ℕ → X) (start : X) :
    let out := computeLinearParametersCensored func fmin draws start
    (func start ≠ .pinf →
      out.draws = 0 ∧ out.result = .ok ((fmin func start).x, (fmin func start).warnflag == 2)) ∧
    (func start = .pinf → ∀ k, firstGood func draws 99 k →
      out.draws = k + 1 ∧
      out.result = .ok ((fmin func (draws k)).x, (fmin func (draws k)).warnflag == 2)) ∧
    (func start = .pinf → (∀ k < 99, func (draws k) = .pinf) →
      out.draws = 100 ∧ Raises out.result .exception) := by
  refine ⟨?_, ?_, ?_⟩
  · intro h
    simp [computeLinearParametersCensored, h]
  · intro h k ⟨hk, hf, hall⟩
    have := startLoop_found func draws k (by omega) hf 0 start (by omega) (fun i _ hi => hall i hi)
    simp only [computeLinearParametersCensored, h, if_true, this]
    have hk' : k + 1 ≠ 100 := by omega
    simp [hk']
  · intro h hall
    have h100 : (startLoop func draws .pinf 0 start).2.1 = 100 := by
      by_cases h99 : func (draws 99) = .pinf
      · apply startLoop_exhausted func draws 0 start (by omega)
        intro k _ hk
        rcases Nat.lt_or_ge k 99 with h' | h'
        · exact hall k h'
        · have : k = 99 := by omega
          subst this; exact h99
      · rw [startLoop_found func draws 99 (by omega) h99 0 start (by omega) (fun i _ hi => hall i hi)]
    simp only [computeLinearParametersCensored, h, if_true, h100]
    exact ⟨trivial, _, rfl⟩

/-- **C05 consequences (restricted).**  At most 100 draws are made; the function raises iff the start and the
first 99 draws are all infinite; when it returns, the optimiser was given a start with objective ≠ +inf. -/
theorem C05_start_search_iff_partial (func : X → F K) (fmin : (X → F K) → X → FminResult X)
    (draws : ℕ → X) (start : X) :
    let out := computeLinearParametersCensored func fmin draws start
    out.draws ≤ 100 ∧
    (Raises out.result .exception ↔ func start = .pinf ∧ ∀ k < 99, func (draws k) = .pinf) ∧
    (¬ Raises out.result .exception →
      ∃ x0, func x0 ≠ .pinf ∧ (x0 = start ∨ ∃ k < 99, x0 = draws k) ∧
        out.result = .ok ((fmin func x0).x, (fmin func x0).warnflag == 2)) := by
  intro out
  obtain ⟨h1, h2, h3⟩ := C05_start_search_partial func fmin draws start
  by_cases hs : func start = .pinf
  · by_cases hall : ∀ k < 99, func (draws k) = .pinf
    · obtain ⟨a, b⟩ := h3 hs hall
      refine ⟨by rw [show out.draws = 100 from a], ⟨fun _ => ⟨hs, hall⟩, fun _ => b⟩, fun h => absurd b h⟩
    · push Not at hall
      classical
      let k := Nat.find hall
      have hk := Nat.find_spec hall
      have hg : firstGood func draws 99 k := by
        refine ⟨hk.1, hk.2, fun i hi => ?_⟩
        by_contra hne
        exact Nat.find_min hall hi ⟨lt_trans hi hk.1, hne⟩
      obtain ⟨a, b⟩ := h2 hs k hg
      have b' : out.result = _ := b
      refine ⟨?_, ⟨?_, ?_⟩, ?_⟩
      · rw [show out.draws = k + 1 from a]; have := hg.1; omega
      · rintro ⟨m, hm⟩; rw [b'] at hm; exact absurd hm (by simp)
      · rintro ⟨_, hc⟩; exact absurd (hc k hg.1) hg.2.1
      · intro _; exact ⟨draws k, hg.2.1, Or.inr ⟨k, hg.1, rfl⟩, b'⟩
  · obtain ⟨a, b⟩ := h1 hs
    have b' : out.result = _ := b
    refine ⟨by rw [show out.draws = 0 from a]; omega, ⟨?_, ?_⟩, ?_⟩
    · rintro ⟨m, hm⟩; rw [b'] at hm; exact absurd hm (by simp)
    · rintro ⟨hc, _⟩; exact absurd hc hs
    · intro _; exact ⟨start, hs, Or.inl rfl, b'⟩

/-- A non-trivial instance: the regression start and the first three draws are unusable, the fourth works. -/
example : firstGood (fun x : ℕ => if x < 4 then (.pinf : F ℚ) else .fin x) (fun i => i + 1) 99 3 := by
  refine ⟨by decide, by decide, by decide⟩

/-- **C05 is violated**: with an objective that is finite at the hundredth draw only, the function still
raises, although a usable starting point was drawn. -/
theorem C05_violated :
    ∃ (func : ℕ → F ℚ) (draws : ℕ → ℕ), func (draws 99) ≠ .pinf ∧
      ∀ fmin, Raises (computeLinearParametersCensored func fmin draws 0).result .exception := by
  refine ⟨fun x => if x < 100 then .pinf else .fin 0, fun i => i + 1, by decide, fun fmin => ?_⟩
  refine ((C05_start_search_iff_partial _ fmin _ _).2.1).2 ⟨by decide, ?_⟩
  intro k hk
  have : k + 1 < 100 := by omega
  simp [this]

end C05

section C06

/-- Specification: likelihood of the censored Gaussian regression, written with Mathlib's Gaussian density
and Gaussian measure. -/
noncomputable def likelihood (b0 b1 s : ℝ) (unc : List (ℝ × ℝ)) (noisy sat : List ℝ) (tn ts : ℝ) : ℝ :=
  (unc.map fun o => gaussianPDFReal (b0 + b1 * o.1) (sqv s) o.2).prod *
  (noisy.map fun x => (gaussianReal (b0 + b1 * x) (sqv s)).real (Iic tn)).prod *
  (sat.map fun x => (gaussianReal (b0 + b1 * x) (sqv s)).real (Ioi ts)).prod

theorem exp_neg_list_sum (l : List ℝ) : Real.exp (-l.sum) = (l.map fun x => Real.exp (-x)).prod := by
  induction l with
  | nil => simp
  | cons a l ih => simp [← ih, ← Real.exp_add, add_comm]

theorem exp_list_sum_log {α : Type*} (l : List α) (f : α → ℝ) (hf : ∀ a, 0 < f a) :
    Real.exp ((l.map fun a => Real.log (f a)).sum) = (l.map f).prod := by
  induction l with
  | nil => simp
  | cons a l ih => simp [Real.exp_add, Real.exp_log (hf a), ih]

theorem gaussianPDF_exp (μ y : ℝ) {s : ℝ} (hs : 0 < s) :
    gaussianPDFReal μ (sqv s) y
      = Real.exp (-(Real.log (s * Real.sqrt (2 * Real.pi)) + 1 / (2 * s ^ 2) * (y - μ) ^ 2)) := by
  have hp : 0 < s * Real.sqrt (2 * Real.pi) := by positivity
  rw [neg_add, Real.exp_add, Real.exp_neg, Real.exp_log hp, gaussianPDFReal, coe_sqv]
  have e : Real.sqrt (2 * Real.pi * s ^ 2) = s * Real.sqrt (2 * Real.pi) := by
    rw [Real.sqrt_mul (by positivity), Real.sqrt_sq hs.le, mul_comm]
  rw [e]
  congr 2
  field_simp

theorem exp_unc (b0 b1 : ℝ) {s : ℝ} (hs : 0 < s) (unc : List (ℝ × ℝ)) :
    Real.exp (-(unc.length * Real.log (s * Real.sqrt (2 * Real.pi)) +
      1 / (2 * s ^ 2) * (unc.map fun o => (o.2 - (b0 + b1 * o.1)) ^ 2).sum))
      = (unc.map fun o => gaussianPDFReal (b0 + b1 * o.1) (sqv s) o.2).prod := by
  induction unc with
  | nil => simp
  | cons o l ih =>
    simp only [List.map_cons, List.prod_cons, ← ih, List.length_cons, List.sum_cons]
    rw [gaussianPDF_exp _ _ hs, ← Real.exp_add]
    congr 1
    push_cast
    ring

theorem zipWith_map_pairs (unc : List (ℝ × ℝ)) (g : ℝ → ℝ → ℝ) :
    List.zipWith g (unc.map Prod.snd) (unc.map Prod.fst) = unc.map fun o => g o.2 o.1 := by
  induction unc with
  | nil => rfl
  | cons a l ih => simp [ih]

/-- **C06 (positive scale).**  For `s > 0` the objective is a finite number `m` with
`exp(-m)` equal to the likelihood. -/
theorem C06_MLE_is_neg_log_likelihood (b0 b1 s tn ts : ℝ) (hs : 0 < s)
    (unc : List (ℝ × ℝ)) (noisy sat : List ℝ) :
    ∃ m, MLE (b0, b1, s) (unc.map Prod.fst) noisy sat (unc.map Prod.snd) (some tn) (some ts)
        = .ok (.fin m) ∧
      Real.exp (-m) = likelihood b0 b1 s unc noisy sat tn ts ∧
      m = -Real.log (likelihood b0 b1 s unc noisy sat tn ts) := by
  have hp : 0 < s * Real.sqrt (2 * Real.pi) := by positivity
  have hs' : s ≠ 0 := hs.ne'
  have h2s : (2 * s ^ 2 : ℝ) ≠ 0 := by positivity
  have en : (noisy.map fun x => flog (fpNormal (F.div (.fin (tn - (b0 + b1 * x))) (.fin s))))
      = (noisy.map fun x => Real.log (Phi ((tn - (b0 + b1 * x)) / s))).map F.fin := by
    rw [List.map_map]
    apply List.map_congr_left
    intro x _
    simp [F.div_fin _ hs', fpNormal, flog, Phi_pos]
  have es : (sat.map fun x => flog (F.sub (.fin 1) (fpNormal (F.div (.fin (ts - (b0 + b1 * x))) (.fin s)))))
      = (sat.map fun x => Real.log (1 - Phi ((ts - (b0 + b1 * x)) / s))).map F.fin := by
    rw [List.map_map]
    apply List.map_congr_left
    intro x _
    have := Phi_lt_one ((ts - (b0 + b1 * x)) / s)
    simp [F.div_fin _ hs', fpNormal, flog, F.sub, ← sub_eq_add_neg, this]
  refine ⟨unc.length * Real.log (s * Real.sqrt (2 * Real.pi)) +
      1 / (2 * s ^ 2) * (unc.map fun o => (o.2 - (b0 + b1 * o.1)) ^ 2).sum
      + -(noisy.map fun x => Real.log (Phi ((tn - (b0 + b1 * x)) / s))).sum
      + -(sat.map fun x => Real.log (1 - Phi ((ts - (b0 + b1 * x)) / s))).sum, ?_, ?_⟩
  · simp only [MLE, bind, Except.bind, pure, Except.pure, List.map_map, Function.comp_def]
    rw [zipWith_map_pairs unc (fun y x => (y - (b0 + b1 * x)) ^ 2), en, es, F.sum_fin, F.sum_fin]
    have e1 : flog (.fin (s * Real.sqrt (2 * Real.pi))) = .fin (Real.log (s * Real.sqrt (2 * Real.pi))) :=
      if_pos hp
    rw [e1, F.div_fin _ h2s]
    simp only [F.mul_fin, F.add_fin, F.neg_fin, F.isNan, Bool.false_eq_true, if_false,
      List.length_map]
  · have key : Real.exp (-(unc.length * Real.log (s * Real.sqrt (2 * Real.pi)) +
      1 / (2 * s ^ 2) * (unc.map fun o => (o.2 - (b0 + b1 * o.1)) ^ 2).sum
      + -(noisy.map fun x => Real.log (Phi ((tn - (b0 + b1 * x)) / s))).sum
      + -(sat.map fun x => Real.log (1 - Phi ((ts - (b0 + b1 * x)) / s))).sum))
        = likelihood b0 b1 s unc noisy sat tn ts := by
      rw [likelihood, ← exp_unc b0 b1 hs unc]
      have h1 : (noisy.map fun x => (gaussianReal (b0 + b1 * x) (sqv s)).real (Iic tn))
          = noisy.map fun x => Phi ((tn - (b0 + b1 * x)) / s) := by
        apply List.map_congr_left; intro x _; exact gauss_Iic hs tn
      have h2 : (sat.map fun x => (gaussianReal (b0 + b1 * x) (sqv s)).real (Ioi ts))
          = sat.map fun x => 1 - Phi ((ts - (b0 + b1 * x)) / s) := by
        apply List.map_congr_left; intro x _; exact gauss_Ioi hs ts
      rw [h1, h2, ← exp_list_sum_log noisy _ (fun x => Phi_pos _),
        ← exp_list_sum_log sat _ (fun x => sub_pos.mpr (Phi_lt_one _)), ← Real.exp_add, ← Real.exp_add]
      congr 1
      ring
    refine ⟨key, ?_⟩
    rw [← key, Real.log_exp, neg_neg]

theorem mul_infSign_add_nan (n : ℕ) (ss : ℝ) (hss : 0 ≤ ss) :
    F.add (F.mul (.fin (n : ℝ)) .ninf) (F.mul .pinf (.fin ss)) = .nan := by
  rcases Nat.eq_zero_or_pos n with h | h
  · subst h; simp [F.mul, F.infSign, F.neg]
  · have hn : (0 : ℝ) < n := by exact_mod_cast h
    rcases hss.eq_or_lt with h' | h'
    · subst h'; simp [F.mul, F.infSign]
    · simp [F.mul, F.infSign, hn, hn.ne', h', h'.ne', F.neg, F.add]

/-- **C06 (zero or negative scale).**  For `s ≤ 0` the objective is `+inf`, whatever the data. -/
theorem C06_MLE_nonpos_scale (b0 b1 s tn ts : ℝ) (hs : s ≤ 0) (defects noisy sat signals : List ℝ) :
    MLE (b0, b1, s) defects noisy sat signals (some tn) (some ts) = .ok .pinf := by
  have hpi : 0 < Real.sqrt (2 * Real.pi) := by positivity
  simp only [MLE, bind, Except.bind, pure, Except.pure]
  rcases hs.eq_or_lt with h | h
  · subst h
    have hss : 0 ≤ (List.zipWith (fun y x => (y - (b0 + b1 * x)) ^ 2) signals defects).sum := by
      apply List.sum_nonneg
      intro z hz
      rw [List.mem_iff_getElem] at hz
      obtain ⟨i, hi, rfl⟩ := hz
      rw [List.getElem_zipWith]; positivity
    have e1 : flog (.fin (0 * Real.sqrt (2 * Real.pi))) = .ninf := by simp [flog]
    have e2 : F.div (.fin (1 : ℝ)) (.fin (2 * 0 ^ 2)) = .pinf := by simp [F.div, F.infSign]
    rw [e1, e2, mul_infSign_add_nan _ _ hss]
    simp [F.isNan]
  · have hneg : s * Real.sqrt (2 * Real.pi) < 0 := mul_neg_of_neg_of_pos h hpi
    have e1 : flog (.fin (s * Real.sqrt (2 * Real.pi))) = .nan := by
      rw [flog, if_neg (not_lt.mpr hneg.le), if_neg hneg.ne]
    rw [e1]
    simp [F.isNan]

/-- **C06 (never NaN; the scale of any best parameter is positive).**  The objective is never NaN, and every
parameter triple with a non-positive scale is strictly worse than every triple with a positive scale. -/
theorem C06_MLE_never_nan_and_positive_scale_wins (b0 b1 s c0 c1 r tn ts : ℝ) (hs : s ≤ 0) (hr : 0 < r)
    (unc : List (ℝ × ℝ)) (noisy sat : List ℝ) :
    ∃ v w, MLE (b0, b1, s) (unc.map Prod.fst) noisy sat (unc.map Prod.snd) (some tn) (some ts) = .ok v ∧
      MLE (c0, c1, r) (unc.map Prod.fst) noisy sat (unc.map Prod.snd) (some tn) (some ts) = .ok w ∧
      v ≠ .nan ∧ w ≠ .nan ∧ F.lt w v = true := by
  obtain ⟨m, hm, -⟩ := C06_MLE_is_neg_log_likelihood c0 c1 r tn ts hr unc noisy sat
  exact ⟨_, _, C06_MLE_nonpos_scale b0 b1 s tn ts hs _ noisy sat _, hm, by simp, by simp, rfl⟩

/-- Missing thresholds: fine exactly when the corresponding group is empty, and then the term vanishes. -/
theorem C06_MLE_none (X : ℝ × ℝ × ℝ) (defects noisy sat signals : List ℝ) (t : ℝ) :
    (noisy ≠ [] → ∀ ts, Raises (MLE X defects noisy sat signals none ts) .typeError) ∧
    (sat ≠ [] → Raises (MLE X defects noisy sat signals (some t) none) .typeError) ∧
    (∀ ts, MLE X defects [] sat signals none ts = MLE X defects [] sat signals (some t) ts) ∧
    (∀ tn, MLE X defects noisy [] signals tn none = MLE X defects noisy [] signals tn (some t)) := by
  refine ⟨?_, ?_, ?_, ?_⟩
  · intro h ts
    exact ⟨"", by simp [MLE, bind, Except.bind, h]⟩
  · intro h
    exact ⟨"", by simp [MLE, bind, Except.bind, pure, Except.pure, h]⟩
  · intro ts; cases ts <;> simp [MLE, bind, Except.bind, pure, Except.pure]
  · intro tn; cases tn <;> simp [MLE, bind, Except.bind, pure, Except.pure]

/-- Instance: two uncensored, one noisy, one saturated observation; the likelihood is a positive number. -/
example : 0 < likelihood 1 2 3 [(1, 3), (2, 5)] [0] [4] 1 8 := by
  have h3 : sqv 3 ≠ 0 := by
    intro h; have := congrArg NNReal.toReal h; simp at this
  simp only [likelihood, List.map_cons, List.map_nil, List.prod_cons, List.prod_nil, mul_one]
  have a := gaussianPDFReal_pos (1 + 2 * 1) (sqv 3) 3 h3
  have b := gaussianPDFReal_pos (1 + 2 * 2) (sqv 3) 5 h3
  have c : 0 < (gaussianReal (1 + 2 * 0) (sqv 3)).real (Iic 1) := gauss_real_pos h3 (by simp)
  have d : 0 < (gaussianReal (1 + 2 * 4) (sqv 3)).real (Ioi 8) := gauss_real_pos h3 (by simp)
  rw [mul_one] at a
  exact mul_pos (mul_pos (mul_pos a b) c) d

end C06
end Verif.Props
