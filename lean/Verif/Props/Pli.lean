import Verif.Model.Pli
import Mathlib.LinearAlgebra.Matrix.PosDef
import Mathlib.Algebra.Order.Chebyshev
import Mathlib.Analysis.Calculus.Deriv.Inv
import Mathlib.Analysis.Calculus.Deriv.Pow
import Mathlib.Tactic.FieldSimp
import Mathlib.Tactic.Linarith
import Mathlib.Tactic.FinCases

/-!
# C57–C60, C63: perturbation law indices, failure sample, asymptotic variance, deltas
-/

namespace Verif.Props
open Verif.Py Verif.Model

/-! ## C57 -/

theorem pliIndex_below {pf pfd : ℝ} (hd : 0 < pfd) (h : pfd < pf) : pliIndex pf pfd = .fin (1 - pf / pfd) := by
  rw [pliIndex, if_pos h, F.div_fin _ hd.ne', sub_div, div_self hd.ne']

theorem pliIndex_above {pf pfd : ℝ} (hp : 0 < pf) (h : pf ≤ pfd) : pliIndex pf pfd = .fin (pfd / pf - 1) := by
  rw [pliIndex, if_neg (not_lt.mpr h), F.div_fin _ hp.ne', sub_div, div_self hp.ne']

/-- **C57.**  Sign of the index. -/
theorem C57_sign (pf pfd : ℝ) (hp : 0 < pf) (hd : 0 < pfd) :
    ∃ s, pliIndex pf pfd = .fin s ∧ (s < 0 ↔ pfd < pf) ∧ (s = 0 ↔ pfd = pf) ∧ (0 < s ↔ pf < pfd) := by
  rcases lt_or_ge pfd pf with h | h
  · refine ⟨_, pliIndex_below hd h, ?_⟩
    have h1 : 1 < pf / pfd := (one_lt_div hd).mpr h
    exact ⟨⟨fun _ => h, fun _ => by linarith⟩, ⟨fun _ => by linarith, fun _ => by linarith⟩,
      ⟨fun _ => by linarith, fun _ => by linarith⟩⟩
  · refine ⟨_, pliIndex_above hp h, ?_⟩
    have h1 : 1 ≤ pfd / pf := (one_le_div hp).mpr h
    refine ⟨⟨fun _ => by linarith, fun _ => by linarith⟩, ⟨fun h2 => ?_, fun h2 => ?_⟩, ⟨fun h2 => ?_, fun h2 => ?_⟩⟩
    · have : pfd / pf = 1 := by linarith
      rwa [div_eq_one_iff_eq hp.ne'] at this
    · rw [h2, div_self hp.ne']; ring
    · have : 1 < pfd / pf := by linarith
      rwa [one_lt_div hp] at this
    · have := (one_lt_div hp).mpr h2; linarith

example : ∃ s, pliIndex (1 / 2) (1 / 4) = .fin s ∧ s < 0 := by
  obtain ⟨s, h, h1, -⟩ := C57_sign (1 / 2) (1 / 4) (by norm_num) (by norm_num)
  exact ⟨s, h, h1.mpr (by norm_num)⟩

/-- **C57.**  Strictly increasing in the perturbed probability. -/
theorem C57_strict_mono (pf p q s t : ℝ) (hp : 0 < pf) (h0 : 0 < p) (hpq : p < q)
    (hs : pliIndex pf p = .fin s) (ht : pliIndex pf q = .fin t) : s < t := by
  rcases lt_or_ge p pf with h | h
  · rw [pliIndex_below h0 h] at hs
    injection hs with hs
    rcases lt_or_ge q pf with h' | h'
    · rw [pliIndex_below (h0.trans hpq) h'] at ht
      injection ht with ht
      have : pf / q < pf / p := div_lt_div_of_pos_left hp h0 hpq
      linarith
    · rw [pliIndex_above hp h'] at ht
      injection ht with ht
      have h1 := (one_lt_div h0).mpr h
      have h2 := (one_le_div hp).mpr h'
      linarith
  · rw [pliIndex_above hp h] at hs
    rw [pliIndex_above hp (h.trans hpq.le)] at ht
    injection hs with hs
    injection ht with ht
    have := div_lt_div_of_pos_right hpq hp
    linarith

example : pliIndex (1 / 2) (1 / 4) = .fin (-1) ∧ pliIndex (1 / 2) (3 / 4) = .fin (1 / 2) := by
  rw [pliIndex_below (by norm_num) (by norm_num), pliIndex_above (by norm_num) (by norm_num)]
  norm_num

/-- **C57.**  Exchanging the two probabilities changes the sign of the index. -/
theorem C57_antisymm (pf pfd s : ℝ) (hp : 0 < pf) (hd : 0 < pfd) (hs : pliIndex pf pfd = .fin s) :
    pliIndex pfd pf = .fin (-s) := by
  rcases lt_trichotomy pfd pf with h | h | h
  · rw [pliIndex_below hd h] at hs
    injection hs with hs
    rw [pliIndex_above hd h.le]; congr 1; linarith
  · subst h
    rw [pliIndex_above hd le_rfl] at hs ⊢
    injection hs with hs
    rw [div_self hd.ne'] at hs ⊢
    congr 1; linarith
  · rw [pliIndex_above hp h.le] at hs
    injection hs with hs
    rw [pliIndex_below hp h]; congr 1; linarith

example : pliIndex (1 / 4) (1 / 2) = .fin (- -1) :=
  C57_antisymm (1 / 2) (1 / 4) (-1) (by norm_num) (by norm_num)
    (by rw [pliIndex_below (by norm_num) (by norm_num)]; norm_num)

/-- **C57.**  Outside the positive range: a null perturbed probability gives minus infinity, two null ones NaN. -/
theorem C57_degenerate (pf : ℝ) (hp : 0 < pf) : pliIndex pf 0 = .ninf ∧ pliIndex 0 0 = .nan := by
  constructor
  · rw [pliIndex, if_pos hp]
    simp [F.div, F.infSign, hp.ne', hp.le]
  · rw [pliIndex, if_neg (lt_irrefl _)]
    simp [F.div, F.infSign]

example : pliIndex (1 / 2) 0 = .ninf := (C57_degenerate (1 / 2) (by norm_num)).1

/-! ## C59: the failure sample -/

/-- The event: the comparison OpenTURNS counts in the Monte-Carlo estimate. -/
def InEvent (op : CmpOp) (thr y : ℝ) : Prop :=
  match op with
  | .less => y < thr
  | .lessOrEqual => y ≤ thr
  | .greater => y > thr
  | .greaterOrEqual => y ≥ thr
  | .other => False

open Classical in
/-- The points of the history in the event, in order. -/
noncomputable def eventRows {X : Type} (op : CmpOp) (thr : ℝ) (hist : List (X × ℝ)) : List X :=
  (hist.filter fun p => decide (InEvent op thr p.2)).map Prod.fst

/-- **C59 (partial).**  With the strict operators for every history, and with the other two when no output equals the
threshold, the failure sample is the list of points in the event; any other operator raises NameError. -/
theorem C59_failure_sample_partial {X : Type} (op : CmpOp) (thr : ℝ) (hist : List (X × ℝ)) :
    (op = .less ∨ op = .greater ∨ ((op = .lessOrEqual ∨ op = .greaterOrEqual) ∧ ∀ p ∈ hist, p.2 ≠ thr) →
      failureSample op thr hist = .ok (eventRows op thr hist)) ∧
    (op = .other → Raises (failureSample op thr hist) .nameError) := by
  classical
  refine ⟨?_, by rintro rfl; exact ⟨_, rfl⟩⟩
  rintro (rfl | rfl | ⟨rfl | rfl, h⟩)
  · rfl
  · rfl
  · rw [failureSample, eventRows]
    congr 2
    apply List.filter_congr
    intro p hp
    rw [decide_eq_decide]
    exact ⟨fun h' => le_of_lt h', fun h' => lt_of_le_of_ne h' (h p hp)⟩
  · rw [failureSample, eventRows]
    congr 2
    apply List.filter_congr
    intro p hp
    rw [decide_eq_decide]
    exact ⟨fun h' => le_of_lt h', fun h' => lt_of_le_of_ne h' (Ne.symm (h p hp))⟩

example : failureSample .greater 1 [("a", 0), ("b", 2), ("c", 3)] = .ok ["b", "c"] := by
  norm_num [failureSample]

/-- **C59 violated.**  For the two "or equal" operators, the failure sample is exactly the event without the ties; it
misses a point as soon as one output equals the threshold. -/
theorem C59_violated {X : Type} (op : CmpOp) (hop : op = .lessOrEqual ∨ op = .greaterOrEqual) (thr : ℝ)
    (hist : List (X × ℝ)) :
    ∃ fs, failureSample op thr hist = .ok fs ∧ fs.length ≤ (eventRows op thr hist).length ∧
      ((∃ p ∈ hist, p.2 = thr) → fs.length < (eventRows op thr hist).length) := by
  classical
  have key : ∀ (P Q : X × ℝ → Bool), (∀ p, P p = true → Q p = true) →
      (hist.filter P).length ≤ (hist.filter Q).length ∧
      ((∃ p ∈ hist, Q p = true ∧ P p = false) → (hist.filter P).length < (hist.filter Q).length) := by
    intro P Q hPQ
    induction hist with
    | nil => simp
    | cons p t ih =>
      obtain ⟨ih1, ih2⟩ := ih
      constructor
      · by_cases hp : P p = true
        · simp [List.filter_cons, hp, hPQ p hp]; omega
        · by_cases hq : Q p = true <;> simp [List.filter_cons, hp, hq] <;> omega
      · rintro ⟨r, hr, hQ, hP⟩
        rcases List.mem_cons.mp hr with rfl | hr
        · simp [List.filter_cons, hP, hQ]; omega
        · have := ih2 ⟨r, hr, hQ, hP⟩
          by_cases hp : P p = true
          · simp [List.filter_cons, hp, hPQ p hp]; omega
          · by_cases hq : Q p = true <;> simp [List.filter_cons, hp, hq] <;> omega
  rcases hop with rfl | rfl
  · refine ⟨_, rfl, ?_, ?_⟩
    · simp only [eventRows, List.length_map]
      exact (key _ _ (fun p h => by rw [decide_eq_true_eq] at *; exact le_of_lt h)).1
    · rintro ⟨p, hp, he⟩
      simp only [eventRows, List.length_map]
      exact (key _ _ (fun p h => by rw [decide_eq_true_eq] at *; exact le_of_lt h)).2 ⟨p, hp, by simp [InEvent, he], by simp [he]⟩
  · refine ⟨_, rfl, ?_, ?_⟩
    · simp only [eventRows, List.length_map]
      exact (key _ _ (fun p h => by rw [decide_eq_true_eq] at *; exact le_of_lt h)).1
    · rintro ⟨p, hp, he⟩
      simp only [eventRows, List.length_map]
      exact (key _ _ (fun p h => by rw [decide_eq_true_eq] at *; exact le_of_lt h)).2 ⟨p, hp, by simp [InEvent, he], by simp [he]⟩

example : failureSample .greaterOrEqual 1 [("a", 1), ("b", 2)] = .ok ["b"] := by
  simp [failureSample]

/-! ## C58: no perturbation -/

theorem pliWeights_self {d : ℕ} (pdf : Fin d → ℝ → ℝ) (k : Fin d) (fs : List (Fin d → ℝ))
    (hpos : ∀ x ∈ fs, ∀ i, pdf i (x i) ≠ 0) : pliWeights pdf k (pdf k) fs = List.replicate fs.length 1 := by
  apply List.eq_replicate_iff.mpr
  refine ⟨by simp [pliWeights], ?_⟩
  intro w hw
  rw [pliWeights, List.mem_map] at hw
  obtain ⟨x, hx, rfl⟩ := hw
  rw [perturbedPDF, Function.update_eq_self, ← jointPDF]
  exact div_self (Finset.prod_ne_zero_iff.mpr fun i _ => hpos x hx i)

/-- **C58 (partial).**  The requested moment is the original one, the densities do not vanish on the history and no
output ties with the threshold of an "or equal" operator: the perturbed probability is the Monte-Carlo estimate and the
index is 0, for the mean and for the variance perturbation and for any solver. -/
theorem C58_no_perturbation_partial {d : ℕ} (marg : Fin d → Marg) (k : Fin d) (op : CmpOp) (thr : ℝ)
    (hist : List ((Fin d → ℝ) × ℝ)) (solve : ℝ → ℝ → ℝ → ℝ) (optimize : (ℝ → ℝ) → ℝ → ℝ → ℝ × ℝ → ℝ × ℝ)
    (hop : op = .less ∨ op = .greater ∨ ((op = .lessOrEqual ∨ op = .greaterOrEqual) ∧ ∀ p ∈ hist, p.2 ≠ thr))
    (hpos : ∀ p ∈ hist, ∀ i, (marg i).pdf (p.1 i) ≠ 0) (hsome : ∃ p ∈ hist, InEvent op thr p.2) (pert : ℝ → ℝ)
    (hpert : meanPert solve (marg k) (marg k).mean = .ok pert ∨ varPert optimize (marg k) (marg k).var = .ok pert) :
    let N := hist.length
    let pf : ℝ := (eventRows op thr hist).length / N
    ∃ v σ, pliEntry op thr hist N pf (fun i => (marg i).pdf) k pert = .ok (pf, v, .fin 0, σ) := by
  intro N pf
  have hp : pert = (marg k).pdf := by
    rcases hpert with h | h
    · simp only [meanPert, if_pos] at h; exact (Except.ok.inj h).symm
    · simp only [varPert, if_pos] at h; exact (Except.ok.inj h).symm
  subst hp
  have hfs := (C59_failure_sample_partial op thr hist).1 hop
  have hmem : ∀ x ∈ eventRows op thr hist, ∀ i, (marg i).pdf (x i) ≠ 0 := by
    intro x hx
    rw [eventRows, List.mem_map] at hx
    obtain ⟨p, hp, rfl⟩ := hx
    exact hpos p (List.mem_of_mem_filter hp)
  have hw := pliWeights_self (fun i => (marg i).pdf) k _ hmem
  have hpfd : pfDelta N (pliWeights (fun i => (marg i).pdf) k (marg k).pdf (eventRows op thr hist)) = pf := by
    rw [hw, pfDelta, List.sum_replicate, nsmul_eq_mul, mul_one, one_div, inv_mul_eq_div]
  have hpf : pf ≠ 0 := by
    obtain ⟨p, hp, he⟩ := hsome
    have h1 : p.1 ∈ eventRows op thr hist := by
      rw [eventRows, List.mem_map]
      exact ⟨p, List.mem_filter.mpr ⟨hp, by simpa using he⟩, rfl⟩
    have h2 : 0 < (eventRows op thr hist).length := List.length_pos_of_mem h1
    have h3 : 0 < N := List.length_pos_of_mem hp
    have h2' : (0 : ℝ) < (eventRows op thr hist).length := by exact_mod_cast h2
    have h3' : (0 : ℝ) < N := by exact_mod_cast h3
    exact (div_pos h2' h3').ne'
  rw [pliEntry, hfs]
  dsimp only
  rw [hpfd]
  have h0 : pliIndex pf pf = .fin 0 := by rw [pliIndex, if_neg (lt_irrefl _), F.div_fin _ hpf, sub_self, zero_div]
  rw [h0]
  exact ⟨_, _, rfl⟩

example : ∃ v σ, pliEntry .greater 1 [(![0, 1], 2), (![1, 0], 0)] 2 (1 / 2)
    (fun i => (![Marg.uniform 0 2, Marg.uniform 0 4] i).pdf) 0 (Marg.uniform 0 2).pdf = .ok (1 / 2, v, .fin 0, σ) := by
  have := C58_no_perturbation_partial ![Marg.uniform 0 2, Marg.uniform 0 4] 0 .greater 1 [(![0, 1], 2), (![1, 0], 0)]
    (fun _ _ _ => 0) (fun _ _ _ _ => (0, 0)) (by simp) (by
      intro p hp i
      simp only [List.mem_cons, List.not_mem_nil, or_false] at hp
      rcases hp with rfl | rfl <;> fin_cases i <;> norm_num [Marg.pdf])
    ⟨(![0, 1], 2), by simp, by norm_num [InEvent]⟩ (Marg.uniform 0 2).pdf (Or.inl (by simp [meanPert]))
  have h : (eventRows .greater 1 [((![0, 1] : Fin 2 → ℝ), (2 : ℝ)), (![1, 0], 0)]).length = 1 := by
    norm_num [eventRows, InEvent]
  simpa [h] using this

/-- **C58 violated.**  With an "or equal" operator and an output equal to the threshold, the unperturbed index is
negative: the perturbed probability misses the ties. -/
theorem C58_violated {d : ℕ} (marg : Fin d → Marg) (k : Fin d) (op : CmpOp) (thr : ℝ) (hist : List ((Fin d → ℝ) × ℝ))
    (hop : op = .lessOrEqual ∨ op = .greaterOrEqual) (hpos : ∀ p ∈ hist, ∀ i, (marg i).pdf (p.1 i) ≠ 0)
    (htie : ∃ p ∈ hist, p.2 = thr) :
    let N := hist.length
    let pf : ℝ := (eventRows op thr hist).length / N
    ∃ pfd v s σ, pliEntry op thr hist N pf (fun i => (marg i).pdf) k (marg k).pdf = .ok (pfd, v, s, σ) ∧
      pfd < pf ∧ F.lt s (.fin 0) = true := by
  intro N pf
  obtain ⟨fs, hfs, -, hlt⟩ := C59_violated op hop thr hist
  have hlt := hlt htie
  have hmem : ∀ x ∈ fs, ∀ i, (marg i).pdf (x i) ≠ 0 := by
    intro x hx
    rcases hop with rfl | rfl <;>
    · rw [failureSample, Except.ok.injEq] at hfs
      subst hfs
      rw [List.mem_map] at hx
      obtain ⟨p, hp, rfl⟩ := hx
      exact hpos p (List.mem_of_mem_filter hp)
  have hw := pliWeights_self (fun i => (marg i).pdf) k fs hmem
  have hN : (0 : ℝ) < N := by
    obtain ⟨p, hp, -⟩ := htie
    exact_mod_cast List.length_pos_of_mem hp
  have hpfd : pfDelta N (pliWeights (fun i => (marg i).pdf) k (marg k).pdf fs) = fs.length / N := by
    rw [hw, pfDelta, List.sum_replicate, nsmul_eq_mul, mul_one, one_div, inv_mul_eq_div]
  have hlt' : (fs.length : ℝ) / N < pf := by
    apply div_lt_div_of_pos_right _ hN
    exact_mod_cast hlt
  refine ⟨_, _, _, _, by rw [pliEntry, hfs], ?_, ?_⟩
  · rw [hpfd]; exact hlt'
  · rw [hpfd, pliIndex, if_pos hlt']
    rcases Nat.eq_zero_or_pos fs.length with h0 | h0
    · rw [h0] at hlt' ⊢
      simp only [Nat.cast_zero, zero_div] at hlt' ⊢
      simp [F.div, F.infSign, hlt'.ne', hlt'.le, F.lt, not_lt.mpr hlt'.le]
    · have hp : (0 : ℝ) < fs.length / N := div_pos (by exact_mod_cast h0) hN
      rw [F.div_fin _ hp.ne', F.lt_fin, decide_eq_true_eq]
      exact div_neg_of_neg_of_pos (by linarith) hp

example : ∃ p ∈ [((![1] : Fin 1 → ℝ), (3 : ℝ)), (![0], 2)], p.2 = 3 := ⟨_, List.mem_cons_self, rfl⟩

/-! ## C60: the asymptotic variance -/

theorem sum_sq_le (ws : List ℝ) : ws.sum ^ 2 ≤ ws.length * (ws.map (· ^ 2)).sum := by
  have h := inner_mul_le_norm_mul_norm_list ws
  exact h
where
  inner_mul_le_norm_mul_norm_list (ws : List ℝ) : ws.sum ^ 2 ≤ ws.length * (ws.map (· ^ 2)).sum := by
    induction ws with
    | nil => simp
    | cons w t ih =>
      simp only [List.sum_cons, List.length_cons, List.map_cons, Nat.cast_add, Nat.cast_one]
      have hsq : 0 ≤ (t.map (· ^ 2)).sum := List.sum_nonneg (by simp; intro a _; exact sq_nonneg a)
      rcases Nat.eq_zero_or_pos t.length with h0 | h0
      · rw [List.length_eq_zero_iff] at h0; subst h0; simp
      · have hn : (0 : ℝ) < t.length := by exact_mod_cast h0
        have h1 : 2 * w * t.sum ≤ t.length * w ^ 2 + (t.map (· ^ 2)).sum := by
          have h2 : 0 ≤ (t.length * w - t.sum) ^ 2 := sq_nonneg _
          have h3 : 2 * w * t.sum * t.length ≤ (t.length * w ^ 2 + (t.map (· ^ 2)).sum) * t.length := by nlinarith
          exact le_of_mul_le_mul_right h3 hn
        nlinarith

/-- **C60.**  The weights on the failing points of a sample of size `N` (`ws`, at most `N` of them), `pf` their
proportion: the variance of the perturbed estimate is non-negative, the covariance matrix is positive semi-definite, the
delta-method variance is non-negative, and the standard deviation handed to `ot.Normal` exists and is positive. -/
theorem C60_variance_nonneg (N : ℕ) (ws : List ℝ) (hN : 0 < N) (hlen : ws.length ≤ N) :
    let pf : ℝ := ws.length / N
    let pfd := pfDelta N ws
    let v := varPfDelta N ws
    0 ≤ v ∧ (pliCov pf pfd v).PosSemidef ∧ 0 ≤ pliVar pf pfd v ∧
    ∃ σ, pliSigma N (pliVar pf pfd v) = some σ ∧ 0 < σ ∧
      (pliVar pf pfd v ≠ 0 → σ ^ 2 = pliVar pf pfd v / N) := by
  intro pf pfd v
  have hNr : (0 : ℝ) < N := by exact_mod_cast hN
  set S := (ws.map (· ^ 2)).sum with hS
  have hS0 : 0 ≤ S := List.sum_nonneg (by simp; intro a _; exact sq_nonneg a)
  have hcs := sum_sq_le ws
  have hlen' : (ws.length : ℝ) ≤ N := by exact_mod_cast hlen
  have hm0 : (0 : ℝ) ≤ ws.length := Nat.cast_nonneg _
  have hpf1 : pf ≤ 1 := (div_le_one hNr).mpr hlen'
  have hpf0 : 0 ≤ pf := div_nonneg hm0 hNr.le
  have hpfN : (ws.length : ℝ) = pf * N := by simp only [pf]; field_simp
  have hpfdN : ws.sum = pfd * N := by simp only [pfd, pfDelta]; field_simp
  have hvN : S = (v + pfd ^ 2) * N := by
    have : v = 1 / (N : ℝ) * S - pfd ^ 2 := rfl
    rw [this]; field_simp; ring
  -- E[(1_F w)²] · pf ≥ pfd²
  have hcs' : pfd ^ 2 ≤ pf * (v + pfd ^ 2) := by
    rw [hpfdN, hpfN, ← hS, hvN] at hcs
    have : pfd ^ 2 * (N : ℝ) ^ 2 ≤ pf * (v + pfd ^ 2) * (N : ℝ) ^ 2 := by nlinarith
    exact le_of_mul_le_mul_right this (by positivity)
  have hm2 : 0 ≤ v + pfd ^ 2 := by
    have : 0 ≤ (v + pfd ^ 2) * N := hvN ▸ hS0
    exact nonneg_of_mul_nonneg_left this hNr
  have hv0 : 0 ≤ v := by nlinarith
  -- quadratic form
  have hquad : ∀ a b : ℝ, 0 ≤ a * a * (pf * (1 - pf)) + 2 * a * b * (pfd * (1 - pf)) + b * b * v := by
    intro a b
    rcases eq_or_lt_of_le hpf0 with h0 | h0
    · have hp0 : pfd ^ 2 ≤ 0 := by rw [← h0] at hcs'; simpa using hcs'
      have hp0' : pfd = 0 := by
        have := le_antisymm hp0 (sq_nonneg pfd); exact pow_eq_zero_iff (two_ne_zero) |>.mp this
      rw [← h0, hp0']
      have := mul_nonneg (mul_self_nonneg b) hv0
      linarith
    · -- pf·Q = (1-pf)(a pf + b pfd)² + b²(pf v - (1-pf) pfd²)
      have hid : pf * (a * a * (pf * (1 - pf)) + 2 * a * b * (pfd * (1 - pf)) + b * b * v)
          = (1 - pf) * (a * pf + b * pfd) ^ 2 + b ^ 2 * (pf * v - (1 - pf) * pfd ^ 2) := by ring
      have h1 : 0 ≤ pf * v - (1 - pf) * pfd ^ 2 := by linarith [hcs']
      have h2 : 0 ≤ pf * (a * a * (pf * (1 - pf)) + 2 * a * b * (pfd * (1 - pf)) + b * b * v) := by
        rw [hid]
        exact add_nonneg (mul_nonneg (by linarith) (sq_nonneg _)) (mul_nonneg (sq_nonneg _) h1)
      exact nonneg_of_mul_nonneg_right h2 h0
  have hvec : ∀ x : Fin 2 → ℝ, 0 ≤ dotProduct x (Matrix.mulVec (pliCov pf pfd v) x) := by
    intro x
    have : dotProduct x (Matrix.mulVec (pliCov pf pfd v) x)
        = x 0 * x 0 * (pf * (1 - pf)) + 2 * x 0 * x 1 * (pfd * (1 - pf)) + x 1 * x 1 * v := by
      simp [dotProduct, Matrix.mulVec, Fin.sum_univ_two, pliCov]; ring
    rw [this]; exact hquad _ _
  have hherm : (pliCov pf pfd v).IsHermitian := by
    ext i j; fin_cases i <;> fin_cases j <;> simp [pliCov, Matrix.conjTranspose]
  have hvar : 0 ≤ pliVar pf pfd v := hvec _
  refine ⟨hv0, Matrix.PosSemidef.of_dotProduct_mulVec_nonneg hherm (fun x => by simpa using hvec x), hvar, ?_⟩
  by_cases h0 : pliVar pf pfd v = 0
  · exact ⟨1 / 10 ^ 30, by rw [pliSigma, if_pos (Or.inr h0)], by positivity, fun h => absurd h0 h⟩
  · have hpos : 0 < pliVar pf pfd v := lt_of_le_of_ne hvar (Ne.symm h0)
    refine ⟨Real.sqrt (pliVar pf pfd v / N), ?_, Real.sqrt_pos.mpr (div_pos hpos hNr), fun _ => ?_⟩
    · rw [pliSigma, if_neg (by rintro (⟨-, h⟩ | h); exacts [absurd h (not_lt.mpr hvar), h0 h]),
        if_neg (not_lt.mpr (div_nonneg hvar hNr.le))]
    · exact Real.sq_sqrt (div_nonneg hvar hNr.le)

example : varPfDelta 4 [1, 2] = 11 / 16 := by norm_num [varPfDelta, pfDelta]

/-- **C60.**  The matrix is the empirical covariance of (indicator of the event, weighted indicator) over the whole
Monte-Carlo sample: for any indicator `b` and weights `w`. -/
theorem C60_is_covariance (N : ℕ) (hN : 0 < N) (b : Fin N → Bool) (w : Fin N → ℝ) :
    let ws := ((List.finRange N).filter fun i => b i).map w
    let u : Fin 2 → Fin N → ℝ := ![fun i => if b i then 1 else 0, fun i => if b i then w i else 0]
    let mean : Fin 2 → ℝ := fun r => (∑ i, u r i) / N
    mean 0 = ws.length / N ∧ mean 1 = pfDelta N ws ∧
    ∀ r s, pliCov (mean 0) (mean 1) (varPfDelta N ws) r s = (∑ i, (u r i - mean r) * (u s i - mean s)) / N := by
  intro ws u mean
  have hNr : (N : ℝ) ≠ 0 := by positivity
  have hsum : ∀ g : Fin N → ℝ, (((List.finRange N).filter fun i => b i).map g).sum = ∑ i, if b i then g i else 0 := by
    intro g
    have hl : ∀ l : List (Fin N), ((l.filter fun i => b i).map g).sum = (l.map fun i => if b i then g i else 0).sum := by
      intro l
      induction l with
      | nil => rfl
      | cons a t ih => by_cases h : b a = true <;> simp [List.filter_cons, h, ih]
    rw [hl, ← List.sum_ofFn, List.ofFn_eq_map]
  have hm0 : mean 0 = ws.length / N := by
    have := hsum (fun _ => 1)
    simp only [List.map_const', List.sum_replicate, nsmul_eq_mul, mul_one] at this
    simp only [mean, u, ws, List.length_map, Matrix.cons_val_zero]
    rw [this]
  have hm1 : mean 1 = pfDelta N ws := by
    rw [pfDelta, hsum w, one_div, inv_mul_eq_div]; rfl
  refine ⟨hm0, hm1, ?_⟩
  have hexp : ∀ r s, (∑ i, (u r i - mean r) * (u s i - mean s)) / N = (∑ i, u r i * u s i) / N - mean r * mean s := by
    intro r s
    have h1 : ∑ i, (u r i - mean r) * (u s i - mean s)
        = ∑ i, u r i * u s i - mean s * ∑ i, u r i - mean r * ∑ i, u s i + N * (mean r * mean s) := by
      rw [Finset.mul_sum, Finset.mul_sum, ← Finset.sum_sub_distrib, ← Finset.sum_sub_distrib]
      have : (N : ℝ) * (mean r * mean s) = ∑ _i : Fin N, mean r * mean s := by simp
      rw [this, ← Finset.sum_add_distrib]
      apply Finset.sum_congr rfl; intro i _; ring
    have h2 : ∑ i, u r i = N * mean r := by simp only [mean]; field_simp
    have h3 : ∑ i, u s i = N * mean s := by simp only [mean]; field_simp
    rw [h1, h2, h3]; field_simp; ring
  have huu : ∀ i, u 0 i * u 0 i = u 0 i := by
    intro i; simp only [u, Matrix.cons_val_zero]; split_ifs <;> norm_num
  have huv : ∀ i, u 0 i * u 1 i = u 1 i := by
    intro i; simp only [u, Matrix.cons_val_zero, Matrix.cons_val_one]; split_ifs <;> norm_num
  have hvv : (∑ i, u 1 i * u 1 i) = (ws.map (· ^ 2)).sum := by
    simp only [ws, List.map_map]
    have := hsum ((· ^ 2) ∘ w)
    rw [this]
    apply Finset.sum_congr rfl; intro i _
    change (if b i then w i else 0) * (if b i then w i else 0) = if b i then w i ^ 2 else 0
    split_ifs <;> ring
  intro r s
  rw [hexp]
  fin_cases r <;> fin_cases s
  · simp only [Fin.zero_eta, huu, pliCov, Matrix.of_apply, Matrix.cons_val_zero]
    change mean 0 * (1 - mean 0) = mean 0 - _
    ring
  · simp only [Fin.zero_eta, Fin.mk_one, huv, pliCov, Matrix.of_apply, Matrix.cons_val_zero, Matrix.cons_val_one]
    change mean 1 * (1 - mean 0) = mean 1 - _
    ring
  · simp only [Fin.zero_eta, Fin.mk_one, pliCov, Matrix.of_apply, Matrix.cons_val_zero, Matrix.cons_val_one]
    simp only [mul_comm (u 1 _) (u 0 _), huv]
    change mean 1 * (1 - mean 0) = mean 1 - _
    ring
  · simp only [Fin.mk_one, hvv]
    change varPfDelta N ws = _
    rw [varPfDelta, ← hm1]; ring

example : (0 : ℕ) < 3 := by norm_num

/-- **C60.**  The vector used by the delta method is the gradient of the index with respect to the two probabilities,
on both sides of the branch (and the index is differentiable across it in the perturbed probability). -/
theorem C60_gradient (pf pfd : ℝ) (hp : 0 < pf) (hd : 0 < pfd) (S : ℝ → ℝ → ℝ)
    (hS : ∀ p q, 0 < p → 0 < q → pliIndex p q = .fin (S p q)) :
    HasDerivAt (fun p => S p pfd) (pliGrad pf pfd 0) pf ∧ HasDerivAt (fun q => S pf q) (pliGrad pf pfd 1) pfd := by
  have hbelow : ∀ p q, 0 < p → 0 < q → q < p → S p q = 1 - p / q := by
    intro p q h1 h2 h3
    have := hS p q h1 h2; rw [pliIndex_below h2 h3] at this; injection this with this; exact this.symm
  have habove : ∀ p q, 0 < p → 0 < q → p ≤ q → S p q = q / p - 1 := by
    intro p q h1 h2 h3
    have := hS p q h1 h2; rw [pliIndex_above h1 h3] at this; injection this with this; exact this.symm
  have d1 : HasDerivAt (fun p : ℝ => 1 - p / pfd) (-1 / pfd) pf := by
    have := ((hasDerivAt_id pf).div_const pfd).const_sub 1
    exact this.congr_deriv (by ring)
  have d2 : ∀ q0 : ℝ, 0 < q0 → HasDerivAt (fun q : ℝ => 1 - pf / q) (pf / q0 ^ 2) q0 := by
    intro q0 hq0
    have := ((hasDerivAt_inv hq0.ne').const_mul pf).const_sub 1
    refine (this.congr_deriv ?_)
    rw [mul_neg, neg_neg, div_eq_mul_inv]
  have d3 : ∀ p0 : ℝ, 0 < p0 → HasDerivAt (fun p : ℝ => pfd / p - 1) (-pfd / p0 ^ 2) p0 := by
    intro p0 hp0
    have := ((hasDerivAt_inv hp0.ne').const_mul pfd).sub_const 1
    refine (this.congr_deriv ?_)
    rw [mul_neg, neg_div, div_eq_mul_inv]
  have d4 : HasDerivAt (fun q : ℝ => q / pf - 1) (1 / pf) pfd := by
    exact ((hasDerivAt_id pfd).div_const pf).sub_const 1
  rcases lt_trichotomy pfd pf with h | h | h
  · have hg : pliGrad pf pfd = ![-1 / pfd, pf / pfd ^ 2] := by rw [pliGrad, if_pos h]
    rw [hg]
    constructor
    · refine d1.congr_of_eventuallyEq ?_
      filter_upwards [Ioi_mem_nhds h] with p hp'
      exact hbelow p pfd (hd.trans hp') hd hp'
    · refine (d2 pfd hd).congr_of_eventuallyEq ?_
      filter_upwards [Ioo_mem_nhds hd h] with q hq
      exact hbelow pf q hp hq.1 hq.2
  · -- at equality both one-sided formulas have the same derivative
    subst h
    have hg : pliGrad pfd pfd = ![-pfd / pfd ^ 2, 1 / pfd] := by rw [pliGrad, if_neg (lt_irrefl _)]
    rw [hg]
    have e1 : -pfd / pfd ^ 2 = -1 / pfd := by field_simp
    have e2 : pfd / pfd ^ 2 = 1 / pfd := by field_simp
    constructor
    · -- for p ≤ pfd: pfd/p - 1; for p > pfd: 1 - p/pfd
      have hl : HasDerivWithinAt (fun p => S p pfd) (-pfd / pfd ^ 2) (Set.Iic pfd) pfd := by
        refine ((d3 pfd hd).hasDerivWithinAt).congr_of_eventuallyEq ?_ (habove pfd pfd hd hd le_rfl)
        filter_upwards [inter_mem_nhdsWithin (Set.Iic pfd) (Ioi_mem_nhds hd)] with p hp'
        exact habove p pfd hp'.2 hd hp'.1
      have hr : HasDerivWithinAt (fun p => S p pfd) (-pfd / pfd ^ 2) (Set.Ici pfd) pfd := by
        rw [e1]
        refine (d1.hasDerivWithinAt).congr ?_ ?_
        · intro p hp'
          rcases eq_or_lt_of_le (show pfd ≤ p from hp') with h | h
          · rw [← h, habove pfd pfd hd hd le_rfl]; simp [div_self hd.ne']
          · exact hbelow p pfd (hd.trans h) hd h
        · rw [habove pfd pfd hd hd le_rfl]; simp [div_self hd.ne']
      have := hl.union hr
      rw [Set.Iic_union_Ici] at this
      exact this.hasDerivAt Filter.univ_mem
    · have hr : HasDerivWithinAt (fun q => S pfd q) (1 / pfd) (Set.Ici pfd) pfd := by
        refine (d4.hasDerivWithinAt).congr ?_ (habove pfd pfd hd hd le_rfl)
        intro q hq
        exact habove pfd q hd (hd.trans_le hq) hq
      have hl : HasDerivWithinAt (fun q => S pfd q) (1 / pfd) (Set.Iic pfd) pfd := by
        rw [← e2]
        refine ((d2 pfd hd).hasDerivWithinAt).congr_of_eventuallyEq ?_ ?_
        · filter_upwards [inter_mem_nhdsWithin (Set.Iic pfd) (Ioi_mem_nhds hd)] with q hq
          rcases eq_or_lt_of_le (show q ≤ pfd from hq.1) with h | h
          · rw [h, habove pfd pfd hd hd le_rfl]; simp [div_self hd.ne']
          · exact hbelow pfd q hd hq.2 h
        · rw [habove pfd pfd hd hd le_rfl]; simp [div_self hd.ne']
      have := hl.union hr
      rw [Set.Iic_union_Ici] at this
      exact this.hasDerivAt Filter.univ_mem
  · have hg : pliGrad pf pfd = ![-pfd / pf ^ 2, 1 / pf] := by rw [pliGrad, if_neg (not_lt.mpr h.le)]
    rw [hg]
    constructor
    · refine (d3 pf hp).congr_of_eventuallyEq ?_
      filter_upwards [Ioo_mem_nhds hp h] with p hp'
      exact habove p pfd hp'.1 hd hp'.2.le
    · refine d4.congr_of_eventuallyEq ?_
      filter_upwards [Ioi_mem_nhds h] with q hq
      exact habove pf q hp (hp.trans hq) (le_of_lt hq)

example : ∃ S : ℝ → ℝ → ℝ, ∀ p q, 0 < p → 0 < q → pliIndex p q = .fin (S p q) :=
  ⟨fun p q => if q < p then 1 - p / q else q / p - 1, fun p q hp hq => by
    dsimp only
    by_cases h : q < p
    · rw [pliIndex_below hq h, if_pos h]
    · rw [pliIndex_above hp (not_lt.mp h), if_neg h]⟩

/-! ## C63: shapes and scaling of the deltas -/

/-- **C63.**  A non-empty 1-d list is applied to every marginal. -/
theorem C63_broadcast (h dim : ℕ) (hh : h ≠ 0) (x : ℝ) (xs : List ℝ) :
    pliInit h dim true (.vec (x :: xs)) = .ok ((x :: xs).map fun y => List.replicate dim y) := by
  simp [pliInit, hh, vstackDeltas]

example : pliInit 5 3 true (.vec [1, 2]) = .ok [[1, 1, 1], [2, 2, 2]] := C63_broadcast 5 3 (by norm_num) 1 [2]

/-- **C63.**  A 2-d list with one column per marginal is used as it is; with one column it is applied to every marginal;
any other number of columns raises AttributeError. -/
theorem C63_matrix (h dim : ℕ) (hh : h ≠ 0) (r : List ℝ) (rs : List (List ℝ)) (hreg : ∀ r' ∈ rs, r'.length = r.length) :
    (r.length = dim → pliInit h dim true (.mat (r :: rs)) = .ok (r :: rs)) ∧
    (r.length = 1 → pliInit h dim true (.mat (r :: rs)) = .ok ((r :: rs).map fun q => List.replicate dim (q.headD 0))) ∧
    (r.length ≠ 1 → r.length ≠ dim → Raises (pliInit h dim true (.mat (r :: rs))) .attributeError) := by
  have hall : (rs.all fun r' => r'.length == r.length) = true := by
    rw [List.all_eq_true]; intro q hq; simpa using hreg q hq
  have hv : vstackDeltas (.mat (r :: rs)) = .ok (r :: rs) := by simp only [vstackDeltas, hall, if_true]
  refine ⟨fun hd => ?_, fun h1 => ?_, fun h1 h2 => ?_⟩
  · rw [pliInit, if_neg hh, if_neg (by simp), hv]
    dsimp only
    rw [List.headD_cons, if_neg (by tauto)]
    by_cases h1 : r.length = 1
    · rw [if_pos h1]
      congr 1
      conv_rhs => rw [← List.map_id (r :: rs)]
      apply List.map_congr_left
      intro q hq
      have hq1 : q.length = 1 := by
        rcases List.mem_cons.mp hq with rfl | hq
        exacts [h1, (hreg q hq).trans h1]
      rw [← hd, h1]
      obtain ⟨y, rfl⟩ := List.length_eq_one_iff.mp hq1
      rfl
    · rw [if_neg h1]
  · rw [pliInit, if_neg hh, if_neg (by simp), hv]
    dsimp only
    rw [List.headD_cons, if_neg (by tauto), if_pos h1]
  · rw [pliInit, if_neg hh, if_neg (by simp), hv]
    dsimp only
    rw [List.headD_cons, if_pos ⟨h1, h2⟩]
    exact ⟨_, rfl⟩

example : pliInit 5 2 true (.mat [[1, 2], [3, 4]]) = .ok [[1, 2], [3, 4]] :=
  (C63_matrix 5 2 (by norm_num) [1, 2] [[3, 4]] (by simp)).1 rfl

/-- **C63.**  The other failures: no recorded history, dependent parameters, a scalar, an empty or ragged list. -/
theorem C63_rejects (h dim : ℕ) (indep : Bool) (arg : DeltaArg) :
    (h = 0 → Raises (pliInit h dim indep arg) .attributeError) ∧
    (h ≠ 0 → indep = false → Raises (pliInit h dim indep arg) .exception) ∧
    (h ≠ 0 → indep = true → ∀ x, arg = .scalar x → Raises (pliInit h dim indep arg) .typeError) ∧
    (h ≠ 0 → indep = true → arg = .vec [] ∨ arg = .mat [] → Raises (pliInit h dim indep arg) .valueError) ∧
    (h ≠ 0 → indep = true → ∀ r rs, arg = .mat (r :: rs) → (∃ r' ∈ rs, r'.length ≠ r.length) →
      Raises (pliInit h dim indep arg) .valueError) := by
  refine ⟨fun h0 => ?_, fun h0 hi => ?_, fun h0 hi x ha => ?_, fun h0 hi ha => ?_, fun h0 hi r rs ha hr => ?_⟩
  · rw [pliInit, if_pos h0]; exact ⟨_, rfl⟩
  · rw [pliInit, if_neg h0, if_pos hi]; exact ⟨_, rfl⟩
  · subst ha; rw [pliInit, if_neg h0, if_neg (by simp [hi])]; exact ⟨_, rfl⟩
  · rw [pliInit, if_neg h0, if_neg (by simp [hi])]
    rcases ha with rfl | rfl <;> exact ⟨_, rfl⟩
  · subst ha
    rw [pliInit, if_neg h0, if_neg (by simp [hi])]
    have : ¬ (rs.all fun r' => r'.length == r.length) = true := by
      rw [List.all_eq_true]; intro hall
      obtain ⟨q, hq, hne⟩ := hr
      exact hne (by simpa using hall q hq)
    rw [vstackDeltas, if_neg this]
    exact ⟨_, rfl⟩

example : Raises (pliInit 5 2 true (.mat [[1, 2], [3]])) .valueError :=
  (C63_rejects 5 2 true _).2.2.2.2 (by norm_num) rfl [1, 2] [[3]] rfl ⟨[3], by simp, by simp⟩

/-- **C63.**  Mean perturbation: without scaling the deltas are the new means; with `sigmaScaled` the entry of delta `i`
and marginal `j` is `mean j + std j * delta i j`. -/
theorem C63_mean (h : ℕ) (indep : Bool) (mean std : List ℝ) (arg : DeltaArg) (dv : List (List ℝ))
    (hi : pliInit h mean.length indep arg = .ok dv) (i j : ℕ) (hj : j < mean.length) (hs : std.length = mean.length)
    (hrow : i < dv.length) (hcol : j < (dv[i]).length) :
    pliMeanInit h indep mean std arg false = .ok dv ∧
    ∃ dv', pliMeanInit h indep mean std arg true = .ok dv' ∧ dv'.length = dv.length ∧
      ∃ r', dv'[i]? = some r' ∧ r'[j]? = some (mean[j] + std[j] * (dv[i])[j]) := by
  constructor
  · rw [pliMeanInit, hi]; rfl
  · refine ⟨dv.map fun r => List.zipWith (· + ·) (List.zipWith (· * ·) r std) mean, by rw [pliMeanInit, hi]; rfl,
      by simp, _, by rw [List.getElem?_map, List.getElem?_eq_getElem hrow]; rfl, ?_⟩
    have hj' : j < std.length := hs ▸ hj
    rw [List.getElem?_zipWith, List.getElem?_zipWith, List.getElem?_eq_getElem hcol, List.getElem?_eq_getElem hj',
      List.getElem?_eq_getElem hj]
    simp only [Option.some.injEq]
    ring

/-- **C63.**  Variance perturbation: without scaling the deltas are the new variances, rejected with AttributeError as soon
as one is not positive; with `covScaled` the entry is `(mean j * delta i j + std j)²`. -/
theorem C63_variance (h : ℕ) (indep : Bool) (mean std : List ℝ) (arg : DeltaArg) (dv : List (List ℝ))
    (hi : pliInit h mean.length indep arg = .ok dv) :
    ((∀ r ∈ dv, ∀ x ∈ r, 0 < x) → pliVarianceInit h indep mean std arg false = .ok dv) ∧
    ((∃ r ∈ dv, ∃ x ∈ r, x ≤ 0) → Raises (pliVarianceInit h indep mean std arg false) .attributeError) ∧
    ∃ dv', pliVarianceInit h indep mean std arg true = .ok dv' ∧ dv'.length = dv.length ∧
      ∀ i j, ∀ (hrow : i < dv.length) (hcol : j < (dv[i]).length) (hj : j < mean.length) (hs : j < std.length),
        ∃ r', dv'[i]? = some r' ∧ r'[j]? = some ((mean[j] * (dv[i])[j] + std[j]) ^ 2) := by
  refine ⟨fun hp => ?_, fun hn => ?_, ?_⟩
  · rw [pliVarianceInit, hi]
    have : (dv.all fun r => r.all fun x => decide (0 < x)) = true := by
      simp only [List.all_eq_true, decide_eq_true_eq]; exact hp
    simp only [this, reduceCtorEq, false_and, if_false, Bool.false_eq_true, Bool.true_eq_false]
  · rw [pliVarianceInit, hi]
    have : (dv.all fun r => r.all fun x => decide (0 < x)) = false := by
      rw [Bool.eq_false_iff]
      simp only [ne_eq, List.all_eq_true, decide_eq_true_eq]
      intro hall
      obtain ⟨r, hr, x, hx, hle⟩ := hn
      exact absurd (hall r hr x hx) (not_lt.mpr hle)
    simp only [this, and_self, if_true]
    exact ⟨_, rfl⟩
  · refine ⟨dv.map fun r => (List.zipWith (· + ·) (List.zipWith (· * ·) r mean) std).map (· ^ 2), ?_, by simp, ?_⟩
    · rw [pliVarianceInit, hi]; simp
    · intro i j hrow hcol hj hs
      refine ⟨_, by rw [List.getElem?_map, List.getElem?_eq_getElem hrow]; rfl, ?_⟩
      rw [List.getElem?_map, List.getElem?_zipWith, List.getElem?_zipWith, List.getElem?_eq_getElem hcol,
        List.getElem?_eq_getElem hs, List.getElem?_eq_getElem hj]
      simp only [Option.map_some, Option.some.injEq]
      ring

example : pliVarianceInit 5 true [2, 1] [1, 1] (.vec [3]) true = .ok [[49, 16]] := by
  simp [pliVarianceInit, pliInit, vstackDeltas]; norm_num

/-- **C63 (partial).**  The coefficient of variation `σ/μ` increases by the delta exactly when `mean * delta + std` is not
negative. -/
theorem C63_cov_increase_partial (mean std δ : ℝ) (hm : mean ≠ 0) :
    Real.sqrt ((mean * δ + std) ^ 2) / mean = std / mean + δ ↔ 0 ≤ mean * δ + std := by
  rw [Real.sqrt_sq_eq_abs]
  constructor
  · intro h
    have : |mean * δ + std| = mean * δ + std := by
      field_simp at h
      linarith
    exact this ▸ abs_nonneg _
  · intro h
    rw [abs_of_nonneg h]; field_simp; ring

example : Real.sqrt (((2 : ℝ) * 3 + 1) ^ 2) / 2 = 1 / 2 + 3 := (C63_cov_increase_partial 2 1 3 (by norm_num)).mpr (by norm_num)

/-- **C63 violated.**  The documentation of the POD wrapper `PLIVariance` (`newVariance = variance x delta`) disagrees with
what is computed, for every positive mean and standard deviation, for the delta 1 (for all but two deltas: `C63_violated_deltas`); a delta that would make the
coefficient of variation negative is reflected, and one that makes the new variance null is accepted. -/
theorem C63_violated (mean std : ℝ) (hm : 0 < mean) (hs : 0 < std) :
    (∃ dv, pliVarianceInit 1 true [mean] [std] (.vec [1]) true = .ok [[dv]] ∧ dv ≠ std ^ 2 * 1) ∧
    pliVarianceInit 1 true [mean] [std] (.vec [-(std / mean)]) true = .ok [[0]] ∧
    (∃ dv, pliVarianceInit 1 true [mean] [std] (.vec [-(3 * std / mean)]) true = .ok [[dv]] ∧
      Real.sqrt dv / mean > std / mean) := by
  refine ⟨⟨(mean + std) ^ 2, by simp [pliVarianceInit, pliInit, vstackDeltas], by nlinarith⟩, ?_, ⟨(2 * std) ^ 2, ?_, ?_⟩⟩
  · simp only [pliVarianceInit, pliInit, vstackDeltas]
    simp
    field_simp
    ring
  · simp only [pliVarianceInit, pliInit, vstackDeltas]
    simp
    field_simp
    ring
  · rw [Real.sqrt_sq (by linarith)]
    apply div_lt_div_of_pos_right _ hm
    linarith

end Verif.Props
