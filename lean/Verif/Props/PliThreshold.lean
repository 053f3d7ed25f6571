import Verif.Props.PliComplement

/-!
# C260: the perturbed probability and the detection threshold (/repo/otpod/_pli.py 138-186)
-/

namespace Verif.Props
open Verif.Py Verif.Model

variable {d : ℕ}

theorem sum_filter_mono {X : Type} (f : X → ℝ) (l : List X) (hf : ∀ x ∈ l, 0 ≤ f x) (P Q : X → Bool) (hPQ : ∀ x ∈ l, P x = true → Q x = true) :
    ((l.filter P).map f).sum ≤ ((l.filter Q).map f).sum := by
  induction l with
  | nil => simp
  | cons a l ih =>
    have ih := ih (fun x hx => hf x (List.mem_cons_of_mem _ hx)) fun x hx => hPQ x (List.mem_cons_of_mem _ hx)
    have ha := hf a (by simp)
    by_cases hP : P a = true
    · rw [List.filter_cons_of_pos hP, List.filter_cons_of_pos (hPQ a (by simp) hP), List.map_cons, List.map_cons, List.sum_cons, List.sum_cons]
      linarith
    · rw [List.filter_cons_of_neg hP]
      by_cases hQ : Q a = true
      · rw [List.filter_cons_of_pos hQ, List.map_cons, List.sum_cons]
        linarith
      · rw [List.filter_cons_of_neg hQ]
        exact ih

/-- **C260.**  With the same simulations, nonnegative densities and a larger threshold, neither the estimated probability nor the perturbed probability of the
event "output greater than the threshold" increases. -/
theorem C260_threshold (pdf : Fin d → ℝ → ℝ) (hpdf : ∀ i x, 0 ≤ pdf i x) (k : Fin d) (pert : ℝ → ℝ) (hpert : ∀ x, 0 ≤ pert x) (hist : List ((Fin d → ℝ) × ℝ))
    (thr thr' : ℝ) (h : thr ≤ thr') (pf pf' q v q' v' : ℝ) (s s' : F ℝ) (sd sd' : Option ℝ)
    (h1 : pliEntry .greater thr hist hist.length pf pdf k pert = .ok (q, v, s, sd))
    (h2 : pliEntry .greater thr' hist hist.length pf' pdf k pert = .ok (q', v', s', sd')) :
    shareAbove thr' hist ≤ shareAbove thr hist ∧ 0 ≤ q' ∧ q' ≤ q := by
  have hw : ∀ x, 0 ≤ perturbedPDF pdf k pert x / jointPDF pdf x := by
    intro x
    refine div_nonneg (Finset.prod_nonneg fun i _ => ?_) (Finset.prod_nonneg fun i _ => hpdf i _)
    by_cases hi : i = k
    · subst hi; rw [Function.update_self]; exact hpert _
    · rw [Function.update_of_ne hi]; exact hpdf i _
  simp only [pliEntry, failureSample, Except.ok.injEq, Prod.mk.injEq] at h1 h2
  obtain ⟨e1, -⟩ := h1
  obtain ⟨e2, -⟩ := h2
  have hN : (0 : ℝ) ≤ 1 / (hist.length : ℝ) := by positivity
  refine ⟨?_, ?_, ?_⟩
  · rw [shareAbove, shareAbove]
    refine div_le_div_of_nonneg_right (Nat.cast_le.2 (List.countP_mono_left fun p _ hp => ?_)) (by positivity)
    simp only [decide_eq_true_iff] at hp ⊢
    linarith
  · rw [← e2, pfDelta, pliWeights]
    refine mul_nonneg hN (List.sum_nonneg fun w hm => ?_)
    rw [List.mem_map] at hm
    obtain ⟨x, -, rfl⟩ := hm
    exact hw x
  · rw [← e1, ← e2, pfDelta, pfDelta, pliWeights, pliWeights, List.map_map, List.map_map]
    refine mul_le_mul_of_nonneg_left (sum_filter_mono _ hist (fun p _ => hw p.1) _ _ fun p _ hp => ?_) hN
    simp only [gt_iff_lt, decide_eq_true_iff] at hp ⊢
    linarith

/-- **C260, end points.**  Below all outputs the perturbed probability is the mean of the density ratios of all simulations; from the largest output on it
is 0. -/
theorem C260_ends (pdf : Fin d → ℝ → ℝ) (k : Fin d) (pert : ℝ → ℝ) (hist : List ((Fin d → ℝ) × ℝ)) (thr pf q v : ℝ) (s : F ℝ) (sd : Option ℝ)
    (h : pliEntry .greater thr hist hist.length pf pdf k pert = .ok (q, v, s, sd)) :
    ((∀ p ∈ hist, thr < p.2) → q = (hist.map fun p => ratioOf pdf k pert p.1).sum / hist.length) ∧ ((∀ p ∈ hist, p.2 ≤ thr) → q = 0) := by
  simp only [pliEntry, failureSample, Except.ok.injEq, Prod.mk.injEq] at h
  obtain ⟨e, -⟩ := h
  constructor
  · intro hp
    rw [← e, pfDelta, pliWeights, List.filter_eq_self.2 (fun p h => by simpa using hp p h), List.map_map, one_div, inv_mul_eq_div]
    rfl
  · intro hp
    rw [← e, pfDelta, pliWeights, List.filter_eq_nil_iff.2 (fun p h => by simpa using hp p h)]
    simp

/-- Three simulations of a standard normal input with its mean moved to 1, thresholds 1 and 2. -/
example (q v q' v' : ℝ) (s s' : F ℝ) (sd sd' : Option ℝ) (hist : List ((Fin 1 → ℝ) × ℝ))
    (hh : hist = [((fun _ => 1 : Fin 1 → ℝ), (3 : ℝ)), (fun _ => 2, 1.5), (fun _ => -1, 0)])
    (h1 : pliEntry .greater 1 hist hist.length (2 / 3) (fun _ : Fin 1 => (Marg.normal 0 1).pdf) 0 (Marg.normal 1 1).pdf = .ok (q, v, s, sd))
    (h2 : pliEntry .greater 2 hist hist.length (1 / 3) (fun _ : Fin 1 => (Marg.normal 0 1).pdf) 0 (Marg.normal 1 1).pdf = .ok (q', v', s', sd')) : q' ≤ q :=
  (C260_threshold _ (fun _ x => by simp only [Marg.pdf]; positivity) 0 _ (fun x => by simp only [Marg.pdf]; positivity) hist 1 2 (by norm_num) _ _ q v q' v' s s' sd sd'
    h1 h2).2.2

end Verif.Props
