import Verif.Model.AdaptiveSignal
import Verif.Props.Base
import Mathlib.Data.List.Basic
import Mathlib.Data.List.Forall2

/-!
# C45–C49: the adaptive signal loop
-/

namespace Verif.Props
open Verif.Py Verif.Model

variable {X M : Type}

/-! ## The loop over the candidates -/

/-- `x`, of rank `i`, is the first best candidate: its criterion is a number below 1e9, no candidate has a smaller one and
no earlier candidate has an equal one. -/
def BestOf (crit : ℕ → X → Res (F ℝ)) (cand : List X) (i : ℕ) (x : X) : Prop :=
  cand[i]? = some x ∧ ∃ v, crit i x = .ok v ∧ F.lt v (.fin 1000000000) = true ∧
    (∀ j y w, cand[j]? = some y → crit j y = .ok w → F.lt w v = false) ∧
    ∀ j y w, j < i → cand[j]? = some y → crit j y = .ok w → F.le w v = false

theorem F.lt_trans' {a b c : F ℝ} (h1 : F.lt a b = true) (h2 : F.lt b c = true) : F.lt a c = true := by
  cases a <;> cases b <;> cases c <;> simp_all [F.lt]
  exact lt_trans h1 h2

theorem F.lt_asymm' {a b : F ℝ} (h1 : F.lt a b = true) : F.le b a = false := by
  cases a <;> cases b <;> simp_all [F.lt, F.le]

theorem F.lt_asymm'' {a b : F ℝ} (h1 : F.lt a b = true) : F.lt b a = false := by
  cases a <;> cases b <;> simp_all [F.lt]
  exact h1.le

theorem F.lt_of_lt_not_lt {a b c : F ℝ} (h1 : F.lt a b = true) (h2 : F.lt c b = false) : F.lt c a = false := by
  cases a <;> cases b <;> cases c <;> simp_all [F.lt]
  exact h1.le.trans h2

theorem F.le_of_lt_not_lt {a b c : F ℝ} (h1 : F.lt a b = true) (h2 : F.lt c b = false) : F.le c a = false := by
  cases a <;> cases b <;> cases c <;> simp_all [F.lt, F.le]
  exact lt_of_lt_of_le h1 h2

theorem scanGo_spec (f : ℕ → X → Res (F ℝ)) (k : ℕ) (l : List X) (c : F ℝ) (prev : Option ℕ) (c' : F ℝ) (i' : Option ℕ)
    (h : scanGo f k l (c, prev) = .ok (c', i')) :
    (∀ j y, l[j]? = some y → ∃ w, f (k + j) y = .ok w) ∧
    ((i' = prev ∧ c' = c ∧ ∀ j y w, l[j]? = some y → f (k + j) y = .ok w → F.lt w c = false) ∨
     (∃ i x, i' = some (k + i) ∧ l[i]? = some x ∧ f (k + i) x = .ok c' ∧ F.lt c' c = true ∧
      (∀ j y w, l[j]? = some y → f (k + j) y = .ok w → F.lt w c' = false) ∧
      ∀ j y w, j < i → l[j]? = some y → f (k + j) y = .ok w → F.le w c' = false)) := by
  induction l generalizing k c prev with
  | nil =>
    simp only [scanGo, Except.ok.injEq, Prod.mk.injEq] at h
    simp [h.1.symm, h.2.symm]
  | cons a l ih =>
    rw [scanGo] at h
    cases hf : f k a with
    | error e => rw [hf] at h; cases h
    | ok v =>
      rw [hf] at h
      dsimp only at h
      have shift : ∀ j, k + (j + 1) = k + 1 + j := fun j => by omega
      split_ifs at h with hlt
      · obtain ⟨hdef, hor⟩ := ih (k + 1) v (some k) h
        refine ⟨?_, Or.inr ?_⟩
        · rintro (_ | j) y hy
          · simp only [List.getElem?_cons_zero, Option.some.injEq] at hy; subst hy; exact ⟨v, hf⟩
          · rw [shift]; exact hdef j y (by simpa using hy)
        · rcases hor with ⟨hi, hc, hall⟩ | ⟨i, x, hi, hx, hfx, hlt', hall, hfirst⟩
          · subst hc
            refine ⟨0, a, hi, rfl, hf, hlt, ?_, by simp⟩
            rintro (_ | j) y w hy hw
            · simp only [List.getElem?_cons_zero, Option.some.injEq] at hy
              subst hy; rw [Nat.add_zero, hf] at hw; cases hw; exact F.lt_irrefl _
            · rw [shift] at hw; exact hall j y w (by simpa using hy) hw
          · refine ⟨i + 1, x, by rw [hi]; congr 1; omega, by simpa using hx, by rw [shift]; exact hfx, F.lt_trans' hlt' hlt, ?_, ?_⟩
            · rintro (_ | j) y w hy hw
              · simp only [List.getElem?_cons_zero, Option.some.injEq] at hy
                subst hy; rw [Nat.add_zero, hf] at hw; cases hw; exact F.lt_asymm'' hlt'
              · rw [shift] at hw; exact hall j y w (by simpa using hy) hw
            · rintro (_ | j) y w hj hy hw
              · simp only [List.getElem?_cons_zero, Option.some.injEq] at hy
                subst hy; rw [Nat.add_zero, hf] at hw; cases hw; exact F.lt_asymm' hlt'
              · rw [shift] at hw; exact hfirst j y w (by omega) (by simpa using hy) hw
      · have hlt : F.lt v c = false := by simpa using hlt
        obtain ⟨hdef, hor⟩ := ih (k + 1) c prev h
        refine ⟨?_, ?_⟩
        · rintro (_ | j) y hy
          · simp only [List.getElem?_cons_zero, Option.some.injEq] at hy; subst hy; exact ⟨v, hf⟩
          · rw [shift]; exact hdef j y (by simpa using hy)
        · rcases hor with ⟨hi, hc, hall⟩ | ⟨i, x, hi, hx, hfx, hlt', hall, hfirst⟩
          · refine Or.inl ⟨hi, hc, ?_⟩
            rintro (_ | j) y w hy hw
            · simp only [List.getElem?_cons_zero, Option.some.injEq] at hy
              subst hy; rw [Nat.add_zero, hf] at hw; cases hw; exact hlt
            · rw [shift] at hw; exact hall j y w (by simpa using hy) hw
          · refine Or.inr ⟨i + 1, x, by rw [hi]; congr 1; omega, by simpa using hx, by rw [shift]; exact hfx, hlt', ?_, ?_⟩
            · rintro (_ | j) y w hy hw
              · simp only [List.getElem?_cons_zero, Option.some.injEq] at hy
                subst hy; rw [Nat.add_zero, hf] at hw; cases hw; exact F.lt_of_lt_not_lt hlt' hlt
              · rw [shift] at hw; exact hall j y w (by simpa using hy) hw
            · rintro (_ | j) y w hj hy hw
              · simp only [List.getElem?_cons_zero, Option.some.injEq] at hy
                subst hy; rw [Nat.add_zero, hf] at hw; cases hw; exact F.le_of_lt_not_lt hlt' hlt
              · rw [shift] at hw; exact hfirst j y w (by omega) (by simpa using hy) hw

/-- What a successful iteration does. -/
theorem adIter_ok (env : AdEnv X M) (ref : M) (it : ℕ) (cand : List X) (idx : Option ℕ) (m : M) (s s' : AdAttrs X M)
    (cand' : List X) (idx' : Option ℕ) (m' : M) (h : adIter env ref it cand idx m s = (.ok (cand', idx', m'), s')) :
    ∃ k x y, idx' = some k ∧ cand[k]? = some x ∧ cand' = cand.eraseIdx k ∧ respond env s.boxCox x = .ok y ∧
      s'.input = s.input ++ [x] ∧ s'.signals = s.signals ++ [y] ∧ s'.boxCox = s.boxCox ∧ s'.model = some m' ∧
      env.refit m s'.input s'.signals = .ok m' ∧
      ∃ c, scanGo (env.crit it ref m s.input s.signals) 0 cand (.fin 1000000000, idx) = .ok (c, some k) := by
  unfold adIter at h
  split at h
  · simp at h
  · simp at h
  · rename_i c k hscan
    split at h
    · simp at h
    · rename_i x hx
      dsimp only at h
      split at h
      · simp at h
      · rename_i y hy
        split at h
        · simp at h
        · rename_i m'' hm
          simp only [Prod.mk.injEq, Except.ok.injEq] at h
          obtain ⟨⟨rfl, rfl, rfl⟩, rfl⟩ := h
          exact ⟨k, x, y, rfl, hx, rfl, hy, rfl, rfl, rfl, rfl, hm, c, hscan⟩

theorem perm_cons_eraseIdx (l : List X) (k : ℕ) (x : X) (h : l[k]? = some x) : (x :: l.eraseIdx k).Perm l := by
  induction l generalizing k with
  | nil => simp at h
  | cons a l ih =>
    cases k with
    | zero => simp only [List.getElem?_cons_zero, Option.some.injEq] at h; subst h; simp
    | succ k =>
      rw [List.eraseIdx_cons_succ]
      exact (List.Perm.swap a x _).trans ((ih k (by simpa using h)).cons a)

/-! ## C45 -/

/-- The criterion of an existing candidate, when it can be computed, is a number below the initial bound 1e9. -/
def CritBelow (env : AdEnv X M) : Prop := ∀ it ref m xs ys i x v, env.crit it ref m xs ys i x = .ok v →
  F.lt v (.fin 1000000000) = true

theorem adLoop_ok (env : AdEnv X M) (hc : CritBelow env) (ref : M) (n it : ℕ) (cand : List X) (idx : Option ℕ) (m mf : M)
    (s s' : AdAttrs X M) (hn : n ≤ cand.length) (h : adLoop env ref n it cand idx m s = (.ok mf, s')) :
    ∃ (picks : List X) (ys : List ℝ) (ms : ℕ → M), picks.length = n ∧ s'.input = s.input ++ picks ∧
      s'.signals = s.signals ++ ys ∧
      List.Forall₂ (fun x y => respond env s.boxCox x = .ok y) picks ys ∧ s'.boxCox = s.boxCox ∧
      (∃ rest, (picks ++ rest).Perm cand) ∧
      (0 < n → s'.model = some mf) ∧ (n = 0 → s' = s) ∧ ms 0 = m ∧ ms n = mf ∧
      (∀ k, k < n → env.refit (ms k) (s.input ++ picks.take (k + 1)) (s.signals ++ ys.take (k + 1)) = .ok (ms (k + 1))) ∧
      ∀ k x, picks[k]? = some x → ∃ rem i, rem.Sublist cand ∧ (picks.take k ++ rem).Perm cand ∧
        BestOf (env.crit (it + k) ref (ms k) (s.input ++ picks.take k) (s.signals ++ ys.take k)) rem i x := by
  induction n generalizing it cand idx m s with
  | zero =>
    simp only [adLoop, Prod.mk.injEq, Except.ok.injEq] at h
    obtain ⟨rfl, rfl⟩ := h
    exact ⟨[], [], fun _ => m, rfl, by simp, by simp, .nil, rfl, ⟨cand, by simp⟩, by simp, by simp, rfl, rfl, by simp, by simp⟩
  | succ n ih =>
    rw [adLoop] at h; dsimp only at h
    split at h
    · simp at h
    · rename_i cand' idx' m' s1 hit
      obtain ⟨k, x, y, rfl, hx, rfl, hy, hin, hsig, hbc, hmod, hre, c, hscan⟩ := adIter_ok _ _ _ _ _ _ _ _ _ _ _ hit
      have hk : k < cand.length := by
        rw [List.getElem?_eq_some_iff] at hx; exact hx.1
      have hbest : BestOf (env.crit it ref m s.input s.signals) cand k x := by
        obtain ⟨hdef, hor⟩ := scanGo_spec _ _ _ _ _ _ _ hscan
        simp only [Nat.zero_add] at hdef hor
        rcases hor with ⟨-, -, hall⟩ | ⟨i, x', hi, hx', hfx, hlt, hall, hfirst⟩
        · obtain ⟨w, hw⟩ := hdef k x hx
          have h1 := hall k x w hx hw
          rw [hc _ _ _ _ _ _ _ _ hw] at h1
          cases h1
        · obtain rfl : k = i := by simpa using hi
          rw [hx] at hx'; cases hx'
          exact ⟨hx, c, hfx, hlt, hall, hfirst⟩
      obtain ⟨picks, ys, ms, hlen, hin', hsig', hfor, hbc', ⟨rest, hrest⟩, hmf, hz, hms0, hmsn, href, hall⟩ :=
        ih (it + 1) _ _ _ _ (by rw [List.length_eraseIdx_of_lt hk]; omega) h
      have hperm := perm_cons_eraseIdx cand k x hx
      refine ⟨x :: picks, y :: ys, fun j => if j = 0 then m else ms (j - 1), by simp [hlen], by rw [hin', hin]; simp,
        by rw [hsig', hsig]; simp, ?_, ?_, ?_, ?_, by omega, rfl, by simp [hmsn], ?_, ?_⟩
      · refine .cons hy ?_
        rw [hbc] at hfor; exact hfor
      · rw [hbc', hbc]
      · exact ⟨rest, (hrest.cons x).trans hperm⟩
      · intro _
        rcases Nat.eq_zero_or_pos n with h0 | hpos
        · rw [hz h0, hmod, ← hmsn, h0, hms0]
        · exact hmf hpos
      · rintro (_ | j) hj
        · simp only [if_true, zero_add, List.take_succ_cons, List.take_zero, one_ne_zero, if_false, Nat.sub_self, hms0]
          rw [← hin, ← hsig]; exact hre
        · have := href j (by omega)
          rw [hin, hsig] at this
          simpa using this
      · rintro (_ | j) z hz'
        · simp only [List.getElem?_cons_zero, Option.some.injEq] at hz'
          subst hz'
          exact ⟨cand, k, List.Sublist.refl _, by simp, by simpa using hbest⟩
        · obtain ⟨rem, i, hsub, hp, hb⟩ := hall j z (by simpa using hz')
          refine ⟨rem, i, hsub.trans (List.eraseIdx_sublist _ _), ?_, ?_⟩
          · simp only [List.take_succ_cons, List.cons_append]
            exact (hp.cons x).trans hperm
          · rw [hin, hsig] at hb
            simp only [List.take_succ_cons]
            rw [show it + (j + 1) = it + 1 + j by omega]
            simpa using hb

/-- **C45.**  A successful run adds exactly `n` points, taken from the candidate design without repetition (the added
points and the remaining candidates are together a rearrangement of the candidates), with their signals.  The successive
kriging models start from the one fitted to the given data; each is the update of the previous one for the design with one
more point, the last is the result.  The `k`-th added point is the first minimiser of the criterion among the candidates
remaining then, for the design enlarged by the `k` first points and its kriging model. -/
theorem C45_adaptive_run (env : AdEnv X M) (hc : CritBelow env) (cands : List X) (n : ℕ) (hn : n ≤ cands.length)
    (s s' : AdAttrs X M) (mf : M) (h : adRun env cands n s = (.ok mf, s')) :
    ∃ (picks : List X) (ys : List ℝ) (ms : ℕ → M), env.fit s.input s.signals = .ok (ms 0) ∧ picks.length = n ∧
      s'.input = s.input ++ picks ∧ s'.signals = s.signals ++ ys ∧
      List.Forall₂ (fun x y => respond env s.boxCox x = .ok y) picks ys ∧
      (∃ rest, (picks ++ rest).Perm cands) ∧
      s'.model = some mf ∧ ms n = mf ∧
      (∀ k, k < n → env.refit (ms k) (s.input ++ picks.take (k + 1)) (s.signals ++ ys.take (k + 1)) = .ok (ms (k + 1))) ∧
      ∀ k x, picks[k]? = some x → ∃ rem i, rem.Sublist cands ∧ (picks.take k ++ rem).Perm cands ∧
        BestOf (env.crit k (ms 0) (ms k) (s.input ++ picks.take k) (s.signals ++ ys.take k)) rem i x := by
  rw [adRun] at h
  split at h
  · simp at h
  · rename_i m0 hm0
    obtain ⟨picks, ys, ms, h1, h2, h3, h4, -, h5, h6, h7, h8, h9, h10, h11⟩ :=
      adLoop_ok env hc m0 n 0 cands none m0 mf _ _ hn h
    refine ⟨picks, ys, ms, by rw [h8]; exact hm0, h1, h2, h3, h4, h5, ?_, h9, h10, ?_⟩
    · rcases Nat.eq_zero_or_pos n with h0 | h0
      · rw [h7 h0, ← h9, h0, h8]
      · exact h6 h0
    · rw [h8]; simpa using h11

/-- A concrete environment: points are numbers, the criterion is the candidate itself. -/
noncomputable def demoEnv : AdEnv ℕ ℕ where
  physical x := .ok (2 * x)
  crit _ _ _ _ _ _ x := if x ≤ 100 then .ok (.fin x) else .error ⟨.runtime, ""⟩
  refit _ xs _ := .ok xs.length
  fit xs _ := .ok xs.length

example : CritBelow demoEnv := by
  intro it ref m xs ys i x v h
  simp only [demoEnv] at h
  split_ifs at h with hx
  cases h
  have : (x : ℝ) ≤ 100 := by exact_mod_cast hx
  simp only [F.lt_fin, decide_eq_true_eq]; linarith

/-- The hypotheses are met by a run with two added points. -/
theorem demo_run : adRun demoEnv [5, 3, 7] 2 ⟨[1], [1], none, none⟩ = (.ok 3, ⟨[1, 3, 5], [1, 2 * 3, 2 * 5], none, some 3⟩) := by
  simp only [adRun, demoEnv, adLoop, adIter, scanGo, respond]
  norm_num [adLoop, adIter, scanGo, respond]

/-! ## C46 -/

/-- Inputs and outputs are aligned: each output is the response at the input of the same rank. -/
def Aligned (env : AdEnv X M) (s : AdAttrs X M) : Prop :=
  List.Forall₂ (fun x y => respond env s.boxCox x = .ok y) s.input s.signals

/-- One point too many: the design without its last point is aligned and the response at that point raised. -/
def OneTooMany (env : AdEnv X M) (s : AdAttrs X M) (e : PyErr) : Prop :=
  ∃ xs x, s.input = xs ++ [x] ∧ List.Forall₂ (fun x y => respond env s.boxCox x = .ok y) xs s.signals ∧
    respond env s.boxCox x = .error e

theorem forall₂_snoc {α β : Type} {R : α → β → Prop} {l : List α} {l' : List β} {a : α} {b : β}
    (h : List.Forall₂ R l l') (hab : R a b) : List.Forall₂ R (l ++ [a]) (l' ++ [b]) :=
  List.rel_append h (.cons hab .nil)

theorem adIter_aligned (env : AdEnv X M) (ref : M) (it : ℕ) (cand : List X) (idx : Option ℕ) (m : M) (s : AdAttrs X M)
    (ha : Aligned env s) :
    (adIter env ref it cand idx m s).2.boxCox = s.boxCox ∧
    (Aligned env (adIter env ref it cand idx m s).2 ∨
      ∃ e, (adIter env ref it cand idx m s).1 = .error e ∧ OneTooMany env (adIter env ref it cand idx m s).2 e) := by
  unfold adIter
  split
  · exact ⟨rfl, Or.inl ha⟩
  · exact ⟨rfl, Or.inl ha⟩
  · rename_i c k hscan
    split
    · exact ⟨rfl, Or.inl ha⟩
    · rename_i x hx
      dsimp only
      split
      · rename_i e he
        exact ⟨rfl, Or.inr ⟨e, rfl, s.input, x, rfl, ha, he⟩⟩
      · rename_i y hy
        split
        · exact ⟨rfl, Or.inl (forall₂_snoc ha hy)⟩
        · exact ⟨rfl, Or.inl (forall₂_snoc ha hy)⟩

theorem adLoop_aligned (env : AdEnv X M) (ref : M) (n it : ℕ) (cand : List X) (idx : Option ℕ) (m : M) (s : AdAttrs X M)
    (ha : Aligned env s) :
    Aligned env (adLoop env ref n it cand idx m s).2 ∨
      ∃ e, (adLoop env ref n it cand idx m s).1 = .error e ∧ OneTooMany env (adLoop env ref n it cand idx m s).2 e := by
  induction n generalizing it cand idx m s with
  | zero => exact Or.inl ha
  | succ n ih =>
    have h := adIter_aligned env ref it cand idx m s ha
    rw [adLoop]; dsimp only
    revert h
    rcases adIter env ref it cand idx m s with ⟨e | ⟨c', i', m'⟩, s1⟩
    · rintro ⟨-, h | ⟨e', h, h'⟩⟩
      · exact Or.inl h
      · cases h; exact Or.inr ⟨e, rfl, h'⟩
    · rintro ⟨-, h | ⟨e', h, -⟩⟩
      · exact ih _ _ _ _ _ h
      · cases h

/-- **C46 (restricted).**  From an aligned design, after every run (successful or not, whatever raised) the design is
aligned, or the run raised the exception of the physical model (or of the transformation of its value) and the design has
exactly one input too many, the last one.  In particular it is aligned after every successful run.  Missing: the
interrupted case. -/
theorem C46_aligned_partial (env : AdEnv X M) (cands : List X) (n : ℕ) (s : AdAttrs X M) (ha : Aligned env s) :
    (Aligned env (adRun env cands n s).2 ∨
      ∃ e, (adRun env cands n s).1 = .error e ∧ OneTooMany env (adRun env cands n s).2 e) ∧
    (∀ m, (adRun env cands n s).1 = .ok m → Aligned env (adRun env cands n s).2) := by
  have key : Aligned env (adRun env cands n s).2 ∨
      ∃ e, (adRun env cands n s).1 = .error e ∧ OneTooMany env (adRun env cands n s).2 e := by
    rw [adRun]
    split
    · exact Or.inl ha
    · exact adLoop_aligned _ _ _ _ _ _ _ _ ha
  refine ⟨key, fun m hm => ?_⟩
  rcases key with h | ⟨e, h, -⟩
  · exact h
  · rw [hm] at h; cases h

example : Aligned demoEnv ⟨[1], [2 * (1 : ℕ)], none, none⟩ := .cons (by simp [respond, demoEnv]) .nil

/-- **C46 is violated**: whenever the physical model raises at the selected point, the object is left with more inputs than
outputs, from every aligned state. -/
theorem C46_violated (env : AdEnv X M) (ref : M) (it : ℕ) (cand : List X) (idx : Option ℕ) (m : M) (s : AdAttrs X M)
    (c : F ℝ) (k : ℕ) (x : X) (e : PyErr) (ha : Aligned env s)
    (hsel : scanGo (env.crit it ref m s.input s.signals) 0 cand (.fin 1000000000, idx) = .ok (c, some k))
    (hx : cand[k]? = some x) (he : env.physical x = .error e) :
    (adIter env ref it cand idx m s).1 = .error e ∧
    (adIter env ref it cand idx m s).2.input.length = (adIter env ref it cand idx m s).2.signals.length + 1 ∧
    ¬ Aligned env (adIter env ref it cand idx m s).2 := by
  have hr : respond env s.boxCox x = .error e := by rw [respond, he]
  have h : adIter env ref it cand idx m s = (.error e, { s with input := s.input ++ [x] }) := by
    unfold adIter
    rw [hsel]; dsimp only
    rw [hx]; dsimp only
    rw [hr]
  have hl := List.Forall₂.length_eq ha
  rw [h]
  refine ⟨rfl, by simp [hl], fun h' => ?_⟩
  have := List.Forall₂.length_eq h'
  simp [hl] at this

/-- A whole run of a new object that ends so: the second evaluation of the physical model fails. -/
theorem C46_violated_run :
    let env : AdEnv ℕ ℕ := { demoEnv with physical := fun x => if x = 5 then .error ⟨.runtime, "solver"⟩ else .ok x }
    adRun env [5, 3, 7] 2 ⟨[1], [1], none, none⟩ = (.error ⟨.runtime, "solver"⟩, ⟨[1, 3, 5], [1, 3], none, some 2⟩) := by
  simp only [adRun, demoEnv, adLoop, adIter, scanGo, respond]
  norm_num [adLoop, adIter, scanGo, respond]

/-! ## C47 -/

theorem adLoop_congr (env env' : AdEnv X M) (ref : M) (hp : env.physical = env'.physical) (hr : env.refit = env'.refit)
    (hcr : ∀ it m, env.crit it ref m = env'.crit it ref m) (n it : ℕ) (cand : List X) (idx : Option ℕ) (m : M)
    (s : AdAttrs X M) : adLoop env ref n it cand idx m s = adLoop env' ref n it cand idx m s := by
  have hresp : respond env = respond env' := by
    funext bc x; simp only [respond, hp]
  have hiter : ∀ it cand idx m s, adIter env ref it cand idx m s = adIter env' ref it cand idx m s := by
    intro it cand idx m s
    simp only [adIter, hcr, hresp, hr]
  induction n generalizing it cand idx m s with
  | zero => rfl
  | succ n ih => simp only [adLoop, hiter, ih]

/-- **C47 is violated**: in every iteration of every run the prediction function is that of the initial model.  Two
criteria that agree for that prediction function, and are arbitrary for the models refitted in the loop, give the same run:
no run ever looks at the prediction of an updated model. -/
theorem C47_violated (env env' : AdEnv X M) (cands : List X) (n : ℕ) (s : AdAttrs X M) (m0 : M)
    (hfit : env.fit s.input s.signals = .ok m0) (hfit' : env'.fit s.input s.signals = .ok m0)
    (hp : env.physical = env'.physical) (hr : env.refit = env'.refit)
    (hcr : ∀ it m, env.crit it m0 m = env'.crit it m0 m) :
    adRun env cands n s = adRun env' cands n s := by
  rw [adRun, adRun, hfit, hfit']
  exact adLoop_congr _ _ _ hp hr hcr _ _ _ _ _ _

/-- A criterion that is small for small candidates when it uses the current model, and for large ones otherwise. -/
noncomputable def staleEnv : AdEnv ℕ ℕ where
  physical x := .ok x
  crit _ ref m _ _ _ x := .ok (.fin (if ref = m then (x : ℝ) else -x))
  refit _ xs _ := .ok xs.length
  fit xs _ := .ok xs.length

/-- The second point added is 7, although with the model updated after the first iteration the best remaining candidate
is 5. -/
theorem C47_violated_witness :
    (adRun staleEnv [5, 3, 7] 2 ⟨[1], [1], none, none⟩).2.input = [1, 3, 7] ∧
    BestOf (staleEnv.crit 1 2 2 [1, 3] [1, 3]) [5, 7] 0 5 ∧
    ¬ BestOf (staleEnv.crit 1 2 2 [1, 3] [1, 3]) [5, 7] 1 7 := by
  refine ⟨?_, ?_, ?_⟩
  · simp only [adRun, staleEnv, adLoop, adIter, scanGo, respond]
    norm_num [adLoop, adIter, scanGo, respond]
  · refine ⟨rfl, .fin 5, by simp [staleEnv], by norm_num, ?_, by simp⟩
    rintro (_ | _ | j) y w hy hw <;> simp [staleEnv] at hy hw <;> subst hw <;> subst hy <;> norm_num
  · rintro ⟨-, v, hv, -, h, -⟩
    simp only [staleEnv, if_true, Except.ok.injEq] at hv
    have := h 0 5 (.fin 5) rfl (by simp [staleEnv])
    rw [← hv] at this
    norm_num at this

/-- **C47 (restricted).**  In the first iteration the prediction function is the current model.  Missing: the others. -/
theorem C47_first_iteration_partial (env : AdEnv X M) (hc : CritBelow env) (cands : List X) (n : ℕ) (hn : n ≤ cands.length)
    (s s' : AdAttrs X M) (mf : M) (h : adRun env cands n s = (.ok mf, s')) (hpos : 0 < n) :
    ∃ m0 i x, env.fit s.input s.signals = .ok m0 ∧ (s.input ++ [x]) <+: s'.input ∧
      BestOf (env.crit 0 m0 m0 s.input s.signals) cands i x := by
  obtain ⟨picks, ys, ms, h1, h2, h3, -, -, -, -, -, -, h4⟩ := C45_adaptive_run env hc cands n hn s s' mf h
  obtain ⟨x, rest, rfl⟩ : ∃ x rest, picks = x :: rest := by
    cases picks with
    | nil => simp at h2; omega
    | cons x rest => exact ⟨x, rest, rfl⟩
  obtain ⟨rem, i, hsub, hp, hb⟩ := h4 0 x rfl
  have hrem : rem = cands := hsub.eq_of_length (by simpa using hp.length_eq)
  subst hrem
  exact ⟨ms 0, i, x, h1, ⟨rest, by rw [h3]; simp⟩, by simpa using hb⟩

/-! ## C48 -/

/-- **C48 (restricted).**  If some candidate has a criterion below 1e9, the iteration that gets to the selection chooses
the first minimiser of this iteration's values, whatever the earlier choice; without candidates it raises.  Missing: the
case where every value is NaN or at least 1e9. -/
theorem C48_selection_partial (env : AdEnv X M) (ref : M) (it : ℕ) (cand : List X) (idx : Option ℕ) (m : M)
    (s s' : AdAttrs X M) :
    (∀ out, adIter env ref it cand idx m s = (.ok out, s') →
      (∃ j y w, cand[j]? = some y ∧ env.crit it ref m s.input s.signals j y = .ok w ∧
        F.lt w (.fin 1000000000) = true) →
      ∃ i x, out.2.1 = some i ∧ BestOf (env.crit it ref m s.input s.signals) cand i x ∧ s'.input = s.input ++ [x]) ∧
    (cand = [] → Raises (adIter env ref it cand idx m s).1 .indexError ∨
      Raises (adIter env ref it cand idx m s).1 .unboundLocal) := by
  constructor
  · rintro ⟨cand', idx', m'⟩ h ⟨j, y, w, hj, hw, hlt⟩
    obtain ⟨k, x, y', rfl, hx, -, -, hin, -, -, -, -, c, hscan⟩ := adIter_ok _ _ _ _ _ _ _ _ _ _ _ h
    obtain ⟨hdef, hor⟩ := scanGo_spec _ _ _ _ _ _ _ hscan
    simp only [Nat.zero_add] at hdef hor
    rcases hor with ⟨-, -, hall⟩ | ⟨i, x', hi, hx', hfx, hlt', hall, hfirst⟩
    · have := hall j y w hj hw
      rw [hlt] at this; cases this
    · obtain rfl : k = i := by simpa using hi
      rw [hx] at hx'; cases hx'
      exact ⟨k, x, rfl, ⟨hx, c, hfx, hlt', hall, hfirst⟩, hin⟩
  · rintro rfl
    cases idx <;> simp [adIter, scanGo, Raises]

/-- **C48 is violated**: when every criterion of an iteration is NaN (or not below 1e9) the index of the previous iteration
is used again; the candidate now at that rank is added although nothing was computed in its favour. -/
theorem C48_violated (env : AdEnv X M) (ref : M) (it : ℕ) (cand : List X) (k : ℕ) (m : M) (s : AdAttrs X M) (x : X) (y : ℝ)
    (m' : M) (hnan : ∀ j z, cand[j]? = some z → ∃ w, env.crit it ref m s.input s.signals j z = .ok w ∧
      F.lt w (.fin 1000000000) = false)
    (hx : cand[k]? = some x) (hy : respond env s.boxCox x = .ok y)
    (hm : env.refit m (s.input ++ [x]) (s.signals ++ [y]) = .ok m') :
    ∃ s', adIter env ref it cand (some k) m s = (.ok (cand.eraseIdx k, some k, m'), s') ∧ s'.input = s.input ++ [x] := by
  have hscan : ∀ (f : ℕ → X → Res (F ℝ)) (l : List X) (r : ℕ) (acc : F ℝ × Option ℕ),
      (∀ j z, l[j]? = some z → ∃ w, f (r + j) z = .ok w ∧ F.lt w acc.1 = false) → scanGo f r l acc = .ok acc := by
    intro f l
    induction l with
    | nil => intros; rfl
    | cons a l ih =>
      intro r acc h
      obtain ⟨w, hw, hlt⟩ := h 0 a rfl
      rw [Nat.add_zero] at hw
      rw [scanGo, hw]; dsimp only
      rw [if_neg (by simp [hlt])]
      apply ih
      intro j z hz
      have := h (j + 1) z (by simpa using hz)
      rwa [show r + (j + 1) = r + 1 + j by omega] at this
  have h1 := hscan (env.crit it ref m s.input s.signals) cand 0 (.fin 1000000000, some k)
    (fun j z hz => by simpa using hnan j z hz)
  refine ⟨⟨s.input ++ [x], s.signals ++ [y], s.boxCox, some m'⟩, ?_, rfl⟩
  unfold adIter
  rw [h1]; dsimp only
  rw [hx]; dsimp only
  rw [hy]; dsimp only
  rw [hm]

/-- A whole successful run with a NaN iteration, and the failure (UnboundLocalError, not a message about the criterion)
when the first iteration is NaN. -/
theorem C48_violated_run :
    let env : AdEnv ℕ ℕ := { demoEnv with crit := fun it _ _ _ _ _ x => .ok (if it = 0 then .fin x else .nan) }
    let env' : AdEnv ℕ ℕ := { demoEnv with crit := fun _ _ _ _ _ _ _ => .ok .nan }
    (adRun env [5, 3, 7] 2 ⟨[1], [1], none, none⟩).2.input = [1, 3, 7] ∧
    (adRun env [5, 3, 7] 2 ⟨[1], [1], none, none⟩).1 = .ok 3 ∧
    Raises (adRun env' [5, 3, 7] 2 ⟨[1], [1], none, none⟩).1 .unboundLocal := by
  simp only [adRun, demoEnv, adLoop, adIter, scanGo, respond]
  norm_num [adLoop, adIter, scanGo, respond, Raises]

/-! ## C49 -/

theorem boxCoxInv_boxCoxFun (lam x : ℝ) (hx : 0 < x) : boxCoxInv lam (boxCoxFun lam x) = x := by
  unfold boxCoxInv boxCoxFun
  split_ifs with h
  · exact Real.exp_log hx
  · rw [mul_div_cancel₀ _ h, sub_add_cancel, Real.rpow_rpow_inv hx.le h]

theorem respond_inv (env : AdEnv X M) (bc : Option (ℝ × ℝ)) (x : X) (y : ℝ) (h : respond env bc x = .ok y) :
    ∃ z, env.physical x = .ok z ∧ z = bc.elim y (fun p => boxCoxInv p.1 y - p.2) := by
  unfold respond at h
  cases hp : env.physical x with
  | error e => rw [hp] at h; cases h
  | ok z =>
    rw [hp] at h
    refine ⟨z, rfl, ?_⟩
    rcases bc with _ | ⟨lam, shift⟩
    · cases h; rfl
    · dsimp only [Option.elim] at h ⊢
      rw [boxCoxTransform] at h
      split_ifs at h with hpos
      cases h
      rw [boxCoxInv_boxCoxFun _ _ hpos]; ring

theorem adLoop_outputs (env : AdEnv X M) (ref : M) (n it : ℕ) (cand : List X) (idx : Option ℕ) (m mf : M)
    (s s' : AdAttrs X M) (h : adLoop env ref n it cand idx m s = (.ok mf, s')) :
    s'.boxCox = s.boxCox ∧ ∃ picks zs, picks.length = n ∧ s'.input = s.input ++ picks ∧
      List.Forall₂ (fun x z => env.physical x = .ok z) picks zs ∧ getOutputDOE s' = getOutputDOE s ++ zs := by
  induction n generalizing it cand idx m s with
  | zero =>
    simp only [adLoop, Prod.mk.injEq, Except.ok.injEq] at h
    obtain ⟨rfl, rfl⟩ := h
    exact ⟨rfl, [], [], rfl, by simp, .nil, by simp⟩
  | succ n ih =>
    rw [adLoop] at h; dsimp only at h
    split at h
    · simp at h
    · rename_i cand' idx' m' s1 hit
      obtain ⟨k, x, y, rfl, hx, rfl, hy, hin, hsig, hbc, hmod, hre, c, hscan⟩ := adIter_ok _ _ _ _ _ _ _ _ _ _ _ hit
      obtain ⟨hb, picks, zs, hl, hin', hf, ho⟩ := ih _ _ _ _ _ h
      obtain ⟨z, hz, hzy⟩ := respond_inv env s.boxCox x y hy
      refine ⟨hb.trans hbc, x :: picks, z :: zs, by simp [hl], by rw [hin', hin]; simp, .cons hz hf, ?_⟩
      have h1 : getOutputDOE s1 = getOutputDOE s ++ [z] := by
        simp only [getOutputDOE, hbc, hsig, hzy]
        rcases s.boxCox with _ | ⟨lam, shift⟩ <;> simp
      rw [ho, h1]; simp

/-- **C49.**  (1) For the data prepared by the constructor `getOutputDOE` returns the raw signals of the kept observations.
(2) After a successful run it returns what it returned before followed by the values of the physical model at the added
points. -/
theorem C49_output_round_trip :
    (∀ {α G : Type} (fmax : ℝ) (bc : List α → List ℝ → ℝ → Res (ℝ × G)) (obs : List (α × ℝ)) (d noise sat : Option ℝ)
      (boxCox cens : Bool) (st st' : BoxCoxAttrs G) (r : RunResult α) (mdl : Option M),
      podRun fmax bc obs d noise sat boxCox cens st = (.ok r, st') →
      let kept := if cens then uncensoredObs fmax obs noise sat else obs
      let s : AdAttrs α M := ⟨r.obs.map Prod.fst, r.obs.map Prod.snd, r.transform.map fun l => (l, r.shift), mdl⟩
      s.input = kept.map Prod.fst ∧ getOutputDOE s = kept.map Prod.snd) ∧
    (∀ (env : AdEnv X M) (cands : List X) (n : ℕ) (s s' : AdAttrs X M) (mf : M), adRun env cands n s = (.ok mf, s') →
      ∃ picks zs, picks.length = n ∧ s'.input = s.input ++ picks ∧
        List.Forall₂ (fun x z => env.physical x = .ok z) picks zs ∧ getOutputDOE s' = getOutputDOE s ++ zs) := by
  constructor
  · intro α G fmax bc obs d noise sat boxCox cens st st' r mdl h
    unfold podRun at h
    dsimp only at h ⊢
    generalize (if cens = true then uncensoredObs fmax obs noise sat else obs) = kept at h ⊢
    by_cases hb : boxCox = true
    · rw [if_pos hb] at h
      split at h
      · simp at h
      · rename_i shift hs
        split at h
        · simp at h
        · rename_i lam graph hg
          split at h
          · simp at h
          · rename_i sig hsig
            split at h
            · simp at h
            · split at h
              · simp at h
              · split at h
                · simp at h
                · split at h
                  · simp at h
                  · simp only [Prod.mk.injEq, Except.ok.injEq] at h
                    obtain ⟨rfl, -⟩ := h
                    rw [boxCoxSample] at hsig
                    split_ifs at hsig with hpos
                    cases hsig
                    have hl : (kept.map Prod.fst).length = (((kept.map Prod.snd).map (· + shift)).map (boxCoxFun lam)).length := by
                      simp
                    simp only [getOutputDOE, Option.map_some]
                    rw [List.map_fst_zip (l₁ := kept.map Prod.fst) hl.le, List.map_snd_zip (l₁ := kept.map Prod.fst) hl.ge]
                    refine ⟨rfl, ?_⟩
                    simp only [List.map_map]
                    apply List.map_congr_left
                    intro o ho
                    have : 0 < o.2 + shift := hpos _ (List.mem_map_of_mem (List.mem_map_of_mem ho))
                    simp only [Function.comp]
                    rw [boxCoxInv_boxCoxFun _ _ this]; ring
    · rw [if_neg hb] at h
      cases h
      exact ⟨rfl, rfl⟩
  · intro env cands n s s' mf h
    rw [adRun] at h
    split at h
    · simp at h
    · obtain ⟨-, picks, zs, h1, h2, h3, h4⟩ := adLoop_outputs _ _ _ _ _ _ _ _ _ _ h
      exact ⟨picks, zs, h1, h2, h3, h4⟩

example : boxCoxTransform 2 3 = .ok 4 ∧ boxCoxInv 2 4 = 3 := by
  have h : boxCoxFun 2 3 = 4 := by norm_num [boxCoxFun]
  refine ⟨by norm_num [boxCoxTransform, h], ?_⟩
  rw [← h, boxCoxInv_boxCoxFun _ _ (by norm_num)]

end Verif.Props
