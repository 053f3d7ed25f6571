import Verif.Props.HitMissCorrection

/-!
# C223, C224: the values of the corrected classifier (/repo/otpod/_adaptive_hitmiss_pod.py 260-375)
-/

namespace Verif.Props
open Verif.Py Verif.Model

variable {X : Type}

/-! ## The last iteration of a run -/

/-- A loop that returns either does nothing or ends with an iteration; the initial classifier stays first in the list. -/
theorem hmLoop_last (env : HMEnv X) (cand : List X) (nIni nMore fuel : ℕ) (g : X → F ℝ) (loc loc' : HMLocals X) (s s' : HMAttrs X)
    (hg : loc.clfs.head? = some (.base g)) (h : hmLoop env cand nIni nMore fuel loc s = (.ok loc', s')) :
    (loc' = loc ∧ s' = s ∧ ¬ loc.nAdded < nMore) ∨
    ∃ l1 s1, l1.clfs.head? = some (.base g) ∧ hmIter env cand nIni nMore l1 s1 = (.ok loc', s') := by
  induction fuel generalizing loc s with
  | zero =>
    rw [hmLoop] at h
    dsimp only at h
    by_cases hn : loc.nAdded < nMore
    · rw [if_pos hn] at h; simp at h
    · rw [if_neg hn] at h
      simp only [Prod.mk.injEq, Except.ok.injEq] at h
      exact Or.inl ⟨h.1.symm, h.2.symm, hn⟩
  | succ fuel ih =>
    rw [hmLoop] at h
    dsimp only at h
    by_cases hn : loc.nAdded < nMore
    · rw [if_pos hn] at h
      cases hit : hmIter env cand nIni nMore loc s with
      | mk r s1 =>
        rw [hit] at h
        cases r with
        | error e => simp at h
        | ok loc1 =>
          dsimp only at h
          obtain ⟨hc, -⟩ := hmIter_clfs env cand _ _ _ loc1 _ s1 hit
          have hg1 : loc1.clfs.head? = some (.base g) := by
            rw [hc]
            cases hl : loc.clfs with
            | nil => rw [hl] at hg; simp at hg
            | cons c cs => rw [hl] at hg; simpa using hg
          rcases ih loc1 s1 hg1 h with ⟨rfl, rfl, -⟩ | h'
          · exact Or.inr ⟨loc, s, hg, hit⟩
          · exact Or.inr h'
    · rw [if_neg hn] at h
      simp only [Prod.mk.injEq, Except.ok.injEq] at h
      exact Or.inl ⟨h.1.symm, h.2.symm, hn⟩

/-- A successful run that adds points ends with an iteration. -/
theorem hmRun_last (env : HMEnv X) (cand : List X) (nMore : ℕ) (h0 : 0 < nMore) (s s' : HMAttrs X) (h : hmRun env cand nMore s = (.ok (), s')) :
    ∃ g l1 s1 l2 s2, env.fit 0 s.input s.labels = .ok g ∧ l1.clfs.head? = some (.base g) ∧
      hmIter env cand s.input.length nMore l1 s1 = (.ok l2, s2) ∧ s'.input = s2.input ∧ s'.labels = s2.labels ∧ s'.model = s2.model := by
  unfold hmRun at h
  by_cases hn : s.numpy = true
  · rw [if_pos hn] at h; simp at h
  · rw [if_neg hn] at h
    dsimp only at h
    cases hf : env.fit 0 s.input s.labels with
    | error e => rw [hf] at h; simp at h
    | ok g =>
      rw [hf] at h
      dsimp only at h
      cases hl : hmLoop env cand s.input.length nMore nMore ⟨[.base g], .base g, none, 0, 0⟩ { { s with numpy := true } with model := some (.base g, none) } with
      | mk r s2 =>
        rw [hl] at h
        cases r with
        | error e => simp at h
        | ok loc' =>
          simp only [Prod.mk.injEq, true_and] at h
          rcases hmLoop_last env cand s.input.length nMore nMore g _ loc' _ s2 (by rfl) hl with ⟨-, -, hlt⟩ | ⟨l1, s1, hg, hit⟩
          · exact absurd h0 hlt
          · exact ⟨g, l1, s1, loc', s2, rfl, hg, hit, by rw [← h], by rw [← h], by rw [← h]⟩

/-! ## NaN -/

theorem foldl_nan (l : List (F ℝ)) (acc : F ℝ) (h : acc = .nan ∨ .nan ∈ l) : l.foldl (fun acc p => F.add p acc) acc = .nan := by
  induction l generalizing acc with
  | nil => rcases h with h | h
           · exact h
           · simp at h
  | cons a l ih =>
    rw [List.foldl_cons]
    refine ih _ ?_
    rcases h with rfl | h
    · left; cases a <;> rfl
    · rcases List.mem_cons.mp h with h | h
      · left; rw [← h]; rfl
      · exact Or.inr h

theorem meanConf_nan (labels : List Bool) (probs : List (List (F ℝ))) (i j : Bool) (p : List (F ℝ)) (hp : p ∈ probs)
    (h : classifierConf labels p i j = .nan) : meanConf labels probs i j = .nan := by
  have e : probs.foldl (fun acc p => F.add (classifierConf labels p i j) acc) (.fin 0) =
      (probs.map fun p => classifierConf labels p i j).foldl (fun acc p => F.add p acc) (.fin 0) := by rw [List.foldl_map]
  rw [meanConf, e, foldl_nan _ _ (Or.inr (List.mem_map.mpr ⟨p, hp, h⟩))]
  rfl

theorem aggregate_nan (p11 p10 p : F ℝ) (h : p11 = .nan ∨ p10 = .nan) : aggregate p11 p10 p = .nan := by
  have hs : F.sub p11 p10 = .nan := by
    rcases h with rfl | rfl
    · rfl
    · cases p11 <;> rfl
  rw [aggregate, hs]
  rfl

/-- A classifier that predicts one class only on the design has a column of zeros, which becomes NaN. -/
theorem classifierConf_single (g : X → F ℝ) (input : List X) (labels : List Bool) (b : Bool)
    (h : ∀ x ∈ input, F.ge (g x) (.fin (1 / 2)) = b) (i : Bool) : classifierConf labels (input.map g) i (!b) = .nan := by
  have hz : ∀ i, outcomes g input labels i (!b) = 0 := by
    intro i
    rw [outcomes, List.countP_eq_zero]
    intro q hq
    have := h q.1 (List.of_mem_zip hq).1
    rw [this]
    cases b <;> simp
  rw [classifierConf, colNorm, confCount_outcomes, confCount_outcomes, confCount_outcomes, hz, hz, hz]
  simp [F.div, F.infSign]

/-- The variables of the closure after an iteration in which the initial classifier predicts one class only. -/
theorem iter_nan (env : HMEnv X) (cand : List X) (nIni nMore : ℕ) (g : X → F ℝ) (l1 l2 : HMLocals X) (s1 s2 : HMAttrs X)
    (hg : l1.clfs.head? = some (.base g)) (hit : hmIter env cand nIni nMore l1 s1 = (.ok l2, s2)) (b : Bool)
    (hb : ∀ x ∈ s2.input, F.ge (g x) (.fin (1 / 2)) = b) :
    ∃ v, l2.vars = some v ∧ s2.model = some (.agg, some v) ∧ (v.p11 = .nan ∨ v.p10 = .nan) := by
  obtain ⟨-, conf, alg, -, h8, h9, -⟩ := hmIter_clfs env cand _ _ _ l2 _ s2 hit
  have hm := hmIter_model env cand _ _ _ l2 _ s2 hit
  have hmem : Clf.base g ∈ l1.clfs := List.mem_of_head? hg
  have hn : conf true (!b) = .nan := by
    rw [h9]
    refine meanConf_nan _ _ _ _ (s2.input.map ((Clf.base g).eval l1.vars)) (List.mem_map.mpr ⟨_, hmem, rfl⟩) ?_
    exact classifierConf_single g s2.input s2.labels b hb true
  refine ⟨_, h8, by rw [hm, h8], ?_⟩
  cases b
  · left; exact hn
  · right; exact hn

/-- **C224 is violated.**  Every successful run with points to add, however many: if the initial classifier predicts the same class for all
points of the final design, the classifier of the POD gives NaN for every point, and so does every sum of its values (the POD is their mean). -/
theorem C224_violated (env : HMEnv X) (cand : List X) (nMore : ℕ) (h0 : 0 < nMore) (s s' : HMAttrs X) (h : hmRun env cand nMore s = (.ok (), s'))
    (g : X → F ℝ) (hg : env.fit 0 s.input s.labels = .ok g) (b : Bool) (hb : ∀ x ∈ s'.input, F.ge (g x) (.fin (1 / 2)) = b) :
    ∃ c v, s'.model = some (c, v) ∧ (∀ x, c.eval v x = .nan) ∧
      ∀ xs : List X, xs ≠ [] → (xs.map (c.eval v)).foldl (fun acc p => F.add p acc) (.fin 0) = .nan := by
  obtain ⟨g', l1, s1, l2, s2, hg', hh, hit, e1, e2, e3⟩ := hmRun_last env cand nMore h0 s s' h
  have : g' = g := by rw [hg] at hg'; exact (Except.ok.inj hg').symm
  subst this
  rw [e1] at hb
  obtain ⟨v, -, hm, hv⟩ := iter_nan env cand _ nMore _ l1 l2 s1 s2 hh hit b hb
  have hall : ∀ x, (Clf.agg : Clf X).eval (some v) x = .nan := fun x => aggregate_nan v.p11 v.p10 (v.alg x) hv
  refine ⟨.agg, some v, by rw [e3, hm], hall, fun xs hx => foldl_nan _ _ (Or.inr ?_)⟩
  obtain ⟨x, hx⟩ := List.exists_mem_of_ne_nil xs hx
  exact List.mem_map.mpr ⟨x, hx, hall x⟩

/-- **C224 is violated, more batches.**  If this happens at an iteration which is not the last one, the next iteration raises IndexError (no
candidate has a probability in the window). -/
theorem C224_violated_stops (env : HMEnv X) (ha : ArgsortSpec env.argsort) (cand : List X) (nIni nMore fuel : ℕ) (g : X → F ℝ) (l1 l2 : HMLocals X)
    (s1 s2 : HMAttrs X) (hg : l1.clfs.head? = some (.base g)) (hit : hmIter env cand nIni nMore l1 s1 = (.ok l2, s2)) (b : Bool)
    (hb : ∀ x ∈ s2.input, F.ge (g x) (.fin (1 / 2)) = b) (hmore : l2.nAdded < nMore) :
    Raises (hmLoop env cand nIni nMore (fuel + 1) l2 s2).1 .indexError ∧ (hmLoop env cand nIni nMore (fuel + 1) l2 s2).2 = s2 := by
  obtain ⟨v, hv, -, hn⟩ := iter_nan env cand _ nMore _ l1 l2 s1 s2 hg hit b hb
  have hcur : l2.cur = .agg := by
    unfold hmIter at hit
    split at hit
    · simp at hit
    · dsimp only at hit
      split at hit
      · simp at hit
      · split at hit
        · simp at hit
        · simp only [Prod.mk.injEq, Except.ok.injEq] at hit
          obtain ⟨rfl, -⟩ := hit
          rfl
  have hno : ∀ i, ¬ InWindow s2.pmin s2.pmax (cand.map (l2.cur.eval l2.vars)) i := by
    intro i hi
    obtain ⟨-, -, h2⟩ := hi
    have hall : ∀ x, (Clf.agg : Clf X).eval (some v) x = .nan := fun x => aggregate_nan v.p11 v.p10 (v.alg x) hn
    have : (cand.map (l2.cur.eval l2.vars)).getD i .nan = .nan := by
      rw [hcur, hv, List.getD_eq_getElem?_getD, List.getElem?_map]
      cases cand[i]? with
      | none => rfl
      | some x => exact hall x
    rw [this] at h2
    simp [F.lt] at h2
  obtain ⟨⟨m, hm⟩, hs⟩ := C52_violated env ha cand nIni nMore l2 s2 hno
  rw [hmLoop]
  dsimp only
  rw [if_pos hmore]
  revert hm hs
  rcases hmIter env cand nIni nMore l2 s2 with ⟨r, t⟩
  rintro rfl rfl
  exact ⟨⟨m, rfl⟩, rfl⟩

/-! ## One batch -/

/-- The entries used by the correction after a run with one batch. -/
theorem one_batch_entries (env : HMEnv X) (ha : ArgsortSpec env.argsort) (cand : List X) (nMore : ℕ) (h0 : 0 < nMore) (h5 : nMore ≤ 5)
    (s s' : HMAttrs X) (h : hmRun env cand nMore s = (.ok (), s')) :
    ∃ g v, env.fit 0 s.input s.labels = .ok g ∧ s'.model = some (.agg, some v) ∧ env.fit 1 s'.input s'.labels = .ok v.alg ∧
      (0 < outcomes g s'.input s'.labels true true + outcomes g s'.input s'.labels false true →
        v.p11 = .fin ((outcomes g s'.input s'.labels true true : ℝ) / (outcomes g s'.input s'.labels false true + outcomes g s'.input s'.labels true true))) ∧
      (0 < outcomes g s'.input s'.labels true false + outcomes g s'.input s'.labels false false →
        v.p10 = .fin ((outcomes g s'.input s'.labels true false : ℝ) / (outcomes g s'.input s'.labels false false + outcomes g s'.input s'.labels true false))) := by
  obtain ⟨g, alg, hg, halg, hmodel⟩ := one_batch env ha cand nMore h0 h5 s s' h
  refine ⟨g, _, hg, hmodel, halg, fun hp => ?_, fun hp => ?_⟩
  · have r : ((outcomes g s'.input s'.labels false true : ℝ) + outcomes g s'.input s'.labels true true) ≠ 0 := by
      have : (0 : ℝ) < ((outcomes g s'.input s'.labels true true + outcomes g s'.input s'.labels false true : ℕ) : ℝ) := by exact_mod_cast hp
      push_cast at this
      linarith
    apply meanConf_one
    rw [classifierConf, colNorm, confCount_outcomes, confCount_outcomes, F.div_fin _ r]
  · have r : ((outcomes g s'.input s'.labels false false : ℝ) + outcomes g s'.input s'.labels true false) ≠ 0 := by
      have : (0 : ℝ) < ((outcomes g s'.input s'.labels true false + outcomes g s'.input s'.labels false false : ℕ) : ℝ) := by exact_mod_cast hp
      push_cast at this
      linarith
    apply meanConf_one
    rw [classifierConf, colNorm, confCount_outcomes, confCount_outcomes, F.div_fin _ r]

/-- Comparison of the two entries. -/
theorem entries_lt (A B C E : ℕ) (h1 : 0 < A + B) (h2 : 0 < C + E) :
    ((A : ℝ) / (B + A) < C / (E + C) ↔ A * E < B * C) ∧ ((C : ℝ) / (E + C) < A / (B + A) ↔ B * C < A * E) := by
  have p1 : (0 : ℝ) < B + A := by have : (0 : ℝ) < ((A + B : ℕ) : ℝ) := by exact_mod_cast h1
                                  push_cast at this; linarith
  have p2 : (0 : ℝ) < E + C := by have : (0 : ℝ) < ((C + E : ℕ) : ℝ) := by exact_mod_cast h2
                                  push_cast at this; linarith
  rw [div_lt_div_iff₀ p1 p2, div_lt_div_iff₀ p2 p1]
  constructor
  · rw [← Nat.cast_lt (α := ℝ)]
    push_cast
    constructor <;> intro h <;> nlinarith
  · rw [← Nat.cast_lt (α := ℝ)]
    push_cast
    constructor <;> intro h <;> nlinarith

/-- **C223, restricted; C224, restricted.**  Runs with one batch; `tp`, `fp`, `fn`, `tn` count the right and wrong detections and the wrong and
right misses of the initial classifier on the final design, both classes being predicted.  When it is better than chance, `fp * fn < tp * tn`, the
corrected values are numbers between 0 and 1 in the order of the values of the new classifier.  Several batches: `C223_batches_partial`. -/
theorem C223_better_partial (env : HMEnv X) (ha : ArgsortSpec env.argsort) (cand : List X) (nMore : ℕ) (h0 : 0 < nMore) (h5 : nMore ≤ 5)
    (s s' : HMAttrs X) (h : hmRun env cand nMore s = (.ok (), s')) :
    ∃ g v, env.fit 0 s.input s.labels = .ok g ∧ s'.model = some (.agg, some v) ∧ env.fit 1 s'.input s'.labels = .ok v.alg ∧
      ∀ tp fp fn tn : ℕ, outcomes g s'.input s'.labels true true = tp → outcomes g s'.input s'.labels false true = fp →
        outcomes g s'.input s'.labels true false = fn → outcomes g s'.input s'.labels false false = tn → 0 < tp + fp → 0 < fn + tn →
        fp * fn < tp * tn → ∀ x y p p', v.alg x = .fin p → v.alg y = .fin p' → p ≤ p' →
          ∃ q q' : ℝ, (Clf.agg : Clf X).eval (some v) x = .fin q ∧ (Clf.agg : Clf X).eval (some v) y = .fin q' ∧ 0 ≤ q ∧ q ≤ q' ∧ q' ≤ 1 := by
  obtain ⟨g, v, hg, hm, hf, e1, e2⟩ := one_batch_entries env ha cand nMore h0 h5 s s' h
  refine ⟨g, v, hg, hm, hf, ?_⟩
  intro tp fp fn tn t1 t2 t3 t4 k1 k2 hD x y p p' hx hy hpp
  rw [t1, t2] at e1
  rw [t3, t4] at e2
  have hab := (entries_lt tp fp fn tn k1 k2).2.mpr hD
  have hagg : ∀ z r, v.alg z = .fin r → (Clf.agg : Clf X).eval (some v) z = .fin (min (max ((r - (fn : ℝ) / (tn + fn)) / ((tp : ℝ) / (fp + tp) - fn / (tn + fn))) 0) 1) := by
    intro z r hz
    change aggregate v.p11 v.p10 (v.alg z) = _
    rw [e1 k1, e2 k2, hz, aggregate_fin _ _ _ hab.ne']
  refine ⟨_, _, hagg x p hx, hagg y p' hy, le_min (le_max_right _ _) zero_le_one, ?_, min_le_right _ _⟩
  refine min_le_min_right _ (max_le_max_right _ ?_)
  exact div_le_div_of_nonneg_right (by linarith) (by linarith)

/-- **C223 is violated.**  Same runs, initial classifier worse than chance on the final design, `tp * tn < fp * fn`: the order is reversed, strictly
between the two entries of the confusion matrix. -/
theorem C223_violated (env : HMEnv X) (ha : ArgsortSpec env.argsort) (cand : List X) (nMore : ℕ) (h0 : 0 < nMore) (h5 : nMore ≤ 5)
    (s s' : HMAttrs X) (h : hmRun env cand nMore s = (.ok (), s')) :
    ∃ g v, env.fit 0 s.input s.labels = .ok g ∧ s'.model = some (.agg, some v) ∧ env.fit 1 s'.input s'.labels = .ok v.alg ∧
      ∀ tp fp fn tn : ℕ, outcomes g s'.input s'.labels true true = tp → outcomes g s'.input s'.labels false true = fp →
        outcomes g s'.input s'.labels true false = fn → outcomes g s'.input s'.labels false false = tn → 0 < tp + fp → 0 < fn + tn →
        tp * tn < fp * fn → ∀ x y p p', v.alg x = .fin p → v.alg y = .fin p' → p < p' →
          ∃ q q' : ℝ, (Clf.agg : Clf X).eval (some v) x = .fin q ∧ (Clf.agg : Clf X).eval (some v) y = .fin q' ∧ q' ≤ q ∧
            ((tp : ℝ) / (fp + tp) ≤ p → p' ≤ (fn : ℝ) / (tn + fn) → q' < q) := by
  obtain ⟨g, v, hg, hm, hf, e1, e2⟩ := one_batch_entries env ha cand nMore h0 h5 s s' h
  refine ⟨g, v, hg, hm, hf, ?_⟩
  intro tp fp fn tn t1 t2 t3 t4 k1 k2 hD x y p p' hx hy hpp
  rw [t1, t2] at e1
  rw [t3, t4] at e2
  have hab := (entries_lt tp fp fn tn k1 k2).1.mpr hD
  have hagg : ∀ z r, v.alg z = .fin r → (Clf.agg : Clf X).eval (some v) z = .fin (min (max ((r - (fn : ℝ) / (tn + fn)) / ((tp : ℝ) / (fp + tp) - fn / (tn + fn))) 0) 1) := by
    intro z r hz
    change aggregate v.p11 v.p10 (v.alg z) = _
    rw [e1 k1, e2 k2, hz, aggregate_fin _ _ _ hab.ne]
  refine ⟨_, _, hagg x p hx, hagg y p' hy, ?_, ?_⟩
  · refine min_le_min_right _ (max_le_max_right _ ?_)
    exact div_le_div_of_nonpos_of_le (by linarith) (by linarith)
  · intro hl hu
    set a := (tp : ℝ) / (fp + tp)
    set b := (fn : ℝ) / (tn + fn)
    have hneg : a - b < 0 := by linarith
    have b1 : 0 ≤ (p' - b) / (a - b) := div_nonneg_of_nonpos (by linarith) hneg.le
    have b2 : (p - b) / (a - b) ≤ 1 := by rw [div_le_one_of_neg hneg]; linarith
    have b3 : (p' - b) / (a - b) < (p - b) / (a - b) := by rw [div_lt_div_right_of_neg hneg]; linarith
    rw [max_eq_left b1, max_eq_left (b1.trans b3.le), min_eq_left b2, min_eq_left (b3.le.trans b2)]
    exact b3

/-- **C224, restricted: no better than chance.**  Same runs with `tp * tn = fp * fn`: the corrected value is 0 below the common entry, 1 above, NaN at it. -/
theorem C224_chance_partial (env : HMEnv X) (ha : ArgsortSpec env.argsort) (cand : List X) (nMore : ℕ) (h0 : 0 < nMore) (h5 : nMore ≤ 5)
    (s s' : HMAttrs X) (h : hmRun env cand nMore s = (.ok (), s')) :
    ∃ g v, env.fit 0 s.input s.labels = .ok g ∧ s'.model = some (.agg, some v) ∧ env.fit 1 s'.input s'.labels = .ok v.alg ∧
      ∀ tp fp fn tn : ℕ, outcomes g s'.input s'.labels true true = tp → outcomes g s'.input s'.labels false true = fp →
        outcomes g s'.input s'.labels true false = fn → outcomes g s'.input s'.labels false false = tn → 0 < tp + fp → 0 < fn + tn →
        tp * tn = fp * fn → ∀ x p, v.alg x = .fin p →
          (Clf.agg : Clf X).eval (some v) x = if p < (tp : ℝ) / (fp + tp) then .fin 0 else if p = (tp : ℝ) / (fp + tp) then .nan else .fin 1 := by
  obtain ⟨g, v, hg, hm, hf, e1, e2⟩ := one_batch_entries env ha cand nMore h0 h5 s s' h
  refine ⟨g, v, hg, hm, hf, ?_⟩
  intro tp fp fn tn t1 t2 t3 t4 k1 k2 hD x p hx
  rw [t1, t2] at e1
  rw [t3, t4] at e2
  obtain ⟨c1, c2⟩ := entries_lt tp fp fn tn k1 k2
  have hab : (tp : ℝ) / (fp + tp) = fn / (tn + fn) := by
    refine le_antisymm (not_lt.mp fun hlt => ?_) (not_lt.mp fun hlt => ?_)
    · have := c2.mp hlt; omega
    · have := c1.mp hlt; omega
  change aggregate v.p11 v.p10 (v.alg x) = _
  rw [e1 k1, e2 k2, hx, ← hab]
  exact C54_degenerate _ _

/-- **C224, restricted: numbers.**  Same runs, both classes predicted, `tp * tn ≠ fp * fn`: the corrected values are probabilities. -/
theorem C224_numbers_partial (env : HMEnv X) (ha : ArgsortSpec env.argsort) (cand : List X) (nMore : ℕ) (h0 : 0 < nMore) (h5 : nMore ≤ 5)
    (s s' : HMAttrs X) (h : hmRun env cand nMore s = (.ok (), s')) :
    ∃ g v, env.fit 0 s.input s.labels = .ok g ∧ s'.model = some (.agg, some v) ∧ env.fit 1 s'.input s'.labels = .ok v.alg ∧
      ∀ tp fp fn tn : ℕ, outcomes g s'.input s'.labels true true = tp → outcomes g s'.input s'.labels false true = fp →
        outcomes g s'.input s'.labels true false = fn → outcomes g s'.input s'.labels false false = tn → 0 < tp + fp → 0 < fn + tn →
        tp * tn ≠ fp * fn → ∀ x p, v.alg x = .fin p → ∃ q : ℝ, (Clf.agg : Clf X).eval (some v) x = .fin q ∧ 0 ≤ q ∧ q ≤ 1 := by
  obtain ⟨g, v, hg, hm, hf, e1, e2⟩ := one_batch_entries env ha cand nMore h0 h5 s s' h
  refine ⟨g, v, hg, hm, hf, ?_⟩
  intro tp fp fn tn t1 t2 t3 t4 k1 k2 hD x p hx
  rw [t1, t2] at e1
  rw [t3, t4] at e2
  obtain ⟨c1, c2⟩ := entries_lt tp fp fn tn k1 k2
  have hab : (tp : ℝ) / (fp + tp) ≠ fn / (tn + fn) := by
    rcases Nat.lt_or_gt_of_ne hD with hlt | hlt
    · exact (c1.mpr hlt).ne
    · exact (c2.mpr hlt).ne'
  refine ⟨min (max ((p - (fn : ℝ) / (tn + fn)) / ((tp : ℝ) / (fp + tp) - fn / (tn + fn))) 0) 1, ?_, le_min (le_max_right _ _) zero_le_one,
    min_le_right _ _⟩
  change aggregate v.p11 v.p10 (v.alg x) = _
  rw [e1 k1, e2 k2, hx, aggregate_fin _ _ _ hab]

/-! ## Examples -/

/-- One candidate, 2, with the label `b`; initial classifier `g`, new classifier `a`. -/
noncomputable def oneEnv (g a : ℕ → F ℝ) (b : Bool) : HMEnv ℕ where
  physical _ := .ok b
  fit it _ _ := .ok (if it = 0 then g else a)
  argsort := argsortRef

/-- A run that adds the candidate once. -/
theorem one_run (g a : ℕ → F ℝ) (b : Bool) (h2 : g 2 = .fin (1 / 2)) (input : List ℕ) (labels : List Bool) :
    ∃ s', hmRun (oneEnv g a b) [2] 1 ⟨input, labels, false, none, none, .fin (45 / 100), .fin (55 / 100)⟩ = (.ok (), s') ∧ s'.input = input ++ [2] ∧
      s'.labels = labels ++ [b] := by
  have hb : selectBatch argsortRef (.fin (45 / 100)) (.fin (55 / 100)) [g 2] = .ok [0, 0, 0, 0, 0] :=
    selectBatch_single _ _ _ (by rw [h2]; norm_num) (by rw [h2]; norm_num)
  have hx : [0, 0, 0, 0, 0].filterMap (fun i => ([2] : List ℕ)[i]?) = [2, 2, 2, 2, 2] := by decide
  have hl : labelAll (oneEnv g a b).physical [2, 2, 2, 2, 2] = .ok [b, b, b, b, b] := by simp [labelAll, oneEnv]
  have hit : ∃ loc s1, hmIter (oneEnv g a b) [2] input.length 1 ⟨[.base g], .base g, none, 0, 0⟩
      ⟨input, labels, true, none, some (.base g, none), .fin (45 / 100), .fin (55 / 100)⟩ = (.ok loc, s1) ∧ loc.nAdded = 5 ∧
      s1.input = input ++ [2] ∧ s1.labels = labels ++ [b] := by
    unfold hmIter
    have hb' : selectBatch (oneEnv g a b).argsort (.fin (45 / 100)) (.fin (55 / 100)) (([2] : List ℕ).map ((Clf.base g : Clf ℕ).eval none))
        = .ok [0, 0, 0, 0, 0] := hb
    dsimp only
    rw [hb']
    dsimp only
    rw [hx, hl]
    dsimp only
    have hk : (if input.length + [2, 2, 2, 2, 2].length > input.length + 1 then 1 + input.length - input.length else [2, 2, 2, 2, 2].length) = 1 := by
      rw [if_pos (by simp)]; omega
    rw [hk]
    exact ⟨_, _, rfl, by simp, rfl, rfl⟩
  obtain ⟨loc, s1, h1, h2, h3, h4⟩ := hit
  refine ⟨{ s1 with numpy := false }, ?_, h3, h4⟩
  unfold hmRun
  have hf : (oneEnv g a b).fit 0 input labels = .ok g := rfl
  rw [if_neg (by simp)]
  dsimp only
  rw [hf]
  dsimp only
  rw [hmLoop]
  dsimp only
  rw [if_pos (by norm_num), h1]
  dsimp only
  rw [hmLoop]
  dsimp only
  rw [if_neg (by rw [h2]; norm_num)]

/-- The new classifier of the examples: one fifth of the number of the point. -/
noncomputable def fifth (x : ℕ) : F ℝ := .fin (x / 5)

/-- A first classifier without errors: the order is kept. -/
example : ∃ s' v q q', hmRun (oneEnv goodAlg fifth true) [2] 1 ⟨[0, 1], [false, true], false, none, none, .fin (45 / 100), .fin (55 / 100)⟩ = (.ok (), s') ∧
    s'.model = some (.agg, some v) ∧ (Clf.agg : Clf ℕ).eval (some v) 1 = .fin q ∧ (Clf.agg : Clf ℕ).eval (some v) 2 = .fin q' ∧ q ≤ q' := by
  obtain ⟨s', h, e1, e2⟩ := one_run goodAlg fifth true (by norm_num [goodAlg]) [0, 1] [false, true]
  obtain ⟨g, v, h1, h2, h3, h4⟩ := C223_better_partial _ argsortRef_spec [2] 1 (by norm_num) (by norm_num) _ s' h
  have hg : g = goodAlg := (Except.ok.inj h1).symm
  have hv : v.alg = fifth := (Except.ok.inj h3).symm
  subst hg
  rw [e1, e2] at h4
  obtain ⟨q, q', a1, a2, -, a3, -⟩ := h4 2 0 0 1 (by norm_num [outcomes, goodAlg]) (by norm_num [outcomes, goodAlg]) (by norm_num [outcomes, goodAlg])
    (by norm_num [outcomes, goodAlg]) (by norm_num) (by norm_num) (by norm_num) 1 2 (1 / 5) (2 / 5) (by rw [hv]; norm_num [fifth]) (by rw [hv]; norm_num [fifth]) (by norm_num)
  exact ⟨s', v, q, q', h, h2, a1, a2, a3⟩

/-- A first classifier wrong everywhere: the order is reversed. -/
example : ∃ s' v q q', hmRun (oneEnv (fun x => if x = 1 then .fin 0 else .fin (1 / 2)) fifth false) [2] 1
      ⟨[0, 1], [false, true], false, none, none, .fin (45 / 100), .fin (55 / 100)⟩ = (.ok (), s') ∧
    s'.model = some (.agg, some v) ∧ (Clf.agg : Clf ℕ).eval (some v) 1 = .fin q ∧ (Clf.agg : Clf ℕ).eval (some v) 2 = .fin q' ∧ q' < q := by
  obtain ⟨s', h, e1, e2⟩ := one_run (fun x => if x = 1 then .fin 0 else .fin (1 / 2)) fifth false (by norm_num) [0, 1] [false, true]
  obtain ⟨g, v, h1, h2, h3, h4⟩ := C223_violated _ argsortRef_spec [2] 1 (by norm_num) (by norm_num) _ s' h
  have hg : g = fun x => if x = 1 then .fin 0 else .fin (1 / 2) := (Except.ok.inj h1).symm
  have hv : v.alg = fifth := (Except.ok.inj h3).symm
  subst hg
  rw [e1, e2] at h4
  obtain ⟨q, q', a1, a2, -, a3⟩ := h4 0 2 1 0 (by norm_num [outcomes]) (by norm_num [outcomes]) (by norm_num [outcomes])
    (by norm_num [outcomes]) (by norm_num) (by norm_num) (by norm_num) 1 2 (1 / 5) (2 / 5) (by rw [hv]; norm_num [fifth]) (by rw [hv]; norm_num [fifth]) (by norm_num)
  exact ⟨s', v, q, q', h, h2, a1, a2, a3 (by norm_num) (by norm_num)⟩

/-- A first classifier that predicts a detection everywhere: NaN everywhere. -/
example : ∃ s' c v, hmRun (oneEnv (fun _ => .fin (1 / 2)) fifth false) [2] 1
      ⟨[0, 1], [false, true], false, none, none, .fin (45 / 100), .fin (55 / 100)⟩ = (.ok (), s') ∧
    s'.model = some (c, v) ∧ c.eval v 3 = .nan := by
  obtain ⟨s', h, e1, e2⟩ := one_run (fun _ => .fin (1 / 2)) fifth false rfl [0, 1] [false, true]
  obtain ⟨c, v, h1, h2, -⟩ := C224_violated _ [2] 1 (by norm_num) _ s' h (fun _ => .fin (1 / 2)) rfl true (fun x _ => by norm_num)
  exact ⟨s', c, v, h, h1, h2 3⟩

/-- A first classifier no better than chance: 0, NaN or 1. -/
example : ∃ s' v, hmRun (oneEnv (fun x => if x < 2 then .fin 0 else .fin (1 / 2)) fifth false) [2] 1
      ⟨[0, 1, 3], [false, true, true], false, none, none, .fin (45 / 100), .fin (55 / 100)⟩ = (.ok (), s') ∧
    s'.model = some (.agg, some v) ∧ (Clf.agg : Clf ℕ).eval (some v) 2 = .fin 0 ∧ (Clf.agg : Clf ℕ).eval (some v) 3 = .fin 1 := by
  obtain ⟨s', h, e1, e2⟩ := one_run (fun x => if x < 2 then .fin 0 else .fin (1 / 2)) fifth false (by norm_num) [0, 1, 3] [false, true, true]
  obtain ⟨g, v, h1, h2, h3, h4⟩ := C224_chance_partial _ argsortRef_spec [2] 1 (by norm_num) (by norm_num) _ s' h
  have hg : g = fun x => if x < 2 then .fin 0 else .fin (1 / 2) := (Except.ok.inj h1).symm
  have hv : v.alg = fifth := (Except.ok.inj h3).symm
  subst hg
  rw [e1, e2] at h4
  have k := h4 1 1 1 1 (by norm_num [outcomes]) (by norm_num [outcomes]) (by norm_num [outcomes]) (by norm_num [outcomes]) (by norm_num) (by norm_num) (by norm_num)
  have k2 := k 2 (2 / 5) (by rw [hv]; norm_num [fifth])
  have k3 := k 3 (3 / 5) (by rw [hv]; norm_num [fifth])
  norm_num at k2 k3
  exact ⟨s', v, h, h2, k2, k3⟩

/-- The same classifier with six points to add: after the first batch of five the run raises IndexError. -/
example : Raises (hmRun (oneEnv (fun _ => .fin (1 / 2)) fifth false) [2] 6
    ⟨[0, 1], [false, true], false, none, none, .fin (45 / 100), .fin (55 / 100)⟩).1 .indexError := by
  have hit : ∃ loc s1, hmIter (oneEnv (fun _ => .fin (1 / 2)) fifth false) [2] [0, 1].length 6 ⟨[.base fun _ => .fin (1 / 2)], .base fun _ => .fin (1 / 2), none, 0, 0⟩
      ⟨[0, 1], [false, true], true, none, some (.base fun _ => .fin (1 / 2), none), .fin (45 / 100), .fin (55 / 100)⟩ = (.ok loc, s1) ∧ loc.nAdded = 5 := by
    unfold hmIter
    have hb' : selectBatch (oneEnv (fun _ => .fin (1 / 2)) fifth false).argsort (.fin (45 / 100)) (.fin (55 / 100))
        (([2] : List ℕ).map ((Clf.base (fun _ => .fin (1 / 2)) : Clf ℕ).eval none)) = .ok [0, 0, 0, 0, 0] :=
      selectBatch_single _ _ _ (by norm_num [Clf.eval]) (by norm_num [Clf.eval])
    have hx : [0, 0, 0, 0, 0].filterMap (fun i => ([2] : List ℕ)[i]?) = [2, 2, 2, 2, 2] := by decide
    have hl : labelAll (oneEnv (fun _ => .fin (1 / 2)) fifth false).physical [2, 2, 2, 2, 2] = .ok [false, false, false, false, false] := by simp [labelAll, oneEnv]
    dsimp only
    rw [hb']
    dsimp only
    rw [hx, hl]
    exact ⟨_, _, rfl, rfl⟩
  obtain ⟨loc, s1, h1, h2⟩ := hit
  obtain ⟨⟨m, hm⟩, -⟩ := C224_violated_stops _ argsortRef_spec [2] [0, 1].length 6 4 (fun _ => .fin (1 / 2)) _ loc _ s1 (by rfl) h1 true (fun x _ => by norm_num) (by rw [h2]; norm_num)
  unfold hmRun
  have hf : (oneEnv (fun _ => .fin (1 / 2)) fifth false).fit 0 [0, 1] [false, true] = .ok fun _ => .fin (1 / 2) := rfl
  rw [if_neg (by simp)]
  dsimp only
  rw [hf]
  dsimp only
  rw [hmLoop]
  dsimp only
  rw [if_pos (by norm_num)]
  rw [h1]
  dsimp only
  revert hm
  rcases hmLoop (oneEnv (fun _ => .fin (1 / 2)) fifth false) [2] [0, 1].length 6 5 loc s1 with ⟨r, t⟩
  rintro rfl
  exact ⟨m, rfl⟩

end Verif.Props
