import Verif.Props.HitMiss

/-!
# C189: the correction of the classifier by its confusion matrix (/repo/otpod/_adaptive_hitmiss_pod.py 338-375)
-/

namespace Verif.Props
open Verif.Py Verif.Model

/-- Number of observations of the design with the label `i` for which the classifier `g` predicts the label `j` (a probability of at least one half
predicts a detection). -/
noncomputable def outcomes {X : Type} (g : X → F ℝ) (input : List X) (labels : List Bool) (i j : Bool) : ℕ :=
  (input.zip labels).countP fun q => q.2 == i && F.ge (g q.1) (.fin (1 / 2)) == j

theorem confCount_outcomes {X : Type} (g : X → F ℝ) (input : List X) (labels : List Bool) (i j : Bool) :
    confCount labels ((input.map g).map fun p => F.ge p (.fin (1 / 2))) i j = outcomes g input labels i j := by
  induction input generalizing labels with
  | nil => simp [confCount, outcomes]
  | cons x xs ih =>
    cases labels with
    | nil => simp [confCount, outcomes]
    | cons b bs =>
      have := ih bs
      simp only [confCount, outcomes, List.map_cons, List.zip_cons_cons, List.countP_cons] at this ⊢
      rw [this]

theorem hmIter_model {X : Type} (env : HMEnv X) (cand : List X) (nIni nMore : ℕ) (loc loc' : HMLocals X)
    (s s' : HMAttrs X) (h : hmIter env cand nIni nMore loc s = (.ok loc', s')) : s'.model = some (.agg, loc'.vars) := by
  unfold hmIter at h
  split at h
  · simp at h
  · dsimp only at h
    split at h
    · simp at h
    · split at h
      · simp at h
      · simp only [Prod.mk.injEq, Except.ok.injEq] at h
        obtain ⟨rfl, rfl⟩ := h
        rfl

/-- The model after a run that adds one batch (one to five points). -/
theorem one_batch {X : Type} (env : HMEnv X) (ha : ArgsortSpec env.argsort) (cand : List X) (nMore : ℕ) (h0 : 0 < nMore) (h5 : nMore ≤ 5)
    (s s' : HMAttrs X) (h : hmRun env cand nMore s = (.ok (), s')) :
    ∃ g alg, env.fit 0 s.input s.labels = .ok g ∧ env.fit 1 s'.input s'.labels = .ok alg ∧
      s'.model = some (.agg, some ⟨meanConf s'.labels [s'.input.map g] true true, meanConf s'.labels [s'.input.map g] true false, alg⟩) := by
  unfold hmRun at h
  split_ifs at h
  · simp at h
  · dsimp only at h
    split at h
    · simp at h
    · split at h
      · simp at h
      · rename_i g hg _ loc' s2 hl
        simp only [Prod.mk.injEq, true_and] at h
        subst h
        obtain ⟨k, rfl⟩ : ∃ k, nMore = k + 1 := ⟨nMore - 1, by omega⟩
        rw [hmLoop] at hl
        dsimp only at hl
        rw [if_pos h0] at hl
        cases hit : hmIter env cand s.input.length (k + 1) ⟨[.base g], .base g, none, 0, 0⟩ { { s with numpy := true } with model := some (.base g, none) } with
        | mk r s1 =>
          rw [hit] at hl
          cases r with
          | error e => simp at hl
          | ok loc1 =>
            dsimp only at hl
            obtain ⟨-, -, -, -, -, -, -, h6, -⟩ := hmIter_ok env ha cand _ _ _ loc1 _ s1 hit (by simp)
            obtain ⟨-, conf, alg, -, h8, h9, h10⟩ := hmIter_clfs env cand _ _ _ loc1 _ s1 hit
            have h11 := hmIter_model env cand _ _ _ loc1 _ s1 hit
            have hn : ¬ loc1.nAdded < k + 1 := by rw [h6]; simp only; omega
            have hs : s2 = s1 := by
              cases k with
              | zero => rw [hmLoop] at hl; dsimp only at hl; rw [if_neg hn] at hl; cases hl; rfl
              | succ k => rw [hmLoop] at hl; dsimp only at hl; rw [if_neg hn] at hl; cases hl; rfl
            subst hs
            refine ⟨g, alg, hg, h10, ?_⟩
            change s2.model = _
            rw [h11, h8, h9]
            rfl

theorem meanConf_one (labels : List Bool) (probs : List (F ℝ)) (a : ℝ) (i j : Bool) (h : classifierConf labels probs i j = .fin a) :
    meanConf labels [probs] i j = .fin a := by
  simp [meanConf, h, F.div]

theorem aggregate_fin (a b p : ℝ) (h : a ≠ b) : aggregate (.fin a) (.fin b) (.fin p) = .fin (min (max ((p - b) / (a - b)) 0) 1) := by
  have hc : a + -b ≠ 0 := by rw [← sub_eq_add_neg]; exact sub_ne_zero.mpr h
  simp only [aggregate, F.sub, F.neg_fin, F.add_fin, F.div_fin _ hc, F.mul_fin, clip01]
  congr 3
  rw [← sub_eq_add_neg, ← sub_eq_add_neg]; ring

/-- The algebra of the correction: `A` right and `B` wrong detections, `C` wrong and `E` right misses. -/
theorem correction_algebra (A B C E : ℝ) (h1 : 0 < A + B) (h2 : 0 < C + E) :
    let n := A + B + C + E
    let a := A / (B + A)
    let b := C / (E + C)
    a - b = (A * E - B * C) / ((A + B) * (C + E)) ∧ (A * E - B * C ≠ 0 → ((A + B) / n - b) / (a - b) = (A + B) / n + (B - C) / n / (a - b)) := by
  intro n a b
  have hn : 0 < n := by change 0 < A + B + C + E; linarith
  have h1' : B + A ≠ 0 := by linarith
  have h2' : E + C ≠ 0 := by linarith
  have hab : a - b = (A * E - B * C) / ((A + B) * (C + E)) := by
    change A / (B + A) - C / (E + C) = _
    rw [add_comm A B, add_comm C E]
    field_simp
    ring
  refine ⟨hab, fun hD => ?_⟩
  have hd : a - b ≠ 0 := by
    rw [hab]
    exact div_ne_zero hD (mul_pos h1 h2).ne'
  have key : (A + B) / n - b = (A + B) / n * (a - b) + (B - C) / n := by
    change (A + B) / n - C / (E + C) = (A + B) / n * (A / (B + A) - C / (E + C)) + (B - C) / n
    have hn' : n ≠ 0 := hn.ne'
    field_simp
    change _ = _
    simp only [n]
    ring
  rw [key]
  field_simp

/-- **C189 is violated.**  Every run that adds one batch, `tp`, `fp`, `fn`, `tn` being the numbers of right and wrong detections and of wrong and right
misses of the initial classifier on the final design, all labels and predictions occurring: where the new classifier gives the share of the predicted
detections `(tp + fp)/n`, the corrected probability is the share of the observed detections `(tp + fn)/n` only if `fp = fn`, that is when there is nothing
to correct.  When the classifier is better than chance the correction goes the wrong way: too many predicted detections are increased further, too few
are decreased further. -/
theorem C189_violated {X : Type} (env : HMEnv X) (ha : ArgsortSpec env.argsort) (cand : List X) (nMore : ℕ) (h0 : 0 < nMore) (h5 : nMore ≤ 5)
    (s s' : HMAttrs X) (h : hmRun env cand nMore s = (.ok (), s')) :
    ∃ g v, env.fit 0 s.input s.labels = .ok g ∧ s'.model = some (.agg, some v) ∧ env.fit 1 s'.input s'.labels = .ok v.alg ∧
      ∀ tp fp fn tn : ℕ, outcomes g s'.input s'.labels true true = tp → outcomes g s'.input s'.labels false true = fp →
        outcomes g s'.input s'.labels true false = fn → outcomes g s'.input s'.labels false false = tn →
        0 < tp + fp → 0 < fn + tn → 0 < tp + fn → 0 < fp + tn → 0 < tp + tn → tp * tn ≠ fp * fn →
        ∀ x, v.alg x = .fin (((tp : ℝ) + fp) / (tp + fp + fn + tn)) → ∃ q : ℝ, (Clf.agg : Clf X).eval (some v) x = .fin q ∧
          (q = ((tp : ℝ) + fn) / (tp + fp + fn + tn) ↔ fp = fn) ∧
          (fp * fn < tp * tn → fn < fp →
            ((tp : ℝ) + fn) / (tp + fp + fn + tn) < ((tp : ℝ) + fp) / (tp + fp + fn + tn) ∧ ((tp : ℝ) + fp) / (tp + fp + fn + tn) < q) ∧
          (fp * fn < tp * tn → fp < fn →
            q < ((tp : ℝ) + fp) / (tp + fp + fn + tn) ∧ ((tp : ℝ) + fp) / (tp + fp + fn + tn) < ((tp : ℝ) + fn) / (tp + fp + fn + tn)) := by
  obtain ⟨g, alg, hg, halg, hmodel⟩ := one_batch env ha cand nMore h0 h5 s s' h
  refine ⟨g, _, hg, hmodel, halg, ?_⟩
  intro tp fp fn tn e1 e2 e3 e4 k1 k2 k3 k4 k5 hD x hx
  have r1 : (0 : ℝ) < tp + fp := by exact_mod_cast k1
  have r2 : (0 : ℝ) < fn + tn := by exact_mod_cast k2
  have r3 : (0 : ℝ) < tp + fn := by exact_mod_cast k3
  have r4 : (0 : ℝ) < fp + tn := by exact_mod_cast k4
  have r5 : (0 : ℝ) < tp + tn := by exact_mod_cast k5
  have hDr : (tp : ℝ) * tn - fp * fn ≠ 0 := by
    rw [sub_ne_zero]
    exact_mod_cast hD
  obtain ⟨hab, hraw⟩ := correction_algebra (tp : ℝ) fp fn tn r1 r2
  have hraw := hraw hDr
  have c1 : meanConf s'.labels [s'.input.map g] true true = .fin ((tp : ℝ) / (fp + tp)) := by
    apply meanConf_one
    rw [classifierConf, colNorm, confCount_outcomes, confCount_outcomes, e1, e2, F.div_fin _ (by linarith)]
  have c2 : meanConf s'.labels [s'.input.map g] true false = .fin ((fn : ℝ) / (tn + fn)) := by
    apply meanConf_one
    rw [classifierConf, colNorm, confCount_outcomes, confCount_outcomes, e3, e4, F.div_fin _ (by linarith)]
  set n : ℝ := (tp : ℝ) + fp + fn + tn with hn
  set a : ℝ := (tp : ℝ) / (fp + tp) with had
  set b : ℝ := (fn : ℝ) / (tn + fn) with hbd
  have hn0 : 0 < n := by rw [hn]; linarith
  have hab0 : a - b ≠ 0 := by
    rw [hab]
    exact div_ne_zero hDr (mul_pos r1 r2).ne'
  have hp1 : ((tp : ℝ) + fp) / n < 1 := (div_lt_one hn0).2 (by rw [hn]; linarith)
  have hp0 : 0 < ((tp : ℝ) + fp) / n := div_pos r1 hn0
  have hq1 : ((tp : ℝ) + fn) / n < 1 := (div_lt_one hn0).2 (by rw [hn]; linarith)
  have hq0 : 0 < ((tp : ℝ) + fn) / n := div_pos r3 hn0
  have hgap : ((tp : ℝ) + fn) / n = ((tp : ℝ) + fp) / n - ((fp : ℝ) - fn) / n := by ring
  have htrue : -1 < a - b := by
    rw [hab, lt_div_iff₀ (mul_pos r1 r2)]
    have t1 : (0 : ℝ) ≤ tp := Nat.cast_nonneg _
    have t2 : (0 : ℝ) ≤ fp := Nat.cast_nonneg _
    have t3 : (0 : ℝ) ≤ fn := Nat.cast_nonneg _
    have t4 : (0 : ℝ) ≤ tn := Nat.cast_nonneg _
    rcases (eq_or_lt_of_le t1) with z | z
    · have : (0 : ℝ) < tn := by rw [← z, zero_add] at r5; exact r5
      have : (0 : ℝ) < fp * tn := by rw [← z, zero_add] at r1; exact mul_pos r1 this
      nlinarith [mul_nonneg t1 t3, mul_nonneg t1 t4]
    · nlinarith [mul_pos z r2, mul_nonneg t1 t4, mul_nonneg t2 t4]
  refine ⟨min (max ((((tp : ℝ) + fp) / n - b) / (a - b)) 0) 1, ?_, ?_, ?_, ?_⟩
  · have := aggregate_fin a b (((tp : ℝ) + fp) / n) (sub_ne_zero.1 hab0)
    rw [← this]
    change aggregate (meanConf s'.labels [s'.input.map g] true true) (meanConf s'.labels [s'.input.map g] true false) (alg x) = _
    rw [c1, c2]
    exact congrArg _ hx
  · rw [hraw]
    constructor
    · intro e
      have e' : ((tp : ℝ) + fp) / n + ((fp : ℝ) - fn) / n / (a - b) = ((tp : ℝ) + fn) / n := by
        rcases le_total (((tp : ℝ) + fp) / n + ((fp : ℝ) - fn) / n / (a - b)) 0 with z | z
        · rw [max_eq_right z, min_eq_left zero_le_one] at e
          linarith
        · rw [max_eq_left z] at e
          rcases le_total (((tp : ℝ) + fp) / n + ((fp : ℝ) - fn) / n / (a - b)) 1 with w | w
          · rwa [min_eq_left w] at e
          · rw [min_eq_right w] at e
            linarith
      rw [hgap] at e'
      have e2 : ((fp : ℝ) - fn) / n * (1 + (a - b)) = 0 := by
        have : ((fp : ℝ) - fn) / n / (a - b) = -(((fp : ℝ) - fn) / n) := by linarith
        rw [div_eq_iff hab0] at this
        linarith
      rcases mul_eq_zero.1 e2 with z | z
      · rw [div_eq_zero_iff, or_iff_left hn0.ne'] at z
        exact_mod_cast sub_eq_zero.1 z
      · linarith
    · intro e
      have : ((fp : ℝ) - fn) = 0 := by rw [e, sub_self]
      rw [hgap, this]
      simp only [zero_div, add_zero, sub_zero]
      rw [max_eq_left hp0.le, min_eq_left hp1.le]
  · intro hd hlt
    have hd' : 0 < a - b := by
      rw [hab]
      refine div_pos ?_ (mul_pos r1 r2)
      have : (fp : ℝ) * fn < tp * tn := by exact_mod_cast hd
      linarith
    have hf : (0 : ℝ) < (fp - fn) / n := div_pos (by have : (fn : ℝ) < fp := by exact_mod_cast hlt
                                                     linarith) hn0
    refine ⟨by rw [hgap]; linarith, ?_⟩
    rw [hraw]
    exact lt_min (lt_max_of_lt_left (by linarith [div_pos hf hd'])) hp1
  · intro hd hlt
    have hd' : 0 < a - b := by
      rw [hab]
      refine div_pos ?_ (mul_pos r1 r2)
      have : (fp : ℝ) * fn < tp * tn := by exact_mod_cast hd
      linarith
    have hf : ((fp : ℝ) - fn) / n < 0 := div_neg_of_neg_of_pos (by have : (fp : ℝ) < fn := by exact_mod_cast hlt
                                                                   linarith) hn0
    refine ⟨?_, by rw [hgap]; linarith⟩
    rw [hraw]
    exact min_lt_of_left_lt (max_lt (by linarith [div_neg_of_neg_of_pos hf hd']) hp0)

/-- **C189, restricted.**  When the initial classifier makes no error on the final design, the correction changes nothing: the corrected classifier gives
the probabilities of the new classifier.  Missing: classifiers with errors. -/
theorem C189_perfect_partial {X : Type} (env : HMEnv X) (ha : ArgsortSpec env.argsort) (cand : List X) (nMore : ℕ) (h0 : 0 < nMore) (h5 : nMore ≤ 5)
    (s s' : HMAttrs X) (h : hmRun env cand nMore s = (.ok (), s')) :
    ∃ g v, env.fit 0 s.input s.labels = .ok g ∧ s'.model = some (.agg, some v) ∧ env.fit 1 s'.input s'.labels = .ok v.alg ∧
      (outcomes g s'.input s'.labels false true = 0 → outcomes g s'.input s'.labels true false = 0 →
        0 < outcomes g s'.input s'.labels true true → 0 < outcomes g s'.input s'.labels false false →
        ∀ x p, v.alg x = .fin p → 0 ≤ p → p ≤ 1 → (Clf.agg : Clf X).eval (some v) x = .fin p) := by
  obtain ⟨g, alg, hg, halg, hmodel⟩ := one_batch env ha cand nMore h0 h5 s s' h
  refine ⟨g, _, hg, hmodel, halg, ?_⟩
  intro e2 e3 k1 k4 x p hx hp0 hp1
  have r1 : (0 : ℝ) < outcomes g s'.input s'.labels true true := by exact_mod_cast k1
  have r4 : (0 : ℝ) < outcomes g s'.input s'.labels false false := by exact_mod_cast k4
  have c1 : meanConf s'.labels [s'.input.map g] true true = .fin 1 := by
    apply meanConf_one
    rw [classifierConf, colNorm, confCount_outcomes, confCount_outcomes, e2, Nat.cast_zero, zero_add, F.div_fin _ r1.ne', div_self r1.ne']
  have c2 : meanConf s'.labels [s'.input.map g] true false = .fin 0 := by
    apply meanConf_one
    rw [classifierConf, colNorm, confCount_outcomes, confCount_outcomes, e3, Nat.cast_zero, add_zero, F.div_fin _ r4.ne', zero_div]
  change aggregate (meanConf s'.labels [s'.input.map g] true true) (meanConf s'.labels [s'.input.map g] true false) (alg x) = _
  rw [c1, c2]
  exact (congrArg _ hx).trans (agg_id p hp0 hp1)

/-! ## Examples -/

/-- Points 0 (no detection) and 1 (detection); the candidate 2 is not detected or detected according to `b`, the first classifier predicts a detection. The
second classifier gives 6/7 everywhere. -/
noncomputable def batchEnv (b : Bool) : HMEnv ℕ where
  physical x := .ok (if x = 2 then b else x == 1)
  fit it _ _ := .ok (if it = 0 then goodAlg else fun _ => .fin (6 / 7))
  argsort := argsortRef

noncomputable def batchInit : HMAttrs ℕ := ⟨[0, 1], [false, true], false, none, none, .fin (45 / 100), .fin (52 / 100)⟩

theorem batch_run (b : Bool) : ∃ s', hmRun (batchEnv b) [2] 5 batchInit = (.ok (), s') ∧ s'.input = [0, 1, 2, 2, 2, 2, 2] ∧
    s'.labels = [false, true, b, b, b, b, b] := by
  have hb : selectBatch argsortRef (.fin (45 / 100)) (.fin (52 / 100)) [goodAlg 2] = .ok [0, 0, 0, 0, 0] :=
    selectBatch_single _ _ _ (by norm_num [goodAlg]) (by norm_num [goodAlg])
  have hx : [0, 0, 0, 0, 0].filterMap (fun i => ([2] : List ℕ)[i]?) = [2, 2, 2, 2, 2] := by decide
  have hl : labelAll (batchEnv b).physical [2, 2, 2, 2, 2] = .ok [b, b, b, b, b] := by simp [labelAll, batchEnv]
  have hit : ∃ loc s1, hmIter (batchEnv b) [2] 2 5 ⟨[.base goodAlg], .base goodAlg, none, 0, 0⟩
      { { batchInit with numpy := true } with model := some (.base goodAlg, none) } = (.ok loc, s1) ∧ loc.nAdded = 5 ∧
      s1.input = [0, 1, 2, 2, 2, 2, 2] ∧ s1.labels = [false, true, b, b, b, b, b] := by
    unfold hmIter
    have hb' : selectBatch (batchEnv b).argsort (.fin (45 / 100)) (.fin (52 / 100)) (([2] : List ℕ).map ((Clf.base goodAlg : Clf ℕ).eval none))
        = .ok [0, 0, 0, 0, 0] := hb
    dsimp only [batchInit]
    rw [hb']
    dsimp only
    rw [hx, hl]
    exact ⟨_, _, rfl, rfl, rfl, rfl⟩
  obtain ⟨loc, s1, h1, h2, h3, h4⟩ := hit
  refine ⟨{ s1 with numpy := false }, ?_, h3, h4⟩
  unfold hmRun
  have hf : (batchEnv b).fit 0 batchInit.input batchInit.labels = .ok goodAlg := rfl
  rw [if_neg (by simp [batchInit])]
  dsimp only
  rw [hf]
  dsimp only
  rw [hmLoop]
  dsimp only
  rw [if_pos (by norm_num)]
  have h1' : hmIter (batchEnv b) [2] batchInit.input.length 5 ⟨[.base goodAlg], .base goodAlg, none, 0, 0⟩
      { { batchInit with numpy := true } with model := some (.base goodAlg, none) } = (.ok loc, s1) := h1
  rw [h1']
  dsimp only
  rw [hmLoop]
  dsimp only
  rw [if_neg (by rw [h2]; norm_num)]

theorem good_outcomes (b : Bool) (i j : Bool) : outcomes goodAlg [0, 1, 2, 2, 2, 2, 2] [false, true, b, b, b, b, b] i j
    = (if false = i ∧ false = j then 1 else 0) + (if true = i ∧ true = j then 1 else 0) + (if b = i ∧ true = j then 5 else 0) := by
  have g0 : F.ge (goodAlg 0) (.fin (1 / 2)) = false := by norm_num [goodAlg]
  have g1 : F.ge (goodAlg 1) (.fin (1 / 2)) = true := by norm_num [goodAlg]
  have g2 : F.ge (goodAlg 2) (.fin (1 / 2)) = true := by norm_num [goodAlg]
  simp only [outcomes, List.zip_cons_cons, List.zip_nil_right, List.countP_cons, List.countP_nil, g0, g1, g2]
  cases b <;> cases i <;> cases j <;> rfl

/-- Five wrong detections among seven observations: one observation out of seven is detected, six are predicted, and the corrected probability is above
six sevenths. -/
example : ∃ s' v q, hmRun (batchEnv false) [2] 5 batchInit = (.ok (), s') ∧ s'.model = some (.agg, some v) ∧
    (Clf.agg : Clf ℕ).eval (some v) 0 = .fin q ∧ 6 / 7 < q := by
  obtain ⟨s', h, e1, e2⟩ := batch_run false
  obtain ⟨g, v, h1, h2, h3, h4⟩ := C189_violated (batchEnv false) argsortRef_spec [2] 5 (by norm_num) le_rfl batchInit s' h
  have hg : g = goodAlg := by
    have : (batchEnv false).fit 0 batchInit.input batchInit.labels = .ok goodAlg := rfl
    rw [this, Except.ok.injEq] at h1
    exact h1.symm
  subst hg
  have hv : v.alg 0 = .fin (6 / 7) := by
    have : (batchEnv false).fit 1 s'.input s'.labels = .ok fun _ => .fin (6 / 7) := rfl
    rw [this, Except.ok.injEq] at h3
    rw [← h3]
  rw [e1, e2] at h4
  simp only [good_outcomes] at h4
  obtain ⟨q, hq, -, hq2, -⟩ := h4 1 5 0 1 rfl rfl rfl rfl (by norm_num) (by norm_num) (by norm_num) (by norm_num) (by norm_num) (by norm_num) 0
    (by rw [hv]; norm_num)
  refine ⟨s', v, q, h, h2, hq, ?_⟩
  have := (hq2 (by norm_num) (by norm_num)).2
  norm_num at this
  exact this

/-- No error on the design. -/
example : ∃ s' v, hmRun (batchEnv true) [2] 5 batchInit = (.ok (), s') ∧ s'.model = some (.agg, some v) ∧
    (Clf.agg : Clf ℕ).eval (some v) 0 = .fin (6 / 7) := by
  obtain ⟨s', h, e1, e2⟩ := batch_run true
  obtain ⟨g, v, h1, h2, h3, h4⟩ := C189_perfect_partial (batchEnv true) argsortRef_spec [2] 5 (by norm_num) le_rfl batchInit s' h
  have hg : g = goodAlg := by
    have : (batchEnv true).fit 0 batchInit.input batchInit.labels = .ok goodAlg := rfl
    rw [this, Except.ok.injEq] at h1
    exact h1.symm
  subst hg
  have hv : v.alg 0 = .fin (6 / 7) := by
    have : (batchEnv true).fit 1 s'.input s'.labels = .ok fun _ => .fin (6 / 7) := rfl
    rw [this, Except.ok.injEq] at h3
    rw [← h3]
  rw [e1, e2] at h4
  simp only [good_outcomes] at h4
  exact ⟨s', v, h, h2, h4 rfl rfl (by norm_num) (by norm_num) 0 _ hv (by norm_num) (by norm_num)⟩

end Verif.Props
