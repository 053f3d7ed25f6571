import Verif.Props.AdaptiveSignal
import Verif.Props.HitMiss

/-!
# C154: the adaptive methods evaluate the physical model at new points, and only as often as asked

The candidates of `run` are the first points of `ot.SobolSequence()` for the distribution (_adaptive_signal_pod.py 198-203,
_adaptive_hitmiss_pod.py 198-204): a new sequence is made in each call, so that two calls have the same candidates.
-/

namespace Verif.Props
open Verif.Py Verif.Model

variable {X M : Type}

/-- **C154, signal (partial).**  One run: when the candidates are distinct and none is in the initial design, all the points of the final design
that were added are distinct and new. -/
theorem C154_signal_partial (env : AdEnv X M) (hc : CritBelow env) (cands : List X) (hnd : cands.Nodup) (n : ℕ) (hn : n ≤ cands.length)
    (s s' : AdAttrs X M) (hnew : ∀ x ∈ cands, x ∉ s.input) (mf : M) (h : adRun env cands n s = (.ok mf, s')) :
    ∃ picks, s'.input = s.input ++ picks ∧ picks.length = n ∧ picks.Nodup ∧ ∀ x ∈ picks, x ∉ s.input := by
  obtain ⟨picks, ys, ms, -, h1, h2, -, -, ⟨rest, hp⟩, -⟩ := C45_adaptive_run env hc cands n hn s s' mf h
  have hnd' : (picks ++ rest).Nodup := hp.nodup_iff.mpr hnd
  refine ⟨picks, h2, h1, (List.nodup_append.mp hnd').1, fun x hx => hnew x ?_⟩
  exact hp.mem_iff.mp (List.mem_append_left _ hx)

/-- Two loops over the same candidates with a criterion read off the candidate pick the same points. -/
theorem adLoop_same (env : AdEnv X M) (c : X → Res (F ℝ)) (hcrit : ∀ it ref m xs ys i x, env.crit it ref m xs ys i x = c x)
    (ref ref' : M) (n it it' : ℕ) (cand : List X) (idx : Option ℕ) (m m' mf mf' : M) (s s' t t' : AdAttrs X M)
    (h : adLoop env ref n it cand idx m s = (.ok mf, s')) (h' : adLoop env ref' n it' cand idx m' t = (.ok mf', t')) :
    ∃ picks, picks.length = n ∧ s'.input = s.input ++ picks ∧ t'.input = t.input ++ picks := by
  induction n generalizing it it' cand idx m m' s t with
  | zero =>
    simp only [adLoop, Prod.mk.injEq, Except.ok.injEq] at h h'
    obtain ⟨-, rfl⟩ := h
    obtain ⟨-, rfl⟩ := h'
    exact ⟨[], rfl, by simp, by simp⟩
  | succ n ih =>
    rw [adLoop] at h h'
    dsimp only at h h'
    split at h
    · simp at h
    · rename_i cand1 idx1 m1 s1 hit
      split at h'
      · simp at h'
      · rename_i cand2 idx2 m2 t1 hit'
        obtain ⟨k, x, y, rfl, hx, rfl, -, hin, -, -, -, -, _, hscan⟩ := adIter_ok _ _ _ _ _ _ _ _ _ _ _ hit
        obtain ⟨k', x', y', rfl, hx', rfl, -, hin', -, -, -, -, _, hscan'⟩ := adIter_ok _ _ _ _ _ _ _ _ _ _ _ hit'
        have e : ∀ it ref m xs ys, env.crit it ref m xs ys = fun _ x => c x := fun it ref m xs ys =>
          funext fun i => funext fun x => hcrit it ref m xs ys i x
        rw [e] at hscan hscan'
        rw [hscan] at hscan'
        simp only [Except.ok.injEq, Prod.mk.injEq, Option.some.injEq] at hscan'
        obtain ⟨-, rfl⟩ := hscan'
        rw [hx] at hx'
        obtain rfl : x = x' := by simpa using hx'
        obtain ⟨picks, hl, h1, h2⟩ := ih _ _ _ _ _ _ _ _ h h'
        exact ⟨x :: picks, by simp [hl], by rw [h1, hin]; simp, by rw [h2, hin']; simp⟩

/-- **C154 is violated, signal.**  With a criterion that depends on the candidate, a second run (same candidates, since the Sobol sequence starts again)
adds the points of the first run once more: all of them, in the same order. -/
theorem C154_signal_violated (env : AdEnv X M) (c : X → Res (F ℝ)) (hcrit : ∀ it ref m xs ys i x, env.crit it ref m xs ys i x = c x)
    (cands : List X) (n : ℕ) (s s' s'' : AdAttrs X M) (m m' : M) (h : adRun env cands n s = (.ok m, s')) (h' : adRun env cands n s' = (.ok m', s'')) :
    ∃ picks, picks.length = n ∧ s'.input = s.input ++ picks ∧ s''.input = s.input ++ picks ++ picks := by
  rw [adRun] at h h'
  split at h
  · simp at h
  · split at h'
    · simp at h'
    · obtain ⟨picks, hl, h1, h2⟩ := adLoop_same env c hcrit _ _ n 0 0 cands none _ _ _ _ _ _ _ _ h h'
      dsimp only at h1 h2
      exact ⟨picks, hl, h1, by rw [h2, h1]⟩

/-- Two runs of one point: the candidate 2 is evaluated twice. -/
example : ∃ (s' s'' : AdAttrs ℕ ℕ) (m m' : ℕ), adRun demoEnv [3, 2, 5] 1 ⟨[7], [14], none, none⟩ = (.ok m, s') ∧
    adRun demoEnv [3, 2, 5] 1 s' = (.ok m', s'') ∧ s''.input = [7, 2, 2] := by
  norm_num [adRun, demoEnv, adLoop, adIter, scanGo, respond, F.lt]

/-- A criterion with any dependence on the design: the first point of a second run is the best of all the candidates, those evaluated by the first
run included. -/
theorem C154_second_run (env : AdEnv X M) (hc : CritBelow env) (cands : List X) (n : ℕ) (hn : n ≤ cands.length) (h1 : 1 ≤ cands.length)
    (s s' s'' : AdAttrs X M) (m m' : M) (h : adRun env cands n s = (.ok m, s')) (h' : adRun env cands 1 s' = (.ok m', s'')) :
    ∃ picks x i m0, s'.input = s.input ++ picks ∧ picks.length = n ∧ (∀ y ∈ picks, y ∈ cands) ∧ s''.input = s.input ++ picks ++ [x] ∧
      BestOf (env.crit 0 m0 m0 s'.input s'.signals) cands i x := by
  obtain ⟨picks, ys, ms, -, a1, a2, -, -, ⟨rest, ap⟩, -⟩ := C45_adaptive_run env hc cands n hn s s' m h
  obtain ⟨picks', ys', ms', -, b1, b2, -, -, -, -, -, -, b3⟩ := C45_adaptive_run env hc cands 1 h1 s' s'' m' h'
  obtain ⟨x, rfl⟩ := List.length_eq_one_iff.mp b1
  obtain ⟨rem, i, hs, hp, hb⟩ := b3 0 x rfl
  simp only [List.take_zero, List.nil_append, List.append_nil] at hp hb
  have : rem = cands := hs.eq_of_length hp.length_eq
  rw [this] at hb
  exact ⟨picks, x, i, ms' 0, a2, a1, fun y hy => ap.mem_iff.mp (List.mem_append_left _ hy), by rw [b2, a2], hb⟩

/-! ## Hit-miss -/

/-- The confusion matrix of a classifier that is right on the whole design. -/
theorem classifierConf_perfect (labels : List Bool) (probs : List (F ℝ)) (hp : probs.map (fun p => F.ge p (.fin (1 / 2))) = labels)
    (ht : true ∈ labels) (hf : false ∈ labels) :
    classifierConf labels probs true true = .fin 1 ∧ classifierConf labels probs true false = .fin 0 := by
  rw [classifierConf, hp]
  have hzip : ∀ i j : Bool, confCount labels labels i j = if i = j then labels.count i else 0 := by
    intro i j
    rw [confCount]
    have : labels.zip labels = labels.map fun b => (b, b) := by
      clear hp ht hf
      induction labels with
      | nil => rfl
      | cons a l ih => simp [ih]
    rw [this, List.countP_map]
    split_ifs with h
    · subst h
      rw [List.count]
      congr 1; funext b; simp
    · rw [List.countP_eq_zero]
      intro b _
      simp only [Function.comp]
      cases i <;> cases j <;> cases b <;> simp_all
  have h1 : 0 < labels.count true := List.count_pos_iff.mpr ht
  have h0 : 0 < labels.count false := List.count_pos_iff.mpr hf
  constructor
  · rw [colNorm, hzip, hzip]
    have : (labels.count true : ℝ) ≠ 0 := by exact_mod_cast h1.ne'
    simp only [if_true, Bool.false_eq_true, if_false, Nat.cast_zero, zero_add]
    rw [F.div_fin _ this, div_self this]
  · rw [colNorm, hzip, hzip]
    have : (labels.count false : ℝ) ≠ 0 := by exact_mod_cast h0.ne'
    simp only [Bool.true_eq_false, if_true, if_false, Nat.cast_zero, add_zero]
    rw [F.div_fin _ this, zero_div]

theorem meanConf_perfect (labels : List Bool) (probs : List (F ℝ)) (hp : probs.map (fun p => F.ge p (.fin (1 / 2))) = labels)
    (ht : true ∈ labels) (hf : false ∈ labels) (k : ℕ) (hk : k ≠ 0) :
    meanConf labels (List.replicate k probs) true true = .fin 1 ∧ meanConf labels (List.replicate k probs) true false = .fin 0 := by
  obtain ⟨h1, h0⟩ := classifierConf_perfect labels probs hp ht hf
  have hfold : ∀ (j : Bool) (v : ℝ), classifierConf labels probs true j = .fin v → ∀ a : ℝ,
      (List.replicate k probs).foldl (fun acc p => F.add (classifierConf labels p true j) acc) (.fin a) = .fin (a + k * v) := by
    intro j v hv
    clear hk
    induction k with
    | zero => intro a; simp
    | succ k ih =>
      intro a
      rw [List.replicate_succ, List.foldl_cons, hv, F.add_fin, ih]
      push_cast; congr 1; ring
  have hk' : (k : ℝ) ≠ 0 := by exact_mod_cast hk
  constructor
  · rw [meanConf, hfold true 1 h1, List.length_replicate, F.div_fin _ hk']
    congr 1; field_simp; ring
  · rw [meanConf, hfold false 0 h0, List.length_replicate, F.div_fin _ hk']
    congr 1; simp

/-- A classifier that is right everywhere, fitted in each iteration. -/
structure RightClassifier (env : HMEnv X) (g : X → ℝ) : Prop where
  range : ∀ x, 0 ≤ g x ∧ g x ≤ 1
  fit : ∀ it xs ls, env.fit it xs ls = .ok fun x => .fin (g x)
  physical : ∀ x, env.physical x = .ok (decide (1 / 2 ≤ g x))

theorem labelAll_right {env : HMEnv X} {g : X → ℝ} (hr : RightClassifier env g) (xs : List X) :
    labelAll env.physical xs = .ok (xs.map fun x => decide (1 / 2 ≤ g x)) := by
  induction xs with
  | nil => rfl
  | cons x xs ih => rw [labelAll, hr.physical]; dsimp only; rw [ih]; rfl

/-- What the variables hold for such a classifier. -/
def RightLocals (g : X → ℝ) (loc : HMLocals X) : Prop :=
  loc.clfs ≠ [] ∧ (∀ c ∈ loc.cur :: loc.clfs, c = .base (fun x => .fin (g x)) ∨
    (c = .agg ∧ loc.vars = some ⟨.fin 1, .fin 0, fun x => .fin (g x)⟩))

theorem rightLocals_eval {env : HMEnv X} {g : X → ℝ} (hr : RightClassifier env g) {loc : HMLocals X} (h : RightLocals g loc) :
    ∀ c ∈ loc.cur :: loc.clfs, c.eval loc.vars = fun x => .fin (g x) := by
  intro c hc
  rcases h.2 c hc with h | ⟨h, hv⟩
  · rw [h]; rfl
  · rw [h, hv]
    funext x
    simp only [Clf.eval, aggregate, F.sub, F.neg_fin, F.add_fin, F.div, F.mul]
    have := hr.range x
    norm_num [clip01, this.1, this.2]

/-- Ranks of the five candidates selected with the true classifier, as points. -/
noncomputable def rightBatch (env : HMEnv X) (g : X → ℝ) (cand : List X) (pmin pmax : F ℝ) : List X :=
  match selectBatch env.argsort pmin pmax (cand.map fun x => .fin (g x)) with
  | .error _ => []
  | .ok b => b.filterMap fun i => cand[i]?

theorem hmIter_right {env : HMEnv X} {g : X → ℝ} (hr : RightClassifier env g) (ha : ArgsortSpec env.argsort) (cand : List X) (nIni nMore : ℕ)
    (loc : HMLocals X) (hloc : RightLocals g loc) (s : HMAttrs X) (hlab : s.labels = s.input.map fun x => decide (1 / 2 ≤ g x))
    (ht : true ∈ s.labels) (hf : false ∈ s.labels) (hw : ∃ i, InWindow s.pmin s.pmax (cand.map fun x => .fin (g x)) i)
    (hroom : s.input.length + 5 ≤ nIni + nMore) :
    ∃ loc' s', hmIter env cand nIni nMore loc s = (.ok loc', s') ∧ RightLocals g loc' ∧
      s'.input = s.input ++ rightBatch env g cand s.pmin s.pmax ∧ s'.labels = s'.input.map (fun x => decide (1 / 2 ≤ g x)) ∧
      s'.pmin = s.pmin ∧ s'.pmax = s.pmax ∧ true ∈ s'.labels ∧ false ∈ s'.labels ∧ loc'.nAdded = s.input.length + 5 - nIni := by
  obtain ⟨b, hb⟩ := (C52_window_partial env.argsort ha s.pmin s.pmax (cand.map fun x => .fin (g x))).mpr hw
  have hcur := rightLocals_eval hr hloc loc.cur List.mem_cons_self
  have hl := (batch_points env.argsort ha s.pmin s.pmax cand _ b hb).1
  have hB : rightBatch env g cand s.pmin s.pmax = b.filterMap fun i => cand[i]? := by rw [rightBatch, hb]
  unfold hmIter
  rw [hcur, hb]
  dsimp only
  rw [labelAll_right hr]
  dsimp only
  rw [hr.fit]
  dsimp only
  have hkeep : ¬ (s.input.length + (b.filterMap fun i => cand[i]?).length > nIni + nMore) := by rw [hl]; omega
  rw [if_neg hkeep, List.take_length]
  set xs := b.filterMap fun i => cand[i]? with hxs
  have hz : (xs.map fun x => decide (1 / 2 ≤ g x)).take xs.length = xs.map fun x => decide (1 / 2 ≤ g x) := by
    rw [List.take_of_length_le]; simp
  rw [hz]
  have hlab' : s.labels ++ xs.map (fun x => decide (1 / 2 ≤ g x)) = (s.input ++ xs).map fun x => decide (1 / 2 ≤ g x) := by
    rw [List.map_append, hlab]
  have hmap : loc.clfs.map (fun c => (s.input ++ xs).map (c.eval loc.vars))
      = List.replicate loc.clfs.length ((s.input ++ xs).map fun x => (.fin (g x) : F ℝ)) := by
    rw [List.eq_replicate_iff]
    refine ⟨by simp, ?_⟩
    intro l hl'
    obtain ⟨c, hc, rfl⟩ := List.mem_map.mp hl'
    rw [rightLocals_eval hr hloc c (List.mem_cons_of_mem _ hc)]
  obtain ⟨c1, c0⟩ := meanConf_perfect (s.labels ++ xs.map fun x => decide (1 / 2 ≤ g x)) ((s.input ++ xs).map fun x => (.fin (g x) : F ℝ))
    (by rw [hlab', List.map_map]; apply List.map_congr_left; intro x _; simp [F.ge, F.le]) (List.mem_append_left _ ht) (List.mem_append_left _ hf)
    loc.clfs.length (by simpa [List.length_eq_zero_iff] using hloc.1)
  rw [hmap, c1, c0]
  refine ⟨_, _, rfl, ⟨by simp, ?_⟩, by rw [hB], by dsimp only; exact hlab', rfl, rfl, List.mem_append_left _ ht, List.mem_append_left _ hf, by
    dsimp only; rw [hl]⟩
  intro c hc
  dsimp only at hc ⊢
  rcases List.mem_cons.mp hc with h | h
  · exact Or.inr ⟨h, rfl⟩
  · rcases List.mem_append.mp h with h | h
    · rcases hloc.2 c (List.mem_cons_of_mem _ h) with h' | ⟨h', -⟩
      · exact Or.inl h'
      · exact Or.inr ⟨h', rfl⟩
    · exact Or.inr ⟨by simpa using h, rfl⟩

theorem hmLoop_right {env : HMEnv X} {g : X → ℝ} (hr : RightClassifier env g) (ha : ArgsortSpec env.argsort) (cand : List X) (nIni k j : ℕ)
    (fuel : ℕ) (hfuel : k ≤ fuel) (loc : HMLocals X) (hloc : RightLocals g loc) (s : HMAttrs X)
    (hlab : s.labels = s.input.map fun x => decide (1 / 2 ≤ g x))
    (ht : true ∈ s.labels) (hf : false ∈ s.labels) (hw : ∃ i, InWindow s.pmin s.pmax (cand.map fun x => .fin (g x)) i)
    (hlen : s.input.length = nIni + 5 * j) (hadd : loc.nAdded = 5 * j) :
    ∃ loc' s', hmLoop env cand nIni (5 * (j + k)) fuel loc s = (.ok loc', s') ∧
      s'.input = s.input ++ (List.replicate k (rightBatch env g cand s.pmin s.pmax)).flatten := by
  induction k generalizing j fuel loc s with
  | zero =>
    refine ⟨loc, s, ?_, by simp⟩
    cases fuel with
    | zero => rw [hmLoop]; dsimp only; rw [if_neg (by omega)]
    | succ n => rw [hmLoop]; dsimp only; rw [if_neg (by omega)]
  | succ k ih =>
    obtain ⟨fuel, rfl⟩ : ∃ f, fuel = f + 1 := ⟨fuel - 1, by omega⟩
    obtain ⟨loc1, s1, h1, h2, h3, h4, h5, h6, h7, h8, h9⟩ := hmIter_right hr ha cand nIni (5 * (j + (k + 1))) loc hloc s hlab ht hf hw (by omega)
    have hb : (rightBatch env g cand s.pmin s.pmax).length = 5 := by
      obtain ⟨b, hb⟩ := (C52_window_partial env.argsort ha s.pmin s.pmax (cand.map fun x => .fin (g x))).mpr hw
      rw [rightBatch, hb]
      exact (batch_points env.argsort ha s.pmin s.pmax cand _ b hb).1
    obtain ⟨loc', s', hl, hi⟩ := ih (j + 1) fuel (by omega) loc1 h2 s1 h4 h7 h8 (by rw [h5, h6]; exact hw)
      (by rw [h3, List.length_append, hb]; omega) (by rw [h9]; omega)
    refine ⟨loc', s', ?_, ?_⟩
    · rw [hmLoop]
      dsimp only
      rw [if_pos (by omega), h1]
      dsimp only
      rw [← hl]
      congr 1; omega
    · rw [hi, h3, h5, h6, List.replicate_succ, List.flatten_cons, List.append_assoc]

/-- **C154 is violated, hit-miss.**  With a classifier that is right everywhere the run evaluates the same five candidates in each iteration: the candidates
already evaluated are not removed. -/
theorem C154_hitmiss_violated (env : HMEnv X) (g : X → ℝ) (hr : RightClassifier env g) (ha : ArgsortSpec env.argsort) (cand : List X) (k : ℕ)
    (s : HMAttrs X) (hnp : s.numpy = false) (hlab : s.labels = s.input.map fun x => decide (1 / 2 ≤ g x))
    (ht : true ∈ s.labels) (hf : false ∈ s.labels) (hw : ∃ i, InWindow s.pmin s.pmax (cand.map fun x => .fin (g x)) i) :
    ∃ batch s', batch.length = 5 ∧ (∀ x ∈ batch, x ∈ cand) ∧ hmRun env cand (5 * k) s = (.ok (), s') ∧
      s'.input = s.input ++ (List.replicate k batch).flatten := by
  obtain ⟨b, hb⟩ := (C52_window_partial env.argsort ha s.pmin s.pmax (cand.map fun x => .fin (g x))).mpr hw
  have hbp := batch_points env.argsort ha s.pmin s.pmax cand _ b hb
  have hB : rightBatch env g cand s.pmin s.pmax = b.filterMap fun i => cand[i]? := by rw [rightBatch, hb]
  obtain ⟨loc', s', hl, hi⟩ := hmLoop_right hr ha cand s.input.length k 0 (5 * k) (by omega)
    ⟨[.base fun x => .fin (g x)], .base fun x => .fin (g x), none, 0, 0⟩
    ⟨by simp, by intro c hc; left; simpa using hc⟩
    { s with numpy := true, model := some (.base fun x => .fin (g x), none) } hlab ht hf hw (by simp) rfl
  rw [Nat.zero_add] at hl
  refine ⟨rightBatch env g cand s.pmin s.pmax, { s' with numpy := false }, by rw [hB]; exact hbp.1, fun x hx => ?_, ?_, hi⟩
  · rw [hB] at hx; exact (hbp.2 x hx).1
  · rw [hmRun]
    dsimp only
    rw [hnp, hr.fit]
    dsimp only
    rw [hl]
    rfl

/-- **C154 is violated, hit-miss (evaluations that are thrown away).**  In the last iteration the physical model is called for the five selected candidates even when
fewer are missing: if it fails on one of those that would be thrown away, the run fails. -/
theorem C154_extra_violated (env : HMEnv X) (cand : List X) (nIni nMore : ℕ) (loc : HMLocals X) (s : HMAttrs X) (b : List ℕ)
    (hb : selectBatch env.argsort s.pmin s.pmax (cand.map (loc.cur.eval loc.vars)) = .ok b) (i : ℕ) (x : X) (e : PyErr)
    (_ : nMore + nIni - s.input.length ≤ i) (hx : (b.filterMap fun i => cand[i]?)[i]? = some x) (he : env.physical x = .error e) :
    ∃ e', hmIter env cand nIni nMore loc s = (.error e', s) := by
  have key : ∀ (xs : List X) (i : ℕ), xs[i]? = some x → ∃ e', labelAll env.physical xs = .error e' := by
    intro xs
    induction xs with
    | nil => intro i h; simp at h
    | cons y ys ih =>
      intro i h
      rw [labelAll]
      cases hy : env.physical y with
      | error e' => exact ⟨e', rfl⟩
      | ok v =>
        dsimp only
        cases i with
        | zero =>
          simp only [List.getElem?_cons_zero, Option.some.injEq] at h
          rw [h, he] at hy; cases hy
        | succ i =>
          obtain ⟨e', h'⟩ := ih i (by simpa using h)
          rw [h']; exact ⟨e', rfl⟩
  obtain ⟨e', h'⟩ := key _ i hx
  refine ⟨e', ?_⟩
  unfold hmIter
  rw [hb]
  dsimp only
  rw [h']

/-- The same for a whole run that asks for one point: the first selected candidate is the point to add, a failure on any of the four others ends the run. -/
theorem C154_one_point_violated (env : HMEnv X) (cand : List X) (s : HMAttrs X) (hnp : s.numpy = false) (g : X → F ℝ)
    (hg : env.fit 0 s.input s.labels = .ok g) (b : List ℕ) (hb : selectBatch env.argsort s.pmin s.pmax (cand.map g) = .ok b)
    (i : ℕ) (hi : 1 ≤ i) (x : X) (e : PyErr) (hx : (b.filterMap fun i => cand[i]?)[i]? = some x) (he : env.physical x = .error e) :
    ∃ e' s', hmRun env cand 1 s = (.error e', s') ∧ s'.input = s.input := by
  obtain ⟨e', h⟩ := C154_extra_violated env cand s.input.length 1 ⟨[.base g], .base g, none, 0, 0⟩
    { s with numpy := true, model := some (.base g, none) } b hb i x e (by dsimp only; omega) hx he
  refine ⟨e', { s with numpy := true, model := some (.base g, none) }, ?_, rfl⟩
  rw [hmRun]
  dsimp only
  rw [hnp, hg]
  dsimp only
  simp only [Bool.false_eq_true, if_false]
  rw [hmLoop]
  dsimp only
  rw [if_pos (by omega), h]

/-- A right classifier on three points, the third one in the window. -/
noncomputable def rightExample : HMEnv (Fin 3) where
  physical x := .ok (decide ((1 / 2 : ℝ) ≤ (x : ℕ) / 2))
  fit _ _ _ := .ok fun x => .fin ((x : ℕ) / 2)
  argsort := argsortRef

example : ∃ batch s', batch.length = 5 ∧ (∀ x ∈ batch, x ∈ [1]) ∧
    hmRun rightExample [1] (5 * 2) ⟨[0, 2], [false, true], false, none, none, .fin (45 / 100), .fin (52 / 100)⟩ = (.ok (), s') ∧
    s'.input = [0, 2] ++ (List.replicate 2 batch).flatten := by
  refine C154_hitmiss_violated rightExample (fun x => (x : ℕ) / 2) ⟨?_, fun _ _ _ => rfl, fun _ => rfl⟩ argsortRef_spec [1] 2
    ⟨[0, 2], [false, true], false, none, none, .fin (45 / 100), .fin (52 / 100)⟩ rfl ?_ (by simp) (by simp) ⟨0, ?_⟩
  · intro x
    fin_cases x <;> norm_num
  · norm_num
  · refine ⟨by simp, ?_, ?_⟩ <;> norm_num [F.le, F.lt]

/-- Two candidates in the window (probabilities 0.46 and 0.5): the batch is `[1, 1, 2, 2, 2]`, its last members are the second candidate. -/
example : ∃ b, selectBatch (fun l => List.range l.length) (.fin (45 / 100)) (.fin (52 / 100)) ([(1 : ℕ), 2].map fun x => .fin (if x = 1 then 46 / 100 else 1 / 2)) = .ok b ∧
    (b.filterMap fun i => [(1 : ℕ), 2][i]?)[4]? = some 2 := by
  refine ⟨[0, 0, 1, 1, 1], ?_, rfl⟩
  have hw : window (.fin (45 / 100)) (.fin (52 / 100)) ([(1 : ℕ), 2].map fun x => (.fin (if x = 1 then 46 / 100 else 1 / 2) : F ℝ)) = [0, 1] := by
    rw [window_eq]
    norm_num [InWindow, List.range_succ, List.filter_cons, F.le, F.lt]
  rw [selectBatch, eligible_eq, hw]
  rfl

end Verif.Props
