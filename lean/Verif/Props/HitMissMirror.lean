import Verif.Props.HitMissCorrection

/-!
# C254: exchanging hits and misses in the hit-miss POD
-/

namespace Verif.Props
open Verif.Py Verif.Model

variable {X : Type}

/-- One minus a probability. -/
noncomputable def oneMinus (p : F ℝ) : F ℝ := F.sub (.fin 1) p

/-- The same study with hits and misses exchanged: the physical model answers the opposite, and the classifier fitted on opposite labels gives the
complementary probabilities. -/
noncomputable def swapEnv (env : HMEnv X) : HMEnv X where
  physical x := (env.physical x).map not
  fit k xs labels := (env.fit k xs (labels.map not)).map fun g x => oneMinus (g x)
  argsort := env.argsort

/-- The object of the exchanged study: opposite labels, the window of the complementary probabilities. -/
noncomputable def swapAttrs (s : HMAttrs X) : HMAttrs X :=
  { s with labels := s.labels.map not, pmin := oneMinus s.pmax, pmax := oneMinus s.pmin }

theorem oneMinus_fin (p : ℝ) : oneMinus (.fin p) = .fin (1 - p) := by
  simp [oneMinus, F.sub, sub_eq_add_neg]

/-! ## The correction -/

theorem aggregate_swap (a b p : ℝ) : aggregate (.fin (1 - b)) (.fin (1 - a)) (.fin (1 - p)) = oneMinus (aggregate (.fin a) (.fin b) (.fin p)) := by
  by_cases h : a = b
  · subst h
    have e1 : (1 - a) + -(1 - a) = 0 := by ring
    have e2 : a + -a = 0 := by ring
    have e3 : 1 - p + -(1 - a) = a - p := by ring
    have e4 : p + -a = p - a := by ring
    simp only [aggregate, F.sub, F.neg_fin, F.add_fin, e1, e2, e3, e4, F.div, if_true, F.infSign, one_ne_zero, if_false, zero_lt_one, F.mul]
    rcases lt_trichotomy p a with h | h | h
    · rw [if_neg (by linarith), if_pos (by linarith), if_neg (by linarith), if_neg (by linarith)]
      simp [clip01, oneMinus_fin]
    · subst h
      simp [clip01, oneMinus, F.sub, F.neg]
    · rw [if_neg (by linarith), if_neg (by linarith), if_neg (by linarith), if_pos (by linarith)]
      simp [clip01, oneMinus_fin]
  · have h' : a - b ≠ 0 := sub_ne_zero.mpr h
    rw [aggregate_fin _ _ _ (by intro h2; apply h; linarith), aggregate_fin _ _ _ h, oneMinus_fin]
    congr 1
    have e : (1 - p - (1 - a)) / (1 - b - (1 - a)) = 1 - (p - b) / (a - b) := by
      rw [show 1 - b - (1 - a) = a - b by ring]
      field_simp
      ring
    rw [e]
    generalize (p - b) / (a - b) = t
    rcases le_total t 0 with h0 | h0
    · rw [max_eq_right h0, max_eq_left (by linarith : (0 : ℝ) ≤ 1 - t), min_eq_right (by linarith), min_eq_left (by norm_num)]
      norm_num
    · rw [max_eq_left h0]
      rcases le_total t 1 with h1 | h1
      · rw [min_eq_left h1, max_eq_left (by linarith), min_eq_left (by linarith)]
      · rw [min_eq_right h1, max_eq_right (by linarith), min_eq_left (by norm_num)]
        norm_num

theorem confCount_swap (labels preds : List Bool) (i j : Bool) :
    confCount (labels.map not) (preds.map not) i j = confCount labels preds (!i) (!j) := by
  unfold confCount
  rw [List.zip_map, List.countP_map]
  apply List.countP_congr
  rintro ⟨a, b⟩ -
  cases a <;> cases b <;> cases i <;> cases j <;> simp

/-- Predictions of a classifier. -/
noncomputable def predsOf (ps : List ℝ) : List Bool := ps.map fun p => decide (1 / 2 ≤ p)

theorem preds_fin (ps : List ℝ) : ((ps.map F.fin).map fun p => F.ge p (.fin (1 / 2))) = predsOf ps := by
  rw [predsOf, List.map_map]
  rfl

theorem preds_swap (ps : List ℝ) (h : ∀ p ∈ ps, p ≠ 1 / 2) : predsOf (ps.map (1 - ·)) = (predsOf ps).map not := by
  rw [predsOf, predsOf, List.map_map, List.map_map]
  apply List.map_congr_left
  intro p hp
  simp only [Function.comp_apply]
  rcases lt_or_gt_of_ne (h p hp) with h1 | h1
  · rw [decide_eq_true (by linarith), decide_eq_false (by linarith)]; rfl
  · rw [decide_eq_false (by linarith), decide_eq_true (by linarith)]; rfl

/-- Share of the label `i` among the observations predicted `j`. -/
noncomputable def shareOf (labels : List Bool) (ps : List ℝ) (i j : Bool) : ℝ :=
  (confCount labels (predsOf ps) i j : ℝ) / ((confCount labels (predsOf ps) false j : ℝ) + confCount labels (predsOf ps) true j)

/-- Both predictions occur. -/
def TwoPredictions (labels : List Bool) (ps : List ℝ) : Prop :=
  ∀ j, 0 < confCount labels (predsOf ps) false j + confCount labels (predsOf ps) true j

theorem meanConf_share (labels : List Bool) (pss : List (List ℝ)) (hne : pss ≠ []) (h : ∀ ps ∈ pss, TwoPredictions labels ps) (i j : Bool) :
    meanConf labels (pss.map (List.map F.fin)) i j = .fin ((pss.map fun ps => shareOf labels ps i j).sum / pss.length) := by
  have hc : ∀ ps ∈ pss, classifierConf labels (ps.map F.fin) i j = .fin (shareOf labels ps i j) := by
    intro ps hps
    have hpos : ((confCount labels (predsOf ps) false j : ℝ) + confCount labels (predsOf ps) true j) ≠ 0 := by
      have := h ps hps j
      have h2 : (0 : ℝ) < ((confCount labels (predsOf ps) false j + confCount labels (predsOf ps) true j : ℕ) : ℝ) := by exact_mod_cast this
      push_cast at h2
      exact h2.ne'
    rw [classifierConf, preds_fin, colNorm, F.div_fin _ hpos, shareOf]
  have hfold : ∀ (l : List (List ℝ)), (∀ ps ∈ l, ps ∈ pss) → ∀ acc : ℝ,
      (l.map (List.map F.fin)).foldl (fun acc p => F.add (classifierConf labels p i j) acc) (.fin acc)
        = .fin (acc + (l.map fun ps => shareOf labels ps i j).sum) := by
    intro l
    induction l with
    | nil => intro _ acc; simp
    | cons ps l ih =>
      intro hl acc
      rw [List.map_cons, List.foldl_cons, hc ps (hl ps (by simp)), F.add_fin, ih (fun q hq => hl q (by simp [hq]))]
      rw [List.map_cons, List.sum_cons]
      congr 1
      ring
  have hlen : (pss.length : ℝ) ≠ 0 := by simpa using hne
  rw [meanConf, hfold pss (fun _ h => h) 0, List.length_map, F.div_fin _ hlen, zero_add]

/-- **C254 (correction).**  The correction by the confusion matrices is symmetric: with the opposite labels and the complementary probabilities of all
classifiers (none exactly one half on the design, both predictions occurring), it gives the complementary probability, also where it gives NaN. -/
theorem C254_correction_partial (labels : List Bool) (pss : List (List ℝ)) (hne : pss ≠ []) (hhalf : ∀ ps ∈ pss, ∀ p ∈ ps, p ≠ 1 / 2)
    (hboth : ∀ ps ∈ pss, TwoPredictions labels ps) (p : ℝ) :
    let conf := meanConf labels (pss.map (List.map F.fin))
    let conf' := meanConf (labels.map not) ((pss.map (List.map (1 - ·))).map (List.map F.fin))
    aggregate (conf' true true) (conf' true false) (.fin (1 - p)) = oneMinus (aggregate (conf true true) (conf true false) (.fin p)) := by
  intro conf conf'
  have hshare : ∀ ps ∈ pss, ∀ j, shareOf (labels.map not) (ps.map (1 - ·)) true j = 1 - shareOf labels ps true (!j) := by
    intro ps hps j
    have hpos : ((confCount labels (predsOf ps) false (!j) : ℝ) + confCount labels (predsOf ps) true (!j)) ≠ 0 := by
      have := hboth ps hps (!j)
      have h2 : (0 : ℝ) < ((confCount labels (predsOf ps) false (!j) + confCount labels (predsOf ps) true (!j) : ℕ) : ℝ) := by exact_mod_cast this
      push_cast at h2
      exact h2.ne'
    simp only [shareOf, preds_swap ps (hhalf ps hps), confCount_swap, Bool.not_true, Bool.not_false]
    rw [add_comm (confCount labels (predsOf ps) true (!j) : ℝ), eq_sub_iff_add_eq, ← add_div, div_self hpos]
  have hboth' : ∀ ps ∈ pss.map (List.map (1 - ·)), TwoPredictions (labels.map not) ps := by
    intro qs hqs j
    obtain ⟨ps, hps, rfl⟩ := List.mem_map.mp hqs
    have := hboth ps hps (!j)
    rw [preds_swap ps (hhalf ps hps), confCount_swap, confCount_swap]
    simp only [Bool.not_false, Bool.not_true]
    omega
  have hlen : (pss.length : ℝ) ≠ 0 := by simpa using hne
  have hmean : ∀ j, conf' true j = .fin (1 - (pss.map fun ps => shareOf labels ps true (!j)).sum / pss.length) := by
    intro j
    have hs : ∀ l : List (List ℝ), (∀ ps ∈ l, ps ∈ pss) → ((l.map (List.map (1 - ·))).map fun ps => shareOf (labels.map not) ps true j).sum
        = l.length - (l.map fun ps => shareOf labels ps true (!j)).sum := by
      intro l
      induction l with
      | nil => simp
      | cons ps l ih =>
        intro hl
        simp only [List.map_cons, List.sum_cons, List.length_cons]
        rw [ih fun q hq => hl q (by simp [hq]), hshare ps (hl ps (by simp))]
        push_cast
        ring
    change meanConf _ _ _ _ = _
    rw [meanConf_share _ _ (by simpa using hne) hboth', hs pss fun _ h => h, List.length_map, sub_div, div_self hlen]
  change aggregate (conf' true true) (conf' true false) _ = oneMinus (aggregate (meanConf _ _ _ _) (meanConf _ _ _ _) _)
  rw [hmean, hmean, meanConf_share _ _ hne hboth, meanConf_share _ _ hne hboth, Bool.not_true, Bool.not_false, aggregate_swap]

/-! ## Runs without new points -/

/-- **C254 (no new points).**  When no point is added, the exchanged run succeeds if the run does, and its classifier gives the complementary
probability at every point. -/
theorem C254_initial_partial (env : HMEnv X) (cand : List X) (s t : HMAttrs X) (h : hmRun env cand 0 s = (.ok (), t)) :
    ∃ g t', hmRun (swapEnv env) cand 0 (swapAttrs s) = (.ok (), t') ∧ t.model = some (.base g, none) ∧
      t'.model = some (.base fun x => oneMinus (g x), none) ∧ t'.input = t.input ∧ t'.labels = t.labels.map not := by
  unfold hmRun at h ⊢
  by_cases hn : s.numpy
  · simp [hn] at h
  · have hn' : ¬ (swapAttrs s).numpy := hn
    rw [if_neg hn] at h
    rw [if_neg hn']
    dsimp only at h ⊢
    have hl : (s.labels.map not).map not = s.labels := by simp [List.map_map, Function.comp_def]
    have hfit : (swapEnv env).fit 0 (swapAttrs s).input (swapAttrs s).labels = (env.fit 0 s.input s.labels).map fun g x => oneMinus (g x) := by
      simp only [swapEnv, swapAttrs, hl]
    rw [hfit]
    cases hg : env.fit 0 s.input s.labels with
    | error e => rw [hg] at h; simp at h
    | ok g =>
      rw [hg] at h
      simp only [hmLoop, lt_irrefl, if_false, Prod.mk.injEq, true_and] at h
      subst h
      refine ⟨g, { swapAttrs s with numpy := false, model := some (.base fun x => oneMinus (g x), none) }, ?_, rfl, rfl, rfl, rfl⟩
      simp only [Except.map, hmLoop, lt_irrefl, if_false]

/-! ## Selection -/

theorem window_all (lo hi : ℝ) (ps : List ℝ) (h : ∀ p ∈ ps, lo ≤ p ∧ p < hi) : window (.fin lo) (.fin hi) (ps.map F.fin) = List.range ps.length := by
  rw [window_eq, List.length_map, List.filter_eq_self]
  intro i hi'
  have hi' : i < ps.length := by simpa using hi'
  obtain ⟨h1, h2⟩ := h ps[i] (List.getElem_mem hi')
  apply decide_eq_true
  unfold InWindow
  refine ⟨by simpa using hi', ?_, ?_⟩ <;> rw [List.getD_eq_getElem _ _ (by simpa using hi')] <;> simp [h1, h2]

/-- The batch in terms of an order of the ranks. -/
theorem selectBatch_ranks (argsort : List (F ℝ) → List ℕ) (ha : ArgsortSpec argsort) (lo hi : ℝ) (ps : List ℝ) (hne : ps ≠ [])
    (h : ∀ p ∈ ps, lo ≤ p ∧ p < hi) (rk : List ℕ) (hrk : rk.Perm (List.range ps.length))
    (hord : rk.Pairwise fun i j => ps.getD i 0 < ps.getD j 0) :
    selectBatch argsort (.fin lo) (.fin hi) (ps.map F.fin) = .ok ((ranks ps.length).map fun r => rk.getD r 0) := by
  have hw := window_all lo hi ps h
  have hpos : 0 < ps.length := List.length_pos_iff.mpr hne
  obtain ⟨-, h2⟩ := selectBatch_eq argsort ha (.fin lo) (.fin hi) (ps.map F.fin)
  have hmap : (List.range ps.length).map (fun i => (ps.map F.fin).getD i .nan) = ps.map F.fin := by
    apply List.ext_getElem
    · simp
    · intro i h1 h2
      simp at h1
      simp [h1]
  rw [hw, hmap] at h2
  obtain ⟨hlen, hsel⟩ := h2 (by intro h0; have := congrArg List.length h0; simp at this; exact hne this)
  obtain ⟨hperm, hsorted⟩ := ha (ps.map F.fin) (by simp)
  rw [List.length_map] at hperm
  have hrank : argsort (ps.map F.fin) = rk := by
    refine (hperm.trans hrk.symm).eq_of_pairwise (le := fun i j => ps.getD i 0 ≤ ps.getD j 0) ?_ ?_ (hord.imp fun h => h.le)
    · intro i j hi hj h1 h2
      have hi' := hrk.mem_iff.mpr (hperm.mem_iff.mp hi)
      by_contra hij
      rcases List.pairwise_iff_getElem.mp hord with hp
      obtain ⟨a, ha', rfl⟩ := List.mem_iff_getElem.mp hi'
      obtain ⟨b, hb', rfl⟩ := List.mem_iff_getElem.mp hj
      rcases lt_trichotomy a b with hab | hab | hab
      · exact absurd (hp a b ha' hb' hab) (not_lt.mpr h2)
      · subst hab; exact hij rfl
      · exact absurd (hp b a hb' ha' hab) (not_lt.mpr h1)
    · rw [List.pairwise_map] at hsorted
      refine hsorted.imp_of_mem ?_
      intro i j hi hj hle
      have hi' : i < ps.length := by simpa using hperm.mem_iff.mp hi
      have hj' : j < ps.length := by simpa using hperm.mem_iff.mp hj
      rw [List.getD_eq_getElem _ _ (by simpa using hi'), List.getD_eq_getElem _ _ (by simpa using hj')] at hle
      rw [List.getD_eq_getElem _ _ hi', List.getD_eq_getElem _ _ hj']
      simpa using hle
  rw [hsel, hrank, List.length_range]
  congr 1
  apply List.map_congr_left
  intro r hr
  have hr' := ranks_lt _ hpos r hr
  have hl : rk.length = ps.length := by rw [hrk.length_eq]; simp
  have hlt : rk.getD r 0 < ps.length := by
    rw [List.getD_eq_getElem _ _ (by omega)]
    simpa using hrk.mem_iff.mp (List.getElem_mem (by omega : r < rk.length))
  rw [List.getD_eq_getElem _ _ (by simpa using hlt)]
  simp

/-- The batches of the two runs when the candidates come in the order of their probabilities. -/
theorem selection_swap (argsort : List (F ℝ) → List ℕ) (ha : ArgsortSpec argsort) (lo hi : ℝ) (ps : List ℝ) (hne : ps ≠ [])
    (h : ∀ p ∈ ps, lo < p ∧ p < hi) (hinc : ps.Pairwise (· < ·)) :
    selectBatch argsort (.fin lo) (.fin hi) (ps.map F.fin) = .ok (ranks ps.length) ∧
    selectBatch argsort (.fin (1 - hi)) (.fin (1 - lo)) ((ps.map (1 - ·)).map F.fin) = .ok ((ranks ps.length).map fun r => ps.length - 1 - r) := by
  have hpos : 0 < ps.length := List.length_pos_iff.mpr hne
  have hget := List.pairwise_iff_getElem.mp hinc
  constructor
  · rw [selectBatch_ranks argsort ha lo hi ps hne (fun p hp => ⟨(h p hp).1.le, (h p hp).2⟩) (List.range ps.length) (.refl _)]
    · congr 1
      conv_rhs => rw [← List.map_id (ranks ps.length)]
      apply List.map_congr_left
      intro r hr
      have hr' := ranks_lt _ hpos r hr
      rw [List.getD_eq_getElem _ _ (by simpa using hr')]
      simp
    · refine List.pairwise_lt_range.imp_of_mem ?_
      intro i j hi hj hij
      rw [List.mem_range] at hi hj
      rw [List.getD_eq_getElem _ _ hi, List.getD_eq_getElem _ _ hj]
      exact hget i j hi hj hij
  · have hl : (ps.map (1 - ·)).length = ps.length := by simp
    rw [selectBatch_ranks argsort ha (1 - hi) (1 - lo) (ps.map (1 - ·)) (by simpa using hne) ?_ (List.range ps.length).reverse
      (by rw [hl]; exact List.reverse_perm _)]
    · rw [hl]
      congr 1
      apply List.map_congr_left
      intro r hr
      have hr' := ranks_lt _ hpos r hr
      rw [List.getD_eq_getElem _ _ (by simpa using hr'), List.getElem_reverse]
      simp
    · rw [List.pairwise_reverse]
      refine List.pairwise_lt_range.imp_of_mem ?_
      intro i j hi hj hij
      rw [List.mem_range] at hi hj
      rw [List.getD_eq_getElem _ _ (by simpa using hj), List.getD_eq_getElem _ _ (by simpa using hi), List.getElem_map, List.getElem_map]
      have := hget i j hi hj hij
      linarith
    · intro q hq
      obtain ⟨p, hp, rfl⟩ := List.mem_map.mp hq
      obtain ⟨h1, h2⟩ := h p hp
      constructor <;> linarith

/-- The design after a run that adds one batch. -/
theorem one_batch_input (env : HMEnv X) (ha : ArgsortSpec env.argsort) (cand : List X) (s s' : HMAttrs X) (h : hmRun env cand 5 s = (.ok (), s'))
    (g : X → F ℝ) (hg : env.fit 0 s.input s.labels = .ok g) (batch : List ℕ) (hb : selectBatch env.argsort s.pmin s.pmax (cand.map g) = .ok batch) :
    s'.input = s.input ++ batch.filterMap fun i => cand[i]? := by
  unfold hmRun at h
  split_ifs at h
  · simp at h
  · dsimp only at h
    rw [hg] at h
    dsimp only at h
    split at h
    · simp at h
    · rename_i _ loc' s2 hl
      simp only [Prod.mk.injEq, true_and] at h
      subst h
      rw [hmLoop] at hl
      dsimp only at hl
      rw [if_pos (by norm_num)] at hl
      cases hit : hmIter env cand s.input.length 5 ⟨[.base g], .base g, none, 0, 0⟩ { { s with numpy := true } with model := some (.base g, none) } with
      | mk r s1 =>
        rw [hit] at hl
        cases r with
        | error e => simp at hl
        | ok loc1 =>
          dsimp only at hl
          obtain ⟨-, -, -, -, -, -, -, h6, -⟩ := hmIter_ok env ha cand _ _ _ loc1 _ s1 hit (by simp)
          have hn : ¬ loc1.nAdded < 5 := by rw [h6]; simp only; omega
          have hs : s2 = s1 := by
            rw [hmLoop] at hl; dsimp only at hl; rw [if_neg hn] at hl; cases hl; rfl
          subst hs
          change s2.input = _
          unfold hmIter at hit
          have hb' : selectBatch env.argsort s.pmin s.pmax (cand.map ((Clf.base g : Clf X).eval none)) = .ok batch := hb
          obtain ⟨hlen, -⟩ := batch_points env.argsort ha s.pmin s.pmax cand g batch hb
          dsimp only at hit
          rw [hb'] at hit
          dsimp only at hit
          split at hit
          · simp at hit
          · split at hit
            · simp at hit
            · simp only [Prod.mk.injEq, Except.ok.injEq] at hit
              obtain ⟨-, rfl⟩ := hit
              dsimp only
              rw [if_neg (by rw [hlen]; omega), List.take_length]

/-- **C254 is violated.**  One batch of five points is added, `4 m` candidates with `m ≥ 2` come in the order of their predicted probabilities, all
inside the window.  The run evaluates the physical model at the candidate number `m`; the exchanged run does not. -/
theorem C254_violated (env : HMEnv X) (ha : ArgsortSpec env.argsort) (cand : List X) (hnd : cand.Nodup) (m : ℕ) (hm : 2 ≤ m)
    (hlen : cand.length = 4 * m) (s t t' : HMAttrs X) (lo hi : ℝ) (hlo : s.pmin = .fin lo) (hhi : s.pmax = .fin hi) (g : X → F ℝ)
    (hg : env.fit 0 s.input s.labels = .ok g) (ps : List ℝ) (hps : cand.map g = ps.map F.fin) (hin : ∀ p ∈ ps, lo < p ∧ p < hi)
    (hinc : ps.Pairwise (· < ·)) (h : hmRun env cand 5 s = (.ok (), t)) (h' : hmRun (swapEnv env) cand 5 (swapAttrs s) = (.ok (), t')) :
    ∃ added added' x, t.input = s.input ++ added ∧ t'.input = s.input ++ added' ∧ cand[m]? = some x ∧ x ∈ added ∧ x ∉ added' := by
  have hpl : ps.length = 4 * m := by
    rw [← hlen]
    simpa using (congrArg List.length hps).symm
  obtain ⟨b1, b2⟩ := selection_swap env.argsort ha lo hi ps (by rintro rfl; simp at hpl; omega) hin hinc
  have hl : (s.labels.map not).map not = s.labels := by simp [List.map_map, Function.comp_def]
  have hg' : (swapEnv env).fit 0 (swapAttrs s).input (swapAttrs s).labels = .ok fun x => oneMinus (g x) := by
    simp only [swapEnv, swapAttrs, hl, hg]
    rfl
  have hps' : (cand.map fun x => oneMinus (g x)) = (ps.map (1 - ·)).map F.fin := by
    rw [show (fun x => oneMinus (g x)) = oneMinus ∘ g from rfl, ← List.map_map, hps, List.map_map, List.map_map]
    apply List.map_congr_left
    intro p _
    exact oneMinus_fin p
  have i1 := one_batch_input env ha cand s t h g hg _ (by rw [hlo, hhi, hps]; exact b1)
  have i2 := one_batch_input (swapEnv env) ha cand (swapAttrs s) t' h' _ hg' _ (by
    rw [hps']
    change selectBatch env.argsort (oneMinus s.pmax) (oneMinus s.pmin) _ = _
    rw [hlo, hhi, oneMinus_fin, oneMinus_fin]
    exact b2)
  have hmc : m < cand.length := by omega
  refine ⟨_, _, cand[m], i1, i2, List.getElem?_eq_getElem hmc, ?_, ?_⟩
  · refine List.mem_filterMap.mpr ⟨m, ?_, List.getElem?_eq_getElem hmc⟩
    rw [hpl, ranks]
    simp only [List.mem_cons]
    right; left; omega
  · intro hx
    obtain ⟨i, hi', hix⟩ := List.mem_filterMap.mp hx
    obtain ⟨hic, hie⟩ := List.getElem?_eq_some_iff.mp hix
    have him := (List.Nodup.getElem_inj_iff hnd).mp hie
    subst him
    rw [hpl] at hi'
    simp only [ranks, List.map_cons, List.map_nil, List.mem_cons, List.not_mem_nil, or_false] at hi'
    omega

/-! ## Examples -/

theorem labelAll_total (f : X → Bool) (xs : List X) : labelAll (fun x => .ok (f x)) xs = .ok (xs.map f) := by
  induction xs with
  | nil => rfl
  | cons x xs ih => simp only [labelAll, ih, List.map_cons]

/-- A run that adds one batch succeeds when the physical model and the fit do. -/
theorem one_batch_succeeds (env : HMEnv X) (ha : ArgsortSpec env.argsort) (cand : List X) (s : HMAttrs X) (hn : s.numpy = false) (f : X → Bool)
    (hf : env.physical = fun x => .ok (f x)) (fit : ℕ → List X → List Bool → X → F ℝ) (hfit : env.fit = fun k xs ls => .ok (fit k xs ls)) (batch : List ℕ)
    (hb : selectBatch env.argsort s.pmin s.pmax (cand.map (fit 0 s.input s.labels)) = .ok batch) : ∃ t, hmRun env cand 5 s = (.ok (), t) := by
  obtain ⟨hlen, -⟩ := batch_points env.argsort ha s.pmin s.pmax cand _ batch hb
  have hb' : selectBatch env.argsort s.pmin s.pmax (cand.map ((Clf.base (fit 0 s.input s.labels) : Clf X).eval none)) = .ok batch := hb
  unfold hmRun
  rw [if_neg (by simp [hn]), hfit]
  dsimp only
  rw [hmLoop]
  dsimp only
  rw [if_pos (by norm_num), hmIter]
  dsimp only
  rw [hb', hf]
  dsimp only
  rw [labelAll_total, hfit]
  dsimp only
  rw [hmLoop]
  dsimp only
  rw [if_neg (by rw [hlen]; omega)]
  exact ⟨_, rfl⟩

/-- The hypotheses of C254 (violated) are met by the eight candidates 0, …, 7 with the probabilities 0.46, …, 0.53, the default window and a physical
model that always detects. -/
example : ∃ (env : HMEnv ℕ) (s t t' : HMAttrs ℕ) (added added' : List ℕ), hmRun env (List.range 8) 5 s = (.ok (), t) ∧
    hmRun (swapEnv env) (List.range 8) 5 (swapAttrs s) = (.ok (), t') ∧ t.input = s.input ++ added ∧ t'.input = s.input ++ added' ∧
    2 ∈ added ∧ 2 ∉ added' := by
  let q : ℕ → ℝ := fun i => 46 / 100 + i / 100
  let ps : List ℝ := (List.range 8).map q
  let env : HMEnv ℕ := ⟨fun _ => .ok true, fun _ _ _ => .ok fun i => .fin (q i), argsortRef⟩
  let s : HMAttrs ℕ := ⟨[0, 9], [true, false], false, none, none, .fin (45 / 100), .fin (55 / 100)⟩
  have hin : ∀ p ∈ ps, (45 / 100 : ℝ) < p ∧ p < 55 / 100 := by
    intro p hp
    obtain ⟨i, hi, rfl⟩ := List.mem_map.mp hp
    rw [List.mem_range] at hi
    have h0 : (0 : ℝ) ≤ i := Nat.cast_nonneg i
    have h7 : (i : ℝ) ≤ 7 := by exact_mod_cast (by omega : i ≤ 7)
    simp only [q]
    constructor <;> linarith
  have hinc : ps.Pairwise (· < ·) := by
    rw [List.pairwise_map]
    refine List.pairwise_lt_range.imp ?_
    intro i j hij
    have : (i : ℝ) < j := by exact_mod_cast hij
    simp only [q]
    linarith
  have hps : ((List.range 8).map fun i => F.fin (q i)) = ps.map F.fin := by rw [List.map_map]; rfl
  obtain ⟨b1, b2⟩ := selection_swap argsortRef argsortRef_spec (45 / 100) (55 / 100) ps (by simp [ps]) hin hinc
  obtain ⟨t, ht⟩ := one_batch_succeeds env argsortRef_spec (List.range 8) s rfl (fun _ => true) rfl (fun _ _ _ i => .fin (q i)) rfl _
    (by rw [hps]; exact b1)
  obtain ⟨t', ht'⟩ := one_batch_succeeds (swapEnv env) argsortRef_spec (List.range 8) (swapAttrs s) rfl (fun _ => false) rfl
    (fun _ _ _ i => oneMinus (.fin (q i))) rfl _ (by
      have e : ((List.range 8).map fun i => oneMinus (F.fin (q i))) = (ps.map (1 - ·)).map F.fin := by
        rw [List.map_map, List.map_map]
        apply List.map_congr_left
        intro i _
        exact oneMinus_fin _
      rw [e]
      change selectBatch argsortRef (oneMinus (.fin (55 / 100))) (oneMinus (.fin (45 / 100))) _ = _
      rw [oneMinus_fin, oneMinus_fin]
      exact b2)
  obtain ⟨added, added', x, h1, h2, h3, h4, h5⟩ := C254_violated env argsortRef_spec (List.range 8) List.nodup_range 2 le_rfl (by simp) s t t'
    (45 / 100) (55 / 100) rfl rfl (fun i => .fin (q i)) rfl ps hps hin hinc ht ht'
  simp at h3
  subst h3
  exact ⟨env, s, t, t', added, added', ht, ht', h1, h2, h4, h5⟩

/-- The hypotheses of C254 (correction) are met by four observations and one classifier which predicts both labels. -/
example : aggregate (meanConf [false, true, false, false] [[.fin (1 - 1 / 5), .fin (1 - 3 / 5), .fin (1 - 4 / 5), .fin (1 - 9 / 10)]] true true)
      (meanConf [false, true, false, false] [[.fin (1 - 1 / 5), .fin (1 - 3 / 5), .fin (1 - 4 / 5), .fin (1 - 9 / 10)]] true false) (.fin (1 - 7 / 10))
    = oneMinus (aggregate (meanConf [true, false, true, true] [[.fin (1 / 5), .fin (3 / 5), .fin (4 / 5), .fin (9 / 10)]] true true)
      (meanConf [true, false, true, true] [[.fin (1 / 5), .fin (3 / 5), .fin (4 / 5), .fin (9 / 10)]] true false) (.fin (7 / 10))) := by
  refine C254_correction_partial [true, false, true, true] [[1 / 5, 3 / 5, 4 / 5, 9 / 10]] (by simp) ?_ ?_ (7 / 10)
  · intro ps hps p hp
    rw [List.mem_singleton] at hps
    subst hps
    simp only [List.mem_cons, List.not_mem_nil, or_false] at hp
    rcases hp with rfl | rfl | rfl | rfl <;> norm_num
  · intro ps hps j
    rw [List.mem_singleton] at hps
    subst hps
    have e : predsOf [1 / 5, 3 / 5, 4 / 5, 9 / 10] = [false, true, true, true] := by
      simp only [predsOf, List.map_cons, List.map_nil]
      norm_num
    rw [e]
    cases j <;> decide

end Verif.Props
