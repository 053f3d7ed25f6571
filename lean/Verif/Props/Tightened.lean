import Verif.Props.PliPod
import Verif.Props.Metamodel
import Verif.Props.MetaRun
import Verif.Props.SobolFigures
import Verif.Props.Summary2

/-!
# Further theorems on C28, C32, C43, C65, C71 and C164

Each was added because a wrong program passed the theorems in force.
-/

namespace Verif.Props
open Verif.Py Verif.Model

/-! ## C28, C32: the defaults -/

theorem linspace_getElem? (a b : ℝ) (n i : ℕ) (hi : i < n) : (linspace a b n)[i]? = some (a + (i : ℝ) * ((b - a) / ((n : ℝ) - 1))) := by
  simp [linspace, hi]

/-- **C28, defaults.**  A new object has 21 levels, the first 0.05, the last 0.98. -/
theorem C28_defaults : defaultQuantiles.length = 21 ∧ defaultQuantiles[0]? = some (5 / 100) ∧ defaultQuantiles[20]? = some (98 / 100) ∧
    ∀ i, i < 20 → ∃ p q, defaultQuantiles[i]? = some p ∧ defaultQuantiles[i + 1]? = some q ∧ q - p = 93 / 2000 := by
  refine ⟨by simp [defaultQuantiles, linspace], ?_, ?_, fun i hi => ?_⟩
  · rw [defaultQuantiles, linspace_getElem? _ _ _ _ (by norm_num)]
    norm_num
  · rw [defaultQuantiles, linspace_getElem? _ _ _ _ (by norm_num)]
    norm_num
  · refine ⟨_, _, linspace_getElem? _ _ _ _ (by omega), linspace_getElem? _ _ _ _ (by omega), ?_⟩
    push_cast
    norm_num
    ring

/-- **C32, defaults.**  The default sizes go from the smallest to the largest observed defect in equal steps, all inside the range; their number is stored. -/
theorem C32_defaults (observed : List ℝ) (mn mx : ℝ) (hmn : IsLeast {x | x ∈ observed} mn) (hmx : IsGreatest {x | x ∈ observed} mx) (n : ℕ) (hn : 2 ≤ n) :
    ∃ r, defaultSizes observed n = .ok r ∧ r.number = n ∧ r.sizes.length = n ∧ r.sizes[0]? = some mn ∧ r.sizes[n - 1]? = some mx ∧
      (∀ i, i + 1 < n → ∃ p q, r.sizes[i]? = some p ∧ r.sizes[i + 1]? = some q ∧ (q - p) * ((n : ℝ) - 1) = mx - mn) ∧
      ∀ p ∈ r.sizes, mn ≤ p ∧ p ≤ mx := by
  have hne : observed ≠ [] := by
    rintro rfl
    exact absurd hmn.1 (by simp)
  obtain ⟨a, b, ha, hb⟩ := sampleMinMax_ok hne
  have ea : a = mn := (sampleMin_spec ha).unique hmn
  have eb : b = mx := (sampleMax_spec hb).unique hmx
  subst ea eb
  have hab : a ≤ b := hmn.2 hmx.1
  have hn' : (1 : ℝ) ≤ (n : ℝ) - 1 := by
    have : (2 : ℝ) ≤ n := by exact_mod_cast hn
    linarith
  have hn0 : (n : ℝ) - 1 ≠ 0 := by linarith
  refine ⟨⟨linspace a b n, n⟩, by rw [defaultSizes, ha, hb], rfl, by simp [linspace], ?_, ?_, ?_, ?_⟩
  · rw [linspace_getElem? _ _ _ _ (by omega)]
    simp
  · rw [linspace_getElem? _ _ _ _ (by omega), Nat.cast_sub (by omega), Nat.cast_one, mul_div_cancel₀ _ hn0]
    simp
  · intro i hi
    refine ⟨_, _, linspace_getElem? _ _ _ _ (by omega), linspace_getElem? _ _ _ _ hi, ?_⟩
    push_cast
    field_simp
    ring
  · intro p hp
    simp only [linspace, List.mem_map, List.mem_range] at hp
    obtain ⟨i, hi, rfl⟩ := hp
    have h1 : (i : ℝ) ≤ (n : ℝ) - 1 := by
      have : (i : ℝ) + 1 ≤ n := by exact_mod_cast hi
      linarith
    have h2 : (0 : ℝ) ≤ i := Nat.cast_nonneg i
    have h3 : (i : ℝ) / ((n : ℝ) - 1) ≤ 1 := (div_le_one (by linarith)).mpr h1
    have h4 : 0 ≤ (i : ℝ) / ((n : ℝ) - 1) := div_nonneg h2 (by linarith)
    have h5 : (i : ℝ) * ((b - a) / ((n : ℝ) - 1)) = (i : ℝ) / ((n : ℝ) - 1) * (b - a) := by ring
    rw [h5]
    constructor <;> nlinarith

example : ∃ r, defaultSizes [3, 1, 5] 20 = .ok r ∧ r.number = 20 ∧ r.sizes.length = 20 ∧ r.sizes[0]? = some 1 ∧ r.sizes[20 - 1]? = some 5 := by
  obtain ⟨r, h1, h2, h3, h4, h5, -⟩ := C32_defaults [3, 1, 5] 1 5 ⟨by simp, by intro y; simp; rintro (rfl | rfl | rfl) <;> norm_num⟩
    ⟨by simp, by intro y; simp; rintro (rfl | rfl | rfl) <;> norm_num⟩ 20 (by norm_num)
  exact ⟨r, h1, h2, h3, h4, h5⟩

/-! ## C43: the settings made before the first run -/

/-- The degree given by a call. -/
def givenDegree {D : Type} : ChaosOp D → Option ℕ
  | .setDegree k => some k
  | _ => none

/-- The sizes given by a call. -/
def givenSizes {D : Type} : ChaosOp D → Option (List ℝ)
  | .setSizes l => some l
  | _ => none

/-- The distribution given by a call. -/
def givenDist {D : Type} : ChaosOp D → Option (Option D)
  | .setDistribution d => some (some d)
  | _ => none

/-- The last value given by the calls, or the one before them. -/
def lastSet {D α : Type} (pick : ChaosOp D → Option α) (ops : List (ChaosOp D)) (old : α) : α := (ops.filterMap pick).getLastD old

theorem lastSet_cons {D α : Type} (pick : ChaosOp D → Option α) (op : ChaosOp D) (ops : List (ChaosOp D)) (old : α) :
    lastSet pick (op :: ops) old = lastSet pick ops ((pick op).getD old) := by
  unfold lastSet
  rw [List.filterMap_cons]
  cases pick op with
  | none => rfl
  | some a => dsimp only [Option.getD_some]; rw [List.getLastD_cons]

/-- **C43 (restricted).**  After any calls of the setters the first run uses, for each setting, the last value given.  Missing: later runs. -/
theorem C43_settings_partial {R D P : Type} (defaultDist : List ℝ → D) (fit : D → Strategy D → Res R) (compute : R → D → List ℝ → Res P)
    (s : ChaosAttrs R D P) (hu : s.userChaos = false) (ha : s.adaptive = none) (ops : List (ChaosOp D)) (hops : ChaosOp.run ∉ ops) :
    let degree := lastSet givenDegree ops s.degree
    let sizes := lastSet givenSizes ops s.sizes
    let dist := (lastSet givenDist ops s.distribution).getD (defaultDist sizes)
    let s' := (ops ++ [ChaosOp.run]).foldl (chaosStep defaultDist fit compute) s
    s'.adaptive = some ⟨degree, dist⟩ ∧ s'.distribution = some dist ∧
      ∀ r p, fit dist ⟨degree, dist⟩ = .ok r → compute r dist sizes = .ok p → s'.pod = some p := by
  intro degree sizes dist s'
  have key : ∀ (ops : List (ChaosOp D)) (s : ChaosAttrs R D P), ChaosOp.run ∉ ops →
      (ops.foldl (chaosStep defaultDist fit compute) s) = { s with
        degree := lastSet givenDegree ops s.degree
        sizes := lastSet givenSizes ops s.sizes
        distribution := lastSet givenDist ops s.distribution } := by
    intro ops
    induction ops with
    | nil => intro s _; rfl
    | cons op ops ih =>
      intro s h
      rw [List.mem_cons, not_or] at h
      rw [List.foldl_cons, ih _ h.2]
      cases op with
      | run => exact absurd rfl h.1
      | setDegree k => simp only [chaosStep, setDegree, lastSet_cons, givenDegree, givenSizes, givenDist, Option.getD_some, Option.getD_none]
      | setSizes l => simp only [chaosStep, lastSet_cons, givenDegree, givenSizes, givenDist, Option.getD_some, Option.getD_none]
      | setDistribution d => simp only [chaosStep, chaosSetDistribution, lastSet_cons, givenDegree, givenSizes, givenDist, Option.getD_some, Option.getD_none]
  have hs' : s' = (chaosRun defaultDist fit compute (ops.foldl (chaosStep defaultDist fit compute) s)).2 := by
    simp only [s', List.foldl_append, List.foldl_cons, List.foldl_nil, chaosStep]
  rw [hs', key ops s hops]
  exact C43_first_run_partial defaultDist fit compute _ hu ha

example :
    let s' := ([ChaosOp.setDegree 4, .setSizes [1, 2], .setDegree 6] ++ [ChaosOp.run]).foldl
      (chaosStep (R := ℕ) (D := Unit) (P := ℕ) (fun _ => ()) (fun _ a => .ok a.degree) (fun r _ l => .ok (r + l.length))) ⟨false, none, none, none, 3, [], none⟩
    s'.pod = some 8 := by
  have h := C43_settings_partial (R := ℕ) (D := Unit) (P := ℕ) (fun _ => ()) (fun _ a => .ok a.degree) (fun r _ l => .ok (r + l.length))
    ⟨false, none, none, none, 3, [], none⟩ rfl rfl [.setDegree 4, .setSizes [1, 2], .setDegree 6] (by simp)
  exact h.2.2 6 8 rfl rfl

/-! ## C65: a rejected shorter list -/

variable {Obj : Type}

theorem pliRunLoop_ok (env : RunEnv Obj) (pairs : List (ℕ × ℝ)) (t : PliPod Obj) (kept : List ℕ) (hnd : (pairs.map Prod.fst).Nodup)
    (hp : ∀ p ∈ pairs, p.1 ∈ kept ∧ p.1 < t.pli.length ∧ p.1 < t.indices.n2 ∧ (NonDegenerate (env.pf p.1 p.2) → ∃ r, env.build p.1 p.2 = .ok r)) :
    ∃ t' kept', pliRunLoop env pairs (t, kept) = (.ok (), (t', kept')) ∧ kept'.Sublist kept ∧
      ((∀ p ∈ pairs, NonDegenerate (env.pf p.1 p.2)) → kept' = kept) := by
  induction pairs generalizing t kept with
  | nil => exact ⟨t, kept, rfl, List.Sublist.refl _, fun _ => rfl⟩
  | cons q rest ih =>
    obtain ⟨i, d⟩ := q
    simp only [List.map_cons, List.nodup_cons] at hnd
    obtain ⟨p1, p2, p3, p4⟩ := hp (i, d) List.mem_cons_self
    dsimp only at p1 p2 p3 p4
    have hstep : ∃ t1 k1, pliRunStep env i d (t, kept) = (.ok (), (t1, k1)) ∧ k1.Sublist kept ∧ (∀ j ∈ kept, j ≠ i → j ∈ k1) ∧
        (NonDegenerate (env.pf i d) → k1 = kept) := by
      unfold pliRunStep
      dsimp only
      by_cases hw : env.pf i d > 1 / 1000 ∧ env.pf i d < 999 / 1000
      · obtain ⟨⟨obj, m⟩, hr⟩ := p4 hw
        rw [if_pos hw, hr]
        dsimp only
        rw [if_pos p2, Cube.setSlice, if_pos p3]
        exact ⟨_, _, rfl, List.Sublist.refl _, fun j hj _ => hj, fun _ => rfl⟩
      · rw [if_neg hw, if_pos p1, Cube.setSlice, if_pos p3]
        exact ⟨_, _, rfl, List.erase_sublist, fun j hj hne => (List.mem_erase_of_ne hne).mpr hj, fun h => absurd h hw⟩
    obtain ⟨t1, k1, hs1, hsub, hkeep, hall⟩ := hstep
    obtain ⟨e1, e2, e3, e4, -⟩ := pliRunStep_spec env i d t t1 kept k1 hs1
    obtain ⟨t', kept', hl, hsub', hall'⟩ := ih t1 k1 hnd.2 (by
      intro p hpr
      obtain ⟨q1, q2, q3, q4⟩ := hp p (List.mem_cons_of_mem _ hpr)
      have hne : p.1 ≠ i := fun he => hnd.1 (he ▸ List.mem_map_of_mem hpr)
      exact ⟨hkeep _ q1 hne, e4 ▸ q2, e3 ▸ q3, q4⟩)
    refine ⟨t', kept', ?_, hsub'.trans hsub, fun h => ?_⟩
    · rw [pliRunLoop]; dsimp only; rw [hs1]
      exact hl
    · rw [hall' fun p hpr => h p (List.mem_cons_of_mem _ hpr), hall (h (i, d) List.mem_cons_self)]

/-- **C65 violated.**  A rejected list with fewer sizes is stored too.  If no estimate is degenerate the next run returns, and at the old positions beyond the
new sizes `getPLIObject` and the indices still give what was there before; if one is degenerate the run fails with IndexError in its warning. -/
theorem C65_violated_shorter (env : RunEnv Obj) (s s1 : PliPod Obj) (hc : PliConsistent s) (size : List ℝ) (k : ErrKind) (hne : size ≠ [])
    (h1 : Raises (pliSetDefectSizes size s).1 k) (hs1 : s1 = (pliSetDefectSizes size s).2) (hlen : size.length < s.defectSizes.length)
    (hb : ∀ i d, ∃ r, env.build i d = .ok r) :
    ((∀ i, ∀ hi : i < s1.defectSizes.length, NonDegenerate (env.pf i s1.defectSizes[i])) → ∃ s', pliRun env s1 = (.ok (), s') ∧
      ∀ i, size.length ≤ i → i < s.defectSizes.length → ∃ o, s.pli[i]? = some o ∧ getPLIObject s' i = .ok o ∧ ∀ a b, s'.indices.v a b i = s.indices.v a b i) ∧
    ((∃ i, ∃ hi : i < s1.defectSizes.length, ¬ NonDegenerate (env.pf i s1.defectSizes[i])) → Raises (pliRun env s1).1 .indexError) := by
  have hs : s1 = { s with defectSizes := sortR size } := by
    rw [hs1]
    obtain ⟨m, h1⟩ := h1
    unfold pliSetDefectSizes at h1 ⊢
    rw [if_neg hne] at h1 ⊢
    dsimp only at h1 ⊢
    split_ifs at h1 ⊢
    rfl
  obtain ⟨hc1, hc2, hc3⟩ := hc
  have hsz : s1.defectSizes = sortR size := by rw [hs]
  have hln : s1.defectSizes.length = size.length := by rw [hsz, sortR_length]
  have hnum : s1.defectNumber = s.defectSizes.length := by rw [hs]; exact hc1
  have hpl : s1.pli = s.pli := by rw [hs]
  have hix : s1.indices = s.indices := by rw [hs]
  have hmemE : ∀ p ∈ (List.range s1.defectSizes.length).zip s1.defectSizes, p.1 < s1.defectSizes.length ∧ ∃ h : p.1 < s1.defectSizes.length, s1.defectSizes[p.1] = p.2 := by
    intro p hp
    rw [List.mem_iff_getElem] at hp
    obtain ⟨j, hj, rfl⟩ := hp
    simp at hj ⊢
    exact hj
  obtain ⟨t, kept, hl, hsub, hall⟩ := pliRunLoop_ok env ((List.range s1.defectSizes.length).zip s1.defectSizes) s1 (List.range s1.defectNumber)
    (by rw [enum_fst]; exact List.nodup_range) (by
      intro p hp
      have h := (hmemE p hp).1
      refine ⟨by rw [List.mem_range, hnum]; omega, by rw [hpl, hc3, hc1]; omega, by rw [hix, hc2, hc1]; omega, fun _ => hb _ _⟩)
  obtain ⟨f1, f2, f3, f4, f5, f6⟩ := pliRunLoop_spec env _ s1 t _ kept (by rw [enum_fst]; exact List.nodup_range) List.nodup_range hl
  rw [enum_fst] at f5
  constructor
  · intro hnd
    have hk : kept = List.range s1.defectNumber := hall (by
      intro p hp
      obtain ⟨-, h, e⟩ := hmemE p hp
      rw [← e]
      exact hnd p.1 h)
    refine ⟨{ t with kept := some kept }, ?_, ?_⟩
    · unfold pliRun
      dsimp only
      rw [hl]
      dsimp only
      rw [if_neg]
      rintro ⟨h, -⟩
      exact h (by rw [hk, f2, List.length_range])
    · intro i hi1 hi2
      obtain ⟨-, g2, g3⟩ := f5 i (by rw [List.mem_range, hln]; omega)
      have hip : i < s.pli.length := by rw [hc3, hc1]; exact hi2
      refine ⟨s.pli[i], List.getElem?_eq_getElem hip, ?_, fun a b => by rw [← hix]; exact g3 a b⟩
      unfold getPLIObject
      dsimp only
      rw [if_pos (by rw [hk, List.mem_range, hnum]; exact hi2), g2, hpl, List.getElem?_eq_getElem hip]
  · rintro ⟨i, hi, hd⟩
    have hnot := ((f6 (i, s1.defectSizes[i]) (mem_enum hi)).2 hd).1
    dsimp only at hnot
    have hlt : kept.length ≠ t.defectNumber := by
      intro h
      rw [f2] at h
      have := hsub.eq_of_length (by rw [h, List.length_range])
      rw [this, List.mem_range, hnum] at hnot
      omega
    have hlast : (kept.all fun i => decide (i < t.defectSizes.length)) = false := by
      rw [List.all_eq_false]
      refine ⟨size.length, ?_, ?_⟩
      · rw [(f5 size.length (by rw [List.mem_range, hln]; omega)).1, List.mem_range, hnum]
        exact hlen
      · rw [f1, hln]
        simp
    refine ⟨"index out of bounds", ?_⟩
    unfold pliRun
    dsimp only
    rw [hl]
    dsimp only
    rw [if_pos ⟨hlt, hlast⟩]

/-- Three sizes, then the list [9], out of range: the run returns and the third object is the placeholder. -/
example : ∃ s', pliRun ⟨fun _ _ => 1 / 2, fun i _ => .ok (i, fun _ _ => .fin 1)⟩ (pliSetDefectSizes [9] (pliPodInit (Obj := ℕ) 1 1 1 3 [1, 2, 3])).2 = (.ok (), s') ∧
    getPLIObject s' 2 = .ok none := by
  have hs : sortR [(9 : ℝ)] = [9] := by simp [sortR]
  obtain ⟨s', h1, h2⟩ := (C65_violated_shorter ⟨fun _ _ => 1 / 2, fun i _ => .ok (i, fun _ _ => .fin 1)⟩ (pliPodInit (Obj := ℕ) 1 1 1 3 [1, 2, 3]) _
    (pliPodInit_consistent _ _ _ _ _) [9] .valueError (by simp)
    ⟨"Defect sizes must range between", by norm_num [pliSetDefectSizes, hs, pliPodInit, initMatrix]⟩ rfl (by simp [pliPodInit, initMatrix]) fun i d => ⟨_, rfl⟩).1
    (fun i _ => by norm_num [NonDegenerate])
  obtain ⟨o, h3, h4, -⟩ := h2 2 (by simp) (by simp [pliPodInit, initMatrix])
  refine ⟨s', h1, ?_⟩
  rw [h4]
  simp [pliPodInit, initMatrix] at h3
  rw [← h3]

/-! ## C71: the exception -/

variable {O : Type}

/-- **C71 is violated, the exception**: if the method without a POD is the only active one, the exception is an AttributeError. -/
theorem C71_violated_attribute (f : PodFns O) (t : String) (s : Summary O) (p c : ℝ) (k : MethodKey)
    (hk : k ∈ [MethodKey.quantileRegression, .polynomialChaos, .kriging]) (hu : Usable s.active s.dim k) (hothers : ∀ j, j ≠ k → s.active j = false)
    (hs : s.slot k = none) : Raises (buildPrint f t s p c) .attributeError := by
  have hlin : buildLinear f s p c = .ok ([], []) := by
    simp only [List.mem_cons, List.not_mem_nil, or_false] at hk
    rw [buildLinear, hothers .linearGauss (by rintro rfl; simp at hk), hothers .linearBinomial (by rintro rfl; simp at hk),
      hothers .linearKernelSmoothing (by rintro rfl; simp at hk)]
    simp
  have hat : attr s k = .error ⟨.attributeError, "'NoneType' object has no attribute"⟩ := by
    rw [attr, hs]
  simp only [List.mem_cons, List.not_mem_nil, or_false] at hk
  refine ⟨"'NoneType' object has no attribute", ?_⟩
  rcases hk with rfl | rfl | rfl
  · simp [buildPrint, hlin, buildQuantile, hu.1, hat]
  · simp [buildPrint, hlin, buildQuantile, hothers .quantileRegression (by simp), buildChaos, hu.1, hat]
  · simp [buildPrint, hlin, buildQuantile, hothers .quantileRegression (by simp), buildChaos, hothers .polynomialChaos (by simp), buildKriging, hu.1, hu.2 rfl, hat]

/-- Only the kriging active, several inputs, no run. -/
example (f : PodFns O) (t : String) (s : Summary O) (ha : s.active = fun k => decide (k = .kriging)) (hd : s.dim = 2) (hs : s.slot .kriging = none) (p c : ℝ) :
    Raises (buildPrint f t s p c) .attributeError :=
  C71_violated_attribute f t s p c .kriging (by simp) ⟨by simp [ha], fun _ => by omega⟩ (fun j hj => by simp [ha, hj]) hs

/-! ## C164: the titles -/

/-- **C164, titles.**  The two figures say which order they show, and name the method in force. -/
theorem C164_titles (est : String → List ℝ → Option (List ℝ × List ℝ)) (dim : ℕ) (label : Option (List String)) (s : SobolAn) (fig fig' : SobolFigure)
    (h : drawSobol est .first dim label s = .ok fig) (h' : drawSobol est .total dim label s = .ok fig') :
    fig.title = "First order sensitivity indices - " ++ s.method ++ " Algorithm" ∧ fig'.title = "Total order sensitivity indices - " ++ s.method ++ " Algorithm" := by
  have key : ∀ o f, drawSobol est o dim label s = .ok f → f.title = sobolTitle o s.method := by
    intro o f h
    unfold drawSobol at h
    split at h
    · cases h
    · split at h
      · cases h
      · rw [Except.ok.injEq] at h
        rw [← h]
  exact ⟨key _ _ h, key _ _ h'⟩

example : ∃ fig fig', drawSobol (fun _ _ => none) .first 2 none ⟨⟨⟨[1, 2], 2⟩, none⟩, "Jansen", none⟩ = .ok fig ∧
    drawSobol (fun _ _ => none) .total 2 none ⟨⟨⟨[1, 2], 2⟩, none⟩, "Jansen", none⟩ = .ok fig' ∧
    fig.title = "First order sensitivity indices - Jansen Algorithm" ∧ fig'.title = "Total order sensitivity indices - Jansen Algorithm" := by
  have key : ∀ o, ∃ fig, drawSobol (fun _ _ => none) o 2 none ⟨⟨⟨[1, 2], 2⟩, none⟩, "Jansen", none⟩ = .ok fig := fun o => ⟨_, rfl⟩
  obtain ⟨f, h⟩ := key .first
  obtain ⟨f', h'⟩ := key .total
  obtain ⟨t, t'⟩ := C164_titles _ _ _ _ _ _ h h'
  exact ⟨f, f', h, h', t, t'⟩

end Verif.Props
