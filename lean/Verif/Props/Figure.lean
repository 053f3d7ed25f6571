import Verif.Model.Figure
import Verif.Props.Criterion
import Verif.Props.Metamodel

/-!
# C90, C91, C92: the POD figure, its marks, and the graph option
-/

namespace Verif.Props
open Verif.Py Verif.Model

theorem drawBounds_none (sizes : List ℝ) (mn mx : ℝ) (h1 : sampleMin sizes = .ok mn) (h2 : sampleMax sizes = .ok mx) :
    drawBounds sizes none none = .ok (mn, mx) := by
  rw [drawBounds, h1, h2]

/-- The figure on an interval `[lo, hi]`, when detection sizes are searched in `[u, v]`. -/
theorem figure_core (solve : (ℝ → ℝ) → ℝ → ℝ → ℝ → ℝ) (hs : SolveSpec solve) (dataMin dataMax : ℝ)
    (f : ℝ → ℝ) (fc : ℝ → ℝ → ℝ) (p : ℝ) (c : Option ℝ) (u v lo hi : ℝ) (hle : u ≤ v)
    (hf : ContinuousOn f (Set.Icc u v)) (hfc : ∀ l, ContinuousOn (fc l) (Set.Icc u v)) :
    basePodFigure dataMin dataMax (sizesDetection solve dataMin dataMax u v f fc) f (c.map fc) none c (some lo) (some hi)
      = .ok ⟨lo, hi, f :: (c.map fc).toList, none, []⟩ ∧
    ((∀ g ∈ f :: (c.map fc).toList, g u ≤ p ∧ p ≤ g v) →
      ∃ ds : List ℝ, basePodFigure dataMin dataMax (sizesDetection solve dataMin dataMax u v f fc) f (c.map fc) (some p) c
          (some lo) (some hi) = .ok ⟨lo, hi, f :: (c.map fc).toList, some p, ds.map fun d => (d, p)⟩ ∧
        List.Forall₂ (fun g d => d ∈ Set.Icc u v ∧ g d = p) (f :: (c.map fc).toList) ds) ∧
    ((∃ g ∈ f :: (c.map fc).toList, ¬ (g u ≤ p ∧ p ≤ g v)) →
      Raises (basePodFigure dataMin dataMax (sizesDetection solve dataMin dataMax u v f fc) f (c.map fc) (some p) c
        (some lo) (some hi)) .exception) := by
  unfold basePodFigure sizesDetection computeDetectionSize
  cases c with
  | none =>
    refine ⟨by simp, ?_, ?_⟩
    · intro h
      have h1 := h f (by simp)
      refine ⟨[solve f p u v], ?_, ?_⟩
      · simp [h1]
      · simpa using hs f p u v hle hf h1.1 h1.2
    · rintro ⟨g, hg, hn⟩
      simp only [Option.map_none, Option.toList_none, List.mem_singleton] at hg
      subst hg
      simp only [Option.getD_some, if_pos hn]
      exact ⟨_, rfl⟩
  | some l =>
    refine ⟨by simp, ?_, ?_⟩
    · intro h
      have h1 := h f (by simp)
      have h2 := h (fc l) (by simp)
      refine ⟨[solve f p u v, solve (fc l) p u v], ?_, ?_⟩
      · simp [h1, h2]
      · simpa using ⟨hs f p u v hle hf h1.1 h1.2, hs (fc l) p u v hle (hfc l) h2.1 h2.2⟩
    · rintro ⟨g, hg, hn⟩
      simp only [Option.map_some, Option.toList_some, List.mem_cons, List.not_mem_nil, or_false] at hg
      by_cases h1 : f u ≤ p ∧ p ≤ f v
      · rcases hg with rfl | rfl
        · exact absurd h1 hn
        · simp only [Option.getD_some, Option.map_some, not_not.mpr h1, if_pos hn, if_false]
          exact ⟨_, rfl⟩
      · simp only [Option.getD_some, Option.map_some, if_pos h1]
        exact ⟨_, rfl⟩

/-- **C90.**  The figure of `drawPOD`, for continuous curves on the range `[mn, mx]` of the defect sizes.
(a) Without probability level it is never refused because of the curves: it shows the POD, then the curve at the confidence level when one
is given, with no line.  (b) With a probability level `p`, it is drawn exactly when `p` is reached by the POD and, if a confidence level is
given, by the curve at that level; the horizontal line is at `p`, and there is one vertical line per curve, of height `p`, at a size where this
curve is `p`. -/
theorem C90_figure (solve : (ℝ → ℝ) → ℝ → ℝ → ℝ → ℝ) (hs : SolveSpec solve) (dataMin dataMax : ℝ) (sizes : List ℝ)
    (f : ℝ → ℝ) (fc : ℝ → ℝ → ℝ) (p : ℝ) (c dmin dmax : Option ℝ) (mn mx lo hi : ℝ)
    (hmn : IsLeast {x | x ∈ sizes} mn) (hmx : IsGreatest {x | x ∈ sizes} mx)
    (hb : drawBounds sizes dmin dmax = .ok (lo, hi))
    (hf : ContinuousOn f (Set.Icc mn mx)) (hfc : ∀ l, ContinuousOn (fc l) (Set.Icc mn mx)) :
    sizesDraw solve dataMin dataMax sizes f fc none c dmin dmax
      = .ok ⟨lo, hi, f :: (c.map fc).toList, none, []⟩ ∧
    ((∀ g ∈ f :: (c.map fc).toList, g mn ≤ p ∧ p ≤ g mx) →
      ∃ ds : List ℝ, sizesDraw solve dataMin dataMax sizes f fc (some p) c dmin dmax
          = .ok ⟨lo, hi, f :: (c.map fc).toList, some p, ds.map fun d => (d, p)⟩ ∧
        List.Forall₂ (fun g d => d ∈ Set.Icc mn mx ∧ g d = p) (f :: (c.map fc).toList) ds) ∧
    ((∃ g ∈ f :: (c.map fc).toList, ¬ (g mn ≤ p ∧ p ≤ g mx)) →
      Raises (sizesDraw solve dataMin dataMax sizes f fc (some p) c dmin dmax) .exception) := by
  have hon : sizes ≠ [] := by rintro rfl; exact absurd hmn.1 (by simp)
  have hle : mn ≤ mx := hmn.2 hmx.1
  obtain ⟨u, v, hu, hv⟩ := sampleMinMax_ok hon
  obtain rfl : u = mn := (sampleMin_spec hu).unique hmn
  obtain rfl : v = mx := (sampleMax_spec hv).unique hmx
  unfold sizesDraw
  rw [hb, hu, hv]
  dsimp only
  exact figure_core solve hs dataMin dataMax f fc p c u v lo hi hle hf hfc

/-- **C90, linear class.**  The same for `UnivariateLinearModelPOD.drawPOD`: the range is that of the defects of the data, the interval of the curves is
the given one (whatever it is) and by default the range of the defects. -/
theorem C90_linear_figure (solve : (ℝ → ℝ) → ℝ → ℝ → ℝ → ℝ) (hs : SolveSpec solve) (defects : List ℝ)
    (f : ℝ → ℝ) (fc : ℝ → ℝ → ℝ) (p : ℝ) (c dmin dmax : Option ℝ) (mn mx : ℝ)
    (hmn : IsLeast {x | x ∈ defects} mn) (hmx : IsGreatest {x | x ∈ defects} mx)
    (hf : ContinuousOn f (Set.Icc mn mx)) (hfc : ∀ l, ContinuousOn (fc l) (Set.Icc mn mx)) :
    linearFigure solve defects f fc none c dmin dmax
      = .ok ⟨dmin.getD mn, dmax.getD mx, f :: (c.map fc).toList, none, []⟩ ∧
    ((∀ g ∈ f :: (c.map fc).toList, g mn ≤ p ∧ p ≤ g mx) →
      ∃ ds : List ℝ, linearFigure solve defects f fc (some p) c dmin dmax
          = .ok ⟨dmin.getD mn, dmax.getD mx, f :: (c.map fc).toList, some p, ds.map fun d => (d, p)⟩ ∧
        List.Forall₂ (fun g d => d ∈ Set.Icc mn mx ∧ g d = p) (f :: (c.map fc).toList) ds) ∧
    ((∃ g ∈ f :: (c.map fc).toList, ¬ (g mn ≤ p ∧ p ≤ g mx)) →
      Raises (linearFigure solve defects f fc (some p) c dmin dmax) .exception) := by
  have hon : defects ≠ [] := by rintro rfl; exact absurd hmn.1 (by simp)
  obtain ⟨u, v, hu, hv⟩ := sampleMinMax_ok hon
  obtain rfl : u = mn := (sampleMin_spec hu).unique hmn
  obtain rfl : v = mx := (sampleMax_spec hv).unique hmx
  have hd : ∀ q, linearFigure solve defects f fc q c dmin dmax
      = basePodFigure u v (sizesDetection solve u v u v f fc) f (c.map fc) q c (some (dmin.getD u)) (some (dmax.getD v)) := by
    intro q
    rw [linearFigure, hu, hv]
    rfl
  simp only [hd]
  exact figure_core solve hs u v f fc p c u v _ _ (hmn.2 hmx.1) hf hfc

/-- A line reaching the level in the middle of the data, drawn by default on the whole range of the defects. -/
example (solve : (ℝ → ℝ) → ℝ → ℝ → ℝ → ℝ) (hs : SolveSpec solve) :
    ∃ fig, linearFigure solve [2, 1, 3] (fun x => x / 4) (fun _ x => x / 8) (some (1 / 2)) none none none = .ok fig ∧
      fig.lo = 1 ∧ fig.hi = 3 ∧ fig.marks = [(2, 1 / 2)] := by
  obtain ⟨-, h, -⟩ := C90_linear_figure solve hs [2, 1, 3] (fun x => x / 4) (fun _ x => x / 8) (1 / 2) none none none 1 3
    ⟨by simp, by rintro x hx; simp only [List.mem_cons, List.not_mem_nil, or_false, Set.mem_setOf_eq] at hx; rcases hx with rfl | rfl | rfl <;> norm_num⟩
    ⟨by simp, by rintro x hx; simp only [List.mem_cons, List.not_mem_nil, or_false, Set.mem_setOf_eq] at hx; rcases hx with rfl | rfl | rfl <;> norm_num⟩
    (by fun_prop) (fun _ => by fun_prop)
  obtain ⟨ds, h1, h2⟩ := h (by simp; norm_num)
  simp only [Option.map_none, Option.toList_none] at h1 h2
  cases h2 with
  | cons hd ht =>
    cases ht
    rename_i d
    refine ⟨_, h1, rfl, rfl, ?_⟩
    have : d = 2 := by have := hd.2; linarith
    simp [this]


/-- The identity curve on `[0, 1]`, with the confidence curve `x²`. -/
example (solve : (ℝ → ℝ) → ℝ → ℝ → ℝ → ℝ) (hs : SolveSpec solve) :
    ∃ d1 d2 : ℝ, sizesDraw solve 0 1 [0, 1] id (fun _ x => x ^ 2) (some (1 / 4)) (some (95 / 100)) none none
      = .ok ⟨0, 1, [id, fun x => x ^ 2], some (1 / 4), [(d1, 1 / 4), (d2, 1 / 4)]⟩ ∧ d1 = 1 / 4 ∧ d2 = 1 / 2 := by
  have hmn : IsLeast {x : ℝ | x ∈ [0, 1]} 0 := ⟨by simp, by intro x hx; simp at hx; rcases hx with rfl | rfl <;> norm_num⟩
  have hmx : IsGreatest {x : ℝ | x ∈ [0, 1]} 1 := ⟨by simp, by intro x hx; simp at hx; rcases hx with rfl | rfl <;> norm_num⟩
  obtain ⟨-, h, -⟩ := C90_figure solve hs 0 1 [0, 1] id (fun _ x => x ^ 2) (1 / 4) (some (95 / 100)) none none 0 1 0 1 hmn hmx
    (drawBounds_none _ _ _ (by simp [sampleMin]) (by simp [sampleMax])) continuousOn_id (fun _ => (continuous_pow 2).continuousOn)
  obtain ⟨ds, h1, h2⟩ := h (by
    intro g hg
    simp only [Option.map_some, Option.toList_some, List.mem_cons, List.not_mem_nil, or_false] at hg
    rcases hg with rfl | rfl <;> norm_num)
  simp only [Option.map_some, Option.toList_some] at h1 h2
  obtain ⟨d1, l, ⟨_, hd1⟩, hl, rfl⟩ := List.forall₂_cons_left_iff.mp h2
  obtain ⟨d2, l', ⟨hd2, hd2'⟩, hl', rfl⟩ := List.forall₂_cons_left_iff.mp hl
  rw [List.forall₂_nil_left_iff] at hl'
  subst hl'
  refine ⟨d1, d2, h1, hd1, ?_⟩
  have := hd2.1
  nlinarith

/-! ## C91 -/

/-- **C91, restricted.**  With the default bounds every vertical line is inside the drawn interval. -/
theorem C91_marks_inside_partial (solve : (ℝ → ℝ) → ℝ → ℝ → ℝ → ℝ) (hs : SolveSpec solve) (dataMin dataMax : ℝ)
    (sizes : List ℝ) (hne : sizes ≠ []) (f : ℝ → ℝ) (fc : ℝ → ℝ → ℝ) (p c : Option ℝ)
    (hf : ∀ s : Set ℝ, ContinuousOn f s) (hfc : ∀ l, ∀ s : Set ℝ, ContinuousOn (fc l) s) (fig : PodFigure)
    (h : sizesDraw solve dataMin dataMax sizes f fc p c none none = .ok fig) :
    ∀ m ∈ fig.marks, fig.lo ≤ m.1 ∧ m.1 ≤ fig.hi := by
  obtain ⟨u, v, hu, hv⟩ := sampleMinMax_ok hne
  have hmn := sampleMin_spec hu
  have hmx := sampleMax_spec hv
  obtain ⟨h0, h1, h2⟩ := C90_figure solve hs dataMin dataMax sizes f fc (p.getD 0) c none none u v u v hmn hmx
    (drawBounds_none _ _ _ hu hv) (hf _) (fun l => hfc l _)
  cases p with
  | none =>
    rw [h0, Except.ok.injEq] at h
    subst h; simp
  | some q =>
    simp only [Option.getD_some] at h1 h2
    by_cases hc : ∀ g ∈ f :: (c.map fc).toList, g u ≤ q ∧ q ≤ g v
    · obtain ⟨ds, hd, hall⟩ := h1 hc
      rw [hd, Except.ok.injEq] at h
      subst h
      intro m hm
      simp only [List.mem_map] at hm
      obtain ⟨d, hd', rfl⟩ := hm
      obtain ⟨i, hi, rfl⟩ := List.mem_iff_getElem.mp hd'
      have := (List.forall₂_iff_get.mp hall).2 i (by rw [(List.forall₂_iff_get.mp hall).1]; exact hi) hi
      exact this.1
    · push Not at hc
      obtain ⟨g, hg, hng⟩ := hc
      obtain ⟨m, hm⟩ := h2 ⟨g, hg, fun hh => absurd hh.2 (not_le.mpr (hng hh.1))⟩
      rw [hm] at h; cases h

example (solve : (ℝ → ℝ) → ℝ → ℝ → ℝ → ℝ) (hs : SolveSpec solve) (fig : PodFigure)
    (h : sizesDraw solve 0 1 [0, 1] id (fun _ x => x ^ 2) (some (1 / 4)) none none none = .ok fig) :
    ∀ m ∈ fig.marks, fig.lo ≤ m.1 ∧ m.1 ≤ fig.hi :=
  C91_marks_inside_partial solve hs 0 1 [0, 1] (by simp) _ _ _ _ (fun _ => continuousOn_id)
    (fun _ _ => (continuous_pow 2).continuousOn) fig h

/-- **C91 violated.**  When the POD reaches the level `p` only left of the interval `[a, b]` asked by the user (it is above `p` on the
whole interval), the figure is drawn with a vertical line outside of `[a, b]`. -/
theorem C91_violated (solve : (ℝ → ℝ) → ℝ → ℝ → ℝ → ℝ) (hs : SolveSpec solve) (dataMin dataMax : ℝ) (sizes : List ℝ)
    (f : ℝ → ℝ) (fc : ℝ → ℝ → ℝ) (p a b mn mx : ℝ)
    (hmn : IsLeast {x | x ∈ sizes} mn) (hmx : IsGreatest {x | x ∈ sizes} mx) (ha : mn ≤ a ∧ a ≤ mx) (hb : mn ≤ b ∧ b ≤ mx)
    (hf : ContinuousOn f (Set.Icc mn mx)) (hp : f mn ≤ p ∧ p ≤ f mx) (habove : ∀ x ∈ Set.Icc a b, p < f x) :
    ∃ fig d, sizesDraw solve dataMin dataMax sizes f fc (some p) none (some a) (some b) = .ok fig ∧
      fig.lo = a ∧ fig.hi = b ∧ fig.marks = [(d, p)] ∧ ¬ (a ≤ d ∧ d ≤ b) := by
  have hon : sizes ≠ [] := by rintro rfl; exact absurd hmn.1 (by simp)
  obtain ⟨u, v, hu, hv⟩ := sampleMinMax_ok hon
  obtain rfl : u = mn := (sampleMin_spec hu).unique hmn
  obtain rfl : v = mx := (sampleMax_spec hv).unique hmx
  have hbd : drawBounds sizes (some a) (some b) = .ok (a, b) := by
    rw [drawBounds, hu, hv]
    dsimp only
    rw [if_neg (not_lt.mpr ha.1), if_neg (not_lt.mpr ha.2), if_neg (not_lt.mpr hb.2), if_neg (not_lt.mpr hb.1)]
  have hle : u ≤ v := ha.1.trans ha.2
  have hsol := hs f p u v hle hf hp.1 hp.2
  refine ⟨⟨a, b, [f], some p, [(solve f p u v, p)]⟩, solve f p u v, ?_, rfl, rfl, rfl, ?_⟩
  · unfold sizesDraw
    rw [hbd, hu, hv]
    simp [basePodFigure, sizesDetection, computeDetectionSize, hp]
  · intro h
    exact absurd hsol.2 (habove _ h).ne'

/-- A POD equal to the size on `[0, 1]`, drawn on `[1/2, 1]` with the level 1/4: the line is at 1/4. -/
example (solve : (ℝ → ℝ) → ℝ → ℝ → ℝ → ℝ) (hs : SolveSpec solve) :
    ∃ fig d, sizesDraw solve 0 1 [0, 1] id (fun _ x => x) (some (1 / 4)) none (some (1 / 2)) (some 1) = .ok fig ∧
      fig.lo = 1 / 2 ∧ fig.hi = 1 ∧ fig.marks = [(d, 1 / 4)] ∧ ¬ (1 / 2 ≤ d ∧ d ≤ 1) :=
  C91_violated solve hs 0 1 [0, 1] id _ (1 / 4) (1 / 2) 1 0 1
    ⟨by simp, by intro x hx; simp at hx; rcases hx with rfl | rfl <;> norm_num⟩
    ⟨by simp, by intro x hx; simp at hx; rcases hx with rfl | rfl <;> norm_num⟩
    (by norm_num) (by norm_num) continuousOn_id (by norm_num) (by intro x hx; have := hx.1; simp only [id]; linarith)

/-! ## C92 -/

variable {X M : Type}

theorem adLoopG_eq (env : AdEnv X M) (draw : ℕ → AdAttrs X M → Res PodFigure) (hd : ∀ it s, Ok (draw it s)) (ref : M)
    (n it : ℕ) (cand : List X) (idx : Option ℕ) (m : M) (s : AdAttrs X M) :
    adLoopG env draw ref n it cand idx m s = adLoop env ref n it cand idx m s := by
  induction n generalizing it cand idx m s with
  | zero => rfl
  | succ n ih =>
    rw [adLoopG, adLoop]
    dsimp only
    rcases h : adIter env ref it cand idx m s with ⟨r, s'⟩
    cases r with
    | error e => rfl
    | ok r =>
      obtain ⟨cand', idx', m'⟩ := r
      dsimp only
      obtain ⟨fig, hfig⟩ := hd it s'
      simp only [hfig]
      exact ih _ _ _ _ _

/-- **C92, restricted.**  When no probability level was given to `setGraphActive` (and the curves are continuous), displaying the
figures does not change the run: same result, same attributes. -/
theorem C92_graph_neutral_partial (env : AdEnv X M) (solve : (ℝ → ℝ) → ℝ → ℝ → ℝ → ℝ) (dataMin dataMax : ℝ) (sizes : List ℝ)
    (hne : sizes ≠ []) (curve : ℕ → AdAttrs X M → ℝ → ℝ) (curveCl : ℕ → AdAttrs X M → ℝ → ℝ → ℝ) (c : Option ℝ)
    (graph : Bool) (cands : List X) (n : ℕ) (s : AdAttrs X M) :
    adRunG env graph (fun it s => sizesDraw solve dataMin dataMax sizes (curve it s) (curveCl it s) none c none none) cands n s
      = adRun env cands n s := by
  obtain ⟨u, v, hu, hv⟩ := sampleMinMax_ok hne
  have hd : ∀ it s, Ok (sizesDraw solve dataMin dataMax sizes (curve it s) (curveCl it s) none c none none) := by
    intro it s
    unfold sizesDraw
    rw [drawBounds_none _ _ _ hu hv, hu, hv]
    cases c <;> exact ⟨_, rfl⟩
  rw [adRunG, adRun]
  cases env.fit s.input s.signals with
  | error e => rfl
  | ok m0 =>
    dsimp only
    cases graph with
    | false => rfl
    | true => exact adLoopG_eq env _ hd _ _ _ _ _ _ _

/-- **C92 violated.**  If the POD of the iteration does not reach the level chosen for the graphs (its value at the largest size is
below `p`), then the run with graphs stops with an exception after the first added point, whatever the number of iterations asked for. -/
theorem C92_violated (env : AdEnv X M) (solve : (ℝ → ℝ) → ℝ → ℝ → ℝ → ℝ) (dataMin dataMax : ℝ) (sizes : List ℝ)
    (curve : ℕ → AdAttrs X M → ℝ → ℝ) (curveCl : ℕ → AdAttrs X M → ℝ → ℝ → ℝ) (p : ℝ) (c : Option ℝ) (mx : ℝ)
    (hmx : sampleMax sizes = .ok mx) (hlow : ∀ s, curve 0 s mx < p)
    (cands : List X) (n : ℕ) (s s1 : AdAttrs X M) (m1 : M) (h1 : adRun env cands 1 s = (.ok m1, s1)) :
    ∃ e, adRunG env true (fun it s => sizesDraw solve dataMin dataMax sizes (curve it s) (curveCl it s) (some p) c none none)
        cands (n + 1) s = (.error e, s1) ∧ e.kind = .exception := by
  have hne : sizes ≠ [] := by rintro rfl; simp [sampleMax] at hmx
  obtain ⟨u, v, hu, hv⟩ := sampleMinMax_ok hne
  obtain rfl : v = mx := by rw [hv, Except.ok.injEq] at hmx; exact hmx
  have hdraw : ∀ s, ∃ e, sizesDraw solve dataMin dataMax sizes (curve 0 s) (curveCl 0 s) (some p) c none none = .error e ∧
      e.kind = .exception := by
    intro s
    have hn : ¬ (curve 0 s u ≤ p ∧ p ≤ curve 0 s v) := fun h => absurd h.2 (not_le.mpr (hlow s))
    unfold sizesDraw
    rw [drawBounds_none _ _ _ hu hv, hu, hv]
    dsimp only
    unfold basePodFigure sizesDetection computeDetectionSize
    cases c with
    | none => simp only [Option.getD_some, if_pos hn]; exact ⟨_, rfl, rfl⟩
    | some l => simp only [Option.getD_some, Option.map_some, if_pos hn]; exact ⟨_, rfl, rfl⟩
  rw [adRun] at h1
  rw [adRunG]
  cases hfit : env.fit s.input s.signals with
  | error e => rw [hfit] at h1; simp at h1
  | ok m0 =>
    rw [hfit] at h1
    dsimp only at h1 ⊢
    rw [if_pos rfl, adLoopG]
    rw [adLoop] at h1
    dsimp only at h1 ⊢
    rcases hit : adIter env m0 0 cands none m0 { s with model := some m0 } with ⟨r, s'⟩
    rw [hit] at h1
    cases r with
    | error e => simp at h1
    | ok r =>
      obtain ⟨cand', idx', m'⟩ := r
      simp only [adLoop, Prod.mk.injEq, Except.ok.injEq] at h1
      obtain ⟨-, rfl⟩ := h1
      obtain ⟨e, he, hk⟩ := hdraw s'
      simp only [he]
      exact ⟨e, rfl, hk⟩

/-- With the demonstration environment of C45: two iterations are asked for; without graphs two points are added, with graphs at level 0.9
(the POD never exceeds 1/2) the run stops after the first. -/
example : ∃ e, adRunG demoEnv true (fun _ _ => sizesDraw (fun _ _ a _ => a) 0 1 [0, 1] (fun x => x / 2) (fun _ x => x / 2)
      (some (9 / 10)) none none none) [5, 3, 7] 2 ⟨[1], [1], none, none⟩
      = (.error e, (adRun demoEnv [5, 3, 7] 1 ⟨[1], [1], none, none⟩).2) ∧ e.kind = .exception := by
  have h : ∃ m1, (adRun demoEnv [5, 3, 7] 1 ⟨[1], [1], none, none⟩).1 = .ok m1 := by
    simp only [adRun, demoEnv, adLoop, adIter, scanGo, respond]
    norm_num [adLoop, adIter, scanGo, respond]
  obtain ⟨m1, hm⟩ := h
  exact C92_violated demoEnv (fun _ _ a _ => a) 0 1 [0, 1] (fun _ _ x => x / 2) (fun _ _ _ x => x / 2) (9 / 10) none 1
    (by simp [sampleMax]) (by norm_num) [5, 3, 7] 1 _ _ m1 (Prod.ext hm rfl)

end Verif.Props
