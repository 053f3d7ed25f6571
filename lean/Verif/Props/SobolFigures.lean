import Verif.Model.SobolFigures
import Verif.Props.Sobol

/-!
# C164: figures and result of the Sobol analysis
-/

namespace Verif.Props
open Verif.Py Verif.Model

/-- The documented methods. -/
def KnownMethod (m : String) : Prop := m = "Saltelli" ∨ m = "Martinez" ∨ m = "Jansen" ∨ m = "MauntzKucherenko"

theorem knownMethod_iff (m : String) : m ∈ ["Saltelli", "Martinez", "Jansen", "MauntzKucherenko"] ↔ KnownMethod m := by
  simp [KnownMethod]

/-- The call is a `run`. -/
def SobolAnOp.IsRun : SobolAnOp → Prop
  | .run _ _ => True
  | _ => False

/-- The method in force is always a documented one. -/
theorem sobolAnStep_known (observed : List ℝ) (s : SobolAn) (op : SobolAnOp) (h : KnownMethod s.method) :
    KnownMethod (sobolAnStep observed s op).2.method := by
  cases op with
  | setSizes arg => exact h
  | setMethod v =>
    show KnownMethod (setSensitivityMethod v s.method).2
    unfold setSensitivityMethod
    split
    · split_ifs with hm
      · simp at hm; rcases hm with h | h | h | h <;> simp [KnownMethod, h]
      · exact h
    · exact h
  | run N design =>
    show KnownMethod (sobolAnRun observed N design s).2.method
    rw [sobolAnRun]
    split
    · exact h
    · rw [if_pos ((knownMethod_iff _).mpr h)]; exact h

theorem sobolAnHistory_known (observed : List ℝ) (ops : List SobolAnOp) (s : SobolAn) (h : KnownMethod s.method) :
    KnownMethod (sobolAnHistory observed ops s).method := by
  induction ops generalizing s with
  | nil => exact h
  | cons op ops ih => exact ih _ (sobolAnStep_known observed s op h)

theorem sobolAnHistory_append (observed : List ℝ) (l l' : List SobolAnOp) (s : SobolAn) :
    sobolAnHistory observed (l ++ l') s = sobolAnHistory observed l' (sobolAnHistory observed l s) := List.foldl_append

/-- Calls other than `run` do not touch the stored algorithm. -/
theorem sobolAnHistory_no_run (observed : List ℝ) (ops : List SobolAnOp) (h : ∀ op ∈ ops, ¬ SobolAnOp.IsRun op) (s : SobolAn) :
    (sobolAnHistory observed ops s).sa = s.sa ∧ (sobolAnHistory observed ops s).saMethod = s.saMethod := by
  induction ops generalizing s with
  | nil => exact ⟨rfl, rfl⟩
  | cons op ops ih =>
    have := ih (fun o ho => h o (List.mem_cons_of_mem _ ho)) (sobolAnStep observed s op).2
    have h1 : (sobolAnStep observed s op).2.sa = s.sa ∧ (sobolAnStep observed s op).2.saMethod = s.saMethod := by
      cases op with
      | setSizes arg => exact ⟨rfl, rfl⟩
      | setMethod v => exact ⟨rfl, rfl⟩
      | run N design => exact absurd trivial (h _ List.mem_cons_self)
    exact ⟨this.1.trans h1.1, this.2.trans h1.2⟩

/-- A `run` that returns stores an algorithm of the method in force. -/
theorem sobolAnRun_ok (observed : List ℝ) (N : ℕ) (design : List ℝ → List (List ℝ)) (s : SobolAn) (hk : KnownMethod s.method)
    (h : (sobolAnRun observed N design s).1 = .ok ()) :
    (sobolAnRun observed N design s).2.saMethod = some s.method ∧ (sobolAnRun observed N design s).2.method = s.method ∧
      (sobolAnRun observed N design s).2.toSobolSt = (sobolRun observed N design s.toSobolSt).2 ∧
      (sobolRun observed N design s.toSobolSt).1 = .ok () ∧ (sobolAnRun observed N design s).2.sa ≠ none := by
  have hsa : (sobolRun observed N design s.toSobolSt).1 = .ok () → (sobolRun observed N design s.toSobolSt).2.sa ≠ none := by
    unfold sobolRun
    dsimp only
    split_ifs with hc
    · split <;> simp
    · simp
  unfold sobolAnRun at h ⊢
  generalize sobolRun observed N design s.toSobolSt = out at h hsa ⊢
  obtain ⟨r, t⟩ := out
  cases r with
  | error e => cases h
  | ok u =>
    dsimp only at h hsa ⊢
    rw [if_pos ((knownMethod_iff _).mpr hk)]
    exact ⟨rfl, rfl, rfl, rfl, hsa rfl⟩

/-- A `run` that raises keeps the stored algorithm. -/
theorem sobolAnRun_error (observed : List ℝ) (N : ℕ) (design : List ℝ → List (List ℝ)) (s : SobolAn) (hk : KnownMethod s.method)
    (h : (sobolAnRun observed N design s).1 ≠ .ok ()) :
    (sobolAnRun observed N design s).2.sa = s.sa ∧ (sobolAnRun observed N design s).2.saMethod = s.saMethod := by
  have hsa : ∀ e, (sobolRun observed N design s.toSobolSt).1 = .error e → (sobolRun observed N design s.toSobolSt).2.sa = s.sa := by
    intro e
    unfold sobolRun
    dsimp only
    split_ifs with hc
    · split <;> simp
    · simp
  unfold sobolAnRun at h ⊢
  generalize sobolRun observed N design s.toSobolSt = out at h hsa ⊢
  obtain ⟨r, t⟩ := out
  cases r with
  | error e => exact ⟨hsa e rfl, rfl⟩
  | ok u =>
    dsimp only at h
    rw [if_pos ((knownMethod_iff _).mpr hk)] at h
    exact absurd rfl h

theorem sobolTitle_inj (o : SobolOrder) {m m' : String} (h : sobolTitle o m = sobolTitle o m') : m = m' := by
  have key : ∀ p q : String, p ++ m ++ q = p ++ m' ++ q → m = m' := by
    intro p q hpq
    have h' := congrArg String.toList hpq
    rw [String.toList_append, String.toList_append, String.toList_append, String.toList_append] at h'
    exact String.toList_injective (List.append_cancel_left (List.append_cancel_right h'))
  cases o
  · exact key _ _ h
  · exact key _ _ h

/-- The indices shown for an output column by the algorithm `m`. -/
def shownIndices (o : SobolOrder) (est : String → List ℝ → Option (List ℝ × List ℝ)) (m : String) (col : List ℝ) : Option (List ℝ) :=
  match o with
  | .first => (est m col).map Prod.fst
  | .total => (est m col).map Prod.snd

/-- **C164 (partial).**  Any history of calls whose last `run` that returns is the one shown: the points of the figure are the indices of the
method in force at that `run`; the result object is that algorithm; and the title names the method of the points exactly when the method
has not been changed since.  Missing: the title always names the method of the points, see `C164_violated`. -/
theorem C164_title_partial (observed : List ℝ) (est : String → List ℝ → Option (List ℝ × List ℝ)) (o : SobolOrder) (dim : ℕ)
    (label : Option (List String)) (hl : ∀ l, label = some l → l.length = dim) (pre post : List SobolAnOp) (N : ℕ)
    (design : List ℝ → List (List ℝ)) (s0 : SobolAn) (hk0 : KnownMethod s0.method)
    (hrun : (sobolAnStep observed (sobolAnHistory observed pre s0) (.run N design)).1 = .ok ())
    (hpost : ∀ op ∈ post, ¬ SobolAnOp.IsRun op) :
    let atRun := sobolAnHistory observed pre s0
    let s := sobolAnHistory observed (pre ++ .run N design :: post) s0
    ∃ fig cols pts, drawSobol est o dim label s = .ok fig ∧ s.sa = some cols ∧ getSensitivityResult s = .ok (some atRun.method, cols) ∧
      sobolDrawn (shownIndices o est atRun.method) s.toSobolSt = .ok pts ∧ fig.points = pts ∧ fig.labels.length = dim ∧
      (fig.title = sobolTitle o atRun.method ↔ s.method = atRun.method) := by
  intro atRun s
  have hk : KnownMethod atRun.method := sobolAnHistory_known observed pre s0 hk0
  obtain ⟨r1, r2, r3, r4, r5⟩ := sobolAnRun_ok observed N design atRun hk hrun
  have hs : s = sobolAnHistory observed post (sobolAnRun observed N design atRun).2 := by
    show sobolAnHistory observed (pre ++ .run N design :: post) s0 = _
    rw [sobolAnHistory_append]
    rfl
  obtain ⟨p1, p2⟩ := sobolAnHistory_no_run observed post hpost (sobolAnRun observed N design atRun).2
  rw [← hs] at p1 p2
  obtain ⟨cols, hcols⟩ := Option.ne_none_iff_exists'.mp r5
  have hsa : s.sa = some cols := p1.trans hcols
  have hsm : s.saMethod = some atRun.method := p2.trans r1
  obtain ⟨l, hlab, hlen⟩ : ∃ l, sobolLabels dim label = .ok l ∧ l.length = dim := by
    cases label with
    | none => exact ⟨_, rfl, by simp⟩
    | some l => exact ⟨l, if_neg (not_not.mpr (hl l rfl)), hl l rfl⟩
  have hidx : (fun col => (s.saMethod.bind fun m => est m col).map o.pick)
      = shownIndices o est atRun.method := by
    funext col
    rw [hsm]
    cases o <;> rfl
  obtain ⟨pts, hpts⟩ : ∃ pts, sobolDrawn (shownIndices o est atRun.method) s.toSobolSt = .ok pts := by
    rw [sobolDrawn, hsa]; exact ⟨_, rfl⟩
  refine ⟨⟨sobolTitle o s.method, l, pts, (0, 6 / 5)⟩, cols, pts, ?_, hsa, ?_, hpts, rfl, hlen, ?_⟩
  · rw [drawSobol, hlab]
    dsimp only
    rw [hidx, hpts]
  · rw [getSensitivityResult, hsa, hsm]
  · exact ⟨sobolTitle_inj o, fun h => by rw [h]⟩

/-- **C164 (violated).**  After any history ending with a `run` that returns, choose another documented method and draw: the call is accepted, the
figure keeps the indices of the old method, and its title names the new one. -/
theorem C164_violated (observed : List ℝ) (est : String → List ℝ → Option (List ℝ × List ℝ)) (o : SobolOrder) (dim : ℕ)
    (pre : List SobolAnOp) (N : ℕ) (design : List ℝ → List (List ℝ)) (s0 : SobolAn) (hk0 : KnownMethod s0.method)
    (hrun : (sobolAnStep observed (sobolAnHistory observed pre s0) (.run N design)).1 = .ok ()) (m : String) (hm : KnownMethod m)
    (hne : m ≠ (sobolAnHistory observed pre s0).method) :
    let s := sobolAnHistory observed (pre ++ [.run N design]) s0
    (sobolAnStep observed s (.setMethod (.str m))).1 = .ok () ∧
    ∃ fig fig', drawSobol est o dim none s = .ok fig ∧ drawSobol est o dim none (sobolAnStep observed s (.setMethod (.str m))).2 = .ok fig' ∧
      fig'.points = fig.points ∧ fig.title = sobolTitle o (sobolAnHistory observed pre s0).method ∧ fig'.title = sobolTitle o m ∧
      fig'.title ≠ fig.title := by
  intro s
  have hm' : m ∈ ["Saltelli", "Jansen", "Martinez", "MauntzKucherenko"] := by
    rcases hm with rfl | rfl | rfl | rfl <;> simp
  have hset : setSensitivityMethod (.str m) s.method = (.ok (), m) := by rw [setSensitivityMethod, if_pos hm']
  have hstep : sobolAnStep observed s (.setMethod (.str m)) = (.ok (), { s with method := m }) := by
    simp only [sobolAnStep, hset]
  have hk : KnownMethod (sobolAnHistory observed pre s0).method := sobolAnHistory_known observed pre s0 hk0
  obtain ⟨r1, r2, r3, r4, r5⟩ := sobolAnRun_ok observed N design _ hk hrun
  have hs : s = (sobolAnRun observed N design (sobolAnHistory observed pre s0)).2 := by
    show sobolAnHistory observed (pre ++ [.run N design]) s0 = _
    rw [sobolAnHistory_append]; rfl
  have hsm : s.method = (sobolAnHistory observed pre s0).method := by rw [hs, r2]
  obtain ⟨cols, hcols⟩ := Option.ne_none_iff_exists'.mp r5
  rw [← hs] at hcols
  have hcols' : s.toSobolSt.sa = some cols := hcols
  refine ⟨by rw [hstep], ?_⟩
  obtain ⟨fig, hfig⟩ : ∃ fig, drawSobol est o dim none s = .ok fig := by
    rw [drawSobol, sobolLabels]; dsimp only; rw [sobolDrawn, hcols']; exact ⟨_, rfl⟩
  obtain ⟨fig', hfig'⟩ : ∃ fig', drawSobol est o dim none { s with method := m } = .ok fig' := by
    rw [drawSobol, sobolLabels]; dsimp only; rw [sobolDrawn, hcols']; exact ⟨_, rfl⟩
  refine ⟨fig, fig', hfig, by rw [hstep]; exact hfig', ?_⟩
  have t1 : fig.title = sobolTitle o s.method ∧ fig'.title = sobolTitle o m ∧ fig'.points = fig.points := by
    rw [drawSobol, sobolLabels] at hfig hfig'
    dsimp only at hfig hfig'
    rw [sobolDrawn, hcols'] at hfig hfig'
    dsimp only at hfig hfig'
    rw [Except.ok.injEq] at hfig hfig'
    rw [← hfig, ← hfig']
    exact ⟨rfl, rfl, rfl⟩
  refine ⟨t1.2.2, by rw [t1.1, hsm], t1.2.1, ?_⟩
  rw [t1.1, t1.2.1, hsm]
  exact fun h => hne (sobolTitle_inj o h)

/-- **C164.**  Until a `run` returns, whatever was called: `getSensitivityResult` raises the documented exception and
`drawAggregatedIndices` raises AttributeError. -/
theorem C164_before_run (observed : List ℝ) (ops : List SobolAnOp) (s0 : SobolAn) (hk0 : KnownMethod s0.method) (h0 : s0.sa = none)
    (hfail : ∀ pre op post, ops = pre ++ op :: post → SobolAnOp.IsRun op → (sobolAnStep observed (sobolAnHistory observed pre s0) op).1 ≠ .ok ())
    (dim : ℕ) (label : Option (List String)) :
    let s := sobolAnHistory observed ops s0
    Raises (getSensitivityResult s) .exception ∧ Raises (drawAggregated dim label s) .attributeError := by
  intro s
  have hnone : s.sa = none := by
    have key : ∀ (ops pre : List SobolAnOp) (s : SobolAn), KnownMethod s.method → s.sa = none → s = sobolAnHistory observed pre s0 →
        (∀ pre' op post, pre ++ ops = pre' ++ op :: post → SobolAnOp.IsRun op →
          (sobolAnStep observed (sobolAnHistory observed pre' s0) op).1 ≠ .ok ()) → (sobolAnHistory observed ops s).sa = none := by
      intro ops
      induction ops with
      | nil => intro pre s _ h _ _; exact h
      | cons op ops ih =>
        intro pre s hk h he hf
        refine ih (pre ++ [op]) (sobolAnStep observed s op).2 (sobolAnStep_known observed s op hk) ?_ ?_ ?_
        · cases op with
          | setSizes arg => exact h
          | setMethod v => exact h
          | run N design =>
            have := hf pre (.run N design) ops rfl trivial
            rw [← he] at this
            exact (sobolAnRun_error observed N design s hk this).1.trans h
        · rw [sobolAnHistory_append, ← he]; rfl
        · intro pre' op' post e
          exact hf pre' op' post (by rw [← e]; simp)
    exact key ops [] s0 hk0 h0 rfl hfail
  constructor
  · rw [getSensitivityResult, hnone]; exact ⟨_, rfl⟩
  · rw [drawAggregated]
    cases hlab : sobolLabels dim label with
    | error e =>
      unfold sobolLabels at hlab
      cases label with
      | none => cases hlab
      | some l =>
        dsimp only at hlab
        split_ifs at hlab
        · injection hlab with hlab
          exact ⟨_, by rw [← hlab]⟩
    | ok l => rw [hnone]; exact ⟨_, rfl⟩

/-- **C164 (violated): a figure without a run.**  On a new object `drawFirstOrderIndices` and `drawTotalOrderIndices` return a figure with a
title and no point, instead of raising. -/
theorem C164_empty_violated (est : String → List ℝ → Option (List ℝ × List ℝ)) (o : SobolOrder) (dim : ℕ) (sizes : List ℝ) :
    ∃ fig, drawSobol est o dim none ⟨⟨⟨sizes, sizes.length⟩, none⟩, "Saltelli", none⟩ = .ok fig ∧ fig.points = [] ∧
      fig.title = sobolTitle o "Saltelli" := ⟨_, rfl, rfl, rfl⟩

/-- **C164.**  A list of labels of the wrong length is refused by every figure, with an AttributeError, before anything is drawn. -/
theorem C164_labels (est : String → List ℝ → Option (List ℝ × List ℝ)) (o : SobolOrder) (dim : ℕ) (l : List String) (hl : l.length ≠ dim)
    (s : SobolAn) : Raises (drawSobol est o dim (some l) s) .attributeError ∧ Raises (drawAggregated dim (some l) s) .attributeError := by
  constructor
  · rw [drawSobol, sobolLabels, if_pos hl]; exact ⟨_, rfl⟩
  · rw [drawAggregated, sobolLabels, if_pos hl]; exact ⟨_, rfl⟩

/-- **C164.**  Without labels, the parameters of a drawn figure are named `X0`, `X1`, … in their order; given labels of the right number are
used as they are. -/
theorem C164_default_labels (est : String → List ℝ → Option (List ℝ × List ℝ)) (o : SobolOrder) (dim : ℕ) (s : SobolAn) :
    (∀ fig, drawSobol est o dim none s = .ok fig → fig.labels.length = dim ∧ ∀ i, i < dim → fig.labels[i]? = some ("X" ++ toString i)) ∧
    (∀ m l, drawAggregated dim none s = .ok (m, l) → l.length = dim ∧ ∀ i, i < dim → l[i]? = some ("X" ++ toString i)) ∧
    (∀ l fig, drawSobol est o dim (some l) s = .ok fig → fig.labels = l ∧ l.length = dim) ∧
    (∀ l m l', drawAggregated dim (some l) s = .ok (m, l') → l' = l ∧ l.length = dim) := by
  refine ⟨?_, ?_, ?_, ?_⟩
  · intro fig h
    simp only [drawSobol, sobolLabels] at h
    split at h
    · exact absurd h (by simp)
    · rw [Except.ok.injEq] at h
      rw [← h]
      exact ⟨by simp, fun i hi => by simp [hi]⟩
  · intro m l h
    simp only [drawAggregated, sobolLabels] at h
    split at h
    · exact absurd h (by simp)
    · rw [Except.ok.injEq, Prod.mk.injEq] at h
      rw [← h.2]
      exact ⟨by simp, fun i hi => by simp [hi]⟩
  · intro l fig h
    by_cases hl : l.length = dim
    · simp only [drawSobol, sobolLabels, hl, ne_eq, not_true, if_false] at h
      split at h
      · exact absurd h (by simp)
      · rw [Except.ok.injEq] at h
        rw [← h]
        exact ⟨rfl, hl⟩
    · simp only [drawSobol, sobolLabels, hl, ne_eq, not_false_iff, if_true] at h
      exact absurd h (by simp)
  · intro l m l' h
    by_cases hl : l.length = dim
    · simp only [drawAggregated, sobolLabels, hl, ne_eq, not_true, if_false] at h
      split at h
      · exact absurd h (by simp)
      · rw [Except.ok.injEq, Prod.mk.injEq] at h
        exact ⟨h.2.symm, hl⟩
    · simp only [drawAggregated, sobolLabels, hl, ne_eq, not_false_iff, if_true] at h
      exact absurd h (by simp)

example : ∃ fig, drawSobol (fun _ _ => none) .first 2 none ⟨⟨⟨[1, 2], 2⟩, none⟩, "Saltelli", none⟩ = .ok fig ∧ fig.labels = ["X0", "X1"] :=
  ⟨_, rfl, by decide⟩

/-- The ordinate of a point is inside the drawn window. -/
def Visible (fig : SobolFigure) (v : ℝ) : Prop := fig.ylim.1 ≤ v ∧ v ≤ fig.ylim.2

/-- **C164 (violated): hidden indices.**  A POD with values 0 and 1, two parameters, two points per sample: the first-order index of Jansen is
negative, and a negative index is outside the window of every figure. -/
theorem C164_hidden_violated : ∃ (pod : List ℝ → ℝ) (A B : List (List ℝ)) (v w : ℝ), (∀ x, pod x = 0 ∨ pod x = 1) ∧ A.length = 2 ∧ B.length = 2 ∧
    sobolEstimates "Jansen" 0 2 0 0 ((sobolDesign 2 A B).map fun x => [pod x]) = .ok (v, w) ∧ v < 0 ∧
    ∀ (est : String → List ℝ → Option (List ℝ × List ℝ)) (o : SobolOrder) (dim : ℕ) (label : Option (List String)) (s : SobolAn) (fig : SobolFigure),
      drawSobol est o dim label s = .ok fig → ¬ Visible fig v := by
  classical
  refine ⟨fun x => if x = [1, 1] ∨ x = [3, 3] ∨ x = [2, 0] then 1 else 0, [[0, 0], [1, 1]], [[2, 2], [3, 3]], -1 / 3, 4 / 3, ?_, rfl, rfl, ?_, ?_, ?_⟩
  · intro x; dsimp only; split_ifs <;> simp
  · rw [sobolEstimates, if_neg (by decide), if_neg (by decide), if_pos rfl, Except.ok.injEq, Prod.mk.injEq]
    constructor <;>
    norm_num [sobolDesign, sobolExchange, designEntry, colVariance, listMean, jansenTotal, jansenGap, Finset.sum_range_succ, List.range_succ]
  · norm_num
  · intro est o dim label s fig hfig hv
    have hy : fig.ylim = (0, 6 / 5) := by
      rw [drawSobol] at hfig
      split at hfig
      · cases hfig
      · split at hfig
        · cases hfig
        · rw [Except.ok.injEq] at hfig; rw [← hfig]
    have h1 := hv.1
    rw [hy] at h1
    norm_num at h1

/-- **C164.**  The total indices of Jansen are never below the window. -/
theorem C164_jansen_total (N i j : ℕ) (hN : 0 < N) (out : List (List ℝ)) (hrows : 2 ≤ ((out.map fun r => r.getD j 0).take N).length) {v w : ℝ} {c : ℝ}
    (h : sobolEstimates "Jansen" c N i j out = .ok (v, w)) : 0 ≤ w := by
  rw [sobolEstimates, if_neg (by decide), if_neg (by decide), if_pos rfl, Except.ok.injEq, Prod.mk.injEq] at h
  rw [← h.2, jansenTotal, jansenGap]
  have h1 : 0 ≤ ∑ k ∈ Finset.range N, (designEntry out N 0 k j - designEntry out N (2 + i) k j) ^ 2 :=
    Finset.sum_nonneg fun k _ => sq_nonneg _
  have hN1 : (1 : ℝ) ≤ N := by exact_mod_cast hN
  have h2 : 0 ≤ colVariance ((out.map fun r => r.getD j 0).take N) := by
    rw [colVariance]
    apply div_nonneg
    · apply List.sum_nonneg
      intro x hx
      obtain ⟨y, _, rfl⟩ := List.mem_map.mp hx
      exact sq_nonneg _
    · have : (2 : ℝ) ≤ (((out.map fun r => r.getD j 0).take N).length : ℝ) := by exact_mod_cast hrows
      linarith
  exact div_nonneg (div_nonneg h1 (by linarith)) h2

/-- **C164.**  An object after a run: two sizes with varying PODs, then another method is chosen. -/
example : let s0 : SobolAn := ⟨⟨⟨[1, 2], 2⟩, none⟩, "Saltelli", none⟩
    KnownMethod s0.method ∧ (sobolAnStep [1, 2] (sobolAnHistory [1, 2] [.setMethod (.str "Jansen")] s0)
      (.run 2 fun l => l.map fun d => [0, d, 5])).1 = .ok () ∧ KnownMethod "Martinez" ∧
      "Martinez" ≠ (sobolAnHistory [1, 2] [.setMethod (.str "Jansen")] s0).method := by
  refine ⟨Or.inl rfl, ?_, by simp [KnownMethod], by decide⟩
  have hm : (sobolAnHistory [1, 2] [.setMethod (.str "Jansen")] ⟨⟨⟨[1, 2], 2⟩, none⟩, "Saltelli", none⟩)
      = ⟨⟨⟨[1, 2], 2⟩, none⟩, "Jansen", none⟩ := rfl
  rw [hm]
  show (sobolAnRun _ _ _ _).1 = _
  have hr : sobolRun [1, 2] 2 (fun l => l.map fun d => [0, d, 5]) ⟨⟨[1, 2], 2⟩, none⟩
      = (.ok (), ⟨⟨[1, 2], 2⟩, some [[0, 1, 5], [0, 2, 5]]⟩) := by
    unfold sobolRun
    have e : (List.range (List.map (fun d : ℝ => [0, d, 5]) [1, 2]).length).filter
        (fun j => decide (colVariance (List.take 2 ((List.map (fun d : ℝ => [0, d, 5]) [1, 2]).getD j [])) ≠ 0)) = [0, 1] := by
      norm_num [List.range_succ, colVariance, listMean]
    simp only [e]
    simp
  unfold sobolAnRun
  dsimp only
  rw [hr]
  simp

end Verif.Props
