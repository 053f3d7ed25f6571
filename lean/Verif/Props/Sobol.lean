import Verif.Model.Sobol
import Verif.Props.Metamodel
import Mathlib.Probability.Distributions.Gaussian.Real
import Mathlib.MeasureTheory.Constructions.Pi

/-!
# C67, C68, C69, C80, C86: Sobol indices of the POD, constructors of the sensitivity classes
-/

namespace Verif.Props
open Verif.Py Verif.Model MeasureTheory ProbabilityTheory

/-! ## C67, C86: removal of the constant outputs -/

/-- The column is not constant over its first `N` values. -/
def Varies (N : ℕ) (c : List ℝ) : Prop := ∃ i k, i < N ∧ k < N ∧ c.getD i 0 ≠ c.getD k 0

theorem sum_sq_zero {l : List ℝ} {m : ℝ} (h : (l.map fun x => (x - m) ^ 2).sum = 0) : ∀ x ∈ l, x = m := by
  induction l with
  | nil => simp
  | cons a l ih =>
    rw [List.map_cons, List.sum_cons] at h
    have h1 : 0 ≤ (l.map fun x => (x - m) ^ 2).sum := List.sum_nonneg (by
      intro y hy; obtain ⟨x, -, rfl⟩ := List.mem_map.mp hy; positivity)
    have h2 : 0 ≤ (a - m) ^ 2 := sq_nonneg _
    have h3 : (a - m) ^ 2 = 0 := by linarith
    intro x hx
    rcases List.mem_cons.mp hx with rfl | hx
    · exact sub_eq_zero.mp (pow_eq_zero_iff (two_ne_zero) |>.mp h3)
    · exact ih (by linarith) x hx

theorem sum_const {l : List ℝ} {a : ℝ} (h : ∀ x ∈ l, x = a) : l.sum = l.length * a := by
  induction l with
  | nil => simp
  | cons b l ih =>
    rw [List.sum_cons, ih (fun x hx => h x (List.mem_cons_of_mem _ hx)), h b List.mem_cons_self]
    push_cast [List.length_cons]; ring

theorem colVariance_ne_zero {N : ℕ} (hN : 2 ≤ N) {c : List ℝ} (hc : N ≤ c.length) :
    colVariance (c.take N) ≠ 0 ↔ Varies N c := by
  have hl : (c.take N).length = N := by simp [hc]
  have hget : ∀ i, i < N → (c.take N).getD i 0 = c.getD i 0 := by
    intro i hi
    rw [List.getD_eq_getElem _ _ (by omega), List.getD_eq_getElem _ _ (by omega), List.getElem_take]
  have hmem : ∀ i, i < N → c.getD i 0 ∈ c.take N := by
    intro i hi
    rw [← hget i hi, List.getD_eq_getElem _ _ (by omega)]; exact List.getElem_mem _
  have hN' : ((N : ℝ) - 1) ≠ 0 := by
    have : (2 : ℝ) ≤ N := by exact_mod_cast hN
    intro h; linarith
  constructor
  · intro h
    by_contra hv
    apply h
    have hall : ∀ x ∈ c.take N, x = c.getD 0 0 := by
      intro x hx
      obtain ⟨i, hi, rfl⟩ := List.mem_iff_getElem.mp hx
      rw [← List.getD_eq_getElem _ 0 hi, hget i (by omega)]
      by_contra hne
      exact hv ⟨i, 0, by omega, by omega, hne⟩
    have hmean : listMean (c.take N) = c.getD 0 0 := by
      rw [listMean, sum_const hall, hl]
      have : (N : ℝ) ≠ 0 := by positivity
      field_simp
    unfold colVariance
    rw [hmean, sum_const (a := 0)]
    · simp
    · intro y hy
      obtain ⟨x, hx, rfl⟩ := List.mem_map.mp hy
      rw [hall x hx]; simp
  · rintro ⟨i, k, hi, hk, hne⟩ h
    unfold colVariance at h
    rw [hl, div_eq_zero_iff] at h
    rcases h with h | h
    · have := sum_sq_zero h
      exact hne ((this _ (hmem i hi)).trans (this _ (hmem k hk)).symm)
    · exact hN' h

theorem filter_range_map {α : Type} (l : List α) (d : α) (q : α → Bool) :
    ((List.range l.length).filter fun j => q (l.getD j d)).map (fun j => l.getD j d) = l.filter q := by
  have h1 : (List.range l.length).map (fun j => l.getD j d) = l := by
    apply List.ext_getElem
    · simp
    · intro i h1 h2
      rw [List.getElem_map, List.getElem_range, List.getD_eq_getElem _ _ h2]
  conv_rhs => rw [← h1, List.filter_map]
  rfl

open scoped Classical in
/-- Selected indices mapped to sizes and columns are the components of the filtered pairs. -/
theorem selected_pairs {N : ℕ} (hN : 2 ≤ N) (sizes : List ℝ) (cols : List (List ℝ)) (hlen : cols.length = sizes.length)
    (hrows : ∀ c ∈ cols, N ≤ c.length) :
    let sel := (List.range cols.length).filter fun j => colVariance ((cols.getD j []).take N) ≠ 0
    let kept := (sizes.zip cols).filter fun p => Varies N p.2
    sel.map (fun j => sizes.getD j 0) = kept.map (·.1) ∧ sel.map (fun j => cols.getD j []) = kept.map (·.2) ∧
    sel.length = kept.length := by
  intro sel kept
  have hz : (sizes.zip cols).length = cols.length := by simp [hlen]
  have hsel : sel = (List.range (sizes.zip cols).length).filter
      fun j => decide (Varies N ((sizes.zip cols).getD j (0, [])).2) := by
    rw [hz]
    apply List.filter_congr
    intro j hj
    have hj' : j < cols.length := List.mem_range.mp hj
    have hj2 : j < (sizes.zip cols).length := by omega
    rw [decide_eq_decide, List.getD_eq_getElem _ _ hj2, List.getElem_zip,
      colVariance_ne_zero hN (hrows _ (by rw [List.getD_eq_getElem _ _ hj']; exact List.getElem_mem _)),
      List.getD_eq_getElem _ _ hj']
  have hkept : sel.map (fun j => (sizes.zip cols).getD j (0, [])) = kept := by
    rw [hsel]
    exact filter_range_map (sizes.zip cols) (0, []) fun p => decide (Varies N p.2)
  have hmem : ∀ j ∈ sel, j < cols.length := fun j hj => List.mem_range.mp (List.mem_filter.mp hj).1
  refine ⟨?_, ?_, ?_⟩
  · rw [← hkept, List.map_map]
    apply List.map_congr_left
    intro j hj
    have := hmem j hj
    have hj2 : j < (sizes.zip cols).length := by omega
    simp only [Function.comp]
    rw [List.getD_eq_getElem _ _ hj2, List.getElem_zip, List.getD_eq_getElem _ _ (by omega)]
  · rw [← hkept, List.map_map]
    apply List.map_congr_left
    intro j hj
    have := hmem j hj
    have hj2 : j < (sizes.zip cols).length := by omega
    simp only [Function.comp]
    rw [List.getD_eq_getElem _ _ hj2, List.getElem_zip, List.getD_eq_getElem _ _ (by omega)]
  · rw [← hkept, List.length_map]

theorem setDefectSizes_sorted {observed : List ℝ} {mn mx : ℝ} (hmn : IsLeast {x | x ∈ observed} mn)
    (hmx : IsGreatest {x | x ∈ observed} mx) {arg : List ℝ} (hne : arg ≠ []) (hs : arg.Pairwise (· ≤ ·))
    (hr : ∀ d ∈ arg, mn ≤ d ∧ d ≤ mx) (s : SizeAttrs) :
    setDefectSizes observed arg s = (.ok (), ⟨arg, arg.length⟩) := by
  obtain ⟨-, h2, h3⟩ := C32_setDefectSizes observed mn mx hmn hmx arg hne s
  have h := h2.mpr hr
  obtain ⟨hp, hsort, hnum⟩ := h3 h
  have : (setDefectSizes observed arg s).2.sizes = arg :=
    hp.eq_of_pairwise (fun a b _ _ h1 h2 => le_antisymm h1 h2) hsort hs
  ext1
  · exact h
  · cases hx : (setDefectSizes observed arg s).2 with
    | mk a b => rw [hx] at this hnum; simp at this hnum ⊢; exact ⟨this, hnum⟩

/-- The defect sizes are in ascending order, within the observed range, and counted. -/
def SizesOk (mn mx : ℝ) (s : SobolSt) : Prop :=
  s.sizes.Pairwise (· ≤ ·) ∧ (∀ d ∈ s.sizes, mn ≤ d ∧ d ≤ mx) ∧ s.number = s.sizes.length ∧ s.sizes ≠ []

open scoped Classical in
/-- **C67.**  For every output design with at least `N ≥ 2` rows and one column per size: `run` keeps exactly the pairs
(size, column) whose column is not constant over the first `N` rows, in order; when there is none it raises ValueError
and changes nothing. -/
theorem C67_selection (observed : List ℝ) (mn mx : ℝ) (hmn : IsLeast {x | x ∈ observed} mn)
    (hmx : IsGreatest {x | x ∈ observed} mx) (N : ℕ) (hN : 2 ≤ N) (design : List ℝ → List (List ℝ)) (s : SobolSt)
    (hok : SizesOk mn mx s) (hlen : (design s.sizes).length = s.sizes.length)
    (hrows : ∀ c ∈ design s.sizes, N ≤ c.length) :
    let kept := (s.sizes.zip (design s.sizes)).filter fun p => Varies N p.2
    let out := sobolRun observed N design s
    (kept ≠ [] → out.1 = .ok () ∧ out.2.sizes = kept.map (·.1) ∧ out.2.sa = some (kept.map (·.2)) ∧
      out.2.number = kept.length) ∧
    (kept = [] → Raises out.1 .valueError ∧ out.2 = s) := by
  intro kept out
  obtain ⟨hsort, hrange, hnum, hne⟩ := hok
  obtain ⟨h1, h2, h3⟩ := selected_pairs hN s.sizes (design s.sizes) hlen hrows
  have hz : (s.sizes.zip (design s.sizes)).map (·.1) = s.sizes := List.map_fst_zip (by omega)
  have hsub : (kept.map (·.1)).Sublist s.sizes := by
    have := (List.filter_sublist (p := fun p => decide (Varies N p.2)) (l := s.sizes.zip (design s.sizes))).map (·.1)
    rwa [hz] at this
  have hout : out = sobolRun observed N design s := rfl
  unfold sobolRun at hout
  dsimp only at hout
  rw [h1, h2, h3] at hout
  constructor
  · intro hk
    have hset := setDefectSizes_sorted hmn hmx (arg := kept.map (·.1)) (by simpa using hk) (hsort.sublist hsub)
      (fun d hd => hrange d (hsub.subset hd)) s.toSizeAttrs
    by_cases hall : kept.length ≠ (design s.sizes).length
    · rw [if_pos hall, hset] at hout
      dsimp only at hout
      rw [hout]
      simp [kept]
    · rw [if_neg hall] at hout
      push Not at hall
      have heq : kept = s.sizes.zip (design s.sizes) :=
        List.filter_sublist.eq_of_length (by rw [List.length_zip, hall]; omega)
      rw [hout]
      refine ⟨rfl, ?_, ?_, ?_⟩
      · rw [heq, hz]
      · rw [heq, List.map_snd_zip (by omega)]
      · rw [hall]; dsimp only; omega
  · intro hk
    have hpos : 0 < s.sizes.length := List.length_pos_iff.mpr hne
    have hk' : ((s.sizes.zip (design s.sizes)).filter fun p => decide (Varies N p.2)) = [] := hk
    rw [hk'] at hout
    have hc : ([] : List (ℝ × List ℝ)).length ≠ (design s.sizes).length := by simp; omega
    rw [if_pos hc] at hout
    have hempty : setDefectSizes observed (([] : List (ℝ × List ℝ)).map (·.1)) s.toSizeAttrs
        = (.error ⟨.valueError, "need at least one array to concatenate"⟩, s.toSizeAttrs) := by
      simp [setDefectSizes]
    rw [hempty] at hout
    dsimp only at hout
    rw [hout]
    exact ⟨⟨_, rfl⟩, rfl⟩

/-- **C67, histories.**  After every sequence of `setDefectSizes` calls with sizes in the observed range (or empty, hence
rejected) and of `run` calls (whatever the POD), the sizes are in ascending order, in range and counted: the hypothesis of
`C67_selection` always holds. -/
theorem C67_histories (observed : List ℝ) (mn mx : ℝ) (hmn : IsLeast {x | x ∈ observed} mn)
    (hmx : IsGreatest {x | x ∈ observed} mx) (ops : List SobolOp) (s : SobolSt) (hok : SizesOk mn mx s)
    (hset : ∀ arg, SobolOp.setSizes arg ∈ ops → ∀ d ∈ arg, mn ≤ d ∧ d ≤ mx)
    (hrun : ∀ N design, SobolOp.run N design ∈ ops → 2 ≤ N ∧
      ∀ l, (design l).length = l.length ∧ ∀ c ∈ design l, N ≤ c.length) :
    SizesOk mn mx (sobolHistory observed ops s) := by
  induction ops generalizing s with
  | nil => exact hok
  | cons op ops ih =>
    apply ih
    · cases op with
      | setSizes arg =>
        have hr := hset arg List.mem_cons_self
        change SizesOk mn mx (sobolSetSizes observed arg s).2
        by_cases ha : arg = []
        · subst ha; simpa [sobolSetSizes, setDefectSizes] using hok
        · obtain ⟨-, h2, h3⟩ := C32_setDefectSizes observed mn mx hmn hmx arg ha s.toSizeAttrs
          obtain ⟨hp, hs, hn⟩ := h3 (h2.mpr hr)
          refine ⟨hs, fun d hd => hr d (hp.mem_iff.mp hd), hn.trans hp.length_eq.symm, ?_⟩
          intro h
          apply ha
          have h' : (setDefectSizes observed arg s.toSizeAttrs).2.sizes = [] := h
          rw [h'] at hp
          exact List.perm_nil.mp hp.symm
      | run N design =>
        classical
        obtain ⟨hN, hd⟩ := hrun N design List.mem_cons_self
        have key := C67_selection observed mn mx hmn hmx N hN design s hok (hd _).1 (hd _).2
        change SizesOk mn mx (sobolRun observed N design s).2
        dsimp only at key
        by_cases hk : ((s.sizes.zip (design s.sizes)).filter fun p => decide (Varies N p.2)) = []
        · have := (key.2 (by convert hk)).2
          rw [this]; exact hok
        · obtain ⟨-, h1, -, h3⟩ := key.1 (by convert hk)
          obtain ⟨hsort, hrange, hnum, hne⟩ := hok
          have hz : (s.sizes.zip (design s.sizes)).map (·.1) = s.sizes := List.map_fst_zip (by rw [(hd _).1])
          have hsub : (sobolRun observed N design s).2.sizes.Sublist s.sizes := by
            rw [h1]
            conv_rhs => rw [← hz]
            exact List.filter_sublist.map _
          refine ⟨hsort.sublist hsub, fun d hd => hrange d (hsub.subset hd), ?_, ?_⟩
          · rw [h3, h1, List.length_map]
          · rw [h1]
            intro h
            rw [List.map_eq_nil_iff] at h
            exact hk (by convert h)
    · exact fun arg h => hset arg (List.mem_cons_of_mem _ h)
    · exact fun N design h => hrun N design (List.mem_cons_of_mem _ h)

/-- Two sizes; the POD of the first is constant. -/
noncomputable def exDesign : List ℝ → List (List ℝ) := fun l => l.map fun d => if d = 1 then [0, 0, 5] else [0, d, 5]

example : SizesOk 1 2 ⟨⟨[1, 2], 2⟩, none⟩ ∧ (∀ l, (exDesign l).length = l.length ∧ ∀ c ∈ exDesign l, 2 ≤ c.length) ∧
    Varies 2 [0, 2, 5] ∧ ¬ Varies 2 [0, 0, 5] := by
  refine ⟨⟨by norm_num, ?_, rfl, by simp⟩, fun l => ⟨by simp [exDesign], ?_⟩, ⟨0, 1, by norm_num, by norm_num, by norm_num⟩, ?_⟩
  · intro d hd; simp at hd; rcases hd with rfl | rfl <;> norm_num
  · intro c hc
    simp only [exDesign, List.mem_map] at hc
    obtain ⟨d, -, rfl⟩ := hc
    split_ifs <;> simp
  · rintro ⟨i, k, hi, hk, hne⟩
    interval_cases i <;> interval_cases k <;> simp at hne

open scoped Classical in
/-- **C86 (restricted).**  After a `run` that returns, the plot of the indices shows exactly the kept sizes, each with the
indices of its own output (sizes whose indices cannot be computed are left out).  Missing: the sizes may be changed after
`run`, see `C86_violated`. -/
theorem C86_plotted_after_run_partial {I : Type} (index : List ℝ → Option I) (observed : List ℝ) (mn mx : ℝ)
    (hmn : IsLeast {x | x ∈ observed} mn) (hmx : IsGreatest {x | x ∈ observed} mx) (N : ℕ) (hN : 2 ≤ N)
    (design : List ℝ → List (List ℝ)) (s : SobolSt) (hok : SizesOk mn mx s)
    (hlen : (design s.sizes).length = s.sizes.length) (hrows : ∀ c ∈ design s.sizes, N ≤ c.length)
    (hret : (sobolRun observed N design s).1 = .ok ()) :
    sobolDrawn index (sobolRun observed N design s).2 =
      .ok ((s.sizes.zip (design s.sizes)).filterMap fun p =>
        if Varies N p.2 then (index p.2).map fun v => (p.1, v) else none) := by
  have key := C67_selection observed mn mx hmn hmx N hN design s hok hlen hrows
  dsimp only at key
  set kept := (s.sizes.zip (design s.sizes)).filter fun p => decide (Varies N p.2) with hkept
  have hne : kept ≠ [] := by
    intro h
    obtain ⟨⟨m, hm⟩, -⟩ := key.2 h
    rw [hm] at hret; cases hret
  obtain ⟨-, h1, h2, -⟩ := key.1 hne
  rw [sobolDrawn, h2, h1]
  dsimp only
  congr 1
  have gen : ∀ (l : List (ℝ × List ℝ)) (pre : List (List ℝ)),
      ((l.map (·.1)).zipIdx pre.length).filterMap (fun di =>
        ((pre ++ l.map (·.2))[di.2]?).bind fun c => (index c).map fun v => (di.1, v))
        = l.filterMap fun p => (index p.2).map fun v => (p.1, v) := by
    intro l
    induction l with
    | nil => intro pre; simp
    | cons p l ih =>
      intro pre
      have h := ih (pre ++ [p.2])
      rw [List.length_append, List.length_singleton] at h
      have em : (p :: l).map (fun q : ℝ × List ℝ => q.1) = p.1 :: l.map (·.1) := rfl
      rw [em, List.zipIdx_cons, List.filterMap_cons, List.filterMap_cons]
      have e : (pre ++ (p :: l).map (·.2))[pre.length]? = some p.2 := by simp
      have e2 : pre ++ (p :: l).map (·.2) = pre ++ [p.2] ++ l.map (·.2) := by simp
      simp only [e, Option.bind_some]
      rw [e2, h]
  have := gen kept []
  simp only [List.nil_append, List.length_nil] at this
  rw [this, hkept, List.filterMap_filter]
  congr 1
  funext p
  by_cases hv : Varies N p.2 <;> simp [hv]

/-- **C86 is violated**: whatever the outputs of the last `run`, after `setDefectSizes` with other sizes in range the
plot pairs the new sizes with the indices of the old ones. -/
theorem C86_violated {I : Type} (index : List ℝ → Option I) (observed : List ℝ) (mn mx : ℝ)
    (hmn : IsLeast {x | x ∈ observed} mn) (hmx : IsGreatest {x | x ∈ observed} mx) (s : SobolSt) (c : List ℝ)
    (cs : List (List ℝ)) (hsa : s.sa = some (c :: cs)) (v : I) (hv : index c = some v) (d : ℝ) (hd : mn ≤ d ∧ d ≤ mx) :
    (sobolSetSizes observed [d] s).1 = .ok () ∧
    sobolDrawn index (sobolSetSizes observed [d] s).2 = .ok [(d, v)] := by
  have hset := setDefectSizes_sorted hmn hmx (arg := [d]) (by simp) (by simp) (by simpa using hd) s.toSizeAttrs
  constructor
  · simp only [sobolSetSizes]; rw [hset]
  · simp only [sobolSetSizes, sobolDrawn]; rw [hset]; dsimp only; rw [hsa]; simp [hv]

example : ({ sizes := [1, 2], number := 2, sa := some [[0, 1, 5], [0, 2, 5]] } : SobolSt).sa = some ([0, 1, 5] :: [[0, 2, 5]]) ∧
    (1 : ℝ) ≤ 2 ∧ (2 : ℝ) ≤ 2 := by norm_num

/-! ## C68 -/

/-- The POD at a fixed input `x` and size `d` for the kriging model: probability that a Gaussian variable with the
conditional mean and variance at the normalised point exceeds the threshold. -/
noncomputable def krigingPODAt (T : List ℝ → List ℝ) (m v : List ℝ → ℝ) (detection : ℝ) (x : List ℝ) (d : ℝ) : ℝ :=
  (gaussianReal (m (T (d :: x))) (sqv (Real.sqrt (v (T (d :: x)))))).real (Set.Ioi detection)

theorem krigProb_eq {det : ℝ} {mean : List ℝ} {v0 : ℝ} {vs : List ℝ} (h0 : 0 < v0) :
    krigProb det mean (v0 :: vs) = mean.map fun m => F.fin (1 - Phi ((det - m) / Real.sqrt v0)) := by
  unfold krigProb
  dsimp only
  rw [List.map_map]
  apply List.map_congr_left
  intro m _
  have hs : Real.sqrt v0 ≠ 0 := (Real.sqrt_pos.mpr h0).ne'
  simp [Function.comp, sqrtF, not_lt.mpr h0.le, F.div_fin _ hs, pNormalF, F.sub, sub_eq_add_neg]

/-- **C68 (restricted), exact value.**  When no conditional variance is negative and that of the first size is positive,
the result at size `d` is `1 - Φ((threshold - mean at the raw point (d, x)) / standard deviation at the FIRST size)`. -/
theorem C68_value_partial (m v : List ℝ → ℝ) (det d0 : ℝ) (ds x : List ℝ) (h0 : 0 < v (d0 :: x)) :
    krigExec m v det (d0 :: ds) x
      = .ok ((d0 :: ds).map fun d => F.fin (1 - Phi ((det - m (d :: x)) / Real.sqrt (v (d0 :: x))))) := by
  unfold krigExec
  dsimp only
  rw [if_neg]
  · rw [List.map_cons (l := ds), List.map_cons (f := v), krigProb_eq h0]
    simp
  · intro h
    have := h (v (d0 :: x)) (by simp)
    linarith

/-- **C68 (restricted).**  The result is the POD of the kriging model at `x` for every size when the normalisation does
nothing at the points used and the conditional variance is the same positive number for all sizes. -/
theorem C68_pod_partial (T : List ℝ → List ℝ) (m v : List ℝ → ℝ) (det d0 : ℝ) (ds x : List ℝ)
    (hT : ∀ d ∈ d0 :: ds, T (d :: x) = d :: x) (h0 : 0 < v (d0 :: x))
    (hv : ∀ d ∈ ds, v (d :: x) = v (d0 :: x)) :
    krigExec m v det (d0 :: ds) x = .ok ((d0 :: ds).map fun d => F.fin (krigingPODAt T m v det x d)) := by
  rw [C68_value_partial m v det d0 ds x h0]
  congr 1
  apply List.map_congr_left
  intro d hd
  have hvd : v (d :: x) = v (d0 :: x) := by
    rcases List.mem_cons.mp hd with rfl | h
    · rfl
    · exact hv d h
  rw [krigingPODAt, hT d hd, gauss_Ioi (Real.sqrt_pos.mpr (by rw [hvd]; exact h0)), hvd]

example : (0 : ℝ) < (fun _ : List ℝ => (1 : ℝ)) [1, 2, 3] := by norm_num

/-- **C68 is violated: normalisation.**  For one size and equal positive variances, the result is the POD of the kriging
model iff the mean at the raw point equals the mean at the normalised point. -/
theorem C68_violated (T : List ℝ → List ℝ) (m v : List ℝ → ℝ) (det d : ℝ) (x : List ℝ) (h0 : 0 < v (d :: x))
    (hv : v (T (d :: x)) = v (d :: x)) :
    krigExec m v det [d] x = .ok [F.fin (krigingPODAt T m v det x d)] ↔ m (d :: x) = m (T (d :: x)) := by
  have hs := Real.sqrt_pos.mpr h0
  rw [C68_value_partial m v det d [] x h0, krigingPODAt, hv, gauss_Ioi hs]
  simp only [List.map_cons, List.map_nil, Except.ok.injEq, List.cons.injEq, and_true, F.fin.injEq, sub_right_inj]
  rw [Phi_strictMono.injective.eq_iff, div_left_inj' hs.ne', sub_right_inj]

/-- **C68 is violated: variance.**  Even without normalisation, the value of a later size `d` is wrong as soon as its
variance is positive and differs from that of the first size, unless the mean equals the threshold. -/
theorem C68_violated_variance (m v : List ℝ → ℝ) (det d0 d : ℝ) (x : List ℝ) (h0 : 0 < v (d0 :: x)) (h1 : 0 < v (d :: x))
    (hne : v (d :: x) ≠ v (d0 :: x)) (hm : m (d :: x) ≠ det) :
    ∃ p q, krigExec m v det [d0, d] x = .ok [.fin p, .fin q] ∧ q ≠ krigingPODAt id m v det x d := by
  refine ⟨_, _, C68_value_partial m v det d0 [d] x h0, ?_⟩
  have hs0 := Real.sqrt_pos.mpr h0
  have hs1 := Real.sqrt_pos.mpr h1
  intro h
  rw [krigingPODAt, id, gauss_Ioi hs1, sub_right_inj, Phi_strictMono.injective.eq_iff,
    div_eq_div_iff hs0.ne' hs1.ne'] at h
  have h2 : det - m (d :: x) ≠ 0 := sub_ne_zero.mpr hm.symm
  have h3 := mul_left_cancel₀ h2 h
  exact hne ((Real.sqrt_inj h1.le h0.le).mp h3)

/-- **C68 is violated: tolerance.**  When every variance is negative, however small, the call raises (the branch taking
absolute values is never reached); when only the first is negative, every value is NaN. -/
theorem C68_violated_tolerance (m v : List ℝ → ℝ) (det d0 : ℝ) (ds x : List ℝ) :
    ((∀ d ∈ d0 :: ds, v (d :: x) < 0) → Raises (krigExec m v det (d0 :: ds) x) .valueError) ∧
    (v (d0 :: x) < 0 → (∃ d ∈ ds, 0 ≤ v (d :: x)) →
      krigExec m v det (d0 :: ds) x = .ok (List.replicate (ds.length + 1) .nan)) := by
  constructor
  · intro h
    unfold krigExec
    dsimp only
    rw [if_pos (by intro w hw; simp only [List.map_map, List.mem_map] at hw; obtain ⟨d, hd, rfl⟩ := hw; exact h d hd),
      if_pos (by intro w _ hw; linarith)]
    exact ⟨_, rfl⟩
  · rintro h0 ⟨d, hd, h1⟩
    unfold krigExec
    dsimp only
    rw [if_neg]
    · congr 1
      unfold krigProb
      dsimp only
      rw [List.eq_replicate_iff]
      refine ⟨by simp, ?_⟩
      intro b hb
      simp only [List.map_map, List.mem_map] at hb
      obtain ⟨e, -, rfl⟩ := hb
      simp [Function.comp, sqrtF, h0, F.div, pNormalF, F.sub, F.neg]
    · intro h
      have := h (v (d :: x)) (by
        simp only [List.map_map, List.mem_map]; exact ⟨d, List.mem_cons_of_mem _ hd, rfl⟩)
      linarith

/-! ## C69 -/

theorem blocks_aux {α β : Type} (zero : α) (D : ℕ) (f : β → List α) (hf : ∀ b, (f b).length = D) (bs : List β)
    (pre : List α) (k n : ℕ) (hk : pre.length = D * k) (hn : bs.length ≤ n) :
    (bs.zipIdx k).foldl (fun full bi => assignRows full (D * bi.2) (f bi.1)) (pre ++ List.replicate (D * n) zero)
      = pre ++ bs.flatMap f ++ List.replicate (D * (n - bs.length)) zero := by
  induction bs generalizing pre k n with
  | nil => simp
  | cons b bs ih =>
    obtain ⟨n', rfl⟩ : ∃ n', n = n' + 1 := ⟨n - 1, by simp at hn; omega⟩
    rw [List.zipIdx_cons, List.foldl_cons]
    have hstep : assignRows (pre ++ List.replicate (D * (n' + 1)) zero) (D * k) (f b)
        = (pre ++ f b) ++ List.replicate (D * n') zero := by
      rw [assignRows, hf, ← hk, List.take_left, List.drop_append, List.drop_eq_nil_of_le (by omega),
        List.nil_append, Nat.add_sub_cancel_left, List.drop_replicate, Nat.mul_succ, Nat.add_sub_cancel]
    rw [hstep, ih (pre ++ f b) (k + 1) n' (by simp [hf, hk, Nat.mul_succ]) (by simp at hn; omega)]
    simp [List.append_assoc]

theorem flatMap_getElem? {α β : Type} (D : ℕ) (f : β → List α) (hf : ∀ b, (f b).length = D) (bs : List β) (i j : ℕ)
    (hi : i < bs.length) (hj : j < D) : (bs.flatMap f)[i * D + j]? = (f bs[i])[j]? := by
  induction bs generalizing i with
  | nil => simp at hi
  | cons b bs ih =>
    rw [List.flatMap_cons]
    cases i with
    | zero => rw [List.getElem?_append_left (by rw [hf]; omega)]; simp
    | succ i =>
      rw [List.getElem?_append_right (by rw [hf]; nlinarith), hf]
      have : (i + 1) * D + j - D = i * D + j := by rw [Nat.succ_mul]; omega
      rw [this, ih i (by simpa using hi)]
      simp

theorem chaosFullX_eq (dim : ℕ) (sizes : List ℝ) (X : List (List ℝ)) :
    chaosFullX dim sizes X = X.flatMap fun x => sizes.map fun d => d :: x := by
  have := blocks_aux (List.replicate (dim + 1) (0 : ℝ)) sizes.length (fun x : List ℝ => sizes.map fun d => d :: x)
    (by simp) X [] 0 X.length (by simp) le_rfl
  unfold chaosFullX
  rw [Nat.mul_comm X.length]
  simpa using this

theorem chaosFullResRow_eq (D n : ℕ) (r : List ℝ) :
    chaosFullResRow D n r = (List.range n).flatMap fun i => List.replicate D (r.getD i 0) := by
  have h := blocks_aux (0 : ℝ) D (fun i : ℕ => List.replicate D (r.getD i 0)) (by simp) (List.range n) [] 0 n (by simp)
    (by simp)
  have hz : (List.range n).zipIdx = (List.range n).map fun i => (i, i) := by
    apply List.ext_getElem
    · simp
    · intro i h1 h2; simp
  rw [hz, List.foldl_map] at h
  unfold chaosFullResRow
  rw [Nat.mul_comm n]
  simpa using h

/-- **C69 (restricted).**  For every sample, number of sizes and number of simulations: row `i` of the vectorised
evaluation is the point evaluation at the `i`-th point with the `i`-th column of the residual sample, at the sizes of this
object.  Missing: the point evaluation of the code uses the sizes of the POD object. -/
theorem C69_rows_partial (chaos : List ℝ → List ℝ) (det : ℝ) (dim : ℕ) (sizes : List ℝ) (X res : List (List ℝ)) :
    (chaosExecSample chaos det dim sizes X res).length = X.length ∧
    ∀ i (hi : i < X.length), ∃ row, (chaosExecSample chaos det dim sizes X res)[i]? = some row ∧
      chaosExec chaos det sizes sizes.length X[i] (res.map fun r => r.getD i 0) = .ok row := by
  refine ⟨by simp [chaosExecSample], ?_⟩
  intro i hi
  refine ⟨_, ?_, by unfold chaosExec; rw [if_neg (by simp)]⟩
  unfold chaosExecSample
  dsimp only
  rw [List.getElem?_map, List.getElem?_range hi, Option.map_some]
  congr 1
  apply List.ext_getElem
  · simp
  · intro j h1 h2
    have hj : j < sizes.length := by simpa using h1
    rw [List.getElem_map, List.getElem_range, List.getElem_map, List.getElem_map, List.getD_eq_getElem?_getD,
      List.getElem?_mapIdx, chaosFullX_eq,
      flatMap_getElem? sizes.length (fun x : List ℝ => sizes.map fun d => d :: x) (by simp) X i j hi hj]
    rw [List.getElem?_map, List.getElem?_eq_getElem hj]
    simp only [Option.map_some, Option.getD_some]
    congr 2
    rw [List.map_map]
    apply List.map_congr_left
    intro r _
    simp only [Function.comp]
    rw [chaosFullResRow_eq, List.getD_eq_getElem?_getD,
      flatMap_getElem? sizes.length (fun i : ℕ => List.replicate sizes.length (r.getD i 0)) (by simp) _ i j (by simpa using hi) hj]
    simp [hj]

/-- **C69, law of the noise.**  Column `i` of a sample of size `S` of the standard normal distribution of dimension `n`
has the law of a sample of size `S` of the scalar standard normal distribution, so both evaluations use the same law of
residuals; columns of different points are not equal. -/
theorem C69_noise_law (S n : ℕ) (i : Fin n) :
    (Measure.pi fun _ : Fin S => Measure.pi fun _ : Fin n => gaussianReal 0 1).map (fun R k => R k i)
      = Measure.pi fun _ : Fin S => gaussianReal 0 1 := by
  have h := Measure.pi_map_pi (μ := fun _ : Fin S => Measure.pi fun _ : Fin n => gaussianReal 0 1)
    (f := fun _ (x : Fin n → ℝ) => x i) (fun _ => (measurable_pi_apply i).aemeasurable)
  rw [h]
  congr 1
  funext _
  exact (measurePreserving_eval (fun _ : Fin n => gaussianReal 0 1) i).map_eq

/-- **C69 is violated.**  With sizes of the object different from those of the POD: another number of sizes makes the point
evaluation raise ValueError, and with the same number it gives the probabilities at the sizes of the POD instead. -/
theorem C69_violated (chaos : List ℝ → List ℝ) (det : ℝ) (podSizes sizes x res : List ℝ) :
    (podSizes.length ≠ sizes.length → Raises (chaosExec chaos det podSizes sizes.length x res) .valueError) ∧
    (podSizes.length = sizes.length →
      chaosExec chaos det podSizes sizes.length x res = chaosExec chaos det podSizes podSizes.length x res) := by
  constructor
  · intro h; unfold chaosExec; rw [if_pos h]; exact ⟨_, rfl⟩
  · intro h; rw [h]

/-- Witness: POD sizes `[1]`, own sizes `[2]`, a metamodel returning the defect, threshold 1.5. -/
theorem C69_violated_witness :
    chaosExec (fun p => [p.headD 0]) (3 / 2) [1] 1 [7] [0] = .ok [0] ∧
    chaosExecSample (fun p => [p.headD 0]) (3 / 2) 1 [2] [[7]] [[0]] = [[1]] := by
  constructor
  · norm_num [chaosExec, fracAbove]
  · norm_num [chaosExecSample, chaosFullX, chaosFullResRow, fracAbove, assignRows]

/-! ## C80 -/

/-- **C80, Sobol.**  For every object: the constructor accepts it iff its class is one of the three documented ones, it has
a result with at least three inputs (defect included) and a distribution; any other class is rejected with Exception, and
an accepted class with fewer than two parameters besides the defect with AssertionError. -/
theorem C80_sobol (p : PodObj) :
    ((∃ n, sobolInit p = .ok n) ↔
      p.className ∈ ["PolynomialChaosPOD", "KrigingPOD", "AdaptiveSignalPOD"] ∧ (∃ n, p.resultDim = some n ∧ 3 ≤ n) ∧
        p.hasDistribution = true) ∧
    (∀ n, sobolInit p = .ok n → p.resultDim = some (n + 1)) ∧
    (p.className ∉ ["PolynomialChaosPOD", "KrigingPOD", "AdaptiveSignalPOD"] ↔ Raises (sobolInit p) .exception) ∧
    (p.className ∈ ["PolynomialChaosPOD", "KrigingPOD", "AdaptiveSignalPOD"] → ∀ n, p.resultDim = some n → n < 3 →
      Raises (sobolInit p) .assertion) := by
  rcases p with ⟨c, r, t, d, sz⟩
  by_cases h1 : c = "PolynomialChaosPOD"
  · subst h1
    rcases r with _ | n
    · simp [sobolInit, Raises]
    · by_cases hn : n < 3
      · simp [sobolInit, sensInitTail, hn, Raises]
      · cases d <;> simp [sobolInit, sensInitTail, hn, Raises] <;> omega
  · by_cases h2 : c = "KrigingPOD" ∨ c = "AdaptiveSignalPOD"
    · rcases r with _ | n
      · simp [sobolInit, Raises, h1, h2]
      · by_cases hn : n < 3
        · simp [sobolInit, sensInitTail, hn, Raises, h1, h2]
        · cases d <;> simp [sobolInit, sensInitTail, hn, Raises, h1, h2] <;> omega
    · simp [sobolInit, Raises, h1, h2]

/-- **C80, PLI (restricted).**  Accepted: a kriging or chaos POD after `run`, with at least two parameters besides the
defect.  Missing: `AdaptiveSignalPOD`, see `C80_violated`. -/
theorem C80_pli_partial (p : PodObj) :
    ((∃ n, pliBaseInit p = .ok n) ↔
      (p.className = "PolynomialChaosPOD" ∨ (p.className = "KrigingPOD" ∨ p.className = "AdaptiveSignalPOD") ∧
        p.hasTransformation = true) ∧ (∃ n, p.resultDim = some n ∧ 3 ≤ n) ∧ p.hasDistribution = true) ∧
    (∀ n, pliBaseInit p = .ok n → p.resultDim = some (n + 1)) ∧
    (p.className ∉ ["PolynomialChaosPOD", "KrigingPOD", "AdaptiveSignalPOD"] ↔ Raises (pliBaseInit p) .exception) := by
  rcases p with ⟨c, r, t, d, sz⟩
  by_cases h1 : c = "PolynomialChaosPOD"
  · subst h1
    rcases r with _ | n
    · simp [pliBaseInit, Raises]
    · by_cases hn : n < 3
      · simp [pliBaseInit, sensInitTail, hn, Raises]
      · cases d <;> simp [pliBaseInit, sensInitTail, hn, Raises] <;> omega
  · by_cases h2 : c = "KrigingPOD" ∨ c = "AdaptiveSignalPOD"
    · rcases r with _ | n
      · simp [pliBaseInit, Raises, h1, h2]
      · cases t
        · simp [pliBaseInit, Raises, h1, h2]
        · by_cases hn : n < 3
          · simp [pliBaseInit, sensInitTail, hn, Raises, h1, h2]
          · cases d <;> simp [pliBaseInit, sensInitTail, hn, Raises, h1, h2] <;> omega
    · simp [pliBaseInit, Raises, h1, h2]

/-- **C80, after `run`.**  All three documented classes are accepted by `SobolIndices`; kriging and chaos by the PLI
classes. -/
theorem C80_after_run_partial (dim : ℕ) (hdim : 3 ≤ dim) (sizes : List ℝ) :
    (∀ c ∈ ["PolynomialChaosPOD", "KrigingPOD", "AdaptiveSignalPOD"], sobolInit (podAfterRun c dim sizes) = .ok (dim - 1)) ∧
    (∀ c ∈ ["PolynomialChaosPOD", "KrigingPOD"], pliBaseInit (podAfterRun c dim sizes) = .ok (dim - 1)) ∧
    krigingDrawValidation (podAfterRun "KrigingPOD" dim sizes) = .ok () := by
  have hn : ¬ dim < 3 := by omega
  refine ⟨?_, ?_, ?_⟩ <;> simp [sobolInit, pliBaseInit, podAfterRun, sensInitTail, hn, krigingDrawValidation]

/-- **C80 is violated.**  An adaptive signal POD is rejected by the PLI constructors with AttributeError whatever its
dimension, also after `run`; for the same reason its validation graph cannot be drawn. -/
theorem C80_violated (dim : ℕ) (sizes : List ℝ) :
    Raises (pliBaseInit (podAfterRun "AdaptiveSignalPOD" dim sizes)) .attributeError ∧
    Raises (krigingDrawValidation (podAfterRun "AdaptiveSignalPOD" dim sizes)) .attributeError := by
  simp [pliBaseInit, podAfterRun, krigingDrawValidation, Raises]

end Verif.Props
