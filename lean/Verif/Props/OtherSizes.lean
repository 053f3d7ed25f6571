import Verif.Props.CurveMonotone
import Mathlib.Probability.Independence.InfinitePi

/-!
# C218: the POD at a defect size and the other requested sizes
-/

namespace Verif.Props
open Verif.Py Verif.Model MeasureTheory ProbabilityTheory

variable {X U : Type}

/-- **C218, hit-miss.**  With the same sample of the parameters the POD and the confidence curve at a size do not depend on the other sizes. -/
theorem C218_hitmiss_partial (zero : ℝ × X) (classifier : ℝ × X → ℝ) (xs : List X) (s s' : SimAttrs) (hs : s.sizes.Pairwise (· < ·))
    (hs' : s'.sizes.Pairwise (· < ·)) (hnum : s.number = s.sizes.length) (hnum' : s'.number = s'.sizes.length) (level a : ℝ) (ha : a ∈ s.sizes)
    (ha' : a ∈ s'.sizes) :
    ∃ f f' g g', (hitMissRunSim zero classifier xs s).2.curve = some f ∧ (hitMissRunSim zero classifier xs s').2.curve = some f' ∧
      getPODCLModel (hitMissRunSim zero classifier xs s).2 level = .ok g ∧ getPODCLModel (hitMissRunSim zero classifier xs s').2 level = .ok g' ∧
      f a = f' a ∧ g a = g' a := by
  obtain ⟨f, g, h1, h2, h3, h4⟩ := hitMiss_nodes zero classifier xs s hs hnum level a ha
  obtain ⟨f', g', h1', h2', h3', h4'⟩ := hitMiss_nodes zero classifier xs s' hs' hnum' level a ha'
  exact ⟨f, f', g, g', h1, h1', h2, h2', by rw [h3, h3'], by rw [h4, h4']⟩

theorem countP_ofFn_sum (k : ℕ) (r : Fin k → ℝ) (t : ℝ) :
    (((List.ofFn r).countP fun r => decide (t < r) : ℕ) : ℝ) = ∑ i, if t < r i then (1 : ℝ) else 0 := by
  induction k with
  | zero => simp
  | succ k ih =>
    rw [List.ofFn_succ, List.countP_cons, Fin.sum_univ_succ, Nat.cast_add, ih, add_comm]
    congr 1
    by_cases h : t < r 0 <;> simp [h]

/-- Value of the kriging curve at a requested size. -/
theorem krig_node (rows : ℕ) (sim : ℕ → ℝ → List ℝ) (t : SimAttrs) (ht : t.number = t.sizes.length) (hp : t.sizes.Pairwise (· < ·)) (j : ℕ)
    (hj : j < t.sizes.length) : ∃ f, (krigingRunSim rows sim t).2.curve = some f ∧ f t.sizes[j] = .ok (listMean (sim j t.sizes[j])) := by
  have hne : t.sizes ≠ [] := by
    rintro h
    simp [h] at hj
  have hok : (krigingRunSim rows sim t).1 = .ok () := by
    rw [krigingRunSim, if_neg (by omega)]
    dsimp only
    rw [interp1d, if_pos (by simp [ht])]
  obtain ⟨f, hf, hn, -⟩ := C34_pod_curve rows sim t hne hp hok
  have := hn j hj
  dsimp only at this
  rw [List.getD_eq_getElem _ _ hj] at this
  exact ⟨f, hf, this⟩

/-- **C218, kriging, sizes appended.** -/
theorem C218_kriging_prefix_partial (mean variance : ℝ × X → ℝ) (det : ℝ) (rows : ℕ) (w : ℕ → KrigDraws X) (s s' : SimAttrs)
    (hs : s'.sizes.Pairwise (· < ·)) (hpre : s.sizes <+: s'.sizes) (hnum : s.number = s.sizes.length) (hnum' : s'.number = s'.sizes.length) (a : ℝ)
    (ha : a ∈ s.sizes) :
    ∃ f f', (krigingRunSim rows (fun i d => podSamplePerDefect mean variance det d (w i)) s).2.curve = some f ∧
      (krigingRunSim rows (fun i d => podSamplePerDefect mean variance det d (w i)) s').2.curve = some f' ∧ f a = f' a := by
  obtain ⟨j, hj, rfl⟩ := List.getElem_of_mem ha
  obtain ⟨f, h1, h2⟩ := krig_node rows (fun i d => podSamplePerDefect mean variance det d (w i)) s hnum (hs.sublist hpre.sublist) j hj
  obtain ⟨f', h1', h2'⟩ := krig_node rows (fun i d => podSamplePerDefect mean variance det d (w i)) s' hnum' hs j (lt_of_lt_of_le hj hpre.length_le)
  refine ⟨f, f', h1, h1', ?_⟩
  have he : s.sizes[j] = s'.sizes[j]'(lt_of_lt_of_le hj hpre.length_le) := hpre.getElem hj
  rw [he] at h2 ⊢
  rw [h2, h2']

/-- Value of the chaos curve at a requested size. -/
theorem chaos_node (S : ChaosSetup X U) (s : SimAttrs) (hs : s.sizes.Pairwise (· < ·)) (hnum : s.number = s.sizes.length) (w : ChaosDraws X)
    (sims : List (List ℝ × ChaosDraws X)) (hw : w.xs.length = S.samplingSize) (hwn : w.noise.length = S.samplingSize * s.sizes.length) (j : ℕ)
    (hj : j < s.sizes.length) :
    ∃ f, (chaosRunSim S w sims s).2.curve = some f ∧ f s.sizes[j] = .ok
      (((w.xs.mapIdx fun k x => chaosFunction S.transformation S.basis S.coefs (s.sizes[j], x) +
        (w.noise.map (· * S.stderr)).getD (S.samplingSize * j + k) 0).countP fun y => decide (S.detection < y) : ℝ) / w.xs.length) := by
  have hne : s.sizes ≠ [] := by
    rintro h
    simp [h] at hj
  have hrow : chaosPodRow S s.number s.sizes S.coefs w = s.sizes.mapIdx fun j d =>
      (((w.xs.mapIdx fun k x => chaosFunction S.transformation S.basis S.coefs (d, x) +
        (w.noise.map (· * S.stderr)).getD (w.xs.length * j + k) 0).countP fun y => decide (S.detection < y) : ℕ) : ℝ) / w.xs.length := by
    rw [chaosPodRow, ← hw, hnum, C36_chaos_layout _ _ _ _ _ _ (by simpa [hw] using hwn)]
  obtain ⟨f, hf, -, hnode, -⟩ := interp1d_spec s.sizes (chaosPodRow S s.number s.sizes S.coefs w) (by rw [hrow]; simp) hne hs
  refine ⟨f, by rw [chaosRunSim, if_neg (by omega), hf], ?_⟩
  have n1 := hnode j hj
  rw [List.getD_eq_getElem _ _ hj, hrow, List.getD_eq_getElem _ _ (by simpa using hj), List.getElem_mapIdx, hw] at n1
  rw [n1, hw]

/-- **C218, chaos, sizes appended.**  The normal deviates come from a stream; sizes larger than the requested ones can be added without changing the curve at
the latter. -/
theorem C218_prefix_partial (S : ChaosSetup X U) (xs : List X) (hxs : xs.length = S.samplingSize) (stream : ℕ → ℝ) (sims sims' : List (List ℝ × ChaosDraws X))
    (s s' : SimAttrs) (hs : s'.sizes.Pairwise (· < ·)) (hpre : s.sizes <+: s'.sizes) (hnum : s.number = s.sizes.length)
    (hnum' : s'.number = s'.sizes.length) (a : ℝ) (ha : a ∈ s.sizes) :
    ∃ f f', (chaosRunSim S ⟨xs, (List.range (S.samplingSize * s.sizes.length)).map stream⟩ sims s).2.curve = some f ∧
      (chaosRunSim S ⟨xs, (List.range (S.samplingSize * s'.sizes.length)).map stream⟩ sims' s').2.curve = some f' ∧ f a = f' a := by
  obtain ⟨j, hj, rfl⟩ := List.getElem_of_mem ha
  have hj' : j < s'.sizes.length := lt_of_lt_of_le hj hpre.length_le
  obtain ⟨f, h1, h2⟩ := chaos_node S s (hs.sublist hpre.sublist) hnum ⟨xs, (List.range (S.samplingSize * s.sizes.length)).map stream⟩ sims hxs (by simp) j hj
  obtain ⟨f', h1', h2'⟩ := chaos_node S s' hs hnum' ⟨xs, (List.range (S.samplingSize * s'.sizes.length)).map stream⟩ sims' hxs (by simp) j hj'
  refine ⟨f, f', h1, h1', ?_⟩
  have he : s.sizes[j] = s'.sizes[j] := hpre.getElem hj
  rw [he] at h2 ⊢
  rw [h2, h2']
  have : ∀ m, j < m → ∀ k, k < xs.length →
      (((List.range (S.samplingSize * m)).map stream).map (· * S.stderr)).getD (S.samplingSize * j + k) 0 = stream (S.samplingSize * j + k) * S.stderr := by
    intro m hm k hk
    have hl : S.samplingSize * j + k < S.samplingSize * m := by
      have : S.samplingSize * (j + 1) ≤ S.samplingSize * m := Nat.mul_le_mul_left _ hm
      rw [Nat.mul_add, Nat.mul_one] at this
      omega
    rw [List.getD_eq_getElem _ _ (by simpa using hl)]
    simp
  congr 4
  refine List.ext_getElem (by simp) fun k h h' => ?_
  simp only [List.getElem_mapIdx]
  have hk : k < xs.length := by simpa using h
  rw [this _ hj k hk, this _ hj' k hk]

/-- **C218 violated, chaos.**  For every metamodel with a positive residual deviation there are deviates for which asking also for a smaller size turns
the POD at `b` from 1 into 0. -/
theorem C218_violated_chaos (S : ChaosSetup X U) (hse : 0 < S.stderr) (xs : List X) (hxs : xs.length = S.samplingSize) (hpos : 0 < S.samplingSize)
    (sims sims' : List (List ℝ × ChaosDraws X)) (a b : ℝ) (hab : a < b) (s s' : SimAttrs) (h1 : s.sizes = [b]) (h2 : s'.sizes = [a, b])
    (n1 : s.number = 1) (n2 : s'.number = 2) :
    ∃ stream : ℕ → ℝ, ∃ f f', (chaosRunSim S ⟨xs, (List.range (S.samplingSize * 1)).map stream⟩ sims s).2.curve = some f ∧
      (chaosRunSim S ⟨xs, (List.range (S.samplingSize * 2)).map stream⟩ sims' s').2.curve = some f' ∧ f b = .ok 1 ∧ f' b = .ok 0 := by
  have hlen : (xs.length : ℝ) ≠ 0 := by
    rw [hxs]
    exact_mod_cast hpos.ne'
  let v : ℕ → ℝ := fun k => (xs[k]?.map fun x => chaosFunction S.transformation S.basis S.coefs (b, x)).getD 0
  let stream : ℕ → ℝ := fun i => if i < S.samplingSize then (S.detection - v i) / S.stderr + 1 else (S.detection - v (i - S.samplingSize)) / S.stderr
  obtain ⟨f, c1, c2⟩ := chaos_node S s (by rw [h1]; simp) (by rw [h1, n1]; rfl) ⟨xs, (List.range (S.samplingSize * 1)).map stream⟩ sims hxs
    (by simp [h1]) 0 (by simp [h1])
  obtain ⟨f', c1', c2'⟩ := chaos_node S s' (by rw [h2]; simpa using hab) (by rw [h2, n2]; rfl) ⟨xs, (List.range (S.samplingSize * 2)).map stream⟩ sims' hxs
    (by simp [h2]) 1 (by simp [h2])
  refine ⟨stream, f, f', c1, c1', ?_, ?_⟩
  · simp only [h1, List.getElem_cons_zero] at c2
    rw [c2]
    have : ∀ y ∈ xs.mapIdx fun k x => chaosFunction S.transformation S.basis S.coefs (b, x) +
        (((List.range (S.samplingSize * 1)).map stream).map (· * S.stderr)).getD (S.samplingSize * 0 + k) 0, decide (S.detection < y) = true := by
      intro y hy
      obtain ⟨k, hk, rfl⟩ := List.mem_mapIdx.mp hy
      have hk' : k < S.samplingSize := hxs ▸ hk
      rw [List.getD_eq_getElem _ _ (by simpa using hk')]
      have hv : v k = chaosFunction S.transformation S.basis S.coefs (b, xs[k]) := by simp [v, hk]
      simp only [List.getElem_map, List.getElem_range, Nat.mul_zero, Nat.zero_add, stream, if_pos hk', decide_eq_true_eq, hv]
      rw [add_mul, div_mul_cancel₀ _ hse.ne']
      linarith
    rw [List.countP_eq_length.mpr this, List.length_mapIdx, div_self hlen]
  · simp only [h2, List.getElem_cons_succ, List.getElem_cons_zero] at c2'
    rw [c2']
    have : ∀ y ∈ xs.mapIdx fun k x => chaosFunction S.transformation S.basis S.coefs (b, x) +
        (((List.range (S.samplingSize * 2)).map stream).map (· * S.stderr)).getD (S.samplingSize * 1 + k) 0, ¬ decide (S.detection < y) = true := by
      intro y hy
      obtain ⟨k, hk, rfl⟩ := List.mem_mapIdx.mp hy
      have hk' : k < S.samplingSize := hxs ▸ hk
      rw [List.getD_eq_getElem _ _ (by simp; omega)]
      have hv : v k = chaosFunction S.transformation S.basis S.coefs (b, xs[k]) := by simp [v, hk]
      have hlt : ¬ S.samplingSize + k < S.samplingSize := by omega
      simp only [List.getElem_map, List.getElem_range, Nat.mul_one, stream, if_neg hlt, Nat.add_sub_cancel_left, decide_eq_true_eq, hv]
      rw [div_mul_cancel₀ _ hse.ne']
      linarith
    rw [List.countP_eq_zero.mpr this, Nat.cast_zero, zero_div]

/-- A deviate large enough for all points of a list. -/
theorem exists_large (m sd : X → ℝ) (h : ∀ x, 0 < sd x) (det : ℝ) (xs : List X) :
    ∃ z, (∀ x ∈ xs, det < z * sd x + m x) ∧ ∀ x ∈ xs, -z * sd x + m x ≤ det := by
  induction xs with
  | nil => exact ⟨0, by simp, by simp⟩
  | cons x xs ih =>
    obtain ⟨z, h1, h2⟩ := ih
    have e1 : (|det - m x| / sd x + 1) * sd x = |det - m x| + sd x := by
      have := (h x).ne'
      field_simp
    have mono : ∀ y, z * sd y ≤ max z (|det - m x| / sd x + 1) * sd y := fun y => mul_le_mul_of_nonneg_right (le_max_left _ _) (h y).le
    have big : |det - m x| + sd x ≤ max z (|det - m x| / sd x + 1) * sd x := e1 ▸ mul_le_mul_of_nonneg_right (le_max_right _ _) (h x).le
    have hx := h x
    refine ⟨max z (|det - m x| / sd x + 1), fun y hy => ?_, fun y hy => ?_⟩
    · rcases List.mem_cons.mp hy with rfl | hy
      · have := le_abs_self (det - m y)
        linarith
      · have := h1 y hy
        have := mono y
        linarith
    · rcases List.mem_cons.mp hy with rfl | hy
      · have := neg_abs_le (det - m y)
        linarith
      · have := h2 y hy
        have := mono y
        linarith

/-- **C218 violated, kriging.**  The `i`-th requested size uses the `i`-th draws: asking also for a smaller size shifts them.  For every metamodel with a
positive variance there are draws for which the POD at `b` changes from 1 to 0. -/
theorem C218_violated_kriging (mean variance : ℝ × X → ℝ) (det : ℝ) (rows : ℕ) (xs : List X) (hxs : xs ≠ []) (a b : ℝ) (hab : a < b)
    (hvar : ∀ x, 0 < variance (b, x)) (s s' : SimAttrs) (h1 : s.sizes = [b]) (h2 : s'.sizes = [a, b]) (n1 : s.number = 1) (n2 : s'.number = 2) :
    ∃ w : ℕ → KrigDraws X, (∀ i, (w i).xs = xs) ∧ ∃ f f', (krigingRunSim rows (fun i d => podSamplePerDefect mean variance det d (w i)) s).2.curve = some f ∧
      (krigingRunSim rows (fun i d => podSamplePerDefect mean variance det d (w i)) s').2.curve = some f' ∧ f b = .ok 1 ∧ f' b = .ok 0 := by
  obtain ⟨z, hz1, hz2⟩ := exists_large (fun x => mean (b, x)) (fun x => Real.sqrt (variance (b, x))) (fun x => Real.sqrt_pos.mpr (hvar x)) det xs
  let w : ℕ → KrigDraws X := fun i => ⟨xs, [if i = 0 then z else -z], [(0, 0)]⟩
  let sim : ℕ → ℝ → List ℝ := fun i d => podSamplePerDefect mean variance det d (w i)
  obtain ⟨f, c1, c2⟩ := krig_node rows sim s (by rw [h1, n1]; rfl) (by rw [h1]; simp) 0 (by simp [h1])
  obtain ⟨f', c1', c2'⟩ := krig_node rows sim s' (by rw [h2, n2]; rfl) (by rw [h2]; simpa using hab) 1 (by simp [h2])
  refine ⟨w, fun i => rfl, f, f', c1, c1', ?_, ?_⟩
  · simp only [h1, List.getElem_cons_zero] at c2
    rw [c2, (podSample_const mean variance det b (w 0) hxs (by simp [w]) (by simp [w])).1 (by simpa [w] using hz1)]
  · simp only [h2, List.getElem_cons_succ, List.getElem_cons_zero] at c2'
    rw [c2', (podSample_const mean variance det b (w 1) hxs (by simp [w]) (by simp [w])).2 (by simpa [w] using hz2)]

/-- **C218, law.**  The deviates being independent with one law and independent of the parameters, the law of the chaos POD at a size does not depend on the
other requested sizes. -/
theorem C218_law_partial [MeasurableSpace X] {Ω : Type} [MeasurableSpace Ω] (P : Measure Ω) [IsProbabilityMeasure P] (S : ChaosSetup X U)
    (x : Ω → Fin S.samplingSize → X) (hx : Measurable x) (noise : ℕ → Ω → ℝ) (hn : ∀ i, Measurable (noise i)) (hind : iIndepFun noise P)
    (hlaw : ∀ i, P.map (noise i) = gaussianReal 0 1) (hxn : IndepFun x (fun ω i => noise i ω) P) (sims sims' : List (List ℝ × ChaosDraws X))
    (a : ℝ) (hmeas : Measurable fun u => chaosFunction S.transformation S.basis S.coefs (a, u)) (s s' : SimAttrs) (hs : s.sizes.Pairwise (· < ·))
    (hs' : s'.sizes.Pairwise (· < ·)) (hnum : s.number = s.sizes.length) (hnum' : s'.number = s'.sizes.length) (ha : a ∈ s.sizes) (ha' : a ∈ s'.sizes) :
    ∃ V V' : Ω → ℝ,
      (∀ ω, ∃ f, (chaosRunSim S ⟨List.ofFn (x ω), (List.range (S.samplingSize * s.sizes.length)).map fun i => noise i ω⟩ sims s).2.curve = some f ∧
        f a = .ok (V ω)) ∧
      (∀ ω, ∃ f, (chaosRunSim S ⟨List.ofFn (x ω), (List.range (S.samplingSize * s'.sizes.length)).map fun i => noise i ω⟩ sims' s').2.curve = some f ∧
        f a = .ok (V' ω)) ∧
      P.map V = P.map V' := by
  let F : (Fin S.samplingSize → X) × (Fin S.samplingSize → ℝ) → ℝ := fun p =>
    (∑ k, if S.detection < chaosFunction S.transformation S.basis S.coefs (a, p.1 k) + p.2 k * S.stderr then (1 : ℝ) else 0) / S.samplingSize
  have hF : Measurable F := by
    refine Measurable.div_const (Finset.measurable_sum _ fun k _ => Measurable.ite ?_ measurable_const measurable_const) _
    refine measurableSet_lt measurable_const ?_
    exact (hmeas.comp ((measurable_pi_apply k).comp measurable_fst)).add (((measurable_pi_apply k).comp measurable_snd).mul_const _)
  have key : ∀ t : SimAttrs, t.sizes.Pairwise (· < ·) → t.number = t.sizes.length → ∀ sims, a ∈ t.sizes → ∃ V : Ω → ℝ,
      (∀ ω, ∃ f, (chaosRunSim S ⟨List.ofFn (x ω), (List.range (S.samplingSize * t.sizes.length)).map fun i => noise i ω⟩ sims t).2.curve = some f ∧
        f a = .ok (V ω)) ∧ P.map V = ((P.map x).prod (Measure.pi fun _ : Fin S.samplingSize => gaussianReal 0 1)).map F := by
    intro t ht hnt sims hat
    obtain ⟨j, hj, hja⟩ := List.getElem_of_mem hat
    let block : Ω → Fin S.samplingSize → ℝ := fun ω k => noise (S.samplingSize * j + k) ω
    have hb : Measurable block := measurable_pi_lambda _ fun k => hn _
    have hbl : P.map block = Measure.pi fun _ : Fin S.samplingSize => gaussianReal 0 1 := by
      have hi : iIndepFun (fun k : Fin S.samplingSize => noise (S.samplingSize * j + k)) P :=
        hind.precomp (g := fun k : Fin S.samplingSize => S.samplingSize * j + (k : ℕ)) fun k k' h => Fin.ext (by simpa using h)
      have := (iIndepFun_iff_map_fun_eq_pi_map fun k : Fin S.samplingSize => (hn (S.samplingSize * j + k)).aemeasurable).mp hi
      simp only [hlaw] at this
      exact this
    have hxb : IndepFun x block P :=
      hxn.comp (φ := id) (ψ := fun (e : ℕ → ℝ) (k : Fin S.samplingSize) => e (S.samplingSize * j + k)) measurable_id
        (measurable_pi_lambda _ fun k => measurable_pi_apply _)
    have hpair : P.map (fun ω => (x ω, block ω)) = (P.map x).prod (Measure.pi fun _ : Fin S.samplingSize => gaussianReal 0 1) := by
      rw [← hbl]
      exact (indepFun_iff_map_prod_eq_prod_map_map hx.aemeasurable hb.aemeasurable).mp hxb
    refine ⟨fun ω => F (x ω, block ω), fun ω => ?_, ?_⟩
    · obtain ⟨f, h1, h2⟩ := chaos_node S t ht hnt ⟨List.ofFn (x ω), (List.range (S.samplingSize * t.sizes.length)).map fun i => noise i ω⟩ sims (by simp)
        (by simp) j hj
      refine ⟨f, h1, ?_⟩
      rw [hja] at h2
      rw [h2]
      congr 1
      have hlist : ((List.ofFn (x ω)).mapIdx fun k u => chaosFunction S.transformation S.basis S.coefs (a, u) +
          (((List.range (S.samplingSize * t.sizes.length)).map fun i => noise i ω).map (· * S.stderr)).getD (S.samplingSize * j + k) 0) =
          List.ofFn fun k : Fin S.samplingSize => chaosFunction S.transformation S.basis S.coefs (a, x ω k) + block ω k * S.stderr := by
        refine List.ext_getElem (by simp) fun k h h' => ?_
        have hk : k < S.samplingSize := by simpa using h'
        have hl : S.samplingSize * j + k < S.samplingSize * t.sizes.length := by
          have : S.samplingSize * (j + 1) ≤ S.samplingSize * t.sizes.length := Nat.mul_le_mul_left _ hj
          rw [Nat.mul_add, Nat.mul_one] at this
          omega
        rw [List.getElem_mapIdx, List.getD_eq_getElem _ _ (by simpa using hl)]
        simp [block]
      dsimp only
      rw [hlist, List.length_ofFn, countP_ofFn_sum]
    · exact (Measure.map_map hF (hx.prodMk hb)).symm.trans (by rw [hpair])
  obtain ⟨V, h1, h2⟩ := key s hs hnum sims ha
  obtain ⟨V', h1', h2'⟩ := key s' hs' hnum' sims' ha'
  exact ⟨V, V', h1, h1', h2.trans h2'.symm⟩

/-- The hypotheses of the theorems on chaos hold for one parameter, the metamodel `a + x` and independent normal deviates; the grids are `[2]` and `[1, 2]`. -/
example : ∃ V V' : (ℕ → ℝ) → ℝ, (Measure.infinitePi fun _ : ℕ => gaussianReal 0 1).map V = (Measure.infinitePi fun _ : ℕ => gaussianReal 0 1).map V' ∧
    ∀ ω, ∃ f f', (chaosRunSim (⟨(0, 0), fun p => p.1 + p.2, [id], [1], 1, 1, 3⟩ : ChaosSetup ℝ ℝ) ⟨[5], [ω 0]⟩ [] { sizes := [2], number := 1 }).2.curve = some f ∧
      (chaosRunSim (⟨(0, 0), fun p => p.1 + p.2, [id], [1], 1, 1, 3⟩ : ChaosSetup ℝ ℝ) ⟨[5], [ω 0, ω 1]⟩ [] { sizes := [1, 2], number := 2 }).2.curve = some f' ∧
      f 2 = .ok (V ω) ∧ f' 2 = .ok (V' ω) := by
  obtain ⟨V, V', h1, h2, h3⟩ := C218_law_partial (Measure.infinitePi fun _ : ℕ => gaussianReal 0 1)
    (⟨(0, 0), fun p => p.1 + p.2, [id], [1], 1, 1, 3⟩ : ChaosSetup ℝ ℝ) (fun _ _ => 5) measurable_const (fun i ω => ω i) (fun i => measurable_pi_apply i)
    (iIndepFun_infinitePi (P := fun _ : ℕ => gaussianReal 0 1) (X := fun _ x => x) fun _ => measurable_id)
    (fun i => (measurePreserving_eval_infinitePi (fun _ : ℕ => gaussianReal 0 1) i).map_eq) (indepFun_const_left _ _) [] [] 2
    (by unfold chaosFunction; simp only [List.zipWith_cons_cons, List.zipWith_nil_left, List.sum_cons, List.sum_nil, id]; fun_prop)
    { sizes := [2], number := 1 } { sizes := [1, 2], number := 2 } (by simp) (by norm_num) rfl rfl (by simp) (by simp)
  refine ⟨V, V', h3, fun ω => ?_⟩
  obtain ⟨f, a1, a2⟩ := h1 ω
  obtain ⟨f', b1, b2⟩ := h2 ω
  exact ⟨f, f', a1, b1, a2, b2⟩

/-- The hypotheses of the violation hold for the same metamodel. -/
example : ∃ stream : ℕ → ℝ, ∃ f f',
    (chaosRunSim (⟨(0, 0), fun p => p.1 + p.2, [id], [1], 1, 1, 3⟩ : ChaosSetup ℝ ℝ) ⟨[5], [stream 0]⟩ [] { sizes := [2], number := 1 }).2.curve = some f ∧
      (chaosRunSim (⟨(0, 0), fun p => p.1 + p.2, [id], [1], 1, 1, 3⟩ : ChaosSetup ℝ ℝ) ⟨[5], [stream 0, stream 1]⟩ [] { sizes := [1, 2], number := 2 }).2.curve
        = some f' ∧ f 2 = .ok 1 ∧ f' 2 = .ok 0 :=
  C218_violated_chaos (⟨(0, 0), fun p => p.1 + p.2, [id], [1], 1, 1, 3⟩ : ChaosSetup ℝ ℝ) one_pos [5] rfl one_pos [] [] 1 2 one_lt_two _ _ rfl rfl rfl rfl

/-- The hypotheses of the other theorems. -/
example : ∃ f f', (krigingRunSim 1 (fun i d => podSamplePerDefect (fun p : ℝ × ℝ => p.1) (fun _ => 1) 0 d ⟨[5], [i], [(0, 0)]⟩) { sizes := [1], number := 1 }).2.curve = some f ∧
    (krigingRunSim 1 (fun i d => podSamplePerDefect (fun p : ℝ × ℝ => p.1) (fun _ => 1) 0 d ⟨[5], [i], [(0, 0)]⟩) { sizes := [1, 2], number := 2 }).2.curve = some f' ∧ f 1 = f' 1 :=
  C218_kriging_prefix_partial (fun p : ℝ × ℝ => p.1) (fun _ => 1) 0 1 (fun i => ⟨[5], [i], [(0, 0)]⟩) { sizes := [1], number := 1 } { sizes := [1, 2], number := 2 }
    (by norm_num) ⟨[2], rfl⟩ rfl rfl 1 (by simp)

example : ∃ f f', (chaosRunSim (⟨(0, 0), fun p => p.1 + p.2, [id], [1], 1, 1, 3⟩ : ChaosSetup ℝ ℝ) ⟨[5], [0]⟩ [] { sizes := [1], number := 1 }).2.curve = some f ∧
    (chaosRunSim (⟨(0, 0), fun p => p.1 + p.2, [id], [1], 1, 1, 3⟩ : ChaosSetup ℝ ℝ) ⟨[5], [0, 1]⟩ [] { sizes := [1, 2], number := 2 }).2.curve = some f' ∧ f 1 = f' 1 := by
  simpa [List.range_succ] using C218_prefix_partial (⟨(0, 0), fun p => p.1 + p.2, [id], [1], 1, 1, 3⟩ : ChaosSetup ℝ ℝ) [5] rfl (fun i => (i : ℝ)) [] []
    { sizes := [1], number := 1 } { sizes := [1, 2], number := 2 } (by norm_num) ⟨[2], rfl⟩ rfl rfl 1 (by simp)

end Verif.Props
