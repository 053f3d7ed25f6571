import Verif.Props.SimLimit
import Verif.Props.MonteCarlo
import Verif.Model.ChaosRun
import Verif.Model.HitMissRun
import Verif.Model.KrigSim
import Verif.Model.Sampling

/-!
# C215: metamodels that increase with the defect and the POD curves
-/

namespace Verif.Props
open Verif.Py Verif.Model MeasureTheory ProbabilityTheory

variable {X : Type}

/-- The response does not decrease with the defect, whatever the other parameters. -/
def Increasing (m : ℝ × X → ℝ) : Prop := ∀ x, Monotone fun a => m (a, x)

theorem listMean_le {l l' : List ℝ} (h : List.Forall₂ (· ≤ ·) l l') : listMean l ≤ listMean l' := by
  rw [listMean, listMean, h.length_eq]
  have : l.sum ≤ l'.sum := by
    induction h with
    | nil => simp
    | cons h1 _ ih => simp only [List.sum_cons]; exact add_le_add h1 ih
  gcongr

/-- **C215 (hit-miss).**  With a classifier whose probability does not decrease with the defect, the POD curve and the curve at each confidence level
do not decrease, for every sample of the other parameters. -/
theorem C215_hitmiss_partial (zero : ℝ × X) (classifier : ℝ × X → ℝ) (hc : Increasing classifier) (xs : List X) (s : SimAttrs) (hne : s.sizes ≠ [])
    (hs : s.sizes.Pairwise (· < ·)) (hnum : s.number = s.sizes.length) (level : ℝ) :
    ∃ f g, (hitMissRunSim zero classifier xs s).2.curve = some f ∧ getPODCLModel (hitMissRunSim zero classifier xs s).2 level = .ok g ∧
      NonDecreasing f ∧ NonDecreasing g := by
  obtain ⟨f, hrun, hf⟩ := hitMissRunSim_eq zero classifier xs s (hs.imp fun h => h.le) hnum
  have hcol : ∀ a b : ℝ, a < b → List.Forall₂ (· ≤ ·) (xs.map fun x => classifier (a, x)) (xs.map fun x => classifier (b, x)) := by
    intro a b hab
    rw [List.forall₂_map_left_iff, List.forall₂_map_right_iff, List.forall₂_same]
    exact fun x _ => hc x hab.le
  obtain ⟨f', hf', -, -, -, -, hm⟩ := interp1d_spec s.sizes (s.sizes.map fun a => listMean (xs.map fun x => classifier (a, x))) (by simp) hne hs
  obtain ⟨g, hg, -, -, -, -, hm'⟩ := interp1d_spec s.sizes
    ((s.sizes.map fun a => xs.map fun x => classifier (a, x)).map fun col => quantile col (1 - level)) (by simp) hne hs
  rw [hf, Except.ok.injEq] at hf'
  subst hf'
  refine ⟨f, g, by rw [hrun], by rw [hrun, getPODCLModel]; exact hg, hm ?_, hm' ?_⟩
  · rw [List.pairwise_map]
    exact hs.imp fun h => listMean_le (hcol _ _ h)
  · rw [List.map_map, List.pairwise_map]
    exact hs.imp fun h => quantile_le (hcol _ _ h) _

/-- **C215 (chaos without noise).**  With residual deviation zero and a metamodel that does not decrease with the defect the POD curve of the chaos does
not decrease, for every sample. -/
theorem C215_chaos_exact_partial {U : Type} (c : ChaosSetup X U) (hc : Increasing (chaosFunction c.transformation c.basis c.coefs)) (h0 : c.stderr = 0)
    (w : ChaosDraws X) (hw : w.xs.length = c.samplingSize) (sims : List (List ℝ × ChaosDraws X)) (s : SimAttrs) (hne : s.sizes ≠ [])
    (hs : s.sizes.Pairwise (· < ·)) (hnum : s.number = s.sizes.length) (hn : w.noise.length = w.xs.length * s.sizes.length) :
    ∃ f, (chaosRunSim c w sims s).2.curve = some f ∧ NonDecreasing f := by
  have hz : ∀ k, (w.noise.map (· * c.stderr)).getD k 0 = 0 := by
    intro k
    rw [List.getD_eq_getElem?_getD, List.getElem?_map, h0]
    cases w.noise[k]? <;> simp
  have hrow : chaosPodRow c s.number s.sizes c.coefs w = s.sizes.map fun d =>
      ((w.xs.countP fun x => decide (c.detection < chaosFunction c.transformation c.basis c.coefs (d, x)) : ℕ) : ℝ) / w.xs.length := by
    rw [chaosPodRow, ← hw, hnum, C36_chaos_layout _ _ _ _ _ _ (by simpa using hn)]
    simp only [hz, add_zero]
    have hc : ∀ {α β : Type} (f : α → β) (l : List α), (l.mapIdx fun _ a => f a) = l.map f := fun f l => List.ext_getElem (by simp) (by simp)
    rw [hc]
    refine List.map_congr_left fun d _ => ?_
    rw [hc, List.countP_map]
    rfl
  obtain ⟨f, hf, -, -, -, -, hm⟩ := interp1d_spec s.sizes (chaosPodRow c s.number s.sizes c.coefs w) (by rw [hrow]; simp) hne hs
  refine ⟨f, ?_, hm ?_⟩
  · rw [chaosRunSim, if_neg (by omega), hf]
  · rw [hrow, List.pairwise_map]
    refine hs.imp fun {a b} h => ?_
    have : (w.xs.countP fun x => decide (c.detection < chaosFunction c.transformation c.basis c.coefs (a, x)))
        ≤ w.xs.countP fun x => decide (c.detection < chaosFunction c.transformation c.basis c.coefs (b, x)) := by
      apply List.countP_mono_left
      intro x _ hx
      rw [decide_eq_true_eq] at hx ⊢
      exact hx.trans_le (hc x h.le)
    gcongr

/-- **C215 (limit).**  The exact POD of the chaos, that is the limit for many draws, does not decrease, whatever the residual deviation; nor does the
reference POD of the adaptive kriging. -/
theorem C215_limit_partial [MeasurableSpace X] (law : Measure X) [IsProbabilityMeasure law] (m : ℝ × X → ℝ) (hm : Increasing m) (se det : ℝ) :
    (Monotone fun a => exceedanceNoise law (fun x => m (a, x)) (fun _ => se) det) ∧ Monotone fun a => exceedance law (fun x => m (a, x)) det := by
  constructor
  · intro a b hab
    refine measureReal_mono (fun p (hp : det < m (a, p.1) + se * p.2) => ?_)
    exact hp.trans_le (add_le_add (hm p.1 hab) le_rfl)
  · intro a b hab
    exact measureReal_mono fun x (hx : det < m (a, x)) => hx.trans_le (hm x hab)

theorem gauss_half (t : ℝ) : 0 < gaussianReal 0 1 (Set.Ioi t) ∧ 0 < gaussianReal 0 1 (Set.Iio t) := by
  have h : ∀ s : Set ℝ, volume s ≠ 0 → 0 < gaussianReal 0 1 s := fun s hs => by
    rw [pos_iff_ne_zero]
    intro h0
    exact hs ((gaussianReal_absolutelyContinuous' 0 one_ne_zero) h0)
  exact ⟨h _ (by simp), h _ (by simp)⟩

/-- **C215 is violated by the chaos.**  The noise is drawn anew for each defect size: for every metamodel, every sample of the parameters and all defect
sizes `a < b` of the curve, when the residual deviation is positive, the POD curve is 1 at `a` and 0 at `b` with positive probability. -/
theorem C215_violated_chaos {U : Type} (c : ChaosSetup X U) (h0 : 0 < c.stderr) (xs : List X) (hx : xs ≠ []) (hw : xs.length = c.samplingSize)
    (sims : List (List ℝ × ChaosDraws X)) (s : SimAttrs) (hs : s.sizes.Pairwise (· < ·)) (hnum : s.number = s.sizes.length) (i j : ℕ)
    (hij : i < j) (hj : j < s.sizes.length) :
    0 < Measure.pi (fun _ : Fin (xs.length * s.sizes.length) => gaussianReal 0 1)
      {z | ∃ f, (chaosRunSim c ⟨xs, List.ofFn z⟩ sims s).2.curve = some f ∧ f (s.sizes.getD i 0) = .ok 1 ∧ f (s.sizes.getD j 0) = .ok 0} := by
  set N := xs.length with hN
  have hNpos : 0 < N := List.length_pos_iff.mpr hx
  let g : ℝ → X → ℝ := fun d x => chaosFunction c.transformation c.basis c.coefs (d, x)
  obtain ⟨B, hB⟩ : ∃ B : ℝ, ∀ x ∈ xs, |(c.detection - g (s.sizes.getD i 0) x) / c.stderr| < B ∧ |(c.detection - g (s.sizes.getD j 0) x) / c.stderr| < B := by
    clear hx hw hNpos hN
    clear_value N
    induction xs with
    | nil => exact ⟨0, by simp⟩
    | cons x xs ih =>
      obtain ⟨B, hB⟩ := ih
      refine ⟨max B (max (|(c.detection - g (s.sizes.getD i 0) x) / c.stderr|) (|(c.detection - g (s.sizes.getD j 0) x) / c.stderr|) + 1), ?_⟩
      intro y hy
      rcases List.mem_cons.mp hy with rfl | hy
      · constructor
        · refine lt_of_lt_of_le ?_ (le_max_right _ _)
          exact lt_of_le_of_lt (le_max_left _ _) (lt_add_one _)
        · refine lt_of_lt_of_le ?_ (le_max_right _ _)
          exact lt_of_le_of_lt (le_max_right _ _) (lt_add_one _)
      · exact ⟨(hB y hy).1.trans_le (le_max_left _ _), (hB y hy).2.trans_le (le_max_left _ _)⟩
  let box : Fin (N * s.sizes.length) → Set ℝ := fun k => if k.1 / N = i then Set.Ioi B else Set.Iio (-B)
  have hbox : 0 < Measure.pi (fun _ : Fin (N * s.sizes.length) => gaussianReal 0 1) (Set.univ.pi box) := by
    rw [Measure.pi_pi, pos_iff_ne_zero, Finset.prod_ne_zero_iff]
    intro k _
    simp only [box]
    split
    · exact (gauss_half B).1.ne'
    · exact (gauss_half (-B)).2.ne'
  refine hbox.trans_le (measure_mono fun z hz => ?_)
  have hz' : ∀ k, z k ∈ box k := fun k => hz k (Set.mem_univ k)
  have hne : s.sizes ≠ [] := by
    rintro h
    rw [h] at hj
    simp at hj
  have hrow : chaosPodRow c s.number s.sizes c.coefs ⟨xs, List.ofFn z⟩ = s.sizes.mapIdx fun q d =>
      ((xs.mapIdx fun k x => g d x + ((List.ofFn z).map (· * c.stderr)).getD (xs.length * q + k) 0).countP
        (fun y => decide (c.detection < y)) : ℝ) / xs.length := by
    rw [chaosPodRow, ← hw, hnum]
    exact C36_chaos_layout _ _ _ _ _ _ (by simp [hN])
  have hnoise : ∀ q k, q < s.sizes.length → k < N → ∃ v, ((List.ofFn z).map (· * c.stderr)).getD (N * q + k) 0 = v * c.stderr ∧
      (q = i → B < v) ∧ (q ≠ i → v < -B) := by
    intro q k hq hk
    have hlt : N * q + k < N * s.sizes.length := by
      calc N * q + k < N * q + N := by omega
        _ = N * (q + 1) := by ring
        _ ≤ N * s.sizes.length := Nat.mul_le_mul_left _ hq
    have hdiv : (N * q + k) / N = q := by
      rw [Nat.mul_add_div hNpos, Nat.div_eq_of_lt hk, add_zero]
    refine ⟨z ⟨N * q + k, hlt⟩, ?_, ?_, ?_⟩
    · rw [List.getD_eq_getElem _ _ (by simpa using hlt)]
      simp
    · intro h
      have := hz' ⟨N * q + k, hlt⟩
      simp only [box, hdiv, if_pos h] at this
      exact this
    · intro h
      have := hz' ⟨N * q + k, hlt⟩
      simp only [box, hdiv, if_neg h] at this
      exact this
  obtain ⟨f, hf, -, hnode, -⟩ := interp1d_spec s.sizes (chaosPodRow c s.number s.sizes c.coefs ⟨xs, List.ofFn z⟩) (by rw [hrow]; simp) hne hs
  refine ⟨f, ?_, ?_, ?_⟩
  · rw [chaosRunSim, if_neg (by omega), hf]
  · have hi : i < s.sizes.length := by omega
    rw [hnode i hi, hrow, List.getD_eq_getElem _ _ (by simpa using hi), List.getElem_mapIdx]
    congr 1
    rw [List.countP_eq_length.mpr, List.length_mapIdx, div_self (by rw [← hN]; exact_mod_cast hNpos.ne')]
    intro y hy
    obtain ⟨k, hk, rfl⟩ := List.mem_iff_getElem.mp hy
    rw [List.length_mapIdx] at hk
    rw [List.getElem_mapIdx, decide_eq_true_eq]
    obtain ⟨v, hv, h1, -⟩ := hnoise i k hi hk
    have hv' : ((List.ofFn z).map (· * c.stderr)).getD (xs.length * i + k) 0 = v * c.stderr := hv
    rw [hv']
    have hb := (hB xs[k] (List.getElem_mem hk)).1
    rw [List.getD_eq_getElem _ _ hi] at hb
    have := (abs_lt.mp hb).2.trans (h1 rfl)
    rw [div_lt_iff₀ h0] at this
    linarith
  · rw [hnode j hj, hrow, List.getD_eq_getElem _ _ (by simpa using hj), List.getElem_mapIdx]
    congr 1
    rw [List.countP_eq_zero.mpr]
    · simp
    intro y hy
    obtain ⟨k, hk, rfl⟩ := List.mem_iff_getElem.mp hy
    rw [List.length_mapIdx] at hk
    rw [List.getElem_mapIdx, decide_eq_true_eq, not_lt]
    obtain ⟨v, hv, -, h1⟩ := hnoise j k hj hk
    have hv' : ((List.ofFn z).map (· * c.stderr)).getD (xs.length * j + k) 0 = v * c.stderr := hv
    rw [hv']
    have hb := (hB xs[k] (List.getElem_mem hk)).2
    rw [List.getD_eq_getElem _ _ hj] at hb
    have := (h1 hij.ne').trans (abs_lt.mp hb).1
    rw [lt_div_iff₀ h0] at this
    linarith

/-- A trajectory above the threshold at every point gives the law concentrated at one, a trajectory not above it the law concentrated at zero. -/
theorem podLaw_const (det : ℝ) (t : List ℝ) (ht : t ≠ []) :
    ((∀ y ∈ t, det < y) → podLaw det t = .dirac 1) ∧ ((∀ y ∈ t, y ≤ det) → podLaw det t = .dirac 0) := by
  have hl : (t.length : ℝ) ≠ 0 := by exact_mod_cast (List.length_pos_iff.mpr ht).ne'
  constructor
  · intro h
    have : fracAbove det t = 1 := by
      rw [fracAbove, List.countP_eq_length.mpr (fun y hy => by simpa using h y hy), div_self hl]
    simp [podLaw, this]
  · intro h
    have : fracAbove det t = 0 := by
      rw [fracAbove, List.countP_eq_zero.mpr (fun y hy => by simpa using h y hy)]
      simp
    simp [podLaw, this]

/-- The mean of the simulated values when all trajectories lie on one side. -/
theorem podSample_const (mean variance : ℝ × X → ℝ) (det a : ℝ) (w : KrigDraws X) (hx : w.xs ≠ []) (hm : w.mix ≠ []) (hmix : ∀ q ∈ w.mix, q.1 < w.xi.length) :
    ((∀ x ∈ w.xs, ∀ z ∈ w.xi, det < z * Real.sqrt (variance (a, x)) + mean (a, x)) → listMean (podSamplePerDefect mean variance det a w) = 1) ∧
    ((∀ x ∈ w.xs, ∀ z ∈ w.xi, z * Real.sqrt (variance (a, x)) + mean (a, x) ≤ det) → listMean (podSamplePerDefect mean variance det a w) = 0) := by
  have hl : (w.mix.length : ℝ) ≠ 0 := by exact_mod_cast (List.length_pos_iff.mpr hm).ne'
  have key : ∀ v : ℝ, (∀ z ∈ w.xi, podLaw det (krigTrajectory mean variance a w.xs z) = .dirac v) →
      listMean (podSamplePerDefect mean variance det a w) = v := by
    intro v hv
    have : podSamplePerDefect mean variance det a w = w.mix.map fun _ => v := by
      unfold podSamplePerDefect
      dsimp only
      refine List.map_congr_left fun q hq => ?_
      rw [List.getD_eq_getElem _ _ (by simpa using hmix q hq), List.getElem_map, hv _ (List.getElem_mem _)]
      rfl
    rw [this, listMean, List.map_const', List.sum_replicate, List.length_replicate, nsmul_eq_mul]
    field_simp
  have hne : ∀ z, krigTrajectory mean variance a w.xs z ≠ [] := by
    intro z
    simpa [krigTrajectory, mergeDefectInX] using hx
  constructor
  · intro h
    refine key 1 fun z hz => (podLaw_const det _ (hne z)).1 ?_
    simp only [krigTrajectory, mergeDefectInX, List.map_map, List.mem_map, Function.comp_apply, forall_exists_index, and_imp, forall_apply_eq_imp_iff₂]
    exact fun x hx => h x hx z hz
  · intro h
    refine key 0 fun z hz => (podLaw_const det _ (hne z)).2 ?_
    simp only [krigTrajectory, mergeDefectInX, List.map_map, List.mem_map, Function.comp_apply, forall_exists_index, and_imp, forall_apply_eq_imp_iff₂]
    exact fun x hx => h x hx z hz

/-- With positive probability all trajectories lie above the threshold, when the mean does with positive probability. -/
theorem krig_side [MeasurableSpace X] (law : Measure X) [IsProbabilityMeasure law] (m s : X → ℝ) (hs : ∀ x, 0 ≤ s x) (n k : ℕ) (h : 0 < law {x | 0 < m x}) :
    0 < ((Measure.pi fun _ : Fin n => law).prod (Measure.pi fun _ : Fin k => gaussianReal 0 1)) {p | ∀ i l, |p.2 l * s (p.1 i)| < m (p.1 i)} := by
  obtain ⟨q, hq⟩ : ∃ q : ℕ, 0 < law {x | s x / (q + 1 : ℝ) < m x} := by
    by_contra hc
    push Not at hc
    have hz : law (⋃ q : ℕ, {x | s x / (q + 1 : ℝ) < m x}) = 0 := measure_iUnion_null fun q => le_antisymm (hc q) zero_le
    refine h.ne' (measure_mono_null (fun x (hx : 0 < m x) => ?_) hz)
    obtain ⟨q, hq⟩ := exists_nat_gt (s x / m x)
    refine Set.mem_iUnion.mpr ⟨q, ?_⟩
    rw [Set.mem_setOf_eq, div_lt_iff₀ (by positivity)]
    rw [div_lt_iff₀ hx] at hq
    nlinarith
  have hpos : (0 : ℝ) < 1 / (q + 1 : ℝ) := by positivity
  have hg : 0 < gaussianReal 0 1 (Set.Ioo (-(1 / (q + 1 : ℝ))) (1 / (q + 1 : ℝ))) := by
    rw [pos_iff_ne_zero]
    intro h0
    have := (gaussianReal_absolutelyContinuous' 0 one_ne_zero) h0
    rw [Real.volume_Ioo, ENNReal.ofReal_eq_zero] at this
    linarith
  have hbox : 0 < ((Measure.pi fun _ : Fin n => law).prod (Measure.pi fun _ : Fin k => gaussianReal 0 1))
      ((Set.univ.pi fun _ => {x | s x / (q + 1 : ℝ) < m x}) ×ˢ (Set.univ.pi fun _ => Set.Ioo (-(1 / (q + 1 : ℝ))) (1 / (q + 1 : ℝ)))) := by
    rw [Measure.prod_prod, Measure.pi_pi, Measure.pi_pi, pos_iff_ne_zero, mul_ne_zero_iff, Finset.prod_ne_zero_iff, Finset.prod_ne_zero_iff]
    exact ⟨fun _ _ => hq.ne', fun _ _ => hg.ne'⟩
  refine hbox.trans_le (measure_mono fun p hp i l => ?_)
  have h1 : s (p.1 i) / (q + 1 : ℝ) < m (p.1 i) := hp.1 i (Set.mem_univ i)
  have h2 : |p.2 l| < 1 / (q + 1 : ℝ) := abs_lt.mpr (hp.2 l (Set.mem_univ l))
  rw [abs_mul, abs_of_nonneg (hs (p.1 i))]
  calc |p.2 l| * s (p.1 i) ≤ 1 / (q + 1 : ℝ) * s (p.1 i) := mul_le_mul_of_nonneg_right h2.le (hs _)
    _ = s (p.1 i) / (q + 1 : ℝ) := by ring
    _ < m (p.1 i) := h1

/-- **C215 is violated by kriging.**  The other parameters are drawn anew for each defect size: for every mean and variance, all defect sizes `a < b`
of the curve and all simulation sizes, if the predicted signal is above the threshold for some parameters at `a` and below for some at `b` (each with
positive probability), the POD curve is 1 at `a` and 0 at `b` with positive probability over the draws for `a` and `b`. -/
theorem C215_violated_kriging [MeasurableSpace X] (law : Measure X) [IsProbabilityMeasure law] (mean variance : ℝ × X → ℝ) (det : ℝ) (s : SimAttrs)
    (hs : s.sizes.Pairwise (· < ·)) (hnum : s.number = s.sizes.length) (i j : ℕ) (hij : i < j) (hj : j < s.sizes.length) (n k rows : ℕ) (hn : 0 < n)
    (mix : List (ℕ × ℝ)) (hm : mix ≠ []) (hmix : ∀ q ∈ mix, q.1 < k) (other : ℕ → KrigDraws X)
    (ha : 0 < law {x | det < mean (s.sizes.getD i 0, x)}) (hb : 0 < law {x | mean (s.sizes.getD j 0, x) < det}) :
    let draws := (Measure.pi fun _ : Fin n => law).prod (Measure.pi fun _ : Fin k => gaussianReal 0 1)
    0 < (draws.prod draws) {p | ∃ f, (krigingRunSim rows (fun q a => podSamplePerDefect mean variance det a
        (if q = i then ⟨List.ofFn p.1.1, List.ofFn p.1.2, mix⟩ else if q = j then ⟨List.ofFn p.2.1, List.ofFn p.2.2, mix⟩ else other q)) s).2.curve = some f ∧
      f (s.sizes.getD i 0) = .ok 1 ∧ f (s.sizes.getD j 0) = .ok 0} := by
  intro draws
  have h1 := krig_side law (fun x => mean (s.sizes.getD i 0, x) - det) (fun x => Real.sqrt (variance (s.sizes.getD i 0, x)))
    (fun x => Real.sqrt_nonneg _) n k (by simpa using ha)
  have h2 := krig_side law (fun x => det - mean (s.sizes.getD j 0, x)) (fun x => Real.sqrt (variance (s.sizes.getD j 0, x)))
    (fun x => Real.sqrt_nonneg _) n k (by simpa using hb)
  have hbox := ENNReal.mul_pos h1.ne' h2.ne'
  rw [← Measure.prod_prod] at hbox
  refine hbox.trans_le (measure_mono fun p hp => ?_)
  obtain ⟨hp1, hp2⟩ := hp
  have hne : s.sizes ≠ [] := by
    rintro h
    rw [h] at hj
    simp at hj
  have hi : i < s.sizes.length := by omega
  have hofn : ∀ v : Fin n → X, List.ofFn v ≠ [] := by
    intro v h
    have := congrArg List.length h
    simp at this
    omega
  have hrun : (krigingRunSim rows (fun q a => podSamplePerDefect mean variance det a
        (if q = i then ⟨List.ofFn p.1.1, List.ofFn p.1.2, mix⟩ else if q = j then ⟨List.ofFn p.2.1, List.ofFn p.2.2, mix⟩ else other q)) s).1 = .ok () := by
    unfold krigingRunSim
    dsimp only
    rw [if_neg (by omega), interp1d, if_pos (by simp [hnum])]
  obtain ⟨f, hf, hnode, -⟩ := C34_pod_curve rows _ s hne hs hrun
  refine ⟨f, hf, ?_, ?_⟩
  · rw [hnode i hi]
    dsimp only
    rw [if_pos rfl]
    congr 1
    refine (podSample_const mean variance det _ _ (hofn _) hm (by simpa using hmix)).1 ?_
    intro x hx z hz
    obtain ⟨q, rfl⟩ := (List.mem_ofFn' _ _).mp hx
    obtain ⟨l, rfl⟩ := (List.mem_ofFn' _ _).mp hz
    have := (abs_lt.mp (hp1 q l)).1
    linarith
  · rw [hnode j hj]
    dsimp only
    rw [if_neg hij.ne', if_pos rfl]
    congr 1
    refine (podSample_const mean variance det _ _ (hofn _) hm (by simpa using hmix)).2 ?_
    intro x hx z hz
    obtain ⟨q, rfl⟩ := (List.mem_ofFn' _ _).mp hx
    obtain ⟨l, rfl⟩ := (List.mem_ofFn' _ _).mp hz
    have := (abs_lt.mp (hp2 q l)).2
    linarith

/-- A classifier that increases with the defect, three sizes, two simulated parameters. -/
example : ∃ f g, (hitMissRunSim (0, (0 : ℝ)) (fun p => min 1 (max 0 ((p.1 + p.2) / 10))) [1, 3] { sizes := [2, 4, 9], number := 3 }).2.curve = some f ∧
    getPODCLModel (hitMissRunSim (0, (0 : ℝ)) (fun p => min 1 (max 0 ((p.1 + p.2) / 10))) [1, 3] { sizes := [2, 4, 9], number := 3 }).2 (95 / 100) = .ok g ∧
      NonDecreasing f ∧ NonDecreasing g := by
  refine C215_hitmiss_partial _ _ (fun x a b hab => ?_) _ _ (by simp) (by norm_num) rfl _
  dsimp only
  gcongr

/-- A chaos linear in the defect: with residual deviation 1 the curve decreases with positive probability, with deviation 0 it does not decrease. -/
example :
    let c : ℝ → ChaosSetup ℝ (ℝ × ℝ) := fun se => ⟨(0, 0), id, [fun p => p.1, fun p => p.2], [1, 1], se, 2, 5⟩
    (∃ f, (chaosRunSim (c 0) ⟨[1, 3], [0, 1, 2, 3]⟩ [] { sizes := [2, 4], number := 2 }).2.curve = some f ∧ NonDecreasing f) ∧
    0 < Measure.pi (fun _ : Fin 4 => gaussianReal 0 1)
      {z | ∃ f, (chaosRunSim (c 1) ⟨[1, 3], List.ofFn z⟩ [] { sizes := [2, 4], number := 2 }).2.curve = some f ∧ f 2 = .ok 1 ∧ f 4 = .ok 0} := by
  intro c
  constructor
  · refine C215_chaos_exact_partial (c 0) (fun x a b hab => ?_) rfl _ rfl _ _ (by simp) (by norm_num) rfl rfl
    simp [c, chaosFunction, hab]
  · exact C215_violated_chaos (c 1) one_pos [1, 3] (by simp) rfl [] { sizes := [2, 4], number := 2 } (by norm_num) rfl 0 1 one_pos (by simp)

/-- Kriging with mean `a + x`, `x` standard normal, one point and one trajectory per size. -/
example : let draws := (Measure.pi fun _ : Fin 1 => gaussianReal 0 1).prod (Measure.pi fun _ : Fin 1 => gaussianReal 0 1)
    0 < (draws.prod draws) {p | ∃ f, (krigingRunSim 1 (fun q a => podSamplePerDefect (fun p => p.1 + p.2) (fun _ => 1) 5 a
        (if q = 0 then ⟨List.ofFn p.1.1, List.ofFn p.1.2, [(0, 0)]⟩ else if q = 1 then ⟨List.ofFn p.2.1, List.ofFn p.2.2, [(0, 0)]⟩ else ⟨[], [], []⟩))
        { sizes := [2, 4], number := 2 }).2.curve = some f ∧ f 2 = .ok 1 ∧ f 4 = .ok 0} := by
  refine C215_violated_kriging (gaussianReal 0 1) (fun p => p.1 + p.2) (fun _ => 1) 5 { sizes := [2, 4], number := 2 } (by norm_num) rfl 0 1 one_pos
    (by simp) 1 1 1 one_pos [(0, 0)] (by simp) (by simp) (fun _ => ⟨[], [], []⟩) ?_ ?_
  · refine (gauss_half 3).1.trans_le (measure_mono fun x (hx : 3 < x) => ?_)
    simp only [List.getD_cons_zero, Set.mem_setOf_eq]
    linarith
  · refine (gauss_half 1).2.trans_le (measure_mono fun x (hx : x < 1) => ?_)
    simp only [List.getD_cons_succ, List.getD_cons_zero, Set.mem_setOf_eq]
    linarith

end Verif.Props
