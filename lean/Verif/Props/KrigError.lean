import Verif.Props.KrigRandom
import Verif.Props.MetamodelError
import Verif.Props.MonteCarlo
import Verif.Props.KrigCurveUnits

/-!
# C229: an error of the kriging model acts like a change of the detection threshold
-/

namespace Verif.Props
open Verif.Py Verif.Model MeasureTheory

variable {X : Type}

/-- A trajectory is within `e + Z v` of the signal. -/
theorem traj_near {m g var z e v Z : ℝ} (hm : |m - g| ≤ e) (hv : Real.sqrt var ≤ v) (hz : |z| ≤ Z) :
    |z * Real.sqrt var + m - g| ≤ e + Z * v := by
  have h0 := Real.sqrt_nonneg var
  have h1 : |z * Real.sqrt var| ≤ Z * v := by
    rw [abs_mul, abs_of_nonneg h0]
    exact mul_le_mul hz hv h0 ((abs_nonneg z).trans hz)
  calc |z * Real.sqrt var + m - g| = |z * Real.sqrt var + (m - g)| := by rw [add_sub_assoc]
    _ ≤ |z * Real.sqrt var| + |m - g| := abs_add_le _ _
    _ ≤ e + Z * v := by linarith

theorem mapIdx_const_fun {Y : Type} (l : List X) (u : X → Y) : (l.mapIdx fun _ => u) = l.map u := by
  refine List.ext_getElem (by simp) fun j h1 h2 => ?_
  simp

/-- Shares of the values above thresholds are ordered when the distances to the thresholds are. -/
theorem frac_shift (l : List X) (u v : X → ℝ) (τ σ : ℝ) (h : ∀ x ∈ l, u x - τ ≤ v x - σ) : fracAbove τ (l.map u) ≤ fracAbove σ (l.map v) := by
  rw [fracAbove, fracAbove, List.length_map, List.length_map]
  refine div_le_div_of_nonneg_right ?_ (Nat.cast_nonneg _)
  have := countP_shift l (fun _ => u) (fun _ => v) τ σ fun _ x hx => h x hx
  simp only [mapIdx_const_fun] at this
  exact_mod_cast this

/-- Shares above one threshold differ at most by the share of values near it. -/
theorem frac_near (l : List X) (u v : X → ℝ) (τ η : ℝ) (h : ∀ x ∈ l, |u x - v x| ≤ η) :
    |fracAbove τ (l.map u) - fracAbove τ (l.map v)| ≤ ((l.countP fun x => decide (|v x - τ| ≤ η) : ℕ) : ℝ) / l.length := by
  rw [fracAbove, fracAbove, List.length_map, List.length_map, ← sub_div, abs_div, abs_of_nonneg (Nat.cast_nonneg l.length : (0 : ℝ) ≤ l.length)]
  refine div_le_div_of_nonneg_right ?_ (Nat.cast_nonneg _)
  have := countP_near l (fun _ => u) (fun _ => v) τ η fun _ x hx => h x hx
  simp only [mapIdx_const_fun] at this
  refine this.trans (le_of_eq ?_)
  rw [List.countP_map]
  rfl

/-- **C229, threshold.**  At a defect size let the mean of the kriging model be within `e` of the signal `g` and its standard deviation at most `v` at the
drawn parameters, and the normal deviates of the trajectories at most `Z`.  The expectation of the values drawn for the POD lies between the shares of
the drawn parameters whose signal exceeds `detection + (e + Z v)` and `detection - (e + Z v)`. -/
theorem C229_threshold (mean variance g : ℝ × X → ℝ) (det a e v Z : ℝ) (xs : List X) (hx : xs ≠ []) {n : ℕ} (hn : n ≠ 0) (xi : Fin n → ℝ)
    (hm : ∀ x ∈ xs, |mean (a, x) - g (a, x)| ≤ e) (hv : ∀ x ∈ xs, Real.sqrt (variance (a, x)) ≤ v) (hz : ∀ i, |xi i| ≤ Z) :
    let podMean := ∫ p, p ∂(mixtureLaw fun i => podLaw det (krigTrajectory mean variance a xs (xi i)))
    let share τ := fracAbove τ (xs.map fun x => g (a, x))
    share (det + (e + Z * v)) ≤ podMean ∧ podMean ≤ share (det - (e + Z * v)) := by
  intro podMean share
  have hne : ∀ i, krigTrajectory mean variance a xs (xi i) ≠ [] := fun i => by simpa [krigTrajectory, mergeDefectInX] using hx
  have hval : podMean = (∑ i, fracAbove det (krigTrajectory mean variance a xs (xi i))) / n := (C37_mixture_mean_partial det hn _ hne).2.1
  have hn' : (0 : ℝ) < n := by exact_mod_cast Nat.pos_of_ne_zero hn
  have htr : ∀ i, krigTrajectory mean variance a xs (xi i) = xs.map fun x => xi i * Real.sqrt (variance (a, x)) + mean (a, x) := by
    intro i
    simp [krigTrajectory, mergeDefectInX]
  have hb : ∀ i, share (det + (e + Z * v)) ≤ fracAbove det (krigTrajectory mean variance a xs (xi i)) ∧
      fracAbove det (krigTrajectory mean variance a xs (xi i)) ≤ share (det - (e + Z * v)) := by
    intro i
    rw [htr]
    constructor
    · refine frac_shift xs _ _ _ _ fun x hx' => ?_
      have := (abs_le.mp (traj_near (hm x hx') (hv x hx') (hz i))).1
      linarith
    · refine frac_shift xs _ _ _ _ fun x hx' => ?_
      have := (abs_le.mp (traj_near (hm x hx') (hv x hx') (hz i))).2
      linarith
  rw [hval, le_div_iff₀ hn', div_le_iff₀ hn']
  constructor
  · calc share (det + (e + Z * v)) * n = ∑ _i : Fin n, share (det + (e + Z * v)) := by simp [mul_comm]
      _ ≤ _ := Finset.sum_le_sum fun i _ => (hb i).1
  · calc _ ≤ ∑ _i : Fin n, share (det - (e + Z * v)) := Finset.sum_le_sum fun i _ => (hb i).2
      _ = share (det - (e + Z * v)) * n := by simp [mul_comm]

/-- **C229, distance.**  The same expectation differs from the share of the drawn parameters whose signal exceeds the threshold by at most the share of those
whose signal is within `e + Z v` of it. -/
theorem C229_near (mean variance g : ℝ × X → ℝ) (det a e v Z : ℝ) (xs : List X) (hx : xs ≠ []) {n : ℕ} (hn : n ≠ 0) (xi : Fin n → ℝ)
    (hm : ∀ x ∈ xs, |mean (a, x) - g (a, x)| ≤ e) (hv : ∀ x ∈ xs, Real.sqrt (variance (a, x)) ≤ v) (hz : ∀ i, |xi i| ≤ Z) :
    |∫ p, p ∂(mixtureLaw fun i => podLaw det (krigTrajectory mean variance a xs (xi i))) -
        ((xs.countP fun x => decide (det < g (a, x)) : ℕ) : ℝ) / xs.length|
      ≤ ((xs.countP fun x => decide (|g (a, x) - det| ≤ e + Z * v) : ℕ) : ℝ) / xs.length := by
  have hne : ∀ i, krigTrajectory mean variance a xs (xi i) ≠ [] := fun i => by simpa [krigTrajectory, mergeDefectInX] using hx
  rw [(C37_mixture_mean_partial det hn _ hne).2.1]
  have hn' : (0 : ℝ) < n := by exact_mod_cast Nat.pos_of_ne_zero hn
  have htr : ∀ i, krigTrajectory mean variance a xs (xi i) = xs.map fun x => xi i * Real.sqrt (variance (a, x)) + mean (a, x) := by
    intro i
    simp [krigTrajectory, mergeDefectInX]
  have hshare : ((xs.countP fun x => decide (det < g (a, x)) : ℕ) : ℝ) / xs.length = fracAbove det (xs.map fun x => g (a, x)) := by
    rw [fracAbove, List.countP_map, List.length_map]
    rfl
  set B := ((xs.countP fun x => decide (|g (a, x) - det| ≤ e + Z * v) : ℕ) : ℝ) / xs.length
  have hb : ∀ i, |fracAbove det (krigTrajectory mean variance a xs (xi i)) - fracAbove det (xs.map fun x => g (a, x))| ≤ B := by
    intro i
    rw [htr]
    exact frac_near xs _ _ det _ fun x hx' => traj_near (hm x hx') (hv x hx') (hz i)
  have hrew : (∑ i, fracAbove det (krigTrajectory mean variance a xs (xi i))) / n - fracAbove det (xs.map fun x => g (a, x)) =
      (∑ i, (fracAbove det (krigTrajectory mean variance a xs (xi i)) - fracAbove det (xs.map fun x => g (a, x)))) / n := by
    rw [Finset.sum_sub_distrib, sub_div]
    simp only [Finset.sum_const, Finset.card_univ, Fintype.card_fin, nsmul_eq_mul]
    rw [mul_div_cancel_left₀ _ hn'.ne']
  rw [hshare, hrew, abs_div, abs_of_pos hn', div_le_iff₀ hn']
  calc _ ≤ ∑ i, |fracAbove det (krigTrajectory mean variance a xs (xi i)) - fracAbove det (xs.map fun x => g (a, x))| := Finset.abs_sum_le_sum_abs _ _
    _ ≤ ∑ _i : Fin n, B := Finset.sum_le_sum fun i _ => hb i
    _ = B * n := by simp [mul_comm]

/-- **C229, far from the threshold.**  If at each requested size the signal of each drawn parameter is further from the threshold than the error
`e + Z v` of the trajectories, the run leaves the same object as a run in which the signal itself replaces the kriging model, with the same draws: same
curves, same POD values of each size. -/
theorem C229_run {n q d : ℕ} (k : (Fin (d + 1) → ℝ) → (Fin (d + 1) → ℝ) → ℝ) (f : (Fin (d + 1) → ℝ) → Fin q → ℝ)
    (sample : Fin n → Fin (d + 1) → ℝ) (y : Fin n → ℝ) (g : (Fin (d + 1) → ℝ) → ℝ) (det e v Z : ℝ) (rows : ℕ) (w : ℕ → KrigDraws (Fin d → ℝ))
    (s : SimAttrs)
    (h : ∀ i < s.sizes.length, (∀ z ∈ (w i).xi, |z| ≤ Z) ∧ ∀ x ∈ (w i).xs, let p := fullPoint (s.sizes.getD i 0, x)
      |designMean k f sample y p - g p| ≤ e ∧ Real.sqrt (designVar k f sample p) ≤ v ∧ e + Z * v < |g p - det|) :
    krigingDesignRun k f sample y det rows w s =
      krigingRunSim rows (fun i a => podSamplePerDefect (fun p => g (fullPoint p)) (fun _ => 0) det a (w i)) s := by
  refine krigingRunSim_congr _ _ _ _ fun i hi => ?_
  obtain ⟨hz, hx⟩ := h i hi
  unfold podSamplePerDefect
  rw [List.map_congr_left fun z hz' => podLaw_congr _ _ _ _ _ _ _ _ fun x hx' => ?_]
  obtain ⟨h1, h2, h3⟩ := hx x hx'
  have h4 := abs_le.mp (traj_near h1 h2 (hz z hz'))
  rw [Real.sqrt_zero, mul_zero, zero_add]
  rcases lt_abs.mp h3 with h5 | h5 <;> constructor <;> intro <;> linarith [h4.1, h4.2]

/-- The mean `2 a` with deviation at most 1/10 for the signal `2 a + 1/10`: the hypotheses of the first two theorems at the size 1, deviates 1 and -1. -/
example : let mean : ℝ × Unit → ℝ := fun p => 2 * p.1
    let g : ℝ × Unit → ℝ := fun p => 2 * p.1 + 1 / 10
    (∀ x ∈ [()], |mean (1, x) - g (1, x)| ≤ 1 / 10) ∧ (∀ x ∈ [()], Real.sqrt ((fun _ => 1 / 100 : ℝ × Unit → ℝ) (1, x)) ≤ 1 / 10) ∧
    (∀ i, |(![1, -1] : Fin 2 → ℝ) i| ≤ 1) := by
  refine ⟨fun x _ => ?_, fun x _ => ?_, fun i => ?_⟩
  · rw [abs_le]
    constructor <;> norm_num
  · rw [Real.sqrt_le_left (by norm_num)]
    norm_num
  · fin_cases i <;> simp

/-- The hypotheses of `C229_run` at the two observed sizes of a design with the signals 0 and 1, threshold 1/2, any draws of deviates below 3. -/
example (w : ℕ → KrigDraws (Fin 0 → ℝ)) (hw : ∀ i, ∀ z ∈ (w i).xi, |z| ≤ 3) (s : SimAttrs) (hs : s.sizes = [0, 1]) :
    let sample : Fin 2 → Fin 1 → ℝ := ![![0], ![1]]
    let r : (Fin 1 → ℝ) → (Fin 1 → ℝ) → ℝ := fun u v => if u 0 = v 0 then 1 else 0
    krigingDesignRun r constTrend sample ![0, 1] (1 / 2) 10 w s =
      krigingRunSim 10 (fun i a => podSamplePerDefect (fun p => fullPoint p 0) (fun _ => 0) (1 / 2) a (w i)) s := by
  intro sample r
  have hS := krig_two_design.2.2.1
  have hr : ∀ x y, r x y = r y x := fun x y => by simp [r, eq_comm]
  have hmean := C161_interpolates r hr constTrend (fun i => normalise sample (sample i)) ![0, 1] hS
  have hvar := C161_variance r constTrend (fun i => normalise sample (sample i)) hS
  have key : ∀ (j : Fin 2) (a : ℝ) (x : Fin 0 → ℝ), sample j = fullPoint (a, x) → (![0, 1] : Fin 2 → ℝ) j = a → 0 < |a - 1 / 2| →
      |designMean r constTrend sample ![0, 1] (fullPoint (a, x)) - fullPoint (a, x) 0| ≤ 0 ∧
        Real.sqrt (designVar r constTrend sample (fullPoint (a, x))) ≤ 0 ∧ 0 + 3 * 0 < |fullPoint (a, x) 0 - 1 / 2| := by
    intro j a x h1 h2 h3
    have h4 : fullPoint (a, x) 0 = a := rfl
    rw [designMean, designVar, ← h1, hmean j, hvar j, h1, h4, h2]
    simpa using h3
  refine C229_run r constTrend sample ![0, 1] (fun p => p 0) (1 / 2) 0 0 3 10 w s fun i hi => ⟨hw i, fun x _ => ?_⟩
  rw [hs] at hi ⊢
  have hpt : ∀ (a : ℝ) (u : Fin 1 → ℝ), u 0 = a → u = fullPoint (a, x) := by
    intro a u hu
    funext j
    rw [Subsingleton.elim j 0, hu]
    rfl
  match i, hi with
  | 0, _ => exact key 0 0 x (hpt 0 _ rfl) rfl (by norm_num)
  | 1, _ => exact key 1 1 x (hpt 1 _ rfl) rfl (by norm_num [abs_of_pos])

end Verif.Props
