import Verif.Model.PliDraw
import Verif.Props.Base
import Verif.Props.Metamodel
import Verif.Py.Gauss

/-!
# C97–C99: confidence intervals and figures of the perturbation law indices
-/

namespace Verif.Props
open Verif.Py Verif.Model MeasureTheory ProbabilityTheory Set

/-! ## C97 -/

/-- Contract of `computeBilateralConfidenceInterval` for a normal law: the two tails have the same probability. -/
def BilateralSpec (bilateral : ℝ × ℝ → ℝ → ℝ × ℝ) : Prop :=
  ∀ m s l, 0 < s → 0 < l → l < 1 →
    (gaussianReal m (sqv s)).real (Iic (bilateral (m, s) l).1) = (1 - l) / 2 ∧
    (gaussianReal m (sqv s)).real (Ioi (bilateral (m, s) l).2) = (1 - l) / 2

theorem Phi_continuous : Continuous Phi := by
  rw [continuous_iff_continuousAt]
  intro x
  have hm : Monotone (cdf (gaussianReal 0 1)) := monotone_cdf _
  have h0 : gaussianReal 0 1 {x} = 0 := by
    have := nullSingletonClass_gaussianReal (μ := 0) (v := 1) one_ne_zero
    exact measure_singleton x
  have h1 : (cdf (gaussianReal 0 1)).measure {x} = 0 := by rw [measure_cdf]; exact h0
  rw [StieltjesFunction.measure_singleton, ENNReal.ofReal_eq_zero] at h1
  have h2 := hm.leftLim_le (le_refl x)
  have h3 : Function.rightLim (cdf (gaussianReal 0 1)) x = cdf (gaussianReal 0 1) x := StieltjesFunction.rightLim_eq _ x
  have := hm.continuousAt_iff_leftLim_eq_rightLim.mpr (by rw [h3]; linarith : Function.leftLim (cdf (gaussianReal 0 1)) x = _)
  exact this

theorem Phi_surj {p : ℝ} (h0 : 0 < p) (h1 : p < 1) : ∃ z, Phi z = p := by
  have ha : ∃ a, Phi a < p := ((tendsto_cdf_atBot (gaussianReal 0 1)).eventually_lt_const h0).exists
  have hb : ∃ b, p < Phi b := ((tendsto_cdf_atTop (gaussianReal 0 1)).eventually_const_lt h1).exists
  obtain ⟨a, ha⟩ := ha
  obtain ⟨b, hb⟩ := hb
  exact mem_range_of_exists_le_of_exists_ge Phi_continuous ⟨a, ha.le⟩ ⟨b, hb.le⟩

theorem bilateralSpec_nonempty : ∃ b, BilateralSpec b := by
  have h : ∀ l : ℝ, ∃ z, 0 < l → l < 1 → Phi z = (1 + l) / 2 := by
    intro l
    by_cases hl : 0 < l ∧ l < 1
    · obtain ⟨z, hz⟩ := Phi_surj (p := (1 + l) / 2) (by linarith) (by linarith)
      exact ⟨z, fun _ _ => hz⟩
    · exact ⟨0, fun h0 h1 => absurd ⟨h0, h1⟩ hl⟩
  choose z hz using h
  refine ⟨fun ms l => (ms.1 - ms.2 * z l, ms.1 + ms.2 * z l), fun m s l hs h0 h1 => ⟨?_, ?_⟩⟩
  · rw [gauss_Iic hs, show (m - s * z l - m) / s = -z l by field_simp; ring, Phi_neg, hz l h0 h1]; ring
  · rw [gauss_Ioi hs, show (m + s * z l - m) / s = z l by field_simp; ring, hz l h0 h1]; ring

/-- Bounds of the interval in reduced coordinates. -/
theorem bilateral_bounds {b : ℝ × ℝ → ℝ → ℝ × ℝ} (hb : BilateralSpec b) {m s l : ℝ} (hs : 0 < s) (h0 : 0 < l) (h1 : l < 1) :
    ∃ z, 0 < z ∧ Phi z = (1 + l) / 2 ∧ b (m, s) l = (m - s * z, m + s * z) := by
  obtain ⟨h2, h3⟩ := hb m s l hs h0 h1
  rw [gauss_Iic hs] at h2
  rw [gauss_Ioi hs] at h3
  have hz : Phi (((b (m, s) l).2 - m) / s) = (1 + l) / 2 := by linarith
  refine ⟨((b (m, s) l).2 - m) / s, ?_, hz, ?_⟩
  · apply Phi_strictMono.lt_iff_lt.mp
    rw [Phi_zero, hz]; linarith
  · have h4 : ((b (m, s) l).1 - m) / s = -(((b (m, s) l).2 - m) / s) := by
      apply Phi_strictMono.injective
      rw [Phi_neg, h2, hz]; ring
    ext
    · simp only
      field_simp at h4 ⊢
      linarith
    · simp only
      field_simp
      ring

/-- **C97.**  `computeConfidenceInterval` returns one list per marginal with one interval per delta.  The interval at place (marginal, delta) is
centred at the index, contains it strictly inside and has the requested probability under the law of the estimator of this marginal and this delta;
a larger level gives a larger interval. -/
theorem C97_confidence (bilateral : ℝ × ℝ → ℝ → ℝ × ℝ) (hb : BilateralSpec bilateral) (dim nDelta : ℕ) (index sd : ℕ → ℕ → ℝ)
    (hsd : ∀ i k, 0 < sd i k) (l l' : ℝ) (h0 : 0 < l) (hl : l < l') (h1 : l' < 1) :
    (pliConfidence dim nDelta (fun i k => (index i k, sd i k)) bilateral l).length = dim ∧
    (∀ row ∈ pliConfidence dim nDelta (fun i k => (index i k, sd i k)) bilateral l, row.length = nDelta) ∧
    ∀ k < dim, ∀ i < nDelta, ∃ lo hi lo' hi',
      ((pliConfidence dim nDelta (fun i k => (index i k, sd i k)) bilateral l)[k]?.bind (·[i]?)) = some (lo, hi) ∧
      ((pliConfidence dim nDelta (fun i k => (index i k, sd i k)) bilateral l')[k]?.bind (·[i]?)) = some (lo', hi') ∧
      lo < index i k ∧ index i k < hi ∧ index i k - lo = hi - index i k ∧
      (gaussianReal (index i k) (sqv (sd i k))).real (Ioc lo hi) = l ∧ lo' < lo ∧ hi < hi' := by
  refine ⟨by simp [pliConfidence], ?_, ?_⟩
  · intro row hrow
    rw [pliConfidence, List.mem_map] at hrow
    obtain ⟨k, -, rfl⟩ := hrow
    simp
  · intro k hk i hi
    have hs := hsd i k
    obtain ⟨z, hz0, hz, he⟩ := bilateral_bounds hb (m := index i k) hs h0 (hl.trans h1)
    obtain ⟨z', hz0', hz', he'⟩ := bilateral_bounds hb (m := index i k) hs (h0.trans hl) h1
    have hzz : z < z' := by apply Phi_strictMono.lt_iff_lt.mp; rw [hz, hz']; linarith
    have hget : ∀ l, ((pliConfidence dim nDelta (fun i k => (index i k, sd i k)) bilateral l)[k]?.bind (·[i]?))
        = some (bilateral (index i k, sd i k) l) := by
      intro l; simp [pliConfidence, hk, hi]
    refine ⟨_, _, _, _, (hget l).trans (congrArg some he), (hget l').trans (congrArg some he'), ?_, ?_, ?_, ?_, ?_, ?_⟩
    · nlinarith
    · nlinarith
    · ring
    · rw [show Ioc (index i k - sd i k * z) (index i k + sd i k * z)
          = Iic (index i k + sd i k * z) \ Iic (index i k - sd i k * z) by ext x; simp [and_comm],
        measureReal_diff (Iic_subset_Iic.mpr (by nlinarith)) measurableSet_Iic, gauss_Iic hs, gauss_Iic hs,
        show (index i k + sd i k * z - index i k) / sd i k = z by field_simp; ring,
        show (index i k - sd i k * z - index i k) / sd i k = -z by field_simp; ring, Phi_neg, hz]
      ring
    · nlinarith
    · nlinarith

example : ∃ bilateral lo hi, ((pliConfidence 2 3 (fun i k => ((i : ℝ) - k, 1 / 10)) bilateral 0.95)[1]?.bind (·[2]?)) = some (lo, hi) ∧
    (gaussianReal (((2 : ℕ) : ℝ) - ((1 : ℕ) : ℝ)) (sqv (1 / 10))).real (Ioc lo hi) = 0.95 := by
  obtain ⟨b, hb⟩ := bilateralSpec_nonempty
  obtain ⟨lo, hi, -, -, h, -, -, -, -, h2, -⟩ := (C97_confidence b hb 2 3 (fun i k => (i : ℝ) - k) (fun _ _ => 1 / 10) (fun _ _ => by norm_num)
    0.95 0.99 (by norm_num) (by norm_num) (by norm_num)).2.2 1 (by norm_num) 2 (by norm_num)
  exact ⟨b, lo, hi, h, h2⟩

/-! ## C98 -/

theorem drawLoop_ok (f : ℕ → Res PliCurve) (g : ℕ → PliCurve) (ms : List ℕ) (h : ∀ m ∈ ms, f m = .ok (g m)) :
    drawLoop f ms = .ok (ms.map g) := by
  induction ms with
  | nil => rfl
  | cons m ms ih =>
    rw [drawLoop, h m (by simp)]
    simp only
    rw [ih fun k hk => h k (by simp [hk])]
    rfl

theorem pliDraw_ok (dim : ℕ) (rows : List (List ℝ)) (isInt : Bool) (label : Option (List String)) (suffix : ℝ → String)
    (conf : Option ℝ) (ci : ℝ → List (List (ℝ × ℝ))) (hell : Option (ℕ → ℕ → ℝ)) (indices : ℕ → ℕ → F ℝ)
    (hnames : (label.getD ((List.range dim).map fun i => "X" ++ toString i)).length = dim)
    (hxl : ∀ k, (xSupport rows isInt (hell.map fun h => h k)).length = rows.length) :
    pliDrawIndices dim rows isInt label suffix conf ci hell indices = .ok ((List.range dim).map fun m =>
      ⟨(match conf with
        | some c => (label.getD ((List.range dim).map fun i => "X" ++ toString i)).getD m "" ++ suffix c
        | none => (label.getD ((List.range dim).map fun i => "X" ++ toString i)).getD m ""),
       xSupport rows isInt (hell.map fun h => h m), (List.range rows.length).map (fun i => indices i m),
       conf.map fun c => (ci c).getD m []⟩) := by
  rw [pliDrawIndices]
  simp only [hnames, ne_eq, not_true, if_false]
  refine drawLoop_ok _ _ _ fun m _ => ?_
  rw [drawMarginal]
  simp only [hxl, if_true]
  cases conf <;> rfl

theorem flatten_column (ds : List ℝ) : (ds.map fun d => [d]).flatten = ds := by
  induction ds with
  | nil => rfl
  | cons d ds ih => rw [List.map_cons, List.flatten_cons, ih]; rfl

/-- **C98, restricted.**  For a one-dimensional list of deltas which are floats (or without Hellinger distances) and as many labels as marginals,
`drawIndices` shows one curve per marginal, in order: the indices of this marginal against the deltas (or the signed distances of this marginal),
with the confidence intervals of this marginal when a level is given.  Another number of labels is refused with AttributeError. -/
theorem C98_draw_partial (dim : ℕ) (ds : List ℝ) (isInt : Bool) (label : Option (List String)) (suffix : ℝ → String) (conf : Option ℝ)
    (ci : ℝ → List (List (ℝ × ℝ))) (hell : Option (ℕ → ℕ → ℝ)) (indices : ℕ → ℕ → F ℝ) (hint : isInt = false ∨ hell = none) :
    ((∀ ls, label = some ls → ls.length = dim) →
      ∃ cs, pliDrawIndices dim (ds.map fun d => [d]) isInt label suffix conf ci hell indices = .ok cs ∧ cs.length = dim ∧
        ∀ k < dim, ∃ c, cs[k]? = some c ∧
          c.ys = (List.range ds.length).map (fun i => indices i k) ∧
          (hell = none → c.xs = ds) ∧
          (∀ h, hell = some h → c.xs = (List.range ds.length).map fun i => h k i) ∧
          (conf = none → c.band = none) ∧
          (∀ l row, conf = some l → (ci l)[k]? = some row → c.band = some row) ∧
          (∀ ls, label = some ls → conf = none → ls[k]? = some c.label)) ∧
    (∀ ls, label = some ls → ls.length ≠ dim →
      Raises (pliDrawIndices dim (ds.map fun d => [d]) isInt label suffix conf ci hell indices) .attributeError) := by
  constructor
  · intro hlab
    have hnames : (label.getD ((List.range dim).map fun i => "X" ++ toString i)).length = dim := by
      cases label with
      | none => simp
      | some ls => exact hlab ls rfl
    have hx0 : hell = none → ∀ k, xSupport (ds.map fun d => [d]) isInt (hell.map fun h => h k) = ds := by
      intro h k; subst h; exact flatten_column ds
    have hx1 : ∀ h, hell = some h → ∀ k, xSupport (ds.map fun d => [d]) isInt (hell.map fun h => h k)
        = (List.range ds.length).map fun i => h k i := by
      intro h hh k
      subst hh
      · have hi : isInt = false := by rcases hint with h | h; exact h; cases h
        simp only [xSupport, Option.map_some, flatten_column, List.length_map, List.drop_length, List.append_nil, hi, castTo,
          Bool.false_eq_true, if_false]
    have hxl : ∀ k, (xSupport (ds.map fun d => [d]) isInt (hell.map fun h => h k)).length = (ds.map fun d => [d]).length := by
      intro k
      cases hc : hell with
      | none => rw [← hc, hx0 hc]; simp
      | some h => rw [← hc, hx1 h hc]; simp
    refine ⟨_, pliDraw_ok dim _ isInt label suffix conf ci hell indices hnames hxl, ?_, ?_⟩
    · simp
    · intro k hk
      refine ⟨_, by rw [List.getElem?_map, List.getElem?_range hk]; rfl, ?_, ?_, ?_, ?_, ?_, ?_⟩
      · simp
      · intro h; exact hx0 h k
      · intro h hh; exact hx1 h hh k
      · intro h; simp [h]
      · intro l row h hrow; simp [h, List.getD_eq_getElem?_getD, hrow]
      · intro ls h hc
        subst h hc
        have : k < ls.length := by rw [hlab ls rfl]; exact hk
        simp [List.getElem?_eq_getElem this]
  · intro ls h hne
    subst h
    refine ⟨"'AttributeError' object has no attribute 'format'", ?_⟩
    rw [pliDrawIndices]; simp only [Option.getD_some, hne, ne_eq, not_false_iff, if_true]

example : ∃ c, pliDrawIndices 2 ([-1, 1].map fun d => [d]) false (some ["a", "b"]) (fun _ => "") none (fun _ => []) none
    (fun i k => .fin (10 * i + k)) = .ok c ∧ c.length = 2 := by
  obtain ⟨cs, h, hl, -⟩ := (C98_draw_partial 2 [-1, 1] false (some ["a", "b"]) (fun _ => "") none (fun _ => []) none
    (fun i k => .fin (10 * i + k)) (Or.inl rfl)).1 (by simp)
  exact ⟨cs, h, hl⟩

/-- **C98 violated (two-dimensional deltas).**  With one column of deltas per marginal, which the constructor accepts, the figure can never be drawn,
with or without Hellinger distances, confidence level and labels. -/
theorem C98_violated (dim : ℕ) (hdim : 2 ≤ dim) (rows : List (List ℝ)) (hne : rows ≠ []) (hrows : ∀ r ∈ rows, r.length = dim) (isInt : Bool)
    (label : Option (List String)) (hlab : ∀ ls, label = some ls → ls.length = dim) (suffix : ℝ → String) (conf : Option ℝ)
    (ci : ℝ → List (List (ℝ × ℝ))) (hell : Option (ℕ → ℕ → ℝ)) (indices : ℕ → ℕ → F ℝ) :
    Raises (pliDrawIndices dim rows isInt label suffix conf ci hell indices) .valueError := by
  have hnames : (label.getD ((List.range dim).map fun i => "X" ++ toString i)).length = dim := by
    cases label with
    | none => simp
    | some ls => exact hlab ls rfl
  have hflat : rows.flatten.length = rows.length * dim := by
    rw [List.length_flatten, List.map_congr_left hrows]; simp
  have hpos : 0 < rows.length := List.length_pos_iff.mpr hne
  have hlt : rows.length < rows.length * dim := by nlinarith
  have hx : ∀ k, (xSupport rows isInt (hell.map fun h => h k)).length ≠ rows.length := by
    intro k
    cases hell with
    | none => simp only [xSupport, Option.map_none, hflat]; omega
    | some h =>
      simp only [xSupport, Option.map_some, List.length_append, List.length_map, List.length_range, List.length_drop, hflat]
      omega
  obtain ⟨d, rfl⟩ : ∃ d, dim = d + 1 := ⟨dim - 1, by omega⟩
  refine ⟨"x and y must have same first dimension", ?_⟩
  rw [pliDrawIndices]
  simp only [hnames, ne_eq, not_true, if_false]
  rw [List.range_succ_eq_map, drawLoop, drawMarginal]
  simp only [hx, if_false]

example : Raises (pliDrawIndices 2 [[1, 2], [3, 4]] false none (fun _ => "") (some 0.95) (fun _ => []) none (fun _ _ => .fin 0)) .valueError :=
  C98_violated 2 le_rfl _ (by simp) (by simp) _ _ (by simp) _ _ _ _ _

/-- **C98 violated (integer deltas).**  When the deltas are given as integers and the figure is asked with respect to the Hellinger distance, every point
whose distance is below 1 is drawn at abscissa 0. -/
theorem C98_violated_integer (dim : ℕ) (ds : List ℝ) (suffix : ℝ → String) (conf : Option ℝ) (ci : ℝ → List (List (ℝ × ℝ)))
    (h : ℕ → ℕ → ℝ) (hsmall : ∀ k i, |h k i| < 1) (indices : ℕ → ℕ → F ℝ) :
    ∃ cs, pliDrawIndices dim (ds.map fun d => [d]) true none suffix conf ci (some h) indices = .ok cs ∧ cs.length = dim ∧
      ∀ c ∈ cs, c.xs = List.replicate ds.length 0 := by
  have hcast : ∀ k i, castTo true (h k i) = 0 := by
    intro k i
    have hh := abs_lt.mp (hsmall k i)
    rw [castTo, if_pos rfl]
    split_ifs with h0
    · rw [Int.floor_eq_zero_iff.mpr ⟨h0, hh.2⟩]; simp
    · rw [Int.ceil_eq_zero_iff.mpr ⟨hh.1, (not_le.mp h0).le⟩]; simp
  have hx : ∀ k, xSupport (ds.map fun d => [d]) true ((some h).map fun h => h k) = List.replicate ds.length 0 := by
    intro k
    simp only [xSupport, Option.map_some, flatten_column, List.length_map, List.drop_length, List.append_nil, hcast]
    simp
  refine ⟨_, pliDraw_ok dim _ true none suffix conf ci (some h) indices (by simp) (fun k => by rw [hx]; simp), by simp, ?_⟩
  intro c hc
  rw [List.mem_map] at hc
  obtain ⟨k, -, rfl⟩ := hc
  exact hx k

example : ∃ cs, pliDrawIndices 2 ([-1, 0, 1].map fun d => [d]) true none (fun _ => "") none (fun _ => [])
    (some fun _ i => if i = 0 then -0.235 else if i = 1 then 0 else 0.235) (fun _ _ => .fin 0) = .ok cs ∧ cs.length = 2 ∧
      ∀ c ∈ cs, c.xs = List.replicate 3 0 :=
  C98_violated_integer 2 [-1, 0, 1] (fun _ => "") none (fun _ => []) _ (by
    intro k i
    split_ifs <;> norm_num [abs_lt]) _

/-! ## C99 -/

/-- Equally spaced increasing values. -/
def EquallySpaced (l : List ℝ) : Prop := ∃ a w : ℝ, 0 ≤ w ∧ l = (List.range l.length).map fun j : ℕ => a + (j : ℝ) * w

theorem equallySpaced_bounds {l : List ℝ} (h : EquallySpaced l) (h2 : 2 ≤ l.length) {lo hi : ℝ} (hlo : sampleMin l = .ok lo)
    (hhi : sampleMax l = .ok hi) (j : ℕ) (hj : j < l.length) : l.getD j 0 = contourPos lo hi l.length j ∧
    (imageCell lo hi l.length j).1 ≤ l.getD j 0 ∧ l.getD j 0 ≤ (imageCell lo hi l.length j).2 := by
  obtain ⟨a, w, hw, hl⟩ := h
  have hget : ∀ j < l.length, l.getD j 0 = a + j * w := by
    intro j hj
    rw [hl, List.getD_eq_getElem?_getD, List.getElem?_map, List.getElem?_range (by simpa using hj)]
    rfl
  have hmem : ∀ x ∈ l, ∃ j < l.length, x = a + j * w := by
    intro x hx
    rw [hl] at hx
    obtain ⟨j, hj, rfl⟩ := List.mem_map.mp hx
    exact ⟨j, List.mem_range.mp hj, rfl⟩
  have hin : ∀ j < l.length, a + j * w ∈ l := by
    intro j hj
    rw [hl]
    exact List.mem_map.mpr ⟨j, List.mem_range.mpr hj, rfl⟩
  have elo : lo = a := by
    have hs := sampleMin_spec hlo
    apply le_antisymm
    · have := hs.2 (hin 0 (by omega)); simpa using this
    · obtain ⟨j, -, hj⟩ := hmem lo hs.1
      rw [hj]; have : (0 : ℝ) ≤ j * w := by positivity
      linarith
  have hn1 : ((l.length - 1 : ℕ) : ℝ) = (l.length : ℝ) - 1 := by rw [Nat.cast_sub (by omega)]; simp
  have ehi : hi = a + ((l.length : ℝ) - 1) * w := by
    have hs := sampleMax_spec hhi
    apply le_antisymm
    · obtain ⟨j, hj, hj'⟩ := hmem hi hs.1
      rw [hj']
      have : (j : ℝ) ≤ (l.length : ℝ) - 1 := by rw [← hn1]; exact_mod_cast (by omega)
      have := mul_le_mul_of_nonneg_right this hw
      linarith
    · have := hs.2 (hin (l.length - 1) (by omega))
      rw [hn1] at this; exact this
  have hN : (2 : ℝ) ≤ l.length := by exact_mod_cast h2
  have hj1 : (j : ℝ) ≤ (l.length : ℝ) - 1 := by rw [← hn1]; exact_mod_cast (by omega)
  rw [hget j hj, contourPos, imageCell, elo, ehi]
  have hne : (l.length : ℝ) - 1 ≠ 0 := by linarith
  have hpos : (0 : ℝ) < l.length := by linarith
  refine ⟨by rw [add_sub_cancel_left, mul_div_assoc, mul_div_cancel_left₀ _ hne], ?_, ?_⟩
  · simp only [add_sub_cancel_left, add_le_add_iff_left]
    rw [div_le_iff₀ hpos]
    have : 0 ≤ (j : ℝ) * w := by positivity
    nlinarith
  · simp only [add_sub_cancel_left, add_le_add_iff_left]
    rw [le_div_iff₀ hpos]
    have : 0 ≤ ((l.length : ℝ) - 1 - j) * w := mul_nonneg (by linarith) hw
    nlinarith

theorem drawContour_ok {Obj : Type} (s : PliPod Obj) (deltas : List ℝ) (marginal : ℤ) (fig : ContourFig) (kept : List ℕ)
    (hk : s.kept = some kept) (h : drawContour s deltas marginal = .ok fig) :
    sampleMin (kept.map fun i => s.defectSizes.getD i 0) = .ok fig.xlo ∧ sampleMax (kept.map fun i => s.defectSizes.getD i 0) = .ok fig.xhi ∧
    sampleMin deltas = .ok fig.ylo ∧ sampleMax deltas = .ok fig.yhi ∧ fig.nrow = s.indices.n0 ∧ fig.ncol = kept.length ∧
    2 ≤ fig.nrow ∧ 2 ≤ fig.ncol ∧ marginal < s.dim ∧
    ∃ m, resolveIdx s.indices.n1 marginal = .ok m ∧ ∀ i j, fig.z i j = s.indices.v i m (kept.getD j 0) := by
  rw [drawContour] at h
  split_ifs at h with h1
  simp only [hk] at h
  by_cases h2 : (kept.all fun i => decide (i < s.defectSizes.length)) = false
  · rw [if_pos h2] at h; cases h
  rw [if_neg h2] at h
  cases ha : sampleMin (kept.map fun i => s.defectSizes.getD i 0) with
  | error e => simp only [ha] at h; cases h
  | ok xlo =>
    cases hb : sampleMax (kept.map fun i => s.defectSizes.getD i 0) with
    | error e => simp only [ha, hb] at h; cases h
    | ok xhi =>
      cases hc : sampleMin deltas with
      | error e => simp only [ha, hb, hc] at h; cases h
      | ok ylo =>
        cases hd : sampleMax deltas with
        | error e => simp only [ha, hb, hc, hd] at h; cases h
        | ok yhi =>
          simp only [ha, hb, hc, hd] at h
          cases hm : resolveIdx s.indices.n1 marginal with
          | error e => simp only [hm] at h; cases h
          | ok m =>
            simp only [hm] at h
            split_ifs at h with h3 h4
            rw [Except.ok.injEq] at h
            subst h
            push Not at h4
            exact ⟨rfl, rfl, rfl, rfl, rfl, rfl, h4.1, h4.2, by omega, m, rfl, fun _ _ => rfl⟩

/-- **C99, restricted.**  When the kept defect sizes and the deltas are increasing and equally spaced, every index of the figure is drawn at its own
place: the contour exactly at its defect size and delta, the image cell contains them.  The values are the indices of the requested marginal. -/
theorem C99_contour_partial {Obj : Type} (s : PliPod Obj) (deltas : List ℝ) (marginal : ℕ) (kept : List ℕ) (fig : ContourFig)
    (hk : s.kept = some kept) (h : drawContour s deltas marginal = .ok fig) (hn : s.indices.n0 = deltas.length)
    (hs : EquallySpaced (kept.map fun i => s.defectSizes.getD i 0)) (hd : EquallySpaced deltas) :
    (∀ i j, fig.z i j = s.indices.v i marginal (kept.getD j 0)) ∧
    (∀ j < kept.length, contourPos fig.xlo fig.xhi fig.ncol j = s.defectSizes.getD (kept.getD j 0) 0 ∧
      (imageCell fig.xlo fig.xhi fig.ncol j).1 ≤ s.defectSizes.getD (kept.getD j 0) 0 ∧
      s.defectSizes.getD (kept.getD j 0) 0 ≤ (imageCell fig.xlo fig.xhi fig.ncol j).2) ∧
    (∀ i < deltas.length, contourPos fig.ylo fig.yhi fig.nrow i = deltas.getD i 0 ∧
      (imageCell fig.ylo fig.yhi fig.nrow i).1 ≤ deltas.getD i 0 ∧ deltas.getD i 0 ≤ (imageCell fig.ylo fig.yhi fig.nrow i).2) := by
  obtain ⟨h1, h2, h3, h4, h5, h6, h7, h8, -, m, hm, hz⟩ := drawContour_ok s deltas marginal fig kept hk h
  refine ⟨?_, ?_, ?_⟩
  · have : m = marginal := by
      rw [resolveIdx] at hm
      split_ifs at hm with ha hb
      · rw [Except.ok.injEq] at hm; rw [← hm]; simp
      · omega
    rw [← this]; exact hz
  · intro j hj
    have := equallySpaced_bounds hs (by rw [List.length_map, ← h6]; exact h8) h1 h2 j (by rw [List.length_map]; exact hj)
    have hg : (kept.map fun i => s.defectSizes.getD i 0).getD j 0 = s.defectSizes.getD (kept.getD j 0) 0 := by
      simp [List.getD_eq_getElem?_getD, List.getElem?_eq_getElem hj]
    rw [hg, List.length_map, ← h6] at this
    exact ⟨this.1.symm, this.2⟩
  · intro i hi
    have := equallySpaced_bounds hd (by rw [← hn, ← h5]; exact h7) h3 h4 i hi
    rw [← hn, ← h5] at this
    exact ⟨this.1.symm, this.2⟩

/-- **C99 violated (order of the deltas).**  For deltas given in decreasing order (at least two different ones) the figure is upside down: the first row is
drawn at the last delta. -/
theorem C99_violated {Obj : Type} (s : PliPod Obj) (d e : ℝ) (ds : List ℝ) (marginal : ℤ) (kept : List ℕ) (fig : ContourFig)
    (hk : s.kept = some kept) (h : drawContour s (d :: (ds ++ [e])) marginal = .ok fig) (hde : e < d) (hmid : ∀ x ∈ ds, e ≤ x ∧ x ≤ d) :
    contourPos fig.ylo fig.yhi fig.nrow 0 = e ∧ contourPos fig.ylo fig.yhi fig.nrow (fig.nrow - 1) = d ∧ e ≠ d := by
  obtain ⟨-, -, h3, h4, -, -, h7, -, -, -⟩ := drawContour_ok s _ marginal fig kept hk h
  have a := sampleMin_spec h3
  have b := sampleMax_spec h4
  have elo : fig.ylo = e := by
    apply le_antisymm (a.2 (by simp))
    have := a.1
    simp only [Set.mem_setOf_eq, List.mem_cons, List.mem_append, List.not_mem_nil, or_false] at this
    rcases this with h | h | h
    · linarith
    · exact (hmid _ h).1
    · linarith
  have ehi : fig.yhi = d := by
    apply le_antisymm _ (b.2 (by simp))
    have := b.1
    simp only [Set.mem_setOf_eq, List.mem_cons, List.mem_append, List.not_mem_nil, or_false] at this
    rcases this with h | h | h
    · linarith
    · exact (hmid _ h).2
    · linarith
  have hN : (2 : ℝ) ≤ fig.nrow := by exact_mod_cast h7
  have hn1 : ((fig.nrow - 1 : ℕ) : ℝ) = (fig.nrow : ℝ) - 1 := by rw [Nat.cast_sub (by omega)]; simp
  rw [contourPos, contourPos, elo, ehi, hn1]
  refine ⟨by simp, ?_, hde.ne⟩
  rw [mul_div_cancel_left₀ _ (by linarith)]; ring

/-- **C99 violated (spacing).**  Three kept sizes that are not equally spaced: the middle column is not drawn at its size. -/
theorem C99_violated_spacing {Obj : Type} (s : PliPod Obj) (deltas : List ℝ) (marginal : ℤ) (fig : ContourFig) (i j k : ℕ)
    (hk : s.kept = some [i, j, k]) (h : drawContour s deltas marginal = .ok fig)
    (h1 : s.defectSizes.getD i 0 ≤ s.defectSizes.getD j 0) (h2 : s.defectSizes.getD j 0 ≤ s.defectSizes.getD k 0)
    (hne : s.defectSizes.getD j 0 - s.defectSizes.getD i 0 ≠ s.defectSizes.getD k 0 - s.defectSizes.getD j 0) :
    contourPos fig.xlo fig.xhi fig.ncol 1 ≠ s.defectSizes.getD j 0 := by
  obtain ⟨ha, hb, -, -, -, h6, -⟩ := drawContour_ok s _ marginal fig _ hk h
  simp only [List.map_cons, List.map_nil, sampleMin, sampleMax, List.foldl_cons, List.foldl_nil, Except.ok.injEq] at ha hb
  rw [min_eq_left h1, min_eq_left (h1.trans h2)] at ha
  rw [max_eq_right h1, max_eq_right h2] at hb
  rw [contourPos, h6, ← ha, ← hb]
  intro hh
  apply hne
  simp only [List.length_cons, List.length_nil] at hh
  push_cast at hh
  linarith

/-- The state used in the examples: three sizes, all kept. -/
def demoPli (sizes : List ℝ) : PliPod Unit :=
  ⟨2, 2, 0, 10, sizes, 3, ⟨2, 2, 3, fun i m k => .fin (100 * i + 10 * m + k)⟩, [some (), some (), some ()], some [0, 1, 2]⟩

theorem demoPli_ok (a b c d e : ℝ) : ∃ fig, drawContour (demoPli [a, b, c]) [d, e] (1 : ℕ) = .ok fig := by
  cases h : drawContour (demoPli [a, b, c]) [d, e] (1 : ℕ) with
  | ok fig => exact ⟨fig, rfl⟩
  | error err =>
    exfalso
    simp [drawContour, demoPli, sampleMin, sampleMax, resolveIdx] at h

example (fig : ContourFig) (h : drawContour (demoPli [1, 2, 3]) [-1, 1] (1 : ℕ) = .ok fig) :
    contourPos fig.xlo fig.xhi fig.ncol 1 = 2 ∧ contourPos fig.ylo fig.yhi fig.nrow 1 = 1 := by
  have := C99_contour_partial (demoPli [1, 2, 3]) [-1, 1] 1 [0, 1, 2] fig rfl h rfl
    ⟨1, 1, by norm_num, by simp [demoPli, List.range_succ]; norm_num⟩ ⟨-1, 2, by norm_num, by simp [List.range_succ]; norm_num⟩
  exact ⟨by simpa [demoPli] using (this.2.1 1 (by simp)).1, by simpa using (this.2.2 1 (by simp)).1⟩

example (fig : ContourFig) (h : drawContour (demoPli [1, 2, 3]) (1 :: ([] ++ [-1])) (1 : ℕ) = .ok fig) :
    contourPos fig.ylo fig.yhi fig.nrow 0 = -1 :=
  (C99_violated (demoPli [1, 2, 3]) 1 (-1) [] 1 [0, 1, 2] fig rfl h (by norm_num) (by simp)).1

example (fig : ContourFig) (h : drawContour (demoPli [1, 2, 9]) [-1, 1] (1 : ℕ) = .ok fig) :
    contourPos fig.xlo fig.xhi fig.ncol 1 ≠ 2 :=
  C99_violated_spacing (demoPli [1, 2, 9]) [-1, 1] 1 fig 0 1 2 rfl h (by norm_num [demoPli]) (by norm_num [demoPli]) (by norm_num [demoPli])

end Verif.Props
