import Verif.Props.Metamodel
import Verif.Props.Base
import Verif.Model.Figure
import Mathlib.Analysis.Convex.Deriv
import Mathlib.Topology.UniformSpace.HeineCantor
import Mathlib.Topology.Order.IntermediateValue

/-!
# C199: a finer list of defect sizes makes the interpolated POD and its detection sizes exact
-/

namespace Verif.Props
open Verif.Py Verif.Model Set

/-! ## Interpolation -/

/-- The interpolated function is continuous on its range. -/
theorem interpGo_continuousOn (rest : List (ℝ × ℝ)) (p : ℝ × ℝ) (h : (p :: rest).Pairwise (fun a b => a.1 < b.1)) :
    ContinuousOn (interpGo (p :: rest)) (Ici p.1) := by
  induction rest generalizing p with
  | nil =>
    have : interpGo [p] = fun _ => p.2 := rfl
    rw [this]; exact continuousOn_const
  | cons q rest ih =>
    have hq := ih q (List.pairwise_cons.mp h).2
    have hpq : p.1 < q.1 := (List.pairwise_cons.mp h).1 q List.mem_cons_self
    have hU : Ici p.1 = Icc p.1 q.1 ∪ Ici q.1 := (Icc_union_Ici_eq_Ici hpq.le).symm
    rw [hU]
    refine ContinuousOn.union_of_isClosed ?_ ?_ isClosed_Icc isClosed_Ici
    · have hlin : Continuous fun t : ℝ => (q.2 - p.2) / (q.1 - p.1) * (t - p.1) + p.2 := by fun_prop
      refine hlin.continuousOn.congr fun t ht => ?_
      rw [interpGo]
      split
      · rfl
      · rename_i hlt
        have e : t = q.1 := le_antisymm ht.2 (not_lt.mp hlt)
        subst e
        have := interpGo_at (List.pairwise_cons.mp h).2 (p := q) List.mem_cons_self
        rw [this]
        have : q.1 - p.1 ≠ 0 := by linarith
        field_simp
        ring
    · refine hq.congr fun t ht => ?_
      rw [interpGo, if_neg (not_lt.mpr ht)]

/-- Every point of the range is a listed abscissa or lies between two neighbours. -/
theorem segment_of (xs : List ℝ) (hne : xs ≠ []) (t : ℝ) (h0 : xs.getD 0 0 ≤ t) (h1 : t ≤ xs.getD (xs.length - 1) 0) :
    t = xs.getD 0 0 ∨ ∃ i, i + 1 < xs.length ∧ xs.getD i 0 ≤ t ∧ t ≤ xs.getD (i + 1) 0 := by
  classical
  have hex : ∃ k, t ≤ xs.getD k 0 := ⟨_, h1⟩
  have hspec := Nat.find_spec hex
  have hmin := fun m => Nat.find_min hex (m := m)
  have hle : Nat.find hex ≤ xs.length - 1 := Nat.find_min' hex h1
  have hpos := List.length_pos_iff.mpr hne
  rcases Nat.eq_zero_or_pos (Nat.find hex) with hz | hz
  · left; rw [hz] at hspec; exact le_antisymm hspec h0
  · right
    refine ⟨Nat.find hex - 1, by omega, (not_le.mp (hmin _ (by omega))).le, ?_⟩
    rwa [Nat.sub_add_cancel hz]

/-- The interpolation of values known up to `η` at the abscissae differs from `f` by at most `η` and the difference
between `f` and its own chords. -/
theorem interp_near (xs ys : List ℝ) (hlen : xs.length = ys.length) (hne : xs ≠ []) (hinc : xs.Pairwise (· < ·))
    (f : ℝ → ℝ) (ε η : ℝ) (hε : 0 ≤ ε) (hη : ∀ i, i < xs.length → |ys.getD i 0 - f (xs.getD i 0)| ≤ η)
    (hch : ∀ i t, i + 1 < xs.length → xs.getD i 0 ≤ t → t ≤ xs.getD (i + 1) 0 →
      |f (xs.getD i 0) + (f (xs.getD (i + 1) 0) - f (xs.getD i 0)) *
        ((t - xs.getD i 0) / (xs.getD (i + 1) 0 - xs.getD i 0)) - f t| ≤ ε) :
    ∃ g : ℝ → ℝ, (∃ r, interp1d xs ys = .ok r ∧ ∀ t, xs.getD 0 0 ≤ t → t ≤ xs.getD (xs.length - 1) 0 → r t = .ok (g t)) ∧
      ContinuousOn g (Icc (xs.getD 0 0) (xs.getD (xs.length - 1) 0)) ∧
      ∀ t, xs.getD 0 0 ≤ t → t ≤ xs.getD (xs.length - 1) 0 → |g t - f t| ≤ ε + η := by
  have hpos := List.length_pos_iff.mpr hne
  obtain ⟨r, hr, -, hnode, hseg, -, -⟩ := interp1d_spec xs ys hlen hne hinc
  cases xs with
  | nil => exact absurd rfl hne
  | cons x xs =>
  cases ys with
  | nil => simp at hlen
  | cons y ys =>
  have hlt : ((x :: xs).zip (y :: ys)).Pairwise (fun a b => a.1 < b.1) := by
    have h := hinc
    rw [← List.map_fst_zip (l₁ := x :: xs) (l₂ := y :: ys) (by rw [hlen]), List.pairwise_map] at h
    exact h
  have hsort := sortPts_of_sorted (hlt.imp fun h => h.le)
  have hreq : r = interpEval ((x :: xs).zip (y :: ys)) := by
    rw [interp1d, if_pos hlen, hsort, Except.ok.injEq] at hr
    exact hr.symm
  have hgo : ∀ t v, r t = .ok v → interpGo ((x :: xs).zip (y :: ys)) t = v := by
    intro t v h
    rw [hreq, List.zip_cons_cons] at h
    unfold interpEval at h
    dsimp only at h
    split at h
    · cases h
    · split at h
      · cases h
      · rw [List.zip_cons_cons]; exact Except.ok.inj h
  have hall : ∀ t, (x :: xs).getD 0 0 ≤ t → t ≤ (x :: xs).getD ((x :: xs).length - 1) 0 →
      ∃ v, r t = .ok v ∧ |v - f t| ≤ ε + η := by
    intro t h0 h1
    rcases segment_of (x :: xs) hne t h0 h1 with ht0 | ⟨i, hi, ha, hb⟩
    · rw [ht0]
      refine ⟨_, hnode 0 hpos, ?_⟩
      have := hη 0 hpos
      linarith
    · refine ⟨_, hseg i t hi ha hb, ?_⟩
      have e1 := hη i (by omega)
      have e2 := hη (i + 1) hi
      have e3 := hch i t hi ha hb
      have hst : (x :: xs).getD i 0 < (x :: xs).getD (i + 1) 0 := by
        rw [List.getD_eq_getElem _ _ (by omega : i < (x :: xs).length), List.getD_eq_getElem _ _ hi]
        exact List.pairwise_iff_getElem.mp hinc i (i + 1) _ _ (by omega)
      set A := (x :: xs).getD i 0
      set B := (x :: xs).getD (i + 1) 0
      set w := (t - A) / (B - A) with hw
      have hw0 : 0 ≤ w := div_nonneg (by linarith) (by linarith)
      have hw1 : w ≤ 1 := (div_le_one (by linarith)).mpr (by linarith)
      set a := (y :: ys).getD i 0
      set b := (y :: ys).getD (i + 1) 0
      rw [abs_le] at e1 e2 e3 ⊢
      constructor
      · nlinarith [mul_nonneg hw0 (sub_nonneg.mpr e2.1), mul_nonneg (sub_nonneg.mpr hw1) (sub_nonneg.mpr e1.1)]
      · nlinarith [mul_nonneg hw0 (sub_nonneg.mpr e2.2), mul_nonneg (sub_nonneg.mpr hw1) (sub_nonneg.mpr e1.2)]
  refine ⟨interpGo ((x :: xs).zip (y :: ys)), ⟨r, hr, fun t h0 h1 => ?_⟩, ?_, fun t h0 h1 => ?_⟩
  · obtain ⟨v, hv, -⟩ := hall t h0 h1
    rw [hv, hgo t v hv]
  · refine (interpGo_continuousOn _ _ hlt).mono fun t ht => ?_
    exact ht.1
  · obtain ⟨v, hv, hd⟩ := hall t h0 h1
    rw [hgo t v hv]; exact hd

/-! ## Runs -/

/-- Defect sizes from `a` to `b` in increasing order with gaps of at most `δ`. -/
def FineSizes (a b δ : ℝ) (l : List ℝ) : Prop :=
  l ≠ [] ∧ l.Pairwise (· < ·) ∧ l.getD 0 0 = a ∧ l.getD (l.length - 1) 0 = b ∧
    ∀ i, i + 1 < l.length → l.getD (i + 1) 0 - l.getD i 0 ≤ δ

theorem fine_mem {a b δ : ℝ} {l : List ℝ} (h : FineSizes a b δ l) (i : ℕ) (hi : i < l.length) : l.getD i 0 ∈ Icc a b := by
  obtain ⟨hne, hinc, h0, h1, -⟩ := h
  have hle := hinc.imp fun h => h.le
  rw [← h0, ← h1]
  exact ⟨getD_mono hle (Nat.zero_le i) hi, getD_mono hle (by omega) (by omega)⟩

/-- The run and the two curves: what is drawn, evaluated and searched. -/
theorem run_curves (rows : ℕ) (sim : ℕ → ℝ → List ℝ) (s : SimAttrs) (hnum : s.number = s.sizes.length) (c : ℝ) (r rc : ℝ → Res ℝ)
    (h : interp1d s.sizes ((s.sizes.mapIdx sim).map listMean) = .ok r)
    (hc : interp1d s.sizes ((s.sizes.mapIdx sim).map fun col => quantile col (1 - c)) = .ok rc) :
    (krigingRunSim rows sim s).1 = .ok () ∧ (krigingRunSim rows sim s).2.curve = some r ∧
      getPODCLModel (krigingRunSim rows sim s).2 c = .ok rc := by
  unfold krigingRunSim
  dsimp only
  rw [if_neg (by omega), hnum, Nat.sub_self, List.replicate_zero, List.append_nil, h]
  refine ⟨rfl, rfl, ?_⟩
  rw [getPODCLModel]
  exact hc

theorem mapIdx_getD (l : List ℝ) (sim : ℕ → ℝ → List ℝ) (st : List ℝ → ℝ) (i : ℕ) (hi : i < l.length) :
    ((l.mapIdx sim).map st).getD i 0 = st (sim i (l.getD i 0)) := by
  rw [List.getD_eq_getElem _ _ (by simpa using hi), List.getD_eq_getElem _ _ hi]
  simp

/-- What is asked of a run: the curve is within `ε` of `f` and the curve at the confidence level within `ε` of `fc`. -/
def RunNear (rows : ℕ) (sim : ℕ → ℝ → List ℝ) (s : SimAttrs) (c a b : ℝ) (f fc : ℝ → ℝ) (ε : ℝ) : Prop :=
  (krigingRunSim rows sim s).1 = .ok () ∧
  ∃ r rc, (krigingRunSim rows sim s).2.curve = some r ∧ getPODCLModel (krigingRunSim rows sim s).2 c = .ok rc ∧
    ∀ t ∈ Icc a b, ∃ v vc, r t = .ok v ∧ rc t = .ok vc ∧ |v - f t| ≤ ε ∧ |vc - fc t| ≤ ε

/-- The simulated values at the sizes are within `η` of the exact curves. -/
def SimNear (sim : ℕ → ℝ → List ℝ) (sizes : List ℝ) (c : ℝ) (f fc : ℝ → ℝ) (η : ℝ) : Prop :=
  ∀ i, i < sizes.length → |listMean (sim i (sizes.getD i 0)) - f (sizes.getD i 0)| ≤ η ∧
    |quantile (sim i (sizes.getD i 0)) (1 - c) - fc (sizes.getD i 0)| ≤ η

/-- Both curves of a run from a bound of the chords, with continuity. -/
theorem run_near (rows : ℕ) (sim : ℕ → ℝ → List ℝ) (s : SimAttrs) (hnum : s.number = s.sizes.length) (c a b δ : ℝ)
    (hfine : FineSizes a b δ s.sizes) (f fc : ℝ → ℝ) (ε η : ℝ) (hε : 0 ≤ ε) (hsim : SimNear sim s.sizes c f fc η)
    (hch : ∀ h ∈ [f, fc], ∀ x y t, x ∈ Icc a b → y ∈ Icc a b → x < y → y - x ≤ δ → x ≤ t → t ≤ y →
      |h x + (h y - h x) * ((t - x) / (y - x)) - h t| ≤ ε) :
    ∃ g gc : ℝ → ℝ, ContinuousOn g (Icc a b) ∧ ContinuousOn gc (Icc a b) ∧
      (krigingRunSim rows sim s).1 = .ok () ∧
      (∃ r rc, (krigingRunSim rows sim s).2.curve = some r ∧ getPODCLModel (krigingRunSim rows sim s).2 c = .ok rc ∧
        ∀ t ∈ Icc a b, r t = .ok (g t) ∧ rc t = .ok (gc t)) ∧
      ∀ t ∈ Icc a b, |g t - f t| ≤ ε + η ∧ |gc t - fc t| ≤ ε + η := by
  obtain ⟨hne, hinc, h0, h1, hgap⟩ := hfine
  have hmem := fine_mem (a := a) (b := b) (δ := δ) ⟨hne, hinc, h0, h1, hgap⟩
  have key : ∀ h ∈ [f, fc], ∀ i t, i + 1 < s.sizes.length → s.sizes.getD i 0 ≤ t → t ≤ s.sizes.getD (i + 1) 0 →
      |h (s.sizes.getD i 0) + (h (s.sizes.getD (i + 1) 0) - h (s.sizes.getD i 0)) *
        ((t - s.sizes.getD i 0) / (s.sizes.getD (i + 1) 0 - s.sizes.getD i 0)) - h t| ≤ ε := by
    intro h hh i t hi ha hb
    refine hch h hh _ _ t (hmem i (by omega)) (hmem _ hi) ?_ (hgap i hi) ha hb
    rw [List.getD_eq_getElem _ _ (by omega : i < s.sizes.length), List.getD_eq_getElem _ _ hi]
    exact List.pairwise_iff_getElem.mp hinc i (i + 1) _ _ (by omega)
  obtain ⟨g, ⟨r, hr, hrg⟩, hgc, hg⟩ := interp_near s.sizes ((s.sizes.mapIdx sim).map listMean) (by simp) hne hinc f ε η hε
    (fun i hi => by rw [mapIdx_getD _ _ _ _ hi]; exact (hsim i hi).1) (key f (by simp))
  obtain ⟨gc, ⟨rc, hrc, hrgc⟩, hgcc, hgc'⟩ := interp_near s.sizes ((s.sizes.mapIdx sim).map fun col => quantile col (1 - c))
    (by simp) hne hinc fc ε η hε (fun i hi => by rw [mapIdx_getD _ _ _ _ hi]; exact (hsim i hi).2) (key fc (by simp))
  obtain ⟨e1, e2, e3⟩ := run_curves rows sim s hnum c r rc hr hrc
  rw [h0, h1] at hgc hgcc
  rw [h0, h1] at hg hgc' hrg hrgc
  exact ⟨g, gc, hgc, hgcc, e1, ⟨r, rc, e2, e3, fun t ht => ⟨hrg t ht.1 ht.2, hrgc t ht.1 ht.2⟩⟩,
    fun t ht => ⟨hg t ht.1 ht.2, hgc' t ht.1 ht.2⟩⟩

/-- A chord stays as close to the function as its ends. -/
theorem chord_close {fx fy ft w ε : ℝ} (h0 : 0 ≤ w) (h1 : w ≤ 1) (hx : |fx - ft| ≤ ε) (hy : |fy - ft| ≤ ε) :
    |fx + (fy - fx) * w - ft| ≤ ε := by
  rw [abs_le] at hx hy ⊢
  constructor
  · nlinarith [mul_nonneg h0 (sub_nonneg.mpr hy.1), mul_nonneg (sub_nonneg.mpr h1) (sub_nonneg.mpr hx.1)]
  · nlinarith [mul_nonneg h0 (sub_nonneg.mpr hy.2), mul_nonneg (sub_nonneg.mpr h1) (sub_nonneg.mpr hx.2)]

theorem chord_uniform (a b : ℝ) (f : ℝ → ℝ) (hf : ContinuousOn f (Icc a b)) (ε : ℝ) (hε : 0 < ε) :
    ∃ δ > 0, ∀ δ' ≤ δ, ∀ x y t, x ∈ Icc a b → y ∈ Icc a b → x < y → y - x ≤ δ' → x ≤ t → t ≤ y →
      |f x + (f y - f x) * ((t - x) / (y - x)) - f t| ≤ ε := by
  have hu := isCompact_Icc.uniformContinuousOn_of_continuous hf
  rw [Metric.uniformContinuousOn_iff] at hu
  obtain ⟨δ, hδ, h⟩ := hu ε hε
  refine ⟨δ / 2, by linarith, ?_⟩
  intro δ' hδ' x y t hx hy hxy hd h1 h2
  have ht : t ∈ Icc a b := ⟨hx.1.trans h1, h2.trans hy.2⟩
  refine chord_close (div_nonneg (by linarith) (by linarith)) ((div_le_one (by linarith)).mpr (by linarith)) ?_ ?_
  · have := h x hx t ht (by rw [Real.dist_eq, abs_lt]; constructor <;> linarith)
    rw [Real.dist_eq] at this; exact this.le
  · have := h y hy t ht (by rw [Real.dist_eq, abs_lt]; constructor <;> linarith)
    rw [Real.dist_eq] at this; exact this.le

/-- **C199, curves.**  Whatever the exact curves, if they are continuous: with gaps between the sizes and errors of the
simulated values small enough, the POD curve and the curve at the confidence level are as close as desired to the exact
ones, uniformly over the whole range and not only at the sizes. -/
theorem C199_curves (a b c : ℝ) (f fc : ℝ → ℝ) (hf : ContinuousOn f (Icc a b)) (hfc : ContinuousOn fc (Icc a b)) (ε : ℝ)
    (hε : 0 < ε) :
    ∃ δ > 0, ∃ η > 0, ∀ rows sim (s : SimAttrs), s.number = s.sizes.length → FineSizes a b δ s.sizes →
      SimNear sim s.sizes c f fc η → RunNear rows sim s c a b f fc ε := by
  obtain ⟨δ1, p1, h1⟩ := chord_uniform a b f hf (ε / 2) (by linarith)
  obtain ⟨δ2, p2, h2⟩ := chord_uniform a b fc hfc (ε / 2) (by linarith)
  refine ⟨min δ1 δ2, lt_min p1 p2, ε / 2, by linarith, ?_⟩
  intro rows sim s hnum hfine hsim
  obtain ⟨g, gc, -, -, e1, ⟨r, rc, e2, e3, e4⟩, e5⟩ := run_near rows sim s hnum c a b _ hfine f fc (ε / 2) (ε / 2) (by linarith) hsim
    (by
      intro h hh
      rcases List.mem_cons.mp hh with rfl | hh
      · exact h1 _ (min_le_left _ _)
      · rw [List.mem_singleton.mp hh]; exact h2 _ (min_le_right _ _))
  refine ⟨e1, r, rc, e2, e3, fun t ht => ⟨_, _, (e4 t ht).1, (e4 t ht).2, ?_, ?_⟩⟩
  · have := (e5 t ht).1; linarith
  · have := (e5 t ht).2; linarith

/-- A chord of a function whose second derivative is bounded by `M`. -/
theorem chord_second (f f' f'' : ℝ → ℝ) (M : ℝ) (h1 : ∀ t, HasDerivAt f (f' t) t) (h2 : ∀ t, HasDerivAt f' (f'' t) t)
    (hM : ∀ t, |f'' t| ≤ M) {x y t : ℝ} (hxy : x < y) (hx : x ≤ t) (hy : t ≤ y) :
    |f x + (f y - f x) * ((t - x) / (y - x)) - f t| ≤ M * (y - x) ^ 2 / 8 := by
  have conv : ∀ e : ℝ, |e| = 1 → ConvexOn ℝ univ fun u => e * f u + M / 2 * u ^ 2 := by
    intro e he
    have d1 : ∀ u, HasDerivAt (fun u => e * f u + M / 2 * u ^ 2) (e * f' u + M * u) u := by
      intro u
      exact (((h1 u).const_mul e).add ((hasDerivAt_pow 2 u).const_mul (M / 2))).congr_deriv (by norm_num; ring)
    have d2 : ∀ u, HasDerivAt (fun u => e * f' u + M * u) (e * f'' u + M) u := by
      intro u
      exact (((h2 u).const_mul e).add ((hasDerivAt_id u).const_mul M)).congr_deriv (by ring)
    have eq1 : deriv (fun u => e * f u + M / 2 * u ^ 2) = fun u => e * f' u + M * u := funext fun u => (d1 u).deriv
    refine convexOn_univ_of_deriv2_nonneg (fun u => (d1 u).differentiableAt) ?_ ?_
    · rw [eq1]; exact fun u => (d2 u).differentiableAt
    · intro u
      rw [Function.iterate_succ_apply, Function.iterate_one, eq1, (d2 u).deriv]
      have : |e * f'' u| ≤ M := by rw [abs_mul, he, one_mul]; exact hM u
      have := (abs_le.mp this).1
      linarith
  set w := (t - x) / (y - x) with hw
  have hpos : 0 < y - x := by linarith
  have hw0 : 0 ≤ w := div_nonneg (by linarith) hpos.le
  have hw1 : w ≤ 1 := (div_le_one hpos).mpr (by linarith)
  have ht : t = (1 - w) * x + w * y := by
    have : w * (y - x) = t - x := by rw [hw]; field_simp
    linarith
  have hMnn : 0 ≤ M := (abs_nonneg _).trans (hM 0)
  have key : ∀ e : ℝ, |e| = 1 → e * f t - ((1 - w) * (e * f x) + w * (e * f y)) ≤ M * (y - x) ^ 2 / 8 := by
    intro e he
    have := (conv e he).2 (mem_univ x) (mem_univ y) (sub_nonneg.mpr hw1) hw0 (by ring)
    simp only [smul_eq_mul] at this
    rw [← ht] at this
    have e2 : (1 - w) * x ^ 2 + w * y ^ 2 - t ^ 2 = w * (1 - w) * (y - x) ^ 2 := by rw [ht]; ring
    have e3 : w * (1 - w) ≤ 1 / 4 := by nlinarith [sq_nonneg (w - 1 / 2)]
    have e4 : M / 2 * (w * (1 - w) * (y - x) ^ 2) ≤ M / 2 * (1 / 4 * (y - x) ^ 2) := by
      apply mul_le_mul_of_nonneg_left _ (by linarith)
      exact mul_le_mul_of_nonneg_right e3 (sq_nonneg _)
    nlinarith
  have k1 := key 1 (by norm_num)
  have k2 := key (-1) (by norm_num)
  rw [abs_le]
  constructor <;> nlinarith

/-- **C199, rate.**  When the exact curves have second derivatives bounded by `M`, the error over the whole range is at most
`M δ² / 8` plus the error of the simulated values at the sizes: with twice as many equally spaced sizes, a quarter. -/
theorem C199_rate (a b c δ M η : ℝ) (f f' f'' fc fc' fc'' : ℝ → ℝ) (h1 : ∀ t, HasDerivAt f (f' t) t)
    (h2 : ∀ t, HasDerivAt f' (f'' t) t) (hM : ∀ t, |f'' t| ≤ M) (h1c : ∀ t, HasDerivAt fc (fc' t) t)
    (h2c : ∀ t, HasDerivAt fc' (fc'' t) t) (hMc : ∀ t, |fc'' t| ≤ M) (rows : ℕ) (sim : ℕ → ℝ → List ℝ) (s : SimAttrs)
    (hnum : s.number = s.sizes.length) (hfine : FineSizes a b δ s.sizes) (hsim : SimNear sim s.sizes c f fc η) :
    RunNear rows sim s c a b f fc (M * δ ^ 2 / 8 + η) := by
  have hMnn : 0 ≤ M := (abs_nonneg _).trans (hM 0)
  have up : ∀ x y : ℝ, x < y → y - x ≤ δ → M * (y - x) ^ 2 / 8 ≤ M * δ ^ 2 / 8 := by
    intro x y hxy hd
    have : (y - x) ^ 2 ≤ δ ^ 2 := pow_le_pow_left₀ (by linarith) hd 2
    have := mul_le_mul_of_nonneg_left this hMnn
    linarith
  obtain ⟨g, gc, -, -, e1, ⟨r, rc, e2, e3, e4⟩, e5⟩ := run_near rows sim s hnum c a b δ hfine f fc (M * δ ^ 2 / 8) η
    (by positivity) hsim (by
      intro h hh x y t _ _ hxy hd hx hy
      rcases List.mem_cons.mp hh with rfl | hh
      · exact (chord_second h f' f'' M h1 h2 hM hxy hx hy).trans (up x y hxy hd)
      · rw [List.mem_singleton.mp hh]
        exact (chord_second fc fc' fc'' M h1c h2c hMc hxy hx hy).trans (up x y hxy hd))
  exact ⟨e1, r, rc, e2, e3, fun t ht => ⟨_, _, (e4 t ht).1, (e4 t ht).2, (e5 t ht).1, (e5 t ht).2⟩⟩

/-- A level is reached near the exact place by every function close to a strictly increasing one. -/
theorem level_near (a b p d0 : ℝ) (f : ℝ → ℝ) (hf : StrictMonoOn f (Icc a b)) (hd : d0 ∈ Ioo a b) (hp : f d0 = p) (ε : ℝ)
    (hε : 0 < ε) : ∃ m > 0, ∀ g : ℝ → ℝ, (∀ t ∈ Icc a b, |g t - f t| ≤ m) →
      (g a ≤ p ∧ p ≤ g b) ∧ ∀ d ∈ Icc a b, g d = p → |d - d0| < ε := by
  have hab : a ≤ b := (hd.1.trans hd.2).le
  set lo := max a (d0 - ε / 2) with hlo
  set hi := min b (d0 + ε / 2) with hhi
  have l1 : lo ∈ Icc a b := ⟨le_max_left _ _, max_le hab (by linarith [hd.2])⟩
  have l2 : lo < d0 := max_lt hd.1 (by linarith)
  have u1 : hi ∈ Icc a b := ⟨le_min hab (by linarith [hd.1]), min_le_left _ _⟩
  have u2 : d0 < hi := lt_min hd.2 (by linarith)
  have hd' : d0 ∈ Icc a b := Ioo_subset_Icc_self hd
  have f1 : f lo < p := hp ▸ hf l1 hd' l2
  have f2 : p < f hi := hp ▸ hf hd' u1 u2
  refine ⟨min (p - f lo) (f hi - p) / 2, by have := lt_min (sub_pos.mpr f1) (sub_pos.mpr f2); linarith, ?_⟩
  intro g hg
  have m1 := min_le_left (p - f lo) (f hi - p)
  have m2 := min_le_right (p - f lo) (f hi - p)
  have ha : a ∈ Icc a b := left_mem_Icc.mpr hab
  have hb : b ∈ Icc a b := right_mem_Icc.mpr hab
  have e1 := hf.monotoneOn ha l1 l1.1
  have e2 := hf.monotoneOn u1 hb u1.2
  refine ⟨⟨?_, ?_⟩, ?_⟩
  · have := (abs_le.mp (hg a ha)).2; linarith
  · have := (abs_le.mp (hg b hb)).1; linarith
  · intro d hd2 hgd
    have hb1 := abs_le.mp (hg d hd2)
    rw [hgd] at hb1
    have h1 : lo < d := by
      by_contra hc
      have := hf.monotoneOn hd2 l1 (not_lt.mp hc)
      linarith [hb1.2]
    have h2 : d < hi := by
      by_contra hc
      have := hf.monotoneOn u1 hd2 (not_lt.mp hc)
      linarith [hb1.1]
    have h3 : d0 - ε / 2 ≤ lo := le_max_right _ _
    have h4 : hi ≤ d0 + ε / 2 := min_le_right _ _
    rw [abs_lt]; constructor <;> linarith

/-- **C199, detection sizes.**  For exact curves that are continuous and strictly increasing and a level reached inside
the range by both: with gaps and errors small enough, `computeDetectionSize` returns sizes as close as desired to the
exact ones. -/
theorem C199_detection_size (solve : (ℝ → ℝ) → ℝ → ℝ → ℝ → ℝ) (hs : SolveSpec solve) (dataMin dataMax a b c p d0 dc0 : ℝ)
    (f fc : ℝ → ℝ) (hf : ContinuousOn f (Icc a b)) (hfc : ContinuousOn fc (Icc a b)) (hmf : StrictMonoOn f (Icc a b))
    (hmfc : StrictMonoOn fc (Icc a b)) (hd : d0 ∈ Ioo a b) (hp : f d0 = p) (hdc : dc0 ∈ Ioo a b) (hpc : fc dc0 = p) (ε : ℝ)
    (hε : 0 < ε) :
    ∃ δ > 0, ∃ η > 0, ∀ rows sim (s : SimAttrs), s.number = s.sizes.length → FineSizes a b δ s.sizes →
      SimNear sim s.sizes c f fc η → ∀ (model : ℝ → ℝ) (modelCl : ℝ → ℝ → ℝ) r rc,
      (krigingRunSim rows sim s).2.curve = some r → getPODCLModel (krigingRunSim rows sim s).2 c = .ok rc →
      (∀ t ∈ Icc a b, r t = .ok (model t) ∧ rc t = .ok (modelCl c t)) →
      ∃ d dc, sizesDetection solve dataMin dataMax a b model modelCl p none = .ok ([d], [labelP p]) ∧
        sizesDetection solve dataMin dataMax a b model modelCl p (some c) = .ok ([d, dc], [labelP p, labelPC p c]) ∧
        |d - d0| < ε ∧ |dc - dc0| < ε := by
  obtain ⟨m1, mp1, k1⟩ := level_near a b p d0 f hmf hd hp ε hε
  obtain ⟨m2, mp2, k2⟩ := level_near a b p dc0 fc hmfc hdc hpc ε hε
  set m := min m1 m2 with hm
  have hmp : 0 < m := lt_min mp1 mp2
  obtain ⟨δ1, p1, h1⟩ := chord_uniform a b f hf (m / 2) (by linarith)
  obtain ⟨δ2, p2, h2⟩ := chord_uniform a b fc hfc (m / 2) (by linarith)
  refine ⟨min δ1 δ2, lt_min p1 p2, m / 2, by linarith, ?_⟩
  intro rows sim s hnum hfine hsim model modelCl r rc hr hrc hval
  obtain ⟨g, gc, cg, cgc, -, ⟨r', rc', e2, e3, e4⟩, e5⟩ := run_near rows sim s hnum c a b _ hfine f fc (m / 2) (m / 2) (by linarith) hsim
    (by
      intro h hh
      rcases List.mem_cons.mp hh with rfl | hh
      · exact h1 _ (min_le_left _ _)
      · rw [List.mem_singleton.mp hh]; exact h2 _ (min_le_right _ _))
  have er : r' = r := by rw [e2] at hr; exact Option.some.inj hr
  have erc : rc' = rc := by rw [e3] at hrc; exact Except.ok.inj hrc
  subst er erc
  have eg : ∀ t ∈ Icc a b, model t = g t := fun t ht => by
    have := (hval t ht).1; rw [(e4 t ht).1] at this; exact (Except.ok.inj this).symm
  have egc : ∀ t ∈ Icc a b, modelCl c t = gc t := fun t ht => by
    have := (hval t ht).2; rw [(e4 t ht).2] at this; exact (Except.ok.inj this).symm
  obtain ⟨b1, q1⟩ := k1 model fun t ht => by
    rw [eg t ht]; have := (e5 t ht).1; have := min_le_left m1 m2; linarith
  obtain ⟨b2, q2⟩ := k2 (modelCl c) fun t ht => by
    rw [egc t ht]; have := (e5 t ht).2; have := min_le_right m1 m2; linarith
  have hab : a ≤ b := (hd.1.trans hd.2).le
  have C := C16_detection_size solve hs dataMin dataMax model (modelCl c) p c (some a) (some b) hab (cg.congr eg) (cgc.congr egc)
  dsimp only [Option.getD_some] at C
  obtain ⟨-, c1, -, c2⟩ := C
  obtain ⟨d, dc, hdd, i1, i2, i3, i4⟩ := c2 ⟨b1, b2⟩
  refine ⟨d, dc, ?_, hdd, q1 d i1 i2, q2 dc i3 i4⟩
  obtain ⟨d', hd', -, -⟩ := c1 b1
  have hk : computeDetectionSize solve dataMin dataMax model (some (modelCl c)) (some p) none (some a) (some b) =
      sizesDetection solve dataMin dataMax a b model modelCl p none := by
    simp [sizesDetection, computeDetectionSize]
  have e : d' = d := by
    rw [computeDetectionSize] at hd' hdd
    dsimp only [Option.getD_some] at hd' hdd
    rw [if_neg (by simpa using b1)] at hd' hdd
    rw [if_neg (by simpa using b2)] at hdd
    simp only [Except.ok.injEq, Prod.mk.injEq, List.cons.injEq] at hd' hdd
    rw [← hd'.1.1, ← hdd.1.1]
  rw [← hk, hd', e]

/-- Three sizes, a simulated sample of two values whose mean is the square of the size. -/
example : FineSizes 0 1 (1 / 2) [0, 1 / 2, 1] ∧
    (∀ i, i < [(0 : ℝ), 1 / 2, 1].length → |listMean ((fun d : ℝ => [d ^ 2 - d / 10, d ^ 2 + d / 10]) ([(0 : ℝ), 1 / 2, 1].getD i 0)) -
      (fun d : ℝ => d ^ 2) ([(0 : ℝ), 1 / 2, 1].getD i 0)| ≤ 0) ∧
    StrictMonoOn (fun d : ℝ => d ^ 2) (Icc 0 1) ∧ (1 / 2 : ℝ) ∈ Ioo (0 : ℝ) 1 := by
  refine ⟨⟨by simp, by norm_num, rfl, rfl, ?_⟩, ?_, ?_, by norm_num⟩
  · intro i hi
    have hi2 : i + 1 < 3 := hi
    have : i < 2 := by omega
    interval_cases i <;> norm_num
  · intro i _
    have : ∀ d : ℝ, listMean [d ^ 2 - d / 10, d ^ 2 + d / 10] = d ^ 2 := by
      intro d; simp [listMean]
    simp only [this, sub_self, abs_zero, le_refl]
  · intro x hx y _ hxy
    exact pow_lt_pow_left₀ hxy hx.1 (by norm_num)

/-- The bound of the rate for the square: second derivative 2, gaps of one half, error at most 1/16. -/
example (t : ℝ) (h0 : 0 ≤ t) (h1 : t ≤ 1 / 2) : |(0 : ℝ) ^ 2 + ((1 / 2) ^ 2 - 0 ^ 2) * ((t - 0) / (1 / 2 - 0)) - t ^ 2| ≤ 2 * (1 / 2 - 0) ^ 2 / 8 :=
  chord_second (fun t => t ^ 2) (fun t => 2 * t) (fun _ => 2) 2 (fun t => by simpa using hasDerivAt_pow 2 t)
    (fun t => by simpa using (hasDerivAt_id t).const_mul (2 : ℝ)) (fun t => by norm_num) (by norm_num) h0 h1

end Verif.Props
