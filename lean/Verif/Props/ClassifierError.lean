import Verif.Props.SimLimit
import Verif.Props.GridRefine
import Verif.Props.GaussDetection
import Verif.Props.CurveMonotone

/-!
# C221: what an error of the classifier does to the hit-miss POD and to its detection sizes
-/

namespace Verif.Props
open Verif.Py Verif.Model Set

variable {X : Type}

/-- Two interpolations over the same abscissae whose ordinates differ by at most `η` differ by at most `η` on the whole range; both are
continuous there. -/
theorem interp_close (xs ys ys0 : List ℝ) (hlen : xs.length = ys.length) (hlen0 : xs.length = ys0.length) (hne : xs ≠ [])
    (hinc : xs.Pairwise (· < ·)) (η : ℝ) (hη : ∀ i, i < xs.length → |ys.getD i 0 - ys0.getD i 0| ≤ η) (r r0 : ℝ → Res ℝ)
    (hr : interp1d xs ys = .ok r) (hr0 : interp1d xs ys0 = .ok r0) :
    ∃ g g0 : ℝ → ℝ, ContinuousOn g (Icc (xs.getD 0 0) (xs.getD (xs.length - 1) 0)) ∧
      ContinuousOn g0 (Icc (xs.getD 0 0) (xs.getD (xs.length - 1) 0)) ∧
      ∀ t ∈ Icc (xs.getD 0 0) (xs.getD (xs.length - 1) 0), r t = .ok (g t) ∧ r0 t = .ok (g0 t) ∧ |g t - g0 t| ≤ η := by
  obtain ⟨r0', h0, -, hnode, hseg, -, -⟩ := interp1d_spec xs ys0 hlen0 hne hinc
  rw [hr0, Except.ok.injEq] at h0
  subst h0
  set f : ℝ → ℝ := fun t => match r0 t with | .ok v => v | .error _ => 0 with hf
  have fn : ∀ i, i < xs.length → f (xs.getD i 0) = ys0.getD i 0 := fun i hi => by simp only [hf, hnode i hi]
  have hch : ∀ i t, i + 1 < xs.length → xs.getD i 0 ≤ t → t ≤ xs.getD (i + 1) 0 →
      |f (xs.getD i 0) + (f (xs.getD (i + 1) 0) - f (xs.getD i 0)) *
        ((t - xs.getD i 0) / (xs.getD (i + 1) 0 - xs.getD i 0)) - f t| ≤ 0 := by
    intro i t hi h1 h2
    rw [fn i (by omega), fn (i + 1) hi]
    simp only [hf, hseg i t hi h1 h2]
    simp
  obtain ⟨g0, ⟨s0, hs0, v0⟩, c0, -⟩ := interp_near xs ys0 hlen0 hne hinc f 0 0 le_rfl (fun i hi => by rw [fn i hi]; simp) hch
  obtain ⟨g, ⟨s, hs, v⟩, c, d⟩ := interp_near xs ys hlen hne hinc f 0 η le_rfl (fun i hi => by rw [fn i hi]; exact hη i hi) hch
  rw [hr0, Except.ok.injEq] at hs0
  rw [hr, Except.ok.injEq] at hs
  subst hs0 hs
  refine ⟨g, g0, c, c0, fun t ht => ⟨v t ht.1 ht.2, v0 t ht.1 ht.2, ?_⟩⟩
  have e : f t = g0 t := by simp only [hf, v0 t ht.1 ht.2]
  have := d t ht.1 ht.2
  rw [e] at this
  linarith

theorem listMean_close (xs : List X) (u v : X → ℝ) : |listMean (xs.map u) - listMean (xs.map v)| ≤ listMean (xs.map fun x => |u x - v x|) := by
  have h : ∀ l : List X, |(l.map u).sum - (l.map v).sum| ≤ (l.map fun x => |u x - v x|).sum := by
    intro l
    induction l with
    | nil => simp
    | cons x l ih =>
      simp only [List.map_cons, List.sum_cons]
      have := abs_add_le (u x - v x) ((l.map u).sum - (l.map v).sum)
      rw [show u x + (l.map u).sum - (v x + (l.map v).sum) = u x - v x + ((l.map u).sum - (l.map v).sum) by ring]
      linarith
  simp only [listMean, List.length_map]
  rw [← sub_div, abs_div, abs_of_nonneg (Nat.cast_nonneg xs.length : (0 : ℝ) ≤ xs.length)]
  exact div_le_div_of_nonneg_right (h xs) (Nat.cast_nonneg _)

theorem quantile_close {xs : List X} (hne : xs ≠ []) (u v : X → ℝ) (q η : ℝ) (h : ∀ x ∈ xs, |u x - v x| ≤ η) :
    |quantile (xs.map u) q - quantile (xs.map v) q| ≤ η := by
  have one : ∀ u v : X → ℝ, (∀ x ∈ xs, |u x - v x| ≤ η) → quantile (xs.map u) q ≤ quantile (xs.map v) q + η := by
    intro u v h
    rw [← quantile_add (by simpa using hne)]
    apply quantile_le
    rw [List.map_map, List.forall₂_map_left_iff, List.forall₂_map_right_iff, List.forall₂_same]
    intro x hx
    have := (abs_le.mp (h x hx)).2
    simp only [Function.comp_apply]
    linarith
  rw [abs_le]
  have a := one u v h
  have b := one v u fun x hx => by rw [abs_sub_comm]; exact h x hx
  constructor <;> linarith

/-- **C221, curves.**  Replace the truth `t` (0 or 1, or a probability of detection) by a classifier `c`.  At every size of the range the POD
moves by at most the largest of the mean absolute errors of the classifier over the sample at the requested sizes, and the curve at a
confidence level by at most the largest error at the points of the sample. -/
theorem C221_curves (zero : ℝ × X) (c t : ℝ × X → ℝ) (xs : List X) (hxs : xs ≠ []) (s : SimAttrs) (hne : s.sizes ≠ [])
    (hs : s.sizes.Pairwise (· < ·)) (hnum : s.number = s.sizes.length) (ε η level : ℝ)
    (hε : ∀ a ∈ s.sizes, (xs.map fun x => |c (a, x) - t (a, x)|).sum / xs.length ≤ ε)
    (hη : ∀ a ∈ s.sizes, ∀ x ∈ xs, |c (a, x) - t (a, x)| ≤ η) :
    ∃ f f0 g g0, (hitMissRunSim zero c xs s).2.curve = some f ∧ (hitMissRunSim zero t xs s).2.curve = some f0 ∧
      getPODCLModel (hitMissRunSim zero c xs s).2 level = .ok g ∧ getPODCLModel (hitMissRunSim zero t xs s).2 level = .ok g0 ∧
      ∃ F F0 G G0 : ℝ → ℝ, (∀ H ∈ [F, F0, G, G0], ContinuousOn H (Icc (s.sizes.getD 0 0) (s.sizes.getD (s.sizes.length - 1) 0))) ∧
      ∀ a ∈ Icc (s.sizes.getD 0 0) (s.sizes.getD (s.sizes.length - 1) 0),
        (f a = .ok (F a) ∧ f0 a = .ok (F0 a) ∧ |F a - F0 a| ≤ ε) ∧ g a = .ok (G a) ∧ g0 a = .ok (G0 a) ∧ |G a - G0 a| ≤ η := by
  obtain ⟨f, hrun, hf⟩ := hitMissRunSim_eq zero c xs s (hs.imp fun h => h.le) hnum
  obtain ⟨f0, hrun0, hf0⟩ := hitMissRunSim_eq zero t xs s (hs.imp fun h => h.le) hnum
  obtain ⟨g, hg, -⟩ := interp1d_spec s.sizes
    ((s.sizes.map fun a => xs.map fun x => c (a, x)).map fun col => quantile col (1 - level)) (by simp) hne hs
  obtain ⟨g0, hg0, -⟩ := interp1d_spec s.sizes
    ((s.sizes.map fun a => xs.map fun x => t (a, x)).map fun col => quantile col (1 - level)) (by simp) hne hs
  refine ⟨f, f0, g, g0, by rw [hrun], by rw [hrun0], by rw [hrun]; exact hg, by rw [hrun0]; exact hg0, ?_⟩
  have hmem : ∀ i, i < s.sizes.length → s.sizes.getD i 0 ∈ s.sizes := fun i hi => by
    rw [List.getD_eq_getElem _ _ hi]; exact List.getElem_mem hi
  have hget : ∀ (h : ℝ → ℝ) (i : ℕ), i < s.sizes.length → (s.sizes.map h).getD i 0 = h (s.sizes.getD i 0) := fun h i hi => by
    rw [List.getD_eq_getElem _ _ (by simpa using hi), List.getD_eq_getElem _ _ hi, List.getElem_map]
  obtain ⟨F, F0, cF, cF0, hF⟩ := interp_close s.sizes _ _ (by simp) (by simp) hne hs ε (fun i hi => by
    rw [hget _ i hi, hget _ i hi]
    refine (listMean_close xs _ _).trans ?_
    have := hε _ (hmem i hi)
    rwa [listMean, List.length_map]) f f0 hf hf0
  rw [List.map_map] at hg hg0
  obtain ⟨G, G0, cG, cG0, hG⟩ := interp_close s.sizes _ _ (by simp) (by simp) hne hs η (fun i hi => by
    rw [hget _ i hi, hget _ i hi]
    exact quantile_close hxs _ _ _ _ (hη _ (hmem i hi))) g g0 hg hg0
  refine ⟨F, F0, G, G0, ?_, fun a ha => ⟨hF a ha, hG a ha⟩⟩
  simp only [List.mem_cons, List.not_mem_nil, or_false]
  rintro H (rfl | rfl | rfl | rfl) <;> assumption

/-- **C221, detection sizes.**  Let the computed curves be within `ε` (POD) and `η` (confidence curve) of two other curves `f0`, `g0` increasing
on the search interval.  If `f0` takes the values `p - ε` and `p + ε` at `dl` and `du`, and `g0` the values `p - η` and `p + η` at `cl` and
`cu`, sizes are returned for the level `p`; the first lies between `dl` and `du`, the second between `cl` and `cu`. -/
theorem C221_detection_sizes (solve : (ℝ → ℝ) → ℝ → ℝ → ℝ → ℝ) (hs : SolveSpec solve) (dataMin dataMax a b : ℝ) (f f0 g0 : ℝ → ℝ)
    (modelCl : ℝ → ℝ → ℝ) (p c ε η : ℝ) (hf : ContinuousOn f (Icc a b)) (hg : ContinuousOn (modelCl c) (Icc a b))
    (hclose : ∀ x ∈ Icc a b, |f x - f0 x| ≤ ε) (hcloseg : ∀ x ∈ Icc a b, |modelCl c x - g0 x| ≤ η)
    (hmono : StrictMonoOn f0 (Icc a b)) (hmonog : StrictMonoOn g0 (Icc a b))
    (dl du cl cu : ℝ) (hl : dl ∈ Icc a b) (hu : du ∈ Icc a b) (el : f0 dl = p - ε) (eu : f0 du = p + ε)
    (hcl : cl ∈ Icc a b) (hcu : cu ∈ Icc a b) (ecl : g0 cl = p - η) (ecu : g0 cu = p + η) :
    ∃ d dc, sizesDetection solve dataMin dataMax a b f modelCl p none = .ok ([d], [labelP p]) ∧
      sizesDetection solve dataMin dataMax a b f modelCl p (some c) = .ok ([d, dc], [labelP p, labelPC p c]) ∧
      (dl ≤ d ∧ d ≤ du) ∧ cl ≤ dc ∧ dc ≤ cu := by
  have hab : a ≤ b := hl.1.trans hl.2
  have La := left_mem_Icc.mpr hab
  have Lb := right_mem_Icc.mpr hab
  -- one curve
  have one : ∀ (h h0 : ℝ → ℝ) (δ : ℝ), ContinuousOn h (Icc a b) → (∀ x ∈ Icc a b, |h x - h0 x| ≤ δ) → StrictMonoOn h0 (Icc a b) →
      ∀ l ∈ Icc a b, ∀ u ∈ Icc a b, h0 l = p - δ → h0 u = p + δ →
      (h a ≤ p ∧ p ≤ h b) ∧ l ≤ solve h p a b ∧ solve h p a b ≤ u := by
    intro h h0 δ ch hc hm l hl u hu el eu
    have ha := abs_le.mp (hc a La)
    have hb := abs_le.mp (hc b Lb)
    have m1 : h0 a ≤ p - δ := el ▸ hm.monotoneOn La hl hl.1
    have m2 : p + δ ≤ h0 b := eu ▸ hm.monotoneOn hu Lb hu.2
    have h1 : h a ≤ p := by linarith [ha.2]
    have h2 : p ≤ h b := by linarith [hb.1]
    obtain ⟨hin, hval⟩ := hs h p a b hab ch h1 h2
    have hd := abs_le.mp (hc _ hin)
    refine ⟨⟨h1, h2⟩, ?_, ?_⟩
    · by_contra hlt
      have := hm hin hl (not_le.mp hlt)
      linarith [hd.2]
    · by_contra hlt
      have := hm hu hin (not_le.mp hlt)
      linarith [hd.1]
  obtain ⟨r1, i1⟩ := one f f0 ε hf hclose hmono dl hl du hu el eu
  obtain ⟨r2, i2⟩ := one (modelCl c) g0 η hg hcloseg hmonog cl hcl cu hcu ecl ecu
  refine ⟨solve f p a b, solve (modelCl c) p a b, ?_, ?_, i1, i2⟩
  · simp [sizesDetection, computeDetectionSize, r1]
  · simp [sizesDetection, computeDetectionSize, r1, r2]

/-- **C221, sharp.**  Both ends are reached: a POD too large by `ε` everywhere gives the size `dl`, one too small by `ε` the size `du`. -/
theorem C221_sharp (solve : (ℝ → ℝ) → ℝ → ℝ → ℝ → ℝ) (hs : SolveSpec solve) (dataMin dataMax a b : ℝ) (f0 : ℝ → ℝ)
    (modelCl : ℝ → ℝ → ℝ) (p ε : ℝ) (hf : ContinuousOn f0 (Icc a b)) (hmono : StrictMonoOn f0 (Icc a b))
    (dl du : ℝ) (hl : dl ∈ Icc a b) (hu : du ∈ Icc a b) (el : f0 dl = p - ε) (eu : f0 du = p + ε) :
    sizesDetection solve dataMin dataMax a b (fun x => f0 x + ε) modelCl p none = .ok ([dl], [labelP p]) ∧
    sizesDetection solve dataMin dataMax a b (fun x => f0 x - ε) modelCl p none = .ok ([du], [labelP p]) := by
  have hab : a ≤ b := hl.1.trans hl.2
  have La := left_mem_Icc.mpr hab
  have Lb := right_mem_Icc.mpr hab
  have l1 := hmono.monotoneOn La hl hl.1
  have l2 := hmono.monotoneOn hl Lb hl.2
  have u1 := hmono.monotoneOn La hu hu.1
  have u2 := hmono.monotoneOn hu Lb hu.2
  constructor
  · have b1 : f0 a + ε ≤ p := by linarith
    have b2 : p ≤ f0 b + ε := by linarith
    obtain ⟨hin, hval⟩ := hs (fun x => f0 x + ε) p a b hab (hf.add continuousOn_const) b1 b2
    have : solve (fun x => f0 x + ε) p a b = dl := hmono.injOn hin hl (by linarith)
    simp [sizesDetection, computeDetectionSize, b1, b2, this]
  · have b1 : f0 a - ε ≤ p := by linarith
    have b2 : p ≤ f0 b - ε := by linarith
    obtain ⟨hin, hval⟩ := hs (fun x => f0 x - ε) p a b hab (hf.sub continuousOn_const) b1 b2
    have : solve (fun x => f0 x - ε) p a b = du := hmono.injOn hin hu (by linarith)
    have b1' : f0 a ≤ p + ε := by linarith
    simp [sizesDetection, computeDetectionSize, b1', b2, this]

/-- Three sizes, two parameter points; the classifier is wrong by 0.2 at one point of two: the POD moves by at most 0.1. -/
example : ∃ f f0, (hitMissRunSim (0, 0) (fun q : ℝ × ℕ => if q.2 = 0 then q.1 / 4 + 1 / 5 else q.1 / 4) [0, 1] ⟨⟨[1, 2, 3], 3⟩, none, none⟩).2.curve = some f ∧
    (hitMissRunSim (0, 0) (fun q : ℝ × ℕ => q.1 / 4) [0, 1] ⟨⟨[1, 2, 3], 3⟩, none, none⟩).2.curve = some f0 ∧
    ∃ F F0 : ℝ → ℝ, ∀ a ∈ Icc (1 : ℝ) 3, f a = .ok (F a) ∧ f0 a = .ok (F0 a) ∧ |F a - F0 a| ≤ 1 / 10 := by
  obtain ⟨f, f0, _, _, h1, h2, _, _, F, F0, _, _, _, h⟩ := C221_curves (0, 0) (fun q : ℝ × ℕ => if q.2 = 0 then q.1 / 4 + 1 / 5 else q.1 / 4)
    (fun q => q.1 / 4) [0, 1] (by simp) ⟨⟨[1, 2, 3], 3⟩, none, none⟩ (by simp) (by norm_num) rfl (1 / 10) (1 / 5) (19 / 20)
    (by intro a _; norm_num [abs_of_nonneg]) (by intro a _ x _; by_cases hx : x = 0 <;> norm_num [hx, abs_of_nonneg])
  exact ⟨f, f0, h1, h2, F, F0, fun a ha => (h a ha).1⟩

/-- The line from 0 to 1 known up to 1/10: the size for the level 1/2 lies between 2/5 and 3/5. -/
example (solve : (ℝ → ℝ) → ℝ → ℝ → ℝ → ℝ) (hs : SolveSpec solve) : ∃ d dc,
    sizesDetection solve 0 1 0 1 (fun x => x + 1 / 10) (fun _ x => x - 1 / 10) (1 / 2) none = .ok ([d], [labelP (1 / 2)]) ∧
      sizesDetection solve 0 1 0 1 (fun x => x + 1 / 10) (fun _ x => x - 1 / 10) (1 / 2) (some (19 / 20)) =
        .ok ([d, dc], [labelP (1 / 2), labelPC (1 / 2) (19 / 20)]) ∧
      ((2 / 5 : ℝ) ≤ d ∧ d ≤ 3 / 5) ∧ (2 / 5 : ℝ) ≤ dc ∧ dc ≤ 3 / 5 :=
  C221_detection_sizes solve hs 0 1 0 1 _ (fun x => x) (fun x => x) _ _ _ (1 / 10) (1 / 10) (by fun_prop) (by fun_prop)
    (by intro x _; norm_num [abs_of_nonneg]) (by intro x _; norm_num [abs_of_nonneg]) (fun _ _ _ _ h => h) (fun _ _ _ _ h => h) _ _ _ _
    (by norm_num) (by norm_num) (by norm_num) (by norm_num) (by norm_num) (by norm_num) (by norm_num) (by norm_num)

end Verif.Props
