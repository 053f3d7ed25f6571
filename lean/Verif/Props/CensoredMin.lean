import Verif.Props.CensoredFit
import Verif.Props.Stats
import Verif.Props.PliDraw
import Verif.Props.GaussPOD
import Verif.Model.LinearRun
import Verif.Model.ResidualVar
import Mathlib.Topology.Order.Compact
import Mathlib.Topology.Algebra.Monoid

/-!
# C115, C116: minimum of the objective of the censored fit, thresholds that censor nothing
-/

namespace Verif.Props
open Verif.Py Verif.Model ProbabilityTheory MeasureTheory Set

/-! ## C115 -/

/-- Sum of squared errors of a line on a list of observations. -/
noncomputable def listSse (unc : List (ℝ × ℝ)) (b0 b1 : ℝ) : ℝ := (unc.map fun o => (o.2 - (b0 + b1 * o.1)) ^ 2).sum

theorem list_sum_fin {α : Type} (l : List α) (f : α → ℝ) : (l.map f).sum = ∑ i : Fin l.length, f l[i] := by
  conv_lhs => rw [← List.ofFn_getElem (xs := l), List.map_ofFn, List.sum_ofFn]
  rfl

theorem listSse_fin (unc : List (ℝ × ℝ)) (b0 b1 : ℝ) :
    listSse unc b0 b1 = sse (fun i : Fin unc.length => unc[i].1) (fun i => unc[i].2) b0 b1 := list_sum_fin _ _

theorem listSse_nonneg (unc : List (ℝ × ℝ)) (b0 b1 : ℝ) : 0 ≤ listSse unc b0 b1 := by
  rw [listSse_fin]; exact Finset.sum_nonneg fun i _ => sq_nonneg _

/-- Value of the objective for a positive scale. -/
noncomputable def nll (unc : List (ℝ × ℝ)) (noisy sat : List ℝ) (tn ts : ℝ) (X : ℝ × ℝ × ℝ) : ℝ :=
  unc.length * Real.log (X.2.2 * Real.sqrt (2 * Real.pi)) + 1 / (2 * X.2.2 ^ 2) * listSse unc X.1 X.2.1
    + -(noisy.map fun x => Real.log (Phi ((tn - (X.1 + X.2.1 * x)) / X.2.2))).sum
    + -(sat.map fun x => Real.log (1 - Phi ((ts - (X.1 + X.2.1 * x)) / X.2.2))).sum

theorem MLE_eq_nll (unc : List (ℝ × ℝ)) (noisy sat : List ℝ) (tn ts : ℝ) (X : ℝ × ℝ × ℝ) (hs : 0 < X.2.2) :
    MLE X (unc.map Prod.fst) noisy sat (unc.map Prod.snd) (some tn) (some ts) = .ok (.fin (nll unc noisy sat tn ts X)) := by
  obtain ⟨b0, b1, s⟩ := X
  have hp : 0 < s * Real.sqrt (2 * Real.pi) := by positivity
  have hs' : s ≠ 0 := ne_of_gt hs
  have h2s : (2 * s ^ 2 : ℝ) ≠ 0 := by positivity
  have en : (noisy.map fun x => flog (fpNormal (F.div (.fin (tn - (b0 + b1 * x))) (.fin s))))
      = (noisy.map fun x => Real.log (Phi ((tn - (b0 + b1 * x)) / s))).map F.fin := by
    rw [List.map_map]
    apply List.map_congr_left
    intro x _
    simp [F.div_fin _ hs', fpNormal, flog, Phi_pos]
  have es : (sat.map fun x => flog (F.sub (.fin 1) (fpNormal (F.div (.fin (ts - (b0 + b1 * x))) (.fin s)))))
      = (sat.map fun x => Real.log (1 - Phi ((ts - (b0 + b1 * x)) / s))).map F.fin := by
    rw [List.map_map]
    apply List.map_congr_left
    intro x _
    have := Phi_lt_one ((ts - (b0 + b1 * x)) / s)
    simp [F.div_fin _ hs', fpNormal, flog, F.sub, ← sub_eq_add_neg, this]
  simp only [MLE, bind, Except.bind, pure, Except.pure, List.map_map, Function.comp_def]
  rw [zipWith_map_pairs unc (fun y x => (y - (b0 + b1 * x)) ^ 2), en, es, F.sum_fin, F.sum_fin]
  have e1 : flog (.fin (s * Real.sqrt (2 * Real.pi))) = .fin (Real.log (s * Real.sqrt (2 * Real.pi))) := if_pos hp
  rw [e1, F.div_fin _ h2s]
  simp only [F.mul_fin, F.add_fin, F.neg_fin, F.isNan, Bool.false_eq_true, if_false, List.length_map]
  rfl

theorem neg_log_sum_nonneg (l : List ℝ) (f : ℝ → ℝ) (h0 : ∀ x, 0 < f x) (h1 : ∀ x, f x ≤ 1) :
    0 ≤ -(l.map fun x => Real.log (f x)).sum := by
  induction l with
  | nil => simp
  | cons a l ih =>
    have := Real.log_nonpos (h0 a).le (h1 a)
    simp only [List.map_cons, List.sum_cons]
    linarith

/-- The censored observations only increase the objective. -/
theorem nll_ge (unc : List (ℝ × ℝ)) (noisy sat : List ℝ) (tn ts : ℝ) (X : ℝ × ℝ × ℝ) :
    unc.length * Real.log (X.2.2 * Real.sqrt (2 * Real.pi)) + 1 / (2 * X.2.2 ^ 2) * listSse unc X.1 X.2.1
      ≤ nll unc noisy sat tn ts X := by
  have h1 := neg_log_sum_nonneg noisy (fun x => Phi ((tn - (X.1 + X.2.1 * x)) / X.2.2)) (fun _ => Phi_pos _)
    fun _ => (Phi_lt_one _).le
  have h2 := neg_log_sum_nonneg sat (fun x => 1 - Phi ((ts - (X.1 + X.2.1 * x)) / X.2.2))
    (fun _ => sub_pos.2 (Phi_lt_one _)) fun _ => by linarith [Phi_pos ((ts - (X.1 + X.2.1 * ‹ℝ›)) / X.2.2)]
  unfold nll
  linarith

theorem continuousOn_list_sum {β : Type} (l : List β) (f : β → ℝ × ℝ × ℝ → ℝ) (S : Set (ℝ × ℝ × ℝ))
    (h : ∀ o ∈ l, ContinuousOn (f o) S) : ContinuousOn (fun X => (l.map fun o => f o X).sum) S := by
  induction l with
  | nil => simpa using continuousOn_const
  | cons a l ih =>
    simp only [List.map_cons, List.sum_cons]
    exact (h a (by simp)).add (ih fun o ho => h o (by simp [ho]))

theorem nll_continuousOn (unc : List (ℝ × ℝ)) (noisy sat : List ℝ) (tn ts : ℝ) :
    ContinuousOn (nll unc noisy sat tn ts) {X | 0 < X.2.2} := by
  have hS : ContinuousOn (fun X : ℝ × ℝ × ℝ => X.2.2) {X | 0 < X.2.2} := by fun_prop
  have hne : ∀ X ∈ {X : ℝ × ℝ × ℝ | 0 < X.2.2}, X.2.2 ≠ 0 := fun X hX => ne_of_gt hX
  have hpi : Real.sqrt (2 * Real.pi) ≠ 0 := by positivity
  have hz : ∀ t x, ContinuousOn (fun X : ℝ × ℝ × ℝ => Phi ((t - (X.1 + X.2.1 * x)) / X.2.2)) {X | 0 < X.2.2} := by
    intro t x
    exact Phi_continuous.comp_continuousOn (ContinuousOn.div (by fun_prop) hS hne)
  unfold nll
  refine ((ContinuousOn.add ?_ ?_).add ?_).add ?_
  · apply continuousOn_const.mul
    exact ContinuousOn.log (by fun_prop) fun X hX => mul_ne_zero (hne X hX) hpi
  · apply ContinuousOn.mul
    · apply ContinuousOn.div continuousOn_const (by fun_prop)
      intro X hX
      have := hne X hX
      positivity
    · unfold listSse
      apply continuousOn_list_sum unc (fun o X => (o.2 - (X.1 + X.2.1 * o.1)) ^ 2)
      intro o _; fun_prop
  · apply ContinuousOn.neg
    apply continuousOn_list_sum noisy (fun x X => Real.log (Phi ((tn - (X.1 + X.2.1 * x)) / X.2.2)))
    intro x _
    exact (hz tn x).log fun X _ => (Phi_pos _).ne'
  · apply ContinuousOn.neg
    apply continuousOn_list_sum sat (fun x X => Real.log (1 - Phi ((ts - (X.1 + X.2.1 * x)) / X.2.2)))
    intro x _
    exact (continuousOn_const.sub (hz ts x)).log fun X _ => (sub_pos.2 (Phi_lt_one _)).ne'

/-- Without an exact fit the squared error is bounded below by a positive number. -/
theorem listSse_pos (unc : List (ℝ × ℝ)) (hx : ∃ o ∈ unc, ∃ o' ∈ unc, o.1 ≠ o'.1)
    (hline : ¬ ∃ b0 b1 : ℝ, ∀ o ∈ unc, o.2 = b0 + b1 * o.1) : ∃ s0, 0 < s0 ∧ ∀ b0 b1, s0 ≤ listSse unc b0 b1 := by
  set x : Fin unc.length → ℝ := fun i => unc[i].1
  set y : Fin unc.length → ℝ := fun i => unc[i].2
  have hx' : ∃ i j, x i ≠ x j := by
    obtain ⟨o, ho, o', ho', h⟩ := hx
    obtain ⟨i, hi, rfl⟩ := List.getElem_of_mem ho
    obtain ⟨j, hj, rfl⟩ := List.getElem_of_mem ho'
    exact ⟨⟨i, hi⟩, ⟨j, hj⟩, h⟩
  obtain ⟨hmin, -⟩ := C27_ols_optimal x y hx'
  refine ⟨sse x y (olsIntercept x y) (olsSlope x y), ?_, fun b0 b1 => by rw [listSse_fin]; exact hmin b0 b1⟩
  apply lt_of_le_of_ne (Finset.sum_nonneg fun i _ => sq_nonneg _)
  intro h0
  apply hline
  refine ⟨olsIntercept x y, olsSlope x y, fun o ho => ?_⟩
  obtain ⟨i, hi, rfl⟩ := List.getElem_of_mem ho
  have := (Finset.sum_eq_zero_iff_of_nonneg (fun i _ => sq_nonneg _)).1 h0.symm ⟨i, hi⟩ (Finset.mem_univ _)
  have := pow_eq_zero_iff (two_ne_zero) |>.1 this
  have e : unc[i].2 - (olsIntercept x y + olsSlope x y * unc[i].1) = 0 := this
  linarith

/-- Lower and upper bound of the scale from a bound of the objective. -/
theorem scale_bounds (n : ℕ) (hn : 0 < n) (s0 : ℝ) (hs0 : 0 < s0) (M : ℝ) :
    ∃ lo hi, 0 < lo ∧ ∀ s, 0 < s → n * Real.log s + s0 / (2 * s ^ 2) ≤ M → lo ≤ s ∧ s ≤ hi := by
  have hn' : (1 : ℝ) ≤ n := by exact_mod_cast hn
  set t0 : ℝ := max 1 (2 * (n + |M| + 1) / s0) with ht0
  have ht0pos : 0 < t0 := lt_of_lt_of_le one_pos (le_max_left _ _)
  refine ⟨1 / t0, Real.exp |M|, by positivity, fun s hs h => ⟨?_, ?_⟩⟩
  · by_contra hlt
    push Not at hlt
    have ht : t0 < 1 / s := by
      rw [lt_div_iff₀ hs]; rw [lt_div_iff₀ ht0pos] at hlt; linarith
    set t := 1 / s with htdef
    have h1 : 1 < t := lt_of_le_of_lt (le_max_left _ _) ht
    have h2 : 2 * (n + |M| + 1) / s0 < t := lt_of_le_of_lt (le_max_right _ _) ht
    have hlog : -t ≤ Real.log s := by
      have := Real.log_le_sub_one_of_pos (show (0 : ℝ) < t by positivity)
      rw [htdef, one_div, Real.log_inv] at this
      rw [htdef, one_div]; linarith
    have hq : s0 / (2 * s ^ 2) = s0 * t ^ 2 / 2 := by rw [htdef]; field_simp
    rw [hq] at h
    rw [div_lt_iff₀ hs0] at h2
    have h3 : (n + |M| + 1) * t < s0 * t ^ 2 / 2 := by nlinarith
    have h4 : -(n * t) ≤ n * Real.log s := by nlinarith
    have h5 : |M| + 1 ≤ (|M| + 1) * t := by nlinarith [abs_nonneg M]
    have := le_abs_self M
    nlinarith
  · have h0 : 0 ≤ s0 / (2 * s ^ 2) := by positivity
    by_contra hlt
    push Not at hlt
    have h1 : |M| < Real.log s := by rwa [Real.lt_log_iff_exp_lt hs]
    have h2 : Real.log s ≤ n * Real.log s := by nlinarith [abs_nonneg M]
    have := le_abs_self M
    linarith

/-- **C115, the minimum exists.**  When the uncensored observations have two different defects and no line goes through all of them, the
objective of the censored fit attains its minimum, at a positive scale. -/
theorem C115_minimum (unc : List (ℝ × ℝ)) (noisy sat : List ℝ) (tn ts : ℝ)
    (hx : ∃ o ∈ unc, ∃ o' ∈ unc, o.1 ≠ o'.1) (hline : ¬ ∃ b0 b1 : ℝ, ∀ o ∈ unc, o.2 = b0 + b1 * o.1) :
    ∃ X v, 0 < X.2.2 ∧ MLE X (unc.map Prod.fst) noisy sat (unc.map Prod.snd) (some tn) (some ts) = .ok v ∧
      ∀ X', ∃ w, MLE X' (unc.map Prod.fst) noisy sat (unc.map Prod.snd) (some tn) (some ts) = .ok w ∧ F.le v w = true := by
  obtain ⟨s0, hs0, hsse⟩ := listSse_pos unc hx hline
  obtain ⟨o, ho, o', ho', hoo⟩ := hx
  have hn : 0 < unc.length := List.length_pos_of_mem ho
  set N := nll unc noisy sat tn ts with hN
  set L := Real.log (Real.sqrt (2 * Real.pi)) with hL
  have hpi : 0 < Real.sqrt (2 * Real.pi) := by positivity
  set M := N (0, 0, 1) with hM
  obtain ⟨lo, hi, hlo, hsc⟩ := scale_bounds unc.length hn s0 hs0 (M - unc.length * L)
  have hlog : ∀ s, 0 < s → Real.log (s * Real.sqrt (2 * Real.pi)) = Real.log s + L := fun s hs =>
    Real.log_mul hs.ne' hpi.ne'
  -- a sublevel set is bounded
  set K := 2 * hi ^ 2 * (|M| + unc.length * |Real.log (lo * Real.sqrt (2 * Real.pi))|) with hK
  set R := |o.2| + |o'.2| + 2 * (K + 1) with hR
  set B1 := R / |o.1 - o'.1| with hB1
  set B0 := R + B1 * |o.1| with hB0
  have hd : 0 < |o.1 - o'.1| := abs_pos.2 (sub_ne_zero.2 hoo)
  have hbox : ∀ X : ℝ × ℝ × ℝ, 0 < X.2.2 → N X ≤ M →
      X ∈ (Icc (-B0) B0 ×ˢ (Icc (-B1) B1 ×ˢ Icc lo hi) : Set (ℝ × ℝ × ℝ)) := by
    rintro ⟨b0, b1, s⟩ hs hX
    dsimp only at hs
    have hge := (nll_ge unc noisy sat tn ts (b0, b1, s)).trans hX
    dsimp only at hge
    rw [hlog s hs] at hge
    have h2s : 0 < 2 * s ^ 2 := by positivity
    have hq : s0 / (2 * s ^ 2) ≤ 1 / (2 * s ^ 2) * listSse unc b0 b1 := by
      rw [div_eq_mul_inv, mul_comm, one_div]
      exact mul_le_mul_of_nonneg_left (hsse b0 b1) (by positivity)
    obtain ⟨h1, h2⟩ := hsc s hs (by linarith)
    have hS : listSse unc b0 b1 ≤ K := by
      have hmono : Real.log (lo * Real.sqrt (2 * Real.pi)) ≤ Real.log s + L := by
        rw [← hlog s hs]
        exact Real.log_le_log (by positivity) (mul_le_mul_of_nonneg_right h1 hpi.le)
      have ha := neg_abs_le (Real.log (lo * Real.sqrt (2 * Real.pi)))
      have hb := le_abs_self M
      have hnn : (0 : ℝ) ≤ unc.length := by positivity
      have h3 : 1 / (2 * s ^ 2) * listSse unc b0 b1 ≤ |M| + unc.length * |Real.log (lo * Real.sqrt (2 * Real.pi))| := by
        nlinarith
      rw [one_div, inv_mul_le_iff₀ h2s] at h3
      refine h3.trans ?_
      rw [hK]
      apply mul_le_mul_of_nonneg_right
      · have : s ^ 2 ≤ hi ^ 2 := by apply pow_le_pow_left₀ hs.le h2
        linarith
      · positivity
    have hterm : ∀ p ∈ unc, |p.2 - (b0 + b1 * p.1)| ≤ K + 1 := by
      intro p hp
      have h4 : (p.2 - (b0 + b1 * p.1)) ^ 2 ≤ listSse unc b0 b1 := by
        apply List.single_le_sum
        · intro v hv
          obtain ⟨q, -, rfl⟩ := List.mem_map.1 hv
          positivity
        · exact List.mem_map.2 ⟨p, hp, rfl⟩
      rw [← sq_abs] at h4
      nlinarith [abs_nonneg (p.2 - (b0 + b1 * p.1))]
    have e1 := hterm o ho
    have e2 := hterm o' ho'
    have hb1 : |b1| ≤ B1 := by
      rw [hB1, le_div_iff₀ hd, ← abs_mul]
      have : b1 * (o.1 - o'.1) = (o.2 - o'.2) - ((o.2 - (b0 + b1 * o.1)) - (o'.2 - (b0 + b1 * o'.1))) := by ring
      rw [this]
      refine (abs_sub _ _).trans ?_
      have := abs_sub o.2 o'.2
      have := abs_sub (o.2 - (b0 + b1 * o.1)) (o'.2 - (b0 + b1 * o'.1))
      rw [hR]; linarith
    have hb0 : |b0| ≤ B0 := by
      have : b0 = o.2 - ((o.2 - (b0 + b1 * o.1)) + b1 * o.1) := by ring
      rw [this]
      refine (abs_sub _ _).trans ?_
      have h5 := abs_add_le (o.2 - (b0 + b1 * o.1)) (b1 * o.1)
      rw [abs_mul] at h5
      have h6 := mul_le_mul_of_nonneg_right hb1 (abs_nonneg o.1)
      have h7 : 0 ≤ K + 1 := (abs_nonneg _).trans e1
      rw [hB0, hR]
      linarith [abs_nonneg o'.2]
    exact ⟨abs_le.1 hb0, abs_le.1 hb1, h1, h2⟩
  have hcomp : IsCompact (Icc (-B0) B0 ×ˢ (Icc (-B1) B1 ×ˢ Icc lo hi) : Set (ℝ × ℝ × ℝ)) :=
    isCompact_Icc.prod (isCompact_Icc.prod isCompact_Icc)
  have hone : ((0 : ℝ), (0 : ℝ), (1 : ℝ)) ∈ (Icc (-B0) B0 ×ˢ (Icc (-B1) B1 ×ˢ Icc lo hi) : Set (ℝ × ℝ × ℝ)) :=
    hbox _ one_pos le_rfl
  have hsub : (Icc (-B0) B0 ×ˢ (Icc (-B1) B1 ×ˢ Icc lo hi) : Set (ℝ × ℝ × ℝ)) ⊆ {X | 0 < X.2.2} :=
    fun X hX => lt_of_lt_of_le hlo hX.2.2.1
  obtain ⟨X, hX, hXmin⟩ := hcomp.exists_isMinOn ⟨_, hone⟩ ((nll_continuousOn unc noisy sat tn ts).mono hsub)
  refine ⟨X, .fin (N X), hsub hX, MLE_eq_nll unc noisy sat tn ts X (hsub hX), fun X' => ?_⟩
  by_cases hs' : 0 < X'.2.2
  · refine ⟨_, MLE_eq_nll unc noisy sat tn ts X' hs', ?_⟩
    have : N X ≤ N X' := by
      by_cases h : N X' ≤ M
      · exact hXmin (hbox X' hs' h)
      · exact (hXmin hone).trans (not_le.1 h).le
    simpa [F.le] using this
  · refine ⟨.pinf, ?_, rfl⟩
    obtain ⟨b0, b1, s⟩ := X'
    exact C06_MLE_nonpos_scale b0 b1 s tn ts (not_lt.1 hs') _ _ _ _

/-- **C115, no minimum on an exact fit.**  When a line goes through all uncensored observations and is on the right side of the thresholds at
all censored ones, the objective takes arbitrarily negative values: the fit has no solution (the minimiser is driven to a zero standard
error). -/
theorem C115_unbounded (unc : List (ℝ × ℝ)) (noisy sat : List ℝ) (tn ts b0 b1 : ℝ) (hne : unc ≠ [])
    (hfit : ∀ o ∈ unc, o.2 = b0 + b1 * o.1) (hn : ∀ x ∈ noisy, b0 + b1 * x ≤ tn) (hs : ∀ x ∈ sat, ts ≤ b0 + b1 * x) (M : ℝ) :
    ∃ s v, 0 < s ∧ MLE (b0, b1, s) (unc.map Prod.fst) noisy sat (unc.map Prod.snd) (some tn) (some ts) = .ok (.fin v) ∧
      v < M := by
  have hpi : 0 < Real.sqrt (2 * Real.pi) := by positivity
  have hlen : (1 : ℝ) ≤ unc.length := by
    have := List.length_pos_iff.2 hne
    exact_mod_cast this
  set C := (noisy.length + sat.length) * Real.log 2 with hC
  set s := Real.exp (-(|M| + C + 1)) / Real.sqrt (2 * Real.pi) with hsdef
  have hspos : 0 < s := by positivity
  refine ⟨s, nll unc noisy sat tn ts (b0, b1, s), hspos, MLE_eq_nll _ _ _ _ _ _ hspos, ?_⟩
  have hsse : listSse unc b0 b1 = 0 := by
    apply List.sum_eq_zero
    intro v hv
    obtain ⟨o, ho, rfl⟩ := List.mem_map.1 hv
    rw [hfit o ho]; ring
  have hsum : ∀ (l : List ℝ) (f : ℝ → ℝ), (∀ x ∈ l, 1 / 2 ≤ f x) → -(l.map fun x => Real.log (f x)).sum ≤ l.length * Real.log 2 := by
    intro l f
    induction l with
    | nil => simp
    | cons a l ih =>
      intro h
      have h1 := ih fun x hx => h x (by simp [hx])
      have h2 : -Real.log 2 ≤ Real.log (f a) := by
        rw [← Real.log_inv]
        exact Real.log_le_log (by norm_num) (by have := h a (by simp); rw [one_div] at this; exact this)
      simp only [List.map_cons, List.sum_cons, List.length_cons]
      push_cast
      linarith
  have h1 := hsum noisy (fun x => Phi ((tn - (b0 + b1 * x)) / s)) (by
    intro x hx
    rw [← Phi_zero]
    exact Phi_strictMono.monotone (div_nonneg (by linarith [hn x hx]) hspos.le))
  have h2 := hsum sat (fun x => 1 - Phi ((ts - (b0 + b1 * x)) / s)) (by
    intro x hx
    have : Phi ((ts - (b0 + b1 * x)) / s) ≤ Phi 0 :=
      Phi_strictMono.monotone (div_nonpos_of_nonpos_of_nonneg (by linarith [hs x hx]) hspos.le)
    rw [Phi_zero] at this
    linarith)
  have hlog : Real.log (s * Real.sqrt (2 * Real.pi)) = -(|M| + C + 1) := by
    rw [hsdef, div_mul_cancel₀ _ hpi.ne', Real.log_exp]
  unfold nll
  dsimp only
  rw [hsse, hlog]
  have hCnn : 0 ≤ C := by
    have := Real.log_nonneg (show (1 : ℝ) ≤ 2 by norm_num)
    positivity
  have : (unc.length : ℝ) * -(|M| + C + 1) ≤ -(|M| + C + 1) := by nlinarith [abs_nonneg M]
  have := neg_abs_le M
  rw [mul_zero, add_zero]
  have : C = noisy.length * Real.log 2 + sat.length * Real.log 2 := by rw [hC]; ring
  linarith

/-- Non-vacuity: three uncensored points that are not on a line, one noisy and one saturated observation. -/
example := C115_minimum [(1, 1), (2, 2), (3, 5)] [0] [4] (1 / 2) 6 ⟨(1, 1), by simp, (2, 2), by simp, by norm_num⟩ (by
  rintro ⟨b0, b1, h⟩
  have h1 := h (1, 1) (by simp)
  have h2 := h (2, 2) (by simp)
  have h3 := h (3, 5) (by simp)
  norm_num at h1 h2 h3
  linarith)

example := C115_unbounded [(1, 1), (2, 2), (3, 3)] [0] [4] (1 / 2) (7 / 2) 0 1 (by simp) (by simp) (by simp) (by simp; norm_num) 0

/-! ## C116 -/

/-- Contract of the numerical routines in exact arithmetic: least squares and its standard error (statsmodels), and a minimiser that returns
a minimum when the objective has one (`scipy.optimize.fmin`). -/
structure ExactFit (env : LinEnv) : Prop where
  ols : ∀ unc : List (ℝ × ℝ), (∃ o ∈ unc, ∃ o' ∈ unc, o.1 ≠ o'.1) →
    env.ols unc = (olsIntercept (fun i : Fin unc.length => unc[i].1) (fun i => unc[i].2),
      olsSlope (fun i : Fin unc.length => unc[i].1) (fun i => unc[i].2),
      linearStderr (fun i : Fin unc.length => unc[i].1) (fun i => unc[i].2))
  fmin : ∀ (f : ℝ × ℝ × ℝ → F ℝ) (start : ℝ × ℝ × ℝ), (∃ X, ∀ X', F.le (f X) (f X') = true) → ∀ X', F.le (f (env.fmin f start).x) (f X') = true

open Classical in
/-- The contract can be met. -/
theorem exactFit_exists : ∃ env, ExactFit env :=
  ⟨⟨fun _ _ _ => .ok 0, fun unc => (olsIntercept (fun i : Fin unc.length => unc[i].1) (fun i => unc[i].2),
      olsSlope (fun i : Fin unc.length => unc[i].1) (fun i => unc[i].2),
      linearStderr (fun i : Fin unc.length => unc[i].1) (fun i => unc[i].2)),
    fun f start => if h : ∃ X, ∀ X', F.le (f X) (f X') = true then ⟨h.choose, 0⟩ else ⟨start, 0⟩⟩,
    fun _ _ => rfl, fun f start h => by simp only [dif_pos h]; exact h.choose_spec⟩

theorem MLE_nil_thresholds (X : ℝ × ℝ × ℝ) (d y : List ℝ) (noise sat : Option ℝ) :
    MLE X d [] [] y noise sat = MLE X d [] [] y (some 0) (some 0) := by
  cases noise <;> cases sat <;> simp [MLE, bind, Except.bind, pure, Except.pure]

/-- For a fixed squared error the best scale is `√(R/n)`, strictly. -/
theorem scale_min (n R s : ℝ) (hn : 0 < n) (hR : 0 < R) (hs : 0 < s) (hne : s ≠ Real.sqrt (R / n)) :
    n * Real.log (Real.sqrt (R / n)) + R / (2 * Real.sqrt (R / n) ^ 2) < n * Real.log s + R / (2 * s ^ 2) := by
  have hRn : 0 < R / n := by positivity
  rw [Real.sq_sqrt hRn.le, Real.log_sqrt hRn.le]
  have hu : R / n / s ^ 2 ≠ 1 := by
    intro h
    apply hne
    rw [div_eq_one_iff_eq (by positivity)] at h
    rw [h, Real.sqrt_sq hs.le]
  have := Real.log_lt_sub_one_of_pos (show 0 < R / n / s ^ 2 by positivity) hu
  rw [Real.log_div hRn.ne' (by positivity), Real.log_pow] at this
  push_cast at this
  have e1 : R / (2 * (R / n)) = n / 2 := by field_simp
  have e2 : R / (2 * s ^ 2) = n / 2 * (R / n / s ^ 2) := by field_simp
  rw [e1, e2]
  nlinarith

/-- Without censored observations the objective has a single minimum: the least squares line with the scale `√(SSR/n)`. -/
theorem nll_nil_min (unc : List (ℝ × ℝ)) (hx : ∃ o ∈ unc, ∃ o' ∈ unc, o.1 ≠ o'.1)
    (hline : ¬ ∃ b0 b1 : ℝ, ∀ o ∈ unc, o.2 = b0 + b1 * o.1) :
    let x : Fin unc.length → ℝ := fun i => unc[i].1
    let y : Fin unc.length → ℝ := fun i => unc[i].2
    let X := (olsIntercept x y, olsSlope x y, Real.sqrt (sse x y (olsIntercept x y) (olsSlope x y) / unc.length))
    0 < X.2.2 ∧ ∀ X', 0 < X'.2.2 → X' ≠ X → nll unc [] [] 0 0 X < nll unc [] [] 0 0 X' := by
  intro x y X
  have hx' : ∃ i j, x i ≠ x j := by
    obtain ⟨o, ho, o', ho', h⟩ := hx
    obtain ⟨i, hi, rfl⟩ := List.getElem_of_mem ho
    obtain ⟨j, hj, rfl⟩ := List.getElem_of_mem ho'
    exact ⟨⟨i, hi⟩, ⟨j, hj⟩, h⟩
  obtain ⟨hmin, huniq, -⟩ := C27_ols_optimal x y hx'
  obtain ⟨s0, hs0, hsse⟩ := listSse_pos unc hx hline
  have hR : 0 < sse x y (olsIntercept x y) (olsSlope x y) := by
    have := hsse (olsIntercept x y) (olsSlope x y)
    rw [listSse_fin] at this
    linarith
  have hn : (0 : ℝ) < unc.length := by
    obtain ⟨o, ho, -⟩ := hx
    exact_mod_cast List.length_pos_of_mem ho
  have hXs : 0 < X.2.2 := Real.sqrt_pos.2 (by positivity)
  refine ⟨hXs, ?_⟩
  rintro ⟨b0, b1, s⟩ hs hne
  dsimp only at hs
  have hpi : Real.sqrt (2 * Real.pi) ≠ 0 := by positivity
  have form : ∀ Y : ℝ × ℝ × ℝ, 0 < Y.2.2 → nll unc [] [] 0 0 Y
      = unc.length * Real.log (Real.sqrt (2 * Real.pi)) + (unc.length * Real.log Y.2.2 + sse x y Y.1 Y.2.1 / (2 * Y.2.2 ^ 2)) := by
    intro Y hY
    have e : listSse unc Y.1 Y.2.1 = sse x y Y.1 Y.2.1 := listSse_fin _ _ _
    simp only [nll, List.map_nil, List.sum_nil, neg_zero, add_zero]
    rw [Real.log_mul hY.ne' hpi, e]
    ring
  rw [form X hXs, form _ hs]
  apply add_lt_add_right
  dsimp only
  have hmono : sse x y (olsIntercept x y) (olsSlope x y) / (2 * s ^ 2) ≤ sse x y b0 b1 / (2 * s ^ 2) :=
    div_le_div_of_nonneg_right (hmin b0 b1) (by positivity)
  by_cases hss : s = X.2.2
  · have hb : ¬ (b0 = olsIntercept x y ∧ b1 = olsSlope x y) := by
      rintro ⟨h1, h2⟩
      exact hne (by rw [h1, h2, hss])
    have hlt : sse x y (olsIntercept x y) (olsSlope x y) < sse x y b0 b1 := by
      apply lt_of_le_of_ne (hmin b0 b1)
      intro h
      exact hb (huniq b0 b1 h.symm)
    rw [hss] at hmono ⊢
    have : sse x y (olsIntercept x y) (olsSlope x y) / (2 * X.2.2 ^ 2) < sse x y b0 b1 / (2 * X.2.2 ^ 2) :=
      div_lt_div_of_pos_right hlt (by positivity)
    linarith
  · have := scale_min unc.length _ s hn hR hs hss
    have e : X.2.2 = Real.sqrt (sse x y (olsIntercept x y) (olsSlope x y) / unc.length) := rfl
    rw [e]
    linarith

/-- Both runs when all signals are strictly between the thresholds. -/
theorem threshold_free_runs (fmax : ℝ) (env : LinEnv) (henv : ExactFit env) (draws : ℕ → ℝ × ℝ × ℝ) (obs : List (ℝ × ℝ))
    (det : ℝ) (noise sat : Option ℝ) (hin : ∀ o ∈ obs, noise.getD (-fmax) < o.2 ∧ o.2 < sat.getD fmax)
    (hx : ∃ o ∈ obs, ∃ o' ∈ obs, o.1 ≠ o'.1) (hline : ¬ ∃ b0 b1 : ℝ, ∀ o ∈ obs, o.2 = b0 + b1 * o.1) (hn : 3 ≤ obs.length) :
    let x : Fin obs.length → ℝ := fun i => obs[i].1
    let y : Fin obs.length → ℝ := fun i => obs[i].2
    computeLinearModel fmax env draws obs det noise sat false true = .ok ⟨obs, ⟨olsIntercept x y, olsSlope x y,
      Real.sqrt (sse x y (olsIntercept x y) (olsSlope x y) / obs.length), lineResiduals (olsIntercept x y) (olsSlope x y) obs⟩, det, none⟩ ∧
    computeLinearModel fmax env draws obs det none none false false = .ok ⟨obs, ⟨olsIntercept x y, olsSlope x y,
      Real.sqrt (sse x y (olsIntercept x y) (olsSlope x y) / (obs.length - 2)),
      lineResiduals (olsIntercept x y) (olsSlope x y) obs⟩, det, none⟩ ∧
    0 < sse x y (olsIntercept x y) (olsSlope x y) := by
  intro x y
  have hols := henv.ols obs hx
  have hn3 : (3 : ℝ) ≤ obs.length := by exact_mod_cast hn
  have hR : 0 < sse x y (olsIntercept x y) (olsSlope x y) := by
    obtain ⟨s0, hs0, h⟩ := listSse_pos obs hx hline
    have := h (olsIntercept x y) (olsSlope x y)
    rw [listSse_fin] at this
    linarith
  have hst : linearStderr x y = Real.sqrt (sse x y (olsIntercept x y) (olsSlope x y) / (obs.length - 2)) := by
    rw [linearStderr, linearScale]; rfl
  have hstpos : 0 < linearStderr x y := by
    rw [hst]; exact Real.sqrt_pos.2 (div_pos hR (by linarith))
  have hunc : uncensoredObs fmax obs noise sat = obs := by
    rw [uncensoredObs, List.filter_eq_self]
    intro o ho
    have := hin o ho
    simp [this.1, this.2]
  have hno : noiseDefects fmax obs noise = [] := by
    rw [noiseDefects, List.map_eq_nil_iff, List.filter_eq_nil_iff]
    intro o ho
    simpa using (hin o ho).1
  have hsa : satDefects fmax obs sat = [] := by
    rw [satDefects, List.map_eq_nil_iff, List.filter_eq_nil_iff]
    intro o ho
    simpa using (hin o ho).2
  refine ⟨?_, ?_, hR⟩
  · obtain ⟨hpos, hmin⟩ := nll_nil_min obs hx hline
    set X : ℝ × ℝ × ℝ := (olsIntercept x y, olsSlope x y,
      Real.sqrt (sse x y (olsIntercept x y) (olsSlope x y) / obs.length)) with hX
    have hpos' : 0 < X.2.2 := hpos
    have hobj : ∀ Y : ℝ × ℝ × ℝ, 0 < Y.2.2 → mleObjective obs [] [] noise sat Y = .fin (nll obs [] [] 0 0 Y) := by
      intro Y hY
      rw [mleObjective, MLE_nil_thresholds, MLE_eq_nll _ _ _ _ _ _ hY]
    have hobj0 : ∀ Y : ℝ × ℝ × ℝ, Y.2.2 ≤ 0 → mleObjective obs [] [] noise sat Y = .pinf := by
      rintro ⟨b0, b1, s⟩ hY
      rw [mleObjective, MLE_nil_thresholds, C06_MLE_nonpos_scale b0 b1 s 0 0 hY]
    have hmin' : ∀ Y, F.le (mleObjective obs [] [] noise sat X) (mleObjective obs [] [] noise sat Y) = true := by
      intro Y
      rw [hobj X hpos']
      by_cases hY : 0 < Y.2.2
      · rw [hobj Y hY, F.le_fin, decide_eq_true_eq]
        by_cases h : Y = X
        · rw [h]
        · exact (hmin Y hY h).le
      · rw [hobj0 Y (not_lt.1 hY)]; rfl
    have hres : ∀ start, (env.fmin (mleObjective obs [] [] noise sat) start).x = X := by
      intro start
      by_contra hne
      have hle := henv.fmin _ start ⟨X, hmin'⟩ X
      rw [hobj X hpos'] at hle
      by_cases hY : 0 < (env.fmin (mleObjective obs [] [] noise sat) start).x.2.2
      · rw [hobj _ hY, F.le_fin, decide_eq_true_eq] at hle
        exact absurd hle (not_le.2 (hmin _ hY hne))
      · rw [hobj0 _ (not_lt.1 hY)] at hle
        cases hle
    have hstart : mleObjective obs [] [] noise sat (env.ols obs) ≠ .pinf := by
      rw [hobj _ (by rw [hols]; exact hstpos)]
      intro h; cases h
    simp only [computeLinearModel, if_true, hunc, hno, hsa, Bool.false_eq_true, if_false, linFit, censoredFit,
      computeLinearParametersCensored, hstart, hres]
    rw [MLE_nil_thresholds, MLE_eq_nll _ _ _ _ _ _ (by rw [hols]; exact hstpos)]
  · simp only [computeLinearModel, Bool.false_eq_true, if_false, linFit, hols]
    rw [← hst]

/-- **C116, coefficients.**  Thresholds below and above all signals leave the observations, the line and the residuals unchanged.  Missing:
the standard error (see `C116_violated`). -/
theorem C116_coefficients_partial (fmax : ℝ) (env : LinEnv) (henv : ExactFit env) (draws draws' : ℕ → ℝ × ℝ × ℝ)
    (obs : List (ℝ × ℝ)) (det : ℝ) (noise sat : Option ℝ)
    (hin : ∀ o ∈ obs, noise.getD (-fmax) < o.2 ∧ o.2 < sat.getD fmax) (hx : ∃ o ∈ obs, ∃ o' ∈ obs, o.1 ≠ o'.1)
    (hline : ¬ ∃ b0 b1 : ℝ, ∀ o ∈ obs, o.2 = b0 + b1 * o.1) (hn : 3 ≤ obs.length) :
    ∃ r r', computeLinearModel fmax env draws obs det noise sat false true = .ok r ∧
      computeLinearModel fmax env draws' obs det none none false false = .ok r' ∧ r.obs = r'.obs ∧ r.detection = r'.detection ∧
      r.fit.intercept = r'.fit.intercept ∧ r.fit.slope = r'.fit.slope ∧ r.fit.residuals = r'.fit.residuals := by
  obtain ⟨h1, -, -⟩ := threshold_free_runs fmax env henv draws obs det noise sat hin hx hline hn
  obtain ⟨-, h2, -⟩ := threshold_free_runs fmax env henv draws' obs det noise sat hin hx hline hn
  exact ⟨_, _, h1, h2, rfl, rfl, rfl, rfl, rfl⟩

/-- **C116 is false.**  With thresholds that censor no observation the standard error of the fit is always smaller, by the factor
`√((n-2)/n)`, than without thresholds: the Gaussian POD is larger at every size where the line is above the detection threshold and smaller
where it is below. -/
theorem C116_violated (fmax : ℝ) (env : LinEnv) (henv : ExactFit env) (draws draws' : ℕ → ℝ × ℝ × ℝ)
    (obs : List (ℝ × ℝ)) (det : ℝ) (noise sat : Option ℝ)
    (hin : ∀ o ∈ obs, noise.getD (-fmax) < o.2 ∧ o.2 < sat.getD fmax) (hx : ∃ o ∈ obs, ∃ o' ∈ obs, o.1 ≠ o'.1)
    (hline : ¬ ∃ b0 b1 : ℝ, ∀ o ∈ obs, o.2 = b0 + b1 * o.1) (hn : 3 ≤ obs.length) :
    ∃ r r', computeLinearModel fmax env draws obs det noise sat false true = .ok r ∧
      computeLinearModel fmax env draws' obs det none none false false = .ok r' ∧
      0 < r.fit.stderr ∧ r.fit.stderr < r'.fit.stderr ∧ r.fit.stderr ^ 2 * obs.length = r'.fit.stderr ^ 2 * (obs.length - 2) ∧
      ∀ a, let line := fun a => r.fit.intercept + r.fit.slope * a
        let pod := podGauss (fun i : Fin obs.length => obs[i].1) r.fit.stderr det line a
        let pod' := podGauss (fun i : Fin obs.length => obs[i].1) r'.fit.stderr det line a
        (det < line a → pod' < pod) ∧ (line a < det → pod < pod') := by
  obtain ⟨h1, -, hR⟩ := threshold_free_runs fmax env henv draws obs det noise sat hin hx hline hn
  obtain ⟨-, h2, -⟩ := threshold_free_runs fmax env henv draws' obs det noise sat hin hx hline hn
  have hn3 : (3 : ℝ) ≤ obs.length := by exact_mod_cast hn
  set x : Fin obs.length → ℝ := fun i => obs[i].1
  set y : Fin obs.length → ℝ := fun i => obs[i].2
  set R := sse x y (olsIntercept x y) (olsSlope x y) with hRdef
  set n : ℝ := (obs.length : ℝ) with hndef
  have hx' : ∃ i j, x i ≠ x j := by
    obtain ⟨o, ho, o', ho', h⟩ := hx
    obtain ⟨i, hi, rfl⟩ := List.getElem_of_mem ho
    obtain ⟨j, hj, rfl⟩ := List.getElem_of_mem ho'
    exact ⟨⟨i, hi⟩, ⟨j, hj⟩, h⟩
  have hn0 : 0 < n := by linarith
  have hn2 : 0 < n - 2 := by linarith
  have hs : 0 < Real.sqrt (R / n) := Real.sqrt_pos.2 (by positivity)
  have hlt : Real.sqrt (R / n) < Real.sqrt (R / (n - 2)) :=
    Real.sqrt_lt_sqrt (by positivity) (div_lt_div_of_pos_left hR hn2 (by linarith))
  refine ⟨_, _, h1, h2, hs, hlt, ?_, ?_⟩
  · dsimp only
    rw [Real.sq_sqrt (by positivity), Real.sq_sqrt (by positivity)]
    field_simp
  · intro a line pod pod'
    have hs' := hs.trans hlt
    have hform : ∀ t, 0 < t → podGauss x t det line a = 1 - Phi ((det - line a) /
        (t * Real.sqrt (1 + (1 / (obs.length : ℝ) + (a - smean x) ^ 2 / ∑ i, (x i - smean x) ^ 2)))) := by
      intro t ht
      rw [podGauss, predictionVariance_eq x t a hx', Real.sqrt_mul (sq_nonneg t), Real.sqrt_sq ht.le, PhiC_eq]
    have hS := sxx_pos x hx'
    have hk : 0 < Real.sqrt (1 + (1 / (obs.length : ℝ) + (a - smean x) ^ 2 / ∑ i, (x i - smean x) ^ 2)) := by
      apply Real.sqrt_pos.2
      have : 0 ≤ 1 / (obs.length : ℝ) := by positivity
      have : 0 ≤ (a - smean x) ^ 2 / ∑ i, (x i - smean x) ^ 2 := div_nonneg (sq_nonneg _) hS.le
      linarith
    have e1 : pod = _ := hform _ hs
    have e2 : pod' = _ := hform _ hs'
    have hm := mul_lt_mul_of_pos_right hlt hk
    have hm0 := mul_pos hs hk
    rw [e1, e2]
    constructor
    · intro h
      apply sub_lt_sub_left
      apply Phi_strictMono
      have := div_lt_div_of_pos_left (show 0 < line a - det by linarith) hm0 hm
      rw [← neg_sub (line a) det, neg_div, neg_div]
      linarith
    · intro h
      apply sub_lt_sub_left
      apply Phi_strictMono
      exact div_lt_div_of_pos_left (by linarith) hm0 hm

/-- Non-vacuity: three observations, thresholds 0 and 10. -/
example := fun env (h : ExactFit env) => C116_violated 100 env h (fun _ => (0, 0, 0)) (fun _ => (0, 0, 0)) [(1, 1), (2, 2), (3, 5)] 3
  (some 0) (some 10) (by simp; norm_num) ⟨(1, 1), by simp, (2, 2), by simp, by norm_num⟩ (by
    rintro ⟨b0, b1, h⟩
    have h1 := h (1, 1) (by simp)
    have h2 := h (2, 2) (by simp)
    have h3 := h (3, 5) (by simp)
    norm_num at h1 h2 h3
    linarith) (by simp)

end Verif.Props
