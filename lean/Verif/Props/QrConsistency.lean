import Verif.Props.QrRun
import Verif.Props.CensoredConsistency

/-!
# C170: consistency of the quantile regression POD (/repo/otpod/_quantile_regression_pod.py 99-154, 294-332)
-/

namespace Verif.Props
open Verif.Py Verif.Model ProbabilityTheory MeasureTheory Set Filter Topology

/-! ## The pinball loss -/

theorem pinball_eq_max (tau r : ℝ) : pinball tau r = max (tau * r) ((tau - 1) * r) := by
  rcases le_total 0 r with h | h
  · rw [pinball_nonneg_arg h, max_eq_left (by nlinarith)]
  · rw [pinball_nonpos_arg h, max_eq_right (by nlinarith)]

theorem pinball_abs {tau : ℝ} (h0 : 0 < tau) (h1 : tau < 1) (r : ℝ) : |pinball tau r| ≤ |r| := by
  rcases le_total 0 r with h | h
  · rw [pinball_nonneg_arg h, abs_mul, abs_of_pos h0]; nlinarith [abs_nonneg r]
  · rw [pinball_nonpos_arg h, abs_mul, abs_of_neg (by linarith : tau - 1 < 0)]; nlinarith [abs_nonneg r]

theorem pinball_measurable (tau : ℝ) : Measurable (pinball tau) := by
  have : pinball tau = fun r => max (tau * r) ((tau - 1) * r) := funext (pinball_eq_max tau)
  rw [this]
  fun_prop

/-- Loss of the line `q.1 + q.2 a` at an observation with size `w.1` and error `w.2`. -/
noncomputable def qLoss (tau b0 b1 : ℝ) (q w : ℝ × ℝ) : ℝ := pinball tau (b0 + b1 * w.1 + w.2 - (q.1 + q.2 * w.1))

theorem qLoss_measurable (tau b0 b1 : ℝ) (q : ℝ × ℝ) : Measurable (qLoss tau b0 b1 q) :=
  (pinball_measurable tau).comp (by fun_prop)

theorem qLoss_convex (tau b0 b1 : ℝ) (w : ℝ × ℝ) : ConvexOn ℝ univ fun q => qLoss tau b0 b1 q w := by
  refine ⟨convex_univ, fun q _ q' _ a b ha hb hab => ?_⟩
  simp only [qLoss, smul_eq_mul]
  have h : b0 + b1 * w.1 + w.2 - ((a • q + b • q').1 + (a • q + b • q').2 * w.1)
      = a * (b0 + b1 * w.1 + w.2 - (q.1 + q.2 * w.1)) + b * (b0 + b1 * w.1 + w.2 - (q'.1 + q'.2 * w.1)) := by
    simp only [Prod.fst_add, Prod.snd_add, Prod.smul_fst, Prod.smul_snd, smul_eq_mul]
    linear_combination (-(b0 + b1 * w.1 + w.2)) * hab
  rw [h]
  set r := b0 + b1 * w.1 + w.2 - (q.1 + q.2 * w.1)
  set r' := b0 + b1 * w.1 + w.2 - (q'.1 + q'.2 * w.1)
  rw [pinball_eq_max, pinball_eq_max, pinball_eq_max]
  have := le_max_left (tau * r) ((tau - 1) * r)
  have := le_max_right (tau * r) ((tau - 1) * r)
  have := le_max_left (tau * r') ((tau - 1) * r')
  have := le_max_right (tau * r') ((tau - 1) * r')
  refine max_le ?_ ?_ <;> nlinarith

/-- The expected loss of a constant is smallest at the quantile. -/
theorem pinball_pop {μ : Measure ℝ} [IsProbabilityMeasure μ] (hμ : Integrable (fun t => t) μ) {tau : ℝ} (h0 : 0 < tau) (h1 : tau < 1) (q : ℝ)
    (hq : μ.real (Ioi q) = 1 - tau) (hgt : ∀ d > q, μ.real (Ioi d) < 1 - tau) (hlt : ∀ d < q, 1 - tau < μ.real (Ioi d)) (v : ℝ) (hv : v ≠ 0) :
    0 < ∫ e, (pinball tau (e - q - v) - pinball tau (e - q)) ∂μ := by
  have hint : ∀ c, Integrable (fun e => pinball tau (e - c)) μ := by
    intro c
    refine Integrable.mono' (g := fun e => |e - c|) ((hμ.sub (integrable_const c)).abs)
      ((pinball_measurable tau).comp (by fun_prop)).aestronglyMeasurable (Eventually.of_forall fun e => ?_)
    exact pinball_abs h0 h1 _
  have hint' : Integrable (fun e => pinball tau (e - q - v) - pinball tau (e - q)) μ := by
    have := (hint (q + v)).sub (hint q)
    refine this.congr (Eventually.of_forall fun e => ?_)
    simp only [Pi.sub_apply]
    rw [sub_add_eq_sub_sub]
  have hind : ∀ d, Integrable ((Ioi d).indicator fun _ => (1 : ℝ)) μ := fun d => (integrable_const 1).indicator measurableSet_Ioi
  have hindv : ∀ d, ∫ e, (Ioi d).indicator (fun _ => (1 : ℝ)) e ∂μ = μ.real (Ioi d) := by
    intro d
    rw [integral_indicator measurableSet_Ioi, setIntegral_const, smul_eq_mul, mul_one]
  have hone : ∀ d e : ℝ, e ∈ Ioi d → (Ioi d).indicator (fun _ => (1 : ℝ)) e = 1 := fun d e h => indicator_of_mem h _
  have hzero : ∀ d e : ℝ, ¬ d < e → (Ioi d).indicator (fun _ => (1 : ℝ)) e = 0 := fun d e h => indicator_of_notMem (fun h' => h h') _
  have calcInt : ∀ c k d d', ∫ e, (c + (k * (Ioi d).indicator (fun _ => (1 : ℝ)) e + k * (Ioi d').indicator (fun _ => (1 : ℝ)) e)) ∂μ
      = c + k * (μ.real (Ioi d) + μ.real (Ioi d')) := by
    intro c k d d'
    have hadd : Integrable (fun e => k * (Ioi d).indicator (fun _ => (1 : ℝ)) e + k * (Ioi d').indicator (fun _ => (1 : ℝ)) e) μ :=
      ((hind d).const_mul k).add ((hind d').const_mul k)
    rw [integral_add (integrable_const c) hadd, integral_add ((hind d).const_mul k) ((hind d').const_mul k), integral_const_mul, integral_const_mul, hindv, hindv]
    simp
    ring
  rcases lt_or_gt_of_ne hv with hneg | hpos
  · have hle : ∀ e, (tau - 1) * (-v) + ((-v) / 2 * (Ioi q).indicator (fun _ => (1 : ℝ)) e + (-v) / 2 * (Ioi (q + v / 2)).indicator (fun _ => (1 : ℝ)) e)
        ≤ pinball tau (e - q - v) - pinball tau (e - q) := by
      intro e
      rcases lt_or_ge q e with h | h
      · rw [hone _ _ h, hone _ _ (show q + v / 2 < e by linarith), pinball_nonneg_arg (by linarith : 0 ≤ e - q - v),
          pinball_nonneg_arg (by linarith : 0 ≤ e - q)]
        linarith
      · rw [hzero q e (not_lt.2 h), pinball_nonpos_arg (by linarith : e - q ≤ 0), pinball_eq_max]
        rcases lt_or_ge (q + v / 2) e with h' | h'
        · rw [hone _ _ h']
          have := le_max_left (tau * (e - q - v)) ((tau - 1) * (e - q - v))
          linarith
        · rw [hzero _ _ (not_lt.2 h')]
          have := le_max_right (tau * (e - q - v)) ((tau - 1) * (e - q - v))
          linarith
    refine lt_of_lt_of_le ?_ (integral_mono ((integrable_const _).add (((hind _).const_mul _).add ((hind _).const_mul _))) hint' hle)
    refine lt_of_lt_of_eq ?_ (calcInt ((tau - 1) * (-v)) ((-v) / 2) q (q + v / 2)).symm
    have := hlt (q + v / 2) (by linarith)
    rw [hq]
    nlinarith
  · have hle : ∀ e, (1 - tau) * v + ((-v) / 2 * (Ioi q).indicator (fun _ => (1 : ℝ)) e + (-v) / 2 * (Ioi (q + v / 2)).indicator (fun _ => (1 : ℝ)) e)
        ≤ pinball tau (e - q - v) - pinball tau (e - q) := by
      intro e
      rcases lt_or_ge q e with h | h
      · rw [hone _ _ h, pinball_nonneg_arg (by linarith : 0 ≤ e - q), pinball_eq_max]
        rcases lt_or_ge (q + v / 2) e with h' | h'
        · rw [hone _ _ h']
          have := le_max_left (tau * (e - q - v)) ((tau - 1) * (e - q - v))
          linarith
        · rw [hzero _ _ (not_lt.2 h')]
          have := le_max_right (tau * (e - q - v)) ((tau - 1) * (e - q - v))
          linarith
      · rw [hzero q e (not_lt.2 h), hzero _ _ (show ¬ q + v / 2 < e by linarith), pinball_nonpos_arg (by linarith : e - q ≤ 0),
          pinball_nonpos_arg (by linarith : e - q - v ≤ 0)]
        linarith
    refine lt_of_lt_of_le ?_ (integral_mono ((integrable_const _).add (((hind _).const_mul _).add ((hind _).const_mul _))) hint' hle)
    refine lt_of_lt_of_eq ?_ (calcInt ((1 - tau) * v) ((-v) / 2) q (q + v / 2)).symm
    have := hgt (q + v / 2) (by linarith)
    rw [hq]
    nlinarith

section
variable {Ω : Type} [MeasurableSpace Ω] {Q : Measure Ω} [IsProbabilityMeasure Q] {ν μ : Measure ℝ} [IsProbabilityMeasure ν] [IsProbabilityMeasure μ]

theorem prod_lin_integrable (hν : Integrable (fun t => t) ν) (hμ : Integrable (fun t => t) μ) (c k m : ℝ) :
    Integrable (fun w : ℝ × ℝ => c + k * w.1 + m * w.2) (ν.prod μ) := by
  have h1 : Integrable (fun w : ℝ × ℝ => w.1) (ν.prod μ) := hν.comp_fst μ
  have h2 : Integrable (fun w : ℝ × ℝ => w.2) (ν.prod μ) := hμ.comp_snd ν
  exact ((integrable_const c).add (h1.const_mul k)).add (h2.const_mul m)

theorem qLoss_integrable (hν : Integrable (fun t => t) ν) (hμ : Integrable (fun t => t) μ) {tau : ℝ} (h0 : 0 < tau) (h1 : tau < 1)
    (b0 b1 : ℝ) (q : ℝ × ℝ) : Integrable (qLoss tau b0 b1 q) (ν.prod μ) := by
  refine Integrable.mono' (g := fun w => |b0 - q.1 + (b1 - q.2) * w.1 + 1 * w.2|) (prod_lin_integrable hν hμ _ _ _).abs
    (qLoss_measurable tau b0 b1 q).aestronglyMeasurable (Eventually.of_forall fun w => ?_)
  refine (pinball_abs h0 h1 _).trans (le_of_eq ?_)
  congr 1
  ring

/-- The true quantile line is the only minimiser of the expected loss. -/
theorem qLoss_pop (hν : Integrable (fun t => t) ν) (hμ : Integrable (fun t => t) μ) (hpt : ∀ c, ν {c} ≠ 1) {tau : ℝ} (h0 : 0 < tau) (h1 : tau < 1)
    (d b0 b1 : ℝ) (hq : μ.real (Ioi d) = 1 - tau) (hgt : ∀ d' > d, μ.real (Ioi d') < 1 - tau) (hlt : ∀ d' < d, 1 - tau < μ.real (Ioi d'))
    (q : ℝ × ℝ) (hne : q ≠ (b0 + d, b1)) :
    ∫ w, qLoss tau b0 b1 (b0 + d, b1) w ∂(ν.prod μ) < ∫ w, qLoss tau b0 b1 q w ∂(ν.prod μ) := by
  have i1 := qLoss_integrable (ν := ν) (μ := μ) hν hμ h0 h1 b0 b1 q
  have i2 := qLoss_integrable (ν := ν) (μ := μ) hν hμ h0 h1 b0 b1 (b0 + d, b1)
  rw [← sub_pos, ← integral_sub i1 i2]
  have i3 : Integrable (fun w => qLoss tau b0 b1 q w - qLoss tau b0 b1 (b0 + d, b1) w) (ν.prod μ) := i1.sub i2
  rw [integral_prod _ i3]
  set h : ℝ → ℝ := fun t => q.1 - (b0 + d) + (q.2 - b1) * t with hh
  have hval : ∀ t, ∫ e, (qLoss tau b0 b1 q (t, e) - qLoss tau b0 b1 (b0 + d, b1) (t, e)) ∂μ
      = ∫ e, (pinball tau (e - d - h t) - pinball tau (e - d)) ∂μ := by
    intro t
    refine integral_congr_ae (Eventually.of_forall fun e => ?_)
    simp only [qLoss, hh]
    congr 2 <;> ring
  have hpos : ∀ t, h t ≠ 0 → 0 < ∫ e, (qLoss tau b0 b1 q (t, e) - qLoss tau b0 b1 (b0 + d, b1) (t, e)) ∂μ := by
    intro t ht
    rw [hval]
    exact pinball_pop hμ h0 h1 d hq hgt hlt (h t) ht
  have hnn : ∀ t, 0 ≤ ∫ e, (qLoss tau b0 b1 q (t, e) - qLoss tau b0 b1 (b0 + d, b1) (t, e)) ∂μ := by
    intro t
    by_cases ht : h t = 0
    · rw [hval, ht]; simp
    · exact (hpos t ht).le
  have hint : Integrable (fun t => ∫ e, (qLoss tau b0 b1 q (t, e) - qLoss tau b0 b1 (b0 + d, b1) (t, e)) ∂μ) ν :=
    i3.integral_prod_left
  refine (integral_pos_iff_support_of_nonneg hnn hint).2 ?_
  have hsub : {t | h t ≠ 0} ⊆ Function.support fun t => ∫ e, (qLoss tau b0 b1 q (t, e) - qLoss tau b0 b1 (b0 + d, b1) (t, e)) ∂μ :=
    fun t ht => (hpos t ht).ne'
  refine lt_of_lt_of_le ?_ (measure_mono hsub)
  rw [pos_iff_ne_zero]
  intro hzero
  have hms : MeasurableSet {t | h t ≠ 0} := (measurableSet_eq_fun (by fun_prop) measurable_const).compl
  have hone : ν {t | h t = 0} = 1 := by
    have : {t | h t = 0} = {t | h t ≠ 0}ᶜ := by ext t; simp
    rw [this, prob_compl_eq_one_sub hms, hzero, tsub_zero]
  by_cases hs : q.2 = b1
  · have hi : q.1 - (b0 + d) ≠ 0 := by
      intro hi
      exact hne (Prod.ext (by simp; linarith) hs)
    have : {t | h t = 0} = ∅ := by
      ext t; simp [hh, hs, hi]
    rw [this] at hone
    simp at hone
  · have hs' : q.2 - b1 ≠ 0 := sub_ne_zero.2 hs
    have : {t | h t = 0} ⊆ {-(q.1 - (b0 + d)) / (q.2 - b1)} := by
      intro t ht
      have ht' : q.1 - (b0 + d) + (q.2 - b1) * t = 0 := ht
      rw [mem_singleton_iff, eq_div_iff hs']
      linarith
    exact hpt _ (le_antisymm prob_le_one (hone ▸ measure_mono this))

/-- The sample of sizes and signals is the one of C168. -/
theorem quantLoss_sample (tau b0 b1 : ℝ) (x e : ℕ → Ω → ℝ) (ω : Ω) (N : ℕ) (c0 c1 : ℝ) :
    quantLoss tau ((List.range N).map fun i => (x i ω, b0 + b1 * x i ω + e i ω)) c0 c1
      = ∑ i ∈ Finset.range N, qLoss tau b0 b1 (c0, c1) (x i ω, e i ω) := by
  rw [quantLoss, List.map_map, Finset.sum_range, ← List.sum_ofFn, List.ofFn_eq_map]
  congr 1
  rw [← List.map_coe_finRange_eq_range, List.map_map]
  rfl

/-- **C170, lines.**  The fitted line at level `1 - p` tends to the line parallel to the true one through the threshold at the size where the true
probability of detection crosses `p`. -/
theorem quantReg_close (x e : ℕ → Ω → ℝ) (hx : ∀ i, Measurable (x i)) (he : ∀ i, Measurable (e i))
    (hlaw : ∀ i, Q.map (fun ω => (x i ω, e i ω)) = ν.prod μ) (hind : iIndepFun (fun i ω => (x i ω, e i ω)) Q)
    (hν : Integrable (fun t => t) ν) (hpt : ∀ c, ν {c} ≠ 1) (hμ : Integrable (fun t => t) μ) (b0 b1 : ℝ) (hb : 0 < b1) (det p A : ℝ)
    (hp0 : 0 < p) (hp1 : p < 1) (hA : μ.real {t | det < b0 + b1 * A + t} = p) (hAl : ∀ a < A, μ.real {t | det < b0 + b1 * a + t} < p)
    (hAg : ∀ a > A, p < μ.real {t | det < b0 + b1 * a + t}) :
    ∀ᵐ ω ∂Q, ∀ ε > 0, ∀ᶠ N in atTop, ∀ quantReg : List (ℝ × ℝ) → ℝ → QuantFit,
      (∀ obs tau, 0 < tau → tau < 1 → QuantRegExact quantReg obs tau) →
      |(quantReg ((List.range N).map fun i => (x i ω, b0 + b1 * x i ω + e i ω)) (1 - p)).intercept - (det - b1 * A)| < ε ∧
      |(quantReg ((List.range N).map fun i => (x i ω, b0 + b1 * x i ω + e i ω)) (1 - p)).slope - b1| < ε := by
  have hset : ∀ a, {t : ℝ | det < b0 + b1 * a + t} = Ioi (det - (b0 + b1 * a)) := by
    intro a; ext t; simp only [mem_setOf_eq, mem_Ioi]; constructor <;> intro h <;> linarith
  have hinv : ∀ d', d' = det - (b0 + b1 * ((det - b0 - d') / b1)) := by
    intro d'; field_simp; ring
  set d := det - (b0 + b1 * A) with hd
  have hz : ∀ i, Measurable fun ω => (x i ω, e i ω) := fun i => (hx i).prodMk (he i)
  have hcl : b0 + d = det - b1 * A := by rw [hd]; ring
  have hmain := convex_argmin_ae (fun i ω => (x i ω, e i ω)) hz hlaw hind univ isOpen_univ (qLoss (1 - p) b0 b1)
    (qLoss_convex _ _ _) (fun q _ => qLoss_measurable _ _ _ q) (fun q _ => qLoss_integrable hν hμ (by linarith) (by linarith) b0 b1 q)
    (b0 + d, b1) (mem_univ _) (fun q _ hq => qLoss_pop hν hμ hpt (by linarith) (by linarith) d b0 b1 (by rw [← hset, hA]; ring)
      (fun d' hd' => by
        have h := hAl ((det - b0 - d') / b1) (by rw [div_lt_iff₀ hb]; linarith)
        rw [hset, ← hinv] at h; linarith)
      (fun d' hd' => by
        have h := hAg ((det - b0 - d') / b1) (by rw [gt_iff_lt, lt_div_iff₀ hb]; linarith)
        rw [hset, ← hinv] at h; linarith) q hq)
  filter_upwards [hmain] with ω hω ε hε
  filter_upwards [hω ε hε] with N hN quantReg hex
  have h1 := hex ((List.range N).map fun i => (x i ω, b0 + b1 * x i ω + e i ω)) (1 - p) (by linarith) (by linarith) (b0 + d) b1
  rw [quantLoss_sample, quantLoss_sample] at h1
  have h2 := hN (_, _) (mem_univ _) h1
  rw [Prod.dist_eq, max_lt_iff, Real.dist_eq, Real.dist_eq, hcl] at h2
  exact h2

end

/-! ## The curve -/

/-- A piecewise linear curve with separated abscissas is Lipschitz. -/
theorem interpGo_lip {γ : ℝ} (hγ : 0 < γ) (p : ℝ × ℝ) (l : List (ℝ × ℝ))
    (h : (p :: l).Pairwise fun a b => a.1 + γ ≤ b.1 ∧ |b.2 - a.2| ≤ 1) {t t' : ℝ} (ht : p.1 ≤ t) (htt : t ≤ t') :
    |interpGo (p :: l) t' - interpGo (p :: l) t| ≤ (t' - t) / γ := by
  induction l generalizing p t t' with
  | nil => simp only [interpGo, sub_self, abs_zero]; exact div_nonneg (by linarith) hγ.le
  | cons q l ih =>
    obtain ⟨h1, h2⟩ := List.pairwise_cons.1 h
    obtain ⟨hx, hy⟩ := h1 q (by simp)
    have hpos : 0 < q.1 - p.1 := by linarith
    have hslope : |(q.2 - p.2) / (q.1 - p.1)| ≤ 1 / γ := by
      rw [abs_div, abs_of_pos hpos]
      exact div_le_div₀ zero_le_one hy hγ (by linarith)
    rw [interpGo, interpGo]
    by_cases c' : t' < q.1
    · rw [if_pos c', if_pos (lt_of_le_of_lt htt c')]
      have : (q.2 - p.2) / (q.1 - p.1) * (t' - p.1) + p.2 - ((q.2 - p.2) / (q.1 - p.1) * (t - p.1) + p.2)
          = (q.2 - p.2) / (q.1 - p.1) * (t' - t) := by ring
      rw [this, abs_mul, abs_of_nonneg (by linarith : 0 ≤ t' - t), show (t' - t) / γ = 1 / γ * (t' - t) by ring]
      exact mul_le_mul_of_nonneg_right hslope (by linarith)
    · rw [if_neg c']
      by_cases c : t < q.1
      · rw [if_pos c]
        have hq : interpGo (q :: l) q.1 = q.2 := interpGo_at (h2.imp fun h => by linarith [h.1]) (by simp)
        have i1 := ih q h2 le_rfl (not_lt.1 c')
        rw [hq] at i1
        have : (q.2 - p.2) / (q.1 - p.1) * (t - p.1) + p.2 = q.2 - (q.2 - p.2) / (q.1 - p.1) * (q.1 - t) := by
          field_simp; ring
        rw [this]
        have i2 : |(q.2 - p.2) / (q.1 - p.1) * (q.1 - t)| ≤ 1 / γ * (q.1 - t) := by
          rw [abs_mul, abs_of_nonneg (by linarith : 0 ≤ q.1 - t)]
          exact mul_le_mul_of_nonneg_right hslope (by linarith)
        have e1 : (t' - t) / γ = (t' - q.1) / γ + 1 / γ * (q.1 - t) := by ring
        have e2 : interpGo (q :: l) t' - (q.2 - (q.2 - p.2) / (q.1 - p.1) * (q.1 - t))
            = (interpGo (q :: l) t' - q.2) + (q.2 - p.2) / (q.1 - p.1) * (q.1 - t) := by ring
        rw [e1, e2]
        exact (abs_add_le _ _).trans (add_le_add i1 i2)
      · rw [if_neg c]
        exact ih q h2 (not_lt.1 c) htt

/-- The loop over the levels when every line is increasing and meets the threshold. -/
theorem qrSolveAll_map (pick : ℝ → ℝ → ℝ) (fit : ℝ → QuantFit) (det lo hi : ℝ) (ps : List ℝ)
    (h : ∀ p ∈ ps, (fit (1 - p)).slope ≠ 0 ∧ LineMeets (fit (1 - p)) det lo hi) :
    qrSolveAll pick fit det lo hi ps = .ok (ps.map fun p => (det - (fit (1 - p)).intercept) / (fit (1 - p)).slope) := by
  induction ps with
  | nil => rfl
  | cons p ps ih =>
    obtain ⟨h1, h2⟩ := h p (by simp)
    have hb : brentLine pick (qrFitFor fit p) det lo hi = .ok ((det - (fit (1 - p)).intercept) / (fit (1 - p)).slope) := by
      obtain ⟨d, hd⟩ := (brentLine_ok pick (fit (1 - p)) det lo hi).2 h2
      rw [qrFitFor]
      rw [brentLine] at hd ⊢
      split_ifs at hd ⊢
      rfl
    rw [qrSolveAll, hb]
    dsimp only
    rw [ih fun p' hp' => h p' (List.mem_cons_of_mem _ hp')]
    rfl

/-- The zero of a line close to an increasing line. -/
theorem zero_close {b1 A det c0 c1 δ : ℝ} (hb : 0 < b1) (h0 : |c0 - (det - b1 * A)| < δ) (h1 : |c1 - b1| < δ) (hδ : δ ≤ b1 / 2) :
    b1 / 2 < c1 ∧ |(det - c0) / c1 - A| ≤ δ * (1 + |A|) / (b1 / 2) := by
  obtain ⟨a1, a2⟩ := abs_lt.1 h1
  have hc : b1 / 2 < c1 := by linarith
  refine ⟨hc, ?_⟩
  have hc0 : 0 < c1 := by linarith
  have : (det - c0) / c1 - A = (-(c0 - (det - b1 * A)) + -(c1 - b1) * A) / c1 := by field_simp; ring
  rw [this, abs_div, abs_of_pos hc0]
  refine div_le_div₀ (mul_nonneg ((abs_nonneg _).trans h1.le) (by positivity)) ?_ (by linarith) hc.le
  refine (abs_add_le _ _).trans ?_
  rw [abs_neg, abs_mul, abs_neg, mul_add, mul_one]
  exact add_le_add h0.le (mul_le_mul_of_nonneg_right h1.le (abs_nonneg _))

/-- An increasing line meets the threshold between two sizes around its zero. -/
theorem lineMeets_of_zero {m : QuantFit} {det lo hi : ℝ} (hs : 0 < m.slope) (h1 : lo ≤ (det - m.intercept) / m.slope)
    (h2 : (det - m.intercept) / m.slope ≤ hi) : LineMeets m det lo hi := by
  rw [le_div_iff₀ hs] at h1
  rw [div_le_iff₀ hs] at h2
  rintro (⟨h, -⟩ | ⟨-, h⟩) <;> linarith

theorem fin_gap {α : Type} (L : List α) (g : α → ℝ) (h : ∀ a ∈ L, 0 < g a) : ∃ γ > 0, ∀ a ∈ L, γ ≤ g a := by
  induction L with
  | nil => exact ⟨1, one_pos, by simp⟩
  | cons a L ih =>
    obtain ⟨γ, h1, h2⟩ := ih fun b hb => h b (List.mem_cons_of_mem _ hb)
    refine ⟨min γ (g a), lt_min h1 (h a (by simp)), fun b hb => ?_⟩
    rcases List.mem_cons.1 hb with rfl | hb
    · exact min_le_right _ _
    · exact (min_le_left _ _).trans (h2 b hb)

/-- The run in terms of its steps, without Box-Cox and thresholds. -/
theorem qr_run_steps {G : Type} (env : QrEnv G) (obs : List (ℝ × ℝ)) (det : ℝ) (qs : List ℝ) (bootstraps : List (List (ℝ × ℝ))) (s : QrAttrs G)
    (mx : ℝ) (ds : List ℝ) (f : ℝ → Res ℝ) (h1 : sampleMax (obs.map Prod.fst) = .ok mx)
    (h2 : qrSolveAll env.pick (env.quantReg obs) det 0 mx qs = .ok ds) (h3 : qrCurve ds qs mx = .ok f) :
    (qrPodRun env ⟨obs, det, none, none, false, false, qs⟩ bootstraps s).2.pod = some f ∧
    (qrPodRun env ⟨obs, det, none, none, false, false, qs⟩ [] s).1 = .ok () := by
  simp only [qrPodRun, podRun, Bool.false_eq_true, if_false, Option.getD_some, h1, h2, h3]
  exact ⟨(qrBootstrap_ok env _ _ _ _ _).2.1, ((qrBootstrap_ok env _ _ _ _ _).1).2 (by simp)⟩

/-- The curve on knots close to given ones. -/
theorem curve_close (qs : List ℝ) (hne : qs ≠ []) (hqs : qs.Pairwise (· < ·)) (hlev : ∀ p ∈ qs, 0 < p ∧ p < 1) (A X : ℝ → ℝ) (M mx γ : ℝ) (hγ : 0 < γ)
    (g1 : ∀ p ∈ qs, γ ≤ A p) (g2 : ∀ p ∈ qs, A p + γ ≤ M) (g3 : ∀ p ∈ qs, ∀ p' ∈ qs, p < p' → A p + γ ≤ A p')
    (hX : ∀ p ∈ qs, |X p - A p| ≤ γ / 3) (hM : M ≤ mx) :
    ∃ f, qrCurve (qs.map X) qs mx = .ok f ∧ NonDecreasing f ∧ (∀ t, 0 ≤ t → t ≤ mx → ∃ v, f t = .ok v) ∧ (∀ p ∈ qs, f (X p) = .ok p) ∧
      ∀ p ∈ qs, ∃ v, f (A p) = .ok v ∧ |v - p| ≤ |X p - A p| / (γ / 3) := by
  have hX' : ∀ p ∈ qs, A p - γ / 3 ≤ X p ∧ X p ≤ A p + γ / 3 := by
    intro p hp
    have := abs_le.1 (hX p hp)
    constructor <;> linarith
  set qmax := qs.getD (qs.length - 1) 0 with hqmax
  have hqm : qmax ∈ qs := (ends_mem hne).2
  set pts : List (ℝ × ℝ) := (0, 0) :: ((qs.map X).zip qs ++ [(mx, qmax)]) with hpts
  have hzip : (qs.map X).zip qs = qs.map fun p => (X p, p) := by
    rw [List.zip_map_left, ← List.map_id qs, List.zip_map', List.map_map, List.map_id]; rfl
  have hpw : pts.Pairwise fun a b => a.1 + γ / 3 ≤ b.1 ∧ |b.2 - a.2| ≤ 1 := by
    rw [hpts, hzip, List.pairwise_cons, List.pairwise_append, List.pairwise_map]
    refine ⟨fun b hb => ?_, hqs.imp_of_mem fun {p p'} hp hp' hlt => ?_, by simp, fun b hb c hc => ?_⟩
    · rcases List.mem_append.1 hb with hb | hb
      · obtain ⟨p, hp, rfl⟩ := List.mem_map.1 hb
        have := hlev p hp
        have := g1 p hp
        have := hX' p hp
        refine ⟨by simp only; linarith, by simp only; rw [abs_le]; constructor <;> linarith⟩
      · rw [List.mem_singleton] at hb
        subst hb
        have := hlev _ hqm
        have := g1 _ hqm
        have := g2 _ hqm
        refine ⟨by simp only; linarith, by simp only; rw [abs_le]; constructor <;> linarith⟩
    · have := hlev p hp
      have := hlev p' hp'
      have := g3 p hp p' hp' hlt
      have := hX' p hp
      have := hX' p' hp'
      refine ⟨by simp only; linarith, by simp only; rw [abs_le]; constructor <;> linarith⟩
    · obtain ⟨p, hp, rfl⟩ := List.mem_map.1 hb
      rw [List.mem_singleton] at hc
      subst hc
      have := hlev p hp
      have := hlev _ hqm
      have := g2 p hp
      have := hX' p hp
      refine ⟨by simp only; linarith, by simp only; rw [abs_le]; constructor <;> linarith⟩
  have hlt : pts.Pairwise fun a b => a.1 < b.1 := hpw.imp fun h => by linarith [h.1]
  have hinc : (0 :: (qs.map X ++ [mx])).Pairwise (· < ·) := by
    have h := List.pairwise_map.2 hlt
    have hm : pts.map Prod.fst = 0 :: (qs.map X ++ [mx]) := by
      rw [hpts, hzip]; simp [List.map_map, Function.comp_def]
    rwa [hm] at h
  obtain ⟨f, hf, -, f3, -, f5, -, f7⟩ := C29_qr_curve (qs.map X) qs mx (by simp) hne ⟨hqs.imp le_of_lt, hlev⟩ hinc
  have hfe : f = interpEval pts := by
    rw [qrCurve, interp1d, if_pos (by simp), qrCurve_pts _ _ _ (by simp), sortPts_of_sorted (hlt.imp le_of_lt), Except.ok.injEq] at hf
    exact hf.symm
  refine ⟨f, hf, fun t t' v v' h hv hv' => f7 t t' v v' h hv hv', fun t h0 h1 => ?_, fun p hp => ?_, fun p hp => ?_⟩
  · obtain ⟨v, hv, -⟩ := f3 t h0 h1
    exact ⟨v, hv⟩
  · exact f5 (X p) p (by rw [hzip]; exact List.mem_map.2 ⟨p, hp, rfl⟩)
  · have b1 := g1 p hp
    have b2 := g2 p hp
    obtain ⟨b3, b4⟩ := hX' p hp
    have hlast : (((0, 0) :: ((qs.map X).zip qs ++ [(mx, qmax)]) : List (ℝ × ℝ)).getLast (by simp)).1 = mx := by simp
    have hval : ∀ t, 0 ≤ t → t ≤ mx → f t = .ok (interpGo pts t) := by
      intro t h0 h1
      rw [hfe]
      exact (interpEval_ok_iff (p := (0, 0))).1 ⟨h0, h1.trans hlast.ge⟩
    refine ⟨_, hval (A p) (by linarith) (by linarith), ?_⟩
    have hp' : interpGo pts (X p) = p := by
      have h := f5 (X p) p (by rw [hzip]; exact List.mem_map.2 ⟨p, hp, rfl⟩)
      rw [hval (X p) (by linarith) (by linarith), Except.ok.injEq] at h
      exact h
    rcases le_total (X p) (A p) with h | h
    · have := interpGo_lip (by positivity : 0 < γ / 3) (0, 0) _ hpw (t := X p) (t' := A p) (by simp only; linarith) h
      rw [hp'] at this
      rwa [abs_of_nonpos (by linarith : X p - A p ≤ 0), neg_sub]
    · have := interpGo_lip (by positivity : 0 < γ / 3) (0, 0) _ hpw (t := A p) (t' := X p) (by simp only; linarith) h
      rw [hp', abs_sub_comm] at this
      rwa [abs_of_nonneg (by linarith : 0 ≤ X p - A p)]

section
variable {Ω : Type} [MeasurableSpace Ω] {Q : Measure Ω} [IsProbabilityMeasure Q] {ν μ : Measure ℝ} [IsProbabilityMeasure ν] [IsProbabilityMeasure μ]

theorem beyond (a : ℝ) (h : 0 < ν.real (Ioi a)) : ∃ M > a, 0 < ν.real (Ioi M) := by
  by_contra hcon
  push Not at hcon
  have h0 : ∀ n : ℕ, ν (Ioi (a + 1 / ((n : ℝ) + 1))) = 0 := by
    intro n
    have := hcon (a + 1 / ((n : ℝ) + 1)) (by have : (0 : ℝ) < 1 / ((n : ℝ) + 1) := by positivity
                                             linarith)
    have h' := le_antisymm this measureReal_nonneg
    rwa [measureReal_eq_zero_iff] at h'
  have hU : Ioi a = ⋃ n : ℕ, Ioi (a + 1 / ((n : ℝ) + 1)) := by
    ext t
    simp only [mem_Ioi, mem_iUnion]
    constructor
    · intro ht
      obtain ⟨n, hn⟩ := exists_nat_one_div_lt (show 0 < t - a by linarith)
      exact ⟨n, by linarith⟩
    · rintro ⟨n, hn⟩
      have : (0 : ℝ) < 1 / ((n : ℝ) + 1) := by positivity
      linarith
  have : ν (Ioi a) = 0 := by rw [hU]; exact measure_iUnion_null h0
  rw [measureReal_def, this] at h
  simp at h

/-- A size beyond which there are defects is exceeded by the largest defect of a long enough sample. -/
theorem max_beyond (x e : ℕ → Ω → ℝ) (hx : ∀ i, Measurable (x i)) (he : ∀ i, Measurable (e i))
    (hlaw : ∀ i, Q.map (fun ω => (x i ω, e i ω)) = ν.prod μ) (hind : iIndepFun (fun i ω => (x i ω, e i ω)) Q) (b0 b1 M : ℝ)
    (hM : 0 < ν.real (Ioi M)) :
    ∀ᵐ ω ∂Q, ∀ᶠ N in atTop, ∃ mx, sampleMax (((List.range N).map fun i => (x i ω, b0 + b1 * x i ω + e i ω)).map Prod.fst) = .ok mx ∧ M < mx := by
  have h := event_hit (fun i ω => (x i ω, e i ω)) (fun i => (hx i).prodMk (he i)) hlaw hind (Prod.fst ⁻¹' Ioi M)
    (measurable_fst measurableSet_Ioi) (by
      rw [measureReal_def, (measurePreserving_fst (μ := ν) (ν := μ)).measure_preimage measurableSet_Ioi.nullMeasurableSet]
      exact hM)
  filter_upwards [h] with ω hω
  filter_upwards [hω] with N hN
  obtain ⟨i, hi, hxi⟩ := hN
  have hmem : x i ω ∈ ((List.range N).map fun i => (x i ω, b0 + b1 * x i ω + e i ω)).map Prod.fst :=
    List.mem_map.2 ⟨_, List.mem_map.2 ⟨i, List.mem_range.2 hi, rfl⟩, rfl⟩
  obtain ⟨mn, mx, -, hmx⟩ := sampleMinMax_ok (List.ne_nil_of_mem hmem)
  exact ⟨mx, hmx, lt_of_lt_of_le hxi ((sampleMax_spec hmx).2 hmem)⟩

theorem min_beyond (x e : ℕ → Ω → ℝ) (hx : ∀ i, Measurable (x i)) (he : ∀ i, Measurable (e i))
    (hlaw : ∀ i, Q.map (fun ω => (x i ω, e i ω)) = ν.prod μ) (hind : iIndepFun (fun i ω => (x i ω, e i ω)) Q) (b0 b1 M : ℝ)
    (hM : 0 < ν.real (Iio M)) :
    ∀ᵐ ω ∂Q, ∃ η > 0, ∀ᶠ N in atTop, ∃ mn, sampleMin (((List.range N).map fun i => (x i ω, b0 + b1 * x i ω + e i ω)).map Prod.fst) = .ok mn ∧
      mn ≤ M - η := by
  have h := event_hit (fun i ω => (x i ω, e i ω)) (fun i => (hx i).prodMk (he i)) hlaw hind (Prod.fst ⁻¹' Iio M)
    (measurable_fst measurableSet_Iio) (by
      rw [measureReal_def, (measurePreserving_fst (μ := ν) (ν := μ)).measure_preimage measurableSet_Iio.nullMeasurableSet]
      exact hM)
  filter_upwards [h] with ω hω
  obtain ⟨N0, i, hi, hxi⟩ := hω.exists
  have hxi' : x i ω < M := hxi
  refine ⟨M - x i ω, by linarith, ?_⟩
  filter_upwards [eventually_ge_atTop N0] with N hN
  have hmem : x i ω ∈ ((List.range N).map fun i => (x i ω, b0 + b1 * x i ω + e i ω)).map Prod.fst :=
    List.mem_map.2 ⟨_, List.mem_map.2 ⟨i, List.mem_range.2 (by omega), rfl⟩, rfl⟩
  obtain ⟨mn, mx, hmn, -⟩ := sampleMinMax_ok (List.ne_nil_of_mem hmem)
  exact ⟨mn, hmn, by have := (sampleMin_spec hmn).2 hmem; linarith⟩

/-- **C170, curve.**  The defects are independent with an integrable law that is not a single point, the signals are an increasing line plus
independent integrable errors, and the true probability of detection crosses every requested level `p` at a size `A p` that is positive and below some
defects.  Then for almost every infinite sample, from some number of observations on, every run builds a curve; its value at `A p` tends to `p`; and at
any size `a` below some defects it is at least the levels crossed before `a` and at most the levels crossed after `a`. -/
theorem C170_curve {G : Type} (x e : ℕ → Ω → ℝ) (hx : ∀ i, Measurable (x i)) (he : ∀ i, Measurable (e i))
    (hlaw : ∀ i, Q.map (fun ω => (x i ω, e i ω)) = ν.prod μ) (hind : iIndepFun (fun i ω => (x i ω, e i ω)) Q)
    (hν : Integrable (fun t => t) ν) (hpt : ∀ c, ν {c} ≠ 1) (hμ : Integrable (fun t => t) μ) (b0 b1 : ℝ) (hb : 0 < b1) (det : ℝ)
    (qs : List ℝ) (hne : qs ≠ []) (hqs : qs.Pairwise (· < ·)) (hlev : ∀ p ∈ qs, 0 < p ∧ p < 1) (A : ℝ → ℝ) :
    let truth := fun a => μ.real {t | det < b0 + b1 * a + t}
    (∀ p ∈ qs, truth (A p) = p ∧ (∀ a < A p, truth a < p) ∧ ∀ a > A p, p < truth a) →
    (∀ p ∈ qs, 0 < A p ∧ 0 < ν.real (Ioi (A p))) → ∀ a, 0 ≤ a → 0 < ν.real (Ioi a) →
    ∀ᵐ ω ∂Q, ∀ ε > 0, ∀ᶠ N in atTop, ∀ env : QrEnv G, (∀ obs tau, 0 < tau → tau < 1 → QuantRegExact env.quantReg obs tau) →
      ∀ bootstraps s, ∃ f,
        let obs := (List.range N).map fun i => (x i ω, b0 + b1 * x i ω + e i ω)
        (qrPodRun env ⟨obs, det, none, none, false, false, qs⟩ bootstraps s).2.pod = some f ∧
        (qrPodRun env ⟨obs, det, none, none, false, false, qs⟩ [] s).1 = .ok () ∧
        (∀ p ∈ qs, ∃ v, f (A p) = .ok v ∧ |v - p| < ε) ∧
        ∃ v, f a = .ok v ∧ ∀ p ∈ qs, (A p < a → p ≤ v) ∧ (a < A p → v ≤ p) := by
  intro truth hcross hrange a ha0 ha
  have hmono : ∀ p ∈ qs, ∀ p' ∈ qs, p < p' → A p < A p' := by
    intro p hp p' hp' hlt
    by_contra hcon
    rcases (not_lt.1 hcon).eq_or_lt with h | h
    · have := (hcross p hp).1
      rw [← h, (hcross p' hp').1] at this
      linarith
    · have := (hcross p hp).2.1 _ h
      rw [(hcross p' hp').1] at this
      linarith
  set pL := qs.getD (qs.length - 1) 0 with hpL
  have hpLm : pL ∈ qs := (ends_mem hne).2
  have hpLmax : ∀ p ∈ qs, A p ≤ A pL := by
    intro p hp
    rcases (sorted_bounds (hqs.imp le_of_lt) hp).2.eq_or_lt with h | h
    · rw [h]
    · exact (hmono p hp pL hpLm h).le
  obtain ⟨M, hM1, hM2⟩ := beyond (A pL) (hrange pL hpLm).2
  obtain ⟨γ1, hγ1, k1⟩ := fin_gap qs A fun p hp => (hrange p hp).1
  obtain ⟨γ3, hγ3, k3⟩ := fin_gap ((qs ×ˢ qs).filter fun w => decide (w.1 < w.2)) (fun w => A w.2 - A w.1) (by
    intro w hw
    rw [List.mem_filter, List.mem_product, decide_eq_true_eq] at hw
    have := hmono w.1 hw.1.1 w.2 hw.1.2 hw.2
    linarith)
  set γ := min (min γ1 (M - A pL)) γ3 with hγdef
  have hγ : 0 < γ := lt_min (lt_min hγ1 (by linarith)) hγ3
  have g1 : ∀ p ∈ qs, γ ≤ A p := fun p hp => ((min_le_left _ _).trans (min_le_left _ _)).trans (k1 p hp)
  have g2 : ∀ p ∈ qs, A p + γ ≤ M := by
    intro p hp
    have h1 : γ ≤ M - A pL := (min_le_left _ _).trans (min_le_right _ _)
    have := hpLmax p hp
    linarith
  have g3 : ∀ p ∈ qs, ∀ p' ∈ qs, p < p' → A p + γ ≤ A p' := by
    intro p hp p' hp' hlt
    have h1 : γ ≤ γ3 := min_le_right _ _
    have := k3 (p, p') (by rw [List.mem_filter, List.mem_product, decide_eq_true_eq]; exact ⟨⟨hp, hp'⟩, hlt⟩)
    simp only at this
    linarith
  have hclose : ∀ᵐ ω ∂Q, ∀ p ∈ {p | p ∈ qs}, ∀ ε > 0, ∀ᶠ N in atTop, ∀ quantReg : List (ℝ × ℝ) → ℝ → QuantFit,
      (∀ obs tau, 0 < tau → tau < 1 → QuantRegExact quantReg obs tau) →
      |(quantReg ((List.range N).map fun i => (x i ω, b0 + b1 * x i ω + e i ω)) (1 - p)).intercept - (det - b1 * A p)| < ε ∧
      |(quantReg ((List.range N).map fun i => (x i ω, b0 + b1 * x i ω + e i ω)) (1 - p)).slope - b1| < ε := by
    refine (ae_ball_iff qs.finite_toSet.countable).2 fun p hp => ?_
    exact quantReg_close x e hx he hlaw hind hν hpt hμ b0 b1 hb det p (A p) (hlev p hp).1 (hlev p hp).2 (hcross p hp).1 (hcross p hp).2.1
      (hcross p hp).2.2
  filter_upwards [hclose, max_beyond x e hx he hlaw hind b0 b1 (max M a) (by
    rcases le_total M a with h | h
    · rwa [max_eq_right h]
    · rwa [max_eq_left h])] with ω hω hmax ε hε
  have hall : ∀ᶠ N in atTop, ∀ p ∈ {p | p ∈ qs}, ∀ quantReg : List (ℝ × ℝ) → ℝ → QuantFit,
      (∀ obs tau, 0 < tau → tau < 1 → QuantRegExact quantReg obs tau) →
      let m := quantReg ((List.range N).map fun i => (x i ω, b0 + b1 * x i ω + e i ω)) (1 - p)
      0 < m.slope ∧ |(det - m.intercept) / m.slope - A p| ≤ γ / 3 ∧ |(det - m.intercept) / m.slope - A p| < ε * (γ / 3) ∧
        (a ≠ A p → |(det - m.intercept) / m.slope - A p| < |a - A p|) := by
    rw [eventually_all_finite qs.finite_toSet]
    intro p hp
    set η := min (min (γ / 3) (ε * (γ / 3))) (if a = A p then 1 else |a - A p|) with hη
    have hη0 : 0 < η := by
      refine lt_min (lt_min (by positivity) (by positivity)) ?_
      split_ifs with h
      · exact one_pos
      · exact abs_pos.2 (sub_ne_zero.2 h)
    set δ := min (b1 / 2) (η / 2 * (b1 / 2) / (1 + |A p|)) with hδ
    have hA0 : 0 < 1 + |A p| := by positivity
    filter_upwards [hω p hp δ (lt_min (by positivity) (by positivity))] with N hN quantReg hex
    obtain ⟨n1, n2⟩ := hN quantReg hex
    obtain ⟨z1, z2⟩ := zero_close hb n1 n2 (min_le_left _ _)
    have z3 : δ * (1 + |A p|) / (b1 / 2) ≤ η / 2 := by
      rw [div_le_iff₀ (by positivity), ← le_div_iff₀ hA0]
      exact min_le_right _ _
    have z4 := lt_of_le_of_lt (z2.trans z3) (by linarith : η / 2 < η)
    have e1 : η ≤ γ / 3 := (min_le_left _ _).trans (min_le_left _ _)
    have e2 : η ≤ ε * (γ / 3) := (min_le_left _ _).trans (min_le_right _ _)
    have e3 : a ≠ A p → η ≤ |a - A p| := by
      intro h
      have := min_le_right (min (γ / 3) (ε * (γ / 3))) (if a = A p then 1 else |a - A p|)
      rw [if_neg h] at this
      rwa [hη, if_neg h]
    exact ⟨by linarith, (z4.trans_le e1).le, z4.trans_le e2, fun h => z4.trans_le (e3 h)⟩
  filter_upwards [hall, hmax] with N hN hmx env hex bootstraps s
  obtain ⟨mx, hmx1, hmx2⟩ := hmx
  set obs := (List.range N).map fun i => (x i ω, b0 + b1 * x i ω + e i ω) with hobs
  set X : ℝ → ℝ := fun p => (det - (env.quantReg obs (1 - p)).intercept) / (env.quantReg obs (1 - p)).slope with hXdef
  have hX : ∀ p ∈ qs, 0 < (env.quantReg obs (1 - p)).slope ∧ |X p - A p| ≤ γ / 3 ∧ |X p - A p| < ε * (γ / 3) ∧ (a ≠ A p → |X p - A p| < |a - A p|) :=
    fun p hp => hN p hp env.quantReg hex
  have hMmx : M < mx := lt_of_le_of_lt (le_max_left _ _) hmx2
  have hamx : a < mx := lt_of_le_of_lt (le_max_right _ _) hmx2
  obtain ⟨f, hf, f1, f2, f3, f4⟩ := curve_close qs hne hqs hlev A X M mx γ hγ g1 g2 g3 (fun p hp => (hX p hp).2.1) hMmx.le
  have hsolve : qrSolveAll env.pick (env.quantReg obs) det 0 mx qs = .ok (qs.map X) := by
    refine qrSolveAll_map _ _ _ _ _ _ fun p hp => ⟨(hX p hp).1.ne', ?_⟩
    have h1 := abs_le.1 (hX p hp).2.1
    have h2 := g1 p hp
    have h3 := g2 p hp
    exact lineMeets_of_zero (hX p hp).1 (by simp only [hXdef] at h1; linarith) (by simp only [hXdef] at h1; linarith)
  refine ⟨f, (qr_run_steps env obs det qs bootstraps s mx _ f hmx1 hsolve hf).1, (qr_run_steps env obs det qs bootstraps s mx _ f hmx1 hsolve hf).2,
    fun p hp => ?_, ?_⟩
  · obtain ⟨v, hv, hv'⟩ := f4 p hp
    refine ⟨v, hv, lt_of_le_of_lt hv' ?_⟩
    rw [div_lt_iff₀ (by positivity)]
    exact (hX p hp).2.2.1
  · obtain ⟨v, hv⟩ := f2 a ha0 hamx.le
    refine ⟨v, hv, fun p hp => ⟨fun h => ?_, fun h => ?_⟩⟩
    · have h1 := (hX p hp).2.2.2 h.ne'
      rw [abs_of_pos (by linarith : 0 < a - A p)] at h1
      exact f1 (X p) a p v (by linarith [(abs_lt.1 h1).2]) (f3 p hp) hv
    · have h1 := (hX p hp).2.2.2 h.ne
      rw [abs_of_neg (by linarith : a - A p < 0)] at h1
      exact f1 a (X p) v p (by linarith [(abs_lt.1 h1).1]) hv (f3 p hp)

/-- **C170, detection size.**  If the true probability of detection crosses `p` at `A` and there are defects below and above `A`, then for almost every
infinite sample `computeDetectionSize(p)` eventually succeeds and its result tends to `A`. -/
theorem C170_size (x e : ℕ → Ω → ℝ) (hx : ∀ i, Measurable (x i)) (he : ∀ i, Measurable (e i))
    (hlaw : ∀ i, Q.map (fun ω => (x i ω, e i ω)) = ν.prod μ) (hind : iIndepFun (fun i ω => (x i ω, e i ω)) Q)
    (hν : Integrable (fun t => t) ν) (hμ : Integrable (fun t => t) μ) (b0 b1 : ℝ) (hb : 0 < b1) (det p A : ℝ) (hp0 : 0 < p) (hp1 : p < 1) :
    let truth := fun a => μ.real {t | det < b0 + b1 * a + t}
    truth A = p → (∀ a < A, truth a < p) → (∀ a > A, p < truth a) → 0 < ν.real (Iio A) → 0 < ν.real (Ioi A) →
    ∀ᵐ ω ∂Q, ∀ ε > 0, ∀ᶠ N in atTop, ∀ (pick : ℝ → ℝ → ℝ) (quantReg : List (ℝ × ℝ) → ℝ → QuantFit),
      (∀ obs tau, 0 < tau → tau < 1 → QuantRegExact quantReg obs tau) →
      let obs := (List.range N).map fun i => (x i ω, b0 + b1 * x i ω + e i ω)
      ∃ mn mx d, sampleMin (obs.map Prod.fst) = .ok mn ∧ sampleMax (obs.map Prod.fst) = .ok mx ∧
        qrDetectionSize pick (quantReg obs) det mn mx p = .ok d ∧ |d - A| < ε := by
  intro truth t1 t2 t3 hlo hhi
  have hpt : ∀ c, ν {c} ≠ 1 := by
    intro c hc
    have hz : ν {c}ᶜ = 0 := (prob_compl_eq_zero_iff (MeasurableSet.singleton c)).2 hc
    have hzero : ∀ S : Set ℝ, c ∉ S → ν.real S = 0 := by
      intro S hS
      have : ν S = 0 := measure_mono_null (fun t ht => by
        rw [mem_compl_iff, mem_singleton_iff]; rintro rfl; exact hS ht) hz
      rw [measureReal_def, this]; rfl
    rcases lt_or_ge c A with h | h
    · exact hhi.ne' (hzero _ (by simp [h.le]))
    · exact hlo.ne' (hzero _ (by simp [h]))
  obtain ⟨M, hM1, hM2⟩ := beyond A hhi
  filter_upwards [quantReg_close x e hx he hlaw hind hν hpt hμ b0 b1 hb det p A hp0 hp1 t1 t2 t3, max_beyond x e hx he hlaw hind b0 b1 M hM2,
    min_beyond x e hx he hlaw hind b0 b1 A hlo] with ω hω hmax hmin ε hε
  obtain ⟨κ, hκ, hmin⟩ := hmin
  set η := min (min ε κ) (M - A) with hη
  have hη0 : 0 < η := lt_min (lt_min hε hκ) (by linarith)
  have hA0 : 0 < 1 + |A| := by positivity
  set δ := min (b1 / 2) (η / 2 * (b1 / 2) / (1 + |A|)) with hδ
  filter_upwards [hω δ (lt_min (by positivity) (by positivity)), hmax, hmin] with N hN ⟨mx, hmx, hmx'⟩ ⟨mn, hmn, hmn'⟩ pick quantReg hex obs
  obtain ⟨n1, n2⟩ := hN quantReg hex
  obtain ⟨z1, z2⟩ := zero_close hb n1 n2 (min_le_left _ _)
  have z3 : δ * (1 + |A|) / (b1 / 2) ≤ η / 2 := by
    rw [div_le_iff₀ (by positivity), ← le_div_iff₀ hA0]
    exact min_le_right _ _
  have z4 := lt_of_le_of_lt (z2.trans z3) (by linarith : η / 2 < η)
  have e1 : η ≤ ε := (min_le_left _ _).trans (min_le_left _ _)
  have e2 : η ≤ κ := (min_le_left _ _).trans (min_le_right _ _)
  have e3 : η ≤ M - A := min_le_right _ _
  obtain ⟨z5, z6⟩ := abs_lt.1 z4
  have hs := qrSolveAll_map pick (quantReg obs) det mn mx [p] (by
    intro p' hp'
    rw [List.mem_singleton] at hp'
    subst hp'
    exact ⟨by linarith, lineMeets_of_zero (by linarith) (by linarith) (by linarith)⟩)
  refine ⟨mn, mx, _, hmn, hmx, ?_, z4.trans_le e1⟩
  rw [qrDetectionSize]
  rw [qrSolveAll] at hs
  cases hbr : brentLine pick (qrFitFor (quantReg obs) p) det mn mx with
  | error er => rw [hbr] at hs; simp at hs
  | ok d =>
    rw [hbr] at hs
    simp only [qrSolveAll, List.map_cons, List.map_nil, Except.ok.injEq, List.cons.injEq, and_true] at hs
    rw [hs]

end

theorem inst_truth (a : ℝ) : (gaussianReal 0 1).real {t | (7 : ℝ) < 1 + 2 * a + t} = 1 - Phi (6 - 2 * a) := by
  have e1 : (1 : NNReal) = sqv 1 := by simp [sqv]
  have : {t : ℝ | (7 : ℝ) < 1 + 2 * a + t} = Ioi (6 - 2 * a) := by
    ext t; simp only [mem_ofPred_eq, mem_Ioi]; constructor <;> intro h <;> linarith
  rw [this, e1, gauss_Ioi one_pos, sub_zero, div_one]

theorem inst_cross : (gaussianReal 0 1).real {t | (7 : ℝ) < 1 + 2 * 3 + t} = 1 / 2 ∧
    (∀ a < (3 : ℝ), (gaussianReal 0 1).real {t | (7 : ℝ) < 1 + 2 * a + t} < 1 / 2) ∧
    ∀ a > (3 : ℝ), 1 / 2 < (gaussianReal 0 1).real {t | (7 : ℝ) < 1 + 2 * a + t} := by
  refine ⟨?_, fun a ha => ?_, fun a ha => ?_⟩
  · rw [inst_truth, show (6 : ℝ) - 2 * 3 = 0 by norm_num, Phi_zero]; norm_num
  · rw [inst_truth]
    have := Phi_strictMono (show (0 : ℝ) < 6 - 2 * a by linarith)
    rw [Phi_zero] at this
    linarith
  · rw [inst_truth]
    have := Phi_strictMono (show (6 : ℝ) - 2 * a < 0 by linarith)
    rw [Phi_zero] at this
    linarith

/-- Instance: normal sizes around 3, standard normal errors, line `1 + 2 a`, threshold 7: the true POD is 1/2 at size 3, and the detection size of the
quantile regression at 0.5 tends to 3. -/
example : ∀ᵐ ω ∂(Measure.infinitePi fun _ : ℕ => (gaussianReal 3 1).prod (gaussianReal 0 1)), ∀ ε > 0, ∀ᶠ N in atTop,
    ∀ (pick : ℝ → ℝ → ℝ) (quantReg : List (ℝ × ℝ) → ℝ → QuantFit),
      (∀ obs tau, 0 < tau → tau < 1 → QuantRegExact quantReg obs tau) →
      let obs := (List.range N).map fun i => ((ω i).1, 1 + 2 * (ω i).1 + (ω i).2)
      ∃ mn mx d, sampleMin (obs.map Prod.fst) = .ok mn ∧ sampleMax (obs.map Prod.fst) = .ok mx ∧
        qrDetectionSize pick (quantReg obs) 7 mn mx (1 / 2) = .ok d ∧ |d - 3| < ε :=
  C170_size (Q := Measure.infinitePi fun _ : ℕ => (gaussianReal 3 1).prod (gaussianReal 0 1)) (ν := gaussianReal 3 1) (μ := gaussianReal 0 1)
    (fun i ω => (ω i).1) (fun i ω => (ω i).2)
    (fun i => measurable_fst.comp (measurable_pi_apply i)) (fun i => measurable_snd.comp (measurable_pi_apply i))
    (fun i => (measurePreserving_eval_infinitePi (fun _ : ℕ => (gaussianReal 3 1).prod (gaussianReal 0 1)) i).map_eq)
    (iIndepFun_infinitePi (P := fun _ : ℕ => (gaussianReal 3 1).prod (gaussianReal 0 1)) (X := fun _ x => x) (fun _ => measurable_id))
    ((memLp_id_gaussianReal 1).integrable le_rfl) ((memLp_id_gaussianReal 1).integrable le_rfl) 1 2 two_pos 7 (1 / 2) 3 (by norm_num) (by norm_num)
    inst_cross.1 inst_cross.2.1 inst_cross.2.2 (gauss_real_pos one_ne_zero (by simp)) (gauss_real_pos one_ne_zero (by simp))

/-- Instance of the curve for the same data and the single level 1/2, at size 4. -/
example : ∀ᵐ ω ∂(Measure.infinitePi fun _ : ℕ => (gaussianReal 3 1).prod (gaussianReal 0 1)), ∀ ε > 0, ∀ᶠ N in atTop,
    ∀ env : QrEnv Unit, (∀ obs tau, 0 < tau → tau < 1 → QuantRegExact env.quantReg obs tau) → ∀ bootstraps s, ∃ f,
      (qrPodRun env ⟨(List.range N).map fun i => ((ω i).1, 1 + 2 * (ω i).1 + (ω i).2), 7, none, none, false, false, [1 / 2]⟩ bootstraps s).2.pod = some f ∧
      ∃ v, f 3 = .ok v ∧ |v - 1 / 2| < ε := by
  have h := C170_curve (G := Unit) (Q := Measure.infinitePi fun _ : ℕ => (gaussianReal 3 1).prod (gaussianReal 0 1)) (ν := gaussianReal 3 1)
    (μ := gaussianReal 0 1) (fun i ω => (ω i).1) (fun i ω => (ω i).2)
    (fun i => measurable_fst.comp (measurable_pi_apply i)) (fun i => measurable_snd.comp (measurable_pi_apply i))
    (fun i => (measurePreserving_eval_infinitePi (fun _ : ℕ => (gaussianReal 3 1).prod (gaussianReal 0 1)) i).map_eq)
    (iIndepFun_infinitePi (P := fun _ : ℕ => (gaussianReal 3 1).prod (gaussianReal 0 1)) (X := fun _ x => x) (fun _ => measurable_id))
    ((memLp_id_gaussianReal 1).integrable le_rfl) (fun c => by
      have hn := nullSingletonClass_gaussianReal (μ := 3) (v := 1) one_ne_zero
      rw [measure_singleton]; exact zero_ne_one)
    ((memLp_id_gaussianReal 1).integrable le_rfl) 1 2 two_pos 7 [1 / 2] (by simp) (by simp) (by norm_num) (fun _ => 3)
    (by simp only [List.mem_singleton, forall_eq]; exact inst_cross)
    (by simp only [List.mem_singleton, forall_eq]; exact ⟨by norm_num, gauss_real_pos one_ne_zero (by simp)⟩) 4 (by norm_num)
    (gauss_real_pos one_ne_zero (by simp))
  filter_upwards [h] with ω hω ε hε
  filter_upwards [hω ε hε] with N hN env hex bootstraps s
  obtain ⟨f, h1, -, h3, -⟩ := hN env hex bootstraps s
  exact ⟨f, h1, h3 (1 / 2) (by simp)⟩

end Verif.Props
