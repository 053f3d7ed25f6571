import Verif.Props.QrConsistency
import Verif.Props.CensoredBinomial
import Mathlib.Probability.CDF

/-!
# C181: the quantile regression with thresholds (/repo/otpod/_quantile_regression_pod.py 99-154, 294-332)
-/

namespace Verif.Props
open Verif.Py Verif.Model ProbabilityTheory MeasureTheory Set Filter Topology

/-! ## A best line on two sizes -/

theorem quantLoss_split (tau : ℝ) (obs : List (ℝ × ℝ)) (xa c0 c1 : ℝ) :
    quantLoss tau obs c0 c1 = quantLoss tau (obs.filter fun o => decide (o.1 = xa)) c0 c1
      + quantLoss tau (obs.filter fun o => !decide (o.1 = xa)) c0 c1 := by
  induction obs with
  | nil => simp [quantLoss]
  | cons o l ih =>
    unfold quantLoss at ih ⊢
    rw [List.map_cons, List.sum_cons, ih]
    by_cases h : o.1 = xa
    · simp only [List.filter_cons, h, decide_true, if_true, Bool.not_true, Bool.false_eq_true, if_false, List.map_cons, List.sum_cons]
      ring
    · simp only [List.filter_cons, h, decide_false, if_true, Bool.not_false, Bool.false_eq_true, if_false, List.map_cons, List.sum_cons]
      ring

theorem quantLoss_congr (tau : ℝ) (obs : List (ℝ × ℝ)) (c0 c1 d0 d1 : ℝ) (h : ∀ o ∈ obs, c0 + c1 * o.1 = d0 + d1 * o.1) :
    quantLoss tau obs c0 c1 = quantLoss tau obs d0 d1 := by
  unfold quantLoss
  congr 1
  refine List.map_congr_left fun o ho => ?_
  rw [h o ho]

/-- On observations at two sizes, a line with the least loss at level `tau` splits the observations at each of the sizes: at most a share `tau` of them
strictly below, at least a share `tau` at or below. -/
theorem group_share (tau : ℝ) (obs : List (ℝ × ℝ)) (xa xb : ℝ) (hab : xa ≠ xb) (hobs : ∀ o ∈ obs, o.1 = xa ∨ o.1 = xb) (b0 b1 : ℝ)
    (hmin : ∀ c0 c1, quantLoss tau obs b0 b1 ≤ quantLoss tau obs c0 c1) :
    (obs.countP (fun o => decide (o.1 = xa ∧ o.2 < b0 + b1 * xa)) : ℝ) ≤ tau * obs.countP (fun o => decide (o.1 = xa)) ∧
    tau * obs.countP (fun o => decide (o.1 = xa)) ≤ obs.countP (fun o => decide (o.1 = xa ∧ o.2 ≤ b0 + b1 * xa)) := by
  set G := obs.filter fun o => decide (o.1 = xa) with hG
  have hmemG : ∀ o ∈ G, o.1 = xa := fun o ho => by
    have := (List.mem_filter.1 ho).2
    exact of_decide_eq_true this
  have hsub : xb - xa ≠ 0 := sub_ne_zero.2 hab.symm
  have hGmin : ∀ c0 c1, quantLoss tau G b0 b1 ≤ quantLoss tau G c0 c1 := by
    intro c0 c1
    -- the line with the value of `c0 + c1 x` at `xa` and the old value at `xb`
    set k := ((b0 + b1 * xb) - (c0 + c1 * xa)) / (xb - xa) with hk
    have hk' : k * (xb - xa) = (b0 + b1 * xb) - (c0 + c1 * xa) := div_mul_cancel₀ _ hsub
    have h := hmin (c0 + c1 * xa - k * xa) k
    rw [quantLoss_split tau obs xa b0 b1, quantLoss_split tau obs xa (c0 + c1 * xa - k * xa) k] at h
    have e1 : quantLoss tau (obs.filter fun o => !decide (o.1 = xa)) (c0 + c1 * xa - k * xa) k
        = quantLoss tau (obs.filter fun o => !decide (o.1 = xa)) b0 b1 := by
      refine quantLoss_congr _ _ _ _ _ _ fun o ho => ?_
      obtain ⟨h1, h2⟩ := List.mem_filter.1 ho
      have h3 : ¬ o.1 = xa := by simpa using h2
      have h4 := (hobs o h1).resolve_left h3
      rw [h4]
      linear_combination hk'
    have e2 : quantLoss tau G (c0 + c1 * xa - k * xa) k = quantLoss tau G c0 c1 := by
      refine quantLoss_congr _ _ _ _ _ _ fun o ho => ?_
      rw [hmemG o ho]
      ring
    rw [e1, ← hG, e2] at h
    linarith
  obtain ⟨s1, s2⟩ := quantile_share tau G b0 b1 hGmin
  have hlen : (G.length : ℝ) = obs.countP (fun o => decide (o.1 = xa)) := by rw [hG, List.countP_eq_length_filter]
  have c1 : G.countP (fun o => decide (o.2 < b0 + b1 * o.1)) = obs.countP (fun o => decide (o.1 = xa ∧ o.2 < b0 + b1 * xa)) := by
    rw [hG, List.countP_filter]
    refine List.countP_congr fun o _ => ?_
    simp only [Bool.and_eq_true, decide_eq_true_eq]
    constructor
    · rintro ⟨h1, h2⟩; exact ⟨h2, h2 ▸ h1⟩
    · rintro ⟨h1, h2⟩; exact ⟨h1 ▸ h2, h1⟩
  have c2 : G.countP (fun o => decide (o.2 ≤ b0 + b1 * o.1)) = obs.countP (fun o => decide (o.1 = xa ∧ o.2 ≤ b0 + b1 * xa)) := by
    rw [hG, List.countP_filter]
    refine List.countP_congr fun o _ => ?_
    simp only [Bool.and_eq_true, decide_eq_true_eq]
    constructor
    · rintro ⟨h1, h2⟩; exact ⟨h2, h2 ▸ h1⟩
    · rintro ⟨h1, h2⟩; exact ⟨h1 ▸ h2, h1⟩
  rw [hlen] at s1 s2
  rw [c1] at s1
  rw [c2] at s2
  exact ⟨s1, s2⟩

section
variable {Ω : Type} [MeasurableSpace Ω] {Q : Measure Ω} [IsProbabilityMeasure Q] {ν μ : Measure ℝ} [IsProbabilityMeasure ν] [IsProbabilityMeasure μ]

/-- Errors for which the signal at size `a` is strictly between the thresholds. -/
def keptErr (b0 b1 : ℝ) (noise sat : Option ℝ) (a : ℝ) : Set ℝ := {t | (∀ n ∈ noise, n < b0 + b1 * a + t) ∧ ∀ u ∈ sat, b0 + b1 * a + t < u}

theorem keptErr_meas (b0 b1 : ℝ) (noise sat : Option ℝ) (a : ℝ) : MeasurableSet (keptErr b0 b1 noise sat a) :=
  (keptSig_meas noise sat).preimage (by fun_prop : Measurable fun t : ℝ => b0 + b1 * a + t)

/-- The sample of `N` observations after the filter. -/
noncomputable def keptSample (noise sat : Option ℝ) (b0 b1 : ℝ) (x e : ℕ → Ω → ℝ) (N : ℕ) (ω : Ω) : List (ℝ × ℝ) :=
  keptObs id noise sat ((List.range N).map fun i => (x i ω, b0 + b1 * x i ω + e i ω))

open Classical in
/-- Frequency of the kept observations at a size with an error in a set. -/
theorem group_freq (x e : ℕ → Ω → ℝ) (hx : ∀ i, Measurable (x i)) (he : ∀ i, Measurable (e i))
    (hlaw : ∀ i, Q.map (fun ω => (x i ω, e i ω)) = ν.prod μ) (hind : iIndepFun (fun i ω => (x i ω, e i ω)) Q) (b0 b1 : ℝ)
    (noise sat : Option ℝ) (a : ℝ) (S : Set ℝ) (hS : MeasurableSet S)
    (g : ℝ × ℝ → Bool) (hg : ∀ o, g o = true ↔ o.1 = a ∧ o.2 - (b0 + b1 * a) ∈ S) :
    ∀ᵐ ω ∂Q, Tendsto (fun N : ℕ => ((keptSample noise sat b0 b1 x e N ω).countP g : ℝ) / N) atTop (𝓝 (ν.real {a} * μ.real (keptErr b0 b1 noise sat a ∩ S))) := by
  set T : Set (ℝ × ℝ) := {a} ×ˢ (keptErr b0 b1 noise sat a ∩ S) with hT
  have hTm : MeasurableSet T := (MeasurableSet.singleton a).prod ((keptErr_meas b0 b1 noise sat a).inter hS)
  have h := avg_strong (Q := Q) (P := ν.prod μ) (x := fun i ω => (x i ω, e i ω)) (fun i => (hx i).prodMk (he i)) hlaw hind
    (f := T.indicator fun _ => (1 : ℝ)) (measurable_const.indicator hTm) ((integrable_const _).indicator hTm)
  rw [integral_indicator hTm, setIntegral_const, smul_eq_mul, mul_one, hT, measureReal_prod_prod] at h
  filter_upwards [h] with ω hω
  refine hω.congr fun N => ?_
  rw [avg, keptSample, countP_sum, keptObs_sum]
  congr 1
  refine Finset.sum_congr rfl fun i _ => ?_
  by_cases hi : (x i ω, e i ω) ∈ T
  · rw [indicator_of_mem hi]
    obtain ⟨h1, h2, h3⟩ := hi
    have h1 : x i ω = a := h1
    have hk : b0 + b1 * x i ω + e i ω ∈ keptSig noise sat := by rw [h1]; exact h2
    rw [if_pos hk]
    rw [if_pos ((hg _).2 ⟨h1, ?_⟩)]
    rw [h1]
    simpa using h3
  · rw [indicator_of_notMem hi]
    by_cases hk : b0 + b1 * x i ω + e i ω ∈ keptSig noise sat
    · rw [if_pos hk]
      have : ¬ (x i ω = a ∧ b0 + b1 * x i ω + e i ω - (b0 + b1 * a) ∈ S) := by
        rintro ⟨h1, h2⟩
        rw [h1, add_sub_cancel_left] at h2
        rw [h1] at hk
        exact hi ⟨h1, hk, h2⟩
      rw [if_neg fun h => this ((hg _).1 h)]
    · rw [if_neg hk]

/-- If less than a share `tau` of the kept errors at size `xa` is at most `r`, the best line is eventually more than `r` above the true line there. -/
theorem line_above (x e : ℕ → Ω → ℝ) (hx : ∀ i, Measurable (x i)) (he : ∀ i, Measurable (e i))
    (hlaw : ∀ i, Q.map (fun ω => (x i ω, e i ω)) = ν.prod μ) (hind : iIndepFun (fun i ω => (x i ω, e i ω)) Q) (b0 b1 : ℝ)
    (noise sat : Option ℝ) (xa xb : ℝ) (hab : xa ≠ xb) (hxω : ∀ᵐ ω ∂Q, ∀ i, x i ω = xa ∨ x i ω = xb) (hpos : 0 < ν.real {xa}) (tau r : ℝ)
    (hr : μ.real (keptErr b0 b1 noise sat xa ∩ Iic r) < tau * μ.real (keptErr b0 b1 noise sat xa)) :
    ∀ᵐ ω ∂Q, ∀ᶠ N in atTop, ∀ m : QuantFit,
      (∀ c0 c1, quantLoss tau (keptSample noise sat b0 b1 x e N ω) m.intercept m.slope ≤ quantLoss tau (keptSample noise sat b0 b1 x e N ω) c0 c1) →
      b0 + b1 * xa + r < m.intercept + m.slope * xa := by
  filter_upwards [hxω, group_freq x e hx he hlaw hind b0 b1 noise sat xa (Iic r) measurableSet_Iic
    (fun o => decide (o.1 = xa ∧ o.2 - (b0 + b1 * xa) ≤ r)) (by simp),
    group_freq x e hx he hlaw hind b0 b1 noise sat xa univ MeasurableSet.univ
    (fun o => decide (o.1 = xa)) (by simp)] with ω hω f1 f2
  rw [inter_univ] at f2
  have hlim : ν.real {xa} * μ.real (keptErr b0 b1 noise sat xa ∩ Iic r) < tau * (ν.real {xa} * μ.real (keptErr b0 b1 noise sat xa)) := by
    calc _ < ν.real {xa} * (tau * μ.real (keptErr b0 b1 noise sat xa)) := mul_lt_mul_of_pos_left hr hpos
      _ = _ := by ring
  filter_upwards [f1.eventually_lt (f2.const_mul tau) hlim, eventually_gt_atTop 0] with N hN hN0 m hm
  by_contra hcon
  rw [not_lt] at hcon
  have hN0' : (0 : ℝ) < N := Nat.cast_pos.2 hN0
  have hobs : ∀ o ∈ keptSample noise sat b0 b1 x e N ω, o.1 = xa ∨ o.1 = xb := by
    intro o ho
    obtain ⟨i, -, rfl⟩ := List.mem_map.1 ((keptObs_mem _ _ _ _).1 ho).1
    exact hω i
  have hs := (group_share tau _ xa xb hab hobs _ _ hm).2
  have hle : (keptSample noise sat b0 b1 x e N ω).countP (fun o => decide (o.1 = xa ∧ o.2 ≤ m.intercept + m.slope * xa))
      ≤ (keptSample noise sat b0 b1 x e N ω).countP (fun o => decide (o.1 = xa ∧ o.2 - (b0 + b1 * xa) ≤ r)) := by
    refine List.countP_mono_left fun o _ h => ?_
    simp only [decide_eq_true_eq] at h ⊢
    exact ⟨h.1, by linarith [h.2]⟩
  have hle' : ((keptSample noise sat b0 b1 x e N ω).countP (fun o => decide (o.1 = xa ∧ o.2 ≤ m.intercept + m.slope * xa)) : ℝ)
      ≤ (keptSample noise sat b0 b1 x e N ω).countP (fun o => decide (o.1 = xa ∧ o.2 - (b0 + b1 * xa) ≤ r)) := by exact_mod_cast hle
  rw [← mul_div_assoc, div_lt_div_iff_of_pos_right hN0'] at hN
  linarith

/-- If more than a share `tau` of the kept errors at size `xa` is less than `r`, the best line is eventually less than `r` above the true line there. -/
theorem line_below (x e : ℕ → Ω → ℝ) (hx : ∀ i, Measurable (x i)) (he : ∀ i, Measurable (e i))
    (hlaw : ∀ i, Q.map (fun ω => (x i ω, e i ω)) = ν.prod μ) (hind : iIndepFun (fun i ω => (x i ω, e i ω)) Q) (b0 b1 : ℝ)
    (noise sat : Option ℝ) (xa xb : ℝ) (hab : xa ≠ xb) (hxω : ∀ᵐ ω ∂Q, ∀ i, x i ω = xa ∨ x i ω = xb) (hpos : 0 < ν.real {xa}) (tau r : ℝ)
    (hr : tau * μ.real (keptErr b0 b1 noise sat xa) < μ.real (keptErr b0 b1 noise sat xa ∩ Iio r)) :
    ∀ᵐ ω ∂Q, ∀ᶠ N in atTop, ∀ m : QuantFit,
      (∀ c0 c1, quantLoss tau (keptSample noise sat b0 b1 x e N ω) m.intercept m.slope ≤ quantLoss tau (keptSample noise sat b0 b1 x e N ω) c0 c1) →
      m.intercept + m.slope * xa < b0 + b1 * xa + r := by
  filter_upwards [hxω, group_freq x e hx he hlaw hind b0 b1 noise sat xa (Iio r) measurableSet_Iio
    (fun o => decide (o.1 = xa ∧ o.2 - (b0 + b1 * xa) < r)) (by simp),
    group_freq x e hx he hlaw hind b0 b1 noise sat xa univ MeasurableSet.univ
    (fun o => decide (o.1 = xa)) (by simp)] with ω hω f1 f2
  rw [inter_univ] at f2
  have hlim : tau * (ν.real {xa} * μ.real (keptErr b0 b1 noise sat xa)) < ν.real {xa} * μ.real (keptErr b0 b1 noise sat xa ∩ Iio r) := by
    calc _ = ν.real {xa} * (tau * μ.real (keptErr b0 b1 noise sat xa)) := by ring
      _ < _ := mul_lt_mul_of_pos_left hr hpos
  filter_upwards [(f2.const_mul tau).eventually_lt f1 hlim, eventually_gt_atTop 0] with N hN hN0 m hm
  by_contra hcon
  rw [not_lt] at hcon
  have hN0' : (0 : ℝ) < N := Nat.cast_pos.2 hN0
  have hobs : ∀ o ∈ keptSample noise sat b0 b1 x e N ω, o.1 = xa ∨ o.1 = xb := by
    intro o ho
    obtain ⟨i, -, rfl⟩ := List.mem_map.1 ((keptObs_mem _ _ _ _).1 ho).1
    exact hω i
  have hs := (group_share tau _ xa xb hab hobs _ _ hm).1
  have hle : (keptSample noise sat b0 b1 x e N ω).countP (fun o => decide (o.1 = xa ∧ o.2 - (b0 + b1 * xa) < r))
      ≤ (keptSample noise sat b0 b1 x e N ω).countP (fun o => decide (o.1 = xa ∧ o.2 < m.intercept + m.slope * xa)) := by
    refine List.countP_mono_left fun o _ h => ?_
    simp only [decide_eq_true_eq] at h ⊢
    exact ⟨h.1, by linarith [h.2]⟩
  have hle' : ((keptSample noise sat b0 b1 x e N ω).countP (fun o => decide (o.1 = xa ∧ o.2 - (b0 + b1 * xa) < r)) : ℝ)
      ≤ (keptSample noise sat b0 b1 x e N ω).countP (fun o => decide (o.1 = xa ∧ o.2 < m.intercept + m.slope * xa)) := by exact_mod_cast hle
  rw [← mul_div_assoc, div_lt_div_iff_of_pos_right hN0'] at hN
  linarith

/-- The data kept by a run with thresholds and without Box-Cox. -/
theorem qr_run_data {G : Type} (env : QrEnv G) (obs : List (ℝ × ℝ)) (det : ℝ) (noise sat : Option ℝ) (qs : List ℝ)
    (bootstraps : List (List (ℝ × ℝ))) (s : QrAttrs G) (hfin : ∀ o ∈ obs, -env.fmax < o.2 ∧ o.2 < env.fmax) :
    (qrPodRun env ⟨obs, det, noise, sat, false, true, qs⟩ bootstraps s).2.data = some (keptObs id noise sat obs, det) := by
  have hk : uncensoredObs env.fmax obs noise sat = keptObs id noise sat obs := by
    have := keptObs_eq env.fmax id noise sat obs hfin
    simpa using this
  simp only [qrPodRun, podRun, Bool.false_eq_true, if_false, if_true, Option.getD_some, hk]
  split
  · rfl
  · split
    · rfl
    · split
      · rfl
      · exact (qrBootstrap_ok env _ _ _ _ _).2.2

/-- The detection size for two sizes `x1 < x2`: if among the kept signals more than `1 - p` are below the threshold at `x1` and fewer at `x2`, the
detection size eventually exists and is the size strictly between at which the fitted line reaches the threshold. -/
theorem two_point_size (x e : ℕ → Ω → ℝ) (hx : ∀ i, Measurable (x i)) (he : ∀ i, Measurable (e i))
    (hlaw : ∀ i, Q.map (fun ω => (x i ω, e i ω)) = ν.prod μ) (hind : iIndepFun (fun i ω => (x i ω, e i ω)) Q) (b0 b1 : ℝ)
    (noise sat : Option ℝ) (x1 x2 : ℝ) (h12 : x1 < x2) (hxω : ∀ᵐ ω ∂Q, ∀ i, x i ω = x1 ∨ x i ω = x2) (hpos1 : 0 < ν.real {x1}) (hpos2 : 0 < ν.real {x2})
    (det p : ℝ) (hp1 : p < 1)
    (h1 : (1 - p) * μ.real (keptErr b0 b1 noise sat x1) < μ.real (keptErr b0 b1 noise sat x1 ∩ Iio (det - (b0 + b1 * x1))))
    (h2 : μ.real (keptErr b0 b1 noise sat x2 ∩ Iic (det - (b0 + b1 * x2))) < (1 - p) * μ.real (keptErr b0 b1 noise sat x2)) :
    ∀ᵐ ω ∂Q, ∀ᶠ N in atTop, sampleMin ((keptSample noise sat b0 b1 x e N ω).map Prod.fst) = .ok x1 ∧
      sampleMax ((keptSample noise sat b0 b1 x e N ω).map Prod.fst) = .ok x2 ∧
      ∀ (pick : ℝ → ℝ → ℝ) (fit : ℝ → QuantFit),
        (∀ c0 c1, quantLoss (1 - p) (keptSample noise sat b0 b1 x e N ω) (fit (1 - p)).intercept (fit (1 - p)).slope
          ≤ quantLoss (1 - p) (keptSample noise sat b0 b1 x e N ω) c0 c1) →
        ∃ d, qrDetectionSize pick fit det x1 x2 p = .ok d ∧ x1 < d ∧ d < x2 ∧ (fit (1 - p)).intercept + (fit (1 - p)).slope * d = det := by
  have k1 : 0 < μ.real (keptErr b0 b1 noise sat x1) := by
    have := measureReal_mono (μ := μ) (inter_subset_left (s := keptErr b0 b1 noise sat x1) (t := Iio (det - (b0 + b1 * x1))))
    have h0 : 0 ≤ (1 - p) * μ.real (keptErr b0 b1 noise sat x1) := mul_nonneg (by linarith) measureReal_nonneg
    linarith
  have k2 : 0 < μ.real (keptErr b0 b1 noise sat x2) := by
    have h0 : 0 ≤ μ.real (keptErr b0 b1 noise sat x2 ∩ Iic (det - (b0 + b1 * x2))) := measureReal_nonneg
    exact pos_of_mul_pos_right (h0.trans_lt h2) (by linarith)
  filter_upwards [hxω, group_freq x e hx he hlaw hind b0 b1 noise sat x1 univ MeasurableSet.univ (fun o => decide (o.1 = x1)) (by simp),
    group_freq x e hx he hlaw hind b0 b1 noise sat x2 univ MeasurableSet.univ (fun o => decide (o.1 = x2)) (by simp),
    line_below x e hx he hlaw hind b0 b1 noise sat x1 x2 h12.ne hxω hpos1 (1 - p) _ h1,
    line_above x e hx he hlaw hind b0 b1 noise sat x2 x1 h12.ne' (by filter_upwards [hxω] with ω h i using (h i).symm) hpos2 (1 - p) _ h2]
    with ω hω f1 f2 g1 g2
  rw [inter_univ] at f1 f2
  filter_upwards [f1.eventually (eventually_gt_nhds (mul_pos hpos1 k1)), f2.eventually (eventually_gt_nhds (mul_pos hpos2 k2)), g1, g2]
    with N n1 n2 m1 m2
  set O := keptSample noise sat b0 b1 x e N ω with hO
  have hobs : ∀ a ∈ O.map Prod.fst, a = x1 ∨ a = x2 := by
    intro a ha
    obtain ⟨o, ho, rfl⟩ := List.mem_map.1 ha
    obtain ⟨i, -, rfl⟩ := List.mem_map.1 ((keptObs_mem _ _ _ _).1 ho).1
    exact hω i
  have hit : ∀ a : ℝ, 0 < (O.countP (fun o => decide (o.1 = a)) : ℝ) / N → a ∈ O.map Prod.fst := by
    intro a ha
    have hc : O.countP (fun o => decide (o.1 = a)) ≠ 0 := by
      intro h0
      rw [h0] at ha
      simp at ha
    obtain ⟨o, ho, h⟩ := List.countP_pos_iff.1 (Nat.pos_of_ne_zero hc)
    exact List.mem_map.2 ⟨o, ho, of_decide_eq_true h⟩
  have hm1 := hit x1 n1
  have hm2 := hit x2 n2
  obtain ⟨mn, mx, hmn, hmx⟩ := sampleMinMax_ok (List.ne_nil_of_mem hm1)
  have emn : mn = x1 := by
    have a1 := (sampleMin_spec hmn).2 hm1
    rcases hobs mn (sampleMin_spec hmn).1 with h | h
    · exact h
    · linarith
  have emx : mx = x2 := by
    have a1 := (sampleMax_spec hmx).2 hm2
    rcases hobs mx (sampleMax_spec hmx).1 with h | h
    · linarith
    · exact h
  refine ⟨emn ▸ hmn, emx ▸ hmx, fun pick fit hfit => ?_⟩
  have l1 := m1 (fit (1 - p)) hfit
  have l2 := m2 (fit (1 - p)) hfit
  have l1' : (fit (1 - p)).intercept + (fit (1 - p)).slope * x1 < det := by linarith
  have l2' : det < (fit (1 - p)).intercept + (fit (1 - p)).slope * x2 := by linarith
  have hs : 0 < (fit (1 - p)).slope := by
    by_contra hcon
    nlinarith [not_lt.1 hcon]
  refine ⟨(det - (fit (1 - p)).intercept) / (fit (1 - p)).slope, ?_, ?_, ?_, ?_⟩
  · rw [qrDetectionSize, brentLine, qrFitFor, if_neg (by
      rw [not_lt]
      exact mul_nonpos_of_nonpos_of_nonneg (by linarith) (by linarith)), if_neg hs.ne']
  · rw [lt_div_iff₀ hs]; linarith
  · rw [div_lt_iff₀ hs]; linarith
  · rw [mul_div_cancel₀ _ hs.ne']; ring

theorem sizes_two (x e : ℕ → Ω → ℝ) (hx : ∀ i, Measurable (x i)) (he : ∀ i, Measurable (e i))
    (hlaw : ∀ i, Q.map (fun ω => (x i ω, e i ω)) = ν.prod μ) (x1 x2 : ℝ) (hν : ∀ᵐ a ∂ν, a = x1 ∨ a = x2) :
    ∀ᵐ ω ∂Q, ∀ i, x i ω = x1 ∨ x i ω = x2 := by
  rw [ae_all_iff]
  intro i
  have hm : Q.map (x i) = ν := by
    have : x i = Prod.fst ∘ fun ω => (x i ω, e i ω) := rfl
    rw [this, ← Measure.map_map measurable_fst ((hx i).prodMk (he i)), hlaw i]
    exact (measurePreserving_fst (μ := ν) (ν := μ)).map_eq
  rw [← hm] at hν
  exact ae_of_ae_map (hx i).aemeasurable hν

/-- **C181, refutation.**  Two sizes, a line plus independent errors whose distribution function passes through `1 - p` at `q` and is larger to the
right of `q`; with a noise threshold, a part of the signals at each of the sizes is filtered.  Whenever the fitted line can reach the detection
threshold between the sizes, there is a fixed gap `η > 0` such that, for almost every infinite sample and all large numbers of observations,
`computeDetectionSize(p)` after `run` returns a size whose true probability of detection is at most `p - η`. -/
theorem C181_violated {G : Type} (x e : ℕ → Ω → ℝ) (hx : ∀ i, Measurable (x i)) (he : ∀ i, Measurable (e i))
    (hlaw : ∀ i, Q.map (fun ω => (x i ω, e i ω)) = ν.prod μ) (hind : iIndepFun (fun i ω => (x i ω, e i ω)) Q) (b0 b1 x1 x2 : ℝ) (h12 : x1 < x2)
    (hν : ∀ᵐ a ∂ν, a = x1 ∨ a = x2) (hpos1 : 0 < ν.real {x1}) (hpos2 : 0 < ν.real {x2}) (p q : ℝ) (hp0 : 0 < p) (hp1 : p < 1)
    (hq : μ.real (Iic q) = 1 - p) (hq' : ∀ r > q, 1 - p < μ.real (Iic r)) (n det : ℝ)
    (hlost1 : 0 < μ.real {t | b0 + b1 * x1 + t ≤ n}) (hlost2 : 0 < μ.real {t | b0 + b1 * x2 + t ≤ n})
    (h1 : (1 - p) * μ.real {t | n < b0 + b1 * x1 + t} < μ.real {t | n < b0 + b1 * x1 + t ∧ b0 + b1 * x1 + t < det})
    (h2 : μ.real {t | n < b0 + b1 * x2 + t ∧ b0 + b1 * x2 + t ≤ det} < (1 - p) * μ.real {t | n < b0 + b1 * x2 + t}) :
    ∃ η > 0, ∀ᵐ ω ∂Q, ∀ᶠ N in atTop, ∀ env : QrEnv G, (∀ obs tau, 0 < tau → tau < 1 → QuantRegExact env.quantReg obs tau) →
      let obs := (List.range N).map fun i => (x i ω, b0 + b1 * x i ω + e i ω)
      (∀ o ∈ obs, -env.fmax < o.2 ∧ o.2 < env.fmax) → ∀ qs bootstraps s, ∃ kept d,
        (qrPodRun env ⟨obs, det, some n, none, false, true, qs⟩ bootstraps s).2.data = some (kept, det) ∧
        sampleMin (kept.map Prod.fst) = .ok x1 ∧ sampleMax (kept.map Prod.fst) = .ok x2 ∧
        qrDetectionSize env.pick (env.quantReg kept) det x1 x2 p = .ok d ∧ x1 < d ∧ d < x2 ∧
        μ.real {t | det < b0 + b1 * d + t} ≤ p - η := by
  have hK : ∀ a, keptErr b0 b1 (some n) none a = {t | n < b0 + b1 * a + t} := by
    intro a; ext t; simp [keptErr]
  have hxω := sizes_two x e hx he hlaw x1 x2 hν
  have i1 : keptErr b0 b1 (some n) none x1 ∩ Iio (det - (b0 + b1 * x1)) = {t | n < b0 + b1 * x1 + t ∧ b0 + b1 * x1 + t < det} := by
    rw [hK]; ext t; simp only [mem_inter_iff, mem_ofPred_eq, mem_Iio, and_congr_right_iff]
    intro _; constructor <;> intro h <;> linarith
  have i2 : keptErr b0 b1 (some n) none x2 ∩ Iic (det - (b0 + b1 * x2)) = {t | n < b0 + b1 * x2 + t ∧ b0 + b1 * x2 + t ≤ det} := by
    rw [hK]; ext t; simp only [mem_inter_iff, mem_ofPred_eq, mem_Iic, and_congr_right_iff]
    intro _; constructor <;> intro h <;> linarith
  have hA := two_point_size x e hx he hlaw hind b0 b1 (some n) none x1 x2 h12 hxω hpos1 hpos2 det p hp1 (by rw [i1, hK]; exact h1)
    (by rw [i2, hK]; exact h2)
  -- the share of the filtered errors
  have hF : ∀ a, {t : ℝ | b0 + b1 * a + t ≤ n} = Iic (n - (b0 + b1 * a)) := by
    intro a; ext t; simp only [mem_ofPred_eq, mem_Iic]; constructor <;> intro h <;> linarith
  have hKc : ∀ a, keptErr b0 b1 (some n) none a = (Iic (n - (b0 + b1 * a)))ᶜ := by
    intro a; rw [hK]; ext t; simp only [mem_ofPred_eq, mem_compl_iff, mem_Iic, not_le]; constructor <;> intro h <;> linarith
  rw [hF] at hlost1 hlost2
  set F1 := μ.real (Iic (n - (b0 + b1 * x1))) with hF1
  set F2 := μ.real (Iic (n - (b0 + b1 * x2))) with hF2
  have hKr : ∀ a, μ.real (keptErr b0 b1 (some n) none a) = 1 - μ.real (Iic (n - (b0 + b1 * a))) := by
    intro a; rw [hKc, probReal_compl_eq_one_sub measurableSet_Iic]
  have hkpos1 : 0 < 1 - F1 := by
    rw [hF1, ← hKr, hK]
    have h0 : 0 ≤ (1 - p) * μ.real {t | n < b0 + b1 * x1 + t} := mul_nonneg (by linarith) measureReal_nonneg
    have := measureReal_mono (μ := μ) (show {t | n < b0 + b1 * x1 + t ∧ b0 + b1 * x1 + t < det} ⊆ {t | n < b0 + b1 * x1 + t} from fun t ht => ht.1)
    linarith
  have hkpos2 : 0 < 1 - F2 := by
    rw [hF2, ← hKr, hK]
    exact pos_of_mul_pos_right (measureReal_nonneg.trans_lt h2) (by linarith)
  -- a point to the right of the quantile
  obtain ⟨r, hr, hr'⟩ : ∃ r > q, μ.real (Iic r) < 1 - p + p * min F1 F2 := by
    have hc := (cdf μ).right_continuous q
    have hlt : cdf μ q < 1 - p + p * min F1 F2 := by
      rw [cdf_eq_real, hq]
      have := mul_pos hp0 (lt_min hlost1 hlost2)
      linarith
    have hev := (hc.mono Ioi_subset_Ici_self).eventually (eventually_lt_nhds hlt)
    obtain ⟨r, hr1, hr2⟩ := (hev.and self_mem_nhdsWithin).exists
    exact ⟨r, hr2, by rwa [cdf_eq_real] at hr1⟩
  have hshare : ∀ a, 0 < 1 - μ.real (Iic (n - (b0 + b1 * a))) → min F1 F2 ≤ μ.real (Iic (n - (b0 + b1 * a))) →
      μ.real (keptErr b0 b1 (some n) none a ∩ Iic r) < (1 - p) * μ.real (keptErr b0 b1 (some n) none a) := by
    intro a ha1 ha2
    rw [hKr]
    rcases le_or_gt r (n - (b0 + b1 * a)) with h | h
    · have : keptErr b0 b1 (some n) none a ∩ Iic r = ∅ := by
        rw [hKc]
        ext t
        simp only [mem_inter_iff, mem_compl_iff, mem_Iic, mem_empty_iff_false, iff_false, not_and]
        intro h1 h2
        exact h1 (h2.trans h)
      rw [this, measureReal_empty]
      exact mul_pos (by linarith) ha1
    · have : keptErr b0 b1 (some n) none a ∩ Iic r = Iic r \ Iic (n - (b0 + b1 * a)) := by
        rw [hKc, inter_comm]; rfl
      rw [this, measureReal_diff (Iic_subset_Iic.2 h.le) measurableSet_Iic]
      have := mul_le_mul_of_nonneg_left ha2 hp0.le
      nlinarith
  have hB := line_above x e hx he hlaw hind b0 b1 (some n) none x1 x2 h12.ne hxω hpos1 (1 - p) r (hshare x1 hkpos1 (min_le_left _ _))
  have hC := line_above x e hx he hlaw hind b0 b1 (some n) none x2 x1 h12.ne' (by filter_upwards [hxω] with ω h i using (h i).symm) hpos2 (1 - p) r
    (hshare x2 hkpos2 (min_le_right _ _))
  refine ⟨μ.real (Iic r) - (1 - p), by linarith [hq' r hr], ?_⟩
  filter_upwards [hA, hB, hC] with ω a1 a2 a3
  filter_upwards [a1, a2, a3] with N ⟨m1, m2, m3⟩ m4 m5 env hex obs hfin qs bootstraps s
  have hmin := hex (keptSample (some n) none b0 b1 x e N ω) (1 - p) (by linarith) (by linarith)
  obtain ⟨d, d1, d2, d3, d4⟩ := m3 env.pick (env.quantReg (keptSample (some n) none b0 b1 x e N ω)) hmin
  refine ⟨keptSample (some n) none b0 b1 x e N ω, d, qr_run_data env obs det (some n) none qs bootstraps s hfin, m1, m2, d1, d2, d3, ?_⟩
  have l1 := m4 _ hmin
  have l2 := m5 _ hmin
  set m := env.quantReg (keptSample (some n) none b0 b1 x e N ω) (1 - p) with hm
  -- the fitted line is more than `r` above the true line at `d`
  have hd : b0 + b1 * d + r < det := by
    rw [← d4]
    nlinarith [mul_pos (sub_pos.2 d3) (sub_pos.2 l1), mul_pos (sub_pos.2 d2) (sub_pos.2 l2)]
  have hsub : {t : ℝ | det < b0 + b1 * d + t} ⊆ (Iic r)ᶜ := by
    intro t ht
    simp only [mem_ofPred_eq] at ht
    simp only [mem_compl_iff, mem_Iic, not_le]
    linarith
  have := measureReal_mono (μ := μ) hsub
  rw [probReal_compl_eq_one_sub measurableSet_Iic] at this
  linarith

/-- **C181, restricted.**  With a saturation threshold only, two sizes and an error law that has mass `1 - p` strictly below `q`: whenever the fitted
line can reach the detection threshold between the sizes, for almost every infinite sample and all large numbers of observations
`computeDetectionSize(p)` after `run` returns a size whose true probability of detection is at least `p`. -/
theorem C181_saturation_partial {G : Type} (x e : ℕ → Ω → ℝ) (hx : ∀ i, Measurable (x i)) (he : ∀ i, Measurable (e i))
    (hlaw : ∀ i, Q.map (fun ω => (x i ω, e i ω)) = ν.prod μ) (hind : iIndepFun (fun i ω => (x i ω, e i ω)) Q) (b0 b1 x1 x2 : ℝ) (h12 : x1 < x2)
    (hν : ∀ᵐ a ∂ν, a = x1 ∨ a = x2) (hpos1 : 0 < ν.real {x1}) (hpos2 : 0 < ν.real {x2}) (p q : ℝ) (hp0 : 0 < p) (hp1 : p < 1)
    (hq : μ.real (Iio q) = 1 - p) (u det : ℝ)
    (hlost1 : μ.real {t | b0 + b1 * x1 + t < u} < 1) (hlost2 : μ.real {t | b0 + b1 * x2 + t < u} < 1)
    (h1 : (1 - p) * μ.real {t | b0 + b1 * x1 + t < u} < μ.real {t | b0 + b1 * x1 + t < u ∧ b0 + b1 * x1 + t < det})
    (h2 : μ.real {t | b0 + b1 * x2 + t < u ∧ b0 + b1 * x2 + t ≤ det} < (1 - p) * μ.real {t | b0 + b1 * x2 + t < u}) :
    ∀ᵐ ω ∂Q, ∀ᶠ N in atTop, ∀ env : QrEnv G, (∀ obs tau, 0 < tau → tau < 1 → QuantRegExact env.quantReg obs tau) →
      let obs := (List.range N).map fun i => (x i ω, b0 + b1 * x i ω + e i ω)
      (∀ o ∈ obs, -env.fmax < o.2 ∧ o.2 < env.fmax) → ∀ qs bootstraps s, ∃ kept d,
        (qrPodRun env ⟨obs, det, none, some u, false, true, qs⟩ bootstraps s).2.data = some (kept, det) ∧
        sampleMin (kept.map Prod.fst) = .ok x1 ∧ sampleMax (kept.map Prod.fst) = .ok x2 ∧
        qrDetectionSize env.pick (env.quantReg kept) det x1 x2 p = .ok d ∧ x1 < d ∧ d < x2 ∧
        p ≤ μ.real {t | det < b0 + b1 * d + t} := by
  have hK : ∀ a, keptErr b0 b1 none (some u) a = {t | b0 + b1 * a + t < u} := by
    intro a; ext t; simp [keptErr]
  have hxω := sizes_two x e hx he hlaw x1 x2 hν
  have i1 : keptErr b0 b1 none (some u) x1 ∩ Iio (det - (b0 + b1 * x1)) = {t | b0 + b1 * x1 + t < u ∧ b0 + b1 * x1 + t < det} := by
    rw [hK]; ext t; simp only [mem_inter_iff, mem_ofPred_eq, mem_Iio, and_congr_right_iff]
    intro _; constructor <;> intro h <;> linarith
  have i2 : keptErr b0 b1 none (some u) x2 ∩ Iic (det - (b0 + b1 * x2)) = {t | b0 + b1 * x2 + t < u ∧ b0 + b1 * x2 + t ≤ det} := by
    rw [hK]; ext t; simp only [mem_inter_iff, mem_ofPred_eq, mem_Iic, and_congr_right_iff]
    intro _; constructor <;> intro h <;> linarith
  have hA := two_point_size x e hx he hlaw hind b0 b1 none (some u) x1 x2 h12 hxω hpos1 hpos2 det p hp1 (by rw [i1, hK]; exact h1)
    (by rw [i2, hK]; exact h2)
  have hKI : ∀ a, keptErr b0 b1 none (some u) a = Iio (u - (b0 + b1 * a)) := by
    intro a; rw [hK]; ext t; simp only [mem_ofPred_eq, mem_Iio]; constructor <;> intro h <;> linarith
  have hk1 : 0 < μ.real (keptErr b0 b1 none (some u) x1) := by
    rw [hK]
    have h0 : 0 ≤ (1 - p) * μ.real {t | b0 + b1 * x1 + t < u} := mul_nonneg (by linarith) measureReal_nonneg
    have := measureReal_mono (μ := μ) (show {t | b0 + b1 * x1 + t < u ∧ b0 + b1 * x1 + t < det} ⊆ {t | b0 + b1 * x1 + t < u} from fun t ht => ht.1)
    linarith
  have hk2 : 0 < μ.real (keptErr b0 b1 none (some u) x2) := by
    rw [hK]
    exact pos_of_mul_pos_right (measureReal_nonneg.trans_lt h2) (by linarith)
  have hshare : ∀ a, 0 < μ.real (keptErr b0 b1 none (some u) a) → μ.real (keptErr b0 b1 none (some u) a) < 1 →
      (1 - p) * μ.real (keptErr b0 b1 none (some u) a) < μ.real (keptErr b0 b1 none (some u) a ∩ Iio q) := by
    intro a ha0 ha1
    rcases le_or_gt (u - (b0 + b1 * a)) q with h | h
    · have : keptErr b0 b1 none (some u) a ∩ Iio q = keptErr b0 b1 none (some u) a := by
        rw [hKI]; exact inter_eq_left.2 (Iio_subset_Iio h)
      rw [this]
      nlinarith
    · have : keptErr b0 b1 none (some u) a ∩ Iio q = Iio q := by
        rw [hKI]; exact inter_eq_right.2 (Iio_subset_Iio h.le)
      rw [this, hq]
      nlinarith
  have hB := line_below x e hx he hlaw hind b0 b1 none (some u) x1 x2 h12.ne hxω hpos1 (1 - p) q (hshare x1 hk1 (by rw [hK]; exact hlost1))
  have hC := line_below x e hx he hlaw hind b0 b1 none (some u) x2 x1 h12.ne' (by filter_upwards [hxω] with ω h i using (h i).symm) hpos2 (1 - p) q
    (hshare x2 hk2 (by rw [hK]; exact hlost2))
  filter_upwards [hA, hB, hC] with ω a1 a2 a3
  filter_upwards [a1, a2, a3] with N ⟨m1, m2, m3⟩ m4 m5 env hex obs hfin qs bootstraps s
  have hmin := hex (keptSample none (some u) b0 b1 x e N ω) (1 - p) (by linarith) (by linarith)
  obtain ⟨d, d1, d2, d3, d4⟩ := m3 env.pick (env.quantReg (keptSample none (some u) b0 b1 x e N ω)) hmin
  refine ⟨keptSample none (some u) b0 b1 x e N ω, d, qr_run_data env obs det none (some u) qs bootstraps s hfin, m1, m2, d1, d2, d3, ?_⟩
  have l1 := m4 _ hmin
  have l2 := m5 _ hmin
  set m := env.quantReg (keptSample none (some u) b0 b1 x e N ω) (1 - p) with hm
  have hd : det < b0 + b1 * d + q := by
    rw [← d4]
    nlinarith [mul_pos (sub_pos.2 d3) (sub_pos.2 l1), mul_pos (sub_pos.2 d2) (sub_pos.2 l2)]
  have hsub : (Iio q)ᶜ ⊆ {t : ℝ | det < b0 + b1 * d + t} := by
    intro t ht
    simp only [mem_compl_iff, mem_Iio, not_lt] at ht
    simp only [mem_ofPred_eq]
    linarith
  have := measureReal_mono (μ := μ) hsub
  rw [probReal_compl_eq_one_sub measurableSet_Iio] at this
  linarith

end

/-! ## Instances: sizes 1 and 2, line `a / 4`, errors uniform on [0, 1] -/

noncomputable def unifErr : Measure ℝ := volume.restrict (Icc 0 1)

noncomputable instance : IsProbabilityMeasure unifErr := ⟨by simp [unifErr]⟩

noncomputable def twoSizes : Measure ℝ := (1 / 2 : ENNReal) • Measure.dirac 1 + (1 / 2 : ENNReal) • Measure.dirac 2

noncomputable instance : IsProbabilityMeasure twoSizes := ⟨by
  simp only [twoSizes, Measure.coe_add, Measure.coe_smul, Pi.add_apply, Pi.smul_apply, measure_univ, smul_eq_mul, mul_one]
  exact ENNReal.add_halves 1⟩

theorem unifErr_sub (S : Set ℝ) (hS : MeasurableSet S) (l h : ℝ) (hlh : l ≤ h) (he : S ∩ Icc 0 1 = Icc l h ∨ S ∩ Icc 0 1 = Ioc l h ∨ S ∩ Icc 0 1 = Ico l h
    ∨ S ∩ Icc 0 1 = Ioo l h) : unifErr.real S = h - l := by
  rw [measureReal_def, unifErr, Measure.restrict_apply hS]
  rcases he with h' | h' | h' | h' <;> rw [h'] <;> simp [hlh]

theorem twoSizes_ae : ∀ᵐ a ∂twoSizes, a = 1 ∨ a = 2 := by
  rw [twoSizes, ae_add_measure_iff]
  constructor
  · refine Measure.ae_smul_measure ?_ _
    rw [ae_dirac_iff (by measurability)]
    exact Or.inl rfl
  · refine Measure.ae_smul_measure ?_ _
    rw [ae_dirac_iff (by measurability)]
    exact Or.inr rfl

theorem twoSizes_pos : 0 < twoSizes.real {1} ∧ 0 < twoSizes.real {2} := by
  constructor <;>
  · rw [measureReal_def, ENNReal.toReal_pos_iff]
    refine ⟨?_, measure_lt_top _ _⟩
    simp [twoSizes]

theorem unifErr_u1 : unifErr.real {t : ℝ | 0 + 1 / 4 * 1 + t ≤ 3 / 4} = 1 / 2 - 0 := by
  refine unifErr_sub _ (by measurability) _ _ (by norm_num) (Or.inl ?_)
  ext t
  simp only [mem_inter_iff, mem_ofPred_eq, mem_Iic, mem_Iio, mem_Icc, mem_Ioc, mem_Ico, mem_Ioo]
  constructor
  · rintro ⟨h1, h2⟩; constructor <;> first | linarith [h1, h2.1, h2.2] | linarith [h1.1, h1.2, h2.1, h2.2]
  · rintro ⟨h1, h2⟩; refine ⟨?_, ?_, ?_⟩ <;> first | linarith | exact ⟨by linarith, by linarith⟩

theorem unifErr_u2 : unifErr.real {t : ℝ | 0 + 1 / 4 * 2 + t ≤ 3 / 4} = 1 / 4 - 0 := by
  refine unifErr_sub _ (by measurability) _ _ (by norm_num) (Or.inl ?_)
  ext t
  simp only [mem_inter_iff, mem_ofPred_eq, mem_Iic, mem_Iio, mem_Icc, mem_Ioc, mem_Ico, mem_Ioo]
  constructor
  · rintro ⟨h1, h2⟩; constructor <;> first | linarith [h1, h2.1, h2.2] | linarith [h1.1, h1.2, h2.1, h2.2]
  · rintro ⟨h1, h2⟩; refine ⟨?_, ?_, ?_⟩ <;> first | linarith | exact ⟨by linarith, by linarith⟩

theorem unifErr_u3 : unifErr.real {t : ℝ | 3 / 4 < 0 + 1 / 4 * 1 + t} = 1 - (1 / 2) := by
  refine unifErr_sub _ (by measurability) _ _ (by norm_num) (Or.inr (Or.inl ?_))
  ext t
  simp only [mem_inter_iff, mem_ofPred_eq, mem_Iic, mem_Iio, mem_Icc, mem_Ioc, mem_Ico, mem_Ioo]
  constructor
  · rintro ⟨h1, h2⟩; constructor <;> first | linarith [h1, h2.1, h2.2] | linarith [h1.1, h1.2, h2.1, h2.2]
  · rintro ⟨h1, h2⟩; refine ⟨?_, ?_, ?_⟩ <;> first | linarith | exact ⟨by linarith, by linarith⟩

theorem unifErr_u4 : unifErr.real {t : ℝ | 3 / 4 < 0 + 1 / 4 * 1 + t ∧ 0 + 1 / 4 * 1 + t < 17 / 16} = 13 / 16 - (1 / 2) := by
  refine unifErr_sub _ (by measurability) _ _ (by norm_num) (Or.inr (Or.inr (Or.inr ?_)))
  ext t
  simp only [mem_inter_iff, mem_ofPred_eq, mem_Iic, mem_Iio, mem_Icc, mem_Ioc, mem_Ico, mem_Ioo]
  constructor
  · rintro ⟨h1, h2⟩; constructor <;> first | linarith [h1, h2.1, h2.2] | linarith [h1.1, h1.2, h2.1, h2.2]
  · rintro ⟨h1, h2⟩; refine ⟨?_, ?_, ?_⟩ <;> first | linarith | exact ⟨by linarith, by linarith⟩

theorem unifErr_u5 : unifErr.real {t : ℝ | 3 / 4 < 0 + 1 / 4 * 2 + t} = 1 - (1 / 4) := by
  refine unifErr_sub _ (by measurability) _ _ (by norm_num) (Or.inr (Or.inl ?_))
  ext t
  simp only [mem_inter_iff, mem_ofPred_eq, mem_Iic, mem_Iio, mem_Icc, mem_Ioc, mem_Ico, mem_Ioo]
  constructor
  · rintro ⟨h1, h2⟩; constructor <;> first | linarith [h1, h2.1, h2.2] | linarith [h1.1, h1.2, h2.1, h2.2]
  · rintro ⟨h1, h2⟩; refine ⟨?_, ?_, ?_⟩ <;> first | linarith | exact ⟨by linarith, by linarith⟩

theorem unifErr_u6 : unifErr.real {t : ℝ | 3 / 4 < 0 + 1 / 4 * 2 + t ∧ 0 + 1 / 4 * 2 + t ≤ 17 / 16} = 9 / 16 - (1 / 4) := by
  refine unifErr_sub _ (by measurability) _ _ (by norm_num) (Or.inr (Or.inl ?_))
  ext t
  simp only [mem_inter_iff, mem_ofPred_eq, mem_Iic, mem_Iio, mem_Icc, mem_Ioc, mem_Ico, mem_Ioo]
  constructor
  · rintro ⟨h1, h2⟩; constructor <;> first | linarith [h1, h2.1, h2.2] | linarith [h1.1, h1.2, h2.1, h2.2]
  · rintro ⟨h1, h2⟩; refine ⟨?_, ?_, ?_⟩ <;> first | linarith | exact ⟨by linarith, by linarith⟩

theorem unifErr_v1 : unifErr.real {t : ℝ | 0 + 1 / 4 * 1 + t < 1} = 3 / 4 - 0 := by
  refine unifErr_sub _ (by measurability) _ _ (by norm_num) (Or.inr (Or.inr (Or.inl ?_)))
  ext t
  simp only [mem_inter_iff, mem_ofPred_eq, mem_Iic, mem_Iio, mem_Icc, mem_Ioc, mem_Ico, mem_Ioo]
  constructor
  · rintro ⟨h1, h2⟩; constructor <;> first | linarith [h1, h2.1, h2.2] | linarith [h1.1, h1.2, h2.1, h2.2]
  · rintro ⟨h1, h2⟩; refine ⟨?_, ?_, ?_⟩ <;> first | linarith | exact ⟨by linarith, by linarith⟩

theorem unifErr_v2 : unifErr.real {t : ℝ | 0 + 1 / 4 * 2 + t < 1} = 1 / 2 - 0 := by
  refine unifErr_sub _ (by measurability) _ _ (by norm_num) (Or.inr (Or.inr (Or.inl ?_)))
  ext t
  simp only [mem_inter_iff, mem_ofPred_eq, mem_Iic, mem_Iio, mem_Icc, mem_Ioc, mem_Ico, mem_Ioo]
  constructor
  · rintro ⟨h1, h2⟩; constructor <;> first | linarith [h1, h2.1, h2.2] | linarith [h1.1, h1.2, h2.1, h2.2]
  · rintro ⟨h1, h2⟩; refine ⟨?_, ?_, ?_⟩ <;> first | linarith | exact ⟨by linarith, by linarith⟩

theorem unifErr_v3 : unifErr.real {t : ℝ | 0 + 1 / 4 * 1 + t < 1 ∧ 0 + 1 / 4 * 1 + t < 11 / 16} = 7 / 16 - 0 := by
  refine unifErr_sub _ (by measurability) _ _ (by norm_num) (Or.inr (Or.inr (Or.inl ?_)))
  ext t
  simp only [mem_inter_iff, mem_ofPred_eq, mem_Iic, mem_Iio, mem_Icc, mem_Ioc, mem_Ico, mem_Ioo]
  constructor
  · rintro ⟨h1, h2⟩; constructor <;> first | linarith [h1, h2.1, h2.2] | linarith [h1.1, h1.2, h2.1, h2.2]
  · rintro ⟨h1, h2⟩; refine ⟨?_, ?_, ?_⟩ <;> first | linarith | exact ⟨by linarith, by linarith⟩

theorem unifErr_v4 : unifErr.real {t : ℝ | 0 + 1 / 4 * 2 + t < 1 ∧ 0 + 1 / 4 * 2 + t ≤ 11 / 16} = 3 / 16 - 0 := by
  refine unifErr_sub _ (by measurability) _ _ (by norm_num) (Or.inl ?_)
  ext t
  simp only [mem_inter_iff, mem_ofPred_eq, mem_Iic, mem_Iio, mem_Icc, mem_Ioc, mem_Ico, mem_Ioo]
  constructor
  · rintro ⟨h1, h2⟩; constructor <;> first | linarith [h1, h2.1, h2.2] | linarith [h1.1, h1.2, h2.1, h2.2]
  · rintro ⟨h1, h2⟩; refine ⟨?_, ?_, ?_⟩ <;> first | linarith | exact ⟨by linarith, by linarith⟩

theorem unifErr_w1 : unifErr.real (Iio (1 / 2)) = 1 / 2 - 0 := by
  refine unifErr_sub _ (by measurability) _ _ (by norm_num) (Or.inr (Or.inr (Or.inl ?_)))
  ext t
  simp only [mem_inter_iff, mem_ofPred_eq, mem_Iic, mem_Iio, mem_Icc, mem_Ioc, mem_Ico, mem_Ioo]
  constructor
  · rintro ⟨h1, h2⟩; constructor <;> first | linarith [h1, h2.1, h2.2] | linarith [h1.1, h1.2, h2.1, h2.2]
  · rintro ⟨h1, h2⟩; refine ⟨?_, ?_, ?_⟩ <;> first | linarith | exact ⟨by linarith, by linarith⟩

theorem unifErr_Iic (r : ℝ) (h0 : 0 ≤ r) (h1 : r ≤ 1) : unifErr.real (Iic r) = r := by
  have := unifErr_sub (Iic r) measurableSet_Iic 0 r h0 (Or.inl (by
    ext t
    simp only [mem_inter_iff, mem_Iic, mem_Icc]
    constructor
    · rintro ⟨a, b, c⟩; exact ⟨b, a⟩
    · rintro ⟨a, b⟩; exact ⟨b, a, b.trans h1⟩))
  rwa [sub_zero] at this

/-- Instance of the refutation: sizes 1 and 2, signals `a / 4` plus uniform errors, noise threshold 3/4, detection threshold 17/16, probability 1/2. -/
example : ∃ η > 0, ∀ᵐ ω ∂(Measure.infinitePi fun _ : ℕ => twoSizes.prod unifErr), ∀ᶠ N in atTop, ∀ env : QrEnv Unit,
    (∀ obs tau, 0 < tau → tau < 1 → QuantRegExact env.quantReg obs tau) →
      let obs := (List.range N).map fun i => ((ω i).1, 0 + 1 / 4 * (ω i).1 + (ω i).2)
      (∀ o ∈ obs, -env.fmax < o.2 ∧ o.2 < env.fmax) → ∀ qs bootstraps s, ∃ kept d,
        (qrPodRun env ⟨obs, 17 / 16, some (3 / 4), none, false, true, qs⟩ bootstraps s).2.data = some (kept, 17 / 16) ∧
        sampleMin (kept.map Prod.fst) = .ok 1 ∧ sampleMax (kept.map Prod.fst) = .ok 2 ∧
        qrDetectionSize env.pick (env.quantReg kept) (17 / 16) 1 2 (1 / 2) = .ok d ∧ 1 < d ∧ d < 2 ∧
        unifErr.real {t | 17 / 16 < 0 + 1 / 4 * d + t} ≤ 1 / 2 - η :=
  C181_violated (Q := Measure.infinitePi fun _ : ℕ => twoSizes.prod unifErr) (ν := twoSizes) (μ := unifErr) (fun i ω => (ω i).1) (fun i ω => (ω i).2)
    (fun i => measurable_fst.comp (measurable_pi_apply i)) (fun i => measurable_snd.comp (measurable_pi_apply i))
    (fun i => (measurePreserving_eval_infinitePi (fun _ : ℕ => twoSizes.prod unifErr) i).map_eq)
    (iIndepFun_infinitePi (P := fun _ : ℕ => twoSizes.prod unifErr) (X := fun _ x => x) (fun _ => measurable_id))
    0 (1 / 4) 1 2 one_lt_two twoSizes_ae twoSizes_pos.1 twoSizes_pos.2 (1 / 2) (1 / 2) (by norm_num) (by norm_num)
    (by rw [unifErr_Iic _ (by norm_num) (by norm_num)]; norm_num)
    (fun r hr => by
      rcases le_total r 1 with h | h
      · rw [unifErr_Iic r (by linarith) h]; linarith
      · have h1 := measureReal_mono (μ := unifErr) (Iic_subset_Iic.2 h)
        rw [unifErr_Iic 1 zero_le_one le_rfl] at h1
        linarith)
    (3 / 4) (17 / 16) (by rw [unifErr_u1]; norm_num) (by rw [unifErr_u2]; norm_num) (by rw [unifErr_u3, unifErr_u4]; norm_num)
    (by rw [unifErr_u5, unifErr_u6]; norm_num)

/-- Instance of the restricted claim: the same data with a saturation threshold 1 and the detection threshold 11/16. -/
example : ∀ᵐ ω ∂(Measure.infinitePi fun _ : ℕ => twoSizes.prod unifErr), ∀ᶠ N in atTop, ∀ env : QrEnv Unit,
    (∀ obs tau, 0 < tau → tau < 1 → QuantRegExact env.quantReg obs tau) →
      let obs := (List.range N).map fun i => ((ω i).1, 0 + 1 / 4 * (ω i).1 + (ω i).2)
      (∀ o ∈ obs, -env.fmax < o.2 ∧ o.2 < env.fmax) → ∀ qs bootstraps s, ∃ kept d,
        (qrPodRun env ⟨obs, 11 / 16, none, some 1, false, true, qs⟩ bootstraps s).2.data = some (kept, 11 / 16) ∧
        sampleMin (kept.map Prod.fst) = .ok 1 ∧ sampleMax (kept.map Prod.fst) = .ok 2 ∧
        qrDetectionSize env.pick (env.quantReg kept) (11 / 16) 1 2 (1 / 2) = .ok d ∧ 1 < d ∧ d < 2 ∧
        1 / 2 ≤ unifErr.real {t | 11 / 16 < 0 + 1 / 4 * d + t} :=
  C181_saturation_partial (Q := Measure.infinitePi fun _ : ℕ => twoSizes.prod unifErr) (ν := twoSizes) (μ := unifErr) (fun i ω => (ω i).1)
    (fun i ω => (ω i).2)
    (fun i => measurable_fst.comp (measurable_pi_apply i)) (fun i => measurable_snd.comp (measurable_pi_apply i))
    (fun i => (measurePreserving_eval_infinitePi (fun _ : ℕ => twoSizes.prod unifErr) i).map_eq)
    (iIndepFun_infinitePi (P := fun _ : ℕ => twoSizes.prod unifErr) (X := fun _ x => x) (fun _ => measurable_id))
    0 (1 / 4) 1 2 one_lt_two twoSizes_ae twoSizes_pos.1 twoSizes_pos.2 (1 / 2) (1 / 2) (by norm_num) (by norm_num)
    (by rw [unifErr_w1]; norm_num) 1 (11 / 16) (by rw [unifErr_v1]; norm_num) (by rw [unifErr_v2]; norm_num)
    (by rw [unifErr_v1, unifErr_v3]; norm_num) (by rw [unifErr_v2, unifErr_v4]; norm_num)

end Verif.Props
