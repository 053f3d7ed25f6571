import Verif.Props.QrRun
import Verif.Props.QrConsistency
import Verif.Props.DetectionLevels

/-!
# C196: in the quantile regression a signal counts by its side of the line only
-/

namespace Verif.Props
open Verif.Py Verif.Model Filter Topology

/-- Two observations of the same size, equal or strictly on the same side of the line `b0 + b1 x`. -/
def SameSide (b0 b1 : ℝ) (o o' : ℝ × ℝ) : Prop :=
  o.1 = o'.1 ∧ (o.2 = o'.2 ∨ (b0 + b1 * o.1 < o.2 ∧ b0 + b1 * o.1 < o'.2) ∨ (o.2 < b0 + b1 * o.1 ∧ o'.2 < b0 + b1 * o.1))

/-- Near the line the two losses differ by a constant along each direction. -/
theorem loss_near (tau b0 b1 v0 v1 : ℝ) (obs obs' : List (ℝ × ℝ)) (h : List.Forall₂ (SameSide b0 b1) obs obs') :
    ∀ᶠ ε in 𝓝[>] (0 : ℝ), quantLoss tau obs' (b0 + ε * v0) (b1 + ε * v1) - quantLoss tau obs' b0 b1
      = quantLoss tau obs (b0 + ε * v0) (b1 + ε * v1) - quantLoss tau obs b0 b1 := by
  induction h with
  | nil => exact Eventually.of_forall fun ε => by simp [quantLoss]
  | @cons o o' l l' hoo hll ih =>
    obtain ⟨hx, hs⟩ := hoo
    have hone : ∀ᶠ ε in 𝓝[>] (0 : ℝ), pinball tau (o'.2 - (b0 + ε * v0 + (b1 + ε * v1) * o'.1)) - pinball tau (o'.2 - (b0 + b1 * o'.1))
        = pinball tau (o.2 - (b0 + ε * v0 + (b1 + ε * v1) * o.1)) - pinball tau (o.2 - (b0 + b1 * o.1)) := by
      rw [← hx]
      rcases hs with hs | ⟨h1, h2⟩ | ⟨h1, h2⟩
      · rw [hs]; exact Eventually.of_forall fun _ => rfl
      · have hc : ∀ y : ℝ, b0 + b1 * o.1 < y → ∀ᶠ ε in 𝓝[>] (0 : ℝ), 0 < y - (b0 + ε * v0 + (b1 + ε * v1) * o.1) := by
          intro y hy
          have ht : Tendsto (fun ε : ℝ => y - (b0 + ε * v0 + (b1 + ε * v1) * o.1)) (𝓝 0) (𝓝 (y - (b0 + 0 * v0 + (b1 + 0 * v1) * o.1))) :=
            Continuous.tendsto (by fun_prop) 0
          exact (ht.mono_left nhdsWithin_le_nhds).eventually (lt_mem_nhds (by linarith))
        filter_upwards [hc _ h1, hc _ h2] with ε g1 g2
        rw [pinball_nonneg_arg g1.le, pinball_nonneg_arg g2.le, pinball_nonneg_arg (by linarith), pinball_nonneg_arg (by linarith)]
        ring
      · have hc : ∀ y : ℝ, y < b0 + b1 * o.1 → ∀ᶠ ε in 𝓝[>] (0 : ℝ), y - (b0 + ε * v0 + (b1 + ε * v1) * o.1) < 0 := by
          intro y hy
          have ht : Tendsto (fun ε : ℝ => y - (b0 + ε * v0 + (b1 + ε * v1) * o.1)) (𝓝 0) (𝓝 (y - (b0 + 0 * v0 + (b1 + 0 * v1) * o.1))) :=
            Continuous.tendsto (by fun_prop) 0
          exact (ht.mono_left nhdsWithin_le_nhds).eventually (gt_mem_nhds (by linarith))
        filter_upwards [hc _ h1, hc _ h2] with ε g1 g2
        rw [pinball_nonpos_arg g1.le, pinball_nonpos_arg g2.le, pinball_nonpos_arg (by linarith), pinball_nonpos_arg (by linarith)]
        ring
    filter_upwards [ih, hone] with ε g1 g2
    simp only [quantLoss, List.map_cons, List.sum_cons] at g1 ⊢
    linarith

/-- The loss is convex along segments. -/
theorem loss_convex {tau : ℝ} (obs : List (ℝ × ℝ)) (b0 b1 c0 c1 ε : ℝ) (h0 : 0 ≤ ε) (h1 : ε ≤ 1) :
    quantLoss tau obs (b0 + ε * (c0 - b0)) (b1 + ε * (c1 - b1)) ≤ (1 - ε) * quantLoss tau obs b0 b1 + ε * quantLoss tau obs c0 c1 := by
  induction obs with
  | nil => simp [quantLoss]
  | cons o l ih =>
    have hone : pinball tau (o.2 - (b0 + ε * (c0 - b0) + (b1 + ε * (c1 - b1)) * o.1))
        ≤ (1 - ε) * pinball tau (o.2 - (b0 + b1 * o.1)) + ε * pinball tau (o.2 - (c0 + c1 * o.1)) := by
      rw [show o.2 - (b0 + ε * (c0 - b0) + (b1 + ε * (c1 - b1)) * o.1)
        = (1 - ε) * (o.2 - (b0 + b1 * o.1)) + ε * (o.2 - (c0 + c1 * o.1)) by ring]
      set a := o.2 - (b0 + b1 * o.1)
      set b := o.2 - (c0 + c1 * o.1)
      rw [pinball_eq_max, pinball_eq_max, pinball_eq_max]
      have e1 : 0 ≤ 1 - ε := by linarith
      apply max_le
      · have := mul_le_mul_of_nonneg_left (le_max_left (tau * a) ((tau - 1) * a)) e1
        have := mul_le_mul_of_nonneg_left (le_max_left (tau * b) ((tau - 1) * b)) h0
        linarith
      · have := mul_le_mul_of_nonneg_left (le_max_right (tau * a) ((tau - 1) * a)) e1
        have := mul_le_mul_of_nonneg_left (le_max_right (tau * b) ((tau - 1) * b)) h0
        linarith
    simp only [quantLoss, List.map_cons, List.sum_cons] at ih ⊢
    linarith

/-- A best line stays a best line when signals move on their side of it; when it was the only one it stays the only one. -/
theorem best_line_stays (tau b0 b1 : ℝ) (obs obs' : List (ℝ × ℝ)) (h : List.Forall₂ (SameSide b0 b1) obs obs')
    (hmin : ∀ c0 c1, quantLoss tau obs b0 b1 ≤ quantLoss tau obs c0 c1) :
    (∀ c0 c1, quantLoss tau obs' b0 b1 ≤ quantLoss tau obs' c0 c1) ∧
    ((∀ c0 c1, quantLoss tau obs c0 c1 ≤ quantLoss tau obs b0 b1 → c0 = b0 ∧ c1 = b1) →
      ∀ c0 c1, quantLoss tau obs' c0 c1 ≤ quantLoss tau obs' b0 b1 → c0 = b0 ∧ c1 = b1) := by
  have key : ∀ c0 c1 : ℝ, ∃ ε : ℝ, 0 < ε ∧ ε ≤ 1 ∧
      quantLoss tau obs' (b0 + ε * (c0 - b0)) (b1 + ε * (c1 - b1)) - quantLoss tau obs' b0 b1
        = quantLoss tau obs (b0 + ε * (c0 - b0)) (b1 + ε * (c1 - b1)) - quantLoss tau obs b0 b1 := by
    intro c0 c1
    have h1 : ∀ᶠ ε in 𝓝[>] (0 : ℝ), ε ≤ 1 := nhdsWithin_le_nhds (Iic_mem_nhds one_pos)
    obtain ⟨ε, g1, g2, g3⟩ := ((loss_near tau b0 b1 (c0 - b0) (c1 - b1) obs obs' h).and (h1.and self_mem_nhdsWithin)).exists
    exact ⟨ε, g3, g2, g1⟩
  constructor
  · intro c0 c1
    obtain ⟨ε, e0, e1, he⟩ := key c0 c1
    have h1 := hmin (b0 + ε * (c0 - b0)) (b1 + ε * (c1 - b1))
    have h2 := loss_convex (tau := tau) obs' b0 b1 c0 c1 ε e0.le e1
    have h3 : ε * quantLoss tau obs' b0 b1 ≤ ε * quantLoss tau obs' c0 c1 := by linarith
    exact le_of_mul_le_mul_left h3 e0
  · intro hu c0 c1 hc
    obtain ⟨ε, e0, e1, he⟩ := key c0 c1
    have h2 := loss_convex (tau := tau) obs' b0 b1 c0 c1 ε e0.le e1
    have h3 := mul_le_mul_of_nonneg_left hc e0.le
    obtain ⟨u0, u1⟩ := hu (b0 + ε * (c0 - b0)) (b1 + ε * (c1 - b1)) (by linarith)
    have z0 : ε * (c0 - b0) = 0 := by linarith
    have z1 : ε * (c1 - b1) = 0 := by linarith
    constructor
    · have := (mul_eq_zero.1 z0).resolve_left e0.ne'; linarith
    · have := (mul_eq_zero.1 z1).resolve_left e0.ne'; linarith

/-- The line is the only best one for these data. -/
def OnlyBest (tau : ℝ) (obs : List (ℝ × ℝ)) (m : QuantFit) : Prop :=
  ∀ c0 c1, quantLoss tau obs c0 c1 ≤ quantLoss tau obs m.intercept m.slope → c0 = m.intercept ∧ c1 = m.slope

/-- **C196, one level.**  Signals that move without crossing the fitted line of a level leave this line as it is. -/
theorem C196_line (quantReg : List (ℝ × ℝ) → ℝ → QuantFit) (tau : ℝ) (obs obs' : List (ℝ × ℝ)) (h1 : QuantRegExact quantReg obs tau)
    (h2 : QuantRegExact quantReg obs' tau) (hu : OnlyBest tau obs (quantReg obs tau))
    (h : List.Forall₂ (SameSide (quantReg obs tau).intercept (quantReg obs tau).slope) obs obs') :
    (quantReg obs' tau).intercept = (quantReg obs tau).intercept ∧ (quantReg obs' tau).slope = (quantReg obs tau).slope := by
  obtain ⟨-, h4⟩ := best_line_stays tau _ _ obs obs' h h1
  exact h4 hu _ _ (h2 _ _)

theorem solve_same (pick : ℝ → ℝ → ℝ) (fit fit' : ℝ → QuantFit) (det lo hi : ℝ) (ps : List ℝ)
    (h : ∀ p ∈ ps, (fit' (1 - p)).intercept = (fit (1 - p)).intercept ∧ (fit' (1 - p)).slope = (fit (1 - p)).slope) :
    qrSolveAll pick fit' det lo hi ps = qrSolveAll pick fit det lo hi ps := by
  induction ps with
  | nil => rfl
  | cons p ps ih =>
    obtain ⟨g0, g1⟩ := h p (by simp)
    rw [qrSolveAll, qrSolveAll, ih fun q hq => h q (List.mem_cons_of_mem _ hq)]
    have : brentLine pick (qrFitFor fit' p) det lo hi = brentLine pick (qrFitFor fit p) det lo hi := by
      unfold brentLine qrFitFor
      rw [g0, g1]
    rw [this]

/-- **C196.**  `QuantileRegressionPOD` with exact regressions, without Box-Cox and thresholds.  When every signal is replaced by one on the same side of all
the fitted lines, the POD curve of `run` and the detection sizes at the levels of the run are unchanged, however far the signals moved. -/
theorem C196_outlier {G : Type} (env : QrEnv G) (hex : ∀ obs tau, 0 < tau → tau < 1 → QuantRegExact env.quantReg obs tau) (obs obs' : List (ℝ × ℝ)) (det : ℝ)
    (qs : List ℝ) (hqs : ∀ p ∈ qs, 0 < p ∧ p < 1) (hu : ∀ p ∈ qs, OnlyBest (1 - p) obs (env.quantReg obs (1 - p)))
    (h : ∀ p ∈ qs, List.Forall₂ (SameSide (env.quantReg obs (1 - p)).intercept (env.quantReg obs (1 - p)).slope) obs obs')
    (hx : obs.map Prod.fst = obs'.map Prod.fst) (bs bs' : List (List (ℝ × ℝ))) (s : QrAttrs G) :
    (qrPodRun env ⟨obs', det, none, none, false, false, qs⟩ bs' s).2.pod = (qrPodRun env ⟨obs, det, none, none, false, false, qs⟩ bs s).2.pod ∧
    ∀ p ∈ qs, ∀ lo hi, qrDetectionSize env.pick (env.quantReg obs') det lo hi p = qrDetectionSize env.pick (env.quantReg obs) det lo hi p := by
  have hl : ∀ p ∈ qs, (env.quantReg obs' (1 - p)).intercept = (env.quantReg obs (1 - p)).intercept ∧
      (env.quantReg obs' (1 - p)).slope = (env.quantReg obs (1 - p)).slope := fun p hp =>
    C196_line env.quantReg (1 - p) obs obs' (hex _ _ (by linarith [(hqs p hp).2]) (by linarith [(hqs p hp).1]))
      (hex _ _ (by linarith [(hqs p hp).2]) (by linarith [(hqs p hp).1])) (hu p hp) (h p hp)
  constructor
  · simp only [qrPodRun, podRun, Bool.false_eq_true, if_false, Option.getD_some]
    rw [← hx]
    cases hm : sampleMax (obs.map Prod.fst) with
    | error er => rfl
    | ok mx =>
      dsimp only
      rw [solve_same env.pick (env.quantReg obs) (env.quantReg obs') det 0 mx qs hl]
      cases hq : qrSolveAll env.pick (env.quantReg obs) det 0 mx qs with
      | error er => rfl
      | ok ds =>
        dsimp only
        cases hcv : qrCurve ds qs mx with
        | error er => rfl
        | ok g =>
          dsimp only
          rw [(qrBootstrap_ok env _ _ _ _ _).2.1, (qrBootstrap_ok env _ _ _ _ _).2.1]
  · intro p hp lo hi
    obtain ⟨g0, g1⟩ := hl p hp
    unfold qrDetectionSize brentLine qrFitFor
    rw [g0, g1]

/-- Observations (0,0), (1,1), (2,2) and one at (1,5): at the level 1/4 the diagonal is the only best line; the last signal may be anything above 1. -/
example (quantReg : List (ℝ × ℝ) → ℝ → QuantFit) (hex : ∀ obs tau, 0 < tau → tau < 1 → QuantRegExact quantReg obs tau) (y : ℝ) (hy : 1 < y) :
    (quantReg [(0, 0), (1, 1), (2, 2), (1, y)] (1 / 4)).slope = 1 := by
  have hmin : ∀ c0 c1 : ℝ, quantLoss (1 / 4) [(0, 0), (1, 1), (2, 2), (1, 5)] c0 c1 ≤ 1 → c0 = 0 ∧ c1 = 1 := by
    intro c0 c1 h
    simp only [quantLoss, List.map_cons, List.map_nil, List.sum_cons, List.sum_nil] at h
    have k1 := pinball_lower (1 / 4) (-1 / 12) (0 - (c0 + c1 * 0)) (by norm_num) (by norm_num)
    have k2 := pinball_lower (1 / 4) (-1 / 12) (1 - (c0 + c1 * 1)) (by norm_num) (by norm_num)
    have k3 := pinball_lower (1 / 4) (-1 / 12) (2 - (c0 + c1 * 2)) (by norm_num) (by norm_num)
    have k4 := pinball_lower (1 / 4) (1 / 4) (5 - (c0 + c1 * 1)) (by norm_num) (by norm_num)
    have z1 := pinball_strict (1 / 4) (-1 / 12) (0 - (c0 + c1 * 0)) (by norm_num) (by norm_num) (by linarith)
    have z2 := pinball_strict (1 / 4) (-1 / 12) (1 - (c0 + c1 * 1)) (by norm_num) (by norm_num) (by linarith)
    constructor <;> linarith
  have hd : quantLoss (1 / 4) [(0, 0), (1, 1), (2, 2), (1, 5)] 0 1 = 1 := by
    simp only [quantLoss, List.map_cons, List.map_nil, List.sum_cons, List.sum_nil, pinball]
    norm_num
  have hline := hmin _ _ ((hex [(0, 0), (1, 1), (2, 2), (1, 5)] (1 / 4) (by norm_num) (by norm_num) 0 1).trans_eq hd)
  have := C196_line quantReg (1 / 4) [(0, 0), (1, 1), (2, 2), (1, 5)] [(0, 0), (1, 1), (2, 2), (1, y)] (hex _ _ (by norm_num) (by norm_num))
    (hex _ _ (by norm_num) (by norm_num)) (fun c0 c1 hc => by
      rw [hline.1, hline.2] at hc ⊢
      exact hmin _ _ (hc.trans_eq hd)) (by
      rw [hline.1, hline.2]
      exact .cons ⟨rfl, .inl rfl⟩ (.cons ⟨rfl, .inl rfl⟩ (.cons ⟨rfl, .inl rfl⟩ (.cons ⟨rfl, .inr (.inl ⟨by norm_num, by linarith⟩)⟩ .nil))))
  rw [this.2, hline.2]

end Verif.Props
