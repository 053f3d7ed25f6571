import Verif.Props.Order
import Verif.Props.QrOutlier
import Verif.Props.PseudoR2

/-!
# C245: the order of the observations in the quantile regression (/repo/otpod/_quantile_regression_pod.py 99-212, 254-268, 294-332)
-/

namespace Verif.Props
open Verif.Py Verif.Model

/-- The Box-Cox optimiser does not look at the order of the observations. -/
def BoxCoxOrderFree {G : Type} (boxCox : List ℝ → List ℝ → ℝ → Res (ℝ × G)) : Prop :=
  ∀ (l l' : List (ℝ × ℝ)) (shift : ℝ), l.Perm l' → boxCox (l.map Prod.fst) (l.map Prod.snd) shift = boxCox (l'.map Prod.fst) (l'.map Prod.snd) shift

/-- Two outcomes of `_run` that differ by the order of the observations only. -/
inductive SamePrep {G : Type} : Res (RunResult ℝ) × BoxCoxAttrs G → Res (RunResult ℝ) × BoxCoxAttrs G → Prop
  | error (e : PyErr) (bc : BoxCoxAttrs G) : SamePrep (.error e, bc) (.error e, bc)
  | ok (r r' : RunResult ℝ) (bc : BoxCoxAttrs G) (hobs : r.obs.Perm r'.obs) (hdet : r.detection = r'.detection) : SamePrep (.ok r, bc) (.ok r', bc)

theorem sampleMax_perm {l l' : List ℝ} (h : l.Perm l') : sampleMax l = sampleMax l' := by
  cases hl : l with
  | nil => subst hl; rw [h.symm.eq_nil]
  | cons a as =>
    cases hl' : l' with
    | nil => subst hl'; rw [h.eq_nil] at hl; cases hl
    | cons b bs =>
      obtain ⟨m, hm⟩ : ∃ m, sampleMax l = .ok m := by rw [hl]; exact ⟨_, rfl⟩
      obtain ⟨m', hm'⟩ : ∃ m, sampleMax l' = .ok m := by rw [hl']; exact ⟨_, rfl⟩
      have h1 := sampleMax_spec hm
      have h2 := sampleMax_spec hm'
      have e : {x | x ∈ l} = {x | x ∈ l'} := by ext x; exact h.mem_iff
      rw [e] at h1
      rw [← hl, ← hl', hm, hm', h1.unique h2]

theorem podRun_perm {G : Type} (fmax : ℝ) (bc : List ℝ → List ℝ → ℝ → Res (ℝ × G)) (hbc : BoxCoxOrderFree bc) (obs obs' : List (ℝ × ℝ)) (hp : obs.Perm obs')
    (det noise sat : Option ℝ) (boxCox cens : Bool) (st : BoxCoxAttrs G) :
    SamePrep (podRun fmax bc obs det noise sat boxCox cens st) (podRun fmax bc obs' det noise sat boxCox cens st) := by
  have hu : (if cens then uncensoredObs fmax obs noise sat else obs).Perm (if cens then uncensoredObs fmax obs' noise sat else obs') := by
    cases cens with
    | false => exact hp
    | true => exact hp.filter _
  unfold podRun
  dsimp only
  generalize (if cens = true then uncensoredObs fmax obs noise sat else obs) = unc at *
  generalize (if cens = true then uncensoredObs fmax obs' noise sat else obs') = unc' at *
  cases boxCox with
  | false => exact .ok _ _ _ hu rfl
  | true =>
    simp only [if_true]
    have e1 : boxCoxShift (unc.map Prod.snd) = boxCoxShift (unc'.map Prod.snd) := by
      rw [boxCoxShift, boxCoxShift, sampleMin_perm (hu.map _)]
    rw [e1]
    cases boxCoxShift (unc'.map Prod.snd) with
    | error e => exact .error _ _
    | ok shift =>
      dsimp only
      rw [hbc unc unc' shift hu]
      cases bc (unc'.map Prod.fst) (unc'.map Prod.snd) shift with
      | error e => exact .error _ _
      | ok lg =>
        obtain ⟨lam, graph⟩ := lg
        dsimp only
        have hperm := (hu.map Prod.snd).map (· + shift)
        unfold boxCoxSample
        by_cases hpos : ∀ x ∈ (unc'.map Prod.snd).map (· + shift), 0 < x
        · rw [if_pos hpos, if_pos fun x hx => hpos x (hperm.mem_iff.1 hx)]
          dsimp only
          split
          · exact .error _ _
          · split
            · exact .error _ _
            · split
              · exact .error _ _
              · split
                · exact .error _ _
                · refine .ok _ _ _ ?_ rfl
                  dsimp only
                  rw [List.map_map (l := unc.map Prod.snd), List.map_map (l := unc'.map Prod.snd), zip_map_snd, zip_map_snd]
                  exact hu.map _
        · rw [if_neg hpos, if_neg fun h => hpos fun x hx => h x (hperm.mem_iff.2 hx)]
          exact .error _ _

theorem quantLoss_perm (tau : ℝ) {l l' : List (ℝ × ℝ)} (h : l.Perm l') (b0 b1 : ℝ) : quantLoss tau l b0 b1 = quantLoss tau l' b0 b1 :=
  (h.map _).sum_eq

theorem line_perm (quantReg : List (ℝ × ℝ) → ℝ → QuantFit) (tau : ℝ) (l l' : List (ℝ × ℝ)) (h : l.Perm l') (hex : QuantRegExact quantReg l' tau)
    (hu : OnlyBest tau l (quantReg l tau)) :
    (quantReg l' tau).intercept = (quantReg l tau).intercept ∧ (quantReg l' tau).slope = (quantReg l tau).slope := by
  refine hu _ _ ?_
  have := hex (quantReg l tau).intercept (quantReg l tau).slope
  rwa [← quantLoss_perm tau h, ← quantLoss_perm tau h] at this

/-- On the data set prepared by `_run` (filtered, transformed) each level has one best line. -/
def PreparedOnlyBest {G : Type} (env : QrEnv G) (d : QrData) (l : List (ℝ × ℝ)) : Prop :=
  ∀ r, (podRun env.fmax env.boxCox l (some d.detection) d.noise d.sat d.boxCox d.censored ⟨none, none⟩).1 = .ok r →
    ∀ p ∈ d.quantiles, OnlyBest (1 - p) r.obs (env.quantReg r.obs (1 - p))

theorem qrBootstrap_perm {G : Type} (env : QrEnv G) (hbc : BoxCoxOrderFree env.boxCox) (hex : ∀ obs tau, 0 < tau → tau < 1 → QuantRegExact env.quantReg obs tau)
    (d : QrData) (obs' : List (ℝ × ℝ)) (hqs : ∀ p ∈ d.quantiles, 0 < p ∧ p < 1) (nSim : ℕ) (bs bs' : List (List (ℝ × ℝ))) (hbs : List.Forall₂ List.Perm bs bs')
    (hu : ∀ b ∈ bs, PreparedOnlyBest env d b) (done : List (List ℝ)) (s s' : QrAttrs G) (h1 : s'.bc = s.bc) (h2 : s'.rows = s.rows) :
    (qrBootstrap env { d with obs := obs' } nSim bs' done s').1 = (qrBootstrap env d nSim bs done s).1 ∧
    (qrBootstrap env { d with obs := obs' } nSim bs' done s').2.bc = (qrBootstrap env d nSim bs done s).2.bc ∧
    (qrBootstrap env { d with obs := obs' } nSim bs' done s').2.rows = (qrBootstrap env d nSim bs done s).2.rows := by
  induction hbs generalizing done s s' with
  | nil => exact ⟨rfl, h1, h2⟩
  | @cons b b' bs bs' hb _ ih =>
    rw [qrBootstrap, qrBootstrap, h1]
    have hprep := podRun_perm env.fmax env.boxCox hbc b b' hb (some d.detection) d.noise d.sat d.boxCox d.censored s.bc
    have hfst := podRun_fst env.fmax env.boxCox b (some d.detection) d.noise d.sat d.boxCox d.censored s.bc ⟨none, none⟩
    have hub := hu b (by simp)
    unfold PreparedOnlyBest at hub
    rw [← hfst] at hub
    dsimp only
    generalize podRun env.fmax env.boxCox b (some d.detection) d.noise d.sat d.boxCox d.censored s.bc = x at *
    generalize podRun env.fmax env.boxCox b' (some d.detection) d.noise d.sat d.boxCox d.censored s.bc = x' at *
    cases hprep with
    | error e bc => exact ⟨rfl, rfl, h2⟩
    | ok r r' bc hobs hdet =>
      dsimp only
      rw [← sampleMax_perm (hobs.map Prod.fst), ← hdet]
      cases sampleMax (r.obs.map Prod.fst) with
      | error e => exact ⟨rfl, rfl, h2⟩
      | ok mx =>
        dsimp only
        rw [solve_same env.pick (env.quantReg r.obs) (env.quantReg r'.obs) _ _ mx d.quantiles fun p hp =>
          line_perm env.quantReg (1 - p) r.obs r'.obs hobs (hex _ _ (by linarith [(hqs p hp).2]) (by linarith [(hqs p hp).1])) (hub r rfl p hp)]
        cases qrSolveAll env.pick (env.quantReg r.obs) (r.detection.getD 0) (-env.fmax) mx d.quantiles with
        | error e => exact ⟨rfl, rfl, h2⟩
        | ok ds => exact ih (fun b hb => hu b (List.mem_cons_of_mem _ hb)) _ _ _ rfl rfl

/-- **C245, run.**  Observations written in another order, and resamples containing the same observations: `run` succeeds or raises in the same way, and leaves the same POD
curve, the same sample of simulated sizes (hence the same curve at each confidence level), the same Box-Cox parameter, and the same data up to the order. -/
theorem C245_run {G : Type} (env : QrEnv G) (hbc : BoxCoxOrderFree env.boxCox) (hex : ∀ obs tau, 0 < tau → tau < 1 → QuantRegExact env.quantReg obs tau)
    (d : QrData) (obs' : List (ℝ × ℝ)) (hp : d.obs.Perm obs') (hqs : ∀ p ∈ d.quantiles, 0 < p ∧ p < 1) (bs bs' : List (List (ℝ × ℝ)))
    (hbs : List.Forall₂ List.Perm bs bs') (hu : ∀ b ∈ d.obs :: bs, PreparedOnlyBest env d b) (s : QrAttrs G) :
    (qrPodRun env { d with obs := obs' } bs' s).1 = (qrPodRun env d bs s).1 ∧
    (qrPodRun env { d with obs := obs' } bs' s).2.pod = (qrPodRun env d bs s).2.pod ∧
    (qrPodRun env { d with obs := obs' } bs' s).2.rows = (qrPodRun env d bs s).2.rows ∧
    (qrPodRun env { d with obs := obs' } bs' s).2.bc = (qrPodRun env d bs s).2.bc ∧
    ∀ D, (qrPodRun env d bs s).2.data = some D → ∃ D', (qrPodRun env { d with obs := obs' } bs' s).2.data = some D' ∧ D.1.Perm D'.1 ∧ D.2 = D'.2 := by
  rw [qrPodRun, qrPodRun]
  have hprep := podRun_perm env.fmax env.boxCox hbc d.obs obs' hp (some d.detection) d.noise d.sat d.boxCox d.censored s.bc
  have hfst := podRun_fst env.fmax env.boxCox d.obs (some d.detection) d.noise d.sat d.boxCox d.censored s.bc ⟨none, none⟩
  have hub := hu d.obs (by simp)
  unfold PreparedOnlyBest at hub
  rw [← hfst] at hub
  dsimp only
  generalize podRun env.fmax env.boxCox d.obs (some d.detection) d.noise d.sat d.boxCox d.censored s.bc = x at *
  generalize podRun env.fmax env.boxCox obs' (some d.detection) d.noise d.sat d.boxCox d.censored s.bc = x' at *
  cases hprep with
  | error e bc => exact ⟨rfl, rfl, rfl, rfl, fun D hD => ⟨D, hD, .refl _, rfl⟩⟩
  | ok r r' bc hobs hdet =>
    have hdata : ∀ D, some (r.obs, r.detection.getD 0) = some D → ∃ D', some (r'.obs, r.detection.getD 0) = some D' ∧ D.1.Perm D'.1 ∧ D.2 = D'.2 := by
      intro D hD
      cases hD
      exact ⟨_, rfl, hobs, rfl⟩
    dsimp only
    rw [← sampleMax_perm (hobs.map Prod.fst), ← hdet]
    cases sampleMax (r.obs.map Prod.fst) with
    | error e => exact ⟨rfl, rfl, rfl, rfl, hdata⟩
    | ok mx =>
      dsimp only
      rw [solve_same env.pick (env.quantReg r.obs) (env.quantReg r'.obs) _ _ mx d.quantiles fun p hp =>
        line_perm env.quantReg (1 - p) r.obs r'.obs hobs (hex _ _ (by linarith [(hqs p hp).2]) (by linarith [(hqs p hp).1])) (hub r rfl p hp)]
      cases qrSolveAll env.pick (env.quantReg r.obs) (r.detection.getD 0) 0 mx d.quantiles with
      | error e => exact ⟨rfl, rfl, rfl, rfl, hdata⟩
      | ok ds =>
        dsimp only
        cases qrCurve ds d.quantiles mx with
        | error e => exact ⟨rfl, rfl, rfl, rfl, hdata⟩
        | ok f =>
          dsimp only
          rw [← hbs.length_eq]
          obtain ⟨q1, q2, q3⟩ := qrBootstrap_perm env hbc hex d obs' hqs bs.length bs bs' hbs (fun b hb => hu b (List.mem_cons_of_mem _ hb)) []
            { s with bc := bc, data := some (r.obs, r.detection.getD 0), pod := some f, rows := some (List.replicate bs.length (List.replicate d.quantiles.length 0)) }
            { s with bc := bc, data := some (r'.obs, r.detection.getD 0), pod := some f, rows := some (List.replicate bs.length (List.replicate d.quantiles.length 0)) }
            rfl rfl
          refine ⟨q1, ?_, q3, q2, ?_⟩
          · rw [(qrBootstrap_ok env _ _ _ _ _).2.1, (qrBootstrap_ok env _ _ _ _ _).2.1]
          · rw [(qrBootstrap_ok env _ _ _ _ _).2.2, (qrBootstrap_ok env _ _ _ _ _).2.2]
            exact hdata

/-- **C245, detection size and R2.**  `computeDetectionSize` does not depend on the order, and neither does `getR2`, even when several lines are best. -/
theorem C245_size (quantReg : List (ℝ × ℝ) → ℝ → QuantFit) (hex : ∀ obs tau, 0 < tau → tau < 1 → FitWithR2 quantReg obs tau) (obs obs' : List (ℝ × ℝ))
    (hp : obs.Perm obs') (q : ℝ) (h0 : 0 < q) (h1 : q < 1) :
    (∀ (pick : ℝ → ℝ → ℝ) (det lo hi : ℝ), OnlyBest (1 - q) obs (quantReg obs (1 - q)) →
      qrDetectionSize pick (quantReg obs') det lo hi q = qrDetectionSize pick (quantReg obs) det lo hi q) ∧
    qrGetR2 (quantReg obs') q = qrGetR2 (quantReg obs) q := by
  constructor
  · intro pick det lo hi hu
    obtain ⟨g0, g1⟩ := line_perm quantReg (1 - q) obs obs' hp (hex _ _ (by linarith) (by linarith)).exact hu
    unfold qrDetectionSize brentLine qrFitFor
    rw [g0, g1]
  · have f := hex obs q h0 h1
    have f' := hex obs' q h0 h1
    have hl : quantLoss q obs' (quantReg obs' q).intercept (quantReg obs' q).slope = quantLoss q obs (quantReg obs q).intercept (quantReg obs q).slope := by
      refine le_antisymm ?_ ?_
      · rw [quantLoss_perm q hp]
        exact f'.exact _ _
      · rw [← quantLoss_perm q hp]
        exact f.exact _ _
    have hs : scorePercentile (obs'.map Prod.snd) q = scorePercentile (obs.map Prod.snd) q := by
      have hm := hp.map Prod.snd
      rw [scorePercentile, scorePercentile, hm.length_eq]
      congr 1
      exact (((sortR_perm _).trans hm.symm).trans (sortR_perm _).symm).eq_of_pairwise (fun _ _ _ _ => le_antisymm) (sortR_pairwise _) (sortR_pairwise _)
    rw [qrGetR2, qrGetR2, f.r2, f'.r2, pseudoR2, pseudoR2, hl, hs, (hp.map fun o => pinball q (o.2 - scorePercentile (obs.map Prod.snd) q)).sum_eq]

/-- Four observations in two orders, level 3/4, one resample: all hypotheses hold and the curves are the same. -/
example {G : Type} (env : QrEnv G) (hbc : BoxCoxOrderFree env.boxCox) (hex : ∀ obs tau, 0 < tau → tau < 1 → QuantRegExact env.quantReg obs tau) (s : QrAttrs G) :
    let a := [(0, 0), (1, 1), (2, 2), (1, 5)]
    let b := [(1, 5), (0, 0), (2, 2), (1, 1)]
    (qrPodRun env ⟨b, 3 / 2, none, none, false, false, [3 / 4]⟩ [a] s).2.pod = (qrPodRun env ⟨a, 3 / 2, none, none, false, false, [3 / 4]⟩ [b] s).2.pod := by
  intro a b
  have hab : a.Perm b := by
    refine List.Perm.trans ?_ (List.perm_middle (l₁ := [(0, 0), (2, 2), (1, 1)]) (a := (1, 5)) (l₂ := []))
    exact .cons _ (.swap _ _ _)
  have hmin : ∀ c0 c1 : ℝ, quantLoss (1 / 4) a c0 c1 ≤ 1 → c0 = 0 ∧ c1 = 1 := by
    intro c0 c1 h
    simp only [a, quantLoss, List.map_cons, List.map_nil, List.sum_cons, List.sum_nil] at h
    have k1 := pinball_lower (1 / 4) (-1 / 12) (0 - (c0 + c1 * 0)) (by norm_num) (by norm_num)
    have k2 := pinball_lower (1 / 4) (-1 / 12) (1 - (c0 + c1 * 1)) (by norm_num) (by norm_num)
    have k3 := pinball_lower (1 / 4) (-1 / 12) (2 - (c0 + c1 * 2)) (by norm_num) (by norm_num)
    have k4 := pinball_lower (1 / 4) (1 / 4) (5 - (c0 + c1 * 1)) (by norm_num) (by norm_num)
    have z1 := pinball_strict (1 / 4) (-1 / 12) (0 - (c0 + c1 * 0)) (by norm_num) (by norm_num) (by linarith)
    have z2 := pinball_strict (1 / 4) (-1 / 12) (1 - (c0 + c1 * 1)) (by norm_num) (by norm_num) (by linarith)
    constructor <;> linarith
  have hd : quantLoss (1 / 4) a 0 1 = 1 := by
    simp only [a, quantLoss, List.map_cons, List.map_nil, List.sum_cons, List.sum_nil, pinball]
    norm_num
  have hbest : ∀ l : List (ℝ × ℝ), l.Perm a → OnlyBest (1 / 4) l (env.quantReg l (1 / 4)) := by
    intro l hl c0 c1 hc
    have h := hex l (1 / 4) (by norm_num) (by norm_num) 0 1
    rw [quantLoss_perm _ hl] at hc
    rw [quantLoss_perm _ hl, quantLoss_perm _ hl, hd] at h
    rw [quantLoss_perm _ hl] at hc
    obtain ⟨g1, g2⟩ := hmin _ _ h
    obtain ⟨g3, g4⟩ := hmin _ _ (hc.trans h)
    rw [g1, g2, g3, g4]
    exact ⟨rfl, rfl⟩
  refine (C245_run env hbc hex ⟨a, 3 / 2, none, none, false, false, [3 / 4]⟩ b hab (by norm_num) [b] [a] (.cons hab.symm .nil) ?_ s).2.1
  intro l hl r hr p hp
  have hla : l.Perm a := by
    simp only [List.mem_cons, List.not_mem_nil, or_false] at hl
    rcases hl with rfl | rfl
    · exact .refl _
    · exact hab.symm
  simp only [podRun, Bool.false_eq_true, if_false, Except.ok.injEq] at hr
  subst hr
  simp only [List.mem_singleton] at hp
  subst hp
  have e : (1 : ℝ) - 3 / 4 = 1 / 4 := by norm_num
  rw [e]
  exact hbest l hla

/-- An optimiser that uses the sum of the signals meets the contract. -/
example : BoxCoxOrderFree (G := Unit) fun _ signals shift => .ok (signals.sum + shift, ()) := by
  intro l l' shift h
  dsimp only
  rw [(h.map Prod.snd).sum_eq]

end Verif.Props
