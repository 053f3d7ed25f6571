import Verif.Model.QrRun
import Verif.Props.QuantileReg
import Verif.Props.Metamodel
import Mathlib.Analysis.Normed.Module.FiniteDimension
import Mathlib.Topology.Order.Compact

/-!
# C143, C144, C145: the run of the quantile regression POD
-/

namespace Verif.Props
open Verif.Py Verif.Model

/-! ## When does a run succeed? -/

/-- The line of the fit takes values on both sides of the threshold (or the threshold itself) between the two bounds. -/
def LineMeets (m : QuantFit) (det lo hi : ℝ) : Prop :=
  ¬ ((det < m.intercept + m.slope * lo ∧ det < m.intercept + m.slope * hi) ∨
    (m.intercept + m.slope * lo < det ∧ m.intercept + m.slope * hi < det))

theorem brentLine_ok (pick : ℝ → ℝ → ℝ) (m : QuantFit) (det lo hi : ℝ) :
    (∃ d, brentLine pick m det lo hi = .ok d) ↔ LineMeets m det lo hi := by
  unfold brentLine LineMeets
  have h : 0 < (m.intercept + m.slope * lo - det) * (m.intercept + m.slope * hi - det) ↔
      (det < m.intercept + m.slope * lo ∧ det < m.intercept + m.slope * hi) ∨
        (m.intercept + m.slope * lo < det ∧ m.intercept + m.slope * hi < det) := by
    rw [mul_pos_iff]; simp [sub_pos]
  rw [← h]
  split_ifs with h1 h2 <;> simp [h1]

theorem qrSolveAll_ok (pick : ℝ → ℝ → ℝ) (fit : ℝ → QuantFit) (det lo hi : ℝ) (ps : List ℝ) :
    (∃ ds, qrSolveAll pick fit det lo hi ps = .ok ds) ↔ ∀ p ∈ ps, LineMeets (fit (1 - p)) det lo hi := by
  induction ps with
  | nil => simp [qrSolveAll]
  | cons p ps ih =>
    rw [qrSolveAll]
    have h := brentLine_ok pick (fit (1 - p)) det lo hi
    unfold qrFitFor
    cases hb : brentLine pick (fit (1 - p)) det lo hi with
    | error e =>
      rw [hb] at h
      simp only [reduceCtorEq, exists_false, false_iff] at h
      simp [h]
    | ok d =>
      rw [hb] at h
      simp only [Except.ok.injEq, exists_eq', true_iff] at h
      cases hr : qrSolveAll pick fit det lo hi ps with
      | error e =>
        rw [hr] at ih
        simp only [reduceCtorEq, exists_false, false_iff] at ih
        simp only [reduceCtorEq, exists_false, false_iff, List.mem_cons, forall_eq_or_imp]
        exact fun hh => ih hh.2
      | ok ds =>
        rw [hr] at ih
        simp only [Except.ok.injEq, exists_eq', true_iff] at ih ⊢
        simpa [h] using ih

theorem qrSolveAll_length {pick : ℝ → ℝ → ℝ} {fit : ℝ → QuantFit} {det lo hi : ℝ} {ps ds : List ℝ}
    (h : qrSolveAll pick fit det lo hi ps = .ok ds) : ds.length = ps.length := by
  induction ps generalizing ds with
  | nil => simp only [qrSolveAll, Except.ok.injEq] at h; subst h; rfl
  | cons p ps ih =>
    rw [qrSolveAll] at h
    cases hb : brentLine pick (qrFitFor fit p) det lo hi with
    | error e => rw [hb] at h; simp at h
    | ok d =>
      rw [hb] at h
      dsimp only at h
      cases hr : qrSolveAll pick fit det lo hi ps with
      | error e => rw [hr] at h; simp at h
      | ok ds' =>
        rw [hr] at h
        simp only [Except.ok.injEq] at h
        subst h
        simp [ih hr]

theorem qrSolveAll_error {pick : ℝ → ℝ → ℝ} {fit : ℝ → QuantFit} {det lo hi : ℝ} {ps : List ℝ} {e : PyErr}
    (h : qrSolveAll pick fit det lo hi ps = .error e) : e = ⟨.runtime, ""⟩ := by
  induction ps with
  | nil => simp [qrSolveAll] at h
  | cons p ps ih =>
    rw [qrSolveAll] at h
    cases hb : brentLine pick (qrFitFor fit p) det lo hi with
    | error e' =>
      rw [hb] at h
      simp only [Except.error.injEq] at h
      subst h
      unfold brentLine at hb
      split_ifs at hb
      simpa using hb.symm
    | ok d =>
      rw [hb] at h
      dsimp only at h
      cases hr : qrSolveAll pick fit det lo hi ps with
      | error e' =>
        rw [hr] at h ih
        simp only [Except.error.injEq] at h ih
        exact ih h
      | ok ds => rw [hr] at h; simp at h

/-- The preliminary part does not read the attributes it writes. -/
theorem podRun_fst {α G : Type} (fmax : ℝ) (bc : List α → List ℝ → ℝ → Res (ℝ × G)) (obs : List (α × ℝ))
    (det noise sat : Option ℝ) (boxCox cens : Bool) (st st' : BoxCoxAttrs G) :
    (podRun fmax bc obs det noise sat boxCox cens st).1 = (podRun fmax bc obs det noise sat boxCox cens st').1 := by
  unfold podRun
  dsimp only
  cases boxCox with
  | false => simp
  | true =>
    simp only [if_true]
    cases boxCoxShift (List.map Prod.snd (if cens = true then uncensoredObs fmax obs noise sat else obs)) with
    | error e => rfl
    | ok shift =>
      dsimp only
      cases bc (List.map Prod.fst (if cens = true then uncensoredObs fmax obs noise sat else obs))
        (List.map Prod.snd (if cens = true then uncensoredObs fmax obs noise sat else obs)) shift with
      | error e => rfl
      | ok lg =>
        dsimp only
        repeat' (first | rfl | split)

/-- What `run` needs of a data set: the preliminary part succeeds, observations remain, and every requested quantile line meets the
threshold between `lo` and the largest defect. -/
def QrSolvable {G : Type} (env : QrEnv G) (d : QrData) (obs : List (ℝ × ℝ)) (lo : ℝ) : Prop :=
  ∃ r mx, (podRun env.fmax env.boxCox obs (some d.detection) d.noise d.sat d.boxCox d.censored ⟨none, none⟩).1 = .ok r ∧
    sampleMax (r.obs.map Prod.fst) = .ok mx ∧
    ∀ p ∈ d.quantiles, LineMeets (env.quantReg r.obs (1 - p)) (r.detection.getD 0) lo mx

theorem qrBootstrap_ok {G : Type} (env : QrEnv G) (d : QrData) (nSim : ℕ) (bs : List (List (ℝ × ℝ))) (done : List (List ℝ)) (s : QrAttrs G) :
    ((qrBootstrap env d nSim bs done s).1 = .ok () ↔ ∀ b ∈ bs, QrSolvable env d b (-env.fmax)) ∧
    (qrBootstrap env d nSim bs done s).2.pod = s.pod ∧ (qrBootstrap env d nSim bs done s).2.data = s.data := by
  induction bs generalizing done s with
  | nil => simp [qrBootstrap]
  | cons b bs ih =>
    rw [qrBootstrap]
    have hf := podRun_fst env.fmax env.boxCox b (some d.detection) d.noise d.sat d.boxCox d.censored s.bc ⟨none, none⟩
    have hsolv : ∀ r, (podRun env.fmax env.boxCox b (some d.detection) d.noise d.sat d.boxCox d.censored ⟨none, none⟩).1 = .ok r →
        (QrSolvable env d b (-env.fmax) ↔ ∃ mx, sampleMax (r.obs.map Prod.fst) = .ok mx ∧
          ∃ ds, qrSolveAll env.pick (env.quantReg r.obs) (r.detection.getD 0) (-env.fmax) mx d.quantiles = .ok ds) := by
      intro r hr
      unfold QrSolvable
      constructor
      · rintro ⟨r', mx, h1, h2, h3⟩
        rw [hr, Except.ok.injEq] at h1
        subst h1
        exact ⟨mx, h2, (qrSolveAll_ok _ _ _ _ _ _).mpr h3⟩
      · rintro ⟨mx, h2, h3⟩
        exact ⟨r, mx, hr, h2, (qrSolveAll_ok _ _ _ _ _ _).mp h3⟩
    cases hp : podRun env.fmax env.boxCox b (some d.detection) d.noise d.sat d.boxCox d.censored s.bc with
    | mk res bc =>
      rw [hp] at hf
      dsimp only at hf
      cases res with
      | error e =>
        dsimp only
        refine ⟨?_, rfl, rfl⟩
        simp only [reduceCtorEq, List.mem_cons, forall_eq_or_imp, false_iff, not_and]
        rintro ⟨r, mx, h1, -⟩
        rw [← hf] at h1
        exact absurd h1 (by simp)
      | ok r =>
        dsimp only
        have hs := hsolv r hf.symm
        cases hm : sampleMax (r.obs.map Prod.fst) with
        | error e =>
          dsimp only
          refine ⟨?_, rfl, rfl⟩
          simp only [reduceCtorEq, List.mem_cons, forall_eq_or_imp, false_iff, not_and]
          intro hq
          obtain ⟨mx, h1, -⟩ := hs.mp hq
          rw [hm] at h1
          exact absurd h1 (by simp)
        | ok mx =>
          dsimp only
          cases hq : qrSolveAll env.pick (env.quantReg r.obs) (r.detection.getD 0) (-env.fmax) mx d.quantiles with
          | error e =>
            dsimp only
            refine ⟨?_, rfl, rfl⟩
            simp only [reduceCtorEq, List.mem_cons, forall_eq_or_imp, false_iff, not_and]
            intro hh
            obtain ⟨mx', h1, ds, h2⟩ := hs.mp hh
            rw [hm, Except.ok.injEq] at h1
            subst h1
            rw [hq] at h2
            exact absurd h2 (by simp)
          | ok ds =>
            dsimp only
            obtain ⟨h1, h2, h3⟩ := ih (done ++ [ds])
              { s with bc := bc, rows := some ((done ++ [ds]) ++ List.replicate (nSim - (done ++ [ds]).length) (List.replicate d.quantiles.length 0)) }
            refine ⟨?_, h2, h3⟩
            rw [h1]
            simp only [List.mem_cons, forall_eq_or_imp]
            exact ⟨fun h => ⟨hs.mpr ⟨mx, hm, ds, hq⟩, h⟩, fun h => h.2⟩

/-- **C143 (restricted).**  A run succeeds exactly when, on the data, *every* requested quantile line meets the threshold between the defect 0 and
the largest defect, and on every bootstrap sample between an arbitrarily negative defect and the largest one.  When it fails on the data the POD
curve of an earlier run is left in place. -/
theorem C143_run_iff_partial {G : Type} (env : QrEnv G) (d : QrData) (bootstraps : List (List (ℝ × ℝ))) (s : QrAttrs G) :
    ((qrPodRun env d bootstraps s).1 = .ok () ↔
      QrSolvable env d d.obs 0 ∧ ∀ b ∈ bootstraps, QrSolvable env d b (-env.fmax)) ∧
    (¬ QrSolvable env d d.obs 0 → (qrPodRun env d bootstraps s).2.pod = s.pod) := by
  unfold qrPodRun
  have hf := podRun_fst env.fmax env.boxCox d.obs (some d.detection) d.noise d.sat d.boxCox d.censored s.bc ⟨none, none⟩
  cases hp : podRun env.fmax env.boxCox d.obs (some d.detection) d.noise d.sat d.boxCox d.censored s.bc with
  | mk res bc =>
    rw [hp] at hf
    dsimp only at hf
    cases res with
    | error e =>
      dsimp only
      refine ⟨?_, fun _ => rfl⟩
      simp only [reduceCtorEq, false_iff, not_and]
      rintro ⟨r, mx, h1, -⟩
      rw [← hf] at h1
      exact absurd h1 (by simp)
    | ok r =>
      dsimp only
      have hs : QrSolvable env d d.obs 0 ↔ ∃ mx, sampleMax (r.obs.map Prod.fst) = .ok mx ∧
          ∃ ds, qrSolveAll env.pick (env.quantReg r.obs) (r.detection.getD 0) 0 mx d.quantiles = .ok ds := by
        unfold QrSolvable
        constructor
        · rintro ⟨r', mx, h1, h2, h3⟩
          rw [← hf, Except.ok.injEq] at h1
          subst h1
          exact ⟨mx, h2, (qrSolveAll_ok _ _ _ _ _ _).mpr h3⟩
        · rintro ⟨mx, h2, h3⟩
          exact ⟨r, mx, hf.symm, h2, (qrSolveAll_ok _ _ _ _ _ _).mp h3⟩
      cases hm : sampleMax (r.obs.map Prod.fst) with
      | error e =>
        dsimp only
        refine ⟨?_, fun _ => rfl⟩
        simp only [reduceCtorEq, false_iff, not_and]
        intro hq
        obtain ⟨mx, h1, -⟩ := hs.mp hq
        rw [hm] at h1
        exact absurd h1 (by simp)
      | ok mx =>
        dsimp only
        cases hq : qrSolveAll env.pick (env.quantReg r.obs) (r.detection.getD 0) 0 mx d.quantiles with
        | error e =>
          dsimp only
          refine ⟨?_, fun _ => rfl⟩
          simp only [reduceCtorEq, false_iff, not_and]
          intro hh
          obtain ⟨mx', h1, ds, h2⟩ := hs.mp hh
          rw [hm, Except.ok.injEq] at h1
          subst h1
          rw [hq] at h2
          exact absurd h2 (by simp)
        | ok ds =>
          have hlen := qrSolveAll_length hq
          have hyes : QrSolvable env d d.obs 0 := hs.mpr ⟨mx, hm, ds, hq⟩
          dsimp only
          rw [qrCurve, interp1d, if_pos (by simp [hlen])]
          dsimp only
          refine ⟨?_, fun hn => absurd hyes hn⟩
          rw [(qrBootstrap_ok env d bootstraps.length bootstraps [] _).1]
          exact ⟨fun h => ⟨hyes, h⟩, fun h => h.2⟩

/-! ## Pinball loss -/

theorem pinball_nonneg_arg {tau r : ℝ} (h : 0 ≤ r) : pinball tau r = tau * r := by rw [pinball, if_pos h]

theorem pinball_nonpos_arg {tau r : ℝ} (h : r ≤ 0) : pinball tau r = (tau - 1) * r := by
  rw [pinball]
  split_ifs with h0
  · have : r = 0 := le_antisymm h h0
    rw [this]; ring
  · rfl

/-- Contract of the quantile regression: the fitted line minimises the loss. -/
def QuantRegExact (quantReg : List (ℝ × ℝ) → ℝ → QuantFit) (obs : List (ℝ × ℝ)) (tau : ℝ) : Prop :=
  ∀ c0 c1, quantLoss tau obs (quantReg obs tau).intercept (quantReg obs tau).slope ≤ quantLoss tau obs c0 c1

/-- The contract can be met: a best line exists for every data set and every level in (0,1). -/
theorem quantReg_exists : ∃ quantReg : List (ℝ × ℝ) → ℝ → QuantFit, ∀ obs tau, 0 < tau → tau < 1 → QuantRegExact quantReg obs tau := by
  have key : ∀ (obs : List (ℝ × ℝ)) (tau : ℝ), ∃ m : QuantFit, 0 < tau → tau < 1 →
      ∀ c0 c1, quantLoss tau obs m.intercept m.slope ≤ quantLoss tau obs c0 c1 := by
    intro obs tau
    by_cases ht : 0 < tau ∧ tau < 1
    swap
    · exact ⟨⟨0, 0, 0⟩, fun h1 h2 => absurd ⟨h1, h2⟩ ht⟩
    obtain ⟨t0, t1⟩ := ht
    -- the loss as a function of the vector of fitted values
    let x : Fin obs.length → ℝ := fun i => obs[i].1
    let y : Fin obs.length → ℝ := fun i => obs[i].2
    let V : Submodule ℝ (Fin obs.length → ℝ) := Submodule.span ℝ {fun _ => 1, x}
    let g : (Fin obs.length → ℝ) → ℝ := fun v => ∑ i, pinball tau (y i - v i)
    have hloss : ∀ c0 c1, quantLoss tau obs c0 c1 = g fun i => c0 + c1 * x i := by
      intro c0 c1
      unfold quantLoss
      rw [← Fin.sum_univ_getElem]
      simp only [g, x, y]
      refine Fintype.sum_equiv (finCongr (by simp)) _ _ fun i => ?_
      simp
    have hpin : ∀ r, min tau (1 - tau) * |r| ≤ pinball tau r := by
      intro r
      rcases le_total 0 r with h | h
      · rw [pinball_nonneg_arg h, abs_of_nonneg h]
        exact mul_le_mul_of_nonneg_right (min_le_left _ _) h
      · rw [pinball_nonpos_arg h, abs_of_nonpos h]
        have := mul_le_mul_of_nonneg_right (min_le_right tau (1 - tau)) (by linarith : 0 ≤ -r)
        linarith
    have hm : 0 < min tau (1 - tau) := lt_min t0 (by linarith)
    have hcont : Continuous g := by
      have hp : Continuous (pinball tau) := by
        unfold pinball
        refine Continuous.if_le (by fun_prop) (by fun_prop) continuous_const continuous_id ?_
        intro r hr
        rw [← hr]; simp
      exact continuous_finset_sum _ fun i _ => hp.comp (by fun_prop)
    have hg0 : ∀ v, 0 ≤ g v := fun v => Finset.sum_nonneg fun i _ =>
      (mul_nonneg hm.le (abs_nonneg _)).trans (hpin _)
    -- outside a ball the loss is above its value at 0
    let R := ‖y‖ + g 0 / min tau (1 - tau)
    have hR : 0 ≤ R := add_nonneg (norm_nonneg _) (div_nonneg (hg0 0) hm.le)
    have hball : ∀ v, g v ≤ g 0 → v ∈ Metric.closedBall (0 : Fin obs.length → ℝ) R := by
      intro v hv
      rw [mem_closedBall_zero_iff, pi_norm_le_iff_of_nonneg hR]
      intro i
      have h1 : min tau (1 - tau) * |y i - v i| ≤ g 0 :=
        ((hpin _).trans (Finset.single_le_sum (f := fun i => pinball tau (y i - v i))
          (fun j _ => (mul_nonneg hm.le (abs_nonneg _)).trans (hpin _)) (Finset.mem_univ i))).trans hv
      have h2 : |y i - v i| ≤ g 0 / min tau (1 - tau) := by
        rw [le_div_iff₀ hm, mul_comm]; exact h1
      have h3 : ‖y i‖ ≤ ‖y‖ := norm_le_pi_norm y i
      rw [Real.norm_eq_abs] at h3 ⊢
      have h4 : |v i| ≤ |y i| + |y i - v i| := by
        have := abs_sub_abs_le_abs_sub (v i) (y i)
        rw [abs_sub_comm] at this
        linarith
      simp only [R]
      linarith
    have hcomp : IsCompact ((V : Set (Fin obs.length → ℝ)) ∩ Metric.closedBall 0 R) :=
      (isCompact_closedBall 0 R).inter_left V.closed_of_finiteDimensional
    obtain ⟨v, ⟨hvV, -⟩, hvmin⟩ := hcomp.exists_isMinOn ⟨0, V.zero_mem, hball 0 le_rfl⟩ hcont.continuousOn
    obtain ⟨b0, b1, hb⟩ := Submodule.mem_span_pair.mp hvV
    have hmin : ∀ u ∈ V, g v ≤ g u := by
      intro u hu
      by_cases hgu : g u ≤ g 0
      · exact hvmin ⟨hu, hball u hgu⟩
      · have : g v ≤ g 0 := hvmin ⟨V.zero_mem, hball 0 le_rfl⟩
        linarith [not_le.mp hgu]
    refine ⟨⟨b0, b1, 0⟩, fun _ _ c0 c1 => ?_⟩
    rw [hloss, hloss]
    have e : (fun i => b0 + b1 * x i) = v := by
      rw [← hb]; funext i; simp
    dsimp only
    rw [e]
    apply hmin
    exact Submodule.mem_span_pair.mpr ⟨c0, c1, by funext i; simp⟩
  choose f hf using key
  exact ⟨f, fun obs tau h0 h1 => hf obs tau h0 h1⟩

/-- Two values at the same defect, level above one half: the loss is minimal at the larger value only. -/
theorem pinball_pair {tau a b : ℝ} (ht : 1 / 2 < tau) (ht1 : tau < 1) (hab : a < b) (u : ℝ) :
    (1 - tau) * (b - a) ≤ pinball tau (a - u) + pinball tau (b - u) ∧
    (pinball tau (a - u) + pinball tau (b - u) ≤ (1 - tau) * (b - a) → u = b) := by
  rcases le_total u a with h1 | h1
  · rw [pinball_nonneg_arg (by linarith), pinball_nonneg_arg (by linarith)]
    constructor
    · nlinarith
    · intro h; nlinarith
  · rcases le_total u b with h2 | h2
    · rw [pinball_nonpos_arg (by linarith), pinball_nonneg_arg (by linarith)]
      constructor
      · nlinarith
      · intro h
        have : (2 * tau - 1) * (b - u) ≤ 0 := by nlinarith
        have : b - u ≤ 0 := by
          by_contra hh
          push Not at hh
          have := mul_pos (by linarith : 0 < 2 * tau - 1) hh
          linarith
        linarith
    · rw [pinball_nonpos_arg (by linarith), pinball_nonpos_arg (by linarith)]
      constructor
      · nlinarith
      · intro h
        have : (1 - tau) * (u - b) ≤ 0 := by nlinarith
        have : u - b ≤ 0 := by
          by_contra hh
          push Not at hh
          have := mul_pos (by linarith : 0 < 1 - tau) hh
          linarith
        linarith

/-- **C143 violated.**  Four observations with signals on both sides of the threshold, at each defect and with both increasing: for every solver that
computes the exact regression lines and every list of levels with one below one half (the default list has ten of them) the run raises, because at
the defect 0 the upper line is above the threshold. -/
theorem C143_violated {G : Type} (env : QrEnv G) (a b e det : ℝ) (he : 0 < e) (h1 : a + e < det) (h2 : det < b - e)
    (hex : ∀ obs tau, 0 < tau → tau < 1 → QuantRegExact env.quantReg obs tau) (qs : List ℝ) (p : ℝ) (hp : p ∈ qs) (hp0 : 0 < p) (hp1 : p < 1 / 2)
    (bootstraps : List (List (ℝ × ℝ))) (s : QrAttrs G) :
    Raises (qrPodRun env ⟨[(1, a), (1, b), (2, a + e), (2, b + e)], det, none, none, false, false, qs⟩ bootstraps s).1 .runtime := by
  have hab : a < b := by linarith
  have hline : ∀ m : QuantFit, (∀ c0 c1, quantLoss (1 - p) [(1, a), (1, b), (2, a + e), (2, b + e)] m.intercept m.slope
      ≤ quantLoss (1 - p) [(1, a), (1, b), (2, a + e), (2, b + e)] c0 c1) → m.slope = e ∧ m.intercept = b - e := by
    intro m hm
    have h := hm (b - e) e
    simp only [quantLoss, List.map_cons, List.map_nil, List.sum_cons, List.sum_nil, mul_one, add_zero] at h
    obtain ⟨p1, p2⟩ := pinball_pair (tau := 1 - p) (by linarith) (by linarith) hab (m.intercept + m.slope)
    obtain ⟨p3, p4⟩ := pinball_pair (tau := 1 - p) (by linarith) (by linarith) (by linarith : a + e < b + e) (m.intercept + m.slope * 2)
    have q1 : pinball (1 - p) (a - (b - e + e)) = p * (b - a) := by rw [pinball_nonpos_arg (by linarith)]; ring
    have q2 : pinball (1 - p) (b - (b - e + e)) = 0 := by rw [pinball_nonpos_arg (by linarith)]; ring
    have q3 : pinball (1 - p) (a + e - (b - e + e * 2)) = p * (b - a) := by rw [pinball_nonpos_arg (by linarith)]; ring
    have q4 : pinball (1 - p) (b + e - (b - e + e * 2)) = 0 := by rw [pinball_nonpos_arg (by linarith)]; ring
    rw [q1, q2, q3, q4] at h
    have e1 : (1 - (1 - p)) * (b - a) = p * (b - a) := by ring
    have e2 : (1 - (1 - p)) * (b + e - (a + e)) = p * (b - a) := by ring
    rw [e1] at p1 p2
    rw [e2] at p3 p4
    have u1 := p2 (by linarith)
    have u2 := p4 (by linarith)
    constructor <;> linarith
  obtain ⟨hs, hi⟩ := hline _ (hex [(1, a), (1, b), (2, a + e), (2, b + e)] (1 - p) (by linarith) (by linarith))
  have hno : ¬ ∃ ds, qrSolveAll env.pick (env.quantReg [(1, a), (1, b), (2, a + e), (2, b + e)]) det 0 2 qs = .ok ds := by
    rw [qrSolveAll_ok]
    intro hall
    apply hall p hp
    left
    rw [hs, hi]
    constructor <;> linarith
  have hmax : sampleMax [(1 : ℝ), 1, 2, 2] = .ok 2 := by norm_num [sampleMax]
  simp only [qrPodRun, podRun, Bool.false_eq_true, if_false, List.map_cons, List.map_nil, hmax, Option.getD_some]
  cases hq : qrSolveAll env.pick (env.quantReg [(1, a), (1, b), (2, a + e), (2, b + e)]) det 0 2 qs with
  | error er =>
    dsimp only
    rw [qrSolveAll_error hq]
    exact ⟨_, rfl⟩
  | ok ds => exact absurd ⟨ds, hq⟩ hno

/-! ## C144 -/

/-- A step smaller than all positive values of a list. -/
theorem exists_small_step (rs : List ℝ) : ∃ t : ℝ, 0 < t ∧ ∀ r ∈ rs, 0 < r → t ≤ r := by
  induction rs with
  | nil => exact ⟨1, one_pos, by simp⟩
  | cons r rs ih =>
    obtain ⟨t, ht, h⟩ := ih
    by_cases hr : 0 < r
    · refine ⟨min t r, lt_min ht hr, ?_⟩
      intro r' hr' h0
      rcases List.mem_cons.mp hr' with rfl | hm
      · exact min_le_right _ _
      · exact (min_le_left _ _).trans (h r' hm h0)
    · refine ⟨t, ht, ?_⟩
      intro r' hr' h0
      rcases List.mem_cons.mp hr' with rfl | hm
      · exact absurd h0 hr
      · exact h r' hm h0

/-- A line that minimises the loss at level `tau` has at most a share `tau` of the observations strictly below it and at least a share `tau` at or
below it. -/
theorem quantile_share (tau : ℝ) (obs : List (ℝ × ℝ)) (b0 b1 : ℝ) (hmin : ∀ c0 c1, quantLoss tau obs b0 b1 ≤ quantLoss tau obs c0 c1) :
    (obs.countP (fun o => decide (o.2 < b0 + b1 * o.1)) : ℝ) ≤ tau * obs.length ∧
    tau * obs.length ≤ obs.countP (fun o => decide (o.2 ≤ b0 + b1 * o.1)) := by
  constructor
  · obtain ⟨t, ht, hstep⟩ := exists_small_step (obs.map fun o => -(o.2 - (b0 + b1 * o.1)))
    have key : ∀ l : List (ℝ × ℝ), (∀ o ∈ l, 0 < -(o.2 - (b0 + b1 * o.1)) → t ≤ -(o.2 - (b0 + b1 * o.1))) →
        quantLoss tau l (b0 - t) b1 - quantLoss tau l b0 b1
          = t * (tau * l.length - (l.countP (fun o => decide (o.2 < b0 + b1 * o.1)) : ℝ)) := by
      intro l
      induction l with
      | nil => simp [quantLoss]
      | cons o l ih =>
        intro h
        have ih := ih fun o' ho' => h o' (List.mem_cons_of_mem _ ho')
        have ho := h o (by simp)
        unfold quantLoss at ih ⊢
        simp only [List.map_cons, List.sum_cons, List.length_cons, Nat.cast_add, Nat.cast_one]
        rw [List.countP_cons]
        by_cases hlt : o.2 < b0 + b1 * o.1
        · have := ho (by linarith)
          rw [pinball_nonpos_arg (by linarith : o.2 - (b0 - t + b1 * o.1) ≤ 0), pinball_nonpos_arg (by linarith : o.2 - (b0 + b1 * o.1) ≤ 0)]
          simp only [hlt, decide_true, if_true, Nat.cast_add, Nat.cast_one]
          linear_combination ih
        · rw [pinball_nonneg_arg (by linarith : 0 ≤ o.2 - (b0 - t + b1 * o.1)), pinball_nonneg_arg (by linarith : 0 ≤ o.2 - (b0 + b1 * o.1))]
          simp only [hlt, decide_false, Bool.false_eq_true, if_false, add_zero]
          linear_combination ih
    have h1 := key obs (fun o ho => hstep _ (List.mem_map.mpr ⟨o, ho, rfl⟩))
    have h2 := hmin (b0 - t) b1
    have : 0 ≤ t * (tau * obs.length - (obs.countP (fun o => decide (o.2 < b0 + b1 * o.1)) : ℝ)) := by linarith
    have := nonneg_of_mul_nonneg_right this ht
    linarith
  · obtain ⟨t, ht, hstep⟩ := exists_small_step (obs.map fun o => o.2 - (b0 + b1 * o.1))
    have key : ∀ l : List (ℝ × ℝ), (∀ o ∈ l, 0 < o.2 - (b0 + b1 * o.1) → t ≤ o.2 - (b0 + b1 * o.1)) →
        quantLoss tau l (b0 + t) b1 - quantLoss tau l b0 b1
          = t * ((l.countP (fun o => decide (o.2 ≤ b0 + b1 * o.1)) : ℝ) - tau * l.length) := by
      intro l
      induction l with
      | nil => simp [quantLoss]
      | cons o l ih =>
        intro h
        have ih := ih fun o' ho' => h o' (List.mem_cons_of_mem _ ho')
        have ho := h o (by simp)
        unfold quantLoss at ih ⊢
        simp only [List.map_cons, List.sum_cons, List.length_cons, Nat.cast_add, Nat.cast_one]
        rw [List.countP_cons]
        by_cases hle : o.2 ≤ b0 + b1 * o.1
        · rw [pinball_nonpos_arg (by linarith : o.2 - (b0 + t + b1 * o.1) ≤ 0), pinball_nonpos_arg (by linarith : o.2 - (b0 + b1 * o.1) ≤ 0)]
          simp only [hle, decide_true, if_true, Nat.cast_add, Nat.cast_one]
          linear_combination ih
        · have := ho (by linarith)
          rw [pinball_nonneg_arg (by linarith : 0 ≤ o.2 - (b0 + t + b1 * o.1)), pinball_nonneg_arg (by linarith : 0 ≤ o.2 - (b0 + b1 * o.1))]
          simp only [hle, decide_false, Bool.false_eq_true, if_false, add_zero]
          linear_combination ih
    have h1 := key obs (fun o ho => hstep _ (List.mem_map.mpr ⟨o, ho, rfl⟩))
    have h2 := hmin (b0 + t) b1
    have : 0 ≤ t * ((obs.countP (fun o => decide (o.2 ≤ b0 + b1 * o.1)) : ℝ) - tau * obs.length) := by linarith
    have := nonneg_of_mul_nonneg_right this ht
    linarith

/-- The solved defects. -/
theorem qrSolveAll_spec {pick : ℝ → ℝ → ℝ} (hpick : ∀ a b, a ≤ b → a ≤ pick a b ∧ pick a b ≤ b) {fit : ℝ → QuantFit} {det lo hi : ℝ}
    (hlo : lo ≤ hi) {ps ds : List ℝ} (h : qrSolveAll pick fit det lo hi ps = .ok ds) :
    List.Forall₂ (fun d p => lo ≤ d ∧ d ≤ hi ∧ (fit (1 - p)).intercept + (fit (1 - p)).slope * d = det) ds ps := by
  induction ps generalizing ds with
  | nil => simp only [qrSolveAll, Except.ok.injEq] at h; subst h; exact .nil
  | cons p ps ih =>
    rw [qrSolveAll] at h
    cases hb : brentLine pick (qrFitFor fit p) det lo hi with
    | error e => rw [hb] at h; simp at h
    | ok d =>
      rw [hb] at h
      dsimp only at h
      cases hr : qrSolveAll pick fit det lo hi ps with
      | error e => rw [hr] at h; simp at h
      | ok ds' =>
        rw [hr] at h
        simp only [Except.ok.injEq] at h
        subst h
        refine .cons ?_ (ih hr)
        have := (C83_qr_detection_size pick hpick fit det lo hi p hlo).2 d (by rw [qrDetectionSize, hb])
        exact this

/-- **C144.**  After a run with exact regressions, the POD curve is built from the pairs (defect `d`, requested level `p`) such that a line
passes through the threshold at `d`, with at most a share `p` of the signals strictly above it and at least a share `p` at or above it. -/
theorem C144_share {G : Type} (env : QrEnv G) (hpick : ∀ a b, a ≤ b → a ≤ env.pick a b ∧ env.pick a b ≤ b) (d : QrData)
    (hex : ∀ obs tau, 0 < tau → tau < 1 → QuantRegExact env.quantReg obs tau) (hqs : ∀ p ∈ d.quantiles, 0 < p ∧ p < 1) (bootstraps : List (List (ℝ × ℝ))) (s s' : QrAttrs G)
    (hpos : ∀ o ∈ d.obs, 0 ≤ o.1) (hrun : qrPodRun env d bootstraps s = (.ok (), s')) :
    ∃ obs det mx ds f, s'.data = some (obs, det) ∧ s'.pod = some f ∧ qrCurve ds d.quantiles mx = .ok f ∧
      List.Forall₂ (fun x p => 0 ≤ x ∧ x ≤ mx ∧ ∃ b0 b1 : ℝ, b0 + b1 * x = det ∧
        (obs.countP (fun o => decide (b0 + b1 * o.1 < o.2)) : ℝ) ≤ p * obs.length ∧
        p * obs.length ≤ obs.countP (fun o => decide (b0 + b1 * o.1 ≤ o.2))) ds d.quantiles := by
  unfold qrPodRun at hrun
  cases hp : podRun env.fmax env.boxCox d.obs (some d.detection) d.noise d.sat d.boxCox d.censored s.bc with
  | mk res bc =>
    rw [hp] at hrun
    cases res with
    | error e => simp at hrun
    | ok r =>
      dsimp only at hrun
      cases hm : sampleMax (r.obs.map Prod.fst) with
      | error e => rw [hm] at hrun; simp at hrun
      | ok mx =>
        rw [hm] at hrun
        dsimp only at hrun
        cases hq : qrSolveAll env.pick (env.quantReg r.obs) (r.detection.getD 0) 0 mx d.quantiles with
        | error e => rw [hq] at hrun; simp at hrun
        | ok ds =>
          rw [hq] at hrun
          dsimp only at hrun
          cases hc : qrCurve ds d.quantiles mx with
          | error e => rw [hc] at hrun; simp at hrun
          | ok f =>
            rw [hc] at hrun
            dsimp only at hrun
            obtain ⟨-, hb2, hb3⟩ := qrBootstrap_ok env d bootstraps.length bootstraps []
              (⟨bc, some (r.obs, r.detection.getD 0), some f,
                some (List.replicate bootstraps.length (List.replicate d.quantiles.length 0))⟩ : QrAttrs G)
            rw [hrun] at hb2 hb3
            refine ⟨r.obs, r.detection.getD 0, mx, ds, f, hb3, hb2, hc, ?_⟩
            have hmx : 0 ≤ mx := by
              have hmem := (sampleMax_spec hm).1
              obtain ⟨d', -, -, hmap⟩ := C14_run_preserves_decisions env.fmax env.boxCox d.obs d.detection d.noise d.sat d.boxCox d.censored
                s.bc bc r hp
              have hfst : r.obs.map Prod.fst = (if d.censored then uncensoredObs env.fmax d.obs d.noise d.sat else d.obs).map Prod.fst := by
                have := congrArg (List.map Prod.fst) hmap
                simpa [List.map_map, Function.comp_def] using this
              rw [hfst] at hmem
              obtain ⟨o, ho, rfl⟩ := List.mem_map.mp hmem
              apply hpos o
              split_ifs at ho with hcens
              · exact (List.mem_filter.mp ho).1
              · exact ho
            have hspec := qrSolveAll_spec hpick hmx hq
            rw [List.forall₂_iff_get] at hspec ⊢
            refine ⟨hspec.1, fun i h1 h2 => ?_⟩
            have hx := hspec.2 i h1 h2
            generalize hx' : ds.get ⟨i, h1⟩ = x at hx ⊢
            have hpm : d.quantiles.get ⟨i, h2⟩ ∈ d.quantiles := List.get_mem _ _
            generalize d.quantiles.get ⟨i, h2⟩ = p at hx hpm ⊢
            refine ⟨hx.1, hx.2.1, _, _, hx.2.2, ?_⟩
            obtain ⟨hp0, hp1⟩ := hqs p hpm
            obtain ⟨q1, q2⟩ := quantile_share (1 - p) r.obs _ _ (hex r.obs (1 - p) (by linarith) (by linarith))
            set m := env.quantReg r.obs (1 - p) with hmdef
            have c1 : (r.obs.length : ℝ) = r.obs.countP (fun o => decide (o.2 ≤ m.intercept + m.slope * o.1))
                + r.obs.countP (fun o => decide (m.intercept + m.slope * o.1 < o.2)) := by
              have := List.length_eq_countP_add_countP (fun o : ℝ × ℝ => decide (o.2 ≤ m.intercept + m.slope * o.1)) (l := r.obs)
              rw [this]
              push_cast
              congr 2
              apply List.countP_congr
              intro o _
              simp
            have c2 : (r.obs.length : ℝ) = r.obs.countP (fun o => decide (o.2 < m.intercept + m.slope * o.1))
                + r.obs.countP (fun o => decide (m.intercept + m.slope * o.1 ≤ o.2)) := by
              have := List.length_eq_countP_add_countP (fun o : ℝ × ℝ => decide (o.2 < m.intercept + m.slope * o.1)) (l := r.obs)
              rw [this]
              push_cast
              congr 2
              apply List.countP_congr
              intro o _
              simp
            constructor <;> linarith

/-! ## C145 -/

theorem interpGo_scale {k : ℝ} (hk : 0 < k) (pts : List (ℝ × ℝ)) (t : ℝ) :
    interpGo (pts.map fun p => (k * p.1, p.2)) (k * t) = interpGo pts t := by
  induction pts with
  | nil => rfl
  | cons p pts ih =>
    cases pts with
    | nil => rfl
    | cons q pts =>
      simp only [List.map_cons, interpGo] at ih ⊢
      simp only [mul_lt_mul_iff_right₀ hk]
      rw [← mul_sub, ← mul_sub, ih]
      split_ifs
      · rw [← div_div, div_right_comm, mul_comm k (t - p.1), ← mul_assoc, mul_comm ((q.2 - p.2) / (q.1 - p.1) / k), mul_assoc,
          div_mul_cancel₀ _ hk.ne', mul_comm]
      · rfl

theorem interp1d_scale {k : ℝ} (hk : 0 < k) {xs ys : List ℝ} {f : ℝ → Res ℝ} (h : interp1d xs ys = .ok f) :
    ∃ f', interp1d (xs.map (k * ·)) ys = .ok f' ∧ ∀ t, f' (k * t) = f t := by
  rw [interp1d] at h
  split_ifs at h with hlen
  rw [Except.ok.injEq] at h
  subst h
  refine ⟨_, by rw [interp1d, if_pos (by simpa using hlen)], fun t => ?_⟩
  have hzip : (xs.map (k * ·)).zip ys = (xs.zip ys).map fun p => (k * p.1, p.2) := by
    rw [List.zip_map_left]
    rfl
  have hsort : sortPts ((xs.zip ys).map fun p => (k * p.1, p.2)) = (sortPts (xs.zip ys)).map fun p => (k * p.1, p.2) := by
    unfold sortPts
    rw [List.map_mergeSort]
    intro a _ b _
    simp only [decide_eq_decide]
    exact (mul_le_mul_iff_right₀ hk).symm
  rw [hzip, hsort]
  generalize sortPts (xs.zip ys) = pts
  cases pts with
  | nil => rfl
  | cons p pts =>
    have hlast : ∀ (l : List (ℝ × ℝ)) (hne : l ≠ []),
        ((l.map fun p : ℝ × ℝ => (k * p.1, p.2)).getLast (by simpa using hne)).1 = k * (l.getLast hne).1 := by
      intro l hne
      rw [List.getLast_map]
    have h1 := hlast (p :: pts) (by simp)
    have h2 := interpGo_scale hk (p :: pts) t
    simp only [List.map_cons] at h1 h2 ⊢
    rw [interpEval, interpEval, h1, h2]
    simp only [mul_lt_mul_iff_right₀ hk]

/-- The loss in other units of measurement. -/
theorem quantLoss_scale (tau : ℝ) (obs : List (ℝ × ℝ)) {k c : ℝ} (hk : 0 < k) (hc : 0 < c) (e b0 b1 : ℝ) :
    quantLoss tau (obs.map fun o => (k * o.1, c * o.2 + e)) (c * b0 + e) (c * b1 / k) = c * quantLoss tau obs b0 b1 := by
  unfold quantLoss
  rw [List.map_map, ← List.sum_map_mul_left]
  congr 1
  apply List.map_congr_left
  intro o _
  simp only [Function.comp]
  have : c * o.2 + e - (c * b0 + e + c * b1 / k * (k * o.1)) = c * (o.2 - (b0 + b1 * o.1)) := by
    field_simp
    ring
  rw [this]
  rcases le_total 0 (o.2 - (b0 + b1 * o.1)) with h | h
  · rw [pinball_nonneg_arg h, pinball_nonneg_arg (by positivity)]; ring
  · rw [pinball_nonpos_arg h, pinball_nonpos_arg (mul_nonpos_of_nonneg_of_nonpos hc.le h)]; ring

/-- There is only one best line, and it is not horizontal. -/
def UniqueLine (tau : ℝ) (obs : List (ℝ × ℝ)) : Prop :=
  ∀ b0 b1 b0' b1', (∀ c0 c1, quantLoss tau obs b0 b1 ≤ quantLoss tau obs c0 c1) →
    (∀ c0 c1, quantLoss tau obs b0' b1' ≤ quantLoss tau obs c0 c1) → b0 = b0' ∧ b1 = b1' ∧ b1 ≠ 0

/-- The best line in other units. -/
theorem line_scale (quantReg : List (ℝ × ℝ) → ℝ → QuantFit) (tau : ℝ) (obs : List (ℝ × ℝ)) {k c : ℝ} (hk : 0 < k) (hc : 0 < c) (e : ℝ)
    (h1 : QuantRegExact quantReg obs tau) (h2 : QuantRegExact quantReg (obs.map fun o => (k * o.1, c * o.2 + e)) tau)
    (hu : UniqueLine tau obs) :
    (quantReg (obs.map fun o => (k * o.1, c * o.2 + e)) tau).intercept = c * (quantReg obs tau).intercept + e ∧
    (quantReg (obs.map fun o => (k * o.1, c * o.2 + e)) tau).slope = c * (quantReg obs tau).slope / k ∧
    (quantReg obs tau).slope ≠ 0 := by
  set m := quantReg (obs.map fun o => (k * o.1, c * o.2 + e)) tau with hm
  have e0 : c * ((m.intercept - e) / c) + e = m.intercept := by field_simp; ring
  have e1 : c * (m.slope * k / c) / k = m.slope := by field_simp
  have hmin : ∀ c0 c1, quantLoss tau obs ((m.intercept - e) / c) (m.slope * k / c) ≤ quantLoss tau obs c0 c1 := by
    intro c0 c1
    have h := h2 (c * c0 + e) (c * c1 / k)
    rw [← hm] at h
    rw [quantLoss_scale tau obs hk hc] at h
    rw [← e0, ← e1, quantLoss_scale tau obs hk hc] at h
    exact le_of_mul_le_mul_left h hc
  obtain ⟨u0, u1, u2⟩ := hu _ _ _ _ h1 hmin
  refine ⟨?_, ?_, u2⟩
  · rw [u0, e0]
  · rw [u1, e1]

theorem brentLine_scale (pick : ℝ → ℝ → ℝ) (m m' : QuantFit) {k c : ℝ} (hk : 0 < k) (hc : 0 < c) (e det lo hi : ℝ)
    (h0 : m'.intercept = c * m.intercept + e) (h1 : m'.slope = c * m.slope / k) (hs : m.slope ≠ 0) :
    brentLine pick m' (c * det + e) (k * lo) (k * hi) = (brentLine pick m det lo hi).map (k * ·) := by
  unfold brentLine
  have a1 : ∀ x, m'.intercept + m'.slope * (k * x) - (c * det + e) = c * (m.intercept + m.slope * x - det) := by
    intro x
    rw [h0, h1]
    field_simp
    ring
  have hs' : m'.slope ≠ 0 := by rw [h1]; exact div_ne_zero (mul_ne_zero hc.ne' hs) hk.ne'
  have a2 : 0 < (m'.intercept + m'.slope * (k * lo) - (c * det + e)) * (m'.intercept + m'.slope * (k * hi) - (c * det + e)) ↔
      0 < (m.intercept + m.slope * lo - det) * (m.intercept + m.slope * hi - det) := by
    rw [a1, a1]
    have : c * (m.intercept + m.slope * lo - det) * (c * (m.intercept + m.slope * hi - det))
        = c * c * ((m.intercept + m.slope * lo - det) * (m.intercept + m.slope * hi - det)) := by ring
    rw [this]
    exact mul_pos_iff_of_pos_left (mul_pos hc hc)
  rw [if_neg hs, if_neg hs']
  split_ifs with g1 g2 g2
  · rfl
  · exact absurd (a2.mp g1) g2
  · exact absurd (a2.mpr g2) g1
  · simp only [Except.map, Except.ok.injEq]
    rw [h0, h1]
    field_simp
    ring

theorem qrSolveAll_scale (pick : ℝ → ℝ → ℝ) (fit fit' : ℝ → QuantFit) {k c : ℝ} (hk : 0 < k) (hc : 0 < c) (e det lo hi : ℝ) (ps : List ℝ)
    (h : ∀ p ∈ ps, (fit' (1 - p)).intercept = c * (fit (1 - p)).intercept + e ∧ (fit' (1 - p)).slope = c * (fit (1 - p)).slope / k ∧
      (fit (1 - p)).slope ≠ 0) :
    qrSolveAll pick fit' (c * det + e) (k * lo) (k * hi) ps = (qrSolveAll pick fit det lo hi ps).map (List.map (k * ·)) := by
  induction ps with
  | nil => rfl
  | cons p ps ih =>
    obtain ⟨g0, g1, g2⟩ := h p (by simp)
    rw [qrSolveAll, qrSolveAll, ih fun q hq => h q (List.mem_cons_of_mem _ hq)]
    unfold qrFitFor
    rw [brentLine_scale pick _ _ hk hc e det lo hi g0 g1 g2]
    cases brentLine pick (fit (1 - p)) det lo hi with
    | error er => rfl
    | ok x =>
      cases qrSolveAll pick fit det lo hi ps with
      | error er => rfl
      | ok xs => rfl

theorem sampleMax_scale {k : ℝ} (hk : 0 < k) {xs : List ℝ} {mx : ℝ} (h : sampleMax xs = .ok mx) :
    sampleMax (xs.map (k * ·)) = .ok (k * mx) := by
  have hne : xs.map (k * ·) ≠ [] := by
    rintro h0
    rw [List.map_eq_nil_iff] at h0
    subst h0
    simp [sampleMax] at h
  obtain ⟨hm, hub⟩ := sampleMax_spec h
  obtain ⟨m', hm'⟩ : ∃ m', sampleMax (xs.map (k * ·)) = .ok m' := by
    cases hx : xs.map (k * ·) with
    | nil => exact absurd hx hne
    | cons a l => exact ⟨_, rfl⟩
  obtain ⟨hm2, hub2⟩ := sampleMax_spec hm'
  rw [hm', Except.ok.injEq]
  apply le_antisymm
  · obtain ⟨x, hx, hxe⟩ := List.mem_map.mp hm2
    rw [← hxe]
    exact mul_le_mul_of_nonneg_left (hub hx) hk.le
  · exact hub2 (List.mem_map.mpr ⟨mx, hm, rfl⟩)

/-- **C145.**  Quantile regression without Box-Cox and censoring: multiply the defects by `k > 0` and replace each signal and the threshold `y` by
`c y + e`, `c > 0`.  When the regression lines are unique and not horizontal, the POD curve of the run is the former one with the unit of the
defects changed, and the detection sizes are multiplied by `k`; a level that had none has none. -/
theorem C145_units {G : Type} (env : QrEnv G) (hex : ∀ obs tau, 0 < tau → tau < 1 → QuantRegExact env.quantReg obs tau)
    (obs : List (ℝ × ℝ)) (det : ℝ) (qs : List ℝ) (hqs : ∀ p ∈ qs, 0 < p ∧ p < 1) (k c e : ℝ) (hk : 0 < k) (hc : 0 < c)
    (hu : ∀ p ∈ qs, UniqueLine (1 - p) obs) (bootstraps bootstraps' : List (List (ℝ × ℝ))) (s s' : QrAttrs G) :
    let obs' := obs.map fun o => (k * o.1, c * o.2 + e)
    let t := (qrPodRun env ⟨obs, det, none, none, false, false, qs⟩ bootstraps { s with pod := none }).2
    let t' := (qrPodRun env ⟨obs', c * det + e, none, none, false, false, qs⟩ bootstraps' { s' with pod := none }).2
    (∀ f, t.pod = some f → ∃ f', t'.pod = some f' ∧ ∀ x, f' (k * x) = f x) ∧
    (∀ p lo hi, 0 < p → p < 1 → UniqueLine (1 - p) obs → qrDetectionSize env.pick (env.quantReg obs') (c * det + e) (k * lo) (k * hi) p
      = (qrDetectionSize env.pick (env.quantReg obs) det lo hi p).map (k * ·)) := by
  intro obs' t t'
  have hl : ∀ tau, 0 < tau → tau < 1 → UniqueLine tau obs → (env.quantReg obs' tau).intercept = c * (env.quantReg obs tau).intercept + e ∧
      (env.quantReg obs' tau).slope = c * (env.quantReg obs tau).slope / k ∧ (env.quantReg obs tau).slope ≠ 0 := fun tau h0 h1 hu =>
    line_scale env.quantReg tau obs hk hc e (hex _ _ h0 h1) (hex _ _ h0 h1) hu
  constructor
  · intro f hf
    simp only [t, t', qrPodRun, podRun, Bool.false_eq_true, if_false, Option.getD_some] at hf ⊢
    have hmap : obs'.map Prod.fst = (obs.map Prod.fst).map (k * ·) := by
      simp [obs', List.map_map, Function.comp_def]
    cases hm : sampleMax (obs.map Prod.fst) with
    | error er => rw [hm] at hf; simp at hf
    | ok mx =>
      have hm' := sampleMax_scale hk hm
      rw [← hmap] at hm'
      rw [hm] at hf
      rw [hm']
      dsimp only at hf ⊢
      have hsolve := qrSolveAll_scale env.pick (env.quantReg obs) (env.quantReg obs') hk hc e det 0 mx qs fun p hp => by
        obtain ⟨p0, p1⟩ := hqs p hp
        exact hl (1 - p) (by linarith) (by linarith) (hu p hp)
      rw [mul_zero] at hsolve
      rw [hsolve]
      cases hq : qrSolveAll env.pick (env.quantReg obs) det 0 mx qs with
      | error er => rw [hq] at hf; simp at hf
      | ok ds =>
        rw [hq] at hf
        simp only [Except.map] at hf ⊢
        cases hcv : qrCurve ds qs mx with
        | error er => rw [hcv] at hf; simp at hf
        | ok g =>
          rw [hcv] at hf
          dsimp only at hf
          rw [(qrBootstrap_ok env _ _ _ _ _).2.1] at hf
          simp only [Option.some.injEq] at hf
          subst hf
          obtain ⟨g', hg', hgs⟩ := interp1d_scale hk hcv
          have hcv' : qrCurve (ds.map (k * ·)) qs (k * mx) = .ok g' := by
            rw [qrCurve, ← hg']
            simp
          rw [hcv']
          dsimp only
          rw [(qrBootstrap_ok env _ _ _ _ _).2.1]
          exact ⟨g', rfl, hgs⟩
  · intro p lo hi p0 p1 hup
    obtain ⟨g0, g1, g2⟩ := hl (1 - p) (by linarith) (by linarith) hup
    unfold qrDetectionSize qrFitFor
    rw [brentLine_scale env.pick _ _ hk hc e det lo hi g0 g1 g2]
    cases brentLine env.pick (env.quantReg obs (1 - p)) det lo hi with
    | error er => rfl
    | ok x => rfl

/-! ## Examples: two observations on a line -/

theorem diag_line {tau : ℝ} (h0 : 0 < tau) (h1 : tau < 1) {b0 b1 : ℝ}
    (hmin : ∀ c0 c1, quantLoss tau [(0, 0), (1, 1)] b0 b1 ≤ quantLoss tau [(0, 0), (1, 1)] c0 c1) : b0 = 0 ∧ b1 = 1 := by
  have h := hmin 0 1
  simp only [quantLoss, List.map_cons, List.map_nil, List.sum_cons, List.sum_nil, mul_zero, mul_one, add_zero, zero_add, sub_self] at h
  rw [pinball_nonneg_arg le_rfl] at h
  have pos : ∀ r : ℝ, 0 ≤ pinball tau r ∧ (pinball tau r ≤ 0 → r = 0) := by
    intro r
    rcases le_total 0 r with g | g
    · rw [pinball_nonneg_arg g]
      refine ⟨by positivity, fun hh => ?_⟩
      by_contra hne
      have : 0 < tau * r := mul_pos h0 (lt_of_le_of_ne g (Ne.symm hne))
      linarith
    · rw [pinball_nonpos_arg g]
      refine ⟨mul_nonneg_of_nonpos_of_nonpos (by linarith) g, fun hh => ?_⟩
      by_contra hne
      have : 0 < (tau - 1) * r := mul_pos_of_neg_of_neg (by linarith) (lt_of_le_of_ne g hne)
      linarith
  have u := (pos (0 - b0)).2 (by linarith [(pos (1 - (b0 + b1))).1])
  have v := (pos (1 - (b0 + b1))).2 (by linarith [(pos (0 - b0)).1])
  constructor <;> linarith

theorem diag_unique {tau : ℝ} (h0 : 0 < tau) (h1 : tau < 1) : UniqueLine tau [(0, 0), (1, 1)] := by
  intro b0 b1 b0' b1' h h'
  obtain ⟨r1, r2⟩ := diag_line h0 h1 h
  obtain ⟨r3, r4⟩ := diag_line h0 h1 h'
  rw [r1, r2, r3, r4]
  norm_num

/-- Exact regressions in an environment, and a successful run in it with a bootstrap sample. -/
theorem qrExample : ∃ env : QrEnv Unit, (∀ obs tau, 0 < tau → tau < 1 → QuantRegExact env.quantReg obs tau) ∧
    (∀ a b, a ≤ b → a ≤ env.pick a b ∧ env.pick a b ≤ b) ∧
    (qrPodRun env ⟨[(0, 0), (1, 1)], 1 / 2, none, none, false, false, [1 / 2]⟩ [[(0, 0), (1, 1)]] ⟨⟨none, none⟩, none, none, none⟩).1 = .ok () := by
  obtain ⟨quantReg, hq⟩ := quantReg_exists
  refine ⟨⟨fun _ _ _ => .error ⟨.runtime, ""⟩, quantReg, fun a _ => a, 10⟩, hq, fun a b h => ⟨le_rfl, h⟩, ?_⟩
  have hmax : sampleMax [(0 : ℝ), 1] = .ok 1 := by norm_num [sampleMax]
  obtain ⟨e0, e1⟩ := diag_line (by norm_num) (by norm_num) (hq [(0, 0), (1, 1)] (1 - 1 / 2) (by norm_num) (by norm_num))
  refine (C143_run_iff_partial _ _ _ _).1.mpr ⟨⟨⟨[(0, 0), (1, 1)], 0, some (1 / 2), none⟩, 1, rfl, hmax, ?_⟩, ?_⟩
  · intro p hp
    rw [List.mem_singleton] at hp
    subst hp
    dsimp only
    rw [LineMeets, e0, e1]
    norm_num
  · intro b hb
    rw [List.mem_singleton] at hb
    subst hb
    refine ⟨⟨[(0, 0), (1, 1)], 0, some (1 / 2), none⟩, 1, rfl, hmax, ?_⟩
    intro p hp
    rw [List.mem_singleton] at hp
    subst hp
    dsimp only
    rw [LineMeets, e0, e1]
    norm_num

/-- The hypotheses of C143 (violated) are met by the observations (1, 0), (1, 10), (2, 1), (2, 11), the threshold 5 and the default levels. -/
example : ∃ env : QrEnv Unit, Raises (qrPodRun env ⟨[(1, 0), (1, 10), (2, 0 + 1), (2, 10 + 1)], 5, none, none, false, false, [1 / 20, 1 / 2]⟩
    [] ⟨⟨none, none⟩, none, none, none⟩).1 .runtime := by
  obtain ⟨env, h, -⟩ := qrExample
  exact ⟨env, C143_violated env 0 10 1 5 (by norm_num) (by norm_num) (by norm_num) h _ (1 / 20) (by simp) (by norm_num) (by norm_num) _ _⟩

/-- A run as in C144. -/
example : ∃ (env : QrEnv Unit) (s' : QrAttrs Unit) (obs : List (ℝ × ℝ)) (det : ℝ), s'.data = some (obs, det) ∧
    qrPodRun env ⟨[(0, 0), (1, 1)], 1 / 2, none, none, false, false, [1 / 2]⟩ [[(0, 0), (1, 1)]] ⟨⟨none, none⟩, none, none, none⟩ = (.ok (), s') := by
  obtain ⟨env, hex, hpick, hrun⟩ := qrExample
  have hrun' : qrPodRun env ⟨[(0, 0), (1, 1)], 1 / 2, none, none, false, false, [1 / 2]⟩ [[(0, 0), (1, 1)]] ⟨⟨none, none⟩, none, none, none⟩
      = (.ok (), _) := Prod.ext hrun rfl
  obtain ⟨obs, det, -, -, -, hd, -⟩ := C144_share env hpick _ hex (by
    intro p hp; simp only [List.mem_singleton] at hp; subst hp; norm_num) _ _ _ (by
    intro o ho
    simp only [List.mem_cons, List.not_mem_nil, or_false] at ho
    rcases ho with rfl | rfl <;> norm_num) hrun'
  exact ⟨env, _, obs, det, hd, hrun'⟩

/-- The same two observations with the defects in other units (times 25) and the signals `3 y + 2`. -/
example : ∃ (env : QrEnv Unit) (f f' : ℝ → Res ℝ),
    (qrPodRun env ⟨[(0, 0), (1, 1)], 1 / 2, none, none, false, false, [1 / 2]⟩ [[(0, 0), (1, 1)]] ⟨⟨none, none⟩, none, none, none⟩).2.pod = some f ∧
    (qrPodRun env ⟨[(25 * 0, 3 * 0 + 2), (25 * 1, 3 * 1 + 2)], 3 * (1 / 2) + 2, none, none, false, false, [1 / 2]⟩ [] ⟨⟨none, none⟩, none, none, none⟩).2.pod
      = some f' ∧ ∀ x, f' (25 * x) = f x := by
  obtain ⟨env, hex, hpick, hrun⟩ := qrExample
  have hrun' : qrPodRun env ⟨[(0, 0), (1, 1)], 1 / 2, none, none, false, false, [1 / 2]⟩ [[(0, 0), (1, 1)]] ⟨⟨none, none⟩, none, none, none⟩
      = (.ok (), _) := Prod.ext hrun rfl
  have hq : ∀ p ∈ [(1 / 2 : ℝ)], 0 < p ∧ p < 1 := by
    intro p hp; simp only [List.mem_singleton] at hp; subst hp; norm_num
  obtain ⟨obs, det, -, -, f, -, hf, -⟩ := C144_share env hpick _ hex hq _ _ _ (by
    intro o ho
    simp only [List.mem_cons, List.not_mem_nil, or_false] at ho
    rcases ho with rfl | rfl <;> norm_num) hrun'
  obtain ⟨f', h1, h2⟩ := (C145_units env hex [(0, 0), (1, 1)] (1 / 2) [1 / 2] hq 25 3 2 (by norm_num) (by norm_num) (by
    intro p hp; exact diag_unique (by linarith [(hq p hp).2]) (by linarith [(hq p hp).1])) [[(0, 0), (1, 1)]] []
    ⟨⟨none, none⟩, none, none, none⟩ ⟨⟨none, none⟩, none, none, none⟩).1 f hf
  exact ⟨env, f, f', hf, h1, h2⟩

end Verif.Props
