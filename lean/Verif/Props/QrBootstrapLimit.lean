import Verif.Model.QrConfidence
import Verif.Props.QrRun
import Verif.Props.BootstrapLimit

/-!
# C213: the confidence curve of the quantile regression when the number of simulations grows
-/

namespace Verif.Props
open Verif.Py Verif.Model MeasureTheory ProbabilityTheory Filter Topology

/-- The row computed for a resample: for each level the size at which the line fitted on the resample meets the threshold. -/
def QrRow {G : Type} (env : QrEnv G) (d : QrData) (obs : List (ℝ × ℝ)) (ds : List ℝ) : Prop :=
  ∃ r mx, (podRun env.fmax env.boxCox obs (some d.detection) d.noise d.sat d.boxCox d.censored ⟨none, none⟩).1 = .ok r ∧
    sampleMax (r.obs.map Prod.fst) = .ok mx ∧
    List.Forall₂ (fun p x => brentLine env.pick (env.quantReg r.obs (1 - p)) (r.detection.getD 0) (-env.fmax) mx = .ok x) d.quantiles ds

theorem qrSolveAll_iff (pick : ℝ → ℝ → ℝ) (fit : ℝ → QuantFit) (det lo hi : ℝ) (ps ds : List ℝ) :
    qrSolveAll pick fit det lo hi ps = .ok ds ↔ List.Forall₂ (fun p x => brentLine pick (fit (1 - p)) det lo hi = .ok x) ps ds := by
  induction ps generalizing ds with
  | nil => simp [qrSolveAll, eq_comm]
  | cons p ps ih =>
    rw [qrSolveAll]
    constructor
    · intro h
      split at h
      · cases h
      · rename_i x hx
        split at h
        · cases h
        · rename_i xs hxs
          rw [Except.ok.injEq] at h
          subst h
          exact .cons hx ((ih xs).1 hxs)
    · intro h
      cases h with
      | cons hx hxs =>
        have hx' : brentLine pick (qrFitFor fit p) det lo hi = _ := hx
        rw [hx', (ih _).2 hxs]

theorem qrBootstrap_rows {G : Type} (env : QrEnv G) (d : QrData) (nSim : ℕ) (bs : List (List (ℝ × ℝ))) (rs : List (List ℝ))
    (h : List.Forall₂ (QrRow env d) bs rs) (done : List (List ℝ)) (s : QrAttrs G) (hn : nSim = done.length + bs.length)
    (hs : s.rows = some (done ++ List.replicate bs.length (List.replicate d.quantiles.length 0))) :
    (qrBootstrap env d nSim bs done s).1 = .ok () ∧ (qrBootstrap env d nSim bs done s).2.rows = some (done ++ rs) := by
  induction h generalizing done s with
  | nil => exact ⟨by rw [qrBootstrap], by rw [qrBootstrap]; simpa using hs⟩
  | @cons b row bs rs hb _ ih =>
    obtain ⟨r, mx, h1, h2, h3⟩ := hb
    rw [qrBootstrap]
    have hf := podRun_fst env.fmax env.boxCox b (some d.detection) d.noise d.sat d.boxCox d.censored s.bc ⟨none, none⟩
    rw [h1] at hf
    cases hp : podRun env.fmax env.boxCox b (some d.detection) d.noise d.sat d.boxCox d.censored s.bc with
    | mk res bc =>
      rw [hp] at hf
      dsimp only at hf
      subst hf
      dsimp only
      rw [h2]
      dsimp only
      rw [(qrSolveAll_iff _ _ _ _ _ _ _).2 h3]
      dsimp only
      have := ih (done ++ [row]) { s with bc := bc, rows := some ((done ++ [row]) ++ List.replicate (nSim - (done ++ [row]).length)
        (List.replicate d.quantiles.length 0)) } (by rw [hn]; simp; omega) (by
          have : nSim - (done ++ [row]).length = bs.length := by rw [hn]; simp; omega
          rw [this])
      simpa using this

variable {Ω : Type} [MeasurableSpace Ω]

/-- **C213 (restricted), limit of the confidence curve.**  When the run works on the data and on each of the `n ^ n` resamples, `boot j` being the
sizes of the resample `j`: almost surely, for each confidence level `c` for which `c * n ^ n` is no integer, all runs with enough simulations
have the same confidence curve, the interpolation of the exact quantiles of order `c` of the sizes of the `n ^ n` resamples.  Missing: the claim wants
no hypothesis on the resamples. -/
theorem C213_curve_partial {G : Type} (env : QrEnv G) (d : QrData) (hne : d.obs ≠ []) (boot : (Fin d.obs.length → Fin d.obs.length) → List ℝ)
    (hboot : ∀ j, QrRow env d (resampleOf d.obs j) (boot j)) (hmain : QrSolvable env d d.obs 0)
    (Q : Measure Ω) [IsProbabilityMeasure Q] (idx : ℕ → Ω → Fin d.obs.length → Fin d.obs.length) (hm : ∀ k, Measurable (idx k))
    (hu : ∀ k j, Q.real (idx k ⁻¹' {j}) = 1 / (d.obs.length : ℝ) ^ d.obs.length) (hi : iIndepFun idx Q) (s : QrAttrs G) :
    ∀ᵐ ω ∂Q, ∀ c, 0 < c → c < 1 → (∀ m : ℕ, (m : ℝ) ≠ c * (d.obs.length : ℝ) ^ d.obs.length) →
      ∃ (V : List ℝ) (r : RunResult ℝ) (mx : ℝ) (g : ℝ → Res ℝ), V.length = d.quantiles.length ∧
        (∀ k, k < V.length → ((Finset.univ.filter fun j => (boot j).getD k 0 < V.getD k 0).card : ℝ) < c * (d.obs.length : ℝ) ^ d.obs.length ∧
          c * (d.obs.length : ℝ) ^ d.obs.length < ((Finset.univ.filter fun j => (boot j).getD k 0 ≤ V.getD k 0).card : ℝ)) ∧
        (podRun env.fmax env.boxCox d.obs (some d.detection) d.noise d.sat d.boxCox d.censored ⟨none, none⟩).1 = .ok r ∧
        sampleMax (r.obs.map Prod.fst) = .ok mx ∧ qrCurve V d.quantiles mx = .ok g ∧
        ∀ᶠ M : ℕ in atTop, ∃ s', qrPodRun env d ((List.range M).map fun k => resampleOf d.obs (idx k ω)) s = (.ok (), s') ∧
          qrGetPODCL s' d.quantiles c = .ok g := by
  classical
  have hn : 0 < d.obs.length := List.length_pos_iff.mpr hne
  have : Nonempty (Fin d.obs.length) := ⟨⟨0, hn⟩⟩
  have hcard : (Fintype.card (Fin d.obs.length → Fin d.obs.length) : ℝ) = (d.obs.length : ℝ) ^ d.obs.length := by
    rw [Fintype.card_fun, Fintype.card_fin]; push_cast; rfl
  obtain ⟨r, mx, hr, hmx, hlm⟩ := hmain
  rw [← hcard] at hu ⊢
  have hlen : ∀ j, (boot j).length = d.quantiles.length := fun j => by
    obtain ⟨_, _, _, _, h⟩ := hboot j
    exact h.length_eq.symm
  filter_upwards [shares_uniform Q idx hm hu hi] with ω hω c hc0 hc1 hint
  have hN1 : (0 : ℝ) < Fintype.card (Fin d.obs.length → Fin d.obs.length) := by exact_mod_cast Fintype.card_pos
  have hex : ∀ k : ℕ, ∃ v, ((Finset.univ.filter fun j => (boot j).getD k 0 < v).card : ℝ) < c * Fintype.card (Fin d.obs.length → Fin d.obs.length) ∧
      c * Fintype.card (Fin d.obs.length → Fin d.obs.length) < ((Finset.univ.filter fun j => (boot j).getD k 0 ≤ v).card : ℝ) := fun k =>
    exists_quantile (fun j => (boot j).getD k 0) _ (mul_pos hc0 hN1) (by nlinarith) (by rw [hcard] at hint ⊢; exact hint)
  choose v hv1 hv2 using hex
  let V := (List.range d.quantiles.length).map v
  have hVl : V.length = d.quantiles.length := by simp [V]
  have hVk : ∀ k, k < V.length → V.getD k 0 = v k := fun k hk => by
    rw [hVl] at hk
    rw [List.getD_eq_getElem?_getD]
    simp [V, hk]
  obtain ⟨g, hg⟩ : ∃ g, qrCurve V d.quantiles mx = .ok g := by
    rw [qrCurve, interp1d, if_pos (by simp [hVl])]
    exact ⟨_, rfl⟩
  refine ⟨V, r, mx, g, hVl, fun k hk => ?_, hr, hmx, hg, ?_⟩
  · rw [hVk k hk]; exact ⟨hv1 k, hv2 k⟩
  filter_upwards [counts_margin (fun k => idx k ω) hω c, eventually_gt_atTop 0] with M hM hM0
  let bs := (List.range M).map fun k => resampleOf d.obs (idx k ω)
  let rs := (List.range M).map fun k => boot (idx k ω)
  have hrs : List.Forall₂ (QrRow env d) bs rs := by
    rw [List.forall₂_map_left_iff, List.forall₂_map_right_iff, List.forall₂_same]
    exact fun k _ => hboot _
  obtain ⟨ds, hds⟩ := (qrSolveAll_ok env.pick (env.quantReg r.obs) (r.detection.getD 0) 0 mx d.quantiles).mpr hlm
  have hdl := qrSolveAll_length hds
  have hf := podRun_fst env.fmax env.boxCox d.obs (some d.detection) d.noise d.sat d.boxCox d.censored s.bc ⟨none, none⟩
  rw [hr] at hf
  obtain ⟨f, hfc⟩ : ∃ f, qrCurve ds d.quantiles mx = .ok f := by
    rw [qrCurve, interp1d, if_pos (by simp [hdl])]
    exact ⟨_, rfl⟩
  have hrun : ∃ s1 : QrAttrs G, s1.data = some (r.obs, r.detection.getD 0) ∧
      s1.rows = some (List.replicate bs.length (List.replicate d.quantiles.length 0)) ∧ qrPodRun env d bs s = qrBootstrap env d bs.length bs [] s1 := by
    unfold qrPodRun
    cases hp : podRun env.fmax env.boxCox d.obs (some d.detection) d.noise d.sat d.boxCox d.censored s.bc with
    | mk res bc =>
      rw [hp] at hf
      dsimp only at hf
      subst hf
      dsimp only
      rw [hmx]
      dsimp only
      rw [hds]
      dsimp only
      rw [hfc]
      exact ⟨_, rfl, rfl, rfl⟩
  obtain ⟨s1, hdata, hrows, he⟩ := hrun
  obtain ⟨b1, b2⟩ := qrBootstrap_rows env d bs.length bs rs hrs [] s1 (by simp) (by simpa using hrows)
  have b3 := (qrBootstrap_ok env d bs.length bs [] s1).2.2
  refine ⟨(qrPodRun env d bs s).2, Prod.ext (by rw [he]; exact b1) rfl, ?_⟩
  have hrne : rs ≠ [] := by
    rw [← List.length_pos_iff]; simpa [rs] using hM0
  unfold qrGetPODCL
  rw [he, b2, b3, hdata]
  dsimp only
  rw [List.nil_append, if_neg hrne, hmx]
  dsimp only
  rw [qrCurveCl, ← hg]
  congr 1
  have hhead : (rs.headD []).length = d.quantiles.length := by
    have : rs.headD [] ∈ rs := by
      cases hl : rs with
      | nil => exact absurd hl hrne
      | cons x xs => simp
    obtain ⟨k, -, hk⟩ := List.mem_map.1 this
    rw [← hk]; exact hlen _
  rw [qrColumns, hhead, List.map_map]
  apply List.map_congr_left
  intro k _
  simp only [Function.comp_apply, rs, List.map_map]
  have hl : ((List.range M).map ((fun r : List ℝ => r.getD k 0) ∘ fun i => boot (idx i ω))).length = M := by simp
  have hl0 : ((List.range M).map ((fun r : List ℝ => r.getD k 0) ∘ fun i => boot (idx i ω))) ≠ [] := by
    rw [← List.length_pos_iff, hl]; exact hM0
  apply quantile_of_counts hl0 hc0.le hc1.le
  · rw [hl, List.countP_map]
    have := (hM (Finset.univ.filter fun j => (boot j).getD k 0 < v k)).1 (hv1 k)
    convert this using 4
    simp
  · rw [hl, List.countP_map]
    have := (hM (Finset.univ.filter fun j => (boot j).getD k 0 ≤ v k)).2 (hv2 k)
    convert this using 4
    simp

/-- **C213, exception.**  As soon as one of the `n ^ n` resamples has a line that does not meet the threshold, almost surely all runs with enough
simulations raise. -/
theorem C213_exception {G : Type} (env : QrEnv G) (d : QrData) (hne : d.obs ≠ []) (j0 : Fin d.obs.length → Fin d.obs.length)
    (hbad : ¬ QrSolvable env d (resampleOf d.obs j0) (-env.fmax))
    (Q : Measure Ω) [IsProbabilityMeasure Q] (idx : ℕ → Ω → Fin d.obs.length → Fin d.obs.length) (hm : ∀ k, Measurable (idx k))
    (hu : ∀ k j, Q.real (idx k ⁻¹' {j}) = 1 / (d.obs.length : ℝ) ^ d.obs.length) (hi : iIndepFun idx Q) (s : QrAttrs G) :
    ∀ᵐ ω ∂Q, ∀ᶠ M : ℕ in atTop, ∃ e s', qrPodRun env d ((List.range M).map fun k => resampleOf d.obs (idx k ω)) s = (.error e, s') := by
  classical
  have hn : 0 < d.obs.length := List.length_pos_iff.mpr hne
  have : Nonempty (Fin d.obs.length) := ⟨⟨0, hn⟩⟩
  have hcard : (Fintype.card (Fin d.obs.length → Fin d.obs.length) : ℝ) = (d.obs.length : ℝ) ^ d.obs.length := by
    rw [Fintype.card_fun, Fintype.card_fin]; push_cast; rfl
  rw [← hcard] at hu
  filter_upwards [shares_uniform Q idx hm hu hi] with ω hω
  filter_upwards [counts_margin (fun k => idx k ω) hω 0] with M hM
  have h1 := (hM {j0}).2 (by simp)
  have h2 : 0 < (List.range M).countP fun k => @decide (idx k ω ∈ ({j0} : Finset _)) (Classical.dec _) := by
    have : (0 : ℝ) < _ := lt_of_lt_of_le (by norm_num : (0 : ℝ) < 0 * M + 3 / 2) h1
    exact_mod_cast this
  rw [List.countP_pos_iff] at h2
  obtain ⟨k, hk, hkj⟩ := h2
  have hkj' : idx k ω = j0 := by simpa using hkj
  cases hr : (qrPodRun env d ((List.range M).map fun k => resampleOf d.obs (idx k ω)) s).1 with
  | error e => exact ⟨e, _, Prod.ext hr rfl⟩
  | ok u =>
    exact absurd (((C143_run_iff_partial env d _ s).1.1 hr).2 (resampleOf d.obs j0) (List.mem_map.2 ⟨k, hk, by rw [hkj']⟩)) hbad

theorem pinball_pos {tau r : ℝ} (h0 : 0 < tau) (h1 : tau < 1) : 0 ≤ pinball tau r ∧ (pinball tau r = 0 → r = 0) := by
  rcases le_or_gt 0 r with h | h
  · rw [pinball_nonneg_arg h]
    exact ⟨mul_nonneg h0.le h, fun e => (mul_eq_zero.1 e).resolve_left h0.ne'⟩
  · rw [pinball_nonpos_arg h.le]
    exact ⟨mul_nonneg_of_nonpos_of_nonpos (by linarith) h.le, fun e => (mul_eq_zero.1 e).resolve_left (by linarith)⟩

/-- A best line through observations on a line is this line. -/
theorem exact_zero {tau : ℝ} (h0 : 0 < tau) (h1 : tau < 1) (obs : List (ℝ × ℝ)) {b0 b1 c0 c1 : ℝ} (hc : ∀ o ∈ obs, o.2 = c0 + c1 * o.1)
    (hmin : quantLoss tau obs b0 b1 ≤ quantLoss tau obs c0 c1) : ∀ o ∈ obs, o.2 = b0 + b1 * o.1 := by
  have hz : quantLoss tau obs c0 c1 = 0 := by
    apply List.sum_eq_zero
    intro x hx
    obtain ⟨o, ho, rfl⟩ := List.mem_map.1 hx
    rw [hc o ho, sub_self, pinball_nonneg_arg le_rfl, mul_zero]
  rw [hz] at hmin
  have hnn : ∀ x ∈ obs.map fun o => pinball tau (o.2 - (b0 + b1 * o.1)), 0 ≤ x := by
    intro x hx
    obtain ⟨o, -, rfl⟩ := List.mem_map.1 hx
    exact (pinball_pos h0 h1).1
  have hs : quantLoss tau obs b0 b1 = 0 := le_antisymm hmin (List.sum_nonneg hnn)
  intro o ho
  have : pinball tau (o.2 - (b0 + b1 * o.1)) = 0 := by
    refine le_antisymm ?_ (pinball_pos h0 h1).1
    have h := List.single_le_sum hnn _ (List.mem_map.2 ⟨o, ho, rfl⟩)
    exact h.trans hs.le
  linarith [(pinball_pos h0 h1).2 this]

/-- **C213 is violated.**  For all observations, threshold and levels, when two observations below the threshold have increasing defects and signals
and the fits are exact: almost surely every run with enough simulations raises, even if the run without simulation succeeds.  A resample of
these two observations has only lines that stay below the threshold up to its largest defect. -/
theorem C213_violated {G : Type} (env : QrEnv G) (obs : List (ℝ × ℝ)) (det : ℝ) (qs : List ℝ) (p : ℝ) (hp : p ∈ qs) (hp0 : 0 < p) (hp1 : p < 1)
    (hex : ∀ l, QuantRegExact env.quantReg l (1 - p)) (x1 y1 x2 y2 : ℝ) (h1 : (x1, y1) ∈ obs) (h2 : (x2, y2) ∈ obs) (hx : x1 < x2) (hy : y1 < y2)
    (hd : y2 < det) (hf : -env.fmax ≤ x2)
    (Q : Measure Ω) [IsProbabilityMeasure Q] (idx : ℕ → Ω → Fin obs.length → Fin obs.length) (hm : ∀ k, Measurable (idx k))
    (hu : ∀ k j, Q.real (idx k ⁻¹' {j}) = 1 / (obs.length : ℝ) ^ obs.length) (hi : iIndepFun idx Q) (s : QrAttrs G) :
    ∀ᵐ ω ∂Q, ∀ᶠ M : ℕ in atTop, ∃ e s', qrPodRun env ⟨obs, det, none, none, false, false, qs⟩
      ((List.range M).map fun k => resampleOf obs (idx k ω)) s = (.error e, s') := by
  obtain ⟨i1, hi1, e1⟩ := List.getElem_of_mem h1
  obtain ⟨i2, hi2, e2⟩ := List.getElem_of_mem h2
  have hne12 : (⟨i1, hi1⟩ : Fin obs.length) ≠ ⟨i2, hi2⟩ := by
    intro h
    have hh : i1 = i2 := congrArg Fin.val h
    subst hh
    rw [e1, Prod.mk.injEq] at e2
    linarith [e2.1]
  let j0 : Fin obs.length → Fin obs.length := fun i => if i = ⟨i1, hi1⟩ then ⟨i1, hi1⟩ else ⟨i2, hi2⟩
  have hmem : ∀ o, o ∈ resampleOf obs j0 ↔ o = (x1, y1) ∨ o = (x2, y2) := by
    intro o
    rw [resampleOf, List.mem_ofFn]
    constructor
    · rintro ⟨i, rfl⟩
      by_cases h : i = ⟨i1, hi1⟩
      · left; simp only [j0, h, if_true]; exact e1
      · right; simp only [j0, if_neg h]; exact e2
    · rintro (rfl | rfl)
      · exact ⟨⟨i1, hi1⟩, by simp only [j0, if_true]; exact e1⟩
      · exact ⟨⟨i2, hi2⟩, by simp only [j0, if_neg hne12.symm]; exact e2⟩
  refine C213_exception env ⟨obs, det, none, none, false, false, qs⟩ (List.ne_nil_of_mem h1) j0 ?_ Q idx hm hu hi s
  rintro ⟨r, mx, hr, hmx, hl⟩
  have hr' : r = ⟨resampleOf obs j0, 0, some det, none⟩ := by
    have : (podRun env.fmax env.boxCox (resampleOf obs j0) (some det) none none false false ⟨none, none⟩).1
        = .ok ⟨resampleOf obs j0, 0, some det, none⟩ := rfl
    have hr2 : (podRun env.fmax env.boxCox (resampleOf obs j0) (some det) none none false false ⟨none, none⟩).1 = .ok r := hr
    rw [this, Except.ok.injEq] at hr2
    exact hr2.symm
  subst hr'
  dsimp only at hmx hl
  have hmx2 : mx = x2 := by
    obtain ⟨g1, g2⟩ := sampleMax_spec hmx
    obtain ⟨o, ho, rfl⟩ := List.mem_map.1 g1
    have g3 : x2 ≤ o.1 := g2 (List.mem_map.2 ⟨(x2, y2), (hmem _).2 (.inr rfl), rfl⟩)
    rcases (hmem o).1 ho with rfl | rfl
    · dsimp only at g3; linarith
    · rfl
  subst hmx2
  have hline := exact_zero (by linarith : 0 < 1 - p) (by linarith : 1 - p < 1) (resampleOf obs j0)
    (b0 := (env.quantReg (resampleOf obs j0) (1 - p)).intercept) (b1 := (env.quantReg (resampleOf obs j0) (1 - p)).slope)
    (c0 := y1 - (y2 - y1) / (mx - x1) * x1) (c1 := (y2 - y1) / (mx - x1)) (by
      intro o ho
      have : mx - x1 ≠ 0 := by linarith
      rcases (hmem o).1 ho with rfl | rfl
      · simp only; ring
      · simp only; field_simp; ring) (hex _ _ _)
  have l1 := hline _ ((hmem _).2 (.inl rfl))
  have l2 := hline _ ((hmem _).2 (.inr rfl))
  dsimp only at l1 l2
  have hm := hl p hp
  set b0 := (env.quantReg (resampleOf obs j0) (1 - p)).intercept
  set b1 := (env.quantReg (resampleOf obs j0) (1 - p)).slope
  have hb1 : 0 < b1 := by
    by_contra hc
    push Not at hc
    nlinarith
  refine hm (.inr ⟨?_, ?_⟩)
  · change b0 + b1 * (-env.fmax) < det
    nlinarith
  · change b0 + b1 * mx < det
    linarith

/-- Observations (0, 0), (1, 1), (3, 3), threshold 2, level 1/2: a run without simulation succeeds, almost all runs with many simulations raise. -/
example : ∃ env : QrEnv Unit, (qrPodRun env ⟨[(0, 0), (1, 1), (3, 3)], 2, none, none, false, false, [1 / 2]⟩ [] ⟨⟨none, none⟩, none, none, none⟩).1 = .ok () ∧
    ∃ (Q : Measure (ℕ → Fin 3 → Fin 3)) (_ : IsProbabilityMeasure Q), ∀ᵐ ω ∂Q, ∀ᶠ M : ℕ in atTop, ∃ e s',
      qrPodRun env ⟨[(0, 0), (1, 1), (3, 3)], 2, none, none, false, false, [1 / 2]⟩
        ((List.range M).map fun k => resampleOf [(0, 0), (1, 1), (3, 3)] (ω k)) ⟨⟨none, none⟩, none, none, none⟩ = (.error e, s') := by
  obtain ⟨quantReg, hq⟩ := quantReg_exists
  let env : QrEnv Unit := ⟨fun _ _ _ => .error ⟨.runtime, ""⟩, quantReg, fun a _ => a, 10⟩
  refine ⟨env, ?_, ?_⟩
  · have hmax : sampleMax [(0 : ℝ), 1, 3] = .ok 3 := by norm_num [sampleMax]
    have hl := exact_zero (tau := 1 - 1 / 2) (by norm_num) (by norm_num) [(0, 0), (1, 1), (3, 3)] (c0 := 0) (c1 := 1) (by
      intro o ho
      simp only [List.mem_cons, List.not_mem_nil, or_false] at ho
      rcases ho with rfl | rfl | rfl <;> norm_num) (hq [(0, 0), (1, 1), (3, 3)] (1 - 1 / 2) (by norm_num) (by norm_num) 0 1)
    have e0 := hl (0, 0) (by simp)
    have e1 := hl (1, 1) (by simp)
    dsimp only at e0 e1
    refine (C143_run_iff_partial _ _ _ _).1.mpr ⟨⟨⟨[(0, 0), (1, 1), (3, 3)], 0, some 2, none⟩, 3, rfl, hmax, ?_⟩, by simp⟩
    intro p hp
    rw [List.mem_singleton] at hp
    subst hp
    dsimp only [env]
    rw [LineMeets]
    rintro (⟨h, -⟩ | ⟨-, h⟩)
    · dsimp only [Option.getD] at h; linarith
    · dsimp only [Option.getD] at h; linarith
  · obtain ⟨Q, hQ, g1, g2, g3⟩ := uniform_resamples 3 (by norm_num)
    exact ⟨Q, hQ, C213_violated env [(0, 0), (1, 1), (3, 3)] 2 [1 / 2] (1 / 2) (by simp) (by norm_num) (by norm_num)
      (fun l => hq l _ (by norm_num) (by norm_num)) 0 0 1 1 (by simp) (by simp) (by norm_num) (by norm_num) (by norm_num) (by norm_num [env]) Q
      (fun k ω => ω k) g1 g2 g3 _⟩

/-- Two observations and a regression that gives lines of slope one for every resample: the four resamples have sizes. -/
example : ∃ (env : QrEnv Unit) (boot : (Fin 2 → Fin 2) → List ℝ), let d : QrData := ⟨[(1, 1), (2, 2)], 1 / 2, none, none, false, false, [1 / 2]⟩
    (∀ j, QrRow env d (resampleOf d.obs j) (boot j)) ∧ QrSolvable env d d.obs 0 ∧ ∀ m : ℕ, (m : ℝ) ≠ 0.9 * (d.obs.length : ℝ) ^ d.obs.length := by
  let env : QrEnv Unit := ⟨fun _ _ _ => .error ⟨.runtime, ""⟩, fun l _ => ⟨(l.map Prod.snd).sum / 10, 1, 0⟩, fun a _ => a, 10⟩
  have hval : ∀ a : Fin 2, ∃ t : ℝ, 1 ≤ t ∧ t ≤ 2 ∧ [((1 : ℝ), (1 : ℝ)), (2, 2)][a] = (t, t) := by
    intro a
    fin_cases a
    · exact ⟨1, by norm_num, by norm_num, rfl⟩
    · exact ⟨2, by norm_num, by norm_num, rfl⟩
  have hres : ∀ j : Fin 2 → Fin 2, ∃ t u : ℝ, (1 ≤ t ∧ t ≤ 2) ∧ (1 ≤ u ∧ u ≤ 2) ∧ resampleOf [((1 : ℝ), (1 : ℝ)), (2, 2)] j = [(t, t), (u, u)] := by
    intro j
    obtain ⟨t, t1, t2, ht⟩ := hval (j 0)
    obtain ⟨u, u1, u2, hu⟩ := hval (j 1)
    refine ⟨t, u, ⟨t1, t2⟩, ⟨u1, u2⟩, ?_⟩
    rw [← ht, ← hu]
    rfl
  refine ⟨env, fun j => [1 / 2 - ((resampleOf [((1 : ℝ), (1 : ℝ)), (2, 2)] j).map Prod.snd).sum / 10], fun j => ?_, ?_, ?_⟩
  · obtain ⟨t, u, ⟨t1, t2⟩, ⟨u1, u2⟩, he⟩ := hres j
    refine ⟨⟨resampleOf [(1, 1), (2, 2)] j, 0, some (1 / 2), none⟩, max t u, rfl, ?_, ?_⟩
    · dsimp only; rw [he]; simp [sampleMax]
    · dsimp only
      refine .cons ?_ .nil
      rw [he]
      dsimp only [env]
      have hm : t ≤ max t u := le_max_left _ _
      simp only [brentLine, List.map_cons, List.map_nil, List.sum_cons, List.sum_nil, Option.getD_some]
      rw [if_neg (not_lt.2 (mul_nonpos_of_nonpos_of_nonneg (by linarith) (by linarith))), if_neg one_ne_zero]
      simp
  · refine ⟨⟨[(1, 1), (2, 2)], 0, some (1 / 2), none⟩, 2, rfl, by norm_num [sampleMax], ?_⟩
    intro p _
    norm_num [LineMeets, env]
  · intro m hm
    have h1 : ((10 * m : ℕ) : ℝ) = (36 : ℕ) := by push_cast; rw [hm]; norm_num
    have h2 : 10 * m = 36 := by exact_mod_cast h1
    omega

end Verif.Props
