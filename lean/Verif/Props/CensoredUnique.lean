import Verif.Props.PhiLog
import Verif.Props.CensoredRun
import Mathlib.Analysis.Convex.SpecificFunctions.Basic
import Mathlib.Analysis.Convex.Extrema

/-!
# C158: the likelihood of the censored fit has one maximum and no other local maximum
-/

namespace Verif.Props
open Verif.Py Verif.Model ProbabilityTheory MeasureTheory Set Filter Topology

/-- Intercept and slope in units of the scale, and the inverse of the scale; an involution where the scale is positive. -/
noncomputable def olsen (X : ℝ × ℝ × ℝ) : ℝ × ℝ × ℝ := (X.1 / X.2.2, X.2.1 / X.2.2, 1 / X.2.2)

theorem olsen_pos (X : ℝ × ℝ × ℝ) (h : 0 < X.2.2) : 0 < (olsen X).2.2 := by
  show 0 < 1 / X.2.2
  positivity

theorem olsen_olsen (X : ℝ × ℝ × ℝ) (h : 0 < X.2.2) : olsen (olsen X) = X := by
  obtain ⟨a, b, c⟩ := X
  have hc : c ≠ 0 := ne_of_gt h
  simp only [olsen, Prod.mk.injEq]
  refine ⟨?_, ?_, ?_⟩ <;> field_simp

theorem olsen_continuousAt (X : ℝ × ℝ × ℝ) (h : 0 < X.2.2) : ContinuousAt olsen X := by
  have hne : X.2.2 ≠ 0 := ne_of_gt h
  have h2 : ContinuousAt (fun X : ℝ × ℝ × ℝ => X.2.2) X := by fun_prop
  have h0 : ContinuousAt (fun X : ℝ × ℝ × ℝ => X.1) X := by fun_prop
  have h1 : ContinuousAt (fun X : ℝ × ℝ × ℝ => X.2.1) X := by fun_prop
  exact (h0.div h2 hne).prodMk ((h1.div h2 hne).prodMk (continuousAt_const.div h2 hne))

/-- The negative log likelihood in the coordinates of `olsen`. -/
noncomputable def olsenNll (unc : List (ℝ × ℝ)) (noisy sat : List ℝ) (tn ts : ℝ) (W : ℝ × ℝ × ℝ) : ℝ :=
  unc.length * Real.log (Real.sqrt (2 * Real.pi)) - unc.length * Real.log W.2.2
    + (unc.map fun o => (W.2.2 * o.2 - (W.1 + W.2.1 * o.1)) ^ 2 / 2).sum
    + (noisy.map fun x => -Real.log (Phi (W.2.2 * tn - (W.1 + W.2.1 * x)))).sum
    + (sat.map fun x => -Real.log (1 - Phi (W.2.2 * ts - (W.1 + W.2.1 * x)))).sum

theorem list_sum_neg' {β : Type} (l : List β) (f : β → ℝ) : (l.map fun x => -f x).sum = -(l.map f).sum := by
  induction l with
  | nil => simp
  | cons a l ih => simp only [List.map_cons, List.sum_cons, ih]; ring

theorem nll_olsen (unc : List (ℝ × ℝ)) (noisy sat : List ℝ) (tn ts : ℝ) (X : ℝ × ℝ × ℝ) (h : 0 < X.2.2) :
    nll unc noisy sat tn ts X = olsenNll unc noisy sat tn ts (olsen X) := by
  obtain ⟨b0, b1, s⟩ := X
  have h : 0 < s := h
  have hs : s ≠ 0 := ne_of_gt h
  have hpi : Real.sqrt (2 * Real.pi) ≠ 0 := by positivity
  have hz : ∀ t x : ℝ, (t - (b0 + b1 * x)) / s = 1 / s * t - (b0 / s + b1 / s * x) := by
    intro t x; field_simp
  have hsq : 1 / (2 * s ^ 2) * listSse unc b0 b1
      = (unc.map fun o => (1 / s * o.2 - (b0 / s + b1 / s * o.1)) ^ 2 / 2).sum := by
    rw [listSse, ← List.sum_map_mul_left]
    congr 1
    refine List.map_congr_left fun o _ => ?_
    field_simp
  simp only [nll, olsenNll, olsen, list_sum_neg', hsq, hz]
  rw [Real.log_mul hs hpi, one_div, Real.log_inv]
  ring

/-- **Strict convexity.**  With two different sizes among the uncensored observations. -/
theorem olsenNll_strictConvex (unc : List (ℝ × ℝ)) (noisy sat : List ℝ) (tn ts : ℝ)
    (hx : ∃ o ∈ unc, ∃ o' ∈ unc, o.1 ≠ o'.1) :
    StrictConvexOn ℝ {W : ℝ × ℝ × ℝ | 0 < W.2.2} (olsenNll unc noisy sat tn ts) := by
  have hlen : (0 : ℝ) < unc.length := by
    obtain ⟨o, ho, -⟩ := hx
    exact_mod_cast List.length_pos_of_mem ho
  refine ⟨?_, ?_⟩
  · intro W hW V hV a b ha hb hab
    have hW : 0 < W.2.2 := hW
    have hV : 0 < V.2.2 := hV
    show 0 < a * W.2.2 + b * V.2.2
    rcases ha.eq_or_lt with h0 | h0
    · rw [← h0] at hab ⊢
      rw [zero_add] at hab
      rw [hab]; linarith
    · nlinarith [mul_pos h0 hW, mul_nonneg hb hV.le]
  · rintro ⟨α, β, θ⟩ hW ⟨α', β', θ'⟩ hV hne a b ha hb hab
    have hW : 0 < θ := hW
    have hV : 0 < θ' := hV
    show olsenNll unc noisy sat tn ts (a * α + b * α', a * β + b * β', a * θ + b * θ')
      < a * olsenNll unc noisy sat tn ts (α, β, θ) + b * olsenNll unc noisy sat tn ts (α', β', θ')
    have hb' : b = 1 - a := by linarith
    -- the five parts
    have hlog : a * Real.log θ + b * Real.log θ' ≤ Real.log (a * θ + b * θ') := by
      have := strictConcaveOn_log_Ioi.concaveOn.2 (show θ ∈ Ioi 0 from hW) (show θ' ∈ Ioi 0 from hV) ha.le hb.le hab
      simpa using this
    have hsq : ∀ o : ℝ × ℝ, ((a * θ + b * θ') * o.2 - (a * α + b * α' + (a * β + b * β') * o.1)) ^ 2 / 2
        = a * ((θ * o.2 - (α + β * o.1)) ^ 2 / 2) + b * ((θ' * o.2 - (α' + β' * o.1)) ^ 2 / 2)
          - a * b * ((θ * o.2 - (α + β * o.1)) - (θ' * o.2 - (α' + β' * o.1))) ^ 2 / 2 := by
      intro o; rw [hb']; ring
    have hsum : ∀ {γ : Type} (l : List γ) (f g : γ → ℝ), a * (l.map f).sum + b * (l.map g).sum
        = (l.map fun x => a * f x + b * g x).sum := by
      intro γ l f g
      induction l with
      | nil => simp
      | cons c l ih => simp only [List.map_cons, List.sum_cons, ← ih]; ring
    have hN : (noisy.map fun x => -Real.log (Phi ((a * θ + b * θ') * tn - (a * α + b * α' + (a * β + b * β') * x)))).sum
        ≤ a * (noisy.map fun x => -Real.log (Phi (θ * tn - (α + β * x)))).sum
          + b * (noisy.map fun x => -Real.log (Phi (θ' * tn - (α' + β' * x)))).sum := by
      rw [hsum]
      refine List.sum_le_sum fun x _ => ?_
      have := logPhi_le (θ * tn - (α + β * x)) (θ' * tn - (α' + β' * x)) a b ha.le hb.le hab
      rw [show (a * θ + b * θ') * tn - (a * α + b * α' + (a * β + b * β') * x)
        = a * (θ * tn - (α + β * x)) + b * (θ' * tn - (α' + β' * x)) by ring]
      linarith
    have hS : (sat.map fun x => -Real.log (1 - Phi ((a * θ + b * θ') * ts - (a * α + b * α' + (a * β + b * β') * x)))).sum
        ≤ a * (sat.map fun x => -Real.log (1 - Phi (θ * ts - (α + β * x)))).sum
          + b * (sat.map fun x => -Real.log (1 - Phi (θ' * ts - (α' + β' * x)))).sum := by
      rw [hsum]
      refine List.sum_le_sum fun x _ => ?_
      have := logPhiC_le (θ * ts - (α + β * x)) (θ' * ts - (α' + β' * x)) a b ha.le hb.le hab
      rw [show (a * θ + b * θ') * ts - (a * α + b * α' + (a * β + b * β') * x)
        = a * (θ * ts - (α + β * x)) + b * (θ' * ts - (α' + β' * x)) by ring]
      linarith
    have hab0 : 0 < a * b := mul_pos ha hb
    have hQ : ∀ o : ℝ × ℝ, ((a * θ + b * θ') * o.2 - (a * α + b * α' + (a * β + b * β') * o.1)) ^ 2 / 2
        ≤ a * ((θ * o.2 - (α + β * o.1)) ^ 2 / 2) + b * ((θ' * o.2 - (α' + β' * o.1)) ^ 2 / 2) := by
      intro o
      rw [hsq o]
      have := mul_nonneg hab0.le (sq_nonneg ((θ * o.2 - (α + β * o.1)) - (θ' * o.2 - (α' + β' * o.1))))
      linarith
    have hU := hsum unc (fun o => (θ * o.2 - (α + β * o.1)) ^ 2 / 2) (fun o => (θ' * o.2 - (α' + β' * o.1)) ^ 2 / 2)
    have hconst : a * (unc.length * Real.log (Real.sqrt (2 * Real.pi))) + b * (unc.length * Real.log (Real.sqrt (2 * Real.pi)))
        = unc.length * Real.log (Real.sqrt (2 * Real.pi)) := by rw [← add_mul, hab, one_mul]
    simp only [olsenNll]
    by_cases hθ : θ = θ'
    · -- same scale: the squares are strict for one observation
      have hlt : (unc.map fun o : ℝ × ℝ => ((a * θ + b * θ') * o.2 - (a * α + b * α' + (a * β + b * β') * o.1)) ^ 2 / 2).sum
          < (unc.map fun o : ℝ × ℝ => a * ((θ * o.2 - (α + β * o.1)) ^ 2 / 2) + b * ((θ' * o.2 - (α' + β' * o.1)) ^ 2 / 2)).sum := by
        refine List.sum_lt_sum _ _ (fun o _ => hQ o) ?_
        have hex : ∃ o ∈ unc, α + β * o.1 ≠ α' + β' * o.1 := by
          by_contra hcon
          push Not at hcon
          obtain ⟨o, ho, o', ho', hoo⟩ := hx
          have e1 := hcon o ho
          have e2 := hcon o' ho'
          have e3 : (β - β') * (o.1 - o'.1) = 0 := by linear_combination e1 - e2
          have e4 : β = β' := by
            rcases mul_eq_zero.1 e3 with h | h
            · linarith
            · exact absurd (by linarith) hoo
          apply hne
          rw [e4] at e1
          simp only [Prod.mk.injEq]
          exact ⟨by linarith, e4, hθ⟩
        obtain ⟨o, ho, hd⟩ := hex
        refine ⟨o, ho, ?_⟩
        rw [hsq o]
        have hd' : (θ * o.2 - (α + β * o.1)) - (θ' * o.2 - (α' + β' * o.1)) ≠ 0 := by
          rw [← hθ]; intro h; apply hd; linarith
        have := mul_pos hab0 (pow_pos (abs_pos.2 hd') 2)
        rw [sq_abs] at this
        linarith
      have hl := mul_le_mul_of_nonneg_left hlog hlen.le
      linarith
    · have hlt : a * Real.log θ + b * Real.log θ' < Real.log (a * θ + b * θ') := by
        have := strictConcaveOn_log_Ioi.2 (show θ ∈ Ioi 0 from hW) (show θ' ∈ Ioi 0 from hV) hθ ha hb hab
        simpa using this
      have hl := mul_lt_mul_of_pos_left hlt hlen
      have hle : (unc.map fun o : ℝ × ℝ => ((a * θ + b * θ') * o.2 - (a * α + b * α' + (a * β + b * β') * o.1)) ^ 2 / 2).sum
          ≤ (unc.map fun o : ℝ × ℝ => a * ((θ * o.2 - (α + β * o.1)) ^ 2 / 2) + b * ((θ' * o.2 - (α' + β' * o.1)) ^ 2 / 2)).sum :=
        List.sum_le_sum fun o _ => hQ o
      linarith

/-- A local minimum of the negative log likelihood is its strict minimum over all positive scales. -/
theorem nll_local (unc : List (ℝ × ℝ)) (noisy sat : List ℝ) (tn ts : ℝ) (hx : ∃ o ∈ unc, ∃ o' ∈ unc, o.1 ≠ o'.1)
    (X : ℝ × ℝ × ℝ) (hX : 0 < X.2.2) (hmin : ∀ᶠ Y in 𝓝 X, 0 < Y.2.2 → nll unc noisy sat tn ts X ≤ nll unc noisy sat tn ts Y)
    (Y : ℝ × ℝ × ℝ) (hY : 0 < Y.2.2) (hne : Y ≠ X) : nll unc noisy sat tn ts X < nll unc noisy sat tn ts Y := by
  have hconv := olsenNll_strictConvex unc noisy sat tn ts hx
  set G := olsenNll unc noisy sat tn ts with hG
  have hpos : ∀ᶠ W in 𝓝 (olsen X), 0 < W.2.2 :=
    (isOpen_lt continuous_const (by fun_prop : Continuous fun W : ℝ × ℝ × ℝ => W.2.2)).mem_nhds (olsen_pos X hX)
  have hcont : Tendsto olsen (𝓝 (olsen X)) (𝓝 X) := by
    have := olsen_continuousAt (olsen X) (olsen_pos X hX)
    rw [ContinuousAt, olsen_olsen X hX] at this
    exact this
  have hloc : ∀ᶠ W in 𝓝 (olsen X), G (olsen X) ≤ G W := by
    filter_upwards [hpos, hcont.eventually hmin] with W hW h
    have := h (olsen_pos W hW)
    rwa [nll_olsen _ _ _ _ _ X hX, nll_olsen _ _ _ _ _ (olsen W) (olsen_pos W hW), olsen_olsen W hW] at this
  have hglob : IsMinOn G {W : ℝ × ℝ × ℝ | 0 < W.2.2} (olsen X) :=
    IsMinOn.of_isLocalMinOn_of_convexOn (olsen_pos X hX) (hloc.filter_mono nhdsWithin_le_nhds) hconv.convexOn
  rw [nll_olsen _ _ _ _ _ X hX, nll_olsen _ _ _ _ _ Y hY]
  refine lt_of_le_of_ne (hglob (olsen_pos Y hY)) fun heq => ?_
  have hYmin : IsMinOn G {W : ℝ × ℝ × ℝ | 0 < W.2.2} (olsen Y) := by
    intro W hW
    have := hglob hW
    show G (olsen Y) ≤ G W
    rw [← hG] at heq
    rw [← heq]; exact this
  have := hconv.eq_of_isMinOn hglob hYmin (olsen_pos X hX) (olsen_pos Y hY)
  apply hne
  rw [← olsen_olsen X hX, this, olsen_olsen Y hY]

/-- A threshold that is not given goes with an empty group. -/
def ThresholdsGiven (dNoise dSat : List ℝ) (noise sat : Option ℝ) : Prop :=
  (noise = none → dNoise = []) ∧ (sat = none → dSat = [])

theorem mleObjective_pos (unc : List (ℝ × ℝ)) (dNoise dSat : List ℝ) (noise sat : Option ℝ) (ht : ThresholdsGiven dNoise dSat noise sat)
    (X : ℝ × ℝ × ℝ) : MLE X (unc.map Prod.fst) dNoise dSat (unc.map Prod.snd) noise sat
      = MLE X (unc.map Prod.fst) dNoise dSat (unc.map Prod.snd) (some (noise.getD 0)) (some (sat.getD 0)) := by
  have e1 : ∀ sat, MLE X (unc.map Prod.fst) dNoise dSat (unc.map Prod.snd) noise sat
      = MLE X (unc.map Prod.fst) dNoise dSat (unc.map Prod.snd) (some (noise.getD 0)) sat := by
    intro sat
    cases noise with
    | some t => rfl
    | none => rw [ht.1 rfl]; exact (C06_MLE_none X _ [] _ _ _).2.2.1 _
  rw [e1]
  cases sat with
  | some t => rfl
  | none => rw [ht.2 rfl]; exact (C06_MLE_none X _ _ [] _ _).2.2.2 _

theorem mleObjective_eq (unc : List (ℝ × ℝ)) (dNoise dSat : List ℝ) (noise sat : Option ℝ) (ht : ThresholdsGiven dNoise dSat noise sat)
    (X : ℝ × ℝ × ℝ) : mleObjective unc dNoise dSat noise sat X
      = if 0 < X.2.2 then .fin (nll unc dNoise dSat (noise.getD 0) (sat.getD 0) X) else .pinf := by
  rw [mleObjective, mleObjective_pos _ _ _ _ _ ht]
  split_ifs with hs
  · rw [MLE_eq_nll _ _ _ _ _ _ hs]
  · obtain ⟨b0, b1, s⟩ := X
    rw [C06_MLE_nonpos_scale b0 b1 s _ _ (not_lt.1 hs)]

/-- **C158, no local traps.**  A point where the objective of the censored fit is finite, and which is best among the points around it, is strictly
better than every other point. -/
theorem C158_local (unc : List (ℝ × ℝ)) (dNoise dSat : List ℝ) (noise sat : Option ℝ) (ht : ThresholdsGiven dNoise dSat noise sat)
    (hx : ∃ o ∈ unc, ∃ o' ∈ unc, o.1 ≠ o'.1) (X : ℝ × ℝ × ℝ) (hX : mleObjective unc dNoise dSat noise sat X ≠ .pinf)
    (hmin : ∀ᶠ Y in 𝓝 X, F.le (mleObjective unc dNoise dSat noise sat X) (mleObjective unc dNoise dSat noise sat Y) = true)
    (Y : ℝ × ℝ × ℝ) (hne : Y ≠ X) :
    F.lt (mleObjective unc dNoise dSat noise sat X) (mleObjective unc dNoise dSat noise sat Y) = true := by
  have hs : 0 < X.2.2 := by
    by_contra h
    exact hX (by rw [mleObjective_eq _ _ _ _ _ ht, if_neg h])
  have hX' := mleObjective_eq unc dNoise dSat noise sat ht X
  rw [if_pos hs] at hX'
  have hY' := mleObjective_eq unc dNoise dSat noise sat ht Y
  rw [hX', hY']
  split_ifs with hY
  · rw [F.lt_fin, decide_eq_true_eq]
    refine nll_local unc dNoise dSat _ _ hx X hs ?_ Y hY hne
    filter_upwards [hmin] with Z hZ hZs
    rwa [hX', mleObjective_eq _ _ _ _ _ ht Z, if_pos hZs, F.le_fin, decide_eq_true_eq] at hZ
  · rfl

/-- **C158, one best fit.**  With two different sizes among the uncensored observations, not all on one line, exactly one parameter vector minimises
the objective. -/
theorem C158_unique (unc : List (ℝ × ℝ)) (dNoise dSat : List ℝ) (noise sat : Option ℝ) (ht : ThresholdsGiven dNoise dSat noise sat)
    (hx : ∃ o ∈ unc, ∃ o' ∈ unc, o.1 ≠ o'.1) (hline : ¬ ∃ b0 b1 : ℝ, ∀ o ∈ unc, o.2 = b0 + b1 * o.1) :
    ∃! X, ∀ Y, F.le (mleObjective unc dNoise dSat noise sat X) (mleObjective unc dNoise dSat noise sat Y) = true := by
  obtain ⟨X, v, hXs, hXv, hXmin⟩ := C115_minimum unc dNoise dSat (noise.getD 0) (sat.getD 0) hx hline
  have hX : ∀ Y, F.le (mleObjective unc dNoise dSat noise sat X) (mleObjective unc dNoise dSat noise sat Y) = true := by
    intro Y
    obtain ⟨w, hw, hle⟩ := hXmin Y
    rw [mleObjective, mleObjective, mleObjective_pos _ _ _ _ _ ht, mleObjective_pos _ _ _ _ _ ht, hXv, hw]
    exact hle
  refine ⟨X, hX, fun Z hZ => ?_⟩
  by_contra hne
  have hfin : mleObjective unc dNoise dSat noise sat X ≠ .pinf := by
    rw [mleObjective_eq _ _ _ _ _ ht, if_pos hXs]; intro h; cases h
  have h1 := C158_local unc dNoise dSat noise sat ht hx X hfin (Eventually.of_forall hX) Z hne
  have h2 := hZ X
  rw [mleObjective_eq _ _ _ _ _ ht X, if_pos hXs] at h1 h2
  rw [mleObjective_eq _ _ _ _ _ ht Z] at h1 h2
  split_ifs at h1 h2 with hZs
  · rw [F.lt_fin, decide_eq_true_eq] at h1
    rw [F.le_fin, decide_eq_true_eq] at h2
    linarith
  · cases h2

/-- The thresholds of a data set: without a threshold no observation is censored on its side. -/
theorem thresholdsGiven_obs (fmax : ℝ) (g : ℝ → ℝ) (noise sat : Option ℝ) (obs : List (ℝ × ℝ))
    (hfin : ∀ o ∈ obs, -fmax < o.2 ∧ o.2 < fmax) :
    ThresholdsGiven (noiseDefects fmax obs noise) (satDefects fmax obs sat) (noise.map g) (sat.map g) := by
  refine ⟨fun h => ?_, fun h => ?_⟩
  · rw [Option.map_eq_none_iff] at h
    subst h
    rw [noiseDefects, List.map_eq_nil_iff, List.filter_eq_nil_iff]
    intro o ho
    simpa using (hfin o ho).1
  · rw [Option.map_eq_none_iff] at h
    subst h
    rw [satDefects, List.map_eq_nil_iff, List.filter_eq_nil_iff]
    intro o ho
    simpa using (hfin o ho).2

/-- A successful censored fit with an exact optimiser returns the minimiser of the objective. -/
theorem censoredFit_min (env : LinEnv) (henv : ExactFit env) (draws : ℕ → ℝ × ℝ × ℝ) (start : ℝ × ℝ × ℝ) (unc : List (ℝ × ℝ))
    (dNoise dSat : List ℝ) (noise sat : Option ℝ)
    (hex : ∃ X, ∀ Y, F.le (mleObjective unc dNoise dSat noise sat X) (mleObjective unc dNoise dSat noise sat Y) = true) (fit : LineFit)
    (h : censoredFit env draws start unc dNoise dSat noise sat = .ok fit) :
    (∀ Y, F.le (mleObjective unc dNoise dSat noise sat (fit.intercept, fit.slope, fit.stderr))
      (mleObjective unc dNoise dSat noise sat Y) = true) ∧
    fit.residuals = lineResiduals fit.intercept fit.slope unc := by
  unfold censoredFit at h
  cases h1 : MLE start (unc.map Prod.fst) dNoise dSat (unc.map Prod.snd) noise sat with
  | error e => rw [h1] at h; cases h
  | ok v =>
    rw [h1] at h
    dsimp only at h
    cases hr : (computeLinearParametersCensored (mleObjective unc dNoise dSat noise sat) env.fmin draws start).result with
    | error e => rw [hr] at h; cases h
    | ok p =>
      obtain ⟨x, w⟩ := p
      rw [hr, Except.ok.injEq] at h
      obtain ⟨-, -, hyes⟩ := C05_start_search_iff_partial (mleObjective unc dNoise dSat noise sat) env.fmin draws start
      obtain ⟨x0, -, -, hx0⟩ := hyes (by rw [hr]; rintro ⟨m, hm⟩; cases hm)
      rw [hr, Except.ok.injEq, Prod.mk.injEq] at hx0
      rw [← h]
      refine ⟨fun Y => ?_, rfl⟩
      show F.le (mleObjective unc dNoise dSat noise sat x) (mleObjective unc dNoise dSat noise sat Y) = true
      rw [hx0.1]
      exact henv.fmin _ x0 hex Y

theorem censoredFit_same (env env' : LinEnv) (henv : ExactFit env) (henv' : ExactFit env') (draws draws' : ℕ → ℝ × ℝ × ℝ)
    (start start' : ℝ × ℝ × ℝ) (unc : List (ℝ × ℝ)) (dNoise dSat : List ℝ) (noise sat : Option ℝ)
    (ht : ThresholdsGiven dNoise dSat noise sat) (hx : ∃ o ∈ unc, ∃ o' ∈ unc, o.1 ≠ o'.1)
    (hline : ¬ ∃ b0 b1 : ℝ, ∀ o ∈ unc, o.2 = b0 + b1 * o.1) (fit fit' : LineFit)
    (h : censoredFit env draws start unc dNoise dSat noise sat = .ok fit)
    (h' : censoredFit env' draws' start' unc dNoise dSat noise sat = .ok fit') : fit = fit' := by
  have hu := C158_unique unc dNoise dSat noise sat ht hx hline
  obtain ⟨h1, h2⟩ := censoredFit_min env henv draws start unc dNoise dSat noise sat hu.exists fit h
  obtain ⟨h3, h4⟩ := censoredFit_min env' henv' draws' start' unc dNoise dSat noise sat hu.exists fit' h'
  have := hu.unique h1 h3
  simp only [Prod.mk.injEq] at this
  obtain ⟨e1, e2, e3⟩ := this
  rw [e1, e2, ← h4] at h2
  cases fit; cases fit'
  simp only at e1 e2 e3 h2
  subst e1 e2 e3 h2
  rfl

/-- **C158, the run.**  Two successful censored runs on the same data, with the same Box-Cox exponent search, have the same result: it depends
neither on the random starting points nor on which exact optimiser is used. -/
theorem C158_run (fmax : ℝ) (env env' : LinEnv) (henv : ExactFit env) (henv' : ExactFit env') (hbc : env'.boxCox = env.boxCox)
    (draws draws' : ℕ → ℝ × ℝ × ℝ) (obs : List (ℝ × ℝ)) (det : ℝ) (noise sat : Option ℝ) (boxCox : Bool)
    (hfin : ∀ o ∈ obs, -fmax < o.2 ∧ o.2 < fmax) (r r' : LinModelResult)
    (h : computeLinearModel fmax env draws obs det noise sat boxCox true = .ok r)
    (h' : computeLinearModel fmax env' draws' obs det noise sat boxCox true = .ok r')
    (hx : ∃ o ∈ r.obs, ∃ o' ∈ r.obs, o.1 ≠ o'.1) (hline : ¬ ∃ b0 b1 : ℝ, ∀ o ∈ r.obs, o.2 = b0 + b1 * o.1) : r = r' := by
  have key : ∀ (unc : List (ℝ × ℝ)) (g : ℝ → ℝ) (fit fit' : LineFit), unc = r.obs →
      linFit env draws true unc (noiseDefects fmax obs noise) (satDefects fmax obs sat) (noise.map g) (sat.map g) = .ok fit →
      linFit env' draws' true unc (noiseDefects fmax obs noise) (satDefects fmax obs sat) (noise.map g) (sat.map g) = .ok fit' →
      fit = fit' := by
    intro unc g fit fit' hu hf hf'
    rw [linFit, if_pos rfl] at hf hf'
    subst hu
    exact censoredFit_same env env' henv henv' draws draws' _ _ _ _ _ _ _ (thresholdsGiven_obs fmax g noise sat obs hfin) hx hline
      fit fit' hf hf'
  unfold computeLinearModel at h h'
  simp only [if_true] at h h'
  cases boxCox with
  | false =>
    simp only [Bool.false_eq_true, if_false] at h h'
    cases hl : linFit env draws true (uncensoredObs fmax obs noise sat) (noiseDefects fmax obs noise) (satDefects fmax obs sat) noise sat with
    | error e => rw [hl] at h; cases h
    | ok fit =>
      cases hl' : linFit env' draws' true (uncensoredObs fmax obs noise sat) (noiseDefects fmax obs noise) (satDefects fmax obs sat) noise sat with
      | error e => rw [hl'] at h'; cases h'
      | ok fit' =>
        rw [hl, Except.ok.injEq] at h
        rw [hl', Except.ok.injEq] at h'
        have := key _ id fit fit' (by rw [← h]) (by simpa using hl) (by simpa using hl')
        rw [← h, ← h', this]
  | true =>
    simp only [if_true] at h h'
    cases h1 : boxCoxShift ((uncensoredObs fmax obs noise sat).map Prod.snd) with
    | error e => rw [h1] at h; cases h
    | ok shift =>
      rw [h1] at h h'; dsimp only at h h'
      rw [hbc] at h'
      cases h2 : env.boxCox ((uncensoredObs fmax obs noise sat).map Prod.fst) ((uncensoredObs fmax obs noise sat).map Prod.snd) shift with
      | error e => rw [h2] at h; cases h
      | ok lam =>
        rw [h2] at h h'; dsimp only at h h'
        cases h3 : boxCoxSample lam (((uncensoredObs fmax obs noise sat).map Prod.snd).map (· + shift)) with
        | error e => rw [h3] at h; cases h
        | ok ys =>
          rw [h3] at h h'; dsimp only at h h'
          cases h4 : boxCoxThreshold lam shift noise with
          | error e => rw [h4] at h; cases h
          | ok noise' =>
            rw [h4] at h h'; dsimp only at h h'
            cases h5 : boxCoxThreshold lam shift sat with
            | error e => rw [h5] at h; cases h
            | ok sat' =>
              rw [h5] at h h'; dsimp only at h h'
              cases h6 : boxCoxTransform lam (det + shift) with
              | error e => rw [h6] at h; cases h
              | ok d =>
                rw [h6] at h h'; dsimp only at h h'
                cases hl : linFit env draws true (((uncensoredObs fmax obs noise sat).map Prod.fst).zip ys) (noiseDefects fmax obs noise)
                    (satDefects fmax obs sat) noise' sat' with
                | error e => rw [hl] at h; cases h
                | ok fit =>
                  cases hl' : linFit env' draws' true (((uncensoredObs fmax obs noise sat).map Prod.fst).zip ys)
                      (noiseDefects fmax obs noise) (satDefects fmax obs sat) noise' sat' with
                  | error e => rw [hl'] at h'; cases h'
                  | ok fit' =>
                    rw [hl, Except.ok.injEq] at h
                    rw [hl', Except.ok.injEq] at h'
                    rw [boxCoxThreshold_map _ _ _ _ h4, boxCoxThreshold_map _ _ _ _ h5] at hl hl'
                    have := key _ _ fit fit' (by rw [← h]) hl hl'
                    rw [← h, ← h', this]

/-- **C158, the run succeeds.**  Without Box-Cox and with at least three kept observations, not all at one size and not on one line, every exact
optimiser and every sequence of random starting points give the same successful run. -/
theorem C158_run_succeeds (fmax : ℝ) (obs : List (ℝ × ℝ)) (det : ℝ) (noise sat : Option ℝ)
    (hfin : ∀ o ∈ obs, -fmax < o.2 ∧ o.2 < fmax)
    (hx : ∃ o ∈ keptObs id noise sat obs, ∃ o' ∈ keptObs id noise sat obs, o.1 ≠ o'.1)
    (hline : ¬ ∃ b0 b1 : ℝ, ∀ o ∈ keptObs id noise sat obs, o.2 = b0 + b1 * o.1) (hn : 3 ≤ (keptObs id noise sat obs).length) :
    ∃ r, ∀ env, ExactFit env → ∀ draws, computeLinearModel fmax env draws obs det noise sat false true = .ok r := by
  obtain ⟨env, henv⟩ := exactFit_exists
  obtain ⟨r, hr⟩ := C120_succeeds fmax env henv (fun _ => (0, 0, 0)) obs det noise sat hfin hx hline hn
  refine ⟨r, fun env' henv' draws' => ?_⟩
  obtain ⟨r', hr'⟩ := C120_succeeds fmax env' henv' draws' obs det noise sat hfin hx hline hn
  have henv1 : ExactFit { env' with boxCox := env.boxCox } := ⟨henv'.ols, henv'.fmin⟩
  have hr'' : computeLinearModel fmax { env' with boxCox := env.boxCox } draws' obs det noise sat false true = .ok r' := hr'
  obtain ⟨g, hg, -, ho, -⟩ := podRun_shape fmax env _ obs det noise sat false true r hr
  simp only [if_true] at ho
  rw [(hg.1 rfl).2, keptObs_eq fmax id noise sat obs hfin] at ho
  rw [← ho] at hx hline
  rw [hr', C158_run fmax env _ henv henv1 rfl _ draws' obs det noise sat false hfin r r' hr hr'' hx hline]

/-- The demonstration data: three kept observations, one of each censored kind; one result for all optimisers and draws. -/
example (det : ℝ) : ∃ r, ∀ env, ExactFit env → ∀ draws,
    computeLinearModel 100 env draws demoCensored det (some 1) (some 5) false true = .ok r := by
  refine C158_run_succeeds 100 demoCensored det (some 1) (some 5) ?_ ?_ ?_ ?_
  · intro o ho
    simp only [demoCensored, List.mem_cons, List.not_mem_nil, or_false] at ho
    rcases ho with rfl | rfl | rfl | rfl | rfl <;> norm_num
  · rw [demoCensored_kept]
    exact ⟨(1, 2), by simp, (2, 4), by simp, by norm_num⟩
  · rw [demoCensored_kept]; exact demoCensored_line
  · rw [demoCensored_kept]; simp

/-- Local best points: a saturated and a noisy observation, and the unique best fit of `C158_unique`. -/
example : ∃ X : ℝ × ℝ × ℝ, mleObjective [(1, 2), (2, 4), (3, 3)] [0] [4] (some 1) (some 5) X ≠ .pinf ∧
    ∀ᶠ Y in 𝓝 X, F.le (mleObjective [(1, 2), (2, 4), (3, 3)] [0] [4] (some 1) (some 5) X)
      (mleObjective [(1, 2), (2, 4), (3, 3)] [0] [4] (some 1) (some 5) Y) = true := by
  have ht : ThresholdsGiven [0] [4] (some 1) (some 5) := ⟨by simp, by simp⟩
  obtain ⟨X, hX, -⟩ := C158_unique [(1, 2), (2, 4), (3, 3)] [0] [4] (some 1) (some 5) ht
    ⟨(1, 2), by simp, (2, 4), by simp, by norm_num⟩ demoCensored_line
  refine ⟨X, fun h => ?_, Eventually.of_forall hX⟩
  have := hX (0, 0, 1)
  rw [h, mleObjective_eq _ _ _ _ _ ht (0, 0, 1), if_pos (by norm_num)] at this
  cases this

/-- The hypothesis of a finite objective is needed: at a negative scale the objective is infinite all around. -/
theorem C158_plateau (unc : List (ℝ × ℝ)) (dNoise dSat : List ℝ) (noise sat : Option ℝ) (ht : ThresholdsGiven dNoise dSat noise sat)
    (X : ℝ × ℝ × ℝ) (hX : X.2.2 < 0) :
    ∀ᶠ Y in 𝓝 X, F.le (mleObjective unc dNoise dSat noise sat X) (mleObjective unc dNoise dSat noise sat Y) = true := by
  have : ∀ᶠ Y in 𝓝 X, Y.2.2 < 0 :=
    (isOpen_lt (by fun_prop : Continuous fun W : ℝ × ℝ × ℝ => W.2.2) continuous_const).mem_nhds hX
  filter_upwards [this] with Y hY
  rw [mleObjective_eq _ _ _ _ _ ht, mleObjective_eq _ _ _ _ _ ht, if_neg (not_lt.2 hX.le), if_neg (not_lt.2 hY.le)]
  rfl

end Verif.Props
