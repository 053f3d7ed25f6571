import Verif.Props.SignalOutlier
import Verif.Props.BoxCoxLik
import Verif.Props.DetectionSplit

/-!
# C238: an observation on the fitted line sharpens the linear POD
-/

namespace Verif.Props
open Verif.Py Verif.Model

variable {n : ℕ}

/-- The data `x` with one more value. -/
abbrev withObs (x : Fin n → ℝ) (c : ℝ) : Fin (n + 1) → ℝ := Fin.snoc (α := fun _ => ℝ) x c

theorem sum_more (x y : Fin n → ℝ) (c e : ℝ) (F : ℝ → ℝ → ℝ) :
    ∑ i, F (withObs x c i) (withObs y e i) = (∑ i, F (x i) (y i)) + F c e := by
  simp only [withObs]
  rw [Fin.sum_univ_castSucc]
  simp only [Fin.snoc_castSucc, Fin.snoc_last]

theorem more_ne (x : Fin n → ℝ) (c : ℝ) (hx : ∃ i j, x i ≠ x j) : ∃ i j, withObs x c i ≠ withObs x c j := by
  obtain ⟨i, j, h⟩ := hx
  exact ⟨i.castSucc, j.castSucc, by simpa [withObs] using h⟩

theorem smean_more (x : Fin n → ℝ) (c : ℝ) (hn : n ≠ 0) : smean (withObs x c) = smean x + (c - smean x) / (n + 1) := by
  have hn' : (n : ℝ) ≠ 0 := by exact_mod_cast hn
  have h1 : (n : ℝ) + 1 ≠ 0 := by positivity
  have h := sum_more x x c c fun a _ => a
  rw [smean, smean, h]
  push_cast
  field_simp
  ring

/-- Sum of the products of the centred values around another centre. -/
theorem centred_sum (x y : Fin n → ℝ) (hn : n ≠ 0) (s t : ℝ) :
    ∑ i, (x i - smean x - s) * (y i - smean y - t) = (∑ i, (x i - smean x) * (y i - smean y)) + n * (s * t) := by
  have hn' : (n : ℝ) ≠ 0 := by exact_mod_cast hn
  have hx : ∑ i, (x i - smean x) = 0 := by
    rw [Finset.sum_sub_distrib, Finset.sum_const, Finset.card_univ, Fintype.card_fin, nsmul_eq_mul, smean]; field_simp; ring
  have hy : ∑ i, (y i - smean y) = 0 := by
    rw [Finset.sum_sub_distrib, Finset.sum_const, Finset.card_univ, Fintype.card_fin, nsmul_eq_mul, smean]; field_simp; ring
  have h : ∀ i, (x i - smean x - s) * (y i - smean y - t)
      = (x i - smean x) * (y i - smean y) - t * (x i - smean x) - s * (y i - smean y) + s * t := fun i => by ring
  simp only [h, Finset.sum_add_distrib, Finset.sum_sub_distrib, ← Finset.mul_sum, hx, hy, Finset.sum_const, Finset.card_univ, Fintype.card_fin,
    nsmul_eq_mul]
  ring

theorem sxy_more (x y : Fin n → ℝ) (c e : ℝ) (hn : n ≠ 0) :
    ∑ i, (withObs x c i - smean (withObs x c)) * (withObs y e i - smean (withObs y e))
      = (∑ i, (x i - smean x) * (y i - smean y)) + n / (n + 1) * ((c - smean x) * (e - smean y)) := by
  have h1 : (n : ℝ) + 1 ≠ 0 := by positivity
  rw [sum_more x y c e fun a b => (a - smean (withObs x c)) * (b - smean (withObs y e)), smean_more x c hn, smean_more y e hn]
  have h := centred_sum x y hn ((c - smean x) / (n + 1)) ((e - smean y) / (n + 1))
  simp only [← sub_sub]
  rw [h]
  field_simp
  ring

theorem sxx_more (x : Fin n → ℝ) (c : ℝ) (hn : n ≠ 0) :
    ∑ i, (withObs x c i - smean (withObs x c)) ^ 2 = (∑ i, (x i - smean x) ^ 2) + n / (n + 1) * (c - smean x) ^ 2 := by
  have h := sxy_more x x c c hn
  simp only [← sq] at h
  exact h

/-- **C238, line.**  The fitted line is the same. -/
theorem C238_line (x y : Fin n → ℝ) (hx : ∃ i j, x i ≠ x j) (c : ℝ) :
    olsSlope (withObs x c) (withObs y (olsIntercept x y + olsSlope x y * c)) = olsSlope x y ∧
    olsIntercept (withObs x c) (withObs y (olsIntercept x y + olsSlope x y * c)) = olsIntercept x y := by
  have hn : n ≠ 0 := by have := two_le_of_ne hx; omega
  have hS := sxx_pos x hx
  have h1 : (0 : ℝ) < (n : ℝ) + 1 := by positivity
  have he : olsIntercept x y + olsSlope x y * c - smean y = olsSlope x y * (c - smean x) := by rw [olsIntercept]; ring
  have hslope : olsSlope (withObs x c) (withObs y (olsIntercept x y + olsSlope x y * c)) = olsSlope x y := by
    have hS' : 0 < (∑ i, (x i - smean x) ^ 2) + n / (n + 1) * (c - smean x) ^ 2 := by positivity
    have hxy : ∑ i, (x i - smean x) * (y i - smean y) = olsSlope x y * ∑ i, (x i - smean x) ^ 2 := by
      rw [olsSlope, div_mul_cancel₀ _ hS.ne']
    rw [olsSlope, sxy_more _ _ _ _ hn, sxx_more _ _ hn, he, div_eq_iff hS'.ne', hxy]
    ring
  refine ⟨hslope, ?_⟩
  rw [olsIntercept, hslope, smean_more _ _ hn, smean_more _ _ hn, he, olsIntercept]
  ring

/-- The residuals are the same, and that of the new observation is 0. -/
theorem resid_more (x y : Fin n → ℝ) (hx : ∃ i j, x i ≠ x j) (c : ℝ) :
    olsResiduals (withObs x c) (withObs y (olsIntercept x y + olsSlope x y * c)) = withObs (olsResiduals x y) 0 := by
  obtain ⟨h1, h2⟩ := C238_line x y hx c
  funext i
  simp only [olsResiduals, h1, h2]
  refine Fin.lastCases ?_ (fun i => ?_) i
  · simp [withObs]
  · simp [withObs, olsResiduals]

theorem scale_more (x y : Fin n → ℝ) (hx : ∃ i j, x i ≠ x j) (c : ℝ) :
    linearScale (withObs x c) (withObs y (olsIntercept x y + olsSlope x y * c)) = (∑ i, olsResiduals x y i ^ 2) / ((n : ℝ) - 1) := by
  rw [linearScale, resid_more x y hx, sum_more (olsResiduals x y) (olsResiduals x y) 0 0 fun a _ => a ^ 2]
  push_cast
  congr 1
  · ring
  · ring

/-- **C238, leverage.**  Whatever its signal, a new observation never makes the mean prediction less precise. -/
theorem C238_leverage (x : Fin n → ℝ) (hx : ∃ i j, x i ≠ x j) (c a : ℝ) :
    1 / ((n : ℝ) + 1) + (a - smean (withObs x c)) ^ 2 / ∑ i, (withObs x c i - smean (withObs x c)) ^ 2
      ≤ 1 / (n : ℝ) + (a - smean x) ^ 2 / ∑ i, (x i - smean x) ^ 2 := by
  have hn : n ≠ 0 := by have := two_le_of_ne hx; omega
  have hn' : (0 : ℝ) < n := by exact_mod_cast Nat.pos_of_ne_zero hn
  have hS := sxx_pos x hx
  rw [sxx_more x c hn, smean_more x c hn]
  generalize (∑ i, (x i - smean x) ^ 2) = S at *
  obtain ⟨t, rfl⟩ : ∃ t, a = smean x + t := ⟨a - smean x, by ring⟩
  obtain ⟨d, rfl⟩ : ∃ d, c = smean x + d := ⟨c - smean x, by ring⟩
  generalize (n : ℝ) = N at *
  simp only [add_sub_cancel_left, add_sub_add_left_eq_sub]
  have hD : 0 < S * (N + 1) + N * d ^ 2 := by positivity
  have key : 1 / N + t ^ 2 / S - (1 / (N + 1) + (t - d / (N + 1)) ^ 2 / (S + N / (N + 1) * d ^ 2))
      = (S + N * t * d) ^ 2 / (N * S * (S * (N + 1) + N * d ^ 2)) := by
    have e : S + N / (N + 1) * d ^ 2 = (S * (N + 1) + N * d ^ 2) / (N + 1) := by field_simp
    rw [e]
    field_simp
    ring
  have : 0 ≤ (S + N * t * d) ^ 2 / (N * S * (S * (N + 1) + N * d ^ 2)) := by positivity
  linarith

/-- The standard deviation of a new measurement gets smaller. -/
theorem spread_more (x y : Fin n → ℝ) (hx : ∃ i j, x i ≠ x j) (hn : 2 < n) (hy : 0 < linearStderr x y) (c a : ℝ) :
    0 < predictionVariance (withObs x c) (linearStderr (withObs x c) (withObs y (olsIntercept x y + olsSlope x y * c))) a ∧
    predictionVariance (withObs x c) (linearStderr (withObs x c) (withObs y (olsIntercept x y + olsSlope x y * c))) a
      < predictionVariance x (linearStderr x y) a := by
  have hN : (2 : ℝ) < n := by exact_mod_cast hn
  have hsc : 0 < linearScale x y := Real.sqrt_pos.1 hy
  have hssr : 0 < ∑ i, olsResiduals x y i ^ 2 := by
    rw [linearScale] at hsc
    have := (div_pos_iff_of_pos_right (show (0 : ℝ) < (n : ℝ) - 2 by linarith)).1 hsc
    exact this
  have hS := sxx_pos x hx
  have hS' := sxx_pos (withObs x c) (more_ne x c hx)
  have hlev := C238_leverage x hx c a
  rw [predictionVariance_eq _ _ _ (more_ne x c hx), predictionVariance_eq _ _ _ hx, linearStderr, linearStderr, Real.sq_sqrt hsc.le, scale_more x y hx,
    Real.sq_sqrt (div_nonneg hssr.le (by linarith))]
  push_cast
  have h1 : (∑ i, olsResiduals x y i ^ 2) / ((n : ℝ) - 1) < linearScale x y := by
    rw [linearScale]
    exact div_lt_div_of_pos_left hssr (by linarith) (by linarith)
  have h0 : 0 < (∑ i, olsResiduals x y i ^ 2) / ((n : ℝ) - 1) := div_pos hssr (by linarith)
  have hl0 : 0 < 1 + (1 / ((n : ℝ) + 1) + (a - smean (withObs x c)) ^ 2 / ∑ i, (withObs x c i - smean (withObs x c)) ^ 2) := by positivity
  refine ⟨mul_pos h0 hl0, ?_⟩
  calc _ < linearScale x y * (1 + (1 / ((n : ℝ) + 1) + (a - smean (withObs x c)) ^ 2 / ∑ i, (withObs x c i - smean (withObs x c)) ^ 2)) :=
        mul_lt_mul_of_pos_right h1 hl0
    _ ≤ _ := mul_le_mul_of_nonneg_left (by linarith) hsc.le

/-- **C238, Gaussian POD.**  Where the line is above the threshold the POD rises, where it is below the POD falls, and at the crossing it stays 1/2. -/
theorem C238_gauss (x y : Fin n → ℝ) (hx : ∃ i j, x i ≠ x j) (hn : 2 < n) (hy : 0 < linearStderr x y) (c det a : ℝ) :
    let line := fun a => olsIntercept x y + olsSlope x y * a
    (det < line a → gaussPodOf x y det a < gaussPodOf (withObs x c) (withObs y (line c)) det a) ∧
    (line a < det → gaussPodOf (withObs x c) (withObs y (line c)) det a < gaussPodOf x y det a) ∧
    (line a = det → gaussPodOf x y det a = 1 / 2 ∧ gaussPodOf (withObs x c) (withObs y (line c)) det a = 1 / 2) := by
  intro line
  obtain ⟨h0, hlt⟩ := spread_more x y hx hn hy c a
  obtain ⟨e1, e2⟩ := C238_line x y hx c
  have hv := Real.sqrt_lt_sqrt h0.le hlt
  have hv0 := Real.sqrt_pos.2 h0
  have hw0 := hv0.trans hv
  have hP : gaussPodOf (withObs x c) (withObs y (line c)) det a
      = 1 - Phi ((det - line a) / Real.sqrt (predictionVariance (withObs x c) (linearStderr (withObs x c) (withObs y (line c))) a)) := by
    simp only [gaussPodOf, podGauss, PhiC_eq, line, e1, e2]
  have hQ : gaussPodOf x y det a = 1 - Phi ((det - line a) / Real.sqrt (predictionVariance x (linearStderr x y) a)) := by
    simp only [gaussPodOf, podGauss, PhiC_eq, line]
  rw [hP, hQ]
  refine ⟨fun h => ?_, fun h => ?_, fun h => ?_⟩
  · have := Phi_strictMono (show (det - line a) / Real.sqrt (predictionVariance (withObs x c) (linearStderr (withObs x c) (withObs y (line c))) a)
        < (det - line a) / Real.sqrt (predictionVariance x (linearStderr x y) a) from ?_)
    · linarith
    · have := div_lt_div_of_pos_left (show 0 < line a - det by linarith) hv0 hv
      rw [← neg_sub (line a) det, neg_div, neg_div]
      exact neg_lt_neg this
  · have := Phi_strictMono (div_lt_div_of_pos_left (show 0 < det - line a by linarith) hv0 hv)
    linarith
  · rw [h, sub_self, zero_div, zero_div]
    have : Phi 0 = 1 / 2 := by
      have := Phi_neg 0
      rw [neg_zero] at this
      linarith
    rw [this]
    norm_num

/-- **C238, detected sizes.**  Every size whose POD reaches a level of at least 1/2 still reaches it with the new observation: the detection size does not
get larger. -/
theorem C238_detected (x y : Fin n → ℝ) (hx : ∃ i j, x i ≠ x j) (hn : 2 < n) (hy : 0 < linearStderr x y) (c det a p : ℝ) (hp : 1 / 2 ≤ p)
    (h : p ≤ gaussPodOf x y det a) : p ≤ gaussPodOf (withObs x c) (withObs y (olsIntercept x y + olsSlope x y * c)) det a := by
  obtain ⟨h1, h2, h3⟩ := C238_gauss x y hx hn hy c det a
  rcases lt_trichotomy det (olsIntercept x y + olsSlope x y * a) with hlt | heq | hgt
  · exact h.trans (h1 hlt).le
  · obtain ⟨e1, e2⟩ := h3 heq.symm
    rw [e2]; rw [e1] at h; exact h
  · exfalso
    have h0 := spread_more x y hx hn hy c a
    have hw := Real.sqrt_pos.2 (h0.1.trans h0.2)
    have : gaussPodOf x y det a < 1 / 2 := by
      simp only [gaussPodOf, podGauss, PhiC_eq]
      have hz : Phi 0 = 1 / 2 := by
        have := Phi_neg 0
        rw [neg_zero] at this
        linarith
      have := Phi_strictMono (div_pos (sub_pos.2 hgt) hw)
      linarith
    linarith

/-- **C238, detection size.**  A further observation on the line, inside the range of the observed defects, never enlarges the computed detection size of a
level of at least 1/2. -/
theorem C238_detection (x y : Fin n → ℝ) (hx : ∃ i j, x i ≠ x j) (hn : 2 < n) (hy : 0 < linearStderr x y) (c det p : ℝ) (hp : 1 / 2 ≤ p) (i0 i1 : Fin n)
    (hmin : ∀ i, x i0 ≤ x i) (hmax : ∀ i, x i ≤ x i1) (hc0 : x i0 ≤ c) (hc1 : c ≤ x i1) (hlo : gaussPodOf x y det (x i0) < p)
    (hhi : p < gaussPodOf x y det (x i1))
    (hlo' : gaussPodOf (withObs x c) (withObs y (olsIntercept x y + olsSlope x y * c)) det (x i0) < p) :
    ∃ d d', d' ≤ d ∧ ∀ solve, SolveSpec solve → ∀ z chi M, gaussDetectionOf solve x y det z chi M p none = .ok ([d], [labelP p]) ∧
      gaussDetectionOf solve (withObs x c) (withObs y (olsIntercept x y + olsSlope x y * c)) det z chi M p none = .ok ([d'], [labelP p]) := by
  obtain ⟨d, hd, ⟨hd0, hd1⟩, hsep⟩ := C186_separates x y det p hx hy i0 i1 hmin hmax hlo hhi
  have hs' : 0 < linearStderr (withObs x c) (withObs y (olsIntercept x y + olsSlope x y * c)) := by
    obtain ⟨h0, -⟩ := spread_more x y hx hn hy c 0
    rw [predictionVariance_eq _ _ _ (more_ne x c hx)] at h0
    refine lt_of_le_of_ne (Real.sqrt_nonneg _) fun h => ?_
    rw [← h] at h0
    simp at h0
  have hz : ∀ i, withObs x c (Fin.castSucc i) = x i := fun i => by simp [withObs]
  have hl : withObs x c (Fin.last n) = c := by simp [withObs]
  obtain ⟨d', hd', ⟨hd0', hd1'⟩, hsep'⟩ := C186_separates (withObs x c) (withObs y (olsIntercept x y + olsSlope x y * c)) det p (more_ne x c hx) hs'
    i0.castSucc i1.castSucc (fun i => Fin.lastCases (by rw [hz, hl]; exact hc0) (fun i => by rw [hz, hz]; exact hmin i) i)
    (fun i => Fin.lastCases (by rw [hz, hl]; exact hc1) (fun i => by rw [hz, hz]; exact hmax i) i) (by rw [hz]; exact hlo')
    (by
      rw [hz]
      have hle := C238_detected x y hx hn hy c det (x i1) (gaussPodOf x y det (x i1)) (hp.trans hhi.le) le_rfl
      exact hhi.trans_le hle)
  rw [hz, hz] at hsep'
  rw [hz] at hd0' hd1'
  refine ⟨d, d', ?_, fun solve hsolve z chi M => ⟨hd solve hsolve z chi M, hd' solve hsolve z chi M⟩⟩
  by_contra hlt
  push Not at hlt
  obtain ⟨a, ha, ha'⟩ := exists_between hlt
  have h1 := (hsep a (hd0.le.trans ha.le) (ha'.le.trans hd1'.le)).2 ha
  have h2 := (hsep' a (hd0.le.trans ha.le) (ha'.le.trans hd1'.le)).1 ha'
  have := C238_detected x y hx hn hy c det a p hp h1.le
  linarith

theorem numAbove_more (r : Fin n → ℝ) (t : ℝ) : numAbove (withObs r 0) t = numAbove r t + if t < 0 then 1 else 0 := by
  have h : ∀ {m : ℕ} (r : Fin m → ℝ), numAbove r t = ∑ i, if t < r i then 1 else 0 := fun r => by
    rw [numAbove, Finset.card_filter]
  rw [h, h, Fin.sum_univ_castSucc]
  simp only [withObs, Fin.snoc_castSucc, Fin.snoc_last]

/-- **C238, binomial POD.**  Where the line is above the threshold the POD does not fall (it rises unless it is 1), elsewhere it does not rise (it falls
unless it is 0). -/
theorem C238_binomial (x y : Fin n → ℝ) (hx : ∃ i j, x i ≠ x j) (c det a : ℝ) :
    let line := fun a => olsIntercept x y + olsSlope x y * a
    (det < line a → binomialPodOf x y det a ≤ binomialPodOf (withObs x c) (withObs y (line c)) det a ∧
      (binomialPodOf x y det a ≠ 1 → binomialPodOf x y det a < binomialPodOf (withObs x c) (withObs y (line c)) det a)) ∧
    (line a ≤ det → binomialPodOf (withObs x c) (withObs y (line c)) det a ≤ binomialPodOf x y det a ∧
      (binomialPodOf x y det a ≠ 0 → binomialPodOf (withObs x c) (withObs y (line c)) det a < binomialPodOf x y det a)) := by
  intro line
  have hn : n ≠ 0 := by have := two_le_of_ne hx; omega
  have hn' : (0 : ℝ) < n := by exact_mod_cast Nat.pos_of_ne_zero hn
  obtain ⟨e1, e2⟩ := C238_line x y hx c
  have hQ : binomialPodOf x y det a = (numAbove (olsResiduals x y) (det - line a) : ℝ) / n := podBinomial_eq _ _ _ _
  have hP : binomialPodOf (withObs x c) (withObs y (line c)) det a
      = ((numAbove (olsResiduals x y) (det - line a) + if det - line a < 0 then 1 else 0 : ℕ) : ℝ) / ((n : ℝ) + 1) := by
    rw [binomialPodOf, podBinomial_eq, e1, e2, resid_more x y hx, numAbove_more]
    push_cast
    rfl
  have hk : (numAbove (olsResiduals x y) (det - line a) : ℝ) ≤ n := by exact_mod_cast numAbove_le _ _
  have hk0 : (0 : ℝ) ≤ numAbove (olsResiduals x y) (det - line a) := by positivity
  rw [hP, hQ]
  refine ⟨fun h => ?_, fun h => ?_⟩
  · rw [if_pos (by linarith)]
    push_cast
    refine ⟨?_, fun hne => ?_⟩
    · rw [div_le_div_iff₀ hn' (by positivity)]; nlinarith
    · have : (numAbove (olsResiduals x y) (det - line a) : ℝ) < n := lt_of_le_of_ne hk fun h => hne (by rw [h, div_self hn'.ne'])
      rw [div_lt_div_iff₀ hn' (by positivity)]; nlinarith
  · rw [if_neg (by linarith), add_zero]
    refine ⟨?_, fun hne => ?_⟩
    · rw [div_le_div_iff₀ (by positivity) hn']; nlinarith
    · have : (0 : ℝ) < numAbove (olsResiduals x y) (det - line a) := lt_of_le_of_ne hk0 fun h => hne (by rw [← h, zero_div])
      rw [div_lt_div_iff₀ (by positivity) hn']; nlinarith

/-- Three signals off their line, and a fourth observation on it. -/
example : let x : Fin 3 → ℝ := ![0, 1, 2]
    let y : Fin 3 → ℝ := ![0, 3, 0]
    gaussPodOf x y 0 5 < gaussPodOf (withObs x 7) (withObs y 1) 0 5 ∧ gaussPodOf (withObs x 7) (withObs y 1) 2 5 < gaussPodOf x y 2 5 := by
  intro x y
  have hm : smean x = 1 := by simp [smean, x, Fin.sum_univ_three]; norm_num
  have hmy : smean y = 1 := by simp [smean, y, Fin.sum_univ_three]
  have hsl : olsSlope x y = 0 := by rw [olsSlope, hm, hmy]; simp [x, y, Fin.sum_univ_three]; norm_num
  have hi : olsIntercept x y = 1 := by rw [olsIntercept, hsl, hm, hmy]; norm_num
  have hx : ∃ i j, x i ≠ x j := ⟨0, 1, by simp [x]⟩
  have hs : 0 < linearStderr x y := by
    rw [linearStderr, Real.sqrt_pos, linearScale]
    simp only [olsResiduals, hsl, hi, Fin.sum_univ_three]
    simp [y]
    norm_num
  have h1 := (C238_gauss x y hx (by norm_num) hs 7 0 5).1
  have h2 := (C238_gauss x y hx (by norm_num) hs 7 2 5).2.1
  simp only [hsl, hi] at h1 h2
  norm_num at h1 h2
  exact ⟨h1, h2⟩

/-- A detection size of level 1/2 before and after a fourth observation. -/
example : let x : Fin 3 → ℝ := ![0, 1, 2]
    let y : Fin 3 → ℝ := ![0, 2, 1]
    ∃ d d', d' ≤ d ∧ ∀ solve, SolveSpec solve → ∀ z chi M, gaussDetectionOf solve x y 1 z chi M (1 / 2) none = .ok ([d], [labelP (1 / 2)]) ∧
      gaussDetectionOf solve (withObs x 1) (withObs y (olsIntercept x y + olsSlope x y * 1)) 1 z chi M (1 / 2) none = .ok ([d'], [labelP (1 / 2)]) := by
  intro x y
  have hm : smean x = 1 := by simp [smean, x, Fin.sum_univ_three]; norm_num
  have hmy : smean y = 1 := by simp [smean, y, Fin.sum_univ_three]; norm_num
  have hsl : olsSlope x y = 1 / 2 := by rw [olsSlope, hm, hmy]; simp [x, y, Fin.sum_univ_three]; norm_num
  have hi : olsIntercept x y = 1 / 2 := by rw [olsIntercept, hsl, hm, hmy]; norm_num
  have hx : ∃ i j, x i ≠ x j := ⟨0, 1, by simp [x]⟩
  have hs : 0 < linearStderr x y := by
    rw [linearStderr, Real.sqrt_pos, linearScale]
    simp only [olsResiduals, hsl, hi, Fin.sum_univ_three]
    simp [x, y]
    norm_num
  have hhalf : ∀ a, (1 < 1 / 2 + 1 / 2 * a → 1 / 2 < gaussPodOf x y 1 a) ∧ (1 / 2 + 1 / 2 * a < 1 → gaussPodOf x y 1 a < 1 / 2) := by
    intro a
    obtain ⟨h0, h1⟩ := spread_more x y hx (by norm_num) hs 1 a
    have hw := Real.sqrt_pos.2 (h0.trans h1)
    have hz : Phi 0 = 1 / 2 := by
      have := Phi_neg 0
      rw [neg_zero] at this
      linarith
    simp only [gaussPodOf, podGauss, PhiC_eq, hsl, hi]
    refine ⟨fun h => ?_, fun h => ?_⟩
    · have := Phi_strictMono (div_neg_of_neg_of_pos (sub_neg.2 h) hw)
      linarith
    · have := Phi_strictMono (div_pos (sub_pos.2 h) hw)
      linarith
  have h0 := (hhalf 0).2 (by norm_num)
  have hb := (C238_gauss x y hx (by norm_num) hs 1 1 0).2.1 (by rw [hsl, hi]; norm_num)
  refine C238_detection x y hx (by norm_num) hs 1 1 (1 / 2) le_rfl 0 2 (fun i => ?_) (fun i => ?_) (by simp [x]) (by simp [x]) h0
    ((hhalf 2).1 (by norm_num)) (hb.trans h0)
  · fin_cases i <;> simp [x]
  · fin_cases i <;> simp [x]

end Verif.Props
