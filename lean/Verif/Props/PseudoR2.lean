import Verif.Model.PseudoR2
import Verif.Props.QrRun
import Verif.Props.QuantileReg
import Verif.Props.GaussDetection

/-!
# C230: the R2 of a quantile regression; C31 on data
-/

namespace Verif.Props
open Verif.Py Verif.Model

theorem pinball_sign {tau r : ℝ} (h0 : 0 < tau) (h1 : tau < 1) : 0 ≤ pinball tau r ∧ (pinball tau r = 0 ↔ r = 0) := by
  rcases lt_trichotomy r 0 with h | h | h
  · rw [pinball_nonpos_arg h.le]
    have : 0 < (tau - 1) * r := mul_pos_of_neg_of_neg (by linarith) h
    exact ⟨this.le, ⟨fun h' => absurd h' this.ne', fun h' => absurd h' h.ne⟩⟩
  · subst h
    rw [pinball_nonneg_arg le_rfl]
    simp
  · rw [pinball_nonneg_arg h.le]
    have : 0 < tau * r := mul_pos h0 h
    exact ⟨this.le, ⟨fun h' => absurd h' this.ne', fun h' => absurd h' h.ne'⟩⟩

/-- A loss is not negative, and zero exactly for a line through all the observations. -/
theorem quantLoss_zero {tau : ℝ} (h0 : 0 < tau) (h1 : tau < 1) (obs : List (ℝ × ℝ)) (b0 b1 : ℝ) :
    0 ≤ quantLoss tau obs b0 b1 ∧ (quantLoss tau obs b0 b1 = 0 ↔ ∀ o ∈ obs, o.2 = b0 + b1 * o.1) := by
  unfold quantLoss
  induction obs with
  | nil => simp
  | cons o l ih =>
    obtain ⟨p1, p2⟩ := pinball_sign (r := o.2 - (b0 + b1 * o.1)) h0 h1
    rw [List.map_cons, List.sum_cons]
    refine ⟨add_nonneg p1 ih.1, ?_⟩
    rw [add_eq_zero_iff_of_nonneg p1 ih.1, p2, ih.2, List.forall_mem_cons, sub_eq_zero]

/-- The loss of a constant is that of a horizontal line. -/
theorem nullLoss_eq (tau : ℝ) (obs : List (ℝ × ℝ)) (c : ℝ) : (obs.map fun o => pinball tau (o.2 - c)).sum = quantLoss tau obs c 0 := by
  simp [quantLoss]

/-- Two different signals: no constant goes through all of them. -/
theorem nullLoss_pos {tau : ℝ} (h0 : 0 < tau) (h1 : tau < 1) (obs : List (ℝ × ℝ)) (h : ∃ o ∈ obs, ∃ o' ∈ obs, o.2 ≠ o'.2) (c : ℝ) :
    0 < (obs.map fun o => pinball tau (o.2 - c)).sum := by
  rw [nullLoss_eq]
  obtain ⟨p1, p2⟩ := quantLoss_zero h0 h1 obs c 0
  refine lt_of_le_of_ne p1 fun he => ?_
  obtain ⟨o, ho, o', ho', hne⟩ := h
  have := p2.mp he.symm
  exact hne ((this o ho).trans ((by ring : c + 0 * o.1 = c + 0 * o'.1).trans (this o' ho').symm))

/-- What `fit` returns: the best line and its pseudo R2. -/
structure FitWithR2 (quantReg : List (ℝ × ℝ) → ℝ → QuantFit) (obs : List (ℝ × ℝ)) (tau : ℝ) : Prop where
  exact : QuantRegExact quantReg obs tau
  r2 : (quantReg obs tau).prsquared = pseudoR2 tau obs (quantReg obs tau).intercept (quantReg obs tau).slope

/-- The contract can be met. -/
theorem fitWithR2_exists : ∃ quantReg : List (ℝ × ℝ) → ℝ → QuantFit, ∀ obs tau, 0 < tau → tau < 1 → FitWithR2 quantReg obs tau := by
  obtain ⟨q, hq⟩ := quantReg_exists
  refine ⟨fun obs tau => ⟨(q obs tau).intercept, (q obs tau).slope, pseudoR2 tau obs (q obs tau).intercept (q obs tau).slope⟩, fun obs tau h0 h1 =>
    ⟨fun c0 c1 => hq obs tau h0 h1 c0 c1, rfl⟩⟩

/-- **C230, range.**  When the signals are not all equal, `getR2(q)` is between 0 and 1; it is 1 exactly when all the observations lie on the fitted line,
and 0 exactly when the best line is no better than the percentile of the signals. -/
theorem C230_range (quantReg : List (ℝ × ℝ) → ℝ → QuantFit) (obs : List (ℝ × ℝ)) (q : ℝ) (h0 : 0 < q) (h1 : q < 1)
    (hf : FitWithR2 quantReg obs q) (h : ∃ o ∈ obs, ∃ o' ∈ obs, o.2 ≠ o'.2) :
    let r2 := qrGetR2 (quantReg obs) q
    let m := quantReg obs q
    0 ≤ r2 ∧ r2 ≤ 1 ∧ (r2 = 1 ↔ ∀ o ∈ obs, o.2 = m.intercept + m.slope * o.1) ∧
      (r2 = 0 ↔ ∀ c0 c1, quantLoss q obs (scorePercentile (obs.map Prod.snd) q) 0 ≤ quantLoss q obs c0 c1) := by
  intro r2 m
  have hr : r2 = pseudoR2 q obs m.intercept m.slope := hf.r2
  have hp := nullLoss_pos h0 h1 obs h (scorePercentile (obs.map Prod.snd) q)
  rw [pseudoR2] at hr
  obtain ⟨p1, p2⟩ := quantLoss_zero h0 h1 obs m.intercept m.slope
  have hle : quantLoss q obs m.intercept m.slope ≤ (obs.map fun o => pinball q (o.2 - scorePercentile (obs.map Prod.snd) q)).sum := by
    rw [nullLoss_eq]
    exact hf.exact _ _
  refine ⟨?_, ?_, ?_, ?_⟩
  · rw [hr, sub_nonneg, div_le_one hp]
    exact hle
  · rw [hr]
    have := div_nonneg p1 hp.le
    linarith
  · rw [hr, ← p2, sub_eq_self, div_eq_zero_iff]
    exact or_iff_left hp.ne'
  · rw [hr, sub_eq_zero, eq_comm, div_eq_one_iff_eq hp.ne', nullLoss_eq]
    constructor
    · intro he c0 c1
      rw [← he]
      exact hf.exact c0 c1
    · intro hm
      refine le_antisymm ?_ (hm _ _)
      rw [← nullLoss_eq]
      exact hle

theorem atPos_scale {s : List ℝ} (hne : s ≠ []) (c e t : ℝ) : atPos (s.map (c * · + e)) t = c * atPos s t + e := by
  have hl : 0 < s.length := List.length_pos_iff.mpr hne
  have hg : ∀ i, i < s.length → (s.map (c * · + e)).getD i 0 = c * s.getD i 0 + e := by
    intro i hi
    rw [List.getD_eq_getElem _ _ (by simpa using hi), List.getD_eq_getElem _ _ hi, List.getElem_map]
  unfold atPos
  rw [List.length_map]
  split_ifs with h1 h2
  · exact hg 0 hl
  · exact hg _ (by omega)
  · have hi : ⌊t⌋₊ + 1 < s.length := by
      have hf := Nat.floor_le (not_lt.mp h1)
      have : ((⌊t⌋₊ + 1 : ℕ) : ℝ) < (s.length : ℝ) := by push_cast; linarith [not_le.mp h2]
      exact_mod_cast this
    dsimp only
    rw [hg _ (by omega), hg _ hi]
    ring

theorem sortR_scale (xs : List ℝ) {c : ℝ} (hc : 0 < c) (e : ℝ) : sortR (xs.map (c * · + e)) = (sortR xs).map (c * · + e) := by
  refine List.Perm.eq_of_pairwise (le := (· ≤ ·)) (fun a b _ _ h1 h2 => le_antisymm h1 h2) (sortR_pairwise _) ?_ ((sortR_perm _).trans ((sortR_perm xs).map _).symm)
  rw [List.pairwise_map]
  refine (sortR_pairwise xs).imp fun {a b} h => ?_
  have := mul_le_mul_of_nonneg_left h hc.le
  linarith

theorem scorePercentile_scale {ys : List ℝ} (hne : ys ≠ []) {c : ℝ} (hc : 0 < c) (e q : ℝ) :
    scorePercentile (ys.map (c * · + e)) q = c * scorePercentile ys q + e := by
  rw [scorePercentile, scorePercentile, sortR_scale ys hc, atPos_scale (sortR_ne_nil hne), List.length_map]

/-- **C230, units.**  Sizes in another unit, signals in another unit and origin: `getR2` reports the same value. -/
theorem C230_units (quantReg : List (ℝ × ℝ) → ℝ → QuantFit) (obs : List (ℝ × ℝ)) (hne : obs ≠ []) (q : ℝ) {k c : ℝ} (hk : 0 < k) (hc : 0 < c) (e : ℝ)
    (h1 : FitWithR2 quantReg obs q) (h2 : FitWithR2 quantReg (obs.map fun o => (k * o.1, c * o.2 + e)) q) :
    qrGetR2 (quantReg (obs.map fun o => (k * o.1, c * o.2 + e))) q = qrGetR2 (quantReg obs) q := by
  set obs' := obs.map fun o => (k * o.1, c * o.2 + e) with ho
  have e1 : (quantReg obs' q).prsquared = _ := h2.r2
  have e2 : (quantReg obs q).prsquared = _ := h1.r2
  rw [qrGetR2, qrGetR2, e1, e2, pseudoR2, pseudoR2]
  have hnull : (obs'.map fun o => pinball q (o.2 - scorePercentile (obs'.map Prod.snd) q)).sum =
      c * (obs.map fun o => pinball q (o.2 - scorePercentile (obs.map Prod.snd) q)).sum := by
    have hs : obs'.map Prod.snd = (obs.map Prod.snd).map (c * · + e) := by rw [ho, List.map_map, List.map_map]; rfl
    rw [hs, scorePercentile_scale (by simpa using hne) hc, nullLoss_eq, nullLoss_eq, ho]
    have := quantLoss_scale q obs hk hc e (scorePercentile (obs.map Prod.snd) q) 0
    rwa [mul_zero, zero_div] at this
  have hfit : quantLoss q obs' (quantReg obs' q).intercept (quantReg obs' q).slope = c * quantLoss q obs (quantReg obs q).intercept (quantReg obs q).slope := by
    refine le_antisymm ?_ ?_
    · have := h2.exact (c * (quantReg obs q).intercept + e) (c * (quantReg obs q).slope / k)
      rwa [ho, quantLoss_scale q obs hk hc] at this
    · set m := quantReg obs' q
      have e0 : c * ((m.intercept - e) / c) + e = m.intercept := by field_simp; ring
      have e1 : c * (m.slope * k / c) / k = m.slope := by field_simp
      rw [← e0, ← e1, ho, quantLoss_scale q obs hk hc]
      exact mul_le_mul_of_nonneg_left (h1.exact _ _) hc.le
  rw [hnull, hfit, mul_div_mul_left _ _ hc.ne']

/-- The four observations of the counterexample. -/
def r2Data : List (ℝ × ℝ) := [(0, 0), (1, 0), (1, 0), (1, 1)]

theorem r2Data_loss (tau b0 b1 : ℝ) : quantLoss tau r2Data b0 b1 =
    pinball tau (0 - b0) + (pinball tau (0 - (b0 + b1)) + (pinball tau (0 - (b0 + b1)) + pinball tau (1 - (b0 + b1)))) := by
  simp [quantLoss, r2Data]

/-- **C31 is violated on data**: for the four observations (0, 0), (1, 0), (1, 0), (1, 1) and every level above 3/4, `getR2(p)` is positive while the R2 of
the line used for the detection size at probability `p` is zero. -/
theorem C31_violated_data (quantReg : List (ℝ × ℝ) → ℝ → QuantFit) (p : ℝ) (h0 : 3 / 4 < p) (h1 : p < 1) (hf : FitWithR2 quantReg r2Data p)
    (hf' : FitWithR2 quantReg r2Data (1 - p)) :
    0 < qrGetR2 (quantReg r2Data) p ∧ (qrFitFor (quantReg r2Data) p).prsquared = 0 := by
  have hne : ∃ o ∈ r2Data, ∃ o' ∈ r2Data, o.2 ≠ o'.2 := ⟨(0, 0), by simp [r2Data], (1, 1), by simp [r2Data], by simp⟩
  constructor
  · obtain ⟨r1, -, -, r4⟩ := C230_range quantReg r2Data p (by linarith) h1 hf hne
    refine lt_of_le_of_ne r1 fun he => ?_
    have h := r4.mp he.symm 0 1
    set c := scorePercentile (r2Data.map Prod.snd) p
    rw [r2Data_loss, r2Data_loss] at h
    have e1 : pinball p (1 - (0 + 1)) = 0 := by rw [pinball_nonneg_arg (by norm_num)]; ring
    have e2 : pinball p (0 - (0 + 1)) = 1 - p := by rw [pinball_nonpos_arg (by norm_num)]; ring
    have e3 : pinball p (0 - (0 : ℝ)) = 0 := by rw [pinball_nonneg_arg (by norm_num)]; ring
    rw [e1, e2, e3, add_zero] at h
    rcases le_total c 0 with hc | hc
    · rw [pinball_nonneg_arg (by linarith : 0 ≤ 0 - c), pinball_nonneg_arg (by linarith : 0 ≤ 1 - c)] at h
      nlinarith
    · rw [pinball_nonpos_arg (by linarith : 0 - c ≤ 0)] at h
      rcases le_total c 1 with hc1 | hc1
      · rw [pinball_nonneg_arg (by linarith : 0 ≤ 1 - c)] at h
        nlinarith
      · rw [pinball_nonpos_arg (by linarith : 1 - c ≤ 0)] at h
        nlinarith
  · have hr : (qrFitFor (quantReg r2Data) p).prsquared = qrGetR2 (quantReg r2Data) (1 - p) := rfl
    rw [hr, (C230_range quantReg r2Data (1 - p) (by linarith) (by linarith) hf' hne).2.2.2]
    have hs : scorePercentile (r2Data.map Prod.snd) (1 - p) = 0 := by
      have hsort : sortR (r2Data.map Prod.snd) = [0, 0, 0, 1] := by
        rw [sortR_of_sorted] <;> simp [r2Data]
      have hpos : 0 ≤ (1 - p) * ((4 : ℝ) - 1) := by nlinarith
      have hlt : (1 - p) * ((4 : ℝ) - 1) < 1 := by linarith
      rw [scorePercentile, hsort, show ((r2Data.map Prod.snd).length : ℝ) = 4 by simp [r2Data], atPos, if_neg (not_lt.mpr hpos), if_neg (by simp; linarith)]
      have hf0 : ⌊(1 - p) * ((4 : ℝ) - 1)⌋₊ = 0 := Nat.floor_eq_zero.mpr hlt
      dsimp only
      rw [hf0]
      simp
    intro c0 c1
    rw [hs, r2Data_loss, r2Data_loss]
    have e1 : pinball (1 - p) (0 - (0 : ℝ)) = 0 := by rw [pinball_nonneg_arg (by norm_num)]; ring
    have e2 : pinball (1 - p) (1 - (0 : ℝ)) = 1 - p := by rw [pinball_nonneg_arg (by norm_num)]; ring
    have g1 := (pinball_sign (tau := 1 - p) (r := 0 - c0) (by linarith) (by linarith)).1
    rw [add_zero, e1, e2]
    rcases le_total (c0 + c1) 0 with hc | hc
    · rw [pinball_nonneg_arg (by linarith : 0 ≤ 0 - (c0 + c1)), pinball_nonneg_arg (by linarith : 0 ≤ 1 - (c0 + c1))]
      nlinarith
    · rw [pinball_nonpos_arg (by linarith : 0 - (c0 + c1) ≤ 0)]
      rcases le_total (c0 + c1) 1 with hc1 | hc1
      · rw [pinball_nonneg_arg (by linarith : 0 ≤ 1 - (c0 + c1))]
        nlinarith
      · rw [pinball_nonpos_arg (by linarith : 1 - (c0 + c1) ≤ 0)]
        nlinarith

/-- A regression with the contract exists, so the hypotheses of the three theorems can be met (level 9/10). -/
example : ∃ quantReg : List (ℝ × ℝ) → ℝ → QuantFit, 0 < qrGetR2 (quantReg r2Data) (9 / 10) ∧
    qrGetR2 (quantReg (r2Data.map fun o => (1000 * o.1, 2 * o.2 + 5))) (9 / 10) = qrGetR2 (quantReg r2Data) (9 / 10) := by
  obtain ⟨q, hq⟩ := fitWithR2_exists
  exact ⟨q, (C31_violated_data q (9 / 10) (by norm_num) (by norm_num) (hq _ _ (by norm_num) (by norm_num)) (hq _ _ (by norm_num) (by norm_num))).1,
    C230_units q r2Data (by simp [r2Data]) (9 / 10) (by norm_num) (by norm_num) 5 (hq _ _ (by norm_num) (by norm_num)) (hq _ _ (by norm_num) (by norm_num))⟩

end Verif.Props
