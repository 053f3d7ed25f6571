import Verif.Props.CensoredUnique
import Verif.Props.BoxCoxUnits

/-!
# C159: a censored run does not depend on the units
-/

namespace Verif.Props
open Verif.Py Verif.Model ProbabilityTheory MeasureTheory Set Filter Topology

/-- Observations in other units: sizes `k x + t`, signals `c y + e`. -/
def inUnits (k t c e : ℝ) (obs : List (ℝ × ℝ)) : List (ℝ × ℝ) := obs.map fun o => (k * o.1 + t, c * o.2 + e)

/-- Intercept, slope and scale of the same line in the other units. -/
noncomputable def unitParams (k t c e : ℝ) (X : ℝ × ℝ × ℝ) : ℝ × ℝ × ℝ :=
  (c * X.1 + e - c * X.2.1 * t / k, c * X.2.1 / k, c * X.2.2)

theorem unitParams_line (k t c e : ℝ) (hk : k ≠ 0) (X : ℝ × ℝ × ℝ) (x : ℝ) :
    (unitParams k t c e X).1 + (unitParams k t c e X).2.1 * (k * x + t) = c * (X.1 + X.2.1 * x) + e := by
  simp only [unitParams]
  field_simp
  ring

theorem unitParams_inv (k t c e : ℝ) (hk : k ≠ 0) (hc : c ≠ 0) (X : ℝ × ℝ × ℝ) :
    unitParams k t c e (unitParams (1 / k) (-t / k) (1 / c) (-e / c) X) = X := by
  obtain ⟨a, b, s⟩ := X
  simp only [unitParams, Prod.mk.injEq]
  refine ⟨?_, ?_, ?_⟩
  · field_simp; ring
  · field_simp
  · field_simp

theorem nll_units (unc : List (ℝ × ℝ)) (noisy sat : List ℝ) (tn ts k t c e : ℝ) (hk : k ≠ 0) (hc : 0 < c) (X : ℝ × ℝ × ℝ)
    (hs : 0 < X.2.2) :
    nll (inUnits k t c e unc) (noisy.map fun x => k * x + t) (sat.map fun x => k * x + t) (c * tn + e) (c * ts + e) (unitParams k t c e X)
      = nll unc noisy sat tn ts X + unc.length * Real.log c := by
  have hc' : c ≠ 0 := ne_of_gt hc
  have hs' : X.2.2 ≠ 0 := ne_of_gt hs
  have hz : ∀ u x : ℝ, (c * u + e - ((unitParams k t c e X).1 + (unitParams k t c e X).2.1 * (k * x + t))) / (unitParams k t c e X).2.2
      = (u - (X.1 + X.2.1 * x)) / X.2.2 := by
    intro u x
    rw [unitParams_line k t c e hk]
    show _ / (c * X.2.2) = _
    rw [show c * u + e - (c * (X.1 + X.2.1 * x) + e) = c * (u - (X.1 + X.2.1 * x)) by ring, mul_div_mul_left _ _ hc']
  have hsse : listSse (inUnits k t c e unc) (unitParams k t c e X).1 (unitParams k t c e X).2.1 = c ^ 2 * listSse unc X.1 X.2.1 := by
    rw [listSse, listSse, inUnits, List.map_map, ← List.sum_map_mul_left]
    congr 1
    refine List.map_congr_left fun o _ => ?_
    show (c * o.2 + e - ((unitParams k t c e X).1 + (unitParams k t c e X).2.1 * (k * o.1 + t))) ^ 2 = _
    rw [unitParams_line k t c e hk]
    ring
  simp only [nll, List.map_map, Function.comp_def, hz, hsse]
  have h1 : (inUnits k t c e unc).length = unc.length := by simp [inUnits]
  have h2 : Real.log ((unitParams k t c e X).2.2 * Real.sqrt (2 * Real.pi)) = Real.log c + Real.log (X.2.2 * Real.sqrt (2 * Real.pi)) := by
    show Real.log (c * X.2.2 * Real.sqrt (2 * Real.pi)) = _
    rw [mul_assoc, Real.log_mul hc' (by positivity)]
  have h3 : 1 / (2 * (unitParams k t c e X).2.2 ^ 2) * (c ^ 2 * listSse unc X.1 X.2.1) = 1 / (2 * X.2.2 ^ 2) * listSse unc X.1 X.2.1 := by
    show 1 / (2 * (c * X.2.2) ^ 2) * _ = _
    field_simp
  rw [h1, h2, h3]
  ring

section Groups
variable (fmax k t c e : ℝ) (obs : List (ℝ × ℝ)) (noise sat : Option ℝ)

theorem noiseDefects_units (hc : 0 < c) (hfin : ∀ o ∈ obs, -fmax < o.2) (hfin' : ∀ o ∈ obs, -fmax < c * o.2 + e) :
    noiseDefects fmax (inUnits k t c e obs) (noise.map fun s => c * s + e) = (noiseDefects fmax obs noise).map fun x => k * x + t := by
  rw [noiseDefects, noiseDefects, inUnits, List.filter_map, List.map_map, List.map_map]
  rw [show (obs.filter ((fun o : ℝ × ℝ => decide (o.2 ≤ (noise.map fun s => c * s + e).getD (-fmax))) ∘ fun o => (k * o.1 + t, c * o.2 + e)))
    = obs.filter fun o => decide (o.2 ≤ noise.getD (-fmax)) from ?_]
  · rfl
  · refine List.filter_congr fun o ho => ?_
    cases noise with
    | none => simp [not_le.2 (hfin o ho), not_le.2 (hfin' o ho)]
    | some u => simp [mul_le_mul_iff_right₀ hc]

theorem satDefects_units (hc : 0 < c) (hfin : ∀ o ∈ obs, o.2 < fmax) (hfin' : ∀ o ∈ obs, c * o.2 + e < fmax) :
    satDefects fmax (inUnits k t c e obs) (sat.map fun s => c * s + e) = (satDefects fmax obs sat).map fun x => k * x + t := by
  rw [satDefects, satDefects, inUnits, List.filter_map, List.map_map, List.map_map]
  rw [show (obs.filter ((fun o : ℝ × ℝ => decide ((sat.map fun s => c * s + e).getD fmax ≤ o.2)) ∘ fun o => (k * o.1 + t, c * o.2 + e)))
    = obs.filter fun o => decide (sat.getD fmax ≤ o.2) from ?_]
  · rfl
  · refine List.filter_congr fun o ho => ?_
    cases sat with
    | none => simp [not_le.2 (hfin o ho), not_le.2 (hfin' o ho)]
    | some u => simp [mul_le_mul_iff_right₀ hc]

theorem keptObs_units (hc : 0 < c) :
    keptObs id (noise.map fun s => c * s + e) (sat.map fun s => c * s + e) (inUnits k t c e obs)
      = inUnits k t c e (keptObs id noise sat obs) := by
  classical
  rw [keptObs, keptObs, inUnits, List.filter_map, inUnits, List.map_map, List.map_map]
  rw [show (obs.filter _) = obs.filter fun o => decide ((∀ t ∈ noise, t < o.2) ∧ ∀ t ∈ sat, o.2 < t) from ?_]
  · rfl
  · refine List.filter_congr fun o ho => ?_
    cases noise <;> cases sat <;> simp [mul_lt_mul_iff_right₀ hc]

end Groups

theorem inUnits_sizes (k t c e : ℝ) (hk : k ≠ 0) (l : List (ℝ × ℝ)) (hx : ∃ o ∈ l, ∃ o' ∈ l, o.1 ≠ o'.1) :
    ∃ o ∈ inUnits k t c e l, ∃ o' ∈ inUnits k t c e l, o.1 ≠ o'.1 := by
  obtain ⟨o, ho, o', ho', h⟩ := hx
  exact ⟨_, List.mem_map.2 ⟨o, ho, rfl⟩, _, List.mem_map.2 ⟨o', ho', rfl⟩, fun h' => h (mul_left_cancel₀ hk (add_right_cancel h'))⟩

theorem inUnits_line (k t c e : ℝ) (hc : 0 < c) (l : List (ℝ × ℝ)) (hline : ¬ ∃ b0 b1 : ℝ, ∀ o ∈ l, o.2 = b0 + b1 * o.1) :
    ¬ ∃ b0 b1 : ℝ, ∀ o ∈ inUnits k t c e l, o.2 = b0 + b1 * o.1 := by
  rintro ⟨b0, b1, h⟩
  refine hline ⟨(b0 + b1 * t - e) / c, b1 * k / c, fun o ho => ?_⟩
  have := h _ (List.mem_map.2 ⟨o, ho, rfl⟩)
  simp only at this
  field_simp
  linarith

/-- The best censored fit in other units is the best fit in the first units, converted. -/
theorem censoredFit_units (env env' : LinEnv) (henv : ExactFit env) (henv' : ExactFit env') (draws draws' : ℕ → ℝ × ℝ × ℝ)
    (start start' : ℝ × ℝ × ℝ) (unc : List (ℝ × ℝ)) (dNoise dSat : List ℝ) (noise sat : Option ℝ) (k t c e : ℝ) (hk : k ≠ 0) (hc : 0 < c)
    (ht : ThresholdsGiven dNoise dSat noise sat) (hx : ∃ o ∈ unc, ∃ o' ∈ unc, o.1 ≠ o'.1)
    (hline : ¬ ∃ b0 b1 : ℝ, ∀ o ∈ unc, o.2 = b0 + b1 * o.1) (fit fit' : LineFit)
    (h : censoredFit env draws start unc dNoise dSat noise sat = .ok fit)
    (h' : censoredFit env' draws' start' (inUnits k t c e unc) (dNoise.map fun x => k * x + t) (dSat.map fun x => k * x + t)
      (noise.map fun s => c * s + e) (sat.map fun s => c * s + e) = .ok fit') :
    (fit'.intercept, fit'.slope, fit'.stderr) = unitParams k t c e (fit.intercept, fit.slope, fit.stderr) ∧
      fit'.residuals = fit.residuals.map (c * ·) ∧ 0 < fit.stderr := by
  have ht' : ThresholdsGiven (dNoise.map fun x => k * x + t) (dSat.map fun x => k * x + t) (noise.map fun s => c * s + e)
      (sat.map fun s => c * s + e) := by
    refine ⟨fun h => ?_, fun h => ?_⟩
    · rw [Option.map_eq_none_iff] at h; rw [ht.1 h]; rfl
    · rw [Option.map_eq_none_iff] at h; rw [ht.2 h]; rfl
  -- the value of the converted objective
  have hobj : ∀ X : ℝ × ℝ × ℝ, 0 < X.2.2 →
      nll (inUnits k t c e unc) (dNoise.map fun x => k * x + t) (dSat.map fun x => k * x + t) ((noise.map fun s => c * s + e).getD 0)
        ((sat.map fun s => c * s + e).getD 0) (unitParams k t c e X)
      = nll unc dNoise dSat (noise.getD 0) (sat.getD 0) X + unc.length * Real.log c := by
    intro X hX
    rw [← nll_units unc dNoise dSat (noise.getD 0) (sat.getD 0) k t c e hk hc X hX]
    unfold nll
    cases noise with
    | none =>
      rw [ht.1 rfl]
      cases sat with
      | none => rw [ht.2 rfl]; rfl
      | some v => rfl
    | some u =>
      cases sat with
      | none => rw [ht.2 rfl]; rfl
      | some v => rfl
  have hu := C158_unique unc dNoise dSat noise sat ht hx hline
  have hu' := C158_unique _ _ _ _ _ ht' (inUnits_sizes k t c e hk unc hx) (inUnits_line k t c e hc unc hline)
  obtain ⟨h1, h2⟩ := censoredFit_min env henv draws start unc dNoise dSat noise sat hu.exists fit h
  obtain ⟨h3, h4⟩ := censoredFit_min env' henv' draws' start' _ _ _ _ _ hu'.exists fit' h'
  have hpos : 0 < fit.stderr := by
    by_contra hneg
    have := h1 (0, 0, 1)
    rw [mleObjective_eq _ _ _ _ _ ht, if_neg hneg, mleObjective_eq _ _ _ _ _ ht (0, 0, 1), if_pos (by norm_num)] at this
    cases this
  have hmin : ∀ Y, F.le (mleObjective (inUnits k t c e unc) (dNoise.map fun x => k * x + t) (dSat.map fun x => k * x + t)
        (noise.map fun s => c * s + e) (sat.map fun s => c * s + e) (unitParams k t c e (fit.intercept, fit.slope, fit.stderr)))
      (mleObjective (inUnits k t c e unc) (dNoise.map fun x => k * x + t) (dSat.map fun x => k * x + t)
        (noise.map fun s => c * s + e) (sat.map fun s => c * s + e) Y) = true := by
    intro Y
    have hp : 0 < (unitParams k t c e (fit.intercept, fit.slope, fit.stderr)).2.2 := mul_pos hc hpos
    rw [mleObjective_eq _ _ _ _ _ ht', if_pos hp, mleObjective_eq _ _ _ _ _ ht' Y]
    split_ifs with hY
    · rw [F.le_fin, decide_eq_true_eq, hobj _ hpos]
      set Z := unitParams (1 / k) (-t / k) (1 / c) (-e / c) Y with hZ
      have hZs : 0 < Z.2.2 := by
        show 0 < 1 / c * Y.2.2
        positivity
      have hYZ : unitParams k t c e Z = Y := unitParams_inv k t c e hk (ne_of_gt hc) Y
      rw [← hYZ, hobj Z hZs]
      have := h1 Z
      rw [mleObjective_eq _ _ _ _ _ ht, if_pos hpos, mleObjective_eq _ _ _ _ _ ht Z, if_pos hZs, F.le_fin, decide_eq_true_eq] at this
      linarith
    · rfl
  have heq := hu'.unique h3 hmin
  refine ⟨heq, ?_, hpos⟩
  have e1 : fit'.intercept = (unitParams k t c e (fit.intercept, fit.slope, fit.stderr)).1 := by rw [← heq]
  have e2 : fit'.slope = (unitParams k t c e (fit.intercept, fit.slope, fit.stderr)).2.1 := by rw [← heq]
  rw [h4, h2, e1, e2, lineResiduals, lineResiduals, inUnits, List.map_map, List.map_map]
  refine List.map_congr_left fun o _ => ?_
  show c * o.2 + e - ((unitParams k t c e (fit.intercept, fit.slope, fit.stderr)).1
    + (unitParams k t c e (fit.intercept, fit.slope, fit.stderr)).2.1 * (k * o.1 + t)) = c * (o.2 - (fit.intercept + fit.slope * o.1))
  rw [unitParams_line k t c e hk]
  ring

theorem podGauss_list_units (l : List (ℝ × ℝ)) (hx : ∃ o ∈ l, ∃ o' ∈ l, o.1 ≠ o'.1) (k t c e s d a : ℝ) (hk : k ≠ 0) (hc : 0 < c)
    (L L' : ℝ → ℝ) (hL : L' (k * a + t) = c * L a + e) :
    podGauss (fun i : Fin (inUnits k t c e l).length => ((inUnits k t c e l).get i).1) (c * s) (c * d + e) L' (k * a + t)
      = podGauss (fun i : Fin l.length => (l.get i).1) s d L a := by
  have hl : inUnits k t c e l = List.ofFn fun i : Fin l.length => (k * (l.get i).1 + t, c * (l.get i).2 + e) := by
    rw [inUnits]
    conv_lhs => rw [← List.ofFn_get l, List.map_ofFn]
    rfl
  rw [podGauss_get (fun i : Fin l.length => k * (l.get i).1 + t) (fun i : Fin l.length => c * (l.get i).2 + e) _ hl]
  have hx1 : ∃ i j, (fun i : Fin l.length => (l.get i).1) i ≠ (fun i : Fin l.length => (l.get i).1) j := by
    obtain ⟨o, h1, o', h2, h3⟩ := hx
    obtain ⟨i, hi, rfl⟩ := List.getElem_of_mem h1
    obtain ⟨j, hj, rfl⟩ := List.getElem_of_mem h2
    exact ⟨⟨i, hi⟩, ⟨j, hj⟩, h3⟩
  set x : Fin l.length → ℝ := fun i => (l.get i).1 with hxdef
  have hn : l.length ≠ 0 := by obtain ⟨i, -⟩ := hx1; exact fun h => by rw [h] at i; exact i.elim0
  have hx' : ∃ i j, (fun i => k * x i + t) i ≠ (fun i => k * x i + t) j := by
    obtain ⟨i, j, h⟩ := hx1
    exact ⟨i, j, fun h' => h (mul_left_cancel₀ hk (add_right_cancel h'))⟩
  rw [podGauss, podGauss, hL, predictionVariance_eq _ _ _ hx', predictionVariance_eq _ _ _ hx1, smean_affine hn]
  have h2 : ∀ i, (k * x i + t - (k * smean x + t)) ^ 2 = k ^ 2 * (x i - smean x) ^ 2 := fun i => by ring
  simp only [h2, ← Finset.mul_sum]
  have h3 : (k * a + t - (k * smean x + t)) ^ 2 / (k ^ 2 * ∑ i, (x i - smean x) ^ 2)
      = (a - smean x) ^ 2 / ∑ i, (x i - smean x) ^ 2 := by
    rw [show (k * a + t - (k * smean x + t)) ^ 2 = k ^ 2 * (a - smean x) ^ 2 by ring, mul_div_mul_left _ _ (pow_ne_zero 2 hk)]
  rw [h3, mul_pow, mul_assoc, Real.sqrt_mul (sq_nonneg c), Real.sqrt_sq hc.le]
  rw [show c * d + e - (c * L a + e) = c * (d - L a) by ring, mul_div_mul_left _ _ (ne_of_gt hc)]

theorem empiricalCCDF_scale (l : List ℝ) (c s : ℝ) (hc : 0 < c) : empiricalCCDF (l.map (c * ·)) (c * s) = empiricalCCDF l s := by
  rw [empiricalCCDF, empiricalCCDF, List.length_map, List.countP_map]
  congr 2
  refine List.countP_congr fun x _ => ?_
  simp [mul_lt_mul_iff_right₀ hc]

/-- **C159.**  Sizes in another unit (`k x + t`), and signals, noise threshold, saturation threshold and detection threshold in another unit
(`c y + e`): the censored run keeps the same observations and gives the same Gaussian POD and the same binomial POD of each flaw. -/
theorem C159_units (fmax : ℝ) (env env' : LinEnv) (henv : ExactFit env) (henv' : ExactFit env') (draws draws' : ℕ → ℝ × ℝ × ℝ)
    (obs : List (ℝ × ℝ)) (det : ℝ) (noise sat : Option ℝ) (k t c e : ℝ) (hk : k ≠ 0) (hc : 0 < c)
    (hfin : ∀ o ∈ obs, -fmax < o.2 ∧ o.2 < fmax) (hfin' : ∀ o ∈ obs, -fmax < c * o.2 + e ∧ c * o.2 + e < fmax)
    (hx : ∃ o ∈ keptObs id noise sat obs, ∃ o' ∈ keptObs id noise sat obs, o.1 ≠ o'.1)
    (hline : ¬ ∃ b0 b1 : ℝ, ∀ o ∈ keptObs id noise sat obs, o.2 = b0 + b1 * o.1) (hn : 3 ≤ (keptObs id noise sat obs).length) :
    ∃ r r', computeLinearModel fmax env draws obs det noise sat false true = .ok r ∧
      computeLinearModel fmax env' draws' (inUnits k t c e obs) (c * det + e) (noise.map fun s => c * s + e) (sat.map fun s => c * s + e)
        false true = .ok r' ∧
      r'.obs = inUnits k t c e r.obs ∧ (∀ a, runGaussPod r' (k * a + t) = runGaussPod r a) ∧
      ∀ a, runBinomialPod r' (k * a + t) = runBinomialPod r a := by
  have hfin1 : ∀ o ∈ inUnits k t c e obs, -fmax < o.2 ∧ o.2 < fmax := by
    intro o ho
    obtain ⟨p, hp, rfl⟩ := List.mem_map.1 ho
    exact hfin' p hp
  have hk' := keptObs_units k t c e obs noise sat hc
  obtain ⟨r, hr⟩ := C120_succeeds fmax env henv draws obs det noise sat hfin hx hline hn
  obtain ⟨r', hr'⟩ := C120_succeeds fmax env' henv' draws' (inUnits k t c e obs) (c * det + e) (noise.map fun s => c * s + e)
    (sat.map fun s => c * s + e) hfin1 (by rw [hk']; exact inUnits_sizes k t c e hk _ hx) (by rw [hk']; exact inUnits_line k t c e hc _ hline)
    (by rw [hk']; simpa [inUnits] using hn)
  refine ⟨r, r', hr, hr', ?_⟩
  obtain ⟨g, hg, hd, ho, hf⟩ := podRun_shape fmax env draws obs det noise sat false true r hr
  obtain ⟨g', hg', hd', ho', hf'⟩ := podRun_shape fmax env' draws' _ _ _ _ false true r' hr'
  simp only [if_true] at ho ho'
  rw [(hg.1 rfl).2] at hd ho hf
  rw [(hg'.1 rfl).2] at hd' ho' hf'
  rw [keptObs_eq fmax id noise sat obs hfin] at ho
  rw [keptObs_eq fmax id _ _ _ hfin1, hk', ← ho] at ho'
  simp only [id_eq] at hd hd'
  rw [linFit, if_pos rfl] at hf hf'
  simp only [Bool.true_or, if_true, Option.map_id, id_eq] at hf hf'
  rw [ho', noiseDefects_units fmax k t c e obs noise hc (fun o h => (hfin o h).1) (fun o h => (hfin' o h).1),
    satDefects_units fmax k t c e obs sat hc (fun o h => (hfin o h).2) (fun o h => (hfin' o h).2)] at hf'
  rw [← ho] at hx hline
  have htg := thresholdsGiven_obs fmax id noise sat obs hfin
  simp only [Option.map_id, id_eq] at htg
  obtain ⟨h1, h2, h3⟩ := censoredFit_units env env' henv henv' draws draws' _ _ r.obs _ _ noise sat k t c e hk hc htg hx hline r.fit r'.fit hf hf'
  have hL : ∀ a, r'.fit.intercept + r'.fit.slope * (k * a + t) = c * (r.fit.intercept + r.fit.slope * a) + e := by
    intro a
    have := unitParams_line k t c e hk (r.fit.intercept, r.fit.slope, r.fit.stderr) a
    rw [← h1] at this
    exact this
  have hS : r'.fit.stderr = c * r.fit.stderr := by
    have : r'.fit.stderr = (unitParams k t c e (r.fit.intercept, r.fit.slope, r.fit.stderr)).2.2 := by rw [← h1]
    exact this
  refine ⟨ho', fun a => ?_, fun a => ?_⟩
  · rw [runGaussPod, runGaussPod, hS, hd', hd]
    rw [ho']
    exact podGauss_list_units r.obs hx k t c e _ det a hk hc _ _ (hL a)
  · rw [runBinomialPod, runBinomialPod, podBinomial, podBinomial, hL a, h2, hd', hd,
      show c * det + e - (c * (r.fit.intercept + r.fit.slope * a) + e) = c * (det - (r.fit.intercept + r.fit.slope * a)) by ring,
      empiricalCCDF_scale _ _ _ hc]

/-- Inches to millimetres and volts to millivolts on the demonstration data. -/
example : ∃ env, ExactFit env ∧ ∃ r r', computeLinearModel 100000 env (fun _ => (0, 0, 0)) demoCensored 3 (some 1) (some 5) false true = .ok r ∧
    computeLinearModel 100000 env (fun _ => (0, 0, 0)) (inUnits (254 / 10) 0 1000 0 demoCensored) (1000 * 3 + 0)
      ((some 1).map fun s => 1000 * s + 0) ((some 5).map fun s => 1000 * s + 0) false true = .ok r' ∧
    runGaussPod r' (254 / 10 * 2 + 0) = runGaussPod r 2 := by
  obtain ⟨env, henv⟩ := exactFit_exists
  have hin : ∀ o ∈ demoCensored, (1 : ℝ) ≤ o.2 ∧ o.2 ≤ 5 := by
    intro o ho
    simp only [demoCensored, List.mem_cons, List.not_mem_nil, or_false] at ho
    rcases ho with rfl | rfl | rfl | rfl | rfl <;> norm_num
  obtain ⟨r, r', h1, h2, -, h3, -⟩ := C159_units 100000 env env henv henv (fun _ => (0, 0, 0)) (fun _ => (0, 0, 0)) demoCensored 3 (some 1)
    (some 5) (254 / 10) 0 1000 0 (by norm_num) (by norm_num)
    (fun o ho => by have := hin o ho; constructor <;> linarith) (fun o ho => by have := hin o ho; constructor <;> linarith)
    (by rw [demoCensored_kept]; exact ⟨(1, 2), by simp, (2, 4), by simp, by norm_num⟩)
    (by rw [demoCensored_kept]; exact demoCensored_line) (by rw [demoCensored_kept]; simp)
  exact ⟨env, henv, r, r', h1, h2, h3 2⟩

end Verif.Props
