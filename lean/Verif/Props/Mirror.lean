import Verif.Props.CensoredUnits

/-!
# Signals that fall (C233)

An indication may be a fall of the signal (a shadow, a loss of the back-wall echo).  The library only knows signals that rise above
the threshold; the user negates signals and thresholds, and the noise and saturation thresholds change places.  The claim is that this
is a mirror image of the study: same kept observations, and the probability that the negated signal is above the negated threshold is
the complement of the POD.
-/

namespace Verif.Props
open Verif.Py Verif.Model ProbabilityTheory MeasureTheory Set Filter Topology

/-- The observations with the opposite signals. -/
def mirrored (obs : List (ℝ × ℝ)) : List (ℝ × ℝ) := obs.map fun o => (o.1, -o.2)

/-- The opposite line with the same scale. -/
def mirrorParams (X : ℝ × ℝ × ℝ) : ℝ × ℝ × ℝ := (-X.1, -X.2.1, X.2.2)

theorem mirrorParams_inv (X : ℝ × ℝ × ℝ) : mirrorParams (mirrorParams X) = X := by
  simp [mirrorParams]

theorem nll_mirror (unc : List (ℝ × ℝ)) (noisy sat : List ℝ) (tn ts : ℝ) (X : ℝ × ℝ × ℝ) :
    nll (mirrored unc) sat noisy (-ts) (-tn) (mirrorParams X) = nll unc noisy sat tn ts X := by
  have hsse : listSse (mirrored unc) (mirrorParams X).1 (mirrorParams X).2.1 = listSse unc X.1 X.2.1 := by
    rw [listSse, listSse, mirrored, List.map_map]
    congr 1
    refine List.map_congr_left fun o _ => ?_
    show (-o.2 - (-X.1 + -X.2.1 * o.1)) ^ 2 = (o.2 - (X.1 + X.2.1 * o.1)) ^ 2
    ring
  have h1 : ∀ x, (-ts - ((mirrorParams X).1 + (mirrorParams X).2.1 * x)) / (mirrorParams X).2.2
      = -((ts - (X.1 + X.2.1 * x)) / X.2.2) := by
    intro x
    show (-ts - (-X.1 + -X.2.1 * x)) / X.2.2 = _
    rw [← neg_div]
    congr 1
    ring
  have h2 : ∀ x, (-tn - ((mirrorParams X).1 + (mirrorParams X).2.1 * x)) / (mirrorParams X).2.2
      = -((tn - (X.1 + X.2.1 * x)) / X.2.2) := by
    intro x
    show (-tn - (-X.1 + -X.2.1 * x)) / X.2.2 = _
    rw [← neg_div]
    congr 1
    ring
  have hl : (mirrored unc).length = unc.length := by simp [mirrored]
  simp only [nll, h1, h2, hsse, hl, Phi_neg, sub_sub_cancel]
  show _ * Real.log (X.2.2 * _) + 1 / (2 * X.2.2 ^ 2) * _ + _ + _ = _
  ring

section Groups
variable (fmax : ℝ) (obs : List (ℝ × ℝ)) (noise sat : Option ℝ)

theorem noiseDefects_mirror :
    noiseDefects fmax (mirrored obs) (sat.map fun s => -s) = satDefects fmax obs sat := by
  rw [noiseDefects, satDefects, mirrored, List.filter_map, List.map_map]
  rw [show (obs.filter ((fun o : ℝ × ℝ => decide (o.2 ≤ (sat.map fun s => -s).getD (-fmax))) ∘ fun o => (o.1, -o.2)))
    = obs.filter fun o => decide (sat.getD fmax ≤ o.2) from ?_]
  · rfl
  · refine List.filter_congr fun o _ => ?_
    cases sat with
    | none => simp
    | some u => simp

theorem satDefects_mirror (hfin : ∀ o ∈ obs, -fmax < o.2) :
    satDefects fmax (mirrored obs) (noise.map fun s => -s) = noiseDefects fmax obs noise := by
  rw [noiseDefects, satDefects, mirrored, List.filter_map, List.map_map]
  rw [show (obs.filter ((fun o : ℝ × ℝ => decide ((noise.map fun s => -s).getD fmax ≤ o.2)) ∘ fun o => (o.1, -o.2)))
    = obs.filter fun o => decide (o.2 ≤ noise.getD (-fmax)) from ?_]
  · rfl
  · refine List.filter_congr fun o ho => ?_
    cases noise with
    | none => simp [not_le.2 (hfin o ho), hfin o ho, neg_lt.mp (hfin o ho)]
    | some u => simp

theorem keptObs_mirror :
    keptObs id (sat.map fun s => -s) (noise.map fun s => -s) (mirrored obs) = mirrored (keptObs id noise sat obs) := by
  classical
  rw [keptObs, keptObs, mirrored, List.filter_map, mirrored, List.map_map, List.map_map]
  rw [show (obs.filter _) = obs.filter fun o => decide ((∀ t ∈ noise, t < o.2) ∧ ∀ t ∈ sat, o.2 < t) from ?_]
  · rfl
  · refine List.filter_congr fun o ho => ?_
    cases noise <;> cases sat <;> simp [and_comm]

end Groups

theorem mirrored_sizes (l : List (ℝ × ℝ)) (hx : ∃ o ∈ l, ∃ o' ∈ l, o.1 ≠ o'.1) :
    ∃ o ∈ mirrored l, ∃ o' ∈ mirrored l, o.1 ≠ o'.1 := by
  obtain ⟨o, ho, o', ho', h⟩ := hx
  exact ⟨_, List.mem_map.2 ⟨o, ho, rfl⟩, _, List.mem_map.2 ⟨o', ho', rfl⟩, h⟩

theorem mirrored_line (l : List (ℝ × ℝ)) (hline : ¬ ∃ b0 b1 : ℝ, ∀ o ∈ l, o.2 = b0 + b1 * o.1) :
    ¬ ∃ b0 b1 : ℝ, ∀ o ∈ mirrored l, o.2 = b0 + b1 * o.1 := by
  rintro ⟨b0, b1, h⟩
  refine hline ⟨-b0, -b1, fun o ho => ?_⟩
  have := h _ (List.mem_map.2 ⟨o, ho, rfl⟩)
  simp only at this
  linarith

/-- The best censored fit of the mirrored data is the mirrored best fit. -/
theorem censoredFit_mirror (env env' : LinEnv) (henv : ExactFit env) (henv' : ExactFit env') (draws draws' : ℕ → ℝ × ℝ × ℝ)
    (start start' : ℝ × ℝ × ℝ) (unc : List (ℝ × ℝ)) (dNoise dSat : List ℝ) (noise sat : Option ℝ)
    (ht : ThresholdsGiven dNoise dSat noise sat) (hx : ∃ o ∈ unc, ∃ o' ∈ unc, o.1 ≠ o'.1)
    (hline : ¬ ∃ b0 b1 : ℝ, ∀ o ∈ unc, o.2 = b0 + b1 * o.1) (fit fit' : LineFit)
    (h : censoredFit env draws start unc dNoise dSat noise sat = .ok fit)
    (h' : censoredFit env' draws' start' (mirrored unc) dSat dNoise (sat.map fun s => -s) (noise.map fun s => -s) = .ok fit') :
    (fit'.intercept, fit'.slope, fit'.stderr) = mirrorParams (fit.intercept, fit.slope, fit.stderr) ∧
      fit'.residuals = fit.residuals.map (-·) ∧ 0 < fit.stderr := by
  have ht' : ThresholdsGiven dSat dNoise (sat.map fun s => -s) (noise.map fun s => -s) := by
    refine ⟨fun h => ?_, fun h => ?_⟩
    · rw [Option.map_eq_none_iff] at h; exact ht.2 h
    · rw [Option.map_eq_none_iff] at h; exact ht.1 h
  have hobj : ∀ X : ℝ × ℝ × ℝ,
      nll (mirrored unc) dSat dNoise ((sat.map fun s => -s).getD 0) ((noise.map fun s => -s).getD 0) (mirrorParams X)
      = nll unc dNoise dSat (noise.getD 0) (sat.getD 0) X := by
    intro X
    rw [← nll_mirror unc dNoise dSat (noise.getD 0) (sat.getD 0) X]
    congr 1
    · cases sat <;> simp
    · cases noise <;> simp
  have hu := C158_unique unc dNoise dSat noise sat ht hx hline
  have hu' := C158_unique _ _ _ _ _ ht' (mirrored_sizes unc hx) (mirrored_line unc hline)
  obtain ⟨h1, h2⟩ := censoredFit_min env henv draws start unc dNoise dSat noise sat hu.exists fit h
  obtain ⟨h3, h4⟩ := censoredFit_min env' henv' draws' start' _ _ _ _ _ hu'.exists fit' h'
  have hpos : 0 < fit.stderr := by
    by_contra hneg
    have := h1 (0, 0, 1)
    rw [mleObjective_eq _ _ _ _ _ ht, if_neg hneg, mleObjective_eq _ _ _ _ _ ht (0, 0, 1), if_pos (by norm_num)] at this
    cases this
  have hmin : ∀ Y, F.le (mleObjective (mirrored unc) dSat dNoise (sat.map fun s => -s) (noise.map fun s => -s)
        (mirrorParams (fit.intercept, fit.slope, fit.stderr)))
      (mleObjective (mirrored unc) dSat dNoise (sat.map fun s => -s) (noise.map fun s => -s) Y) = true := by
    intro Y
    have hp : 0 < (mirrorParams (fit.intercept, fit.slope, fit.stderr)).2.2 := hpos
    rw [mleObjective_eq _ _ _ _ _ ht', if_pos hp, mleObjective_eq _ _ _ _ _ ht' Y]
    split_ifs with hY
    · rw [F.le_fin, decide_eq_true_eq, hobj]
      have hZs : 0 < (mirrorParams Y).2.2 := hY
      rw [← mirrorParams_inv Y, hobj (mirrorParams Y)]
      have := h1 (mirrorParams Y)
      rw [mleObjective_eq _ _ _ _ _ ht, if_pos hpos, mleObjective_eq _ _ _ _ _ ht (mirrorParams Y), if_pos hZs, F.le_fin,
        decide_eq_true_eq] at this
      exact this
    · rfl
  have heq := hu'.unique h3 hmin
  refine ⟨heq, ?_, hpos⟩
  have e1 : fit'.intercept = -fit.intercept := congrArg Prod.fst heq
  have e2 : fit'.slope = -fit.slope := congrArg (fun X : ℝ × ℝ × ℝ => X.2.1) heq
  rw [h4, h2, e1, e2, lineResiduals, lineResiduals, mirrored, List.map_map, List.map_map]
  refine List.map_congr_left fun o _ => ?_
  show -o.2 - (-fit.intercept + -fit.slope * o.1) = -(o.2 - (fit.intercept + fit.slope * o.1))
  ring

theorem PhiC_neg (x : ℝ) : PhiC (-x) = 1 - PhiC x := by
  rw [PhiC_eq, PhiC_eq, Phi_neg]

theorem podGauss_list_mirror (l : List (ℝ × ℝ)) (s d a : ℝ) (L L' : ℝ → ℝ) (hL : L' a = -L a) :
    podGauss (fun i : Fin (mirrored l).length => ((mirrored l).get i).1) s (-d) L' a
      = 1 - podGauss (fun i : Fin l.length => (l.get i).1) s d L a := by
  have hl : mirrored l = List.ofFn fun i : Fin l.length => ((l.get i).1, -(l.get i).2) := by
    rw [mirrored]
    conv_lhs => rw [← List.ofFn_get l, List.map_ofFn]
    rfl
  rw [podGauss_get (fun i : Fin l.length => (l.get i).1) (fun i : Fin l.length => -(l.get i).2) _ hl, podGauss, podGauss, hL,
    ← PhiC_neg, ← neg_div]
  congr 2
  ring

/-- The share above the opposite value, among the opposite values: at most the complement, and the complement without ties. -/
theorem empiricalCCDF_mirror (l : List ℝ) (hl : l ≠ []) (s : ℝ) :
    empiricalCCDF (l.map (-·)) (-s) ≤ 1 - empiricalCCDF l s ∧
      (s ∉ l → empiricalCCDF (l.map (-·)) (-s) = 1 - empiricalCCDF l s) := by
  have hlen : (0 : ℝ) < l.length := by exact_mod_cast List.length_pos_of_ne_nil hl
  have e : (l.map (-·)).countP (fun r => decide (-s < r)) = l.countP fun r => decide (r < s) := by
    rw [List.countP_map]
    refine List.countP_congr fun x _ => ?_
    simp
  have hsum : l.countP (fun r => decide (s < r)) + l.countP (fun r => ! decide (s < r)) = l.length := by
    have := List.length_eq_countP_add_countP (fun r => decide (s < r)) (l := l)
    simp only [Bool.not_eq_true, Bool.decide_eq_false] at this
    exact this.symm
  have hsum' : (l.countP (fun r => decide (s < r)) : ℝ) + l.countP (fun r => ! decide (s < r)) = l.length := by exact_mod_cast hsum
  have hc : 1 - empiricalCCDF l s = (l.countP (fun r => ! decide (s < r)) : ℝ) / l.length := by
    rw [empiricalCCDF, ← hsum']
    have : (l.countP (fun r => decide (s < r)) : ℝ) + l.countP (fun r => ! decide (s < r)) ≠ 0 := by rw [hsum']; exact ne_of_gt hlen
    field_simp
    ring
  rw [hc, empiricalCCDF, e, List.length_map]
  constructor
  · refine div_le_div_of_nonneg_right ?_ hlen.le
    exact_mod_cast List.countP_mono_left fun x _ hx => by
      simp only [decide_eq_true_eq] at hx
      simp [hx.le]
  · intro hs
    congr 2
    refine List.countP_congr fun x hx => ?_
    have : x ≠ s := fun h => hs (h ▸ hx)
    simp only [decide_eq_true_eq, Bool.not_eq_true', decide_eq_false_iff_not, not_lt]
    exact ⟨le_of_lt, fun h => lt_of_le_of_ne h this⟩

/-- **C233.**  Opposite signals and opposite thresholds, the noise threshold becoming the saturation threshold and vice versa: the run
keeps the same observations, fits the opposite line with the same standard deviation, and its Gaussian POD is one minus the POD.  The
binomial POD is at most one minus the POD, and equal to it at every size at which no residual lies exactly on the margin. -/
theorem C233_censored (fmax : ℝ) (env env' : LinEnv) (henv : ExactFit env) (henv' : ExactFit env') (draws draws' : ℕ → ℝ × ℝ × ℝ)
    (obs : List (ℝ × ℝ)) (det : ℝ) (noise sat : Option ℝ) (hfin : ∀ o ∈ obs, -fmax < o.2 ∧ o.2 < fmax)
    (hx : ∃ o ∈ keptObs id noise sat obs, ∃ o' ∈ keptObs id noise sat obs, o.1 ≠ o'.1)
    (hline : ¬ ∃ b0 b1 : ℝ, ∀ o ∈ keptObs id noise sat obs, o.2 = b0 + b1 * o.1) (hn : 3 ≤ (keptObs id noise sat obs).length) :
    ∃ r r', computeLinearModel fmax env draws obs det noise sat false true = .ok r ∧
      computeLinearModel fmax env' draws' (mirrored obs) (-det) (sat.map fun s => -s) (noise.map fun s => -s) false true = .ok r' ∧
      r'.obs = mirrored r.obs ∧ r'.fit.stderr = r.fit.stderr ∧ (∀ a, runGaussPod r' a = 1 - runGaussPod r a) ∧
      (∀ a, runBinomialPod r' a ≤ 1 - runBinomialPod r a) ∧
      ∀ a, (∀ e ∈ r.fit.residuals, r.fit.intercept + r.fit.slope * a + e ≠ det) → runBinomialPod r' a = 1 - runBinomialPod r a := by
  have hfin1 : ∀ o ∈ mirrored obs, -fmax < o.2 ∧ o.2 < fmax := by
    intro o ho
    obtain ⟨p, hp, rfl⟩ := List.mem_map.1 ho
    have := hfin p hp
    exact ⟨by show -fmax < -p.2; linarith, by show -p.2 < fmax; linarith⟩
  have hk' := keptObs_mirror obs noise sat
  obtain ⟨r, hr⟩ := C120_succeeds fmax env henv draws obs det noise sat hfin hx hline hn
  obtain ⟨r', hr'⟩ := C120_succeeds fmax env' henv' draws' (mirrored obs) (-det) (sat.map fun s => -s)
    (noise.map fun s => -s) hfin1 (by rw [hk']; exact mirrored_sizes _ hx) (by rw [hk']; exact mirrored_line _ hline)
    (by rw [hk']; simpa [mirrored] using hn)
  refine ⟨r, r', hr, hr', ?_⟩
  obtain ⟨g, hg, hd, ho, hf⟩ := podRun_shape fmax env draws obs det noise sat false true r hr
  obtain ⟨g', hg', hd', ho', hf'⟩ := podRun_shape fmax env' draws' _ _ _ _ false true r' hr'
  simp only [if_true] at ho ho'
  rw [(hg.1 rfl).2] at hd ho hf
  rw [(hg'.1 rfl).2] at hd' ho' hf'
  rw [keptObs_eq fmax id noise sat obs hfin] at ho
  rw [keptObs_eq fmax id _ _ _ hfin1, hk', ← ho] at ho'
  simp only [id_eq] at hd hd'
  rw [linFit, if_pos rfl] at hf hf'
  simp only [Bool.true_or, if_true, Option.map_id, id_eq] at hf hf'
  rw [ho', noiseDefects_mirror fmax obs sat, satDefects_mirror fmax obs noise (fun o h => (hfin o h).1)] at hf'
  have hne : r.obs ≠ [] := by
    rw [ho]
    intro h
    rw [h] at hn
    simp at hn
  rw [← ho] at hx hline
  have htg := thresholdsGiven_obs fmax id noise sat obs hfin
  simp only [Option.map_id, id_eq] at htg
  obtain ⟨h1, h2, h3⟩ := censoredFit_mirror env env' henv henv' draws draws' _ _ r.obs _ _ noise sat htg hx hline r.fit r'.fit hf hf'
  obtain ⟨-, h4⟩ := censoredFit_min env henv draws _ r.obs _ _ noise sat (C158_unique _ _ _ _ _ htg hx hline).exists r.fit hf
  have hres : r.fit.residuals ≠ [] := by
    rw [h4, lineResiduals]
    simpa using hne
  have e1 : r'.fit.intercept = -r.fit.intercept := congrArg Prod.fst h1
  have e2 : r'.fit.slope = -r.fit.slope := congrArg (fun X : ℝ × ℝ × ℝ => X.2.1) h1
  have hS : r'.fit.stderr = r.fit.stderr := congrArg (fun X : ℝ × ℝ × ℝ => X.2.2) h1
  have hL : ∀ a, r'.fit.intercept + r'.fit.slope * a = -(r.fit.intercept + r.fit.slope * a) := by
    intro a
    rw [e1, e2]; ring
  have hB : ∀ a, runBinomialPod r' a = empiricalCCDF (r.fit.residuals.map (-·)) (-(det - (r.fit.intercept + r.fit.slope * a))) := by
    intro a
    rw [runBinomialPod, podBinomial, hL a, h2, hd']
    congr 1
    ring
  have hB0 : ∀ a, runBinomialPod r a = empiricalCCDF r.fit.residuals (det - (r.fit.intercept + r.fit.slope * a)) := by
    intro a
    rw [runBinomialPod, podBinomial, hd]
  refine ⟨ho', hS, fun a => ?_, fun a => ?_, fun a ha => ?_⟩
  · rw [runGaussPod, runGaussPod, hS, hd', hd, ho']
    exact podGauss_list_mirror r.obs _ det a _ _ (hL a)
  · rw [hB, hB0]
    exact (empiricalCCDF_mirror _ hres _).1
  · rw [hB, hB0]
    refine (empiricalCCDF_mirror _ hres _).2 fun hm => ha _ hm ?_
    ring

/-- **C233.**  The same without thresholds, for the least squares fit of any data with at least two distinct sizes. -/
theorem C233_linear {n : ℕ} (x y : Fin n → ℝ) (hx : ∃ i j, x i ≠ x j) (det a : ℝ) :
    gaussPodOf x (fun i => -y i) (-det) a = 1 - gaussPodOf x y det a ∧
    binomialPodOf x (fun i => -y i) (-det) a ≤ 1 - binomialPodOf x y det a ∧
    ((∀ i, olsIntercept x y + olsSlope x y * a + olsResiduals x y i ≠ det) →
      binomialPodOf x (fun i => -y i) (-det) a = 1 - binomialPodOf x y det a) := by
  have hn : n ≠ 0 := by obtain ⟨i, -⟩ := hx; exact fun h => by subst h; exact i.elim0
  have hL : ∀ b, olsIntercept x (fun i => -y i) + olsSlope x (fun i => -y i) * b = -(olsIntercept x y + olsSlope x y * b) := by
    intro b
    have := line_affine x y 1 0 (-1) 0 hn one_ne_zero b
    simpa using this
  have hR : olsResiduals x (fun i => -y i) = fun i => -olsResiduals x y i := by
    have := resid_affine x y 1 0 (-1) 0 hn one_ne_zero
    simpa using this
  have hS : linearStderr x (fun i => -y i) = linearStderr x y := by
    rw [linearStderr, linearStderr, linearScale, linearScale, hR]
    simp
  have hl : List.ofFn (olsResiduals x fun i => -y i) = (List.ofFn (olsResiduals x y)).map (-·) := by
    rw [hR, List.map_ofFn]; rfl
  have hne : List.ofFn (olsResiduals x y) ≠ [] := by
    intro h
    have := congrArg List.length h
    simp at this
    exact hn this
  have hm : -det - (olsIntercept x (fun i => -y i) + olsSlope x (fun i => -y i) * a) = -(det - (olsIntercept x y + olsSlope x y * a)) := by
    rw [hL]; ring
  refine ⟨?_, ?_, fun ha => ?_⟩
  · rw [gaussPodOf, gaussPodOf, podGauss, podGauss, hm, hS, neg_div, PhiC_neg]
  · rw [binomialPodOf, binomialPodOf, podBinomial, podBinomial, hm, hl]
    exact (empiricalCCDF_mirror _ hne _).1
  · rw [binomialPodOf, binomialPodOf, podBinomial, podBinomial, hm, hl]
    refine (empiricalCCDF_mirror _ hne _).2 fun h => ?_
    obtain ⟨i, hi⟩ := List.mem_ofFn.1 h
    refine ha i ?_
    rw [hi]; ring

/-- A fall of the echo with two censored observations. -/
example : ∃ env, ExactFit env ∧ ∃ r r', computeLinearModel 100000 env (fun _ => (0, 0, 0)) demoCensored 3 (some 1) (some 5) false true = .ok r ∧
    computeLinearModel 100000 env (fun _ => (0, 0, 0)) (mirrored demoCensored) (-3)
      ((some 5).map fun s => -s) ((some 1).map fun s => -s) false true = .ok r' ∧ runGaussPod r' 2 = 1 - runGaussPod r 2 := by
  obtain ⟨env, henv⟩ := exactFit_exists
  have hin : ∀ o ∈ demoCensored, (1 : ℝ) ≤ o.2 ∧ o.2 ≤ 5 := by
    intro o ho
    simp only [demoCensored, List.mem_cons, List.not_mem_nil, or_false] at ho
    rcases ho with rfl | rfl | rfl | rfl | rfl <;> norm_num
  obtain ⟨r, r', h1, h2, -, -, h3, -⟩ := C233_censored 100000 env env henv henv (fun _ => (0, 0, 0)) (fun _ => (0, 0, 0)) demoCensored 3 (some 1)
    (some 5) (fun o ho => by have := hin o ho; constructor <;> linarith)
    (by rw [demoCensored_kept]; exact ⟨(1, 2), by simp, (2, 4), by simp, by norm_num⟩)
    (by rw [demoCensored_kept]; exact demoCensored_line) (by rw [demoCensored_kept]; simp)
  exact ⟨env, henv, r, r', h1, h2, h3 2⟩

example : gaussPodOf (![1, 2, 3] : Fin 3 → ℝ) (fun i => -![10, 30, 40] i) (-25) 2 = 1 - gaussPodOf (![1, 2, 3] : Fin 3 → ℝ) ![10, 30, 40] 25 2 :=
  (C233_linear _ _ ⟨0, 1, by simp⟩ 25 2).1

end Verif.Props
