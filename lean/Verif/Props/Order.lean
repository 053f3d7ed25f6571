import Verif.Props.CensoredMin
import Verif.Props.LinearRun
import Verif.Props.DefaultDist
import Mathlib.Data.List.Perm.Basic

/-!
# C117: the order of the observations
-/

namespace Verif.Props
open Verif.Py Verif.Model

theorem fadd_comm (a b : F ℝ) : F.add a b = F.add b a := by
  cases a <;> cases b <;> simp [F.add, add_comm]

theorem fadd_assoc (a b c : F ℝ) : F.add (F.add a b) c = F.add a (F.add b c) := by
  cases a <;> cases b <;> cases c <;> simp [F.add, add_assoc]

theorem fsum_perm {l l' : List (F ℝ)} (h : l.Perm l') : F.sum l = F.sum l' :=
  List.Perm.foldl_eq' h (fun x _ y _ z => by rw [fadd_assoc, fadd_comm x y, ← fadd_assoc]) _

/-- The objective of the censored fit does not depend on the order of the observations. -/
theorem MLE_perm (X : ℝ × ℝ × ℝ) {unc unc' : List (ℝ × ℝ)} {no no' sa sa' : List ℝ} (hu : unc.Perm unc') (hn : no.Perm no')
    (hs : sa.Perm sa') (noise sat : Option ℝ) :
    MLE X (unc.map Prod.fst) no sa (unc.map Prod.snd) noise sat = MLE X (unc'.map Prod.fst) no' sa' (unc'.map Prod.snd) noise sat := by
  have hn' : no = [] ↔ no' = [] := ⟨fun h => by subst h; exact hn.symm.eq_nil, fun h => by subst h; exact hn.eq_nil⟩
  have hs' : sa = [] ↔ sa' = [] := ⟨fun h => by subst h; exact hs.symm.eq_nil, fun h => by subst h; exact hs.eq_nil⟩
  have e1 : (unc.map fun o : ℝ × ℝ => (o.2 - (X.1 + X.2.1 * o.1)) ^ 2).sum
      = (unc'.map fun o : ℝ × ℝ => (o.2 - (X.1 + X.2.1 * o.1)) ^ 2).sum := (hu.map _).sum_eq
  have e2 := fun t : ℝ => fsum_perm ((hn.map fun x => fpNormal (F.div (.fin (t - (X.1 + X.2.1 * x))) (.fin X.2.2))).map flog)
  have e3 := fun t : ℝ => fsum_perm ((hs.map fun x => fpNormal (F.div (.fin (t - (X.1 + X.2.1 * x))) (.fin X.2.2))).map
    fun p => flog (F.sub (.fin 1) p))
  unfold MLE
  dsimp only
  rw [zipWith_map_pairs unc (fun y x => (y - (X.1 + X.2.1 * x)) ^ 2), zipWith_map_pairs unc' (fun y x => (y - (X.1 + X.2.1 * x)) ^ 2), e1,
    List.length_map, List.length_map, hu.length_eq]
  cases noise with
  | none =>
    by_cases h : no' = []
    · cases sat with
      | none => simp only [hn', hs']
      | some t => simp only [hn', h, if_true, bind, Except.bind, pure, Except.pure, e3]
    · simp only [hn', h, if_false, bind, Except.bind]
  | some t =>
    cases sat with
    | none =>
      by_cases h : sa' = []
      · simp only [hs', h, if_true, bind, Except.bind, pure, Except.pure, e2]
      · simp only [hs', h, if_false, bind, Except.bind, pure, Except.pure]
    | some u => simp only [bind, Except.bind, pure, Except.pure, e2, e3]

/-- External functions that do not look at the order of the observations: least squares and the Box-Cox optimiser. -/
structure OrderFree (env : LinEnv) : Prop where
  ols : ∀ l l' : List (ℝ × ℝ), l.Perm l' → env.ols l = env.ols l'
  boxCox : ∀ (l l' : List (ℝ × ℝ)) (shift : ℝ), l.Perm l' →
    env.boxCox (l.map Prod.fst) (l.map Prod.snd) shift = env.boxCox (l'.map Prod.fst) (l'.map Prod.snd) shift

/-- The same model up to the order of the observations. -/
structure SameModel (r r' : LinModelResult) : Prop where
  obs : r.obs.Perm r'.obs
  intercept : r.fit.intercept = r'.fit.intercept
  slope : r.fit.slope = r'.fit.slope
  stderr : r.fit.stderr = r'.fit.stderr
  residuals : r.fit.residuals.Perm r'.fit.residuals
  detection : r.detection = r'.detection
  lambda : r.lambda = r'.lambda

theorem sampleMin_perm {l l' : List ℝ} (h : l.Perm l') : sampleMin l = sampleMin l' := by
  by_cases hl : l = []
  · subst hl; rw [h.symm.eq_nil]
  · have hl' : l' ≠ [] := fun e => hl (by subst e; exact h.eq_nil)
    obtain ⟨a, ha⟩ := sampleMin_total hl
    obtain ⟨b, hb⟩ := sampleMin_total hl'
    have h1 := sampleMin_spec ha
    have h2 := sampleMin_spec hb
    have e : {x | x ∈ l} = {x | x ∈ l'} := by ext x; exact h.mem_iff
    rw [e] at h1
    rw [ha, hb, h1.unique h2]

theorem linFit_perm (env : LinEnv) (henv : OrderFree env) (draws : ℕ → ℝ × ℝ × ℝ) (censored : Bool) {unc unc' : List (ℝ × ℝ)}
    {no no' sa sa' : List ℝ} (hu : unc.Perm unc') (hn : no.Perm no') (hs : sa.Perm sa') (noise sat : Option ℝ) (fit : LineFit)
    (h : linFit env draws censored unc no sa noise sat = .ok fit) :
    ∃ fit', linFit env draws censored unc' no' sa' noise sat = .ok fit' ∧ fit.intercept = fit'.intercept ∧ fit.slope = fit'.slope ∧
      fit.stderr = fit'.stderr ∧ fit.residuals.Perm fit'.residuals := by
  have hobj : mleObjective unc no sa noise sat = mleObjective unc' no' sa' noise sat := by
    funext X
    unfold mleObjective
    rw [MLE_perm X hu hn hs]
  unfold linFit at h ⊢
  rw [← henv.ols unc unc' hu]
  cases censored with
  | false =>
    simp only [Bool.false_eq_true, if_false, Except.ok.injEq] at h ⊢
    subst h
    exact ⟨_, rfl, rfl, rfl, rfl, hu.map _⟩
  | true =>
    simp only [if_true, censoredFit] at h ⊢
    rw [MLE_perm _ hu hn hs, hobj] at h
    cases h1 : MLE (env.ols unc) (unc'.map Prod.fst) no' sa' (unc'.map Prod.snd) noise sat with
    | error e => rw [h1] at h; cases h
    | ok v =>
      rw [h1] at h
      dsimp only at h ⊢
      cases h2 : (computeLinearParametersCensored (mleObjective unc' no' sa' noise sat) env.fmin draws (env.ols unc)).result with
      | error e => rw [h2] at h; cases h
      | ok p =>
        rw [h2] at h
        dsimp only at h ⊢
        rw [Except.ok.injEq] at h
        subst h
        exact ⟨_, rfl, rfl, rfl, rfl, hu.map _⟩

theorem zip_map_snd (l : List (ℝ × ℝ)) (f : ℝ → ℝ) : (l.map Prod.fst).zip (((l.map Prod.snd)).map f) = l.map fun o => (o.1, f o.2) := by
  induction l with
  | nil => rfl
  | cons a l ih => simp only [List.map_cons, List.zip_cons_cons, ih]

/-- **C117, fit.**  Reordering the observations leaves the fitted line, its standard error, the Box-Cox parameter and the transformed
threshold unchanged, and reorders the transformed observations and the residuals. -/
theorem C117_fit_partial (fmax : ℝ) (env : LinEnv) (henv : OrderFree env) (draws : ℕ → ℝ × ℝ × ℝ) (obs obs' : List (ℝ × ℝ))
    (hp : obs.Perm obs') (det : ℝ) (noise sat : Option ℝ) (boxCox censored : Bool) (r : LinModelResult)
    (h : computeLinearModel fmax env draws obs det noise sat boxCox censored = .ok r) :
    ∃ r', computeLinearModel fmax env draws obs' det noise sat boxCox censored = .ok r' ∧ SameModel r r' := by
  have hn : (noiseDefects fmax obs noise).Perm (noiseDefects fmax obs' noise) := (hp.filter _).map _
  have hs : (satDefects fmax obs sat).Perm (satDefects fmax obs' sat) := (hp.filter _).map _
  have hu : (if censored then uncensoredObs fmax obs noise sat else obs).Perm
      (if censored then uncensoredObs fmax obs' noise sat else obs') := by
    cases censored with
    | false => exact hp
    | true => exact hp.filter _
  unfold computeLinearModel at h ⊢
  dsimp only at h ⊢
  generalize (if censored = true then uncensoredObs fmax obs noise sat else obs) = unc at *
  generalize (if censored = true then uncensoredObs fmax obs' noise sat else obs') = unc' at *
  cases boxCox with
  | false =>
    simp only [Bool.false_eq_true, if_false] at h ⊢
    cases hf : linFit env draws censored unc (noiseDefects fmax obs noise) (satDefects fmax obs sat) noise sat with
    | error e => rw [hf] at h; cases h
    | ok fit =>
      rw [hf] at h
      dsimp only at h
      rw [Except.ok.injEq] at h
      subst h
      obtain ⟨fit', h1, h2, h3, h4, h5⟩ := linFit_perm env henv draws censored hu hn hs noise sat fit hf
      rw [h1]
      exact ⟨_, rfl, hu, h2, h3, h4, h5, rfl, rfl⟩
  | true =>
    simp only [if_true] at h ⊢
    have e1 : boxCoxShift (unc.map Prod.snd) = boxCoxShift (unc'.map Prod.snd) := by
      rw [boxCoxShift, boxCoxShift, sampleMin_perm (hu.map _)]
    rw [e1] at h
    cases hsh : boxCoxShift (unc'.map Prod.snd) with
    | error e => rw [hsh] at h; cases h
    | ok shift =>
      rw [hsh] at h
      dsimp only at h ⊢
      rw [henv.boxCox unc unc' shift hu] at h
      cases hl : env.boxCox (unc'.map Prod.fst) (unc'.map Prod.snd) shift with
      | error e => rw [hl] at h; cases h
      | ok lam =>
        rw [hl] at h
        dsimp only at h ⊢
        have hmem : (∀ x ∈ (unc.map Prod.snd).map (· + shift), 0 < x) ↔ ∀ x ∈ (unc'.map Prod.snd).map (· + shift), 0 < x := by
          have := ((hu.map Prod.snd).map (· + shift))
          constructor
          · intro h x hx; exact h x (this.mem_iff.2 hx)
          · intro h x hx; exact h x (this.mem_iff.1 hx)
        unfold boxCoxSample at h ⊢
        by_cases hpos : ∀ x ∈ (unc'.map Prod.snd).map (· + shift), 0 < x
        · rw [if_pos (hmem.2 hpos)] at h
          rw [if_pos hpos]
          dsimp only at h ⊢
          cases hno : boxCoxThreshold lam shift (if censored then noise else none) with
          | error e => rw [hno] at h; cases h
          | ok noise' =>
            rw [hno] at h
            dsimp only at h ⊢
            cases hsa : boxCoxThreshold lam shift (if censored then sat else none) with
            | error e => rw [hsa] at h; cases h
            | ok sat' =>
              rw [hsa] at h
              dsimp only at h ⊢
              cases hd : boxCoxTransform lam (det + shift) with
              | error e => rw [hd] at h; cases h
              | ok d =>
                rw [hd] at h
                dsimp only at h ⊢
                rw [List.map_map, zip_map_snd] at h ⊢
                have hu' := hu.map fun o : ℝ × ℝ => (o.1, (boxCoxFun lam ∘ fun x => x + shift) o.2)
                cases hf : linFit env draws censored (unc.map fun o => (o.1, (boxCoxFun lam ∘ fun x => x + shift) o.2))
                  (noiseDefects fmax obs noise) (satDefects fmax obs sat) noise' sat' with
                | error e => rw [hf] at h; cases h
                | ok fit =>
                  rw [hf] at h
                  dsimp only at h
                  rw [Except.ok.injEq] at h
                  subst h
                  obtain ⟨fit', h1, h2, h3, h4, h5⟩ := linFit_perm env henv draws censored hu' hn hs noise' sat' fit hf
                  rw [h1]
                  exact ⟨_, rfl, hu', h2, h3, h4, h5, rfl, rfl⟩
        · rw [if_neg (fun hh => hpos (hmem.1 hh))] at h
          cases h

theorem podGauss_perm {l l' : List (ℝ × ℝ)} (h : l.Perm l') (s det : ℝ) (lin : ℝ → ℝ) :
    podGauss (fun i : Fin l.length => l[i].1) s det lin = podGauss (fun i : Fin l'.length => l'[i].1) s det lin := by
  have e1 : ∑ i : Fin l.length, l[i].1 = ∑ i : Fin l'.length, l'[i].1 := by
    rw [← list_sum_fin l Prod.fst, ← list_sum_fin l' Prod.fst, (h.map _).sum_eq]
  have e2 : ∑ i : Fin l.length, l[i].1 ^ 2 = ∑ i : Fin l'.length, l'[i].1 ^ 2 := by
    rw [← list_sum_fin l fun o => o.1 ^ 2, ← list_sum_fin l' fun o => o.1 ^ 2, (h.map _).sum_eq]
  funext a
  unfold podGauss predictionVariance
  dsimp only
  rw [gram_eq, gram_eq, e1, e2, h.length_eq]

theorem empiricalCCDF_perm {l l' : List ℝ} (h : l.Perm l') : empiricalCCDF l = empiricalCCDF l' := by
  funext t
  rw [empiricalCCDF, empiricalCCDF, h.countP_eq, h.length_eq]

/-- **C117, POD curves.**  Hence the Gaussian POD, the binomial POD and its confidence curve are the same functions. -/
theorem C117_pod_partial (fmax : ℝ) (env : LinEnv) (henv : OrderFree env) (draws : ℕ → ℝ × ℝ × ℝ) (obs obs' : List (ℝ × ℝ))
    (hp : obs.Perm obs') (det : ℝ) (noise sat : Option ℝ) (boxCox censored : Bool) (r : LinModelResult)
    (h : computeLinearModel fmax env draws obs det noise sat boxCox censored = .ok r) :
    ∃ r', computeLinearModel fmax env draws obs' det noise sat boxCox censored = .ok r' ∧
      (podGauss (fun i : Fin r.obs.length => r.obs[i].1) r.fit.stderr r.detection fun a => r.fit.intercept + r.fit.slope * a)
        = (podGauss (fun i : Fin r'.obs.length => r'.obs[i].1) r'.fit.stderr r'.detection fun a => r'.fit.intercept + r'.fit.slope * a) ∧
      (podBinomial r.fit.residuals r.detection fun a => r.fit.intercept + r.fit.slope * a)
        = (podBinomial r'.fit.residuals r'.detection fun a => r'.fit.intercept + r'.fit.slope * a) ∧
      ∀ qBeta conf, (podBinomialCl qBeta r.fit.residuals r.detection (fun a => r.fit.intercept + r.fit.slope * a) conf)
        = podBinomialCl qBeta r'.fit.residuals r'.detection (fun a => r'.fit.intercept + r'.fit.slope * a) conf := by
  obtain ⟨r', h', s⟩ := C117_fit_partial fmax env henv draws obs obs' hp det noise sat boxCox censored r h
  refine ⟨r', h', ?_, ?_, fun qBeta conf => ?_⟩
  · rw [podGauss_perm s.obs, s.intercept, s.slope, s.stderr, s.detection]
  · funext a
    rw [podBinomial, podBinomial, empiricalCCDF_perm s.residuals, s.intercept, s.slope, s.detection]
  · funext a
    rw [podBinomialCl, podBinomialCl, empiricalCCDF_perm s.residuals, s.intercept, s.slope, s.detection, s.residuals.length_eq]

/-- The contract is met by exact least squares. -/
theorem orderFree_exists : ∃ env, OrderFree env ∧ ∀ unc : List (ℝ × ℝ), env.ols unc =
    (olsIntercept (fun i : Fin unc.length => unc[i].1) (fun i => unc[i].2),
      olsSlope (fun i : Fin unc.length => unc[i].1) (fun i => unc[i].2), 1) := by
  refine ⟨⟨fun _ _ _ => .ok 1, fun unc => (olsIntercept (fun i : Fin unc.length => unc[i].1) (fun i => unc[i].2),
    olsSlope (fun i : Fin unc.length => unc[i].1) (fun i => unc[i].2), 1), fun _ s => ⟨s, 0⟩⟩, ⟨?_, fun _ _ _ _ => rfl⟩, fun _ => rfl⟩
  intro l l' h
  have sm : ∀ f : ℝ × ℝ → ℝ, ∑ i : Fin l.length, f l[i] = ∑ i : Fin l'.length, f l'[i] := fun f => by
    rw [← list_sum_fin l f, ← list_sum_fin l' f, (h.map _).sum_eq]
  have m1 : smean (fun i : Fin l.length => l[i].1) = smean (fun i : Fin l'.length => l'[i].1) := by
    rw [smean, smean, sm Prod.fst, h.length_eq]
  have m2 : smean (fun i : Fin l.length => l[i].2) = smean (fun i : Fin l'.length => l'[i].2) := by
    rw [smean, smean, sm Prod.snd, h.length_eq]
  have hsl : olsSlope (fun i : Fin l.length => l[i].1) (fun i => l[i].2) = olsSlope (fun i : Fin l'.length => l'[i].1) (fun i => l'[i].2) := by
    rw [olsSlope, olsSlope, m1, m2, sm fun o => (o.1 - smean fun i : Fin l'.length => l'[i].1) * (o.2 - smean fun i : Fin l'.length => l'[i].2),
      sm fun o => (o.1 - smean fun i : Fin l'.length => l'[i].1) ^ 2]
  simp only [olsIntercept, hsl, m1, m2]

/-! ## Tests of the residuals -/

/-- **C117 is false for the Harrison-McCabe test.**  Whenever the residuals do not all have the same absolute value, the statistic of the
homoskedasticity test depends on the order in which the observations were given (they are never sorted by defect size), for every break
point inside the sample. -/
theorem C117_violated {n : ℕ} (bp : ℕ) (h0 : 0 < bp) (hbp : bp < n) (r : Fin n → ℝ) (hr : ∃ i j, r i ^ 2 ≠ r j ^ 2) :
    ∃ s : Equiv.Perm (Fin n), harrisonMcCabeStat bp (fun i => r (s i)) ≠ harrisonMcCabeStat bp r := by
  have hpair : ∃ i j : Fin n, i.val < bp ∧ bp ≤ j.val ∧ r i ^ 2 ≠ r j ^ 2 := by
    by_contra hno
    push Not at hno
    obtain ⟨i, j, hij⟩ := hr
    let a : Fin n := ⟨0, by omega⟩
    let b : Fin n := ⟨bp, hbp⟩
    have key : ∀ k, r k ^ 2 = r b ^ 2 := by
      intro k
      by_cases hk : k.val < bp
      · exact hno k b hk le_rfl
      · rw [← hno a k h0 (by omega), hno a b h0 le_rfl]
    exact hij (by rw [key i, key j])
  obtain ⟨i, j, hi, hj, hne⟩ := hpair
  refine ⟨Equiv.swap i j, ?_⟩
  have hij : i ≠ j := fun e => by subst e; omega
  have hden : ∑ k, r (Equiv.swap i j k) ^ 2 = ∑ k, r k ^ 2 := Equiv.sum_comp (Equiv.swap i j) fun k => r k ^ 2
  have hpos : ∑ k, r k ^ 2 ≠ 0 := by
    intro h
    have := (Finset.sum_eq_zero_iff_of_nonneg (fun k _ => sq_nonneg (r k))).1 h
    exact hne (by rw [this i (Finset.mem_univ _), this j (Finset.mem_univ _)])
  rw [harrisonMcCabeStat, harrisonMcCabeStat, hden, ne_eq, div_left_inj' hpos]
  have hmem : i ∈ Finset.univ.filter (fun k : Fin n => k.val < bp) := by simp [hi]
  rw [← Finset.add_sum_erase _ _ hmem, ← Finset.add_sum_erase _ _ hmem, Equiv.swap_apply_left]
  have hrest : ∑ k ∈ (Finset.univ.filter fun k : Fin n => k.val < bp).erase i, r (Equiv.swap i j k) ^ 2
      = ∑ k ∈ (Finset.univ.filter fun k : Fin n => k.val < bp).erase i, r k ^ 2 := by
    apply Finset.sum_congr rfl
    intro k hk
    simp only [Finset.mem_erase, Finset.mem_filter, Finset.mem_univ, true_and] at hk
    rw [Equiv.swap_apply_of_ne_of_ne hk.1 (fun e => by subst e; omega)]
  rw [hrest]
  intro h
  exact hne (by linarith)

/-- **C117 is false for the Durbin-Watson test**: exchanging the first two observations changes the statistic, unless the two residuals are
equal or their mean is the third one. -/
theorem C117_violated_durbinWatson {n : ℕ} (r : Fin (n + 3) → ℝ) (h1 : r 0 ≠ r 1) (h2 : r 0 + r 1 ≠ 2 * r 2) :
    durbinWatsonStat (n := n + 2) (fun i => r (Equiv.swap 0 1 i)) ≠ durbinWatsonStat (n := n + 2) r := by
  have hden : ∑ k, r (Equiv.swap 0 1 k) ^ 2 = ∑ k, r k ^ 2 := Equiv.sum_comp (Equiv.swap 0 1) fun k => r k ^ 2
  have hpos : ∑ k, r k ^ 2 ≠ 0 := by
    intro h
    have := (Finset.sum_eq_zero_iff_of_nonneg (fun k _ => sq_nonneg (r k))).1 h
    have e0 := pow_eq_zero_iff two_ne_zero |>.1 (this 0 (Finset.mem_univ _))
    have e1 := pow_eq_zero_iff two_ne_zero |>.1 (this 1 (Finset.mem_univ _))
    exact h1 (by rw [e0, e1])
  rw [durbinWatsonStat, durbinWatsonStat, hden, ne_eq, div_left_inj' hpos, Fin.sum_univ_succ, Fin.sum_univ_succ, Fin.sum_univ_succ,
    Fin.sum_univ_succ]
  have hrest : ∀ k : Fin n, (r (Equiv.swap 0 1 k.succ.succ.succ) - r (Equiv.swap 0 1 k.succ.succ.castSucc)) ^ 2
      = (r k.succ.succ.succ - r k.succ.succ.castSucc) ^ 2 := by
    intro k
    rw [Equiv.swap_apply_of_ne_of_ne, Equiv.swap_apply_of_ne_of_ne]
    all_goals
      intro h
      have := congrArg Fin.val h
      simp at this
  have e2 : Equiv.swap (0 : Fin (n + 3)) 1 2 = 2 := by
    apply Equiv.swap_apply_of_ne_of_ne
    · intro h; have := congrArg Fin.val h; rw [show ((2 : Fin (n + 3)) : ℕ) = 2 from Nat.mod_eq_of_lt (show 2 < n + 3 by omega)] at this; simp at this
    · intro h; have := congrArg Fin.val h; rw [show ((2 : Fin (n + 3)) : ℕ) = 2 from Nat.mod_eq_of_lt (show 2 < n + 3 by omega)] at this; simp at this
  have c0 : (Fin.castSucc (0 : Fin (n + 2))) = (0 : Fin (n + 3)) := rfl
  have c1 : (Fin.succ (0 : Fin (n + 2))) = (1 : Fin (n + 3)) := rfl
  have c2 : (Fin.succ (Fin.succ (0 : Fin (n + 1)))) = (2 : Fin (n + 3)) := rfl
  have c3 : (Fin.castSucc (Fin.succ (0 : Fin (n + 1)))) = (1 : Fin (n + 3)) := rfl
  simp only [hrest, c0, c1, c2, c3, e2, Equiv.swap_apply_left, Equiv.swap_apply_right]
  intro h
  have : (r 0 - r 1) * (r 0 + r 1 - 2 * r 2) = 0 := by linarith
  rcases mul_eq_zero.1 this with h | h
  · exact h1 (by linarith)
  · exact h2 (by linarith)

/-- Non-vacuity. -/
example := C117_violated 1 one_pos (by norm_num : 1 < 3) ![1, -2, 1] ⟨0, 1, by norm_num⟩
example := C117_violated_durbinWatson (n := 0) ![1, -1, 3] (by norm_num) (by simp)
example := fun env (h : OrderFree env) => C117_pod_partial 100 env h (fun _ => (0, 0, 0)) [(1, 1), (2, 2), (3, 5)] [(2, 2), (1, 1), (3, 5)]
  (List.Perm.swap _ _ _) 3 none none false false _ rfl

end Verif.Props
