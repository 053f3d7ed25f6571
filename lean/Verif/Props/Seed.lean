import Verif.Props.Bootstrap
import Verif.Props.CensoredUnique
import Verif.Props.ExactLine

/-!
# C211: the seed of OpenTURNS and the result of a run
-/

namespace Verif.Props
open Verif.Py Verif.Model

/-- Two runs with the same draws of the OpenTURNS generator: those of the Gaussian curves and the resamples.  The starts of the censored fit come from
`np.random.randn` (_math_tools.py 369). -/
def SameOpenturns (w w' : PodDraws) : Prop :=
  w.gauss = w'.gauss ∧ w.resamples.map Prod.fst = w'.resamples.map Prod.fst

/-- The observations between the thresholds determine a residual deviation: there are three, two sizes, and no line goes through them. -/
def Scattered (fmax : ℝ) (noise sat : Option ℝ) (obs : List (ℝ × ℝ)) : Prop :=
  let kept := obs.filter fun o => decide (noise.getD (-fmax) < o.2) && decide (o.2 < sat.getD fmax)
  2 < kept.length ∧ (∃ o ∈ kept, ∃ o' ∈ kept, o.1 ≠ o'.1) ∧ ¬ ∃ b0 b1 : ℝ, ∀ o ∈ kept, o.2 = b0 + b1 * o.1

theorem scattered_stderr (env : LinEnv) (henv : ExactFit env) (unc : List (ℝ × ℝ)) (h3 : 2 < unc.length) (hx : ∃ o ∈ unc, ∃ o' ∈ unc, o.1 ≠ o'.1)
    (hl : ¬ ∃ b0 b1 : ℝ, ∀ o ∈ unc, o.2 = b0 + b1 * o.1) : 0 < (env.ols unc).2.2 := by
  rw [henv.ols unc hx]
  apply linearStderr_pos _ _ h3
  by_contra hall
  push Not at hall
  apply hl
  refine ⟨olsIntercept (fun i : Fin unc.length => unc[i].1) (fun i => unc[i].2), olsSlope (fun i : Fin unc.length => unc[i].1) (fun i => unc[i].2),
    fun o ho => ?_⟩
  obtain ⟨i, hi, rfl⟩ := List.getElem_of_mem ho
  have := hall ⟨i, hi⟩
  rw [olsResiduals] at this
  exact sub_eq_zero.mp this

theorem mleObjective_start (unc : List (ℝ × ℝ)) (dn ds : List ℝ) (noise sat : Option ℝ) (X : ℝ × ℝ × ℝ) (hX : 0 < X.2.2) :
    mleObjective unc dn ds noise sat X ≠ .pinf := by
  by_cases ht : ThresholdsGiven dn ds noise sat
  · rw [mleObjective_eq unc dn ds noise sat ht, if_pos hX]
    simp
  · have hr : Raises (MLE X (unc.map Prod.fst) dn ds (unc.map Prod.snd) noise sat) .typeError := by
      unfold ThresholdsGiven at ht
      cases noise with
      | none =>
        by_cases hd : dn = []
        · subst hd
          cases sat with
          | none =>
            have hs : ds ≠ [] := fun h => ht ⟨fun _ => rfl, fun _ => h⟩
            rw [(C06_MLE_none X (unc.map Prod.fst) [] ds (unc.map Prod.snd) 0).2.2.1 none]
            exact (C06_MLE_none X _ _ _ _ 0).2.1 hs
          | some t => exact absurd ⟨fun _ => rfl, fun h => by cases h⟩ ht
        · exact (C06_MLE_none X _ _ _ _ 0).1 hd _
      | some t =>
        cases sat with
        | none =>
          have hs : ds ≠ [] := fun h => ht ⟨fun h => (by cases h), fun _ => h⟩
          exact (C06_MLE_none X _ _ _ _ t).2.1 hs
        | some t' => exact absurd ⟨fun h => (by cases h), fun h => (by cases h)⟩ ht
    obtain ⟨m, hm⟩ := hr
    rw [mleObjective, hm]
    simp

theorem linearModel_draws (fmax : ℝ) (env : LinEnv) (henv : ExactFit env) (st st' : ℕ → ℝ × ℝ × ℝ) (obs : List (ℝ × ℝ)) (det : ℝ) (noise sat : Option ℝ)
    (h : Scattered fmax noise sat obs) :
    computeLinearModel fmax env st obs det noise sat false true = computeLinearModel fmax env st' obs det noise sat false true := by
  obtain ⟨h3, hx, hl⟩ := h
  have hp : 0 < (env.ols (uncensoredObs fmax obs noise sat)).2.2 := scattered_stderr env henv _ h3 hx hl
  have e : linFit env st true (uncensoredObs fmax obs noise sat) (noiseDefects fmax obs noise) (satDefects fmax obs sat) noise sat
      = linFit env st' true (uncensoredObs fmax obs noise sat) (noiseDefects fmax obs noise) (satDefects fmax obs sat) noise sat := by
    unfold linFit censoredFit
    dsimp only
    rw [if_pos rfl, if_pos rfl, ctr_start_independent _ _ st st' _ (mleObjective_start _ _ _ _ _ _ hp)]
  unfold computeLinearModel
  dsimp only
  simp only [Bool.false_eq_true, if_false, if_true]
  rw [e]

theorem linearModel_starts (fmax : ℝ) (env : LinEnv) (st st' : ℕ → ℝ × ℝ × ℝ) (obs : List (ℝ × ℝ)) (det : ℝ) (noise sat : Option ℝ) (boxCox : Bool) :
    computeLinearModel fmax env st obs det noise sat boxCox false = computeLinearModel fmax env st' obs det noise sat boxCox false := by
  have e : linFit env st false = linFit env st' false := by
    funext unc dn ds n s
    simp [linFit]
  unfold computeLinearModel
  dsimp only
  rw [e]

/-- Runs on the same resamples agree when all fits do. -/
theorem runs_agree (fmax : ℝ) (env : PodEnv) (d : PodData) (w w' : PodDraws) (hw : SameOpenturns w w')
    (h : ∀ obs, obs = d.obs ∨ obs ∈ w.resamples.map Prod.fst → ∀ st st',
      computeLinearModel fmax env.lin st obs d.detection d.noise d.sat d.boxCox d.censored
        = computeLinearModel fmax env.lin st' obs d.detection d.noise d.sat d.boxCox d.censored) (s : PodRunAttrs) :
    linearPodRun fmax env d w s = linearPodRun fmax env d w' s := by
  have hb : ∀ name (l l' : List (List (ℝ × ℝ) × (ℕ → ℝ × ℝ × ℝ))), l.map Prod.fst = l'.map Prod.fst → (∀ r ∈ l, r ∈ w.resamples) →
      bootstrapColl fmax env d name l = bootstrapColl fmax env d name l' := by
    intro name l
    induction l with
    | nil =>
      intro l' hl _
      rw [List.map_nil, eq_comm, List.map_eq_nil_iff] at hl
      rw [hl]
    | cons r l ih =>
      intro l' hl hmem
      cases l' with
      | nil => simp at hl
      | cons r' l' =>
        rw [List.map_cons, List.map_cons, List.cons.injEq] at hl
        have hm : bootstrapModel fmax env d name r = bootstrapModel fmax env d name r' := by
          unfold bootstrapModel
          rw [← hl.1, h r.1 (Or.inr (List.mem_map_of_mem (hmem r (by simp)))) r.2 r'.2]
        rw [bootstrapColl, bootstrapColl, hm, ih l' hl.2 fun q hq => hmem q (List.mem_cons_of_mem _ hq)]
  unfold linearPodRun
  rw [h d.obs (Or.inl rfl) w.starts w'.starts, hw.1]
  dsimp only
  split
  · rfl
  · split
    · rfl
    · split
      · rfl
      · rfl
      · rw [hb _ w.resamples w'.resamples hw.2 fun _ h => h]

/-- **C211, restricted: no threshold.**  The draws of the OpenTURNS generator determine the result and all attributes of a run. -/
theorem C211_no_threshold_partial (fmax : ℝ) (env : PodEnv) (d : PodData) (hc : d.censored = false) (w w' : PodDraws) (hw : SameOpenturns w w')
    (s : PodRunAttrs) : linearPodRun fmax env d w s = linearPodRun fmax env d w' s :=
  runs_agree fmax env d w w' hw (fun obs _ st st' => by rw [hc]; exact linearModel_starts _ _ _ _ _ _ _ _ _) s

/-- **C211, restricted: thresholds.**  So they do with thresholds, without Box-Cox, when in the data and in each resample the observations between the
thresholds do not lie on a line. -/
theorem C211_threshold_partial (fmax : ℝ) (env : PodEnv) (henv : ExactFit env.lin) (d : PodData) (hc : d.censored = true) (hb : d.boxCox = false)
    (w w' : PodDraws) (hw : SameOpenturns w w') (hd : Scattered fmax d.noise d.sat d.obs)
    (hr : ∀ r ∈ w.resamples, Scattered fmax d.noise d.sat r.1) (s : PodRunAttrs) :
    linearPodRun fmax env d w s = linearPodRun fmax env d w' s := by
  refine runs_agree fmax env d w w' hw (fun obs ho st st' => ?_) s
  rw [hc, hb]
  apply linearModel_draws fmax env.lin henv
  rcases ho with rfl | ho
  · exact hd
  · obtain ⟨r, hr', rfl⟩ := List.mem_map.mp ho
    exact hr r hr'

open Classical in
/-- Exact least squares, and an optimiser that finds the minimum and stays at its start when there is none. -/
noncomputable def stayLin : LinEnv :=
  ⟨fun _ _ _ => .ok 0, fun unc => (olsIntercept (fun i : Fin unc.length => unc[i].1) (fun i => unc[i].2),
      olsSlope (fun i : Fin unc.length => unc[i].1) (fun i => unc[i].2),
      linearStderr (fun i : Fin unc.length => unc[i].1) (fun i => unc[i].2)),
    fun f start => if h : ∃ X, ∀ X', F.le (f X) (f X') = true then ⟨h.choose, 0⟩ else ⟨start, 0⟩⟩

theorem stayLin_exact : ExactFit stayLin :=
  ⟨fun _ _ => rfl, fun f start h => by simp only [stayLin, dif_pos h]; exact h.choose_spec⟩

/-- When the observations between the thresholds lie on a line, the fit of the line starts at the first usable draw of numpy. -/
theorem linearModel_line (fmax : ℝ) (env : LinEnv) (henv : ExactFit env) (st : ℕ → ℝ × ℝ × ℝ) (obs : List (ℝ × ℝ)) (det : ℝ) (noise sat : Option ℝ)
    (hfin : ∀ o ∈ obs, -fmax < o.2 ∧ o.2 < fmax)
    (hx : ∃ o ∈ uncensoredObs fmax obs noise sat, ∃ o' ∈ uncensoredObs fmax obs noise sat, o.1 ≠ o'.1) (b0 b1 : ℝ)
    (hl : ∀ o ∈ uncensoredObs fmax obs noise sat, o.2 = b0 + b1 * o.1) (hst : 0 < (st 0).2.2) :
    let z := (env.fmin (mleObjective (uncensoredObs fmax obs noise sat) (noiseDefects fmax obs noise) (satDefects fmax obs sat) noise sat) (st 0)).x
    computeLinearModel fmax env st obs det noise sat false true
      = .ok ⟨uncensoredObs fmax obs noise sat, ⟨z.1, z.2.1, z.2.2, lineResiduals z.1 z.2.1 (uncensoredObs fmax obs noise sat)⟩, det, none⟩ := by
  intro z
  have ht : ThresholdsGiven (noiseDefects fmax obs noise) (satDefects fmax obs sat) noise sat := by
    have := thresholdsGiven_obs fmax id noise sat obs hfin
    simpa using this
  have hols : (env.ols (uncensoredObs fmax obs noise sat)).2.2 = 0 := by
    rw [henv.ols _ hx]
    obtain ⟨o, ho, o', ho', hne⟩ := hx
    obtain ⟨i, hi, rfl⟩ := List.getElem_of_mem ho
    obtain ⟨j, hj, rfl⟩ := List.getElem_of_mem ho'
    exact (line_fit _ _ ⟨⟨i, hi⟩, ⟨j, hj⟩, hne⟩ b0 b1 fun k => hl _ (List.getElem_mem k.2)).2.2.2
  have hM := mleObjective_pos (uncensoredObs fmax obs noise sat) _ _ noise sat ht (env.ols (uncensoredObs fmax obs noise sat))
  have hobj := mleObjective_eq (uncensoredObs fmax obs noise sat) _ _ noise sat ht
  have hs : mleObjective (uncensoredObs fmax obs noise sat) (noiseDefects fmax obs noise) (satDefects fmax obs sat) noise sat
      (env.ols (uncensoredObs fmax obs noise sat)) = .pinf := by
    rw [hobj, hols, if_neg (lt_irrefl _)]
  have hg : mleObjective (uncensoredObs fmax obs noise sat) (noiseDefects fmax obs noise) (satDefects fmax obs sat) noise sat (st 0) ≠ .pinf := by
    rw [hobj, if_pos hst]; simp
  have hok : MLE (env.ols (uncensoredObs fmax obs noise sat)) ((uncensoredObs fmax obs noise sat).map Prod.fst) (noiseDefects fmax obs noise)
      (satDefects fmax obs sat) ((uncensoredObs fmax obs noise sat).map Prod.snd) noise sat = .ok .pinf := by
    rw [hM]
    exact C06_MLE_nonpos_scale _ _ _ _ _ hols.le _ _ _ _
  unfold computeLinearModel linFit censoredFit
  dsimp only
  rw [if_neg (by simp), if_pos rfl, if_pos rfl, hok]
  dsimp only
  unfold computeLinearParametersCensored
  dsimp only
  rw [if_pos hs, hs, startLoop_found _ st 0 (by norm_num) hg 0 _ le_rfl (fun k _ hk => by omega)]
  dsimp only
  rw [if_neg (by norm_num)]

theorem no_minimum (unc : List (ℝ × ℝ)) (dn ds : List ℝ) (noise sat : Option ℝ) (ht : ThresholdsGiven dn ds noise sat) (hne : unc ≠ []) (b0 b1 : ℝ)
    (hl : ∀ o ∈ unc, o.2 = b0 + b1 * o.1) (hn : ∀ x ∈ dn, b0 + b1 * x ≤ noise.getD 0) (hs : ∀ x ∈ ds, sat.getD 0 ≤ b0 + b1 * x) :
    ¬ ∃ X, ∀ X', F.le (mleObjective unc dn ds noise sat X) (mleObjective unc dn ds noise sat X') = true := by
  rintro ⟨X, hX⟩
  have hval : ∀ M, ∃ X' v, mleObjective unc dn ds noise sat X' = .fin v ∧ v < M := by
    intro M
    obtain ⟨s, v, -, hv, hvM⟩ := C115_unbounded unc dn ds (noise.getD 0) (sat.getD 0) b0 b1 hne hl hn hs M
    refine ⟨(b0, b1, s), v, ?_, hvM⟩
    rw [mleObjective, mleObjective_pos _ _ _ _ _ ht, hv]
  cases hf : mleObjective unc dn ds noise sat X with
  | fin v =>
    obtain ⟨X', v', h1, h2⟩ := hval v
    have := hX X'
    rw [hf, h1] at this
    simp [F.le] at this
    linarith
  | pinf =>
    obtain ⟨X', v', h1, -⟩ := hval 0
    have := hX X'
    rw [hf, h1] at this
    simp [F.le] at this
  | ninf =>
    rw [mleObjective_eq unc dn ds noise sat ht] at hf
    split_ifs at hf
  | nan =>
    rw [mleObjective_eq unc dn ds noise sat ht] at hf
    split_ifs at hf

theorem stayLin_line (fmax : ℝ) (obs : List (ℝ × ℝ)) (det : ℝ) (noise sat : Option ℝ) (hfin : ∀ o ∈ obs, -fmax < o.2 ∧ o.2 < fmax)
    (hx : ∃ o ∈ uncensoredObs fmax obs noise sat, ∃ o' ∈ uncensoredObs fmax obs noise sat, o.1 ≠ o'.1) (b0 b1 : ℝ)
    (hl : ∀ o ∈ uncensoredObs fmax obs noise sat, o.2 = b0 + b1 * o.1)
    (hn : ∀ t, noise = some t → ∀ o ∈ obs, o.2 ≤ t → b0 + b1 * o.1 ≤ t) (hs : ∀ t, sat = some t → ∀ o ∈ obs, t ≤ o.2 → t ≤ b0 + b1 * o.1)
    (z : ℝ × ℝ × ℝ) (hz : 0 < z.2.2) :
    computeLinearModel fmax stayLin (fun _ => z) obs det noise sat false true
      = .ok ⟨uncensoredObs fmax obs noise sat, ⟨z.1, z.2.1, z.2.2, lineResiduals z.1 z.2.1 (uncensoredObs fmax obs noise sat)⟩, det, none⟩ := by
  have ht : ThresholdsGiven (noiseDefects fmax obs noise) (satDefects fmax obs sat) noise sat := by
    have := thresholdsGiven_obs fmax id noise sat obs hfin
    simpa using this
  have hne : uncensoredObs fmax obs noise sat ≠ [] := by
    obtain ⟨o, ho, -⟩ := hx
    exact List.ne_nil_of_mem ho
  have hno := no_minimum (uncensoredObs fmax obs noise sat) _ _ noise sat ht hne b0 b1 hl
    (fun x hx' => by
      cases hN : noise with
      | none => rw [ht.1 hN] at hx'; cases hx'
      | some t =>
        simp only [noiseDefects, List.mem_map, List.mem_filter, decide_eq_true_eq, hN, Option.getD_some] at hx'
        obtain ⟨o, ⟨ho, hle⟩, rfl⟩ := hx'
        exact hn t hN o ho hle)
    (fun x hx' => by
      cases hS : sat with
      | none => rw [ht.2 hS] at hx'; cases hx'
      | some t =>
        simp only [satDefects, List.mem_map, List.mem_filter, decide_eq_true_eq, hS, Option.getD_some] at hx'
        obtain ⟨o, ⟨ho, hle⟩, rfl⟩ := hx'
        exact hs t hS o ho hle)
  have h := linearModel_line fmax stayLin stayLin_exact (fun _ => z) obs det noise sat hfin hx b0 b1 hl hz
  dsimp only at h
  have hfmin : (stayLin.fmin (mleObjective (uncensoredObs fmax obs noise sat) (noiseDefects fmax obs noise) (satDefects fmax obs sat) noise sat) z).x = z := by
    simp only [stayLin, dif_neg hno]
  rw [hfmin] at h
  exact h

/-- The empirical law of residuals around a line of slope one, or minus one, seen from a large size. -/
theorem slopes_far (kept : List (ℝ × ℝ)) (hne : kept ≠ []) (det : ℝ) : ∃ x,
    empiricalCCDF (lineResiduals 0 1 kept) (det - (0 + 1 * x)) = 1 ∧ empiricalCCDF (lineResiduals 0 (-1) kept) (det - (0 + -1 * x)) = 0 := by
  have hlen : (0 : ℝ) < kept.length := by exact_mod_cast List.length_pos_iff.mpr hne
  have hbound : ∀ o ∈ kept, |o.1| + |o.2| ≤ (kept.map fun o => |o.1| + |o.2|).sum := fun o ho =>
    List.single_le_sum (by
      intro v hv
      obtain ⟨q, -, rfl⟩ := List.mem_map.mp hv
      positivity) _ (List.mem_map.mpr ⟨o, ho, rfl⟩)
  set S := (kept.map fun o => |o.1| + |o.2|).sum with hS
  refine ⟨|det| + S + 1, ?_, ?_⟩
  · rw [empiricalCCDF, lineResiduals, List.length_map, List.countP_map]
    rw [List.countP_eq_length.mpr, div_self hlen.ne']
    intro o ho
    have h1 := hbound o ho
    have h2 := neg_abs_le o.2
    have h3 := le_abs_self o.1
    have h4 := le_abs_self det
    simp only [Function.comp, decide_eq_true_eq]
    linarith
  · rw [empiricalCCDF, lineResiduals, List.length_map, List.countP_map]
    rw [List.countP_eq_zero.mpr, Nat.cast_zero, zero_div]
    intro o ho
    have h1 := hbound o ho
    have h2 := le_abs_self o.2
    have h3 := le_abs_self o.1
    have h4 := neg_abs_le det
    simp only [Function.comp, decide_eq_true_eq, not_lt]
    linarith

/-- **C211 is violated.**  For all data whose observations between the thresholds lie on a line that is on the right side of the thresholds at the
censored sizes: with the same draws of OpenTURNS (a binomial POD needs none) and exact routines, two sequences of numpy draws give a POD of one and of
zero at the same size. -/
theorem C211_violated (fmax : ℝ) (obs : List (ℝ × ℝ)) (det : ℝ) (noise sat : Option ℝ) (hfin : ∀ o ∈ obs, -fmax < o.2 ∧ o.2 < fmax)
    (hx : ∃ o ∈ uncensoredObs fmax obs noise sat, ∃ o' ∈ uncensoredObs fmax obs noise sat, o.1 ≠ o'.1) (b0 b1 : ℝ)
    (hl : ∀ o ∈ uncensoredObs fmax obs noise sat, o.2 = b0 + b1 * o.1)
    (hn : ∀ t, noise = some t → ∀ o ∈ obs, o.2 ≤ t → b0 + b1 * o.1 ≤ t) (hs : ∀ t, sat = some t → ∀ o ∈ obs, t ≤ o.2 → t ≤ b0 + b1 * o.1)
    (law : String → List ℝ → Res (ℝ → ℝ)) (s : PodRunAttrs) :
    ∃ lin, ExactFit lin ∧ ∃ w w', SameOpenturns w w' ∧ ∃ s1 s2 f1 f2 x,
      linearPodRun fmax ⟨lin, law⟩ ⟨obs, det, noise, sat, false, true, .binomial⟩ w s = (.ok (), s1) ∧ s1.pod = some f1 ∧ f1 x = 1 ∧
      linearPodRun fmax ⟨lin, law⟩ ⟨obs, det, noise, sat, false, true, .binomial⟩ w' s = (.ok (), s2) ∧ s2.pod = some f2 ∧ f2 x = 0 := by
  have hne : uncensoredObs fmax obs noise sat ≠ [] := by
    obtain ⟨o, ho, -⟩ := hx
    exact List.ne_nil_of_mem ho
  have hrun : ∀ z : ℝ × ℝ × ℝ, 0 < z.2.2 → ∃ s', linearPodRun fmax ⟨stayLin, law⟩ ⟨obs, det, noise, sat, false, true, .binomial⟩ ⟨fun _ => z, [], []⟩ s
      = (.ok (), s') ∧ s'.pod = some (podBinomial (lineResiduals z.1 z.2.1 (uncensoredObs fmax obs noise sat)) det fun x => z.1 + z.2.1 * x) := by
    intro z hz
    unfold linearPodRun
    dsimp only
    rw [stayLin_line fmax obs det noise sat hfin hx b0 b1 hl hn hs z hz]
    simp only [podFunction]
    exact ⟨_, rfl, rfl⟩
  obtain ⟨s1, r1, p1⟩ := hrun (0, 1, 1) one_pos
  obtain ⟨s2, r2, p2⟩ := hrun (0, -1, 1) one_pos
  obtain ⟨x, hx1, hx2⟩ := slopes_far (uncensoredObs fmax obs noise sat) hne det
  exact ⟨stayLin, stayLin_exact, ⟨fun _ => (0, 1, 1), [], []⟩, ⟨fun _ => (0, -1, 1), [], []⟩, ⟨rfl, rfl⟩, s1, s2, _, _, x, r1, p1, hx1, r2, p2, hx2⟩

/-- **C211 is violated, bootstrap.**  The data need not lie on a line: it is enough that one resample does, between the thresholds.  Both runs succeed
with the same POD function, but the curve of that resample is one in the first and zero in the second, at the same size. -/
theorem C211_violated_bootstrap (fmax : ℝ) (obs r : List (ℝ × ℝ)) (det : ℝ) (noise sat : Option ℝ) (name : String)
    (hfin : ∀ o ∈ obs, -fmax < o.2 ∧ o.2 < fmax) (hd : Scattered fmax noise sat obs) (hr : ∀ o ∈ r, o ∈ obs)
    (hx : ∃ o ∈ uncensoredObs fmax r noise sat, ∃ o' ∈ uncensoredObs fmax r noise sat, o.1 ≠ o'.1) (b0 b1 : ℝ)
    (hl : ∀ o ∈ uncensoredObs fmax r noise sat, o.2 = b0 + b1 * o.1)
    (hn : ∀ t, noise = some t → ∀ o ∈ r, o.2 ≤ t → b0 + b1 * o.1 ≤ t) (hs : ∀ t, sat = some t → ∀ o ∈ r, t ≤ o.2 → t ≤ b0 + b1 * o.1)
    (s : PodRunAttrs) :
    ∃ env : PodEnv, ExactFit env.lin ∧ LawSpec env.fitLaw ∧ ∃ w w', SameOpenturns w w' ∧ w.resamples.map Prod.fst = [r] ∧ ∃ s1 s2 f1 f2 x,
      linearPodRun fmax env ⟨obs, det, noise, sat, false, true, .other name⟩ w s = (.ok (), s1) ∧ s1.coll = some [f1] ∧ f1 x = 1 ∧
      linearPodRun fmax env ⟨obs, det, noise, sat, false, true, .other name⟩ w' s = (.ok (), s2) ∧ s2.coll = some [f2] ∧ f2 x = 0 ∧ s1.pod = s2.pod := by
  have hne : uncensoredObs fmax r noise sat ≠ [] := by
    obtain ⟨o, ho, -⟩ := hx
    exact List.ne_nil_of_mem ho
  have hne0 : uncensoredObs fmax obs noise sat ≠ [] := by
    obtain ⟨-, ⟨o, ho, -⟩, -⟩ := hd
    exact List.ne_nil_of_mem ho
  have hp : 0 < (stayLin.ols (uncensoredObs fmax obs noise sat)).2.2 := scattered_stderr stayLin stayLin_exact _ hd.1 hd.2.1 hd.2.2
  have ht : ThresholdsGiven (noiseDefects fmax obs noise) (satDefects fmax obs sat) noise sat := by
    have := thresholdsGiven_obs fmax id noise sat obs hfin
    simpa using this
  have hmain : ∃ x : ℝ × ℝ × ℝ, computeLinearModel fmax stayLin (fun _ => (0, 1, 1)) obs det noise sat false true
      = .ok ⟨uncensoredObs fmax obs noise sat, ⟨x.1, x.2.1, x.2.2, lineResiduals x.1 x.2.1 (uncensoredObs fmax obs noise sat)⟩, det, none⟩ := by
    unfold computeLinearModel linFit censoredFit
    dsimp only
    rw [if_neg (by simp), if_pos rfl, if_pos rfl, mleObjective_pos _ _ _ _ _ ht, MLE_eq_nll _ _ _ _ _ _ hp]
    dsimp only
    unfold computeLinearParametersCensored
    rw [if_neg (mleObjective_start _ _ _ _ _ _ hp)]
    exact ⟨_, rfl⟩
  obtain ⟨x0, hx0⟩ := hmain
  have hrun : ∀ z : ℝ × ℝ × ℝ, 0 < z.2.2 → ∃ s', linearPodRun fmax ⟨stayLin, empiricalLaw⟩ ⟨obs, det, noise, sat, false, true, .other name⟩
      ⟨fun _ => (0, 1, 1), [], [(r, fun _ => z)]⟩ s = (.ok (), s') ∧
      s'.pod = some (fun x => empiricalCCDF (lineResiduals x0.1 x0.2.1 (uncensoredObs fmax obs noise sat)) (det - (x0.1 + x0.2.1 * x))) ∧
      s'.coll = some [fun x => empiricalCCDF (lineResiduals z.1 z.2.1 (uncensoredObs fmax r noise sat)) (det - (z.1 + z.2.1 * x))] := by
    intro z hz
    have hlaw : ∀ (u v : ℝ) (l : List (ℝ × ℝ)), l ≠ [] → empiricalLaw name (lineResiduals u v l) = .ok (empiricalCCDF (lineResiduals u v l)) := by
      intro u v l hl
      rw [empiricalLaw, if_neg]
      rw [lineResiduals, List.map_eq_nil_iff]
      exact hl
    unfold linearPodRun
    dsimp only
    rw [hx0]
    simp only [podFunction, hlaw _ _ _ hne0, bootstrapColl, bootstrapModel,
      stayLin_line fmax r det noise sat (fun o ho => hfin o (hr o ho)) hx b0 b1 hl hn hs z hz, hlaw _ _ _ hne]
    exact ⟨_, rfl, rfl, rfl⟩
  obtain ⟨s1, r1, p1, c1⟩ := hrun (0, 1, 1) one_pos
  obtain ⟨s2, r2, p2, c2⟩ := hrun (0, -1, 1) one_pos
  obtain ⟨x, hx1, hx2⟩ := slopes_far (uncensoredObs fmax r noise sat) hne det
  exact ⟨⟨stayLin, empiricalLaw⟩, stayLin_exact, lawSpec_nonempty, ⟨fun _ => (0, 1, 1), [], [(r, fun _ => (0, 1, 1))]⟩,
    ⟨fun _ => (0, 1, 1), [], [(r, fun _ => (0, -1, 1))]⟩, ⟨rfl, rfl⟩, rfl, s1, s2, _, _, x, r1, c1, hx1, r2, c2, hx2, p1.trans p2.symm⟩

/-! ## Examples -/

theorem demoScattered : Scattered 10 (some 1) none [(1, 0), (2, 2), (3, 4), (4, 3)] := by
  have e : ([((1 : ℝ), (0 : ℝ)), (2, 2), (3, 4), (4, 3)].filter fun o => decide ((some (1 : ℝ)).getD (-10) < o.2) && decide (o.2 < (none : Option ℝ).getD 10))
      = [(2, 2), (3, 4), (4, 3)] := by norm_num
  unfold Scattered
  rw [e]
  refine ⟨by norm_num, ⟨(2, 2), by simp, (3, 4), by simp, by norm_num⟩, ?_⟩
  rintro ⟨b0, b1, h⟩
  have h1 := h (2, 2) (by simp)
  have h2 := h (3, 4) (by simp)
  have h3 := h (4, 3) (by simp)
  norm_num at h1 h2 h3
  linarith

example (law : String → List ℝ → Res (ℝ → ℝ)) (st st' : ℕ → ℝ × ℝ × ℝ) : ∃ lin, ExactFit lin ∧
    linearPodRun 10 ⟨lin, law⟩ ⟨[(1, 0), (2, 2), (3, 4), (4, 3)], 2, some 1, none, false, true, .normal⟩ ⟨st, [(1, 1, 1)], []⟩ freshPod
      = linearPodRun 10 ⟨lin, law⟩ ⟨[(1, 0), (2, 2), (3, 4), (4, 3)], 2, some 1, none, false, true, .normal⟩ ⟨st', [(1, 1, 1)], []⟩ freshPod :=
  ⟨stayLin, stayLin_exact, C211_threshold_partial 10 ⟨stayLin, law⟩ stayLin_exact _ rfl rfl ⟨st, [(1, 1, 1)], []⟩ ⟨st', [(1, 1, 1)], []⟩ ⟨rfl, rfl⟩ demoScattered
    (fun r hr => by cases hr) freshPod⟩

example : linearPodRun 10 demoPodEnv demoPodData ⟨fun _ => (0, 0, 0), [], [([(1, 1), (2, 3), (2, 3)], fun _ => (0, 0, 0))]⟩ freshPod
    = linearPodRun 10 demoPodEnv demoPodData ⟨fun _ => (5, 1, 2), [], [([(1, 1), (2, 3), (2, 3)], fun _ => (7, 7, 7))]⟩ freshPod :=
  C211_no_threshold_partial 10 demoPodEnv demoPodData rfl _ _ ⟨rfl, rfl⟩ freshPod

theorem demoLine_kept : uncensoredObs 10 [((1 : ℝ), (0 : ℝ)), (2, 2), (3, 4), (3, 4)] (some 1) none = [(2, 2), (3, 4), (3, 4)] := by
  norm_num [uncensoredObs]

/-- A noise threshold, the kept observations on the line `-2 + 2 a`. -/
example (law : String → List ℝ → Res (ℝ → ℝ)) : ∃ lin, ExactFit lin ∧ ∃ w w', SameOpenturns w w' ∧ ∃ s1 s2 f1 f2 x,
    linearPodRun 10 ⟨lin, law⟩ ⟨[(1, 0), (2, 2), (3, 4), (3, 4)], 2, some 1, none, false, true, .binomial⟩ w freshPod = (.ok (), s1) ∧
    s1.pod = some f1 ∧ f1 x = 1 ∧
    linearPodRun 10 ⟨lin, law⟩ ⟨[(1, 0), (2, 2), (3, 4), (3, 4)], 2, some 1, none, false, true, .binomial⟩ w' freshPod = (.ok (), s2) ∧
    s2.pod = some f2 ∧ f2 x = 0 :=
  C211_violated 10 [(1, 0), (2, 2), (3, 4), (3, 4)] 2 (some 1) none (by norm_num)
    (by rw [demoLine_kept]; exact ⟨(2, 2), by simp, (3, 4), by simp, by norm_num⟩) (-2) 2 (by rw [demoLine_kept]; norm_num)
    (fun t ht o ho hle => by
      rw [Option.some.injEq] at ht
      subst ht
      simp only [List.mem_cons, List.not_mem_nil, or_false] at ho
      rcases ho with rfl | rfl | rfl | rfl <;> first | norm_num; done | norm_num at hle) (fun t ht => by cases ht) law freshPod

/-- Scattered data, one resample on that line. -/
example : ∃ env : PodEnv, ExactFit env.lin ∧ LawSpec env.fitLaw ∧ ∃ w w', SameOpenturns w w' ∧
    w.resamples.map Prod.fst = [[(1, 0), (2, 2), (3, 4), (3, 4)]] ∧ ∃ s1 s2 f1 f2 x,
    linearPodRun 10 env ⟨[(1, 0), (2, 2), (3, 4), (4, 3)], 2, some 1, none, false, true, .other "KernelSmoothing"⟩ w freshPod = (.ok (), s1) ∧
    s1.coll = some [f1] ∧ f1 x = 1 ∧
    linearPodRun 10 env ⟨[(1, 0), (2, 2), (3, 4), (4, 3)], 2, some 1, none, false, true, .other "KernelSmoothing"⟩ w' freshPod = (.ok (), s2) ∧
    s2.coll = some [f2] ∧ f2 x = 0 ∧ s1.pod = s2.pod :=
  C211_violated_bootstrap 10 [(1, 0), (2, 2), (3, 4), (4, 3)] [(1, 0), (2, 2), (3, 4), (3, 4)] 2 (some 1) none "KernelSmoothing" (by norm_num)
    demoScattered (by simp) (by rw [demoLine_kept]; exact ⟨(2, 2), by simp, (3, 4), by simp, by norm_num⟩) (-2) 2 (by rw [demoLine_kept]; norm_num)
    (fun t ht o ho hle => by
      rw [Option.some.injEq] at ht
      subst ht
      simp only [List.mem_cons, List.not_mem_nil, or_false] at ho
      rcases ho with rfl | rfl | rfl | rfl <;> first | norm_num; done | norm_num at hle) (fun t ht => by cases ht) freshPod

end Verif.Props
