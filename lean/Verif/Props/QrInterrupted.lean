import Verif.Props.QrBootstrapLimit

/-!
# C241: the confidence curve of the quantile regression after a run that raised
-/

namespace Verif.Props
open Verif.Py Verif.Model

theorem qrSolvable_row {G : Type} (env : QrEnv G) (d : QrData) (b : List (ℝ × ℝ)) : QrSolvable env d b (-env.fmax) ↔ ∃ ds, QrRow env d b ds := by
  constructor
  · rintro ⟨r, mx, h1, h2, h3⟩
    obtain ⟨ds, hds⟩ := (qrSolveAll_ok env.pick _ _ _ _ _).mpr h3
    exact ⟨ds, r, mx, h1, h2, (qrSolveAll_iff _ _ _ _ _ _ _).1 hds⟩
  · rintro ⟨ds, r, mx, h1, h2, h3⟩
    exact ⟨r, mx, h1, h2, (qrSolveAll_ok env.pick _ _ _ _ _).mp ⟨ds, (qrSolveAll_iff _ _ _ _ _ _ _).2 h3⟩⟩

/-- A resample that cannot be solved stops the loop and leaves the sample of sizes as it is. -/
theorem qrBootstrap_bad {G : Type} (env : QrEnv G) (d : QrData) (nSim : ℕ) (b : List (ℝ × ℝ)) (hb : ¬ QrSolvable env d b (-env.fmax))
    (bs : List (List (ℝ × ℝ))) (done : List (List ℝ)) (s : QrAttrs G) :
    ∃ e s', qrBootstrap env d nSim (b :: bs) done s = (.error e, s') ∧ s'.rows = s.rows ∧ s'.data = s.data := by
  rw [qrBootstrap]
  have hf := podRun_fst env.fmax env.boxCox b (some d.detection) d.noise d.sat d.boxCox d.censored s.bc ⟨none, none⟩
  cases hp : podRun env.fmax env.boxCox b (some d.detection) d.noise d.sat d.boxCox d.censored s.bc with
  | mk res bc =>
    rw [hp] at hf
    dsimp only at hf
    cases res with
    | error e => exact ⟨e, _, rfl, rfl, rfl⟩
    | ok r =>
      dsimp only
      cases hm : sampleMax (r.obs.map Prod.fst) with
      | error e => exact ⟨e, _, rfl, rfl, rfl⟩
      | ok mx =>
        dsimp only
        cases hq : qrSolveAll env.pick (env.quantReg r.obs) (r.detection.getD 0) (-env.fmax) mx d.quantiles with
        | error e => exact ⟨e, _, rfl, rfl, rfl⟩
        | ok ds => exact absurd ⟨r, mx, hf.symm, hm, (qrSolveAll_ok _ _ _ _ _ _).mp ⟨ds, hq⟩⟩ hb

/-- The loop up to the first resample that cannot be solved: the missing rows are rows of zeros. -/
theorem qrBootstrap_stop {G : Type} (env : QrEnv G) (d : QrData) (nSim : ℕ) (good : List (List (ℝ × ℝ))) (rs : List (List ℝ))
    (h : List.Forall₂ (QrRow env d) good rs) (b : List (ℝ × ℝ)) (hb : ¬ QrSolvable env d b (-env.fmax)) (rest : List (List (ℝ × ℝ)))
    (done : List (List ℝ)) (s : QrAttrs G) (hn : nSim = done.length + (good.length + (rest.length + 1)))
    (hs : s.rows = some (done ++ List.replicate (good.length + (rest.length + 1)) (List.replicate d.quantiles.length 0))) :
    ∃ e s', qrBootstrap env d nSim (good ++ b :: rest) done s = (.error e, s') ∧ s'.data = s.data ∧
      s'.rows = some (done ++ rs ++ List.replicate (rest.length + 1) (List.replicate d.quantiles.length 0)) := by
  induction h generalizing done s with
  | nil =>
    obtain ⟨e, s', h1, h2, h3⟩ := qrBootstrap_bad env d nSim b hb rest done s
    refine ⟨e, s', h1, h3, ?_⟩
    rw [h2, hs]
    simp
  | @cons g row good rs hg _ ih =>
    obtain ⟨r, mx, h1, h2, h3⟩ := hg
    rw [List.cons_append, qrBootstrap]
    have hf := podRun_fst env.fmax env.boxCox g (some d.detection) d.noise d.sat d.boxCox d.censored s.bc ⟨none, none⟩
    rw [h1] at hf
    cases hp : podRun env.fmax env.boxCox g (some d.detection) d.noise d.sat d.boxCox d.censored s.bc with
    | mk res bc =>
      rw [hp] at hf
      dsimp only at hf
      subst hf
      dsimp only
      rw [h2]
      dsimp only
      rw [(qrSolveAll_iff _ _ _ _ _ _ _).2 h3]
      dsimp only
      have := ih (done ++ [row]) { s with bc := bc, rows := some ((done ++ [row]) ++ List.replicate (nSim - (done ++ [row]).length)
        (List.replicate d.quantiles.length 0)) } (by rw [hn]; simp; omega) (by
          have : nSim - (done ++ [row]).length = good.length + (rest.length + 1) := by rw [hn]; simp; omega
          rw [this])
      simpa using this

/-- The curve through points of abscissa 0 and a last point at the height of the last of them. -/
theorem interpGo_zeros (l : List (ℝ × ℝ)) (p : ℝ × ℝ) (mx v t : ℝ) (ht : 0 < t) (htm : t ≤ mx) (h0 : ∀ q ∈ p :: l, q.1 = 0)
    (hv : ((p :: l).getLast (by simp)).2 = v) : interpGo (p :: (l ++ [(mx, v)])) t = v := by
  induction l generalizing p with
  | nil =>
    rw [List.nil_append, interpGo]
    have hp : p.1 = 0 := h0 p (by simp)
    have hpv : p.2 = v := by simpa using hv
    split_ifs
    · rw [hpv, sub_self, zero_div, zero_mul, zero_add]
    · rw [interpGo]
  | cons q l ih =>
    rw [List.cons_append, interpGo, if_neg (by rw [h0 q (by simp)]; exact not_lt.2 ht.le)]
    exact ih q (fun a ha => h0 a (List.mem_cons_of_mem _ ha)) (by simpa using hv)

/-- A sample of values that are not negative with enough zeros has the quantile 0. -/
theorem quantile_zeros {ys : List ℝ} (hne : ys ≠ []) (h0 : ∀ y ∈ ys, 0 ≤ y) {c : ℝ} (hc0 : 0 ≤ c) {m : ℕ}
    (hm : m ≤ ys.countP (fun t => decide (t ≤ 0))) (hc : c * ys.length + 3 / 2 ≤ m) : quantile ys c = 0 := by
  have hl : (0 : ℝ) < ys.length := by exact_mod_cast List.length_pos_iff.mpr hne
  have hml : (m : ℝ) ≤ ys.length := by exact_mod_cast hm.trans List.countP_le_length
  have hc1 : c ≤ 1 := by
    by_contra hcon
    push Not at hcon
    nlinarith
  apply le_antisymm
  · obtain ⟨J, -, -, hJ2, hJ⟩ := quantile_count hne hc0 hc1
    apply (hJ ys rfl 0).1
    have : ((J + 1 : ℕ) : ℝ) ≤ m := by push_cast; linarith
    exact (by exact_mod_cast this : J + 1 ≤ m).trans hm
  · obtain ⟨a, ha, b, -, h1, -⟩ := quantile_between hne c
    exact (h0 a ha).trans h1

/-- **C241 is violated.**  For all data on which the curve can be built, all resamples of which one cannot be solved (and after solvable resamples with sizes that
are not negative): `run` raises, but `getPODCLModel(c)` then returns a curve, for every `c` below the share of the resamples not treated.  It gives all
defects up to the largest one the highest of the probability levels, since the missing sizes are zeros. -/
theorem C241_violated {G : Type} (env : QrEnv G) (d : QrData) (hq : d.quantiles ≠ []) (hmain : QrSolvable env d d.obs 0)
    (good : List (List (ℝ × ℝ))) (rs : List (List ℝ)) (hgood : List.Forall₂ (QrRow env d) good rs) (hpos : ∀ row ∈ rs, ∀ x ∈ row, 0 ≤ x)
    (bad : List (ℝ × ℝ)) (hbad : ¬ QrSolvable env d bad (-env.fmax)) (rest : List (List (ℝ × ℝ))) (c : ℝ) (hc0 : 0 ≤ c)
    (hc : c * (good.length + (rest.length + 1)) + 3 / 2 ≤ rest.length + 1) (s : QrAttrs G) :
    ∃ e s' r mx g, qrPodRun env d (good ++ bad :: rest) s = (.error e, s') ∧
      (podRun env.fmax env.boxCox d.obs (some d.detection) d.noise d.sat d.boxCox d.censored ⟨none, none⟩).1 = .ok r ∧ sampleMax (r.obs.map Prod.fst) = .ok mx ∧
      qrGetPODCL s' d.quantiles c = .ok g ∧ ∀ t, 0 < t → t ≤ mx → g t = .ok (d.quantiles.getD (d.quantiles.length - 1) 0) := by
  obtain ⟨r, mx, h1, h2, h3⟩ := hmain
  obtain ⟨ds, hds⟩ := (qrSolveAll_ok env.pick _ _ _ _ _).mpr h3
  have hf := podRun_fst env.fmax env.boxCox d.obs (some d.detection) d.noise d.sat d.boxCox d.censored s.bc ⟨none, none⟩
  rw [h1] at hf
  have hlen : ds.length = d.quantiles.length := qrSolveAll_length hds
  obtain ⟨f, hf'⟩ : ∃ f, qrCurve ds d.quantiles mx = .ok f := ⟨_, by rw [qrCurve, interp1d, if_pos (by simp [hlen])]⟩
  set bc := (podRun env.fmax env.boxCox d.obs (some d.detection) d.noise d.sat d.boxCox d.censored s.bc).2 with hbc
  set s1 : QrAttrs G := ⟨bc, some (r.obs, r.detection.getD 0), some f,
    some (List.replicate (good ++ bad :: rest).length (List.replicate d.quantiles.length 0))⟩ with hs1
  have hrun : qrPodRun env d (good ++ bad :: rest) s = qrBootstrap env d (good ++ bad :: rest).length (good ++ bad :: rest) [] s1 := by
    unfold qrPodRun
    rw [show podRun env.fmax env.boxCox d.obs (some d.detection) d.noise d.sat d.boxCox d.censored s.bc = (.ok r, bc) from Prod.ext hf rfl]
    dsimp only
    rw [h2]
    dsimp only
    rw [hds]
    dsimp only
    rw [hf']
  obtain ⟨e, s', h4, h5, h6⟩ := qrBootstrap_stop env d (good ++ bad :: rest).length good rs hgood bad hbad rest [] s1 (by simp) (by simp [hs1])
  rw [List.nil_append] at h6
  set rows := rs ++ List.replicate (rest.length + 1) (List.replicate d.quantiles.length (0 : ℝ)) with hrows
  have hgl : rs.length = good.length := hgood.length_eq.symm
  have hrl : rows.length = good.length + (rest.length + 1) := by rw [hrows]; simp [hgl]
  have hrne : rows ≠ [] := by
    intro h
    rw [h] at hrl
    simp at hrl
  have hhead : (rows.headD []).length = d.quantiles.length := by
    cases hgood with
    | nil => simp [hrows, List.replicate_succ]
    | cons hg _ =>
      obtain ⟨_, _, _, _, h⟩ := hg
      simp [hrows, h.length_eq]
  have hcols : (qrColumns rows).map (fun col => quantile col c) = List.replicate d.quantiles.length 0 := by
    rw [qrColumns, hhead, List.map_map]
    apply List.ext_getElem (by simp)
    intro k hk1 hk2
    rw [List.getElem_map, List.getElem_replicate, List.getElem_range, Function.comp_apply]
    refine quantile_zeros (m := rest.length + 1) (by simpa using hrne) ?_ hc0 ?_ ?_
    · intro y hy
      obtain ⟨row, hrow, rfl⟩ := List.mem_map.1 hy
      rw [hrows, List.mem_append, List.mem_replicate] at hrow
      rcases hrow with hrow | ⟨-, rfl⟩
      · by_cases hk : k < row.length
        · rw [List.getD_eq_getElem _ _ hk]
          exact hpos row hrow _ (List.getElem_mem hk)
        · rw [List.getD_eq_default _ _ (not_lt.1 hk)]
      · simp [List.getD_eq_getElem?_getD, List.getElem?_replicate]
        split_ifs <;> simp
    · rw [hrows, List.map_append, List.countP_append, List.map_replicate, List.countP_replicate]
      have : (List.replicate d.quantiles.length (0 : ℝ)).getD k 0 = 0 := by
        simp [List.getD_eq_getElem?_getD, List.getElem?_replicate]
        split_ifs <;> simp
      rw [this]
      simp
    · rw [List.length_map, hrl]
      push_cast
      linarith
  have hl' : (List.replicate d.quantiles.length (0 : ℝ)).length = d.quantiles.length := by simp
  refine ⟨e, s', r, mx, interpEval (sortPts ((0, 0) :: ((List.replicate d.quantiles.length (0 : ℝ)).zip d.quantiles ++
    [(mx, d.quantiles.getD (d.quantiles.length - 1) 0)]))), by rw [hrun, h4], h1, h2, ?_, ?_⟩
  · rw [qrGetPODCL, h6]
    dsimp only
    rw [if_neg hrne, h5, hs1]
    dsimp only
    rw [h2]
    dsimp only
    rw [qrCurveCl, hcols, qrCurve, interp1d, if_pos (by simp), qrCurve_pts _ _ _ hl']
  · intro t ht htm
    have hz : ∀ q ∈ (0, 0) :: (List.replicate d.quantiles.length (0 : ℝ)).zip d.quantiles, q.1 = 0 := by
      intro q hq'
      rcases List.mem_cons.1 hq' with rfl | hq'
      · rfl
      · exact List.eq_of_mem_replicate (List.of_mem_zip hq').1
    have hsort : ((0, 0) :: ((List.replicate d.quantiles.length (0 : ℝ)).zip d.quantiles ++
        [(mx, d.quantiles.getD (d.quantiles.length - 1) 0)])).Pairwise (fun a b => a.1 ≤ b.1) := by
      rw [← List.cons_append, List.pairwise_append]
      refine ⟨?_, by simp, fun a ha b hb => ?_⟩
      · rw [List.pairwise_iff_forall_sublist]
        intro a b hab
        rw [hz a (hab.subset (by simp)), hz b (hab.subset (by simp))]
      · rw [hz a ha, List.mem_singleton.1 hb]
        exact (ht.trans_le htm).le
    rw [sortPts_of_sorted hsort, interpEval, if_neg (not_lt.2 ht.le), if_neg (by
      simp only [← List.cons_append]
      rw [List.getLast_append_singleton]
      exact not_lt.2 htm)]
    congr 1
    refine interpGo_zeros _ _ mx _ t ht htm hz ?_
    have hql : d.quantiles.length ≠ 0 := by simpa using hq
    have hzl : ((List.replicate d.quantiles.length (0 : ℝ)).zip d.quantiles).length = d.quantiles.length := by simp
    have hzne : (List.replicate d.quantiles.length (0 : ℝ)).zip d.quantiles ≠ [] := by
      intro h
      rw [h] at hzl
      exact hql hzl.symm
    rw [List.getLast_cons hzne, List.getLast_eq_getElem, List.getElem_zip, List.getD_eq_getElem _ _ (by omega)]
    simp

/-- **C241 (restricted), completed runs.**  After a run that succeeded the confidence curve is built from the sizes of all resamples; without resamples
`getPODCLModel` raises.  Missing: runs that raise in a resample. -/
theorem C241_completed_partial {G : Type} (env : QrEnv G) (d : QrData) (bootstraps : List (List (ℝ × ℝ))) (s s' : QrAttrs G)
    (h : qrPodRun env d bootstraps s = (.ok (), s')) (c : ℝ) :
    ∃ rs, List.Forall₂ (QrRow env d) bootstraps rs ∧ s'.rows = some rs ∧
      (bootstraps = [] → Raises (qrGetPODCL s' d.quantiles c) .runtime) ∧
      (bootstraps ≠ [] → ∃ obs det mx, s'.data = some (obs, det) ∧ sampleMax (obs.map Prod.fst) = .ok mx ∧
        qrGetPODCL s' d.quantiles c = qrCurve ((List.range d.quantiles.length).map fun k => quantile (rs.map fun row => row.getD k 0) c) d.quantiles mx) := by
  have hok := (C143_run_iff_partial env d bootstraps s).1.1 (by rw [h])
  obtain ⟨rs, hrs⟩ : ∃ rs, List.Forall₂ (QrRow env d) bootstraps rs := by
    have h2 := hok.2
    clear h hok
    induction bootstraps with
    | nil => exact ⟨[], .nil⟩
    | cons b bs ih =>
      obtain ⟨row, hrow⟩ := (qrSolvable_row env d b).1 (h2 b (by simp))
      obtain ⟨rs, hrs⟩ := ih fun b hb => h2 b (by simp [hb])
      exact ⟨row :: rs, .cons hrow hrs⟩
  obtain ⟨r, mx, h1, h2, h3⟩ := hok.1
  obtain ⟨ds, hds⟩ := (qrSolveAll_ok env.pick _ _ _ _ _).mpr h3
  have hf := podRun_fst env.fmax env.boxCox d.obs (some d.detection) d.noise d.sat d.boxCox d.censored s.bc ⟨none, none⟩
  rw [h1] at hf
  have hlen : ds.length = d.quantiles.length := qrSolveAll_length hds
  obtain ⟨f, hf'⟩ : ∃ f, qrCurve ds d.quantiles mx = .ok f := ⟨_, by rw [qrCurve, interp1d, if_pos (by simp [hlen])]⟩
  set bc := (podRun env.fmax env.boxCox d.obs (some d.detection) d.noise d.sat d.boxCox d.censored s.bc).2 with hbc
  set s1 : QrAttrs G := ⟨bc, some (r.obs, r.detection.getD 0), some f,
    some (List.replicate bootstraps.length (List.replicate d.quantiles.length 0))⟩ with hs1
  have hrun : qrPodRun env d bootstraps s = qrBootstrap env d bootstraps.length bootstraps [] s1 := by
    unfold qrPodRun
    rw [show podRun env.fmax env.boxCox d.obs (some d.detection) d.noise d.sat d.boxCox d.censored s.bc = (.ok r, bc) from Prod.ext hf rfl]
    dsimp only
    rw [h2]
    dsimp only
    rw [hds]
    dsimp only
    rw [hf']
  have hrows := (qrBootstrap_rows env d bootstraps.length bootstraps rs hrs [] s1 (by simp) (by simp [hs1])).2
  have hdata := (qrBootstrap_ok env d bootstraps.length bootstraps [] s1).2.2
  rw [← hrun, h] at hrows hdata
  have hrows' : s'.rows = some rs := hrows
  have hdata' : s'.data = some (r.obs, r.detection.getD 0) := hdata
  refine ⟨rs, hrs, hrows', ?_, ?_⟩
  · rintro rfl
    cases hrs
    exact ⟨_, by rw [qrGetPODCL, hrows']; dsimp only; rw [if_pos rfl]⟩
  · intro hne
    refine ⟨_, _, mx, hdata', h2, ?_⟩
    have hrne : rs ≠ [] := by
      rintro rfl
      cases hrs
      exact hne rfl
    have hhead : (rs.headD []).length = d.quantiles.length := by
      cases hrs with
      | nil => exact absurd rfl hne
      | cons hg _ =>
        obtain ⟨_, _, _, _, h⟩ := hg
        simp [h.length_eq]
    rw [qrGetPODCL, hrows']
    dsimp only
    rw [if_neg hrne, hdata']
    dsimp only
    rw [h2]
    dsimp only
    rw [qrCurveCl, qrColumns, hhead, List.map_map]
    rfl

/-- **C241 (restricted), first run that fails on the data.**  When the curve itself cannot be built on a new object, `getPODCLModel` raises.  Missing:
runs that raise in a resample. -/
theorem C241_first_partial {G : Type} (env : QrEnv G) (d : QrData) (bootstraps : List (List (ℝ × ℝ))) (hmain : ¬ QrSolvable env d d.obs 0) (s : QrAttrs G)
    (hs : s.rows = none) (c : ℝ) :
    (∃ e, (qrPodRun env d bootstraps s).1 = .error e) ∧ Raises (qrGetPODCL (qrPodRun env d bootstraps s).2 d.quantiles c) .attributeError := by
  constructor
  · cases h : (qrPodRun env d bootstraps s).1 with
    | error e => exact ⟨e, rfl⟩
    | ok u => exact absurd ((C143_run_iff_partial env d bootstraps s).1.1 h).1 hmain
  · have hrows : (qrPodRun env d bootstraps s).2.rows = none := by
      unfold qrPodRun
      have hf := podRun_fst env.fmax env.boxCox d.obs (some d.detection) d.noise d.sat d.boxCox d.censored s.bc ⟨none, none⟩
      cases hp : podRun env.fmax env.boxCox d.obs (some d.detection) d.noise d.sat d.boxCox d.censored s.bc with
      | mk res bc =>
        rw [hp] at hf
        dsimp only at hf
        cases res with
        | error e => exact hs
        | ok r =>
          dsimp only
          cases hm : sampleMax (r.obs.map Prod.fst) with
          | error e => exact hs
          | ok mx =>
            dsimp only
            cases hq : qrSolveAll env.pick (env.quantReg r.obs) (r.detection.getD 0) 0 mx d.quantiles with
            | error e => exact hs
            | ok ds => exact absurd ⟨r, mx, hf.symm, hm, (qrSolveAll_ok _ _ _ _ _ _).mp ⟨ds, hq⟩⟩ hmain
    exact ⟨_, by rw [qrGetPODCL, hrows]⟩

/-- The observations (0, 0), (1, 1) and the threshold 1/2.  The first of 30 resamples is (0, 0), (0, 0), on which the regression finds the line 0: the run
raises, and the curve at the level 95 % is 1/2 for each defect up to 1. -/
example : ∃ (env : QrEnv Unit) (e : PyErr) (s' : QrAttrs Unit) (g : ℝ → Res ℝ),
    qrPodRun env ⟨[(0, 0), (1, 1)], 1 / 2, none, none, false, false, [1 / 2]⟩ ([] ++ [(0, 0), (0, 0)] :: List.replicate 29 [(0, 0), (1, 1)])
      ⟨⟨none, none⟩, none, none, none⟩ = (.error e, s') ∧ qrGetPODCL s' [1 / 2] 0.95 = .ok g ∧ g 0.001 = .ok (1 / 2) := by
  have hmax : sampleMax [(0 : ℝ), 1] = .ok 1 := by norm_num [sampleMax]
  set env : QrEnv Unit := ⟨fun _ _ _ => .error ⟨.runtime, ""⟩, fun o _ => if o = [(0, 0), (0, 0)] then ⟨0, 0, 0⟩ else ⟨0, 1, 0⟩, fun a _ => a, 10⟩ with henv
  obtain ⟨e, s', r, mx, g, h1, h2, h3, h4, h5⟩ := C241_violated env ⟨[(0, 0), (1, 1)], 1 / 2, none, none, false, false, [1 / 2]⟩ (by simp)
    ⟨⟨[(0, 0), (1, 1)], 0, some (1 / 2), none⟩, 1, rfl, hmax, by
      intro p hp
      rw [henv, LineMeets]
      simp
      norm_num⟩ [] [] .nil (by simp) [(0, 0), (0, 0)] (by
      rintro ⟨r, mx, h1, h2, h3⟩
      have hr : r = ⟨[(0, 0), (0, 0)], 0, some (1 / 2), none⟩ := by
        have h1' : (Except.ok ⟨[(0, 0), (0, 0)], 0, some (1 / 2), none⟩ : Res (RunResult ℝ)) = .ok r := h1
        rw [Except.ok.injEq] at h1'
        exact h1'.symm
      subst hr
      have := h3 (1 / 2) (by simp)
      rw [henv, LineMeets] at this
      norm_num at this) (List.replicate 29 [(0, 0), (1, 1)]) 0.95 (by norm_num) (by norm_num) ⟨⟨none, none⟩, none, none, none⟩
  have h2' : (Except.ok ⟨[(0, 0), (1, 1)], 0, some (1 / 2), none⟩ : Res (RunResult ℝ)) = .ok r := h2
  rw [Except.ok.injEq] at h2'
  subst h2'
  have h3' : sampleMax [(0 : ℝ), 1] = .ok mx := h3
  rw [hmax, Except.ok.injEq] at h3'
  subst h3'
  exact ⟨env, e, s', g, h1, h4, by simpa using h5 0.001 (by norm_num) (by norm_num)⟩

end Verif.Props
