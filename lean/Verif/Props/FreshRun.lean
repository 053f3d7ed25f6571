import Verif.Props.MetaRun
import Verif.Props.PliPod
import Verif.Props.Sobol
import Verif.Model.Bootstrap
import Verif.Model.QrRun

/-!
# C195: the results of a run do not depend on the past of the object
-/

namespace Verif.Props
open Verif.Py Verif.Model

/-! ## Linear model -/

/-- The attributes before any run. -/
def linearFresh : PodRunAttrs := ⟨none, none, none⟩

/-- Any number of runs with any random numbers; exceptions are caught by the caller. -/
noncomputable def linearRuns (fmax : ℝ) (env : PodEnv) (d : PodData) (ws : List PodDraws) (s : PodRunAttrs) : PodRunAttrs :=
  ws.foldl (fun s w => (linearPodRun fmax env d w s).2) s

theorem linear_coll (fmax : ℝ) (env : PodEnv) (d : PodData) (hf : d.fact = .binomial) (w : PodDraws) (s : PodRunAttrs) :
    (linearPodRun fmax env d w s).2.coll = s.coll := by
  unfold linearPodRun
  split
  · rfl
  · dsimp only
    split
    · rfl
    · rw [hf]

/-- **C195 (linear model).**  After any number of earlier runs, completed or not, a run with the random numbers `w` ends like the first run of a new
object with the same random numbers: same exception, or the same attributes. -/
theorem C195_linear_partial (fmax : ℝ) (env : PodEnv) (d : PodData) (ws : List PodDraws) (w : PodDraws) :
    let s := linearRuns fmax env d ws linearFresh
    (linearPodRun fmax env d w s).1 = (linearPodRun fmax env d w linearFresh).1 ∧
    ((linearPodRun fmax env d w linearFresh).1 = .ok () → (linearPodRun fmax env d w s).2 = (linearPodRun fmax env d w linearFresh).2) := by
  intro s
  have hc : d.fact = .binomial → s.coll = none := by
    intro hf
    have : ∀ (ws : List PodDraws) (t : PodRunAttrs), (linearRuns fmax env d ws t).coll = t.coll := by
      intro ws
      induction ws with
      | nil => intro t; rfl
      | cons v vs ih => intro t; exact (ih _).trans (linear_coll fmax env d hf v t)
    exact this ws linearFresh
  clear_value s
  unfold linearPodRun
  cases h1 : computeLinearModel fmax env.lin w.starts d.obs d.detection d.noise d.sat d.boxCox d.censored with
  | error e => exact ⟨rfl, fun h => by simp at h⟩
  | ok r =>
    dsimp only
    cases h2 : podFunction env d.fact r with
    | error e => exact ⟨rfl, fun h => by simp at h⟩
    | ok f =>
      dsimp only
      cases hf : d.fact with
      | binomial => exact ⟨rfl, fun _ => by dsimp only; rw [hc hf]; rfl⟩
      | normal => exact ⟨rfl, fun _ => rfl⟩
      | other name =>
        dsimp only
        cases h3 : bootstrapColl fmax env d name w.resamples with
        | error e => exact ⟨rfl, fun h => by simp at h⟩
        | ok fs => exact ⟨rfl, fun _ => rfl⟩

/-! ## Quantile regression -/

/-- The attributes before any run (`lambda` as set by the constructor). -/
def qrFresh {G : Type} (lam : Option ℝ) : QrAttrs G := ⟨⟨lam, none⟩, none, none, none⟩

/-- Runs with any quantiles and any resamples. -/
noncomputable def qrRuns {G : Type} (env : QrEnv G) (d : QrData) (ws : List (List ℝ × List (List (ℝ × ℝ)))) (s : QrAttrs G) : QrAttrs G :=
  ws.foldl (fun s w => (qrPodRun env { d with quantiles := w.1 } w.2 s).2) s

theorem podRun_graph {α G : Type} (fmax : ℝ) (bc : List α → List ℝ → ℝ → Res (ℝ × G)) (obs : List (α × ℝ)) (det noise sat : Option ℝ) (censored : Bool)
    (s : BoxCoxAttrs G) : (podRun fmax bc obs det noise sat false censored s).2.graph = s.graph := rfl

theorem bootstrap_graph {G : Type} (env : QrEnv G) (d : QrData) (hd : d.boxCox = false) (n : ℕ) (bs : List (List (ℝ × ℝ))) :
    ∀ (done : List (List ℝ)) (s : QrAttrs G), (qrBootstrap env d n bs done s).2.bc.graph = s.bc.graph := by
  induction bs with
  | nil => intro done s; rfl
  | cons b bs ih =>
    intro done s
    unfold qrBootstrap
    rw [hd]
    have hg := podRun_graph env.fmax env.boxCox b (some d.detection) d.noise d.sat d.censored s.bc
    rcases hp : podRun env.fmax env.boxCox b (some d.detection) d.noise d.sat false d.censored s.bc with ⟨e | r, bc⟩
    · rw [hp] at hg; exact hg
    · rw [hp] at hg
      dsimp only
      split
      · exact hg
      · split
        · exact hg
        · rw [ih]; exact hg

theorem qr_graph {G : Type} (env : QrEnv G) (d : QrData) (hd : d.boxCox = false) (bs : List (List (ℝ × ℝ))) (s : QrAttrs G) :
    (qrPodRun env d bs s).2.bc.graph = s.bc.graph := by
  unfold qrPodRun
  rw [hd]
  have hg := podRun_graph env.fmax env.boxCox d.obs (some d.detection) d.noise d.sat d.censored s.bc
  rcases hp : podRun env.fmax env.boxCox d.obs (some d.detection) d.noise d.sat false d.censored s.bc with ⟨e | r, bc⟩
  · rw [hp] at hg; exact hg
  · rw [hp] at hg
    dsimp only
    split
    · exact hg
    · split
      · exact hg
      · split
        · exact hg
        · rw [bootstrap_graph env d hd]; exact hg

/-- The base run from two states: same outcome, and the same attributes when it returns. -/
theorem podRun_two {α G : Type} (fmax : ℝ) (bc : List α → List ℝ → ℝ → Res (ℝ × G)) (obs : List (α × ℝ)) (det noise sat : Option ℝ) (boxCox censored : Bool)
    (s t : BoxCoxAttrs G) (hst : boxCox = false → s.graph = t.graph) :
    (podRun fmax bc obs det noise sat boxCox censored s).1 = (podRun fmax bc obs det noise sat boxCox censored t).1 ∧
    ∀ r, (podRun fmax bc obs det noise sat boxCox censored t).1 = .ok r →
      (podRun fmax bc obs det noise sat boxCox censored s).2 = (podRun fmax bc obs det noise sat boxCox censored t).2 := by
  unfold podRun
  dsimp only
  cases boxCox with
  | false =>
    refine ⟨rfl, fun r _ => ?_⟩
    simp only [Bool.false_eq_true, if_false]
    rw [hst rfl]
  | true =>
    simp only [if_true]
    cases boxCoxShift (List.map Prod.snd (if censored = true then uncensoredObs fmax obs noise sat else obs)) with
    | error e => exact ⟨rfl, fun r h => by simp at h⟩
    | ok shift =>
      dsimp only
      rcases bc (List.map Prod.fst (if censored = true then uncensoredObs fmax obs noise sat else obs))
        (List.map Prod.snd (if censored = true then uncensoredObs fmax obs noise sat else obs)) shift with e | ⟨lam, g⟩
      · exact ⟨rfl, fun r h => by simp at h⟩
      · exact ⟨rfl, fun r _ => rfl⟩

/-- **C195 (quantile regression).**  After any number of earlier runs with any quantiles and resamples, completed or not, a run ends like the first run of a
new object with the same quantiles and resamples: same exception, or the same attributes. -/
theorem C195_quantile_partial {G : Type} (env : QrEnv G) (d : QrData) (lam : Option ℝ) (ws : List (List ℝ × List (List (ℝ × ℝ)))) (bs : List (List (ℝ × ℝ))) :
    let s := qrRuns env d ws (qrFresh lam)
    (qrPodRun env d bs s).1 = (qrPodRun env d bs (qrFresh lam)).1 ∧
    ((qrPodRun env d bs (qrFresh lam)).1 = .ok () → (qrPodRun env d bs s).2 = (qrPodRun env d bs (qrFresh lam)).2) := by
  intro s
  have hg : d.boxCox = false → s.bc.graph = (qrFresh (G := G) lam).bc.graph := by
    intro hd
    have : ∀ (ws : List (List ℝ × List (List (ℝ × ℝ)))) (t : QrAttrs G), (qrRuns env d ws t).bc.graph = t.bc.graph := by
      intro ws
      induction ws with
      | nil => intro t; rfl
      | cons v vs ih => intro t; exact (ih _).trans (qr_graph env { d with quantiles := v.1 } hd v.2 t)
    exact this ws _
  clear_value s
  generalize qrFresh (G := G) lam = t at hg ⊢
  unfold qrPodRun
  obtain ⟨hp1, hp2⟩ := podRun_two env.fmax env.boxCox d.obs (some d.detection) d.noise d.sat d.boxCox d.censored s.bc t.bc hg
  rcases h1 : podRun env.fmax env.boxCox d.obs (some d.detection) d.noise d.sat d.boxCox d.censored t.bc with ⟨e | r, bt⟩
  · rw [h1] at hp1
    rcases h2 : podRun env.fmax env.boxCox d.obs (some d.detection) d.noise d.sat d.boxCox d.censored s.bc with ⟨e' | r', bs'⟩
    · rw [h2] at hp1
      refine ⟨by simpa using hp1, fun h => by simp at h⟩
    · rw [h2] at hp1; simp at hp1
  · rw [h1] at hp1
    have hb := hp2 r (by rw [h1])
    rcases h2 : podRun env.fmax env.boxCox d.obs (some d.detection) d.noise d.sat d.boxCox d.censored s.bc with ⟨e' | r', bs'⟩
    · rw [h2] at hp1; simp at hp1
    · rw [h2] at hp1 hb
      rw [h1] at hb
      have hr : r' = r := by simpa using hp1
      have hb' : bs' = bt := hb
      subst hr hb'
      dsimp only
      cases sampleMax (r'.obs.map Prod.fst) with
      | error e => exact ⟨rfl, fun h => by simp at h⟩
      | ok mx =>
        dsimp only
        cases qrSolveAll env.pick (env.quantReg r'.obs) (r'.detection.getD 0) 0 mx d.quantiles with
        | error e => exact ⟨rfl, fun h => by simp at h⟩
        | ok ds =>
          dsimp only
          cases qrCurve ds d.quantiles mx with
          | error e => exact ⟨rfl, fun h => by simp at h⟩
          | ok f => exact ⟨rfl, fun _ => rfl⟩

/-! ## Perturbation law indices -/

/-- **C195 (perturbation indices).**  Two objects in any consistent states (C65: after any accepted calls) with the same defect sizes give the same objects
and the same indices when a run with the same simulations returns. -/
theorem C195_pli_partial {Obj : Type} (env : RunEnv Obj) (s t s' t' : PliPod Obj) (hs : PliConsistent s) (ht : PliConsistent t)
    (hst : s.defectSizes = t.defectSizes) (h1 : pliRun env s = (.ok (), s')) (h2 : pliRun env t = (.ok (), t')) :
    (∀ i o, getPLIObject s' i = .ok o ↔ getPLIObject t' i = .ok o) ∧
    ∀ i, i < s.defectSizes.length → ∀ a b, s'.indices.v a b i = t'.indices.v a b i := by
  obtain ⟨_, _, ha, hb⟩ := C65_after_run_partial env s s' hs h1
  obtain ⟨_, _, ha', hb'⟩ := C65_after_run_partial env t t' ht h2
  constructor
  · intro i o
    by_cases hi : i < s.defectSizes.length
    · have hi' : i < t.defectSizes.length := hst ▸ hi
      have he : t.defectSizes[i] = s.defectSizes[i] := by simp only [hst]
      by_cases hd : NonDegenerate (env.pf i s.defectSizes[i])
      · obtain ⟨o1, m1, g1, g2, g3⟩ := (ha i hi).1 hd
        obtain ⟨o2, m2, k1, k2, k3⟩ := (ha' i hi').1 (he ▸ hd)
        rw [he, g1, Except.ok.injEq, Prod.mk.injEq] at k1
        rw [g2, k2, k1.1]
      · obtain ⟨m1, g1⟩ := ((ha i hi).2 hd).1
        obtain ⟨m2, g2⟩ := ((ha' i hi').2 (he ▸ hd)).1
        rw [g1, g2]; simp
    · obtain ⟨m1, g1⟩ := hb i (not_lt.1 hi)
      obtain ⟨m2, g2⟩ := hb' i (hst ▸ not_lt.1 hi)
      rw [g1, g2]; simp
  · intro i hi a b
    have hi' : i < t.defectSizes.length := hst ▸ hi
    have he : t.defectSizes[i] = s.defectSizes[i] := by simp only [hst]
    by_cases hd : NonDegenerate (env.pf i s.defectSizes[i])
    · obtain ⟨o1, m1, g1, g2, g3⟩ := (ha i hi).1 hd
      obtain ⟨o2, m2, k1, k2, k3⟩ := (ha' i hi').1 (he ▸ hd)
      rw [he, g1, Except.ok.injEq, Prod.mk.injEq] at k1
      rw [g3, k3, k1.2]
    · rw [((ha i hi).2 hd).2, ((ha' i hi').2 (he ▸ hd)).2]

/-! ## Metamodels -/

/-- **C195 (kriging).**  With a distribution given by the user, a run that returns leaves the same result, distribution and POD whatever happened before. -/
theorem C195_kriging_partial {R T D P : Type} (fit : Res (R × T)) (q2 : R → T → Res ℝ) (defaultDist : List ℝ → D) (compute : R → T → D → List ℝ → Res P)
    (s t : KrigingAttrs R T D P) (hs : s.userKriging = false) (ht : t.userKriging = false) (d : D) (hsd : s.distribution = some d)
    (htd : t.distribution = some d) (hz : s.sizes = t.sizes) :
    (krigingRun fit q2 defaultDist compute s).1 = (krigingRun fit q2 defaultDist compute t).1 ∧
    ((krigingRun fit q2 defaultDist compute t).1 = .ok () →
      (krigingRun fit q2 defaultDist compute s).2 = (krigingRun fit q2 defaultDist compute t).2) := by
  obtain ⟨su, sr, st, sd, ss, sp⟩ := s
  obtain ⟨tu, tr, tt, td, ts, tp⟩ := t
  dsimp only at hs ht hsd htd hz
  subst hs ht hsd htd hz
  unfold krigingRun
  rcases fit with e | ⟨r, u⟩
  · exact ⟨rfl, fun h => by simp at h⟩
  · simp only [Bool.false_eq_true, if_false, Option.getD_some]
    rcases q2 r u with e | q
    · exact ⟨rfl, fun h => by simp at h⟩
    · dsimp only
      rcases compute r u d ss with e | p
      · exact ⟨rfl, fun h => by simp at h⟩
      · exact ⟨rfl, fun _ => rfl⟩

/-- **C195 is violated** by the metamodels without a given distribution: run, change the sizes, run again.  For every kriging object whose runs return, the
second POD is computed with the default distribution of the *first* sizes, while a new object would use that of the present ones. -/
theorem C195_violated {R T D P : Type} (r : R) (u : T) (q : ℝ) (q2 : R → T → Res ℝ) (hq : q2 r u = .ok q) (defaultDist : List ℝ → D)
    (compute : R → T → D → List ℝ → Res P) (first second : List ℝ) (p1 p2 p3 : P) (h1 : compute r u (defaultDist first) first = .ok p1)
    (h2 : compute r u (defaultDist first) second = .ok p2) (h3 : compute r u (defaultDist second) second = .ok p3) :
    let fresh : List ℝ → KrigingAttrs R T D P := fun l => ⟨false, none, none, none, l, none⟩
    let run := krigingRun (.ok (r, u)) q2 defaultDist compute
    (run { (run (fresh first)).2 with sizes := second }).2.pod = some p2 ∧ (run (fresh second)).2.pod = some p3 := by
  simp [krigingRun, hq, h1, h2, h3]

/-- **C195 is violated** by a run that raises: the quantile regression keeps the POD and the resampled sizes of the earlier run while the data attributes
are those of the new one. -/
theorem C195_violated_stale {G : Type} (env : QrEnv G) (d : QrData) (bs : List (List (ℝ × ℝ))) (s : QrAttrs G) (r : RunResult ℝ) (bc : BoxCoxAttrs G)
    (hr : podRun env.fmax env.boxCox d.obs (some d.detection) d.noise d.sat d.boxCox d.censored s.bc = (.ok r, bc)) (mx : ℝ)
    (hmx : sampleMax (r.obs.map Prod.fst) = .ok mx) (e : PyErr)
    (he : qrSolveAll env.pick (env.quantReg r.obs) (r.detection.getD 0) 0 mx d.quantiles = .error e) :
    (qrPodRun env d bs s).1 = .error e ∧ (qrPodRun env d bs s).2.pod = s.pod ∧ (qrPodRun env d bs s).2.rows = s.rows := by
  unfold qrPodRun
  rw [hr]
  dsimp only
  rw [hmx]
  dsimp only
  rw [he]
  exact ⟨rfl, rfl, rfl⟩

/-- Kriging with a POD that records its distribution: sizes 1 and 2, run, size 5, run. -/
example :
    let run := krigingRun (R := Unit) (T := Unit) (D := ℝ) (P := ℝ) (.ok ((), ())) (fun _ _ => .ok 1) (fun l => l.sum) (fun _ _ d _ => .ok d)
    (run { (run ⟨false, none, none, none, [1, 2], none⟩).2 with sizes := [5] }).2.pod = some ([1, 2].sum) ∧
      (run ⟨false, none, none, none, [5], none⟩).2.pod = some ([5].sum) :=
  C195_violated () () 1 (fun _ _ => .ok 1) rfl (fun l => l.sum) (fun _ _ d _ => .ok d) [1, 2] [5] _ _ _ rfl rfl rfl

/-- Sizes 1, 2, 3 with signals 1, 2, 3; the line of the level 0.05 is `2 + x`, above the threshold 1: a run with the quantile 0.95 raises and an earlier POD
remains. -/
example (s : QrAttrs Unit) :
    let env : QrEnv Unit := ⟨fun _ _ _ => .ok (1, ()), fun _ _ => ⟨2, 1, 0⟩, fun a _ => a, 10 ^ 300⟩
    let d : QrData := ⟨[(1, 1), (2, 2), (3, 3)], 1, none, none, false, false, [0.95]⟩
    (qrPodRun env d [] s).1 = .error ⟨.runtime, ""⟩ ∧ (qrPodRun env d [] s).2.pod = s.pod ∧ (qrPodRun env d [] s).2.rows = s.rows := by
  intro env d
  refine C195_violated_stale env d [] s ⟨d.obs, 0, some 1, none⟩ _ rfl 3 ?_ _ ?_
  · change Except.ok (max (max (1 : ℝ) 2) 3) = _
    norm_num
  · simp only [qrSolveAll, qrFitFor, brentLine, env, d]
    norm_num

/-- The theorem on linear models for a concrete object (binomial model on three observations) after one earlier run. -/
example (w v : PodDraws) :
    let env : PodEnv := ⟨⟨fun _ _ _ => .ok 1, fun _ => (0, 1, 1), fun _ x => ⟨x, 0⟩⟩, fun _ _ => .ok fun _ => 0⟩
    let d : PodData := ⟨[(1, 1), (2, 2), (3, 3)], 2, none, none, false, false, .binomial⟩
    (linearPodRun 10 env d w (linearRuns 10 env d [v] linearFresh)).2 = (linearPodRun 10 env d w linearFresh).2 := by
  intro env d
  exact (C195_linear_partial 10 env d [v] w).2 rfl

/-! ## Sobol indices -/

theorem sobolRun_subset (observed : List ℝ) (N : ℕ) (design : List ℝ → List (List ℝ)) (s : SobolSt)
    (hlen : (design s.sizes).length = s.sizes.length) : ∀ d ∈ (sobolRun observed N design s).2.sizes, d ∈ s.sizes := by
  intro d hd
  have key : ∀ arg : List ℝ, (∀ x ∈ arg, x ∈ s.sizes) →
      ∀ x ∈ (setDefectSizes observed arg s.toSizeAttrs).2.sizes, x ∈ s.sizes := by
    intro arg ha x hx
    unfold setDefectSizes at hx
    split at hx
    · exact hx
    · dsimp only at hx
      split at hx
      · split at hx
        · exact ha x (mem_sortR.mp hx)
        · exact ha x (mem_sortR.mp hx)
      · exact ha x (mem_sortR.mp hx)
  have harg : ∀ sel : List ℕ, (∀ j ∈ sel, j < (design s.sizes).length) →
      ∀ x ∈ sel.map (fun j => s.sizes.getD j 0), x ∈ s.sizes := by
    intro sel hs x hx
    obtain ⟨j, hj, rfl⟩ := List.mem_map.mp hx
    have := hs j hj
    rw [hlen] at this
    rw [List.getD_eq_getElem _ _ this]
    exact List.getElem_mem this
  unfold sobolRun at hd
  dsimp only at hd
  split at hd
  · have hk := key _ (harg ((List.range (design s.sizes).length).filter fun j =>
      colVariance (((design s.sizes).getD j []).take N) ≠ 0)
      (fun j hj => List.mem_range.mp (List.mem_filter.mp hj).1)) d
    split at hd
    · rename_i heq; rw [heq] at hk; exact hk hd
    · rename_i heq; rw [heq] at hk; exact hk hd
  · exact hd

/-- **C195 is violated for the Sobol indices.**  A run that drops a defect size drops it for good: however many runs
follow, with whatever PODs, outputs and numbers of simulations, none of them analyses that size; whereas a new object
with the same sizes analyses it as soon as its output is not constant. -/
theorem C195_violated_sobol (observed : List ℝ) (mn mx : ℝ) (hmn : IsLeast {x | x ∈ observed} mn)
    (hmx : IsGreatest {x | x ∈ observed} mx) (s : SobolSt) (hok : SizesOk mn mx s)
    (first : ℕ × (List ℝ → List (List ℝ))) (later : List (ℕ × (List ℝ → List (List ℝ))))
    (hshape : ∀ r ∈ first :: later, 2 ≤ r.1 ∧ ∀ l, (r.2 l).length = l.length ∧ ∀ c ∈ r.2 l, r.1 ≤ c.length)
    (d : ℝ) (hdrop : d ∉ (sobolRun observed first.1 first.2 s).2.sizes) :
    d ∉ (sobolHistory observed ((first :: later).map fun r => .run r.1 r.2) s).sizes ∧
    ∀ r ∈ later, ∀ c, (d, c) ∈ s.sizes.zip (r.2 s.sizes) → Varies r.1 c →
      d ∈ (sobolRun observed r.1 r.2 s).2.sizes := by
  constructor
  · have key : ∀ (rs : List (ℕ × (List ℝ → List (List ℝ)))) (t : SobolSt),
        (∀ r ∈ rs, ∀ l, (r.2 l).length = l.length) → d ∉ t.sizes →
        d ∉ (sobolHistory observed (rs.map fun r => .run r.1 r.2) t).sizes := by
      intro rs
      induction rs with
      | nil => exact fun t _ h => h
      | cons r rs ih =>
        intro t hr ht
        exact ih _ (fun r' h => hr r' (List.mem_cons_of_mem _ h))
          (fun h => ht (sobolRun_subset observed r.1 r.2 t (hr r List.mem_cons_self _) d h))
    exact key later _ (fun r h l => ((hshape r (List.mem_cons_of_mem _ h)).2 l).1) hdrop
  · intro r hr c hc hv
    classical
    obtain ⟨h2, hd⟩ := hshape r (List.mem_cons_of_mem _ hr)
    have sel := C67_selection observed mn mx hmn hmx r.1 h2 r.2 s hok (hd _).1 (hd _).2
    dsimp only at sel
    have hm : (d, c) ∈ (s.sizes.zip (r.2 s.sizes)).filter fun p => decide (Varies r.1 p.2) :=
      List.mem_filter.mpr ⟨hc, by simpa using hv⟩
    obtain ⟨-, h1, -, -⟩ := sel.1 (fun h => by have hm2 := hm; simp only [h] at hm2; simp at hm2)
    rw [h1]
    exact List.mem_map.mpr ⟨(d, c), by convert hm, rfl⟩

/-- A first run on a POD that is constant at size 1, a second on one that is not. -/
example : (1 : ℝ) ∉ (sobolRun [1, 2] 2 exDesign ⟨⟨[1, 2], 2⟩, none⟩).2.sizes ∧
    SizesOk 1 2 ⟨⟨[1, 2], 2⟩, none⟩ ∧ (∀ l : List ℝ, (l.map fun x => [0, x]).length = l.length) ∧
    ((1 : ℝ), [0, 1]) ∈ [1, 2].zip ([1, 2].map fun x : ℝ => [0, x]) ∧ Varies 2 [0, 1] := by
  have hok : SizesOk 1 2 ⟨⟨[1, 2], 2⟩, none⟩ := by
    refine ⟨by simp, ?_, rfl, by simp⟩
    intro d hd
    simp only [List.mem_cons, List.not_mem_nil, or_false] at hd
    rcases hd with rfl | rfl <;> norm_num
  refine ⟨?_, hok, fun l => by simp, by simp, ⟨0, 1, by norm_num, by norm_num, by simp⟩⟩
  have hl : IsLeast {x | x ∈ ([1, 2] : List ℝ)} 1 := ⟨by simp, fun x hx => by
    have : x = 1 ∨ x = 2 := by simpa using hx
    rcases this with rfl | rfl <;> norm_num⟩
  have hg : IsGreatest {x | x ∈ ([1, 2] : List ℝ)} 2 := ⟨by simp, fun x hx => by
    have : x = 1 ∨ x = 2 := by simpa using hx
    rcases this with rfl | rfl <;> norm_num⟩
  classical
  have hv1 : ¬ Varies 2 [0, 0, 5] := by
    rintro ⟨i, k, hi, hk, h⟩
    interval_cases i <;> interval_cases k <;> simp at h
  have hv2 : Varies 2 [0, 2, 5] := ⟨0, 1, by norm_num, by norm_num, by simp⟩
  have e : exDesign [1, 2] = [[0, 0, 5], [0, 2, 5]] := by simp [exDesign]
  have sel := C67_selection [1, 2] 1 2 hl hg 2 le_rfl exDesign ⟨⟨[1, 2], 2⟩, none⟩ hok (by simp [exDesign])
    (by rw [e]; intro c hc; simp only [List.mem_cons, List.not_mem_nil, or_false] at hc; rcases hc with rfl | rfl <;> simp)
  dsimp only at sel
  rw [e] at sel
  obtain ⟨-, h1, -⟩ := sel.1 (by simp [hv1, hv2])
  rw [h1]
  simp [hv1, hv2]

end Verif.Props
