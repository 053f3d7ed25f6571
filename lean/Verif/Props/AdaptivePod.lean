import Verif.Model.AdaptivePod
import Verif.Props.KrigingFit
import Verif.Props.DefaultDist

/-!
# The POD of an adaptive run is the kriging POD of its design (C235)
-/

namespace Verif.Props
open Verif.Py Verif.Model

variable {X C B R : Type}

/-- **C235.**  Without added points `AdaptiveSignalPOD` gives the result of `KrigingPOD` on the same data with the same settings: the same
exception, or the same kriging result, simulated PODs and curve; the design is unchanged. -/
theorem C235_no_points (ext : KrigExt (List X × List ℝ) C B R) (unit : ℕ → ℕ → List (List ℝ)) (size : ℤ) (s0 : KState C B R)
    (physical : X → Res ℝ) (crit : ℕ → R → R → List X → List ℝ → ℕ → X → Res (F ℝ)) (cands : List X) (rows : ℕ)
    (sim : R → List X → ℕ → ℝ → List ℝ) (s : AdAttrs X R) (t : SimAttrs) :
    let ad := adaptivePodRun ext unit size s0 physical crit cands 0 rows sim (s, t)
    let kr := krigingPodRun ext unit size rows sim s.input s.signals (s0, t)
    ad.1 = kr.1 ∧ ad.2.2 = kr.2.2 ∧ ad.2.1.input = s.input ∧ ad.2.1.signals = s.signals ∧
    ∀ r, (krigingPodFit ext unit size (s.input, s.signals) s0).1 = .ok r → ad.2.1.model = some r ∧ kr.2.1.result = some r := by
  intro ad kr
  have hfit : (adaptiveFit ext unit size (s.input, s.signals) s0).1 = (krigingPodFit ext unit size (s.input, s.signals) s0).1 := by
    unfold adaptiveFit krigingPodFit
    cases fitOptimised ext unit size (s.input, s.signals) s0 with
    | mk r s1 =>
      cases r with
      | error e => rfl
      | ok r =>
        dsimp only
        cases ext.q2 (s.input, s.signals) r <;> rfl
  cases hk : krigingPodFit ext unit size (s.input, s.signals) s0 with
  | mk r k =>
    rw [hk] at hfit
    dsimp only at hfit
    cases r with
    | error e =>
      have h1 : ad = (.error e, (s, t)) := by
        simp only [ad, adaptivePodRun, adRun, krigEnv, hfit]
      have h2 : kr = (.error e, (k, t)) := by
        simp only [kr, krigingPodRun, hk]
      rw [h1, h2]
      exact ⟨rfl, rfl, rfl, rfl, fun r h => by cases h⟩
    | ok r =>
      have h1 : ad = ((krigingRunSim rows (sim r s.input) t).1, ({ s with model := some r }, (krigingRunSim rows (sim r s.input) t).2)) := by
        simp only [ad, adaptivePodRun, adRun, krigEnv, hfit, adLoop]
      have h2 : kr = ((krigingRunSim rows (sim r s.input) t).1, (k, (krigingRunSim rows (sim r s.input) t).2)) := by
        simp only [kr, krigingPodRun, hk]
      have h3 := (krigingPodFit_ok ext unit size _ s0 k r hk).2.2.1
      rw [h1, h2]
      refine ⟨rfl, rfl, rfl, rfl, fun r' h => ?_⟩
      dsimp only at h
      rw [Except.ok.injEq] at h
      subst h
      exact ⟨rfl, h3⟩

/-- **C235.**  When the enrichment returns after adding points, the result is the one of a `KrigingPOD` built on the final design, with the
covariance parameters and the trend basis estimated on the initial design given by the user (`setCovarianceModel`, `setBasis`) and their
estimation disabled (`setInitialStartSize(0)`): same kriging result, and the same exception of the simulation or the same simulated PODs and
curve. -/
theorem C235_points (ext : KrigExt (List X × List ℝ) C B R) (theta : C → List ℝ) (hs : FitSpec ext theta) (unit : ℕ → ℕ → List (List ℝ))
    (size : ℤ) (s0 : KState C B R) (physical : X → Res ℝ) (crit : ℕ → R → R → List X → List ℝ → ℕ → X → Res (F ℝ)) (cands : List X)
    (n rows : ℕ) (hn : 0 < n) (sim : R → List X → ℕ → ℝ → List ℝ) (s s' : AdAttrs X R) (t : SimAttrs) (mf : R)
    (h : adRun (krigEnv ext unit size s0 physical crit) cands n s = (.ok mf, s')) :
    ∃ m0 c b, (adaptiveFit ext unit size (s.input, s.signals) s0).1 = .ok m0 ∧ theta c = theta (ext.covOf m0) ∧ b = ext.basisOf m0 ∧
      (let ad := adaptivePodRun ext unit size s0 physical crit cands n rows sim (s, t)
       let kr := krigingPodRun ext unit 0 rows sim s'.input s'.signals (⟨some b, some c, none, none⟩, t)
       ad.1 = kr.1 ∧ ad.2.2 = kr.2.2 ∧ ad.2.1.model = some mf ∧ kr.2.1.result = some mf) := by
  have loop : ∀ (ref : R) (n it : ℕ) (cand : List X) (idx : Option ℕ) (m : R) (s : AdAttrs X R), 0 < n →
      adLoop (krigEnv ext unit size s0 physical crit) ref n it cand idx m s = (.ok mf, s') →
      ∃ m', theta (ext.covOf m') = theta (ext.covOf m) ∧ ext.basisOf m' = ext.basisOf m ∧ s'.model = some mf ∧
        ext.fitRun ⟨ext.covOf m', ext.basisOf m', false, none, []⟩ (s'.input, s'.signals) = .ok mf ∧
        ∃ v, ext.q2 (s'.input, s'.signals) mf = .ok v := by
    intro ref n
    induction n with
    | zero => intro it cand idx m s h0; omega
    | succ n ih =>
      intro it cand idx m s _ h
      rw [adLoop] at h; dsimp only at h
      split at h
      · simp at h
      · rename_i cand' idx' m' s1 hit
        obtain ⟨k, x, y, rfl, hx, rfl, hy, hin, hsig, hbc, hmod, hre, c, hscan⟩ := adIter_ok _ _ _ _ _ _ _ _ _ _ _ hit
        obtain ⟨hf, v, hv, hlt⟩ := krigEnv_refit_ok ext unit size s0 physical crit _ _ _ _ hre
        rcases Nat.eq_zero_or_pos n with h0 | h0
        · subst h0
          simp only [adLoop, Prod.mk.injEq, Except.ok.injEq] at h
          obtain ⟨rfl, rfl⟩ := h
          exact ⟨m, rfl, rfl, hmod, hf, v, hv⟩
        · obtain ⟨m2, h1, h2, h3, h4, h5⟩ := ih _ _ _ _ _ h0 h
          exact ⟨m2, h1.trans (hs.fixed _ _ _ rfl hf), h2.trans (hs.basis _ _ _ hf), h3, h4, h5⟩
  have h' := h
  rw [adRun] at h'
  split at h'
  · simp at h'
  · rename_i m0 hm0
    obtain ⟨m', h1, h2, h3, h4, v, h5⟩ := loop _ _ _ _ _ _ _ hn h'
    refine ⟨m0, ext.covOf m', ext.basisOf m', hm0, h1, h2, ?_⟩
    intro ad kr
    have e1 : ad = ((krigingRunSim rows (sim mf s'.input) t).1, (s', (krigingRunSim rows (sim mf s'.input) t).2)) := by
      simp only [ad, adaptivePodRun, h]
    have e2 : kr = ((krigingRunSim rows (sim mf s'.input) t).1,
        (⟨some (ext.basisOf m'), some (ext.covOf m'), some mf, some v⟩, (krigingRunSim rows (sim mf s'.input) t).2)) := by
      simp [kr, krigingPodRun, krigingPodFit, fitOptimised, buildKrigingAlgo, estimKrigingTheta, KAlgo.setOptimize, KAlgo.run, h4, h5]
    rw [e1, e2]
    exact ⟨rfl, rfl, h3, rfl⟩

theorem sampleRange_append (c add : List ℝ) (a b : ℝ) (ha : sampleMin c = .ok a) (hb : sampleMax c = .ok b) (h : ∀ x ∈ add, a ≤ x ∧ x ≤ b) :
    sampleMin (c ++ add) = .ok a ∧ sampleMax (c ++ add) = .ok b := by
  have hne : c ++ add ≠ [] := by
    intro h0
    rw [(List.append_eq_nil_iff.mp h0).1] at ha
    cases ha
  obtain ⟨a', ha'⟩ := sampleMin_total hne
  obtain ⟨b', hb'⟩ := sampleMax_total hne
  have l1 := sampleMin_spec ha
  have l2 := sampleMin_spec ha'
  have g1 := sampleMax_spec hb
  have g2 := sampleMax_spec hb'
  constructor
  · rw [ha']
    congr 1
    refine le_antisymm (l2.2 (List.mem_append_left _ l1.1)) ?_
    rcases List.mem_append.mp l2.1 with hm | hm
    · exact l1.2 hm
    · exact (h _ hm).1
  · rw [hb']
    congr 1
    refine le_antisymm ?_ (g2.2 (List.mem_append_left _ g1.1))
    rcases List.mem_append.mp g2.1 with hm | hm
    · exact g1.2 hm
    · exact (h _ hm).2

theorem columnRanges_append : ∀ (cols adds : List (List ℝ)) (r : List (ℝ × ℝ)), adds.length = cols.length → columnRanges cols = .ok r →
    (∀ p ∈ r.zip adds, ∀ x ∈ p.2, p.1.1 ≤ x ∧ x ≤ p.1.2) → columnRanges (List.zipWith (· ++ ·) cols adds) = .ok r
  | [], [], r, _, h, _ => h
  | [], _ :: _, r, hl, _, _ => by simp at hl
  | _ :: _, [], r, hl, _, _ => by simp at hl
  | c :: cs, d :: ds, r, hl, h, hin => by
    rw [columnRanges] at h
    cases h1 : sampleMin c with
    | error e => rw [h1] at h; cases sampleMax c <;> cases h
    | ok a =>
      cases h2 : sampleMax c with
      | error e => rw [h1, h2] at h; cases h
      | ok b =>
        rw [h1, h2] at h
        dsimp only at h
        cases h3 : columnRanges cs with
        | error e => rw [h3] at h; cases h
        | ok r' =>
          rw [h3] at h
          dsimp only at h
          rw [Except.ok.injEq] at h
          subst h
          obtain ⟨e1, e2⟩ := sampleRange_append c d a b h1 h2 (hin ((a, b), d) (by simp))
          have e3 := columnRanges_append cs ds r' (by simpa using hl) h3 fun p hp => hin p (by simp [hp])
          rw [List.zipWith_cons_cons, columnRanges, e1, e2]
          dsimp only
          rw [e3]

/-- **C235, the law of the parameters.**  When the user gives no distribution, the uniform laws computed from the initial design are those
computed from the final one, as the added points are drawn from these laws: both classes simulate with the same law. -/
theorem C235_law (defects addDefects : List ℝ) (params adds : List (List ℝ)) (sizes : List ℝ) (ms : List (ℝ × ℝ)) (hd : defects ≠ [])
    (hl : adds.length = params.length) (h : defaultMarginals defects params sizes = .ok ms)
    (hin : ∀ p ∈ ms.tail.zip adds, ∀ x ∈ p.2, p.1.1 ≤ x ∧ x ≤ p.1.2) :
    defaultMarginals (defects ++ addDefects) (List.zipWith (· ++ ·) params adds) sizes = .ok ms := by
  have uni : ∀ (l ms : List (ℝ × ℝ)), uniformMarginals l = .ok ms → ms = l := by
    intro l
    induction l with
    | nil => intro ms h; rw [uniformMarginals, Except.ok.injEq] at h; exact h.symm
    | cons a l ih =>
      intro ms h
      rw [uniformMarginals, uniformLaw] at h
      by_cases hab : a.1 < a.2
      · rw [if_pos hab] at h
        dsimp only at h
        cases hu : uniformMarginals l with
        | error e => rw [hu] at h; cases h
        | ok r =>
          rw [hu] at h
          dsimp only at h
          rw [Except.ok.injEq] at h
          rw [← h, ih r hu]
      · rw [if_neg hab] at h; cases h
  rw [defaultMarginals] at h ⊢
  obtain ⟨a, ha⟩ := sampleMin_total hd
  obtain ⟨b, hb⟩ := sampleMax_total hd
  obtain ⟨a', ha'⟩ := sampleMin_total (l := defects ++ addDefects) (by simp [hd])
  obtain ⟨b', hb'⟩ := sampleMax_total (l := defects ++ addDefects) (by simp [hd])
  rw [columnRanges, ha, hb] at h
  rw [columnRanges, ha', hb']
  dsimp only at h ⊢
  cases hc : columnRanges params with
  | error e => rw [hc] at h; cases h
  | ok r =>
    rw [hc] at h
    dsimp only at h
    cases h1 : sampleMin sizes with
    | error e => rw [h1] at h; cases h2 : sampleMax sizes <;> rw [h2] at h <;> cases h
    | ok lo =>
      cases h2 : sampleMax sizes with
      | error e => rw [h1, h2] at h; cases h
      | ok hi =>
        rw [h1, h2] at h
        dsimp only [List.tail_cons] at h
        have hms := uni _ _ h
        rw [hms, List.tail_cons] at hin
        rw [columnRanges_append params adds r hl hc hin]
        exact h

/-- Two parameters, one added point. -/
example : defaultMarginals ([1, 2, 3] ++ [2.5]) (List.zipWith (· ++ ·) [[4, 6, 5], [0, 1, 9]] [[4.5], [9]]) [1, 3] = .ok [(1, 3), (4, 6), (0, 9)] := by
  refine C235_law _ _ _ _ _ _ (by simp) rfl ?_ ?_
  · simp only [defaultMarginals, columnRanges, sampleMin, sampleMax, List.foldl]
    norm_num [uniformMarginals, uniformLaw]
  · intro p hp
    simp only [List.tail_cons, List.zip_cons_cons, List.zip_nil_right, List.mem_cons, List.not_mem_nil, or_false] at hp
    rcases hp with rfl | rfl <;> intro x hx <;> simp only [List.mem_singleton] at hx <;> subst hx <;> norm_num

/-- The run of the toy library that adds two points: the POD is the one of the design of three points. -/
example (sim : ℝ → List ℕ → ℕ → ℝ → List ℝ) (t : SimAttrs) : ∃ c : ℝ,
    (adaptivePodRun (toyKrig fun _ => 0.97) toyUnit 3 ⟨none, none, none, none⟩ (fun x => .ok x)
      (fun _ _ _ _ _ _ x => .ok (.fin x)) [5, 3, 7] 2 10 sim (⟨[1], [1], none, none⟩, t)).2.2
    = (krigingPodRun (toyKrig fun _ => 0.97) toyUnit 0 10 sim [1, 3, 5] [1, 3, 5] (⟨some (), some c, none, none⟩, t)).2.2 := by
  have h : adRun (krigEnv (toyKrig fun _ => 0.97) toyUnit 3 ⟨none, none, none, none⟩ (fun x => .ok x)
      (fun _ _ _ _ _ _ x => .ok (.fin x))) [5, 3, 7] 2 ⟨[1], [1], none, none⟩ = (.ok 2, ⟨[1, 3, 5], [1, 3, 5], none, some 2⟩) := by
    simp [adRun, krigEnv, toyKrig, adaptiveFit, fitOptimised, buildKrigingAlgo, estimKrigingTheta, KAlgo.setBounds,
      KAlgo.setStarts, KAlgo.run, adLoop, adIter, scanGo, respond, updateFit, loopState]
    norm_num [adLoop, adIter, scanGo, respond, updateFit, loopState, buildKrigingAlgo]
  obtain ⟨m0, c, b, -, -, -, -, h2, -⟩ := C235_points (toyKrig fun _ => 0.97) (fun c => [c]) (toyKrig_spec _) toyUnit 3 ⟨none, none, none, none⟩
    (fun x => .ok x) (fun _ _ _ _ _ _ x => .ok (.fin x)) [5, 3, 7] 2 10 (by norm_num) sim ⟨[1], [1], none, none⟩ _ t 2 h
  exact ⟨c, h2⟩

end Verif.Props
