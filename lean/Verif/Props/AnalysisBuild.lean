import Verif.Props.CensoredZeroMean
import Verif.Props.CensoredRun

/-!
# C210: the data on which the analysis can be built
-/

namespace Verif.Props
open Verif.Py Verif.Model

/-- Observations kept by the analysis (176-211): those strictly between the thresholds, all when there is none. -/
def IsKept (fmax : ℝ) (obs : List (ℝ × ℝ)) (noise sat : Option ℝ) (kept : List (ℝ × ℝ)) : Prop :=
  (noise = none → sat = none → kept = obs) ∧
  (noise.isSome ∨ sat.isSome → kept = obs.filter fun o => decide (noise.getD (-fmax) < o.2) && decide (o.2 < sat.getD fmax))

theorem isKept_eq (fmax : ℝ) (obs : List (ℝ × ℝ)) (noise sat : Option ℝ) (kept : List (ℝ × ℝ)) (h : IsKept fmax obs noise sat kept) :
    kept = if (noise.isSome || sat.isSome) = true then uncensoredObs fmax obs noise sat else obs := by
  cases noise <;> cases sat <;> simp_all [IsKept, uncensoredObs]

/-- The observations of the fit are the kept ones, their signals transformed by an injective function. -/
theorem analysisRun_obs (fmax : ℝ) (env : LinEnv) (draws : ℕ → ℝ × ℝ × ℝ) (obs : List (ℝ × ℝ)) (noise sat : Option ℝ) (boxCox : Bool)
    (userLambda : Option ℝ) (an : AnalysisFit) (h : analysisRun fmax env draws obs noise sat boxCox userLambda = .ok an)
    (kept : List (ℝ × ℝ)) (hk : IsKept fmax obs noise sat kept) :
    an.obs.length = kept.length ∧ ∀ i j (hi : i < an.obs.length) (hj : j < an.obs.length) (hi' : i < kept.length) (hj' : j < kept.length),
      an.obs[i].2 = an.obs[j].2 ↔ kept[i].2 = kept[j].2 := by
  have hfits : ∀ cens unc dn ds n' s' lam, analysisFits env draws cens unc dn ds n' s' lam = .ok an → an.obs = unc := by
    intro cens unc dn ds n' s' lam hf
    unfold analysisFits at hf
    dsimp only at hf
    split at hf
    · split at hf
      · cases hf
      · rw [Except.ok.injEq] at hf; rw [← hf]
    · rw [Except.ok.injEq] at hf; rw [← hf]
  unfold analysisRun at h
  dsimp only at h
  rw [← isKept_eq fmax obs noise sat kept hk] at h
  cases boxCox with
  | false =>
    rw [if_neg (by simp)] at h
    have e := hfits _ _ _ _ _ _ _ h
    subst e
    exact ⟨rfl, fun i j hi hj hi' hj' => Iff.rfl⟩
  | true =>
    rw [if_pos rfl] at h
    split at h
    · cases h
    · rename_i shift _
      split at h
      · cases h
      · rename_i lam _
        split at h
        · cases h
        · rename_i ys hys
          split at h
          · cases h
          · split at h
            · cases h
            · have e := hfits _ _ _ _ _ _ _ h
              unfold boxCoxSample at hys
              split at hys
              · rename_i hpos
                rw [Except.ok.injEq] at hys
                have hl : an.obs.length = kept.length := by rw [e, ← hys]; simp
                refine ⟨hl, fun i j hi hj hi' hj' => ?_⟩
                have hval : ∀ i (hi : i < an.obs.length) (hi' : i < kept.length), an.obs[i].2 = boxCoxFun lam (kept[i].2 + shift) ∧ 0 < kept[i].2 + shift := by
                  intro i hi hi'
                  refine ⟨?_, hpos _ ?_⟩
                  · simp only [e, ← hys, List.getElem_zip, List.getElem_map]
                  · rw [List.map_map]
                    exact List.mem_map.mpr ⟨kept[i], List.getElem_mem hi', rfl⟩
                obtain ⟨e1, p1⟩ := hval i hi hi'
                obtain ⟨e2, p2⟩ := hval j hj hj'
                rw [e1, e2]
                constructor
                · intro heq
                  rcases lt_trichotomy (kept[i].2 + shift) (kept[j].2 + shift) with hlt | h0 | hlt
                  · exact absurd heq (boxCoxFun_strictMono lam p1 hlt).ne
                  · linarith
                  · exact absurd heq (boxCoxFun_strictMono lam p2 hlt).ne'
                · intro heq; rw [heq]
              · cases hys

theorem fitTests_iff (tenv : ∀ n, TestEnv n) (obs : List (ℝ × ℝ)) (residuals : List ℝ) (resDist : ℝ → ℝ) (hl : 2 ≤ obs.length) :
    ((3 ≤ obs.length ∧ ∃ i, ∃ hi : i < obs.length, ∃ j, ∃ hj : j < obs.length, obs[i].2 ≠ obs[j].2) → ∃ t, fitTests tenv obs residuals resDist = .ok t) ∧
    (¬ (3 ≤ obs.length ∧ ∃ i, ∃ hi : i < obs.length, ∃ j, ∃ hj : j < obs.length, obs[i].2 ≠ obs[j].2) →
      Raises (fitTests tenv obs residuals resDist) .zeroDivision) := by
  unfold fitTests
  rw [if_neg (by omega)]
  have hm : 2 ≤ obs.length - 2 + 2 := by omega
  have hv := svar_eq_zero_iff hm (fun i : Fin (obs.length - 2 + 2) => (obs.getD i (0, 0)).2)
  have hget : ∀ i (hi : i < obs.length), obs.getD i (0, 0) = obs[i] := fun i hi => by rw [List.getD_eq_getElem _ _ hi]
  unfold computeTests computeR2
  dsimp only
  rw [svar_centered]
  constructor
  · rintro ⟨h3, i, hi, j, hj, hne⟩
    have hv0 : svar (fun i : Fin (obs.length - 2 + 2) => (obs.getD i (0, 0)).2) ≠ 0 := by
      intro h0
      have := hv.mp h0 ⟨i, by omega⟩ ⟨j, by omega⟩
      dsimp only at this
      rw [hget i hi, hget j hj] at this
      exact hne this
    rw [if_neg hv0]
    dsimp only
    rw [if_neg (by omega)]
    exact ⟨_, rfl⟩
  · intro hno
    by_cases hv0 : svar (fun i : Fin (obs.length - 2 + 2) => (obs.getD i (0, 0)).2) = 0
    · rw [if_pos hv0]
      exact ⟨_, rfl⟩
    · rw [if_neg hv0]
      dsimp only
      by_cases h2 : obs.length - 2 = 0
      · rw [if_pos h2]
        exact ⟨_, rfl⟩
      · exfalso
        apply hv0
        rw [hv]
        intro i j
        by_contra hne
        apply hno
        have hi : i.1 < obs.length := by omega
        have hj : j.1 < obs.length := by omega
        rw [hget i hi, hget j hj] at hne
        exact ⟨by omega, i, hi, j, hj, hne⟩

/-- **C210, data.**  Let the line be fitted and both laws of residuals be built.  With at least two kept observations, the analysis can be built exactly
when three are kept and two of them have different signals, with or without Box-Cox transformation and thresholds; otherwise it raises
`ZeroDivisionError`. -/
theorem C210_data (fmax : ℝ) (env : LinEnv) (tenv : ∀ n, TestEnv n) (fact : List ℝ → Res (ℝ → ℝ)) (draws : ℕ → ℝ × ℝ × ℝ)
    (obs : List (ℝ × ℝ)) (noise sat : Option ℝ) (boxCox : Bool) (userLambda : Option ℝ) (an : AnalysisFit)
    (h : analysisRun fmax env draws obs noise sat boxCox userLambda = .ok an) (d0 : ℝ → ℝ) (h0 : fact an.unc.residuals = .ok d0)
    (h1 : ∀ c, an.cens = some c → ∃ d1, fact c.residuals = .ok d1) (kept : List (ℝ × ℝ)) (hk : IsKept fmax obs noise sat kept) (h2 : 2 ≤ kept.length) :
    ((∃ out, analysisFull fmax env tenv fact draws obs noise sat boxCox userLambda = .ok out) ↔
      3 ≤ kept.length ∧ ∃ p ∈ kept, ∃ q ∈ kept, p.2 ≠ q.2) ∧
    (¬ (3 ≤ kept.length ∧ ∃ p ∈ kept, ∃ q ∈ kept, p.2 ≠ q.2) →
      Raises (analysisFull fmax env tenv fact draws obs noise sat boxCox userLambda) .zeroDivision) ∧
    ∀ out, analysisFull fmax env tenv fact draws obs noise sat boxCox userLambda = .ok out →
      out.fits = an ∧ out.cens.isSome = (noise.isSome || sat.isSome) := by
  obtain ⟨hl, hinj⟩ := analysisRun_obs fmax env draws obs noise sat boxCox userLambda an h kept hk
  have hcond : (3 ≤ an.obs.length ∧ ∃ i, ∃ hi : i < an.obs.length, ∃ j, ∃ hj : j < an.obs.length, an.obs[i].2 ≠ an.obs[j].2) ↔
      3 ≤ kept.length ∧ ∃ p ∈ kept, ∃ q ∈ kept, p.2 ≠ q.2 := by
    refine and_congr (by rw [hl]) ?_
    constructor
    · rintro ⟨i, hi, j, hj, hne⟩
      exact ⟨kept[i]'(by omega), List.getElem_mem _, kept[j]'(by omega), List.getElem_mem _,
        fun he => hne ((hinj i j (by omega) (by omega) (by omega) (by omega)).mpr he)⟩
    · rintro ⟨p, hp, q, hq, hne⟩
      obtain ⟨i, hi, rfl⟩ := List.getElem_of_mem hp
      obtain ⟨j, hj, rfl⟩ := List.getElem_of_mem hq
      exact ⟨i, by omega, j, by omega, fun he => hne ((hinj i j (by omega) (by omega) (by omega) (by omega)).mp he)⟩
  have hcens : an.cens.isSome = (noise.isSome || sat.isSome) := by
    have hfits : ∀ cens unc dn ds n' s' lam, analysisFits env draws cens unc dn ds n' s' lam = .ok an → an.cens.isSome = cens := by
      intro cens unc dn ds n' s' lam hf
      unfold analysisFits at hf
      dsimp only at hf
      cases cens with
      | true =>
        rw [if_pos rfl] at hf
        split at hf
        · cases hf
        · rw [Except.ok.injEq] at hf; rw [← hf]; rfl
      | false =>
        rw [if_neg (by simp), Except.ok.injEq] at hf; rw [← hf]; rfl
    unfold analysisRun at h
    dsimp only at h
    cases boxCox with
    | false =>
      rw [if_neg (by simp : ¬ (false = true))] at h
      exact hfits _ _ _ _ _ _ _ h
    | true =>
      rw [if_pos (rfl : true = true)] at h
      split at h
      · cases h
      · split at h
        · cases h
        · split at h
          · cases h
          · split at h
            · cases h
            · split at h
              · cases h
              · exact hfits _ _ _ _ _ _ _ h
  have key : (∃ out, analysisFull fmax env tenv fact draws obs noise sat boxCox userLambda = .ok out ∧ out.fits = an ∧
        out.cens.isSome = (noise.isSome || sat.isSome)) ∧ (3 ≤ kept.length ∧ ∃ p ∈ kept, ∃ q ∈ kept, p.2 ≠ q.2) ∨
      Raises (analysisFull fmax env tenv fact draws obs noise sat boxCox userLambda) .zeroDivision ∧
        ¬ (3 ≤ kept.length ∧ ∃ p ∈ kept, ∃ q ∈ kept, p.2 ≠ q.2) := by
    rw [← hcond]
    have ft := fun r d => fitTests_iff tenv an.obs r d (by omega : 2 ≤ an.obs.length)
    unfold analysisFull
    rw [h]
    dsimp only
    rw [h0]
    dsimp only
    by_cases hc : 3 ≤ an.obs.length ∧ ∃ i, ∃ hi : i < an.obs.length, ∃ j, ∃ hj : j < an.obs.length, an.obs[i].2 ≠ an.obs[j].2
    · refine Or.inl ⟨?_, hc⟩
      obtain ⟨t0, ht0⟩ := (ft an.unc.residuals d0).1 hc
      cases hcs : an.cens with
      | none =>
        dsimp only
        rw [ht0]
        exact ⟨_, rfl, rfl, by rw [← hcens, hcs]; rfl⟩
      | some c =>
        dsimp only
        obtain ⟨d1, hd1⟩ := h1 c hcs
        obtain ⟨t1, ht1⟩ := (ft c.residuals d1).1 hc
        rw [hd1]
        dsimp only
        rw [ht0]
        dsimp only
        rw [ht1]
        exact ⟨_, rfl, rfl, by rw [← hcens, hcs]; rfl⟩
    · refine Or.inr ⟨?_, hc⟩
      obtain ⟨m, hm⟩ := (ft an.unc.residuals d0).2 hc
      cases hcs : an.cens with
      | none =>
        dsimp only
        rw [hm]
        exact ⟨_, rfl⟩
      | some c =>
        dsimp only
        obtain ⟨d1, hd1⟩ := h1 c hcs
        rw [hd1]
        dsimp only
        rw [hm]
        exact ⟨_, rfl⟩
  rcases key with ⟨⟨out, e1, e2, e3⟩, hc⟩ | ⟨⟨m, hm⟩, hc⟩
  · refine ⟨⟨fun _ => hc, fun _ => ⟨out, e1⟩⟩, fun hn => absurd hc hn, fun o ho => ?_⟩
    rw [e1, Except.ok.injEq] at ho
    rw [← ho]
    exact ⟨e2, e3⟩
  · refine ⟨⟨fun ⟨o, ho⟩ => ?_, fun h => absurd h hc⟩, fun _ => ⟨m, hm⟩, fun o ho => ?_⟩
    · rw [hm] at ho; cases ho
    · rw [hm] at ho; cases ho

/-- **C210, factory.**  An exception of the factory of the residual law, for the uncensored or for the censored fit, leaves the constructor unchanged,
also when the tests would raise too. -/
theorem C210_factory (fmax : ℝ) (env : LinEnv) (tenv : ∀ n, TestEnv n) (fact : List ℝ → Res (ℝ → ℝ)) (draws : ℕ → ℝ × ℝ × ℝ)
    (obs : List (ℝ × ℝ)) (noise sat : Option ℝ) (boxCox : Bool) (userLambda : Option ℝ) (an : AnalysisFit)
    (h : analysisRun fmax env draws obs noise sat boxCox userLambda = .ok an) (e : PyErr) :
    (fact an.unc.residuals = .error e → analysisFull fmax env tenv fact draws obs noise sat boxCox userLambda = .error e) ∧
    (∀ d0 c, fact an.unc.residuals = .ok d0 → an.cens = some c → fact c.residuals = .error e →
      analysisFull fmax env tenv fact draws obs noise sat boxCox userLambda = .error e) := by
  unfold analysisFull
  rw [h]
  dsimp only
  constructor
  · intro h0; rw [h0]
  · intro d0 c h0 hc h1
    rw [h0]
    dsimp only
    rw [hc]
    dsimp only
    rw [h1]

/-- **C210, transformation.**  When the smallest kept signal is zero no shift is applied and an analysis with Box-Cox transformation raises `TypeError`,
whatever the parameter. -/
theorem C210_boxCox (fmax : ℝ) (env : LinEnv) (tenv : ∀ n, TestEnv n) (fact : List ℝ → Res (ℝ → ℝ)) (draws : ℕ → ℝ × ℝ × ℝ)
    (obs : List (ℝ × ℝ)) (noise sat : Option ℝ) (lam : ℝ) (kept : List (ℝ × ℝ)) (hk : IsKept fmax obs noise sat kept)
    (hmin : ∀ p ∈ kept, 0 ≤ p.2) (hz : ∃ p ∈ kept, p.2 = 0) :
    Raises (analysisFull fmax env tenv fact draws obs noise sat true (some lam)) .typeError := by
  obtain ⟨p, hp, hp0⟩ := hz
  have hsh : boxCoxShift (kept.map Prod.snd) = .ok 0 := by
    unfold boxCoxShift
    cases hs : sampleMin (kept.map Prod.snd) with
    | error e =>
      exfalso
      cases hkk : kept with
      | nil => rw [hkk] at hp; cases hp
      | cons a l => rw [hkk] at hs; simp [sampleMin] at hs
    | ok mn =>
      obtain ⟨hmem, -⟩ := sampleMin_spec hs
      obtain ⟨q, hq, rfl⟩ := List.mem_map.mp hmem
      dsimp only
      rw [if_neg (not_lt.mpr (hmin q hq))]
  have hbad : boxCoxSample lam ((kept.map Prod.snd).map (· + 0)) = .error ⟨.typeError, ""⟩ := by
    unfold boxCoxSample
    rw [if_neg]
    intro hall
    have := hall (p.2 + 0) (List.mem_map.mpr ⟨p.2, List.mem_map.mpr ⟨p, hp, rfl⟩, rfl⟩)
    rw [hp0] at this
    linarith
  refine ⟨"", ?_⟩
  have hrun : analysisRun fmax env draws obs noise sat true (some lam) = .error ⟨.typeError, ""⟩ := by
    unfold analysisRun
    dsimp only
    rw [← isKept_eq fmax obs noise sat kept hk, if_pos rfl, hsh]
    dsimp only
    rw [hbad]
  unfold analysisFull
  rw [hrun]

/-! ## Examples -/

theorem demoAnalysis_kept (obs : List (ℝ × ℝ)) : IsKept 10 obs none none obs := ⟨fun _ _ => rfl, fun h => by simp at h⟩

/-- Three observations, two different signals, Box-Cox with parameter 1: the analysis is built. -/
example (tenv : ∀ n, TestEnv n) : ∃ out, analysisFull 10 demoLin tenv (fun _ => .ok fun _ => 0) (fun _ => (0, 0, 0))
    [(1, 1), (2, 1), (3, 2)] none none true (some 1) = .ok out := by
  have h : ∃ an, analysisRun 10 demoLin (fun _ => (0, 0, 0)) [(1, 1), (2, 1), (3, 2)] none none true (some 1) = .ok an := by
    have hsh : boxCoxShift [(1 : ℝ), 1, 2] = .ok 0 := by norm_num [boxCoxShift, sampleMin]
    have hbs : boxCoxSample 1 [(1 : ℝ) + 0, 1 + 0, 2 + 0] = .ok [boxCoxFun 1 (1 + 0), boxCoxFun 1 (1 + 0), boxCoxFun 1 (2 + 0)] := by
      rw [boxCoxSample, if_pos (by simp)]; rfl
    simp only [analysisRun, Option.isSome_none, Bool.or_self, Bool.false_eq_true, if_false, if_true, List.map_cons, List.map_nil, hsh, hbs,
      boxCoxThreshold, analysisFits]
    exact ⟨_, rfl⟩
  obtain ⟨an, han⟩ := h
  exact ((C210_data 10 demoLin tenv (fun _ => .ok fun _ => 0) (fun _ => (0, 0, 0)) _ none none true (some 1) an han _ rfl
    (fun _ _ => ⟨_, rfl⟩) _ (demoAnalysis_kept _) (by simp)).1).mpr ⟨by simp, (1, 1), by simp, (3, 2), by simp, by norm_num⟩

/-- Equal signals. -/
example (tenv : ∀ n, TestEnv n) : Raises (analysisFull 10 demoLin tenv (fun _ => .ok fun _ => 0) (fun _ => (0, 0, 0))
    [(1, 5), (2, 5), (3, 5), (4, 5)] none none false none) .zeroDivision := by
  have h : ∃ an, analysisRun 10 demoLin (fun _ => (0, 0, 0)) [(1, 5), (2, 5), (3, 5), (4, 5)] none none false none = .ok an := by
    simp [analysisRun, analysisFits]
  obtain ⟨an, han⟩ := h
  exact (C210_data 10 demoLin tenv (fun _ => .ok fun _ => 0) (fun _ => (0, 0, 0)) _ none none false none an han _ rfl
    (fun _ _ => ⟨_, rfl⟩) _ (demoAnalysis_kept _) (by simp)).2.1 (by simp)

/-- A factory that raises, data on which the tests would raise too. -/
example (tenv : ∀ n, TestEnv n) : analysisFull 10 demoLin tenv (fun _ => .error ⟨.runtime, "law"⟩) (fun _ => (0, 0, 0))
    [(1, 5), (2, 5), (3, 5), (4, 5)] none none false none = .error ⟨.runtime, "law"⟩ := by
  have h : ∃ an, analysisRun 10 demoLin (fun _ => (0, 0, 0)) [(1, 5), (2, 5), (3, 5), (4, 5)] none none false none = .ok an := by
    simp [analysisRun, analysisFits]
  obtain ⟨an, han⟩ := h
  exact (C210_factory 10 demoLin tenv _ _ _ _ _ _ _ an han _).1 rfl

example (tenv : ∀ n, TestEnv n) (fact : List ℝ → Res (ℝ → ℝ)) : Raises (analysisFull 10 demoLin tenv fact (fun _ => (0, 0, 0))
    [(1, 0), (2, 1), (3, 2)] none none true (some 0.5)) .typeError :=
  C210_boxCox 10 demoLin tenv fact _ _ none none 0.5 _ (demoAnalysis_kept _) (by simp) ⟨(1, 0), by simp, rfl⟩

/-! ## C12: shapes accepted by the constructor of the analysis -/

/-- **C12, constructor of the analysis.**  The checks pass exactly for at least three observations, samples of the same size and one input and one
output; otherwise AssertionError with the message of the first check that fails; on success the attributes are those of the arguments. -/
theorem C12_analysis {K : Type} (a : CtorArgs K) :
    ((∃ st, analysisInit a = .ok st) ↔ 3 ≤ a.inSize ∧ a.inSize = a.outSize ∧ a.inDim = 1 ∧ a.outDim = 1) ∧
    (∀ e, analysisInit a = .error e → e.kind = .assertion ∧
      e.msg = (if a.inSize < 3 then "Not enough observations."
        else if a.inSize ≠ a.outSize then "InputSample and outputSample must have the same size."
        else if a.inDim ≠ 1 then "Dimension of inputSample must be 1." else "Dimension of outputSample must be 1.")) ∧
    (∀ st, analysisInit a = .ok st → st.size = a.inSize ∧ st.dim = a.inDim ∧
      (st.censored = true ↔ a.noiseThres ≠ none ∨ a.saturationThres ≠ none) ∧
      (∀ l, a.boxCox = .float l → st.lambda = some l ∧ st.boxCox = true) ∧ ∀ b, a.boxCox = .other b → st.lambda = none ∧ st.boxCox = b) := by
  have hc : (a.noiseThres.isSome || a.saturationThres.isSome) = true ↔ a.noiseThres ≠ none ∨ a.saturationThres ≠ none := by
    cases a.noiseThres <;> cases a.saturationThres <;> simp
  by_cases h1 : 3 ≤ a.inSize
  · by_cases h2 : a.inSize = a.outSize
    · by_cases h3 : a.inDim = 1
      · by_cases h4 : a.outDim = 1
        · have e : analysisInit a = .ok { size := a.inSize, dim := a.inDim, censored := a.noiseThres.isSome || a.saturationThres.isSome, lambda := (boxCoxInit a.boxCox).1, boxCox := (boxCoxInit a.boxCox).2, simulationSize := 1000 } := by
            unfold analysisInit
            rw [if_neg (not_not.2 h1), if_neg (not_not.2 h2), if_neg (not_not.2 h3), if_neg (not_not.2 h4)]
          rw [e]
          refine ⟨⟨fun _ => ⟨h1, h2, h3, h4⟩, fun _ => ⟨_, rfl⟩⟩, fun _ h => (by cases h), ?_⟩
          intro st hst
          rw [Except.ok.injEq] at hst
          subst hst
          exact ⟨rfl, rfl, hc, fun l hl => by rw [hl]; exact ⟨rfl, rfl⟩, fun b hb => by rw [hb]; exact ⟨rfl, rfl⟩⟩
        · have h1' : 3 ≤ a.outSize := h2 ▸ h1
          simp [analysisInit, h1', h2, h3, h4]
      · have h1' : 3 ≤ a.outSize := h2 ▸ h1
        simp [analysisInit, h1', h2, h3]
    · have : ¬ a.inSize < 3 := by omega
      simp [analysisInit, h1, h2, this]
  · have : a.inSize < 3 := by omega
    simp [analysisInit, h1, this]

example : analysisInit (⟨5, 1, 5, 1, some 1, none, .float 2⟩ : CtorArgs ℚ) = .ok ⟨5, 1, true, some 2, true, 1000⟩ := by decide +kernel

example : analysisInit (⟨5, 2, 5, 1, none, none, .other false⟩ : CtorArgs ℚ) = .error ⟨.assertion, "Dimension of inputSample must be 1."⟩ := by decide +kernel

end Verif.Props
