import Verif.Model.DefaultDist
import Verif.Props.Base
import Verif.Props.Metamodel
import Verif.Props.HitMiss
import Mathlib.Tactic.Linarith
import Mathlib.Tactic.NormNum

/-!
# C104 and C105: default distribution of the inputs, data of the hit-miss algorithm
-/

namespace Verif.Props
open Verif.Py Verif.Model

/-! ## C104 -/

theorem uniformMarginals_ok {rs ms : List (ℝ × ℝ)} (h : uniformMarginals rs = .ok ms) : ms = rs ∧ ∀ r ∈ rs, r.1 < r.2 := by
  induction rs generalizing ms with
  | nil => rw [uniformMarginals, Except.ok.injEq] at h; subst h; simp
  | cons r rs ih =>
    obtain ⟨a, b⟩ := r
    simp only [uniformMarginals, uniformLaw] at h
    by_cases hab : a < b
    · rw [if_pos hab] at h
      cases hr : uniformMarginals rs with
      | error e => rw [hr] at h; cases h
      | ok ms' =>
        rw [hr] at h
        dsimp only at h
        rw [Except.ok.injEq] at h
        obtain ⟨h1, h2⟩ := ih hr
        subst h1 h
        exact ⟨rfl, by simpa [hab] using h2⟩
    · rw [if_neg hab] at h; cases h

theorem uniformMarginals_iff (rs : List (ℝ × ℝ)) : Ok (uniformMarginals rs) ↔ ∀ r ∈ rs, r.1 < r.2 := by
  constructor
  · rintro ⟨ms, h⟩
    exact (uniformMarginals_ok h).2
  · intro h
    induction rs with
    | nil => exact ⟨[], rfl⟩
    | cons r rs ih =>
      obtain ⟨ms, hm⟩ := ih fun r hr => h r (List.mem_cons_of_mem _ hr)
      have h1 := h r (by simp)
      exact ⟨_, by rw [uniformMarginals, uniformLaw, if_pos h1, hm]⟩

theorem uniformMarginals_error (rs : List (ℝ × ℝ)) (h : ∃ r ∈ rs, ¬ r.1 < r.2) : Raises (uniformMarginals rs) .typeError := by
  induction rs with
  | nil => simp at h
  | cons r rs ih =>
    obtain ⟨a, b⟩ := r
    rw [uniformMarginals, uniformLaw]
    by_cases hab : a < b
    · rw [if_pos hab]
      obtain ⟨m, hm⟩ := ih (by
        obtain ⟨r', hr', hn⟩ := h
        rcases List.mem_cons.mp hr' with rfl | hr'
        · exact absurd hab hn
        · exact ⟨r', hr', hn⟩)
      exact ⟨m, by rw [hm]⟩
    · rw [if_neg hab]; exact ⟨_, rfl⟩

theorem sampleMin_total {l : List ℝ} (h : l ≠ []) : ∃ a, sampleMin l = .ok a := by
  cases l with
  | nil => exact absurd rfl h
  | cons x xs => exact ⟨_, rfl⟩

theorem sampleMax_total {l : List ℝ} (h : l ≠ []) : ∃ a, sampleMax l = .ok a := by
  cases l with
  | nil => exact absurd rfl h
  | cons x xs => exact ⟨_, rfl⟩

/-- A list and an interval whose bounds are its least and greatest elements. -/
def TightRange (l : List ℝ) (r : ℝ × ℝ) : Prop := IsLeast {x | x ∈ l} r.1 ∧ IsGreatest {x | x ∈ l} r.2

theorem TightRange.lt_iff {l : List ℝ} {r : ℝ × ℝ} (h : TightRange l r) : r.1 < r.2 ↔ ∃ x ∈ l, ∃ y ∈ l, x ≠ y := by
  constructor
  · exact fun hlt => ⟨r.1, h.1.1, r.2, h.2.1, hlt.ne⟩
  · rintro ⟨x, hx, y, hy, hne⟩
    by_contra hle
    rw [not_lt] at hle
    have e : ∀ z ∈ l, z = r.1 := fun z hz => le_antisymm ((h.2.2 hz).trans hle) (h.1.2 hz)
    exact hne ((e x hx).trans (e y hy).symm)

theorem columnRanges_ok (cs : List (List ℝ)) (h : ∀ c ∈ cs, c ≠ []) :
    ∃ rs, columnRanges cs = .ok rs ∧ List.Forall₂ TightRange cs rs := by
  induction cs with
  | nil => exact ⟨[], rfl, .nil⟩
  | cons c cs ih =>
    obtain ⟨rs, h1, h2⟩ := ih fun c hc => h c (List.mem_cons_of_mem _ hc)
    obtain ⟨a, ha⟩ := sampleMin_total (h c (by simp))
    obtain ⟨b, hb⟩ := sampleMax_total (h c (by simp))
    exact ⟨(a, b) :: rs, by rw [columnRanges, ha, hb]; dsimp only; rw [h1],
      .cons ⟨sampleMin_spec ha, sampleMax_spec hb⟩ h2⟩

theorem defaultMarginals_eq (defects : List ℝ) (params : List (List ℝ)) (sizes : List ℝ) (hd : defects ≠ [])
    (hp : ∀ c ∈ params, c ≠ []) (hs : sizes ≠ []) :
    ∃ r rs, defaultMarginals defects params sizes = uniformMarginals (r :: rs) ∧ TightRange sizes r ∧
      List.Forall₂ TightRange params rs := by
  obtain ⟨rs, h1, h2⟩ := columnRanges_ok (defects :: params) (by
    intro c hc
    rcases List.mem_cons.mp hc with rfl | hc
    · exact hd
    · exact hp c hc)
  obtain ⟨a, ha⟩ := sampleMin_total hs
  obtain ⟨b, hb⟩ := sampleMax_total hs
  cases h2 with
  | cons hr hrs =>
    rename_i r rs
    exact ⟨(a, b), rs, by rw [defaultMarginals, h1, ha, hb]; rfl, ⟨sampleMin_spec ha, sampleMax_spec hb⟩, hrs⟩

/-- **C104.**  When the block completes without a distribution of the user, the law of the defect is uniform on the range of the
requested defect sizes and the law of each parameter is uniform on the range of its observations: all sizes and all observed
parameters are inside, and both bounds are reached. -/
theorem C104_box_partial {D : Type} (defects : List ℝ) (params : List (List ℝ)) (s s' : DistAttrs D) (hd : defects ≠ [])
    (hp : ∀ c ∈ params, c ≠ []) (hs : s.sizes ≠ []) (hnone : s.dist = none)
    (h : ensureDistribution defects params s = (.ok (), s')) :
    ∃ r rs, s'.dist = some (.inr (r :: rs)) ∧ r.1 < r.2 ∧ TightRange s.sizes r ∧
      List.Forall₂ (fun c b => b.1 < b.2 ∧ TightRange c b) params rs ∧ s'.sizes = s.sizes := by
  obtain ⟨r, rs, he, h1, h2⟩ := defaultMarginals_eq defects params s.sizes hd hp hs
  rw [ensureDistribution, hnone] at h
  dsimp only at h
  cases hm : defaultMarginals defects params s.sizes with
  | error e => rw [hm] at h; cases h
  | ok ms =>
    rw [hm] at h
    dsimp only at h
    rw [Prod.mk.injEq] at h
    obtain ⟨-, rfl⟩ := h
    rw [he] at hm
    obtain ⟨rfl, hlt⟩ := uniformMarginals_ok hm
    refine ⟨r, rs, rfl, hlt _ (by simp), h1, ?_, rfl⟩
    have hlt' : ∀ b ∈ rs, b.1 < b.2 := fun b hb => hlt b (List.mem_cons_of_mem _ hb)
    clear hm he hlt hp
    induction h2 with
    | nil => exact .nil
    | cons hc _ ih => exact .cons ⟨hlt' _ (by simp), hc⟩ (ih fun b hb => hlt' b (List.mem_cons_of_mem _ hb))

theorem forall2_lt_iff {params : List (List ℝ)} {rs : List (ℝ × ℝ)} (h : List.Forall₂ TightRange params rs) :
    (∀ r ∈ rs, r.1 < r.2) ↔ ∀ c ∈ params, ∃ x ∈ c, ∃ y ∈ c, x ≠ y := by
  induction h with
  | nil => simp
  | cons hc _ ih => simp only [List.mem_cons, forall_eq_or_imp, ih, hc.lt_iff]

/-- **C104.**  The block completes exactly when two requested sizes differ and every parameter takes two different values (or a
distribution was given, which is then kept). -/
theorem C104_runs_iff_partial {D : Type} (defects : List ℝ) (params : List (List ℝ)) (s : DistAttrs D) (hd : defects ≠ [])
    (hp : ∀ c ∈ params, c ≠ []) (hs : s.sizes ≠ []) :
    (s.dist ≠ none → ensureDistribution defects params s = (.ok (), s)) ∧
    (s.dist = none → (Ok (ensureDistribution defects params s).1 ↔
      (∃ x ∈ s.sizes, ∃ y ∈ s.sizes, x ≠ y) ∧ ∀ c ∈ params, ∃ x ∈ c, ∃ y ∈ c, x ≠ y)) := by
  constructor
  · intro h
    rw [ensureDistribution]
    cases hdist : s.dist with
    | none => exact absurd hdist h
    | some d => rfl
  · intro h
    obtain ⟨r, rs, he, h1, h2⟩ := defaultMarginals_eq defects params s.sizes hd hp hs
    have : Ok (ensureDistribution defects params s).1 ↔ Ok (uniformMarginals (r :: rs)) := by
      rw [ensureDistribution, h, he]
      dsimp only
      cases uniformMarginals (r :: rs) with
      | error e =>
        constructor
        · rintro ⟨_, h⟩; cases h
        · rintro ⟨_, h⟩; cases h
      | ok ms => exact ⟨fun _ => ⟨ms, rfl⟩, fun _ => ⟨(), rfl⟩⟩
    rw [this, uniformMarginals_iff, List.forall_mem_cons, h1.lt_iff, forall2_lt_iff h2]

/-- **C104 is violated.**  For every data set in which one parameter is constant, the run without distribution raises a TypeError
and leaves the attributes unchanged, although the normalisation of the kriging model explicitly supports such a column (factor 1
instead of a division by the null standard deviation). -/
theorem C104_violated {D : Type} (defects : List ℝ) (params : List (List ℝ)) (s : DistAttrs D) (hd : defects ≠ [])
    (hp : ∀ c ∈ params, c ≠ []) (hs : s.sizes ≠ []) (hnone : s.dist = none) (v : ℝ) (c : List ℝ) (hc : c ∈ params)
    (hconst : ∀ x ∈ c, x = v) :
    Raises (ensureDistribution defects params s).1 .typeError ∧ (ensureDistribution defects params s).2 = s ∧
    normFactor (fun i : Fin c.length => c.get i) = 1 := by
  obtain ⟨r, rs, he, h1, h2⟩ := defaultMarginals_eq defects params s.sizes hd hp hs
  have hbad : ∃ b ∈ r :: rs, ¬ b.1 < b.2 := by
    by_contra hall
    push Not at hall
    have := (forall2_lt_iff h2).mp (fun b hb => hall b (List.mem_cons_of_mem _ hb)) c hc
    obtain ⟨x, hx, y, hy, hne⟩ := this
    exact hne ((hconst x hx).trans (hconst y hy).symm)
  obtain ⟨m, hm⟩ := uniformMarginals_error _ hbad
  refine ⟨⟨m, ?_⟩, ?_, ?_⟩
  · rw [ensureDistribution, hnone, he, hm]
  · rw [ensureDistribution, hnone, he, hm]
  · have hget : (fun i : Fin c.length => c.get i) = fun _ => v := funext fun i => hconst _ (List.get_mem c i)
    have hlen : (c.length : ℝ) ≠ 0 := by
      rw [Ne, Nat.cast_eq_zero]
      exact fun h => hp c hc (List.length_eq_zero_iff.mp h)
    have hsv : svar (fun _ : Fin c.length => v) = 0 := by
      simp [svar, smean, hlen]
    rw [hget, normFactor, hsv, if_neg]
    norm_num

example : Raises (ensureDistribution (D := Unit) [1, 2, 3] [[5, 5, 5], [1, 4, 2]] ⟨none, [1, 2]⟩).1 .typeError :=
  (C104_violated [1, 2, 3] [[5, 5, 5], [1, 4, 2]] ⟨none, [1, 2]⟩ (by simp) (by simp) (by simp) rfl 5 [5, 5, 5] (by simp) (by simp)).1

example : Ok (ensureDistribution (D := Unit) [1, 2, 3] [[1, 4, 2]] ⟨none, [1, 2]⟩).1 :=
  ((C104_runs_iff_partial [1, 2, 3] [[1, 4, 2]] ⟨none, [1, 2]⟩ (by simp) (by simp) (by simp)).2 rfl).mpr
    ⟨⟨1, by simp, 2, by simp, by norm_num⟩, by
      intro c hc
      rw [List.mem_singleton] at hc
      subst hc
      exact ⟨1, by simp, 4, by simp, by norm_num⟩⟩

/-! ## C105 -/

theorem forall2_getElem {α β : Type} {R : α → β → Prop} {l : List α} {m : List β} (h : List.Forall₂ R l m) :
    l.length = m.length ∧ ∀ (i : ℕ) a b, l[i]? = some a → m[i]? = some b → R a b := by
  induction h with
  | nil => exact ⟨rfl, by simp⟩
  | cons h1 _ ih =>
    refine ⟨by simp [ih.1], ?_⟩
    intro i a b ha hb
    cases i with
    | zero =>
      simp only [List.getElem?_cons_zero, Option.some.injEq] at ha hb
      subst ha hb
      exact h1
    | succ i => exact ih.2 i a b (by simpa using ha) (by simpa using hb)

/-- **C105.**  Whenever the constructor and the run complete with a detection threshold: the inputs are the kept observations in
order followed by the added points, there is one label per input, a label of an observation says whether its signal exceeds the
threshold and a label of an added point whether the value of the physical model there exceeds the same threshold.  In particular if
the observations come from the physical model, all labels follow the same rule. -/
theorem C105_labels_partial {X : Type} (fmax : ℝ) (fit : ℕ → List X → List Bool → Res (X → F ℝ)) (argsort : List (F ℝ) → List ℕ)
    (ha : ArgsortSpec argsort) (obs : List (X × ℝ)) (f : X → Res ℝ) (det : ℝ) (noise sat : Option ℝ) (cand : List X) (nMore : ℕ)
    (s : HMAttrs X) (h : hmCtorRun fmax fit argsort obs (some f) (some det) noise sat cand nMore = .ok s) :
    ∃ kept added zs, kept.Sublist obs ∧ (noise = none → sat = none → kept = obs) ∧
      (∀ o ∈ obs, o ∉ kept → (∃ t, noise = some t ∧ o.2 ≤ t) ∨ (∃ t, sat = some t ∧ t ≤ o.2) ∨ o.2 ≤ -fmax ∨ fmax ≤ o.2) ∧
      s.input = kept.map (·.1) ++ added ∧ s.labels = kept.map (fun o => decide (det < o.2)) ++ zs ∧
      added.length = nMore ∧ (∀ x ∈ added, x ∈ cand) ∧
      List.Forall₂ (fun x z => ∃ y, f x = .ok y ∧ (z = true ↔ det < y)) added zs ∧
      ((∀ o ∈ obs, f o.1 = .ok o.2) → List.Forall₂ (fun x z => ∃ y, f x = .ok y ∧ (z = true ↔ det < y)) s.input s.labels) := by
  have hkept : (hmKept fmax obs noise sat).Sublist obs := by
    rw [hmKept]
    split_ifs
    · exact List.Sublist.refl _
    · exact List.filter_sublist
  rw [hmCtorRun, hmInit] at h
  dsimp only at h
  generalize hph : (fun x => match f x with
        | .error e => (.error e : Res Bool)
        | .ok y => .ok (decide (det < y))) = ph at h
  generalize hs0 : (⟨(hmKept fmax obs noise sat).map (·.1), (hmKept fmax obs noise sat).map (fun o => decide (det < o.2)), false,
      none, none, .fin 0.45, .fin 0.52⟩ : HMAttrs X) = s0 at h
  cases hr : hmRun ⟨ph, fit, argsort⟩ cand nMore s0 with
  | mk r s1 =>
    rw [hr] at h
    cases r with
    | error e => cases h
    | ok u =>
      dsimp only at h
      rw [Except.ok.injEq] at h
      subst h
      obtain ⟨xs, zs, h1, h2, h3, h4, h5, -⟩ := C50_points_added ⟨ph, fit, argsort⟩ ha cand nMore s0 s1 hr
      subst hs0
      have h6 : List.Forall₂ (fun x z => ∃ y, f x = .ok y ∧ (z = true ↔ det < y)) xs zs := by
        refine h5.imp fun x z hz => ?_
        dsimp only at hz
        rw [← hph] at hz
        dsimp only at hz
        cases hfx : f x with
        | error e => rw [hfx] at hz; cases hz
        | ok y =>
          rw [hfx] at hz
          dsimp only at hz
          rw [Except.ok.injEq] at hz
          exact ⟨y, rfl, by rw [← hz, decide_eq_true_iff]⟩
      refine ⟨hmKept fmax obs noise sat, xs, zs, hkept, ?_, ?_, h1, h2, h3, h4, h6, ?_⟩
      · intro hn hs
        rw [hmKept, if_pos ⟨hn, hs⟩]
      · intro o ho hno
        rw [hmKept] at hno
        split_ifs at hno with hc
        · exact absurd ho hno
        · rw [uncensoredObs, List.mem_filter, Bool.and_eq_true, decide_eq_true_iff, decide_eq_true_iff] at hno
          by_cases h7 : noise.getD (-fmax) < o.2
          · have h8 : sat.getD fmax ≤ o.2 := by
              by_contra h9
              exact hno ⟨ho, h7, not_le.mp h9⟩
            cases sat with
            | none => exact .inr (.inr (.inr h8))
            | some t => exact .inr (.inl ⟨t, rfl, h8⟩)
          · rw [not_lt] at h7
            cases noise with
            | none => exact .inr (.inr (.inl h7))
            | some t => exact .inl ⟨t, rfl, h7⟩
      · intro hf
        rw [h1, h2]
        refine List.rel_append ?_ h6
        have : ∀ o ∈ hmKept fmax obs noise sat, f o.1 = .ok o.2 := fun o ho => hf o (hkept.subset ho)
        generalize hmKept fmax obs noise sat = kept at this ⊢
        clear h1 h2 hr hkept
        induction kept with
        | nil => exact .nil
        | cons o os ih =>
          exact .cons ⟨o.2, this o (by simp), by simp⟩ (ih fun o ho => this o (List.mem_cons_of_mem _ ho))

/-- A complete run with one added point. -/
theorem demoHitMiss : ∃ s, hmCtorRun 1000 (fun _ _ _ => .ok fun _ : ℝ => .fin (1 / 2)) argsortRef [(1, 10), (2, 30), (3, 50)]
    (some fun x => .ok (20 * x)) (some 25) (some 15) none [(5 : ℝ)] 1 = .ok s := by
  have hb : selectBatch argsortRef (.fin 0.45) (.fin 0.52) [.fin (1 / 2)] = .ok [0, 0, 0, 0, 0] := by
    have h1 : eligible (.fin 0.45) (.fin 0.52) [.fin (1 / 2)] = [0] := by
      have h2 : window (.fin 0.45) (.fin 0.52) [.fin (1 / 2)] = [0] := by
        norm_num [window, npWhere, F.ge, F.lt, F.le, List.range_succ]
      rw [eligible, h2]; rfl
    rw [selectBatch, h1]
    simp [argsortRef, npTake, npGet, quant]
  have hk : hmKept 1000 [((1 : ℝ), (10 : ℝ)), (2, 30), (3, 50)] (some 15) none = [(2, 30), (3, 50)] := by
    rw [hmKept, if_neg (by simp)]
    norm_num [uncensoredObs]
  simp only [hmCtorRun, hmInit, hk, hmRun, hmLoop, hmIter, List.map_cons, List.map_nil, Clf.eval, hb]
  simp [labelAll]

/-- **C105.**  Without added points the physical model has no influence on the result, as far as the constructor accepts it. -/
theorem C105_no_points_partial {X : Type} (fmax : ℝ) (fit : ℕ → List X → List Bool → Res (X → F ℝ))
    (argsort : List (F ℝ) → List ℕ) (obs : List (X × ℝ)) (p p' : Option (X → Res ℝ)) (detection noise sat : Option ℝ)
    (cand : List X) (hp : detection ≠ none → p ≠ none ∧ p' ≠ none) :
    hmCtorRun fmax fit argsort obs p detection noise sat cand 0 = hmCtorRun fmax fit argsort obs p' detection noise sat cand 0 := by
  have key : ∀ (ph : X → Res Bool) (s : HMAttrs X),
      hmRun ⟨ph, fit, argsort⟩ cand 0 s = hmRun ⟨fun _ => .ok true, fit, argsort⟩ cand 0 s := by
    intro ph s
    simp only [hmRun, hmLoop]
  cases detection with
  | none =>
    simp only [hmCtorRun, hmInit, key]
  | some d =>
    obtain ⟨h1, h2⟩ := hp (by simp)
    cases p with
    | none => exact absurd rfl h1
    | some f =>
      cases p' with
      | none => exact absurd rfl h2
      | some g =>
        simp only [hmCtorRun, hmInit]
        conv_lhs => rw [key]
        conv_rhs => rw [key]

/-- **C105 is violated.**  With a detection threshold and the default physical model None, no object can be built, whatever the data
and even if no point is to be added; without the threshold the same signals coded as hit or miss are accepted. -/
theorem C105_violated {X : Type} (fmax : ℝ) (fit : ℕ → List X → List Bool → Res (X → F ℝ)) (argsort : List (F ℝ) → List ℕ)
    (obs : List (X × ℝ)) (det : ℝ) (cand : List X) (nMore : ℕ) (g : X → F ℝ)
    (hfit : fit 0 (obs.map (·.1)) (obs.map fun o => decide (det < o.2)) = .ok g) :
    (∃ e, hmCtorRun fmax fit argsort obs none (some det) none none cand nMore = .error e) ∧
    ∃ s, hmCtorRun fmax fit argsort (obs.map fun o => (o.1, if det < o.2 then 1 else 0)) none none none none cand 0 = .ok s := by
  constructor
  · exact ⟨_, rfl⟩
  · have h1 : (obs.map fun o => (o.1, if det < o.2 then (1 : ℝ) else 0)).map (·.1) = obs.map (·.1) := by simp [Function.comp]
    have h2 : (obs.map fun o => (o.1, if det < o.2 then (1 : ℝ) else 0)).map (fun o => asLabel o.2)
        = obs.map fun o => decide (det < o.2) := by
      rw [List.map_map]
      refine List.map_congr_left fun o _ => ?_
      simp only [Function.comp, asLabel]
      by_cases h : det < o.2 <;> simp [h]
    refine ⟨⟨obs.map (·.1), obs.map fun o => decide (det < o.2), false, none, some (.base g, none), .fin 0.45, .fin 0.52⟩, ?_⟩
    simp only [hmCtorRun, hmInit, hmKept, and_self, if_true, h1, h2, hmRun, hfit, hmLoop]
    simp

end Verif.Props
