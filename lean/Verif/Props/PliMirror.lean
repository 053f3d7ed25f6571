import Verif.Props.PliUnits

/-!
# C248: counting an input in the opposite direction changes no perturbation law index (/repo/otpod/_pli.py 52-136, 610-920)
-/

namespace Verif.Props
open Verif.Py Verif.Model MeasureTheory ProbabilityTheory Set

/-- `-1` for an input counted in the opposite direction. -/
noncomputable def dirSign (f : Bool) : ℝ := if f then -1 else 1

/-- The law of the input counted in the opposite direction (`-X`). -/
noncomputable def oppositeMarg (f : Bool) (m : Marg) : Marg :=
  if f then
    match m with
    | .normal μ σ => .normal (-μ) σ
    | .uniform a b => .uniform (-b) (-a)
    | .other p m v => .other (fun x => p (-x)) (-m) v
  else m

/-- The recorded evaluations with the same inputs counted in the opposite direction. -/
noncomputable def mirrorHist {d : ℕ} (f : Fin d → Bool) (hist : List ((Fin d → ℝ) × ℝ)) : List ((Fin d → ℝ) × ℝ) :=
  hist.map fun p => (fun j => dirSign (f j) * p.1 j, p.2)

theorem oppositeMarg_pdf (f : Bool) (m : Marg) (x : ℝ) : (oppositeMarg f m).pdf (dirSign f * x) = m.pdf x := by
  cases f
  · simp [oppositeMarg, dirSign]
  cases m with
  | normal μ σ =>
    simp only [oppositeMarg, dirSign, if_true, Marg.pdf]
    have h : (-1 * x - -μ) / σ = -((x - μ) / σ) := by ring
    rw [h, neg_sq]
  | uniform a b =>
    simp only [oppositeMarg, dirSign, if_true, Marg.pdf]
    have h : (-b ≤ -1 * x ∧ -1 * x ≤ -a) ↔ (a ≤ x ∧ x ≤ b) := by
      constructor <;> rintro ⟨h1, h2⟩ <;> constructor <;> linarith
    have e : -a - -b = b - a := by ring
    simp only [h, e]
  | other p m v =>
    simp [oppositeMarg, dirSign, Marg.pdf]

theorem oppositeMarg_mean (f : Bool) (m : Marg) : (oppositeMarg f m).mean = dirSign f * m.mean := by
  cases f
  · simp [oppositeMarg, dirSign]
  cases m <;> simp only [oppositeMarg, dirSign, if_true, Marg.mean] <;> ring

theorem oppositeMarg_var (f : Bool) (m : Marg) : (oppositeMarg f m).var = m.var := by
  cases f
  · simp [oppositeMarg]
  cases m <;> simp only [oppositeMarg, if_true, Marg.var] <;> ring

theorem dirSign_sq (f : Bool) : dirSign f * dirSign f = 1 := by cases f <;> simp [dirSign]

theorem failureSample_mirror {d : ℕ} (f : Fin d → Bool) (op : CmpOp) (thr : ℝ) (hist : List ((Fin d → ℝ) × ℝ)) :
    failureSample op thr (mirrorHist f hist)
      = (failureSample op thr hist).map (fun fs => fs.map fun x j => dirSign (f j) * x j) := by
  have h := failureSample_inUnit (fun j => dirSign (f j)) 0 op thr hist
  simpa [histInUnit, mirrorHist] using h

theorem pliEntry_mirror {d : ℕ} (f : Fin d → Bool) (op : CmpOp) (thr : ℝ) (hist : List ((Fin d → ℝ) × ℝ)) (N : ℕ)
    (pf : ℝ) (marg : Fin d → Marg) (k : Fin d) (p p' : ℝ → ℝ) (hp : ∀ x, p' (dirSign (f k) * x) = p x) :
    pliEntry op thr (mirrorHist f hist) N pf (fun j => (oppositeMarg (f j) (marg j)).pdf) k p'
      = pliEntry op thr hist N pf (fun j => (marg j).pdf) k p := by
  have hw : ∀ fs : List (Fin d → ℝ), pliWeights (fun j => (oppositeMarg (f j) (marg j)).pdf) k p' (fs.map fun x j => dirSign (f j) * x j)
      = pliWeights (fun j => (marg j).pdf) k p fs := by
    intro fs
    rw [pliWeights, pliWeights, List.map_map]
    apply List.map_congr_left
    intro x _
    simp only [Function.comp]
    congr 1
    · rw [perturbedPDF, perturbedPDF]
      refine Finset.prod_congr rfl fun j _ => ?_
      by_cases hj : j = k
      · subst hj
        rw [Function.update_self, Function.update_self, hp]
      · rw [Function.update_of_ne hj, Function.update_of_ne hj, oppositeMarg_pdf]
    · rw [jointPDF, jointPDF]
      exact Finset.prod_congr rfl fun j _ => oppositeMarg_pdf _ _ _
  rw [pliEntry, pliEntry, failureSample_mirror]
  cases failureSample op thr hist with
  | error e => rfl
  | ok fs =>
    simp only [Except.map]
    rw [hw]

/-! ## Perturbation of the mean -/

theorem tiltedShift_mirror (a b δ lam : ℝ) : tiltedShift (-b) (-a) (-δ) (-lam) = -tiltedShift a b δ lam := by
  rw [tiltedShift, tiltedShift, ← intervalIntegral.integral_neg]
  rw [← intervalIntegral.integral_comp_neg (a := a) (b := b) (fun x => (x - -δ) * Real.exp (-lam * (x - -δ)))]
  apply intervalIntegral.integral_congr
  intro x _
  simp only
  rw [show -lam * (-x - -δ) = lam * (x - δ) by ring]
  ring

/-- The mirrored marginal perturbed to the mirrored mean is the mirror of the perturbed marginal. -/
theorem meanPert_mirror (f : Bool) {δ : ℝ} (solve : ℝ → ℝ → ℝ → ℝ) (hs : RootSpec solve) (m : Marg) (hm : MeanAdmissible δ m) :
    (∀ p, meanPert solve m δ = .ok p → ∃ p', meanPert solve (oppositeMarg f m) (dirSign f * δ) = .ok p' ∧ ∀ x, p' (dirSign f * x) = p x) ∧
    ∀ e, meanPert solve m δ = .error e → meanPert solve (oppositeMarg f m) (dirSign f * δ) = .error e := by
  cases f
  · simp only [oppositeMarg, dirSign, Bool.false_eq_true, if_false, one_mul]
    exact ⟨fun p hp => ⟨p, hp, fun _ => rfl⟩, fun e he => he⟩
  by_cases hδ : δ = m.mean
  · constructor
    · intro p hp
      rw [meanPert.eq_def, if_pos hδ, Except.ok.injEq] at hp
      refine ⟨(oppositeMarg true m).pdf, ?_, fun x => ?_⟩
      · rw [meanPert.eq_def, if_pos (by rw [oppositeMarg_mean, hδ])]
      · rw [oppositeMarg_pdf, hp]
    · intro e he
      rw [meanPert.eq_def, if_pos hδ] at he
      exact absurd he (by simp)
  have hδ' : ¬ dirSign true * δ = (oppositeMarg true m).mean := by
    rw [oppositeMarg_mean]
    intro c
    apply hδ
    simpa [dirSign] using c
  cases m with
  | normal μ σ =>
    constructor
    · intro p hp
      rw [meanPert.eq_def, if_neg hδ] at hp
      simp only [Except.ok.injEq] at hp
      refine ⟨_, by rw [meanPert.eq_def, if_neg hδ']; rfl, fun x => ?_⟩
      rw [← hp]
      simp only [dirSign, if_true]
      have h : (-1 * x - -1 * δ) / σ = -((x - δ) / σ) := by ring
      rw [h, neg_sq]
    · intro e he
      rw [meanPert.eq_def, if_neg hδ] at he
      exact absurd he (by simp)
  | uniform a b =>
    obtain ⟨ha, hb⟩ := hm
    have hab : a < b := ha.trans hb
    constructor
    · intro p hp
      rw [meanPert.eq_def, if_neg hδ] at hp
      simp only [Except.ok.injEq] at hp
      refine ⟨_, by rw [meanPert.eq_def, if_neg hδ']; rfl, fun x => ?_⟩
      rw [← hp]
      simp only [dirSign, if_true, neg_one_mul]
      have h1 := (mPrimeOverM_eq_zero_iff hab).mp (hs a b δ ha hb)
      have h2 := (mPrimeOverM_eq_zero_iff (neg_lt_neg hab)).mpr ((tiltedShift_mirror a b δ (solve a b δ)).trans (by rw [h1, neg_zero]))
      have hl := (C61_admissible _ _ (-δ) (neg_lt_neg hab)).2 _ _ (hs _ _ _ (neg_lt_neg hb) (neg_lt_neg ha)) h2
      rw [hl]
      set lam := solve a b δ
      have hx : (-x ≤ -a ∧ -x ≥ -b) ↔ (x ≤ b ∧ x ≥ a) := by
        constructor <;> rintro ⟨h1, h2⟩ <;> constructor <;> linarith
      simp only [hx, neg_mul_neg]
      congr 2
      rw [← neg_sub (Real.exp (lam * b)), neg_div_neg_eq]
    · intro e he
      rw [meanPert.eq_def, if_neg hδ] at he
      exact absurd he (by simp)
  | other q mm v =>
    constructor
    · intro p hp
      rw [meanPert.eq_def, if_neg hδ] at hp
      exact absurd hp (by simp)
    · intro e he
      rw [meanPert.eq_def, if_neg hδ] at he
      rw [meanPert.eq_def, if_neg hδ']
      exact he

/-! ## Perturbation of the variance -/

theorem qm_mirror (a b : ℝ) (lam : ℝ × ℝ) : qm (-b) (-a) 0 (-lam.1, lam.2) = qm a b 0 lam := by
  rw [qm, qm, ← intervalIntegral.integral_comp_neg (a := a) (b := b) (fun x => x ^ 0 * Real.exp ((-lam.1, lam.2).1 * x + (-lam.1, lam.2).2 * x ^ 2))]
  apply intervalIntegral.integral_congr
  intro x _
  simp only [pow_zero, neg_mul_neg, neg_sq]

theorem dualH_mirror {a b : ℝ} (hab : a < b) (rhs lam : ℝ × ℝ) :
    dualH (Marg.uniform (-b) (-a)).pdf (-b) (-a) (-rhs.1, rhs.2) (-lam.1, lam.2) = dualH (Marg.uniform a b).pdf a b rhs lam := by
  rw [dualH, dualH, tiltIntegral_uniform hab, tiltIntegral_uniform (neg_lt_neg hab), qm_mirror, show -a - -b = b - a by ring]
  ring_nf

/-- The logarithm of the integral is strictly convex: two multipliers with the smallest value of `H` in the box are equal. -/
theorem boxMin_unique {a b : ℝ} (hab : a < b) (rhs l l' : ℝ × ℝ) (h : BoxMin (Marg.uniform a b).pdf a b rhs l)
    (h' : BoxMin (Marg.uniform a b).pdf a b rhs l') : l = l' := by
  by_contra hne
  have hF := qm_pos hab l
  have hG := qm_pos hab l'
  set mid : ℝ × ℝ := ((l.1 + l'.1) / 2, (l.2 + l'.2) / 2) with hmid
  have hM := qm_pos hab mid
  have hbox : InBox mid := by
    obtain ⟨⟨⟨a1, a2⟩, a3, a4⟩, -⟩ := h
    obtain ⟨⟨⟨b1, b2⟩, b3, b4⟩, -⟩ := h'
    exact ⟨⟨by simp only [hmid]; linarith, by simp only [hmid]; linarith⟩, by simp only [hmid]; linarith, by simp only [hmid]; linarith⟩
  set k := Real.log (qm a b 0 l' / qm a b 0 l) / 2 with hk
  have hek : Real.exp k ^ 2 = qm a b 0 l' / qm a b 0 l := by
    rw [← Real.exp_nat_mul, hk, Nat.cast_ofNat, mul_div_cancel₀ _ (two_ne_zero), Real.exp_log (div_pos hG hF)]
  set u : ℝ → ℝ := fun x => (l.1 * x + l.2 * x ^ 2) / 2 with hu
  set v : ℝ → ℝ := fun x => (l'.1 * x + l'.2 * x ^ 2) / 2 with hv
  have huc : Continuous u := by rw [hu]; fun_prop
  have hvc : Continuous v := by rw [hv]; fun_prop
  have hpos : 0 < ∫ x in a..b, (Real.exp k * Real.exp (u x) - Real.exp (v x)) ^ 2 := by
    have hnn : ∀ x, 0 ≤ (Real.exp k * Real.exp (u x) - Real.exp (v x)) ^ 2 := fun x => sq_nonneg _
    by_contra hle
    have hz : ∀ x ∈ Icc a b, k + u x = v x := by
      intro x hx
      by_contra hxne
      apply hle
      refine intervalIntegral.integral_pos hab (by fun_prop) (fun u _ => hnn u) ⟨x, hx, ?_⟩
      apply lt_of_le_of_ne (hnn x)
      intro c
      have c' := pow_eq_zero_iff (two_ne_zero) |>.mp c.symm
      rw [← Real.exp_add, sub_eq_zero] at c'
      exact hxne (Real.exp_injective c')
    have ea := hz a ⟨le_rfl, hab.le⟩
    have eb := hz b ⟨hab.le, le_rfl⟩
    have em := hz ((a + b) / 2) ⟨by linarith, by linarith⟩
    simp only [hu, hv] at ea eb em
    have hw : 0 < b - a := sub_pos.mpr hab
    have d2 : l.2 - l'.2 = 0 := by
      have : (l.2 - l'.2) * (b - a) ^ 2 = 0 := by linear_combination 4 * ea + 4 * eb - 8 * em
      exact (mul_eq_zero.mp this).resolve_right (pow_pos hw 2).ne'
    have d1 : l.1 - l'.1 = 0 := by
      have : (l.1 - l'.1) * (b - a) = 0 := by linear_combination 2 * eb - 2 * ea - (b ^ 2 - a ^ 2) * d2
      exact (mul_eq_zero.mp this).resolve_right hw.ne'
    exact hne (Prod.ext (sub_eq_zero.mp d1) (sub_eq_zero.mp d2))
  have hexpand : ∫ x in a..b, (Real.exp k * Real.exp (u x) - Real.exp (v x)) ^ 2
      = Real.exp k ^ 2 * qm a b 0 l + qm a b 0 l' - 2 * Real.exp k * qm a b 0 mid := by
    have e : (fun x => (Real.exp k * Real.exp (u x) - Real.exp (v x)) ^ 2)
        = fun x => Real.exp k ^ 2 * (x ^ 0 * Real.exp (l.1 * x + l.2 * x ^ 2)) + x ^ 0 * Real.exp (l'.1 * x + l'.2 * x ^ 2)
          - 2 * Real.exp k * (x ^ 0 * Real.exp (mid.1 * x + mid.2 * x ^ 2)) := by
      funext x
      have e1 : Real.exp (l.1 * x + l.2 * x ^ 2) = Real.exp (u x) ^ 2 := by
        rw [← Real.exp_nat_mul]; congr 1; simp only [hu]; push_cast; ring
      have e2 : Real.exp (l'.1 * x + l'.2 * x ^ 2) = Real.exp (v x) ^ 2 := by
        rw [← Real.exp_nat_mul]; congr 1; simp only [hv]; push_cast; ring
      have e3 : Real.exp (mid.1 * x + mid.2 * x ^ 2) = Real.exp (u x) * Real.exp (v x) := by
        rw [← Real.exp_add]; congr 1; simp only [hu, hv, hmid]; ring
      rw [e1, e2, e3]; ring
    rw [e, intervalIntegral.integral_sub (Continuous.intervalIntegrable (by fun_prop) _ _) (Continuous.intervalIntegrable (by fun_prop) _ _),
      intervalIntegral.integral_add (Continuous.intervalIntegrable (by fun_prop) _ _) (Continuous.intervalIntegrable (by fun_prop) _ _),
      intervalIntegral.integral_const_mul, intervalIntegral.integral_const_mul]
    rfl
  rw [hexpand, hek, div_mul_cancel₀ _ hF.ne'] at hpos
  have hlt : Real.exp k * qm a b 0 mid < qm a b 0 l' := by linarith
  have hlog : k + Real.log (qm a b 0 mid) < Real.log (qm a b 0 l') := by
    have := Real.log_lt_log (mul_pos (Real.exp_pos k) hM) hlt
    rwa [Real.log_mul (Real.exp_pos k).ne' hM.ne', Real.log_exp] at this
  rw [hk, Real.log_div hG.ne' hF.ne'] at hlog
  have hc : (1 / (b - a)) ≠ 0 := (one_div_pos.mpr (sub_pos.mpr hab)).ne'
  have i1 := h.2 mid hbox
  have i2 := h'.2 mid hbox
  simp only [dualH, tiltIntegral_uniform hab, Real.log_mul hc hF.ne', Real.log_mul hc hG.ne', Real.log_mul hc hM.ne'] at i1 i2
  simp only [hmid] at i1 i2 hlog
  linarith

/-- The search for the multipliers finds a minimum of `H` in the box, for every interval. -/
def BoxSpec (optimize : (ℝ → ℝ) → ℝ → ℝ → ℝ × ℝ → ℝ × ℝ) : Prop :=
  ∀ a b rhs, a < b → BoxMin (Marg.uniform a b).pdf a b rhs (optimize (Marg.uniform a b).pdf a b rhs)

theorem boxMin_mirror {a b : ℝ} (hab : a < b) (rhs lam : ℝ × ℝ) (h : BoxMin (Marg.uniform a b).pdf a b rhs lam) :
    BoxMin (Marg.uniform (-b) (-a)).pdf (-b) (-a) (-rhs.1, rhs.2) (-lam.1, lam.2) := by
  have hb : ∀ mu : ℝ × ℝ, InBox mu → InBox (-mu.1, mu.2) := by
    rintro mu ⟨⟨h1, h2⟩, h3⟩
    exact ⟨⟨by simp only; linarith, by simp only; linarith⟩, h3⟩
  refine ⟨hb _ h.1, fun mu hmu => ?_⟩
  have := h.2 _ (hb mu hmu)
  rw [← dualH_mirror hab rhs lam, ← dualH_mirror hab rhs (-mu.1, mu.2)] at this
  simpa using this

/-- A marginal as the constructors of OpenTURNS accept it. -/
def ProperMarg : Marg → Prop
  | .normal _ σ => 0 < σ
  | .uniform a b => a < b
  | .other _ _ _ => True

/-- The mirrored marginal perturbed to the same variance is the mirror of the perturbed marginal. -/
theorem varPert_mirror (f : Bool) {δ : ℝ} (optimize : (ℝ → ℝ) → ℝ → ℝ → ℝ × ℝ → ℝ × ℝ) (ho : BoxSpec optimize) (m : Marg) (hm : ProperMarg m) :
    (∀ p, varPert optimize m δ = .ok p → ∃ p', varPert optimize (oppositeMarg f m) δ = .ok p' ∧ ∀ x, p' (dirSign f * x) = p x) ∧
    ∀ e, varPert optimize m δ = .error e → varPert optimize (oppositeMarg f m) δ = .error e := by
  cases f
  · simp only [oppositeMarg, dirSign, Bool.false_eq_true, if_false, one_mul]
    exact ⟨fun p hp => ⟨p, hp, fun _ => rfl⟩, fun e he => he⟩
  by_cases hδ : δ = m.var
  · constructor
    · intro p hp
      rw [varPert.eq_def, if_pos hδ, Except.ok.injEq] at hp
      refine ⟨(oppositeMarg true m).pdf, ?_, fun x => ?_⟩
      · rw [varPert.eq_def, if_pos (by rw [oppositeMarg_var, hδ])]
      · rw [oppositeMarg_pdf, hp]
    · intro e he
      rw [varPert.eq_def, if_pos hδ] at he
      exact absurd he (by simp)
  have hδ' : ¬ δ = (oppositeMarg true m).var := by rwa [oppositeMarg_var]
  cases m with
  | normal μ σ =>
    constructor
    · intro p hp
      rw [varPert.eq_def, if_neg hδ] at hp
      simp only [Except.ok.injEq] at hp
      refine ⟨_, by rw [varPert.eq_def, if_neg hδ']; rfl, fun x => ?_⟩
      rw [← hp]
      simp only [dirSign, if_true]
      have h : (-1 * x - -μ) / Real.sqrt δ = -((x - μ) / Real.sqrt δ) := by ring
      rw [h, neg_sq]
    · intro e he
      rw [varPert.eq_def, if_neg hδ] at he
      exact absurd he (by simp)
  | uniform a b =>
    have hab : a < b := hm
    constructor
    · intro p hp
      rw [varPert.eq_def, if_neg hδ] at hp
      simp only [Except.ok.injEq] at hp
      refine ⟨_, by rw [varPert.eq_def, if_neg hδ']; rfl, fun x => ?_⟩
      rw [← hp]
      have hmean : (Marg.uniform (-b) (-a)).mean = -(Marg.uniform a b).mean := by simp only [Marg.mean]; ring
      have hmu : optimize (Marg.uniform (-b) (-a)).pdf (-b) (-a)
            ((Marg.uniform (-b) (-a)).mean, δ + (Marg.uniform (-b) (-a)).mean ^ 2)
          = (-(optimize (Marg.uniform a b).pdf a b ((Marg.uniform a b).mean, δ + (Marg.uniform a b).mean ^ 2)).1,
            (optimize (Marg.uniform a b).pdf a b ((Marg.uniform a b).mean, δ + (Marg.uniform a b).mean ^ 2)).2) := by
        rw [hmean, neg_sq]
        exact boxMin_unique (neg_lt_neg hab) _ _ _ (ho _ _ _ (neg_lt_neg hab))
          (boxMin_mirror hab _ _ (ho a b ((Marg.uniform a b).mean, δ + (Marg.uniform a b).mean ^ 2) hab))
      have hpdf := oppositeMarg_pdf true (.uniform a b) x
      simp only [oppositeMarg, if_true] at hpdf
      dsimp only
      rw [hmu, hpdf, tiltIntegral_uniform (neg_lt_neg hab), tiltIntegral_uniform hab, qm_mirror, show -a - -b = b - a by ring]
      simp only [dirSign, if_true]
      congr 3
      ring
    · intro e he
      rw [varPert.eq_def, if_neg hδ] at he
      exact absurd he (by simp)
  | other q mm v =>
    constructor
    · intro p hp
      rw [varPert.eq_def, if_neg hδ] at hp
      exact absurd hp (by simp)
    · intro e he
      rw [varPert.eq_def, if_neg hδ] at he
      rw [varPert.eq_def, if_neg hδ']
      exact he

/-! ## The constructors -/

/-- A full table of deltas is kept as it is. -/
theorem pliInit_table {d n : ℕ} (H : ℕ) (hH : H ≠ 0) (D : Fin (n + 1) → Fin d → ℝ) :
    pliInit H d true (.mat (List.ofFn fun i => List.ofFn (D i))) = .ok (List.ofFn fun i => List.ofFn (D i)) := by
  rw [pliInit, if_neg hH, if_neg (by simp), List.ofFn_succ, vstackDeltas, if_pos (by simp)]
  simp only [List.headD_cons, List.length_ofFn]
  rw [if_neg (by tauto)]
  split
  · next h =>
    subst h
    simp [List.ofFn_succ, List.map_ofFn, Function.comp_def]
  · rfl

/-- **C248, means.**  Count the inputs `j` with `f j` in the opposite direction (laws, recorded evaluations) and change the sign of their deltas, scaled or not: the
constructor changes the sign of the perturbed means, the same laws are refused, and every result of `run` (perturbed probability, variance, index, standard deviation) is
the same. -/
theorem C248_mean {d n : ℕ} (f : Fin d → Bool) (marg : Fin d → Marg) (D : Fin (n + 1) → Fin d → ℝ) (scaled : Bool) (H : ℕ) (hH : H ≠ 0)
    (op : CmpOp) (thr : ℝ) (hist : List ((Fin d → ℝ) × ℝ)) (N : ℕ) (pf : ℝ) (solve : ℝ → ℝ → ℝ → ℝ) (hs : RootSpec solve) :
    ∃ dv dv' : Fin (n + 1) → Fin d → ℝ,
      pliMeanInit H true (List.ofFn fun j => (marg j).mean) (List.ofFn fun j => Real.sqrt (marg j).var) (.mat (List.ofFn fun i => List.ofFn (D i))) scaled
        = .ok (List.ofFn fun i => List.ofFn (dv i)) ∧
      pliMeanInit H true (List.ofFn fun j => (oppositeMarg (f j) (marg j)).mean) (List.ofFn fun j => Real.sqrt (oppositeMarg (f j) (marg j)).var)
          (.mat (List.ofFn fun i => List.ofFn fun j => dirSign (f j) * D i j)) scaled
        = .ok (List.ofFn fun i => List.ofFn (dv' i)) ∧
      ∀ i k, dv' i k = dirSign (f k) * dv i k ∧ (MeanAdmissible (dv i k) (marg k) →
        (∀ e, meanPert solve (marg k) (dv i k) = .error e → meanPert solve (oppositeMarg (f k) (marg k)) (dv' i k) = .error e) ∧
        ∀ p, meanPert solve (marg k) (dv i k) = .ok p → ∃ p', meanPert solve (oppositeMarg (f k) (marg k)) (dv' i k) = .ok p' ∧
          pliEntry op thr (mirrorHist f hist) N pf (fun j => (oppositeMarg (f j) (marg j)).pdf) k p' = pliEntry op thr hist N pf (fun j => (marg j).pdf) k p) := by
  have hinit : ∀ (mean std : Fin d → ℝ) (E : Fin (n + 1) → Fin d → ℝ),
      pliMeanInit H true (List.ofFn mean) (List.ofFn std) (.mat (List.ofFn fun i => List.ofFn (E i))) scaled
        = .ok (List.ofFn fun i => List.ofFn fun j => if scaled then E i j * std j + mean j else E i j) := by
    intro mean std E
    rw [pliMeanInit, List.length_ofFn, pliInit_table H hH]
    cases scaled
    · simp
    · simp only [if_true, List.map_ofFn, Function.comp_def, Except.ok.injEq]
      congr 1
      funext i
      apply List.ext_getElem <;> simp
  refine ⟨_, _, hinit _ _ _, hinit _ _ _, fun i k => ?_⟩
  have hd : (if scaled then dirSign (f k) * D i k * Real.sqrt (oppositeMarg (f k) (marg k)).var + (oppositeMarg (f k) (marg k)).mean else dirSign (f k) * D i k)
      = dirSign (f k) * (if scaled then D i k * Real.sqrt (marg k).var + (marg k).mean else D i k) := by
    rw [oppositeMarg_mean, oppositeMarg_var]
    cases scaled <;> simp only [Bool.false_eq_true, if_false, if_true]
    ring
  refine ⟨hd, fun hm => ?_⟩
  rw [hd]
  obtain ⟨h1, h2⟩ := meanPert_mirror (f k) solve hs (marg k) hm
  refine ⟨h2, fun p hp => ?_⟩
  obtain ⟨p', a1, a2⟩ := h1 p hp
  exact ⟨p', a1, pliEntry_mirror f op thr hist N pf marg k p p' a2⟩

/-- **C248, variances.**  Count the inputs `j` with `f j` in the opposite direction; with `covScaled` change the sign of their deltas (a mean changes its sign), without it keep
them.  The perturbed variances are the same, the same arguments are refused with the same message, and every result of `run` is the same, whether or not the variance is
reached. -/
theorem C248_variance {d n : ℕ} (f : Fin d → Bool) (marg : Fin d → Marg) (hmarg : ∀ j, ProperMarg (marg j)) (D : Fin (n + 1) → Fin d → ℝ) (scaled : Bool) (H : ℕ)
    (hH : H ≠ 0) (op : CmpOp) (thr : ℝ) (hist : List ((Fin d → ℝ) × ℝ)) (N : ℕ) (pf : ℝ) (optimize : (ℝ → ℝ) → ℝ → ℝ → ℝ × ℝ → ℝ × ℝ) (ho : BoxSpec optimize) :
    pliVarianceInit H true (List.ofFn fun j => (oppositeMarg (f j) (marg j)).mean) (List.ofFn fun j => Real.sqrt (oppositeMarg (f j) (marg j)).var)
        (.mat (List.ofFn fun i => List.ofFn fun j => if scaled then dirSign (f j) * D i j else D i j)) scaled
      = pliVarianceInit H true (List.ofFn fun j => (marg j).mean) (List.ofFn fun j => Real.sqrt (marg j).var) (.mat (List.ofFn fun i => List.ofFn (D i))) scaled ∧
    ∀ δ k, (∀ e, varPert optimize (marg k) δ = .error e → varPert optimize (oppositeMarg (f k) (marg k)) δ = .error e) ∧
      ∀ p, varPert optimize (marg k) δ = .ok p → ∃ p', varPert optimize (oppositeMarg (f k) (marg k)) δ = .ok p' ∧
        pliEntry op thr (mirrorHist f hist) N pf (fun j => (oppositeMarg (f j) (marg j)).pdf) k p' = pliEntry op thr hist N pf (fun j => (marg j).pdf) k p := by
  constructor
  · rw [pliVarianceInit, pliVarianceInit, List.length_ofFn, List.length_ofFn, pliInit_table H hH, pliInit_table H hH]
    simp only [oppositeMarg_mean, oppositeMarg_var]
    cases scaled
    · simp
    · simp only [if_true, Bool.true_eq_false, and_false, if_false, List.map_ofFn, Function.comp_def, Except.ok.injEq]
      congr 1
      funext i
      apply List.ext_getElem
      · simp
      · intro j h1 h2
        have hj : j < d := by simpa using h2
        simp only [List.getElem_map, List.getElem_zipWith, List.getElem_ofFn]
        congr 2
        linear_combination D i ⟨j, hj⟩ * (marg ⟨j, hj⟩).mean * dirSign_sq (f ⟨j, hj⟩)
  · intro δ k
    obtain ⟨h1, h2⟩ := varPert_mirror (f k) (δ := δ) optimize ho (marg k) (hmarg k)
    refine ⟨h2, fun p hp => ?_⟩
    obtain ⟨p', a1, a2⟩ := h1 p hp
    exact ⟨p', a1, pliEntry_mirror f op thr hist N pf marg k p p' a2⟩

/-- **C248.**  The contracts are met by some root finder and some optimiser; a Normal and a Uniform input, the second counted in the opposite direction, with admissible means. -/
example : (∃ solve, RootSpec solve) ∧ (∃ optimize, BoxSpec optimize) ∧ oppositeMarg true (.uniform 1 3) = .uniform (-3) (-1) ∧
    MeanAdmissible 2.5 (.uniform 1 3) ∧ MeanAdmissible (dirSign true * 2.5) (oppositeMarg true (.uniform 1 3)) ∧ ProperMarg (.normal 0 1) := by
  refine ⟨rootSpec_nonempty, boxOptimizer_exists, by simp [oppositeMarg], ⟨by norm_num, by norm_num⟩, ?_, one_pos⟩
  simp only [oppositeMarg, dirSign, if_true]
  exact ⟨by norm_num, by norm_num⟩

end Verif.Props
