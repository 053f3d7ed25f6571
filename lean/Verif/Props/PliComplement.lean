import Verif.Props.PliInfluence

/-!
# C256: the perturbation law indices of an event and of its complement (/repo/otpod/_pli.py 119-232)
-/

namespace Verif.Props
open Verif.Py Verif.Model MeasureTheory ProbabilityTheory Filter Topology

variable {d : ℕ}

/-- The density ratio of a point. -/
noncomputable def ratioOf (pdf : Fin d → ℝ → ℝ) (k : Fin d) (pert : ℝ → ℝ) (x : Fin d → ℝ) : ℝ := perturbedPDF pdf k pert x / jointPDF pdf x

/-- The share of the simulations above, below the threshold: the probability estimated by Monte Carlo. -/
noncomputable def shareAbove {X : Type} (thr : ℝ) (hist : List (X × ℝ)) : ℝ := ((hist.countP fun p => decide (thr < p.2)) : ℝ) / hist.length
noncomputable def shareBelow {X : Type} (thr : ℝ) (hist : List (X × ℝ)) : ℝ := ((hist.countP fun p => decide (p.2 < thr)) : ℝ) / hist.length

/-- Sums over the points above and below the threshold make up the sum over all points. -/
theorem sum_above_below {X : Type} (thr : ℝ) (f : X → ℝ) (hist : List (X × ℝ)) (hne : ∀ p ∈ hist, p.2 ≠ thr) :
    (((hist.filter fun p => decide (p.2 > thr)).map Prod.fst).map f).sum + (((hist.filter fun p => decide (p.2 < thr)).map Prod.fst).map f).sum
      = (hist.map fun p => f p.1).sum := by
  induction hist with
  | nil => simp
  | cons p t ih =>
    have ih := ih fun q hq => hne q (List.mem_cons_of_mem _ hq)
    have hp := hne p (by simp)
    rcases lt_or_gt_of_ne hp with h | h
    · rw [List.filter_cons_of_neg (by simpa using h.le), List.filter_cons_of_pos (by simpa using h)]
      simp only [List.map_cons, List.sum_cons]
      linarith
    · rw [List.filter_cons_of_pos (by simpa using h), List.filter_cons_of_neg (by simpa using h.le)]
      simp only [List.map_cons, List.sum_cons]
      linarith

theorem shares_complement {X : Type} (thr : ℝ) (hist : List (X × ℝ)) (h0 : hist ≠ []) (hne : ∀ p ∈ hist, p.2 ≠ thr) :
    shareBelow thr hist = 1 - shareAbove thr hist := by
  have hN : (hist.length : ℝ) ≠ 0 := by simpa using h0
  have := sum_above_below thr (fun _ => (1 : ℝ)) hist hne
  simp only [List.map_map, List.map_const', Function.comp_def, List.sum_replicate, nsmul_eq_mul, mul_one, ← List.countP_eq_length_filter] at this
  rw [shareBelow, shareAbove]
  field_simp
  simp only [gt_iff_lt] at this
  linarith

/-- **C256, restricted.**  When the density ratios of the simulations have mean one, the perturbed probabilities of the event and of its complement sum to
one, and the two indices have opposite signs. -/
theorem C256_mean_one_partial (pdf : Fin d → ℝ → ℝ) (k : Fin d) (pert : ℝ → ℝ) (thr : ℝ) (hist : List ((Fin d → ℝ) × ℝ)) (hne : ∀ p ∈ hist, p.2 ≠ thr)
    (hmean : (hist.map fun p => ratioOf pdf k pert p.1).sum = hist.length) (q v q' v' : ℝ) (s s' : F ℝ) (sd sd' : Option ℝ)
    (ha : 0 < shareAbove thr hist) (hb : 0 < shareBelow thr hist) (hq : 0 < q) (hq' : 0 < q')
    (h : pliEntry .greater thr hist hist.length (shareAbove thr hist) pdf k pert = .ok (q, v, s, sd))
    (h' : pliEntry .less thr hist hist.length (shareBelow thr hist) pdf k pert = .ok (q', v', s', sd')) :
    q' = 1 - q ∧ ∃ i i', s = .fin i ∧ s' = .fin i' ∧ (i < 0 ↔ 0 < i') ∧ (i = 0 ↔ i' = 0) ∧ (0 < i ↔ i' < 0) := by
  have h0 : hist ≠ [] := by rintro rfl; simp [shareAbove] at ha
  have hN : (hist.length : ℝ) ≠ 0 := by simpa using h0
  simp only [pliEntry, failureSample, Except.ok.injEq, Prod.mk.injEq] at h h'
  obtain ⟨e, -, es, -⟩ := h
  obtain ⟨e', -, es', -⟩ := h'
  have hsum : q' = 1 - q := by
    have := sum_above_below thr (ratioOf pdf k pert) hist hne
    rw [hmean] at this
    rw [← e, ← e', pfDelta, pfDelta, pliWeights, pliWeights]
    change 1 / (hist.length : ℝ) * (List.map (ratioOf pdf k pert) _).sum = 1 - 1 / (hist.length : ℝ) * (List.map (ratioOf pdf k pert) _).sum
    field_simp
    linarith
  have hs := shares_complement thr hist h0 hne
  rw [e] at es
  rw [e'] at es'
  obtain ⟨i, hi, i1, i2, i3⟩ := C57_sign _ _ ha hq
  obtain ⟨i', hi', j1, j2, j3⟩ := C57_sign _ _ hb hq'
  refine ⟨hsum, i, i', by rw [← es, hi], by rw [← es', hi'], ?_, ?_, ?_⟩
  · rw [i1, j3, hs, hsum]; constructor <;> intro h <;> linarith
  · rw [i2, j2, hs, hsum]; constructor <;> intro h <;> linarith
  · rw [i3, j1, hs, hsum]; constructor <;> intro h <;> linarith

/-- With density ratios above one the perturbed probability exceeds the share of the points. -/
theorem pfDelta_gt (N : ℕ) (hN : 0 < N) (ws : List ℝ) (h0 : ws ≠ []) (h1 : ∀ w ∈ ws, 1 < w) : (ws.length : ℝ) / N < pfDelta N ws := by
  have key : (ws.length : ℝ) < ws.sum := by
    induction ws with
    | nil => exact absurd rfl h0
    | cons w t ih =>
      rw [List.length_cons, List.sum_cons, Nat.cast_succ]
      have hw := h1 w (by simp)
      rcases eq_or_ne t [] with rfl | ht
      · simpa using hw
      · have := ih ht fun u hu => h1 u (List.mem_cons_of_mem _ hu)
        linarith
  have hN' : (0 : ℝ) < N := Nat.cast_pos.mpr hN
  rw [pfDelta, one_div, inv_mul_eq_div]
  exact div_lt_div_of_pos_right key hN'

/-- **C256 is violated.**  Take a Normal input with its mean moved from `μ` to `δ`.  For every history of simulations all of whose points are on the side of
`δ` of the midpoint `(μ + δ) / 2`, some above and some below the threshold, both indices are positive: the detection and the absence of detection are both
said to become more probable. -/
theorem C256_violated (marg : Fin d → Marg) (k : Fin d) (μ σ δ : ℝ) (hσ : 0 < σ) (hk : marg k = .normal μ σ) (solve : ℝ → ℝ → ℝ → ℝ) (thr : ℝ)
    (hist : List ((Fin d → ℝ) × ℝ)) (hpos : ∀ p ∈ hist, ∀ i, i ≠ k → (marg i).pdf (p.1 i) ≠ 0)
    (hside : ∀ p ∈ hist, 0 < (δ - μ) * (p.1 k - (μ + δ) / 2)) (habove : ∃ p ∈ hist, thr < p.2) (hbelow : ∃ p ∈ hist, p.2 < thr) :
    ∃ pert q v s sd q' v' s' sd', meanPert solve (marg k) δ = .ok pert ∧
      pliEntry .greater thr hist hist.length (shareAbove thr hist) (fun i => (marg i).pdf) k pert = .ok (q, v, .fin s, sd) ∧
      pliEntry .less thr hist hist.length (shareBelow thr hist) (fun i => (marg i).pdf) k pert = .ok (q', v', .fin s', sd') ∧ 0 < s ∧ 0 < s' := by
  have hlen : 0 < hist.length := by obtain ⟨p, hp, -⟩ := habove; exact List.length_pos_of_mem hp
  have hw : ∀ p ∈ hist, 1 < perturbedPDF (fun i => (marg i).pdf) k (Marg.normal δ σ).pdf p.1 / jointPDF (fun i => (marg i).pdf) p.1 := by
    intro p hp
    rw [weight_normal marg k μ σ δ hσ hk p.1 (hpos p hp), Real.one_lt_exp_iff]
    have := hside p hp
    refine div_pos ?_ (by positivity)
    nlinarith
  have hN' : (0 : ℝ) < hist.length := Nat.cast_pos.mpr hlen
  have one : ∀ (P : (Fin d → ℝ) × ℝ → Bool), (∃ p ∈ hist, P p = true) →
      0 < ((hist.countP P : ℕ) : ℝ) / hist.length ∧ ((hist.countP P : ℕ) : ℝ) / hist.length
        < pfDelta hist.length (pliWeights (fun i => (marg i).pdf) k (Marg.normal δ σ).pdf ((hist.filter P).map Prod.fst)) := by
    intro P hP
    have hc : 0 < hist.countP P := List.countP_pos_iff.2 hP
    refine ⟨div_pos (Nat.cast_pos.mpr hc) hN', ?_⟩
    have hl : (pliWeights (fun i => (marg i).pdf) k (Marg.normal δ σ).pdf ((hist.filter P).map Prod.fst)).length = hist.countP P := by
      rw [pliWeights, List.length_map, List.length_map, List.countP_eq_length_filter]
    rw [← hl]
    refine pfDelta_gt _ hlen _ ?_ ?_
    · intro hnil
      rw [hnil] at hl
      simp at hl
      obtain ⟨p, hp, hpP⟩ := hP
      have := hl.symm ▸ hc
      omega
    · intro w hw'
      rw [pliWeights, List.mem_map] at hw'
      obtain ⟨x, hx, rfl⟩ := hw'
      rw [List.mem_map] at hx
      obtain ⟨p, hp, rfl⟩ := hx
      exact hw p (List.mem_of_mem_filter hp)
  obtain ⟨a0, a1⟩ := one (fun p => decide (thr < p.2)) (by simpa using habove)
  obtain ⟨b0, b1⟩ := one (fun p => decide (p.2 < thr)) (by simpa using hbelow)
  obtain ⟨s, hs, -, -, hs3⟩ := C57_sign _ _ a0 (a0.trans a1)
  obtain ⟨s', hs', -, -, hs3'⟩ := C57_sign _ _ b0 (b0.trans b1)
  have e1 : ∃ q v sd, pliEntry .greater thr hist hist.length (shareAbove thr hist) (fun i => (marg i).pdf) k (Marg.normal δ σ).pdf
      = .ok (q, v, .fin s, sd) := ⟨_, _, _, by rw [← hs]; rfl⟩
  have e2 : ∃ q v sd, pliEntry .less thr hist hist.length (shareBelow thr hist) (fun i => (marg i).pdf) k (Marg.normal δ σ).pdf
      = .ok (q, v, .fin s', sd) := ⟨_, _, _, by rw [← hs']; rfl⟩
  obtain ⟨q, v, sd, e1⟩ := e1
  obtain ⟨q', v', sd', e2⟩ := e2
  exact ⟨(Marg.normal δ σ).pdf, q, v, s, sd, q', v', s', sd', by rw [hk]; exact meanPert_normal solve μ σ δ, e1, e2, hs3.2 a1, hs3'.2 b1⟩

/-- Three simulations of a standard normal input, its mean moved to 1. -/
example (solve : ℝ → ℝ → ℝ → ℝ) :=
  C256_violated (fun _ : Fin 1 => .normal 0 1) 0 0 1 1 one_pos rfl solve 2 [(fun _ => 1, 3), (fun _ => 2, 1), (fun _ => 0.7, 1)]
    (fun _ _ i hi => absurd (Subsingleton.elim i 0) hi) (by
      intro p hp
      simp only [List.mem_cons, List.not_mem_nil, or_false] at hp
      rcases hp with rfl | rfl | rfl <;> norm_num)
    ⟨_, List.mem_cons_self, by norm_num⟩ ⟨(fun _ => 2, 1), by simp, by norm_num⟩

/-- Two simulations of a uniform input on [-1, 1] whose density ratios 1/2 and 3/2 have mean one. -/
example : (([((fun _ => -1/2 : Fin 1 → ℝ), (0 : ℝ)), (fun _ => 1/2, 1)] : List ((Fin 1 → ℝ) × ℝ)).map
    fun p => ratioOf (fun _ : Fin 1 => (Marg.uniform (-1) 1).pdf) 0 (fun x => (1 + x) / 2) p.1).sum = 2 := by
  simp [ratioOf, perturbedPDF, jointPDF, Marg.pdf]
  norm_num

/-- The two indices of these simulations, event "output above 1/2". -/
example (v v' : ℝ) (s s' : F ℝ) (sd sd' : Option ℝ) (hist : List ((Fin 1 → ℝ) × ℝ)) (hh : hist = [((fun _ => -1/2 : Fin 1 → ℝ), (0 : ℝ)), (fun _ => 1/2, 1)])
    (h : pliEntry .greater (1 / 2) hist hist.length (shareAbove (1 / 2) hist) (fun _ : Fin 1 => (Marg.uniform (-1) 1).pdf) 0 (fun x => (1 + x) / 2)
      = .ok (3 / 4, v, s, sd))
    (h' : pliEntry .less (1 / 2) hist hist.length (shareBelow (1 / 2) hist) (fun _ : Fin 1 => (Marg.uniform (-1) 1).pdf) 0 (fun x => (1 + x) / 2)
      = .ok (1 / 4, v', s', sd')) :
    ∃ i i', s = .fin i ∧ s' = .fin i' ∧ (0 < i ↔ i' < 0) := by
  obtain ⟨-, i, i', h1, h2, -, -, h3⟩ := C256_mean_one_partial (fun _ : Fin 1 => (Marg.uniform (-1) 1).pdf) 0 (fun x => (1 + x) / 2) (1 / 2) hist
    (by subst hh; intro p hp; simp only [List.mem_cons, List.not_mem_nil, or_false] at hp; rcases hp with rfl | rfl <;> norm_num)
    (by subst hh; simp [ratioOf, perturbedPDF, jointPDF, Marg.pdf]; norm_num) (3 / 4) v (1 / 4) v' s s' sd sd'
    (by subst hh; simp [shareAbove, List.countP_cons]; norm_num) (by subst hh; simp [shareBelow, List.countP_cons]; norm_num) (by norm_num) (by norm_num) h h'
  exact ⟨i, i', h1, h2, h3⟩

/-! ## Many simulations -/

theorem failureSample_less (g : (Fin d → ℝ) → ℝ) (thr : ℝ) {N : ℕ} (ω : Fin N → Fin d → ℝ) :
    failureSample .less thr (List.ofFn fun i => (ω i, g (ω i))) = failureSample .greater (-thr) (List.ofFn fun i => (ω i, -g (ω i))) := by
  have e : (List.ofFn fun i => (ω i, -g (ω i))) = (List.ofFn fun i => (ω i, g (ω i))).map fun p => (p.1, -p.2) := by
    rw [List.map_ofFn]; rfl
  simp only [failureSample]
  rw [e, List.filter_map, List.map_map]
  congr 2
  refine List.filter_congr fun p _ => ?_
  simp

theorem prob_below (pdf : Fin d → ℝ → ℝ) (hpdf : ∀ i, IsDensity (pdf i)) (g : (Fin d → ℝ) → ℝ) (hg : Measurable g) (thr : ℝ)
    (h0 : volume {x | g x = thr} = 0) :
    (densityLaw (jointPDF pdf)).real {x | -thr < -g x} = 1 - (densityLaw (jointPDF pdf)).real {x | thr < g x} := by
  have := densityLaw_isProbability hpdf
  have hm : MeasurableSet {x | thr < g x} := measurableSet_lt measurable_const hg
  rw [← probReal_compl_eq_one_sub hm]
  refine measureReal_congr ?_
  have hz : (densityLaw (jointPDF pdf)) {x | g x = thr} = 0 := withDensity_absolutelyContinuous _ _ h0
  have : ∀ᵐ x ∂(densityLaw (jointPDF pdf)), g x ≠ thr := by
    rw [ae_iff]; simpa using hz
  filter_upwards [this] with x hx
  apply propext
  change -thr < -g x ↔ ¬ thr < g x
  rw [neg_lt_neg_iff, not_lt]
  exact ⟨le_of_lt, fun h => lt_of_le_of_ne h hx⟩

/-- **C256, restricted, many simulations.**  When the perturbation changes the probability of the event, the indices of the event and of its complement are,
almost surely, of opposite signs from some number of simulations on. -/
theorem C256_limit_partial {Ω : Type} [MeasurableSpace Ω] (Q : Measure Ω) [IsProbabilityMeasure Q] (pdf : Fin d → ℝ → ℝ)
    (hpdf : ∀ i, IsDensity (pdf i)) (k : Fin d) (pert : ℝ → ℝ) (hpert : IsDensity pert) (hsupp : ∀ x, pdf k x = 0 → pert x = 0)
    (g : (Fin d → ℝ) → ℝ) (hg : Measurable g) (thr : ℝ) (h0 : volume {x | g x = thr} = 0) (x : ℕ → Ω → Fin d → ℝ) (hx : ∀ i, Measurable (x i))
    (hlaw : ∀ i, Q.map (x i) = densityLaw (jointPDF pdf)) (hind : Pairwise fun i j => IndepFun (x i) (x j) Q)
    (fs fs' : ℕ → Ω → List (Fin d → ℝ))
    (hfs : ∀ N ω, failureSample .greater thr (List.ofFn fun i : Fin N => (x i ω, g (x i ω))) = .ok (fs N ω))
    (hfs' : ∀ N ω, failureSample .less thr (List.ofFn fun i : Fin N => (x i ω, g (x i ω))) = .ok (fs' N ω))
    (p q : ℝ) (hp : p = (densityLaw (jointPDF pdf)).real {x | thr < g x})
    (hq : q = (densityLaw (jointPDF (Function.update pdf k pert))).real {x | thr < g x})
    (p0 : 0 < p) (p1 : p < 1) (q0 : 0 < q) (q1 : q < 1) (hpq : p ≠ q) :
    ∀ᵐ ω ∂Q, ∀ᶠ N in atTop, ∃ s s', pliIndex ((fs N ω).length / N) (pfDelta N (pliWeights pdf k pert (fs N ω))) = .fin s ∧
      pliIndex ((fs' N ω).length / N) (pfDelta N (pliWeights pdf k pert (fs' N ω))) = .fin s' ∧ s * s' < 0 := by
  have hupd : ∀ i, IsDensity (Function.update pdf k pert i) := by
    intro i
    by_cases h : i = k
    · subst h; rw [Function.update_self]; exact hpert
    · rw [Function.update_of_ne h]; exact hpdf i
  have A := C119_convergence Q pdf hpdf k pert hpert hsupp g hg thr x hx hlaw hind fs hfs p q hp hq
  have B := C119_convergence Q pdf hpdf k pert hpert hsupp (fun x => -g x) hg.neg (-thr) x hx hlaw hind fs'
    (fun N ω => by rw [← failureSample_less g thr (fun i : Fin N => x i ω)]; exact hfs' N ω) (1 - p) (1 - q)
    (by rw [prob_below pdf hpdf g hg thr h0, hp]) (by rw [prob_below _ hupd g hg thr h0, hq])
  filter_upwards [A, B] with ω hA hB
  obtain ⟨a1, a2, -⟩ := hA
  obtain ⟨b1, b2, -⟩ := hB
  have pa := a1.eventually (lt_mem_nhds p0)
  have qa := a2.eventually (lt_mem_nhds q0)
  have pb := b1.eventually (lt_mem_nhds (by linarith : (0 : ℝ) < 1 - p))
  have qb := b2.eventually (lt_mem_nhds (by linarith : (0 : ℝ) < 1 - q))
  rcases lt_or_gt_of_ne hpq with h | h
  · have c1 := a1.eventually_lt a2 h
    have c2 := b2.eventually_lt b1 (by linarith : 1 - q < 1 - p)
    filter_upwards [pa, qa, pb, qb, c1, c2] with N e1 e2 e3 e4 e5 e6
    obtain ⟨s, hs, -, -, s3⟩ := C57_sign _ _ e1 e2
    obtain ⟨s', hs', t1, -, -⟩ := C57_sign _ _ e3 e4
    exact ⟨s, s', hs, hs', mul_neg_of_pos_of_neg (s3.2 e5) (t1.2 e6)⟩
  · have c1 := a2.eventually_lt a1 h
    have c2 := b1.eventually_lt b2 (by linarith : 1 - p < 1 - q)
    filter_upwards [pa, qa, pb, qb, c1, c2] with N e1 e2 e3 e4 e5 e6
    obtain ⟨s, hs, s1, -, -⟩ := C57_sign _ _ e1 e2
    obtain ⟨s', hs', -, -, t3⟩ := C57_sign _ _ e3 e4
    exact ⟨s, s', hs, hs', mul_neg_of_neg_of_pos (s1.2 e5) (t3.2 e6)⟩

/-- One standard normal input, its mean moved to 1, event "the input exceeds 1/3", simulations drawn independently. -/
example (fs fs' : ℕ → (ℕ → Fin 1 → ℝ) → List (Fin 1 → ℝ))
    (hfs : ∀ N ω, failureSample .greater (1 / 3) (List.ofFn fun i : Fin N => (ω i, ω i 0)) = .ok (fs N ω))
    (hfs' : ∀ N ω, failureSample .less (1 / 3) (List.ofFn fun i : Fin N => (ω i, ω i 0)) = .ok (fs' N ω))
    (P : Measure (Fin 1 → ℝ)) (hP : P = densityLaw (jointPDF fun _ : Fin 1 => (Marg.normal 0 1).pdf)) [IsProbabilityMeasure P] (p q : ℝ)
    (hp : p = (densityLaw (jointPDF fun _ : Fin 1 => (Marg.normal 0 1).pdf)).real {x | 1 / 3 < x 0})
    (hq : q = (densityLaw (jointPDF (Function.update (fun _ : Fin 1 => (Marg.normal 0 1).pdf) 0 (Marg.normal 1 1).pdf))).real {x | 1 / 3 < x 0})
    (p0 : 0 < p) (p1 : p < 1) (q0 : 0 < q) (q1 : q < 1) (hpq : p ≠ q) :=
  have hn : ∀ μ : ℝ, IsDensity (Marg.normal μ 1).pdf := fun μ => goodMarg_density (m := .normal μ 1) (show (0 : ℝ) < 1 from one_pos)
  C256_limit_partial (Measure.infinitePi fun _ : ℕ => P) (fun _ : Fin 1 => (Marg.normal 0 1).pdf) (fun _ => hn 0) 0
    (Marg.normal 1 1).pdf (hn 1) (fun x hx => absurd hx (by simp only [Marg.pdf]; positivity)) (fun x => x 0) (by fun_prop) (1 / 3)
    (by
      have := (volume_preserving_funUnique (Fin 1) ℝ).measure_preimage (MeasurableSet.singleton (1 / 3 : ℝ)).nullMeasurableSet
      rw [Real.volume_singleton] at this
      exact this)
    (fun i ω => ω i) (fun i => measurable_pi_apply i) (fun i => by rw [← hP]; exact (measurePreserving_eval_infinitePi (fun _ : ℕ => P) i).map_eq)
    (fun i j hij => (iIndepFun_infinitePi (P := fun _ : ℕ => P) (X := fun _ x => x) (fun _ => measurable_id)).indepFun hij)
    fs fs' hfs hfs' p q hp hq p0 p1 q0 q1 hpq

end Verif.Props
