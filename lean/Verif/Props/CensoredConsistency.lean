import Verif.Props.CensoredPop
import Verif.Props.LinearConsistency
import Verif.Model.BoxCoxLik

/-!
# C168: consistency of the censored linear model
-/

namespace Verif.Props
open Verif.Py Verif.Model ProbabilityTheory MeasureTheory Set Filter Topology
open scoped ENNReal

/-! ## Kept observations of a sample -/

theorem keptObs_mem (noise sat : Option ℝ) (obs : List (ℝ × ℝ)) (o : ℝ × ℝ) :
    o ∈ keptObs id noise sat obs ↔ o ∈ obs ∧ o.2 ∈ keptSig noise sat := by
  simp only [keptObs, id_eq, Prod.mk.eta, List.map_id', List.mem_filter, decide_eq_true_eq, keptSig, mem_setOf_eq]

open Classical in
theorem keptObs_sum (noise sat : Option ℝ) (z : ℕ → ℝ × ℝ) (f : ℝ × ℝ → ℝ) (N : ℕ) :
    ((keptObs id noise sat ((List.range N).map z)).map f).sum
      = ∑ i ∈ Finset.range N, if (z i).2 ∈ keptSig noise sat then f (z i) else 0 := by
  induction N with
  | zero => simp [keptObs]
  | succ N ih =>
    rw [Finset.sum_range_succ, ← ih, List.range_succ, List.map_append]
    have : keptObs id noise sat ((List.range N).map z ++ [N].map z)
        = keptObs id noise sat ((List.range N).map z) ++ keptObs id noise sat [z N] := by
      simp [keptObs]
    rw [this, List.map_append, List.sum_append]
    congr 1
    by_cases h : (z N).2 ∈ keptSig noise sat
    · rw [if_pos h]
      have h' : (∀ t ∈ noise, t < (z N).2) ∧ ∀ t ∈ sat, (z N).2 < t := h
      have : keptObs id noise sat [z N] = [z N] := by
        simp only [keptObs, id_eq, Prod.mk.eta, List.map_id']
        rw [List.filter_cons, if_pos (decide_eq_true h'), List.filter_nil]
      rw [this]; simp
    · rw [if_neg h]
      have h' : ¬ ((∀ t ∈ noise, t < (z N).2) ∧ ∀ t ∈ sat, (z N).2 < t) := h
      have : keptObs id noise sat [z N] = [] := by
        rw [List.eq_nil_iff_forall_not_mem]
        intro o ho
        rw [keptObs_mem, List.mem_singleton] at ho
        exact h (ho.1 ▸ ho.2)
      rw [this]; simp

/-- Four kept observations, small and large, low and high: enough for the censored fit. -/
theorem four_points (noise sat : Option ℝ) (obs : List (ℝ × ℝ)) (m c l h : ℝ) (hk : Ioo l h ⊆ keptSig noise sat)
    (p1 p2 p3 p4 : ℝ × ℝ) (h1 : p1 ∈ obs) (h2 : p2 ∈ obs) (h3 : p3 ∈ obs) (h4 : p4 ∈ obs)
    (a1 : p1.1 ∈ Iio m) (a2 : p2.1 ∈ Iio m) (a3 : p3.1 ∈ Ioi m) (a4 : p4.1 ∈ Ioi m)
    (c1 : p1.2 ∈ Ioo l c) (c2 : p2.2 ∈ Ioo c h) (c3 : p3.2 ∈ Ioo l c) (c4 : p4.2 ∈ Ioo c h) :
    (∃ o ∈ keptObs id noise sat obs, ∃ o' ∈ keptObs id noise sat obs, o.1 ≠ o'.1) ∧
    (¬ ∃ b0 b1 : ℝ, ∀ o ∈ keptObs id noise sat obs, o.2 = b0 + b1 * o.1) ∧ 3 ≤ (keptObs id noise sat obs).length := by
  have hlc : l < c := c1.1.trans c1.2
  have hch : c < h := c2.1.trans c2.2
  have low : ∀ p : ℝ × ℝ, p.2 ∈ Ioo l c → p.2 ∈ keptSig noise sat := fun p hp => hk ⟨hp.1, hp.2.trans hch⟩
  have high : ∀ p : ℝ × ℝ, p.2 ∈ Ioo c h → p.2 ∈ keptSig noise sat := fun p hp => hk ⟨hlc.trans hp.1, hp.2⟩
  have k1 := (keptObs_mem noise sat obs p1).2 ⟨h1, low p1 c1⟩
  have k2 := (keptObs_mem noise sat obs p2).2 ⟨h2, high p2 c2⟩
  have k3 := (keptObs_mem noise sat obs p3).2 ⟨h3, low p3 c3⟩
  have k4 := (keptObs_mem noise sat obs p4).2 ⟨h4, high p4 c4⟩
  have a1 : p1.1 < m := a1
  have a2 : p2.1 < m := a2
  have a3 : m < p3.1 := a3
  have a4 : m < p4.1 := a4
  refine ⟨⟨p1, k1, p3, k3, by intro h; linarith⟩, ?_, ?_⟩
  · rintro ⟨b0, b1, hl⟩
    have e1 := hl p1 k1
    have e2 := hl p2 k2
    have e3 := hl p3 k3
    have e4 := hl p4 k4
    rcases le_total 0 b1 with hb | hb
    · have : b1 * p2.1 ≤ b1 * p3.1 := mul_le_mul_of_nonneg_left (by linarith) hb
      linarith [c2.1, c3.2]
    · have : b1 * p4.1 ≤ b1 * p1.1 := mul_le_mul_of_nonpos_left (by linarith) hb
      linarith [c1.2, c4.1]
  · have hnd : [p1, p2, p3].Nodup := by
      have n12 : p1 ≠ p2 := by intro h; have := c1.2; have := c2.1; rw [h] at *; linarith
      have n13 : p1 ≠ p3 := by intro h; rw [h] at a1; linarith
      have n23 : p2 ≠ p3 := by intro h; rw [h] at a2; linarith
      simp [n12, n13, n23]
    have hsub : [p1, p2, p3] ⊆ keptObs id noise sat obs := by
      intro p hp
      simp only [List.mem_cons, List.not_mem_nil, or_false] at hp
      rcases hp with rfl | rfl | rfl
      · exact k1
      · exact k2
      · exact k3
    exact (List.subperm_of_subset hnd hsub).length_le

/-- Leverage of a size for the kept observations, in terms of sums over the kept observations. -/
theorem kept_leverage (L : List (ℝ × ℝ)) (hx : ∃ o ∈ L, ∃ o' ∈ L, o.1 ≠ o'.1) (t a : ℝ) :
    predictionVariance (fun i : Fin L.length => (L.get i).1) t a
      = t ^ 2 * (1 + (1 / (L.map fun _ => (1 : ℝ)).sum
        + (a - (L.map Prod.fst).sum / (L.map fun _ => (1 : ℝ)).sum) ^ 2
          / ((L.map fun o => o.1 ^ 2).sum - (L.map Prod.fst).sum ^ 2 / (L.map fun _ => (1 : ℝ)).sum))) := by
  have hx' : ∃ i j, (fun i : Fin L.length => (L.get i).1) i ≠ (fun i : Fin L.length => (L.get i).1) j := by
    obtain ⟨o, h1, o', h2, h3⟩ := hx
    obtain ⟨i, hi, rfl⟩ := List.getElem_of_mem h1
    obtain ⟨j, hj, rfl⟩ := List.getElem_of_mem h2
    exact ⟨⟨i, hi⟩, ⟨j, hj⟩, h3⟩
  have hn : 0 < L.length := by
    obtain ⟨o, ho, -⟩ := hx
    exact List.length_pos_of_mem ho
  have hn' : (L.length : ℝ) ≠ 0 := by exact_mod_cast hn.ne'
  have hc : (L.map fun _ => (1 : ℝ)).sum = L.length := by simp
  have h1 : (L.map Prod.fst).sum = ∑ i : Fin L.length, (L.get i).1 := list_sum_fin _ _
  have h2 : (L.map fun o => o.1 ^ 2).sum = ∑ i : Fin L.length, (L.get i).1 ^ 2 := list_sum_fin L fun o => o.1 ^ 2
  rw [predictionVariance_eq _ _ _ hx', hc, h1, h2]
  have hss := centred_cross (fun i : Fin L.length => (L.get i).1) (fun i : Fin L.length => (L.get i).1) hn
  simp only [← sq] at hss
  rw [hss, smean]
  congr 4
  field_simp

section
variable {Ω : Type} [MeasurableSpace Ω] {Q : Measure Ω} [IsProbabilityMeasure Q] {ν : Measure ℝ} [IsProbabilityMeasure ν]

/-- An event of positive probability happens in a long enough sample. -/
theorem event_hit {Z : Type} [MeasurableSpace Z] {P : Measure Z} [IsProbabilityMeasure P] (z : ℕ → Ω → Z) (hz : ∀ i, Measurable (z i))
    (hlaw : ∀ i, Q.map (z i) = P) (hind : iIndepFun z Q) (A : Set Z) (hA : MeasurableSet A) (hpos : 0 < P.real A) :
    ∀ᵐ ω ∂Q, ∀ᶠ N : ℕ in atTop, ∃ i < N, z i ω ∈ A := by
  have h := avg_strong hz hlaw hind (f := A.indicator fun _ => (1 : ℝ)) (measurable_const.indicator hA) ((integrable_const 1).indicator hA)
  rw [integral_indicator hA, setIntegral_const, smul_eq_mul, mul_one] at h
  filter_upwards [h] with ω hω
  filter_upwards [hω.eventually (eventually_gt_nhds hpos)] with N hN
  by_contra hcon
  push Not at hcon
  have : ∑ i ∈ Finset.range N, A.indicator (fun _ => (1 : ℝ)) (z i ω) = 0 :=
    Finset.sum_eq_zero fun i hi => indicator_of_notMem (hcon i (Finset.mem_range.1 hi)) _
  rw [avg, this, zero_div] at hN
  exact lt_irrefl _ hN

/-- The sample of sizes and signals. -/
def sampleObs (b0 b1 : ℝ) (x e : ℕ → Ω → ℝ) (ω : Ω) (N : ℕ) : List (ℝ × ℝ) :=
  (List.range N).map fun i => (x i ω, b0 + b1 * x i ω + e i ω)

/-- A long enough sample meets the conditions of the censored fit. -/
theorem sample_good (x e : ℕ → Ω → ℝ) (hx : ∀ i, Measurable (x i)) (he : ∀ i, Measurable (e i)) (s : ℝ) (hs : 0 < s)
    (hlaw : ∀ i, Q.map (fun ω => (x i ω, e i ω)) = ν.prod (gaussianReal 0 (sqv s))) (hind : iIndepFun (fun i ω => (x i ω, e i ω)) Q)
    (hν : MemLp (fun t : ℝ => t) 2 ν) (hv : 0 < Var[fun t : ℝ => t; ν]) (b0 b1 : ℝ) (noise sat : Option ℝ)
    (hts : ∀ t ∈ noise, ∀ u ∈ sat, t < u) :
    ∀ᵐ ω ∂Q, ∀ᶠ N in atTop,
      (∃ o ∈ keptObs id noise sat (sampleObs b0 b1 x e ω N), ∃ o' ∈ keptObs id noise sat (sampleObs b0 b1 x e ω N), o.1 ≠ o'.1) ∧
      (¬ ∃ c0 c1 : ℝ, ∀ o ∈ keptObs id noise sat (sampleObs b0 b1 x e ω N), o.2 = c0 + c1 * o.1) ∧
      3 ≤ (keptObs id noise sat (sampleObs b0 b1 x e ω N)).length := by
  obtain ⟨l, h, hlh, hk⟩ := keptSig_interval noise sat hts
  obtain ⟨hlo, hhi⟩ := mean_sides hν hv
  set m := ∫ t, t ∂ν
  set c := (l + h) / 2 with hc
  have hlc : l < c := by rw [hc]; linarith
  have hch : c < h := by rw [hc]; linarith
  have hz : ∀ i, Measurable fun ω => (x i ω, e i ω) := fun i => (hx i).prodMk (he i)
  have hit : ∀ (S : Set ℝ), MeasurableSet S → 0 < ν S → ∀ l h : ℝ, l < h → ∀ᵐ ω ∂Q, ∀ᶠ N : ℕ in atTop,
      ∃ p ∈ sampleObs b0 b1 x e ω N, p.1 ∈ S ∧ p.2 ∈ Ioo l h := by
    intro S hS hpos l h hlh
    have hA : MeasurableSet {w : ℝ × ℝ | w.1 ∈ S ∧ (sigObs b0 b1 w).2 ∈ Ioo l h} :=
      (hS.preimage measurable_fst).inter (measurableSet_Ioo.preimage (measurable_snd.comp (sigObs_meas b0 b1)))
    filter_upwards [event_hit (fun i ω => (x i ω, e i ω)) hz hlaw hind _ hA (cell_pos b0 b1 s hs S hS hpos l h hlh)] with ω hω
    filter_upwards [hω] with N ⟨i, hi, h1, h2⟩
    exact ⟨_, List.mem_map.2 ⟨i, List.mem_range.2 hi, rfl⟩, h1, h2⟩
  filter_upwards [hit _ measurableSet_Iio hlo l c hlc, hit _ measurableSet_Iio hlo c h hch, hit _ measurableSet_Ioi hhi l c hlc,
    hit _ measurableSet_Ioi hhi c h hch] with ω w1 w2 w3 w4
  filter_upwards [w1, w2, w3, w4] with N ⟨p1, m1, a1, c1⟩ ⟨p2, m2, a2, c2⟩ ⟨p3, m3, a3, c3⟩ ⟨p4, m4, a4, c4⟩
  exact four_points noise sat _ m c l h hk p1 p2 p3 p4 m1 m2 m3 m4 a1 a2 a3 a4 c1 c2 c3 c4

/-- Parameters of maximal likelihood converge to the truth. -/
theorem maxLik_close (x e : ℕ → Ω → ℝ) (hx : ∀ i, Measurable (x i)) (he : ∀ i, Measurable (e i)) (s : ℝ) (hs : 0 < s)
    (hlaw : ∀ i, Q.map (fun ω => (x i ω, e i ω)) = ν.prod (gaussianReal 0 (sqv s))) (hind : iIndepFun (fun i ω => (x i ω, e i ω)) Q)
    (hν : MemLp (fun t : ℝ => t) 2 ν) (hv : 0 < Var[fun t : ℝ => t; ν]) (b0 b1 : ℝ) (noise sat : Option ℝ)
    (hts : ∀ t ∈ noise, ∀ u ∈ sat, t < u) :
    ∀ᵐ ω ∂Q, ∀ ε > 0, ∀ᶠ N in atTop, ∀ fit : LineFit, MaxLik id noise sat (sampleObs b0 b1 x e ω N) fit →
      dist (fit.intercept, fit.slope, fit.stderr) (b0, b1, s) < ε := by
  have hz : ∀ i, Measurable fun ω => (x i ω, e i ω) := fun i => (hx i).prodMk (he i)
  have hD : IsOpen {W : ℝ × ℝ × ℝ | 0 < W.2.2} := isOpen_lt continuous_const (by fun_prop)
  have key := convex_argmin_ae (Q := Q) (fun i ω => (x i ω, e i ω)) hz hlaw hind {W : ℝ × ℝ × ℝ | 0 < W.2.2} hD
    (fun W w => cLoss noise sat W (sigObs b0 b1 w)) (fun w => cLoss_convex noise sat (sigObs b0 b1 w))
    (fun W _ => (cLoss_measurable noise sat W).comp (sigObs_meas b0 b1)) (fun W _ => sigObs_integrable noise sat b0 b1 s hν W)
    (olsen (b0, b1, s)) (olsen_pos (b0, b1, s) hs) (fun W hW hne => pop_unique noise sat hts b0 b1 s hs hν hv W hW hne)
  filter_upwards [key] with ω hω ε hε
  have hcont := olsen_continuousAt (olsen (b0, b1, s)) (olsen_pos (b0, b1, s) hs)
  rw [Metric.continuousAt_iff] at hcont
  obtain ⟨δ, hδ, hclose⟩ := hcont ε hε
  rw [olsen_olsen (b0, b1, s) hs] at hclose
  filter_upwards [hω δ hδ] with N hN fit ⟨hpos, hmax⟩
  have hp : 0 < ((fit.intercept, fit.slope, fit.stderr) : ℝ × ℝ × ℝ).2.2 := hpos
  have hsum : ∀ X : ℝ × ℝ × ℝ, 0 < X.2.2 → ∑ i ∈ Finset.range N, cLoss noise sat (olsen X) (sigObs b0 b1 (x i ω, e i ω))
      = -Real.log (dataLik id noise sat (sampleObs b0 b1 x e ω N) X) := by
    intro X hX
    rw [← (cLoss_dataLik noise sat X hX _).2, sampleObs, List.map_map, Finset.sum_range, ← List.sum_ofFn, List.ofFn_eq_map]
    rw [← List.map_coe_finRange_eq_range, List.map_map]
    rfl
  have hle := hN (olsen (fit.intercept, fit.slope, fit.stderr)) (olsen_pos _ hp) (by
    show ∑ i ∈ Finset.range N, cLoss noise sat _ (sigObs b0 b1 (x i ω, e i ω)) ≤ ∑ i ∈ Finset.range N, cLoss noise sat _ (sigObs b0 b1 (x i ω, e i ω))
    rw [hsum _ hp, hsum _ hs]
    have h1 := (cLoss_dataLik noise sat (b0, b1, s) hs (sampleObs b0 b1 x e ω N)).1
    have := Real.log_le_log h1 (hmax b0 b1 s hs)
    linarith)
  have := hclose hle
  rwa [olsen_olsen _ hp] at this

/-- The leverage of a size for the kept observations vanishes. -/
theorem kept_leverage_limit (x e : ℕ → Ω → ℝ) (hx : ∀ i, Measurable (x i)) (he : ∀ i, Measurable (e i)) (s : ℝ) (hs : 0 < s)
    (hlaw : ∀ i, Q.map (fun ω => (x i ω, e i ω)) = ν.prod (gaussianReal 0 (sqv s))) (hind : iIndepFun (fun i ω => (x i ω, e i ω)) Q)
    (hν : MemLp (fun t : ℝ => t) 2 ν) (hv : 0 < Var[fun t : ℝ => t; ν]) (b0 b1 : ℝ) (noise sat : Option ℝ)
    (hts : ∀ t ∈ noise, ∀ u ∈ sat, t < u) :
    ∀ᵐ ω ∂Q, ∀ a, ∀ ε > 0, ∀ᶠ N in atTop, ∃ h, |h| < ε ∧ ∀ t, predictionVariance (fun i : Fin (keptObs id noise sat
      (sampleObs b0 b1 x e ω N)).length => ((keptObs id noise sat (sampleObs b0 b1 x e ω N)).get i).1) t a = t ^ 2 * (1 + h) := by
  classical
  have hz : ∀ i, Measurable fun ω => (x i ω, e i ω) := fun i => (hx i).prodMk (he i)
  set P := ν.prod (gaussianReal 0 (sqv s)) with hP
  set K : Set (ℝ × ℝ) := {w | (sigObs b0 b1 w).2 ∈ keptSig noise sat} with hK
  have hKm : MeasurableSet K := (keptSig_meas noise sat).preimage (measurable_snd.comp (sigObs_meas b0 b1))
  have hx2 := size_memLp (ν := ν) s hν
  have i1 : Integrable (Prod.fst : ℝ × ℝ → ℝ) P := hx2.integrable (by norm_num)
  have i2 : Integrable (fun w : ℝ × ℝ => w.1 ^ 2) P := hx2.integrable_sq
  have s0 := avg_strong hz hlaw hind (f := K.indicator fun _ => (1 : ℝ)) (measurable_const.indicator hKm) ((integrable_const 1).indicator hKm)
  have s1 := avg_strong hz hlaw hind (f := K.indicator fun w => w.1) (measurable_fst.indicator hKm) (i1.indicator hKm)
  have s2 := avg_strong hz hlaw hind (f := K.indicator fun w => w.1 ^ 2) ((measurable_fst.pow_const 2).indicator hKm) (i2.indicator hKm)
  rw [integral_indicator hKm, setIntegral_const, smul_eq_mul, mul_one] at s0
  rw [integral_indicator hKm] at s1 s2
  set π := P.real K with hπ
  set m1 := ∫ w in K, w.1 ∂P with hm1
  set m2 := ∫ w in K, w.1 ^ 2 ∂P with hm2
  obtain ⟨l, h, hlh, hk⟩ := keptSig_interval noise sat hts
  have hcell : ∀ S : Set ℝ, MeasurableSet S → 0 < ν S → 0 < P.real (K ∩ {w | w.1 ∈ S}) := by
    intro S hS hpos
    refine lt_of_lt_of_le (cell_pos b0 b1 s hs S hS hpos l h hlh) (measureReal_mono (fun w hw => ⟨hk hw.2, hw.1⟩) (measure_ne_top _ _))
  have hπ0 : 0 < π := by
    have := hcell univ MeasurableSet.univ (by simp)
    simpa using this
  have hvar : 0 < m2 - m1 ^ 2 / π := by
    set c := m1 / π with hc
    have hsq : Integrable (fun w : ℝ × ℝ => (w.1 - c) ^ 2) P := by
      have : MemLp (fun w : ℝ × ℝ => w.1 - c) 2 P := MemLp.sub hx2 (memLp_const c)
      exact this.integrable_sq
    have e1 : ∫ w in K, (w.1 - c) ^ 2 ∂P = m2 - m1 ^ 2 / π := by
      have hexp : ∀ w : ℝ × ℝ, (w.1 - c) ^ 2 = w.1 ^ 2 - 2 * c * w.1 + c ^ 2 := fun w => by ring
      simp only [hexp]
      have j1 : Integrable (fun w : ℝ × ℝ => 2 * c * w.1) (P.restrict K) := (i1.const_mul (2 * c)).restrict
      have j2 : Integrable (fun w : ℝ × ℝ => w.1 ^ 2) (P.restrict K) := i2.restrict
      have j3 : Integrable (fun w : ℝ × ℝ => w.1 ^ 2 - 2 * c * w.1) (P.restrict K) := j2.sub j1
      rw [integral_add j3 (integrable_const _), integral_sub j2 j1, integral_const_mul, setIntegral_const, smul_eq_mul, ← hm1, ← hm2, ← hπ, hc]
      field_simp
      ring
    rw [← e1, setIntegral_pos_iff_support_of_nonneg_ae (Eventually.of_forall fun w => sq_nonneg _) hsq.restrict]
    have hS : 0 < ν {t | (0 : ℝ) + 1 * t ≠ c + 0 * t} := lines_differ hν hv 0 1 c 0 (by rintro ⟨-, h⟩; norm_num at h)
    have hSm : MeasurableSet {t : ℝ | (0 : ℝ) + 1 * t ≠ c + 0 * t} := (measurableSet_eq_fun (by fun_prop) (by fun_prop)).compl
    have := hcell _ hSm hS
    rw [measureReal_def, ENNReal.toReal_pos_iff] at this
    refine lt_of_lt_of_le this.1 (measure_mono fun w hw => ⟨?_, hw.1⟩)
    have hne : (0 : ℝ) + 1 * w.1 ≠ c + 0 * w.1 := hw.2
    rw [Function.mem_support]
    intro h0
    have := pow_eq_zero_iff (two_ne_zero) |>.1 h0
    apply hne; linarith
  filter_upwards [s0, s1, s2, sample_good x e hx he s hs hlaw hind hν hv b0 b1 noise sat hts] with ω t0 t1 t2 hgood a ε hε
  have hinv : Tendsto (fun N : ℕ => 1 / (N : ℝ)) atTop (𝓝 0) := tendsto_one_div_atTop_nhds_zero_nat
  have hlim := hinv.mul ((tendsto_const_nhds (x := (1 : ℝ)).div t0 hπ0.ne').add
    ((((tendsto_const_nhds (x := a)).sub (t1.div t0 hπ0.ne')).pow 2).div (t2.sub ((t1.pow 2).div t0 hπ0.ne')) hvar.ne'))
  rw [zero_mul] at hlim
  have hsmall := hlim.eventually (Metric.ball_mem_nhds 0 hε)
  filter_upwards [hsmall, hgood, eventually_gt_atTop 0] with N hN ⟨hg, _, _⟩ hN0
  have hN' : (N : ℝ) ≠ 0 := by exact_mod_cast hN0.ne'
  have hsum : ∀ f : ℝ × ℝ → ℝ, ((keptObs id noise sat (sampleObs b0 b1 x e ω N)).map f).sum
      = ∑ i ∈ Finset.range N, K.indicator (fun w => f (sigObs b0 b1 w)) (x i ω, e i ω) := by
    intro f
    rw [sampleObs, keptObs_sum noise sat (fun i => (x i ω, b0 + b1 * x i ω + e i ω)) f N]
    refine Finset.sum_congr rfl fun i _ => ?_
    rw [indicator_apply]
    rfl
  refine ⟨_, ?_, fun t => kept_leverage _ hg t a⟩
  rw [hsum, hsum, hsum]
  have hN2 := hN
  rw [Real.dist_eq, sub_zero] at hN2
  refine lt_of_eq_of_lt ?_ hN2
  congr 1
  simp only [avg, Pi.div_apply, sigObs]
  field_simp

theorem PhiC_continuous : Continuous PhiC := by
  have : PhiC = fun t => 1 - Phi t := by ext t; exact PhiC_eq t
  rw [this]; exact continuous_const.sub Phi_continuous

/-- The Gaussian POD as a function of the parameters and of the leverage is continuous at the truth. -/
theorem gaussForm_close (b0 b1 s det a : ℝ) (hs : 0 < s) (ε : ℝ) (hε : 0 < ε) :
    ∃ δ > 0, ∀ u v t h : ℝ, dist (u, v, t) (b0, b1, s) < δ → |h| < δ →
      |PhiC ((det - (u + v * a)) / Real.sqrt (t ^ 2 * (1 + h))) - PhiC ((det - (b0 + b1 * a)) / s)| < ε := by
  set G : (ℝ × ℝ × ℝ) × ℝ → ℝ := fun q => PhiC ((det - (q.1.1 + q.1.2.1 * a)) / Real.sqrt (q.1.2.2 ^ 2 * (1 + q.2))) with hG
  have hden : Real.sqrt (s ^ 2 * (1 + 0)) = s := by rw [add_zero, mul_one, Real.sqrt_sq hs.le]
  have hcont : ContinuousAt G ((b0, b1, s), 0) := by
    refine PhiC_continuous.continuousAt.comp ?_
    refine ContinuousAt.div (by fun_prop) (Continuous.continuousAt (by fun_prop)) ?_
    show Real.sqrt (s ^ 2 * (1 + 0)) ≠ 0
    rw [hden]; exact hs.ne'
  rw [Metric.continuousAt_iff] at hcont
  obtain ⟨δ, hδ, h⟩ := hcont ε hε
  refine ⟨δ, hδ, fun u v t k h1 h2 => ?_⟩
  have := h (x := ((u, v, t), k)) (by
    rw [Prod.dist_eq]
    exact max_lt h1 (by rw [Real.dist_eq, sub_zero]; exact h2))
  rw [Real.dist_eq] at this
  have e : G ((b0, b1, s), 0) = PhiC ((det - (b0 + b1 * a)) / s) := by
    show PhiC ((det - (b0 + b1 * a)) / Real.sqrt (s ^ 2 * (1 + 0))) = _
    rw [hden]
  rw [e] at this
  exact this

/-- **C168.**  Observations are independent, the sizes square integrable and not almost surely constant, the signals a line plus an independent centred
Gaussian error; signals not above the noise threshold or not below the saturation threshold are censored.  With probability one, from some number of
observations on: every run with censoring succeeds, whatever the exact optimiser and the random starting points, its intercept, slope and standard
error are within any given tolerance of the truth, and so is its Gaussian POD of the probability that the signal exceeds the detection threshold. -/
theorem C168_consistency (x e : ℕ → Ω → ℝ) (hx : ∀ i, Measurable (x i)) (he : ∀ i, Measurable (e i)) (s : ℝ) (hs : 0 < s)
    (hlaw : ∀ i, Q.map (fun ω => (x i ω, e i ω)) = ν.prod (gaussianReal 0 (sqv s))) (hind : iIndepFun (fun i ω => (x i ω, e i ω)) Q)
    (hν : MemLp (fun t : ℝ => t) 2 ν) (hv : 0 < Var[fun t : ℝ => t; ν]) (b0 b1 : ℝ) (noise sat : Option ℝ)
    (hts : ∀ t ∈ noise, ∀ u ∈ sat, t < u) :
    ∀ᵐ ω ∂Q, ∀ ε > 0, ∀ det a, ∀ᶠ N in atTop, ∀ fmax, (∀ i < N, |b0 + b1 * x i ω + e i ω| < fmax) →
      ∀ env, ExactFit env → ∀ draws, ∃ r,
        computeLinearModel fmax env draws ((List.range N).map fun i => (x i ω, b0 + b1 * x i ω + e i ω)) det noise sat false true = .ok r ∧
        |r.fit.intercept - b0| < ε ∧ |r.fit.slope - b1| < ε ∧ |r.fit.stderr - s| < ε ∧
        |runGaussPod r a - (gaussianReal (b0 + b1 * a) (sqv s)).real (Ioi det)| < ε := by
  filter_upwards [sample_good x e hx he s hs hlaw hind hν hv b0 b1 noise sat hts,
    maxLik_close x e hx he s hs hlaw hind hν hv b0 b1 noise sat hts,
    kept_leverage_limit x e hx he s hs hlaw hind hν hv b0 b1 noise sat hts] with ω hgood hmax hlev ε hε det a
  obtain ⟨δ, hδ, hform⟩ := gaussForm_close b0 b1 s det a hs ε hε
  filter_upwards [hgood, hmax (min δ ε) (lt_min hδ hε), hlev a δ hδ] with N ⟨hx', hline, hn⟩ hM ⟨h, hh, hpv⟩ fmax hfm env henv draws
  have hfin : ∀ o ∈ sampleObs b0 b1 x e ω N, -fmax < o.2 ∧ o.2 < fmax := by
    intro o ho
    obtain ⟨i, hi, rfl⟩ := List.mem_map.1 ho
    exact abs_lt.1 (hfm i (List.mem_range.1 hi))
  obtain ⟨r, hr⟩ := C120_succeeds fmax env henv draws (sampleObs b0 b1 x e ω N) det noise sat hfin hx' hline hn
  refine ⟨r, hr, ?_⟩
  obtain ⟨g, hg, hd, ho, -, hml⟩ := C120_pod fmax env henv draws (sampleObs b0 b1 x e ω N) det noise sat false hfin hts r hr
  obtain ⟨-, rfl⟩ := hg.1 rfl
  rw [ho] at hml
  have hdist := hM r.fit (hml hx' hline)
  obtain ⟨d1, d2⟩ := lt_min_iff.1 hdist
  rw [Prod.dist_eq, Prod.dist_eq, max_lt_iff, max_lt_iff, Real.dist_eq, Real.dist_eq, Real.dist_eq] at d2
  refine ⟨d2.1, d2.2.1, d2.2.2, ?_⟩
  rw [gauss_Ioi hs, ← PhiC_eq]
  have hpod : runGaussPod r a = PhiC ((det - (r.fit.intercept + r.fit.slope * a)) / Real.sqrt (r.fit.stderr ^ 2 * (1 + h))) := by
    rw [runGaussPod, podGauss, ho, hpv, hd]
    rfl
  rw [hpod]
  exact hform _ _ _ _ d1 hh

end

/-- Instance: standard normal sizes and errors, line `1 + 2 a`, noise threshold 0 and saturation threshold 4; the truth at size 1 and threshold 3 is 1/2. -/
example : ∀ᵐ ω ∂(Measure.infinitePi fun _ : ℕ => (gaussianReal 0 1).prod (gaussianReal 0 1)), ∀ ε > 0, ∀ᶠ N in atTop, ∀ fmax,
    (∀ i < N, |1 + 2 * (ω i).1 + (ω i).2| < fmax) → ∀ env, ExactFit env → ∀ draws, ∃ r,
      computeLinearModel fmax env draws ((List.range N).map fun i => ((ω i).1, 1 + 2 * (ω i).1 + (ω i).2)) 3 (some 0) (some 4) false true = .ok r ∧
      |r.fit.slope - 2| < ε ∧ |runGaussPod r 1 - 1 / 2| < ε := by
  have e1 : sqv 1 = 1 := by simp [sqv]
  have hgs : (gaussianReal (1 + 2 * 1) (sqv 1)).real (Ioi 3) = 1 / 2 := by
    rw [gauss_Ioi one_pos, show ((3 : ℝ) - (1 + 2 * 1)) / 1 = 0 by norm_num, Phi_zero]; norm_num
  have h := C168_consistency (Q := Measure.infinitePi fun _ : ℕ => (gaussianReal 0 1).prod (gaussianReal 0 1)) (ν := gaussianReal 0 1)
    (fun i ω => (ω i).1) (fun i ω => (ω i).2)
    (fun i => measurable_fst.comp (measurable_pi_apply i)) (fun i => measurable_snd.comp (measurable_pi_apply i)) 1 one_pos
    (fun i => by rw [e1]; exact (measurePreserving_eval_infinitePi (fun _ : ℕ => (gaussianReal 0 1).prod (gaussianReal 0 1)) i).map_eq)
    (iIndepFun_infinitePi (P := fun _ : ℕ => (gaussianReal 0 1).prod (gaussianReal 0 1)) (X := fun _ x => x) (fun _ => measurable_id))
    (memLp_id_gaussianReal 2) (by rw [variance_fun_id_gaussianReal]; norm_num) 1 2 (some 0) (some 4)
    (by intro t ht u hu; rw [Option.mem_def, Option.some.injEq] at ht hu; rw [← ht, ← hu]; norm_num)
  filter_upwards [h] with ω hω ε hε
  filter_upwards [hω ε hε 3 1] with N hN fmax hf env henv draws
  obtain ⟨r, h1, -, h3, -, h5⟩ := hN fmax hf env henv draws
  rw [hgs] at h5
  exact ⟨r, h1, h3, h5⟩

end Verif.Props
