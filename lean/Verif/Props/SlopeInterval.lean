import Verif.Props.TruncCov
import Verif.Props.CoefInterval

/-!
# C185: the interval of the slope with thresholds
-/

namespace Verif.Props
open Verif.Model Verif.Py MeasureTheory ProbabilityTheory Filter Set Topology

/-- The interval of the slope is on one side of the true slope when the empirical covariance of sizes and errors is large. -/
theorem interval_misses {n : ℕ} (q : ℕ → ℝ → ℝ) (x e : Fin n → ℝ) (b0 b1 : ℝ) (hn : 3 ≤ n) (hx : ∃ i j, x i ≠ x j) {A : ℝ} (hA : 0 < A)
    (hq : q (n - 2) (1 - 5 / 100 / 2) ≤ A) (σ : ℝ) (hσ : σ = 1 ∨ σ = -1)
    (hc : A * Real.sqrt ((∑ i, e i ^ 2) / (n - 2) * ∑ i, x i ^ 2) < σ * ∑ i, (x i - smean x) * (e i - smean e)) :
    (σ = 1 → b1 < (analysisConfInt q x fun i => b0 + b1 * x i + e i).2.1) ∧
    (σ = -1 → (analysisConfInt q x fun i => b0 + b1 * x i + e i).2.2 < b1) := by
  have hn3 : (3 : ℝ) ≤ n := by exact_mod_cast hn
  have hS : 0 < ∑ i, (x i - smean x) ^ 2 := sxx_pos x hx
  set S := ∑ i, (x i - smean x) ^ 2 with hSd
  set C := ∑ i, (x i - smean x) * (e i - smean e) with hC
  have hSx : S ≤ ∑ i, x i ^ 2 := by
    have hs : ∑ i, x i = n * smean x := by rw [smean]; field_simp
    have e1 : S = ∑ i, x i ^ 2 - n * smean x ^ 2 := by
      have : ∀ i, (x i - smean x) ^ 2 = x i ^ 2 - 2 * smean x * x i + smean x ^ 2 := fun i => by ring
      simp only [hSd, this, Finset.sum_add_distrib, Finset.sum_sub_distrib, ← Finset.mul_sum, hs, Finset.sum_const, Finset.card_univ, Fintype.card_fin,
        nsmul_eq_mul]
      ring
    rw [e1]
    nlinarith [sq_nonneg (smean x)]
  have hR : ∑ i, olsResiduals x (fun i => b0 + b1 * x i + e i) i ^ 2 ≤ ∑ i, e i ^ 2 := by
    have h := (C27_ols_optimal x (fun i => b0 + b1 * x i + e i) hx).1 b0 b1
    simp only [sse] at h
    refine le_trans (le_of_eq ?_) (h.trans (le_of_eq ?_))
    · exact Finset.sum_congr rfl fun i _ => by rw [olsResiduals]
    · exact Finset.sum_congr rfl fun i _ => by ring
  have hse : linearStderr x (fun i => b0 + b1 * x i + e i) ≤ Real.sqrt ((∑ i, e i ^ 2) / (n - 2)) := by
    rw [linearStderr, linearScale]
    exact Real.sqrt_le_sqrt (div_le_div_of_nonneg_right hR (by linarith))
  have hsq : Real.sqrt S * Real.sqrt S = S := Real.mul_self_sqrt hS.le
  have hsp : 0 < Real.sqrt S := Real.sqrt_pos.2 hS
  have hE0 : 0 ≤ (∑ i, e i ^ 2) / ((n : ℝ) - 2) := div_nonneg (Finset.sum_nonneg fun i _ => sq_nonneg _) (by linarith)
  have hhalf : q (n - 2) (1 - 5 / 100 / 2) * (linearStderr x (fun i => b0 + b1 * x i + e i) * Real.sqrt (1 / S)) < σ * (C / S) := by
    have h1 : Real.sqrt (1 / S) = Real.sqrt S / S := by
      rw [Real.sqrt_div zero_le_one, Real.sqrt_one, div_eq_div_iff hsp.ne' hS.ne', one_mul, hsq]
    rw [h1, ← mul_div_assoc, ← mul_div_assoc, ← mul_div_assoc]
    refine div_lt_div_of_pos_right (lt_of_le_of_lt ?_ hc) hS
    have h2 : linearStderr x (fun i => b0 + b1 * x i + e i) * Real.sqrt S ≤ Real.sqrt ((∑ i, e i ^ 2) / (n - 2) * ∑ i, x i ^ 2) := by
      rw [Real.sqrt_mul hE0]
      exact mul_le_mul hse (Real.sqrt_le_sqrt hSx) (Real.sqrt_nonneg _) (Real.sqrt_nonneg _)
    exact mul_le_mul hq h2 (mul_nonneg (Real.sqrt_nonneg _) (Real.sqrt_nonneg _)) hA.le
  have hsl := slope_error x e b0 b1 (by omega) hS.ne'
  rw [← hC, ← hSd] at hsl
  simp only [analysisConfInt, confIntSlope, hsl, ← hSd]
  constructor
  · rintro rfl
    rw [one_mul] at hhalf
    linarith
  · rintro rfl
    linarith

theorem fitConfInt_eq (q : ℕ → ℝ → ℝ) (L : List (ℝ × ℝ)) (n : ℕ) (h : L.length = n) :
    fitConfInt q L = analysisConfInt q (fun i : Fin n => (L.get (i.cast h.symm)).1) (fun i => (L.get (i.cast h.symm)).2) := by
  subst h; rfl

theorem fitConfInt_ofFn (q : ℕ → ℝ → ℝ) {n : ℕ} (x y : Fin n → ℝ) : fitConfInt q (List.ofFn fun i => (x i, y i)) = analysisConfInt q x y := by
  rw [fitConfInt_eq q _ n (by simp)]
  simp

/-- A run of the analysis with thresholds, without Box-Cox, keeps the observations between the thresholds. -/
theorem confIntRun_ok (q : ℕ → ℝ → ℝ) (fmax : ℝ) (env : LinEnv) (henv : ExactFit env) (draws : ℕ → ℝ × ℝ × ℝ) (obs : List (ℝ × ℝ))
    (noise sat : Option ℝ) (hthr : noise.isSome ∨ sat.isSome) (hfin : ∀ o ∈ obs, -fmax < o.2 ∧ o.2 < fmax)
    (hx : ∃ o ∈ keptObs id noise sat obs, ∃ o' ∈ keptObs id noise sat obs, o.1 ≠ o'.1)
    (hline : ¬ ∃ b0 b1 : ℝ, ∀ o ∈ keptObs id noise sat obs, o.2 = b0 + b1 * o.1) (hn : 3 ≤ (keptObs id noise sat obs).length) :
    analysisConfIntRun q fmax env draws obs noise sat false none = .ok (fitConfInt q (keptObs id noise sat obs)) := by
  have hthr' : (noise.isSome || sat.isSome) = true := by rcases hthr with h | h <;> simp [h]
  obtain ⟨r, hr⟩ := C120_succeeds fmax env henv draws obs 0 noise sat hfin hx hline hn
  have hk : uncensoredObs fmax obs noise sat = keptObs id noise sat obs := by
    rw [← keptObs_eq fmax id noise sat obs hfin]; simp
  rw [← hk]
  rw [computeLinearModel] at hr
  simp only [if_true, Bool.false_eq_true, if_false, linFit] at hr
  rw [analysisConfIntRun, analysisRun]
  simp only [Bool.false_eq_true, if_false]
  rw [analysisFits, hthr', if_pos rfl, if_pos rfl]
  split at hr
  · cases hr
  · rfl

section
variable {Ω : Type} [MeasurableSpace Ω] {Q : Measure Ω} [IsProbabilityMeasure Q] {ν : Measure ℝ} [IsProbabilityMeasure ν]

/-- The quantiles of the Student laws are bounded for many degrees of freedom. -/
theorem studentQuantile_le (q : ℕ → ℝ → ℝ) (hq : StudentQuantile q) : ∃ A : ℝ, 0 < A ∧ ∀ᶠ k in atTop, q k (1 - 5 / 100 / 2) ≤ A := by
  obtain ⟨A, hA, hk⟩ := student_tail (1 / 100) (by norm_num)
  refine ⟨A, hA, ?_⟩
  filter_upwards [hk, eventually_ge_atTop 1] with k hk hk1
  by_contra hlt
  push Not at hlt
  have h1 := hq k hk1 (1 - 5 / 100 / 2) (by norm_num) (by norm_num)
  have h2 := hk (-A) le_rfl
  have h3 : (studentLaw k).real (Ici A) = (studentLaw k).real (Iic (-A)) := by
    rw [← student_symm k, map_measureReal_apply measurable_neg measurableSet_Ici, student_symm k]
    congr 1
    ext t
    simp only [mem_preimage, mem_Ici, mem_Iic]
    constructor <;> intro h <;> linarith
  have h4 : (studentLaw k).real (Iic (q k (1 - 5 / 100 / 2)))ᶜ ≤ (studentLaw k).real (Ici A) := by
    refine measureReal_mono (fun t ht => ?_) (measure_ne_top _ _)
    have : q k (1 - 5 / 100 / 2) < t := not_le.1 ht
    exact (hlt.trans this).le
  rw [probReal_compl_eq_one_sub measurableSet_Iic, h1] at h4
  linarith

theorem sum_get {α : Type} (L : List α) (g : α → ℝ) : ∑ i : Fin L.length, g (L.get i) = (L.map g).sum := by
  have h : L.map g = List.ofFn fun i : Fin L.length => g (L.get i) := by
    conv_lhs => rw [← List.ofFn_get L]
    rw [List.map_ofFn]; rfl
  rw [h, List.sum_ofFn]

set_option maxHeartbeats 1000000 in
/-- **C185, violated.**  Everything the analysis assumes is true: a line with a slope that is not zero, independent centred normal errors with one variance.
With a noise or a saturation threshold, or both, with probability one the interval displayed for the slope does not contain the slope as soon as the
observations are many enough: it is on the side of zero. -/
theorem C185_violated (x e : ℕ → Ω → ℝ) (hx : ∀ i, Measurable (x i)) (he : ∀ i, Measurable (e i)) (s : ℝ) (hs : 0 < s)
    (hlaw : ∀ i, Q.map (fun ω => (x i ω, e i ω)) = ν.prod (gaussianReal 0 (sqv s))) (hind : iIndepFun (fun i ω => (x i ω, e i ω)) Q)
    (hν : MemLp (fun t : ℝ => t) 2 ν) (hv : 0 < Var[fun t : ℝ => t; ν]) (b0 b1 : ℝ) (hb : b1 ≠ 0) (noise sat : Option ℝ)
    (hts : ∀ t ∈ noise, ∀ u ∈ sat, t < u) (hthr : noise.isSome ∨ sat.isSome) (q : ℕ → ℝ → ℝ) (hq : StudentQuantile q) :
    ∀ᵐ ω ∂Q, ∀ᶠ N in atTop, ∀ fmax, (∀ i < N, |b0 + b1 * x i ω + e i ω| < fmax) → ∀ env, ExactFit env → ∀ draws, ∃ ci,
      analysisConfIntRun q fmax env draws ((List.range N).map fun i => (x i ω, b0 + b1 * x i ω + e i ω)) noise sat false none = .ok ci ∧
      (0 < b1 → ci.2.2 < b1) ∧ (b1 < 0 → b1 < ci.2.1) := by
  classical
  set P := ν.prod (gaussianReal 0 (sqv s)) with hP
  set K := keptSet b0 b1 noise sat with hK
  have hKm : MeasurableSet K := keptSet_meas b0 b1 noise sat
  have hκ : 0 < P.real K := keptSet_pos b0 b1 s hs noise sat hts
  have hcov := kept_cov (ν := ν) b0 b1 s hs hν hv hb noise sat hts hthr
  rw [← hP, ← hK] at hcov
  have hz : ∀ i, Measurable fun ω => (x i ω, e i ω) := fun i => (hx i).prodMk (he i)
  have h2m : MemLp (Prod.snd : ℝ × ℝ → ℝ) 2 P := gauss_memLp s
  have h1m : MemLp (Prod.fst : ℝ × ℝ → ℝ) 2 P := size_memLp s hν
  have i2 : Integrable (Prod.snd : ℝ × ℝ → ℝ) P := h2m.integrable (by norm_num)
  have i1 : Integrable (Prod.fst : ℝ × ℝ → ℝ) P := h1m.integrable (by norm_num)
  set Z : ℕ → Ω → ℝ × ℝ := fun i ω => (x i ω, e i ω) with hZ
  set κ := P.real K with hκd
  set m1 := ∫ w, K.indicator Prod.fst w ∂P with hm1
  set m2 := ∫ w, K.indicator Prod.snd w ∂P with hm2
  set m12 := ∫ w, K.indicator (fun w => w.1 * w.2) w ∂P with hm12
  set m11 := ∫ w, K.indicator (fun w => w.1 ^ 2) w ∂P with hm11
  set m22 := ∫ w, K.indicator (fun w => w.2 ^ 2) w ∂P with hm22
  have s0 := avg_strong hz hlaw hind (f := K.indicator fun _ => (1 : ℝ)) (measurable_const.indicator hKm) ((integrable_const 1).indicator hKm)
  rw [integral_indicator hKm, setIntegral_const, smul_eq_mul, mul_one] at s0
  have s1 := avg_strong hz hlaw hind (f := K.indicator Prod.fst) (measurable_fst.indicator hKm) (i1.indicator hKm)
  have s2 := avg_strong hz hlaw hind (f := K.indicator Prod.snd) (measurable_snd.indicator hKm) (i2.indicator hKm)
  have s12 := avg_strong hz hlaw hind (f := K.indicator fun w : ℝ × ℝ => w.1 * w.2) (Measurable.indicator (by fun_prop) hKm)
    ((h1m.integrable_mul h2m).indicator hKm)
  have s11 := avg_strong hz hlaw hind (f := K.indicator fun w : ℝ × ℝ => w.1 ^ 2) (Measurable.indicator (by fun_prop) hKm)
    (h1m.integrable_sq.indicator hKm)
  have s22 := avg_strong hz hlaw hind (f := K.indicator fun w : ℝ × ℝ => w.2 ^ 2) (Measurable.indicator (by fun_prop) hKm)
    (h2m.integrable_sq.indicator hKm)
  have hm11' : 0 ≤ m11 := integral_nonneg fun w => indicator_nonneg (fun w _ => sq_nonneg _) w
  have hm22' : 0 ≤ m22 := integral_nonneg fun w => indicator_nonneg (fun w _ => sq_nonneg _) w
  obtain ⟨σ, hσ, hσb, hD⟩ : ∃ σ : ℝ, (σ = 1 ∨ σ = -1) ∧ ((0 < b1 → σ = -1) ∧ (b1 < 0 → σ = 1)) ∧ 0 < σ * (κ * m12 - m1 * m2) := by
    rcases lt_or_gt_of_ne hb with h | h
    · exact ⟨1, Or.inl rfl, ⟨fun h' => absurd h (not_lt.2 h'.le), fun _ => rfl⟩, by nlinarith⟩
    · exact ⟨-1, Or.inr rfl, ⟨fun _ => rfl, fun h' => absurd h (not_lt.2 h'.le)⟩, by nlinarith⟩
  set D := σ * (κ * m12 - m1 * m2) with hDd
  obtain ⟨A, hA, hAk⟩ := studentQuantile_le q hq
  obtain ⟨k0, hk0⟩ := eventually_atTop.1 hAk
  set c := D / (2 * (κ + 1)) with hc
  have hc0 : 0 < c := by positivity
  set B := 6 * (m22 + 1) * (m11 + 1) / κ with hB
  have hB0 : 0 < B := by positivity
  filter_upwards [sample_good x e hx he s hs hlaw hind hν hv b0 b1 noise sat hts, s0, s1, s2, s12, s11, s22] with ω hgood t0 t1 t2 t12 t11 t22
  have tD := ((t0.mul t12).sub (t1.mul t2)).const_mul σ
  have hlin : Tendsto (fun N : ℕ => (N : ℝ) * (κ / 2)) atTop atTop := tendsto_natCast_atTop_atTop.atTop_mul_const (by positivity)
  filter_upwards [hgood, t0.eventually (eventually_gt_nhds (show κ / 2 < κ by linarith)),
    t0.eventually (eventually_lt_nhds (show κ < κ + 1 by linarith)), tD.eventually (eventually_gt_nhds (show D / 2 < D by linarith)),
    t11.eventually (eventually_lt_nhds (show m11 < m11 + 1 by linarith)), t22.eventually (eventually_lt_nhds (show m22 < m22 + 1 by linarith)),
    eventually_gt_atTop 0, hlin.eventually_ge_atTop (k0 + 2), tendsto_natCast_atTop_atTop.eventually_gt_atTop (A ^ 2 * B / c ^ 2)]
    with N ⟨hx', hline, hn⟩ f0 f0' fD f11 f22 hN0 hNk hNA fmax hfm env henv draws
  have hfin : ∀ o ∈ sampleObs b0 b1 x e ω N, -fmax < o.2 ∧ o.2 < fmax := by
    intro o ho
    obtain ⟨i, hi, rfl⟩ := List.mem_map.1 ho
    exact abs_lt.1 (hfm i (List.mem_range.1 hi))
  refine ⟨_, confIntRun_ok q fmax env henv draws (sampleObs b0 b1 x e ω N) noise sat hthr hfin hx' hline hn, ?_⟩
  set L := keptObs id noise sat (sampleObs b0 b1 x e ω N) with hL
  have hNpos : (0 : ℝ) < N := by exact_mod_cast hN0
  have hsum : ∀ g : ℝ × ℝ → ℝ, ∑ i : Fin L.length, g ((L.get i).1, (L.get i).2 - b0 - b1 * (L.get i).1) = N * avg Z (K.indicator g) N ω := by
    intro g
    rw [sum_get L fun o => g (o.1, o.2 - b0 - b1 * o.1), avg, mul_div_cancel₀ _ hNpos.ne', hL, sampleObs,
      keptObs_sum noise sat (fun i => (x i ω, b0 + b1 * x i ω + e i ω)) _ N]
    refine Finset.sum_congr rfl fun i _ => ?_
    rw [indicator_apply]
    have : (x i ω, b0 + b1 * x i ω + e i ω - b0 - b1 * x i ω) = Z i ω := by rw [hZ]; ring_nf
    simp only [this]
    rfl
  set X : Fin L.length → ℝ := fun i => (L.get i).1 with hX
  set E : Fin L.length → ℝ := fun i => (L.get i).2 - b0 - b1 * (L.get i).1 with hE
  have hfit : fitConfInt q L = analysisConfInt q X fun i => b0 + b1 * X i + E i := by
    rw [fitConfInt]
    congr 1
    funext i
    simp only [hX, hE]
    ring
  have hXne : ∃ i j, X i ≠ X j := by
    obtain ⟨o, ho, o', ho', hne⟩ := hx'
    obtain ⟨i, rfl⟩ := List.get_of_mem ho
    obtain ⟨j, rfl⟩ := List.get_of_mem ho'
    exact ⟨i, j, hne⟩
  set a0 := avg Z (K.indicator fun _ => (1 : ℝ)) N ω with ha0
  set a1 := avg Z (K.indicator Prod.fst) N ω with ha1
  set a2 := avg Z (K.indicator Prod.snd) N ω with ha2
  set a12 := avg Z (K.indicator fun w : ℝ × ℝ => w.1 * w.2) N ω with ha12
  set a11 := avg Z (K.indicator fun w : ℝ × ℝ => w.1 ^ 2) N ω with ha11
  set a22 := avg Z (K.indicator fun w : ℝ × ℝ => w.2 ^ 2) N ω with ha22
  have ha0p : 0 < a0 := by linarith
  have hcount : (L.length : ℝ) = N * a0 := by
    have h := hsum fun _ => 1
    simpa using h
  have u1 : ∑ i, X i = N * a1 := hsum Prod.fst
  have u2 : ∑ i, E i = N * a2 := hsum Prod.snd
  have u12 : ∑ i, X i * E i = N * a12 := hsum fun w => w.1 * w.2
  have u11 : ∑ i, X i ^ 2 = N * a11 := hsum fun w => w.1 ^ 2
  have u22 : ∑ i, E i ^ 2 = N * a22 := hsum fun w => w.2 ^ 2
  have hn3 : (3 : ℝ) ≤ L.length := by exact_mod_cast hn
  have hC : ∑ i, (X i - smean X) * (E i - smean E) = N * ((a0 * a12 - a1 * a2) / a0) := by
    have e1 : ∀ i, (X i - smean X) * (E i - smean E) = X i * E i - smean E * X i - smean X * E i + smean X * smean E := fun i => by ring
    simp only [e1, Finset.sum_add_distrib, Finset.sum_sub_distrib, ← Finset.mul_sum, Finset.sum_const, Finset.card_univ, Fintype.card_fin, nsmul_eq_mul]
    rw [smean, smean, u1, u2, u12, hcount]
    field_simp
    ring
  have hnbig : (N : ℝ) * (κ / 2) ≤ L.length := by
    rw [hcount]; exact mul_le_mul_of_nonneg_left f0.le hNpos.le
  have hkn : k0 ≤ L.length - 2 := by
    have : ((k0 + 2 : ℕ) : ℝ) ≤ L.length := by push_cast; exact hNk.trans hnbig
    have := (Nat.cast_le (α := ℝ)).1 this
    omega
  have key : A * Real.sqrt ((∑ i, E i ^ 2) / (L.length - 2) * ∑ i, X i ^ 2) < σ * ∑ i, (X i - smean X) * (E i - smean E) := by
    have b1' : c * N ≤ σ * ∑ i, (X i - smean X) * (E i - smean E) := by
      have g1 : c * a0 ≤ D / 2 := by
        refine (mul_le_mul_of_nonneg_left f0'.le hc0.le).trans (le_of_eq ?_)
        rw [hc]; field_simp
      have g2 : c ≤ σ * (a0 * a12 - a1 * a2) / a0 := by
        rw [le_div_iff₀ ha0p]; linarith
      rw [hC, mul_left_comm, ← mul_div_assoc, mul_comm c]
      exact mul_le_mul_of_nonneg_left g2 hNpos.le
    refine lt_of_lt_of_le ?_ b1'
    have b2 : (∑ i, E i ^ 2) / (L.length - 2) * ∑ i, X i ^ 2 ≤ B * N := by
      have r1 : 0 ≤ ∑ i, E i ^ 2 := Finset.sum_nonneg fun i _ => sq_nonneg _
      have r2 : 0 ≤ ∑ i, X i ^ 2 := Finset.sum_nonneg fun i _ => sq_nonneg _
      have r3 : (∑ i, E i ^ 2) / (L.length - 2) ≤ 6 * (m22 + 1) / κ := by
        rw [div_le_div_iff₀ (by linarith) hκ]
        have r4 : (∑ i, E i ^ 2) * κ ≤ (N * (m22 + 1)) * κ := by
          rw [u22]; exact mul_le_mul_of_nonneg_right (mul_le_mul_of_nonneg_left f22.le hNpos.le) hκ.le
        have r5 : (N : ℝ) * κ ≤ 6 * (L.length - 2) := by linarith
        have r6 := mul_le_mul_of_nonneg_right r5 (by linarith : 0 ≤ m22 + 1)
        nlinarith
      have r7 : ∑ i, X i ^ 2 ≤ N * (m11 + 1) := by
        rw [u11]; exact mul_le_mul_of_nonneg_left f11.le hNpos.le
      refine (mul_le_mul r3 r7 r2 (by positivity)).trans (le_of_eq ?_)
      rw [hB]; ring
    have b3 : Real.sqrt ((∑ i, E i ^ 2) / (L.length - 2) * ∑ i, X i ^ 2) ≤ Real.sqrt (B * N) := Real.sqrt_le_sqrt b2
    refine lt_of_le_of_lt (mul_le_mul_of_nonneg_left b3 hA.le) ?_
    have b4 : A * Real.sqrt (B * N) = Real.sqrt (A ^ 2 * (B * N)) := by rw [Real.sqrt_mul (sq_nonneg _), Real.sqrt_sq hA.le]
    rw [b4, Real.sqrt_lt' (by positivity)]
    rw [div_lt_iff₀ (by positivity)] at hNA
    nlinarith
  have hfinal := interval_misses q X E b0 b1 hn hXne hA (hk0 _ hkn) σ hσ key
  rw [hfit]
  exact ⟨fun h => hfinal.2 (hσb.1 h), fun h => hfinal.1 (hσb.2 h)⟩

/-- **C185, restricted.**  Without thresholds the interval of a run contains the slope with probability exactly 0.95. -/
theorem C185_uncensored_partial {m : ℕ} (hm : 1 ≤ m) (x : Fin (m + 2) → ℝ) (hx : ∃ i j, x i ≠ x j) (e : Fin (m + 2) → Ω → ℝ)
    (he : ∀ i, Measurable (e i)) (s : ℝ) (hs : 0 < s) (hlaw : ∀ i, Q.map (e i) = gaussianReal 0 (sqv s)) (hind : iIndepFun e Q) (b0 b1 : ℝ)
    (q : ℕ → ℝ → ℝ) (hq : StudentQuantile q) (fmax : ℝ) (env : LinEnv) (draws : ℕ → ℝ × ℝ × ℝ) :
    Q.real {ω | ∃ ci, analysisConfIntRun q fmax env draws (List.ofFn fun i => (x i, b0 + b1 * x i + e i ω)) none none false none = .ok ci ∧
      b1 ∈ Icc ci.2.1 ci.2.2} = 95 / 100 := by
  rw [← (C184_coverage hm x hx e he s hs hlaw hind b0 b1 q hq).2]
  congr 1
  ext ω
  have hrun : analysisConfIntRun q fmax env draws (List.ofFn fun i => (x i, b0 + b1 * x i + e i ω)) none none false none
      = .ok (analysisConfInt q x fun i => b0 + b1 * x i + e i ω) := by
    rw [← fitConfInt_ofFn]
    rfl
  simp only [mem_ofPred_eq, hrun, Except.ok.injEq, exists_eq_left']

end

/-- Instance: standard normal sizes and errors, line `1 + 2 a`, noise threshold 0: for many observations the interval of the slope is below 2. -/
example : ∃ env q, ExactFit env ∧ StudentQuantile q ∧ ∀ᵐ ω ∂(Measure.infinitePi fun _ : ℕ => (gaussianReal 0 1).prod (gaussianReal 0 1)), ∀ᶠ N in atTop,
    ∀ fmax, (∀ i < N, |1 + 2 * (ω i).1 + (ω i).2| < fmax) → ∃ ci,
      analysisConfIntRun q fmax env (fun _ => (0, 0, 1)) ((List.range N).map fun i => ((ω i).1, 1 + 2 * (ω i).1 + (ω i).2)) (some 0) none false none
        = .ok ci ∧ ci.2.2 < 2 := by
  obtain ⟨env, henv⟩ := exactFit_exists
  obtain ⟨q, hq⟩ := studentQuantile_exists
  have e1 : sqv 1 = 1 := by simp [sqv]
  refine ⟨env, q, henv, hq, ?_⟩
  filter_upwards [C185_violated (Q := Measure.infinitePi fun _ : ℕ => (gaussianReal 0 1).prod (gaussianReal 0 1)) (ν := gaussianReal 0 1)
    (fun i ω => (ω i).1) (fun i ω => (ω i).2)
    (fun i => measurable_fst.comp (measurable_pi_apply i)) (fun i => measurable_snd.comp (measurable_pi_apply i)) 1 one_pos
    (fun i => by rw [e1]; exact (measurePreserving_eval_infinitePi (fun _ : ℕ => (gaussianReal 0 1).prod (gaussianReal 0 1)) i).map_eq)
    (iIndepFun_infinitePi (P := fun _ : ℕ => (gaussianReal 0 1).prod (gaussianReal 0 1)) (X := fun _ x => x) (fun _ => measurable_id))
    (memLp_id_gaussianReal 2) (by rw [variance_fun_id_gaussianReal]; norm_num) 1 2 (by norm_num) (some 0) none (by simp) (Or.inl rfl) q hq] with ω hω
  filter_upwards [hω] with N hN fmax hf
  obtain ⟨ci, h1, h2, -⟩ := hN fmax hf env henv _
  exact ⟨ci, h1, h2 (by norm_num)⟩

/-- Instance of the restricted statement: sizes 0, 1, 2, errors of standard deviation 1/2. -/
example : ∃ q, ∀ env, (Measure.pi fun _ : Fin 3 => gaussianReal 0 (sqv (1 / 2))).real
    {ω | ∃ ci, analysisConfIntRun q 1000 env (fun _ => (0, 0, 1)) (List.ofFn fun i => (![0, 1, 2] i, 1 + 2 * ![0, 1, 2] i + ω i)) none none false none
      = .ok ci ∧ 2 ∈ Icc ci.2.1 ci.2.2} = 95 / 100 := by
  obtain ⟨q, hq⟩ := studentQuantile_exists
  exact ⟨q, fun env => C185_uncensored_partial (Q := Measure.pi fun _ : Fin 3 => gaussianReal 0 (sqv (1 / 2))) (m := 1) le_rfl ![0, 1, 2] ⟨0, 1, by simp⟩
    (fun i ω => ω i) (fun i => measurable_pi_apply i) (1 / 2) (by norm_num)
    (fun i => (measurePreserving_eval (fun _ : Fin 3 => gaussianReal 0 (sqv (1 / 2))) i).map_eq)
    (iIndepFun_pi (μ := fun _ : Fin 3 => gaussianReal 0 (sqv (1 / 2))) (X := fun _ t => t) fun _ => aemeasurable_id) 1 2 q hq 1000 env _⟩

end Verif.Props
