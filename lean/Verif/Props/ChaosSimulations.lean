import Verif.Props.BootstrapLimit
import Verif.Props.ChaosUnits

/-!
# C236: the confidence curve of the chaos POD when the number of simulated coefficients grows
-/

namespace Verif.Props
open Verif.Py Verif.Model MeasureTheory ProbabilityTheory Filter Topology

/-- Counting over the first indices. -/
theorem countP_range_sum (p : ℕ → Prop) [DecidablePred p] (M : ℕ) :
    ((List.range M).countP (fun r => decide (p r)) : ℝ) = ∑ r ∈ Finset.range M, if p r then (1 : ℝ) else 0 := by
  induction M with
  | zero => simp
  | succ M ih =>
    rw [List.range_succ, List.countP_append, Finset.sum_range_succ, Nat.cast_add, ih]
    by_cases h : p M <;> simp [h]

/-- The sample quantile of integer counts divided by a constant is eventually the quantile of their law. -/
theorem int_quantile (t : ℕ → ℕ) (F : ℕ → ℝ)
    (hF : ∀ i : ℕ, Tendsto (fun M : ℕ => (∑ r ∈ Finset.range M, if (t r : ℝ) ≤ (i : ℝ) then (1 : ℝ) else 0) / M) atTop (𝓝 (F i)))
    {n : ℕ} (hn : 0 < n) {q : ℝ} (hq0 : 0 < q) (hq1 : q ≤ 1) (v : ℕ) (hv : q < F v) (hlow : ∀ i < v, F i < q) :
    ∀ᶠ M : ℕ in atTop, quantile ((List.range M).map fun r => (t r : ℝ) / n) q = (v : ℝ) / n := by
  have hn' : (0 : ℝ) < n := by exact_mod_cast hn
  have hinf : ∀ d : ℝ, 0 < d → ∀ᶠ M : ℕ in atTop, (2 : ℝ) ≤ d * M := fun d hd => by
    have := (tendsto_natCast_atTop_atTop (R := ℝ)).const_mul_atTop hd
    exact this.eventually_ge_atTop 2
  have up : ∀ᶠ M : ℕ in atTop, q * M + 3 / 2 ≤ ∑ r ∈ Finset.range M, if (t r : ℝ) ≤ (v : ℝ) then (1 : ℝ) else 0 := by
    have hmid : (F v + q) / 2 < F v := by linarith
    filter_upwards [(hF v).eventually (lt_mem_nhds hmid), hinf ((F v - q) / 2) (by linarith), eventually_gt_atTop 0] with M h1 h2 h3
    have hM : (0 : ℝ) < M := by exact_mod_cast h3
    rw [lt_div_iff₀ hM] at h1
    nlinarith
  have lo : ∀ᶠ M : ℕ in atTop, (∑ r ∈ Finset.range M, if (t r : ℝ) < (v : ℝ) then (1 : ℝ) else 0) < q * M - 1 / 2 := by
    rcases Nat.eq_zero_or_pos v with rfl | hpos
    · filter_upwards [hinf q hq0] with M h2
      have : ∀ r ∈ Finset.range M, (if (t r : ℝ) < ((0 : ℕ) : ℝ) then (1 : ℝ) else 0) = 0 := fun r _ => if_neg (by simp)
      rw [Finset.sum_eq_zero this]
      linarith
    · obtain ⟨u, rfl⟩ : ∃ u, v = u + 1 := ⟨v - 1, by omega⟩
      have hu := hlow u (by omega)
      have hmid : F u < (F u + q) / 2 := by linarith
      filter_upwards [(hF u).eventually (gt_mem_nhds hmid), hinf ((q - F u) / 2) (by linarith), eventually_gt_atTop 0] with M h1 h2 h3
      have hM : (0 : ℝ) < M := by exact_mod_cast h3
      rw [div_lt_iff₀ hM] at h1
      have e : ∀ r ∈ Finset.range M, (if (t r : ℝ) < ((u + 1 : ℕ) : ℝ) then (1 : ℝ) else 0) = if (t r : ℝ) ≤ (u : ℝ) then (1 : ℝ) else 0 := fun r _ => by
        have : ((t r : ℝ) < ((u + 1 : ℕ) : ℝ)) ↔ ((t r : ℝ) ≤ (u : ℝ)) := by
          rw [Nat.cast_lt, Nat.cast_le]; omega
        simp only [this]
      rw [Finset.sum_congr rfl e]
      nlinarith
  filter_upwards [up, lo, eventually_gt_atTop 0] with M hup hlo hM
  have c1 : (((List.range M).map fun r => (t r : ℝ) / n).countP (fun y => decide (y < (v : ℝ) / n)) : ℝ)
      = ∑ r ∈ Finset.range M, if (t r : ℝ) < (v : ℝ) then (1 : ℝ) else 0 := by
    rw [List.countP_map, ← countP_range_sum]
    congr 2
    funext r
    simp only [Function.comp, div_lt_div_iff_of_pos_right hn']
  have c2 : (((List.range M).map fun r => (t r : ℝ) / n).countP (fun y => decide (y ≤ (v : ℝ) / n)) : ℝ)
      = ∑ r ∈ Finset.range M, if (t r : ℝ) ≤ (v : ℝ) then (1 : ℝ) else 0 := by
    rw [List.countP_map, ← countP_range_sum]
    congr 2
    funext r
    simp only [Function.comp, div_le_div_iff_of_pos_right hn']
  have hl : (((List.range M).map fun r => (t r : ℝ) / n).length : ℝ) = M := by simp
  refine quantile_of_counts ?_ hq0.le hq1 _ ?_ ?_
  · simp only [ne_eq, List.map_eq_nil_iff, List.range_eq_nil]; omega
  · rw [c1, hl]; exact hlo
  · rw [c2, hl]; exact hup

section
variable {X U Ω : Type} [MeasurableSpace X] [MeasurableSpace Ω]

/-- **C236.**  `F a i` is the probability that at most `i` of the `n` simulated signals of the size `a` exceed the threshold, when the coefficients, the
parameters and the residuals are random.  Almost surely, for each confidence level whose complement is none of these probabilities, there is an integer
number of signals `v a` for each size, the quantile of this law, such that all runs with enough simulated coefficients succeed with the same curve at
this level: the interpolation of the values `v a / n`.  More simulations do not change the curve any more. -/
theorem C236_chaos {m n : ℕ} (hn : 0 < n) (Q : Measure Ω) [IsProbabilityMeasure Q] (law : Measure X) [IsProbabilityMeasure law]
    (μ : Measure (Fin m → ℝ)) [IsProbabilityMeasure μ] (c : ChaosSetup X U) (φ : Fin m → U → ℝ) (hb : c.basis = List.ofFn φ)
    (hc : c.samplingSize = n) (hT : ∀ a i, Measurable fun y => φ i (c.transformation (a, y))) (x0 : ℕ → X) (z0 : ℕ → ℕ → ℝ)
    (co : ℕ → Ω → Fin m → ℝ) (x : ℕ → ℕ → Ω → X) (z : ℕ → ℕ → ℕ → Ω → ℝ)
    (hm : ∀ r j, Measurable fun ω => (co r ω, fun k : Fin n => (x r k ω, z r j k ω)))
    (hlaw : ∀ r j, Q.map (fun ω => (co r ω, fun k : Fin n => (x r k ω, z r j k ω))) = μ.prod (Measure.pi fun _ => law.prod (gaussianReal 0 1)))
    (hind : ∀ j, iIndepFun (fun r ω => (co r ω, fun k : Fin n => (x r k ω, z r j k ω))) Q)
    (s : SimAttrs) (hnum : s.number = s.sizes.length)
    (F : ℝ → ℕ → ℝ) (hF : F = fun a i => (μ.prod (Measure.pi fun _ : Fin n => law.prod (gaussianReal 0 1))).real
      {p | (Finset.univ.filter fun k => c.detection < (∑ i, p.1 i * φ i (c.transformation (a, (p.2 k).1))) + c.stderr * (p.2 k).2).card ≤ i}) :
    ∀ᵐ ω ∂Q, ∀ level, 0 < level → level < 1 → (∀ a ∈ s.sizes, ∀ i, F a i ≠ 1 - level) →
      ∃ v : ℝ → ℕ, (∀ a ∈ s.sizes, v a ≤ n ∧ 1 - level < F a (v a) ∧ ∀ i < v a, F a i < 1 - level) ∧
        ∀ᶠ M : ℕ in atTop, ∃ s', chaosRunSim c (chaosDraws n s.number x0 z0)
            ((List.range M).map fun r => (List.ofFn (co r ω), chaosDraws n s.number (fun k => x r k ω) fun j k => z r j k ω)) s = (.ok (), s') ∧
          getPODCLModel s' level = interp1d s.sizes (s.sizes.map fun a => (v a : ℝ) / n) := by
  classical
  have hsum : ∀ (b : Fin m → ℝ) (p : ℝ × X), (List.zipWith (fun a ψ => a * ψ (c.transformation p)) (List.ofFn b) c.basis).sum
      = ∑ i, b i * φ i (c.transformation p) := fun b p => by
    rw [hb]; exact chaosFunction_ofFn c.transformation φ b p
  let hits : ℝ → (Fin m → ℝ) × (Fin n → X × ℝ) → ℕ := fun a p =>
    (Finset.univ.filter fun k => c.detection < (∑ i, p.1 i * φ i (c.transformation (a, (p.2 k).1))) + c.stderr * (p.2 k).2).card
  have hhits : ∀ a p, (hits a p : ℝ) = ∑ k, if c.detection < (∑ i, p.1 i * φ i (c.transformation (a, (p.2 k).1))) + c.stderr * (p.2 k).2
      then (1 : ℝ) else 0 := fun a p => by
    rw [Finset.sum_boole]
  have hmeas : ∀ a, Measurable fun p => (hits a p : ℝ) := fun a => by
    simp only [hhits]
    refine Finset.measurable_sum _ fun k _ => Measurable.ite (measurableSet_lt measurable_const ?_) measurable_const measurable_const
    have hx : Measurable fun p : (Fin m → ℝ) × (Fin n → X × ℝ) => (p.2 k).1 := measurable_fst.comp ((measurable_pi_apply k).comp measurable_snd)
    have hz : Measurable fun p : (Fin m → ℝ) × (Fin n → X × ℝ) => (p.2 k).2 := measurable_snd.comp ((measurable_pi_apply k).comp measurable_snd)
    refine (Finset.measurable_sum _ fun i _ => ?_).add (hz.const_mul _)
    exact ((measurable_pi_apply i).comp measurable_fst).mul ((hT a i).comp hx)
  have hFi : ∀ a i, F a i = (μ.prod (Measure.pi fun _ : Fin n => law.prod (gaussianReal 0 1))).real {p | (hits a p : ℝ) ≤ (i : ℝ)} := fun a i => by
    rw [hF]
    simp only [Nat.cast_le, hits]
  have hcard : ∀ a p, hits a p ≤ n := fun a p => (Finset.card_le_univ _).trans (by simp)
  have hFn : ∀ a, F a n = 1 := fun a => by
    rw [hFi, show {p | (hits a p : ℝ) ≤ (n : ℝ)} = Set.univ from Set.eq_univ_of_forall fun p => by simpa using hcard a p]
    simp
  have hall : ∀ᵐ ω ∂Q, ∀ j i : ℕ, Tendsto (fun M : ℕ => (∑ r ∈ Finset.range M,
      if (hits (s.sizes.getD j 0) (co r ω, fun k : Fin n => (x r k ω, z r j k ω)) : ℝ) ≤ (i : ℝ) then (1 : ℝ) else 0) / M) atTop
      (𝓝 (F (s.sizes.getD j 0) i)) := ae_all_iff.mpr fun j => ae_all_iff.mpr fun i => by
    rw [hFi]
    exact share_tendsto Q _ (fun p => (hits (s.sizes.getD j 0) p : ℝ)) (hmeas _) _ (fun r => hm r j) (fun r => hlaw r j) (hind j) i
  filter_upwards [hall] with ω hall
  intro level h0 h1 hne
  have hex : ∀ a, ∃ i, 1 - level < F a i := fun a => ⟨n, by rw [hFn]; linarith⟩
  refine ⟨fun a => Nat.find (hex a), fun a ha => ⟨Nat.find_min' (hex a) (by rw [hFn]; linarith), Nat.find_spec (hex a), fun i hi =>
    lt_of_le_of_ne (not_lt.mp (Nat.find_min (hex a) hi)) (hne a ha i)⟩, ?_⟩
  have hq : ∀ᶠ M : ℕ in atTop, ∀ j ∈ Finset.range s.sizes.length,
      quantile ((List.range M).map fun r => (hits (s.sizes.getD j 0) (co r ω, fun k : Fin n => (x r k ω, z r j k ω)) : ℝ) / n) (1 - level)
        = (Nat.find (hex (s.sizes.getD j 0)) : ℝ) / n := by
    rw [Filter.eventually_all_finset]
    intro j hj
    have hj' : j < s.sizes.length := Finset.mem_range.mp hj
    have hmem : s.sizes.getD j 0 ∈ s.sizes := by
      rw [List.getD_eq_getElem _ _ hj']; exact List.getElem_mem hj'
    exact int_quantile _ _ (hall j) hn (by linarith) (by linarith) _ (Nat.find_spec (hex _)) fun i hi =>
      lt_of_le_of_ne (not_lt.mp (Nat.find_min (hex _) hi)) (hne _ hmem i)
  obtain ⟨f, hf⟩ : ∃ f, interp1d s.sizes (chaosPodRow c s.number s.sizes c.coefs (chaosDraws n s.number x0 z0)) = .ok f := by
    have := chaosPodRow_eq c n hc s.sizes c.coefs x0 z0
    rw [hnum, this, interp1d, if_pos (by simp)]
    exact ⟨_, rfl⟩
  filter_upwards [hq] with M hq
  refine ⟨_, chaosRun_eq c _ _ s hnum hf, ?_⟩
  rw [getPODCLModel]
  dsimp only
  rw [columnsOf, List.map_map, hnum, sizes_map_range s.sizes fun a => (Nat.find (hex a) : ℝ) / n]
  congr 1
  refine List.map_congr_left fun j hj => ?_
  have hj' : j < s.sizes.length := by simpa using hj
  rw [Function.comp_apply, ← hq j (Finset.mem_range.mpr hj'), List.map_map, List.map_map]
  congr 1
  refine List.map_congr_left fun r _ => ?_
  have r1 := chaosPodRow_eq c n hc s.sizes (List.ofFn (co r ω)) (fun k => x r k ω) fun j k => z r j k ω
  dsimp only [Function.comp_apply]
  rw [r1, List.getD_eq_getElem _ _ (by simpa using hj'), List.getElem_map, List.getElem_range, hhits, Finset.sum_range]
  congr 1
  refine Finset.sum_congr rfl fun k _ => ?_
  rw [hsum]

end

/-- One constant function with a standard normal coefficient, a normal parameter and one signal per size. -/
example : let R := (Measure.pi fun _ : Fin 1 => gaussianReal 0 1).prod (Measure.pi fun _ : Fin 1 => (gaussianReal 0 1).prod (gaussianReal 0 1))
    let P := Measure.infinitePi fun _ : ℕ => R
    let c : ChaosSetup ℝ (ℝ × ℝ) := ⟨(0, 0), id, [fun p => p.1 + p.2], [1], 1, 1, 3⟩
    let F := fun (a : ℝ) (i : ℕ) => R.real {p | (Finset.univ.filter fun k => (3 : ℝ) < (∑ i, p.1 i * (a + (p.2 k).1)) + 1 * (p.2 k).2).card ≤ i}
    ∀ᵐ ω ∂P, ∀ level, 0 < level → level < 1 → (∀ a ∈ ([1, 2] : List ℝ), ∀ i, F a i ≠ 1 - level) →
      ∃ v : ℝ → ℕ, (∀ a ∈ ([1, 2] : List ℝ), v a ≤ 1 ∧ 1 - level < F a (v a)) ∧
        ∀ᶠ M : ℕ in atTop, ∃ s', chaosRunSim c (chaosDraws 1 2 (fun _ => 0) fun _ _ => 0)
            ((List.range M).map fun r => (List.ofFn (ω r).1, chaosDraws 1 2 (fun _ => ((ω r).2 0).1) fun _ _ => ((ω r).2 0).2)) ⟨⟨[1, 2], 2⟩, none, none⟩
              = (.ok (), s') ∧ getPODCLModel s' level = interp1d [1, 2] ([1, 2].map fun a => (v a : ℝ) / (1 : ℕ)) := by
  intro R P c F
  have e : ∀ (r : ℕ) (ω : ℕ → (Fin 1 → ℝ) × (Fin 1 → ℝ × ℝ)), ((ω r).1, fun _ : Fin 1 => (((ω r).2 0).1, ((ω r).2 0).2)) = ω r := fun r ω =>
    Prod.ext rfl (funext fun k => by rw [Subsingleton.elim k 0])
  have h := C236_chaos (m := 1) (n := 1) one_pos P (gaussianReal 0 1) (Measure.pi fun _ : Fin 1 => gaussianReal 0 1) c (fun _ p => p.1 + p.2) (by simp [c]) rfl
    (fun a i => by simpa [c] using measurable_id.const_add a) (fun _ => 0) (fun _ _ => 0) (fun r ω => (ω r).1) (fun r _ ω => ((ω r).2 0).1)
    (fun r _ _ ω => ((ω r).2 0).2) (fun r _ => by simp only [e]; exact measurable_pi_apply r)
    (fun r _ => by simp only [e]; exact (measurePreserving_eval_infinitePi (fun _ : ℕ => R) r).map_eq)
    (fun _ => by simp only [e]; exact iIndepFun_infinitePi (P := fun _ : ℕ => R) (X := fun _ x => x) (fun _ => measurable_id))
    ⟨⟨[1, 2], 2⟩, none, none⟩ rfl F rfl
  filter_upwards [h] with ω h level h0 h1 hne
  obtain ⟨v, hv, hM⟩ := h level h0 h1 hne
  exact ⟨v, fun a ha => ⟨(hv a ha).1, (hv a ha).2.1⟩, hM⟩

end Verif.Props
