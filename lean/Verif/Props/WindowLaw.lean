import Verif.Props.DeltaMethod

/-!
# Strong law for functions of a moving window of independent variables (for C178)
-/

namespace Verif.Props
open MeasureTheory ProbabilityTheory Filter Topology

/-- Number of `j` with `r + d * j < N`. -/
def residueCount (d r N : ℕ) : ℕ := (N + (d - 1 - r)) / d

theorem lt_residueCount {d r N j : ℕ} (hr : r < d) : j < residueCount d r N ↔ r + d * j < N := by
  rw [residueCount, ← Nat.succ_le_iff, Nat.le_div_iff_mul_le (by omega), Nat.succ_mul, mul_comm]
  omega

theorem sum_residues {d : ℕ} (hd : 0 < d) (a : ℕ → ℝ) (N : ℕ) :
    ∑ i ∈ Finset.range N, a i = ∑ r ∈ Finset.range d, ∑ j ∈ Finset.range (residueCount d r N), a (r + d * j) := by
  rw [← Finset.sum_fiberwise_of_maps_to (g := fun i => i % d) (t := Finset.range d) (fun i _ => Finset.mem_range.2 (Nat.mod_lt i hd))]
  refine Finset.sum_congr rfl fun r hr => ?_
  have hr' := Finset.mem_range.1 hr
  refine Finset.sum_nbij' (fun i => i / d) (fun j => r + d * j) ?_ ?_ ?_ ?_ ?_
  · intro i hi
    obtain ⟨h1, h2⟩ := Finset.mem_filter.1 hi
    rw [Finset.mem_range] at h1 ⊢
    rw [lt_residueCount hr', ← h2, Nat.mod_add_div]
    exact h1
  · intro j hj
    rw [Finset.mem_range, lt_residueCount hr'] at hj
    refine Finset.mem_filter.2 ⟨Finset.mem_range.2 hj, ?_⟩
    rw [Nat.add_mul_mod_self_left, Nat.mod_eq_of_lt hr']
  · intro i hi
    obtain ⟨-, h2⟩ := Finset.mem_filter.1 hi
    rw [← h2, Nat.mod_add_div]
  · intro j _
    rw [Nat.add_mul_div_left _ _ hd, Nat.div_eq_of_lt hr', zero_add]
  · intro i hi
    obtain ⟨-, h2⟩ := Finset.mem_filter.1 hi
    rw [← h2, Nat.mod_add_div]

theorem residueCount_tendsto {d r : ℕ} (hr : r < d) : Tendsto (residueCount d r) atTop atTop := by
  refine tendsto_atTop.2 fun b => ?_
  filter_upwards [eventually_ge_atTop (d * b + d)] with N hN
  by_contra h
  push Not at h
  have := (not_congr (lt_residueCount (N := N) (j := residueCount d r N) hr)).1 (lt_irrefl _)
  have h2 : d * residueCount d r N ≤ d * b := Nat.mul_le_mul_left d h.le
  omega

theorem residueCount_ratio {d r : ℕ} (hr : r < d) : Tendsto (fun N => (residueCount d r N : ℝ) / N) atTop (𝓝 (1 / d)) := by
  have hd : (0 : ℝ) < d := by exact_mod_cast (by omega : 0 < d)
  have hb : ∀ N : ℕ, |(residueCount d r N : ℝ) - N / d| ≤ 1 := by
    intro N
    have h1 := (not_congr (lt_residueCount (N := N) (j := residueCount d r N) hr)).1 (lt_irrefl _)
    have h2 : d * residueCount d r N ≤ N + (d - 1 - r) := Nat.mul_div_le _ _
    have h1' : (N : ℝ) ≤ d * residueCount d r N + d := by exact_mod_cast (by omega : N ≤ d * residueCount d r N + d)
    have h2' : (d : ℝ) * residueCount d r N ≤ N + d := by exact_mod_cast (by omega : d * residueCount d r N ≤ N + d)
    rw [abs_le]
    constructor
    · rw [neg_le_sub_iff_le_add, div_le_iff₀ hd]; nlinarith
    · rw [sub_le_iff_le_add, ← sub_le_iff_le_add', le_div_iff₀ hd]; nlinarith
  have h0 : Tendsto (fun N : ℕ => (residueCount d r N : ℝ) / N - 1 / d) atTop (𝓝 0) := by
    refine squeeze_zero_norm' (a := fun N : ℕ => 1 / (N : ℝ)) ?_ tendsto_one_div_atTop_nhds_zero_nat
    filter_upwards [eventually_gt_atTop 0] with N hN
    have hN' : (0 : ℝ) < N := by exact_mod_cast hN
    have : (residueCount d r N : ℝ) / N - 1 / d = ((residueCount d r N : ℝ) - N / d) / N := by field_simp
    rw [this, Real.norm_eq_abs, abs_div, abs_of_pos hN']
    exact div_le_div_of_nonneg_right (hb N) hN'.le
  simpa using h0.add_const (1 / (d : ℝ))

/-- An average converges when the averages over each residue class converge to the same limit. -/
theorem avg_residues {d : ℕ} (hd : 0 < d) (a : ℕ → ℝ) (L : ℝ)
    (h : ∀ r < d, Tendsto (fun M : ℕ => (∑ j ∈ Finset.range M, a (r + d * j)) / M) atTop (𝓝 L)) :
    Tendsto (fun N : ℕ => (∑ i ∈ Finset.range N, a i) / N) atTop (𝓝 L) := by
  have hd' : (d : ℝ) ≠ 0 := by exact_mod_cast hd.ne'
  have h1 : Tendsto (fun N : ℕ => ∑ r ∈ Finset.range d, (∑ j ∈ Finset.range (residueCount d r N), a (r + d * j)) / (residueCount d r N : ℝ) *
      ((residueCount d r N : ℝ) / N)) atTop (𝓝 (∑ r ∈ Finset.range d, L * (1 / d))) := by
    refine tendsto_finsetSum _ fun r hr => ?_
    have hr' := Finset.mem_range.1 hr
    exact ((h r hr').comp (residueCount_tendsto hr')).mul (residueCount_ratio hr')
  have h2 : ∑ r ∈ Finset.range d, L * (1 / (d : ℝ)) = L := by
    rw [Finset.sum_const, Finset.card_range, nsmul_eq_mul]; field_simp
  rw [h2] at h1
  refine h1.congr fun N => ?_
  rw [sum_residues hd a N, Finset.sum_div]
  refine Finset.sum_congr rfl fun r _ => ?_
  rcases Nat.eq_zero_or_pos (residueCount d r N) with h0 | h0
  · simp [h0]
  · have : (residueCount d r N : ℝ) ≠ 0 := by exact_mod_cast h0.ne'
    rw [div_mul_div_cancel₀ this]

section
variable {Ω : Type*} [MeasurableSpace Ω] {Q : Measure Ω} [IsProbabilityMeasure Q] {E : Type*} [MeasurableSpace E] {P : Measure E}

/-- The window of length `d` that starts at `i`. -/
def window {E Ω : Type*} (d : ℕ) (ξ : ℕ → Ω → E) (i : ℕ) (ω : Ω) : Fin d → E := fun k => ξ (i + k) ω

theorem window_measurable {ξ : ℕ → Ω → E} (hx : ∀ i, Measurable (ξ i)) (d i : ℕ) : Measurable (window d ξ i) :=
  measurable_pi_lambda _ fun k => hx (i + k)

theorem window_law [IsProbabilityMeasure P] {ξ : ℕ → Ω → E} (hx : ∀ i, Measurable (ξ i)) (hlaw : ∀ i, Q.map (ξ i) = P) (hind : iIndepFun ξ Q) (d i : ℕ) :
    Q.map (window d ξ i) = Measure.pi fun _ : Fin d => P := by
  have hinj : Function.Injective fun k : Fin d => i + (k : ℕ) := fun a b hab => Fin.ext (by simpa using hab)
  have h := (iIndepFun_iff_map_fun_eq_pi_map (f := fun k : Fin d => ξ (i + k)) (fun k => (hx (i + k)).aemeasurable)).1 (hind.precomp hinj)
  simp only [hlaw] at h
  exact h

theorem window_indep {ξ : ℕ → Ω → E} (hx : ∀ i, Measurable (ξ i)) (hind : iIndepFun ξ Q) (d : ℕ) {i j : ℕ} (hij : i + d ≤ j) :
    IndepFun (window d ξ i) (window d ξ j) Q := by
  classical
  have hdis : Disjoint (Finset.Ico i (i + d)) (Finset.Ico j (j + d)) := by
    rw [Finset.disjoint_left]
    intro a ha hb
    rw [Finset.mem_Ico] at ha hb
    omega
  have h := hind.indepFun_finset _ _ hdis hx
  have hm : ∀ i : ℕ, Measurable fun (w : (Finset.Ico i (i + d)) → E) (k : Fin d) => w ⟨i + k, Finset.mem_Ico.2 ⟨by omega, by omega⟩⟩ :=
    fun i => measurable_pi_lambda _ fun k => measurable_pi_apply _
  exact h.comp (hm i) (hm j)

/-- Strong law of large numbers for functions of a moving window. -/
theorem window_strong [IsProbabilityMeasure P] {ξ : ℕ → Ω → E} (hx : ∀ i, Measurable (ξ i)) (hlaw : ∀ i, Q.map (ξ i) = P) (hind : iIndepFun ξ Q) {d : ℕ}
    (hd : 0 < d) {f : (Fin d → E) → ℝ} (hf : Measurable f) (hfi : Integrable f (Measure.pi fun _ : Fin d => P)) :
    ∀ᵐ ω ∂Q, Tendsto (fun N : ℕ => (∑ i ∈ Finset.range N, f (window d ξ i ω)) / N) atTop (𝓝 (∫ w, f w ∂Measure.pi fun _ : Fin d => P)) := by
  have hm := window_measurable hx d
  have hl := window_law hx hlaw hind d
  have hr : ∀ r, ∀ᵐ ω ∂Q, Tendsto (fun M : ℕ => (∑ j ∈ Finset.range M, f (window d ξ (r + d * j) ω)) / M) atTop
      (𝓝 (∫ w, f w ∂Measure.pi fun _ : Fin d => P)) := by
    intro r
    have h0 : Integrable (fun ω => f (window d ξ (r + d * 0) ω)) Q := by
      rw [← hl (r + d * 0)] at hfi
      exact hfi.comp_measurable (hm _)
    have h := strong_law_ae_real (μ := Q) (fun j ω => f (window d ξ (r + d * j) ω)) h0 (fun i j hij => ?_) fun i =>
      (show IdentDistrib (window d ξ (r + d * i)) (window d ξ (r + d * 0)) Q Q from
        ⟨(hm _).aemeasurable, (hm _).aemeasurable, by rw [hl, hl]⟩).comp hf
    · have he : ∫ ω, f (window d ξ (r + d * 0) ω) ∂Q = ∫ w, f w ∂Measure.pi fun _ : Fin d => P := by
        rw [← hl (r + d * 0), integral_map (hm _).aemeasurable hf.aestronglyMeasurable]
      rw [he] at h
      exact h
    · rcases lt_or_gt_of_ne hij with h | h
      · exact (window_indep hx hind d (by nlinarith)).comp hf hf
      · exact ((window_indep hx hind d (by nlinarith)).comp hf hf).symm
  filter_upwards [ae_all_iff.2 hr] with ω hω
  exact avg_residues hd _ _ fun r _ => hω r

end

end Verif.Props
