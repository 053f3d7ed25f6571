import Verif.Props.HmcCalibration
import Mathlib.Probability.Distributions.Gaussian.Multivariate
import Mathlib.Analysis.InnerProductSpace.Projection.Reflection

/-!
# Mean and second moment of the ratio of two quadratic forms of normal variables (for C176)
-/

namespace Verif.Props
open Verif.Py Verif.Model MeasureTheory ProbabilityTheory

/-- The mirror image of `z` through the hyperplane orthogonal to `v`. -/
noncomputable def mirror {n : ℕ} (v z : Fin n → ℝ) : Fin n → ℝ := fun k => z k - 2 * ((∑ l, v l * z l) / ∑ l, v l ^ 2) * v k

theorem mirror_preserving {n : ℕ} (v : Fin n → ℝ) : MeasurePreserving (mirror v) (stdSample n) (stdSample n) := by
  have m1 : MeasurePreserving (MeasurableEquiv.toLp 2 (Fin n → ℝ)) (stdSample n) (stdGaussian (EuclideanSpace ℝ (Fin n))) :=
    ⟨(MeasurableEquiv.toLp 2 (Fin n → ℝ)).measurable, map_pi_eq_stdGaussian⟩
  have m3 : MeasurePreserving (MeasurableEquiv.toLp 2 (Fin n → ℝ)).symm (stdGaussian (EuclideanSpace ℝ (Fin n))) (stdSample n) := m1.symm
  set f : EuclideanSpace ℝ (Fin n) ≃ₗᵢ[ℝ] EuclideanSpace ℝ (Fin n) := Submodule.reflection (Submodule.span ℝ {(WithLp.toLp 2 v : EuclideanSpace ℝ (Fin n))})ᗮ with hf
  have m2 : MeasurePreserving f (stdGaussian (EuclideanSpace ℝ (Fin n))) (stdGaussian (EuclideanSpace ℝ (Fin n))) := ⟨f.continuous.measurable, stdGaussian_map f⟩
  convert m3.comp (m2.comp m1) using 1
  funext z k
  have hn : ‖(WithLp.toLp 2 v : EuclideanSpace ℝ (Fin n))‖ ^ 2 = ∑ l, v l ^ 2 := by rw [EuclideanSpace.real_norm_sq_eq]
  have hi : inner ℝ (WithLp.toLp 2 v : EuclideanSpace ℝ (Fin n)) (WithLp.toLp 2 z) = ∑ l, v l * z l := by
    rw [PiLp.inner_apply]; exact Finset.sum_congr rfl fun l _ => by simp [mul_comm]
  have hr : f (WithLp.toLp 2 z) = WithLp.toLp 2 z - (2 * ((∑ l, v l * z l) / ∑ l, v l ^ 2)) • WithLp.toLp 2 v := by
    rw [hf, Submodule.reflection_orthogonal_apply, Submodule.reflection_singleton_apply, hi, neg_sub, RCLike.ofReal_real_eq_id, id, hn, two_nsmul,
      ← add_smul, ← two_mul]
  change mirror v z k = (f (WithLp.toLp 2 z)).ofLp k
  rw [hr]
  rfl

theorem mirror_sum {n : ℕ} (W : Finset (Fin n)) (v z : Fin n → ℝ) (hv : ∀ k ∉ W, v k = 0) (h0 : ∑ l, v l ^ 2 ≠ 0) :
    ∑ k ∈ W, mirror v z k ^ 2 = ∑ k ∈ W, z k ^ 2 := by
  set t := (∑ l, v l * z l) / ∑ l, v l ^ 2 with ht
  have e1 : ∑ k ∈ W, v k * z k = ∑ l, v l * z l :=
    Finset.sum_subset (Finset.subset_univ W) fun k _ hk => by rw [hv k hk, zero_mul]
  have e2 : ∑ k ∈ W, v k ^ 2 = ∑ l, v l ^ 2 :=
    Finset.sum_subset (Finset.subset_univ W) fun k _ hk => by rw [hv k hk]; ring
  have e3 : ∀ k, mirror v z k ^ 2 = z k ^ 2 - 4 * t * (v k * z k) + 4 * t ^ 2 * v k ^ 2 := by
    intro k; simp only [mirror, ← ht]; ring
  simp only [e3, Finset.sum_add_distrib, Finset.sum_sub_distrib, ← Finset.mul_sum, e1, e2]
  have : ∑ l, v l * z l = t * ∑ l, v l ^ 2 := by rw [ht]; field_simp
  rw [this]; ring

/-- The direction `e_i + c e_j`. -/
noncomputable def dirn {n : ℕ} (i j : Fin n) (c : ℝ) : Fin n → ℝ := fun k => if k = i then 1 else if k = j then c else 0

theorem dirn_dot {n : ℕ} {i j : Fin n} (hij : i ≠ j) (c : ℝ) (f : ℝ → ℝ → ℝ) (hf : ∀ b, f 0 b = 0) (z : Fin n → ℝ) :
    ∑ l, f (dirn i j c l) (z l) = f 1 (z i) + f c (z j) := by
  rw [← Finset.add_sum_erase _ _ (Finset.mem_univ i), ← Finset.add_sum_erase _ _ (Finset.mem_erase.2 ⟨hij.symm, Finset.mem_univ j⟩),
    Finset.sum_eq_zero]
  · simp [dirn, hij.symm]
  · intro l hl
    simp only [Finset.mem_erase] at hl
    simp [dirn, hl.1, hl.2.1, hf]

theorem mirror_dirn {n : ℕ} {i j : Fin n} (hij : i ≠ j) (c : ℝ) (z : Fin n → ℝ) :
    mirror (dirn i j c) z i = z i - 2 * ((z i + c * z j) / (1 + c ^ 2)) ∧
    mirror (dirn i j c) z j = z j - 2 * ((z i + c * z j) / (1 + c ^ 2)) * c := by
  have h1 := dirn_dot hij c (fun a b => a * b) (fun b => zero_mul b) z
  have h2 := dirn_dot hij c (fun a _ => a ^ 2) (fun _ => by ring) z
  simp only [one_mul, one_pow] at h1 h2
  simp only [mirror, h1, h2]
  simp [dirn, hij.symm]

/-- The share of coordinate `i` in the squared norm over `W`. -/
noncomputable def share {n : ℕ} (W : Finset (Fin n)) (i : Fin n) (z : Fin n → ℝ) : ℝ := z i ^ 2 / ∑ k ∈ W, z k ^ 2

section
variable {n : ℕ} {W : Finset (Fin n)}

theorem share_measurable (i : Fin n) : Measurable (share W i) := by
  unfold share
  fun_prop

theorem share_bounds {i : Fin n} (hi : i ∈ W) (z : Fin n → ℝ) : 0 ≤ share W i z ∧ share W i z ≤ 1 := by
  have h0 : 0 ≤ ∑ k ∈ W, z k ^ 2 := Finset.sum_nonneg fun k _ => sq_nonneg _
  refine ⟨div_nonneg (sq_nonneg _) h0, div_le_one_of_le₀ ?_ h0⟩
  exact Finset.single_le_sum (f := fun k => z k ^ 2) (fun k _ => sq_nonneg _) hi

theorem integral_mirror (v : Fin n → ℝ) {f : (Fin n → ℝ) → ℝ} (hf : Measurable f) :
    ∫ z, f (mirror v z) ∂stdSample n = ∫ z, f z ∂stdSample n := by
  have h := mirror_preserving v
  rw [← integral_map h.measurable.aemeasurable hf.aestronglyMeasurable, h.map_eq]

theorem share_mul_integrable {i j : Fin n} (hi : i ∈ W) (hj : j ∈ W) : Integrable (fun z => share W i z * share W j z) (stdSample n) := by
  refine Integrable.of_bound ((share_measurable i).mul (share_measurable j)).aestronglyMeasurable 1 (Filter.Eventually.of_forall fun z => ?_)
  obtain ⟨a, b⟩ := share_bounds hi z
  obtain ⟨c, d⟩ := share_bounds hj z
  rw [Real.norm_eq_abs, abs_of_nonneg (mul_nonneg a c)]
  exact mul_le_one₀ b c d

theorem share_integrable {i : Fin n} (hi : i ∈ W) : Integrable (share W i) (stdSample n) := by
  refine Integrable.of_bound (share_measurable i).aestronglyMeasurable 1 (Filter.Eventually.of_forall fun z => ?_)
  obtain ⟨a, b⟩ := share_bounds hi z
  rwa [Real.norm_eq_abs, abs_of_nonneg a]

theorem dirn_ne {i j : Fin n} (hij : i ≠ j) (c : ℝ) : ∑ l, dirn i j c l ^ 2 ≠ 0 := by
  have := dirn_dot hij c (fun a _ => a ^ 2) (fun _ => by ring) (fun _ => 0)
  simp only [one_pow] at this
  rw [this]; positivity

theorem dirn_out {i j : Fin n} (hi : i ∈ W) (hj : j ∈ W) (c : ℝ) : ∀ k ∉ W, dirn i j c k = 0 := by
  intro k hk
  have h1 : k ≠ i := fun h => hk (h ▸ hi)
  have h2 : k ≠ j := fun h => hk (h ▸ hj)
  simp [dirn, h1, h2]

theorem share_mirror {i j : Fin n} (hi : i ∈ W) (hj : j ∈ W) (hij : i ≠ j) (c : ℝ) (l : Fin n) (z : Fin n → ℝ) :
    share W l (mirror (dirn i j c) z) = mirror (dirn i j c) z l ^ 2 / ∑ k ∈ W, z k ^ 2 := by
  rw [share, mirror_sum W _ z (dirn_out hi hj c) (dirn_ne hij c)]

/-- Exchanging two coordinates. -/
theorem share_swap {i j : Fin n} (hi : i ∈ W) (hj : j ∈ W) (hij : i ≠ j) (z : Fin n → ℝ) :
    share W i (mirror (dirn i j (-1)) z) = share W j z := by
  rw [share_mirror hi hj hij, (mirror_dirn hij _ z).1, share]
  congr 2
  ring

theorem share_integral_eq {i j : Fin n} (hi : i ∈ W) (hj : j ∈ W) :
    ∫ z, share W i z ∂stdSample n = ∫ z, share W j z ∂stdSample n ∧
    ∫ z, share W i z * share W i z ∂stdSample n = ∫ z, share W j z * share W j z ∂stdSample n := by
  by_cases hij : i = j
  · rw [hij]; exact ⟨rfl, rfl⟩
  · refine ⟨?_, ?_⟩
    · rw [← integral_mirror (dirn i j (-1)) (share_measurable i)]
      simp only [share_swap hi hj hij]
    · rw [← integral_mirror (dirn i j (-1)) (f := fun z => share W i z * share W i z) ((share_measurable i).mul (share_measurable i))]
      simp only [share_swap hi hj hij]

/-- Two rotations: the fourth moment of a share is three times the product moment. -/
theorem share_kurtosis {i j : Fin n} (hi : i ∈ W) (hj : j ∈ W) (hij : i ≠ j) :
    ∫ z, share W i z * share W i z ∂stdSample n = 3 * ∫ z, share W i z * share W j z ∂stdSample n := by
  have hm : Measurable fun z => share W i z * share W j z := (share_measurable i).mul (share_measurable j)
  have a := integral_mirror (dirn i j (-2)) hm
  have b := integral_mirror (dirn i j 2) hm
  have key : ∀ z, share W i (mirror (dirn i j (-2)) z) * share W j (mirror (dirn i j (-2)) z)
      + share W i (mirror (dirn i j 2) z) * share W j (mirror (dirn i j 2) z)
      = 288 / 625 * (share W i z * share W i z) + (288 / 625 * (share W j z * share W j z) - 478 / 625 * (share W i z * share W j z)) := by
    intro z
    simp only [share_mirror hi hj hij, (mirror_dirn hij _ z).1, (mirror_dirn hij _ z).2]
    simp only [share]
    ring
  have ii := share_mul_integrable hi hi
  have jj := share_mul_integrable hj hj
  have ij := share_mul_integrable hi hj
  have comp : ∀ c, Integrable (fun z => share W i (mirror (dirn i j c) z) * share W j (mirror (dirn i j c) z)) (stdSample n) := by
    intro c
    refine Integrable.of_bound (hm.comp (mirror_preserving (dirn i j c)).measurable).aestronglyMeasurable 1 (Filter.Eventually.of_forall fun z => ?_)
    obtain ⟨a, b⟩ := share_bounds hi (mirror (dirn i j c) z)
    obtain ⟨c', d⟩ := share_bounds hj (mirror (dirn i j c) z)
    rw [Real.norm_eq_abs, abs_of_nonneg (mul_nonneg a c')]
    exact mul_le_one₀ b c' d
  have hsum := integral_add (comp (-2)) (comp 2)
  simp only [key] at hsum
  have hd : Integrable (fun z => 288 / 625 * (share W j z * share W j z) - 478 / 625 * (share W i z * share W j z)) (stdSample n) :=
    (jj.const_mul _).sub (ij.const_mul _)
  rw [integral_add (ii.const_mul _) hd, integral_sub (jj.const_mul _) (ij.const_mul _), integral_const_mul,
    integral_const_mul, integral_const_mul, a, b, ← (share_integral_eq hi hj).2] at hsum
  linarith

theorem share_sum (hW : W.Nonempty) : ∀ᵐ z ∂stdSample n, ∑ i ∈ W, share W i z = 1 := by
  obtain ⟨i, hi⟩ := hW
  have h1 : ∀ᵐ t ∂gaussianReal 0 1, t ≠ 0 := by
    have := nullSingletonClass_gaussianReal (μ := 0) (v := 1) one_ne_zero
    rw [ae_iff]
    simp
  have h2 := (measurePreserving_eval (fun _ : Fin n => gaussianReal 0 1) i).quasiMeasurePreserving.ae h1
  filter_upwards [h2] with z hz
  simp only [share]
  rw [← Finset.sum_div, div_self]
  refine (Finset.sum_pos' (fun k _ => sq_nonneg _) ⟨i, hi, ?_⟩).ne'
  have : z i ≠ 0 := hz
  positivity

theorem share_mean {i : Fin n} (hi : i ∈ W) : ∫ z, share W i z ∂stdSample n = 1 / W.card := by
  have h1 : ∫ z, ∑ j ∈ W, share W j z ∂stdSample n = 1 := by
    rw [integral_congr_ae (share_sum ⟨i, hi⟩)]; simp
  rw [integral_finsetSum _ fun j hj => share_integrable hj, Finset.sum_congr rfl fun j hj => (share_integral_eq hj hi).1, Finset.sum_const,
    nsmul_eq_mul] at h1
  have : (W.card : ℝ) ≠ 0 := Nat.cast_ne_zero.2 (Finset.card_pos.2 ⟨i, hi⟩).ne'
  rw [eq_div_iff this, mul_comm]; exact h1

theorem share_second {i j : Fin n} (hi : i ∈ W) (hj : j ∈ W) :
    ∫ z, share W i z * share W j z ∂stdSample n = (if i = j then 3 else 1) / (W.card * (W.card + 2)) := by
  have hk : (W.card : ℝ) ≠ 0 := Nat.cast_ne_zero.2 (Finset.card_pos.2 ⟨i, hi⟩).ne'
  have hk2 : (W.card : ℝ) + 2 ≠ 0 := by positivity
  set p := ∫ z, share W i z * share W i z ∂stdSample n with hp
  have hall : ∀ a ∈ W, ∀ b ∈ W, ∫ z, share W a z * share W b z ∂stdSample n = (if a = b then 2 / 3 * p else 0) + p / 3 := by
    intro a ha b hb
    by_cases hab : a = b
    · rw [← hab, if_pos rfl, (share_integral_eq ha hi).2]; ring
    · have := share_kurtosis ha hb hab
      rw [(share_integral_eq ha hi).2] at this
      rw [if_neg hab]; linarith
  have h1 : ∫ z, (∑ a ∈ W, ∑ b ∈ W, share W a z * share W b z) ∂stdSample n = 1 := by
    have : ∀ᵐ z ∂stdSample n, (∑ a ∈ W, ∑ b ∈ W, share W a z * share W b z) = 1 := by
      filter_upwards [share_sum (W := W) ⟨i, hi⟩] with z hz
      rw [← Finset.sum_mul_sum, hz, one_mul]
    rw [integral_congr_ae this]; simp
  rw [integral_finsetSum _ fun a ha => integrable_finsetSum _ fun b hb => share_mul_integrable ha hb] at h1
  have h2 : ∀ a ∈ W, ∫ z, ∑ b ∈ W, share W a z * share W b z ∂stdSample n = 2 / 3 * p + W.card * (p / 3) := by
    intro a ha
    rw [integral_finsetSum _ fun b hb => share_mul_integrable ha hb, Finset.sum_congr rfl fun b hb => hall a ha b hb, Finset.sum_add_distrib,
      Finset.sum_ite_eq, if_pos ha, Finset.sum_const, nsmul_eq_mul]
  rw [Finset.sum_congr rfl h2, Finset.sum_const, nsmul_eq_mul] at h1
  have hp3 : p = 3 / (W.card * (W.card + 2)) := by
    rw [eq_div_iff (mul_ne_zero hk hk2)]; linarith
  rw [hall i hi j hj, hp3]
  split_ifs <;> ring

/-- Mean of the ratio of two quadratic forms with the same axes. -/
theorem ratio_mean (lam : Fin n → ℝ) :
    ∫ z, (∑ i ∈ W, lam i * z i ^ 2) / ∑ i ∈ W, z i ^ 2 ∂stdSample n = (∑ i ∈ W, lam i) / W.card := by
  have h : ∀ z : Fin n → ℝ, (∑ i ∈ W, lam i * z i ^ 2) / ∑ i ∈ W, z i ^ 2 = ∑ i ∈ W, lam i * share W i z := by
    intro z; rw [Finset.sum_div]; exact Finset.sum_congr rfl fun i _ => by rw [share]; ring
  simp only [h]
  rw [integral_finsetSum _ fun i hi => (share_integrable hi).const_mul _, Finset.sum_congr rfl fun i hi => by
    rw [integral_const_mul, share_mean hi], ← Finset.sum_mul]
  ring

/-- Second moment of the ratio of two quadratic forms with the same axes. -/
theorem ratio_second (lam : Fin n → ℝ) :
    ∫ z, ((∑ i ∈ W, lam i * z i ^ 2) / ∑ i ∈ W, z i ^ 2) ^ 2 ∂stdSample n
      = (2 * ∑ i ∈ W, lam i ^ 2 + (∑ i ∈ W, lam i) ^ 2) / (W.card * (W.card + 2)) := by
  have h : ∀ z : Fin n → ℝ, ((∑ i ∈ W, lam i * z i ^ 2) / ∑ i ∈ W, z i ^ 2) ^ 2
      = ∑ i ∈ W, ∑ j ∈ W, lam i * lam j * (share W i z * share W j z) := by
    intro z
    rw [Finset.sum_div, sq, Finset.sum_mul_sum]
    exact Finset.sum_congr rfl fun i _ => Finset.sum_congr rfl fun j _ => by rw [share, share]; ring
  simp only [h]
  rw [integral_finsetSum _ fun i hi => integrable_finsetSum _ fun j hj => (share_mul_integrable hi hj).const_mul _]
  have h2 : ∀ i ∈ W, ∫ z, ∑ j ∈ W, lam i * lam j * (share W i z * share W j z) ∂stdSample n
      = (2 * lam i ^ 2 + lam i * ∑ j ∈ W, lam j) / (W.card * (W.card + 2)) := by
    intro i hi
    rw [integral_finsetSum _ fun j hj => (share_mul_integrable hi hj).const_mul _]
    have h3 : ∀ j ∈ W, ∫ z, lam i * lam j * (share W i z * share W j z) ∂stdSample n
        = (if i = j then 2 * lam i ^ 2 / (W.card * (W.card + 2)) else 0) + lam i * lam j / (W.card * (W.card + 2)) := by
      intro j hj
      rw [integral_const_mul, share_second hi hj]
      by_cases hij : i = j
      · rw [if_pos hij, if_pos hij, ← hij]; ring
      · rw [if_neg hij, if_neg hij]; ring
    rw [Finset.sum_congr rfl h3, Finset.sum_add_distrib, Finset.sum_ite_eq, if_pos hi, ← Finset.sum_div, ← Finset.mul_sum]
    ring
  rw [Finset.sum_congr rfl h2, ← Finset.sum_div, Finset.sum_add_distrib, ← Finset.mul_sum, ← Finset.sum_mul]
  ring

end
end Verif.Props
