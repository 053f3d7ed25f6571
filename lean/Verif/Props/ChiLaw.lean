import Verif.Props.LinearConsistency
import Mathlib.Probability.Distributions.Gaussian.Multivariate
import Mathlib.Analysis.InnerProductSpace.PiL2

/-!
# Law of the least squares fit under Gaussian errors

Helpers for C128: the fitted value at a size and the standard error are independent, Normal and Chi distributed.
-/

namespace Verif.Props
open Verif.Py Verif.Model MeasureTheory ProbabilityTheory Set

/-- Leverage of the size `a`. -/
noncomputable def lev {n : ℕ} (x : Fin n → ℝ) (a : ℝ) : ℝ := 1 / n + (a - smean x) ^ 2 / ∑ i, (x i - smean x) ^ 2

theorem sum_centred {n : ℕ} (x : Fin n → ℝ) (hn : 0 < n) : ∑ i, (x i - smean x) = 0 := by
  have hn' : (n : ℝ) ≠ 0 := by exact_mod_cast hn.ne'
  rw [Finset.sum_sub_distrib, smean]
  simp
  field_simp
  ring

/-- Fitted value and residuals of the scaled errors. -/
theorem fit_scaled {n : ℕ} (x g : Fin n → ℝ) (b0 b1 s a : ℝ) (hn : 0 < n) (hS : ∑ i, (x i - smean x) ^ 2 ≠ 0) :
    let y := fun i => b0 + b1 * x i + s * g i
    olsIntercept x y + olsSlope x y * a = b0 + b1 * a + s * (olsIntercept x g + olsSlope x g * a) ∧
    ∀ i, olsResiduals x y i = s * olsResiduals x g i := by
  intro y
  have hm : smean (fun i => s * g i) = s * smean g := by
    simp only [smean, ← Finset.mul_sum, mul_div_assoc]
  have hsl : olsSlope x y = b1 + s * olsSlope x g := by
    rw [slope_error x (fun i => s * g i) b0 b1 hn hS, hm, olsSlope]
    have : ∀ i, (x i - smean x) * (s * g i - s * smean g) = s * ((x i - smean x) * (g i - smean g)) := fun i => by ring
    simp only [this, ← Finset.mul_sum, mul_div_assoc]
  have hin : olsIntercept x y = b0 + s * olsIntercept x g := by
    rw [olsIntercept, hsl, smean_signal x (fun i => s * g i) b0 b1 hn, hm, olsIntercept]
    ring
  refine ⟨by rw [hsl, hin]; ring, fun i => ?_⟩
  rw [olsResiduals, hsl, hin, olsResiduals]
  simp only [y]
  ring

/-- Two orthonormal vectors adapted to the regression at the size `a`. -/
theorem fit_directions {n : ℕ} (x : Fin n → ℝ) (a : ℝ) (hn : 0 < n) (hS : 0 < ∑ i, (x i - smean x) ^ 2) :
    ∃ u0 u1 : Fin n → ℝ, ∑ i, u0 i * u0 i = 1 ∧ ∑ i, u1 i * u1 i = 1 ∧ ∑ i, u0 i * u1 i = 0 ∧
      ∀ g : Fin n → ℝ, olsIntercept x g + olsSlope x g * a = Real.sqrt (lev x a) * ∑ i, u0 i * g i ∧
        ∑ i, olsResiduals x g i ^ 2 = ∑ i, g i ^ 2 - (∑ i, u0 i * g i) ^ 2 - (∑ i, u1 i * g i) ^ 2 := by
  have hN : (0 : ℝ) < n := by exact_mod_cast hn
  set S := ∑ i, (x i - smean x) ^ 2 with hSdef
  set A := a - smean x with hA
  obtain ⟨N, hNdef⟩ : ∃ N : ℝ, (n : ℝ) = N := ⟨_, rfl⟩
  rw [hNdef] at hN
  have hh : lev x a = 1 / N + A ^ 2 / S := by rw [lev, hNdef]
  have hhpos : 0 < lev x a := by rw [hh]; positivity
  set h := lev x a with hhdef
  have hsq : Real.sqrt h ^ 2 = h := Real.sq_sqrt hhpos.le
  have hr : 0 < Real.sqrt h := Real.sqrt_pos.mpr hhpos
  have hNS : 0 < Real.sqrt (N * S) := Real.sqrt_pos.mpr (by positivity)
  have hNS2 : Real.sqrt (N * S) ^ 2 = N * S := Real.sq_sqrt (by positivity)
  have hc := sum_centred x hn
  have hSh : N * S * h = S + N * A ^ 2 := by rw [hh]; field_simp
  -- sums of products of affine functions of the centred defects
  have key : ∀ (p q r t : ℝ), ∑ i, (p + q * (x i - smean x)) * (r + t * (x i - smean x)) = N * (p * r) + q * t * S := by
    intro p q r t
    have : ∀ i, (p + q * (x i - smean x)) * (r + t * (x i - smean x))
        = p * r + (p * t + q * r) * (x i - smean x) + q * t * (x i - smean x) ^ 2 := fun i => by ring
    simp only [this, Finset.sum_add_distrib, ← Finset.mul_sum, hc, ← hSdef, Finset.sum_const, Finset.card_univ, Fintype.card_fin,
      nsmul_eq_mul, hNdef]
    ring
  let u0 : Fin n → ℝ := fun i => (1 / (N * Real.sqrt h)) + (A / (S * Real.sqrt h)) * (x i - smean x)
  let u1 : Fin n → ℝ := fun i => (-A / (Real.sqrt (N * S) * Real.sqrt h)) + (1 / (Real.sqrt (N * S) * Real.sqrt h)) * (x i - smean x)
  have n0 : ∑ i, u0 i * u0 i = 1 := by
    rw [key]
    have : N * (1 / (N * Real.sqrt h) * (1 / (N * Real.sqrt h))) + A / (S * Real.sqrt h) * (A / (S * Real.sqrt h)) * S
        = (1 / N + A ^ 2 / S) / Real.sqrt h ^ 2 := by field_simp
    rw [this, hsq, ← hh, div_self hhpos.ne']
  have n1 : ∑ i, u1 i * u1 i = 1 := by
    rw [key]
    have : N * (-A / (Real.sqrt (N * S) * Real.sqrt h) * (-A / (Real.sqrt (N * S) * Real.sqrt h)))
        + 1 / (Real.sqrt (N * S) * Real.sqrt h) * (1 / (Real.sqrt (N * S) * Real.sqrt h)) * S
        = (S + N * A ^ 2) / (Real.sqrt (N * S) ^ 2 * Real.sqrt h ^ 2) := by field_simp; ring
    rw [this, hNS2, hsq, hSh, div_self (by rw [← hSh]; positivity)]
  have n01 : ∑ i, u0 i * u1 i = 0 := by
    rw [key]
    field_simp
    ring
  refine ⟨u0, u1, n0, n1, n01, fun g => ?_⟩
  set s := ∑ i, (x i - smean x) * (g i - smean g) with hs
  have hgsum : ∑ i, g i = N * smean g := by rw [smean, hNdef]; field_simp
  have hxg : ∑ i, (x i - smean x) * g i = s := by
    have : ∀ i, (x i - smean x) * (g i - smean g) = (x i - smean x) * g i - smean g * (x i - smean x) := fun i => by ring
    rw [hs]
    simp only [this, Finset.sum_sub_distrib, ← Finset.mul_sum, hc, mul_zero, sub_zero]
  have lin : ∀ p q : ℝ, ∑ i, (p + q * (x i - smean x)) * g i = p * (N * smean g) + q * s := by
    intro p q
    have : ∀ i, (p + q * (x i - smean x)) * g i = p * g i + q * ((x i - smean x) * g i) := fun i => by ring
    simp only [this, Finset.sum_add_distrib, ← Finset.mul_sum, hgsum, hxg]
  have hslope : olsSlope x g = s / S := rfl
  have g0 : ∑ i, u0 i * g i = (smean g + A * s / S) / Real.sqrt h := by
    rw [lin]; field_simp
  have g1 : ∑ i, u1 i * g i = (s - N * A * smean g) / (Real.sqrt (N * S) * Real.sqrt h) := by
    rw [lin]; field_simp; ring
  constructor
  · rw [g0, mul_div_cancel₀ _ hr.ne', olsIntercept, hslope, hA]
    field_simp
    ring
  · have hsse := sse_error x g 0 0 hn
    simp only [zero_mul, zero_add, sub_zero] at hsse
    rw [hsse, ← hs, ← hSdef, hslope]
    have hgg : ∑ i, (g i - smean g) ^ 2 = ∑ i, g i ^ 2 - N * smean g ^ 2 := by
      have := centred_cross g g hn
      simp only [← sq] at this
      rw [this, hNdef]
    rw [hgg, g0, g1, div_pow (smean g + A * s / S), div_pow (s - N * A * smean g), mul_pow, hNS2, hsq]
    have e1 : (smean g + A * s / S) ^ 2 / h + (s - N * A * smean g) ^ 2 / (N * S * h) = N * smean g ^ 2 + s ^ 2 / S := by
      have hne : S + N * A ^ 2 ≠ 0 := by rw [← hSh]; positivity
      have e2 : h = (S + N * A ^ 2) / (N * S) := by rw [← hSh]; field_simp
      rw [e2]
      field_simp
      ring
    have e3 : 2 * (s / S) * s = 2 * (s ^ 2 / S) := by ring
    have e4 : (s / S) ^ 2 * S = s ^ 2 / S := by field_simp
    rw [e3, e4]
    linarith

/-- The Chi law with `m` degrees of freedom: the norm of `m` independent standard Gaussian variables. -/
noncomputable def chiLaw (m : ℕ) : Measure ℝ :=
  (Measure.pi fun _ : Fin m => gaussianReal 0 1).map fun g => Real.sqrt (∑ i, g i ^ 2)

theorem chi_measurable (m : ℕ) : Measurable fun g : Fin m → ℝ => Real.sqrt (∑ i, g i ^ 2) :=
  Real.continuous_sqrt.measurable.comp (Finset.measurable_sum _ fun i _ => (measurable_pi_apply i).pow_const 2)

instance chiLaw_isProbability (m : ℕ) : IsProbabilityMeasure (chiLaw m) :=
  Measure.isProbabilityMeasure_map (chi_measurable m).aemeasurable

theorem chiLaw_pos {m : ℕ} (hm : 0 < m) : ∀ᵐ t ∂(chiLaw m), 0 < t := by
  rw [chiLaw, ae_map_iff (chi_measurable m).aemeasurable measurableSet_Ioi]
  have : NullSingletonClass (gaussianReal 0 1) := nullSingletonClass_gaussianReal one_ne_zero
  have h0 : ∀ᵐ g ∂(Measure.pi fun _ : Fin m => gaussianReal 0 1), g ⟨0, hm⟩ ≠ 0 := by
    have hmp := measurePreserving_eval (fun _ : Fin m => gaussianReal 0 1) ⟨0, hm⟩
    have : ∀ᵐ t ∂(gaussianReal 0 1), t ≠ 0 := by
      rw [ae_iff]; simp
    exact hmp.quasiMeasurePreserving.ae this
  filter_upwards [h0] with g hg
  apply Real.sqrt_pos.mpr
  have h1 : 0 < g ⟨0, hm⟩ ^ 2 := by positivity
  exact lt_of_lt_of_le h1 (Finset.single_le_sum (f := fun i => g i ^ 2) (fun i _ => sq_nonneg _) (Finset.mem_univ _))

/-- Split of independent standard Gaussian variables: the first one and the norm of those after the second. -/
theorem split_law (m : ℕ) :
    (Measure.pi fun _ : Fin (m + 2) => gaussianReal 0 1).map (fun g => (g 0, Real.sqrt (∑ i : Fin m, g i.succ.succ ^ 2)))
      = (gaussianReal 0 1).prod (chiLaw m) := by
  have hp := measurePreserving_piFinSuccAbove (fun _ : Fin (m + 2) => gaussianReal 0 1) 0
  have hq := measurePreserving_piFinSuccAbove (fun _ : Fin (m + 1) => gaussianReal 0 1) 0
  have h2 : MeasurePreserving (fun g : Fin (m + 1) → ℝ => fun i : Fin m => g i.succ) (Measure.pi fun _ => gaussianReal 0 1)
      (Measure.pi fun _ => gaussianReal 0 1) := by
    have := (measurePreserving_snd (μ := gaussianReal 0 1) (ν := Measure.pi fun _ : Fin m => gaussianReal 0 1)).comp hq
    exact this
  have h3 : MeasurePreserving (fun g : Fin (m + 1) → ℝ => Real.sqrt (∑ i : Fin m, g i.succ ^ 2)) (Measure.pi fun _ => gaussianReal 0 1)
      (chiLaw m) := by
    have : MeasurePreserving (fun g : Fin m → ℝ => Real.sqrt (∑ i, g i ^ 2)) (Measure.pi fun _ => gaussianReal 0 1) (chiLaw m) :=
      ⟨chi_measurable m, rfl⟩
    exact this.comp h2
  have h4 := ((MeasurePreserving.id (gaussianReal 0 1)).prod h3).comp hp
  exact h4.map_eq

/-- **Law of the fit.**  For independent standard Gaussian errors the standardised fitted value and the residual norm are independent,
standard Gaussian and Chi distributed with `n-2` degrees of freedom. -/
theorem fit_law {m : ℕ} (x : Fin (m + 2) → ℝ) (a : ℝ) (hS : 0 < ∑ i, (x i - smean x) ^ 2) :
    (Measure.pi fun _ : Fin (m + 2) => gaussianReal 0 1).map
      (fun g => ((olsIntercept x g + olsSlope x g * a) / Real.sqrt (lev x a), Real.sqrt (∑ i, olsResiduals x g i ^ 2)))
      = (gaussianReal 0 1).prod (chiLaw m) := by
  obtain ⟨u0, u1, n0, n1, n01, hu⟩ := fit_directions x a (by omega) hS
  have hlev : 0 < Real.sqrt (lev x a) := by
    apply Real.sqrt_pos.mpr
    have : (0 : ℝ) < (m + 2 : ℕ) := by positivity
    unfold lev
    positivity
  let E := EuclideanSpace ℝ (Fin (m + 2))
  let v : Fin (m + 2) → E := fun k => if k = 0 then WithLp.toLp 2 u0 else WithLp.toLp 2 u1
  have hin : ∀ p q : Fin (m + 2) → ℝ, inner ℝ (WithLp.toLp 2 p : E) (WithLp.toLp 2 q) = ∑ i, p i * q i := by
    intro p q
    rw [PiLp.inner_apply]
    simp [mul_comm]
  have hne : (1 : Fin (m + 2)) ≠ 0 := by
    intro h; have := congrArg Fin.val h; simp at this
  have horth : Orthonormal ℝ (({0, 1} : Set (Fin (m + 2))).domRestrict v) := by
    rw [orthonormal_iff_ite]
    rintro ⟨i, hi⟩ ⟨j, hj⟩
    simp only [Set.mem_insert_iff, Set.mem_singleton_iff] at hi hj
    have n10 : ∑ i, u1 i * u0 i = 0 := by rw [← n01]; exact Finset.sum_congr rfl fun i _ => mul_comm _ _
    change inner ℝ (v i) (v j) = _
    have v0 : v 0 = WithLp.toLp 2 u0 := by simp [v]
    have v1 : v 1 = WithLp.toLp 2 u1 := by simp [v, hne]
    rcases hi with rfl | rfl <;> rcases hj with rfl | rfl
    · rw [v0, hin, n0]; simp
    · rw [v0, v1, hin, n01]; simp [hne.symm]
    · rw [v0, v1, hin, n10]; simp [hne]
    · rw [v1, hin, n1]; simp
  obtain ⟨b, hb⟩ := horth.exists_orthonormalBasis_extension_of_card_eq (by simp [E])
  have b0 : b 0 = WithLp.toLp 2 u0 := by rw [hb 0 (by simp)]; simp [v]
  have b1 : b 1 = WithLp.toLp 2 u1 := by rw [hb 1 (by simp)]; simp [v, hne]
  -- the coordinates of the error vector
  have c0 : ∀ g : Fin (m + 2) → ℝ, b.repr (WithLp.toLp 2 g) 0 = ∑ i, u0 i * g i := fun g => by
    rw [b.repr_apply_apply, b0, hin]
  have c1 : ∀ g : Fin (m + 2) → ℝ, b.repr (WithLp.toLp 2 g) 1 = ∑ i, u1 i * g i := fun g => by
    rw [b.repr_apply_apply, b1, hin]
  have hnorm : ∀ g : Fin (m + 2) → ℝ, ∑ k, b.repr (WithLp.toLp 2 g) k ^ 2 = ∑ i, g i ^ 2 := by
    intro g
    have h1 := EuclideanSpace.real_norm_sq_eq (b.repr (WithLp.toLp 2 g))
    have h2 := EuclideanSpace.real_norm_sq_eq (WithLp.toLp 2 g : E)
    rw [LinearIsometryEquiv.norm_map] at h1
    rw [← h1, h2]
  have hrest : ∀ g : Fin (m + 2) → ℝ, ∑ i, olsResiduals x g i ^ 2 = ∑ i : Fin m, b.repr (WithLp.toLp 2 g) i.succ.succ ^ 2 := by
    intro g
    have h := hnorm g
    rw [Fin.sum_univ_succ, Fin.sum_univ_succ, c0] at h
    rw [show (Fin.succ (0 : Fin (m + 1))) = 1 from rfl, c1] at h
    rw [(hu g).2, ← h]
    ring
  have hval : ∀ g : Fin (m + 2) → ℝ, (olsIntercept x g + olsSlope x g * a) / Real.sqrt (lev x a) = b.repr (WithLp.toLp 2 g) 0 := by
    intro g
    rw [(hu g).1, c0, mul_div_cancel_left₀ _ hlev.ne']
  -- their law
  have hlaw : (Measure.pi fun _ : Fin (m + 2) => gaussianReal 0 1).map (fun g => WithLp.ofLp (b.repr (WithLp.toLp 2 g)))
      = Measure.pi fun _ : Fin (m + 2) => gaussianReal 0 1 := by
    have h1 := map_pi_eq_stdGaussian (ι := Fin (m + 2))
    have h2 : (stdGaussian E).map b.repr = stdGaussian E := stdGaussian_map b.repr
    have h3 : (stdGaussian E).map WithLp.ofLp = Measure.pi fun _ : Fin (m + 2) => gaussianReal 0 1 := by
      rw [← h1, Measure.map_map (by fun_prop) (by fun_prop)]
      have : (WithLp.ofLp ∘ WithLp.toLp 2 : (Fin (m + 2) → ℝ) → _) = id := by ext; simp
      rw [this, Measure.map_id]
    have hmr : Measurable (b.repr : E → E) := b.repr.continuous.measurable
    have h4 := h3
    rw [← h2, ← h1, Measure.map_map hmr (by fun_prop), Measure.map_map (by fun_prop) (hmr.comp (by fun_prop))] at h4
    exact h4
  have hms : Measurable fun g : Fin (m + 2) → ℝ => WithLp.ofLp (b.repr (WithLp.toLp 2 g)) := by
    have hmr : Measurable (b.repr : E → E) := b.repr.continuous.measurable
    exact (by fun_prop : Measurable (WithLp.ofLp : E → _)).comp (hmr.comp (by fun_prop))
  have hmt : Measurable fun g : Fin (m + 2) → ℝ => (g 0, Real.sqrt (∑ i : Fin m, g i.succ.succ ^ 2)) :=
    (measurable_pi_apply 0).prodMk (Real.continuous_sqrt.measurable.comp
      (Finset.measurable_sum _ fun i _ => (measurable_pi_apply _).pow_const 2))
  rw [← split_law m]
  conv_rhs => rw [← hlaw]
  rw [Measure.map_map hmt hms]
  congr 1
  funext g
  simp only [Function.comp, hval, hrest]

end Verif.Props
