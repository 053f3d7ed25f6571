import Verif.Props.KrigPredict
import Mathlib.Analysis.Matrix.Order
import Mathlib.Analysis.SpecialFunctions.ImproperIntegrals
import Mathlib.Analysis.Calculus.ContDiff.Defs
import Mathlib.MeasureTheory.Integral.IntegralEqImproper
import Mathlib.MeasureTheory.Function.L2Space

/-!
# Signals compatible with a covariance model; the absolute exponential model
-/

namespace Verif.Props
open Verif.Model Matrix MeasureTheory Filter Topology

variable {X : Type}

/-- A signal compatible with a covariance model: every combination of its values is bounded by the standard deviation of the same combination of the
process (the signal is in the Hilbert space of the model, with norm at most `C`). -/
def SignalBound (k : X → X → ℝ) (C : ℝ) (g : X → ℝ) : Prop :=
  ∀ (m : ℕ) (xs : Fin m → X) (c : Fin m → ℝ), (∑ i, c i * g (xs i)) ^ 2 ≤ C ^ 2 * ∑ i, ∑ j, c i * c j * k (xs i) (xs j)

/-- The form of a covariance matrix. -/
theorem form_eq {m : ℕ} (k : X → X → ℝ) (xs : Fin m → X) (c : Fin m → ℝ) :
    c ⬝ᵥ (krigK k xs *ᵥ c) = ∑ i, ∑ j, c i * c j * k (xs i) (xs j) := by
  simp only [dotProduct, mulVec, krigK, of_apply, Finset.mul_sum]
  exact Finset.sum_congr rfl fun i _ => Finset.sum_congr rfl fun j _ => by ring

theorem krigK_herm {m : ℕ} (k : X → X → ℝ) (hs : ∀ x y, k x y = k y x) (xs : Fin m → X) : (krigK k xs).IsHermitian := by
  ext i j
  simp [krigK, hs (xs j)]

theorem krigK_psd {m : ℕ} (k : X → X → ℝ) (hk : IsCovariance k) (xs : Fin m → X) : (krigK k xs).PosSemidef := by
  rw [posSemidef_iff_dotProduct_mulVec]
  refine ⟨krigK_herm k hk.symm xs, fun c => ?_⟩
  rw [star_trivial, form_eq]
  exact hk.nonneg m xs c

/-- Products of covariance models. -/
theorem IsCovariance.mul {k k' : X → X → ℝ} (hk : IsCovariance k) (hk' : IsCovariance k') : IsCovariance fun x y => k x y * k' x y where
  symm x y := by rw [hk.symm, hk'.symm]
  nonneg m xs c := by
    have h := ((krigK_psd k hk xs).hadamard (krigK_psd k' hk' xs)).dotProduct_mulVec_nonneg c
    have e : krigK k xs ⊙ krigK k' xs = krigK (fun x y => k x y * k' x y) xs := by ext i j; simp [krigK]
    rwa [e, star_trivial, form_eq] at h

theorem isCovariance_one : IsCovariance fun _ _ : X => (1 : ℝ) where
  symm _ _ := rfl
  nonneg m xs c := by
    have : ∑ i, ∑ j, c i * c j * (1 : ℝ) = (∑ i, c i) ^ 2 := by
      rw [sq, Finset.sum_mul_sum]; simp
    rw [this]
    exact sq_nonneg _

theorem IsCovariance.prod {ι : Type} (s : Finset ι) (k : ι → X → X → ℝ) (hk : ∀ j, IsCovariance (k j)) :
    IsCovariance fun x y => ∏ j ∈ s, k j x y := by
  classical
  induction s using Finset.induction_on with
  | empty => simpa using isCovariance_one
  | insert a s ha ih => simpa only [Finset.prod_insert ha] using (hk a).mul ih

theorem IsCovariance.comap {Y : Type} {k : X → X → ℝ} (hk : IsCovariance k) (T : Y → X) : IsCovariance fun x y => k (T x) (T y) where
  symm x y := hk.symm _ _
  nonneg m xs c := hk.nonneg m (fun i => T (xs i)) c

theorem SignalBound.comap {Y : Type} {k : X → X → ℝ} {C : ℝ} {g : X → ℝ} (h : SignalBound k C g) (T : Y → X) :
    SignalBound (fun x y => k (T x) (T y)) C fun x => g (T x) := fun m xs c => h m (fun i => T (xs i)) c

theorem SignalBound.mono {k : X → X → ℝ} {C D : ℝ} {g : X → ℝ} (hk : IsCovariance k) (h : SignalBound k C g) (hCD : C ^ 2 ≤ D ^ 2) : SignalBound k D g :=
  fun m xs c => (h m xs c).trans (mul_le_mul_of_nonneg_right hCD (hk.nonneg m xs c))

/-- Sums of compatible signals. -/
theorem SignalBound.add {k : X → X → ℝ} (hk : IsCovariance k) {C D : ℝ} (hC : 0 ≤ C) (hD : 0 ≤ D) {g h : X → ℝ} (hg : SignalBound k C g)
    (hh : SignalBound k D h) : SignalBound k (C + D) fun x => g x + h x := by
  intro m xs c
  have hq := hk.nonneg m xs c
  set q := ∑ i, ∑ j, c i * c j * k (xs i) (xs j) with hqd
  have h1 : |∑ i, c i * g (xs i)| ≤ C * Real.sqrt q := by
    rw [← Real.sqrt_sq hC, ← Real.sqrt_mul (sq_nonneg C)]
    exact Real.abs_le_sqrt (hg m xs c)
  have h2 : |∑ i, c i * h (xs i)| ≤ D * Real.sqrt q := by
    rw [← Real.sqrt_sq hD, ← Real.sqrt_mul (sq_nonneg D)]
    exact Real.abs_le_sqrt (hh m xs c)
  have e : ∑ i, c i * (g (xs i) + h (xs i)) = ∑ i, c i * g (xs i) + ∑ i, c i * h (xs i) := by
    rw [← Finset.sum_add_distrib]; exact Finset.sum_congr rfl fun i _ => mul_add _ _ _
  have h3 : |∑ i, c i * (g (xs i) + h (xs i))| ≤ (C + D) * Real.sqrt q := by
    rw [e]; exact (abs_add_le _ _).trans (by linarith)
  calc (∑ i, c i * (g (xs i) + h (xs i))) ^ 2 = |∑ i, c i * (g (xs i) + h (xs i))| ^ 2 := (sq_abs _).symm
    _ ≤ ((C + D) * Real.sqrt q) ^ 2 := by gcongr
    _ = (C + D) ^ 2 * q := by rw [mul_pow, Real.sq_sqrt hq]

/-- The remainder of a compatible signal is a covariance. -/
theorem SignalBound.rest {k : X → X → ℝ} (hk : IsCovariance k) {C : ℝ} {g : X → ℝ} (hg : SignalBound k C g) :
    IsCovariance fun x y => C ^ 2 * k x y - g x * g y where
  symm x y := by rw [hk.symm, mul_comm (g x)]
  nonneg m xs c := by
    have h := hg m xs c
    have e : ∑ i, ∑ j, c i * c j * (C ^ 2 * k (xs i) (xs j) - g (xs i) * g (xs j))
        = C ^ 2 * ∑ i, ∑ j, c i * c j * k (xs i) (xs j) - (∑ i, c i * g (xs i)) ^ 2 := by
      rw [sq (∑ i, c i * g (xs i)), Finset.sum_mul_sum, Finset.mul_sum, ← Finset.sum_sub_distrib]
      refine Finset.sum_congr rfl fun i _ => ?_
      rw [Finset.mul_sum, ← Finset.sum_sub_distrib]
      exact Finset.sum_congr rfl fun j _ => by ring
    rw [e]
    linarith

theorem outer_isCovariance (g : X → ℝ) : IsCovariance fun x y => g x * g y where
  symm x y := mul_comm _ _
  nonneg m xs c := by
    have e : ∑ i, ∑ j, c i * c j * (g (xs i) * g (xs j)) = (∑ i, c i * g (xs i)) ^ 2 := by
      rw [sq, Finset.sum_mul_sum]
      exact Finset.sum_congr rfl fun i _ => Finset.sum_congr rfl fun j _ => by ring
    rw [e]
    exact sq_nonneg _

/-- Products of compatible signals are compatible with the product of the models. -/
theorem SignalBound.mul {k k' : X → X → ℝ} (hk : IsCovariance k) (hk' : IsCovariance k') {C D : ℝ} {g h : X → ℝ} (hg : SignalBound k C g)
    (hh : SignalBound k' D h) : SignalBound (fun x y => k x y * k' x y) (C * D) fun x => g x * h x := by
  intro m xs c
  have h1 := ((hg.rest hk).mul hk').nonneg m xs c
  have h2 := ((outer_isCovariance g).mul (hh.rest hk')).nonneg m xs c
  have e1 : ∑ i, ∑ j, c i * c j * ((C ^ 2 * k (xs i) (xs j) - g (xs i) * g (xs j)) * k' (xs i) (xs j))
      = C ^ 2 * (∑ i, ∑ j, c i * c j * (k (xs i) (xs j) * k' (xs i) (xs j))) - ∑ i, ∑ j, c i * c j * (g (xs i) * g (xs j) * k' (xs i) (xs j)) := by
    rw [Finset.mul_sum, ← Finset.sum_sub_distrib]
    refine Finset.sum_congr rfl fun i _ => ?_
    rw [Finset.mul_sum, ← Finset.sum_sub_distrib]
    exact Finset.sum_congr rfl fun j _ => by ring
  have e2 : ∑ i, ∑ j, c i * c j * (g (xs i) * g (xs j) * (D ^ 2 * k' (xs i) (xs j) - h (xs i) * h (xs j)))
      = D ^ 2 * (∑ i, ∑ j, c i * c j * (g (xs i) * g (xs j) * k' (xs i) (xs j))) - (∑ i, c i * (g (xs i) * h (xs i))) ^ 2 := by
    rw [sq (∑ i, c i * (g (xs i) * h (xs i))), Finset.sum_mul_sum, Finset.mul_sum, ← Finset.sum_sub_distrib]
    refine Finset.sum_congr rfl fun i _ => ?_
    rw [Finset.mul_sum, ← Finset.sum_sub_distrib]
    exact Finset.sum_congr rfl fun j _ => by ring
  simp only [e1, e2] at h1 h2
  nlinarith [sq_nonneg D]

theorem SignalBound.prod {ι : Type} (s : Finset ι) (k : ι → X → X → ℝ) (hk : ∀ j, IsCovariance (k j)) (C : ι → ℝ) (g : ι → X → ℝ)
    (hg : ∀ j, SignalBound (k j) (C j) (g j)) : SignalBound (fun x y => ∏ j ∈ s, k j x y) (∏ j ∈ s, C j) fun x => ∏ j ∈ s, g j x := by
  classical
  induction s using Finset.induction_on with
  | empty =>
    intro m xs c
    have : ∑ i, ∑ j, c i * c j * (1 : ℝ) = (∑ i, c i) ^ 2 := by
      rw [sq, Finset.sum_mul_sum]; simp
    simp only [Finset.prod_empty, mul_one, one_pow, one_mul] at this ⊢
    exact this.ge
  | insert a s ha ih => simpa only [Finset.prod_insert ha] using (hg a).mul (hk a) (IsCovariance.prod s k hk) ih

theorem SignalBound.sum {ι : Type} (s : Finset ι) {k : X → X → ℝ} (hk : IsCovariance k) (C : ι → ℝ) (hC : ∀ r, 0 ≤ C r) (g : ι → X → ℝ)
    (hg : ∀ r, SignalBound k (C r) (g r)) : SignalBound k (∑ r ∈ s, C r) fun x => ∑ r ∈ s, g r x := by
  classical
  induction s using Finset.induction_on with
  | empty =>
    intro m xs c
    simp
  | insert a s ha ih =>
    simpa only [Finset.sum_insert ha] using (hg a).add hk (hC a) (Finset.sum_nonneg fun r _ => hC r) ih

/-- Strictly positive definite on distinct points: products of models of the coordinates. -/
theorem prod_strict {ι : Type} (s : Finset ι) (hs : s.Nonempty) (k : ι → X → X → ℝ) {m : ℕ} (xs : Fin m → X)
    (hk : ∀ j, (krigK (k j) xs).PosDef) : (krigK (fun x y => ∏ j ∈ s, k j x y) xs).PosDef := by
  classical
  induction hs using Finset.Nonempty.cons_induction with
  | singleton a => simpa using hk a
  | cons a s ha hs ih =>
    have e : krigK (fun x y => ∏ j ∈ Finset.cons a s ha, k j x y) xs = krigK (k a) xs ⊙ krigK (fun x y => ∏ j ∈ s, k j x y) xs := by
      ext i j; simp [krigK, Finset.prod_insert ha]
    rw [e]
    exact (hk a).hadamard ih

/-! ### One coordinate -/

/-- Absolute exponential model of one coordinate. -/
noncomputable def expK (θ x y : ℝ) : ℝ := Real.exp (-|x - y| / θ)

theorem expK_isCovariance (θ : ℝ) (hθ : 0 < θ) : IsCovariance (expK θ) := by
  have h := (expCov_isCovariance θ hθ).comap fun x : ℝ => (fun _ : Fin 1 => x)
  exact h

/-- The elementary response of the model. -/
noncomputable def expFeat (θ x : ℝ) : ℝ → ℝ := (Set.Iic x).indicator fun t => Real.exp ((t - x) / θ)

theorem expFeat_mul (θ : ℝ) (hθ : 0 < θ) (x y : ℝ) :
    Integrable (fun t => expFeat θ x t * expFeat θ y t) ∧ ∫ t, expFeat θ x t * expFeat θ y t = θ / 2 * expK θ x y := by
  have e : (fun t => expFeat θ x t * expFeat θ y t)
      = (Set.Iic (min x y)).indicator fun t => Real.exp (-(x + y) / θ) * Real.exp (2 / θ * t) := by
    funext t
    unfold expFeat
    rw [← Set.Iic_inter_Iic, ← Set.inter_indicator_mul]
    refine congrFun (congrArg _ (funext fun t => ?_)) t
    rw [← Real.exp_add, ← Real.exp_add]
    congr 1
    field_simp
    ring
  have hI := (integrableOn_exp_mul_Iic (show 0 < 2 / θ by positivity) (min x y)).const_mul (Real.exp (-(x + y) / θ))
  rw [e]
  refine ⟨(integrable_indicator_iff measurableSet_Iic).2 hI, ?_⟩
  rw [integral_indicator measurableSet_Iic, integral_const_mul, integral_exp_mul_Iic (show 0 < 2 / θ by positivity), expK]
  have : -|x - y| / θ = -(x + y) / θ + 2 / θ * min x y := by
    rcases le_total x y with h | h
    · rw [min_eq_left h, abs_of_nonpos (by linarith)]; field_simp; ring
    · rw [min_eq_right h, abs_of_nonneg (by linarith)]; field_simp; ring
  rw [this, Real.exp_add]
  field_simp

theorem expFeat_memLp (θ : ℝ) (hθ : 0 < θ) (x : ℝ) : MemLp (expFeat θ x) 2 := by
  refine (memLp_two_iff_integrable_sq ?_).2 ?_
  · refine Measurable.aestronglyMeasurable ?_
    unfold expFeat
    exact Measurable.indicator (by fun_prop) measurableSet_Iic
  · simpa only [sq] using (expFeat_mul θ hθ x x).1

/-- The form of the model as an integral. -/
theorem expK_form (θ : ℝ) (hθ : 0 < θ) {m : ℕ} (xs c : Fin m → ℝ) :
    ∫ t, (∑ i, c i * expFeat θ (xs i) t) ^ 2 = θ / 2 * ∑ i, ∑ j, c i * c j * expK θ (xs i) (xs j) := by
  have e : (fun t => (∑ i, c i * expFeat θ (xs i) t) ^ 2)
      = fun t => ∑ i, ∑ j, c i * c j * (expFeat θ (xs i) t * expFeat θ (xs j) t) := by
    funext t
    rw [sq, Finset.sum_mul_sum]
    exact Finset.sum_congr rfl fun i _ => Finset.sum_congr rfl fun j _ => by ring
  have hI := fun i j => (expFeat_mul θ hθ (xs i) (xs j)).1.const_mul (c i * c j)
  rw [e, integral_finsetSum _ fun i _ => integrable_finsetSum _ fun j _ => hI i j, Finset.mul_sum]
  refine Finset.sum_congr rfl fun i _ => ?_
  rw [integral_finsetSum _ fun j _ => hI i j, Finset.mul_sum]
  refine Finset.sum_congr rfl fun j _ => ?_
  rw [integral_const_mul, (expFeat_mul θ hθ _ _).2]
  ring

/-- Cauchy-Schwarz. -/
theorem integral_mul_sq_le {μ : Measure ℝ} {f g : ℝ → ℝ} (hf : MemLp f 2 μ) (hg : MemLp g 2 μ) :
    (∫ t, f t * g t ∂μ) ^ 2 ≤ (∫ t, f t ^ 2 ∂μ) * ∫ t, g t ^ 2 ∂μ := by
  have hff := hf.integrable_sq
  have hgg := hg.integrable_sq
  have hfg : Integrable (fun t => f t * g t) μ := hf.integrable_mul hg
  have key : ∀ a : ℝ, 0 ≤ (∫ t, g t ^ 2 ∂μ) * (a * a) + (-2 * ∫ t, f t * g t ∂μ) * a + ∫ t, f t ^ 2 ∂μ := by
    intro a
    have h : 0 ≤ ∫ t, (f t - a * g t) ^ 2 ∂μ := integral_nonneg fun t => sq_nonneg _
    have e : (fun t => (f t - a * g t) ^ 2) = fun t => f t ^ 2 - 2 * a * (f t * g t) + a ^ 2 * g t ^ 2 := by funext t; ring
    have h1 : Integrable (fun t => f t ^ 2 - 2 * a * (f t * g t)) μ := hff.sub (hfg.const_mul _)
    rw [e, integral_add h1 (hgg.const_mul _), integral_sub hff (hfg.const_mul _), integral_const_mul, integral_const_mul] at h
    linarith
  have := discrim_le_zero key
  unfold discrim at this
  nlinarith

/-- Smooth functions of bounded support are compatible with the model of every scale; the constant is explicit. -/
theorem expK_signal (θ : ℝ) (hθ : 0 < θ) (u : ℝ → ℝ) (hu : ContDiff ℝ 1 u) (hc : HasCompactSupport u) :
    SignalBound (expK θ) (Real.sqrt (θ * (∫ t, deriv u t ^ 2) + (∫ t, u t ^ 2) / θ)) u := by
  intro m xs c
  have hd : Continuous (deriv u) := hu.continuous_deriv le_rfl
  have hdc : HasCompactSupport (deriv u) := hc.deriv
  have hu2 : MemLp u 2 := hu.continuous.memLp_of_hasCompactSupport hc
  have hd2 : MemLp (deriv u) 2 := hd.memLp_of_hasCompactSupport hdc
  set h : ℝ → ℝ := fun t => deriv u t + u t / θ with hh
  have hh2 : MemLp h 2 := by
    have h1 := hd2.add (hu2.const_mul (1 / θ))
    have e : h = deriv u + fun t => 1 / θ * u t := by funext t; simp only [hh, Pi.add_apply]; ring
    rw [e]
    exact h1
  have hrep : ∀ x, ∫ t, expFeat θ x t * h t = u x := by
    intro x
    have e : (fun t => expFeat θ x t * h t) = (Set.Iic x).indicator fun t => Real.exp ((t - x) / θ) * h t := by
      funext t
      by_cases ht : t ∈ Set.Iic x
      · simp [expFeat, ht]
      · simp [expFeat, ht]
    rw [e, integral_indicator measurableSet_Iic]
    have hder : ∀ t, HasDerivAt (fun t => Real.exp ((t - x) / θ) * u t) (Real.exp ((t - x) / θ) * h t) t := by
      intro t
      have h1 : HasDerivAt (fun t => Real.exp ((t - x) / θ)) (Real.exp ((t - x) / θ) * (1 / θ)) t :=
        (((hasDerivAt_id t).sub_const x).div_const θ).exp
      have h2 := h1.fun_mul ((hu.differentiable one_ne_zero) t).hasDerivAt
      refine h2.congr_deriv ?_
      simp only [hh]
      ring
    have hcont : Continuous fun t => Real.exp ((t - x) / θ) * h t := by
      have : Continuous h := hd.add (hu.continuous.div_const θ)
      fun_prop
    have hhc : HasCompactSupport h := by
      have : h = deriv u + fun t => u t * (1 / θ) := by funext t; simp only [hh, Pi.add_apply]; ring
      rw [this]
      exact hdc.add hc.mul_right
    have hint : Integrable fun t => Real.exp ((t - x) / θ) * h t := hcont.integrable_of_hasCompactSupport hhc.mul_left
    have hlim : Tendsto (fun t => Real.exp ((t - x) / θ) * u t) atBot (𝓝 0) := by
      have hz : ∀ᶠ t in atBot, u t = 0 := by
        obtain ⟨R, hR⟩ := hc.isCompact.isBounded.subset_closedBall 0
        filter_upwards [eventually_lt_atBot (-R)] with t ht
        by_contra hne
        have := hR (subset_tsupport u hne)
        rw [Metric.mem_closedBall, dist_zero_right, Real.norm_eq_abs, abs_le] at this
        linarith [this.1]
      exact tendsto_const_nhds.congr' (hz.mono fun t ht => by simp only [ht, mul_zero])
    rw [integral_Iic_of_hasDerivAt_of_tendsto' (fun t _ => hder t) hint.integrableOn hlim]
    simp
  have hsum : ∑ i, c i * u (xs i) = ∫ t, (∑ i, c i * expFeat θ (xs i) t) * h t := by
    have e : (fun t => (∑ i, c i * expFeat θ (xs i) t) * h t) = fun t => ∑ i, c i * (expFeat θ (xs i) t * h t) := by
      funext t
      rw [Finset.sum_mul]
      exact Finset.sum_congr rfl fun i _ => by ring
    have hI : ∀ i, Integrable fun t => c i * (expFeat θ (xs i) t * h t) := fun i => ((expFeat_memLp θ hθ (xs i)).integrable_mul hh2).const_mul _
    rw [e, integral_finsetSum _ fun i _ => hI i]
    refine Finset.sum_congr rfl fun i _ => ?_
    rw [integral_const_mul, hrep]
  have hF : MemLp (fun t => ∑ i, c i * expFeat θ (xs i) t) 2 := memLp_finsetSum _ fun i _ => (expFeat_memLp θ hθ _).const_mul _
  have hCS := integral_mul_sq_le hF hh2
  rw [← hsum, expK_form θ hθ] at hCS
  have hbound : ∫ t, h t ^ 2 ≤ 2 * (∫ t, deriv u t ^ 2) + 2 / θ ^ 2 * ∫ t, u t ^ 2 := by
    rw [← integral_const_mul, ← integral_const_mul, ← integral_add (hd2.integrable_sq.const_mul _) (hu2.integrable_sq.const_mul _)]
    refine integral_mono hh2.integrable_sq ((hd2.integrable_sq.const_mul _).add (hu2.integrable_sq.const_mul _)) fun t => ?_
    simp only [hh]
    have : 2 / θ ^ 2 * u t ^ 2 = 2 * (u t / θ) ^ 2 := by field_simp
    rw [this]
    nlinarith [sq_nonneg (deriv u t - u t / θ)]
  have hq := (expK_isCovariance θ hθ).nonneg m xs c
  have hA : 0 ≤ ∫ t, deriv u t ^ 2 := integral_nonneg fun t => sq_nonneg _
  have hB : 0 ≤ ∫ t, u t ^ 2 := integral_nonneg fun t => sq_nonneg _
  rw [Real.sq_sqrt (by positivity)]
  refine hCS.trans ?_
  calc θ / 2 * (∑ i, ∑ j, c i * c j * expK θ (xs i) (xs j)) * ∫ t, h t ^ 2
      ≤ θ / 2 * (∑ i, ∑ j, c i * c j * expK θ (xs i) (xs j)) * (2 * (∫ t, deriv u t ^ 2) + 2 / θ ^ 2 * ∫ t, u t ^ 2) := by gcongr
    _ = _ := by field_simp

/-- Distinct points give a positive definite matrix. -/
theorem expK_posDef (θ : ℝ) (hθ : 0 < θ) {m : ℕ} (xs : Fin m → ℝ) (hxs : Function.Injective xs) : (krigK (expK θ) xs).PosDef := by
  rw [posDef_iff_dotProduct_mulVec]
  refine ⟨krigK_herm _ (expK_isCovariance θ hθ).symm xs, fun c hc => ?_⟩
  rw [star_trivial, form_eq]
  have hpos : 0 < ∫ t, (∑ i, c i * expFeat θ (xs i) t) ^ 2 := by
    -- the largest point with a non-zero weight
    obtain ⟨i0, hi0⟩ := Function.ne_iff.1 hc
    obtain ⟨i, hi, hmax⟩ := Finset.exists_max_image (Finset.univ.filter fun i => c i ≠ 0) xs ⟨i0, by simpa using hi0⟩
    have hci : c i ≠ 0 := by simpa using hi
    -- a point below it and above the others
    obtain ⟨b, hb, hbj⟩ : ∃ b < xs i, ∀ j, c j ≠ 0 → j ≠ i → xs j ≤ b := by
      by_cases hne : ((Finset.univ.filter fun j => c j ≠ 0).erase i).Nonempty
      · obtain ⟨l, hl, hlm⟩ := Finset.exists_max_image _ xs hne
        refine ⟨xs l, lt_of_le_of_ne (hmax l (Finset.mem_of_mem_erase hl)) fun h => (Finset.ne_of_mem_erase hl) (hxs h), fun j hj hji => ?_⟩
        exact hlm j (Finset.mem_erase.2 ⟨hji, by simpa using hj⟩)
      · refine ⟨xs i - 1, by linarith, fun j hj hji => ?_⟩
        exact absurd ⟨j, Finset.mem_erase.2 ⟨hji, by simpa using hj⟩⟩ hne
    have hint : Integrable fun t => (∑ i, c i * expFeat θ (xs i) t) ^ 2 :=
      (memLp_finsetSum (p := 2) Finset.univ fun i _ => (expFeat_memLp θ hθ (xs i)).const_mul (c i)).integrable_sq
    rw [integral_pos_iff_support_of_nonneg (fun t => sq_nonneg _) hint]
    refine lt_of_lt_of_le (b := volume (Set.Ioc b (xs i))) (by rw [Real.volume_Ioc]; simpa using hb) (measure_mono fun t ht => ?_)
    have e : ∑ j, c j * expFeat θ (xs j) t = c i * expFeat θ (xs i) t := by
      refine Finset.sum_eq_single i (fun j _ hji => ?_) (by simp)
      by_cases hj : c j = 0
      · rw [hj, zero_mul]
      · have : t ∉ Set.Iic (xs j) := fun h => absurd (h.trans (hbj j hj hji)) (not_le.2 ht.1)
        rw [expFeat, Set.indicator_of_notMem this, mul_zero]
    rw [Function.mem_support, e, expFeat, Set.indicator_of_mem (show t ∈ Set.Iic (xs i) from ht.2)]
    positivity
  rw [expK_form θ hθ] at hpos
  exact pos_of_mul_pos_right hpos (by positivity)

end Verif.Props
