import Verif.Props.LinearConsistency
import Verif.Props.PliClt
import Verif.Model.Tests

/-!
# The Breusch-Pagan statistic as a function of sample moments (/repo/otpod/_math_tools.py 137-151)
-/

namespace Verif.Props
open Verif.Py Verif.Model MeasureTheory ProbabilityTheory Filter Topology Set

/-! ## Algebra; `p j k` is the mean of `(x - m)^j e^k` -/

/-- Variance of the defects (over `n`). -/
noncomputable def bpD (p : ℕ → ℕ → ℝ) : ℝ := p 2 0 - p 1 0 ^ 2
/-- Error of the slope. -/
noncomputable def bpSl (p : ℕ → ℕ → ℝ) : ℝ := (p 1 1 - p 1 0 * p 0 1) / bpD p
/-- Error of the line at the centre `m`. -/
noncomputable def bpIc (p : ℕ → ℕ → ℝ) : ℝ := p 0 1 - bpSl p * p 1 0
/-- Mean of the squared residuals. -/
noncomputable def bpR2 (p : ℕ → ℕ → ℝ) : ℝ :=
  p 0 2 + bpIc p ^ 2 + bpSl p ^ 2 * p 2 0 - 2 * bpIc p * p 0 1 - 2 * bpSl p * p 1 1 + 2 * bpIc p * bpSl p * p 1 0
/-- Mean of the fourth powers of the residuals. -/
noncomputable def bpR4 (p : ℕ → ℕ → ℝ) : ℝ :=
  p 0 4 - 4 * bpIc p * p 0 3 - 4 * bpSl p * p 1 3 + 6 * bpIc p ^ 2 * p 0 2 + 12 * bpIc p * bpSl p * p 1 2 + 6 * bpSl p ^ 2 * p 2 2
    - 4 * bpIc p ^ 3 * p 0 1 - 12 * bpIc p ^ 2 * bpSl p * p 1 1 - 12 * bpIc p * bpSl p ^ 2 * p 2 1 - 4 * bpSl p ^ 3 * p 3 1
    + bpIc p ^ 4 + 4 * bpIc p ^ 3 * bpSl p * p 1 0 + 6 * bpIc p ^ 2 * bpSl p ^ 2 * p 2 0 + 4 * bpIc p * bpSl p ^ 3 * p 3 0 + bpSl p ^ 4 * p 4 0
/-- Sample covariance of the defects and the squared residuals. -/
noncomputable def bpC (p : ℕ → ℕ → ℝ) : ℝ :=
  p 1 2 + bpIc p ^ 2 * p 1 0 + bpSl p ^ 2 * p 3 0 - 2 * bpIc p * p 1 1 - 2 * bpSl p * p 2 1 + 2 * bpIc p * bpSl p * p 2 0 - p 1 0 * bpR2 p

/-- Sample moments. -/
noncomputable def smom {n : ℕ} (x e : Fin n → ℝ) (m : ℝ) (j k : ℕ) : ℝ := (∑ i, (x i - m) ^ j * e i ^ k) / n

section
variable {n : ℕ}

theorem smean_mom (x e : Fin n → ℝ) (m : ℝ) (hn : 0 < n) : smean x = m + smom x e m 1 0 ∧ smean e = smom x e m 0 1 := by
  have hn' : (n : ℝ) ≠ 0 := by exact_mod_cast hn.ne'
  constructor
  · simp only [smean, smom, pow_one, pow_zero, mul_one, Finset.sum_sub_distrib]
    simp
    field_simp
    ring
  · simp [smean, smom]

theorem sxx_mom (x e : Fin n → ℝ) (m : ℝ) (hn : 0 < n) : ∑ i, (x i - smean x) ^ 2 = n * bpD (smom x e m) := by
  have hn' : (n : ℝ) ≠ 0 := by exact_mod_cast hn.ne'
  obtain ⟨h1, -⟩ := smean_mom x e m hn
  have h10 : ∑ i, (x i - m) ^ 1 * e i ^ 0 = n * smom x e m 1 0 := by rw [smom]; field_simp
  have h20 : ∑ i, (x i - m) ^ 2 * e i ^ 0 = n * smom x e m 2 0 := by rw [smom]; field_simp
  have : ∀ i, (x i - smean x) ^ 2 = (x i - m) ^ 2 * e i ^ 0 + (-2 * smom x e m 1 0) * ((x i - m) ^ 1 * e i ^ 0) + smom x e m 1 0 ^ 2 := by
    intro i; rw [h1]; ring
  simp only [this, Finset.sum_add_distrib, ← Finset.mul_sum, h10, h20, bpD]
  simp
  ring

theorem sxe_mom (x e : Fin n → ℝ) (m : ℝ) (hn : 0 < n) :
    ∑ i, (x i - smean x) * (e i - smean e) = n * (smom x e m 1 1 - smom x e m 1 0 * smom x e m 0 1) := by
  have hn' : (n : ℝ) ≠ 0 := by exact_mod_cast hn.ne'
  obtain ⟨h1, h2⟩ := smean_mom x e m hn
  have h10 : ∑ i, (x i - m) ^ 1 * e i ^ 0 = n * smom x e m 1 0 := by rw [smom]; field_simp
  have h01 : ∑ i, (x i - m) ^ 0 * e i ^ 1 = n * smom x e m 0 1 := by rw [smom]; field_simp
  have h11 : ∑ i, (x i - m) ^ 1 * e i ^ 1 = n * smom x e m 1 1 := by rw [smom]; field_simp
  have : ∀ i, (x i - smean x) * (e i - smean e) = (x i - m) ^ 1 * e i ^ 1 + (-smom x e m 1 0) * ((x i - m) ^ 0 * e i ^ 1)
      + (-smom x e m 0 1) * ((x i - m) ^ 1 * e i ^ 0) + smom x e m 1 0 * smom x e m 0 1 := by
    intro i; rw [h1, h2]; ring
  simp only [this, Finset.sum_add_distrib, ← Finset.mul_sum, h10, h01, h11]
  simp
  ring

/-- The residuals in terms of the errors. -/
theorem resid_mom (x e : Fin n → ℝ) (m b0 b1 : ℝ) (hn : 0 < n) (hD : bpD (smom x e m) ≠ 0) (i : Fin n) :
    olsResiduals x (fun i => b0 + b1 * x i + e i) i = e i - bpIc (smom x e m) - bpSl (smom x e m) * (x i - m) := by
  have hn' : (n : ℝ) ≠ 0 := by exact_mod_cast hn.ne'
  obtain ⟨h1, h2⟩ := smean_mom x e m hn
  have hS : ∑ i, (x i - smean x) ^ 2 ≠ 0 := by rw [sxx_mom x e m hn]; exact mul_ne_zero hn' hD
  rw [residual_error x e b0 b1 hn i, slope_error x e b0 b1 hn hS, sxx_mom x e m hn, sxe_mom x e m hn, mul_div_mul_left _ _ hn', h1, h2, bpIc]
  have : (smom x e m 1 1 - smom x e m 1 0 * smom x e m 0 1) / bpD (smom x e m) = bpSl (smom x e m) := rfl
  rw [this]
  ring

theorem sumR2 (x e : Fin n → ℝ) (m b0 b1 : ℝ) (hn : 0 < n) (hD : bpD (smom x e m) ≠ 0) :
    ∑ i, olsResiduals x (fun i => b0 + b1 * x i + e i) i ^ 2 = n * bpR2 (smom x e m) := by
  have hn' : (n : ℝ) ≠ 0 := by exact_mod_cast hn.ne'
  have hm : ∀ j k, ∑ i, (x i - m) ^ j * e i ^ k = n * smom x e m j k := by intro j k; rw [smom]; field_simp
  set p := smom x e m with hp
  have : ∀ i, olsResiduals x (fun i => b0 + b1 * x i + e i) i ^ 2 = (x i - m) ^ 0 * e i ^ 2 + bpIc p ^ 2 * ((x i - m) ^ 0 * e i ^ 0)
      + bpSl p ^ 2 * ((x i - m) ^ 2 * e i ^ 0) + (-2 * bpIc p) * ((x i - m) ^ 0 * e i ^ 1) + (-2 * bpSl p) * ((x i - m) ^ 1 * e i ^ 1)
      + (2 * bpIc p * bpSl p) * ((x i - m) ^ 1 * e i ^ 0) := by
    intro i; rw [resid_mom x e m b0 b1 hn hD i]; ring
  simp only [this, Finset.sum_add_distrib, ← Finset.mul_sum, hm, bpR2]
  have h00 : p 0 0 = 1 := by simp [hp, smom, hn']
  rw [h00]
  ring

theorem sumR4 (x e : Fin n → ℝ) (m b0 b1 : ℝ) (hn : 0 < n) (hD : bpD (smom x e m) ≠ 0) :
    ∑ i, olsResiduals x (fun i => b0 + b1 * x i + e i) i ^ 4 = n * bpR4 (smom x e m) := by
  have hn' : (n : ℝ) ≠ 0 := by exact_mod_cast hn.ne'
  have hm : ∀ j k, ∑ i, (x i - m) ^ j * e i ^ k = n * smom x e m j k := by intro j k; rw [smom]; field_simp
  set p := smom x e m with hp
  have : ∀ i, olsResiduals x (fun i => b0 + b1 * x i + e i) i ^ 4 = (x i - m) ^ 0 * e i ^ 4 + (-4 * bpIc p) * ((x i - m) ^ 0 * e i ^ 3)
      + (-4 * bpSl p) * ((x i - m) ^ 1 * e i ^ 3) + (6 * bpIc p ^ 2) * ((x i - m) ^ 0 * e i ^ 2) + (12 * bpIc p * bpSl p) * ((x i - m) ^ 1 * e i ^ 2)
      + (6 * bpSl p ^ 2) * ((x i - m) ^ 2 * e i ^ 2) + (-4 * bpIc p ^ 3) * ((x i - m) ^ 0 * e i ^ 1)
      + (-12 * bpIc p ^ 2 * bpSl p) * ((x i - m) ^ 1 * e i ^ 1) + (-12 * bpIc p * bpSl p ^ 2) * ((x i - m) ^ 2 * e i ^ 1)
      + (-4 * bpSl p ^ 3) * ((x i - m) ^ 3 * e i ^ 1) + bpIc p ^ 4 * ((x i - m) ^ 0 * e i ^ 0) + (4 * bpIc p ^ 3 * bpSl p) * ((x i - m) ^ 1 * e i ^ 0)
      + (6 * bpIc p ^ 2 * bpSl p ^ 2) * ((x i - m) ^ 2 * e i ^ 0) + (4 * bpIc p * bpSl p ^ 3) * ((x i - m) ^ 3 * e i ^ 0)
      + bpSl p ^ 4 * ((x i - m) ^ 4 * e i ^ 0) := by
    intro i; rw [resid_mom x e m b0 b1 hn hD i]; ring
  simp only [this, Finset.sum_add_distrib, ← Finset.mul_sum, hm, bpR4]
  have h00 : p 0 0 = 1 := by simp [hp, smom, hn']
  rw [h00]
  ring

theorem sumXR2 (x e : Fin n → ℝ) (m b0 b1 : ℝ) (hn : 0 < n) (hD : bpD (smom x e m) ≠ 0) :
    ∑ i, (x i - smean x) * olsResiduals x (fun i => b0 + b1 * x i + e i) i ^ 2 = n * bpC (smom x e m) := by
  have hn' : (n : ℝ) ≠ 0 := by exact_mod_cast hn.ne'
  have hm : ∀ j k, ∑ i, (x i - m) ^ j * e i ^ k = n * smom x e m j k := by intro j k; rw [smom]; field_simp
  have hr2 := sumR2 x e m b0 b1 hn hD
  obtain ⟨h1, -⟩ := smean_mom x e m hn
  set p := smom x e m with hp
  have : ∀ i, (x i - smean x) * olsResiduals x (fun i => b0 + b1 * x i + e i) i ^ 2 = (x i - m) ^ 1 * e i ^ 2 + bpIc p ^ 2 * ((x i - m) ^ 1 * e i ^ 0)
      + bpSl p ^ 2 * ((x i - m) ^ 3 * e i ^ 0) + (-2 * bpIc p) * ((x i - m) ^ 1 * e i ^ 1) + (-2 * bpSl p) * ((x i - m) ^ 2 * e i ^ 1)
      + (2 * bpIc p * bpSl p) * ((x i - m) ^ 2 * e i ^ 0) + (-p 1 0) * olsResiduals x (fun i => b0 + b1 * x i + e i) i ^ 2 := by
    intro i
    rw [h1]
    have e1 := resid_mom x e m b0 b1 hn hD i
    rw [← hp] at e1
    have e2 : (x i - (m + p 1 0)) * olsResiduals x (fun i => b0 + b1 * x i + e i) i ^ 2
        = (x i - m) * (e i - bpIc p - bpSl p * (x i - m)) ^ 2 + (-p 1 0) * olsResiduals x (fun i => b0 + b1 * x i + e i) i ^ 2 := by
      rw [e1]; ring
    rw [e2]
    ring
  simp only [this, Finset.sum_add_distrib, ← Finset.mul_sum, hm, hr2, bpC]
  ring

/-- The statistic in terms of the moments. -/
theorem bp_stat (x e : Fin n → ℝ) (m b0 b1 : ℝ) (hn : 0 < n) (hD : bpD (smom x e m) ≠ 0)
    (hW : bpR4 (smom x e m) - bpR2 (smom x e m) ^ 2 ≠ 0) (pChi : F ℝ → F ℝ) :
    breuschPaganPValue pChi x (olsResiduals x fun i => b0 + b1 * x i + e i) =
      F.sub (.fin 1) (pChi (.fin (n * bpC (smom x e m) ^ 2 / (bpD (smom x e m) * (bpR4 (smom x e m) - bpR2 (smom x e m) ^ 2))))) := by
  have hn' : (n : ℝ) ≠ 0 := by exact_mod_cast hn.ne'
  have s2 := sumR2 x e m b0 b1 hn hD
  have s4 := sumR4 x e m b0 b1 hn hD
  have sx := sumXR2 x e m b0 b1 hn hD
  have sxx := sxx_mom x e m hn
  set p := smom x e m with hp
  set r := olsResiduals x (fun i => b0 + b1 * x i + e i) with hr
  have hsig : (∑ i, r i ^ 2) / n = bpR2 p := by rw [s2]; field_simp
  have hw0 : smean (fun i => r i ^ 2 - bpR2 p) = 0 := by
    simp only [smean, Finset.sum_sub_distrib, s2]
    simp
  have hxc : ∑ i, (x i - smean x) = 0 := by
    have : ∑ i, x i = n * smean x := by rw [smean]; field_simp
    simp [Finset.sum_sub_distrib, this]
  have hslope : olsSlope x (fun i => r i ^ 2 - bpR2 p) = bpC p / bpD p := by
    rw [olsSlope, hw0, sxx]
    have : ∑ i, (x i - smean x) * (r i ^ 2 - bpR2 p - 0) = n * bpC p := by
      rw [← sx]
      have : ∀ i, (x i - smean x) * (r i ^ 2 - bpR2 p - 0) = (x i - smean x) * r i ^ 2 - bpR2 p * (x i - smean x) := by intro i; ring
      simp only [this, Finset.sum_sub_distrib, ← Finset.mul_sum, hxc]
      ring
    rw [this, mul_div_mul_left _ _ hn']
  have hw2 : ∑ i, (r i ^ 2 - bpR2 p) ^ 2 = n * (bpR4 p - bpR2 p ^ 2) := by
    have : ∀ i, (r i ^ 2 - bpR2 p) ^ 2 = r i ^ 4 + (-2 * bpR2 p) * r i ^ 2 + bpR2 p ^ 2 := by intro i; ring
    simp only [this, Finset.sum_add_distrib, ← Finset.mul_sum, s2, s4]
    simp
    ring
  have hpred : ∑ i, (olsIntercept x (fun i => r i ^ 2 - bpR2 p) + olsSlope x (fun i => r i ^ 2 - bpR2 p) * x i) ^ 2 = n * (bpC p ^ 2 / bpD p) := by
    rw [olsIntercept, hw0, hslope]
    have : ∀ i, (0 - bpC p / bpD p * smean x + bpC p / bpD p * x i) ^ 2 = (bpC p / bpD p) ^ 2 * (x i - smean x) ^ 2 := by intro i; ring
    simp only [this, ← Finset.mul_sum, sxx]
    field_simp
  unfold breuschPaganPValue
  simp only [hsig, hpred, hw2]
  have hden : (n : ℝ) * (bpR4 p - bpR2 p ^ 2) ≠ 0 := mul_ne_zero hn' hW
  have : F.div (.fin (n * (n * (bpC p ^ 2 / bpD p)))) (.fin ((n : ℝ) * (bpR4 p - bpR2 p ^ 2)))
      = .fin (n * bpC p ^ 2 / (bpD p * (bpR4 p - bpR2 p ^ 2))) := by
    show (if (n : ℝ) * (bpR4 p - bpR2 p ^ 2) = 0 then _ else F.fin _) = _
    rw [if_neg hden]
    congr 1
    field_simp
  rw [this]

end
end Verif.Props
