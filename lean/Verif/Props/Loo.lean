import Verif.Model.Loo
import Mathlib.LinearAlgebra.Matrix.PosDef
import Mathlib.LinearAlgebra.Matrix.Notation
import Mathlib.Tactic.Linarith
import Mathlib.Tactic.FieldSimp
import Mathlib.Tactic.Ring
import Mathlib.Tactic.FinCases
import Mathlib.Tactic.NormNum
import Mathlib.Tactic.LinearCombination

/-!
# C38–C41: leave-one-out formulas, Q2 and normalisation
-/

namespace Verif.Props
open Verif.Model Matrix

variable {n p : ℕ}

/-! ## C38 -/

/-- Specification: `w` are universal-kriging weights for observation `i` from the other observations. -/
structure KrigingWeights (K : Matrix (Fin n) (Fin n) ℝ) (F : Matrix (Fin n) (Fin p) ℝ) (i : Fin n) (w : Fin n → ℝ) : Prop where
  /-- observation `i` itself is not used -/
  others : w i = 0
  /-- the trend at point `i` is reproduced -/
  unbiased : ∀ k, ∑ j, w j * F j k = F i k
  /-- the kriging equations of the reduced data, with Lagrange multipliers `μ` -/
  system : ∃ μ : Fin p → ℝ, ∀ l, l ≠ i → ∑ j, w j * K j l + ∑ k, μ k * F l k = K i l

theorem bordered_row (K : Matrix (Fin n) (Fin n) ℝ) (F : Matrix (Fin n) (Fin p) ℝ)
    (hS : IsUnit (borderedMatrix K F).det) (i : Fin n) :
    (∀ l, ∑ j, looB K F i j * K j l + ∑ k, (borderedMatrix K F)⁻¹ (.inl i) (.inr k) * F l k = if i = l then 1 else 0) ∧
    (∀ k, ∑ j, looB K F i j * F j k = 0) := by
  have h := nonsing_inv_mul (borderedMatrix K F) hS
  constructor
  · intro l
    have := congrFun (congrFun h (.inl i)) (.inl l)
    rw [mul_apply, Fintype.sum_sum_type] at this
    simpa [borderedMatrix, looB, one_apply, toBlocks₁₁] using this
  · intro k
    have := congrFun (congrFun h (.inl i)) (.inr k)
    rw [mul_apply, Fintype.sum_sum_type] at this
    simpa [borderedMatrix, looB, one_apply, toBlocks₁₁] using this

/-- **C38.**  When the bordered matrix is invertible and its inverse has a non-zero diagonal entry at `i`, there is exactly
one vector of universal-kriging weights for observation `i`, and the computed value is the prediction with these
weights, for every observation vector. -/
theorem C38_loo_exact (K : Matrix (Fin n) (Fin n) ℝ) (F : Matrix (Fin n) (Fin p) ℝ)
    (hS : IsUnit (borderedMatrix K F).det) (i : Fin n) (hB : looB K F i i ≠ 0) :
    ∃ w, KrigingWeights K F i w ∧ (∀ w', KrigingWeights K F i w' → w' = w) ∧
      ∀ y, computeLOO K F y i = ∑ j, w j * y j := by
  obtain ⟨r1, r2⟩ := bordered_row K F hS i
  set B := looB K F
  set C := fun k => (borderedMatrix K F)⁻¹ (.inl i) (.inr k) with hC
  set w : Fin n → ℝ := fun j => if i = j then 0 else -(B i j / B i i) with hw
  have hwB : ∀ j, B i i * w j = (if i = j then B i i else 0) - B i j := by
    intro j
    simp only [hw]
    split_ifs with h
    · subst h; ring
    · field_simp; ring
  have hsum : ∀ g : Fin n → ℝ, B i i * ∑ j, w j * g j = B i i * g i - ∑ j, B i j * g j := by
    intro g
    rw [Finset.mul_sum]
    have : ∀ j, B i i * (w j * g j) = (if i = j then B i i * g j else 0) - B i j * g j := by
      intro j; rw [← mul_assoc, hwB]; split_ifs <;> ring
    simp only [this, Finset.sum_sub_distrib, Finset.sum_ite_eq, Finset.mem_univ, if_true]
  have hkw : KrigingWeights K F i w := by
    refine ⟨by simp [hw], fun k => ?_, ⟨fun k => -(C k / B i i), fun l hl => ?_⟩⟩
    · have := hsum (fun j => F j k)
      rw [r2 k, sub_zero] at this
      exact mul_left_cancel₀ hB this
    · apply mul_left_cancel₀ hB
      rw [mul_add, hsum (fun j => K j l), Finset.mul_sum]
      have h1 := r1 l
      rw [if_neg (Ne.symm hl)] at h1
      have h2 : ∑ k, B i i * (-(C k / B i i) * F l k) = -∑ k, C k * F l k := by
        rw [← Finset.sum_neg_distrib]
        refine Finset.sum_congr rfl fun k _ => ?_
        field_simp
      rw [h2]
      linarith
  refine ⟨w, hkw, ?_, ?_⟩
  · intro w' hw'
    obtain ⟨μ, hμ⟩ := hkw.system
    obtain ⟨μ', hμ'⟩ := hw'.system
    set δ : Fin n ⊕ Fin p → ℝ := Sum.elim (fun j => w' j - w j) (fun k => μ' k - μ k) with hδ
    set c := (δ ᵥ* borderedMatrix K F) (.inl i) with hc
    have hv : δ ᵥ* borderedMatrix K F = Pi.single (.inl i) c := by
      funext l
      cases l with
      | inl l =>
        by_cases hl : l = i
        · subst hl; rw [Pi.single_eq_same]
        · rw [Pi.single_eq_of_ne (by simpa using hl), vecMul, dotProduct, Fintype.sum_sum_type]
          have a := hμ l hl
          have b := hμ' l hl
          simp only [hδ, borderedMatrix, Sum.elim_inl, Sum.elim_inr, fromBlocks_apply₁₁, fromBlocks_apply₂₁, transpose_apply,
            sub_mul, Finset.sum_sub_distrib]
          linarith
      | inr k =>
        rw [Pi.single_eq_of_ne (by simp), vecMul, dotProduct, Fintype.sum_sum_type]
        have a := hkw.unbiased k
        have b := hw'.unbiased k
        simp only [hδ, borderedMatrix, Sum.elim_inl, Sum.elim_inr, fromBlocks_apply₁₂, fromBlocks_apply₂₂, Matrix.zero_apply,
          mul_zero, Finset.sum_const_zero, add_zero, sub_mul, Finset.sum_sub_distrib]
        linarith
    have hδ2 : δ = Pi.single (.inl i) c ᵥ* (borderedMatrix K F)⁻¹ := by
      rw [← hv, vecMul_vecMul, mul_nonsing_inv _ hS, vecMul_one]
    have hi : δ (.inl i) = c * B i i := by
      rw [hδ2, single_vecMul]
      rfl
    have hz : δ (.inl i) = 0 := by simp [hδ, hkw.others, hw'.others]
    have hc0 : c = 0 := by
      rw [hz] at hi
      rcases mul_eq_zero.mp hi.symm with h | h
      · exact h
      · exact absurd h hB
    funext j
    have : δ (.inl j) = 0 := by rw [hδ2, hc0, Pi.single_zero, zero_vecMul]; rfl
    simp only [hδ, Sum.elim_inl] at this
    linarith
  · intro y
    rw [computeLOO, ← Finset.sum_neg_distrib]
    refine Finset.sum_congr rfl fun j _ => ?_
    simp only [hw]
    by_cases h : i = j
    · simp [h]
    · simp [h, B]

/-- **C38, optimality.**  For a symmetric positive semidefinite covariance the weights minimise the prediction variance
`Var(Σ v_j Y_j - Y_i)` among all weights on the other observations that reproduce the trend. -/
theorem C38_loo_best (K : Matrix (Fin n) (Fin n) ℝ) (hK : K.PosSemidef) (F : Matrix (Fin n) (Fin p) ℝ) (i : Fin n)
    (w : Fin n → ℝ) (hw : KrigingWeights K F i w) (v : Fin n → ℝ) (hvi : v i = 0) (hvF : ∀ k, ∑ j, v j * F j k = F i k) :
    let err := fun u : Fin n → ℝ => u - Pi.single i 1
    err w ⬝ᵥ (K *ᵥ err w) ≤ err v ⬝ᵥ (K *ᵥ err v) := by
  intro err
  obtain ⟨μ, hμ⟩ := hw.system
  set d := v - w with hd
  have hev : err v = err w + d := by simp only [err, hd]; abel
  have hsym : ∀ a b : Fin n → ℝ, a ⬝ᵥ (K *ᵥ b) = b ⬝ᵥ (K *ᵥ a) := by
    intro a b
    have ht : Kᵀ = K := by have := hK.1; rwa [IsHermitian, conjTranspose_eq_transpose_of_trivial] at this
    rw [dotProduct_mulVec, ← mulVec_transpose, ht, dotProduct_comm]
  have hcross : err w ⬝ᵥ (K *ᵥ d) = 0 := by
    have hrow : ∀ l, l ≠ i → (err w ᵥ* K) l = -∑ k, μ k * F l k := by
      intro l hl
      have h1 := hμ l hl
      have h2 : (err w ᵥ* K) l = ∑ j, w j * K j l - K i l := by
        simp only [err, sub_vecMul, Pi.sub_apply, single_vecMul]
        simp [vecMul, dotProduct]
      rw [h2]; linarith
    rw [dotProduct_mulVec, dotProduct]
    have hterm : ∀ l, (err w ᵥ* K) l * d l = -∑ k, μ k * (d l * F l k) := by
      intro l
      by_cases hl : l = i
      · subst hl
        have : d l = 0 := by simp [hd, hvi, hw.others]
        simp [this]
      · rw [hrow l hl, neg_mul, Finset.sum_mul]
        congr 1
        exact Finset.sum_congr rfl fun k _ => by ring
    simp only [hterm, Finset.sum_neg_distrib]
    rw [Finset.sum_comm]
    have : ∀ k, ∑ l, μ k * (d l * F l k) = 0 := by
      intro k
      rw [← Finset.mul_sum]
      have : ∑ l, d l * F l k = 0 := by
        simp only [hd, Pi.sub_apply, sub_mul, Finset.sum_sub_distrib, hvF k, hw.unbiased k, sub_self]
      rw [this, mul_zero]
    simp [this]
  have hdd : 0 ≤ d ⬝ᵥ (K *ᵥ d) := by
    have := hK.dotProduct_mulVec_nonneg d
    simpa using this
  rw [hev, mulVec_add, dotProduct_add, add_dotProduct, add_dotProduct, hsym d (err w), hcross]
  linarith

/-- Two independent observations with unknown mean: the hypotheses of C38 hold. -/
theorem loo_example : IsUnit (borderedMatrix (1 : Matrix (Fin 2) (Fin 2) ℝ) !![1; 1]).det ∧
    ∀ i, looB (1 : Matrix (Fin 2) (Fin 2) ℝ) !![1; 1] i i ≠ 0 := by
  have hmul : borderedMatrix (1 : Matrix (Fin 2) (Fin 2) ℝ) !![1; 1] *
      fromBlocks !![1/2, -1/2; -1/2, 1/2] !![1/2; 1/2] !![1/2, 1/2] !![-1/2] = 1 := by
    rw [borderedMatrix, fromBlocks_multiply, ← fromBlocks_one]
    congr 1
    · ext i j; fin_cases i <;> fin_cases j <;> simp [mul_apply, one_apply] <;> norm_num
    · ext i j; fin_cases i <;> fin_cases j <;> simp [mul_apply] <;> norm_num
    · ext i j; fin_cases i <;> fin_cases j <;> simp [mul_apply, Fin.sum_univ_two] <;> norm_num
    · ext i j; fin_cases i; fin_cases j; simp [mul_apply, Fin.sum_univ_two]; norm_num
  refine ⟨isUnit_det_of_right_inverse hmul, fun i => ?_⟩
  rw [looB, inv_eq_right_inv hmul, toBlocks_fromBlocks₁₁]
  fin_cases i <;> norm_num

example : (1 : Matrix (Fin 2) (Fin 2) ℝ).PosSemidef := Matrix.PosSemidef.one

/-! ## C40 -/

/-- Specification: `β` minimises the sum of squared errors on all observations except `i`. -/
def IsLeastSquaresWithout (A : Matrix (Fin n) (Fin p) ℝ) (y : Fin n → ℝ) (i : Fin n) (β : Fin p → ℝ) : Prop :=
  ∀ β', ∑ j ∈ Finset.univ.erase i, (y j - (A *ᵥ β) j) ^ 2 ≤ ∑ j ∈ Finset.univ.erase i, (y j - (A *ᵥ β') j) ^ 2

/-- First-order conditions of least squares on a set of observations. -/
theorem normal_equations (A : Matrix (Fin n) (Fin p) ℝ) (y : Fin n → ℝ) (s : Finset (Fin n)) (β : Fin p → ℝ) :
    (∀ β', ∑ j ∈ s, (y j - (A *ᵥ β) j) ^ 2 ≤ ∑ j ∈ s, (y j - (A *ᵥ β') j) ^ 2) ↔
    ∀ v : Fin p → ℝ, ∑ j ∈ s, (y j - (A *ᵥ β) j) * (A *ᵥ v) j = 0 := by
  have expand : ∀ (v : Fin p → ℝ) (t : ℝ), ∑ j ∈ s, (y j - (A *ᵥ (β + t • v)) j) ^ 2
      = ∑ j ∈ s, (y j - (A *ᵥ β) j) ^ 2 - 2 * t * ∑ j ∈ s, (y j - (A *ᵥ β) j) * (A *ᵥ v) j
        + t ^ 2 * ∑ j ∈ s, (A *ᵥ v) j ^ 2 := by
    intro v t
    rw [Finset.mul_sum, Finset.mul_sum, ← Finset.sum_sub_distrib, ← Finset.sum_add_distrib]
    refine Finset.sum_congr rfl fun j _ => ?_
    rw [mulVec_add, mulVec_smul, Pi.add_apply, Pi.smul_apply, smul_eq_mul]
    ring
  constructor
  · intro h v
    set L := ∑ j ∈ s, (y j - (A *ᵥ β) j) * (A *ᵥ v) j
    set Q := ∑ j ∈ s, (A *ᵥ v) j ^ 2
    have hQ : 0 ≤ Q := Finset.sum_nonneg fun j _ => sq_nonneg _
    have key : ∀ t : ℝ, 0 ≤ -2 * t * L + t ^ 2 * Q := by
      intro t
      have := h (β + t • v)
      rw [expand v t] at this
      linarith
    by_contra hL
    have h1 := key (L / (Q + 1))
    have hQ1 : 0 < Q + 1 := by linarith
    have : -2 * (L / (Q + 1)) * L + (L / (Q + 1)) ^ 2 * Q = -(L ^ 2 * (Q + 2) / (Q + 1) ^ 2) := by
      field_simp; ring
    rw [this] at h1
    have : 0 < L ^ 2 * (Q + 2) / (Q + 1) ^ 2 := by positivity
    linarith
  · intro h β'
    have := expand (β' - β) 1
    rw [one_smul, add_sub_cancel, h] at this
    rw [this]
    have : 0 ≤ ∑ j ∈ s, (A *ᵥ (β' - β)) j ^ 2 := Finset.sum_nonneg fun j _ => sq_nonneg _
    linarith

/-- **C40.**  For least-squares coefficients and a leverage different from 1, the scaled residual is the error made on
observation `i` by *every* least-squares fit on the other observations, and such a fit exists. -/
theorem C40_chaos_loo (A : Matrix (Fin n) (Fin p) ℝ) (hG : IsUnit (Aᵀ * A).det) (y : Fin n → ℝ) (i : Fin n)
    (hlev : chaosH A i i ≠ 1) :
    (∃ β, IsLeastSquaresWithout A y i β) ∧
    ∀ β, IsLeastSquaresWithout A y i β → y i - (A *ᵥ β) i = chaosDelta A y (A *ᵥ lsCoefs A y) i := by
  set G := Aᵀ * A with hGdef
  set h := chaosH A i i with hh
  set b := lsCoefs A y with hb
  set r := y i - (A *ᵥ b) i with hr
  have hGG : G * G⁻¹ = 1 := mul_nonsing_inv G hG
  have hGG' : G⁻¹ * G = 1 := nonsing_inv_mul G hG
  have h1 : 1 - h ≠ 0 := sub_ne_zero.mpr hlev.symm
  set g : Fin p → ℝ := G⁻¹ *ᵥ A.row i with hg
  have hAg : (A *ᵥ g) i = h := by
    rw [hg, hh, chaosH, mulVec_mulVec, mulVec, dotProduct, mul_apply]
    simp only [mul_apply, transpose_apply, row]
    rw [hGdef] 
    simp only [Finset.sum_mul, Finset.mul_sum]
    rw [Finset.sum_comm]
    refine Finset.sum_congr rfl fun j _ => Finset.sum_congr rfl fun k _ => by ring
  -- total normal equations
  have hn : Aᵀ *ᵥ (y - A *ᵥ b) = 0 := by
    rw [mulVec_sub, mulVec_mulVec, hb, lsCoefs, ← hGdef, mulVec_mulVec, hGG, one_mulVec, sub_self]
  have hdot : ∀ u : Fin n → ℝ, ∀ v : Fin p → ℝ, ∑ j, u j * (A *ᵥ v) j = (Aᵀ *ᵥ u) ⬝ᵥ v := by
    intro u v
    have : ∑ j, u j * (A *ᵥ v) j = u ⬝ᵥ (A *ᵥ v) := rfl
    rw [this, dotProduct_mulVec, ← mulVec_transpose]
  have herase : ∀ f : Fin n → ℝ, ∑ j ∈ Finset.univ.erase i, f j = ∑ j, f j - f i := by
    intro f; rw [← Finset.add_sum_erase _ f (Finset.mem_univ i)]; ring
  have hrowi : ∀ v : Fin p → ℝ, (A *ᵥ v) i = A.row i ⬝ᵥ v := fun v => rfl
  constructor
  · refine ⟨b - (r / (1 - h)) • g, ?_⟩
    unfold IsLeastSquaresWithout
    rw [normal_equations]
    intro v
    rw [herase, hdot (fun j => y j - (A *ᵥ (b - (r / (1 - h)) • g)) j)]
    have e1 : (fun j => y j - (A *ᵥ (b - (r / (1 - h)) • g)) j) = (y - A *ᵥ b) + (r / (1 - h)) • (A *ᵥ g) := by
      funext j; simp only [mulVec_sub, mulVec_smul, Pi.sub_apply, Pi.add_apply, Pi.smul_apply, smul_eq_mul]; ring
    have e2 : Aᵀ *ᵥ (A *ᵥ g) = A.row i := by
      rw [mulVec_mulVec, ← hGdef, hg, mulVec_mulVec, hGG, one_mulVec]
    rw [e1, mulVec_add, hn, zero_add, mulVec_smul, e2, smul_dotProduct, smul_eq_mul, ← hrowi]
    have e3 : y i - (A *ᵥ (b - (r / (1 - h)) • g)) i = r / (1 - h) := by
      have := congrFun e1 i
      simp only [Pi.add_apply, Pi.sub_apply, Pi.smul_apply, smul_eq_mul, hAg] at this
      rw [this, ← hr]; field_simp; ring
    rw [e3]; ring
  · intro β hβ
    have hne := (normal_equations A y (Finset.univ.erase i) β).mp hβ
    -- v := b - β ; G v = (row i) * (y_i - (Aβ)_i)
    set e := y i - (A *ᵥ β) i with he
    have key : G *ᵥ (b - β) = e • A.row i := by
      have : ∀ v : Fin p → ℝ, (G *ᵥ (b - β)) ⬝ᵥ v = (e • A.row i) ⬝ᵥ v := by
        intro v
        have h2 := hne v
        rw [herase, hdot (fun j => y j - (A *ᵥ β) j)] at h2
        have h3 : Aᵀ *ᵥ (fun j => y j - (A *ᵥ β) j) = G *ᵥ (b - β) := by
          have : (fun j => y j - (A *ᵥ β) j) = (y - A *ᵥ b) + A *ᵥ (b - β) := by
            funext j; simp only [mulVec_sub, Pi.sub_apply, Pi.add_apply]; ring
          rw [this, mulVec_add, hn, zero_add, mulVec_mulVec]
        rw [h3] at h2
        rw [smul_dotProduct, smul_eq_mul, ← hrowi]
        linarith
      funext k
      have := this (Pi.single k 1)
      simpa using this
    have hv : b - β = e • g := by
      have : G⁻¹ *ᵥ (G *ᵥ (b - β)) = G⁻¹ *ᵥ (e • A.row i) := by rw [key]
      rwa [mulVec_mulVec, hGG', one_mulVec, mulVec_smul] at this
    have : (A *ᵥ (b - β)) i = e * h := by rw [hv, mulVec_smul, Pi.smul_apply, smul_eq_mul, hAg]
    rw [mulVec_sub, Pi.sub_apply] at this
    rw [chaosDelta, ← hh, ← hr, eq_div_iff h1]
    have : e - r = e * h := by rw [← this, he, hr]; ring
    linarith

/-- Two observations of a constant: the leverage is 1/2. -/
theorem chaos_example : IsUnit ((!![1; 1] : Matrix (Fin 2) (Fin 1) ℝ)ᵀ * (!![1; 1] : Matrix (Fin 2) (Fin 1) ℝ)).det ∧
    chaosH (!![1; 1] : Matrix (Fin 2) (Fin 1) ℝ) 0 0 ≠ 1 := by
  have hg : (!![1; 1] : Matrix (Fin 2) (Fin 1) ℝ)ᵀ * (!![1; 1] : Matrix (Fin 2) (Fin 1) ℝ) = !![2] := by
    ext i j; fin_cases i; fin_cases j; simp [mul_apply, Fin.sum_univ_two]; norm_num
  have hinv : (!![2] : Matrix (Fin 1) (Fin 1) ℝ)⁻¹ = !![1/2] := by
    apply inv_eq_right_inv
    ext i j; fin_cases i; fin_cases j; simp [mul_apply]
  constructor
  · rw [hg]; simp
  · rw [chaosH, hg, hinv]; norm_num [mul_apply, vecMul, dotProduct]

/-! ## C39 -/

theorem sum_sq_pos_of_nonconst (y : Fin n → ℝ) (hy : ∃ i j, y i ≠ y j) : 0 < ∑ i, (y i - smean y) ^ 2 := by
  refine lt_of_le_of_ne (Finset.sum_nonneg fun i _ => sq_nonneg _) fun h => ?_
  obtain ⟨i, j, hij⟩ := hy
  have hz := (Finset.sum_eq_zero_iff_of_nonneg (fun i _ => sq_nonneg (y i - smean y))).mp h.symm
  have h1 := pow_eq_zero_iff (two_ne_zero) |>.mp (hz i (Finset.mem_univ i))
  have h2 := pow_eq_zero_iff (two_ne_zero) |>.mp (hz j (Finset.mem_univ j))
  exact hij (by linarith)

theorem two_le_of_nonconst (y : Fin n → ℝ) (hy : ∃ i j, y i ≠ y j) : 2 ≤ n := by
  obtain ⟨i, j, hij⟩ := hy
  have : i ≠ j := fun h => hij (by rw [h])
  have h1 := i.2
  have h2 := j.2
  have : i.val ≠ j.val := fun h => this (Fin.ext h)
  omega

theorem one_sub_meansq (d : Fin n → ℝ) (hn : 0 < n) {V : ℝ} (hV : 0 < V) :
    1 - smean (fun i => d i ^ 2) / V ≤ 1 ∧ (1 - smean (fun i => d i ^ 2) / V = 1 ↔ ∀ i, d i = 0) := by
  have hn' : (0 : ℝ) < n := by exact_mod_cast hn
  have h0 : 0 ≤ smean (fun i => d i ^ 2) := div_nonneg (Finset.sum_nonneg fun i _ => sq_nonneg _) hn'.le
  refine ⟨by have := div_nonneg h0 hV.le; linarith, ?_⟩
  rw [sub_eq_self, div_eq_zero_iff, or_iff_left hV.ne', smean, div_eq_zero_iff, or_iff_left hn'.ne',
    Finset.sum_eq_zero_iff_of_nonneg (fun i _ => sq_nonneg _)]
  simp

/-- **C39 (restricted).**  Both Q2 values are at most 1, with equality iff every leave-one-out error is zero; the
kriging one is 1 - MSE/(population variance).  Missing: the chaos Q2 divides by another variance. -/
theorem C39_q2_partial (y : Fin n → ℝ) (hy : ∃ i j, y i ≠ y j) (yloo : Fin n → ℝ) (A : Matrix (Fin n) (Fin p) ℝ)
    (fitted : Fin n → ℝ) :
    krigingQ2 y yloo = 1 - (∑ i, (y i - yloo i) ^ 2) / (∑ i, (y i - (∑ j, y j) / n) ^ 2) ∧
    (krigingQ2 y yloo ≤ 1 ∧ (krigingQ2 y yloo = 1 ↔ ∀ i, y i - yloo i = 0)) ∧
    (chaosQ2 A y fitted ≤ 1 ∧ (chaosQ2 A y fitted = 1 ↔ ∀ i, chaosDelta A y fitted i = 0)) := by
  have hn := two_le_of_nonconst y hy
  have hS := sum_sq_pos_of_nonconst y hy
  have hn' : (0 : ℝ) < n := by exact_mod_cast (by omega : 0 < n)
  have hn1 : (0 : ℝ) < n - 1 := by
    have : (2 : ℝ) ≤ n := by exact_mod_cast hn
    linarith
  refine ⟨?_, one_sub_meansq _ (by omega) (div_pos hS hn'), one_sub_meansq _ (by omega) (div_pos hS hn1)⟩
  rw [krigingQ2, smean, npVar, div_div_div_cancel_right₀ hn'.ne']
  rfl

/-- **C39 is violated**: on the same leave-one-out errors (not all zero) the chaos value is strictly larger than the
population-variance value. -/
theorem C39_violated (y : Fin n → ℝ) (hy : ∃ i j, y i ≠ y j) (A : Matrix (Fin n) (Fin p) ℝ) (fitted : Fin n → ℝ)
    (hd : ∃ i, chaosDelta A y fitted i ≠ 0) :
    krigingQ2 y (fun i => y i - chaosDelta A y fitted i) < chaosQ2 A y fitted := by
  have hn := two_le_of_nonconst y hy
  have hS := sum_sq_pos_of_nonconst y hy
  have hn' : (0 : ℝ) < n := by exact_mod_cast (by omega : 0 < n)
  have hn1 : (0 : ℝ) < n - 1 := by
    have : (2 : ℝ) ≤ n := by exact_mod_cast hn
    linarith
  have hM : 0 < smean (fun i => chaosDelta A y fitted i ^ 2) := by
    refine div_pos (Finset.sum_pos' (fun i _ => sq_nonneg _) ?_) hn'
    obtain ⟨i, hi⟩ := hd
    exact ⟨i, Finset.mem_univ i, by positivity⟩
  have hv : npVar y < svar y := by
    rw [npVar, svar, div_lt_div_iff_of_pos_left hS hn' hn1]; linarith
  have hv0 : 0 < npVar y := div_pos hS hn'
  simp only [krigingQ2, chaosQ2, sub_sub_cancel]
  have := div_lt_div_of_pos_left hM hv0 hv
  linarith

example : ∃ i j, (![0, 1] : Fin 2 → ℝ) i ≠ ![0, 1] j := ⟨0, 1, by simp⟩

/-! ## C41 -/

/-- **C41.**  The normalised design has columns of mean zero; a column whose standard deviation exceeds 1e-12 gets
variance one; the transformation is injective on all points. -/
theorem C41_normalisation {d : ℕ} (sample : Fin n → Fin d → ℝ) (hn : 2 ≤ n) :
    (∀ j, smean (fun i => normalise sample (sample i) j) = 0) ∧
    (∀ j, 1e-12 < Real.sqrt (svar fun i => sample i j) → svar (fun i => normalise sample (sample i) j) = 1) ∧
    Function.Injective (normalise sample) := by
  have hn' : (n : ℝ) ≠ 0 := by positivity
  have hmean : ∀ j, smean (fun i => normalise sample (sample i) j) = 0 := by
    intro j
    simp only [normalise, smean]
    rw [← Finset.mul_sum, Finset.sum_sub_distrib, Finset.sum_const, Finset.card_univ, Fintype.card_fin, nsmul_eq_mul,
      mul_div_cancel₀ _ hn', sub_self, mul_zero, zero_div]
  refine ⟨hmean, fun j hj => ?_, fun x x' h => ?_⟩
  · have hpos : 0 < Real.sqrt (svar fun i => sample i j) := lt_trans (by norm_num) hj
    have hsv : 0 < svar fun i => sample i j := Real.sqrt_pos.mp hpos
    rw [svar, hmean j]
    simp only [normalise, normFactor, sub_zero]
    rw [abs_of_pos hpos, if_pos hj]
    have : ∀ i, (1 / Real.sqrt (svar fun i => sample i j) * (sample i j - smean fun i => sample i j)) ^ 2
        = (sample i j - smean fun i => sample i j) ^ 2 / svar fun i => sample i j := by
      intro i; rw [mul_pow, div_pow, Real.sq_sqrt hsv.le]; ring
    simp only [this]
    rw [← Finset.sum_div, div_right_comm, ← svar, div_self hsv.ne']
  · funext j
    have hj := congrFun h j
    simp only [normalise] at hj
    have hf : normFactor (fun i => sample i j) ≠ 0 := by
      unfold normFactor
      split_ifs with hc
      · have : Real.sqrt (svar fun i => sample i j) ≠ 0 := by
          intro h0; rw [h0] at hc; norm_num at hc
        positivity
      · exact one_ne_zero
    have := mul_left_cancel₀ hf hj
    linarith

end Verif.Props
