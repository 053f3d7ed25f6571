import Verif.Props.Stats
import Mathlib.LinearAlgebra.Matrix.Determinant.Basic
import Mathlib.LinearAlgebra.Matrix.SchurComplement
import Mathlib.Tactic.FinCases
import Mathlib.Tactic.LinearCombination

/-!
# C11: the moments used by the Durbin–Watson approximation
-/

set_option linter.unusedSectionVars false

namespace Verif.Props
open Verif.Py Verif.Model Matrix

variable {K : Type*} [Field K] {m : ℕ}

/-- First-difference matrix (specification): row `i` is `e_{i+1} - e_i`. -/
def diffMat (K : Type*) [Field K] (m : ℕ) : Matrix (Fin m) (Fin (m + 1)) K :=
  Matrix.of fun i j => (if j = i.succ then 1 else 0) - (if j = i.castSucc then 1 else 0)

/-- The quadratic form of the Durbin–Watson numerator: `A = Dᵀ D`. -/
def dwA (K : Type*) [Field K] (m : ℕ) : Matrix (Fin (m + 1)) (Fin (m + 1)) K :=
  (diffMat K m)ᵀ * diffMat K m

theorem diffMat_mulVec (v : Fin (m + 1) → K) (i : Fin m) :
    (diffMat K m *ᵥ v) i = v i.succ - v i.castSucc := by
  simp only [Matrix.mulVec, dotProduct, diffMat, Matrix.of_apply, sub_mul, Finset.sum_sub_distrib,
    ite_mul, one_mul, zero_mul]
  simp

/-- The numerator of the statistic is the quadratic form of `A`. -/
theorem dw_num_eq (v : Fin (m + 1) → K) :
    ∑ i : Fin m, (v i.succ - v i.castSucc) ^ 2 = v ⬝ᵥ (dwA K m *ᵥ v) := by
  rw [dwA, ← Matrix.mulVec_mulVec, Matrix.dotProduct_mulVec, Matrix.vecMul_transpose]
  simp only [dotProduct, diffMat_mulVec, sq]

theorem diffT_apply (d : Fin (m + 1) → K) (j : Fin (m + 2)) :
    ((diffMat K (m + 1))ᵀ *ᵥ d) j
      = (if h : j.val = 0 then 0 else d ⟨j.val - 1, by omega⟩)
        - (if h : j.val = m + 1 then 0 else d ⟨j.val, by omega⟩) := by
  simp only [Matrix.mulVec, dotProduct, diffMat, Matrix.of_apply, Matrix.transpose_apply, sub_mul,
    Finset.sum_sub_distrib, ite_mul, one_mul, zero_mul]
  congr 1
  · split_ifs with h
    · apply Finset.sum_eq_zero
      intro i _
      rw [if_neg]
      intro he
      have := congrArg Fin.val he
      simp [h] at this
    · rw [Finset.sum_eq_single (⟨j.val - 1, by omega⟩ : Fin (m + 1))]
      · rw [if_pos]; ext; simp; omega
      · intro b _ hb
        rw [if_neg]
        intro he
        apply hb
        have := congrArg Fin.val he
        ext; simp at this ⊢; omega
      · simp
  · split_ifs with h
    · apply Finset.sum_eq_zero
      intro i _
      rw [if_neg]
      intro he
      have := congrArg Fin.val he
      simp at this; omega
    · rw [Finset.sum_eq_single (⟨j.val, by omega⟩ : Fin (m + 1))]
      · rw [if_pos]; ext; simp
      · intro b _ hb
        rw [if_neg]
        intro he
        apply hb
        have := congrArg Fin.val he
        ext; simp at this ⊢; omega
      · simp

/-- The band matrix of the code is `A * X`. -/
theorem C11_band_matrix (x : Fin (m + 2) → K) : dwB x = dwA K (m + 1) * dwX x := by
  ext i j
  have hcol : (dwA K (m + 1) * dwX x) i j = (dwA K (m + 1) *ᵥ (fun k => dwX x k j)) i := rfl
  rw [hcol, dwA, ← Matrix.mulVec_mulVec, diffT_apply]
  simp only [diffMat_mulVec]
  by_cases hj : j = 0
  · subst hj
    simp [dwB, dwX]
  · simp only [dwB, dwX, Matrix.of_apply, hj, if_false]
    by_cases h0 : i.val = 0
    · rw [dif_pos h0, dif_pos h0, dif_neg (by omega)]
      have e1 : (⟨i.val, by omega⟩ : Fin (m + 1)).succ = (1 : Fin (m + 2)) := by ext; simp [h0]
      have e2 : (⟨i.val, by omega⟩ : Fin (m + 1)).castSucc = (0 : Fin (m + 2)) := by ext; simp [h0]
      rw [e1, e2]; ring
    · rw [dif_neg h0, dif_neg h0]
      by_cases hl : i.val = m + 1
      · rw [dif_pos hl, dif_pos hl]
        have e1 : (⟨i.val - 1, by omega⟩ : Fin (m + 1)).succ = Fin.last (m + 1) := by
          ext; simp; omega
        have e2 : (⟨i.val - 1, by omega⟩ : Fin (m + 1)).castSucc = (⟨m, by omega⟩ : Fin (m + 2)) := by
          ext; simp; omega
        rw [e1, e2]; ring
      · rw [dif_neg hl, dif_neg hl]
        have e1 : (⟨i.val - 1, by omega⟩ : Fin (m + 1)).succ = i := by ext; simp; omega
        have e2 : (⟨i.val - 1, by omega⟩ : Fin (m + 1)).castSucc = (⟨i.val - 1, by omega⟩ : Fin (m + 2)) := by
          ext; simp
        have e3 : (⟨i.val, by omega⟩ : Fin (m + 1)).succ = (⟨i.val + 1, by omega⟩ : Fin (m + 2)) := by
          ext; simp
        have e4 : (⟨i.val, by omega⟩ : Fin (m + 1)).castSucc = i := by ext; simp
        rw [e1, e2, e3, e4]; ring

theorem dwA_transpose : (dwA K m)ᵀ = dwA K m := by
  rw [dwA, Matrix.transpose_mul, Matrix.transpose_transpose]

/-- Entries of `D Dᵀ`: the second-difference tridiagonal matrix. -/
theorem diff_gram (i k : Fin m) :
    (diffMat K m * (diffMat K m)ᵀ) i k
      = (if i = k then 2 else 0) - (if i.val + 1 = k.val then 1 else 0) - (if k.val + 1 = i.val then 1 else 0) := by
  have h1 : (diffMat K m * (diffMat K m)ᵀ) i k = (diffMat K m *ᵥ fun j => diffMat K m k j) i := rfl
  rw [h1, diffMat_mulVec]
  simp only [diffMat, Matrix.of_apply]
  have a1 : (i.succ = k.succ) ↔ i = k := Fin.succ_inj
  have a2 : (i.castSucc = k.castSucc) ↔ i = k := Fin.castSucc_inj
  have a3 : (i.succ = k.castSucc) ↔ i.val + 1 = k.val := by simp [Fin.ext_iff]
  have a4 : (i.castSucc = k.succ) ↔ k.val + 1 = i.val := by
    simp [Fin.ext_iff]; omega
  simp only [a1, a2, a3, a4]
  split_ifs <;> ring

theorem trace_A : (dwA K (m + 1)).trace = 2 * (((m + 2 : ℕ) : K) - 1) := by
  rw [dwA, Matrix.trace_mul_comm]
  simp only [Matrix.trace, Matrix.diag, diff_gram]
  simp
  ring

theorem sum_offdiag (m : ℕ) : ∑ i : Fin (m + 1), ∑ k : Fin (m + 1),
    (if i.val + 1 = k.val then (1 : K) else 0) = m := by
  have h : ∀ i : Fin (m + 1), ∑ k : Fin (m + 1), (if i.val + 1 = k.val then (1 : K) else 0)
      = if i.val + 1 < m + 1 then 1 else 0 := by
    intro i
    split_ifs with h
    · rw [Finset.sum_eq_single (⟨i.val + 1, h⟩ : Fin (m + 1))]
      · simp
      · intro b _ hb
        rw [if_neg]
        intro he; apply hb; ext; exact he.symm
      · simp
    · apply Finset.sum_eq_zero
      intro k _
      rw [if_neg]; have := k.isLt; omega
  simp only [h]
  rw [Fin.sum_univ_castSucc]
  simp

theorem trace_A_sq : (dwA K (m + 1) * dwA K (m + 1)).trace = 2 * (3 * ((m + 2 : ℕ) : K) - 4) := by
  have e : (dwA K (m + 1) * dwA K (m + 1)).trace
      = ((diffMat K (m + 1) * (diffMat K (m + 1))ᵀ) * (diffMat K (m + 1) * (diffMat K (m + 1))ᵀ)).trace := by
    rw [dwA, Matrix.mul_assoc, Matrix.trace_mul_comm]
    simp only [Matrix.mul_assoc]
  rw [e]
  simp only [Matrix.trace, Matrix.diag, Matrix.mul_apply (M := diffMat K (m + 1) * _)]
  have hs : ∀ i k : Fin (m + 1), (diffMat K (m + 1) * (diffMat K (m + 1))ᵀ) i k *
      (diffMat K (m + 1) * (diffMat K (m + 1))ᵀ) k i
      = 4 * (if i = k then 1 else 0) + (if i.val + 1 = k.val then 1 else 0)
        + (if k.val + 1 = i.val then 1 else 0) := by
    intro i k
    rw [diff_gram, diff_gram]
    by_cases h1 : i = k
    · subst h1; simp; norm_num
    · by_cases h2 : i.val + 1 = k.val
      · have h3 : ¬ (k.val + 1 = i.val) := by omega
        simp [h1, h2, h3, Ne.symm h1]
      · by_cases h3 : k.val + 1 = i.val
        · simp [h1, h2, h3, Ne.symm h1]
        · simp [h1, h2, h3, Ne.symm h1]
  simp only [hs, Finset.sum_add_distrib, ← Finset.mul_sum, sum_offdiag]
  rw [Finset.sum_comm (f := fun (i k : Fin (m + 1)) => if k.val + 1 = i.val then (1 : K) else 0), sum_offdiag]
  simp
  ring

/-- Residual projector `M = 1 - X (XᵀX)⁻¹ Xᵀ` (specification). -/
noncomputable def residProj (x : Fin (m + 2) → K) : Matrix (Fin (m + 2)) (Fin (m + 2)) K :=
  1 - dwX x * ((dwX x)ᵀ * dwX x)⁻¹ * (dwX x)ᵀ

/-- **C11.**  For every sample, the quantities `P` and `Q` of the code are `trace(M A)` and `trace(M A M A)`. -/
theorem C11_traces (x : Fin (m + 2) → K) :
    dwP x = (residProj x * dwA K (m + 1)).trace ∧
    dwQ x = (residProj x * dwA K (m + 1) * (residProj x * dwA K (m + 1))).trace := by
  set X := dwX x
  set A := dwA K (m + 1)
  set G := (Xᵀ * X)⁻¹
  have hA : Aᵀ = A := dwA_transpose
  have hB : dwB x = A * X := C11_band_matrix x
  have hBt : (dwB x)ᵀ = Xᵀ * A := by rw [hB, Matrix.transpose_mul, hA]
  have hXB : dwXBQt x = G * (Xᵀ * A * X) := by rw [dwXBQt, hBt]
  have hM : residProj x = 1 - X * G * Xᵀ := rfl
  have t1 : (X * G * Xᵀ * A).trace = (G * (Xᵀ * A * X)).trace := by
    rw [show X * G * Xᵀ * A = X * (G * (Xᵀ * A)) by simp only [Matrix.mul_assoc], Matrix.trace_mul_comm]
    simp only [Matrix.mul_assoc]
  constructor
  · rw [dwP, hXB, hM, Matrix.sub_mul, Matrix.one_mul, Matrix.trace_sub, t1, trace_A]
  · rw [dwQ, hXB, hM]
    have e : (1 - X * G * Xᵀ) * A * ((1 - X * G * Xᵀ) * A)
        = A * A - A * (X * G * Xᵀ * A) - X * G * Xᵀ * A * A + X * G * Xᵀ * A * (X * G * Xᵀ * A) := by
      noncomm_ring
    have t2 : (A * (X * G * Xᵀ * A)).trace = (G * ((dwB x)ᵀ * dwB x)).trace := by
      rw [hBt, hB]
      rw [show A * (X * G * Xᵀ * A) = (A * X) * (G * (Xᵀ * A)) by simp only [Matrix.mul_assoc],
        Matrix.trace_mul_comm]
      simp only [Matrix.mul_assoc]
    have t3 : (X * G * Xᵀ * A * A).trace = (G * ((dwB x)ᵀ * dwB x)).trace := by
      rw [← t2, Matrix.trace_mul_comm]
    have t4 : (X * G * Xᵀ * A * (X * G * Xᵀ * A)).trace
        = (G * (Xᵀ * A * X) * (G * (Xᵀ * A * X))).trace := by
      rw [show X * G * Xᵀ * A * (X * G * Xᵀ * A) = X * (G * Xᵀ * A * (X * G * Xᵀ * A)) by
        simp only [Matrix.mul_assoc], Matrix.trace_mul_comm]
      simp only [Matrix.mul_assoc]
    rw [e, Matrix.trace_add, Matrix.trace_sub, Matrix.trace_sub, t2, t3, t4, trace_A_sq]
    ring

/-- **C11 (moments).**  `dmean` and `dvar` are the Durbin–Watson null moments
`tr(MA)/(n-2)` and `2 (tr(MAMA) - tr(MA)²/(n-2)) / ((n-2) n)`. -/
theorem C11_moments (x : Fin (m + 2) → K) :
    dwMean x = (residProj x * dwA K (m + 1)).trace / m ∧
    dwVar x = 2 * ((residProj x * dwA K (m + 1) * (residProj x * dwA K (m + 1))).trace
        - (residProj x * dwA K (m + 1)).trace ^ 2 / m) / (m * (m + 2)) := by
  obtain ⟨hP, hQ⟩ := C11_traces x
  have hm : ((m + 2 : ℕ) : K) - (1 + 1) = m := by push_cast; ring
  constructor
  · rw [dwMean, hP, hm]
  · rw [dwVar, dwMean, hm, hP, hQ]; ring

/-- When the defects are not all equal, `XᵀX` is invertible, so that `M` is a genuine projector that kills the
columns of `X` (the traces above are not about a junk inverse). -/
theorem C11_projector {K : Type*} [Field K] [LinearOrder K] [IsStrictOrderedRing K] (x : Fin (m + 2) → K)
    (hx : ∃ i j, x i ≠ x j) :
    residProj x * dwX x = 0 ∧ residProj x * residProj x = residProj x := by
  have hn : (((m + 2 : ℕ) : K)) ≠ 0 := Nat.cast_ne_zero.mpr (by omega)
  have hdet : IsUnit ((dwX x)ᵀ * dwX x).det := by
    rw [isUnit_iff_ne_zero, Matrix.det_fin_two]
    have e00 : ((dwX x)ᵀ * dwX x) 0 0 = ((m + 2 : ℕ) : K) := by
      simp [Matrix.mul_apply, dwX]
    have e01 : ((dwX x)ᵀ * dwX x) 0 1 = ∑ i, x i := by simp [Matrix.mul_apply, dwX]
    have e10 : ((dwX x)ᵀ * dwX x) 1 0 = ∑ i, x i := by simp [Matrix.mul_apply, dwX]
    have e11 : ((dwX x)ᵀ * dwX x) 1 1 = ∑ i, x i ^ 2 := by simp [Matrix.mul_apply, dwX, sq]
    rw [e00, e01, e10, e11]
    have hs : ∑ i, (x i - smean x) ^ 2 ≠ 0 := by
      intro h
      rw [Finset.sum_eq_zero_iff_of_nonneg (fun i _ => sq_nonneg _)] at h
      obtain ⟨i, j, hij⟩ := hx
      exact hij ((sub_eq_zero.mp (pow_eq_zero_iff (two_ne_zero)|>.mp (h i (Finset.mem_univ _)))).trans
        (sub_eq_zero.mp (pow_eq_zero_iff (two_ne_zero)|>.mp (h j (Finset.mem_univ _)))).symm)
    have e : ((m + 2 : ℕ) : K) * ∑ i, (x i - smean x) ^ 2
        = ((m + 2 : ℕ) : K) * ∑ i, x i ^ 2 - (∑ i, x i) * ∑ i, x i := by
      have : ∀ i, (x i - smean x) ^ 2 = x i ^ 2 - 2 * smean x * x i + smean x ^ 2 := by intro i; ring
      simp only [this, Finset.sum_add_distrib, Finset.sum_sub_distrib, ← Finset.mul_sum]
      simp only [Finset.sum_const, Finset.card_univ, Fintype.card_fin, nsmul_eq_mul, smean]
      field_simp
      ring
    rw [← e]
    exact mul_ne_zero hn hs
  have h1 : residProj x * dwX x = 0 := by
    rw [residProj, Matrix.sub_mul, Matrix.one_mul, Matrix.mul_assoc, Matrix.mul_assoc,
      Matrix.nonsing_inv_mul _ hdet, Matrix.mul_one, sub_self]
  refine ⟨h1, ?_⟩
  conv_lhs => rw [show residProj x * residProj x
    = residProj x * (1 - dwX x * (((dwX x)ᵀ * dwX x)⁻¹ * (dwX x)ᵀ)) by rw [residProj, Matrix.mul_assoc]]
  rw [Matrix.mul_sub, ← Matrix.mul_assoc, h1, Matrix.zero_mul, Matrix.mul_one, sub_zero]

example : dwB ![1, 4, (9 : ℚ), 20] = !![0, -3; 0, -2; 0, -6; 0, 11] := by
  decide +kernel

end Verif.Props
