import Verif.Props.KrigPredict
import Verif.Props.TestUnits

/-!
# C188: the metamodels do not depend on the order of the observations (_kriging_tools.py 401-420, 470-565, _polynomial_chaos_pod.py 141-216, 417-433)
-/

namespace Verif.Props
open Verif.Py Verif.Model Matrix

variable {n p d : ℕ} {X : Type}

theorem smean_comp (σ : Equiv.Perm (Fin n)) (r : Fin n → ℝ) : (smean fun i => r (σ i)) = smean r := by
  rw [smean, smean, Equiv.sum_comp σ r]

theorem svar_comp (σ : Equiv.Perm (Fin n)) (r : Fin n → ℝ) : (svar fun i => r (σ i)) = svar r := by
  rw [svar, svar, smean_comp, Equiv.sum_comp σ fun i => (r i - smean r) ^ 2]

theorem npVar_comp (σ : Equiv.Perm (Fin n)) (r : Fin n → ℝ) : (npVar fun i => r (σ i)) = npVar r := by
  rw [npVar, npVar, smean_comp, Equiv.sum_comp σ fun i => (r i - smean r) ^ 2]

theorem normalise_comp (σ : Equiv.Perm (Fin n)) (sample : Fin n → Fin d → ℝ) : normalise (fun i => sample (σ i)) = normalise sample := by
  funext x j
  rw [normalise, normalise, normFactor, normFactor, svar_comp σ fun i => sample i j, smean_comp σ fun i => sample i j]

/-- The order of the observations as an order of the rows of the bordered system. -/
def rowOrder (p : ℕ) (σ : Equiv.Perm (Fin n)) : Equiv.Perm (Fin n ⊕ Fin p) := Equiv.sumCongr σ (Equiv.refl _)

theorem bordered_comp (k : X → X → ℝ) (f : X → Fin p → ℝ) (σ : Equiv.Perm (Fin n)) (xs : Fin n → X) :
    borderedMatrix (krigK k fun i => xs (σ i)) (krigF f fun i => xs (σ i))
      = (borderedMatrix (krigK k xs) (krigF f xs)).submatrix (rowOrder p σ) (rowOrder p σ) := by
  ext i j
  rcases i with i | i <;> rcases j with j | j <;> simp [borderedMatrix, krigK, krigF, rowOrder]

theorem rhs_comp (k : X → X → ℝ) (f : X → Fin p → ℝ) (σ : Equiv.Perm (Fin n)) (xs : Fin n → X) (x : X) :
    krigRhs k f (fun i => xs (σ i)) x = krigRhs k f xs x ∘ rowOrder p σ := by
  funext i
  rcases i with i | i <;> simp [krigRhs, rowOrder]

theorem krigMean_comp (k : X → X → ℝ) (f : X → Fin p → ℝ) (σ : Equiv.Perm (Fin n)) (xs : Fin n → X) (y : Fin n → ℝ) (x : X) :
    krigMean k f (fun i => xs (σ i)) (fun i => y (σ i)) x = krigMean k f xs y x := by
  have hy : (Sum.elim (fun i => y (σ i)) 0 : Fin n ⊕ Fin p → ℝ) = Sum.elim y 0 ∘ rowOrder p σ := by
    funext i
    rcases i with i | i <;> simp [rowOrder]
  rw [krigMean, krigMean, bordered_comp, rhs_comp, hy, inv_submatrix_equiv, submatrix_mulVec_equiv]
  simp only [Function.comp_assoc, Equiv.self_comp_symm, Function.comp_id]
  exact comp_equiv_dotProduct_comp_equiv _ _ _

theorem krigVar_comp (k : X → X → ℝ) (f : X → Fin p → ℝ) (σ : Equiv.Perm (Fin n)) (xs : Fin n → X) (x : X) :
    krigVar k f (fun i => xs (σ i)) x = krigVar k f xs x := by
  rw [krigVar, krigVar, bordered_comp, rhs_comp, inv_submatrix_equiv, submatrix_mulVec_equiv]
  simp only [Function.comp_assoc, Equiv.self_comp_symm, Function.comp_id]
  rw [comp_equiv_dotProduct_comp_equiv]

theorem loo_comp (k : X → X → ℝ) (f : X → Fin p → ℝ) (σ : Equiv.Perm (Fin n)) (xs : Fin n → X) (y : Fin n → ℝ) (i : Fin n) :
    computeLOO (krigK k fun i => xs (σ i)) (krigF f fun i => xs (σ i)) (fun i => y (σ i)) i = computeLOO (krigK k xs) (krigF f xs) y (σ i) := by
  have hB : ∀ a b, looB (krigK k fun i => xs (σ i)) (krigF f fun i => xs (σ i)) a b = looB (krigK k xs) (krigF f xs) (σ a) (σ b) := by
    intro a b
    rw [looB, looB, bordered_comp, inv_submatrix_equiv]
    rfl
  simp only [computeLOO, hB]
  have h := Equiv.sum_comp σ fun j => looB (krigK k xs) (krigF f xs) (σ i) j * (1 - if σ i = j then 1 else 0) / looB (krigK k xs) (krigF f xs) (σ i) (σ i) * y j
  rw [← h]
  simp only [σ.injective.eq_iff]

/-- **C188, kriging.**  The same observations in another order give the same prediction and the same conditional variance at every point, the same
leave-one-out predictions (each with its observation), the same Q2, and therefore the same simulated trajectories for the same draws. -/
theorem C188_kriging (k : (Fin d → ℝ) → (Fin d → ℝ) → ℝ) (f : (Fin d → ℝ) → Fin p → ℝ) (sample : Fin n → Fin d → ℝ) (y : Fin n → ℝ)
    (σ : Equiv.Perm (Fin n)) :
    let sample' := fun i => sample (σ i)
    let y' := fun i => y (σ i)
    let xs := fun i => normalise sample (sample i)
    let xs' := fun i => normalise sample' (sample' i)
    designMean k f sample' y' = designMean k f sample y ∧ designVar k f sample' = designVar k f sample ∧
    (∀ i, computeLOO (krigK k xs') (krigF f xs') y' i = computeLOO (krigK k xs) (krigF f xs) y (σ i)) ∧
    krigingQ2 y' (computeLOO (krigK k xs') (krigF f xs') y') = krigingQ2 y (computeLOO (krigK k xs) (krigF f xs) y) ∧
    ∀ (N : ℕ) (pts : Fin N → Fin d → ℝ) (xi : ℕ → ℝ) (t : ℕ),
      randomVector xi (fun i => designMean k f sample' y' (pts i)) (fun i => designVar k f sample' (pts i)) t
        = randomVector xi (fun i => designMean k f sample y (pts i)) (fun i => designVar k f sample (pts i)) t := by
  intro sample' y' xs xs'
  have hxs : xs' = fun i => xs (σ i) := by
    funext i
    change normalise (fun i => sample (σ i)) (sample (σ i)) = _
    rw [normalise_comp]
  have hmean : designMean k f sample' y' = designMean k f sample y := by
    funext x
    change krigMean k f xs' y' (normalise (fun i => sample (σ i)) x) = krigMean k f xs y _
    rw [hxs, normalise_comp]
    exact krigMean_comp k f σ xs y _
  have hvar : designVar k f sample' = designVar k f sample := by
    funext x
    change krigVar k f xs' (normalise (fun i => sample (σ i)) x) = krigVar k f xs _
    rw [hxs, normalise_comp]
    exact krigVar_comp k f σ xs _
  have hloo : ∀ i, computeLOO (krigK k xs') (krigF f xs') y' i = computeLOO (krigK k xs) (krigF f xs) y (σ i) := by
    intro i
    rw [hxs]
    exact loo_comp k f σ xs y i
  refine ⟨hmean, hvar, hloo, ?_, fun N pts xi t => by rw [hmean, hvar]⟩
  rw [krigingQ2, krigingQ2, npVar_comp]
  simp only [hloo]
  rw [smean_comp σ fun i => (y i - computeLOO (krigK k xs) (krigF f xs) y i) ^ 2]

/-- **C188, polynomial chaos.**  The rows of the basis matrix in another order (with their signals) give the same coefficients, the same residual
variance and the same Q2. -/
theorem C188_chaos (A : Matrix (Fin n) (Fin p) ℝ) (y : Fin n → ℝ) (σ : Equiv.Perm (Fin n)) :
    let A' := A.submatrix σ id
    let y' := fun i => y (σ i)
    lsCoefs A' y' = lsCoefs A y ∧ ∑ i, (y' i - (A' *ᵥ lsCoefs A' y') i) ^ 2 = ∑ i, (y i - (A *ᵥ lsCoefs A y) i) ^ 2 ∧
    chaosQ2 A' y' (A' *ᵥ lsCoefs A' y') = chaosQ2 A y (A *ᵥ lsCoefs A y) := by
  intro A' y'
  have hT : A'ᵀ = Aᵀ.submatrix id σ := rfl
  have hG : A'ᵀ * A' = Aᵀ * A := by
    rw [hT]
    change Aᵀ.submatrix id σ * A.submatrix σ id = _
    rw [submatrix_mul_equiv, submatrix_id_id]
  have hy : A'ᵀ *ᵥ y' = Aᵀ *ᵥ y := by
    funext j
    simp only [mulVec, dotProduct, transpose_apply]
    exact Equiv.sum_comp σ fun i => A i j * y i
  have hc : lsCoefs A' y' = lsCoefs A y := by rw [lsCoefs, lsCoefs, hG, hy]
  have hf : ∀ i, (A' *ᵥ lsCoefs A' y') i = (A *ᵥ lsCoefs A y) (σ i) := by
    intro i
    rw [hc]
    rfl
  have hH : ∀ i, chaosH A' i i = chaosH A (σ i) (σ i) := by
    intro i
    rw [chaosH, chaosH, hG, hT]
    rfl
  refine ⟨hc, ?_, ?_⟩
  · simp only [hf]
    exact Equiv.sum_comp σ fun i => (y i - (A *ᵥ lsCoefs A y) i) ^ 2
  · rw [chaosQ2, chaosQ2, svar_comp]
    simp only [chaosDelta, hf, hH]
    rw [smean_comp σ fun i => ((y i - (A *ᵥ lsCoefs A y) i) / (1 - chaosH A i i)) ^ 2]

/-- Three observations, the first and the last exchanged. -/
example : designMean (expCov 1) constTrend ![![4], ![1], ![0]] ![2, 1, 0] = designMean (expCov 1) constTrend ![![0], ![1], ![4]] ![0, 1, 2] := by
  have h := (C188_kriging (expCov 1) constTrend ![![0], ![1], ![4]] ![0, 1, 2] (Equiv.swap 0 2)).1
  have e1 : (fun i => (![![0], ![1], ![4]] : Fin 3 → Fin 1 → ℝ) (Equiv.swap 0 2 i)) = ![![4], ![1], ![0]] := by
    funext i; fin_cases i <;> rfl
  have e2 : (fun i => (![0, 1, 2] : Fin 3 → ℝ) (Equiv.swap 0 2 i)) = ![2, 1, 0] := by
    funext i; fin_cases i <;> rfl
  rwa [e1, e2] at h

example : lsCoefs !![1, 4; 1, 1; 1, 0] ![2, 1, 0] = lsCoefs !![1, 0; 1, 1; 1, 4] (![0, 1, 2] : Fin 3 → ℝ) := by
  have h := (C188_chaos !![1, 0; 1, 1; 1, 4] ![0, 1, 2] (Equiv.swap 0 2)).1
  have e1 : (!![1, 0; 1, 1; 1, 4] : Matrix (Fin 3) (Fin 2) ℝ).submatrix (Equiv.swap 0 2) id = !![1, 4; 1, 1; 1, 0] := by
    ext i j; fin_cases i <;> fin_cases j <;> rfl
  have e2 : (fun i => (![0, 1, 2] : Fin 3 → ℝ) (Equiv.swap 0 2 i)) = ![2, 1, 0] := by
    funext i; fin_cases i <;> rfl
  rwa [e1, e2] at h

end Verif.Props
