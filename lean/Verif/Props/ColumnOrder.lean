import Verif.Props.MetaOrder
import Verif.Props.ChaosUnits
import Verif.Props.KrigCurveUnits

/-!
# The order of the other parameters (C234)

The first input is the defect; the order in which the other parameters are listed is a convention of the user.  Kriging
(_kriging_tools.py 383-565, _kriging_pod.py 198-217) and polynomial chaos (_polynomial_chaos_pod.py 141-216, 744-774).
-/

namespace Verif.Props
open Verif.Py Verif.Model Matrix

variable {n q d : ℕ}

/-- The same point with the parameters other than the defect listed in another order. -/
def reorder (π : Equiv.Perm (Fin d)) (x : Fin (d + 1) → ℝ) : Fin (d + 1) → ℝ := Fin.cons (x 0) fun j => x (π j).succ

theorem reorder_fullPoint (π : Equiv.Perm (Fin d)) (p : ℝ × (Fin d → ℝ)) : fullPoint (p.1, fun j => p.2 (π j)) = reorder π (fullPoint p) := by
  funext j
  refine Fin.cases ?_ (fun j => ?_) j <;> simp [fullPoint, reorder]

theorem normalise_reorder (π : Equiv.Perm (Fin d)) (sample : Fin n → Fin (d + 1) → ℝ) (x : Fin (d + 1) → ℝ) :
    normalise (fun i => reorder π (sample i)) (reorder π x) = reorder π (normalise sample x) := by
  funext j
  refine Fin.cases ?_ (fun j => ?_) j <;> simp [normalise, reorder]

/-- **C234, kriging.**  The parameters are listed in another order; `k'` and `f'` are the covariance function and the trend read in this order.
Predictions, variances, leave-one-out predictions, Q2, the estimate of the amplitude and the likelihood that is maximised are the same, and the run
with the same random draws ends with the same result: same exception or same simulated PODs and same curve. -/
theorem C234_kriging (π : Equiv.Perm (Fin d)) (k k' : (Fin (d + 1) → ℝ) → (Fin (d + 1) → ℝ) → ℝ) (f f' : (Fin (d + 1) → ℝ) → Fin q → ℝ)
    (hk : ∀ u v, k' (reorder π u) (reorder π v) = k u v) (hf : ∀ u, f' (reorder π u) = f u) (sample : Fin n → Fin (d + 1) → ℝ) (y : Fin n → ℝ)
    (det : ℝ) (rows : ℕ) (w : ℕ → KrigDraws (Fin d → ℝ)) (s : SimAttrs) :
    let sample' := fun i => reorder π (sample i)
    let xs := fun i => normalise sample (sample i)
    let xs' := fun i => normalise sample' (sample' i)
    let w' : ℕ → KrigDraws (Fin d → ℝ) := fun i => ⟨(w i).xs.map fun x j => x (π j), (w i).xi, (w i).mix⟩
    (∀ x, designMean k' f' sample' y (reorder π x) = designMean k f sample y x) ∧
    (∀ x, designVar k' f' sample' (reorder π x) = designVar k f sample x) ∧
    (∀ i, computeLOO (krigK k' xs') (krigF f' xs') y i = computeLOO (krigK k xs) (krigF f xs) y i) ∧
    krigingQ2 y (computeLOO (krigK k' xs') (krigF f' xs') y) = krigingQ2 y (computeLOO (krigK k xs) (krigF f xs) y) ∧
    krigAmplitude (krigK k' xs') (krigF f' xs') y = krigAmplitude (krigK k xs) (krigF f xs) y ∧
    krigReducedLik (krigK k' xs') (krigF f' xs') y = krigReducedLik (krigK k xs) (krigF f xs) y ∧
    krigingDesignRun k' f' sample' y det rows w' s = krigingDesignRun k f sample y det rows w s := by
  intro sample' xs xs' w'
  have hxs : xs' = fun i => reorder π (xs i) := funext fun i => normalise_reorder π sample (sample i)
  have hK : krigK k' xs' = krigK k xs := by
    ext i j
    simp only [krigK, hxs, Matrix.of_apply, hk]
  have hF : krigF f' xs' = krigF f xs := by
    ext i j
    simp only [krigF, hxs, Matrix.of_apply, hf]
  have hrhs : ∀ x, krigRhs k' f' xs' (reorder π x) = krigRhs k f xs x := by
    intro x
    simp only [krigRhs, hxs, hk, hf]
  have hmean : ∀ x, designMean k' f' sample' y (reorder π x) = designMean k f sample y x := by
    intro x
    have h := normalise_reorder π sample x
    change krigMean k' f' xs' y (normalise sample' (reorder π x)) = krigMean k f xs y (normalise sample x)
    rw [show normalise sample' (reorder π x) = _ from h, krigMean, krigMean, hrhs, hK, hF]
  have hvar : ∀ x, designVar k' f' sample' (reorder π x) = designVar k f sample x := by
    intro x
    have h := normalise_reorder π sample x
    change krigVar k' f' xs' (normalise sample' (reorder π x)) = krigVar k f xs (normalise sample x)
    rw [show normalise sample' (reorder π x) = _ from h, krigVar, krigVar, hrhs, hK, hF, hk]
  refine ⟨hmean, hvar, fun i => by rw [hK, hF], by rw [hK, hF], by rw [hK, hF], by rw [hK, hF], ?_⟩
  have hsim : (fun (i : ℕ) (a : ℝ) => podSamplePerDefect (fun p => designMean k' f' sample' y (fullPoint p)) (fun p => designVar k' f' sample' (fullPoint p))
      det a (w' i)) = fun i a => podSamplePerDefect (fun p => designMean k f sample y (fullPoint p)) (fun p => designVar k f sample (fullPoint p))
      det a (w i) := by
    funext i a
    have ht : ∀ z, krigTrajectory (fun p => designMean k' f' sample' y (fullPoint p)) (fun p => designVar k' f' sample' (fullPoint p)) a
        ((w i).xs.map fun x j => x (π j)) z
        = krigTrajectory (fun p => designMean k f sample y (fullPoint p)) (fun p => designVar k f sample (fullPoint p)) a (w i).xs z := by
      intro z
      rw [krigTrajectory, krigTrajectory, mergeDefectInX, mergeDefectInX, List.map_map, List.map_map, List.map_map]
      refine List.map_congr_left fun x _ => ?_
      have e := reorder_fullPoint π (a, x)
      dsimp only at e
      simp only [Function.comp, e, hmean, hvar]
    simp only [podSamplePerDefect, w', ht]
  rw [krigingDesignRun, krigingDesignRun, hsim]

/-- **C234, the default kriging model.**  The default trend is not affected by the order, and the anisotropic squared exponential model with the
lengths listed in the new order is the same covariance. -/
theorem C234_default (π : Equiv.Perm (Fin d)) (θ : Fin (d + 1) → ℝ) :
    (∀ u : Fin (d + 1) → ℝ, defectTrend (reorder π u) = defectTrend u) ∧
    ∀ u v : Fin (d + 1) → ℝ, Real.exp (-(1 / 2) * ∑ j, ((reorder π u j - reorder π v j) / reorder π θ j) ^ 2)
      = Real.exp (-(1 / 2) * ∑ j, ((u j - v j) / θ j) ^ 2) := by
  refine ⟨fun u => by simp [defectTrend, reorder], fun u v => ?_⟩
  congr 2
  rw [Fin.sum_univ_succ, Fin.sum_univ_succ]
  simp only [reorder, Fin.cons_zero, Fin.cons_succ]
  rw [Equiv.sum_comp π fun j => ((u j.succ - v j.succ) / θ j.succ) ^ 2]

theorem assignRows_map {α β : Type} (g : α → β) (full : List α) (start : ℕ) (block : List α) :
    assignRows (full.map g) start (block.map g) = (assignRows full start block).map g := by
  simp [assignRows, List.map_take, List.map_drop]

/-- Least squares with the basis functions listed in another order: the same coefficients, each with its function. -/
theorem lsCoefs_reorder {p : ℕ} (A : Matrix (Fin n) (Fin p) ℝ) (τ : Equiv.Perm (Fin p)) (y : Fin n → ℝ) :
    lsCoefs (A.submatrix id τ) y = fun j => lsCoefs A y (τ j) := by
  have hG : (A.submatrix id τ)ᵀ * A.submatrix id τ = (Aᵀ * A).submatrix τ τ := by
    ext i j
    simp [Matrix.mul_apply]
  have hy : (A.submatrix id τ)ᵀ *ᵥ y = fun j => (Aᵀ *ᵥ y) (τ j) := by
    funext j
    simp [mulVec, dotProduct]
  funext j
  rw [lsCoefs, lsCoefs, hG, inv_submatrix_equiv, hy]
  simp only [mulVec, dotProduct, submatrix_apply]
  exact Equiv.sum_comp τ fun l => (Aᵀ * A)⁻¹ (τ j) l * ∑ i, Aᵀ l i * y i

variable {X X' U U' : Type}

/-- A point of the input space with the other parameters written in another way. -/
def rewritten (e : X → X') (p : ℝ × X) : ℝ × X' := (p.1, e p.2)

theorem fullSample_map (e : X → X') (zero : ℝ × X) (m number : ℕ) (sizes : List ℝ) (xs : List X) :
    fullSample (rewritten e zero) m number sizes (xs.map e) = (fullSample zero m number sizes xs).map (rewritten e) := by
  have hm : ∀ a, mergeDefectInX a (xs.map e) = (mergeDefectInX a xs).map (rewritten e) := by
    intro a
    simp [mergeDefectInX, rewritten, Function.comp_def]
  have key : ∀ (l : List (ℝ × ℕ)) (full : List (ℝ × X)),
      l.foldl (fun full di => assignRows full (m * di.2) (mergeDefectInX di.1 (xs.map e))) (full.map (rewritten e))
        = (l.foldl (fun full di => assignRows full (m * di.2) (mergeDefectInX di.1 xs)) full).map (rewritten e) := by
    intro l
    induction l with
    | nil => intro full; rfl
    | cons a l ih =>
      intro full
      rw [List.foldl_cons, List.foldl_cons, hm, assignRows_map, ih]
  rw [fullSample, fullSample, ← key, List.map_replicate]

theorem chaosPodRow_rewritten (e : X → X') (c : ChaosSetup X U) (c' : ChaosSetup X' U') (hz : c'.zero = rewritten e c.zero) (hs : c'.stderr = c.stderr)
    (hd : c'.detection = c.detection) (hm : c'.samplingSize = c.samplingSize) (number : ℕ) (sizes : List ℝ) (coefs coefs' : List ℝ) (w : ChaosDraws X)
    (hc : ∀ p, chaosFunction c'.transformation c'.basis coefs' (rewritten e p) = chaosFunction c.transformation c.basis coefs p) :
    chaosPodRow c' number sizes coefs' ⟨w.xs.map e, w.noise⟩ = chaosPodRow c number sizes coefs w := by
  rw [chaosPodRow, chaosPodRow, chaosComputePOD, chaosComputePOD, hz, hs, hd, hm, fullSample_map, List.map_map]
  rw [show chaosFunction c'.transformation c'.basis coefs' ∘ rewritten e = chaosFunction c.transformation c.basis coefs from funext hc]

/-- **C234, polynomial chaos.**  The parameters are written in another order (`e`), so that the basis functions are enumerated in another order
(`τ`): function `j` of the new basis is function `τ j` of the old one.  The coefficients are the same, each with its function; metamodel, residual
deviation and Q2 are the same; and the run with the same random draws (deviates of a coefficient with its coefficient) ends with the same result. -/
theorem C234_chaos {m : ℕ} (e : X → X') (τ : Equiv.Perm (Fin m)) (zero : ℝ × X) (T : ℝ × X → U) (T' : ℝ × X' → U') (φ : Fin m → U → ℝ)
    (φ' : Fin m → U' → ℝ) (hφ : ∀ j p, φ' j (T' (rewritten e p)) = φ (τ j) (T p)) (det : ℝ) (N : ℕ) (z : ℕ → ℝ × X) (y : ℕ → ℝ) (size : ℕ)
    (w : ChaosDraws X) (varEps : ℝ → ℕ → ℝ) (v : ℕ → Fin m → ℝ) (ws : List (ChaosDraws X)) (s : SimAttrs) :
    let S := { fittedChaos zero T φ det N z y with samplingSize := size }
    let S' := { fittedChaos (rewritten e zero) T' φ' det N (fun i => rewritten e (z i)) y with samplingSize := size }
    let A := basisMatrix (fun j w => φ j (T w)) N z
    let A' := basisMatrix (fun j w => φ' j (T' w)) N fun i => rewritten e (z i)
    let yN : Fin N → ℝ := fun i => y i
    let sims := ws.mapIdx fun i d => (List.ofFn (chaosDraw (lsCoefs A yN) (varEps S.stderr) v i), d)
    let sims' := ws.mapIdx fun i d => (List.ofFn (chaosDraw (lsCoefs A' yN) (varEps S'.stderr) (fun i j => v i (τ j)) i),
      (⟨d.xs.map e, d.noise⟩ : ChaosDraws X'))
    (∀ j, lsCoefs A' yN j = lsCoefs A yN (τ j)) ∧
    (∀ p, chaosFunction S'.transformation S'.basis S'.coefs (rewritten e p) = chaosFunction S.transformation S.basis S.coefs p) ∧
    S'.stderr = S.stderr ∧ chaosQ2 A' yN (A' *ᵥ lsCoefs A' yN) = chaosQ2 A yN (A *ᵥ lsCoefs A yN) ∧
    chaosRunSim S' ⟨w.xs.map e, w.noise⟩ sims' s = chaosRunSim S w sims s := by
  intro S S' A A' yN sims sims'
  have hA : A' = A.submatrix id τ := by
    ext i j
    simp only [A', A, basisMatrix, submatrix_apply, id_eq, hφ]
  have hco : lsCoefs A' yN = fun j => lsCoefs A yN (τ j) := by rw [hA, lsCoefs_reorder]
  have hfit : A' *ᵥ lsCoefs A' yN = A *ᵥ lsCoefs A yN := by
    funext i
    rw [hco, hA]
    simp only [mulVec, dotProduct, submatrix_apply, id_eq]
    exact Equiv.sum_comp τ fun j => A i j * lsCoefs A yN j
  have hse : S'.stderr = S.stderr := by
    change Real.sqrt (chaosScale A' yN) = Real.sqrt (chaosScale A yN)
    rw [chaosScale, chaosScale, hfit]
  have hH : chaosH A' = chaosH A := by
    have hG : A'ᵀ * A' = (Aᵀ * A).submatrix τ τ := by
      rw [hA]
      ext i j
      simp [Matrix.mul_apply]
    rw [chaosH, chaosH, hG, inv_submatrix_equiv, hA, transpose_submatrix, submatrix_mul_equiv, submatrix_mul_equiv, submatrix_id_id]
  have hfun : ∀ (b : Fin m → ℝ) (p : ℝ × X), chaosFunction T' (List.ofFn φ') (List.ofFn fun j => b (τ j)) (rewritten e p)
      = chaosFunction T (List.ofFn φ) (List.ofFn b) p := by
    intro b p
    rw [chaosFunction_ofFn, chaosFunction_ofFn, polySignal, polySignal]
    simp only [hφ]
    exact Equiv.sum_comp τ fun j => b j * φ j (T p)
  have hmeta : ∀ p, chaosFunction S'.transformation S'.basis S'.coefs (rewritten e p) = chaosFunction S.transformation S.basis S.coefs p := by
    intro p
    change chaosFunction T' (List.ofFn φ') (List.ofFn (lsCoefs A' yN)) _ = chaosFunction T (List.ofFn φ) (List.ofFn (lsCoefs A yN)) p
    rw [hco]
    exact hfun _ p
  refine ⟨fun j => congrFun hco j, hmeta, hse, ?_, ?_⟩
  · rw [chaosQ2, chaosQ2]
    simp only [chaosDelta, hfit, hH]
  · have hrow0 : ∀ number sizes, chaosPodRow S' number sizes S'.coefs ⟨w.xs.map e, w.noise⟩ = chaosPodRow S number sizes S.coefs w :=
      fun number sizes => chaosPodRow_rewritten e S S' rfl hse rfl rfl number sizes _ _ w hmeta
    have hrows : ∀ number sizes, (sims'.map fun q => chaosPodRow S' number sizes q.1 q.2) = sims.map fun q => chaosPodRow S number sizes q.1 q.2 := by
      intro number sizes
      refine List.ext_getElem (by simp [sims, sims']) fun i h1 h2 => ?_
      simp only [sims, sims', List.getElem_map, List.getElem_mapIdx]
      refine chaosPodRow_rewritten e S S' rfl hse rfl rfl number sizes _ _ _ fun p => ?_
      have : chaosDraw (lsCoefs A' yN) (varEps S'.stderr) (fun i j => v i (τ j)) i
          = fun j => chaosDraw (lsCoefs A yN) (varEps S.stderr) v i (τ j) := by
        funext j
        simp only [chaosDraw, hco, hse]
      rw [this]
      exact hfun _ p
    simp only [chaosRunSim, hrow0, hrows]

/-- Three parameters: the last two exchanged, with the default trend. -/
example (sample : Fin 5 → Fin 3 → ℝ) (y : Fin 5 → ℝ) (w : ℕ → KrigDraws (Fin 2 → ℝ)) (s : SimAttrs) :
    krigingDesignRun (fun u v => Real.exp (-(1 / 2) * ∑ j, ((u j - v j) / reorder (Equiv.swap 0 1) ![1, 2, 3] j) ^ 2)) defectTrend
      (fun i => reorder (Equiv.swap 0 1) (sample i)) y 4 100 (fun i => ⟨(w i).xs.map fun x j => x (Equiv.swap 0 1 j), (w i).xi, (w i).mix⟩) s
    = krigingDesignRun (fun u v => Real.exp (-(1 / 2) * ∑ j, ((u j - v j) / ![1, 2, 3] j) ^ 2)) defectTrend sample y 4 100 w s :=
  (C234_kriging (Equiv.swap 0 1) _ _ _ _ (C234_default (Equiv.swap 0 1) ![1, 2, 3]).2 (C234_default (Equiv.swap 0 1) ![1, 2, 3]).1 sample y 4 100 w s).2.2.2.2.2.2

/-- Two parameters exchanged and the two linear functions of a chaos basis with them. -/
example (z : ℕ → ℝ × (ℝ × ℝ)) (y : ℕ → ℝ) (p : ℝ × (ℝ × ℝ)) :
    let φ : Fin 3 → ℝ × (ℝ × ℝ) → ℝ := ![fun _ => 1, fun u => u.2.1, fun u => u.2.2]
    chaosFunction id (List.ofFn φ) (List.ofFn (lsCoefs (basisMatrix φ 4 fun i => rewritten Prod.swap (z i)) fun i => y i)) (rewritten Prod.swap p)
      = chaosFunction id (List.ofFn φ) (List.ofFn (lsCoefs (basisMatrix φ 4 z) fun i => y i)) p := by
  intro φ
  exact (C234_chaos Prod.swap (Equiv.swap 1 2) (0, (0, 0)) id id φ φ (by
    intro j p
    fin_cases j <;> simp [φ, rewritten, Equiv.swap_apply_def]) 0 4 z y 0 ⟨[], []⟩ (fun _ _ => 0) (fun _ _ => 0) [] ⟨⟨[], 0⟩, none, none⟩).2.1 p

end Verif.Props
