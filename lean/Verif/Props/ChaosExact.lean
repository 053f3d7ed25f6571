import Verif.Props.CurveMonotone
import Verif.Props.MeanCurve
import Verif.Props.Loo
import Verif.Props.Stats
import Verif.Model.ChaosFit

/-!
# C217: data without noise and the chaos POD
-/

namespace Verif.Props
open Verif.Py Verif.Model Matrix

variable {X U : Type}

/-- The signal of the physical model: a combination of the functions of the basis. -/
def polySignal {k : ℕ} (T : ℝ × X → U) (φ : Fin k → U → ℝ) (c : Fin k → ℝ) (p : ℝ × X) : ℝ := ∑ j, c j * φ j (T p)

/-- Share of a sample of parameters for which the physical signal of the defect `a` exceeds the threshold. -/
noncomputable def trueShare (g : ℝ × X → ℝ) (det : ℝ) (xs : List X) (a : ℝ) : ℝ :=
  ((xs.countP fun x => decide (det < g (a, x)) : ℕ) : ℝ) / xs.length

theorem lsCoefs_exact {n p : ℕ} (A : Matrix (Fin n) (Fin p) ℝ) (hA : IsUnit (Aᵀ * A).det) (beta : Fin p → ℝ) : lsCoefs A (A *ᵥ beta) = beta := by
  have h := lsCoefs_error A hA beta 0
  rw [Matrix.mulVec_zero, add_zero, sub_eq_zero] at h
  exact h

theorem chaosFunction_ofFn {k : ℕ} (T : ℝ × X → U) (φ : Fin k → U → ℝ) (c : Fin k → ℝ) (p : ℝ × X) :
    chaosFunction T (List.ofFn φ) (List.ofFn c) p = polySignal T φ c p := by
  have : List.zipWith (fun c ψ => c * ψ (T p)) (List.ofFn c) (List.ofFn φ) = List.ofFn fun j => c j * φ j (T p) :=
    List.ext_getElem (by simp) (by simp)
  rw [chaosFunction, this, List.sum_ofFn, polySignal]

theorem exact_design {k : ℕ} (T : ℝ × X → U) (φ : Fin k → U → ℝ) (c : Fin k → ℝ) (N : ℕ) (z : ℕ → ℝ × X) (y : ℕ → ℝ)
    (hy : ∀ i, i < N → y i = polySignal T φ c (z i)) :
    (fun i : Fin N => y i) = basisMatrix (fun j w => φ j (T w)) N z *ᵥ c := by
  funext i
  rw [hy i i.2, polySignal, Matrix.mulVec, dotProduct]
  exact Finset.sum_congr rfl fun j _ => mul_comm _ _

/-- **C217, the metamodel.**  When the signals are a combination of the functions of the basis, without noise, the fitted coefficients are the true ones,
the residual deviation is zero, and so is the variance with which coefficients are simulated; R2 and Q2 are 1 (signals not all equal,
no leverage equal to 1).  The hypotheses `k + 1 < N` and on the leverages exclude the quotients 0/0 of lines 180 and 431. -/
theorem C217_metamodel {k : ℕ} (zero : ℝ × X) (T : ℝ × X → U) (φ : Fin k → U → ℝ) (c : Fin k → ℝ) (det : ℝ) (N : ℕ) (_hN : k + 1 < N) (z : ℕ → ℝ × X)
    (y : ℕ → ℝ) (hy : ∀ i, i < N → y i = polySignal T φ c (z i))
    (hG : IsUnit ((basisMatrix (fun j w => φ j (T w)) N z)ᵀ * basisMatrix (fun j w => φ j (T w)) N z).det) :
    let A := basisMatrix (fun j w => φ j (T w)) N z
    let S := fittedChaos zero T φ det N z y
    S.coefs = List.ofFn c ∧ S.stderr = 0 ∧ (∀ p, chaosFunction S.transformation S.basis S.coefs p = polySignal T φ c p) ∧
    (∀ (u : ℝ) (v : ℕ → Fin k → ℝ) q, chaosDraw (lsCoefs A fun i => y i) (fun _ => u * ((N : ℝ) - k - 1) * S.stderr ^ 2) v q = c) ∧
    ((∃ i j : Fin N, y i ≠ y j) → computeR2 (fun i : Fin N => y i) (fun i => y i - (A *ᵥ lsCoefs A fun i => y i) i) = .ok 1 ∧
      ((∀ i, chaosH A i i ≠ 1) → chaosQ2 A (fun i => y i) (A *ᵥ lsCoefs A fun i => y i) = 1)) := by
  intro A S
  have hd : (fun i : Fin N => y i) = A *ᵥ c := exact_design T φ c N z y hy
  have hls : (lsCoefs A fun i => y i) = c := by
    rw [hd]
    exact lsCoefs_exact A hG c
  have hco : S.coefs = List.ofFn c := by
    change List.ofFn (lsCoefs A fun i => y i) = _
    rw [hls]
  have hres : ∀ i, y (i : Fin N) - (A *ᵥ lsCoefs A fun i => y i) i = 0 := by
    intro i
    rw [hls, ← hd, sub_self]
  have hse : S.stderr = 0 := by
    change Real.sqrt (chaosScale A fun i => y i) = 0
    rw [chaosScale, Finset.sum_eq_zero fun i _ => by rw [hres i, sq, zero_mul], zero_div, Real.sqrt_zero]
  refine ⟨hco, hse, fun p => ?_, fun u v q => ?_, fun hne => ⟨?_, fun _ => ?_⟩⟩
  · rw [hco]
    exact chaosFunction_ofFn T φ c p
  · funext j
    rw [hse, hls, chaosDraw]
    simp
  · have h2 : 2 ≤ N := two_le_of_nonconst (fun i : Fin N => y i) hne
    obtain ⟨v, hv, -, h1⟩ := (C07_R2_le_one h2 (fun i : Fin N => y i) fun i => y i - (A *ᵥ lsCoefs A fun i => y i) i).2 hne
    rw [hv, h1.2 fun i j => by rw [hres, hres]]
  · refine ((C39_q2_partial (fun i : Fin N => y i) hne (fun i => y i) A _).2.2.2).2 fun i => ?_
    rw [chaosDelta, hres i, zero_div]

/-- **C217, the curves.**  On such data the POD curve at a defect size is the share of the simulated parameters for which the physical signal exceeds the
threshold, and the curve at a confidence level is the quantile of these shares over the simulations; the Gaussian deviates drawn for residuals and
coefficients have no influence. -/
theorem C217_curves {k : ℕ} (zero : ℝ × X) (T : ℝ × X → U) (φ : Fin k → U → ℝ) (c : Fin k → ℝ) (det : ℝ) (N : ℕ) (_hN : k + 1 < N) (z : ℕ → ℝ × X)
    (y : ℕ → ℝ) (hy : ∀ i, i < N → y i = polySignal T φ c (z i))
    (hG : IsUnit ((basisMatrix (fun j w => φ j (T w)) N z)ᵀ * basisMatrix (fun j w => φ j (T w)) N z).det) (n : ℕ) (s : SimAttrs)
    (hs : s.sizes.Pairwise (· < ·)) (hnum : s.number = s.sizes.length) (w : ChaosDraws X) (hw : w.xs.length = n) (hwn : w.noise.length = n * s.sizes.length)
    (u : ℝ) (v : ℕ → Fin k → ℝ) (ws : List (ChaosDraws X)) (hws : ∀ q ∈ ws, q.xs.length = n ∧ q.noise.length = n * s.sizes.length) (level a : ℝ)
    (ha : a ∈ s.sizes) :
    let S := { fittedChaos zero T φ det N z y with samplingSize := n }
    let sims := ws.mapIdx fun q d => (List.ofFn (chaosDraw (lsCoefs (basisMatrix (fun j w => φ j (T w)) N z) fun i => y i)
      (fun _ => u * ((N : ℝ) - k - 1) * S.stderr ^ 2) v q), d)
    ∃ f g, (chaosRunSim S w sims s).2.curve = some f ∧ getPODCLModel (chaosRunSim S w sims s).2 level = .ok g ∧
      f a = .ok (trueShare (polySignal T φ c) det w.xs a) ∧
      g a = .ok (quantile (ws.map fun d => trueShare (polySignal T φ c) det d.xs a) (1 - level)) := by
  intro S sims
  obtain ⟨hco, hse, hfun, hdraw, -⟩ := C217_metamodel zero T φ c det N _hN z y hy hG
  have hne : s.sizes ≠ [] := List.ne_nil_of_mem ha
  have hrow : ∀ d : ChaosDraws X, d.xs.length = n → d.noise.length = n * s.sizes.length →
      chaosPodRow S s.number s.sizes (List.ofFn c) d = s.sizes.map fun a => trueShare (polySignal T φ c) det d.xs a := by
    intro d h1 h2
    have hz : ∀ k, (d.noise.map (· * S.stderr)).getD k 0 = 0 := by
      intro k
      rw [List.getD_eq_getElem?_getD, List.getElem?_map]
      have : S.stderr = 0 := hse
      rw [this]
      cases d.noise[k]? <;> simp
    have hc : ∀ {α β : Type} (f : α → β) (l : List α), (l.mapIdx fun _ a => f a) = l.map f := fun f l => List.ext_getElem (by simp) (by simp)
    have hS : S.samplingSize = d.xs.length := h1.symm
    rw [chaosPodRow, hS, hnum, C36_chaos_layout _ _ _ _ _ _ (by simpa [h1] using h2)]
    simp only [hz, add_zero]
    rw [hc]
    refine List.map_congr_left fun a _ => ?_
    rw [hc, List.countP_map, trueShare]
    congr 2
    refine List.countP_congr fun x _ => ?_
    simp only [Function.comp_apply, decide_eq_true_eq]
    have e : chaosFunction S.transformation S.basis (List.ofFn c) (a, x) = polySignal T φ c (a, x) := chaosFunction_ofFn T φ c (a, x)
    rw [e]
    rfl
  have hS0 : S.coefs = List.ofFn c := hco
  obtain ⟨j, hj, hja⟩ := List.getElem_of_mem ha
  have hD : s.sizes.getD j 0 = a := by rw [List.getD_eq_getElem _ _ hj, hja]
  obtain ⟨f, hf, -, hnode, -⟩ := interp1d_spec s.sizes (chaosPodRow S s.number s.sizes S.coefs w) (by rw [hS0, hrow w hw hwn]; simp) hne hs
  have hrun : chaosRunSim S w sims s = (.ok (), { s with
        curve := some f
        perDefect := some (columnsOf (sims.map fun q => chaosPodRow S s.number s.sizes q.1 q.2) s.number) }) := by
    rw [chaosRunSim, if_neg (by omega), hf]
  have hsims : (sims.map fun q => chaosPodRow S s.number s.sizes q.1 q.2) = ws.map fun d => s.sizes.map fun a => trueShare (polySignal T φ c) det d.xs a := by
    refine List.ext_getElem (by simp [sims]) fun q h1 h2 => ?_
    rw [List.length_map] at h2
    simp only [sims, List.getElem_map, List.getElem_mapIdx]
    have e := hdraw u v q
    have e' : chaosDraw (lsCoefs (basisMatrix (fun j w => φ j (T w)) N z) fun i => y i) (fun _ => u * ((N : ℝ) - k - 1) * S.stderr ^ 2) v q = c := e
    rw [e']
    exact hrow _ (hws _ (List.getElem_mem h2)).1 (hws _ (List.getElem_mem h2)).2
  obtain ⟨g, hg, -, hnode', -⟩ := interp1d_spec s.sizes
    ((columnsOf (sims.map fun q => chaosPodRow S s.number s.sizes q.1 q.2) s.number).map fun col => quantile col (1 - level))
    (by simp [columnsOf, hnum]) hne hs
  refine ⟨f, g, by rw [hrun], by rw [hrun, getPODCLModel]; exact hg, ?_, ?_⟩
  · have n1 := hnode j hj
    rw [hD, hS0, hrow w hw hwn, List.getD_eq_getElem _ _ (by simpa using hj), List.getElem_map, hja] at n1
    exact n1
  · have n2 := hnode' j hj
    rw [hD, List.getD_eq_getElem _ _ (by simpa [columnsOf, hnum] using hj), List.getElem_map] at n2
    rw [n2]
    congr 2
    simp only [columnsOf, List.getElem_map, List.getElem_range]
    rw [hsims, List.map_map]
    refine List.map_congr_left fun d _ => ?_
    rw [Function.comp_apply, List.getD_eq_getElem _ _ (by simpa using hj), List.getElem_map, hja]

/-- The data of the examples: four flaws of sizes 0 to 3 and the signal `1 + 2 a`, with the basis `1, a`. -/
theorem exactExample_gram :
    IsUnit ((basisMatrix (fun j w => (![fun _ => 1, id] : Fin 2 → ℝ → ℝ) j ((Prod.fst : ℝ × Unit → ℝ) w)) 4 fun i => ((i : ℝ), ()))ᵀ *
      basisMatrix (fun j w => (![fun _ => 1, id] : Fin 2 → ℝ → ℝ) j ((Prod.fst : ℝ × Unit → ℝ) w)) 4 fun i => ((i : ℝ), ())).det := by
  rw [isUnit_iff_ne_zero, Matrix.det_fin_two]
  simp [Matrix.mul_apply, basisMatrix, Fin.sum_univ_succ]
  norm_num

/-- The hypotheses of `C217_metamodel` hold for the signal `1 + 2 a` measured on four flaws: the fit finds the coefficients 1 and 2. -/
example : (fittedChaos ((0 : ℝ), ()) Prod.fst ![fun _ => 1, id] 4 4 (fun i => ((i : ℝ), ())) fun i => 1 + 2 * (i : ℝ)).coefs = [1, 2] := by
  have h := (C217_metamodel ((0 : ℝ), ()) Prod.fst ![fun _ => 1, id] ![1, 2] 4 4 (by norm_num) (fun i => ((i : ℝ), ())) (fun i => 1 + 2 * (i : ℝ))
    (fun i _ => by simp [polySignal, Fin.sum_univ_succ]) exactExample_gram).1
  simpa using h

/-- The hypotheses of `C217_curves` hold for the same data, threshold 4 and sizes 1 and 2 (signals 3 and 5), whatever the drawn deviates. -/
example (e1 e2 : ℝ) (s : SimAttrs) (hs : s.sizes = [1, 2]) (hn : s.number = 2) :
    ∃ f, (chaosRunSim { fittedChaos ((0 : ℝ), ()) Prod.fst ![fun _ => 1, id] 4 4 (fun i => ((i : ℝ), ())) (fun i => 1 + 2 * (i : ℝ)) with samplingSize := 1 }
      ⟨[()], [e1, e2]⟩ [] s).2.curve = some f ∧ f 2 = .ok 1 := by
  obtain ⟨f, g, hf, -, h2, -⟩ := C217_curves ((0 : ℝ), ()) Prod.fst ![fun _ => 1, id] ![1, 2] 4 4 (by norm_num) (fun i => ((i : ℝ), ())) (fun i => 1 + 2 * (i : ℝ))
    (fun i _ => by simp [polySignal, Fin.sum_univ_succ]) exactExample_gram 1 s (by rw [hs]; norm_num) (by rw [hs, hn]; rfl) ⟨[()], [e1, e2]⟩ rfl
    (by rw [hs]; rfl) 0 (fun _ _ => 0) [] (by simp) 0.95 2 (by rw [hs]; simp)
  refine ⟨f, hf, ?_⟩
  rw [h2, trueShare]
  norm_num [polySignal, Fin.sum_univ_succ]

end Verif.Props
