import Verif.Props.SobolMethods
import Verif.Props.PliUnits

/-!
# C237: the sensitivity indices follow the order of the parameters

/repo/otpod/_sobol_indices.py 99-169 and 463-617, /repo/otpod/_pli.py 52-136, 515-536, 627-634 and 733-744.
-/

namespace Verif.Props
open Verif.Py Verif.Model

/-! ## Sobol indices -/

/-- The first block of a column of the output design. -/
theorem firstBlock (out : List (List ℝ)) {N : ℕ} (hN : N ≤ out.length) (j : ℕ) :
    (out.map fun r => r.getD j 0).take N = (List.range N).map fun k => designEntry out N 0 k j := by
  apply List.ext_getElem
  · simpa using hN
  · intro k h1 h2
    have hk : k < N := by simpa using h2
    simp only [List.getElem_take, List.getElem_map, List.getElem_range, designEntry, zero_mul, zero_add]
    rw [List.getD_eq_getElem out _ (by omega)]

/-- The estimates only depend on the first two blocks and on the block of the input. -/
theorem sobolEstimates_congr (method : String) (c : ℝ) {N : ℕ} (i i' j : ℕ) (out out' : List (List ℝ)) (hN : N ≤ out.length) (hN' : N ≤ out'.length)
    (h0 : ∀ k < N, designEntry out' N 0 k j = designEntry out N 0 k j) (h1 : ∀ k < N, designEntry out' N 1 k j = designEntry out N 1 k j)
    (h2 : ∀ k < N, designEntry out' N (2 + i') k j = designEntry out N (2 + i) k j) :
    sobolEstimates method c N i' j out' = sobolEstimates method c N i j out := by
  have hv : (out'.map fun r => r.getD j 0).take N = (out.map fun r => r.getD j 0).take N := by
    rw [firstBlock out hN, firstBlock out' hN']
    exact List.map_congr_left fun k hk => h0 k (by simpa using hk)
  have hc : ∀ (u u' v v' : ℕ → ℝ), (∀ k < N, u' k = u k) → (∀ k < N, v' k = v k) → blockCorr N u' v' = blockCorr N u v := by
    intro u u' v v' hu hv
    have s1 : ∑ k ∈ Finset.range N, u' k = ∑ k ∈ Finset.range N, u k := Finset.sum_congr rfl fun k hk => hu k (Finset.mem_range.mp hk)
    have s2 : ∑ k ∈ Finset.range N, v' k = ∑ k ∈ Finset.range N, v k := Finset.sum_congr rfl fun k hk => hv k (Finset.mem_range.mp hk)
    unfold blockCorr
    dsimp only
    rw [s1, s2]
    congr 1
    · exact Finset.sum_congr rfl fun k hk => by rw [hu k (Finset.mem_range.mp hk), hv k (Finset.mem_range.mp hk)]
    · congr 2
      · exact Finset.sum_congr rfl fun k hk => by rw [hu k (Finset.mem_range.mp hk)]
      · exact Finset.sum_congr rfl fun k hk => by rw [hv k (Finset.mem_range.mp hk)]
  have hs : ∀ F : ℝ → ℝ → ℝ → ℝ, ∑ k ∈ Finset.range N, F (designEntry out' N 0 k j) (designEntry out' N 1 k j) (designEntry out' N (2 + i') k j)
      = ∑ k ∈ Finset.range N, F (designEntry out N 0 k j) (designEntry out N 1 k j) (designEntry out N (2 + i) k j) := fun F =>
    Finset.sum_congr rfl fun k hk => by
      rw [h0 k (Finset.mem_range.mp hk), h1 k (Finset.mem_range.mp hk), h2 k (Finset.mem_range.mp hk)]
  have hj : jansenTotal N i' j out' = jansenTotal N i j out := by
    rw [jansenTotal, jansenTotal, hv, jansenGap, jansenGap, hs fun a _ e => (a - e) ^ 2]
  unfold sobolEstimates
  dsimp only
  rw [hv, hj, hs fun _ b e => (b - c) * (e - c), hs fun a _ e => (a - c) * (e - c), hs fun _ b e => (e - b) ^ 2,
    hs fun a b e => (b - c) * (e - a), hs fun a _ e => (a - c) * (a - e), hc _ _ _ _ h1 h2, hc _ _ _ _ h0 h2]

/-- Two output designs whose first blocks agree for each size keep the same sizes. -/
theorem sobolRun_sizes (observed : List ℝ) (N : ℕ) (design design' : List ℝ → List (List ℝ)) (s : SobolSt)
    (hl : (design' s.sizes).length = (design s.sizes).length)
    (h : ∀ j, ((design' s.sizes).getD j []).take N = ((design s.sizes).getD j []).take N) :
    (sobolRun observed N design' s).1 = (sobolRun observed N design s).1 ∧
      (sobolRun observed N design' s).2.toSizeAttrs = (sobolRun observed N design s).2.toSizeAttrs := by
  unfold sobolRun
  dsimp only
  simp only [h, hl]
  split_ifs with hsel
  · split <;> simp_all
  · exact ⟨rfl, rfl⟩

variable {d : ℕ}

/-- The rows of the output design as columns, one per size. -/
noncomputable def outputColumns (D : ℕ) (out : List (List ℝ)) : List (List ℝ) := (List.range D).map fun j => out.map fun r => r.getD j 0

/-- **C237, Sobol indices.**  The parameters are listed in another order, with the same sampled values; `G'` is the aggregated POD function read in this
order.  For each method and each defect size the first and total indices of the parameter now at place `i` are the ones it had at its place `π i`, and
the same sizes are kept. -/
theorem C237_sobol (π : Equiv.Perm (Fin d)) (G G' : List ℝ → List ℝ) (hG : ∀ u : Fin d → ℝ, G' (List.ofFn fun j => u (π j)) = G (List.ofFn u)) (N : ℕ)
    (x y : ℕ → Fin d → ℝ) :
    let out := sobolOutput G N x y
    let out' := sobolOutput G' N (fun k j => x k (π j)) (fun k j => y k (π j))
    (∀ method c (i : Fin d) j, sobolEstimates method c N i j out' = sobolEstimates method c N (π i) j out) ∧
    ∀ (observed : List ℝ) (s : SobolSt),
      (sobolRun observed N (fun sizes => outputColumns sizes.length out') s).1 = (sobolRun observed N (fun sizes => outputColumns sizes.length out) s).1 ∧
      (sobolRun observed N (fun sizes => outputColumns sizes.length out') s).2.toSizeAttrs
        = (sobolRun observed N (fun sizes => outputColumns sizes.length out) s).2.toSizeAttrs := by
  intro out out'
  have hlen : ∀ (G : List ℝ → List ℝ) (x y : ℕ → Fin d → ℝ), N ≤ (sobolOutput G N x y).length := fun G x y => by
    rw [sobolOutput, List.length_map, sobolDesign_length (N := N) (by simp) (by simp)]
    nlinarith
  have hu : ∀ (u v : Fin d → ℝ) (i : Fin d), Function.update (fun j => u (π j)) i (v (π i)) = fun j => Function.update u (π i) (v (π i)) (π j) := by
    intro u v i
    funext j
    by_cases hj : j = i
    · subst hj; simp
    · rw [Function.update_of_ne hj, Function.update_of_ne fun e => hj (π.injective e)]
  have e0 : ∀ j k, k < N → designEntry out' N 0 k j = designEntry out N 0 k j := fun j k hk => by
    rw [designEntry, designEntry, zero_mul, zero_add, List.getD_eq_getElem?_getD (l := out'), List.getD_eq_getElem?_getD (l := out),
      sobolOutput_first G' _ _ hk, sobolOutput_first G _ _ hk, hG]
  have e1 : ∀ j k, k < N → designEntry out' N 1 k j = designEntry out N 1 k j := fun j k hk => by
    rw [sobolOutput_second G' (fun u => (G' (List.ofFn u)).getD j 0) j (fun _ => rfl) _ _ hk,
      sobolOutput_second G (fun u => (G (List.ofFn u)).getD j 0) j (fun _ => rfl) _ _ hk, hG]
  have e2 : ∀ (i : Fin d) j k, k < N → designEntry out' N (2 + i) k j = designEntry out N (2 + π i) k j := fun i j k hk => by
    rw [(sobolOutput_entries G' (fun u => (G' (List.ofFn u)).getD j 0) j (fun _ => rfl) _ _ i hk).2,
      (sobolOutput_entries G (fun u => (G (List.ofFn u)).getD j 0) j (fun _ => rfl) _ _ (π i) hk).2, hu, hG]
  refine ⟨fun method c i j => sobolEstimates_congr method c _ _ j out out' (hlen _ _ _) (hlen _ _ _) (e0 j) (e1 j) (e2 i j), fun observed s => ?_⟩
  refine sobolRun_sizes observed N _ _ s (by simp [outputColumns]) fun j => ?_
  by_cases hj : j < s.sizes.length
  · simp only [outputColumns]
    rw [List.getD_eq_getElem _ _ (by simpa using hj), List.getD_eq_getElem _ _ (by simpa using hj), List.getElem_map, List.getElem_map,
      List.getElem_range, firstBlock _ (hlen _ _ _), firstBlock _ (hlen _ _ _)]
    exact List.map_congr_left fun k hk => e0 j k (by simpa using hk)
  · rw [List.getD_eq_default _ _ (by simpa [outputColumns] using hj), List.getD_eq_default _ _ (by simpa [outputColumns] using hj)]

/-- **C237, kriging.**  The aggregated function of a kriging POD (`val` reads the computed numbers) when the metamodel takes the parameters in the other
order. -/
theorem C237_kriging (π : Equiv.Perm (Fin d)) (condMean condVar condMean' condVar' : List ℝ → ℝ) (det : ℝ) (sizes : List ℝ)
    (hm : ∀ a (u : Fin d → ℝ), condMean' (a :: List.ofFn fun j => u (π j)) = condMean (a :: List.ofFn u))
    (hv : ∀ a (u : Fin d → ℝ), condVar' (a :: List.ofFn fun j => u (π j)) = condVar (a :: List.ofFn u)) (val : Res (List (F ℝ)) → List ℝ) (N : ℕ)
    (x y : ℕ → Fin d → ℝ) (method : String) (c : ℝ) (i : Fin d) (j : ℕ) :
    sobolEstimates method c N i j (sobolOutput (fun p => val (krigExec condMean' condVar' det sizes p)) N (fun k j => x k (π j)) fun k j => y k (π j))
      = sobolEstimates method c N (π i) j (sobolOutput (fun p => val (krigExec condMean condVar det sizes p)) N x y) := by
  refine (C237_sobol π _ _ (fun u => ?_) N x y).1 method c i j
  have h : ∀ f f' : List ℝ → ℝ, (∀ a (u : Fin d → ℝ), f' (a :: List.ofFn fun j => u (π j)) = f (a :: List.ofFn u)) →
      (sizes.map fun a => a :: List.ofFn fun j => u (π j)).map f' = (sizes.map fun a => a :: List.ofFn u).map f := fun f f' hf => by
    rw [List.map_map, List.map_map]
    exact List.map_congr_left fun a _ => hf a u
  unfold krigExec
  dsimp only
  rw [h _ _ hm, h _ _ hv]

/-- **C237, chaos.**  The aggregated function of a chaos POD adds a residual at each point of the design; the point of the parameter now at place `i` has
the residual it had. -/
theorem C237_chaos {S : ℕ} (π : Equiv.Perm (Fin d)) (f f' : Fin S → List ℝ → ℝ)
    (hf : ∀ s a (u : Fin d → ℝ), f' s (a :: List.ofFn fun j => u (π j)) = f s (a :: List.ofFn u)) (det stderr : ℝ) (sizes : List ℝ) (N : ℕ)
    (x y : ℕ → Fin d → ℝ) (R R' : Fin S → ℕ → ℝ) (h01 : ∀ s, ∀ r < 2 * N, R' s r = R s r)
    (h2 : ∀ s (i : Fin d) k, k < N → R' s ((2 + i) * N + k) = R s ((2 + π i) * N + k)) (method : String) (c : ℝ) (i : Fin d) (j : ℕ)
    (hj : j < sizes.length) :
    let X := sobolDesign d (List.ofFn fun k : Fin N => List.ofFn (x k)) (List.ofFn fun k : Fin N => List.ofFn (y k))
    let X' := sobolDesign d (List.ofFn fun k : Fin N => List.ofFn fun j => x k (π j)) (List.ofFn fun k : Fin N => List.ofFn fun j => y k (π j))
    sobolEstimates method c N i j (chaosOutput f' det stderr d sizes X' fun s r => R' s r)
      = sobolEstimates method c N (π i) j (chaosOutput f det stderr d sizes X fun s r => R s r) := by
  intro X X'
  have hX : X.length = (2 + d) * N := sobolDesign_length (by simp) (by simp)
  have hX' : X'.length = (2 + d) * N := sobolDesign_length (by simp) (by simp)
  have hlen : ∀ (f : Fin S → List ℝ → ℝ) (X : List (List ℝ)) (R : Fin S → Fin X.length → ℝ), (chaosOutput f det stderr d sizes X R).length = X.length :=
    fun f X R => by simp [chaosOutput, chaosExecSample]
  have key : ∀ (b b' k : ℕ), k < N → b < 2 + d → b' < 2 + d → (∀ s, R' s (b' * N + k) = R s (b * N + k)) →
      (∃ u : Fin d → ℝ, X[b * N + k]? = some (List.ofFn u) ∧ X'[b' * N + k]? = some (List.ofFn fun j => u (π j))) →
      designEntry (chaosOutput f' det stderr d sizes X' fun s r => R' s r) N b' k j
        = designEntry (chaosOutput f det stderr d sizes X fun s r => R s r) N b k j := by
    rintro b b' k hk hb hb' hR ⟨u, hu, hu'⟩
    have r1 : b * N + k < X.length := by rw [hX]; nlinarith
    have r2 : b' * N + k < X'.length := by rw [hX']; nlinarith
    rw [designEntry, designEntry, chaosOutput_entry f' det stderr d sizes X' _ _ j r2 hj, chaosOutput_entry f det stderr d sizes X _ _ j r1 hj]
    rw [List.getElem?_eq_getElem r1, Option.some.injEq] at hu
    rw [List.getElem?_eq_getElem r2, Option.some.injEq] at hu'
    rw [hu, hu']
    simp only [hf, hR]
  refine sobolEstimates_congr method c _ _ j _ _ (by rw [hlen, hX]; nlinarith) (by rw [hlen, hX']; nlinarith) (fun k hk => ?_) (fun k hk => ?_) fun k hk => ?_
  · refine key 0 0 k hk (by omega) (by omega) (fun s => h01 s _ (by omega)) ⟨x k, ?_, ?_⟩
    · rw [zero_mul, zero_add, sobolDesign_first (by simp) hk, List.getElem?_eq_getElem (by simpa using hk)]; simp
    · rw [zero_mul, zero_add, sobolDesign_first (by simp) hk, List.getElem?_eq_getElem (by simpa using hk)]; simp
  · refine key 1 1 k hk (by omega) (by omega) (fun s => h01 s _ (by omega)) ⟨y k, ?_, ?_⟩
    · rw [sobolDesign_second (by simp) (by simp) hk, List.getElem?_eq_getElem (by simpa using hk)]; simp
    · rw [sobolDesign_second (by simp) (by simp) hk, List.getElem?_eq_getElem (by simpa using hk)]; simp
  · refine key (2 + π i) (2 + i) k hk (by omega) (by omega) (fun s => h2 s i k hk) ⟨Function.update (x k) (π i) (y k (π i)), ?_, ?_⟩
    · rw [sobolDesign_block (by simp) (by simp) (π i).isLt hk, sobolExchange]
      simp [ofFn_set]
    · rw [sobolDesign_block (by simp) (by simp) i.isLt hk, sobolExchange]
      simp only [List.getElem_ofFn]
      rw [show (List.ofFn fun j => y k (π j)).getD i 0 = y k (π i) by simp]
      rw [ofFn_set]
      congr 2
      funext l
      by_cases hl : l = i
      · subst hl; simp
      · rw [Function.update_of_ne hl, Function.update_of_ne fun e => hl (π.injective e)]

/-- Three points of two parameters, exchanged; the POD function tells them apart. -/
example (method : String) (c : ℝ) (i : Fin 2) (j : ℕ) (x y : ℕ → Fin 2 → ℝ) :
    sobolEstimates method c 3 i j (sobolOutput (fun p => [p.getD 1 0 + 2 * p.getD 0 0]) 3 (fun k j => x k (Equiv.swap 0 1 j)) fun k j => y k (Equiv.swap 0 1 j))
      = sobolEstimates method c 3 (Equiv.swap 0 1 i : Fin 2) j (sobolOutput (fun p => [p.getD 0 0 + 2 * p.getD 1 0]) 3 x y) :=
  (C237_sobol (Equiv.swap 0 1) _ _ (fun u => by simp) 3 x y).1 method c i j

example (method : String) (c : ℝ) (i : Fin 2) (x y : ℕ → Fin 2 → ℝ) (val : Res (List (F ℝ)) → List ℝ) :
    sobolEstimates method c 3 i 0 (sobolOutput (fun p => val (krigExec (fun q => q.getD 0 0 + 2 * q.getD 1 0) (fun _ => 1) 3 [1, 2] p)) 3
        (fun k j => x k (Equiv.swap 0 1 j)) fun k j => y k (Equiv.swap 0 1 j))
      = sobolEstimates method c 3 (Equiv.swap 0 1 i : Fin 2) 0
        (sobolOutput (fun p => val (krigExec (fun q => q.getD 0 0 + 2 * q.getD 2 0) (fun _ => 1) 3 [1, 2] p)) 3 x y) :=
  C237_kriging (Equiv.swap 0 1) _ _ _ _ 3 [1, 2] (fun a u => by simp) (fun _ _ => rfl) val 3 x y method c i 0

/-- One simulated chaos, residuals that depend on the block. -/
example (i : Fin 2) (x y : ℕ → Fin 2 → ℝ) :
    sobolEstimates "Jansen" 0 1 i 0 (chaosOutput (S := 1) (fun _ q => q.getD 0 0 + 2 * q.getD 1 0) 3 1 2 [1, 2]
        (sobolDesign 2 (List.ofFn fun k : Fin 1 => List.ofFn fun j => x k (Equiv.swap 0 1 j)) (List.ofFn fun k : Fin 1 => List.ofFn fun j => y k (Equiv.swap 0 1 j)))
        fun _ r => (fun r : ℕ => if r = 2 then (5 : ℝ) else if r = 3 then 4 else 0) r)
      = sobolEstimates "Jansen" 0 1 (Equiv.swap 0 1 i : Fin 2) 0 (chaosOutput (S := 1) (fun _ q => q.getD 0 0 + 2 * q.getD 2 0) 3 1 2 [1, 2]
        (sobolDesign 2 (List.ofFn fun k : Fin 1 => List.ofFn (x k)) (List.ofFn fun k : Fin 1 => List.ofFn (y k)))
        fun _ r => (fun r : ℕ => if r = 2 then (4 : ℝ) else if r = 3 then 5 else 0) r) :=
  C237_chaos (Equiv.swap 0 1) _ _ (fun _ a u => by simp) 3 1 [1, 2] 1 x y (fun _ r => if r = 2 then (4 : ℝ) else if r = 3 then 5 else 0)
    (fun _ r => if r = 2 then (5 : ℝ) else if r = 3 then 4 else 0) (fun _ r hr => by rw [if_neg (by omega), if_neg (by omega), if_neg (by omega), if_neg (by omega)])
    (fun _ i k hk => by
      obtain rfl : k = 0 := by omega
      fin_cases i <;> simp) "Jansen" 0 i 0 (by simp)

/-! ## Perturbation law indices -/

/-- **C237, perturbation indices.**  With the sample and the marginal laws listed in another order, the probability, the variance, the index and the standard
deviation of the marginal now at place `k` are the ones it had at its place `π k`. -/
theorem C237_pli (π : Equiv.Perm (Fin d)) (op : CmpOp) (thr : ℝ) (hist : List ((Fin d → ℝ) × ℝ)) (N : ℕ) (pf : ℝ) (pdf : Fin d → ℝ → ℝ) (k : Fin d)
    (pert : ℝ → ℝ) :
    pliEntry op thr (hist.map fun p => ((fun j => p.1 (π j)), p.2)) N pf (fun j => pdf (π j)) k pert = pliEntry op thr hist N pf pdf (π k) pert := by
  have hj : ∀ x : Fin d → ℝ, jointPDF (fun j => pdf (π j)) (fun j => x (π j)) = jointPDF pdf x := fun x =>
    Equiv.prod_comp π fun j => pdf j (x j)
  have hp : ∀ x : Fin d → ℝ, perturbedPDF (fun j => pdf (π j)) k pert (fun j => x (π j)) = perturbedPDF pdf (π k) pert x := fun x => by
    rw [perturbedPDF, perturbedPDF, ← Equiv.prod_comp π fun j => (Function.update pdf (π k) pert) j (x j)]
    refine Finset.prod_congr rfl fun j _ => ?_
    by_cases h : j = k
    · subst h; simp
    · rw [Function.update_of_ne h, Function.update_of_ne fun e => h (π.injective e)]
  have hw : ∀ fs : List (Fin d → ℝ), pliWeights (fun j => pdf (π j)) k pert (fs.map fun x j => x (π j)) = pliWeights pdf (π k) pert fs := fun fs => by
    rw [pliWeights, pliWeights, List.map_map]
    exact List.map_congr_left fun x _ => by simp only [Function.comp, hj, hp]
  have hfs : failureSample op thr (hist.map fun p => ((fun j => p.1 (π j)), p.2))
      = (failureSample op thr hist).map fun fs => fs.map fun x j => x (π j) := by
    cases op <;> simp [failureSample, List.filter_map, Except.map, Function.comp_def]
  unfold pliEntry
  rw [hfs]
  cases h : failureSample op thr hist with
  | error e => rfl
  | ok fs => simp only [Except.map, hw]

/-- A matrix with one column per marginal is kept. -/
theorem pliInit_rows (H : ℕ) (hH : H ≠ 0) (rows : List (Fin d → ℝ)) (hr : rows ≠ []) :
    pliInit H d true (.mat (rows.map List.ofFn)) = .ok (rows.map List.ofFn) := by
  obtain ⟨r, rs, rfl⟩ := List.exists_cons_of_ne_nil hr
  unfold pliInit
  rw [if_neg hH, if_neg (by simp), List.map_cons, vstackDeltas, if_pos (by simp)]
  dsimp only
  rw [List.headD_cons, List.length_ofFn, if_neg (by simp)]
  split_ifs with h1
  · subst h1
    congr 1
    rw [← List.map_cons (f := List.ofFn), List.map_map]
    refine List.map_congr_left fun u _ => ?_
    simp
  · rfl

/-- One number per delta is used for all marginals. -/
theorem pliInit_vec (H : ℕ) (hH : H ≠ 0) (rs : List ℝ) (hr : rs ≠ []) :
    pliInit H d true (.vec rs) = .ok ((rs.map fun r => fun _ : Fin d => r).map List.ofFn) := by
  obtain ⟨r, rs, rfl⟩ := List.exists_cons_of_ne_nil hr
  unfold pliInit
  rw [if_neg hH, if_neg (by simp), vstackDeltas]
  simp

/-- What the user gives as deltas, read in another order of the marginals. -/
inductive DeltaGiven (d : ℕ)
  | all (rs : List ℝ)
  | each (rows : List (Fin d → ℝ))

/-- The argument passed to the constructor. -/
noncomputable def DeltaGiven.arg : DeltaGiven d → DeltaArg
  | .all rs => .vec rs
  | .each rows => .mat (rows.map List.ofFn)

/-- The same deltas for the reordered marginals. -/
def DeltaGiven.reorder (π : Equiv.Perm (Fin d)) : DeltaGiven d → DeltaGiven d
  | .all rs => .all rs
  | .each rows => .each (rows.map fun r j => r (π j))

theorem pliInit_reorder (π : Equiv.Perm (Fin d)) (H : ℕ) (indep : Bool) (g : DeltaGiven d) :
    (∃ e, pliInit H d indep g.arg = .error e ∧ pliInit H d indep (g.reorder π).arg = .error e) ∨
    ∃ D : List (Fin d → ℝ), pliInit H d indep g.arg = .ok (D.map List.ofFn) ∧
      pliInit H d indep (g.reorder π).arg = .ok (D.map fun r => List.ofFn fun j => r (π j)) := by
  by_cases hH : H = 0
  · exact .inl ⟨_, by rw [pliInit, if_pos hH], by rw [pliInit, if_pos hH]⟩
  cases indep with
  | false => exact .inl ⟨_, by rw [pliInit, if_neg hH, if_pos rfl], by rw [pliInit, if_neg hH, if_pos rfl]⟩
  | true =>
    cases g with
    | all rs =>
      by_cases hr : rs = []
      · subst hr
        exact .inl ⟨_, by rw [pliInit, if_neg hH, if_neg (by simp), DeltaGiven.arg, vstackDeltas],
          by rw [DeltaGiven.reorder, pliInit, if_neg hH, if_neg (by simp), DeltaGiven.arg, vstackDeltas]⟩
      · refine .inr ⟨rs.map fun r _ => r, pliInit_vec H hH rs hr, ?_⟩
        rw [DeltaGiven.reorder, DeltaGiven.arg, pliInit_vec H hH rs hr, List.map_map, List.map_map]
        rfl
    | each rows =>
      by_cases hr : rows = []
      · subst hr
        exact .inl ⟨_, by rw [pliInit, if_neg hH, if_neg (by simp), DeltaGiven.arg, List.map_nil, vstackDeltas],
          by rw [DeltaGiven.reorder, pliInit, if_neg hH, if_neg (by simp), DeltaGiven.arg, List.map_nil, List.map_nil, vstackDeltas]⟩
      · refine .inr ⟨rows, pliInit_rows H hH rows hr, ?_⟩
        rw [DeltaGiven.reorder, DeltaGiven.arg, pliInit_rows H hH _ (by simpa using hr), List.map_map]
        rfl

/-- **C237, deltas.**  The constructors of the mean and variance perturbations end in the same way for both orders: same exception, or the same deltas, each
at the place of its marginal. -/
theorem C237_deltas (π : Equiv.Perm (Fin d)) (H : ℕ) (indep : Bool) (mean std : Fin d → ℝ) (g : DeltaGiven d) (scaled : Bool)
    (init : ℕ → Bool → List ℝ → List ℝ → DeltaArg → Bool → Res (List (List ℝ))) (hinit : init = pliMeanInit ∨ init = pliVarianceInit) :
    (∃ e, init H indep (List.ofFn mean) (List.ofFn std) g.arg scaled = .error e ∧
      init H indep (List.ofFn fun j => mean (π j)) (List.ofFn fun j => std (π j)) (g.reorder π).arg scaled = .error e) ∨
    ∃ D : List (Fin d → ℝ), init H indep (List.ofFn mean) (List.ofFn std) g.arg scaled = .ok (D.map List.ofFn) ∧
      init H indep (List.ofFn fun j => mean (π j)) (List.ofFn fun j => std (π j)) (g.reorder π).arg scaled
        = .ok (D.map fun r => List.ofFn fun j => r (π j)) := by
  have hz : ∀ (F : ℝ → ℝ → ℝ) (u v : Fin d → ℝ), List.zipWith F (List.ofFn u) (List.ofFn v) = List.ofFn fun j => F (u j) (v j) := fun F u v =>
    List.ext_getElem (by simp) (by simp)
  have hall : ∀ D : List (Fin d → ℝ), ((D.map fun r => List.ofFn fun j => r (π j)).all fun r => r.all fun x => decide (0 < x))
      = ((D.map List.ofFn).all fun r => r.all fun x => decide (0 < x)) := fun D => by
    rw [Bool.eq_iff_iff]
    simp only [List.all_map, List.all_eq_true, Function.comp, List.mem_ofFn, decide_eq_true_eq, forall_exists_index, forall_apply_eq_imp_iff]
    exact ⟨fun h r hr j => by simpa using h r hr (π.symm j), fun h r hr j => h r hr (π j)⟩
  have hl : ∀ u : Fin d → ℝ, (List.ofFn u).length = d := fun u => List.length_ofFn
  rcases hinit with rfl | rfl
  · rcases pliInit_reorder π H indep g with ⟨e, h1, h2⟩ | ⟨D, h1, h2⟩
    · exact .inl ⟨e, by rw [pliMeanInit, hl, h1], by rw [pliMeanInit, hl, h2]⟩
    · cases scaled with
      | false => exact .inr ⟨D, by rw [pliMeanInit, hl, h1]; simp, by rw [pliMeanInit, hl, h2]; simp⟩
      | true =>
        refine .inr ⟨D.map fun r j => r j * std j + mean j, ?_, ?_⟩
        · rw [pliMeanInit, hl, h1]
          dsimp only
          rw [if_pos rfl, List.map_map, List.map_map]
          congr 1
          exact List.map_congr_left fun r _ => by simp only [Function.comp, hz]
        · rw [pliMeanInit, hl, h2]
          dsimp only
          rw [if_pos rfl, List.map_map, List.map_map]
          congr 1
          exact List.map_congr_left fun r _ => by simp only [Function.comp, hz]
  · rcases pliInit_reorder π H indep g with ⟨e, h1, h2⟩ | ⟨D, h1, h2⟩
    · exact .inl ⟨e, by rw [pliVarianceInit, hl, h1], by rw [pliVarianceInit, hl, h2]⟩
    · by_cases hpos : ((D.map List.ofFn).all fun r => r.all fun x => decide (0 < x)) = false ∧ scaled = false
      · refine .inl ⟨⟨.attributeError, "The delta values must be positive."⟩, ?_, ?_⟩
        · rw [pliVarianceInit, hl, h1]
          dsimp only
          rw [if_pos hpos]
        · rw [pliVarianceInit, hl, h2]
          dsimp only
          rw [hall, if_pos hpos]
      · cases scaled with
        | false =>
          refine .inr ⟨D, ?_, ?_⟩
          · rw [pliVarianceInit, hl, h1]
            dsimp only
            rw [if_neg hpos, if_neg (by simp)]
          · rw [pliVarianceInit, hl, h2]
            dsimp only
            rw [hall, if_neg hpos, if_neg (by simp)]
        | true =>
          refine .inr ⟨D.map fun r j => (r j * mean j + std j) ^ 2, ?_, ?_⟩
          · rw [pliVarianceInit, hl, h1]
            dsimp only
            rw [if_neg (by simp), if_pos rfl, List.map_map, List.map_map]
            congr 1
            exact List.map_congr_left fun r _ => by simp only [Function.comp, hz, List.map_ofFn]; rfl
          · rw [pliVarianceInit, hl, h2]
            dsimp only
            rw [if_neg (by simp), if_pos rfl, List.map_map, List.map_map]
            congr 1
            exact List.map_congr_left fun r _ => by simp only [Function.comp, hz, List.map_ofFn]; rfl

/-- A normal and a uniform marginal, exchanged. -/
example (hist : List ((Fin 2 → ℝ) × ℝ)) (pert : ℝ → ℝ) :
    pliEntry .greater 3 (hist.map fun p => ((fun j => p.1 (Equiv.swap 0 1 j)), p.2)) 10 (1 / 2)
        (fun j => (![(Marg.normal 0 1).pdf, (Marg.uniform 0 1).pdf] : Fin 2 → ℝ → ℝ) (Equiv.swap 0 1 j)) 0 pert
      = pliEntry .greater 3 hist 10 (1 / 2) ![(Marg.normal 0 1).pdf, (Marg.uniform 0 1).pdf] 1 pert := by
  have := C237_pli (Equiv.swap 0 1) .greater 3 hist 10 (1 / 2) ![(Marg.normal 0 1).pdf, (Marg.uniform 0 1).pdf] 0 pert
  simpa using this

example : pliMeanInit 1 true (List.ofFn fun j => (![1, 10] : Fin 2 → ℝ) (Equiv.swap 0 1 j)) (List.ofFn fun j => (![2, 3] : Fin 2 → ℝ) (Equiv.swap 0 1 j))
    ((DeltaGiven.each [![1, 2]]).reorder (Equiv.swap 0 1)).arg true = .ok [[16, 3]] := by
  norm_num [pliMeanInit, pliInit, DeltaGiven.reorder, DeltaGiven.arg, vstackDeltas, List.ofFn_succ]

end Verif.Props
