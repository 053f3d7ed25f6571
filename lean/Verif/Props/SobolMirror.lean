import Verif.Props.SobolUnits

/-!
# C250: the Sobol indices of the probability of not detecting (/repo/otpod/_sobol_indices.py 99-169, 463-617)
-/

namespace Verif.Props
open Verif.Py Verif.Model Matrix

/-- The probabilities of not detecting. -/
noncomputable def complementRows (out : List (List ℝ)) : List (List ℝ) := out.map fun r => r.map (1 - ·)

theorem colVariance_complement (l : List ℝ) : colVariance (l.map (1 - ·)) = colVariance l := by
  rcases List.eq_nil_or_concat l with rfl | ⟨_, _, hl⟩
  · rfl
  have hne : (l.length : ℝ) ≠ 0 := by
    rw [hl]; simp; positivity
  have hs : ∀ q : List ℝ, (q.map (1 - ·)).sum = q.length - q.sum := fun q => by
    induction q with
    | nil => simp
    | cons a q ih => rw [List.map_cons, List.sum_cons, ih, List.sum_cons, List.length_cons]; push_cast; ring
  have hm : listMean (l.map (1 - ·)) = 1 - listMean l := by
    rw [listMean, listMean, hs, List.length_map, sub_div, div_self hne]
  rw [colVariance, colVariance, hm, List.map_map, List.length_map]
  congr 2
  refine List.map_congr_left fun x _ => ?_
  simp only [Function.comp]
  ring

theorem column_complement (out : List (List ℝ)) (D j : ℕ) (hD : ∀ r ∈ out, r.length = D) (hj : j < D) :
    ((complementRows out).map fun r => r.getD j 0) = (out.map fun r => r.getD j 0).map (1 - ·) := by
  rw [complementRows, List.map_map, List.map_map]
  refine List.map_congr_left fun r hr => ?_
  have := hD r hr
  simp only [Function.comp]
  rw [List.getD_eq_getElem _ _ (by rw [List.length_map]; omega), List.getD_eq_getElem _ _ (by omega), List.getElem_map]

theorem entry_complement (out : List (List ℝ)) (D j N b k : ℕ) (hD : ∀ r ∈ out, r.length = D) (hj : j < D) (hk : b * N + k < out.length) :
    designEntry (complementRows out) N b k j = 1 - designEntry out N b k j := by
  rw [designEntry, designEntry, complementRows, List.getD_eq_getElem _ ([] : List ℝ) (by simpa using hk), List.getD_eq_getElem _ ([] : List ℝ) hk, List.getElem_map]
  have := hD _ (List.getElem_mem hk)
  rw [List.getD_eq_getElem _ _ (by rw [List.length_map]; omega), List.getD_eq_getElem _ _ (by omega), List.getElem_map]

theorem blockCorr_complement (N : ℕ) (u v u' v' : ℕ → ℝ) (hu : ∀ k < N, u' k = 1 - u k) (hv : ∀ k < N, v' k = 1 - v k) : blockCorr N u' v' = blockCorr N u v := by
  rcases Nat.eq_zero_or_pos N with rfl | hN
  · simp [blockCorr]
  have hN0 : (N : ℝ) ≠ 0 := by exact_mod_cast hN.ne'
  have key : ∀ w w' : ℕ → ℝ, (∀ k < N, w' k = 1 - w k) → ∀ k < N, w' k - (∑ k ∈ Finset.range N, w' k) / N = -(w k - (∑ k ∈ Finset.range N, w k) / N) := by
    intro w w' hw k hk
    rw [Finset.sum_congr rfl fun k hk => hw k (Finset.mem_range.mp hk), Finset.sum_sub_distrib, hw k hk]
    simp only [Finset.sum_const, Finset.card_range, nsmul_eq_mul, mul_one]
    field_simp
    ring
  unfold blockCorr
  dsimp only
  congr 1
  · refine Finset.sum_congr rfl fun k hk => ?_
    rw [key u u' hu k (Finset.mem_range.mp hk), key v v' hv k (Finset.mem_range.mp hk)]
    ring
  · congr 2
    · refine Finset.sum_congr rfl fun k hk => ?_
      rw [key u u' hu k (Finset.mem_range.mp hk)]
      ring
    · refine Finset.sum_congr rfl fun k hk => ?_
      rw [key v v' hv k (Finset.mem_range.mp hk)]
      ring

/-- **C250, indices.**  Every method gives the probability of not detecting the indices of the probability of detecting (`g`: the value by which the outputs are
centred, a mean of them). -/
theorem C250_estimates (method : String) (g : ℝ) (N d D i j : ℕ) (out : List (List ℝ)) (hl : out.length = (2 + d) * N) (hD : ∀ r ∈ out, r.length = D) (hi : i < d) (hj : j < D) :
    sobolEstimates method (1 - g) N i j (complementRows out) = sobolEstimates method g N i j out := by
  have hb : ∀ b < 2 + d, ∀ k < N, designEntry (complementRows out) N b k j = 1 - designEntry out N b k j := by
    intro b hb k hk
    refine entry_complement out D j N b k hD hj ?_
    rw [hl]
    calc b * N + k < (b + 1) * N := by rw [add_mul, one_mul]; omega
      _ ≤ (2 + d) * N := Nat.mul_le_mul_right _ hb
  have h0 := hb 0 (by omega)
  have h1 := hb 1 (by omega)
  have h2 := hb (2 + i) (by omega)
  have hv : colVariance (((complementRows out).map fun r => r.getD j 0).take N) = colVariance ((out.map fun r => r.getD j 0).take N) := by
    rw [column_complement out D j hD hj, ← List.map_take, colVariance_complement]
  have sum : ∀ p q : ℕ → ℝ, (∀ k < N, p k = q k) → ∑ k ∈ Finset.range N, p k = ∑ k ∈ Finset.range N, q k := fun p q h =>
    Finset.sum_congr rfl fun k hk => h k (Finset.mem_range.mp hk)
  unfold sobolEstimates
  dsimp only
  rw [hv, blockCorr_complement N _ _ _ _ h1 h2, blockCorr_complement N _ _ _ _ h0 h2]
  have s0 := sum (fun k => (designEntry (complementRows out) N 1 k j - (1 - g)) * (designEntry (complementRows out) N (2 + i) k j - (1 - g))) (fun k => (designEntry out N 1 k j - g) * (designEntry out N (2 + i) k j - g)) fun k hk => by
    simp only [h1 k hk, h2 k hk]; ring
  have s1 := sum (fun k => (designEntry (complementRows out) N 0 k j - (1 - g)) * (designEntry (complementRows out) N (2 + i) k j - (1 - g))) (fun k => (designEntry out N 0 k j - g) * (designEntry out N (2 + i) k j - g)) fun k hk => by
    simp only [h0 k hk, h2 k hk]; ring
  have s2 := sum (fun k => (designEntry (complementRows out) N (2 + i) k j - designEntry (complementRows out) N 1 k j) ^ 2) (fun k => (designEntry out N (2 + i) k j - designEntry out N 1 k j) ^ 2) fun k hk => by
    simp only [h1 k hk, h2 k hk]; ring
  have s3 := sum (fun k => (designEntry (complementRows out) N 1 k j - (1 - g)) * (designEntry (complementRows out) N (2 + i) k j - designEntry (complementRows out) N 0 k j)) (fun k => (designEntry out N 1 k j - g) * (designEntry out N (2 + i) k j - designEntry out N 0 k j)) fun k hk => by
    simp only [h0 k hk, h1 k hk, h2 k hk]; ring
  have s4 := sum (fun k => (designEntry (complementRows out) N 0 k j - (1 - g)) * (designEntry (complementRows out) N 0 k j - designEntry (complementRows out) N (2 + i) k j)) (fun k => (designEntry out N 0 k j - g) * (designEntry out N 0 k j - designEntry out N (2 + i) k j)) fun k hk => by
    simp only [h0 k hk, h2 k hk]; ring
  rw [s0, s1, s2, s3, s4]
  have hJ : jansenTotal N i j (complementRows out) = jansenTotal N i j out := by
    rw [jansenTotal, jansenTotal, hv, jansenGap, jansenGap]
    rw [sum _ (fun k => (designEntry out N 0 k j - designEntry out N (2 + i) k j) ^ 2) fun k hk => by rw [h0 k hk, h2 k hk]; ring]
  rw [hJ]

/-- **C250, sizes.**  `run` keeps the same sizes and raises the same exception or none. -/
theorem C250_run (observed : List ℝ) (N : ℕ) (out : List (List ℝ)) (s : SobolSt) (hD : ∀ r ∈ out, r.length = s.sizes.length) :
    (sobolRun observed N (fun l => outputColumns l.length (complementRows out)) s).1 = (sobolRun observed N (fun l => outputColumns l.length out) s).1 ∧
    (sobolRun observed N (fun l => outputColumns l.length (complementRows out)) s).2.toSizeAttrs
      = (sobolRun observed N (fun l => outputColumns l.length out) s).2.toSizeAttrs := by
  have hl : ∀ o : List (List ℝ), (outputColumns s.sizes.length o).length = s.sizes.length := fun o => by simp [outputColumns]
  have hsel : ((List.range (outputColumns s.sizes.length (complementRows out)).length).filter
        fun j => colVariance (((outputColumns s.sizes.length (complementRows out)).getD j []).take N) ≠ 0)
      = (List.range (outputColumns s.sizes.length out).length).filter fun j => colVariance (((outputColumns s.sizes.length out).getD j []).take N) ≠ 0 := by
    rw [hl, hl]
    refine List.filter_congr fun j hj => ?_
    have hj' : j < s.sizes.length := List.mem_range.mp hj
    have hg : ∀ o : List (List ℝ), (outputColumns s.sizes.length o).getD j [] = o.map fun r => r.getD j 0 := fun o => by
      rw [List.getD_eq_getElem _ _ (by rw [hl]; exact hj')]
      simp [outputColumns]
    rw [hg, hg, column_complement out _ j hD hj', ← List.map_take, colVariance_complement]
  unfold sobolRun
  dsimp only
  rw [hsel, hl, hl]
  split_ifs with h
  · split <;> simp_all
  · exact ⟨rfl, rfl⟩

/-! ## The two aggregated functions -/

/-- The chaos design: opposite simulated functions and residuals, opposite threshold, no simulated signal equal to the threshold. -/
theorem chaosOutput_mirror {S : ℕ} (hS : S ≠ 0) (f f' : Fin S → List ℝ → ℝ) (hf : ∀ q p, f' q p = -f q p) (det stderr : ℝ) (dim : ℕ) (sizes : List ℝ) (X : List (List ℝ))
    (R : Fin S → Fin X.length → ℝ) (htie : ∀ q (r : Fin X.length), ∀ a ∈ sizes, f q (a :: X[r]) + R q r * stderr ≠ det) :
    chaosOutput f' (-det) stderr dim sizes X (fun q r => -R q r) = complementRows (chaosOutput f det stderr dim sizes X R) := by
  have hlen : ∀ (f : Fin S → List ℝ → ℝ) (det : ℝ) (R : Fin S → Fin X.length → ℝ), (chaosOutput f det stderr dim sizes X R).length = X.length := fun f det R => by
    simp [chaosOutput, chaosExecSample]
  have hrow : ∀ (f : Fin S → List ℝ → ℝ) (det : ℝ) (R : Fin S → Fin X.length → ℝ) (i : ℕ) (h : i < (chaosOutput f det stderr dim sizes X R).length),
      ((chaosOutput f det stderr dim sizes X R)[i]).length = sizes.length := fun f det R i h => by simp [chaosOutput, chaosExecSample]
  refine List.ext_getElem (by rw [complementRows, List.length_map, hlen, hlen]) fun i h1 h2 => ?_
  simp only [complementRows, List.getElem_map]
  have hi : i < X.length := by rwa [hlen] at h1
  refine List.ext_getElem (by rw [List.length_map, hrow, hrow]) fun j h3 h4 => ?_
  have hj : j < sizes.length := by rwa [hrow] at h3
  rw [List.getElem_map]
  have e := chaosOutput_entry f det stderr dim sizes X R i j hi hj
  have e' := chaosOutput_entry f' (-det) stderr dim sizes X (fun q r => -R q r) i j hi hj
  rw [List.getD_eq_getElem _ ([] : List ℝ) (by rw [hlen]; exact hi), List.getD_eq_getElem _ _ (by rw [hrow]; exact hj)] at e
  rw [List.getD_eq_getElem _ _ h1, List.getD_eq_getElem _ _ h3] at e'
  have hS0 : (S : ℝ) ≠ 0 := by exact_mod_cast hS
  rw [e, e', eq_sub_iff_add_eq, ← add_div, ← Finset.sum_add_distrib, div_eq_one_iff_eq hS0]
  rw [Finset.sum_congr rfl (g := fun _ => (1 : ℝ))]
  · simp
  intro q _
  have ht : f q (sizes[j] :: X[i]) + R q ⟨i, hi⟩ * stderr ≠ det := htie q ⟨i, hi⟩ _ (List.getElem_mem hj)
  rw [exceed, exceed, hf]
  rcases lt_or_gt_of_ne ht with h | h
  · rw [if_pos (by linarith), if_neg (by linarith)]; ring
  · rw [if_neg (by linarith), if_pos (by linarith)]; ring

variable {U : Type}

/-- **C250, chaos.**  The opposite signals are observed and the threshold is the opposite one; the random draws are the opposite ones (their laws are symmetric).  Then the output
design holds the probabilities of not detecting. -/
theorem C250_chaos {m S : ℕ} (hS : S ≠ 0) (zero : ℝ × List ℝ) (T : ℝ × List ℝ → U) (φ : Fin m → U → ℝ) (det : ℝ) (M : ℕ) (z : ℕ → ℝ × List ℝ) (y : ℕ → ℝ)
    (hG : IsUnit ((basisMatrix (fun j w => φ j (T w)) M z)ᵀ * basisMatrix (fun j w => φ j (T w)) M z).det) (u : ℝ) (v : ℕ → Fin m → ℝ) (dim : ℕ) (sizes : List ℝ)
    (X : List (List ℝ)) (R : Fin S → Fin X.length → ℝ) :
    let C := fittedChaos zero T φ det M z y
    let C' := fittedChaos zero T φ (-det) M z fun i => -y i
    let coef := chaosDraw (lsCoefs (basisMatrix (fun j w => φ j (T w)) M z) fun i => y i) (fun _ => u * ((M : ℝ) - m - 1) * C.stderr ^ 2) v
    let coef' := chaosDraw (lsCoefs (basisMatrix (fun j w => φ j (T w)) M z) fun i => -y i) (fun _ => u * ((M : ℝ) - m - 1) * C'.stderr ^ 2) fun q j => -v q j
    let f := fun (q : Fin S) (p : List ℝ) => chaosFunction C.transformation C.basis (List.ofFn (coef q)) (p.headD 0, p.tail)
    (∀ q (r : Fin X.length), ∀ a ∈ sizes, f q (a :: X[r]) + R q r * C.stderr ≠ det) →
    chaosOutput (fun (q : Fin S) p => chaosFunction C'.transformation C'.basis (List.ofFn (coef' q)) (p.headD 0, p.tail)) C'.detection C'.stderr dim sizes X (fun q r => -R q r)
      = complementRows (chaosOutput f C.detection C.stderr dim sizes X R) := by
  intro C C' coef coef' f htie
  have h0 : ∀ i, (0 : ℝ) * ((basisMatrix (fun j w => φ j (T w)) M z) *ᵥ (0 : Fin m → ℝ)) i = 0 := fun i => zero_mul _
  have hy : (fun i : Fin M => -y i) = fun i : Fin M => -1 * y i + 0 := by funext i; ring
  have hco : (lsCoefs (basisMatrix (fun j w => φ j (T w)) M z) fun i => -y i) = -lsCoefs (basisMatrix (fun j w => φ j (T w)) M z) fun i => y i := by
    rw [hy, lsCoefs_units _ hG (fun i => y i) (-1) 0 0 h0]
    simp
  have hse : C'.stderr = C.stderr := by
    change Real.sqrt (chaosScale (basisMatrix (fun j w => φ j (T w)) M z) fun i => -y i) = Real.sqrt (chaosScale (basisMatrix (fun j w => φ j (T w)) M z) fun i => y i)
    rw [hy, chaosScale_units _ hG (fun i => y i) (-1) 0 0 h0]
    norm_num
  have hcoef : ∀ q, coef' q = -coef q := by
    intro q
    funext j
    simp only [coef, coef', chaosDraw, hco, hse, Pi.neg_apply]
    ring
  rw [hse]
  refine chaosOutput_mirror hS f _ (fun q p => ?_) det C.stderr dim sizes X R htie
  simp only [f]
  rw [hcoef]
  change chaosFunction T (List.ofFn φ) _ _ = -chaosFunction T (List.ofFn φ) _ _
  rw [chaosFunction_ofFn, chaosFunction_ofFn, polySignal, polySignal, ← Finset.sum_neg_distrib]
  refine Finset.sum_congr rfl fun j _ => ?_
  simp

/-- The kriging result of the opposite signals. -/
theorem krigMean_neg {X : Type} {n p : ℕ} (k : X → X → ℝ) (f : X → Fin p → ℝ) (xs : Fin n → X) (y : Fin n → ℝ) (x : X) :
    krigMean k f xs (fun i => -y i) x = -krigMean k f xs y x := by
  have e : (Sum.elim (fun i => -y i) (0 : Fin p → ℝ)) = -Sum.elim y 0 := by
    funext i
    cases i <;> simp
  rw [krigMean, krigMean, e, mulVec_neg, dotProduct_neg]

/-- **C250, kriging.**  With the opposite mean and threshold and the same variance, the numbers returned by the aggregated POD function become the probabilities of not detecting,
also at points without variance. -/
theorem C250_kriging (m v : List ℝ → ℝ) (det : ℝ) (sizes x row : List ℝ) (h : krigExec m v det sizes x = .ok (row.map F.fin)) :
    krigExec (fun p => -m p) v (-det) sizes x = .ok ((row.map (1 - ·)).map F.fin) := by
  have hq : ∀ a w p : ℝ, F.sub (.fin 1) (pNormalF (F.div (.fin (det - a)) (sqrtF w))) = F.fin p →
      F.sub (.fin 1) (pNormalF (F.div (.fin (-det - -a)) (sqrtF w))) = F.fin (1 - p) := by
    intro a w p hp
    rw [show -det - -a = -(det - a) by ring]
    generalize det - a = δ at *
    by_cases hw : w < 0
    · rw [sqrtF, if_pos hw] at hp
      simp [F.div, pNormalF, F.sub, F.neg, F.add] at hp
    · rw [sqrtF, if_neg hw] at hp ⊢
      by_cases h0 : Real.sqrt w = 0
      · rw [h0] at hp ⊢
        rcases lt_trichotomy δ 0 with hd | hd | hd
        · simp [F.div, F.infSign, hd.ne, not_lt.mpr hd.le, hd, pNormalF, F.sub, F.neg, F.add] at hp ⊢
          linarith
        · simp [F.div, F.infSign, hd, pNormalF, F.sub, F.neg, F.add] at hp
        · simp [F.div, F.infSign, hd.ne', not_lt.mpr hd.le, hd, pNormalF, F.sub, F.neg, F.add] at hp ⊢
          linarith
      · rw [F.div_fin _ h0] at hp ⊢
        simp only [pNormalF, F.sub, F.neg_fin, F.add_fin, F.fin.injEq] at hp ⊢
        rw [neg_div, Phi_neg]
        linarith
  have hP : ∀ ms vs row : List ℝ, krigProb det ms vs = row.map F.fin → krigProb (-det) (ms.map fun a => -a) vs = (row.map (1 - ·)).map F.fin := by
    intro ms vs row h
    induction ms generalizing row with
    | nil =>
      have : row = [] := by simpa [krigProb] using h.symm
      subst this
      rfl
    | cons a ms ih =>
      cases row with
      | nil => simp [krigProb] at h
      | cons p row =>
        simp only [krigProb, List.map_cons, List.cons.injEq] at h ih ⊢
        refine ⟨?_, ih row h.2⟩
        cases vs with
        | nil => simp [pNormalF, F.sub, F.neg, F.add] at h
        | cons w vs => exact hq a w p (by simpa using h.1)
  have em : (sizes.map fun d => d :: x).map (fun p => -m p) = ((sizes.map fun d => d :: x).map m).map fun a => -a := by
    rw [List.map_map, List.map_map, List.map_map]; rfl
  unfold krigExec at h ⊢
  dsimp only at h ⊢
  rw [em]
  split_ifs at h ⊢ with h1 h2
  · rw [Except.ok.injEq] at h ⊢
    exact hP _ _ _ h
  · rw [Except.ok.injEq] at h ⊢
    exact hP _ _ _ h

/-- Two sizes and one parameter: the second output design. -/
example : sobolEstimates "Saltelli" (1 - 0.4) 2 0 1 (complementRows [[0, 0.1], [0, 0.5], [0, 0.2], [0, 0.9], [0, 0.3], [0, 0.4]])
    = sobolEstimates "Saltelli" 0.4 2 0 1 [[0, 0.1], [0, 0.5], [0, 0.2], [0, 0.9], [0, 0.3], [0, 0.4]] :=
  C250_estimates _ _ 2 1 2 0 1 _ rfl (by simp) (by norm_num) (by norm_num)

example : ∃ row : List ℝ, krigExec (fun p => p.getD 0 0) (fun _ => 1) 2 [1, 3] [] = .ok (row.map F.fin) := by
  rw [C68_value_partial _ _ _ _ _ _ one_pos]
  exact ⟨[_, _], rfl⟩

/-- No simulated signal meets the threshold. -/
example : ∀ (q : Fin 1) (r : Fin [[(5 : ℝ)]].length), ∀ a ∈ [(1 : ℝ), 2], (fun (_ : Fin 1) (p : List ℝ) => p.getD 0 0) q (a :: [[(5 : ℝ)]][r]) + 0.25 * 1 ≠ 1.5 := by
  intro q r a ha
  simp only [List.mem_cons, List.not_mem_nil, or_false] at ha
  rcases ha with rfl | rfl <;> norm_num

end Verif.Props
