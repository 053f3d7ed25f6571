import Verif.Props.ChaosUnits
import Verif.Props.KrigCurveUnits
import Verif.Props.IndexOrder
import Verif.Props.PseudoR2
import Verif.Props.Predictive

/-!
# C249: the Sobol indices and the units of measurement (/repo/otpod/_sobol_indices.py 99-169, 463-617)
-/

namespace Verif.Props
open Verif.Py Verif.Model Matrix

/-! ## Sizes kept by `run` -/

/-- `setDefectSizes` in another unit of the defects. -/
theorem setDefectSizes_units (observed arg : List ℝ) (s s' : SizeAttrs) {k c : ℝ} (hk : 0 < k) (hsz : s'.sizes = s.sizes.map (k * · + c)) (hn : s'.number = s.number) :
    (setDefectSizes (observed.map (k * · + c)) (arg.map (k * · + c)) s').1 = (setDefectSizes observed arg s).1 ∧
    (setDefectSizes (observed.map (k * · + c)) (arg.map (k * · + c)) s').2.sizes = (setDefectSizes observed arg s).2.sizes.map (k * · + c) ∧
    (setDefectSizes (observed.map (k * · + c)) (arg.map (k * · + c)) s').2.number = (setDefectSizes observed arg s).2.number := by
  by_cases ha : arg = []
  · subst ha
    simp [setDefectSizes, hsz, hn]
  by_cases ho : observed = []
  · subst ho
    simp [setDefectSizes, ha, sampleMin, sampleMax, sortR_scale _ hk, hn]
  obtain ⟨mn, hmn⟩ := sampleMin_total ho
  obtain ⟨mx, hmx⟩ := sampleMax_total ho
  have hlt : ∀ x y : ℝ, k * x + c < k * y + c ↔ x < y := fun x y => by
    rw [add_lt_add_iff_right, mul_lt_mul_iff_right₀ hk]
  have hpos : 0 < (sortR arg).length := by
    rw [sortR]
    simpa using List.length_pos_iff.mpr ha
  have hg : ∀ i, i < (sortR arg).length → ((sortR arg).map (k * · + c)).getD i 0 = k * (sortR arg).getD i 0 + c := fun i hi => by
    rw [List.getD_eq_getElem _ _ (by simpa using hi), List.getD_eq_getElem _ _ hi, List.getElem_map]
  unfold setDefectSizes
  rw [if_neg (by simpa using ha), if_neg ha]
  simp only [sampleMin_affine observed hk hmn, sampleMax_affine observed hk hmx, hmn, hmx, sortR_scale _ hk, List.length_map]
  simp only [hg _ (show (sortR arg).length - 1 < (sortR arg).length by omega), hg _ hpos, hlt]
  split_ifs <;> simp [hn]

/-- `run` on the same output design, the sizes and the observed defects being written in another unit: the same exception or none, the same sizes in the new unit, the same
columns given to the sensitivity algorithm. -/
theorem sobolRun_units (observed : List ℝ) (N : ℕ) (out : List (List ℝ)) (s s' : SobolSt) {k c : ℝ} (hk : 0 < k) (hsz : s'.sizes = s.sizes.map (k * · + c))
    (hn : s'.number = s.number) (hsa : s'.sa = s.sa) :
    let r := sobolRun observed N (fun sizes => outputColumns sizes.length out) s
    let r' := sobolRun (observed.map (k * · + c)) N (fun sizes => outputColumns sizes.length out) s'
    r'.1 = r.1 ∧ r'.2.sizes = r.2.sizes.map (k * · + c) ∧ r'.2.number = r.2.number ∧ r'.2.sa = r.2.sa := by
  intro r r'
  have hl : s'.sizes.length = s.sizes.length := by rw [hsz, List.length_map]
  have hcl : (outputColumns s.sizes.length out).length = s.sizes.length := by simp [outputColumns]
  simp only [r, r']
  unfold sobolRun
  simp only [hl]
  generalize hsel : (List.range (outputColumns s.sizes.length out).length).filter
    (fun j => colVariance (((outputColumns s.sizes.length out).getD j []).take N) ≠ 0) = sel
  have hmem : ∀ j ∈ sel, j < s.sizes.length := by
    intro j hj
    rw [← hsel, List.mem_filter, List.mem_range, hcl] at hj
    exact hj.1
  have harg : (sel.map fun j => s'.sizes.getD j 0) = (sel.map fun j => s.sizes.getD j 0).map (k * · + c) := by
    rw [List.map_map]
    refine List.map_congr_left fun j hj => ?_
    have := hmem j hj
    rw [hsz, Function.comp, List.getD_eq_getElem _ _ (by simpa using this), List.getD_eq_getElem _ _ this, List.getElem_map]
  obtain ⟨u1, u2, u3⟩ := setDefectSizes_units observed (sel.map fun j => s.sizes.getD j 0) s.toSizeAttrs s'.toSizeAttrs hk hsz hn
  rw [harg]
  generalize setDefectSizes observed (sel.map fun j => s.sizes.getD j 0) s.toSizeAttrs = q at u1 u2 u3
  generalize setDefectSizes (observed.map (k * · + c)) ((sel.map fun j => s.sizes.getD j 0).map (k * · + c)) s'.toSizeAttrs = q' at u1 u2 u3
  obtain ⟨q1, q2⟩ := q
  obtain ⟨q1', q2'⟩ := q'
  simp only at u1 u2 u3
  subst u1
  split_ifs with h
  · cases q1' with
    | error e => exact ⟨rfl, u2, u3, hsa⟩
    | ok v => exact ⟨rfl, u2, u3, rfl⟩
  · exact ⟨rfl, hsz, hn, rfl⟩

/-! ## Chaos -/

theorem exchange_units (units : List (ℝ × ℝ)) (a b : List ℝ) (ha : a.length = units.length) (hb : b.length = units.length) (i : ℕ) (hi : i < units.length) :
    sobolExchange i (convertParams units a) (convertParams units b) = convertParams units (sobolExchange i a b) := by
  unfold sobolExchange convertParams
  refine List.ext_getElem (by simp) fun j h1 h2 => ?_
  rw [List.getElem_set, List.getElem_zipWith (l := units) (l' := a.set i _), List.getElem_set]
  split_ifs with h
  · subst h
    rw [List.getD_eq_getElem _ _ (by simp; omega), List.getElem_zipWith]
    simp only [List.getD_eq_getElem _ _ (show i < b.length by omega)]
  · rw [List.getElem_zipWith]

theorem sobolDesign_units (units : List (ℝ × ℝ)) (A B : List (List ℝ)) (hA : ∀ a ∈ A, a.length = units.length) (hB : ∀ b ∈ B, b.length = units.length) :
    sobolDesign units.length (A.map (convertParams units)) (B.map (convertParams units)) = (sobolDesign units.length A B).map (convertParams units) := by
  unfold sobolDesign
  rw [List.map_append, List.map_append, List.map_flatMap]
  congr 1
  rw [List.flatMap_def, List.flatMap_def]
  congr 1
  refine List.map_congr_left fun i hi => ?_
  refine List.ext_getElem (by simp) fun j h1 h2 => ?_
  simp only [List.getElem_zipWith, List.getElem_map]
  exact exchange_units units _ _ (hA _ (List.getElem_mem _)) (hB _ (List.getElem_mem _)) i (List.mem_range.mp hi)

/-- The output design of the chaos analysis in other units. -/
theorem chaosOutput_units {S : ℕ} (f f' : Fin S → List ℝ → ℝ) (units : List (ℝ × ℝ)) (k c s t : ℝ) (hs : 0 < s)
    (hf : ∀ q a x, f' q ((k * a + c) :: convertParams units x) = s * f q (a :: x) + t) (det stderr : ℝ) (dim : ℕ) (sizes : List ℝ) (X : List (List ℝ))
    (R : Fin S → ℕ → ℝ) :
    chaosOutput f' (s * det + t) (s * stderr) dim (sizes.map (k * · + c)) (X.map (convertParams units)) (fun q r => R q r)
      = chaosOutput f det stderr dim sizes X fun q r => R q r := by
  have hlen : ∀ (f : Fin S → List ℝ → ℝ) (det stderr : ℝ) (sizes : List ℝ) (X : List (List ℝ)),
      (chaosOutput f det stderr dim sizes X fun q r => R q r).length = X.length := fun f det stderr sizes X => by simp [chaosOutput, chaosExecSample]
  have hrow : ∀ (f : Fin S → List ℝ → ℝ) (det stderr : ℝ) (sizes : List ℝ) (X : List (List ℝ)) (i : ℕ)
      (h : i < (chaosOutput f det stderr dim sizes X fun q r => R q r).length),
      ((chaosOutput f det stderr dim sizes X fun q r => R q r)[i]).length = sizes.length := fun f det stderr sizes X i h => by simp [chaosOutput, chaosExecSample]
  refine List.ext_getElem (by rw [hlen, hlen, List.length_map]) fun i h1 h2 => ?_
  refine List.ext_getElem (by rw [hrow, hrow, List.length_map]) fun j h3 h4 => ?_
  have hi : i < X.length := by rwa [hlen] at h2
  have hj : j < sizes.length := by rwa [hrow] at h4
  have e := chaosOutput_entry f det stderr dim sizes X (fun q r => R q r) i j hi hj
  have e' := chaosOutput_entry f' (s * det + t) (s * stderr) dim (sizes.map (k * · + c)) (X.map (convertParams units)) (fun q r => R q r) i j
    (by simpa using hi) (by simpa using hj)
  rw [List.getD_eq_getElem _ _ h2, List.getD_eq_getElem _ _ h4] at e
  rw [List.getD_eq_getElem _ _ h1, List.getD_eq_getElem _ _ h3] at e'
  rw [e, e']
  congr 1
  refine Finset.sum_congr rfl fun q _ => ?_
  simp only [List.getElem_map]
  rw [hf, exceed, exceed]
  have : s * det + t < s * f q (sizes[j] :: X[i]) + t + R q i * (s * stderr) ↔ det < f q (sizes[j] :: X[i]) + R q i * stderr := by
    rw [show s * f q (sizes[j] :: X[i]) + t + R q i * (s * stderr) = s * (f q (sizes[j] :: X[i]) + R q i * stderr) + t by ring, add_lt_add_iff_right,
      mul_lt_mul_iff_right₀ hs]
  simp only [this]

variable {U : Type}

/-- **C249, chaos.**  Write the inputs of the observations, the signals, the threshold, the defect sizes and the two samples of the parameters in other units, and repeat the
random draws (`v`: coefficients, `R`: residuals).  The output design of the aggregated POD function is the same; hence, for every method, the indices are the same, and `run`
keeps the same sizes, in the new unit. -/
theorem C249_chaos_partial {m S : ℕ} (zero zero' : ℝ × List ℝ) (T T' : ℝ × List ℝ → U) (φ : Fin m → U → ℝ) (det : ℝ) (M : ℕ) (z : ℕ → ℝ × List ℝ) (y : ℕ → ℝ) (k c : ℝ)
    (hk : 0 < k) (units : List (ℝ × ℝ)) (hT : ∀ p, T' (convert k c (convertParams units) p) = T p) (s t : ℝ) (hs : 0 < s) (ht : t = 0 ∨ ∃ one, HasConstant φ one)
    (hG : IsUnit ((basisMatrix (fun j w => φ j (T w)) M z)ᵀ * basisMatrix (fun j w => φ j (T w)) M z).det) (u : ℝ) (v : ℕ → Fin m → ℝ) (R : Fin S → ℕ → ℝ)
    (A B : List (List ℝ)) (hA : ∀ a ∈ A, a.length = units.length) (hB : ∀ b ∈ B, b.length = units.length) (sizes : List ℝ) :
    let C := fittedChaos zero T φ det M z y
    let C' := fittedChaos zero' T' φ (s * det + t) M (fun i => convert k c (convertParams units) (z i)) fun i => s * y i + t
    let coef := chaosDraw (lsCoefs (basisMatrix (fun j w => φ j (T w)) M z) fun i => y i) (fun _ => u * ((M : ℝ) - m - 1) * C.stderr ^ 2) v
    let coef' := chaosDraw (lsCoefs (basisMatrix (fun j w => φ j (T' w)) M fun i => convert k c (convertParams units) (z i)) fun i => s * y i + t)
      (fun _ => u * ((M : ℝ) - m - 1) * C'.stderr ^ 2) v
    let out := chaosOutput (S := S) (fun q p => chaosFunction C.transformation C.basis (List.ofFn (coef q)) (p.headD 0, p.tail)) C.detection C.stderr units.length sizes
      (sobolDesign units.length A B) fun q r => R q r
    let out' := chaosOutput (S := S) (fun q p => chaosFunction C'.transformation C'.basis (List.ofFn (coef' q)) (p.headD 0, p.tail)) C'.detection C'.stderr units.length
      (sizes.map (k * · + c)) (sobolDesign units.length (A.map (convertParams units)) (B.map (convertParams units))) fun q r => R q r
    (∀ method g N i j, sobolEstimates method g N i j out' = sobolEstimates method g N i j out) ∧
    ∀ (observed : List ℝ) (N : ℕ) (σ σ' : SobolSt), σ.sizes = sizes → σ'.sizes = sizes.map (k * · + c) → σ'.number = σ.number → σ'.sa = σ.sa →
      let r := sobolRun observed N (fun l => outputColumns l.length out) σ
      let r' := sobolRun (observed.map (k * · + c)) N (fun l => outputColumns l.length out') σ'
      r'.1 = r.1 ∧ r'.2.sizes = r.2.sizes.map (k * · + c) ∧ r'.2.number = r.2.number ∧ r'.2.sa = r.2.sa := by
  intro C C' coef coef' out out'
  obtain ⟨one, h1, h2⟩ := constant_rows T φ M z t ht
  have hA' := basis_convert T T' φ k c (convertParams units) hT M z
  have hco := lsCoefs_units _ hG (fun i => y i) s t one h2
  have hse : C'.stderr = s * C.stderr := (C227_metamodel zero zero' T T' φ det M z y k c (convertParams units) hT s t hs ht hG).2.1
  have hcoef : ∀ q, coef' q = s • coef q + t • one := by
    intro q
    funext j
    have hq : Real.sqrt (u * ((M : ℝ) - m - 1) * C'.stderr ^ 2) = s * Real.sqrt (u * ((M : ℝ) - m - 1) * C.stderr ^ 2) := by
      rw [hse, show u * ((M : ℝ) - m - 1) * (s * C.stderr) ^ 2 = s ^ 2 * (u * ((M : ℝ) - m - 1) * C.stderr ^ 2) by ring, Real.sqrt_mul (sq_nonneg s),
        Real.sqrt_sq hs.le]
    simp only [coef, coef']
    rw [hA', hco]
    simp only [chaosDraw, Pi.add_apply, Pi.smul_apply, smul_eq_mul]
    rw [hq]
    ring
  have hout : out' = out := by
    simp only [out, out']
    rw [sobolDesign_units units A B hA hB, hse]
    refine chaosOutput_units _ _ units k c s t hs (fun q a x => ?_) det C.stderr units.length sizes (sobolDesign units.length A B) R
    rw [hcoef]
    change chaosFunction T' (List.ofFn φ) _ (convert k c (convertParams units) (a, x)) = s * chaosFunction T (List.ofFn φ) _ (a, x) + t
    rw [chaosFunction_ofFn, chaosFunction_ofFn]
    exact polySignal_convert T T' φ k c (convertParams units) hT s t one _ h1 _
  rw [hout]
  refine ⟨fun _ _ _ _ _ => rfl, fun observed N σ σ' e1 e2 e3 e4 => ?_⟩
  exact sobolRun_units observed N out σ σ' hk (by rw [e2, e1]) e3 e4

/-! ## Kriging -/

/-- **C249, kriging, unit of the signals.**  With the signals and the threshold in another unit the kriging result has the mean `s m + t` and the variance `s² v`
(`krig_units`): the aggregated POD function, its exceptions and its values that are no numbers are the same. -/
theorem C249_signal_partial (m v : List ℝ → ℝ) (det : ℝ) (sizes x : List ℝ) (s t : ℝ) (hs : 0 < s) :
    krigExec (fun p => s * m p + t) (fun p => s ^ 2 * v p) (s * det + t) sizes x = krigExec m v det sizes x := by
  have hs2 : 0 < s ^ 2 := pow_pos hs 2
  have hneg : ∀ w : ℝ, s ^ 2 * w < 0 ↔ w < 0 := fun w => by
    constructor
    · intro h; by_contra hw; exact absurd h (not_lt.mpr (mul_nonneg hs2.le (not_lt.mp hw)))
    · intro h; exact mul_neg_of_pos_of_neg hs2 h
  have hq : ∀ a w : ℝ, F.div (.fin (s * det + t - (s * a + t))) (sqrtF (s ^ 2 * w)) = F.div (.fin (det - a)) (sqrtF w) := by
    intro a w
    rw [show s * det + t - (s * a + t) = s * (det - a) by ring]
    by_cases hw : w < 0
    · rw [sqrtF, sqrtF, if_pos hw, if_pos ((hneg w).mpr hw)]
      rfl
    · rw [sqrtF, sqrtF, if_neg hw, if_neg (fun h => hw ((hneg w).mp h)), Real.sqrt_mul hs2.le, Real.sqrt_sq hs.le]
      by_cases h0 : Real.sqrt w = 0
      · rw [h0, mul_zero]
        simp only [F.div, if_true, F.infSign, mul_eq_zero, hs.ne', false_or, mul_pos_iff_of_pos_left hs]
        try simp only [pos_iff_pos_of_mul_pos, mul_pos_iff_of_pos_left hs]
      · rw [F.div_fin _ h0, F.div_fin _ (mul_ne_zero hs.ne' h0), mul_div_mul_left _ _ hs.ne']
  have hP : ∀ ms vs : List ℝ, krigProb (s * det + t) (ms.map fun a => s * a + t) (vs.map fun w => s ^ 2 * w) = krigProb det ms vs := by
    intro ms vs
    simp only [krigProb, List.map_map, Function.comp_def, hq]
  have em : (sizes.map fun d => d :: x).map (fun p => s * m p + t) = ((sizes.map fun d => d :: x).map m).map fun a => s * a + t := by
    rw [List.map_map, List.map_map, List.map_map]; rfl
  have ev : (sizes.map fun d => d :: x).map (fun p => s ^ 2 * v p) = ((sizes.map fun d => d :: x).map v).map fun w => s ^ 2 * w := by
    rw [List.map_map, List.map_map, List.map_map]; rfl
  unfold krigExec
  dsimp only
  rw [em, ev]
  generalize (sizes.map fun d => d :: x).map m = ms
  generalize (sizes.map fun d => d :: x).map v = vs
  have hall : (∀ w ∈ vs.map fun w => s ^ 2 * w, w < 0) ↔ ∀ w ∈ vs, w < 0 := by
    simp only [List.mem_map, forall_exists_index, and_imp, forall_apply_eq_imp_iff₂, hneg]
  have htol : ∀ l : List ℝ, ∀ w ∈ l, w < 0 → w < 1 / 100 := fun l w _ h => by linarith
  simp only [hall, if_pos (htol _), hP]

/-- The kriging result does not depend on the units of the inputs: it is built on the normalised observations. -/
theorem sobol_result_units {n q d : ℕ} (hn : n ≠ 0) (kern : (Fin d → ℝ) → (Fin d → ℝ) → ℝ) (f : (Fin d → ℝ) → Fin q → ℝ) (sample : Fin n → Fin d → ℝ) (y : Fin n → ℝ)
    (a b : Fin d → ℝ) (ha : ∀ j, 0 < a j) (h1 : ∀ j, 1e-12 < Real.sqrt (svar fun i => sample i j)) (h2 : ∀ j, 1e-12 < a j * Real.sqrt (svar fun i => sample i j)) :
    krigMean kern f (fun i => normalise (fun i => rescale a b (sample i)) (rescale a b (sample i))) y = krigMean kern f (fun i => normalise sample (sample i)) y ∧
    krigVar kern f (fun i => normalise (fun i => rescale a b (sample i)) (rescale a b (sample i))) = krigVar kern f (fun i => normalise sample (sample i)) := by
  simp only [normalise_units hn sample a b ha h1 h2, and_self]

/-- **C249 is violated (kriging, units of the inputs).**  `m`, `v`: mean and variance of the kriging result, the same functions in both systems of units
(`sobol_result_units`).  The aggregated POD function evaluates them at the raw point: the configuration `d :: x`, written `d' :: x'` in other units, keeps its POD exactly when the
two raw points happen to have the same standardised distance to the threshold. -/
theorem C249_violated (m v : List ℝ → ℝ) (det d d' : ℝ) (x x' : List ℝ) (h0 : 0 < v (d :: x)) (h1 : 0 < v (d' :: x')) :
    krigExec m v det [d'] x' = krigExec m v det [d] x ↔ (det - m (d' :: x')) / Real.sqrt (v (d' :: x')) = (det - m (d :: x)) / Real.sqrt (v (d :: x)) := by
  rw [C68_value_partial m v det d [] x h0, C68_value_partial m v det d' [] x' h1]
  simp only [List.map_cons, List.map_nil, Except.ok.injEq, List.cons.injEq, and_true, F.fin.injEq, sub_right_inj]
  rw [Phi_strictMono.injective.eq_iff]

/-- A defect of 5 mm and a parameter of 0.5 m, the second one written in millimetres: the raw points differ. -/
example : krigExec (fun p => p.getD 1 0) (fun _ => 1) 1 [5] [500] ≠ krigExec (fun p => p.getD 1 0) (fun _ => 1) 1 [5] [0.5] := by
  rw [Ne, C249_violated _ _ _ _ _ _ _ one_pos one_pos]
  norm_num

/-! ### The violation on an index -/

/-- The POD of the mean `x₁ + x₂` and the variance 1, for the threshold 0. -/
theorem krigExec_sum (d : ℝ) (x : List ℝ) :
    krigExec (fun p => p.getD 1 0 + p.getD 2 0) (fun _ => 1) 0 [d] x = .ok [F.fin (Phi (x.getD 0 0 + x.getD 1 0))] := by
  rw [C68_value_partial _ _ _ _ _ _ one_pos]
  simp only [List.map_cons, List.map_nil, Real.sqrt_one, div_one, zero_sub, Phi_neg]
  simp [List.getD]

theorem output_sum (d : ℝ) (X : List (List ℝ)) (out : List (List ℝ))
    (h : List.Forall₂ (fun x r => krigExec (fun p => p.getD 1 0 + p.getD 2 0) (fun _ => 1) 0 [d] x = .ok (r.map F.fin)) X out) :
    out = X.map fun x => [Phi (x.getD 0 0 + x.getD 1 0)] := by
  induction h with
  | nil => rfl
  | @cons x r X out h _ ih =>
    rw [krigExec_sum, Except.ok.injEq] at h
    rw [List.map_cons, ← ih]
    congr 1
    match r, h with
    | [z], h => simpa using h.symm
    | [], h => simp at h
    | _ :: _ :: _, h => simp at h

/-- The slope of `Phi` decreases on the positive numbers. -/
theorem Phi_two_lt : Phi 2 - Phi 1 < Phi 1 - Phi 0 := by
  obtain ⟨a, ha, ea⟩ := exists_hasDerivAt_eq_slope Phi gaussDens (show (0 : ℝ) < 1 by norm_num) (fun x _ => (Phi_hasDerivAt x).continuousAt.continuousWithinAt)
    fun x _ => Phi_hasDerivAt x
  obtain ⟨b, hb, eb⟩ := exists_hasDerivAt_eq_slope Phi gaussDens (show (1 : ℝ) < 2 by norm_num) (fun x _ => (Phi_hasDerivAt x).continuousAt.continuousWithinAt)
    fun x _ => Phi_hasDerivAt x
  have := gaussDens_lt ha.1.le (ha.2.trans hb.1)
  rw [ea, eb] at this
  norm_num at this
  linarith

theorem colVariance_pair (a b : ℝ) : colVariance [a, b] = (b - a) ^ 2 / 2 := by
  simp [colVariance, listMean]
  ring

/-- **C249 is violated (an index).**  The kriging result has the mean `x₁ + x₂` and the variance 1, the threshold is 0, the two samples hold two points.  In the first system of units
Jansen's total index of the first parameter is 2/3.  In the second one, where only the origin of the *second* parameter is moved by 1, it is larger, the kriging result being the same
function (`sobol_result_units`) evaluated at other raw points. -/
theorem C249_violated_index (d : ℝ) (out out' : List (List ℝ)) :
    let A : List (List ℝ) := [[0, 0], [1, 0]]
    let B : List (List ℝ) := [[-1, 0], [1, 0]]
    let exec := fun x r => krigExec (fun p => p.getD 1 0 + p.getD 2 0) (fun _ => 1) 0 [d] x = .ok (r.map F.fin)
    List.Forall₂ exec (sobolDesign 2 A B) out →
    List.Forall₂ exec (sobolDesign 2 (A.map (convertParams [(1, 0), (1, 1)])) (B.map (convertParams [(1, 0), (1, 1)]))) out' →
    jansenTotal 2 0 0 out = 2 / 3 ∧ 2 / 3 < jansenTotal 2 0 0 out' := by
  intro A B exec h h'
  have e := output_sum d _ _ h
  have e' := output_sum d _ _ h'
  have hr : List.range 2 = [0, 1] := rfl
  have p0 : Phi (-1) = 1 - Phi 1 := Phi_neg 1
  have p00 : Phi 0 = 1 / 2 := by have := Phi_neg 0; rw [neg_zero] at this; linarith
  have p1 : Phi 0 < Phi 1 := Phi_strictMono one_pos
  have p2 : Phi 1 < Phi 2 := Phi_strictMono (by norm_num)
  have p3 := Phi_two_lt
  have v1 : jansenTotal 2 0 0 out = (Phi 0 - Phi (-1)) ^ 2 / 3 / ((Phi 1 - Phi 0) ^ 2 / 2) := by
    rw [e]
    simp [A, B, sobolDesign, hr, sobolExchange, jansenTotal, jansenGap, designEntry, colVariance_pair, Finset.sum_range_succ]
    norm_num
  have v2 : jansenTotal 2 0 0 out' = (Phi 1 - Phi 0) ^ 2 / 3 / ((Phi 2 - Phi 1) ^ 2 / 2) := by
    rw [e']
    simp [A, B, sobolDesign, hr, sobolExchange, jansenTotal, jansenGap, designEntry, colVariance_pair, Finset.sum_range_succ, convertParams]
    norm_num
  rw [v1, v2]
  constructor
  · rw [p0, p00, show (1 / 2 - (1 - Phi 1)) = Phi 1 - 1 / 2 by ring]
    have : Phi 1 - 1 / 2 ≠ 0 := by rw [p00] at p1; linarith
    generalize Phi 1 - 1 / 2 = w at this
    field_simp
  · rw [lt_div_iff₀ (by have := pow_pos (sub_pos.mpr p2) 2; linarith)]
    nlinarith

/-- Such output designs exist. -/
example : ∃ out out' : List (List ℝ),
    List.Forall₂ (fun x r => krigExec (fun p => p.getD 1 0 + p.getD 2 0) (fun _ => 1) 0 [3] x = .ok (r.map F.fin)) (sobolDesign 2 [[0, 0], [1, 0]] [[-1, 0], [1, 0]]) out ∧
    List.Forall₂ (fun x r => krigExec (fun p => p.getD 1 0 + p.getD 2 0) (fun _ => 1) 0 [3] x = .ok (r.map F.fin))
      (sobolDesign 2 ([[0, 0], [1, 0]].map (convertParams [(1, 0), (1, 1)])) ([[-1, 0], [1, 0]].map (convertParams [(1, 0), (1, 1)]))) out' := by
  have h : ∀ X : List (List ℝ), List.Forall₂ (fun x r => krigExec (fun p => p.getD 1 0 + p.getD 2 0) (fun _ => 1) 0 [3] x = .ok (r.map F.fin)) X
      (X.map fun x => [Phi (x.getD 0 0 + x.getD 1 0)]) := by
    intro X
    induction X with
    | nil => exact .nil
    | cons x X ih => exact .cons (krigExec_sum 3 x) ih
  exact ⟨_, _, h _, h _⟩

/-- Chaos: three observations, a constant and a linear function of the defect, sizes and one parameter in other units. -/
example : (∀ p : ℝ × List ℝ, (fun p : ℝ × List ℝ => (p.1 - 1) / 2) (convert 2 1 (convertParams [(2, 1)]) p) = (fun p : ℝ × List ℝ => p.1) p) ∧
    (∃ one, HasConstant (fun (j : Fin 2) (x : ℝ) => x ^ (j : ℕ)) one) ∧
    IsUnit ((basisMatrix (fun (j : Fin 2) (w : ℝ × List ℝ) => w.1 ^ (j : ℕ)) 3 fun i => (i, [5]))ᵀ *
      basisMatrix (fun (j : Fin 2) (w : ℝ × List ℝ) => w.1 ^ (j : ℕ)) 3 fun i => (i, [5])).det ∧
    ∀ a ∈ [[(5 : ℝ)], [6]], a.length = [((2 : ℝ), (1 : ℝ))].length := by
  refine ⟨fun p => by simp [convert], ⟨![1, 0], fun u => by simp⟩, ?_, by simp⟩
  rw [Matrix.det_fin_two]
  simp only [Matrix.mul_apply, Matrix.transpose_apply, basisMatrix, Fin.sum_univ_three]
  norm_num

end Verif.Props
