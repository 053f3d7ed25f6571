import Verif.Props.ChaosExact
import Verif.Props.MetamodelError
import Verif.Props.KrigingUnits
import Verif.Props.DefaultDist
import Verif.Model.ChaosUnits

/-!
# C227: the units of measurement of a chaos POD
-/

namespace Verif.Props
open Verif.Py Verif.Model Matrix

variable {X X' U : Type}

/-! ## Interpolation -/

theorem interpGo_affine {k c : ℝ} (hk : 0 < k) (pts : List (ℝ × ℝ)) (t : ℝ) :
    interpGo (pts.map fun p => (k * p.1 + c, p.2)) (k * t + c) = interpGo pts t := by
  induction pts with
  | nil => rfl
  | cons p pts ih =>
    cases pts with
    | nil => rfl
    | cons q pts =>
      simp only [List.map_cons, interpGo] at ih ⊢
      simp only [add_lt_add_iff_right, mul_lt_mul_iff_right₀ hk]
      rw [add_sub_add_right_eq_sub, add_sub_add_right_eq_sub, ← mul_sub, ← mul_sub, ih]
      split_ifs
      · rw [← div_div, div_right_comm, mul_comm k (t - p.1), ← mul_assoc, mul_comm ((q.2 - p.2) / (q.1 - p.1) / k), mul_assoc,
          div_mul_cancel₀ _ hk.ne', mul_comm]
      · rfl

theorem interp1d_affine {k c : ℝ} (hk : 0 < k) {xs ys : List ℝ} {f : ℝ → Res ℝ} (h : interp1d xs ys = .ok f) :
    ∃ f', interp1d (xs.map (k * · + c)) ys = .ok f' ∧ ∀ t, f' (k * t + c) = f t := by
  rw [interp1d] at h
  split_ifs at h with hlen
  rw [Except.ok.injEq] at h
  subst h
  refine ⟨_, by rw [interp1d, if_pos (by simpa using hlen)], fun t => ?_⟩
  have hzip : (xs.map (k * · + c)).zip ys = (xs.zip ys).map fun p => (k * p.1 + c, p.2) := by
    rw [List.zip_map_left]
    rfl
  have hsort : sortPts ((xs.zip ys).map fun p => (k * p.1 + c, p.2)) = (sortPts (xs.zip ys)).map fun p => (k * p.1 + c, p.2) := by
    unfold sortPts
    rw [List.map_mergeSort]
    intro a _ b _
    simp only [decide_eq_decide, add_le_add_iff_right]
    exact (mul_le_mul_iff_right₀ hk).symm
  rw [hzip, hsort]
  generalize sortPts (xs.zip ys) = pts
  cases pts with
  | nil => rfl
  | cons p pts =>
    have hlast : ∀ (l : List (ℝ × ℝ)) (hne : l ≠ []),
        ((l.map fun p : ℝ × ℝ => (k * p.1 + c, p.2)).getLast (by simpa using hne)).1 = k * (l.getLast hne).1 + c := by
      intro l hne
      rw [List.getLast_map]
    have h1 := hlast (p :: pts) (by simp)
    have h2 := interpGo_affine (c := c) hk (p :: pts) t
    simp only [List.map_cons] at h1 h2 ⊢
    rw [interpEval, interpEval, h1, h2]
    simp only [add_lt_add_iff_right, mul_lt_mul_iff_right₀ hk]

/-! ## Least squares -/

/-- The constants are combinations of the functions of the basis. -/
def HasConstant {k : ℕ} (φ : Fin k → U → ℝ) (one : Fin k → ℝ) : Prop := ∀ u, ∑ j, one j * φ j u = 1

theorem lsCoefs_units {n p : ℕ} (A : Matrix (Fin n) (Fin p) ℝ) (hA : IsUnit (Aᵀ * A).det) (y : Fin n → ℝ) (s t : ℝ) (one : Fin p → ℝ)
    (h1 : ∀ i, t * (A *ᵥ one) i = t) : (lsCoefs A fun i => s * y i + t) = s • lsCoefs A y + t • one := by
  have e : (fun i => s * y i + t) = s • y + A *ᵥ (t • one) := by
    funext i
    rw [Pi.add_apply, Matrix.mulVec_smul, Pi.smul_apply, Pi.smul_apply, smul_eq_mul, smul_eq_mul, h1]
  rw [e]
  have h2 : lsCoefs A (A *ᵥ (t • one)) = t • one := lsCoefs_exact A hA _
  unfold lsCoefs at h2 ⊢
  rw [Matrix.mulVec_add, Matrix.mulVec_add, h2, Matrix.mulVec_smul, Matrix.mulVec_smul]

theorem residual_units {n p : ℕ} (A : Matrix (Fin n) (Fin p) ℝ) (hA : IsUnit (Aᵀ * A).det) (y : Fin n → ℝ) (s t : ℝ) (one : Fin p → ℝ)
    (h1 : ∀ i, t * (A *ᵥ one) i = t) (i : Fin n) :
    s * y i + t - (A *ᵥ lsCoefs A fun i => s * y i + t) i = s * (y i - (A *ᵥ lsCoefs A y) i) := by
  rw [lsCoefs_units A hA y s t one h1, Matrix.mulVec_add, Matrix.mulVec_smul, Matrix.mulVec_smul, Pi.add_apply, Pi.smul_apply, Pi.smul_apply,
    smul_eq_mul, smul_eq_mul, h1]
  ring

theorem chaosScale_units {n p : ℕ} (A : Matrix (Fin n) (Fin p) ℝ) (hA : IsUnit (Aᵀ * A).det) (y : Fin n → ℝ) (s t : ℝ) (one : Fin p → ℝ)
    (h1 : ∀ i, t * (A *ᵥ one) i = t) : (chaosScale A fun i => s * y i + t) = s ^ 2 * chaosScale A y := by
  rw [chaosScale, chaosScale, ← mul_div_assoc, Finset.mul_sum]
  congr 1
  refine Finset.sum_congr rfl fun i _ => ?_
  rw [residual_units A hA y s t one h1 i]
  ring

/-! ## The metamodel -/

/-- A point of the parameter space in other units: the defect is `k a + c`, the other parameters are converted by `e`. -/
def convert (k c : ℝ) (e : X → X') (p : ℝ × X) : ℝ × X' := (k * p.1 + c, e p.2)

theorem basis_convert {m : ℕ} (T : ℝ × X → U) (T' : ℝ × X' → U) (φ : Fin m → U → ℝ) (k c : ℝ) (e : X → X') (hT : ∀ p, T' (convert k c e p) = T p) (N : ℕ)
    (z : ℕ → ℝ × X) : basisMatrix (fun j w => φ j (T' w)) N (fun i => convert k c e (z i)) = basisMatrix (fun j w => φ j (T w)) N z := by
  funext i j
  simp only [basisMatrix, hT]

theorem constant_rows {m : ℕ} (T : ℝ × X → U) (φ : Fin m → U → ℝ) (N : ℕ) (z : ℕ → ℝ × X) (t : ℝ) (h : t = 0 ∨ ∃ one, HasConstant φ one) :
    ∃ one : Fin m → ℝ, (∀ u, t * ∑ j, one j * φ j u = t) ∧ ∀ i, t * (basisMatrix (fun j w => φ j (T w)) N z *ᵥ one) i = t := by
  rcases h with h | ⟨one, h⟩
  · exact ⟨0, fun u => by rw [h, zero_mul], fun i => by rw [h, zero_mul]⟩
  · refine ⟨one, fun u => by rw [h u, mul_one], fun i => ?_⟩
    have : (basisMatrix (fun j w => φ j (T w)) N z *ᵥ one) i = 1 := by
      rw [← h (T (z i)), Matrix.mulVec, dotProduct]
      exact Finset.sum_congr rfl fun j _ => mul_comm _ _
    rw [this, mul_one]

theorem polySignal_convert {m : ℕ} (T : ℝ × X → U) (T' : ℝ × X' → U) (φ : Fin m → U → ℝ) (k c : ℝ) (e : X → X') (hT : ∀ p, T' (convert k c e p) = T p)
    (s t : ℝ) (one b : Fin m → ℝ) (h1 : ∀ u, t * ∑ j, one j * φ j u = t) (p : ℝ × X) :
    polySignal T' φ (s • b + t • one) (convert k c e p) = s * polySignal T φ b p + t := by
  have h2 : s * polySignal T φ b p + t = s * polySignal T φ b p + t * ∑ j, one j * φ j (T p) := by rw [h1 (T p)]
  rw [h2, polySignal, polySignal, Finset.mul_sum, Finset.mul_sum, ← Finset.sum_add_distrib]
  refine Finset.sum_congr rfl fun j _ => ?_
  rw [hT, Pi.add_apply, Pi.smul_apply, Pi.smul_apply, smul_eq_mul, smul_eq_mul]
  ring

/-- **C227, the metamodel.**  The defects are written in another unit and origin, the parameters in any other way, the signals and the threshold in
another unit (and another origin if the constants belong to the basis).  Then the metamodel predicts the same signal in the new unit, the residual
deviation is the same in the new unit, and R2 and Q2 are unchanged.  `hT` says that the transformation to standard variables follows the change of
units. -/
theorem C227_metamodel {m : ℕ} (zero : ℝ × X) (zero' : ℝ × X') (T : ℝ × X → U) (T' : ℝ × X' → U) (φ : Fin m → U → ℝ) (det : ℝ) (N : ℕ) (z : ℕ → ℝ × X)
    (y : ℕ → ℝ) (k c : ℝ) (e : X → X') (hT : ∀ p, T' (convert k c e p) = T p) (s t : ℝ) (hs : 0 < s) (ht : t = 0 ∨ ∃ one, HasConstant φ one)
    (hG : IsUnit ((basisMatrix (fun j w => φ j (T w)) N z)ᵀ * basisMatrix (fun j w => φ j (T w)) N z).det) :
    let S := fittedChaos zero T φ det N z y
    let S' := fittedChaos zero' T' φ (s * det + t) N (fun i => convert k c e (z i)) fun i => s * y i + t
    let A := basisMatrix (fun j w => φ j (T w)) N z
    let A' := basisMatrix (fun j w => φ j (T' w)) N fun i => convert k c e (z i)
    (∀ p, chaosFunction S'.transformation S'.basis S'.coefs (convert k c e p) = s * chaosFunction S.transformation S.basis S.coefs p + t) ∧
    S'.stderr = s * S.stderr ∧
    computeR2 (fun i : Fin N => s * y i + t) (fun i => s * y i + t - (A' *ᵥ lsCoefs A' fun i => s * y i + t) i) =
      computeR2 (fun i : Fin N => y i) (fun i => y i - (A *ᵥ lsCoefs A fun i => y i) i) ∧
    chaosQ2 A' (fun i => s * y i + t) (A' *ᵥ lsCoefs A' fun i => s * y i + t) = chaosQ2 A (fun i => y i) (A *ᵥ lsCoefs A fun i => y i) := by
  intro S S' A A'
  have hA : A' = A := basis_convert T T' φ k c e hT N z
  obtain ⟨one, h1, h2⟩ := constant_rows T φ N z t ht
  have hco := lsCoefs_units A hG (fun i => y i) s t one h2
  have hres := residual_units A hG (fun i => y i) s t one h2
  refine ⟨fun p => ?_, ?_, ?_, ?_⟩
  · change chaosFunction T' (List.ofFn φ) (List.ofFn (lsCoefs A' fun i => s * y i + t)) _ =
      s * chaosFunction T (List.ofFn φ) (List.ofFn (lsCoefs A fun i => y i)) p + t
    rw [chaosFunction_ofFn, chaosFunction_ofFn, hA, hco]
    exact polySignal_convert T T' φ k c e hT s t one _ h1 p
  · change Real.sqrt (chaosScale A' fun i => s * y i + t) = s * Real.sqrt (chaosScale A fun i => y i)
    rw [hA, chaosScale_units A hG (fun i => y i) s t one h2, Real.sqrt_mul (sq_nonneg s), Real.sqrt_sq hs.le]
  · rw [hA]
    simp only [hres]
    rcases Nat.eq_zero_or_pos N with h0 | hpos
    · subst h0
      simp [computeR2, svar]
    · have hN : N ≠ 0 := hpos.ne'
      have e1 : svar (fun i : Fin N => s * (y i - (A *ᵥ lsCoefs A fun i => y i) i)) = s ^ 2 * svar fun i : Fin N => (y i - (A *ᵥ lsCoefs A fun i => y i) i) := by
        simpa using svar_affine hN (fun i : Fin N => (y i - (A *ᵥ lsCoefs A fun i => y i) i)) s 0
      have e2 : svar (fun i : Fin N => s * y i + t - smean fun i : Fin N => s * y i + t) = s ^ 2 * svar fun i : Fin N => y i - smean fun i : Fin N => y i := by
        rw [smean_affine hN, ← svar_affine hN _ s 0]
        congr 1
        funext i
        ring
      rw [computeR2, computeR2, e1, e2]
      have hs2 : s ^ 2 ≠ 0 := pow_ne_zero 2 hs.ne'
      simp only [mul_eq_zero, hs2, false_or]
      rw [mul_div_mul_left _ _ hs2]
  · rw [hA]
    rcases Nat.eq_zero_or_pos N with h0 | hpos
    · subst h0
      simp [chaosQ2, svar, smean]
    · have hN : N ≠ 0 := hpos.ne'
      have hs2 : s ^ 2 ≠ 0 := pow_ne_zero 2 hs.ne'
      have e1 : smean (fun i : Fin N => chaosDelta A (fun i => s * y i + t) (A *ᵥ lsCoefs A fun i => s * y i + t) i ^ 2) =
          s ^ 2 * smean fun i : Fin N => chaosDelta A (fun i => y i) (A *ᵥ lsCoefs A fun i => y i) i ^ 2 := by
        have := smean_affine hN (fun i : Fin N => chaosDelta A (fun i => y i) (A *ᵥ lsCoefs A fun i => y i) i ^ 2) (s ^ 2) 0
        rw [add_zero] at this
        rw [← this]
        congr 1
        funext i
        rw [chaosDelta, chaosDelta, hres i]
        ring
      rw [chaosQ2, chaosQ2, e1, svar_affine hN, mul_div_mul_left _ _ hs2]

theorem chaosRun_eq (S : ChaosSetup X U) (w : ChaosDraws X) (sims : List (List ℝ × ChaosDraws X)) (s : SimAttrs) (hnum : s.number = s.sizes.length)
    {f : ℝ → Res ℝ} (hf : interp1d s.sizes (chaosPodRow S s.number s.sizes S.coefs w) = .ok f) :
    chaosRunSim S w sims s = (.ok (), { s with
      curve := some f
      perDefect := some (columnsOf (sims.map fun q => chaosPodRow S s.number s.sizes q.1 q.2) s.number) }) := by
  rw [chaosRunSim, if_neg (by omega), hf]

/-- **C227, the curves.**  With the same random draws, written in the new units, both runs succeed, and the POD curve and the curve at any confidence
level take at each defect size, in the new unit, the value they had in the old one (including sizes for which they raise). -/
theorem C227_curves {m : ℕ} (zero : ℝ × X) (zero' : ℝ × X') (T : ℝ × X → U) (T' : ℝ × X' → U) (φ : Fin m → U → ℝ) (det : ℝ) (N : ℕ) (z : ℕ → ℝ × X)
    (y : ℕ → ℝ) (k c : ℝ) (hk : 0 < k) (e : X → X') (hT : ∀ p, T' (convert k c e p) = T p) (s t : ℝ) (hs : 0 < s)
    (ht : t = 0 ∨ ∃ one, HasConstant φ one)
    (hG : IsUnit ((basisMatrix (fun j w => φ j (T w)) N z)ᵀ * basisMatrix (fun j w => φ j (T w)) N z).det) (n : ℕ) (a a' : SimAttrs)
    (hnum : a.number = a.sizes.length) (hnum' : a'.number = a.number) (hsizes : a'.sizes = a.sizes.map (k * · + c))
    (w : ChaosDraws X) (hw : w.xs.length = n ∧ w.noise.length = n * a.sizes.length)
    (u : ℝ) (v : ℕ → Fin m → ℝ) (ws : List (ChaosDraws X)) (hws : ∀ q ∈ ws, q.xs.length = n ∧ q.noise.length = n * a.sizes.length) (level : ℝ) :
    let S := { fittedChaos zero T φ det N z y with samplingSize := n }
    let S' := { fittedChaos zero' T' φ (s * det + t) N (fun i => convert k c e (z i)) (fun i => s * y i + t) with samplingSize := n }
    let sims := ws.mapIdx fun q d => (List.ofFn (chaosDraw (lsCoefs (basisMatrix (fun j w => φ j (T w)) N z) fun i => y i)
      (fun _ => u * ((N : ℝ) - m - 1) * S.stderr ^ 2) v q), d)
    let sims' := ws.mapIdx fun q d => (List.ofFn (chaosDraw (lsCoefs (basisMatrix (fun j w => φ j (T' w)) N fun i => convert k c e (z i)) fun i => s * y i + t)
      (fun _ => u * ((N : ℝ) - m - 1) * S'.stderr ^ 2) v q), (⟨d.xs.map e, d.noise⟩ : ChaosDraws X'))
    ∃ f f' g g', (chaosRunSim S w sims a).2.curve = some f ∧ (chaosRunSim S' ⟨w.xs.map e, w.noise⟩ sims' a').2.curve = some f' ∧
      getPODCLModel (chaosRunSim S w sims a).2 level = .ok g ∧ getPODCLModel (chaosRunSim S' ⟨w.xs.map e, w.noise⟩ sims' a').2 level = .ok g' ∧
      (∀ x, f' (k * x + c) = f x) ∧ ∀ x, g' (k * x + c) = g x := by
  intro S S' sims sims'
  obtain ⟨one, h1, h2⟩ := constant_rows T φ N z t ht
  have hA := basis_convert T T' φ k c e hT N z
  have hco := lsCoefs_units _ hG (fun i => y i) s t one h2
  have hse : S'.stderr = s * S.stderr := (C227_metamodel zero zero' T T' φ det N z y k c e hT s t hs ht hG).2.1
  -- one row
  have hrow : ∀ (b : Fin m → ℝ) (d : ChaosDraws X), d.xs.length = n → d.noise.length = n * a.sizes.length →
      chaosPodRow S' a'.number a'.sizes (List.ofFn (s • b + t • one)) ⟨d.xs.map e, d.noise⟩ = chaosPodRow S a.number a.sizes (List.ofFn b) d := by
    intro b d g1 g2
    rw [hnum', hnum, hsizes, chaosRow_eq S a.sizes (List.ofFn b) d g1 g2]
    have hl : a.sizes.length = (a.sizes.map (k * · + c)).length := by simp
    rw [hl, chaosRow_eq S' (a.sizes.map (k * · + c)) (List.ofFn (s • b + t • one)) ⟨d.xs.map e, d.noise⟩
      (by simpa using g1) (by simpa using g2)]
    refine List.ext_getElem (by simp) fun j q1 q2 => ?_
    have hj : j < a.sizes.length := by simpa using q2
    simp only [List.getElem_mapIdx, List.getElem_map]
    congr 2
    have hmap : ∀ (F : ℕ → X' → ℝ) (l : List X), (l.map e).mapIdx F = l.mapIdx fun i x => F i (e x) := fun F l => List.ext_getElem (by simp) (by simp)
    rw [hmap]
    have hcount : ∀ (l : List X) (F F' : ℕ → X → ℝ), (∀ i x, F' i x = s * F i x + t) →
        (l.mapIdx F').countP (fun y => decide (s * det + t < y)) = (l.mapIdx F).countP fun y => decide (det < y) := by
      intro l F F' hF
      have : l.mapIdx F' = (l.mapIdx F).map fun r => s * r + t := List.ext_getElem (by simp) (by simp [hF])
      rw [this, List.countP_map]
      refine List.countP_congr fun r _ => ?_
      simp only [Function.comp_apply, decide_eq_true_eq, add_lt_add_iff_right]
      exact mul_lt_mul_iff_right₀ hs
    refine hcount d.xs _ _ fun i x => ?_
    have hc : chaosFunction S'.transformation S'.basis (List.ofFn (s • b + t • one)) (k * a.sizes[j] + c, e x) =
        s * chaosFunction S.transformation S.basis (List.ofFn b) (a.sizes[j], x) + t := by
      change chaosFunction T' (List.ofFn φ) _ (convert k c e (a.sizes[j], x)) = s * chaosFunction T (List.ofFn φ) _ _ + t
      rw [chaosFunction_ofFn, chaosFunction_ofFn]
      exact polySignal_convert T T' φ k c e hT s t one _ h1 _
    have hn : ∀ i, (d.noise.map (· * S'.stderr)).getD i 0 = s * (d.noise.map (· * S.stderr)).getD i 0 := by
      intro i
      rw [List.getD_eq_getElem?_getD, List.getD_eq_getElem?_getD, List.getElem?_map, List.getElem?_map, hse]
      cases d.noise[i]? <;> simp
      ring
    rw [hc]
    change _ + (d.noise.map (· * S'.stderr)).getD (n * j + i) 0 = s * (_ + (d.noise.map (· * S.stderr)).getD (n * j + i) 0) + t
    rw [hn]
    ring
  have hlen : ∀ (b : List ℝ) (d : ChaosDraws X), d.xs.length = n → d.noise.length = n * a.sizes.length →
      (chaosPodRow S a.number a.sizes b d).length = a.sizes.length := by
    intro b d g1 g2
    rw [hnum, chaosRow_eq S a.sizes b d g1 g2]
    simp
  have hrow0 : chaosPodRow S' a'.number a'.sizes S'.coefs ⟨w.xs.map e, w.noise⟩ = chaosPodRow S a.number a.sizes S.coefs w := by
    have e1 : S'.coefs = List.ofFn (s • (lsCoefs (basisMatrix (fun j w => φ j (T w)) N z) fun i => y i) + t • one) := by
      rw [← hco, ← hA]
      rfl
    rw [e1]
    exact hrow _ w hw.1 hw.2
  have hsims : (sims'.map fun q => chaosPodRow S' a'.number a'.sizes q.1 q.2) = sims.map fun q => chaosPodRow S a.number a.sizes q.1 q.2 := by
    refine List.ext_getElem (by simp [sims, sims']) fun q q1 q2 => ?_
    have hq : q < ws.length := by simpa [sims] using q2
    simp only [sims, sims', List.getElem_map, List.getElem_mapIdx]
    have hd : chaosDraw (lsCoefs (basisMatrix (fun j w => φ j (T' w)) N fun i => convert k c e (z i)) fun i => s * y i + t)
        (fun _ => u * ((N : ℝ) - m - 1) * S'.stderr ^ 2) v q =
        s • chaosDraw (lsCoefs (basisMatrix (fun j w => φ j (T w)) N z) fun i => y i) (fun _ => u * ((N : ℝ) - m - 1) * S.stderr ^ 2) v q + t • one := by
      funext j
      have hq : Real.sqrt (u * ((N : ℝ) - m - 1) * S'.stderr ^ 2) = s * Real.sqrt (u * ((N : ℝ) - m - 1) * S.stderr ^ 2) := by
        rw [hse, show u * ((N : ℝ) - m - 1) * (s * S.stderr) ^ 2 = s ^ 2 * (u * ((N : ℝ) - m - 1) * S.stderr ^ 2) by ring,
          Real.sqrt_mul (sq_nonneg s), Real.sqrt_sq hs.le]
      rw [hA, hco]
      simp only [chaosDraw, Pi.add_apply, Pi.smul_apply, smul_eq_mul]
      rw [hq]
      ring
    rw [hd]
    exact hrow _ _ (hws _ (List.getElem_mem hq)).1 (hws _ (List.getElem_mem hq)).2
  obtain ⟨f, hf⟩ : ∃ f, interp1d a.sizes (chaosPodRow S a.number a.sizes S.coefs w) = .ok f :=
    ⟨_, by rw [interp1d, if_pos (hlen _ w hw.1 hw.2).symm]⟩
  obtain ⟨f', hf', hff⟩ := interp1d_affine (c := c) hk hf
  obtain ⟨g, hg⟩ : ∃ g, interp1d a.sizes ((columnsOf (sims.map fun q => chaosPodRow S a.number a.sizes q.1 q.2) a.number).map fun col =>
      quantile col (1 - level)) = .ok g := ⟨_, by rw [interp1d, if_pos (by simp [columnsOf, hnum])]⟩
  obtain ⟨g', hg', hgg⟩ := interp1d_affine (c := c) hk hg
  have r1 := chaosRun_eq S w sims a hnum hf
  have r2 := chaosRun_eq S' ⟨w.xs.map e, w.noise⟩ sims' a' (by rw [hnum', hnum, hsizes]; simp) (f := f') (by rw [hrow0, hsizes]; exact hf')
  refine ⟨f, f', g, g', by rw [r1], by rw [r2], by rw [r1]; exact hg, ?_, hff, hgg⟩
  rw [r2]
  change interp1d a'.sizes _ = _
  rw [hsims, hsizes, hnum']
  exact hg'

/-! ## The default laws -/

theorem sampleMin_affine (l : List ℝ) {k c v : ℝ} (hk : 0 < k) (h : sampleMin l = .ok v) : sampleMin (l.map (k * · + c)) = .ok (k * v + c) := by
  have hmono : Monotone (k * · + c) := fun a b hab => by
    change k * a + c ≤ k * b + c
    nlinarith
  cases l with
  | nil => cases h
  | cons x xs =>
    rw [sampleMin, Except.ok.injEq] at h
    rw [List.map_cons, sampleMin, ← h, Except.ok.injEq, List.foldl_map]
    clear h
    induction xs generalizing x with
    | nil => rfl
    | cons y ys ih =>
      simp only [List.foldl_cons]
      rw [← ih (min x y), hmono.map_min]

theorem sampleMax_affine (l : List ℝ) {k c v : ℝ} (hk : 0 < k) (h : sampleMax l = .ok v) : sampleMax (l.map (k * · + c)) = .ok (k * v + c) := by
  have hmono : Monotone (k * · + c) := fun a b hab => by
    change k * a + c ≤ k * b + c
    nlinarith
  cases l with
  | nil => cases h
  | cons x xs =>
    rw [sampleMax, Except.ok.injEq] at h
    rw [List.map_cons, sampleMax, ← h, Except.ok.injEq, List.foldl_map]
    clear h
    induction xs generalizing x with
    | nil => rfl
    | cons y ys ih =>
      simp only [List.foldl_cons]
      rw [← ih (max x y), hmono.map_max]

/-- Columns in other units: factor and offset of each column. -/
def convertColumns (units : List (ℝ × ℝ)) (cols : List (List ℝ)) : List (List ℝ) := List.zipWith (fun u col => col.map (u.1 * · + u.2)) units cols

/-- A vector of parameters in other units. -/
noncomputable def convertParams (units : List (ℝ × ℝ)) (x : List ℝ) : List ℝ := List.zipWith (fun u v => u.1 * v + u.2) units x

/-- Bounds in other units. -/
noncomputable def convertBounds (units : List (ℝ × ℝ)) (ms : List (ℝ × ℝ)) : List (ℝ × ℝ) :=
  List.zipWith (fun u b => (u.1 * b.1 + u.2, u.1 * b.2 + u.2)) units ms

theorem columnRanges_convert : ∀ (units : List (ℝ × ℝ)) (cols : List (List ℝ)) (r : List (ℝ × ℝ)), units.length = cols.length →
    (∀ u ∈ units, 0 < u.1) → columnRanges cols = .ok r → columnRanges (convertColumns units cols) = .ok (convertBounds units r)
  | [], [], r, _, _, h => by
    rw [columnRanges, Except.ok.injEq] at h
    subst h
    rfl
  | u :: us, col :: cols, r, hl, hu, h => by
    rw [columnRanges] at h
    cases h1 : sampleMin col with
    | error e => rw [h1] at h; cases h2 : sampleMax col <;> rw [h2] at h <;> cases h
    | ok a =>
      cases h2 : sampleMax col with
      | error e => rw [h1, h2] at h; cases h
      | ok b =>
        rw [h1, h2] at h
        dsimp only at h
        cases h3 : columnRanges cols with
        | error e => rw [h3] at h; cases h
        | ok q =>
          rw [h3] at h
          dsimp only at h
          rw [Except.ok.injEq] at h
          subst h
          have ih := columnRanges_convert us cols q (by simpa using hl) (fun v hv => hu v (List.mem_cons_of_mem _ hv)) h3
          have hp := hu u List.mem_cons_self
          change columnRanges (col.map (u.1 * · + u.2) :: convertColumns us cols) = .ok ((u.1 * a + u.2, u.1 * b + u.2) :: convertBounds us q)
          rw [columnRanges, sampleMin_affine col hp h1, sampleMax_affine col hp h2]
          dsimp only
          rw [ih]
  | [], _ :: _, _, hl, _, _ => by simp at hl
  | _ :: _, [], _, hl, _, _ => by simp at hl

theorem uniformMarginals_convert : ∀ (units ms r : List (ℝ × ℝ)), units.length = ms.length → (∀ u ∈ units, 0 < u.1) →
    uniformMarginals ms = .ok r → r = ms ∧ (∀ b ∈ ms, b.1 < b.2) ∧ uniformMarginals (convertBounds units ms) = .ok (convertBounds units ms)
  | [], [], r, _, _, h => by
    rw [uniformMarginals, Except.ok.injEq] at h
    subst h
    exact ⟨rfl, by simp, rfl⟩
  | u :: us, (a, b) :: ms, r, hl, hu, h => by
    rw [uniformMarginals, uniformLaw] at h
    by_cases hab : a < b
    · rw [if_pos hab] at h
      dsimp only at h
      cases h3 : uniformMarginals ms with
      | error e => rw [h3] at h; cases h
      | ok q =>
        rw [h3] at h
        dsimp only at h
        rw [Except.ok.injEq] at h
        obtain ⟨e1, e2, e3⟩ := uniformMarginals_convert us ms q (by simpa using hl) (fun v hv => hu v (List.mem_cons_of_mem _ hv)) h3
        have hp := hu u List.mem_cons_self
        have hlt : u.1 * a + u.2 < u.1 * b + u.2 := by nlinarith
        refine ⟨by rw [← h, e1], ?_, ?_⟩
        · intro w hw
          rcases List.mem_cons.mp hw with hw | hw
          · rw [hw]; exact hab
          · exact e2 w hw
        · change uniformMarginals ((u.1 * a + u.2, u.1 * b + u.2) :: convertBounds us ms) = .ok ((u.1 * a + u.2, u.1 * b + u.2) :: convertBounds us ms)
          rw [uniformMarginals, uniformLaw, if_pos hlt]
          dsimp only
          rw [e3]
    · rw [if_neg hab] at h
      cases h
  | [], _ :: _, _, hl, _, _ => by simp at hl
  | _ :: _, [], _, hl, _, _ => by simp at hl

theorem columnRanges_length : ∀ (cols : List (List ℝ)) (r : List (ℝ × ℝ)), columnRanges cols = .ok r → r.length = cols.length
  | [], r, h => by
    rw [columnRanges, Except.ok.injEq] at h
    subst h
    rfl
  | col :: cols, r, h => by
    rw [columnRanges] at h
    cases h1 : sampleMin col with
    | error e => rw [h1] at h; cases h2 : sampleMax col <;> rw [h2] at h <;> cases h
    | ok a =>
      cases h2 : sampleMax col with
      | error e => rw [h1, h2] at h; cases h
      | ok b =>
        rw [h1, h2] at h
        dsimp only at h
        cases h3 : columnRanges cols with
        | error e => rw [h3] at h; cases h
        | ok q =>
          rw [h3] at h
          dsimp only at h
          rw [Except.ok.injEq] at h
          subst h
          rw [List.length_cons, List.length_cons, columnRanges_length cols q h3]

theorem standard_convert : ∀ (units ms : List (ℝ × ℝ)) (x : List ℝ), units.length = ms.length → (∀ u ∈ units, 0 < u.1) →
    List.zipWith standardCoord (convertBounds units ms) (convertParams units x) = List.zipWith standardCoord ms x
  | [], [], x, _, _ => by simp [convertBounds]
  | u :: us, b :: ms, [], _, _ => by simp [convertParams]
  | u :: us, b :: ms, v :: x, hl, hu => by
    have ih := standard_convert us ms x (by simpa using hl) fun w hw => hu w (List.mem_cons_of_mem _ hw)
    have hp := hu u List.mem_cons_self
    change standardCoord (u.1 * b.1 + u.2, u.1 * b.2 + u.2) (u.1 * v + u.2) :: List.zipWith standardCoord (convertBounds us ms) (convertParams us x) =
      standardCoord b v :: List.zipWith standardCoord ms x
    rw [ih]
    congr 1
    simp only [standardCoord]
    rw [show 2 * (u.1 * v + u.2) - (u.1 * b.1 + u.2) - (u.1 * b.2 + u.2) = u.1 * (2 * v - b.1 - b.2) by ring,
      show u.1 * b.2 + u.2 - (u.1 * b.1 + u.2) = u.1 * (b.2 - b.1) by ring, mul_div_mul_left _ _ hp.ne']
  | [], _ :: _, _, hl, _ => by simp at hl
  | _ :: _, [], _, hl, _ => by simp at hl

/-- **C227, the default laws.**  When the user gives no distribution, the bounds of the uniform laws computed from the converted data and sizes are the
converted bounds, and the transformation to standard variables gives the same values: the hypothesis `hT` of the other theorems holds. -/
theorem C227_default (defects : List ℝ) (params : List (List ℝ)) (sizes : List ℝ) (units : List (ℝ × ℝ)) (k c : ℝ) (hk : 0 < k)
    (hl : units.length = params.length) (hu : ∀ u ∈ units, 0 < u.1) (ms : List (ℝ × ℝ)) (h : defaultMarginals defects params sizes = .ok ms) :
    ∃ ms', defaultMarginals (defects.map (k * · + c)) (convertColumns units params) (sizes.map (k * · + c)) = .ok ms' ∧
      ∀ p, uniformTransformation ms' (convert k c (convertParams units) p) = uniformTransformation ms p := by
  rw [defaultMarginals] at h
  cases h1 : columnRanges (defects :: params) with
  | error e => rw [h1] at h; cases h
  | ok ranges =>
    rw [h1] at h
    dsimp only at h
    have hr := columnRanges_convert ((k, c) :: units) (defects :: params) ranges (by simpa using hl)
      (by intro u h; rcases List.mem_cons.mp h with h | h; exacts [by rw [h]; exact hk, hu u h]) h1
    have hlen := columnRanges_length _ _ h1
    cases ranges with
    | nil => simp at hlen
    | cons r0 rs =>
      cases h2 : sampleMin sizes with
      | error e => rw [h2] at h; cases h3 : sampleMax sizes <;> rw [h3] at h <;> cases h
      | ok a =>
        cases h3 : sampleMax sizes with
        | error e => rw [h2, h3] at h; cases h
        | ok b =>
          rw [h2, h3] at h
          dsimp only [List.tail_cons] at h
          have hall : ∀ u ∈ (k, c) :: units, 0 < u.1 := by
            intro u h
            rcases List.mem_cons.mp h with h | h
            exacts [by rw [h]; exact hk, hu u h]
          have hlen2 : ((k, c) :: units).length = ((a, b) :: rs).length := by
            simp only [List.length_cons] at hlen ⊢
            omega
          obtain ⟨e1, -, e3⟩ := uniformMarginals_convert ((k, c) :: units) ((a, b) :: rs) ms hlen2 hall h
          refine ⟨convertBounds ((k, c) :: units) ((a, b) :: rs), ?_, fun p => ?_⟩
          · have hr' : columnRanges (defects.map (k * · + c) :: convertColumns units params) = .ok (convertBounds ((k, c) :: units) (r0 :: rs)) := hr
            rw [defaultMarginals, hr', sampleMin_affine sizes hk h2, sampleMax_affine sizes hk h3]
            exact e3
          · rw [e1]
            exact standard_convert ((k, c) :: units) ((a, b) :: rs) (p.1 :: p.2) hlen2 hall

/-- Three observations and a basis of the constants only: the hypotheses of `C227_metamodel` and `C227_curves`, with defects in other units, an offset
of the signals and sizes 1, 2. -/
example : (∃ one, HasConstant (fun (_ : Fin 1) (_ : Unit) => (1 : ℝ)) one) ∧
    IsUnit ((basisMatrix (fun (_ : Fin 1) (_ : ℝ × Unit) => (1 : ℝ)) 3 fun i => (i, ()))ᵀ *
      basisMatrix (fun (_ : Fin 1) (_ : ℝ × Unit) => (1 : ℝ)) 3 fun i => (i, ())).det := by
  refine ⟨⟨fun _ => 1, fun u => by simp⟩, ?_⟩
  rw [Matrix.det_fin_one, Matrix.mul_apply]
  simp [basisMatrix]

/-- Two columns of data, in millimetres and then in metres (with another origin for the parameter). -/
example : ∃ ms ms', defaultMarginals [1, 2, 3] [[5, 7, 6]] [1, 3] = .ok ms ∧
    defaultMarginals ([1, 2, 3].map (1e-3 * · + 0)) (convertColumns [(2, 1)] [[5, 7, 6]]) ([1, 3].map (1e-3 * · + 0)) = .ok ms' ∧
    ∀ p, uniformTransformation ms' (convert 1e-3 0 (convertParams [(2, 1)]) p) = uniformTransformation ms p := by
  have h : defaultMarginals [1, 2, 3] [[5, 7, 6]] [1, 3] = .ok [(1, 3), (5, 7)] := by
    norm_num [defaultMarginals, columnRanges, sampleMin, sampleMax, uniformMarginals, uniformLaw]
  obtain ⟨ms', h1, h2⟩ := C227_default [1, 2, 3] [[5, 7, 6]] [1, 3] [(2, 1)] 1e-3 0 (by norm_num) rfl (by simp) _ h
  exact ⟨_, ms', h, h1, h2⟩

end Verif.Props
