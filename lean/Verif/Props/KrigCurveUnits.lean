import Verif.Props.ChaosUnits
import Verif.Props.KrigPredict
import Verif.Model.KrigLik

/-!
# C228: the units of measurement of a kriging POD
-/

namespace Verif.Props
open Verif.Py Verif.Model Matrix

variable {n p d q : ℕ} {X : Type}

/-! ## The generalised residual sum of squares -/

/-- The blocks of the inverse of the bordered matrix, for a multiple of the covariance. -/
theorem bordered_blocks (K : Matrix (Fin n) (Fin n) ℝ) (F : Matrix (Fin n) (Fin p) ℝ) (hS : IsUnit (borderedMatrix K F).det) :
    ∃ (A : Matrix (Fin n) (Fin n) ℝ) (P : Matrix (Fin n) (Fin p) ℝ) (Q : Matrix (Fin p) (Fin n) ℝ) (M : Matrix (Fin p) (Fin p) ℝ),
      (borderedMatrix K F)⁻¹ = fromBlocks A P Q M ∧ A * F = 0 ∧ Fᵀ * A = 0 ∧
      ∀ c : ℝ, c ≠ 0 → (borderedMatrix (c • K) F)⁻¹ = fromBlocks (c⁻¹ • A) P Q (c • M) := by
  set S := borderedMatrix K F with hSdef
  have hmul : S * S⁻¹ = 1 := mul_nonsing_inv _ hS
  have hmul' : S⁻¹ * S = 1 := nonsing_inv_mul _ hS
  obtain ⟨A, P, Q, M, hinvS⟩ : ∃ A P Q M, S⁻¹ = fromBlocks A P Q M := ⟨_, _, _, _, (fromBlocks_toBlocks _).symm⟩
  rw [hinvS, hSdef, borderedMatrix, fromBlocks_multiply, ← fromBlocks_one, fromBlocks_inj] at hmul hmul'
  obtain ⟨e11, e12, e21, e22⟩ := hmul
  obtain ⟨-, g12, -, -⟩ := hmul'
  have hFA : Fᵀ * A = 0 := by simpa using e21
  refine ⟨A, P, Q, M, hinvS, by simpa using g12, hFA, fun c hc => ?_⟩
  refine inv_eq_right_inv ?_
  rw [borderedMatrix, fromBlocks_multiply, ← fromBlocks_one]
  congr 1
  · rw [← e11]; simp [smul_smul, hc]
  · rw [← smul_zero c, ← e12]; simp [smul_add]
  · simp [hFA]
  · rw [← e22]; simp

/-- **C228, the amplitude.**  The estimate of the amplitude, times `n`, is the least generalised sum of squares of the residuals over all coefficients of the
trend. -/
theorem C228_amplitude (R : Matrix (Fin n) (Fin n) ℝ) (hR : R.PosDef) (F : Matrix (Fin n) (Fin p) ℝ) (hS : IsUnit (borderedMatrix R F).det)
    (hn : n ≠ 0) (y : Fin n → ℝ) :
    IsLeast {v | ∃ β : Fin p → ℝ, v = (y - F *ᵥ β) ⬝ᵥ (R⁻¹ *ᵥ (y - F *ᵥ β))} (n * krigAmplitude R F y) := by
  have hRu : IsUnit R.det := hR.det_pos.ne'.isUnit
  have hsym : Rᵀ = R := by simpa using hR.isHermitian.eq
  have hn' : (n : ℝ) ≠ 0 := Nat.cast_ne_zero.mpr hn
  set v := (borderedMatrix R F)⁻¹ *ᵥ Sum.elim y 0 with hv
  obtain ⟨γ, β, hγβ⟩ : ∃ (γ : Fin n → ℝ) (β : Fin p → ℝ), v = Sum.elim γ β := ⟨_, _, (Sum.elim_comp_inl_inr v).symm⟩
  have hSv : borderedMatrix R F *ᵥ Sum.elim γ β = Sum.elim y 0 := by rw [← hγβ, hv, mulVec_mulVec, mul_nonsing_inv _ hS, one_mulVec]
  rw [borderedMatrix, fromBlocks_mulVec] at hSv
  simp only [Sum.elim_comp_inl, Sum.elim_comp_inr, zero_mulVec, add_zero] at hSv
  have e1 : R *ᵥ γ + F *ᵥ β = y := by funext i; exact congrFun hSv (.inl i)
  have e2 : Fᵀ *ᵥ γ = 0 := by funext i; exact congrFun hSv (.inr i)
  have hB : looB R F *ᵥ y = γ := by
    obtain ⟨A, P, Q, M, hinv, -⟩ := bordered_blocks R F hS
    have h := hγβ
    rw [hv, hinv, fromBlocks_mulVec] at h
    have h' := congrArg (fun u => u ∘ Sum.inl) h
    simp only [Sum.elim_comp_inl, Sum.elim_comp_inr, mulVec_zero, add_zero] at h'
    rw [looB, hinv, toBlocks_fromBlocks₁₁, h']
  have hFγ : ∀ δ : Fin p → ℝ, (F *ᵥ δ) ⬝ᵥ γ = 0 := by
    intro δ
    rw [dotProduct_comm, dotProduct_mulVec, ← mulVec_transpose, e2, zero_dotProduct]
  have hval : n * krigAmplitude R F y = (R *ᵥ γ) ⬝ᵥ γ := by
    rw [krigAmplitude, mul_div_cancel₀ _ hn', hB]
    conv_lhs => rw [← e1]
    rw [add_dotProduct, hFγ, add_zero]
  have hform : ∀ δ : Fin p → ℝ, (R *ᵥ γ + F *ᵥ δ) ⬝ᵥ (R⁻¹ *ᵥ (R *ᵥ γ + F *ᵥ δ)) = (R *ᵥ γ) ⬝ᵥ γ + (F *ᵥ δ) ⬝ᵥ (R⁻¹ *ᵥ (F *ᵥ δ)) := by
    intro δ
    have h3 : R⁻¹ *ᵥ (R *ᵥ γ) = γ := by rw [mulVec_mulVec, nonsing_inv_mul _ hRu, one_mulVec]
    have h4 : (R *ᵥ γ) ⬝ᵥ (R⁻¹ *ᵥ (F *ᵥ δ)) = 0 := by
      rw [dotProduct_comm, dotProduct_mulVec, ← mulVec_transpose, hsym, mulVec_mulVec, mul_nonsing_inv _ hRu, one_mulVec, hFγ]
    rw [mulVec_add, h3, add_dotProduct, dotProduct_add, dotProduct_add, h4, hFγ]
    ring
  rw [hval]
  constructor
  · refine ⟨β, ?_⟩
    have : y - F *ᵥ β = R *ᵥ γ + F *ᵥ (0 : Fin p → ℝ) := by rw [mulVec_zero, add_zero, ← e1, add_sub_cancel_right]
    rw [this, hform, mulVec_zero, mulVec_zero, dotProduct_zero, add_zero]
  · rintro _ ⟨β', rfl⟩
    have : y - F *ᵥ β' = R *ᵥ γ + F *ᵥ (β - β') := by
      rw [mulVec_sub]
      conv_lhs => rw [← e1]
      rw [add_sub_assoc]
    rw [this, hform]
    have h5 := hR.inv.posSemidef.dotProduct_mulVec_nonneg (F *ᵥ (β - β'))
    rw [star_trivial] at h5
    linarith

/-- The amplitude in other units of the signal. -/
theorem amplitude_units (R : Matrix (Fin n) (Fin n) ℝ) (F : Matrix (Fin n) (Fin p) ℝ) (hS : IsUnit (borderedMatrix R F).det) (one : Fin p → ℝ)
    (hone : F *ᵥ one = fun _ => 1) (y : Fin n → ℝ) (s t : ℝ) : (krigAmplitude R F fun i => s * y i + t) = s ^ 2 * krigAmplitude R F y := by
  obtain ⟨A, P, Q, M, hinv, hAF, hFA, -⟩ := bordered_blocks R F hS
  have hB : looB R F = A := by rw [looB, hinv, toBlocks_fromBlocks₁₁]
  have e : (fun i => s * y i + t) = s • y + F *ᵥ (t • one) := by
    funext i
    rw [Matrix.mulVec_smul, hone]
    simp
  have h1 : A *ᵥ (F *ᵥ (t • one)) = 0 := by rw [mulVec_mulVec, hAF, zero_mulVec]
  have h2 : ∀ v, (F *ᵥ (t • one)) ⬝ᵥ (A *ᵥ v) = 0 := by
    intro v
    rw [dotProduct_comm, dotProduct_mulVec, ← mulVec_transpose, mulVec_mulVec, hFA, zero_mulVec, zero_dotProduct]
  rw [krigAmplitude, krigAmplitude, hB, e, mulVec_add, h1, add_zero, add_dotProduct, h2, add_zero, mulVec_smul, dotProduct_smul, smul_dotProduct,
    smul_eq_mul, smul_eq_mul]
  ring

/-- **C228, estimation.**  Correlation lengths maximise the reduced likelihood of the converted signals if and only if they maximise that of the original
ones, whatever the set of admissible lengths, and the estimated amplitude is the original one in the new unit. -/
theorem C228_estimate {Θ : Type} (box : Set Θ) (R : Θ → Matrix (Fin n) (Fin n) ℝ) (F : Matrix (Fin n) (Fin p) ℝ)
    (hS : ∀ θ ∈ box, IsUnit (borderedMatrix (R θ) F).det) (one : Fin p → ℝ) (hone : F *ᵥ one = fun _ => 1) (y : Fin n → ℝ)
    (hy : ∀ θ ∈ box, 0 < krigAmplitude (R θ) F y) (s t : ℝ) (hs : 0 < s) :
    (∀ θ ∈ box, (krigAmplitude (R θ) F fun i => s * y i + t) = s ^ 2 * krigAmplitude (R θ) F y) ∧
    ∀ θ ∈ box, IsMaxOn (fun θ => krigReducedLik (R θ) F fun i => s * y i + t) box θ ↔ IsMaxOn (fun θ => krigReducedLik (R θ) F y) box θ := by
  have h1 : ∀ θ ∈ box, (krigAmplitude (R θ) F fun i => s * y i + t) = s ^ 2 * krigAmplitude (R θ) F y :=
    fun θ hθ => amplitude_units (R θ) F (hS θ hθ) one hone y s t
  have h2 : ∀ θ ∈ box, (krigReducedLik (R θ) F fun i => s * y i + t) = krigReducedLik (R θ) F y - n * Real.log s := by
    intro θ hθ
    rw [krigReducedLik, krigReducedLik, h1 θ hθ, Real.log_mul (pow_ne_zero 2 hs.ne') (hy θ hθ).ne', Real.log_pow]
    push_cast
    ring
  refine ⟨h1, fun θ hθ => ?_⟩
  simp only [isMaxOn_iff]
  refine forall₂_congr fun x hx => ?_
  rw [h2 θ hθ, h2 x hx, sub_le_sub_iff_right]

/-! ## Mean and variance -/

theorem krig_units (k : X → X → ℝ) (f : X → Fin p → ℝ) (xs : Fin n → X) (hS : IsUnit (borderedMatrix (krigK k xs) (krigF f xs)).det)
    (one : Fin p → ℝ) (hone : ∀ x, f x ⬝ᵥ one = 1) (y : Fin n → ℝ) (c s t : ℝ) (hc : c ≠ 0) (x : X) :
    krigMean (fun a b => c * k a b) f xs (fun i => s * y i + t) x = s * krigMean k f xs y x + t ∧
    krigVar (fun a b => c * k a b) f xs x = c * krigVar k f xs x := by
  obtain ⟨A, P, Q, M, hinv, hAF, hFA, hsm⟩ := bordered_blocks _ _ hS
  have hK : krigK (fun a b => c * k a b) xs = c • krigK k xs := rfl
  have hR : krigRhs (fun a b => c * k a b) f xs x = Sum.elim (c • fun i => k (xs i) x) (f x) := rfl
  have hR' : krigRhs k f xs x = Sum.elim (fun i => k (xs i) x) (f x) := rfl
  have hFone : krigF f xs *ᵥ one = fun _ => 1 := funext fun i => hone (xs i)
  constructor
  · -- the mean is linear in the signals and reproduces constants
    have hlin : krigMean k f xs (fun i => s * y i + t) x = s * krigMean k f xs y x + t := by
      have e : (Sum.elim (fun i => s * y i + t) (0 : Fin p → ℝ)) = s • Sum.elim y 0 + t • Sum.elim (fun _ => (1 : ℝ)) 0 := by
        funext i
        cases i <;> simp
      have h1 : krigMean k f xs (fun _ => 1) x = 1 := by
        rw [krigMean_of_sol k f xs (fun _ => 1) hS (Sum.elim 0 one) ?_ x, hR', sumElim_dotProduct_sumElim, hone, dotProduct_zero, zero_add]
        rw [borderedMatrix, fromBlocks_mulVec]
        simp only [Sum.elim_comp_inl, Sum.elim_comp_inr, mulVec_zero, zero_add, zero_mulVec, add_zero, hFone]
      rw [krigMean] at h1 ⊢
      rw [e, mulVec_add, mulVec_smul, mulVec_smul, dotProduct_add, dotProduct_smul, dotProduct_smul, h1, krigMean, smul_eq_mul, smul_eq_mul, mul_one]
    rw [← hlin, krigMean, krigMean, hK, hsm c hc, hinv, hR, hR', fromBlocks_mulVec, fromBlocks_mulVec, sumElim_dotProduct_sumElim, sumElim_dotProduct_sumElim]
    simp only [Sum.elim_comp_inl, Sum.elim_comp_inr, mulVec_zero, add_zero, smul_mulVec, smul_dotProduct, dotProduct_smul, smul_eq_mul]
    rw [← mul_assoc, inv_mul_cancel₀ hc, one_mul]
  · rw [krigVar, krigVar, hK, hsm c hc, hinv, hR, hR', fromBlocks_mulVec, fromBlocks_mulVec, sumElim_dotProduct_sumElim, sumElim_dotProduct_sumElim]
    simp only [Sum.elim_comp_inl, Sum.elim_comp_inr, smul_mulVec, mulVec_smul, smul_dotProduct, dotProduct_smul, dotProduct_add, smul_eq_mul]
    field_simp

/-! ## The curves -/

theorem normalise_units (hn : n ≠ 0) (sample : Fin n → Fin d → ℝ) (a b : Fin d → ℝ) (ha : ∀ j, 0 < a j)
    (h1 : ∀ j, 1e-12 < Real.sqrt (svar fun i => sample i j)) (h2 : ∀ j, 1e-12 < a j * Real.sqrt (svar fun i => sample i j)) (x : Fin d → ℝ) :
    normalise (fun i => rescale a b (sample i)) (rescale a b x) = normalise sample x :=
  funext fun j => normalise_rescale hn sample a b j (ha j) (h1 j) (h2 j) x

theorem krigRun_eq (rows : ℕ) (sim : ℕ → ℝ → List ℝ) (s : SimAttrs) (hnum : s.number = s.sizes.length) {f : ℝ → Res ℝ}
    (hf : interp1d s.sizes ((s.sizes.mapIdx sim).map listMean) = .ok f) :
    krigingRunSim rows sim s = (.ok (), { s with curve := some f, perDefect := some (s.sizes.mapIdx sim) }) := by
  rw [krigingRunSim, if_neg (by omega)]
  dsimp only
  rw [show s.number - s.sizes.length = 0 by omega, List.replicate_zero, List.append_nil, hf]

/-- **C228, the curves.**  The inputs are written in other units and origins (column deviations above 1e-12 in both systems), the signals and the threshold in
another unit and origin, the constants belong to the trend.  With the amplitude estimated from the data and the same random draws, written in the new
units, both runs succeed and the POD curve and the curve at any confidence level take at each defect size, in the new unit, the value they had in the
old one (including sizes for which they raise).  `r` is the correlation function of the lengths kept by the search. -/
theorem C228_curves (r : (Fin (d + 1) → ℝ) → (Fin (d + 1) → ℝ) → ℝ) (f : (Fin (d + 1) → ℝ) → Fin q → ℝ) (one : Fin q → ℝ)
    (hone : ∀ x, f x ⬝ᵥ one = 1) (hn : n ≠ 0) (sample : Fin n → Fin (d + 1) → ℝ) (y : Fin n → ℝ) (a b : Fin (d + 1) → ℝ) (ha : ∀ j, 0 < a j)
    (h1 : ∀ j, 1e-12 < Real.sqrt (svar fun i => sample i j)) (h2 : ∀ j, 1e-12 < a j * Real.sqrt (svar fun i => sample i j))
    (s t : ℝ) (hs : 0 < s)
    (hS : IsUnit (borderedMatrix (krigK r fun i => normalise sample (sample i)) (krigF f fun i => normalise sample (sample i))).det)
    (det : ℝ) (rows : ℕ) (w : ℕ → KrigDraws (Fin d → ℝ)) (σ σ' : SimAttrs) (hnum : σ.number = σ.sizes.length) (hnum' : σ'.number = σ.number)
    (hsizes : σ'.sizes = σ.sizes.map (a 0 * · + b 0)) (level : ℝ) :
    let sample' := fun i => rescale a b (sample i)
    let y' := fun i => s * y i + t
    let τ := krigAmplitude (krigK r fun i => normalise sample (sample i)) (krigF f fun i => normalise sample (sample i)) y
    let τ' := krigAmplitude (krigK r fun i => normalise sample' (sample' i)) (krigF f fun i => normalise sample' (sample' i)) y'
    let w' : ℕ → KrigDraws (Fin d → ℝ) := fun i => ⟨(w i).xs.map (rescale (Fin.tail a) (Fin.tail b)), (w i).xi, (w i).mix⟩
    let run := krigingDesignRun (fun u v => τ * r u v) f sample y det rows w σ
    let run' := krigingDesignRun (fun u v => τ' * r u v) f sample' y' (s * det + t) rows w' σ'
    τ ≠ 0 → ∃ g g' h h', run.2.curve = some g ∧ run'.2.curve = some g' ∧ getPODCLModel run.2 level = .ok h ∧ getPODCLModel run'.2 level = .ok h' ∧
      (∀ x, g' (a 0 * x + b 0) = g x) ∧ ∀ x, h' (a 0 * x + b 0) = h x := by
  intro sample' y' τ τ' w' run run' hτ
  have hnorm := normalise_units hn sample a b ha h1 h2
  have hdes : (fun i => normalise sample' (sample' i)) = fun i => normalise sample (sample i) := funext fun i => hnorm _
  have hττ : τ' = s ^ 2 * τ := by
    change krigAmplitude (krigK r fun i => normalise sample' (sample' i)) (krigF f fun i => normalise sample' (sample' i)) y' = _
    rw [hdes]
    exact amplitude_units _ _ hS one (funext fun i => hone _) y s t
  have hs2 : s ^ 2 ≠ 0 := pow_ne_zero 2 hs.ne'
  have hpt : ∀ p : ℝ × (Fin d → ℝ), fullPoint (a 0 * p.1 + b 0, rescale (Fin.tail a) (Fin.tail b) p.2) = rescale a b (fullPoint p) := by
    intro p
    funext j
    refine Fin.cases ?_ (fun j => ?_) j
    · simp [fullPoint, rescale]
    · simp [fullPoint, rescale, Fin.tail]
  have hmean : ∀ x, designMean (fun u v => τ' * r u v) f sample' y' (rescale a b x) = s * designMean (fun u v => τ * r u v) f sample y x + t := by
    intro x
    rw [designMean, designMean, hdes, hnorm, (krig_units r f _ hS one hone y τ' s t (by rw [hττ]; exact mul_ne_zero hs2 hτ) _).1]
    have := (krig_units r f _ hS one hone y τ 1 0 hτ (normalise sample x)).1
    simp only [one_mul, add_zero] at this
    rw [this]
  have hvar : ∀ x, designVar (fun u v => τ' * r u v) f sample' (rescale a b x) = s ^ 2 * designVar (fun u v => τ * r u v) f sample x := by
    intro x
    rw [designVar, designVar, hdes, hnorm, (krig_units r f _ hS one hone y τ' s t (by rw [hττ]; exact mul_ne_zero hs2 hτ) _).2,
      (krig_units r f _ hS one hone y τ 1 0 hτ (normalise sample x)).2, hττ, mul_assoc]
  -- the sample of one defect size
  have hpod : ∀ i A, podSamplePerDefect (fun p => designMean (fun u v => τ' * r u v) f sample' y' (fullPoint p))
        (fun p => designVar (fun u v => τ' * r u v) f sample' (fullPoint p)) (s * det + t) (a 0 * A + b 0) (w' i) =
      podSamplePerDefect (fun p => designMean (fun u v => τ * r u v) f sample y (fullPoint p))
        (fun p => designVar (fun u v => τ * r u v) f sample (fullPoint p)) det A (w i) := by
    intro i A
    have htraj : ∀ z, krigTrajectory (fun p => designMean (fun u v => τ' * r u v) f sample' y' (fullPoint p))
          (fun p => designVar (fun u v => τ' * r u v) f sample' (fullPoint p)) (a 0 * A + b 0) (w' i).xs z =
        (krigTrajectory (fun p => designMean (fun u v => τ * r u v) f sample y (fullPoint p))
          (fun p => designVar (fun u v => τ * r u v) f sample (fullPoint p)) A (w i).xs z).map (s * · + t) := by
      intro z
      simp only [krigTrajectory, mergeDefectInX, w', List.map_map]
      refine List.map_congr_left fun x _ => ?_
      simp only [Function.comp_apply]
      rw [hpt (A, x), hmean, hvar, Real.sqrt_mul (sq_nonneg s), Real.sqrt_sq hs.le]
      ring
    have hlaw : ∀ l : List ℝ, podLaw (s * det + t) (l.map (s * · + t)) = podLaw det l := by
      intro l
      have hfrac : fracAbove (s * det + t) (l.map (s * · + t)) = fracAbove det l := by
        rw [fracAbove, fracAbove, List.countP_map, List.length_map]
        congr 2
        refine List.countP_congr fun v _ => ?_
        simp only [Function.comp_apply, decide_eq_true_eq, add_lt_add_iff_right]
        exact mul_lt_mul_iff_right₀ hs
      rw [podLaw, podLaw, hfrac, List.length_map]
    simp only [podSamplePerDefect, htraj, hlaw]
    rfl
  have hcols : σ'.sizes.mapIdx (fun i A => podSamplePerDefect (fun p => designMean (fun u v => τ' * r u v) f sample' y' (fullPoint p))
        (fun p => designVar (fun u v => τ' * r u v) f sample' (fullPoint p)) (s * det + t) A (w' i)) =
      σ.sizes.mapIdx fun i A => podSamplePerDefect (fun p => designMean (fun u v => τ * r u v) f sample y (fullPoint p))
        (fun p => designVar (fun u v => τ * r u v) f sample (fullPoint p)) det A (w i) := by
    rw [hsizes]
    refine List.ext_getElem (by simp) fun j q1 q2 => ?_
    simp only [List.getElem_mapIdx, List.getElem_map]
    exact hpod _ _
  obtain ⟨cols, hc⟩ : ∃ cols, cols = σ.sizes.mapIdx fun i A => podSamplePerDefect (fun p => designMean (fun u v => τ * r u v) f sample y (fullPoint p))
        (fun p => designVar (fun u v => τ * r u v) f sample (fullPoint p)) det A (w i) := ⟨_, rfl⟩
  have hlen : cols.length = σ.sizes.length := by rw [hc]; simp
  obtain ⟨g, hg⟩ : ∃ g, interp1d σ.sizes (cols.map listMean) = .ok g := ⟨_, by rw [interp1d, if_pos (by rw [List.length_map, hlen])]⟩
  obtain ⟨h, hh⟩ : ∃ h, interp1d σ.sizes (cols.map fun col => quantile col (1 - level)) = .ok h :=
    ⟨_, by rw [interp1d, if_pos (by rw [List.length_map, hlen])]⟩
  obtain ⟨g', hg', hgg⟩ := interp1d_affine (c := b 0) (ha 0) hg
  obtain ⟨h', hh', hhh⟩ := interp1d_affine (c := b 0) (ha 0) hh
  have r1 : run = _ := krigRun_eq rows _ σ hnum (by rw [← hc]; exact hg)
  have r2 : run' = _ := krigRun_eq rows _ σ' (by rw [hnum', hnum, hsizes]; simp) (f := g') (by rw [hcols, ← hc, hsizes]; exact hg')
  refine ⟨g, g', h, h', by rw [r1], by rw [r2], ?_, ?_, hgg, hhh⟩
  · rw [r1]
    change interp1d σ.sizes ((σ.sizes.mapIdx _).map _) = _
    rw [← hc]
    exact hh
  · rw [r2]
    change interp1d σ'.sizes ((σ'.sizes.mapIdx _).map _) = _
    rw [hcols, ← hc, hsizes]
    exact hh'

/-- The default trend contains the constants. -/
example (x : Fin (d + 1) → ℝ) : defectTrend x ⬝ᵥ ![1, 0] = 1 := by simp [defectTrend, dotProduct, Fin.sum_univ_two]

/-- Two observations, exponential correlation, constant trend: the hypotheses of `C228_estimate`. -/
example (box : Set ℝ) (hb : ∀ θ ∈ box, 0 < θ) (θ : ℝ) (hθ : θ ∈ box) :
    IsUnit (borderedMatrix (krigK (expCov θ) ![![-1 / 2], ![1 / 2]]) (krigF constTrend ![![-1 / 2], ![1 / 2]])).det ∧
    krigF constTrend (![![-1 / 2], ![1 / 2]] : Fin 2 → Fin 1 → ℝ) *ᵥ ![1] = fun _ => 1 :=
  ⟨(exp_two θ 1 (hb θ hθ) one_pos ![![-1 / 2], ![1 / 2]] (by simp) (by simp)).1, by
    funext i
    simp [krigF, constTrend, mulVec, dotProduct]⟩

/-- A positive amplitude. -/
theorem amplitude_example : krigAmplitude (1 : Matrix (Fin 2) (Fin 2) ℝ) !![1; 1] ![0, 1] = 1 / 4 := by
  have h := C228_amplitude (1 : Matrix (Fin 2) (Fin 2) ℝ) Matrix.PosDef.one !![1; 1] loo_example.1 two_ne_zero ![0, 1]
  obtain ⟨β, hβ⟩ := h.1
  have h2 := h.2 ⟨![1 / 2], rfl⟩
  simp only [inv_one, one_mulVec, dotProduct, Fin.sum_univ_two, mulVec, Pi.sub_apply] at hβ h2
  norm_num at hβ h2
  nlinarith [sq_nonneg (β 0 - 1 / 2)]

/-- Two observations of a defect of sizes 0 and 1, then 1 and 3 in the other unit; no other parameter; uncorrelated process with a constant trend: the
hypotheses of `C228_curves`. -/
theorem krig_two_design : let sample : Fin 2 → Fin 1 → ℝ := ![![0], ![1]]
    let r : (Fin 1 → ℝ) → (Fin 1 → ℝ) → ℝ := fun u v => if u 0 = v 0 then 1 else 0
    let xs := fun i => normalise sample (sample i)
    (∀ j, 1e-12 < Real.sqrt (svar fun i => sample i j)) ∧ (∀ j, 1e-12 < (![2] : Fin 1 → ℝ) j * Real.sqrt (svar fun i => sample i j)) ∧
    IsUnit (borderedMatrix (krigK r xs) (krigF constTrend xs)).det ∧ krigAmplitude (krigK r xs) (krigF constTrend xs) ![0, 1] ≠ 0 := by
  intro sample r xs
  have hsv : svar (fun i => sample i 0) = 1 / 2 := by
    simp only [svar, smean, Fin.sum_univ_two, show sample 0 0 = 0 from rfl, show sample 1 0 = 1 from rfl]; norm_num
  have hroot : (1 / 2 : ℝ) < Real.sqrt (1 / 2) := Real.lt_sqrt_of_sq_lt (by norm_num)
  have hne : normalise sample (sample 0) 0 ≠ normalise sample (sample 1) 0 := by
    simp only [normalise, normFactor, hsv, show sample 0 0 = 0 from rfl, show sample 1 0 = 1 from rfl]
    rw [if_pos (by rw [abs_of_pos (by linarith)]; linarith)]
    intro h
    have := mul_left_cancel₀ (by positivity : (1 / Real.sqrt (1 / 2) : ℝ) ≠ 0) h
    linarith
  have hK : krigK r xs = 1 := by
    ext i j
    fin_cases i <;> fin_cases j <;> simp [krigK, r, xs, hne, hne.symm]
  have hF : krigF constTrend xs = !![1; 1] := by
    ext i j
    fin_cases i <;> fin_cases j <;> simp [krigF, constTrend]
  rw [hK, hF, amplitude_example]
  refine ⟨fun j => ?_, fun j => ?_, loo_example.1, by norm_num⟩
  · rw [Subsingleton.elim j 0, hsv]; linarith
  · rw [Subsingleton.elim j 0, hsv]; simp only [Matrix.cons_val_zero]; linarith

end Verif.Props
