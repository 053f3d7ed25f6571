import Verif.Props.BoxCoxLik
import Verif.Props.DetectionLimit

/-!
# C156: the POD with Box-Cox and the unit of the signals
-/

namespace Verif.Props
open Verif.Py Verif.Model Set

variable {n : ℕ}

/-! ## Lists and samples -/

theorem sample_get {α : Type} (P : ∀ m, (Fin m → ℝ) → (Fin m → ℝ) → α) (f : Fin n → ℝ × ℝ) (l : List (ℝ × ℝ)) (hl : l = List.ofFn f) :
    P l.length (fun i => (l.get i).1) (fun i => (l.get i).2) = P n (fun i => (f i).1) (fun i => (f i).2) := by
  have key : ∀ (l : List (ℝ × ℝ)) (h : l.length = n), (∀ i : Fin n, l.get (Fin.cast h.symm i) = f i) →
      P l.length (fun i => (l.get i).1) (fun i => (l.get i).2) = P n (fun i => (f i).1) (fun i => (f i).2) := by
    intro l h hf
    subst h
    have : f = l.get := by funext i; exact (hf i).symm
    rw [this]
  subst hl
  exact key _ List.length_ofFn fun i => by simp

theorem sampleOf_ofFn {α : Type} (P : ∀ m, (Fin m → ℝ) → α) (f : Fin n → ℝ) (l : List ℝ) (hl : l = List.ofFn f) :
    P l.length (sampleOf l) = P n f := by
  have key : ∀ (l : List ℝ) (h : l.length = n), (∀ i : Fin n, l.get (Fin.cast h.symm i) = f i) → P l.length (sampleOf l) = P n f := by
    intro l h hf
    subst h
    have : f = sampleOf l := by funext i; exact (hf i).symm
    rw [this]
  subst hl
  exact key _ List.length_ofFn fun i => by simp

theorem podGauss_get (x Y : Fin n → ℝ) (l : List (ℝ × ℝ)) (hl : l = List.ofFn fun i => (x i, Y i)) (S d : ℝ) (L : ℝ → ℝ) (a : ℝ) :
    podGauss (fun i : Fin l.length => (l.get i).1) S d L a = podGauss x S d L a := by
  have := sample_get (fun m u v => podGauss u S d L a) (fun i => (x i, Y i)) l hl
  exact this

theorem ols_get (ols : List (ℝ × ℝ) → ℝ × ℝ × ℝ) (hols : OlsExact ols) (x Y : Fin n → ℝ) (l : List (ℝ × ℝ))
    (hl : l = List.ofFn fun i => (x i, Y i)) : ols l = (olsIntercept x Y, olsSlope x Y, linearStderr x Y) := by
  have h1 := sample_get (fun m a b => (olsIntercept a b, olsSlope a b, linearStderr a b)) (fun i => (x i, Y i)) l hl
  exact (hols l).trans h1

/-- A Box-Cox run without censoring: the exponent is the maximiser, the POD curves are those of the transformed data. -/
theorem bcRun_full (fmax : ℝ) (env : LinEnv) (hbc : BoxCoxOptimal env.boxCox) (hols : OlsExact env.ols) (draws : ℕ → ℝ × ℝ × ℝ)
    (x y : Fin n → ℝ) (det : ℝ) (noise sat : Option ℝ) (shift : ℝ) (hs : boxCoxShift (List.ofFn y) = .ok shift)
    (hpos : ∀ i, 0 < y i + shift) (hne : ∃ i j, y i ≠ y j) (hdet : 0 < det + shift) :
    ∃ r lam, computeLinearModel fmax env draws (List.ofFn fun i => (x i, y i)) det noise sat true false = .ok r ∧
      r.lambda = some lam ∧ (∀ mu, bcLogLik (fun i => y i + shift) mu ≤ bcLogLik (fun i => y i + shift) lam) ∧
      (∀ a, runGaussPod r a = gaussPodOf x (fun i => boxCoxFun lam (y i + shift)) (boxCoxFun lam (det + shift)) a) ∧
      (∀ a, runBinomialPod r a = binomialPodOf x (fun i => boxCoxFun lam (y i + shift)) (boxCoxFun lam (det + shift)) a) ∧
      r.fit.residuals = List.ofFn (olsResiduals x fun i => boxCoxFun lam (y i + shift)) ∧
      r.fit.stderr = linearStderr x fun i => boxCoxFun lam (y i + shift) := by
  have hsnd : (List.ofFn fun i => (x i, y i)).map Prod.snd = List.ofFn y := by rw [List.map_ofFn]; rfl
  have hfst : (List.ofFn fun i => (x i, y i)).map Prod.fst = List.ofFn x := by rw [List.map_ofFn]; rfl
  have hsh : (List.ofFn y).map (· + shift) = List.ofFn fun i => y i + shift := by rw [List.map_ofFn]; rfl
  obtain ⟨lam, hlam, hmax⟩ := hbc (List.ofFn x) (List.ofFn y) shift (by
      intro v hv
      obtain ⟨i, rfl⟩ := List.mem_ofFn.1 hv
      exact hpos i) (by
      obtain ⟨i, j, h⟩ := hne
      exact ⟨y i, List.mem_ofFn.2 ⟨i, rfl⟩, y j, List.mem_ofFn.2 ⟨j, rfl⟩, h⟩)
  have hmax' : ∀ mu, bcLogLik (fun i => y i + shift) mu ≤ bcLogLik (fun i => y i + shift) lam := by
    intro mu
    have := hmax mu
    rw [sampleOf_ofFn (fun m f => bcLogLik f mu) _ _ hsh, sampleOf_ofFn (fun m f => bcLogLik f lam) _ _ hsh] at this
    exact this
  have hsamp : boxCoxSample lam (List.ofFn fun i => y i + shift) = .ok (List.ofFn fun i => boxCoxFun lam (y i + shift)) := by
    rw [boxCoxSample, if_pos, List.map_ofFn]
    · rfl
    · intro v hv
      obtain ⟨i, rfl⟩ := List.mem_ofFn.1 hv
      exact hpos i
  have hzip : (List.ofFn x).zip (List.ofFn fun i => boxCoxFun lam (y i + shift))
      = List.ofFn fun i => (x i, boxCoxFun lam (y i + shift)) := by
    apply List.ext_getElem
    · simp
    · intro i h1 h2
      simp
  set D := List.ofFn fun i => (x i, boxCoxFun lam (y i + shift)) with hD
  set Y : Fin n → ℝ := fun i => boxCoxFun lam (y i + shift) with hY
  have hO : env.ols D = (olsIntercept x Y, olsSlope x Y, linearStderr x Y) := ols_get env.ols hols x Y D hD
  refine ⟨⟨D, ⟨olsIntercept x Y, olsSlope x Y, linearStderr x Y, lineResiduals (olsIntercept x Y) (olsSlope x Y) D⟩,
    boxCoxFun lam (det + shift), some lam⟩, lam, ?_, rfl, hmax', ?_, ?_, ?_, rfl⟩
  · simp only [computeLinearModel, hsnd, hfst, hs, hlam, hsh, hsamp, boxCoxThreshold, boxCoxTransform, if_pos hdet, linFit,
      Bool.false_eq_true, if_false, if_true, hzip, hO]
  · intro a
    exact podGauss_get x Y D hD _ _ _ a
  · intro a
    rw [binomialPodOf, runBinomialPod]
    congr 1
    rw [lineResiduals, hD, List.map_ofFn]
    rfl
  · dsimp only
    rw [lineResiduals, hD, List.map_ofFn]
    rfl

theorem bcRun_ok (fmax : ℝ) (env : LinEnv) (hbc : BoxCoxOptimal env.boxCox) (hols : OlsExact env.ols) (draws : ℕ → ℝ × ℝ × ℝ)
    (x y : Fin n → ℝ) (det : ℝ) (noise sat : Option ℝ) (shift : ℝ) (hs : boxCoxShift (List.ofFn y) = .ok shift)
    (hpos : ∀ i, 0 < y i + shift) (hne : ∃ i j, y i ≠ y j) (hdet : 0 < det + shift) :
    ∃ r lam, computeLinearModel fmax env draws (List.ofFn fun i => (x i, y i)) det noise sat true false = .ok r ∧
      r.lambda = some lam ∧ (∀ mu, bcLogLik (fun i => y i + shift) mu ≤ bcLogLik (fun i => y i + shift) lam) ∧
      (∀ a, runGaussPod r a = gaussPodOf x (fun i => boxCoxFun lam (y i + shift)) (boxCoxFun lam (det + shift)) a) ∧
      ∀ a, runBinomialPod r a = binomialPodOf x (fun i => boxCoxFun lam (y i + shift)) (boxCoxFun lam (det + shift)) a := by
  obtain ⟨r, lam, h1, h2, h3, h4, h5, -⟩ := bcRun_full fmax env hbc hols draws x y det noise sat shift hs hpos hne hdet
  exact ⟨r, lam, h1, h2, h3, h4, h5⟩

theorem boxCoxShift_pos (y : Fin n → ℝ) (hn : n ≠ 0) (hy : ∀ i, 0 < y i) : boxCoxShift (List.ofFn y) = .ok 0 := by
  rw [boxCoxShift]
  cases h : sampleMin (List.ofFn y) with
  | error e =>
    obtain ⟨m, rfl⟩ := Nat.exists_eq_succ_of_ne_zero hn
    rw [List.ofFn_succ, sampleMin] at h
    cases h
  | ok mn =>
    obtain ⟨i, hi⟩ := List.mem_ofFn.1 (sampleMin_spec h).1
    dsimp only
    rw [if_neg (by rw [← hi]; exact not_lt.2 (hy i).le)]

theorem boxCoxShift_neg (y : Fin n → ℝ) (i : Fin n) (hmin : ∀ j, y i ≤ y j) (hneg : y i < 0) :
    boxCoxShift (List.ofFn y) = .ok (-y i + 100) := by
  rw [boxCoxShift]
  cases h : sampleMin (List.ofFn y) with
  | error e =>
    cases n with
    | zero => exact i.elim0
    | succ m =>
      rw [List.ofFn_succ, sampleMin] at h
      cases h
  | ok mn =>
    have hs := sampleMin_spec h
    obtain ⟨j, hj⟩ := List.mem_ofFn.1 hs.1
    have h1 : mn = y i := le_antisymm (hs.2 (List.mem_ofFn.2 ⟨i, rfl⟩)) (hj ▸ hmin j)
    dsimp only
    rw [h1, if_pos hneg]

/-- **C156, positive signals.**  When the signals and the threshold are positive, expressing the defects in another unit (factor and offset)
and replacing the signals and the threshold by `c·s^k` (`c, k > 0`; `k = 1`: another unit, `k = 2`: intensities) divides the Box-Cox
parameter by `k` and does not change the Gaussian nor the binomial POD. -/
theorem C156_positive_partial (fmax : ℝ) (env : LinEnv) (hbc : BoxCoxOptimal env.boxCox) (hols : OlsExact env.ols)
    (draws draws' : ℕ → ℝ × ℝ × ℝ) (x y : Fin n → ℝ) (det : ℝ) (noise sat noise' sat' : Option ℝ) (hy : ∀ i, 0 < y i) (hdet : 0 < det)
    (hne : ∃ i j, y i ≠ y j) (hx : ∃ i j, x i ≠ x j) (s t c k : ℝ) (hs : s ≠ 0) (hc : 0 < c) (hk : 0 < k) :
    ∃ r r' lam,
      computeLinearModel fmax env draws (List.ofFn fun i => (x i, y i)) det noise sat true false = .ok r ∧
      computeLinearModel fmax env draws' (List.ofFn fun i => (s * x i + t, c * y i ^ k)) (c * det ^ k) noise' sat' true false = .ok r' ∧
      r.lambda = some lam ∧ r'.lambda = some (lam / k) ∧
      ∀ a, runGaussPod r' (s * a + t) = runGaussPod r a ∧ runBinomialPod r' (s * a + t) = runBinomialPod r a := by
  have hn : n ≠ 0 := by have := two_le_of_ne hne; omega
  have hy' : ∀ i, 0 < c * y i ^ k := fun i => mul_pos hc (Real.rpow_pos_of_pos (hy i) k)
  have hdet' : 0 < c * det ^ k := mul_pos hc (Real.rpow_pos_of_pos hdet k)
  have hne' : ∃ i j, c * y i ^ k ≠ c * y j ^ k := by
    obtain ⟨i, j, h⟩ := hne
    refine ⟨i, j, fun h' => h ?_⟩
    exact (Real.rpow_left_inj (hy i).le (hy j).le hk.ne').1 (mul_left_cancel₀ hc.ne' h')
  obtain ⟨r, lam, h1, h2, h3, h4, h5⟩ := bcRun_ok fmax env hbc hols draws x y det noise sat 0 (boxCoxShift_pos y hn hy)
    (fun i => by simpa using hy i) hne (by simpa using hdet)
  obtain ⟨r', lam', h1', h2', h3', h4', h5'⟩ := bcRun_ok fmax env hbc hols draws' (fun i => s * x i + t) (fun i => c * y i ^ k)
    (c * det ^ k) noise' sat' 0 (boxCoxShift_pos _ hn hy') (fun i => by simpa using hy' i) hne' (by simpa using hdet')
  simp only [add_zero] at h3 h4 h5 h3' h4' h5'
  have hl : lam' = lam / k :=
    (C155_unique _ hy' hne').unique h3' ((C155_units y hy hne c k hc hk.ne' lam).1 h3)
  subst hl
  refine ⟨r, r', lam, h1, h1', h2, h2', fun a => ?_⟩
  have hK : 0 < k * c ^ (lam / k) := mul_pos hk (Real.rpow_pos_of_pos hc _)
  have hb : (fun i => boxCoxFun (lam / k) (c * y i ^ k))
      = fun i => k * c ^ (lam / k) * boxCoxFun lam (y i) + boxCoxFun (lam / k) c := by
    funext i; exact boxCoxFun_power c k lam (y i) hc (hy i) hk.ne'
  rw [h4, h5, h4', h5', hb, boxCoxFun_power c k lam det hc hdet hk.ne']
  exact ⟨C94_gauss_units x _ hx s t _ _ _ a hs hK, (C94_binomial_units x _ hn (fun _ _ _ => 0) s t _ _ _ 0 a hs hK).1⟩

/-- **C156, offset.**  When the smallest signal is negative before and after, adding a constant to the signals and to the threshold changes
neither the Box-Cox parameter nor the POD. -/
theorem C156_offset_partial (fmax : ℝ) (env : LinEnv) (hbc : BoxCoxOptimal env.boxCox) (hols : OlsExact env.ols)
    (draws draws' : ℕ → ℝ × ℝ × ℝ) (x y : Fin n → ℝ) (det e : ℝ) (noise sat noise' sat' : Option ℝ) (i0 : Fin n) (hmin : ∀ j, y i0 ≤ y j)
    (hneg : y i0 < 0) (hneg' : y i0 + e < 0) (hdet : y i0 - 100 < det) (hne : ∃ i j, y i ≠ y j) :
    ∃ r r' lam, computeLinearModel fmax env draws (List.ofFn fun i => (x i, y i)) det noise sat true false = .ok r ∧
      computeLinearModel fmax env draws' (List.ofFn fun i => (x i, y i + e)) (det + e) noise' sat' true false = .ok r' ∧
      r.lambda = some lam ∧ r'.lambda = some lam ∧ ∀ a, runGaussPod r' a = runGaussPod r a ∧ runBinomialPod r' a = runBinomialPod r a := by
  have hp : ∀ i, 0 < y i + (-y i0 + 100) := fun i => by linarith [hmin i]
  have e1 : ∀ v : ℝ, v + e + (-(y i0 + e) + 100) = v + (-y i0 + 100) := fun v => by ring
  obtain ⟨r, lam, h1, h2, h3, h4, h5⟩ := bcRun_ok fmax env hbc hols draws x y det noise sat _ (boxCoxShift_neg y i0 hmin hneg)
    hp hne (by linarith)
  obtain ⟨r', lam', h1', h2', h3', h4', h5'⟩ := bcRun_ok fmax env hbc hols draws' x (fun i => y i + e) (det + e) noise' sat' _
    (boxCoxShift_neg (fun i => y i + e) i0 (fun j => by linarith [hmin j]) hneg') (fun i => by rw [e1]; exact hp i)
    (by obtain ⟨i, j, h⟩ := hne; exact ⟨i, j, fun h' => h (by linarith)⟩) (by rw [e1]; linarith)
  simp only [e1] at h3' h4' h5'
  have hl : lam' = lam := (C155_unique _ hp (by obtain ⟨i, j, h⟩ := hne; exact ⟨i, j, fun h' => h (by linarith)⟩)).unique h3' h3
  subst hl
  exact ⟨r, r', lam', h1, h1', h2, h2', fun a => ⟨by rw [h4, h4'], by rw [h5, h5']⟩⟩

/-! ## Negative signals -/

/-- A sample whose logarithms are symmetric has exponent zero. -/
theorem bc_symmetric (y : Fin n → ℝ) (hy : ∀ i, 0 < y i) (hne : ∃ i j, y i ≠ y j) (σ : Equiv.Perm (Fin n)) (P : ℝ)
    (hσ : ∀ i, y i * y (σ i) = P) (lam : ℝ) (hl : ∀ mu, bcLogLik y mu ≤ bcLogLik y lam) : lam = 0 := by
  have hn : n ≠ 0 := by have := two_le_of_ne hne; omega
  -- the reciprocal sample, up to a factor, is a rearrangement of the sample
  have hP : 0 < P := by
    obtain ⟨i, -⟩ := hne
    rw [← hσ i]; exact mul_pos (hy _) (hy _)
  have hrec : (fun i => P * y i ^ (-1 : ℝ)) = fun i => y (σ i) := by
    funext i
    rw [Real.rpow_neg_one, ← hσ i]
    field_simp [(hy i).ne']
  have hperm : ∀ mu, bcLogLik (fun i => y (σ i)) mu = bcLogLik y mu := by
    intro mu
    have hs : ∀ g : Fin n → ℝ, ∑ i, g (σ i) = ∑ i, g i := fun g => Equiv.sum_comp σ g
    have hm : smean (fun i => boxCoxFun mu (y (σ i))) = smean fun i => boxCoxFun mu (y i) := by
      rw [smean, smean, hs fun i => boxCoxFun mu (y i)]
    rw [bcLogLik, bcLogLik, svar, svar, hm, hs fun i => Real.log (y i),
      hs fun i => (boxCoxFun mu (y i) - smean fun i => boxCoxFun mu (y i)) ^ 2]
  have h1 := (C155_units y hy hne P (-1) hP (by norm_num) lam).1 hl
  rw [hrec] at h1
  simp only [hperm] at h1
  have := (C155_unique y hy hne).unique h1 hl
  have h2 : lam / (-1) = -lam := by ring
  rw [h2] at this
  linarith

theorem log_ratio_strict {α β c c' : ℝ} (hα : 0 < α) (hαβ : α < β) (hc : 0 < c) (hcc : c < c') :
    Real.log (1 + c * α) / Real.log (1 + c * β) < Real.log (1 + c' * α) / Real.log (1 + c' * β) := by
  have hβ : 0 < β := hα.trans hαβ
  have hc' : 0 < c' := hc.trans hcc
  have p1 : 0 < Real.log (1 + c * α) := Real.log_pos (by nlinarith [mul_pos hc hα])
  have p2 : 0 < Real.log (1 + c * β) := Real.log_pos (by nlinarith [mul_pos hc hβ])
  have p3 : 0 < Real.log (1 + c' * α) := Real.log_pos (by nlinarith [mul_pos hc' hα])
  have p4 : 0 < Real.log (1 + c' * β) := Real.log_pos (by nlinarith [mul_pos hc' hβ])
  set θ := Real.log (1 + c * β) / Real.log (1 + c * α) with hθ
  have hθ1 : 1 < θ := by
    rw [hθ, one_lt_div p1]
    exact Real.log_lt_log (by positivity) (by nlinarith)
  have hpow : (1 + c * α) ^ θ = 1 + c * β := by
    rw [Real.rpow_def_of_pos (by positivity), hθ, mul_div_cancel₀ _ p1.ne', Real.exp_log (by positivity)]
  have hconv := (strictConvexOn_rpow hθ1).2 (show (1 : ℝ) ∈ Ici 0 from mem_Ici.2 zero_le_one)
    (show 1 + c' * α ∈ Ici (0 : ℝ) from mem_Ici.2 (by positivity)) (by nlinarith [mul_pos hc' hα])
    (show 0 < 1 - c / c' by rw [sub_pos, div_lt_one hc']; exact hcc) (show 0 < c / c' by positivity) (by ring)
  simp only [smul_eq_mul, Real.one_rpow, mul_one] at hconv
  rw [show 1 - c / c' + c / c' * (1 + c' * α) = 1 + c * α by field_simp; ring, hpow] at hconv
  have h3 : 1 + c' * β < (1 + c' * α) ^ θ := by
    have := mul_lt_mul_of_pos_left hconv hc'
    rw [show c' * (1 - c / c' + c / c' * (1 + c' * α) ^ θ) = c' - c + c * (1 + c' * α) ^ θ by field_simp] at this
    have h4 : c * (1 + c' * β) < c * (1 + c' * α) ^ θ := by nlinarith
    exact lt_of_mul_lt_mul_left h4 hc.le
  have h5 : Real.log (1 + c' * β) < θ * Real.log (1 + c' * α) := by
    rw [← Real.log_rpow (by positivity)]
    exact Real.log_lt_log (by positivity) h3
  rw [div_lt_div_iff₀ p2 p4]
  rw [hθ, div_mul_eq_mul_div, lt_div_iff₀ p1] at h5
  linarith

theorem linearStderr_pos (x y : Fin n → ℝ) (hn : 2 < n) (hr : ∃ i, olsResiduals x y i ≠ 0) : 0 < linearStderr x y := by
  rw [linearStderr, linearScale]
  apply Real.sqrt_pos.2
  apply div_pos
  · obtain ⟨i, hi⟩ := hr
    exact Finset.sum_pos' (fun _ _ => sq_nonneg _) ⟨i, Finset.mem_univ _, by positivity⟩
  · have : (2 : ℝ) < n := by exact_mod_cast hn
    linarith

theorem gaussPodOf_strictAnti (x y : Fin n → ℝ) (hx : ∃ i j, x i ≠ x j) (hn : 2 < n) (hr : ∃ i, olsResiduals x y i ≠ 0) (a : ℝ) {d d' : ℝ}
    (h : d < d') : gaussPodOf x y d' a < gaussPodOf x y d a := by
  rw [gaussPodOf, gaussPodOf, podGauss, podGauss]
  apply PhiC_strictAnti
  have hs := linearStderr_pos x y hn hr
  have hv : 0 < predictionVariance x (linearStderr x y) a := by
    rw [predictionVariance_eq _ _ _ hx]
    have := sxx_pos x hx
    positivity
  exact div_lt_div_of_pos_right (by linarith) (Real.sqrt_pos.2 hv)

/-- **C156, violated.**  When the smallest signal is negative the POD depends on the unit: the automatic shift brings the smallest signal to
100 whatever the unit.  For every data set whose signals take two values equally often, the smaller one negative, with a threshold between
them and signals not exactly on a line, the run succeeds in every unit, always with the exponent zero, and the POD at every defect size
decreases strictly when the numbers are multiplied by a larger factor. -/
theorem C156_violated (fmax : ℝ) (env : LinEnv) (hbc : BoxCoxOptimal env.boxCox) (hols : OlsExact env.ols)
    (draws : ℕ → ℝ × ℝ × ℝ) (x y : Fin n → ℝ) (lo hi det : ℝ) (noise sat : Option ℝ) (hlo : lo < 0) (h1 : lo < det) (h2 : det < hi)
    (hy : ∀ i, y i = lo ∨ y i = hi) (σ : Equiv.Perm (Fin n)) (hσ : ∀ i, y i + y (σ i) = lo + hi)
    (hn : 2 < n) (hx : ∃ i j, x i ≠ x j) (hr : ∃ i, olsResiduals x y i ≠ 0) :
    ∃ run : ℝ → LinModelResult,
      (∀ c, 0 < c → computeLinearModel fmax env draws (List.ofFn fun i => (x i, c * y i)) (c * det) noise sat true false = .ok (run c)
        ∧ (run c).lambda = some 0) ∧
      ∀ c c', 0 < c → c < c' → ∀ a, runGaussPod (run c') a < runGaussPod (run c) a := by
  have hlh : lo < hi := h1.trans h2
  -- the lower value is attained
  obtain ⟨i0, hi0⟩ : ∃ i, y i = lo := by
    have i : Fin n := ⟨0, by omega⟩
    rcases hy i with h | h
    · exact ⟨i, h⟩
    · exact ⟨σ i, by linarith [hσ i]⟩
  have hj0 : y (σ i0) = hi := by linarith [hσ i0]
  have main : ∀ c, 0 < c → ∃ r, computeLinearModel fmax env draws (List.ofFn fun i => (x i, c * y i)) (c * det) noise sat true false = .ok r
      ∧ r.lambda = some 0 ∧ ∀ a, runGaussPod r a
        = gaussPodOf x y (lo + (hi - lo) * (Real.log (1 + c * ((det - lo) / 100)) / Real.log (1 + c * ((hi - lo) / 100)))) a := by
    intro c hc
    have hge : ∀ j, c * y i0 ≤ c * y j := fun j => by
      apply mul_le_mul_of_nonneg_left _ hc.le
      rcases hy j with h | h <;> rw [h, hi0]
      exact hlh.le
    have hsh := boxCoxShift_neg (fun i => c * y i) i0 hge (by show c * y i0 < 0; rw [hi0]; exact mul_neg_of_pos_of_neg hc hlo)
    rw [hi0] at hsh
    have hp : ∀ i, 0 < c * y i + (-(c * lo) + 100) := fun i => by have := hge i; rw [hi0] at this; linarith
    have hneY : ∃ i j, c * y i ≠ c * y j := ⟨i0, σ i0, by
      rw [hi0, hj0]; intro h; exact hlh.ne (mul_left_cancel₀ hc.ne' h)⟩
    obtain ⟨r, lam, e1, e2, e3, e4, -⟩ := bcRun_ok fmax env hbc hols draws x (fun i => c * y i) (c * det) noise sat _ hsh hp hneY
      (by nlinarith)
    have hl0 : lam = 0 := by
      refine bc_symmetric (fun i => c * y i + (-(c * lo) + 100)) hp
        (by obtain ⟨i, j, h⟩ := hneY; exact ⟨i, j, fun h' => h (by linarith)⟩) σ (100 * (c * hi + (-(c * lo) + 100))) ?_ lam e3
      intro i
      rcases hy i with h | h
      · rw [h, show y (σ i) = hi by linarith [hσ i]]; ring
      · rw [h, show y (σ i) = lo by linarith [hσ i]]; ring
    subst hl0
    refine ⟨r, e1, e2, fun a => ?_⟩
    have pα : 0 < c * ((det - lo) / 100) := mul_pos hc (by linarith)
    have pβ : 0 < c * ((hi - lo) / 100) := mul_pos hc (by linarith)
    have hL : 0 < Real.log (1 + c * ((hi - lo) / 100)) := Real.log_pos (by linarith)
    set A := Real.log (1 + c * ((hi - lo) / 100)) / (hi - lo) with hA
    have hApos : 0 < A := div_pos hL (by linarith)
    have hlog : ∀ v, 0 ≤ c * (v - lo) → boxCoxFun 0 (c * v + (-(c * lo) + 100)) = Real.log (1 + c * ((v - lo) / 100)) + Real.log 100 := by
      intro v hv
      rw [boxCoxFun, if_pos rfl, ← Real.log_mul (by have : c * ((v - lo) / 100) = c * (v - lo) / 100 := by ring
                                                    rw [this]; positivity) (by norm_num)]
      congr 1
      ring
    have hd : lo + (hi - lo) * (Real.log (1 + c * ((det - lo) / 100)) / Real.log (1 + c * ((hi - lo) / 100)))
        = (Real.log (1 + c * ((det - lo) / 100)) + A * lo) / A := by
      have h3 : hi - lo ≠ 0 := by linarith
      rw [add_div, mul_div_cancel_left₀ _ hApos.ne', hA, div_div_eq_mul_div, mul_comm (Real.log _) (hi - lo), mul_div_assoc]
      ring
    have hsig : (fun i => boxCoxFun 0 (c * y i + (-(c * lo) + 100))) = fun i => A * y i + (Real.log 100 - A * lo) := by
      funext i
      rcases hy i with h | h
      · rw [h, hlog lo (by simp)]; simp
      · rw [h, hlog hi (mul_nonneg hc.le (by linarith))]
        have : hi - lo ≠ 0 := by linarith
        have h3 : A * hi - A * lo = Real.log (1 + c * ((hi - lo) / 100)) := by rw [hA]; field_simp
        linarith
    have hdet : boxCoxFun 0 (c * det + (-(c * lo) + 100))
        = A * ((Real.log (1 + c * ((det - lo) / 100)) + A * lo) / A) + (Real.log 100 - A * lo) := by
      rw [hlog det (mul_nonneg hc.le (by linarith)), mul_div_cancel₀ _ hApos.ne']
      ring
    rw [e4, hsig, hdet, hd]
    have := C94_gauss_units x y hx 1 0 A (Real.log 100 - A * lo) ((Real.log (1 + c * ((det - lo) / 100)) + A * lo) / A) a one_ne_zero hApos
    simpa using this
  choose f hf using main
  refine ⟨fun c => if h : 0 < c then f c h else f 1 one_pos, fun c hc => ?_, fun c c' hc hcc a => ?_⟩
  · simp only [dif_pos hc]; exact ⟨(hf c hc).1, (hf c hc).2.1⟩
  · have hc' := hc.trans hcc
    simp only [dif_pos hc, dif_pos hc']
    rw [(hf c hc).2.2, (hf c' hc').2.2]
    apply gaussPodOf_strictAnti x y hx hn hr
    have := log_ratio_strict (α := (det - lo) / 100) (β := (hi - lo) / 100) (by linarith) (by linarith) hc hcc
    have := mul_lt_mul_of_pos_left this (show 0 < hi - lo by linarith)
    linarith

/-! ## Examples -/

open Classical in
/-- An optimiser with the contract: it returns the maximiser. -/
noncomputable def bcRef : List ℝ → List ℝ → ℝ → Res ℝ := fun _ ys shift =>
  if h : ∃ lam, ∀ mu, bcLogLik (sampleOf (ys.map (· + shift))) mu ≤ bcLogLik (sampleOf (ys.map (· + shift))) lam then .ok h.choose
  else .error ⟨.runtime, ""⟩

theorem bcRef_optimal : BoxCoxOptimal bcRef := by
  intro xs ys shift hpos hne
  have h : ∃ lam, ∀ mu, bcLogLik (sampleOf (ys.map (· + shift))) mu ≤ bcLogLik (sampleOf (ys.map (· + shift))) lam := by
    refine (C155_unique _ (fun i => ?_) ?_).exists
    · have := List.getElem_mem (l := ys.map (· + shift)) i.2
      obtain ⟨v, hv, h⟩ := List.mem_map.1 this
      show 0 < (ys.map (· + shift)).get i
      rw [List.get_eq_getElem, ← h]
      exact hpos v hv
    · obtain ⟨a, ha, b, hb, hab⟩ := hne
      obtain ⟨i, hi⟩ := List.mem_iff_get.1 (List.mem_map_of_mem (f := (· + shift)) ha)
      obtain ⟨j, hj⟩ := List.mem_iff_get.1 (List.mem_map_of_mem (f := (· + shift)) hb)
      refine ⟨i, j, ?_⟩
      rw [sampleOf, sampleOf, hi, hj]
      exact fun h => hab (by simpa using h)
  refine ⟨h.choose, ?_, h.choose_spec⟩
  rw [bcRef, dif_pos h]

/-- An environment with both contracts. -/
noncomputable def bcEnv : LinEnv where
  boxCox := bcRef
  ols := fun obs => (olsIntercept (fun i : Fin obs.length => (obs.get i).1) (fun i => (obs.get i).2),
    olsSlope (fun i : Fin obs.length => (obs.get i).1) (fun i => (obs.get i).2),
    linearStderr (fun i : Fin obs.length => (obs.get i).1) (fun i => (obs.get i).2))
  fmin := fun _ s => ⟨s, 0⟩

/-- Signals in volts and in millivolts, defects in millimetres and in metres. -/
example : ∃ r r' lam,
    computeLinearModel 1000 bcEnv (fun _ => (0, 0, 1)) (List.ofFn fun i => ((![1, 2, 3, 4] : Fin 4 → ℝ) i, (![1, 3, 2, 7] : Fin 4 → ℝ) i)) 2
      none none true false = .ok r ∧
    computeLinearModel 1000 bcEnv (fun _ => (0, 0, 1))
      (List.ofFn fun i => ((1 / 1000) * (![1, 2, 3, 4] : Fin 4 → ℝ) i + 0, 1000 * (![1, 3, 2, 7] : Fin 4 → ℝ) i ^ (1 : ℝ)))
      (1000 * 2 ^ (1 : ℝ)) none none true false = .ok r' ∧ r.lambda = some lam ∧ r'.lambda = some (lam / 1) ∧
    ∀ a, runGaussPod r' ((1 / 1000) * a + 0) = runGaussPod r a ∧ runBinomialPod r' ((1 / 1000) * a + 0) = runBinomialPod r a :=
  C156_positive_partial 1000 bcEnv bcRef_optimal (fun _ => rfl) _ _ _ _ 2 none none none none
    (by intro i; fin_cases i <;> norm_num) (by norm_num) ⟨0, 1, by norm_num⟩ ⟨0, 1, by norm_num⟩ (1 / 1000) 0 1000 1 (by norm_num)
    (by norm_num) (by norm_num)

/-- Four signals at -1 and 1: in millivolts the POD is smaller than in volts, at every size. -/
example : ∃ run : ℝ → LinModelResult,
    (∀ c, 0 < c → computeLinearModel 1000 bcEnv (fun _ => (0, 0, 1))
        (List.ofFn fun i => ((![0, 1, 2, 3] : Fin 4 → ℝ) i, c * (![-1, 1, -1, 1] : Fin 4 → ℝ) i)) (c * 0) none none true false = .ok (run c)
      ∧ (run c).lambda = some 0) ∧ ∀ a, runGaussPod (run 1000) a < runGaussPod (run 1) a := by
  have hres : ∃ i, olsResiduals (![0, 1, 2, 3] : Fin 4 → ℝ) ![-1, 1, -1, 1] i ≠ 0 := by
    refine ⟨0, ?_⟩
    simp only [olsResiduals, olsIntercept, olsSlope, smean, Fin.sum_univ_four]
    simp
    norm_num
  obtain ⟨run, h1, h2⟩ := C156_violated 1000 bcEnv bcRef_optimal (fun _ => rfl) (fun _ => (0, 0, 1)) ![0, 1, 2, 3] ![-1, 1, -1, 1]
    (-1) 1 0 none none (by norm_num) (by norm_num) (by norm_num) (by intro i; fin_cases i <;> simp)
    (Equiv.swap 0 1 * Equiv.swap 2 3) (by
      intro i
      fin_cases i <;> simp [Equiv.swap_apply_def, Equiv.Perm.mul_apply]) (by norm_num) ⟨0, 1, by norm_num⟩ hres
  exact ⟨run, h1, h2 1 1000 one_pos (by norm_num)⟩

end Verif.Props
