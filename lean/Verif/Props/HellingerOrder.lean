import Verif.Props.PliBox
import Verif.Model.HellingerPlot
import Verif.Props.PliUnits
import Verif.Props.KlClosest
import Mathlib.Analysis.Calculus.MeanValue
import Mathlib.Analysis.SpecialFunctions.Log.Deriv
import Mathlib.Analysis.Calculus.Deriv.MeanValue
import Mathlib.Analysis.SpecialFunctions.Trigonometric.DerivHyp

/-!
# C167: the order of the points in the Hellinger plot

A larger delta is drawn further to the right.  The range of a Normal marginal is taken as the whole line.
-/

namespace Verif.Props
open Verif.Py Verif.Model MeasureTheory ProbabilityTheory Set

/-! ## Tilting of a uniform law by a statistic `T` -/

/-- Normalisation of `exp (t T)` on the interval. -/
noncomputable def tiltZ (a b : ℝ) (T : ℝ → ℝ) (t : ℝ) : ℝ := ∫ x in a..b, 1 * Real.exp (t * T x)

/-- Its first moment of `T`. -/
noncomputable def tiltZ1 (a b : ℝ) (T : ℝ → ℝ) (t : ℝ) : ℝ := ∫ x in a..b, T x * Real.exp (t * T x)

section
variable {a b : ℝ} (hab : a < b) {T : ℝ → ℝ} (hT : Continuous T)
include hab hT

theorem tiltZ_pos (t : ℝ) : 0 < tiltZ a b T t := by
  apply intervalIntegral.intervalIntegral_pos_of_pos_on (Continuous.intervalIntegrable (by fun_prop) _ _) _ hab
  intro x _
  rw [one_mul]; exact Real.exp_pos _

theorem tiltZ_deriv (t : ℝ) : HasDerivAt (tiltZ a b T) (tiltZ1 a b T t) t := by
  have := hasDerivAt_integral_exp a b t (fun _ => 1) T continuous_const hT
  have e : ∫ x in a..b, 1 * T x * Real.exp (t * T x) = tiltZ1 a b T t := by simp only [one_mul, tiltZ1]
  rw [e] at this
  exact this

/-- The mean of `T` increases strictly with the parameter. -/
theorem tiltMean_strictMono (hne : ∃ x ∈ Icc a b, ∃ y ∈ Icc a b, T x ≠ T y) : StrictMono fun t => tiltZ1 a b T t / tiltZ a b T t := by
  apply strictMono_of_deriv_pos
  intro t
  have h0 := tiltZ_pos hab hT t
  have h1 := tiltZ_deriv hab hT t
  have h2 : HasDerivAt (tiltZ1 a b T) (∫ x in a..b, T x * T x * Real.exp (t * T x)) t :=
    hasDerivAt_integral_exp a b t T T hT hT
  have hd : deriv (fun t => tiltZ1 a b T t / tiltZ a b T t) t = _ := (h2.div h1 h0.ne').deriv
  rw [hd]
  refine div_pos ?_ (by positivity)
  set E := tiltZ1 a b T t / tiltZ a b T t with hE
  have hE' : tiltZ1 a b T t = E * tiltZ a b T t := by rw [hE]; field_simp
  have hvar : 0 < ∫ x in a..b, (T x - E) ^ 2 * Real.exp (t * T x) := by
    have hc : Continuous fun x => (T x - E) ^ 2 * Real.exp (t * T x) := by fun_prop
    have hx : ∃ x ∈ Icc a b, T x ≠ E := by
      obtain ⟨x, hx, y, hy, h⟩ := hne
      by_contra hcon
      push Not at hcon
      exact h ((hcon x hx).trans (hcon y hy).symm)
    obtain ⟨x, hx, hxE⟩ := hx
    apply intervalIntegral.integral_pos hab hc.continuousOn (fun y _ => by positivity)
    exact ⟨x, hx, mul_pos (pow_pos (abs_pos.mpr (sub_ne_zero.mpr hxE)) 2 |>.trans_eq (sq_abs _)) (Real.exp_pos _)⟩
  have hexp : ∫ x in a..b, (T x - E) ^ 2 * Real.exp (t * T x)
      = (∫ x in a..b, T x * T x * Real.exp (t * T x)) - 2 * E * tiltZ1 a b T t + E ^ 2 * tiltZ a b T t := by
    rw [tiltZ1, tiltZ, ← intervalIntegral.integral_const_mul, ← intervalIntegral.integral_const_mul,
      ← intervalIntegral.integral_sub (Continuous.intervalIntegrable (by fun_prop) _ _) (Continuous.intervalIntegrable (by fun_prop) _ _),
      ← intervalIntegral.integral_add (Continuous.intervalIntegrable (by fun_prop) _ _) (Continuous.intervalIntegrable (by fun_prop) _ _)]
    congr 1; funext x; ring
  have : (∫ x in a..b, T x * T x * Real.exp (t * T x)) * tiltZ a b T t - tiltZ1 a b T t * tiltZ1 a b T t
      = (∫ x in a..b, (T x - E) ^ 2 * Real.exp (t * T x)) * tiltZ a b T t := by
    rw [hexp, hE']; ring
  rw [this]
  exact mul_pos hvar h0

/-- Affinity of the uniform law and the tilted one. -/
noncomputable def tiltBC (a b : ℝ) (T : ℝ → ℝ) (t : ℝ) : ℝ :=
  Real.exp (Real.log (tiltZ a b T (t / 2)) - Real.log (tiltZ a b T t) / 2 - Real.log (b - a) / 2)

omit hab hT in
theorem tiltBC_zero : tiltBC a b T 0 = 1 := by
  have : tiltZ a b T 0 = b - a := by simp [tiltZ]
  rw [tiltBC, zero_div, this, show Real.log (b - a) - Real.log (b - a) / 2 - Real.log (b - a) / 2 = 0 by ring, Real.exp_zero]

theorem tiltBC_log_deriv (t : ℝ) :
    HasDerivAt (fun t => Real.log (tiltZ a b T (t / 2)) - Real.log (tiltZ a b T t) / 2 - Real.log (b - a) / 2)
      ((tiltZ1 a b T (t / 2) / tiltZ a b T (t / 2) - tiltZ1 a b T t / tiltZ a b T t) / 2) t := by
  have h1 : HasDerivAt (fun t => Real.log (tiltZ a b T (t / 2))) (tiltZ1 a b T (t / 2) * (1 / 2) / tiltZ a b T (t / 2)) t := by
    have := (tiltZ_deriv hab hT (t / 2)).comp t ((hasDerivAt_id t).div_const 2)
    exact this.log (tiltZ_pos hab hT _).ne'
  have h2 := ((tiltZ_deriv hab hT t).log (tiltZ_pos hab hT _).ne').div_const 2
  have := (h1.sub h2).sub_const (Real.log (b - a) / 2)
  have e : (tiltZ1 a b T (t / 2) / tiltZ a b T (t / 2) - tiltZ1 a b T t / tiltZ a b T t) / 2
      = tiltZ1 a b T (t / 2) * (1 / 2) / tiltZ a b T (t / 2) - tiltZ1 a b T t / tiltZ a b T t / 2 := by ring
  rw [e]
  exact this

theorem tiltBC_anti (hne : ∃ x ∈ Icc a b, ∃ y ∈ Icc a b, T x ≠ T y) : StrictAntiOn (tiltBC a b T) (Ici 0) := by
  have hm := tiltMean_strictMono hab hT hne
  have : StrictAntiOn (fun t => Real.log (tiltZ a b T (t / 2)) - Real.log (tiltZ a b T t) / 2 - Real.log (b - a) / 2) (Ici 0) := by
    apply strictAntiOn_of_deriv_neg (convex_Ici 0)
    · exact fun t _ => (tiltBC_log_deriv hab hT t).continuousAt.continuousWithinAt
    · intro t ht
      rw [interior_Ici] at ht
      have ht' : (0 : ℝ) < t := ht
      rw [(tiltBC_log_deriv hab hT t).deriv]
      have := hm (show t / 2 < t by linarith)
      dsimp only at this
      linarith
  exact fun s hs t ht h => Real.exp_lt_exp.mpr (this hs ht h)

theorem tiltBC_mono (hne : ∃ x ∈ Icc a b, ∃ y ∈ Icc a b, T x ≠ T y) : StrictMonoOn (tiltBC a b T) (Iic 0) := by
  have hm := tiltMean_strictMono hab hT hne
  have : StrictMonoOn (fun t => Real.log (tiltZ a b T (t / 2)) - Real.log (tiltZ a b T t) / 2 - Real.log (b - a) / 2) (Iic 0) := by
    apply strictMonoOn_of_deriv_pos (convex_Iic 0)
    · exact fun t _ => (tiltBC_log_deriv hab hT t).continuousAt.continuousWithinAt
    · intro t ht
      rw [interior_Iic] at ht
      have ht' : t < (0 : ℝ) := ht
      rw [(tiltBC_log_deriv hab hT t).deriv]
      have := hm (show t < t / 2 by linarith)
      dsimp only at this
      linarith
  exact fun s hs t ht h => Real.exp_lt_exp.mpr (this hs ht h)

/-- The value computed for a tilted density. -/
theorem hellinger_tilt (t : ℝ) (q : ℝ → ℝ) (hq : ∀ x ∈ Icc a b, q x = Real.exp (t * T x) / tiltZ a b T t) :
    hellinger (Icc a b) (Marg.uniform a b).pdf q = 2 - 2 * tiltBC a b T t := by
  have h0 := tiltZ_pos hab hT t
  have h2 := tiltZ_pos hab hT (t / 2)
  have hba : 0 < b - a := sub_pos.mpr hab
  rw [hellinger]
  congr 2
  have : ∫ x in Icc a b, Real.sqrt ((Marg.uniform a b).pdf x * q x)
      = ∫ x in Icc a b, (Real.sqrt ((b - a) * tiltZ a b T t))⁻¹ * (1 * Real.exp (t / 2 * T x)) := by
    apply setIntegral_congr_fun measurableSet_Icc
    intro x hx
    have hx' : a ≤ x ∧ x ≤ b := hx
    simp only [Marg.pdf, if_pos hx', hq x hx, one_mul]
    rw [show 1 / (b - a) * (Real.exp (t * T x) / tiltZ a b T t) = ((b - a) * tiltZ a b T t)⁻¹ * (Real.exp (t / 2 * T x)) ^ 2 by
      rw [← Real.exp_nat_mul, mul_inv]; push_cast; rw [show 2 * (t / 2 * T x) = t * T x by ring]; field_simp]
    rw [Real.sqrt_mul (by positivity), Real.sqrt_sq (Real.exp_pos _).le, Real.sqrt_inv]
  rw [this, integral_const_mul, integral_Icc_eq_integral_Ioc, ← intervalIntegral.integral_of_le hab.le]
  change (Real.sqrt ((b - a) * tiltZ a b T t))⁻¹ * tiltZ a b T (t / 2) = _
  rw [tiltBC, show Real.log (tiltZ a b T (t / 2)) - Real.log (tiltZ a b T t) / 2 - Real.log (b - a) / 2
      = Real.log (tiltZ a b T (t / 2)) + -(1 / 2 * Real.log ((b - a) * tiltZ a b T t)) by rw [Real.log_mul hba.ne' h0.ne']; ring,
    Real.exp_add, Real.exp_log h2, Real.exp_neg, Real.sqrt_eq_rpow, Real.rpow_def_of_pos (by positivity), mul_comm]
  congr 3
  ring

/-- Order of the abscissas of two tilted densities, when the moment of `T` compared with the original one is the delta. -/
theorem abscissa_tilt_lt (hne : ∃ x ∈ Icc a b, ∃ y ∈ Icc a b, T x ≠ T y) {t t' δ δ' δ0 : ℝ} {q q' : ℝ → ℝ}
    (hq : ∀ x ∈ Icc a b, q x = Real.exp (t * T x) / tiltZ a b T t) (hq' : ∀ x ∈ Icc a b, q' x = Real.exp (t' * T x) / tiltZ a b T t')
    (h : tiltZ1 a b T t / tiltZ a b T t = δ) (h' : tiltZ1 a b T t' / tiltZ a b T t' = δ') (h0 : tiltZ1 a b T 0 / tiltZ a b T 0 = δ0)
    (hlt : δ < δ') :
    hellingerAbscissa (Icc a b) (Marg.uniform a b).pdf q δ δ0 < hellingerAbscissa (Icc a b) (Marg.uniform a b).pdf q' δ' δ0 := by
  have hm := tiltMean_strictMono hab hT hne
  have hlt' : t < t' := hm.lt_iff_lt.mp (by rw [h, h']; exact hlt)
  have hs : δ < δ0 ↔ t < 0 := by rw [← h, ← h0]; exact hm.lt_iff_lt
  have hs' : δ' < δ0 ↔ t' < 0 := by rw [← h', ← h0]; exact hm.lt_iff_lt
  have hz := tiltBC_zero (a := a) (b := b) (T := T)
  rw [hellingerAbscissa, hellingerAbscissa, hellinger_tilt hab hT t q hq, hellinger_tilt hab hT t' q' hq']
  by_cases hn : t < 0
  · have e1 : tiltBC a b T t < 1 := by
      rw [← hz]; exact tiltBC_mono hab hT hne (le_of_lt hn : t ∈ Iic 0) (le_refl (0 : ℝ)) hn
    rw [if_pos (hs.mpr hn)]
    by_cases hn' : t' < 0
    · have := tiltBC_mono hab hT hne (le_of_lt hn : t ∈ Iic 0) (le_of_lt hn' : t' ∈ Iic 0) hlt'
      rw [if_pos (hs'.mpr hn')]
      linarith
    · rw [if_neg (fun hc => hn' (hs'.mp hc))]
      push Not at hn'
      have : tiltBC a b T t' ≤ 1 := by
        rw [← hz]; exact (tiltBC_anti hab hT hne).antitoneOn (le_refl (0 : ℝ)) (hn' : t' ∈ Ici 0) hn'
      linarith
  · push Not at hn
    have hn' : ¬ t' < 0 := by linarith
    rw [if_neg (fun hc => absurd (hs.mp hc) (not_lt.mpr hn)), if_neg (fun hc => hn' (hs'.mp hc))]
    have := tiltBC_anti hab hT hne (hn : t ∈ Ici 0) (not_lt.mp hn' : t' ∈ Ici 0) hlt'
    linarith

end

/-! ## Uniform marginal, mean -/

/-- The perturbed density is tilted by the identity, with mean `δ`. -/
theorem meanPert_tilt {a b δ : ℝ} (hab : a < b) (ha : a < δ) (hb : δ < b) {solve : ℝ → ℝ → ℝ → ℝ} (hs : RootSpec solve) {q : ℝ → ℝ}
    (hq : meanPert solve (.uniform a b) δ = .ok q) :
    ∃ t, (∀ x ∈ Icc a b, q x = Real.exp (t * id x) / tiltZ a b id t) ∧ tiltZ1 a b id t / tiltZ a b id t = δ := by
  have hba : 0 < b - a := sub_pos.mpr hab
  by_cases hδ : δ = (a + b) / 2
  · refine ⟨0, ?_, ?_⟩
    · rw [meanPert.eq_def, if_pos (show δ = (Marg.uniform a b).mean from hδ), Except.ok.injEq] at hq
      intro x hx
      have hx' : a ≤ x ∧ x ≤ b := hx
      rw [← hq]
      simp [Marg.pdf, hx', tiltZ]
    · simp only [tiltZ1, tiltZ, zero_mul, Real.exp_zero, mul_one, id, integral_id, intervalIntegral.integral_const, smul_eq_mul]
      rw [hδ]; field_simp; ring
  · have hroot := hs a b δ ha hb
    set lam := solve a b δ with hlam
    have hl : lam ≠ 0 := by
      intro h0
      rw [mPrimeOverM, if_pos h0] at hroot
      exact hδ (by linarith)
    have hZ : tiltZ a b id lam = (Real.exp (lam * b) - Real.exp (lam * a)) / lam := by
      rw [tiltZ, ← integral_exp_lin lam a b hl]; simp
    have hpos := tiltZ_pos hab continuous_id lam
    have hne : Real.exp (lam * b) - Real.exp (lam * a) ≠ 0 := by
      intro h; rw [hZ, h, zero_div] at hpos; exact lt_irrefl _ hpos
    refine ⟨lam, ?_, ?_⟩
    · rw [meanPert.eq_def, if_neg (show ¬ δ = (Marg.uniform a b).mean from hδ)] at hq
      simp only [Except.ok.injEq] at hq
      intro x hx
      rw [← hq, ← hlam, hZ]
      simp only [id, hx.1, hx.2, and_self, if_true, mul_one]
      field_simp
    · rw [hZ, show tiltZ1 a b id lam = ∫ x in a..b, x * Real.exp (lam * x) from rfl, integral_mul_exp_lin lam a b hl]
      rw [mPrimeOverM, if_neg hl, sub_eq_zero] at hroot
      rw [← hroot]
      field_simp

/-- The abscissas of a column of deltas: if a larger delta of a set gives a larger abscissa, a sorted column of such deltas gives a sorted
support. -/
theorem abscissas_sorted (point : ℝ → Res ℝ) (P : ℝ → Prop)
    (hmono : ∀ δ δ', P δ → P δ' → δ < δ' → ∃ x x', point δ = .ok x ∧ point δ' = .ok x' ∧ x < x') (hok : ∀ δ, P δ → ∃ x, point δ = .ok x)
    (ds : List ℝ) (hP : ∀ d ∈ ds, P d) (hs : ds.Pairwise (· < ·)) :
    ∃ xs, abscissas point ds = .ok xs ∧ xs.length = ds.length ∧ xs.Pairwise (· < ·) ∧ ∀ x ∈ xs, ∃ d ∈ ds, point d = .ok x := by
  induction ds with
  | nil => exact ⟨[], rfl, rfl, .nil, by simp⟩
  | cons d ds ih =>
    obtain ⟨x, hx⟩ := hok d (hP d List.mem_cons_self)
    rw [List.pairwise_cons] at hs
    obtain ⟨xs, h1, h2, h3, h4⟩ := ih (fun e he => hP e (List.mem_cons_of_mem _ he)) hs.2
    refine ⟨x :: xs, by simp only [abscissas, hx, h1], by simp [h2], List.pairwise_cons.mpr ⟨fun y hy => ?_, h3⟩, ?_⟩
    · obtain ⟨e, he, hey⟩ := h4 y hy
      obtain ⟨u, v, hu, hv, huv⟩ := hmono d e (hP d List.mem_cons_self) (hP e (List.mem_cons_of_mem _ he)) (hs.1 e he)
      rw [hx, Except.ok.injEq] at hu
      rw [hey, Except.ok.injEq] at hv
      rw [hu, hv]; exact huv
    · intro y hy
      rcases List.mem_cons.mp hy with rfl | hy
      · exact ⟨d, List.mem_cons_self, hx⟩
      · obtain ⟨e, he, hey⟩ := h4 y hy
        exact ⟨e, List.mem_cons_of_mem _ he, hey⟩

theorem meanAbscissa_ok {solve : ℝ → ℝ → ℝ → ℝ} {s : Set ℝ} {m : Marg} {δ : ℝ} {q : ℝ → ℝ} (h : meanPert solve m δ = .ok q) :
    meanAbscissa solve s m δ = .ok (hellingerAbscissa s m.pdf q δ m.mean) := by
  simp only [meanAbscissa, h]

theorem varAbscissa_ok {optimize : (ℝ → ℝ) → ℝ → ℝ → ℝ × ℝ → ℝ × ℝ} {s : Set ℝ} {m : Marg} {δ : ℝ} {q : ℝ → ℝ}
    (h : varPert optimize m δ = .ok q) : varAbscissa optimize s m δ = .ok (hellingerAbscissa s m.pdf q δ m.var) := by
  simp only [varAbscissa, h]

/-- **C167 (Uniform, mean).**  Deltas inside the interval, in increasing order: the abscissas are in increasing order. -/
theorem C167_uniform_mean (a b : ℝ) {solve : ℝ → ℝ → ℝ → ℝ} (hs : RootSpec solve) (ds : List ℝ) (hd : ∀ d ∈ ds, a < d ∧ d < b)
    (hsort : ds.Pairwise (· < ·)) :
    ∃ xs, abscissas (meanAbscissa solve (Icc a b) (.uniform a b)) ds = .ok xs ∧ xs.length = ds.length ∧ xs.Pairwise (· < ·) := by
  have hok : ∀ δ, ∃ q, meanPert solve (.uniform a b) δ = .ok q := by
    intro δ
    rw [meanPert.eq_def]
    split_ifs
    · exact ⟨_, rfl⟩
    · exact ⟨_, rfl⟩
  suffices hsuf : _ ∧ _ by
    obtain ⟨xs, h1, h2, h3, _⟩ := abscissas_sorted (meanAbscissa solve (Icc a b) (.uniform a b)) (fun d => a < d ∧ d < b) hsuf.1 hsuf.2 ds hd hsort
    exact ⟨xs, h1, h2, h3⟩
  constructor
  · rintro δ δ' ⟨ha, _⟩ ⟨_, hb⟩ hlt
    have hab : a < b := ha.trans (hlt.trans hb)
    obtain ⟨q, hq⟩ := hok δ
    obtain ⟨q', hq'⟩ := hok δ'
    obtain ⟨t, h1, h2⟩ := meanPert_tilt hab ha (hlt.trans hb) hs hq
    obtain ⟨t', h1', h2'⟩ := meanPert_tilt hab (ha.trans hlt) hb hs hq'
    refine ⟨_, _, meanAbscissa_ok hq, meanAbscissa_ok hq', ?_⟩
    refine abscissa_tilt_lt hab continuous_id ⟨a, ⟨le_rfl, hab.le⟩, b, ⟨hab.le, le_rfl⟩, hab.ne⟩ h1 h1' h2 h2' ?_ hlt
    have hba : 0 < b - a := sub_pos.mpr hab
    simp only [tiltZ1, tiltZ, zero_mul, Real.exp_zero, mul_one, id, integral_id, intervalIntegral.integral_const, smul_eq_mul]
    rw [show (Marg.uniform a b).mean = (a + b) / 2 from rfl]; field_simp; ring
  · intro δ _
    obtain ⟨q, hq⟩ := hok δ
    exact ⟨_, meanAbscissa_ok hq⟩

example : ∃ solve, RootSpec solve ∧ ∃ xs, abscissas (meanAbscissa solve (Icc 0 1) (.uniform 0 1)) [1 / 4, 1 / 2, 3 / 4] = .ok xs ∧
    xs.length = 3 ∧ xs.Pairwise (· < ·) := by
  obtain ⟨solve, hs⟩ := rootSpec_nonempty
  refine ⟨solve, hs, C167_uniform_mean 0 1 hs [1 / 4, 1 / 2, 3 / 4] ?_ ?_⟩
  · intro d hd; fin_cases hd <;> constructor <;> norm_num
  · norm_num

/-! ## Normal marginal, mean -/

/-- The product of the two densities under the root. -/
theorem sqrt_gauss_mean (μ δ σ : ℝ) (hσ : 0 < σ) (x : ℝ) :
    Real.sqrt (gaussianPDFReal μ (sqv σ) x * gaussianPDFReal δ (sqv σ) x)
      = Real.exp (-(δ - μ) ^ 2 / (8 * σ ^ 2)) * gaussianPDFReal ((μ + δ) / 2) (sqv σ) x := by
  have hnn : 0 ≤ Real.exp (-(δ - μ) ^ 2 / (8 * σ ^ 2)) * gaussianPDFReal ((μ + δ) / 2) (sqv σ) x :=
    mul_nonneg (Real.exp_pos _).le (gaussianPDFReal_nonneg _ _ _)
  rw [← Real.sqrt_sq hnn]
  congr 1
  simp only [gaussianPDFReal, coe_sqv]
  have : ∀ c A B C D : ℝ, A + B = 2 * C + 2 * D → c * Real.exp A * (c * Real.exp B) = (Real.exp C * (c * Real.exp D)) ^ 2 := by
    intro c A B C D h
    have e : Real.exp A * Real.exp B = (Real.exp C * Real.exp D) ^ 2 := by
      rw [← Real.exp_add, ← Real.exp_add, ← Real.exp_nat_mul, h]; push_cast; ring_nf
    calc c * Real.exp A * (c * Real.exp B) = c ^ 2 * (Real.exp A * Real.exp B) := by ring
      _ = c ^ 2 * (Real.exp C * Real.exp D) ^ 2 := by rw [e]
      _ = _ := by ring
  apply this
  field_simp
  ring

/-- The mass of an interval centred on zero decreases when the law moves away. -/
theorem gauss_window_anti (σ R : ℝ) (hσ : 0 < σ) (hR : 0 < R) :
    AntitoneOn (fun m => ∫ x in (-R)..R, gaussianPDFReal m (sqv σ) x) (Ici 0) := by
  have hshift : ∀ m : ℝ, ∫ x in (-R)..R, gaussianPDFReal m (sqv σ) x = ∫ x in (-R - m)..(R - m), gaussianPDFReal 0 (sqv σ) x := by
    intro m
    rw [← intervalIntegral.integral_comp_sub_right (fun x => gaussianPDFReal 0 (sqv σ) x) m]
    congr 1; funext x; simp [gaussianPDFReal]
  have hc : Continuous (gaussianPDFReal 0 (sqv σ)) := by unfold gaussianPDFReal; fun_prop
  have hd : ∀ m : ℝ, HasDerivAt (fun m => ∫ x in (-R)..R, gaussianPDFReal m (sqv σ) x)
      (gaussianPDFReal 0 (sqv σ) (-R - m) - gaussianPDFReal 0 (sqv σ) (R - m)) m := by
    intro m
    have h1 : HasDerivAt (fun m => ∫ x in (0 : ℝ)..(R - m), gaussianPDFReal 0 (sqv σ) x) (gaussianPDFReal 0 (sqv σ) (R - m) * (-1)) m :=
      (hc.integral_hasStrictDerivAt 0 (R - m)).hasDerivAt.comp m ((hasDerivAt_id m).const_sub R)
    have h2 : HasDerivAt (fun m => ∫ x in (0 : ℝ)..(-R - m), gaussianPDFReal 0 (sqv σ) x) (gaussianPDFReal 0 (sqv σ) (-R - m) * (-1)) m :=
      (hc.integral_hasStrictDerivAt 0 (-R - m)).hasDerivAt.comp m ((hasDerivAt_id m).const_sub (-R))
    have h3 := h1.sub h2
    have e : (fun m => ∫ x in (-R)..R, gaussianPDFReal m (sqv σ) x)
        = (fun m => ∫ x in (0 : ℝ)..(R - m), gaussianPDFReal 0 (sqv σ) x) - fun m => ∫ x in (0 : ℝ)..(-R - m), gaussianPDFReal 0 (sqv σ) x := by
      funext m
      rw [Pi.sub_apply, hshift m, intervalIntegral.integral_interval_sub_left (hc.intervalIntegrable _ _) (hc.intervalIntegrable _ _)]
    rw [e]
    have e2 : gaussianPDFReal 0 (sqv σ) (-R - m) - gaussianPDFReal 0 (sqv σ) (R - m)
        = gaussianPDFReal 0 (sqv σ) (R - m) * (-1) - gaussianPDFReal 0 (sqv σ) (-R - m) * (-1) := by ring
    rw [e2]
    exact h3
  apply antitoneOn_of_deriv_nonpos (convex_Ici 0)
  · exact fun m _ => (hd m).continuousAt.continuousWithinAt
  · exact fun m _ => (hd m).differentiableAt.differentiableWithinAt
  · intro m hm
    rw [interior_Ici] at hm
    have hm' : (0 : ℝ) < m := hm
    rw [(hd m).deriv, sub_nonpos]
    simp only [gaussianPDFReal, coe_sqv]
    apply mul_le_mul_of_nonneg_left _ (by positivity)
    apply Real.exp_le_exp.mpr
    apply div_le_div_of_nonneg_right _ (by positivity)
    nlinarith

/-- Affinity of two Normal laws with the same deviation, over a window centred on the first mean. -/
theorem hellinger_normal_mean (μ σ R : ℝ) (hσ : 0 < σ) (hR : 0 < R) (d : ℝ) :
    hellinger (Icc (μ - R) (μ + R)) (Marg.normal μ σ).pdf (gaussianPDFReal (μ + d) (sqv σ))
      = 2 - 2 * (Real.exp (-d ^ 2 / (8 * σ ^ 2)) * ∫ x in (-R)..R, gaussianPDFReal (|d| / 2) (sqv σ) x) := by
  have hp : (Marg.normal μ σ).pdf = gaussianPDFReal μ (sqv σ) := by
    have := (C61_normal μ σ μ hσ (fun _ _ _ => 0)).1
    rw [meanPert.eq_def, if_pos (show μ = (Marg.normal μ σ).mean from rfl), Except.ok.injEq] at this
    exact this
  rw [hellinger, hp]
  congr 2
  simp only [sqrt_gauss_mean μ (μ + d) σ hσ, integral_const_mul]
  rw [add_sub_cancel_left, integral_Icc_eq_integral_Ioc, ← intervalIntegral.integral_of_le (by linarith)]
  congr 1
  have h1 : ∫ x in (μ - R)..(μ + R), gaussianPDFReal ((μ + (μ + d)) / 2) (sqv σ) x = ∫ x in (-R)..R, gaussianPDFReal (d / 2) (sqv σ) x := by
    have := intervalIntegral.integral_comp_add_right (a := -R) (b := R) (fun x => gaussianPDFReal ((μ + (μ + d)) / 2) (sqv σ) x) μ
    rw [show -R + μ = μ - R by ring, show R + μ = μ + R by ring] at this
    rw [← this]
    congr 1; funext x
    simp only [gaussianPDFReal]
    congr 3
    ring
  rw [h1]
  rcases le_total 0 d with h | h
  · rw [abs_of_nonneg h]
  · rw [abs_of_nonpos h]
    have := intervalIntegral.integral_comp_neg (a := -R) (b := R) (fun x => gaussianPDFReal (d / 2) (sqv σ) x)
    rw [neg_neg] at this
    rw [← this]
    congr 1; funext x
    simp only [gaussianPDFReal]
    congr 3
    ring

/-- **C167 (Normal, mean).**  The range of the marginal is any interval centred on its mean, of any length (OpenTURNS uses the quantiles of a
tiny probability): deltas in increasing order give abscissas in increasing order. -/
theorem C167_normal_mean (μ σ R : ℝ) (hσ : 0 < σ) (hR : 0 < R) (solve : ℝ → ℝ → ℝ → ℝ) (ds : List ℝ) (hsort : ds.Pairwise (· < ·)) :
    ∃ xs, abscissas (meanAbscissa solve (Icc (μ - R) (μ + R)) (.normal μ σ)) ds = .ok xs ∧ xs.length = ds.length ∧ xs.Pairwise (· < ·) := by
  have hval : ∀ δ, meanAbscissa solve (Icc (μ - R) (μ + R)) (.normal μ σ) δ
      = .ok (hellingerAbscissa (Icc (μ - R) (μ + R)) (Marg.normal μ σ).pdf (gaussianPDFReal δ (sqv σ)) δ μ) := by
    intro δ
    rw [meanAbscissa, (C61_normal μ σ δ hσ solve).1]
    rfl
  have hpos : ∀ m : ℝ, 0 < ∫ x in (-R)..R, gaussianPDFReal m (sqv σ) x := by
    intro m
    apply intervalIntegral.intervalIntegral_pos_of_pos_on
    · exact Continuous.intervalIntegrable (by unfold gaussianPDFReal; fun_prop) _ _
    · intro x _
      exact gaussianPDFReal_pos _ _ _ (sqv_ne hσ)
    · linarith
  have hle1 : ∀ m : ℝ, ∫ x in (-R)..R, gaussianPDFReal m (sqv σ) x ≤ 1 := by
    intro m
    rw [intervalIntegral.integral_of_le (by linarith), ← integral_gaussianPDFReal_eq_one m (sqv_ne hσ)]
    exact setIntegral_le_integral (integrable_gaussianPDFReal m _) (Filter.Eventually.of_forall fun x => gaussianPDFReal_nonneg _ _ _)
  set G : ℝ → ℝ := fun u => Real.exp (-u ^ 2 / (8 * σ ^ 2)) * ∫ x in (-R)..R, gaussianPDFReal (u / 2) (sqv σ) x with hG
  have hGanti : ∀ u v, 0 ≤ u → u < v → G v < G u := by
    intro u v hu huv
    have h1 : Real.exp (-v ^ 2 / (8 * σ ^ 2)) < Real.exp (-u ^ 2 / (8 * σ ^ 2)) := by
      apply Real.exp_lt_exp.mpr
      apply div_lt_div_of_pos_right _ (by positivity)
      nlinarith
    have h2 := gauss_window_anti σ R hσ hR (show u / 2 ∈ Ici 0 from div_nonneg hu (by norm_num))
      (show v / 2 ∈ Ici 0 from div_nonneg (hu.trans huv.le) (by norm_num)) (by linarith)
    exact mul_lt_mul h1 h2 (hpos _) (Real.exp_pos _).le
  have hG1 : ∀ u, 0 < u → G u < 1 := by
    intro u hu
    refine (hGanti 0 u le_rfl hu).trans_le ?_
    simp only [hG]
    rw [show -(0 : ℝ) ^ 2 / (8 * σ ^ 2) = 0 by simp, Real.exp_zero, one_mul]
    exact hle1 _
  have hG0 : G 0 ≤ 1 := by
    simp only [hG]
    rw [show -(0 : ℝ) ^ 2 / (8 * σ ^ 2) = 0 by simp, Real.exp_zero, one_mul]
    exact hle1 _
  have hhel : ∀ δ, hellinger (Icc (μ - R) (μ + R)) (Marg.normal μ σ).pdf (gaussianPDFReal δ (sqv σ)) = 2 - 2 * G |δ - μ| := by
    intro δ
    have := hellinger_normal_mean μ σ R hσ hR (δ - μ)
    rw [add_sub_cancel] at this
    rw [this, hG]
    simp only [sq_abs]
  suffices hsuf : _ by
    obtain ⟨xs, h1, h2, h3, _⟩ := abscissas_sorted (meanAbscissa solve (Icc (μ - R) (μ + R)) (.normal μ σ)) (fun _ => True) hsuf
      (fun δ _ => ⟨_, hval δ⟩) ds (fun _ _ => trivial) hsort
    exact ⟨xs, h1, h2, h3⟩
  · intro δ δ' _ _ hlt
    refine ⟨_, _, hval δ, hval δ', ?_⟩
    rw [hellingerAbscissa, hellingerAbscissa, hhel, hhel]
    by_cases h : δ < μ
    · have e := hG1 |δ - μ| (abs_pos.mpr (by linarith))
      rw [if_pos h]
      by_cases h' : δ' < μ
      · rw [if_pos h']
        rw [abs_of_neg (by linarith), abs_of_neg (by linarith)]
        have := hGanti (-(δ' - μ)) (-(δ - μ)) (by linarith) (by linarith)
        linarith
      · rw [if_neg h']
        have : G |δ' - μ| ≤ 1 := by
          rcases (abs_nonneg (δ' - μ)).eq_or_lt with h0 | h0
          · rw [← h0]; exact hG0
          · exact (hG1 _ h0).le
        linarith
    · push Not at h
      rw [if_neg (by linarith), if_neg (by linarith), abs_of_nonneg (by linarith), abs_of_nonneg (by linarith)]
      have := hGanti (δ - μ) (δ' - μ) (by linarith) (by linarith)
      linarith

example : ∃ xs, abscissas (meanAbscissa (fun _ _ _ => 0) (Icc (3 - 16) (3 + 16)) (.normal 3 2)) [1, 3, 7 / 2] = .ok xs ∧
    xs.length = 3 ∧ xs.Pairwise (· < ·) :=
  C167_normal_mean 3 2 16 (by norm_num) (by norm_num) _ _ (by norm_num)

/-- **C167 (Normal, mean, scaled).**  With the range taken as the whole line, the abscissa of a delta given in deviations from the mean
(`sigmaScaled`) does not depend on the mean and the deviation of the marginal: the points of all Normal marginals share their abscissas. -/
theorem C167_normal_scaled (μ σ d : ℝ) (hσ : 0 < σ) (solve : ℝ → ℝ → ℝ → ℝ) :
    meanAbscissa solve univ (.normal μ σ) (d * σ + μ)
      = .ok ((if d < 0 then -1 else 1) * (2 - 2 * Real.exp (-d ^ 2 / 8))) := by
  have hp : (Marg.normal μ σ).pdf = gaussianPDFReal μ (sqv σ) := by
    have := (C61_normal μ σ μ hσ (fun _ _ _ => 0)).1
    rw [meanPert.eq_def, if_pos (show μ = (Marg.normal μ σ).mean from rfl), Except.ok.injEq] at this
    exact this
  rw [meanAbscissa_ok (C61_normal μ σ _ hσ solve).1, hellingerAbscissa, hellinger, hp]
  simp only [sqrt_gauss_mean μ _ σ hσ, integral_const_mul, setIntegral_univ, integral_gaussianPDFReal_eq_one _ (sqv_ne hσ), mul_one]
  have e : -(d * σ + μ - μ) ^ 2 / (8 * σ ^ 2) = -d ^ 2 / 8 := by field_simp; ring
  have hs : (d * σ + μ < (Marg.normal μ σ).mean) ↔ d < 0 := by
    show d * σ + μ < μ ↔ d < 0
    constructor
    · intro h; by_contra hc; push Not at hc; nlinarith
    · intro h; nlinarith
  rw [e]
  by_cases h : d < 0
  · rw [if_pos (hs.mpr h), if_pos h]; ring_nf
  · rw [if_neg (fun hc => h (hs.mp hc)), if_neg h]; ring_nf

example : (0 : ℝ) < 2 := by norm_num

/-! ## Normal marginal, variance -/

/-- The product of the two densities under the root. -/
theorem sqrt_gauss_var (μ v w : ℝ) (hv : 0 < v) (hw : 0 < w) (x : ℝ) :
    Real.sqrt (gaussianPDFReal μ v.toNNReal x * gaussianPDFReal μ w.toNNReal x)
      = Real.sqrt (2 * Real.sqrt (v * w) / (v + w)) * gaussianPDFReal μ (2 * v * w / (v + w)).toNNReal x := by
  have hu : 0 < 2 * v * w / (v + w) := by positivity
  have hnn : 0 ≤ gaussianPDFReal μ (2 * v * w / (v + w)).toNNReal x := gaussianPDFReal_nonneg _ _ _
  rw [← Real.sqrt_sq hnn, ← Real.sqrt_mul (by positivity)]
  congr 1
  simp only [gaussianPDFReal, Real.coe_toNNReal _ hv.le, Real.coe_toNNReal _ hw.le, Real.coe_toNNReal _ hu.le]
  have hpi := Real.pi_pos
  have e1 : (Real.sqrt (2 * Real.pi * v))⁻¹ * (Real.sqrt (2 * Real.pi * w))⁻¹ = (2 * Real.pi * Real.sqrt (v * w))⁻¹ := by
    rw [← mul_inv, ← Real.sqrt_mul (by positivity), show 2 * Real.pi * v * (2 * Real.pi * w) = (2 * Real.pi) ^ 2 * (v * w) by ring,
      Real.sqrt_mul (by positivity), Real.sqrt_sq (by positivity)]
  have e2 : ((Real.sqrt (2 * Real.pi * (2 * v * w / (v + w))))⁻¹) ^ 2 = (2 * Real.pi * (2 * v * w / (v + w)))⁻¹ := by
    rw [inv_pow, Real.sq_sqrt (by positivity)]
  have e3 : Real.exp (-(x - μ) ^ 2 / (2 * v)) * Real.exp (-(x - μ) ^ 2 / (2 * w))
      = (Real.exp (-(x - μ) ^ 2 / (2 * (2 * v * w / (v + w))))) ^ 2 := by
    rw [← Real.exp_add, ← Real.exp_nat_mul]
    congr 1
    push_cast
    field_simp
    ring
  have hs : Real.sqrt (v * w) * Real.sqrt (v * w) = v * w := Real.mul_self_sqrt (by positivity)
  have hsp : 0 < Real.sqrt (v * w) := Real.sqrt_pos.mpr (by positivity)
  calc (Real.sqrt (2 * Real.pi * v))⁻¹ * Real.exp (-(x - μ) ^ 2 / (2 * v)) * ((Real.sqrt (2 * Real.pi * w))⁻¹ * Real.exp (-(x - μ) ^ 2 / (2 * w)))
      = ((Real.sqrt (2 * Real.pi * v))⁻¹ * (Real.sqrt (2 * Real.pi * w))⁻¹)
        * (Real.exp (-(x - μ) ^ 2 / (2 * v)) * Real.exp (-(x - μ) ^ 2 / (2 * w))) := by ring
    _ = (2 * Real.pi * Real.sqrt (v * w))⁻¹ * (Real.exp (-(x - μ) ^ 2 / (2 * (2 * v * w / (v + w))))) ^ 2 := by rw [e1, e3]
    _ = 2 * Real.sqrt (v * w) / (v + w) * ((2 * Real.pi * (2 * v * w / (v + w)))⁻¹ * (Real.exp (-(x - μ) ^ 2 / (2 * (2 * v * w / (v + w))))) ^ 2) := by
        rw [← mul_assoc]
        congr 1
        rw [← sub_eq_zero]
        field_simp
        linear_combination -hs
    _ = _ := by rw [mul_pow, e2]

/-- **C167 (Normal, variance).**  The range of the marginal is taken as the whole line: positive deltas in increasing order give abscissas in
increasing order. -/
theorem C167_normal_variance (μ σ : ℝ) (hσ : 0 < σ) (optimize : (ℝ → ℝ) → ℝ → ℝ → ℝ × ℝ → ℝ × ℝ) (ds : List ℝ) (hd : ∀ d ∈ ds, 0 < d)
    (hsort : ds.Pairwise (· < ·)) :
    ∃ xs, abscissas (varAbscissa optimize univ (.normal μ σ)) ds = .ok xs ∧ xs.length = ds.length ∧ xs.Pairwise (· < ·) := by
  have hv : 0 < σ ^ 2 := by positivity
  have hp : (Marg.normal μ σ).pdf = gaussianPDFReal μ (σ ^ 2).toNNReal := by
    have := (C62_normal μ σ (σ ^ 2) hσ hv optimize).1
    rw [varPert.eq_def, if_pos (show σ ^ 2 = (Marg.normal μ σ).var from rfl), Except.ok.injEq] at this
    exact this
  set B : ℝ → ℝ := fun δ => 2 * Real.sqrt (σ ^ 2 * δ) / (σ ^ 2 + δ) with hB
  have hval : ∀ δ, 0 < δ → varAbscissa optimize univ (.normal μ σ) δ
      = .ok (if δ < σ ^ 2 then -(2 - 2 * Real.sqrt (B δ)) else 2 - 2 * Real.sqrt (B δ)) := by
    intro δ hδ
    have hu : (2 * σ ^ 2 * δ / (σ ^ 2 + δ)).toNNReal ≠ 0 := by
      rw [Ne, Real.toNNReal_eq_zero, not_le]; positivity
    rw [varAbscissa_ok (C62_normal μ σ δ hσ hδ optimize).1, hellingerAbscissa, hellinger, hp]
    simp only [sqrt_gauss_var μ _ _ hv hδ, integral_const_mul, setIntegral_univ, integral_gaussianPDFReal_eq_one _ hu, mul_one]
    rfl
  have hBs : ∀ s, 0 < s → B (s ^ 2) = 2 * (σ * s) / (σ ^ 2 + s ^ 2) := by
    intro s hs
    simp only [hB]
    rw [show σ ^ 2 * s ^ 2 = (σ * s) ^ 2 by ring, Real.sqrt_sq (by positivity)]
  have hlt : ∀ s u, 0 < s → 0 < u → 0 < (u - s) * (σ ^ 2 - s * u) → B (s ^ 2) < B (u ^ 2) := by
    intro s u hs hu h
    rw [hBs s hs, hBs u hu, div_lt_div_iff₀ (by positivity) (by positivity)]
    nlinarith
  have hB1 : ∀ s, 0 < s → B (s ^ 2) ≤ 1 := by
    intro s hs
    rw [hBs s hs, div_le_one (by positivity)]
    nlinarith [sq_nonneg (σ - s)]
  have hBlt : ∀ s, 0 < s → s < σ → B (s ^ 2) < 1 := by
    intro s hs h
    rw [hBs s hs, div_lt_one (by positivity)]
    nlinarith [pow_pos (sub_pos.mpr h) 2]
  suffices hsuf : _ by
    obtain ⟨xs, h1, h2, h3, _⟩ := abscissas_sorted (varAbscissa optimize univ (.normal μ σ)) (fun d => 0 < d) hsuf
      (fun δ h => ⟨_, hval δ h⟩) ds hd hsort
    exact ⟨xs, h1, h2, h3⟩
  intro δ δ' hδ hδ' hlt'
  refine ⟨_, _, hval δ hδ, hval δ' hδ', ?_⟩
  obtain ⟨s, hs, rfl⟩ : ∃ s, 0 < s ∧ s ^ 2 = δ := ⟨Real.sqrt δ, Real.sqrt_pos.mpr hδ, Real.sq_sqrt hδ.le⟩
  obtain ⟨u, hu, rfl⟩ : ∃ u, 0 < u ∧ u ^ 2 = δ' := ⟨Real.sqrt δ', Real.sqrt_pos.mpr hδ', Real.sq_sqrt hδ'.le⟩
  have hsu : s < u := lt_of_pow_lt_pow_left₀ 2 hu.le hlt'
  have hiff : ∀ s : ℝ, 0 < s → (s ^ 2 < σ ^ 2 ↔ s < σ) := fun s hs => pow_lt_pow_iff_left₀ hs.le hσ.le (by norm_num)
  have hBpos : ∀ s, 0 < s → 0 < B (s ^ 2) := by
    intro s hs; rw [hBs s hs]; positivity
  by_cases h : s < σ
  · rw [if_pos ((hiff s hs).mpr h)]
    have e1 : Real.sqrt (B (s ^ 2)) < 1 := by
      rw [Real.sqrt_lt' one_pos, one_pow]; exact hBlt s hs h
    by_cases h' : u < σ
    · rw [if_pos ((hiff u hu).mpr h')]
      have := Real.sqrt_lt_sqrt (hBpos s hs).le (hlt s u hs hu (mul_pos (by linarith) (by nlinarith)))
      linarith
    · rw [if_neg (fun hc => h' ((hiff u hu).mp hc))]
      have : Real.sqrt (B (u ^ 2)) ≤ 1 := by
        exact Real.sqrt_le_iff.mpr ⟨by norm_num, by rw [one_pow]; exact hB1 u hu⟩
      linarith
  · push Not at h
    rw [if_neg (fun hc => absurd ((hiff s hs).mp hc) (not_lt.mpr h)), if_neg (fun hc => absurd ((hiff u hu).mp hc) (by linarith))]
    have hneg : 0 < (s - u) * (σ ^ 2 - u * s) := by
      apply mul_pos_of_neg_of_neg (by linarith)
      nlinarith
    have := Real.sqrt_lt_sqrt (hBpos u hu).le (hlt u s hu hs hneg)
    linarith

example : ∃ xs, abscissas (varAbscissa (fun _ _ _ _ => 0) univ (.normal 3 2)) [1, 4, 9] = .ok xs ∧ xs.length = 3 ∧ xs.Pairwise (· < ·) :=
  C167_normal_variance 3 2 (by norm_num) _ _ (by norm_num) (by norm_num)

/-! ## Uniform marginal, variance -/

/-- A perturbed density with the requested moments is tilted by the squared distance to the centre. -/
theorem varPert_tilt {a b δ : ℝ} (hab : a < b) (h0 : 0 < δ) (h1 : δ < (b - a) ^ 2 / 4) {optimize : (ℝ → ℝ) → ℝ → ℝ → ℝ × ℝ → ℝ × ℝ}
    {q : ℝ → ℝ} (hq : varPert optimize (.uniform a b) δ = .ok q) (hh : Honoured a b δ q) :
    ∃ t, (∀ x ∈ Icc a b, q x = Real.exp (t * (x - (a + b) / 2) ^ 2) / tiltZ a b (fun x => (x - (a + b) / 2) ^ 2) t) ∧
      tiltZ1 a b (fun x => (x - (a + b) / 2) ^ 2) t / tiltZ a b (fun x => (x - (a + b) / 2) ^ 2) t = δ := by
  have hba : 0 < b - a := sub_pos.mpr hab
  have hw2 : 0 < (b - a) ^ 2 := pow_pos hba 2
  set m := (a + b) / 2 with hm
  suffices hsuf : ∃ t, (∀ x ∈ Icc a b, q x = Real.exp (t * (x - m) ^ 2) / tiltZ a b (fun x => (x - m) ^ 2) t) ∧ ∀ x, x ∉ Icc a b → q x = 0 by
    obtain ⟨t, ht, hout⟩ := hsuf
    refine ⟨t, ht, ?_⟩
    have := hh.2
    rw [integral_indicator_Icc hab.le (fun x => (tiltZ a b (fun x => (x - m) ^ 2) t)⁻¹ * ((x - m) ^ 2 * Real.exp (t * (x - m) ^ 2)))
      (fun x => (x - m) ^ 2 * q x) (fun x hx => by rw [ht x hx]; ring) (fun x hx => by rw [hout x hx, mul_zero]),
      intervalIntegral.integral_const_mul] at this
    rw [← this, tiltZ1, inv_mul_eq_div]
  by_cases hδ : δ = (b - a) ^ 2 / 12
  · refine ⟨0, ?_, ?_⟩
    all_goals
      rw [varPert.eq_def, if_pos (show δ = (Marg.uniform a b).var from hδ), Except.ok.injEq] at hq
      intro x hx
      rw [← hq]
    · have hx' : a ≤ x ∧ x ≤ b := hx
      simp [Marg.pdf, hx', tiltZ]
    · simp only [Marg.pdf]
      exact if_neg hx
  · obtain ⟨T, hT⟩ := unit_tilt (r := δ / (b - a) ^ 2) (by positivity) (by rw [div_lt_iff₀ hw2]; linarith)
    obtain ⟨s1, s2⟩ := qm_solution hab hT
    rw [div_mul_cancel₀ _ hw2.ne'] at s2
    obtain ⟨hin, hout, _, _, _⟩ := varPert_moments hab optimize hδ hq rfl
    obtain ⟨e1, e2⟩ := (varPert_honoured_iff hab optimize hδ hq rfl).mp hh
    have hlam := qm_unique hab _ _ e1 e2 s1 s2
    rw [hlam] at hin
    set t := T / (b - a) ^ 2
    refine ⟨t, ?_, hout⟩
    have hexp : ∀ x : ℝ, Real.exp (t * (x - m) ^ 2) = Real.exp (t * m ^ 2) * Real.exp (-((a + b) * t) * x + t * x ^ 2) := by
      intro x
      rw [← Real.exp_add]; congr 1; rw [hm]; ring
    have hZ : tiltZ a b (fun x => (x - m) ^ 2) t = Real.exp (t * m ^ 2) * qm a b 0 (-((a + b) * t), t) := by
      rw [tiltZ, qm, ← intervalIntegral.integral_const_mul]
      congr 1; funext x
      rw [hexp, pow_zero]; ring
    intro x hx
    rw [hin x hx, hZ, hexp, mul_div_mul_left _ _ (Real.exp_pos _).ne', one_div, inv_mul_eq_div]

/-- **C167 (partial: Uniform, variance).**  Admissible variances in increasing order, when each perturbed density has the requested moments (see
C153 for when it does): the abscissas are in increasing order. -/
theorem C167_uniform_variance_partial (a b : ℝ) (hab : a < b) (optimize : (ℝ → ℝ) → ℝ → ℝ → ℝ × ℝ → ℝ × ℝ) (ds : List ℝ)
    (hd : ∀ d ∈ ds, 0 < d ∧ d < (b - a) ^ 2 / 4) (hh : ∀ d ∈ ds, ∀ q, varPert optimize (.uniform a b) d = .ok q → Honoured a b d q)
    (hsort : ds.Pairwise (· < ·)) :
    ∃ xs, abscissas (varAbscissa optimize (Icc a b) (.uniform a b)) ds = .ok xs ∧ xs.length = ds.length ∧ xs.Pairwise (· < ·) := by
  have hok : ∀ δ, ∃ q, varPert optimize (.uniform a b) δ = .ok q := by
    intro δ
    rw [varPert.eq_def]
    split_ifs
    · exact ⟨_, rfl⟩
    · exact ⟨_, rfl⟩
  have hba : 0 < b - a := sub_pos.mpr hab
  suffices hsuf : _ by
    obtain ⟨xs, h1, h2, h3, _⟩ := abscissas_sorted (varAbscissa optimize (Icc a b) (.uniform a b))
      (fun d => (0 < d ∧ d < (b - a) ^ 2 / 4) ∧ ∀ q, varPert optimize (.uniform a b) d = .ok q → Honoured a b d q) hsuf
      (fun δ _ => by obtain ⟨q, hq⟩ := hok δ; exact ⟨_, varAbscissa_ok hq⟩) ds (fun d h => ⟨hd d h, hh d h⟩) hsort
    exact ⟨xs, h1, h2, h3⟩
  rintro δ δ' ⟨⟨h0, h1⟩, hq0⟩ ⟨⟨h0', h1'⟩, hq0'⟩ hlt
  obtain ⟨q, hq⟩ := hok δ
  obtain ⟨q', hq'⟩ := hok δ'
  obtain ⟨t, e1, e2⟩ := varPert_tilt hab h0 h1 hq (hq0 q hq)
  obtain ⟨t', e1', e2'⟩ := varPert_tilt hab h0' h1' hq' (hq0' q' hq')
  refine ⟨_, _, varAbscissa_ok hq, varAbscissa_ok hq', ?_⟩
  refine abscissa_tilt_lt hab (T := fun x => (x - (a + b) / 2) ^ 2) (by fun_prop)
    ⟨a, ⟨le_rfl, hab.le⟩, (a + b) / 2, ⟨by linarith, by linarith⟩, ?_⟩ e1 e1' e2 e2' ?_ hlt
  · have : a - (a + b) / 2 ≠ 0 := by
      intro h; linarith
    simpa using this
  · simp only [tiltZ1, tiltZ, zero_mul, Real.exp_zero, mul_one, intervalIntegral.integral_const, smul_eq_mul]
    rw [intervalIntegral.integral_comp_sub_right (fun x => x ^ 2), integral_pow, show (Marg.uniform a b).var = (b - a) ^ 2 / 12 from rfl]
    field_simp
    push_cast
    ring

/-- The hypotheses hold for the original variance and its double, on a long interval. -/
example : ∃ (a b : ℝ) (optimize : (ℝ → ℝ) → ℝ → ℝ → ℝ × ℝ → ℝ × ℝ) (xs : List ℝ), a < b ∧
    abscissas (varAbscissa optimize (Icc a b) (.uniform a b)) [1 / 8 * (b - a) ^ 2, 1 / 6 * (b - a) ^ 2] = .ok xs ∧
      xs.length = 2 ∧ xs.Pairwise (· < ·) := by
  obtain ⟨T, _, h⟩ := C153_exact_partial (1 / 6) (by norm_num) (by norm_num) (by norm_num)
  obtain ⟨S, _, k⟩ := C153_exact_partial (1 / 8) (by norm_num) (by norm_num) (by norm_num)
  obtain ⟨o, ho⟩ := boxOptimizer_exists
  have hT := abs_nonneg T
  have hS := abs_nonneg S
  set w := 1 + |T| + |S| with hw
  have hw0 : 1 ≤ w := by linarith
  obtain ⟨p, hp, _, hiff⟩ := h (-w) w (by linarith) o (ho _ _ _ (by linarith))
  obtain ⟨r, hr, _, kiff⟩ := k (-w) w (by linarith) o (ho _ _ _ (by linarith))
  have e : (0 : ℝ) < (w - -w) ^ 2 := pow_pos (by linarith) 2
  have hwle : w ≤ 1000 * (w - -w) ^ 2 := by nlinarith
  obtain ⟨xs, h1, h2, h3⟩ := C167_uniform_variance_partial (-w) w (by linarith) o [1 / 8 * (w - -w) ^ 2, 1 / 6 * (w - -w) ^ 2]
    (by
      intro d hd
      simp only [List.mem_cons, List.not_mem_nil, or_false] at hd
      rcases hd with rfl | rfl <;> constructor <;> linarith)
    (by
      intro d hd q hq
      simp only [List.mem_cons, List.not_mem_nil, or_false] at hd
      rcases hd with rfl | rfl
      · rw [hr, Except.ok.injEq] at hq
        rw [← hq, kiff, neg_add_cancel, zero_mul, abs_zero]
        exact ⟨by linarith, by positivity⟩
      · rw [hp, Except.ok.injEq] at hq
        rw [← hq, hiff, neg_add_cancel, zero_mul, abs_zero]
        exact ⟨by linarith, by positivity⟩)
    (by simp only [List.pairwise_cons, List.mem_singleton, forall_eq, List.not_mem_nil, false_implies, implies_true, List.Pairwise.nil, and_true]; linarith)
  exact ⟨-w, w, o, xs, by linarith, h1, h2, h3⟩

/-! ## The box -/

/-- On an interval centred on zero a multiplier of the first degree increases the normalisation. -/
theorem qm_zero_lt {w : ℝ} (hw : 0 < w) {l1 : ℝ} (l2 : ℝ) (h : l1 ≠ 0) : tiltZ (-w) w (fun x => x ^ 2) l2 < qm (-w) w 0 (l1, l2) := by
  have hr : qm (-w) w 0 (l1, l2) = ∫ x in (-w)..w, Real.exp (-l1 * x + l2 * x ^ 2) := by
    have := intervalIntegral.integral_comp_neg (a := -w) (b := w) (fun x => x ^ 0 * Real.exp (l1 * x + l2 * x ^ 2))
    rw [neg_neg] at this
    rw [qm, ← this]
    congr 1; funext x
    rw [pow_zero, one_mul]; congr 1; ring
  have hsum : qm (-w) w 0 (l1, l2) = ∫ x in (-w)..w, Real.cosh (l1 * x) * Real.exp (l2 * x ^ 2) := by
    have e : qm (-w) w 0 (l1, l2) + qm (-w) w 0 (l1, l2) = 2 * ∫ x in (-w)..w, Real.cosh (l1 * x) * Real.exp (l2 * x ^ 2) := by
      nth_rw 2 [hr]
      rw [qm, ← intervalIntegral.integral_add (Continuous.intervalIntegrable (by fun_prop) _ _) (Continuous.intervalIntegrable (by fun_prop) _ _),
        ← intervalIntegral.integral_const_mul]
      congr 1; funext x
      dsimp only
      rw [pow_zero, one_mul, Real.cosh_eq, Real.exp_add, Real.exp_add, show -l1 * x = -(l1 * x) by ring]
      ring
    linarith
  rw [hsum, tiltZ, ← sub_pos, ← intervalIntegral.integral_sub (Continuous.intervalIntegrable (by fun_prop) _ _)
    (Continuous.intervalIntegrable (by fun_prop) _ _)]
  apply intervalIntegral.integral_pos (by linarith) (by fun_prop)
  · intro x _
    have := Real.one_le_cosh (l1 * x)
    nlinarith [Real.exp_pos (l2 * x ^ 2)]
  · refine ⟨w, ⟨by linarith, le_rfl⟩, ?_⟩
    have := Real.one_lt_cosh.mpr (mul_ne_zero h hw.ne')
    nlinarith [Real.exp_pos (l2 * w ^ 2)]

/-- Requests beyond the variance reached at the edge of the box: the optimiser returns the corner. -/
theorem box_corner {w δ : ℝ} (hw : 0 < w)
    (hδ : tiltZ1 (-w) w (fun x => x ^ 2) 1000 / tiltZ (-w) w (fun x => x ^ 2) 1000 < δ) {lam : ℝ × ℝ}
    (hbox : BoxMin (Marg.uniform (-w) w).pdf (-w) w (0, δ) lam) : lam = (0, 1000) := by
  have hab : -w < w := by linarith
  have hT : Continuous fun x : ℝ => x ^ 2 := by fun_prop
  have hne : ∃ x ∈ Icc (-w) w, ∃ y ∈ Icc (-w) w, (fun x : ℝ => x ^ 2) x ≠ (fun x : ℝ => x ^ 2) y :=
    ⟨w, ⟨by linarith, le_rfl⟩, 0, ⟨by linarith, hw.le⟩, by simp [hw.ne']⟩
  have hm := tiltMean_strictMono hab hT hne
  have hq0 : ∀ t, qm (-w) w 0 (0, t) = tiltZ (-w) w (fun x => x ^ 2) t := by
    intro t; simp [qm, tiltZ]
  have hH : ∀ l1 l2, dualH (Marg.uniform (-w) w).pdf (-w) w (0, δ) (l1, l2)
      = Real.log (1 / (w - -w)) + Real.log (qm (-w) w 0 (l1, l2)) - l2 * δ := by
    intro l1 l2
    have hpos := qm_pos hab (l1, l2)
    have : (0 : ℝ) < w - -w := by linarith
    rw [dualH, tiltIntegral_uniform hab, Real.log_mul (by positivity) hpos.ne']
    ring
  have hg : StrictAntiOn (fun t => Real.log (tiltZ (-w) w (fun x => x ^ 2) t) - t * δ) (Iic 1000) := by
    have hd : ∀ t, HasDerivAt (fun t => Real.log (tiltZ (-w) w (fun x => x ^ 2) t) - t * δ)
        (tiltZ1 (-w) w (fun x => x ^ 2) t / tiltZ (-w) w (fun x => x ^ 2) t - δ) t := by
      intro t
      have h1 := (tiltZ_deriv hab hT t).log (tiltZ_pos hab hT t).ne'
      have h2 := (hasDerivAt_id t).mul_const δ
      rw [one_mul] at h2
      exact h1.sub h2
    apply strictAntiOn_of_deriv_neg (convex_Iic 1000)
    · exact fun t _ => (hd t).continuousAt.continuousWithinAt
    · intro t ht
      rw [interior_Iic] at ht
      rw [(hd t).deriv]
      have := hm ht
      dsimp only at this
      linarith
  obtain ⟨l1, l2⟩ := lam
  obtain ⟨⟨_, ⟨_, hl2⟩⟩, hmin⟩ := hbox
  have hcorner := hmin (0, 1000) ⟨⟨by norm_num, by norm_num⟩, ⟨by norm_num, le_rfl⟩⟩
  rw [hH, hH, hq0] at hcorner
  dsimp only at hl2
  have hl2' : Real.log (tiltZ (-w) w (fun x => x ^ 2) 1000) - 1000 * δ ≤ Real.log (tiltZ (-w) w (fun x => x ^ 2) l2) - l2 * δ :=
    hg.antitoneOn (show l2 ∈ Iic 1000 from hl2) (show (1000 : ℝ) ∈ Iic 1000 from le_refl (1000 : ℝ)) hl2
  have h1 : l1 = 0 := by
    by_contra h
    have := Real.log_lt_log (tiltZ_pos hab hT l2) (qm_zero_lt hw l2 h)
    linarith
  subst h1
  rw [hq0] at hcorner
  have h2 : l2 = 1000 := by
    by_contra h
    have := hg (show l2 ∈ Iic 1000 from hl2) (show (1000 : ℝ) ∈ Iic 1000 from le_refl (1000 : ℝ)) (lt_of_le_of_ne hl2 h)
    dsimp only at this
    linarith
  rw [h2]

/-- The variance reached at the edge of the box. -/
theorem box_edge {w : ℝ} (hw : 0 < w) :
    tiltZ1 (-w) w (fun x => x ^ 2) 1000 / tiltZ (-w) w (fun x => x ^ 2) 1000 ≤ Real.exp (1000 * w ^ 2) * (w ^ 2 / 3) := by
  have hab : -w < w := by linarith
  have hZ : 2 * w ≤ tiltZ (-w) w (fun x => x ^ 2) 1000 := by
    have : ∫ _ in (-w)..w, (1 : ℝ) = 2 * w := by simp; ring
    rw [← this, tiltZ]
    apply intervalIntegral.integral_mono_on hab.le (Continuous.intervalIntegrable (by fun_prop) _ _) (Continuous.intervalIntegrable (by fun_prop) _ _)
    intro x _
    rw [one_mul]
    exact Real.one_le_exp (by positivity)
  have hZ1 : tiltZ1 (-w) w (fun x => x ^ 2) 1000 ≤ Real.exp (1000 * w ^ 2) * (2 * w ^ 3 / 3) := by
    have : ∫ x in (-w)..w, Real.exp (1000 * w ^ 2) * x ^ 2 = Real.exp (1000 * w ^ 2) * (2 * w ^ 3 / 3) := by
      rw [intervalIntegral.integral_const_mul, integral_pow]
      congr 1
      push_cast
      ring
    rw [← this, tiltZ1]
    apply intervalIntegral.integral_mono_on hab.le (Continuous.intervalIntegrable (by fun_prop) _ _) (Continuous.intervalIntegrable (by fun_prop) _ _)
    intro x hx
    rw [mul_comm]
    apply mul_le_mul_of_nonneg_right _ (by positivity)
    apply Real.exp_le_exp.mpr
    have : x ^ 2 ≤ w ^ 2 := by nlinarith [hx.1, hx.2]
    linarith
  rw [div_le_iff₀ (by linarith)]
  have hc : 0 ≤ Real.exp (1000 * w ^ 2) * (w ^ 2 / 3) := by positivity
  calc tiltZ1 (-w) w (fun x => x ^ 2) 1000 ≤ Real.exp (1000 * w ^ 2) * (2 * w ^ 3 / 3) := hZ1
    _ = Real.exp (1000 * w ^ 2) * (w ^ 2 / 3) * (2 * w) := by ring
    _ ≤ _ := mul_le_mul_of_nonneg_left hZ hc

/-- **C167 is violated.**  Uniform marginal on `[-w, w]`, any optimiser returning the minimum over the box: all the variances above
`exp(1000 w²) w² / 3` (the original one is `w² / 3`; the admissible ones are those below `w²`) have the same perturbed density, so that
different deltas are drawn at the same abscissa. -/
theorem C167_violated {w δ δ' : ℝ} (hw : 0 < w) (h0 : Real.exp (1000 * w ^ 2) * (w ^ 2 / 3) < δ) (hlt : δ < δ')
    (optimize : (ℝ → ℝ) → ℝ → ℝ → ℝ × ℝ → ℝ × ℝ)
    (hbox : ∀ rhs, BoxMin (Marg.uniform (-w) w).pdf (-w) w rhs (optimize (Marg.uniform (-w) w).pdf (-w) w rhs)) :
    (∃ q, varPert optimize (.uniform (-w) w) δ = .ok q ∧ varPert optimize (.uniform (-w) w) δ' = .ok q) ∧
    ∃ x, abscissas (varAbscissa optimize (Icc (-w) w) (.uniform (-w) w)) [δ, δ'] = .ok [x, x] := by
  have horig : w ^ 2 / 3 < δ := by
    have h1 : 1 ≤ Real.exp (1000 * w ^ 2) := Real.one_le_exp (by positivity)
    have h2 : 0 < w ^ 2 / 3 := by positivity
    nlinarith
  have hvar : (Marg.uniform (-w) w).var = w ^ 2 / 3 := by
    show (w - -w) ^ 2 / 12 = _; ring
  have hmean : (Marg.uniform (-w) w).mean = 0 := by
    show (-w + w) / 2 = 0; ring
  have hpert : ∀ d, δ ≤ d → varPert optimize (.uniform (-w) w) d = .ok fun x =>
      Real.exp ((0, 1000).1 * x + (0, 1000).2 * x ^ 2 - Real.log (tiltIntegral (Marg.uniform (-w) w).pdf (-w) w (0, 1000) 0))
        * (Marg.uniform (-w) w).pdf x := by
    intro d hd
    have hne : ¬ d = (Marg.uniform (-w) w).var := by rw [hvar]; intro h; linarith
    have hcorner := box_corner hw (lt_of_le_of_lt (box_edge hw) (h0.trans_le hd)) (hbox (0, d))
    rw [varPert.eq_def, if_neg hne]
    simp only [hmean, zero_pow (two_ne_zero), add_zero, hcorner]
  refine ⟨⟨_, hpert δ le_rfl, hpert δ' hlt.le⟩, ?_⟩
  have hq := varAbscissa_ok (s := Icc (-w) w) (hpert δ le_rfl)
  have hq' := varAbscissa_ok (s := Icc (-w) w) (hpert δ' hlt.le)
  rw [hellingerAbscissa, hvar, if_neg (by linarith)] at hq hq'
  exact ⟨_, by simp only [abscissas, hq, hq']; rfl⟩

/-- An input in metres, on an interval of two centimetres: half and three quarters of the largest variance. -/
example : ∃ (optimize : (ℝ → ℝ) → ℝ → ℝ → ℝ × ℝ → ℝ × ℝ) (x : ℝ),
    abscissas (varAbscissa optimize (Icc (-(1 / 100)) (1 / 100)) (.uniform (-(1 / 100)) (1 / 100))) [0.5 * (1 / 100) ^ 2, 0.75 * (1 / 100) ^ 2]
      = .ok [x, x] := by
  obtain ⟨o, ho⟩ := boxOptimizer_exists
  refine ⟨o, (C167_violated (by norm_num) ?_ (by norm_num) o fun rhs => ho _ _ rhs (by norm_num)).2⟩
  have h1 : Real.exp (1000 * (1 / 100) ^ 2) ≤ 1.2 := by
    have : Real.exp (1 / 10) ≤ 1.2 := by
      have h2 := Real.add_one_le_exp (-(1 / 10 : ℝ))
      rw [Real.exp_neg] at h2
      have h3 := Real.exp_pos (1 / 10)
      have h4 : (-(1 / 10) + 1) * Real.exp (1 / 10) ≤ 1 := by
        calc _ ≤ (Real.exp (1 / 10))⁻¹ * Real.exp (1 / 10) := mul_le_mul_of_nonneg_right h2 h3.le
          _ = 1 := inv_mul_cancel₀ h3.ne'
      norm_num at h4 ⊢
      linarith
    convert this using 2
    norm_num
  calc _ ≤ 1.2 * ((1 / 100 : ℝ) ^ 2 / 3) := mul_le_mul_of_nonneg_right h1 (by positivity)
    _ < _ := by norm_num

end Verif.Props
