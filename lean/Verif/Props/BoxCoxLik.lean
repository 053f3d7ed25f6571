import Verif.Model.BoxCoxLik
import Verif.Props.ResidualVar
import Verif.Props.PliDensity
import Verif.Props.Base
import Mathlib.Analysis.Convex.Continuous
import Mathlib.Analysis.Convex.Extrema
import Mathlib.Analysis.Convex.SpecificFunctions.Basic
import Mathlib.Topology.Order.Compact

/-!
# C155: the Box-Cox parameter is determined by the signals
-/

namespace Verif.Props
open Verif.Py Verif.Model Set Filter Topology

/-! ## The gap between two transformed signals -/

/-- Difference of two transformed signals, as an integral over the logarithms. -/
noncomputable def bcGap (a b lam : ℝ) : ℝ := ∫ t in a..b, Real.exp (lam * t)

theorem bcGap_eq (a b lam : ℝ) : boxCoxFun lam (Real.exp b) - boxCoxFun lam (Real.exp a) = bcGap a b lam := by
  rw [bcGap, boxCoxFun, boxCoxFun]
  by_cases hl : lam = 0
  · rw [if_pos hl, if_pos hl, hl, Real.log_exp, Real.log_exp]
    simp
  · rw [if_neg hl, if_neg hl, integral_exp_lin lam a b hl, ← Real.exp_mul, ← Real.exp_mul, mul_comm b, mul_comm a]
    ring

theorem bcGap_shift (a b m lam : ℝ) : bcGap (a + m) (b + m) lam = Real.exp (lam * m) * bcGap a b lam := by
  rw [bcGap, bcGap, ← intervalIntegral.integral_comp_add_right (fun t => Real.exp (lam * t)), ← intervalIntegral.integral_const_mul]
  congr 1
  funext t
  rw [← Real.exp_add]
  congr 1
  ring

theorem bcGap_symm (a b lam : ℝ) : bcGap b a lam = - bcGap a b lam := by
  rw [bcGap, bcGap, intervalIntegral.integral_symm]

theorem bcGap_self (a lam : ℝ) : bcGap a a lam = 0 := by rw [bcGap, intervalIntegral.integral_same]

theorem bcInt (a b lam : ℝ) : IntervalIntegrable (fun t => Real.exp (lam * t)) MeasureTheory.volume a b :=
  (by fun_prop : Continuous fun t => Real.exp (lam * t)).intervalIntegrable a b

theorem bcGap_pos {a b : ℝ} (h : a < b) (lam : ℝ) : 0 < bcGap a b lam :=
  intervalIntegral.integral_pos h (by fun_prop) (fun x _ => (Real.exp_pos _).le) ⟨a, left_mem_Icc.2 h.le, Real.exp_pos _⟩

theorem bcGap_strict {a b : ℝ} (h : a < b) {lam mu s t : ℝ} (hne : lam ≠ mu) (hs : 0 < s) (ht : 0 < t) (hst : s + t = 1) :
    bcGap a b (s * lam + t * mu) < s * bcGap a b lam + t * bcGap a b mu := by
  have hpos : ∀ x, x ≠ 0 → Real.exp ((s * lam + t * mu) * x) < s * Real.exp (lam * x) + t * Real.exp (mu * x) := by
    intro x hx
    have := strictConvexOn_exp.2 (mem_univ (lam * x)) (mem_univ (mu * x)) (fun h => hne (mul_right_cancel₀ hx h)) hs ht hst
    simp only [smul_eq_mul] at this
    rw [show (s * lam + t * mu) * x = s * (lam * x) + t * (mu * x) by ring]
    exact this
  have hle : ∀ x, Real.exp ((s * lam + t * mu) * x) ≤ s * Real.exp (lam * x) + t * Real.exp (mu * x) := by
    intro x
    rcases eq_or_ne x 0 with rfl | hx
    · simp [hst]
    · exact (hpos x hx).le
  have hc : ∃ c ∈ Icc a b, c ≠ 0 := by
    rcases eq_or_ne a 0 with h0 | h0
    · exact ⟨b, right_mem_Icc.2 h.le, by linarith [h, h0] |> fun (h' : (0:ℝ) < b) => h'.ne'⟩
    · exact ⟨a, left_mem_Icc.2 h.le, h0⟩
  obtain ⟨c, hcI, hc0⟩ := hc
  have key : 0 < ∫ x in a..b, (s * Real.exp (lam * x) + t * Real.exp (mu * x) - Real.exp ((s * lam + t * mu) * x)) :=
    intervalIntegral.integral_pos h (by fun_prop) (fun x _ => sub_nonneg.2 (hle x)) ⟨c, hcI, sub_pos.2 (hpos c hc0)⟩
  rw [intervalIntegral.integral_sub (((bcInt a b lam).const_mul s).add ((bcInt a b mu).const_mul t)) (bcInt a b _),
    intervalIntegral.integral_add ((bcInt a b lam).const_mul s) ((bcInt a b mu).const_mul t),
    intervalIntegral.integral_const_mul, intervalIntegral.integral_const_mul] at key
  rw [bcGap, bcGap, bcGap]
  linarith

theorem bcGap_sq_strict {a b : ℝ} (h : a ≠ b) {lam mu s t : ℝ} (hne : lam ≠ mu) (hs : 0 < s) (ht : 0 < t) (hst : s + t = 1) :
    bcGap a b (s * lam + t * mu) ^ 2 < s * bcGap a b lam ^ 2 + t * bcGap a b mu ^ 2 := by
  wlog hab : a < b generalizing a b with H
  · have := H h.symm (lt_of_le_of_ne (not_lt.1 hab) h.symm)
    rw [bcGap_symm b a, bcGap_symm b a, bcGap_symm b a, neg_sq, neg_sq, neg_sq]
    exact this
  have h1 := bcGap_strict hab hne hs ht hst
  have h0 := bcGap_pos hab (s * lam + t * mu)
  have h2 : bcGap a b (s * lam + t * mu) ^ 2 < (s * bcGap a b lam + t * bcGap a b mu) ^ 2 := by
    apply pow_lt_pow_left₀ h1 h0.le two_ne_zero
  have h3 : (s * bcGap a b lam + t * bcGap a b mu) ^ 2 ≤ s * bcGap a b lam ^ 2 + t * bcGap a b mu ^ 2 := by
    have hs' : s = 1 - t := by linarith
    subst hs'
    nlinarith [mul_nonneg (mul_nonneg hs.le ht.le) (sq_nonneg (bcGap a b lam - bcGap a b mu))]
  linarith

/-- Growth of the gap when the interval contains `[-d, d]`. -/
theorem bcGap_ge {a b d : ℝ} (hd : 0 < d) (ha : a ≤ -d) (hb : d ≤ b) (lam : ℝ) : |lam| * d ^ 2 / 2 ≤ bcGap a b lam := by
  have split : bcGap a b lam = bcGap a 0 lam + bcGap 0 b lam := by
    rw [bcGap, bcGap, bcGap, intervalIntegral.integral_add_adjacent_intervals (bcInt a 0 lam) (bcInt 0 b lam)]
  have hint : ∀ u v : ℝ, (∫ t in u..v, (lam * t)) = lam * ((v ^ 2 - u ^ 2) / 2) := by
    intro u v
    rw [intervalIntegral.integral_const_mul, integral_id]
  have lin : ∀ {u v : ℝ}, u ≤ v → lam * ((v ^ 2 - u ^ 2) / 2) ≤ bcGap u v lam := by
    intro u v huv
    rw [← hint, bcGap]
    apply intervalIntegral.integral_mono_on huv ((by fun_prop : Continuous fun t => lam * t).intervalIntegrable u v) (bcInt u v lam)
    intro x _
    linarith [Real.add_one_le_exp (lam * x)]
  have hA : 0 < bcGap a 0 lam := bcGap_pos (by linarith) lam
  have hB : 0 < bcGap 0 b lam := bcGap_pos (by linarith) lam
  rcases le_total 0 lam with hl | hl
  · have := lin (u := 0) (v := b) (by linarith)
    rw [abs_of_nonneg hl, split]
    nlinarith [mul_le_mul_of_nonneg_left (pow_le_pow_left₀ hd.le hb 2) hl]
  · have := lin (u := a) (v := 0) (by linarith)
    rw [abs_of_nonpos hl, split]
    have h2 : d ^ 2 ≤ a ^ 2 := by nlinarith
    nlinarith [mul_le_mul_of_nonneg_left h2 (neg_nonneg.2 hl)]

/-! ## The criterion -/

section Criterion
variable {n : ℕ}

/-- Sum of the squared gaps of the centred logarithms. -/
noncomputable def bcSpread (u : Fin n → ℝ) (lam : ℝ) : ℝ := ∑ i, ∑ j, bcGap (u i) (u j) lam ^ 2

theorem bcSpread_strict (u : Fin n → ℝ) (hu : ∃ i j, u i ≠ u j) : StrictConvexOn ℝ univ (bcSpread u) := by
  refine ⟨convex_univ, fun lam _ mu _ hne s t hs ht hst => ?_⟩
  simp only [smul_eq_mul, bcSpread]
  rw [Finset.mul_sum, Finset.mul_sum, ← Finset.sum_add_distrib]
  have term : ∀ i j, bcGap (u i) (u j) (s * lam + t * mu) ^ 2 ≤ s * bcGap (u i) (u j) lam ^ 2 + t * bcGap (u i) (u j) mu ^ 2 := by
    intro i j
    by_cases h : u i = u j
    · rw [h, bcGap_self, bcGap_self, bcGap_self]; simp
    · exact (bcGap_sq_strict h hne hs ht hst).le
  obtain ⟨i0, j0, h0⟩ := hu
  apply Finset.sum_lt_sum
  · intro i _
    rw [Finset.mul_sum, Finset.mul_sum, ← Finset.sum_add_distrib]
    exact Finset.sum_le_sum fun j _ => term i j
  · refine ⟨i0, Finset.mem_univ _, ?_⟩
    rw [Finset.mul_sum, Finset.mul_sum, ← Finset.sum_add_distrib]
    exact Finset.sum_lt_sum (fun j _ => term i0 j) ⟨j0, Finset.mem_univ _, bcGap_sq_strict h0 hne hs ht hst⟩

theorem bcSpread_ge_term (u : Fin n → ℝ) (lam : ℝ) (i j : Fin n) : bcGap (u i) (u j) lam ^ 2 ≤ bcSpread u lam :=
  le_trans (Finset.single_le_sum (f := fun j => bcGap (u i) (u j) lam ^ 2) (fun _ _ => sq_nonneg _) (Finset.mem_univ j))
    (Finset.single_le_sum (f := fun i => ∑ j, bcGap (u i) (u j) lam ^ 2)
      (fun _ _ => Finset.sum_nonneg fun _ _ => sq_nonneg _) (Finset.mem_univ i))

theorem bcSpread_pos (u : Fin n → ℝ) (hu : ∃ i j, u i ≠ u j) (lam : ℝ) : 0 < bcSpread u lam := by
  obtain ⟨i, j, h⟩ := hu
  refine lt_of_lt_of_le ?_ (bcSpread_ge_term u lam i j)
  rcases lt_or_gt_of_ne h with h | h
  · exact pow_pos (bcGap_pos h lam) 2
  · rw [bcGap_symm, neg_sq]; exact pow_pos (bcGap_pos h lam) 2

theorem bcSpread_exists_min (u : Fin n → ℝ) (hu : ∃ i j, u i ≠ u j) (h0 : ∑ i, u i = 0) :
    ∃ lam, ∀ mu, bcSpread u lam ≤ bcSpread u mu := by
  have hcont : Continuous (bcSpread u) := (bcSpread_strict u hu).convexOn.locallyLipschitz.continuous
  have hneg : ∃ i, u i < 0 := by
    by_contra hc
    push Not at hc
    have := (Finset.sum_eq_zero_iff_of_nonneg (fun i _ => hc i)).1 h0
    obtain ⟨i, j, h⟩ := hu
    exact h ((this i (Finset.mem_univ _)).trans (this j (Finset.mem_univ _)).symm)
  have hpos : ∃ i, 0 < u i := by
    by_contra hc
    push Not at hc
    have := (Finset.sum_eq_zero_iff_of_nonpos (fun i _ => hc i)).1 h0
    obtain ⟨i, j, h⟩ := hu
    exact h ((this i (Finset.mem_univ _)).trans (this j (Finset.mem_univ _)).symm)
  obtain ⟨i, hi⟩ := hneg
  obtain ⟨j, hj⟩ := hpos
  set d := min (-u i) (u j) with hd
  have hdp : 0 < d := lt_min (by linarith) hj
  have hge : ∀ lam, |lam| * d ^ 2 / 2 - 1 ≤ bcSpread u lam := by
    intro lam
    have h1 := bcGap_ge hdp (a := u i) (b := u j) (by linarith [min_le_left (-u i) (u j)]) (min_le_right _ _) lam
    have h2 := bcSpread_ge_term u lam i j
    nlinarith [sq_nonneg (bcGap (u i) (u j) lam - 1)]
  refine hcont.exists_forall_le ?_
  refine tendsto_atTop_mono hge ?_
  apply tendsto_atTop_add_const_right
  have : Tendsto (fun lam : ℝ => |lam|) (cocompact ℝ) atTop := tendsto_norm_cocompact_atTop (E := ℝ)
  have h2 := this.atTop_mul_const (show (0 : ℝ) < d ^ 2 / 2 by positivity)
  refine h2.congr fun lam => by ring

/-- Sum of squared deviations as a double sum. -/
theorem sum_sq_dev (b : Fin n → ℝ) (hn : n ≠ 0) : ∑ i, ∑ j, (b j - b i) ^ 2 = 2 * n * ∑ i, (b i - smean b) ^ 2 := by
  have hn' : (n : ℝ) ≠ 0 := Nat.cast_ne_zero.mpr hn
  have hs : ∑ i, b i = n * smean b := by rw [smean]; field_simp
  have h1 : ∀ i j, (b j - b i) ^ 2 = b j ^ 2 - 2 * b i * b j + b i ^ 2 := fun i j => by ring
  have h2 : ∀ i, (b i - smean b) ^ 2 = b i ^ 2 - 2 * smean b * b i + smean b ^ 2 := fun i => by ring
  simp only [h1, h2, Finset.sum_add_distrib, Finset.sum_sub_distrib, ← Finset.mul_sum, Finset.sum_const, Finset.card_univ,
    Fintype.card_fin, nsmul_eq_mul, ← Finset.sum_mul, hs]
  ring

theorem svar_pop (b : Fin n → ℝ) (hn : 2 ≤ n) :
    svar b * (1 - 1 / (n : ℝ)) = (∑ i, ∑ j, (b j - b i) ^ 2) / (2 * (n : ℝ) ^ 2) := by
  have h0 : (n : ℝ) ≠ 0 := Nat.cast_ne_zero.mpr (by omega)
  have h1 : (n : ℝ) - 1 ≠ 0 := by
    have : (2 : ℝ) ≤ n := by exact_mod_cast hn
    intro h; linarith
  rw [sum_sq_dev b (by omega), svar]
  field_simp

/-- Centred logarithms. -/
noncomputable def centredLog (y : Fin n → ℝ) : Fin n → ℝ := fun i => Real.log (y i) - smean fun i => Real.log (y i)

theorem centredLog_sum (y : Fin n → ℝ) : ∑ i, centredLog y i = 0 := by
  rcases Nat.eq_zero_or_pos n with rfl | hn
  · simp
  · have hn' : (n : ℝ) ≠ 0 := Nat.cast_ne_zero.mpr hn.ne'
    simp only [centredLog, Finset.sum_sub_distrib, Finset.sum_const, Finset.card_univ, Fintype.card_fin, nsmul_eq_mul, smean]
    field_simp
    ring

theorem centredLog_ne (y : Fin n → ℝ) (hy : ∀ i, 0 < y i) (hne : ∃ i j, y i ≠ y j) :
    ∃ i j, centredLog y i ≠ centredLog y j := by
  obtain ⟨i, j, h⟩ := hne
  refine ⟨i, j, fun h' => h (Real.log_injOn_pos (hy i) (hy j) ?_)⟩
  exact sub_left_injective h'

theorem two_le_of_ne {y : Fin n → ℝ} (hne : ∃ i j, y i ≠ y j) : 2 ≤ n := by
  obtain ⟨i, j, h⟩ := hne
  have : i ≠ j := fun h' => h (h' ▸ rfl)
  have hi := i.2
  have hj := j.2
  have : i.1 ≠ j.1 := fun h => this (Fin.ext h)
  omega

/-- The log-likelihood is, up to a constant, minus `n/2` times the logarithm of the spread. -/
theorem bcLogLik_eq (y : Fin n → ℝ) (hy : ∀ i, 0 < y i) (hne : ∃ i j, y i ≠ y j) (lam : ℝ) :
    bcLogLik y lam = -((n : ℝ) / 2) * Real.log (bcSpread (centredLog y) lam)
      + ((n : ℝ) / 2 * Real.log (2 * (n : ℝ) ^ 2) - ∑ i, Real.log (y i)) := by
  have hn := two_le_of_ne hne
  have hn0 : (0 : ℝ) < n := by exact_mod_cast (by omega : 0 < n)
  set m := smean fun i => Real.log (y i) with hm
  have hsum : ∑ i, Real.log (y i) = n * m := by rw [hm, smean]; field_simp
  have hgap : ∀ i j, boxCoxFun lam (y j) - boxCoxFun lam (y i)
      = Real.exp (lam * m) * bcGap (centredLog y i) (centredLog y j) lam := by
    intro i j
    rw [← bcGap_shift, ← bcGap_eq]
    simp only [centredLog, ← hm, sub_add_cancel, Real.exp_log (hy _)]
  have hspread : ∑ i, ∑ j, (boxCoxFun lam (y j) - boxCoxFun lam (y i)) ^ 2
      = Real.exp (2 * (lam * m)) * bcSpread (centredLog y) lam := by
    simp only [hgap, mul_pow, bcSpread, Finset.mul_sum]
    rw [show (2 : ℝ) * (lam * m) = lam * m + lam * m by ring, Real.exp_add, ← sq]
  have hpos := bcSpread_pos (centredLog y) (centredLog_ne y hy hne) lam
  rw [bcLogLik, svar_pop _ hn, hspread, Real.log_div (mul_ne_zero (Real.exp_ne_zero _) hpos.ne') (by positivity),
    Real.log_mul (Real.exp_ne_zero _) hpos.ne', Real.log_exp, hsum]
  ring

theorem bcLogLik_le_iff (y : Fin n → ℝ) (hy : ∀ i, 0 < y i) (hne : ∃ i j, y i ≠ y j) (lam mu : ℝ) :
    bcLogLik y mu ≤ bcLogLik y lam ↔ bcSpread (centredLog y) lam ≤ bcSpread (centredLog y) mu := by
  have hn0 : (0 : ℝ) < n := by exact_mod_cast (by have := two_le_of_ne hne; omega : 0 < n)
  have hu := centredLog_ne y hy hne
  rw [bcLogLik_eq y hy hne, bcLogLik_eq y hy hne, add_le_add_iff_right, ← Real.log_le_log_iff (bcSpread_pos _ hu _) (bcSpread_pos _ hu _)]
  constructor
  · intro h
    by_contra hc
    push Not at hc
    nlinarith [mul_lt_mul_of_pos_left hc (half_pos hn0)]
  · intro h
    nlinarith [mul_le_mul_of_nonneg_left h (half_pos hn0).le]

theorem bcLogLik_lt_iff (y : Fin n → ℝ) (hy : ∀ i, 0 < y i) (hne : ∃ i j, y i ≠ y j) (lam mu : ℝ) :
    bcLogLik y mu < bcLogLik y lam ↔ bcSpread (centredLog y) lam < bcSpread (centredLog y) mu := by
  rw [← not_le, ← not_le, bcLogLik_le_iff y hy hne]

/-- **C155, existence and uniqueness.**  For positive signals which are not all equal, exactly one exponent maximises the likelihood
used for Box-Cox. -/
theorem C155_unique (y : Fin n → ℝ) (hy : ∀ i, 0 < y i) (hne : ∃ i j, y i ≠ y j) :
    ∃! lam, ∀ mu, bcLogLik y mu ≤ bcLogLik y lam := by
  have hu := centredLog_ne y hy hne
  obtain ⟨lam, hl⟩ := bcSpread_exists_min (centredLog y) hu (centredLog_sum y)
  refine ⟨lam, fun mu => (bcLogLik_le_iff y hy hne lam mu).2 (hl mu), fun nu hnu => ?_⟩
  refine (bcSpread_strict _ hu).eq_of_isMinOn (fun x _ => ?_) (fun x _ => hl x) (mem_univ _) (mem_univ _)
  exact (bcLogLik_le_iff y hy hne nu x).1 (hnu x)

/-- **C155, no local trap.**  The likelihood increases strictly up to its maximiser and decreases strictly after it; an exponent where the
likelihood is locally maximal is the maximiser. -/
theorem C155_unimodal (y : Fin n → ℝ) (hy : ∀ i, 0 < y i) (hne : ∃ i j, y i ≠ y j) (lam : ℝ) (hl : IsLocalMax (bcLogLik y) lam) :
    (∀ mu nu, mu < nu → nu ≤ lam → bcLogLik y mu < bcLogLik y nu) ∧
    (∀ mu nu, lam ≤ mu → mu < nu → bcLogLik y nu < bcLogLik y mu) ∧ ∀ mu, mu ≠ lam → bcLogLik y mu < bcLogLik y lam := by
  have hu := centredLog_ne y hy hne
  have hstr := bcSpread_strict _ hu
  have hloc : IsLocalMin (bcSpread (centredLog y)) lam := by
    filter_upwards [hl] with x hx
    exact (bcLogLik_le_iff y hy hne lam x).1 hx
  have hmin : ∀ x, bcSpread (centredLog y) lam ≤ bcSpread (centredLog y) x :=
    IsMinOn.of_isLocalMin_of_convex_univ hloc hstr.convexOn
  have hlt : ∀ x, x ≠ lam → bcSpread (centredLog y) lam < bcSpread (centredLog y) x := by
    intro x hx
    refine lt_of_le_of_ne (hmin x) fun h => hx ?_
    exact hstr.eq_of_isMinOn (fun z _ => h ▸ hmin z) (fun z _ => hmin z) (mem_univ _) (mem_univ _)
  have hmid : ∀ p q, p ≠ lam → (p < q ∧ q ≤ lam ∨ lam ≤ q ∧ q < p) → bcSpread (centredLog y) q < bcSpread (centredLog y) p := by
    intro p q hp hq
    rcases eq_or_ne q lam with rfl | hql
    · exact hlt p hp
    have hplam := hlt p hp
    -- q lies strictly between p and lam
    have hs : ∃ s t : ℝ, 0 < s ∧ 0 < t ∧ s + t = 1 ∧ q = s * p + t * lam := by
      have hd : lam - p ≠ 0 := sub_ne_zero.2 hp.symm
      refine ⟨(lam - q) / (lam - p), (q - p) / (lam - p), ?_, ?_, ?_, ?_⟩
      · rcases hq with ⟨h1, h2⟩ | ⟨h1, h2⟩
        · have : q < lam := lt_of_le_of_ne h2 hql
          exact div_pos (by linarith) (by linarith)
        · have : lam < q := lt_of_le_of_ne h1 hql.symm
          exact div_pos_of_neg_of_neg (by linarith) (by linarith)
      · rcases hq with ⟨h1, h2⟩ | ⟨h1, h2⟩
        · exact div_pos (by linarith) (by linarith)
        · exact div_pos_of_neg_of_neg (by linarith) (by linarith)
      · field_simp; ring
      · field_simp; ring
    obtain ⟨s, t, hs0, ht0, hst, rfl⟩ := hs
    have := hstr.2 (mem_univ p) (mem_univ lam) hp hs0 ht0 hst
    simp only [smul_eq_mul] at this
    have hs' : s = 1 - t := by linarith
    subst hs'
    nlinarith
  refine ⟨fun mu nu h1 h2 => ?_, fun mu nu h1 h2 => ?_, fun mu h => (bcLogLik_lt_iff y hy hne lam mu).2 (hlt mu h)⟩
  · exact (bcLogLik_lt_iff y hy hne nu mu).2 (hmid mu nu (by intro h; linarith) (Or.inl ⟨h1, h2⟩))
  · exact (bcLogLik_lt_iff y hy hne mu nu).2 (hmid nu mu (by intro h; linarith) (Or.inr ⟨h1, h2⟩))

/-! ## Units -/

theorem boxCoxFun_power (c k lam y : ℝ) (hc : 0 < c) (hy : 0 < y) (hk : k ≠ 0) :
    boxCoxFun (lam / k) (c * y ^ k) = k * c ^ (lam / k) * boxCoxFun lam y + boxCoxFun (lam / k) c := by
  rw [boxCoxFun, boxCoxFun, boxCoxFun]
  by_cases hl : lam = 0
  · subst hl
    simp only [zero_div, if_true, Real.rpow_zero, mul_one]
    rw [Real.log_mul hc.ne' (Real.rpow_pos_of_pos hy k).ne', Real.log_rpow hy]
    ring
  · have hlk : lam / k ≠ 0 := div_ne_zero hl hk
    rw [if_neg hlk, if_neg hl, if_neg hlk, Real.mul_rpow hc.le (Real.rpow_nonneg hy.le k), ← Real.rpow_mul hy.le,
      mul_div_cancel₀ lam hk]
    field_simp
    ring

theorem bcGap_scale (a b k lam : ℝ) (hk : k ≠ 0) : bcGap (k * a) (k * b) (lam / k) = k * bcGap a b lam := by
  rw [bcGap, bcGap, ← intervalIntegral.mul_integral_comp_mul_left]
  congr 2
  funext t
  congr 1
  field_simp

theorem centredLog_power (y : Fin n → ℝ) (hy : ∀ i, 0 < y i) (hn : n ≠ 0) (c k : ℝ) (hc : 0 < c) :
    centredLog (fun i => c * y i ^ k) = fun i => k * centredLog y i := by
  funext i
  have h : ∀ i, Real.log (c * y i ^ k) = k * Real.log (y i) + Real.log c := fun i => by
    rw [Real.log_mul hc.ne' (Real.rpow_pos_of_pos (hy i) k).ne', Real.log_rpow (hy i)]; ring
  simp only [centredLog, h]
  rw [smean_affine hn]
  ring

theorem bcSpread_power (y : Fin n → ℝ) (hy : ∀ i, 0 < y i) (hn : n ≠ 0) (c k : ℝ) (hc : 0 < c) (hk : k ≠ 0) (lam : ℝ) :
    bcSpread (centredLog fun i => c * y i ^ k) (lam / k) = k ^ 2 * bcSpread (centredLog y) lam := by
  rw [centredLog_power y hy hn c k hc]
  simp only [bcSpread, bcGap_scale _ _ k lam hk, mul_pow, Finset.mul_sum]

/-- **C155, units.**  Multiplying the signals by a positive factor does not change the maximiser; raising them to the power `k` (intensity
instead of amplitude: `k = 2`) divides it by `k`. -/
theorem C155_units (y : Fin n → ℝ) (hy : ∀ i, 0 < y i) (hne : ∃ i j, y i ≠ y j) (c k : ℝ) (hc : 0 < c) (hk : k ≠ 0) (lam : ℝ) :
    (∀ mu, bcLogLik y mu ≤ bcLogLik y lam) ↔
      ∀ mu, bcLogLik (fun i => c * y i ^ k) mu ≤ bcLogLik (fun i => c * y i ^ k) (lam / k) := by
  have hn : n ≠ 0 := by have := two_le_of_ne hne; omega
  have hy' : ∀ i, 0 < c * y i ^ k := fun i => mul_pos hc (Real.rpow_pos_of_pos (hy i) k)
  have hne' : ∃ i j, (fun i => c * y i ^ k) i ≠ (fun i => c * y i ^ k) j := by
    obtain ⟨i, j, h⟩ := hne
    refine ⟨i, j, fun h' => h ?_⟩
    exact (Real.rpow_left_inj (hy i).le (hy j).le hk).1 (mul_left_cancel₀ hc.ne' h')
  have hk2 : 0 < k ^ 2 := by positivity
  simp only [bcLogLik_le_iff y hy hne, bcLogLik_le_iff _ hy' hne', bcSpread_power y hy hn c k hc hk]
  constructor
  · intro h mu
    have := bcSpread_power y hy hn c k hc hk (mu * k)
    rw [mul_div_cancel_right₀ mu hk] at this
    rw [this]
    exact mul_le_mul_of_nonneg_left (h _) hk2.le
  · intro h mu
    have := h (mu / k)
    rw [bcSpread_power y hy hn c k hc hk] at this
    exact le_of_mul_le_mul_left this hk2

/-- Signals 1, 2, 4 (volts): one maximiser, and the same one in millivolts. -/
example : (∃! lam, ∀ mu, bcLogLik (![1, 2, 4] : Fin 3 → ℝ) mu ≤ bcLogLik ![1, 2, 4] lam) ∧
    ∀ lam, (∀ mu, bcLogLik (![1, 2, 4] : Fin 3 → ℝ) mu ≤ bcLogLik ![1, 2, 4] lam) →
      ∀ mu, bcLogLik (fun i => 1000 * (![1, 2, 4] : Fin 3 → ℝ) i ^ (1 : ℝ)) mu
        ≤ bcLogLik (fun i => 1000 * (![1, 2, 4] : Fin 3 → ℝ) i ^ (1 : ℝ)) (lam / 1) := by
  have hy : ∀ i, 0 < (![1, 2, 4] : Fin 3 → ℝ) i := by intro i; fin_cases i <;> norm_num
  have hne : ∃ i j, (![1, 2, 4] : Fin 3 → ℝ) i ≠ (![1, 2, 4] : Fin 3 → ℝ) j := ⟨0, 1, by norm_num⟩
  exact ⟨C155_unique _ hy hne, fun lam => (C155_units _ hy hne 1000 1 (by norm_num) (by norm_num) lam).1⟩

end Criterion
end Verif.Props
