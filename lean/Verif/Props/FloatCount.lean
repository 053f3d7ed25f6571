import Verif.Model.FloatCount
import Verif.Props.Binomial
import Mathlib.Data.Int.Log

/-!
# C165: the number of detections in double precision
-/

namespace Verif.Props
open Verif.Py Verif.Model

/-- Rounding to the nearest number with 53 significant bits, whatever is done with ties (range of the exponent not limited: the numbers
rounded here are 0 or between `2⁻⁶⁰` and `2⁶⁰`). -/
def Nearest53 (fl : ℝ → ℝ) : Prop :=
  fl 0 = 0 ∧ ∀ (x : ℝ) (e : ℤ), (2 : ℝ) ^ e ≤ |x| → |x| < 2 ^ (e + 1) →
    ∃ m : ℤ, fl x = m * 2 ^ (e - 52) ∧ |x / 2 ^ (e - 52) - m| ≤ 1 / 2

/-- Such a rounding exists. -/
theorem nearest53_nonempty : ∃ fl, Nearest53 fl := by
  refine ⟨fun x => round (x / 2 ^ (Int.log 2 |x| - 52)) * 2 ^ (Int.log 2 |x| - 52), by simp, ?_⟩
  intro x e h1 h2
  have hpos : 0 < |x| := lt_of_lt_of_le (by positivity) h1
  have hlog : Int.log 2 |x| = e := by
    apply le_antisymm
    · have := (Int.lt_zpow_iff_log_lt one_lt_two hpos).mp (by exact_mod_cast h2)
      omega
    · exact (Int.zpow_le_iff_le_log one_lt_two hpos).mp (by exact_mod_cast h1)
  refine ⟨round (x / 2 ^ (e - 52)), by dsimp only; rw [hlog], ?_⟩
  exact abs_sub_round _

/-- The relative error. -/
theorem nearest53_error {fl : ℝ → ℝ} (h : Nearest53 fl) (x : ℝ) : |fl x - x| ≤ (2 : ℝ) ^ (-53 : ℤ) * |x| := by
  rcases eq_or_ne x 0 with rfl | hx
  · rw [h.1]; simp
  · have hpos : 0 < |x| := abs_pos.mpr hx
    have h1 : (2 : ℝ) ^ (Int.log 2 |x|) ≤ |x| := by
      have := Int.zpow_log_le_self (b := 2) one_lt_two hpos; exact_mod_cast this
    have h2 : |x| < (2 : ℝ) ^ (Int.log 2 |x| + 1) := by
      have := Int.lt_zpow_succ_log_self (b := 2) one_lt_two |x|; exact_mod_cast this
    obtain ⟨m, hm, he⟩ := h.2 x _ h1 h2
    set e := Int.log 2 |x|
    have hu : (0 : ℝ) < 2 ^ (e - 52) := by positivity
    have e1 : fl x - x = -((x / 2 ^ (e - 52) - m) * 2 ^ (e - 52)) := by
      rw [hm]; field_simp; ring
    rw [e1, abs_neg, abs_mul, abs_of_pos hu]
    calc |x / 2 ^ (e - 52) - m| * 2 ^ (e - 52) ≤ 1 / 2 * 2 ^ (e - 52) := by gcongr
      _ = (2 : ℝ) ^ (-53 : ℤ) * 2 ^ e := by
        rw [show (1 / 2 : ℝ) = 2 ^ (-1 : ℤ) by norm_num, ← zpow_add₀ two_ne_zero, ← zpow_add₀ two_ne_zero]
        congr 1; ring
      _ ≤ (2 : ℝ) ^ (-53 : ℤ) * |x| := by gcongr

/-- Away from ties the rounded value is determined. -/
theorem nearest53_eq {fl : ℝ → ℝ} (h : Nearest53 fl) {x : ℝ} (e m : ℤ) (h1 : (2 : ℝ) ^ e ≤ |x|) (h2 : |x| < 2 ^ (e + 1))
    (hm : |x / 2 ^ (e - 52) - m| < 1 / 2) : fl x = m * 2 ^ (e - 52) := by
  obtain ⟨m', hm', he⟩ := h.2 x e h1 h2
  have : |(m' : ℝ) - m| < 1 := by
    have e1 : (m' : ℝ) - m = -(x / 2 ^ (e - 52) - m') + (x / 2 ^ (e - 52) - m) := by ring
    rw [e1]
    have h2 := abs_add_le (-(x / 2 ^ (e - 52) - m')) (x / 2 ^ (e - 52) - m)
    rw [abs_neg] at h2
    linarith
  have h3 : |m' - m| < 1 := by exact_mod_cast this
  have h4 : m' = m := by rw [Int.abs_lt_one_iff] at h3; omega
  rw [hm', h4]

/-- **C165 (partial).**  A quotient `k / n` known up to `ε`, multiplied by `n` and rounded: the truncated product is `k` or `k - 1`, never
more.  Missing: it is not always `k`, see `C165_violated`. -/
theorem C165_count_partial {fl : ℝ → ℝ} (hfl : Nearest53 fl) {n k : ℕ} (hn : 0 < n) {c ε : ℝ} (hc : |c - (k : ℝ) / n| ≤ ε)
    (hε : n * ε + (2 : ℝ) ^ (-53 : ℤ) * (k + n * ε) < 1) : countFl fl n c ≤ k ∧ k ≤ countFl fl n c + 1 := by
  have hn' : (0 : ℝ) < n := by exact_mod_cast hn
  have h1 : |(n : ℝ) * c - k| ≤ n * ε := by
    have e : (n : ℝ) * c - k = n * (c - k / n) := by field_simp
    rw [e, abs_mul, abs_of_pos hn']
    gcongr
  have h2 : |(n : ℝ) * c| ≤ k + n * ε := by
    have := abs_sub_abs_le_abs_sub ((n : ℝ) * c) k
    rw [Nat.abs_cast] at this
    linarith
  have h3 := nearest53_error hfl (n * c)
  have h4 : |fl (n * c) - k| < 1 := by
    have e : fl (n * c) - k = (fl (n * c) - n * c) + (n * c - k) := by ring
    rw [e]
    have h5 := abs_add_le (fl (n * c) - n * c) (n * c - k)
    have h6 : (2 : ℝ) ^ (-53 : ℤ) * |(n : ℝ) * c| ≤ (2 : ℝ) ^ (-53 : ℤ) * (k + n * ε) := by gcongr
    linarith
  rw [abs_lt] at h4
  rw [countFl, pyInt]
  set y := fl (n * c)
  by_cases hy : 0 ≤ y
  · rw [if_pos hy]
    have a1 : ⌊y⌋ < (k : ℤ) + 1 := Int.floor_lt.mpr (by push_cast; linarith)
    have a2 : (k : ℤ) - 1 ≤ ⌊y⌋ := Int.le_floor.mpr (by push_cast; linarith)
    have a3 : 0 ≤ ⌊y⌋ := Int.floor_nonneg.mpr hy
    omega
  · rw [if_neg hy]
    push Not at hy
    have hk : k = 0 := by
      have : (k : ℝ) < 1 := by linarith
      exact Nat.lt_one_iff.mp (by exact_mod_cast this)
    subst hk
    have a1 : ⌈y⌉ ≤ 0 := Int.ceil_le.mpr (by push_cast; exact hy.le)
    omega

theorem two53 : (2 : ℝ) ^ (-53 : ℤ) = 1 / 9007199254740992 := by norm_num [zpow_neg]

/-- **C165.**  The three ways of computing the complementary CDF have errors within the allowance, for every sample of at most `2²⁵`
residuals. -/
theorem C165_errors {fl : ℝ → ℝ} (hfl : Nearest53 fl) {n k : ℕ} (hn : 0 < n) (hn25 : n ≤ 2 ^ 25) (hk : k ≤ n) :
    let ε := (3 * n + 2) * (2 : ℝ) ^ (-53 : ℤ)
    n * ε + (2 : ℝ) ^ (-53 : ℤ) * (k + n * ε) < 1 ∧ |ccdfQuotient fl n k - (k : ℝ) / n| ≤ ε ∧ |ccdfComplement fl n k - (k : ℝ) / n| ≤ ε ∧
      |ccdfCumulated fl n k - (k : ℝ) / n| ≤ ε := by
  intro ε
  have hn' : (1 : ℝ) ≤ n := by exact_mod_cast hn
  have hN : (n : ℝ) ≤ 33554432 := by exact_mod_cast hn25
  have hk0 : (0 : ℝ) ≤ k := Nat.cast_nonneg k
  have hkn : (k : ℝ) ≤ n := by exact_mod_cast hk
  have hu0 : (0 : ℝ) < 2 ^ (-53 : ℤ) := by positivity
  have hu1 : (2 : ℝ) ^ (-53 : ℤ) = 1 / 9007199254740992 := two53
  have hε : ε = (3 * n + 2) * (2 : ℝ) ^ (-53 : ℤ) := rfl
  have hεs : ε ≤ 1 / 10 ^ 7 := by rw [hε, hu1]; linarith
  have hεp : 0 ≤ ε := by rw [hε]; positivity
  have hq0 : 0 ≤ (k : ℝ) / n := by positivity
  have hq1 : (k : ℝ) / n ≤ 1 := (div_le_one (by linarith)).mpr hkn
  set u := (2 : ℝ) ^ (-53 : ℤ) with hu
  have key : ∀ {s q δ : ℝ}, 0 ≤ q → q ≤ 1 → |s - (1 - q)| ≤ δ → δ ≤ 1 → |fl (1 - s) - q| ≤ δ + 2 * u := by
    intro s q δ q0 q1 hs hδ
    have h1 := nearest53_error hfl (1 - s)
    have h2 : |1 - s| ≤ 2 := by
      rw [abs_le] at hs ⊢
      constructor <;> linarith [hs.1, hs.2]
    have h3 : u * |1 - s| ≤ u * 2 := by gcongr
    have e : fl (1 - s) - q = (fl (1 - s) - (1 - s)) - (s - (1 - q)) := by ring
    rw [e]
    have h4 := abs_sub (fl (1 - s) - (1 - s)) (s - (1 - q))
    linarith
  have hcomp : (((n - k : ℕ) : ℝ)) / n = 1 - (k : ℝ) / n := by
    rw [Nat.cast_sub hk]; field_simp
  refine ⟨?_, ?_, ?_, ?_⟩
  · have h1 : (n : ℝ) * ε ≤ 1 / 2 := by
      rw [hε, hu1]
      nlinarith
    have h2 : u * (k + n * ε) ≤ u * (33554432 + 1 / 2) := by gcongr; linarith
    rw [hu1] at h2 ⊢
    linarith
  · have := nearest53_error hfl ((k : ℝ) / n)
    rw [abs_of_nonneg hq0] at this
    rw [ccdfQuotient, hε]
    nlinarith
  · rw [ccdfComplement]
    have h1 := nearest53_error hfl (((n - k : ℕ) : ℝ) / n)
    rw [hcomp] at h1 ⊢
    rw [abs_of_nonneg (by linarith : (0 : ℝ) ≤ 1 - (k : ℝ) / n)] at h1
    have h2 := key hq0 hq1 (δ := u) (h1.trans (by nlinarith)) (by rw [hu1]; norm_num)
    rw [hε]
    nlinarith
  · rw [ccdfCumulated]
    have hp := nearest53_error hfl (1 / (n : ℝ))
    rw [abs_of_nonneg (by positivity : (0 : ℝ) ≤ 1 / n)] at hp
    have hp1 : 1 / (n : ℝ) ≤ 1 := (div_le_one (by linarith)).mpr hn'
    have hp' : |fl (1 / (n : ℝ)) - 1 / n| ≤ u := hp.trans (by nlinarith)
    have hcum : ∀ m : ℕ, m ≤ n → |cumFl fl n m - (m : ℝ) / n| ≤ 3 * m * u := by
      intro m
      induction m with
      | zero => intro _; simp [cumFl]
      | succ m ih =>
        intro hm
        have hi := ih (by omega)
        have hmn : ((m + 1 : ℕ) : ℝ) ≤ n := by exact_mod_cast hm
        have hm1 : ((m + 1 : ℕ) : ℝ) / n ≤ 1 := (div_le_one (by linarith)).mpr hmn
        have hm0 : 0 ≤ ((m + 1 : ℕ) : ℝ) / n := by positivity
        rw [cumFl]
        set s := cumFl fl n m
        set w := fl (1 / (n : ℝ))
        have hr : |fl (s + w) - (s + w)| ≤ u * |s + w| := nearest53_error hfl (s + w)
        have e0 : ((m + 1 : ℕ) : ℝ) / n = (m : ℝ) / n + 1 / n := by push_cast; ring
        have hsw : |s + w - ((m + 1 : ℕ) : ℝ) / n| ≤ 3 * m * u + u := by
          rw [e0]
          have e : s + w - ((m : ℝ) / n + 1 / n) = (s - m / n) + (w - 1 / n) := by ring
          rw [e]
          have := abs_add_le (s - (m : ℝ) / n) (w - 1 / n)
          linarith
        have hmb : (m : ℝ) ≤ 33554432 := by push_cast at hmn; linarith
        have hbig : |s + w| ≤ 2 := by
          have h7 : 3 * (m : ℝ) * u + u ≤ 1 := by rw [hu1]; linarith
          rw [abs_le] at hsw ⊢
          constructor <;> linarith [hsw.1, hsw.2]
        have h8 : u * |s + w| ≤ u * 2 := by gcongr
        have e : fl (s + w) - ((m + 1 : ℕ) : ℝ) / n = (fl (s + w) - (s + w)) + (s + w - ((m + 1 : ℕ) : ℝ) / n) := by ring
        rw [e]
        have := abs_add_le (fl (s + w) - (s + w)) (s + w - ((m + 1 : ℕ) : ℝ) / n)
        have e9 : 3 * ((m + 1 : ℕ) : ℝ) * u = 3 * m * u + 3 * u := by push_cast; ring
        rw [e9]
        calc _ ≤ u * 2 + (3 * m * u + u) := this.trans (add_le_add (hr.trans h8) hsw)
          _ = 3 * m * u + 3 * u := by ring
    have h1 := hcum (n - k) (by omega)
    rw [hcomp] at h1
    have hnk : ((n - k : ℕ) : ℝ) ≤ n := by exact_mod_cast Nat.sub_le n k
    have h2 : 3 * ((n - k : ℕ) : ℝ) * u ≤ 3 * n * u := by gcongr
    have h3 := key hq0 hq1 (h1.trans h2) (by rw [hu1]; linarith)
    rw [hε]
    linarith

/-- **C165 (partial).**  In double precision, with any of the three ways, and at most `2²⁵` residuals: the confidence curve has at every
defect the value of the exact curve or the value for one detection less; so it is never above the exact curve as long as some residual is
not above the margin, or the level is more than one half. -/
theorem C165_conservative_partial {fl : ℝ → ℝ} (hfl : Nearest53 fl) (qBeta : ℕ → ℕ → ℝ → ℝ) (hq : QBetaSpec qBeta) {N : ℕ} (hN : 0 < N)
    (hN25 : N ≤ 2 ^ 25) (r : Fin N → ℝ) (det : ℝ) (lin : ℝ → ℝ) (c : ℝ) (hc : 0 < c) (hc1 : c < 1) (x : ℝ) (ccdf : ℕ → ℕ → ℝ)
    (hccdf : ccdf = ccdfQuotient fl ∨ ccdf = ccdfComplement fl ∨ ccdf = ccdfCumulated fl) :
    let k := numAbove r (det - lin x)
    let v := podBinomialClFl fl ccdf qBeta (List.ofFn r) det lin c x
    let exact := podBinomialCl qBeta (List.ofFn r) det lin c x
    (v = exact ∨ (1 ≤ k ∧ v = 1 - qBeta (N - (k - 1)) k c)) ∧ (k < N ∨ 1 / 2 < c → v ≤ exact) := by
  intro k v exact
  have hkN : k ≤ N := numAbove_le r _
  obtain ⟨e1, e2, e3, e4⟩ := C165_errors hfl hN hN25 hkN
  have hcnt : countFl fl N (ccdf N k) ≤ k ∧ k ≤ countFl fl N (ccdf N k) + 1 := by
    rcases hccdf with rfl | rfl | rfl
    · exact C165_count_partial hfl hN e2 e1
    · exact C165_count_partial hfl hN e3 e1
    · exact C165_count_partial hfl hN e4 e1
  have hv : v = if countFl fl N (ccdf N k) = N then c ^ ((1 : ℝ) / N)
      else 1 - qBeta (N - countFl fl N (ccdf N k)) (countFl fl N (ccdf N k) + 1) c := by
    show podBinomialClFl fl ccdf qBeta (List.ofFn r) det lin c x = _
    unfold podBinomialClFl
    simp only [countP_ofFn, List.length_ofFn]
    rfl
  have hex : exact = if k = N then c ^ ((1 : ℝ) / N) else 1 - qBeta (N - k) (k + 1) c := podBinomialCl_eq qBeta hN r det lin c x
  set j := countFl fl N (ccdf N k) with hj
  rcases eq_or_ne j k with h | h
  · rw [h] at hv
    rw [← hex] at hv
    exact ⟨Or.inl hv, fun _ => hv.le⟩
  · have hj1 : j + 1 = k := by omega
    have hjN : j ≠ N := by omega
    rw [if_neg hjN] at hv
    have hval : v = 1 - qBeta (N - (k - 1)) k c := by rw [hv, hj1]; congr 2; omega
    refine ⟨Or.inr ⟨by omega, hval⟩, fun hor => ?_⟩
    -- the value for one detection less is smaller
    rw [hv, hex]
    exact (cl_count_lt qBeta hq (by omega) hkN hc hc1 hor).le

/-- **C165 is violated.**  The count is off by one for one detection among 5 residuals when the complementary CDF is one minus the CDF, and
for 15 detections among 22 even when it is the correctly rounded quotient, whatever the rule for ties. -/
theorem C165_violated {fl : ℝ → ℝ} (hfl : Nearest53 fl) :
    countFl fl 5 (ccdfComplement fl 5 1) = 0 ∧ countFl fl 22 (ccdfQuotient fl 22 15) = 14 := by
  constructor
  · have h1 : fl (((5 - 1 : ℕ) : ℝ) / (5 : ℕ)) = 7205759403792794 / 9007199254740992 := by
      rw [nearest53_eq hfl (-1) 7205759403792794] <;> norm_num [abs_lt, zpow_neg, abs_of_pos]
    have h2 : fl (1 - 7205759403792794 / 9007199254740992) = 1801439850948198 / 9007199254740992 := by
      rw [nearest53_eq hfl (-3) 7205759403792792] <;> norm_num [abs_lt, zpow_neg, abs_of_pos]
    have h3 : fl ((5 : ℕ) * (1801439850948198 / 9007199254740992)) = 9007199254740990 / 9007199254740992 := by
      rw [nearest53_eq hfl (-1) 9007199254740990] <;> norm_num [abs_lt, zpow_neg, abs_of_pos]
    rw [countFl, ccdfComplement, h1, h2, h3, pyInt, if_pos (by norm_num)]
    have : ⌊(9007199254740990 / 9007199254740992 : ℝ)⌋ = 0 := by rw [Int.floor_eq_iff]; norm_num
    rw [this]; rfl
  · have h1 : fl (((15 : ℕ) : ℝ) / (22 : ℕ)) = 6141272219141585 / 9007199254740992 := by
      rw [nearest53_eq hfl (-1) 6141272219141585] <;> norm_num [abs_lt, zpow_neg, abs_of_pos]
    have h3 : fl ((22 : ℕ) * (6141272219141585 / 9007199254740992)) = 8444249301319679 / 562949953421312 := by
      rw [nearest53_eq hfl 3 8444249301319679] <;> norm_num [abs_lt, zpow_neg, abs_of_pos]
    rw [countFl, ccdfQuotient, h1, h3, pyInt, if_pos (by norm_num)]
    have : ⌊(8444249301319679 / 562949953421312 : ℝ)⌋ = 14 := by rw [Int.floor_eq_iff]; norm_num
    rw [this]; rfl

/-- **C165.**  The confidence curve shown for 5 residuals, one of them above the margin, is then the one of no detection at all. -/
theorem C165_curve_violated {fl : ℝ → ℝ} (hfl : Nearest53 fl) (qBeta : ℕ → ℕ → ℝ → ℝ) (hq : QBetaSpec qBeta) (r : Fin 5 → ℝ) (det : ℝ)
    (lin : ℝ → ℝ) (c : ℝ) (hc : 0 < c) (hc1 : c < 1) (x : ℝ) (hone : numAbove r (det - lin x) = 1) :
    podBinomialClFl fl (ccdfComplement fl) qBeta (List.ofFn r) det lin c x = 1 - qBeta 5 1 c ∧
      podBinomialClFl fl (ccdfComplement fl) qBeta (List.ofFn r) det lin c x < podBinomialCl qBeta (List.ofFn r) det lin c x := by
  have hv : podBinomialClFl fl (ccdfComplement fl) qBeta (List.ofFn r) det lin c x = 1 - qBeta 5 1 c := by
    unfold podBinomialClFl
    simp only [countP_ofFn, List.length_ofFn]
    have : countFl fl 5 (ccdfComplement fl 5 (numAbove r (det - lin x))) = 0 := by rw [hone]; exact (C165_violated hfl).1
    rw [this]
    simp
  refine ⟨hv, ?_⟩
  rw [hv, podBinomialCl_eq qBeta (by norm_num) r det lin c x, hone]
  exact cl_count_lt qBeta hq (N := 5) (j := 0) (k₁ := 1) (by norm_num) (by norm_num) hc hc1 (Or.inl (by norm_num))

/-- Non-trivial instance: a rounding, a quantile function and five residuals with one above the margin. -/
example : ∃ fl qBeta, Nearest53 fl ∧ QBetaSpec qBeta ∧ numAbove (fun i : Fin 5 => if i = 0 then (1 : ℝ) else -1) (3 - 3) = 1 := by
  obtain ⟨fl, h⟩ := nearest53_nonempty
  obtain ⟨q, hq⟩ := qBetaSpec_nonempty
  refine ⟨fl, q, h, hq, ?_⟩
  have : (Finset.univ.filter fun i : Fin 5 => (3 - 3 : ℝ) < if i = 0 then (1 : ℝ) else -1) = {0} := by
    ext i; by_cases h : i = 0 <;> simp [h]
  rw [numAbove, this]; rfl

end Verif.Props
