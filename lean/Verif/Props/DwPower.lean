import Verif.Props.DwNumber
import Verif.Props.BpPower
import Verif.Props.WindowLaw
import Mathlib.Probability.Distributions.Uniform

/-!
# C178: correlated successive errors are found by the Durbin-Watson test when the observations are many
-/

namespace Verif.Props
open Verif.Py Verif.Model MeasureTheory ProbabilityTheory Filter Topology

/-- Sum of the squared successive differences of the residuals: only the error of the slope enters. -/
theorem diff_resid {n : ℕ} (x e : Fin (n + 1) → ℝ) (m b0 b1 : ℝ) (hD : bpD (smom x e m) ≠ 0) :
    ∑ i : Fin n, (olsResiduals x (fun i => b0 + b1 * x i + e i) i.succ - olsResiduals x (fun i => b0 + b1 * x i + e i) i.castSucc) ^ 2 =
      ∑ i : Fin n, (e i.succ - e i.castSucc) ^ 2 - 2 * bpSl (smom x e m) * ∑ i : Fin n, (e i.succ - e i.castSucc) * (x i.succ - x i.castSucc)
        + bpSl (smom x e m) ^ 2 * ∑ i : Fin n, (x i.succ - x i.castSucc) ^ 2 := by
  rw [Finset.mul_sum, Finset.mul_sum, ← Finset.sum_sub_distrib, ← Finset.sum_add_distrib]
  refine Finset.sum_congr rfl fun i _ => ?_
  rw [resid_mom x e m b0 b1 (by omega) hD, resid_mom x e m b0 b1 (by omega) hD]
  ring

theorem diff_le {n : ℕ} (x : Fin (n + 1) → ℝ) (m : ℝ) : ∑ i : Fin n, (x i.succ - x i.castSucc) ^ 2 ≤ 4 * ∑ i, (x i - m) ^ 2 := by
  have h1 : ∑ i : Fin n, (x i.succ - m) ^ 2 ≤ ∑ i, (x i - m) ^ 2 := by
    rw [Fin.sum_univ_succ (fun i => (x i - m) ^ 2)]; nlinarith [sq_nonneg (x 0 - m)]
  have h2 : ∑ i : Fin n, (x i.castSucc - m) ^ 2 ≤ ∑ i, (x i - m) ^ 2 := by
    rw [Fin.sum_univ_castSucc (fun i => (x i - m) ^ 2)]; nlinarith [sq_nonneg (x (Fin.last n) - m)]
  calc ∑ i : Fin n, (x i.succ - x i.castSucc) ^ 2 ≤ ∑ i : Fin n, (2 * (x i.succ - m) ^ 2 + 2 * (x i.castSucc - m) ^ 2) :=
        Finset.sum_le_sum fun i _ => by nlinarith [sq_nonneg ((x i.succ - m) + (x i.castSucc - m))]
    _ = 2 * ∑ i : Fin n, (x i.succ - m) ^ 2 + 2 * ∑ i : Fin n, (x i.castSucc - m) ^ 2 := by
        rw [Finset.sum_add_distrib, Finset.mul_sum, Finset.mul_sum]
    _ ≤ 4 * ∑ i, (x i - m) ^ 2 := by linarith

theorem cross_le {n : ℕ} (a b : Fin n → ℝ) : |∑ i, a i * b i| ≤ ∑ i, a i ^ 2 + ∑ i, b i ^ 2 := by
  rw [← Finset.sum_add_distrib]
  refine (Finset.abs_sum_le_sum_abs _ _).trans (Finset.sum_le_sum fun i _ => ?_)
  rw [abs_le]
  constructor <;> nlinarith [sq_nonneg (a i + b i), sq_nonneg (a i - b i), sq_nonneg (a i), sq_nonneg (b i)]

theorem fin_diff_sq (e : ℕ → ℝ) (n : ℕ) :
    ∑ i : Fin n, ((fun i : Fin (n + 1) => e i) i.succ - (fun i : Fin (n + 1) => e i) i.castSucc) ^ 2 =
      ∑ i ∈ Finset.range (n + 1), e i ^ 2 - e 0 ^ 2 + ∑ i ∈ Finset.range n, e i ^ 2 - 2 * ∑ i ∈ Finset.range n, e i * e (i + 1) := by
  simp only [Fin.val_succ, Fin.val_castSucc]
  rw [Fin.sum_univ_eq_sum_range (fun i => (e (i + 1) - e i) ^ 2) n, Finset.sum_range_succ' (fun i => e i ^ 2) n, Finset.mul_sum]
  have : ∀ i, (e (i + 1) - e i) ^ 2 = e (i + 1) ^ 2 + e i ^ 2 - 2 * (e i * e (i + 1)) := fun i => by ring
  simp only [this, Finset.sum_sub_distrib, Finset.sum_add_distrib]
  ring

theorem avg_shift {s : ℕ → ℝ} {L : ℝ} (h : Tendsto (fun N : ℕ => s N / N) atTop (𝓝 L)) (j k : ℕ) :
    Tendsto (fun N : ℕ => s (N + j) / ((N + k : ℕ) : ℝ)) atTop (𝓝 L) := by
  have h1 : Tendsto (fun N : ℕ => ((N + j : ℕ) : ℝ) / ((N + k : ℕ) : ℝ)) atTop (𝓝 1) := by
    have h0 : Tendsto (fun N : ℕ => ((j : ℝ) - k) / ((N + k : ℕ) : ℝ)) atTop (𝓝 0) :=
      tendsto_const_nhds.div_atTop (tendsto_natCast_atTop_atTop.comp (tendsto_add_atTop_nat k))
    have h2 : Tendsto (fun N : ℕ => 1 + ((j : ℝ) - k) / ((N + k : ℕ) : ℝ)) atTop (𝓝 1) := by simpa using h0.const_add 1
    refine h2.congr' ?_
    filter_upwards [eventually_gt_atTop 0] with N hN
    have : ((N + k : ℕ) : ℝ) ≠ 0 := by exact_mod_cast (by omega : N + k ≠ 0)
    field_simp
    push_cast
    ring
  have h3 := (h.comp (tendsto_add_atTop_nat j)).mul h1
  rw [mul_one] at h3
  refine h3.congr' ?_
  filter_upwards [eventually_gt_atTop 0] with N hN
  have : ((N + j : ℕ) : ℝ) ≠ 0 := by exact_mod_cast (by omega : N + j ≠ 0)
  exact div_mul_div_cancel₀ this

/-- The Durbin-Watson statistic of the residuals converges to `2 (1 - c / v)`, where `v` is the limit of the mean squared error and `c` that of the
mean product of successive errors. -/
theorem dw_limit (x e : ℕ → ℝ) (m b0 b1 vx v c : ℝ) (hvx : 0 < vx) (hv : 0 < v)
    (l10 : Tendsto (fun N : ℕ => (∑ i ∈ Finset.range N, (x i - m)) / N) atTop (𝓝 0))
    (l20 : Tendsto (fun N : ℕ => (∑ i ∈ Finset.range N, (x i - m) ^ 2) / N) atTop (𝓝 vx))
    (l01 : Tendsto (fun N : ℕ => (∑ i ∈ Finset.range N, e i) / N) atTop (𝓝 0))
    (l11 : Tendsto (fun N : ℕ => (∑ i ∈ Finset.range N, (x i - m) * e i) / N) atTop (𝓝 0))
    (l02 : Tendsto (fun N : ℕ => (∑ i ∈ Finset.range N, e i ^ 2) / N) atTop (𝓝 v))
    (lc : Tendsto (fun N : ℕ => (∑ i ∈ Finset.range N, e i * e (i + 1)) / N) atTop (𝓝 c)) :
    (∀ᶠ N in atTop, ∑ i : Fin (N + 2), ((fun i : Fin (N + 2) => x i) i - smean fun i : Fin (N + 2) => x i) ^ 2 ≠ 0) ∧
    (∀ᶠ N in atTop, ∑ i : Fin (N + 2), olsResiduals (fun i : Fin (N + 2) => x i) (fun i => b0 + b1 * x i + e i) i ^ 2 ≠ 0) ∧
    Tendsto (fun N => durbinWatsonStat (olsResiduals (fun i : Fin (N + 2) => x i) fun i => b0 + b1 * x i + e i)) atTop
      (𝓝 (2 * (1 - c / v))) := by
  let X : (N : ℕ) → Fin (N + 2) → ℝ := fun N i => x i
  let Ee : (N : ℕ) → Fin (N + 2) → ℝ := fun N i => e i
  let p : ℕ → ℕ → ℕ → ℝ := fun N => smom (X N) (Ee N) m
  have hp : ∀ {j k : ℕ} {L : ℝ}, Tendsto (fun N : ℕ => (∑ i ∈ Finset.range N, (x i - m) ^ j * e i ^ k) / N) atTop (𝓝 L) →
      Tendsto (fun N => p N j k) atTop (𝓝 L) := by
    intro j k L h
    have := avg_shift (s := fun N => ∑ i ∈ Finset.range N, (x i - m) ^ j * e i ^ k) h 2 2
    refine this.congr fun N => ?_
    change _ = (∑ i : Fin (N + 2), (x i - m) ^ j * e i ^ k) / _
    rw [Fin.sum_univ_eq_sum_range (fun i => (x i - m) ^ j * e i ^ k) (N + 2)]
  have p10 : Tendsto (fun N => p N 1 0) atTop (𝓝 0) := hp (by simpa using l10)
  have p20 : Tendsto (fun N => p N 2 0) atTop (𝓝 vx) := hp (by simpa using l20)
  have p01 : Tendsto (fun N => p N 0 1) atTop (𝓝 0) := hp (by simpa using l01)
  have p11 : Tendsto (fun N => p N 1 1) atTop (𝓝 0) := hp (by simpa using l11)
  have p02 : Tendsto (fun N => p N 0 2) atTop (𝓝 v) := hp (by simpa using l02)
  have tD : Tendsto (fun N => bpD (p N)) atTop (𝓝 vx) := by simpa [bpD] using p20.sub (p10.pow 2)
  have tS : Tendsto (fun N => bpSl (p N)) atTop (𝓝 0) := by
    have := (p11.sub (p10.mul p01)).div tD hvx.ne'
    simp only [mul_zero, sub_zero, zero_div] at this
    exact this
  have tI : Tendsto (fun N => bpIc (p N)) atTop (𝓝 0) := by simpa [bpIc] using p01.sub (tS.mul p10)
  have tR2 : Tendsto (fun N => bpR2 (p N)) atTop (𝓝 v) := by
    have := ((((p02.add (tI.pow 2)).add ((tS.pow 2).mul p20)).sub ((tI.const_mul 2).mul p01)).sub ((tS.const_mul 2).mul p11)).add
      (((tI.const_mul 2).mul tS).mul p10)
    simpa [bpR2] using this
  have eD : ∀ᶠ N in atTop, bpD (p N) ≠ 0 := tD.eventually_ne hvx.ne'
  have eR : ∀ᶠ N in atTop, bpR2 (p N) ≠ 0 := tR2.eventually_ne hv.ne'
  have hn : ∀ N : ℕ, ((N + 2 : ℕ) : ℝ) ≠ 0 := fun N => by exact_mod_cast (by omega : N + 2 ≠ 0)
  refine ⟨?_, ?_, ?_⟩
  · filter_upwards [eD] with N hN
    have := sxx_mom (X N) (Ee N) m (by omega)
    change ∑ i, (X N i - smean (X N)) ^ 2 ≠ 0
    rw [this]
    exact mul_ne_zero (hn N) hN
  · filter_upwards [eD, eR] with N hN hR
    have := sumR2 (X N) (Ee N) m b0 b1 (by omega) hN
    change ∑ i, olsResiduals (X N) (fun i => b0 + b1 * X N i + Ee N i) i ^ 2 ≠ 0
    rw [this]
    exact mul_ne_zero (hn N) hR
  · -- the sums of squared differences divided by the number of observations
    let dE : ℕ → ℝ := fun N => ∑ i : Fin (N + 1), (Ee N i.succ - Ee N i.castSucc) ^ 2
    let dX : ℕ → ℝ := fun N => ∑ i : Fin (N + 1), (X N i.succ - X N i.castSucc) ^ 2
    let dEX : ℕ → ℝ := fun N => ∑ i : Fin (N + 1), (Ee N i.succ - Ee N i.castSucc) * (X N i.succ - X N i.castSucc)
    have tE : Tendsto (fun N => dE N / ((N + 2 : ℕ) : ℝ)) atTop (𝓝 (2 * v - 2 * c)) := by
      have hc0 : Tendsto (fun N : ℕ => e 0 ^ 2 / ((N + 2 : ℕ) : ℝ)) atTop (𝓝 0) :=
        tendsto_const_nhds.div_atTop (tendsto_natCast_atTop_atTop.comp (tendsto_add_atTop_nat 2))
      have := (((avg_shift (s := fun N => ∑ i ∈ Finset.range N, e i ^ 2) l02 2 2).sub hc0).add
        (avg_shift (s := fun N => ∑ i ∈ Finset.range N, e i ^ 2) l02 1 2)).sub
        ((avg_shift (s := fun N => ∑ i ∈ Finset.range N, e i * e (i + 1)) lc 1 2).const_mul 2)
      have hlim : v - 0 + v - 2 * c = 2 * v - 2 * c := by ring
      rw [hlim] at this
      refine this.congr fun N => ?_
      have h := fin_diff_sq e (N + 1)
      change _ = dE N / _
      rw [show dE N = _ from h]
      ring
    have bX : ∀ N, dX N / ((N + 2 : ℕ) : ℝ) ≤ 4 * p N 2 0 := by
      intro N
      have h := diff_le (X N) m
      have hpos : (0 : ℝ) < ((N + 2 : ℕ) : ℝ) := by exact_mod_cast (by omega : 0 < N + 2)
      rw [div_le_iff₀ hpos]
      have : p N 2 0 * ((N + 2 : ℕ) : ℝ) = ∑ i, (X N i - m) ^ 2 := by
        change (∑ i, (X N i - m) ^ 2 * Ee N i ^ 0) / ((N + 2 : ℕ) : ℝ) * ((N + 2 : ℕ) : ℝ) = _
        rw [div_mul_cancel₀ _ (hn N)]
        simp
      nlinarith [h]
    have X0 : ∀ N, 0 ≤ dX N / ((N + 2 : ℕ) : ℝ) := fun N => div_nonneg (Finset.sum_nonneg fun i _ => sq_nonneg _) (Nat.cast_nonneg _)
    have tX : Tendsto (fun N => bpSl (p N) ^ 2 * (dX N / ((N + 2 : ℕ) : ℝ))) atTop (𝓝 0) := by
      refine squeeze_zero (fun N => mul_nonneg (sq_nonneg _) (X0 N)) (fun N => mul_le_mul_of_nonneg_left (bX N) (sq_nonneg _)) ?_
      simpa using (tS.pow 2).mul (p20.const_mul 4)
    have tEX : Tendsto (fun N => 2 * bpSl (p N) * (dEX N / ((N + 2 : ℕ) : ℝ))) atTop (𝓝 0) := by
      refine squeeze_zero_norm (a := fun N => 2 * |bpSl (p N)| * (dE N / ((N + 2 : ℕ) : ℝ) + 4 * p N 2 0)) (fun N => ?_) ?_
      · rw [Real.norm_eq_abs, abs_mul, abs_mul, abs_two]
        refine mul_le_mul_of_nonneg_left ?_ (by positivity)
        rw [abs_div, Nat.abs_cast]
        refine (div_le_div_of_nonneg_right (cross_le _ _) (Nat.cast_nonneg _)).trans ?_
        rw [add_div]
        exact add_le_add le_rfl (bX N)
      · simpa using (tS.abs.const_mul 2).mul (tE.add (p20.const_mul 4))
    have tot := ((tE.sub tEX).add tX).div tR2 hv.ne'
    have hlim : (2 * v - 2 * c - 0 + 0) / v = 2 * (1 - c / v) := by field_simp; ring
    rw [hlim] at tot
    refine tot.congr' ?_
    filter_upwards [eD, eR] with N hN hR
    have h1 := diff_resid (X N) (Ee N) m b0 b1 hN
    have h2 := sumR2 (X N) (Ee N) m b0 b1 (by omega) hN
    rw [durbinWatsonStat]
    change _ = (∑ i : Fin (N + 1), (olsResiduals (X N) (fun i => b0 + b1 * X N i + Ee N i) i.succ -
      olsResiduals (X N) (fun i => b0 + b1 * X N i + Ee N i) i.castSucc) ^ 2) / ∑ i, olsResiduals (X N) (fun i => b0 + b1 * X N i + Ee N i) i ^ 2
    rw [h1, h2]
    have hn' := hn N
    change ((dE N / _ - 2 * bpSl (p N) * (dEX N / _)) + bpSl (p N) ^ 2 * (dX N / _)) / bpR2 (p N) =
      (dE N - 2 * bpSl (p N) * dEX N + bpSl (p N) ^ 2 * dX N) / (((N + 2 : ℕ) : ℝ) * bpR2 (p N))
    field_simp

/-- For every stream of observations with convergent averages, whose successive errors have mean product `c` different from 0, the p-value of the
Durbin-Watson test of the residuals is from some number of observations on a number, and tends to 0. -/
theorem dw_power (x e : ℕ → ℝ) (m b0 b1 vx v c : ℝ) (hvx : 0 < vx) (hc : c ≠ 0)
    (l10 : Tendsto (fun N : ℕ => (∑ i ∈ Finset.range N, (x i - m)) / N) atTop (𝓝 0))
    (l20 : Tendsto (fun N : ℕ => (∑ i ∈ Finset.range N, (x i - m) ^ 2) / N) atTop (𝓝 vx))
    (l01 : Tendsto (fun N : ℕ => (∑ i ∈ Finset.range N, e i) / N) atTop (𝓝 0))
    (l11 : Tendsto (fun N : ℕ => (∑ i ∈ Finset.range N, (x i - m) * e i) / N) atTop (𝓝 0))
    (l02 : Tendsto (fun N : ℕ => (∑ i ∈ Finset.range N, e i ^ 2) / N) atTop (𝓝 v))
    (lc : Tendsto (fun N : ℕ => (∑ i ∈ Finset.range N, e i * e (i + 1)) / N) atTop (𝓝 c)) :
    ∃ pv : ℕ → ℝ, (∀ᶠ N in atTop, durbinWatsonPValue (fun i : Fin (N + 2) => x i)
      (olsResiduals (fun i : Fin (N + 2) => x i) fun i => b0 + b1 * x i + e i) = .fin (pv N)) ∧ Tendsto pv atTop (𝓝 0) := by
  have hcv : |c| ≤ v := by
    have h1 := (avg_shift (s := fun N => ∑ i ∈ Finset.range N, e i ^ 2) l02 1 0)
    have h2 : Tendsto (fun N : ℕ => ((∑ i ∈ Finset.range (N + 1), e i ^ 2) / ((N + 0 : ℕ) : ℝ) + (∑ i ∈ Finset.range N, e i ^ 2) / N) / 2) atTop (𝓝 v) := by
      have := (h1.add l02).div_const 2
      rwa [add_self_div_two] at this
    refine le_of_tendsto_of_tendsto' lc.abs h2 fun N => ?_
    rw [abs_div, Nat.abs_cast, add_zero, ← add_div, div_div, mul_comm, ← div_div]
    refine div_le_div_of_nonneg_right ?_ (Nat.cast_nonneg _)
    rw [le_div_iff₀ two_pos, Finset.sum_range_succ' (fun i => e i ^ 2)]
    have h3 : |∑ i ∈ Finset.range N, e i * e (i + 1)| * 2 ≤ ∑ i ∈ Finset.range N, (e (i + 1) ^ 2 + e i ^ 2) := by
      rw [← le_div_iff₀ two_pos, Finset.sum_div]
      refine (Finset.abs_sum_le_sum_abs _ _).trans (Finset.sum_le_sum fun i _ => ?_)
      rw [abs_le]
      constructor <;> nlinarith [sq_nonneg (e i + e (i + 1)), sq_nonneg (e i - e (i + 1))]
    rw [Finset.sum_add_distrib] at h3
    nlinarith [sq_nonneg (e 0)]
  have hv : 0 < v := lt_of_lt_of_le (abs_pos.2 hc) hcv
  obtain ⟨h1, h2, h3⟩ := dw_limit x e m b0 b1 vx v c hvx hv l10 l20 l01 l11 l02 lc
  refine ⟨fun N => 2 * PhiC (|durbinWatsonStat (olsResiduals (fun i : Fin (N + 2) => x i) fun i => b0 + b1 * x i + e i) -
    dwMean fun i : Fin (N + 2) => x i| / √(dwVar fun i : Fin (N + 2) => x i)), ?_, ?_⟩
  · filter_upwards [h1, h2, eventually_gt_atTop 4] with N hs hr hN
    have hvar : 0 < dwVar fun i : Fin (N + 2) => x i := by
      refine lt_of_lt_of_le ?_ (dwVar_bounds (m := N) _ hs (by omega)).1
      have : (4 : ℝ) < N := by exact_mod_cast hN
      apply div_pos
      · linarith
      · positivity
    rw [durbinWatsonPValue, F.div_fin _ hr]
    simp only [F.div_fin _ (Real.sqrt_pos.2 hvar).ne', twoSidedNormal, durbinWatsonStat]
  · have tM : Tendsto (fun N : ℕ => dwMean fun i : Fin (N + 2) => x i) atTop (𝓝 2) := by
      have h0 : Tendsto (fun N : ℕ => (2 - vnRatio (m := N) fun i : Fin (N + 2) => x i) / (N : ℝ)) atTop (𝓝 0) := by
        refine squeeze_zero_norm (a := fun N : ℕ => 2 / (N : ℝ)) (fun N => ?_) (tendsto_const_nhds.div_atTop tendsto_natCast_atTop_atTop)
        rw [Real.norm_eq_abs, abs_div, Nat.abs_cast]
        refine div_le_div_of_nonneg_right ?_ (Nat.cast_nonneg _)
        obtain ⟨a, b⟩ := vnRatio_range (m := N) fun i : Fin (N + 2) => x i
        rw [abs_le]
        constructor <;> linarith
      have h0' := h0.const_add 2
      rw [add_zero] at h0'
      refine h0'.congr' ?_
      filter_upwards [h1, eventually_gt_atTop 0] with N hs hN
      rw [dwMean_eq _ hs hN]
    have tV : Tendsto (fun N : ℕ => √(dwVar fun i : Fin (N + 2) => x i)) atTop (𝓝[>] 0) := by
      refine tendsto_nhdsWithin_iff.2 ⟨?_, ?_⟩
      · have h0 : Tendsto (fun N : ℕ => dwVar fun i : Fin (N + 2) => x i) atTop (𝓝 0) := by
          have hb : Tendsto (fun N : ℕ => 4 / ((N : ℝ) + 2)) atTop (𝓝 0) :=
            tendsto_const_nhds.div_atTop (tendsto_atTop_add_const_right _ _ tendsto_natCast_atTop_atTop)
          refine tendsto_of_tendsto_of_tendsto_of_le_of_le' tendsto_const_nhds hb ?_ ?_
          · filter_upwards [h1, eventually_gt_atTop 4] with N hs hN
            refine le_trans ?_ (dwVar_bounds (m := N) _ hs (by omega)).1
            have : (4 : ℝ) < N := by exact_mod_cast hN
            apply div_nonneg
            · linarith
            · positivity
          · filter_upwards [h1, eventually_gt_atTop 0] with N hs hN
            exact (dwVar_bounds (m := N) _ hs hN).2
        have h00 := (Real.continuous_sqrt.tendsto 0).comp h0
        rw [Real.sqrt_zero] at h00
        exact h00
      · filter_upwards [h1, eventually_gt_atTop 4] with N hs hN
        refine Set.mem_Ioi.2 (Real.sqrt_pos.2 (lt_of_lt_of_le ?_ (dwVar_bounds (m := N) _ hs (by omega)).1))
        have : (4 : ℝ) < N := by exact_mod_cast hN
        apply div_pos
        · linarith
        · positivity
    have hne : 0 < |2 * (1 - c / v) - 2| := by
      refine abs_pos.2 ?_
      have : 2 * (1 - c / v) - 2 = -(2 * c / v) := by ring
      rw [this]
      exact neg_ne_zero.2 (div_ne_zero (mul_ne_zero two_ne_zero hc) hv.ne')
    have tq : Tendsto (fun N => |durbinWatsonStat (olsResiduals (fun i : Fin (N + 2) => x i) fun i => b0 + b1 * x i + e i) -
        dwMean fun i : Fin (N + 2) => x i| / √(dwVar fun i : Fin (N + 2) => x i)) atTop atTop := by
      have := (h3.sub tM).abs.pos_mul_atTop hne (tendsto_inv_nhdsGT_zero.comp tV)
      simp only [div_eq_mul_inv]
      exact this
    simpa using (tendsto_PhiC_top.comp tq).const_mul 2

section
variable {Ω : Type*} [MeasurableSpace Ω] {Q : Measure Ω} [IsProbabilityMeasure Q] {E : Type*} [MeasurableSpace E] {P : Measure E} [IsProbabilityMeasure P]

/-- **C178.**  The defect and the error of observation `i` are any functions of a window of `d` successive members of a sequence of independent variables
of the same law (so that observations may depend on their neighbours); the errors are centred and not correlated with the defect of the same
observation, but successive errors are correlated.  Then the p-value of the Durbin-Watson test of the residuals is almost surely a number from some
number of observations on, and tends to 0: the warning is given. -/
theorem C178_power (ξ : ℕ → Ω → E) (hξ : ∀ i, Measurable (ξ i)) (hlaw : ∀ i, Q.map (ξ i) = P) (hind : iIndepFun ξ Q) {d : ℕ} (hd : 0 < d)
    (defect err : (Fin d → E) → ℝ) (hm : Measurable defect) (he : Measurable err) (h1 : MemLp defect 2 (Measure.pi fun _ : Fin d => P))
    (h2 : MemLp err 2 (Measure.pi fun _ : Fin d => P)) (hv : Var[defect; Measure.pi fun _ : Fin d => P] ≠ 0)
    (he0 : ∫ w, err w ∂(Measure.pi fun _ : Fin d => P) = 0) (hxe : ∫ w, defect w * err w ∂(Measure.pi fun _ : Fin d => P) = 0)
    (hc : ∫ w, err (fun k => w k.castSucc) * err (fun k => w k.succ) ∂(Measure.pi fun _ : Fin (d + 1) => P) ≠ 0) (b0 b1 : ℝ) :
    ∀ᵐ ω ∂Q, ∃ pv : ℕ → ℝ, (∀ᶠ N in atTop, durbinWatsonPValue (fun i : Fin (N + 2) => defect (window d ξ i ω))
      (olsResiduals (fun i : Fin (N + 2) => defect (window d ξ i ω)) fun i => b0 + b1 * defect (window d ξ i ω) + err (window d ξ i ω)) = .fin (pv N)) ∧
      Tendsto pv atTop (𝓝 0) := by
  set R := Measure.pi fun _ : Fin d => P with hR
  set R' := Measure.pi fun _ : Fin (d + 1) => P with hR'
  set m := ∫ w, defect w ∂R with hmean
  have i1 : Integrable defect R := h1.integrable (by norm_num)
  have i2 : Integrable err R := h2.integrable (by norm_num)
  have h1' : MemLp (fun w => defect w - m) 2 R := h1.sub (memLp_const m)
  have i12 : Integrable (fun w => defect w * err w) R := h1.integrable_mul h2
  have p1 : MeasurePreserving (fun (w : Fin (d + 1) → E) (k : Fin d) => w k.castSucc) R' R := by
    refine ⟨measurable_pi_lambda _ fun k => measurable_pi_apply _, ?_⟩
    have h := (iIndepFun_iff_map_fun_eq_pi_map (μ := R') (f := fun (k : Fin d) (w : Fin (d + 1) → E) => w k.castSucc)
      (fun k => (measurable_pi_apply _).aemeasurable)).1
      ((iIndepFun_pi (μ := fun _ : Fin (d + 1) => P) (X := fun _ w => w) (fun _ => aemeasurable_id)).precomp (Fin.castSucc_injective d))
    rw [h, hR]
    congr 1
    funext k
    exact (measurePreserving_eval (fun _ : Fin (d + 1) => P) k.castSucc).map_eq
  have p2 : MeasurePreserving (fun (w : Fin (d + 1) → E) (k : Fin d) => w k.succ) R' R := by
    refine ⟨measurable_pi_lambda _ fun k => measurable_pi_apply _, ?_⟩
    have h := (iIndepFun_iff_map_fun_eq_pi_map (μ := R') (f := fun (k : Fin d) (w : Fin (d + 1) → E) => w k.succ)
      (fun k => (measurable_pi_apply _).aemeasurable)).1
      ((iIndepFun_pi (μ := fun _ : Fin (d + 1) => P) (X := fun _ w => w) (fun _ => aemeasurable_id)).precomp (Fin.succ_injective d))
    rw [h, hR]
    congr 1
    funext k
    exact (measurePreserving_eval (fun _ : Fin (d + 1) => P) k.succ).map_eq
  have ic : Integrable (fun w : Fin (d + 1) → E => err (fun k => w k.castSucc) * err (fun k => w k.succ)) R' :=
    (h2.comp_measurePreserving p1).integrable_mul (h2.comp_measurePreserving p2)
  have e10 : ∫ w, (defect w - m) ∂R = 0 := by
    rw [integral_sub i1 (integrable_const _)]
    simp [hmean]
  have e11 : ∫ w, (defect w - m) * err w ∂R = 0 := by
    simp only [sub_mul]
    rw [integral_sub i12 (i2.const_mul _), integral_const_mul, hxe, he0]
    simp
  have i11 : Integrable (fun w => (defect w - m) * err w) R := h1'.integrable_mul h2
  have evx : 0 < ∫ w, (defect w - m) ^ 2 ∂R := by
    have h0 : 0 ≤ Var[defect; R] := variance_nonneg _ _
    rw [variance_eq_integral h1.aemeasurable] at hv h0
    exact lt_of_le_of_ne h0 (Ne.symm hv)
  filter_upwards [window_strong hξ hlaw hind hd (f := fun w => defect w - m) (by fun_prop) (i1.sub (integrable_const _)),
    window_strong hξ hlaw hind hd (f := fun w => (defect w - m) ^ 2) (by fun_prop) h1'.integrable_sq,
    window_strong hξ hlaw hind hd (f := err) he i2, window_strong hξ hlaw hind hd (f := fun w => (defect w - m) * err w) (by fun_prop) i11,
    window_strong hξ hlaw hind hd (f := fun w => err w ^ 2) (by fun_prop) h2.integrable_sq,
    window_strong hξ hlaw hind (Nat.succ_pos d) (f := fun w => err (fun k => w k.castSucc) * err (fun k => w k.succ)) (by fun_prop) ic]
    with ω l10 l20 l01 l11 l02 lc
  rw [e10] at l10
  rw [e11] at l11
  rw [he0] at l01
  refine dw_power (fun i => defect (window d ξ i ω)) (fun i => err (window d ξ i ω)) m b0 b1 _ _ _ evx hc l10 l20 l01 l11 l02 (lc.congr fun N => ?_)
  congr 1
  refine Finset.sum_congr rfl fun i _ => ?_
  congr 2
  funext k
  simp [window, Fin.val_succ, add_assoc, add_comm 1]

end

/-- A sign. -/
def sgn (b : Bool) : ℤ := if b then 1 else -1

/-- The fair law of two independent coins: the first gives the defect, the second the shock. -/
noncomputable def coins : Measure (Bool × Bool) := (PMF.uniformOfFintype (Bool × Bool)).toMeasure

instance : IsProbabilityMeasure coins := by unfold coins; infer_instance

theorem coins_integral {d : ℕ} (f : (Fin d → Bool × Bool) → ℤ) :
    ∫ w, (f w : ℝ) ∂(Measure.pi fun _ : Fin d => coins) = ((∑ w, f w : ℤ) : ℝ) / 4 ^ d := by
  have h1 : ∀ b, coins.real {b} = 1 / 4 := by
    intro b
    rw [measureReal_def, coins, PMF.toMeasure_apply_singleton _ _ (measurableSet_singleton _)]
    simp [PMF.uniformOfFintype_apply, ENNReal.toReal_inv]
  rw [integral_fintype (Integrable.of_finite)]
  have h2 : ∀ w : Fin d → Bool × Bool, (Measure.pi fun _ : Fin d => coins).real {w} = 1 / 4 ^ d := by
    intro w
    rw [measureReal_def, Measure.pi_singleton, ENNReal.toReal_prod]
    have : ∀ i, (coins {w i}).toReal = 1 / 4 := fun i => h1 (w i)
    simp [this]
  simp only [h2, smul_eq_mul]
  rw [← Finset.mul_sum]
  push_cast
  ring

/-- Moving average: the defect is 1 or -1 by a coin, the error of an observation is its own shock plus
that of the next one, `e_i = u_i + u_(i+1)`. -/
example (b0 b1 : ℝ) : ∀ᵐ ω ∂(Measure.infinitePi fun _ : ℕ => coins), ∃ pv : ℕ → ℝ,
    (∀ᶠ N in atTop, durbinWatsonPValue (fun i : Fin (N + 2) => ((sgn (ω i).1 : ℤ) : ℝ))
      (olsResiduals (fun i : Fin (N + 2) => ((sgn (ω i).1 : ℤ) : ℝ)) fun i =>
        b0 + b1 * ((sgn (ω i).1 : ℤ) : ℝ) + ((sgn (ω i).2 + sgn (ω (i + 1)).2 : ℤ) : ℝ)) = .fin (pv N)) ∧ Tendsto pv atTop (𝓝 0) := by
  refine C178_power (Q := Measure.infinitePi fun _ : ℕ => coins) (P := coins) (fun i ω => ω i) (fun i => measurable_pi_apply i)
    (fun i => (measurePreserving_eval_infinitePi (fun _ : ℕ => coins) i).map_eq)
    (iIndepFun_infinitePi (P := fun _ : ℕ => coins) (X := fun _ w => w) (fun _ => measurable_id)) (d := 2) two_pos
    (fun w => ((sgn (w 0).1 : ℤ) : ℝ)) (fun w => ((sgn (w 0).2 + sgn (w 1).2 : ℤ) : ℝ)) (measurable_of_finite _) (measurable_of_finite _)
    (MemLp.of_discrete) (MemLp.of_discrete) ?_ ?_ ?_ ?_ b0 b1
  · rw [variance_eq_sub MemLp.of_discrete]
    have h2 : ∫ w : Fin 2 → Bool × Bool, (((sgn (w 0).1 : ℤ) : ℝ)) ^ 2 ∂(Measure.pi fun _ : Fin 2 => coins) = 1 := by
      have := coins_integral (d := 2) fun w => sgn (w 0).1 ^ 2
      push_cast at this
      rw [this, show ∑ w : Fin 2 → Bool × Bool, (sgn (w 0).1 : ℝ) ^ 2 = ((∑ w : Fin 2 → Bool × Bool, sgn (w 0).1 ^ 2 : ℤ) : ℝ) by push_cast; rfl,
        show ∑ w : Fin 2 → Bool × Bool, sgn (w 0).1 ^ 2 = 16 by decide +kernel]
      norm_num
    have h1 : ∫ w : Fin 2 → Bool × Bool, ((sgn (w 0).1 : ℤ) : ℝ) ∂(Measure.pi fun _ : Fin 2 => coins) = 0 := by
      rw [coins_integral (d := 2) fun w => sgn (w 0).1, show ∑ w : Fin 2 → Bool × Bool, sgn (w 0).1 = 0 by decide +kernel]
      simp
    rw [h1]
    change (∫ w : Fin 2 → Bool × Bool, (((sgn (w 0).1 : ℤ) : ℝ)) ^ 2 ∂_) - _ ≠ 0
    rw [h2]
    norm_num
  · rw [coins_integral (d := 2) fun w => sgn (w 0).2 + sgn (w 1).2, show ∑ w : Fin 2 → Bool × Bool, (sgn (w 0).2 + sgn (w 1).2) = 0 by decide +kernel]
    simp
  · have := coins_integral (d := 2) fun w => sgn (w 0).1 * (sgn (w 0).2 + sgn (w 1).2)
    rw [show ∑ w : Fin 2 → Bool × Bool, sgn (w 0).1 * (sgn (w 0).2 + sgn (w 1).2) = 0 by decide +kernel] at this
    simpa using this
  · have := coins_integral (d := 3) fun w => (sgn (w 0).2 + sgn (w 1).2) * (sgn (w 1).2 + sgn (w 2).2)
    rw [show ∑ w : Fin 3 → Bool × Bool, (sgn (w 0).2 + sgn (w 1).2) * (sgn (w 1).2 + sgn (w 2).2) = 64 by decide +kernel] at this
    have h2 : ∫ w : Fin 3 → Bool × Bool, ((sgn (w 0).2 + sgn (w 1).2 : ℤ) : ℝ) * ((sgn (w 1).2 + sgn (w 2).2 : ℤ) : ℝ)
        ∂(Measure.pi fun _ : Fin 3 => coins) = 1 := by
      push_cast at this ⊢
      rw [this]; norm_num
    exact fun h => one_ne_zero (h2.symm.trans h)

end Verif.Props
