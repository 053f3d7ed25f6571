import Verif.Props.SobolLimit
import Verif.Model.SobolMethods

/-!
# C148, C149: the four sensitivity methods
-/

namespace Verif.Props
open Verif.Py Verif.Model MeasureTheory ProbabilityTheory Filter Topology

/-! ## Limits of the estimators from the limits of the means -/

theorem blockCorr_tendsto {u v : ℕ → ℝ} {m1 m2 M1 M2 R : ℝ} (tu : Tendsto (fun N : ℕ => (∑ k ∈ Finset.range N, u k) / N) atTop (𝓝 m1))
    (tv : Tendsto (fun N : ℕ => (∑ k ∈ Finset.range N, v k) / N) atTop (𝓝 m2))
    (tuu : Tendsto (fun N : ℕ => (∑ k ∈ Finset.range N, u k ^ 2) / N) atTop (𝓝 M1))
    (tvv : Tendsto (fun N : ℕ => (∑ k ∈ Finset.range N, v k ^ 2) / N) atTop (𝓝 M2))
    (tuv : Tendsto (fun N : ℕ => (∑ k ∈ Finset.range N, u k * v k) / N) atTop (𝓝 R)) (h1 : 0 < M1 - m1 ^ 2) (h2 : 0 < M2 - m2 ^ 2) :
    Tendsto (fun N => blockCorr N u v) atTop (𝓝 ((R - m1 * m2) / Real.sqrt ((M1 - m1 ^ 2) * (M2 - m2 ^ 2)))) := by
  have hne : Real.sqrt ((M1 - m1 ^ 2) * (M2 - m2 ^ 2)) ≠ 0 := (Real.sqrt_pos.mpr (mul_pos h1 h2)).ne'
  have l := (tuv.sub (tu.mul tv)).div (((tuu.sub (tu.pow 2)).mul (tvv.sub (tv.pow 2))).sqrt) hne
  refine l.congr' ?_
  filter_upwards [eventually_ge_atTop 1] with N hN
  have h0 : (0 : ℝ) < N := by exact_mod_cast hN
  have key : ∀ w z : ℕ → ℝ, ∑ k ∈ Finset.range N, (w k - (∑ k ∈ Finset.range N, w k) / N) * (z k - (∑ k ∈ Finset.range N, z k) / N)
      = N * ((∑ k ∈ Finset.range N, w k * z k) / N - (∑ k ∈ Finset.range N, w k) / N * ((∑ k ∈ Finset.range N, z k) / N)) := by
    intro w z
    set p := (∑ k ∈ Finset.range N, w k) / N with hp
    set q := (∑ k ∈ Finset.range N, z k) / N with hq
    have hw : ∑ k ∈ Finset.range N, w k = N * p := by rw [hp, mul_div_cancel₀ _ h0.ne']
    have hz : ∑ k ∈ Finset.range N, z k = N * q := by rw [hq, mul_div_cancel₀ _ h0.ne']
    have : ∀ k, (w k - p) * (z k - q) = w k * z k - q * w k - p * z k + p * q := fun k => by ring
    simp only [this, Finset.sum_add_distrib, Finset.sum_sub_distrib, ← Finset.mul_sum, Finset.sum_const, Finset.card_range, nsmul_eq_mul]
    rw [hw, hz]
    field_simp
    ring
  have key2 : ∀ w : ℕ → ℝ, ∑ k ∈ Finset.range N, (w k - (∑ k ∈ Finset.range N, w k) / N) ^ 2
      = N * ((∑ k ∈ Finset.range N, w k ^ 2) / N - ((∑ k ∈ Finset.range N, w k) / N) ^ 2) := by
    intro w
    have := key w w
    simpa only [← pow_two] using this
  rw [blockCorr]
  rw [key, key2, key2, mul_mul_mul_comm, Real.sqrt_mul (by positivity), Real.sqrt_mul_self h0.le]
  rw [mul_div_mul_left _ _ h0.ne']
  rfl

/-- All methods, from the limits of the means of the first, second and exchanged blocks and of their products. -/
theorem sobolEstimates_tendsto (out : ℕ → List (List ℝ)) (i j : ℕ) (a b e : ℕ → ℝ) (hlen : ∀ N, N ≤ (out N).length)
    (ha : ∀ N k, k < N → designEntry (out N) N 0 k j = a k) (hb : ∀ N k, k < N → designEntry (out N) N 1 k j = b k)
    (he : ∀ N k, k < N → designEntry (out N) N (2 + i) k j = e k) {m M U W : ℝ}
    (ta : Tendsto (fun N : ℕ => (∑ k ∈ Finset.range N, a k) / N) atTop (𝓝 m))
    (tb : Tendsto (fun N : ℕ => (∑ k ∈ Finset.range N, b k) / N) atTop (𝓝 m))
    (te : Tendsto (fun N : ℕ => (∑ k ∈ Finset.range N, e k) / N) atTop (𝓝 m))
    (taa : Tendsto (fun N : ℕ => (∑ k ∈ Finset.range N, a k ^ 2) / N) atTop (𝓝 M))
    (tbb : Tendsto (fun N : ℕ => (∑ k ∈ Finset.range N, b k ^ 2) / N) atTop (𝓝 M))
    (tee : Tendsto (fun N : ℕ => (∑ k ∈ Finset.range N, e k ^ 2) / N) atTop (𝓝 M))
    (tae : Tendsto (fun N : ℕ => (∑ k ∈ Finset.range N, a k * e k) / N) atTop (𝓝 U))
    (tbe : Tendsto (fun N : ℕ => (∑ k ∈ Finset.range N, b k * e k) / N) atTop (𝓝 W))
    (tab : Tendsto (fun N : ℕ => (∑ k ∈ Finset.range N, a k * b k) / N) atTop (𝓝 (m ^ 2))) (hpos : 0 < M - m ^ 2)
    {method : String} (hm : method ∈ ["Saltelli", "Martinez", "Jansen", "MauntzKucherenko"]) (c : ℕ → ℝ) (hc : Tendsto c atTop (𝓝 m)) :
    ∃ est : ℕ → ℝ × ℝ, (∀ N, sobolEstimates method (c N) N i j (out N) = .ok (est N)) ∧
      Tendsto (fun N => (est N).1) atTop (𝓝 ((W - m ^ 2) / (M - m ^ 2))) ∧ Tendsto (fun N => (est N).2) atTop (𝓝 ((M - U) / (M - m ^ 2))) := by
  have tv := firstBlock_variance out j a hlen ha ta taa
  have hne := hpos.ne'
  -- replacement of the entries by the values
  have sums : ∀ (f : ℝ → ℝ → ℝ → ℝ) (N : ℕ), ∑ k ∈ Finset.range N, f (designEntry (out N) N 0 k j) (designEntry (out N) N 1 k j)
      (designEntry (out N) N (2 + i) k j) = ∑ k ∈ Finset.range N, f (a k) (b k) (e k) := by
    intro f N
    refine Finset.sum_congr rfl fun k hk => ?_
    have hk' := Finset.mem_range.mp hk
    rw [ha N k hk', hb N k hk', he N k hk']
  have cent : ∀ (u v : ℕ → ℝ) (R : ℝ), Tendsto (fun N : ℕ => (∑ k ∈ Finset.range N, u k) / N) atTop (𝓝 m) →
      Tendsto (fun N : ℕ => (∑ k ∈ Finset.range N, v k) / N) atTop (𝓝 m) →
      Tendsto (fun N : ℕ => (∑ k ∈ Finset.range N, u k * v k) / N) atTop (𝓝 R) →
      Tendsto (fun N : ℕ => (∑ k ∈ Finset.range N, (u k - c N) * (v k - c N)) / (N - 1)) atTop (𝓝 (R - m ^ 2)) := by
    intro u v R tu tv tuv
    have l := ratio_sub_one.mul (((tuv.sub (hc.mul tu)).sub (hc.mul tv)).add (hc.mul hc))
    rw [show 1 * (R - m * m - m * m + m * m) = R - m ^ 2 by ring] at l
    refine l.congr' ?_
    filter_upwards [eventually_ge_atTop 2] with N hN
    have h0 : (N : ℝ) ≠ 0 := by positivity
    have h1 : (N : ℝ) - 1 ≠ 0 := by
      have : (2 : ℝ) ≤ N := by exact_mod_cast hN
      linarith
    have : ∀ k, (u k - c N) * (v k - c N) = u k * v k - c N * u k - c N * v k + c N * c N := fun k => by ring
    simp only [this, Finset.sum_add_distrib, Finset.sum_sub_distrib, ← Finset.mul_sum, Finset.sum_const, Finset.card_range, nsmul_eq_mul]
    field_simp
  have diff : ∀ (w u v : ℕ → ℝ) (R S : ℝ), Tendsto (fun N : ℕ => (∑ k ∈ Finset.range N, u k) / N) atTop (𝓝 m) →
      Tendsto (fun N : ℕ => (∑ k ∈ Finset.range N, v k) / N) atTop (𝓝 m) →
      Tendsto (fun N : ℕ => (∑ k ∈ Finset.range N, w k * u k) / N) atTop (𝓝 R) →
      Tendsto (fun N : ℕ => (∑ k ∈ Finset.range N, w k * v k) / N) atTop (𝓝 S) →
      Tendsto (fun N : ℕ => (∑ k ∈ Finset.range N, (w k - c N) * (u k - v k)) / (N - 1)) atTop (𝓝 (R - S)) := by
    intro w u v R S tu tv twu twv
    have l := ratio_sub_one.mul ((twu.sub twv).sub (hc.mul (tu.sub tv)))
    rw [show 1 * (R - S - m * (m - m)) = R - S by ring] at l
    refine l.congr' ?_
    filter_upwards [eventually_ge_atTop 2] with N hN
    have h0 : (N : ℝ) ≠ 0 := by positivity
    have h1 : (N : ℝ) - 1 ≠ 0 := by
      have : (2 : ℝ) ≤ N := by exact_mod_cast hN
      linarith
    have : ∀ k, (w k - c N) * (u k - v k) = w k * u k - w k * v k - c N * u k + c N * v k := fun k => by ring
    simp only [this, Finset.sum_add_distrib, Finset.sum_sub_distrib, ← Finset.mul_sum]
    field_simp
    ring
  have sq : ∀ (u v : ℕ → ℝ) (R : ℝ), Tendsto (fun N : ℕ => (∑ k ∈ Finset.range N, u k ^ 2) / N) atTop (𝓝 M) →
      Tendsto (fun N : ℕ => (∑ k ∈ Finset.range N, v k ^ 2) / N) atTop (𝓝 M) →
      Tendsto (fun N : ℕ => (∑ k ∈ Finset.range N, u k * v k) / N) atTop (𝓝 R) →
      Tendsto (fun N : ℕ => (∑ k ∈ Finset.range N, (u k - v k) ^ 2) / N) atTop (𝓝 (2 * (M - R))) := by
    intro u v R tu tv tuv
    have l := (tu.sub (tuv.const_mul 2)).add tv
    rw [show M - 2 * R + M = 2 * (M - R) by ring] at l
    refine l.congr fun N => ?_
    have : ∀ k, (u k - v k) ^ 2 = u k ^ 2 - 2 * (u k * v k) + v k ^ 2 := fun k => by ring
    simp only [this, Finset.sum_add_distrib, Finset.sum_sub_distrib, ← Finset.mul_sum]
    ring
  have hcorr : ∀ (u v u' v' : ℕ → ℕ → ℝ) (N : ℕ), (∀ k < N, u N k = u' N k) → (∀ k < N, v N k = v' N k) →
      blockCorr N (u N) (v N) = blockCorr N (u' N) (v' N) := by
    intro u v u' v' N h1 h2
    have e1 : ∑ k ∈ Finset.range N, u N k = ∑ k ∈ Finset.range N, u' N k := Finset.sum_congr rfl fun k hk => h1 k (Finset.mem_range.mp hk)
    have e2 : ∑ k ∈ Finset.range N, v N k = ∑ k ∈ Finset.range N, v' N k := Finset.sum_congr rfl fun k hk => h2 k (Finset.mem_range.mp hk)
    simp only [blockCorr, e1, e2]
    congr 1
    · exact Finset.sum_congr rfl fun k hk => by rw [h1 k (Finset.mem_range.mp hk), h2 k (Finset.mem_range.mp hk)]
    · congr 2
      · exact Finset.sum_congr rfl fun k hk => by rw [h1 k (Finset.mem_range.mp hk)]
      · exact Finset.sum_congr rfl fun k hk => by rw [h2 k (Finset.mem_range.mp hk)]
  have hsqrt : Real.sqrt ((M - m ^ 2) * (M - m ^ 2)) = M - m ^ 2 := Real.sqrt_mul_self hpos.le
  have htot : 1 - (U - m ^ 2) / (M - m ^ 2) = (M - U) / (M - m ^ 2) := by field_simp; ring
  have hfst : 1 - (M - W) / (M - m ^ 2) = (W - m ^ 2) / (M - m ^ 2) := by field_simp; ring
  simp only [List.mem_cons, List.not_mem_nil, or_false] at hm
  rcases hm with rfl | rfl | rfl | rfl
  · refine ⟨fun N => ((∑ k ∈ Finset.range N, (b k - c N) * (e k - c N)) / (N - 1) / colVariance (((out N).map fun r => r.getD j 0).take N),
        1 - (∑ k ∈ Finset.range N, (a k - c N) * (e k - c N)) / (N - 1) / colVariance (((out N).map fun r => r.getD j 0).take N)),
      fun N => ?_, ?_, ?_⟩
    · rw [sobolEstimates]
      simp only [↓reduceIte]
      rw [sums (fun _ y z => (y - c N) * (z - c N)) N, sums (fun x _ z => (x - c N) * (z - c N)) N]
    · exact (cent b e W tb te tbe).div tv hne
    · rw [← htot]
      exact tendsto_const_nhds.sub ((cent a e U ta te tae).div tv hne)
  · refine ⟨fun N => (blockCorr N b e, 1 - blockCorr N a e),
      fun N => ?_, ?_, ?_⟩
    · rw [sobolEstimates]
      simp only [String.reduceEq, ↓reduceIte]
      rw [hcorr (fun N k => designEntry (out N) N 1 k j) (fun N k => designEntry (out N) N (2 + i) k j) (fun _ => b) (fun _ => e) N (hb N) (he N),
        hcorr (fun N k => designEntry (out N) N 0 k j) (fun N k => designEntry (out N) N (2 + i) k j) (fun _ => a) (fun _ => e) N (ha N) (he N)]
    · have := blockCorr_tendsto tb te tbb tee tbe hpos hpos
      rwa [hsqrt, ← pow_two] at this
    · have := blockCorr_tendsto ta te taa tee tae hpos hpos
      rw [hsqrt, ← pow_two] at this
      rw [← htot]
      exact tendsto_const_nhds.sub this
  · refine ⟨fun N => (1 - (∑ k ∈ Finset.range N, (e k - b k) ^ 2) / (2 * N - 1) / colVariance (((out N).map fun r => r.getD j 0).take N),
        jansenTotal N i j (out N)),
      fun N => ?_, ?_, ?_⟩
    · rw [sobolEstimates]
      simp only [String.reduceEq, ↓reduceIte]
      rw [sums (fun _ y z => (z - y) ^ 2) N]
    · rw [← hfst]
      refine tendsto_const_nhds.sub ?_
      have tbe' : Tendsto (fun N : ℕ => (∑ k ∈ Finset.range N, e k * b k) / N) atTop (𝓝 W) := by simpa only [mul_comm] using tbe
      have l := ratio_two_sub_one.mul (sq e b W tee tbb tbe')
      rw [show (1 / 2 : ℝ) * (2 * (M - W)) = M - W by ring] at l
      refine (l.div tv hne).congr' ?_
      filter_upwards [eventually_ge_atTop 1] with N hN
      have h0 : (N : ℝ) ≠ 0 := by positivity
      have h1 : 2 * (N : ℝ) - 1 ≠ 0 := by
        have : (1 : ℝ) ≤ N := by exact_mod_cast hN
        linarith
      simp only [Pi.div_apply]
      congr 1
      field_simp
    · exact jansenTotal_tendsto out i j a e hlen ha he (sq a e U taa tee tae) ta taa hne
  · refine ⟨fun N => ((∑ k ∈ Finset.range N, (b k - c N) * (e k - a k)) / (N - 1) / colVariance (((out N).map fun r => r.getD j 0).take N),
        (∑ k ∈ Finset.range N, (a k - c N) * (a k - e k)) / (N - 1) / colVariance (((out N).map fun r => r.getD j 0).take N)),
      fun N => ?_, ?_, ?_⟩
    · rw [sobolEstimates]
      simp only [String.reduceEq, ↓reduceIte]
      rw [sums (fun x y z => (y - c N) * (z - x)) N, sums (fun x _ z => (x - c N) * (x - z)) N]
    · have tba : Tendsto (fun N : ℕ => (∑ k ∈ Finset.range N, b k * a k) / N) atTop (𝓝 (m ^ 2)) := by simpa only [mul_comm] using tab
      exact (diff b e a W (m ^ 2) te ta tbe tba).div tv hne
    · have taa' : Tendsto (fun N : ℕ => (∑ k ∈ Finset.range N, a k * a k) / N) atTop (𝓝 M) := by simpa only [pow_two] using taa
      exact (diff a a e M U ta te taa' tae).div tv hne

/-! ## Limits for independent draws -/

/-- The limits for any triple of functions of independent draws: `A`, `B`, `C` are the values of the three blocks. -/
theorem sobolEstimates_limit {Ω E : Type} [MeasurableSpace Ω] [MeasurableSpace E] (Q : Measure Ω) [IsProbabilityMeasure Q] (P : Measure E)
    [IsProbabilityMeasure P] (q : ℕ → Ω → E) (hq : ∀ k, Measurable (q k)) (hlaw : ∀ k, Q.map (q k) = P) (hind : iIndepFun q Q)
    (A B C : E → ℝ) (hA : Measurable A) (hB : Measurable B) (hC : Measurable C) (bA : ∀ x, 0 ≤ A x ∧ A x ≤ 1) (bB : ∀ x, 0 ≤ B x ∧ B x ≤ 1)
    (bC : ∀ x, 0 ≤ C x ∧ C x ≤ 1) {m M U W : ℝ} (iA : ∫ x, A x ∂P = m) (iB : ∫ x, B x ∂P = m) (iC : ∫ x, C x ∂P = m)
    (iAA : ∫ x, A x ^ 2 ∂P = M) (iBB : ∫ x, B x ^ 2 ∂P = M) (iCC : ∫ x, C x ^ 2 ∂P = M) (iAC : ∫ x, A x * C x ∂P = U)
    (iBC : ∫ x, B x * C x ∂P = W) (iAB : ∫ x, A x * B x ∂P = m ^ 2) (hpos : 0 < M - m ^ 2) (i j : ℕ) (out : Ω → ℕ → List (List ℝ))
    (hlen : ∀ ω N, N ≤ (out ω N).length) (ha : ∀ ω N k, k < N → designEntry (out ω N) N 0 k j = A (q k ω))
    (hb : ∀ ω N k, k < N → designEntry (out ω N) N 1 k j = B (q k ω))
    (he : ∀ ω N k, k < N → designEntry (out ω N) N (2 + i) k j = C (q k ω)) :
    ∀ᵐ ω ∂Q, ∀ method ∈ ["Saltelli", "Martinez", "Jansen", "MauntzKucherenko"], ∀ c : ℕ → ℝ, Tendsto c atTop (𝓝 m) →
      ∃ est : ℕ → ℝ × ℝ, (∀ N, sobolEstimates method (c N) N i j (out ω N) = .ok (est N)) ∧
        Tendsto (fun N => (est N).1) atTop (𝓝 ((W - m ^ 2) / (M - m ^ 2))) ∧ Tendsto (fun N => (est N).2) atTop (𝓝 ((M - U) / (M - m ^ 2))) := by
  have LA := bounded_memLp P hA bA
  have LB := bounded_memLp P hB bB
  have LC := bounded_memLp P hC bC
  have ta := avg_strong hq hlaw hind hA (LA.integrable (by norm_num))
  have tb := avg_strong hq hlaw hind hB (LB.integrable (by norm_num))
  have tc := avg_strong hq hlaw hind hC (LC.integrable (by norm_num))
  have taa := avg_strong hq hlaw hind (hA.pow_const 2) LA.integrable_sq
  have tbb := avg_strong hq hlaw hind (hB.pow_const 2) LB.integrable_sq
  have tcc := avg_strong hq hlaw hind (hC.pow_const 2) LC.integrable_sq
  have tac := avg_strong hq hlaw hind (hA.mul hC) (LA.integrable_mul LC)
  have tbc := avg_strong hq hlaw hind (hB.mul hC) (LB.integrable_mul LC)
  have tab := avg_strong hq hlaw hind (hA.mul hB) (LA.integrable_mul LB)
  simp only [Pi.mul_apply] at tac tbc tab
  rw [iA] at ta
  rw [iB] at tb
  rw [iC] at tc
  rw [iAA] at taa
  rw [iBB] at tbb
  rw [iCC] at tcc
  rw [iAC] at tac
  rw [iBC] at tbc
  rw [iAB] at tab
  filter_upwards [ta, tb, tc, taa, tbb, tcc, tac, tbc, tab] with ω h1 h2 h3 h4 h5 h6 h7 h8 h9
  intro method hm c hc
  exact sobolEstimates_tendsto (out ω) i j (fun k => A (q k ω)) (fun k => B (q k ω)) (fun k => C (q k ω)) (hlen ω) (ha ω) (hb ω) (he ω) h1 h2 h3 h4 h5
    h6 h7 h8 h9 hpos hm c hc

/-! ## The exact indices -/

section Exact
variable {d : ℕ} (law : Fin d → Measure ℝ) [∀ i, IsProbabilityMeasure (law i)] (i : Fin d) (g : (Fin d → ℝ) → ℝ)

/-- Mean when one input is known. -/
noncomputable def meanGiven (t : ℝ) : ℝ := ∫ x, g (Function.update x i t) ∂(Measure.pi law)

/-- Mean when all other inputs are known. -/
noncomputable def meanOthers (x : Fin d → ℝ) : ℝ := ∫ t, g (Function.update x i t) ∂(law i)

/-- Variance of the mean when one input is known. -/
noncomputable def firstVariance : ℝ := variance (meanGiven law i g) (law i)

theorem unit_integral {α : Type*} [MeasurableSpace α] (P : Measure α) [IsProbabilityMeasure P] {u : α → ℝ} (hu : Measurable u)
    (hb : ∀ a, 0 ≤ u a ∧ u a ≤ 1) : 0 ≤ ∫ a, u a ∂P ∧ ∫ a, u a ∂P ≤ 1 := by
  refine ⟨integral_nonneg fun a => (hb a).1, ?_⟩
  calc ∫ a, u a ∂P ≤ ∫ _, (1 : ℝ) ∂P := integral_mono ((bounded_memLp P hu hb).integrable (by norm_num)) (integrable_const _) fun a => (hb a).2
    _ = 1 := by simp

variable (hg : Measurable g) (hb : ∀ x, 0 ≤ g x ∧ g x ≤ 1)
include hg hb

theorem meanGiven_spec : Measurable (meanGiven law i g) ∧ ∀ t, 0 ≤ meanGiven law i g t ∧ meanGiven law i g t ≤ 1 := by
  have hmu : Measurable fun q : (Fin d → ℝ) × ℝ => Function.update q.1 i q.2 := (resample_preserving law i).measurable
  have hs : StronglyMeasurable (Function.uncurry fun (x : Fin d → ℝ) (t : ℝ) => g (Function.update x i t)) := (hg.comp hmu).stronglyMeasurable
  refine ⟨hs.integral_prod_left.measurable, fun t => ?_⟩
  exact unit_integral _ (hg.comp (hmu.comp (measurable_id.prodMk measurable_const))) fun x => hb _

theorem meanOthers_spec : Measurable (meanOthers law i g) ∧ ∀ x, 0 ≤ meanOthers law i g x ∧ meanOthers law i g x ≤ 1 := by
  have hmu : Measurable fun q : (Fin d → ℝ) × ℝ => Function.update q.1 i q.2 := (resample_preserving law i).measurable
  have hs : StronglyMeasurable (Function.uncurry fun (x : Fin d → ℝ) (t : ℝ) => g (Function.update x i t)) := (hg.comp hmu).stronglyMeasurable
  refine ⟨hs.integral_prod_right.measurable, fun x => ?_⟩
  exact unit_integral _ (hg.comp (hmu.comp (measurable_const.prodMk measurable_id))) fun t => hb _

omit hg hb in
/-- Integration with one input drawn apart. -/
theorem integral_resample {u : (Fin d → ℝ) → ℝ} (hu : Measurable u) (hub : ∀ x, 0 ≤ u x ∧ u x ≤ 1) :
    ∫ x, u x ∂(Measure.pi law) = ∫ x, ∫ t, u (Function.update x i t) ∂(law i) ∂(Measure.pi law) ∧
    ∫ x, u x ∂(Measure.pi law) = ∫ t, ∫ x, u (Function.update x i t) ∂(Measure.pi law) ∂(law i) := by
  have hp := resample_preserving law i
  have h1 : ∫ x, u x ∂(Measure.pi law) = ∫ q : (Fin d → ℝ) × ℝ, u (Function.update q.1 i q.2) ∂((Measure.pi law).prod (law i)) := by
    conv_lhs => rw [← hp.map_eq]
    rw [integral_map hp.measurable.aemeasurable hu.aestronglyMeasurable]
  have hi : Integrable (fun q : (Fin d → ℝ) × ℝ => u (Function.update q.1 i q.2)) ((Measure.pi law).prod (law i)) :=
    hp.integrable_comp_of_integrable ((bounded_memLp _ hu hub).integrable (by norm_num))
  exact ⟨h1.trans (integral_prod _ hi), h1.trans (integral_prod_symm _ hi)⟩

omit hg hb in
theorem unit_mul {α : Type*} {u v : α → ℝ} (hu : ∀ a, 0 ≤ u a ∧ u a ≤ 1) (hv : ∀ a, 0 ≤ v a ∧ v a ≤ 1) (a : α) : 0 ≤ u a * v a ∧ u a * v a ≤ 1 :=
  ⟨mul_nonneg (hu a).1 (hv a).1, mul_le_one₀ (hu a).2 (hv a).1 (hv a).2⟩

theorem meanGiven_mean : ∫ t, meanGiven law i g t ∂(law i) = ∫ x, g x ∂(Measure.pi law) := ((integral_resample law i hg hb).2).symm

theorem meanOthers_mean : ∫ x, meanOthers law i g x ∂(Measure.pi law) = ∫ x, g x ∂(Measure.pi law) := ((integral_resample law i hg hb).1).symm

/-- Products with a function of the input. -/
theorem mul_meanGiven : ∫ x, g x * meanGiven law i g (x i) ∂(Measure.pi law) = ∫ t, meanGiven law i g t ^ 2 ∂(law i) := by
  obtain ⟨h1, h2⟩ := meanGiven_spec law i g hg hb
  rw [(integral_resample law i (u := fun x => g x * meanGiven law i g (x i)) (hg.mul (h1.comp (measurable_pi_apply i))) (unit_mul hb fun x => h2 (x i))).2]
  congr 1
  funext t
  simp only [Function.update_self]
  rw [integral_mul_const, pow_two]
  rfl

/-- Products with a function of the other inputs. -/
theorem mul_meanOthers : ∫ x, g x * meanOthers law i g x ∂(Measure.pi law) = ∫ x, meanOthers law i g x ^ 2 ∂(Measure.pi law) := by
  obtain ⟨h1, h2⟩ := meanOthers_spec law i g hg hb
  rw [(integral_resample law i (u := fun x => g x * meanOthers law i g x) (hg.mul h1) (unit_mul hb h2)).1]
  congr 1
  funext x
  have : ∀ t, meanOthers law i g (Function.update x i t) = meanOthers law i g x := fun t => by simp [meanOthers]
  simp only [this]
  rw [integral_mul_const, pow_two]
  rfl

theorem meanGiven_meanOthers :
    ∫ x, meanGiven law i g (x i) * meanOthers law i g x ∂(Measure.pi law) = (∫ x, g x ∂(Measure.pi law)) ^ 2 := by
  obtain ⟨h1, h2⟩ := meanGiven_spec law i g hg hb
  obtain ⟨k1, k2⟩ := meanOthers_spec law i g hg hb
  rw [(integral_resample law i (u := fun x => meanGiven law i g (x i) * meanOthers law i g x) ((h1.comp (measurable_pi_apply i)).mul k1) (unit_mul (fun x => h2 (x i)) k2)).1]
  have : ∀ x t, meanOthers law i g (Function.update x i t) = meanOthers law i g x := fun x t => by simp [meanOthers]
  simp only [Function.update_self, this]
  have : ∀ x, ∫ t, meanGiven law i g t * meanOthers law i g x ∂(law i) = (∫ x, g x ∂(Measure.pi law)) * meanOthers law i g x := fun x => by
    rw [integral_mul_const, meanGiven_mean law i g hg hb]
  simp only [this]
  rw [integral_const_mul, meanOthers_mean law i g hg hb, pow_two]

/-- Product of a point and of the point with one input drawn again. -/
theorem first_exchanged : ∫ q, g q.1 * g (Function.update q.1 i (q.2 i)) ∂((Measure.pi law).prod (Measure.pi law))
    = ∫ x, meanOthers law i g x ^ 2 ∂(Measure.pi law) := by
  have hmu : Measurable fun q : (Fin d → ℝ) × ℝ => Function.update q.1 i q.2 := (resample_preserving law i).measurable
  have hp : MeasurePreserving (fun q : (Fin d → ℝ) × (Fin d → ℝ) => (q.1, q.2 i)) ((Measure.pi law).prod (Measure.pi law))
      ((Measure.pi law).prod (law i)) := (MeasurePreserving.id _).prod (measurePreserving_eval law i)
  have hF : Measurable fun q : (Fin d → ℝ) × ℝ => g q.1 * g (Function.update q.1 i q.2) := (hg.comp measurable_fst).mul (hg.comp hmu)
  have h1 : ∫ q, g q.1 * g (Function.update q.1 i (q.2 i)) ∂((Measure.pi law).prod (Measure.pi law))
      = ∫ q : (Fin d → ℝ) × ℝ, g q.1 * g (Function.update q.1 i q.2) ∂((Measure.pi law).prod (law i)) := by
    rw [← hp.map_eq, integral_map hp.measurable.aemeasurable hF.aestronglyMeasurable]
  rw [h1, integral_prod _ ((bounded_memLp _ hF (unit_mul (fun q => hb q.1) fun q => hb _)).integrable (by norm_num)), ← mul_meanOthers law i g hg hb]
  congr 1
  funext x
  dsimp only
  rw [integral_const_mul]
  rfl

/-- Product of an independent point and of the point with one input taken from it. -/
theorem second_exchanged : ∫ q, g q.2 * g (Function.update q.1 i (q.2 i)) ∂((Measure.pi law).prod (Measure.pi law))
    = ∫ t, meanGiven law i g t ^ 2 ∂(law i) := by
  have hmu : Measurable fun q : (Fin d → ℝ) × (Fin d → ℝ) => Function.update q.1 i (q.2 i) :=
    (resample_preserving law i).measurable.comp (measurable_fst.prodMk ((measurable_pi_apply i).comp measurable_snd))
  have hF : Measurable fun q : (Fin d → ℝ) × (Fin d → ℝ) => g q.2 * g (Function.update q.1 i (q.2 i)) := (hg.comp measurable_snd).mul (hg.comp hmu)
  rw [integral_prod_symm _ ((bounded_memLp _ hF (unit_mul (fun q => hb q.2) fun q => hb _)).integrable (by norm_num)), ← mul_meanGiven law i g hg hb]
  congr 1
  funext y
  dsimp only
  rw [integral_const_mul]
  rfl

theorem firstVariance_eq : firstVariance law i g = ∫ t, meanGiven law i g t ^ 2 ∂(law i) - (∫ x, g x ∂(Measure.pi law)) ^ 2 := by
  obtain ⟨h1, h2⟩ := meanGiven_spec law i g hg hb
  rw [firstVariance, variance_eq_sub (bounded_memLp _ h1 h2), meanGiven_mean law i g hg hb]
  rfl

omit hb in
theorem exchanged_preserving : MeasurePreserving (fun q : (Fin d → ℝ) × (Fin d → ℝ) => Function.update q.1 i (q.2 i))
    ((Measure.pi law).prod (Measure.pi law)) (Measure.pi law) ∧ Measurable fun q : (Fin d → ℝ) × (Fin d → ℝ) => g (Function.update q.1 i (q.2 i)) := by
  have h := (resample_preserving law i).comp ((MeasurePreserving.id (Measure.pi law)).prod (measurePreserving_eval law i))
  exact ⟨h, hg.comp h.measurable⟩

theorem totalVariance_eq : totalVariance law i g = ∫ x, g x ^ 2 ∂(Measure.pi law) - ∫ x, meanOthers law i g x ^ 2 ∂(Measure.pi law) := by
  have h := jansen_identity law i g hg hb
  obtain ⟨hp, hm⟩ := exchanged_preserving law i g hg
  set P := (Measure.pi law).prod (Measure.pi law)
  have L1 := bounded_memLp P (hg.comp measurable_fst) fun q => hb q.1
  have L2 := bounded_memLp P hm fun q => hb _
  have e : ∀ q : (Fin d → ℝ) × (Fin d → ℝ), (g q.1 - g (Function.update q.1 i (q.2 i))) ^ 2
      = (g q.1 ^ 2 - 2 * (g q.1 * g (Function.update q.1 i (q.2 i)))) + g (Function.update q.1 i (q.2 i)) ^ 2 := fun q => by ring
  simp only [e] at h
  have a1 : Integrable (fun q : (Fin d → ℝ) × (Fin d → ℝ) => g q.1 ^ 2) P := L1.integrable_sq
  have a2 : Integrable (fun q : (Fin d → ℝ) × (Fin d → ℝ) => 2 * (g q.1 * g (Function.update q.1 i (q.2 i)))) P := (L1.integrable_mul L2).const_mul 2
  have a3 : Integrable (fun q : (Fin d → ℝ) × (Fin d → ℝ) => g (Function.update q.1 i (q.2 i)) ^ 2) P := L2.integrable_sq
  have a12 : Integrable (fun q : (Fin d → ℝ) × (Fin d → ℝ) => g q.1 ^ 2 - 2 * (g q.1 * g (Function.update q.1 i (q.2 i)))) P := a1.sub a2
  rw [integral_add a12 a3, integral_sub a1 a2, integral_const_mul, first_exchanged law i g hg hb] at h
  have k1 : ∫ q : (Fin d → ℝ) × (Fin d → ℝ), g q.1 ^ 2 ∂P = ∫ x, g x ^ 2 ∂(Measure.pi law) := by
    rw [integral_fun_fst (fun x => g x ^ 2)]; simp
  have k2 : ∫ q : (Fin d → ℝ) × (Fin d → ℝ), g (Function.update q.1 i (q.2 i)) ^ 2 ∂P = ∫ x, g x ^ 2 ∂(Measure.pi law) := by
    rw [← hp.map_eq, integral_map hp.measurable.aemeasurable (hg.pow_const 2).aestronglyMeasurable]
  rw [k1, k2] at h
  linarith

/-- The exact indices: the first-order variance is at most the total one, which is at most the variance. -/
theorem exact_order : 0 ≤ firstVariance law i g ∧ firstVariance law i g ≤ totalVariance law i g ∧
    totalVariance law i g ≤ variance g (Measure.pi law) := by
  obtain ⟨h1, h2⟩ := meanGiven_spec law i g hg hb
  obtain ⟨k1, k2⟩ := meanOthers_spec law i g hg hb
  set P := Measure.pi law with hP
  set m := ∫ x, g x ∂P with hm
  set h : (Fin d → ℝ) → ℝ := fun x => meanGiven law i g (x i) with hh
  set k := meanOthers law i g with hk
  have Lg := bounded_memLp P hg hb
  have Lh := bounded_memLp P (h1.comp (measurable_pi_apply i)) fun x => h2 (x i)
  have Lk := bounded_memLp P k1 k2
  have hv : variance g P = ∫ x, g x ^ 2 ∂P - m ^ 2 := variance_eq_sub Lg
  have hvk : variance k P = ∫ x, k x ^ 2 ∂P - m ^ 2 := by
    rw [variance_eq_sub Lk, hm, ← meanOthers_mean law i g hg hb]; rfl
  have hf := firstVariance_eq law i g hg hb
  have ht := totalVariance_eq law i g hg hb
  have hhi : ∫ x, h x ^ 2 ∂P = ∫ t, meanGiven law i g t ^ 2 ∂(law i) := by
    have hp := measurePreserving_eval law i
    rw [← hp.map_eq, integral_map hp.measurable.aemeasurable (h1.pow_const 2).aestronglyMeasurable]
  have hhm : ∫ x, h x ∂P = m := by
    have hp := measurePreserving_eval law i
    rw [hm, ← meanGiven_mean law i g hg hb, ← hp.map_eq, integral_map hp.measurable.aemeasurable h1.aestronglyMeasurable]
  have hkm : ∫ x, k x ∂P = m := meanOthers_mean law i g hg hb
  refine ⟨variance_nonneg _ _, ?_, ?_⟩
  · have hnn : 0 ≤ ∫ x, (g x - h x - k x + m) ^ 2 ∂P := integral_nonneg fun x => sq_nonneg _
    have e : ∀ x, (g x - h x - k x + m) ^ 2 = g x ^ 2 + h x ^ 2 + k x ^ 2 + m ^ 2 - 2 * (g x * h x) - 2 * (g x * k x) + 2 * (h x * k x)
        + 2 * m * g x - 2 * m * h x - 2 * m * k x := fun x => by ring
    simp only [e] at hnn
    have Ig := Lg.integrable (q := 2) (by norm_num)
    have Ih := Lh.integrable (q := 2) (by norm_num)
    have Ik := Lk.integrable (q := 2) (by norm_num)
    have b1 : Integrable (fun x => g x ^ 2) P := Lg.integrable_sq
    have b2 : Integrable (fun x => h x ^ 2) P := Lh.integrable_sq
    have b3 : Integrable (fun x => k x ^ 2) P := Lk.integrable_sq
    have b4 : Integrable (fun _ : Fin d → ℝ => m ^ 2) P := integrable_const _
    have b5 : Integrable (fun x => 2 * (g x * h x)) P := (Lg.integrable_mul Lh).const_mul 2
    have b6 : Integrable (fun x => 2 * (g x * k x)) P := (Lg.integrable_mul Lk).const_mul 2
    have b7 : Integrable (fun x => 2 * (h x * k x)) P := (Lh.integrable_mul Lk).const_mul 2
    have b8 : Integrable (fun x => 2 * m * g x) P := Ig.const_mul _
    have b9 : Integrable (fun x => 2 * m * h x) P := Ih.const_mul _
    have b10 : Integrable (fun x => 2 * m * k x) P := Ik.const_mul _
    have c2 : Integrable (fun x => g x ^ 2 + h x ^ 2) P := b1.add b2
    have c3 : Integrable (fun x => g x ^ 2 + h x ^ 2 + k x ^ 2) P := c2.add b3
    have c4 : Integrable (fun x => g x ^ 2 + h x ^ 2 + k x ^ 2 + m ^ 2) P := c3.add b4
    have c5 : Integrable (fun x => g x ^ 2 + h x ^ 2 + k x ^ 2 + m ^ 2 - 2 * (g x * h x)) P := c4.sub b5
    have c6 : Integrable (fun x => g x ^ 2 + h x ^ 2 + k x ^ 2 + m ^ 2 - 2 * (g x * h x) - 2 * (g x * k x)) P := c5.sub b6
    have c7 : Integrable (fun x => g x ^ 2 + h x ^ 2 + k x ^ 2 + m ^ 2 - 2 * (g x * h x) - 2 * (g x * k x) + 2 * (h x * k x)) P := c6.add b7
    have c8 : Integrable (fun x => g x ^ 2 + h x ^ 2 + k x ^ 2 + m ^ 2 - 2 * (g x * h x) - 2 * (g x * k x) + 2 * (h x * k x) + 2 * m * g x) P :=
      c7.add b8
    have c9 : Integrable (fun x => g x ^ 2 + h x ^ 2 + k x ^ 2 + m ^ 2 - 2 * (g x * h x) - 2 * (g x * k x) + 2 * (h x * k x) + 2 * m * g x
      - 2 * m * h x) P := c8.sub b9
    rw [integral_sub c9 b10, integral_sub c8 b9, integral_add c7 b8, integral_add c6 b7, integral_sub c5 b6, integral_sub c4 b5, integral_add c3 b4,
      integral_add c2 b3, integral_add b1 b2, integral_const_mul, integral_const_mul, integral_const_mul, integral_const_mul, integral_const_mul,
      integral_const_mul, hhm, hkm, hhi, mul_meanGiven law i g hg hb, mul_meanOthers law i g hg hb, meanGiven_meanOthers law i g hg hb] at hnn
    simp only [integral_const, probReal_univ, smul_eq_mul, one_mul] at hnn
    nlinarith
  · have := variance_nonneg k P
    linarith

/-- The first-order variances sum to at most the variance. -/
theorem first_sum : ∑ l, firstVariance law l g ≤ variance g (Measure.pi law) := by
  set P := Measure.pi law with hP
  set m := ∫ x, g x ∂P with hm
  set h : Fin d → (Fin d → ℝ) → ℝ := fun l x => meanGiven law l g (x l) with hh
  have h1 : ∀ l, Measurable (h l) := fun l => (meanGiven_spec law l g hg hb).1.comp (measurable_pi_apply l)
  have h2 : ∀ l x, 0 ≤ h l x ∧ h l x ≤ 1 := fun l x => (meanGiven_spec law l g hg hb).2 (x l)
  have Lg := bounded_memLp P hg hb
  have Lh : ∀ l, MemLp (h l) 2 P := fun l => bounded_memLp P (h1 l) (h2 l)
  have Ih : ∀ l, Integrable (h l) P := fun l => (Lh l).integrable (by norm_num)
  have Ig : Integrable g P := Lg.integrable (by norm_num)
  have hhm : ∀ l, ∫ x, h l x ∂P = m := fun l => by
    have hp := measurePreserving_eval law l
    rw [hm, ← meanGiven_mean law l g hg hb, ← hp.map_eq, integral_map hp.measurable.aemeasurable
      (meanGiven_spec law l g hg hb).1.aestronglyMeasurable]
  have hhi : ∀ l, ∫ x, h l x ^ 2 ∂P = firstVariance law l g + m ^ 2 := fun l => by
    have hp := measurePreserving_eval law l
    rw [firstVariance_eq law l g hg hb, sub_add_cancel, ← hp.map_eq, integral_map hp.measurable.aemeasurable
      ((meanGiven_spec law l g hg hb).1.pow_const 2).aestronglyMeasurable]
  have hgh : ∀ l, ∫ x, g x * h l x ∂P = firstVariance law l g + m ^ 2 := fun l => by
    rw [firstVariance_eq law l g hg hb, sub_add_cancel]
    exact mul_meanGiven law l g hg hb
  have hcross : ∀ l k, l ≠ k → ∫ x, h l x * h k x ∂P = m ^ 2 := by
    intro l k hlk
    rw [(integral_resample law l (u := fun x => h l x * h k x) ((h1 l).mul (h1 k)) (unit_mul (h2 l) (h2 k))).1]
    simp only [hh, Function.update_self, Function.update_of_ne hlk.symm]
    have : ∀ x : Fin d → ℝ, ∫ t, meanGiven law l g t * meanGiven law k g (x k) ∂(law l) = m * h k x := fun x => by
      rw [integral_mul_const, meanGiven_mean law l g hg hb]
    simp only [this]
    rw [integral_const_mul, hhm k, pow_two]
  -- the centred projections
  set p : Fin d → (Fin d → ℝ) → ℝ := fun l x => h l x - m with hp
  have Lp : ∀ l, MemLp (p l) 2 P := fun l => (Lh l).sub (memLp_const m)
  have Lc : MemLp (fun x => g x - m) 2 P := Lg.sub (memLp_const m)
  have pg : ∀ l, ∫ x, (g x - m) * p l x ∂P = firstVariance law l g := by
    intro l
    have e : ∀ x, (g x - m) * p l x = g x * h l x - m * g x - m * h l x + m ^ 2 := fun x => by simp only [hp]; ring
    simp only [e]
    have a1 : Integrable (fun x => g x * h l x) P := Lg.integrable_mul (Lh l)
    have a2 : Integrable (fun x => m * g x) P := Ig.const_mul _
    have a3 : Integrable (fun x => m * h l x) P := (Ih l).const_mul _
    have b1 : Integrable (fun x => g x * h l x - m * g x) P := a1.sub a2
    have b2 : Integrable (fun x => g x * h l x - m * g x - m * h l x) P := b1.sub a3
    rw [integral_add b2 (integrable_const _), integral_sub b1 a3, integral_sub a1 a2, integral_const_mul, integral_const_mul, hgh l, hhm l]
    simp only [integral_const, probReal_univ, smul_eq_mul, one_mul]
    rw [← hm]
    ring
  have pp : ∀ l k, ∫ x, p l x * p k x ∂P = if l = k then firstVariance law l g else 0 := by
    intro l k
    have e : ∀ x, p l x * p k x = h l x * h k x - m * h l x - m * h k x + m ^ 2 := fun x => by simp only [hp]; ring
    simp only [e]
    have a1 : Integrable (fun x => h l x * h k x) P := (Lh l).integrable_mul (Lh k)
    have a2 : Integrable (fun x => m * h l x) P := (Ih l).const_mul _
    have a3 : Integrable (fun x => m * h k x) P := (Ih k).const_mul _
    have b1 : Integrable (fun x => h l x * h k x - m * h l x) P := a1.sub a2
    have b2 : Integrable (fun x => h l x * h k x - m * h l x - m * h k x) P := b1.sub a3
    rw [integral_add b2 (integrable_const _), integral_sub b1 a3, integral_sub a1 a2, integral_const_mul, integral_const_mul, hhm l, hhm k]
    simp only [integral_const, probReal_univ, smul_eq_mul, one_mul]
    by_cases hlk : l = k
    · subst hlk
      have := hhi l
      simp only [pow_two] at this ⊢
      rw [if_pos trivial, this]
      ring
    · rw [if_neg hlk, hcross l k hlk]
      ring
  have hnn : 0 ≤ ∫ x, ((g x - m) - ∑ l, p l x) ^ 2 ∂P := integral_nonneg fun x => sq_nonneg _
  have e : ∀ x, ((g x - m) - ∑ l, p l x) ^ 2 = (g x - m) ^ 2 - 2 * ∑ l, (g x - m) * p l x + ∑ l, ∑ k, p l x * p k x := fun x => by
    rw [sub_sq, ← Finset.mul_sum, pow_two (∑ l, p l x), Finset.sum_mul_sum]
    ring
  simp only [e] at hnn
  have a1 : Integrable (fun x => (g x - m) ^ 2) P := Lc.integrable_sq
  have a2' : ∀ l ∈ Finset.univ, Integrable (fun x => (g x - m) * p l x) P := fun l _ => Lc.integrable_mul (Lp l)
  have a2 : Integrable (fun x => 2 * ∑ l, (g x - m) * p l x) P := (integrable_finset_sum _ a2').const_mul 2
  have a3' : ∀ l ∈ Finset.univ, ∀ k ∈ Finset.univ, Integrable (fun x => p l x * p k x) P := fun l _ k _ => (Lp l).integrable_mul (Lp k)
  have a3'' : ∀ l ∈ Finset.univ, Integrable (fun x => ∑ k, p l x * p k x) P := fun l hl => integrable_finset_sum _ (a3' l hl)
  have a3 : Integrable (fun x => ∑ l, ∑ k, p l x * p k x) P := integrable_finset_sum _ a3''
  have a12 : Integrable (fun x => (g x - m) ^ 2 - 2 * ∑ l, (g x - m) * p l x) P := a1.sub a2
  rw [integral_add a12 a3, integral_sub a1 a2, integral_const_mul, integral_finset_sum _ a2', integral_finset_sum _ a3'',
    Finset.sum_congr rfl fun l hl => integral_finset_sum _ (a3' l hl)] at hnn
  simp only [pg, pp, Finset.sum_ite_eq, Finset.mem_univ, if_true] at hnn
  have hv : variance g P = ∫ x, (g x - m) ^ 2 ∂P := by
    rw [variance_eq_integral hg.aemeasurable]
  rw [hv]
  linarith

end Exact

/-! ## Kriging -/

theorem sobolDesign_second {dim N : ℕ} {A B : List (List ℝ)} (hA : A.length = N) (hB : B.length = N) {k : ℕ} (hk : k < N) :
    (sobolDesign dim A B)[1 * N + k]? = B[k]? := by
  rw [sobolDesign, List.getElem?_append_left (by rw [List.length_append, hA, hB]; omega), List.getElem?_append_right (by omega)]
  congr 1
  omega

theorem sobolOutput_second {d : ℕ} (G : List ℝ → List ℝ) (g : (Fin d → ℝ) → ℝ) (j : ℕ) (hG : ∀ x, (G (List.ofFn x)).getD j 0 = g x)
    {N : ℕ} (x y : ℕ → Fin d → ℝ) {k : ℕ} (hk : k < N) : designEntry (sobolOutput G N x y) N 1 k j = g (y k) := by
  rw [designEntry, ← hG]
  congr 1
  rw [List.getD_eq_getElem?_getD, sobolOutput, List.getElem?_map, sobolDesign_second (by simp) (by simp) hk,
    List.getElem?_eq_getElem (by simpa using hk)]
  simp

theorem variance_eq_moments {d : ℕ} (law : Fin d → Measure ℝ) [∀ i, IsProbabilityMeasure (law i)] {g : (Fin d → ℝ) → ℝ} (hg : Measurable g)
    (hb : ∀ x, 0 ≤ g x ∧ g x ≤ 1) :
    variance g (Measure.pi law) = ∫ x, g x ^ 2 ∂(Measure.pi law) - (∫ x, g x ∂(Measure.pi law)) ^ 2 := variance_eq_sub (bounded_memLp _ hg hb)

/-- A deterministic function of the parameters with values in [0, 1]. -/
theorem sobolEstimates_deterministic {Ω : Type} [MeasurableSpace Ω] (Q : Measure Ω) [IsProbabilityMeasure Q] {d : ℕ} (law : Fin d → Measure ℝ)
    [∀ i, IsProbabilityMeasure (law i)] (G : List ℝ → List ℝ) (g : (Fin d → ℝ) → ℝ) (hg : Measurable g) (hb : ∀ x, 0 ≤ g x ∧ g x ≤ 1) (j : ℕ)
    (hG : ∀ x, (G (List.ofFn x)).getD j 0 = g x) (xy : ℕ → Ω → (Fin d → ℝ) × (Fin d → ℝ)) (hxy : ∀ k, Measurable (xy k))
    (hlaw : ∀ k, Q.map (xy k) = (Measure.pi law).prod (Measure.pi law)) (hind : iIndepFun xy Q) (i : Fin d)
    (hvar : variance g (Measure.pi law) ≠ 0) :
    ∀ᵐ ω ∂Q, ∀ method ∈ ["Saltelli", "Martinez", "Jansen", "MauntzKucherenko"], ∀ c : ℕ → ℝ, Tendsto c atTop (𝓝 (∫ x, g x ∂(Measure.pi law))) →
      ∃ est : ℕ → ℝ × ℝ, (∀ N, sobolEstimates method (c N) N i j (sobolOutput G N (fun k => (xy k ω).1) (fun k => (xy k ω).2)) = .ok (est N)) ∧
        Tendsto (fun N => (est N).1) atTop (𝓝 (firstVariance law i g / variance g (Measure.pi law))) ∧
        Tendsto (fun N => (est N).2) atTop (𝓝 (totalVariance law i g / variance g (Measure.pi law))) := by
  obtain ⟨hp, hm⟩ := exchanged_preserving law i g hg
  have hv := variance_eq_moments law hg hb
  have hpos : 0 < ∫ x, g x ^ 2 ∂(Measure.pi law) - (∫ x, g x ∂(Measure.pi law)) ^ 2 := by
    rw [← hv]; exact lt_of_le_of_ne (variance_nonneg _ _) (Ne.symm hvar)
  have h := sobolEstimates_limit Q ((Measure.pi law).prod (Measure.pi law)) xy hxy hlaw hind (fun q => g q.1) (fun q => g q.2)
    (fun q => g (Function.update q.1 i (q.2 i))) (hg.comp measurable_fst) (hg.comp measurable_snd) hm (fun q => hb _) (fun q => hb _) (fun q => hb _)
    (m := ∫ x, g x ∂(Measure.pi law)) (M := ∫ x, g x ^ 2 ∂(Measure.pi law)) (by rw [integral_fun_fst]; simp) (by rw [integral_fun_snd]; simp)
    (by
      conv_rhs => rw [← hp.map_eq]
      rw [integral_map hp.measurable.aemeasurable hg.aestronglyMeasurable])
    (by rw [integral_fun_fst (fun x => g x ^ 2)]; simp) (by rw [integral_fun_snd (fun x => g x ^ 2)]; simp)
    (by
      conv_rhs => rw [← hp.map_eq]
      rw [integral_map hp.measurable.aemeasurable (hg.pow_const 2).aestronglyMeasurable])
    (first_exchanged law i g hg hb) (second_exchanged law i g hg hb) (by rw [integral_prod_mul, pow_two]) hpos i j
    (fun ω N => sobolOutput G N (fun k => (xy k ω).1) (fun k => (xy k ω).2))
    (fun ω N => by
      rw [sobolOutput, List.length_map, sobolDesign_length (N := N) List.length_ofFn List.length_ofFn]
      nlinarith [Nat.zero_le (d * N)])
    (fun ω N k hk => (sobolOutput_entries G g j hG _ _ i hk).1) (fun ω N k hk => sobolOutput_second G g j hG _ _ hk)
    (fun ω N k hk => (sobolOutput_entries G g j hG _ _ i hk).2)
  rw [← hv, ← firstVariance_eq law i g hg hb, ← totalVariance_eq law i g hg hb] at h
  exact h

/-- The POD of the kriging analysis as a function of the parameters. -/
theorem krigPod_spec {d : ℕ} (condMean condVar : List ℝ → ℝ) (det d0 : ℝ) (ds : List ℝ) (hv : ∀ x : Fin d → ℝ, 0 < condVar (d0 :: List.ofFn x))
    (hmm : ∀ a, Measurable fun x : Fin d → ℝ => condMean (a :: List.ofFn x)) (hvm : Measurable fun x : Fin d → ℝ => condVar (d0 :: List.ofFn x))
    (j : ℕ) (hj : j < (d0 :: ds).length) (g : (Fin d → ℝ) → ℝ)
    (hg : g = fun x => 1 - Phi ((det - condMean ((d0 :: ds)[j] :: List.ofFn x)) / Real.sqrt (condVar (d0 :: List.ofFn x)))) :
    Measurable g ∧ (∀ x, 0 ≤ g x ∧ g x ≤ 1) ∧ ∀ x : Fin d → ℝ, (rowValues (krigExec condMean condVar det (d0 :: ds) (List.ofFn x))).getD j 0 = g x := by
  have hPhi : ∀ t, 1 - Phi t = PhiC t := fun t => (PhiC_eq t).symm
  refine ⟨?_, ?_, ?_⟩
  · subst hg
    simp only [hPhi]
    exact PhiC_antitone.measurable.comp ((measurable_const.sub (hmm _)).div hvm.sqrt)
  · intro x
    subst hg
    dsimp only
    have p := Phi_pos ((det - condMean ((d0 :: ds)[j] :: List.ofFn x)) / Real.sqrt (condVar (d0 :: List.ofFn x)))
    have q := PhiC_pos ((det - condMean ((d0 :: ds)[j] :: List.ofFn x)) / Real.sqrt (condVar (d0 :: List.ofFn x)))
    rw [PhiC_eq] at q
    exact ⟨q.le, by linarith⟩
  · intro x
    rw [C68_value_partial condMean condVar det d0 ds _ (hv x), rowValues, List.getD_eq_getElem _ _ (by simpa using hj), List.getElem_map,
      List.getElem_map, hg]
    rfl

/-- **C148 (restricted): kriging.**  The first-order and total indices of the four methods converge almost surely to the same exact indices (`c` is the
centring of the outputs, any sequence converging to their mean). -/
theorem C148_kriging_partial {Ω : Type} [MeasurableSpace Ω] (Q : Measure Ω) [IsProbabilityMeasure Q] {d : ℕ} (law : Fin d → Measure ℝ)
    [∀ i, IsProbabilityMeasure (law i)] (condMean condVar : List ℝ → ℝ) (det d0 : ℝ) (ds : List ℝ) (hv : ∀ x : Fin d → ℝ, 0 < condVar (d0 :: List.ofFn x))
    (hmm : ∀ a, Measurable fun x : Fin d → ℝ => condMean (a :: List.ofFn x)) (hvm : Measurable fun x : Fin d → ℝ => condVar (d0 :: List.ofFn x))
    (j : ℕ) (hj : j < (d0 :: ds).length) (g : (Fin d → ℝ) → ℝ)
    (hg : g = fun x => 1 - Phi ((det - condMean ((d0 :: ds)[j] :: List.ofFn x)) / Real.sqrt (condVar (d0 :: List.ofFn x))))
    (xy : ℕ → Ω → (Fin d → ℝ) × (Fin d → ℝ)) (hxy : ∀ k, Measurable (xy k))
    (hlaw : ∀ k, Q.map (xy k) = (Measure.pi law).prod (Measure.pi law)) (hind : iIndepFun xy Q) (i : Fin d)
    (hvar : variance g (Measure.pi law) ≠ 0) :
    ∀ᵐ ω ∂Q, ∀ method ∈ ["Saltelli", "Martinez", "Jansen", "MauntzKucherenko"], ∀ c : ℕ → ℝ, Tendsto c atTop (𝓝 (∫ x, g x ∂(Measure.pi law))) →
      ∃ est : ℕ → ℝ × ℝ, (∀ N, sobolEstimates method (c N) N i j (sobolOutput (fun x => rowValues (krigExec condMean condVar det (d0 :: ds) x)) N
        (fun k => (xy k ω).1) (fun k => (xy k ω).2)) = .ok (est N)) ∧
        Tendsto (fun N => (est N).1) atTop (𝓝 (firstVariance law i g / variance g (Measure.pi law))) ∧
        Tendsto (fun N => (est N).2) atTop (𝓝 (totalVariance law i g / variance g (Measure.pi law))) := by
  obtain ⟨h1, h2, h3⟩ := krigPod_spec condMean condVar det d0 ds hv hmm hvm j hj g hg
  exact sobolEstimates_deterministic Q law _ g h1 h2 j h3 xy hxy hlaw hind i hvar

/-- **C149: kriging.**  In the limit, for each method, the first-order index is not negative and at most the total index, which is at most one. -/
theorem C149_kriging {Ω : Type} [MeasurableSpace Ω] (Q : Measure Ω) [IsProbabilityMeasure Q] {d : ℕ} (law : Fin d → Measure ℝ)
    [∀ i, IsProbabilityMeasure (law i)] (condMean condVar : List ℝ → ℝ) (det d0 : ℝ) (ds : List ℝ) (hv : ∀ x : Fin d → ℝ, 0 < condVar (d0 :: List.ofFn x))
    (hmm : ∀ a, Measurable fun x : Fin d → ℝ => condMean (a :: List.ofFn x)) (hvm : Measurable fun x : Fin d → ℝ => condVar (d0 :: List.ofFn x))
    (j : ℕ) (hj : j < (d0 :: ds).length) (g : (Fin d → ℝ) → ℝ)
    (hg : g = fun x => 1 - Phi ((det - condMean ((d0 :: ds)[j] :: List.ofFn x)) / Real.sqrt (condVar (d0 :: List.ofFn x))))
    (xy : ℕ → Ω → (Fin d → ℝ) × (Fin d → ℝ)) (hxy : ∀ k, Measurable (xy k))
    (hlaw : ∀ k, Q.map (xy k) = (Measure.pi law).prod (Measure.pi law)) (hind : iIndepFun xy Q) (i : Fin d)
    (hvar : variance g (Measure.pi law) ≠ 0) :
    ∀ᵐ ω ∂Q, ∀ method ∈ ["Saltelli", "Martinez", "Jansen", "MauntzKucherenko"], ∀ c : ℕ → ℝ, Tendsto c atTop (𝓝 (∫ x, g x ∂(Measure.pi law))) →
      ∃ est : ℕ → ℝ × ℝ, (∀ N, sobolEstimates method (c N) N i j (sobolOutput (fun x => rowValues (krigExec condMean condVar det (d0 :: ds) x)) N
        (fun k => (xy k ω).1) (fun k => (xy k ω).2)) = .ok (est N)) ∧
        ∃ f t, Tendsto est atTop (𝓝 (f, t)) ∧ 0 ≤ f ∧ f ≤ t ∧ t ≤ 1 := by
  obtain ⟨h1, h2, h3⟩ := krigPod_spec condMean condVar det d0 ds hv hmm hvm j hj g hg
  filter_upwards [sobolEstimates_deterministic Q law (fun x => rowValues (krigExec condMean condVar det (d0 :: ds) x)) g h1 h2 j h3 xy hxy hlaw hind i hvar] with ω h method hmem c hc
  obtain ⟨est, he, hl1, hl2⟩ := h method hmem c hc
  obtain ⟨o1, o2, o3⟩ := exact_order law i g h1 h2
  have hp : 0 < variance g (Measure.pi law) := lt_of_le_of_ne (variance_nonneg _ _) (Ne.symm hvar)
  exact ⟨est, he, _, _, hl1.prodMk_nhds hl2, by positivity, div_le_div_of_nonneg_right o2 hp.le, (div_le_one hp).mpr o3⟩

/-! ## Polynomial chaos -/

section Chaos
variable {S : ℕ} (det : ℝ) {stderr : ℝ}

theorem chaosOutput_second {d : ℕ} (f : Fin S → List ℝ → ℝ) (stderr : ℝ) (sizes : List ℝ) (j : ℕ) (hj : j < sizes.length) (x y : ℕ → Fin d → ℝ)
    (z : ℕ → ℕ → Fin S → ℝ) {N k : ℕ} (hk : k < N) :
    designEntry (chaosOutput f det stderr d sizes (sobolDesign d (List.ofFn fun k : Fin N => List.ofFn (x k)) (List.ofFn fun k : Fin N => List.ofFn (y k)))
      fun s c => z (c / N) (c % N) s) N 1 k j = podHat det stderr (fun s => f s (sizes[j] :: List.ofFn (y k))) (z 1 k) := by
  set X := sobolDesign d (List.ofFn fun k : Fin N => List.ofFn (x k)) (List.ofFn fun k : Fin N => List.ofFn (y k)) with hX
  have hlen : X.length = (2 + d) * N := sobolDesign_length (N := N) List.length_ofFn List.length_ofFn
  have h1 : 1 * N + k < X.length := by rw [hlen]; nlinarith
  have g1 : X[1 * N + k] = List.ofFn (y k) := by
    have := sobolDesign_second (dim := d) (A := List.ofFn fun k : Fin N => List.ofFn (x k)) (B := List.ofFn fun k : Fin N => List.ofFn (y k))
      List.length_ofFn List.length_ofFn hk
    rw [← hX, List.getElem?_eq_getElem h1, List.getElem?_eq_getElem (by simpa using hk), Option.some.injEq] at this
    rw [this]
    simp
  have e1 : (1 * N + k) / N = 1 := by
    rw [mul_comm, Nat.mul_add_div (by omega), Nat.div_eq_of_lt hk]
  have e2 : (1 * N + k) % N = k := by
    rw [mul_comm, Nat.mul_add_mod, Nat.mod_eq_of_lt hk]
  rw [designEntry, chaosOutput_entry f det stderr d sizes X _ _ j h1 hj, g1]
  simp only [podHat, e1, e2]

/-- Law of the draws of a point: the two samples, and the residuals of the three blocks. -/
noncomputable def chaosLaw {d : ℕ} (law : Fin d → Measure ℝ) (S : ℕ) :
    Measure (((Fin d → ℝ) × (Fin d → ℝ)) × ((Fin S → ℝ) × ((Fin S → ℝ) × (Fin S → ℝ)))) :=
  ((Measure.pi law).prod (Measure.pi law)).prod ((gaussS S).prod ((gaussS S).prod (gaussS S)))

instance {d : ℕ} (law : Fin d → Measure ℝ) [∀ i, IsProbabilityMeasure (law i)] (S : ℕ) : IsProbabilityMeasure (chaosLaw law S) := by
  unfold chaosLaw; infer_instance

theorem residual_moments (F H : (Fin S → ℝ) → ℝ) :
    ∫ w, F w.1 ∂((gaussS S).prod ((gaussS S).prod (gaussS S))) = ∫ r, F r ∂(gaussS S) ∧
    ∫ w, F w.2.1 ∂((gaussS S).prod ((gaussS S).prod (gaussS S))) = ∫ r, F r ∂(gaussS S) ∧
    ∫ w, F w.2.2 ∂((gaussS S).prod ((gaussS S).prod (gaussS S))) = ∫ r, F r ∂(gaussS S) ∧
    ∫ w, F w.1 * H w.2.2 ∂((gaussS S).prod ((gaussS S).prod (gaussS S))) = (∫ r, F r ∂(gaussS S)) * ∫ r, H r ∂(gaussS S) ∧
    ∫ w, F w.2.1 * H w.2.2 ∂((gaussS S).prod ((gaussS S).prod (gaussS S))) = (∫ r, F r ∂(gaussS S)) * ∫ r, H r ∂(gaussS S) ∧
    ∫ w, F w.1 * H w.2.1 ∂((gaussS S).prod ((gaussS S).prod (gaussS S))) = (∫ r, F r ∂(gaussS S)) * ∫ r, H r ∂(gaussS S) := by
  have s1 : ∫ w : (Fin S → ℝ) × (Fin S → ℝ), H w.1 ∂((gaussS S).prod (gaussS S)) = ∫ r, H r ∂(gaussS S) := by
    rw [integral_fun_fst]; simp
  have s2 : ∫ w : (Fin S → ℝ) × (Fin S → ℝ), H w.2 ∂((gaussS S).prod (gaussS S)) = ∫ r, H r ∂(gaussS S) := by
    rw [integral_fun_snd]; simp
  refine ⟨?_, ?_, ?_, ?_, ?_, ?_⟩
  · rw [integral_fun_fst]; simp
  · rw [integral_fun_snd (fun u : (Fin S → ℝ) × (Fin S → ℝ) => F u.1), integral_fun_fst]; simp
  · rw [integral_fun_snd (fun u : (Fin S → ℝ) × (Fin S → ℝ) => F u.2), integral_fun_snd]; simp
  · rw [integral_prod_mul (fun r => F r) (fun u : (Fin S → ℝ) × (Fin S → ℝ) => H u.2), s2]
  · rw [integral_fun_snd (fun u : (Fin S → ℝ) × (Fin S → ℝ) => F u.1 * H u.2), integral_prod_mul]; simp
  · rw [integral_prod_mul (fun r => F r) (fun u : (Fin S → ℝ) × (Fin S → ℝ) => H u.1), s1]

set_option maxHeartbeats 1600000 in
/-- The limits of the four methods with the polynomial chaos POD. -/
theorem sobolEstimates_chaos {Ω : Type} [MeasurableSpace Ω] (Q : Measure Ω) [IsProbabilityMeasure Q] {d : ℕ} (law : Fin d → Measure ℝ)
    [∀ i, IsProbabilityMeasure (law i)] (hS : 0 < S) (hs : 0 < stderr) (f : Fin S → List ℝ → ℝ) (sizes : List ℝ) (j : ℕ) (hj : j < sizes.length)
    (hf : Measurable fun (x : Fin d → ℝ) s => f s (sizes[j] :: List.ofFn x)) (i : Fin d)
    (xy : ℕ → Ω → (Fin d → ℝ) × (Fin d → ℝ)) (z : ℕ → ℕ → Ω → Fin S → ℝ)
    (hm : ∀ k, Measurable fun ω => (xy k ω, (z 0 k ω, (z 1 k ω, z (2 + i) k ω))))
    (hlaw : ∀ k, Q.map (fun ω => (xy k ω, (z 0 k ω, (z 1 k ω, z (2 + i) k ω)))) = chaosLaw law S)
    (hind : iIndepFun (fun k ω => (xy k ω, (z 0 k ω, (z 1 k ω, z (2 + i) k ω)))) Q)
    (g noise : (Fin d → ℝ) → ℝ) (hg : g = fun x => podExact det stderr fun s => f s (sizes[j] :: List.ofFn x))
    (hn : noise = fun x => podNoise det stderr fun s => f s (sizes[j] :: List.ofFn x)) :
    (Measurable g ∧ ∀ x, 0 ≤ g x ∧ g x ≤ 1) ∧ 0 < ∫ x, noise x ∂(Measure.pi law) ∧
    ∀ᵐ ω ∂Q, ∀ method ∈ ["Saltelli", "Martinez", "Jansen", "MauntzKucherenko"], ∀ c : ℕ → ℝ, Tendsto c atTop (𝓝 (∫ x, g x ∂(Measure.pi law))) →
      ∃ est : ℕ → ℝ × ℝ, (∀ N, sobolEstimates method (c N) N i j (chaosOutput f det stderr d sizes
        (sobolDesign d (List.ofFn fun k : Fin N => List.ofFn (xy k ω).1) (List.ofFn fun k : Fin N => List.ofFn (xy k ω).2))
        fun s c => z (c / N) (c % N) ω s) = .ok (est N)) ∧
        Tendsto (fun N => (est N).1) atTop (𝓝 (firstVariance law i g / (variance g (Measure.pi law) + ∫ x, noise x ∂(Measure.pi law)))) ∧
        Tendsto (fun N => (est N).2) atTop (𝓝 ((totalVariance law i g + ∫ x, noise x ∂(Measure.pi law))
          / (variance g (Measure.pi law) + ∫ x, noise x ∂(Measure.pi law)))) := by
  set v : (Fin d → ℝ) → Fin S → ℝ := fun x s => f s (sizes[j] :: List.ofFn x) with hv
  have hgx : ∀ x, g x = podExact det stderr (v x) := fun x => by rw [hg]
  have hnx : ∀ x, noise x = podNoise det stderr (v x) := fun x => by rw [hn]
  have hgm : Measurable g := by rw [hg]; exact (podExact_measurable det stderr hf).1
  have hnm : Measurable noise := by rw [hn]; exact (podExact_measurable det stderr hf).2
  have hgb : ∀ x, 0 ≤ g x ∧ g x ≤ 1 := fun x => by rw [hg]; exact podExact_range det stderr _
  have hnb : ∀ x, 0 ≤ noise x ∧ noise x ≤ 1 := fun x => by rw [hn]; exact podNoise_range det hS stderr _
  have hnpos : ∀ x, 0 < noise x := fun x => by rw [hn]; exact podNoise_pos det hS _
  have hgL := bounded_memLp (Measure.pi law) hgm hgb
  have hnI := (bounded_memLp (Measure.pi law) hnm hnb).integrable (by norm_num)
  have hnint : 0 < ∫ x, noise x ∂(Measure.pi law) := by
    rw [integral_pos_iff_support_of_nonneg (fun x => (hnb x).1) hnI]
    have : Function.support noise = Set.univ := by
      ext x; simp [(hnpos x).ne']
    rw [this]
    simp
  refine ⟨⟨hgm, hgb⟩, hnint, ?_⟩
  obtain ⟨hp, hgm'⟩ := exchanged_preserving law i g hgm
  have hvv := variance_eq_moments law hgm hgb
  have hvarnn : 0 ≤ variance g (Measure.pi law) := variance_nonneg _ _
  set P := (Measure.pi law).prod (Measure.pi law) with hP
  set W := (gaussS S).prod ((gaussS S).prod (gaussS S)) with hW
  let E := ((Fin d → ℝ) × (Fin d → ℝ)) × ((Fin S → ℝ) × ((Fin S → ℝ) × (Fin S → ℝ)))
  have hcl : chaosLaw law S = P.prod W := rfl
  set A : E → ℝ := fun q => podHat det stderr (v q.1.1) q.2.1 with hA
  set B : E → ℝ := fun q => podHat det stderr (v q.1.2) q.2.2.1 with hB
  set C : E → ℝ := fun q => podHat det stderr (v (Function.update q.1.1 i (q.1.2 i))) q.2.2.2 with hC
  have hAm : Measurable A := podHat_measurable det stderr (hf.comp (measurable_fst.comp measurable_fst)) (measurable_fst.comp measurable_snd)
  have hBm : Measurable B := podHat_measurable det stderr (hf.comp (measurable_snd.comp measurable_fst))
    (measurable_fst.comp (measurable_snd.comp measurable_snd))
  have hCm : Measurable C := podHat_measurable det stderr (hf.comp (hp.measurable.comp measurable_fst))
    (measurable_snd.comp (measurable_snd.comp measurable_snd))
  have bA : ∀ q, 0 ≤ A q ∧ A q ≤ 1 := fun q => podHat_range det stderr _ _
  have bB : ∀ q, 0 ≤ B q ∧ B q ≤ 1 := fun q => podHat_range det stderr _ _
  have bC : ∀ q, 0 ≤ C q ∧ C q ≤ 1 := fun q => podHat_range det stderr _ _
  have LA := bounded_memLp (P.prod W) hAm bA
  have LB := bounded_memLp (P.prod W) hBm bB
  have LC := bounded_memLp (P.prod W) hCm bC
  -- integrals over the parameters
  have fst : ∀ u : (Fin d → ℝ) → ℝ, ∫ p : (Fin d → ℝ) × (Fin d → ℝ), u p.1 ∂P = ∫ x, u x ∂(Measure.pi law) := fun u => by
    rw [hP, integral_fun_fst]; simp
  have snd : ∀ u : (Fin d → ℝ) → ℝ, ∫ p : (Fin d → ℝ) × (Fin d → ℝ), u p.2 ∂P = ∫ x, u x ∂(Measure.pi law) := fun u => by
    rw [hP, integral_fun_snd]; simp
  have exc : ∀ u : (Fin d → ℝ) → ℝ, Measurable u → ∫ p : (Fin d → ℝ) × (Fin d → ℝ), u (Function.update p.1 i (p.2 i)) ∂P
      = ∫ x, u x ∂(Measure.pi law) := fun u hu => by
    conv_rhs => rw [← hp.map_eq]
    rw [integral_map hp.measurable.aemeasurable hu.aestronglyMeasurable]
  have hsq : ∫ x, (g x ^ 2 + noise x) ∂(Measure.pi law) = ∫ x, g x ^ 2 ∂(Measure.pi law) + ∫ x, noise x ∂(Measure.pi law) :=
    integral_add hgL.integrable_sq hnI
  have m1 : ∀ x, ∫ r, podHat det stderr (v x) r ∂(gaussS S) = g x := fun x => by rw [hgx]; exact (podHat_moments det hs (v x)).1
  have m2 : ∀ x, ∫ r, podHat det stderr (v x) r ^ 2 ∂(gaussS S) = g x ^ 2 + noise x := fun x => by
    rw [hgx, hnx]; exact (podHat_moments det hs (v x)).2
  have rA : ∀ p : (Fin d → ℝ) × (Fin d → ℝ), ∫ w, A (p, w) ∂W = g p.1 := fun p =>
    (residual_moments (fun r => podHat det stderr (v p.1) r) fun _ => 0).1.trans (m1 _)
  have rB : ∀ p : (Fin d → ℝ) × (Fin d → ℝ), ∫ w, B (p, w) ∂W = g p.2 := fun p =>
    (residual_moments (fun r => podHat det stderr (v p.2) r) fun _ => 0).2.1.trans (m1 _)
  have rC : ∀ p : (Fin d → ℝ) × (Fin d → ℝ), ∫ w, C (p, w) ∂W = g (Function.update p.1 i (p.2 i)) := fun p =>
    (residual_moments (fun r => podHat det stderr (v (Function.update p.1 i (p.2 i))) r) fun _ => 0).2.2.1.trans (m1 _)
  have rAA : ∀ p : (Fin d → ℝ) × (Fin d → ℝ), ∫ w, A (p, w) ^ 2 ∂W = g p.1 ^ 2 + noise p.1 := fun p =>
    (residual_moments (fun r => podHat det stderr (v p.1) r ^ 2) fun _ => 0).1.trans (m2 _)
  have rBB : ∀ p : (Fin d → ℝ) × (Fin d → ℝ), ∫ w, B (p, w) ^ 2 ∂W = g p.2 ^ 2 + noise p.2 := fun p =>
    (residual_moments (fun r => podHat det stderr (v p.2) r ^ 2) fun _ => 0).2.1.trans (m2 _)
  have rCC : ∀ p : (Fin d → ℝ) × (Fin d → ℝ), ∫ w, C (p, w) ^ 2 ∂W
      = g (Function.update p.1 i (p.2 i)) ^ 2 + noise (Function.update p.1 i (p.2 i)) := fun p =>
    (residual_moments (fun r => podHat det stderr (v (Function.update p.1 i (p.2 i))) r ^ 2) fun _ => 0).2.2.1.trans (m2 _)
  have rAC : ∀ p : (Fin d → ℝ) × (Fin d → ℝ), ∫ w, A (p, w) * C (p, w) ∂W = g p.1 * g (Function.update p.1 i (p.2 i)) := fun p => by
    rw [← m1, ← m1]
    exact (residual_moments (fun r => podHat det stderr (v p.1) r) fun r => podHat det stderr (v (Function.update p.1 i (p.2 i))) r).2.2.2.1
  have rBC : ∀ p : (Fin d → ℝ) × (Fin d → ℝ), ∫ w, B (p, w) * C (p, w) ∂W = g p.2 * g (Function.update p.1 i (p.2 i)) := fun p => by
    rw [← m1, ← m1]
    exact (residual_moments (fun r => podHat det stderr (v p.2) r) fun r => podHat det stderr (v (Function.update p.1 i (p.2 i))) r).2.2.2.2.1
  have rAB : ∀ p : (Fin d → ℝ) × (Fin d → ℝ), ∫ w, A (p, w) * B (p, w) ∂W = g p.1 * g p.2 := fun p => by
    rw [← m1, ← m1]
    exact (residual_moments (fun r => podHat det stderr (v p.1) r) fun r => podHat det stderr (v p.2) r).2.2.2.2.2
  have iA : ∫ q, A q ∂(P.prod W) = ∫ x, g x ∂(Measure.pi law) := by
    rw [integral_prod _ (LA.integrable (by norm_num))]; simp only [rA]; exact fst g
  have iB : ∫ q, B q ∂(P.prod W) = ∫ x, g x ∂(Measure.pi law) := by
    rw [integral_prod _ (LB.integrable (by norm_num))]; simp only [rB]; exact snd g
  have iC : ∫ q, C q ∂(P.prod W) = ∫ x, g x ∂(Measure.pi law) := by
    rw [integral_prod _ (LC.integrable (by norm_num))]; simp only [rC]; exact exc g hgm
  have iAA : ∫ q, A q ^ 2 ∂(P.prod W) = ∫ x, g x ^ 2 ∂(Measure.pi law) + ∫ x, noise x ∂(Measure.pi law) := by
    rw [integral_prod _ LA.integrable_sq]; simp only [rAA]; rw [← hsq]; exact fst fun x => g x ^ 2 + noise x
  have iBB : ∫ q, B q ^ 2 ∂(P.prod W) = ∫ x, g x ^ 2 ∂(Measure.pi law) + ∫ x, noise x ∂(Measure.pi law) := by
    rw [integral_prod _ LB.integrable_sq]; simp only [rBB]; rw [← hsq]; exact snd fun x => g x ^ 2 + noise x
  have iCC : ∫ q, C q ^ 2 ∂(P.prod W) = ∫ x, g x ^ 2 ∂(Measure.pi law) + ∫ x, noise x ∂(Measure.pi law) := by
    rw [integral_prod _ LC.integrable_sq]; simp only [rCC]; rw [← hsq]; exact exc (fun x => g x ^ 2 + noise x) ((hgm.pow_const 2).add hnm)
  have iAC : ∫ q, A q * C q ∂(P.prod W) = ∫ x, meanOthers law i g x ^ 2 ∂(Measure.pi law) := by
    rw [integral_prod (fun q => A q * C q) (LA.integrable_mul LC)]
    simp only [rAC]
    exact first_exchanged law i g hgm hgb
  have iBC : ∫ q, B q * C q ∂(P.prod W) = ∫ t, meanGiven law i g t ^ 2 ∂(law i) := by
    rw [integral_prod (fun q => B q * C q) (LB.integrable_mul LC)]
    simp only [rBC]
    exact second_exchanged law i g hgm hgb
  have iAB : ∫ q, A q * B q ∂(P.prod W) = (∫ x, g x ∂(Measure.pi law)) ^ 2 := by
    rw [integral_prod (fun q => A q * B q) (LA.integrable_mul LB)]
    simp only [rAB]
    rw [hP, integral_prod_mul, pow_two]
  have hpos : 0 < ∫ x, g x ^ 2 ∂(Measure.pi law) + ∫ x, noise x ∂(Measure.pi law) - (∫ x, g x ∂(Measure.pi law)) ^ 2 := by linarith
  have h := sobolEstimates_limit Q (P.prod W) (fun k ω => (xy k ω, (z 0 k ω, (z 1 k ω, z (2 + i) k ω)))) hm hlaw hind A B C hAm hBm hCm bA bB bC
    iA iB iC iAA iBB iCC iAC iBC iAB hpos i j (fun ω N => chaosOutput f det stderr d sizes
        (sobolDesign d (List.ofFn fun k : Fin N => List.ofFn (xy k ω).1) (List.ofFn fun k : Fin N => List.ofFn (xy k ω).2))
        fun s c => z (c / N) (c % N) ω s)
    (fun ω N => by
      have hl : (sobolDesign d (List.ofFn fun k : Fin N => List.ofFn (xy k ω).1) (List.ofFn fun k : Fin N => List.ofFn (xy k ω).2)).length
          = (2 + d) * N := sobolDesign_length (N := N) List.length_ofFn List.length_ofFn
      rw [chaosOutput, (C69_rows_partial _ _ _ _ _ _).1, hl]
      nlinarith [Nat.zero_le (d * N)])
    (fun ω N k hk => (chaosOutput_entries det f stderr sizes j hj (fun k => (xy k ω).1) (fun k => (xy k ω).2) (fun b k => z b k ω) i hk).1)
    (fun ω N k hk => chaosOutput_second det f stderr sizes j hj (fun k => (xy k ω).1) (fun k => (xy k ω).2) (fun b k => z b k ω) hk)
    (fun ω N k hk => (chaosOutput_entries det f stderr sizes j hj (fun k => (xy k ω).1) (fun k => (xy k ω).2) (fun b k => z b k ω) i hk).2)
  have e1 : ∫ x, g x ^ 2 ∂(Measure.pi law) + ∫ x, noise x ∂(Measure.pi law) - (∫ x, g x ∂(Measure.pi law)) ^ 2
      = variance g (Measure.pi law) + ∫ x, noise x ∂(Measure.pi law) := by rw [hvv]; ring
  have e2 : ∫ x, g x ^ 2 ∂(Measure.pi law) + ∫ x, noise x ∂(Measure.pi law) - ∫ x, meanOthers law i g x ^ 2 ∂(Measure.pi law)
      = totalVariance law i g + ∫ x, noise x ∂(Measure.pi law) := by rw [totalVariance_eq law i g hgm hgb]; ring
  rw [e1, e2, ← firstVariance_eq law i g hgm hgb] at h
  exact h

/-- **C148 violated: polynomial chaos.**  For all metamodels and methods the first-order index converges to `V_i / (V + n)` and the total one to
`(V_T + n) / (V + n)`, `n > 0` being the mean variance of the simulation: the first-order indices that are not zero are underestimated. -/
theorem C148_violated {Ω : Type} [MeasurableSpace Ω] (Q : Measure Ω) [IsProbabilityMeasure Q] {d : ℕ} (law : Fin d → Measure ℝ)
    [∀ i, IsProbabilityMeasure (law i)] (hS : 0 < S) (hs : 0 < stderr) (f : Fin S → List ℝ → ℝ) (sizes : List ℝ) (j : ℕ) (hj : j < sizes.length)
    (hf : Measurable fun (x : Fin d → ℝ) s => f s (sizes[j] :: List.ofFn x)) (i : Fin d)
    (xy : ℕ → Ω → (Fin d → ℝ) × (Fin d → ℝ)) (z : ℕ → ℕ → Ω → Fin S → ℝ)
    (hm : ∀ k, Measurable fun ω => (xy k ω, (z 0 k ω, (z 1 k ω, z (2 + i) k ω))))
    (hlaw : ∀ k, Q.map (fun ω => (xy k ω, (z 0 k ω, (z 1 k ω, z (2 + i) k ω)))) = chaosLaw law S)
    (hind : iIndepFun (fun k ω => (xy k ω, (z 0 k ω, (z 1 k ω, z (2 + i) k ω)))) Q)
    (g : (Fin d → ℝ) → ℝ) (hg : g = fun x => podExact det stderr fun s => f s (sizes[j] :: List.ofFn x)) :
    ∃ n > 0, (∀ᵐ ω ∂Q, ∀ method ∈ ["Saltelli", "Martinez", "Jansen", "MauntzKucherenko"], ∀ c : ℕ → ℝ,
      Tendsto c atTop (𝓝 (∫ x, g x ∂(Measure.pi law))) →
      ∃ est : ℕ → ℝ × ℝ, (∀ N, sobolEstimates method (c N) N i j (chaosOutput f det stderr d sizes
        (sobolDesign d (List.ofFn fun k : Fin N => List.ofFn (xy k ω).1) (List.ofFn fun k : Fin N => List.ofFn (xy k ω).2))
        fun s c => z (c / N) (c % N) ω s) = .ok (est N)) ∧
        Tendsto (fun N => (est N).1) atTop (𝓝 (firstVariance law i g / (variance g (Measure.pi law) + n))) ∧
        Tendsto (fun N => (est N).2) atTop (𝓝 ((totalVariance law i g + n) / (variance g (Measure.pi law) + n)))) ∧
      (0 < firstVariance law i g → firstVariance law i g / (variance g (Measure.pi law) + n) < firstVariance law i g / variance g (Measure.pi law)) ∧
      (totalVariance law i g < variance g (Measure.pi law) →
        totalVariance law i g / variance g (Measure.pi law) < (totalVariance law i g + n) / (variance g (Measure.pi law) + n)) := by
  obtain ⟨⟨h1, h2⟩, hn, h⟩ := sobolEstimates_chaos det Q law hS hs f sizes j hj hf i xy z hm hlaw hind g _ hg rfl
  obtain ⟨o1, o2, o3⟩ := exact_order law i g h1 h2
  refine ⟨_, hn, h, fun hp => ?_, fun hlt => ?_⟩
  · exact div_lt_div_of_pos_left hp (by linarith) (by linarith)
  · have hvp : 0 < variance g (Measure.pi law) := by linarith
    rw [div_lt_div_iff₀ hvp (by linarith)]
    nlinarith

/-- **C149: polynomial chaos.** -/
theorem C149_chaos {Ω : Type} [MeasurableSpace Ω] (Q : Measure Ω) [IsProbabilityMeasure Q] {d : ℕ} (law : Fin d → Measure ℝ)
    [∀ i, IsProbabilityMeasure (law i)] (hS : 0 < S) (hs : 0 < stderr) (f : Fin S → List ℝ → ℝ) (sizes : List ℝ) (j : ℕ) (hj : j < sizes.length)
    (hf : Measurable fun (x : Fin d → ℝ) s => f s (sizes[j] :: List.ofFn x)) (i : Fin d)
    (xy : ℕ → Ω → (Fin d → ℝ) × (Fin d → ℝ)) (z : ℕ → ℕ → Ω → Fin S → ℝ)
    (hm : ∀ k, Measurable fun ω => (xy k ω, (z 0 k ω, (z 1 k ω, z (2 + i) k ω))))
    (hlaw : ∀ k, Q.map (fun ω => (xy k ω, (z 0 k ω, (z 1 k ω, z (2 + i) k ω)))) = chaosLaw law S)
    (hind : iIndepFun (fun k ω => (xy k ω, (z 0 k ω, (z 1 k ω, z (2 + i) k ω)))) Q) :
    ∀ᵐ ω ∂Q, ∀ method ∈ ["Saltelli", "Martinez", "Jansen", "MauntzKucherenko"], ∀ c : ℕ → ℝ,
      Tendsto c atTop (𝓝 (∫ x, podExact det stderr (fun s => f s (sizes[j] :: List.ofFn x)) ∂(Measure.pi law))) →
      ∃ est : ℕ → ℝ × ℝ, (∀ N, sobolEstimates method (c N) N i j (chaosOutput f det stderr d sizes
        (sobolDesign d (List.ofFn fun k : Fin N => List.ofFn (xy k ω).1) (List.ofFn fun k : Fin N => List.ofFn (xy k ω).2))
        fun s c => z (c / N) (c % N) ω s) = .ok (est N)) ∧
        ∃ a t, Tendsto est atTop (𝓝 (a, t)) ∧ 0 ≤ a ∧ a ≤ t ∧ t ≤ 1 := by
  obtain ⟨⟨h1, h2⟩, hn, h⟩ := sobolEstimates_chaos det Q law hS hs f sizes j hj hf i xy z hm hlaw hind _ _ rfl rfl
  obtain ⟨o1, o2, o3⟩ := exact_order law i _ h1 h2
  filter_upwards [h] with ω h method hmem c hc
  obtain ⟨est, he, l1, l2⟩ := h method hmem c hc
  refine ⟨est, he, _, _, l1.prodMk_nhds l2, div_nonneg o1 (by linarith), div_le_div_of_nonneg_right (by linarith) (by linarith), ?_⟩
  rw [div_le_one (by linarith)]
  linarith

/-- **C149: sum of the first-order indices, polynomial chaos.** -/
theorem C149_chaos_sum {Ω : Type} [MeasurableSpace Ω] (Q : Measure Ω) [IsProbabilityMeasure Q] {d : ℕ} (law : Fin d → Measure ℝ)
    [∀ i, IsProbabilityMeasure (law i)] (hS : 0 < S) (hs : 0 < stderr) (f : Fin S → List ℝ → ℝ) (sizes : List ℝ) (j : ℕ) (hj : j < sizes.length)
    (hf : Measurable fun (x : Fin d → ℝ) s => f s (sizes[j] :: List.ofFn x))
    (xy : ℕ → Ω → (Fin d → ℝ) × (Fin d → ℝ)) (z : ℕ → ℕ → Ω → Fin S → ℝ)
    (hm : ∀ (i : Fin d) k, Measurable fun ω => (xy k ω, (z 0 k ω, (z 1 k ω, z (2 + i) k ω))))
    (hlaw : ∀ (i : Fin d) k, Q.map (fun ω => (xy k ω, (z 0 k ω, (z 1 k ω, z (2 + i) k ω)))) = chaosLaw law S)
    (hind : ∀ i : Fin d, iIndepFun (fun k ω => (xy k ω, (z 0 k ω, (z 1 k ω, z (2 + i) k ω)))) Q) :
    ∀ᵐ ω ∂Q, ∀ method ∈ ["Saltelli", "Martinez", "Jansen", "MauntzKucherenko"], ∀ c : ℕ → ℝ,
      Tendsto c atTop (𝓝 (∫ x, podExact det stderr (fun s => f s (sizes[j] :: List.ofFn x)) ∂(Measure.pi law))) →
      ∃ est : Fin d → ℕ → ℝ × ℝ, (∀ (i : Fin d) N, sobolEstimates method (c N) N i j (chaosOutput f det stderr d sizes
        (sobolDesign d (List.ofFn fun k : Fin N => List.ofFn (xy k ω).1) (List.ofFn fun k : Fin N => List.ofFn (xy k ω).2))
        fun s c => z (c / N) (c % N) ω s) = .ok (est i N)) ∧
        ∃ a, Tendsto (fun N => ∑ i, (est i N).1) atTop (𝓝 a) ∧ a ≤ 1 := by
  rcases Nat.eq_zero_or_pos d with rfl | hd
  · filter_upwards with ω method _ c _
    exact ⟨fun i => i.elim0, fun i => i.elim0, 0, by simp, zero_le_one⟩
  have hall : ∀ i : Fin d, _ := fun i => sobolEstimates_chaos det Q law hS hs f sizes j hj hf i xy z (hm i) (hlaw i) (hind i) _ _ rfl rfl
  obtain ⟨⟨h1, h2⟩, hn, -⟩ := hall ⟨0, hd⟩
  have hsum := first_sum law _ h1 h2
  filter_upwards [ae_all_iff.mpr fun i => (hall i).2.2] with ω h method hmem c hc
  choose est he l1 l2 using fun i => h i method hmem c hc
  refine ⟨est, he, _, tendsto_finsetSum _ fun i _ => l1 i, ?_⟩
  have hv := variance_nonneg (fun x : Fin d → ℝ => podExact det stderr fun s => f s (sizes[j] :: List.ofFn x)) (Measure.pi law)
  rw [← Finset.sum_div, div_le_one (by linarith)]
  linarith

end Chaos

/-- **C149: sum of the first-order indices, kriging.** -/
theorem C149_kriging_sum {Ω : Type} [MeasurableSpace Ω] (Q : Measure Ω) [IsProbabilityMeasure Q] {d : ℕ} (law : Fin d → Measure ℝ)
    [∀ i, IsProbabilityMeasure (law i)] (condMean condVar : List ℝ → ℝ) (det d0 : ℝ) (ds : List ℝ) (hv : ∀ x : Fin d → ℝ, 0 < condVar (d0 :: List.ofFn x))
    (hmm : ∀ a, Measurable fun x : Fin d → ℝ => condMean (a :: List.ofFn x)) (hvm : Measurable fun x : Fin d → ℝ => condVar (d0 :: List.ofFn x))
    (j : ℕ) (hj : j < (d0 :: ds).length) (g : (Fin d → ℝ) → ℝ)
    (hg : g = fun x => 1 - Phi ((det - condMean ((d0 :: ds)[j] :: List.ofFn x)) / Real.sqrt (condVar (d0 :: List.ofFn x))))
    (xy : ℕ → Ω → (Fin d → ℝ) × (Fin d → ℝ)) (hxy : ∀ k, Measurable (xy k))
    (hlaw : ∀ k, Q.map (xy k) = (Measure.pi law).prod (Measure.pi law)) (hind : iIndepFun xy Q)
    (hvar : variance g (Measure.pi law) ≠ 0) :
    ∀ᵐ ω ∂Q, ∀ method ∈ ["Saltelli", "Martinez", "Jansen", "MauntzKucherenko"], ∀ c : ℕ → ℝ, Tendsto c atTop (𝓝 (∫ x, g x ∂(Measure.pi law))) →
      ∃ est : Fin d → ℕ → ℝ × ℝ, (∀ (i : Fin d) N, sobolEstimates method (c N) N i j (sobolOutput
        (fun x => rowValues (krigExec condMean condVar det (d0 :: ds) x)) N (fun k => (xy k ω).1) (fun k => (xy k ω).2)) = .ok (est i N)) ∧
        ∃ a, Tendsto (fun N => ∑ i, (est i N).1) atTop (𝓝 a) ∧ a ≤ 1 := by
  obtain ⟨h1, h2, h3⟩ := krigPod_spec condMean condVar det d0 ds hv hmm hvm j hj g hg
  have hall : ∀ i : Fin d, _ := fun i =>
    sobolEstimates_deterministic Q law (fun x => rowValues (krigExec condMean condVar det (d0 :: ds) x)) g h1 h2 j h3 xy hxy hlaw hind i hvar
  filter_upwards [ae_all_iff.mpr hall] with ω h method hmem c hc
  choose est he l1 l2 using fun i => h i method hmem c hc
  refine ⟨est, he, _, tendsto_finsetSum _ fun i _ => l1 i, ?_⟩
  have hp : 0 < variance g (Measure.pi law) := lt_of_le_of_ne (variance_nonneg _ _) (Ne.symm hvar)
  rw [← Finset.sum_div, div_le_one hp]
  exact first_sum law g h1 h2

/-! ## Examples: two standard normal parameters, of which the first one is added to the defect size -/

/-- The variance of the exact POD of the example is not zero. -/
theorem exampleVariance : variance (fun x : Fin 2 → ℝ => 1 - Phi ((3 - (2 + x 0)) / Real.sqrt 1)) (Measure.pi fun _ : Fin 2 => gaussianReal 0 1) ≠ 0 := by
  have e : (fun x : Fin 2 → ℝ => 1 - Phi ((3 - (2 + x 0)) / Real.sqrt 1)) = fun x : Fin 2 → ℝ => PhiC (1 - x 0) := by
    funext x
    simp only [Real.sqrt_one, div_one]
    rw [← PhiC_eq]
    congr 1
    ring
  rw [e]
  refine variance_first_ne_zero (u := fun t => PhiC (1 - t)) (PhiC_antitone.measurable.comp (measurable_const.sub measurable_id)) (fun t => ?_) ?_
  · have p := Phi_pos (1 - t)
    have q := PhiC_pos (1 - t)
    refine ⟨q.le, ?_⟩
    rw [PhiC_eq]
    linarith
  · intro a b h
    have := PhiC_strictAnti.injective h
    linarith

/-- C148, kriging: the indices of the first parameter with the Saltelli method. -/
example : let law := fun _ : Fin 2 => gaussianReal 0 1
    let P := (Measure.pi law).prod (Measure.pi law)
    let g := fun x : Fin 2 → ℝ => 1 - Phi ((3 - (2 + x 0)) / Real.sqrt 1)
    ∀ᵐ ω ∂(Measure.infinitePi fun _ : ℕ => P), ∃ est : ℕ → ℝ × ℝ, (∀ N, sobolEstimates "Saltelli" (∫ x, g x ∂(Measure.pi law)) N 0 1
      (sobolOutput (fun x => rowValues (krigExec (fun p => p.getD 0 0 + p.getD 1 0) (fun _ => 1) 3 [1, 2] x)) N
        (fun k => (ω k).1) (fun k => (ω k).2)) = .ok (est N)) ∧
      Tendsto (fun N => (est N).1) atTop (𝓝 (firstVariance law 0 g / variance g (Measure.pi law))) := by
  intro law P g
  have h := C148_kriging_partial (Measure.infinitePi fun _ : ℕ => P) law (fun p => p.getD 0 0 + p.getD 1 0) (fun _ => 1) 3 1 [2] (fun _ => one_pos)
    (fun a => by simpa using (measurable_pi_apply (X := fun _ : Fin 2 => ℝ) 0).const_add a) measurable_const 1 (by norm_num) g
    (by funext x; simp [g]) (fun k ω => ω k) (fun k => measurable_pi_apply k)
    (fun k => (measurePreserving_eval_infinitePi (fun _ : ℕ => P) k).map_eq)
    (iIndepFun_infinitePi (P := fun _ : ℕ => P) (X := fun _ x => x) (fun _ => measurable_id)) 0 exampleVariance
  filter_upwards [h] with ω h
  obtain ⟨est, he, h1, -⟩ := h "Saltelli" (by simp) _ tendsto_const_nhds
  exact ⟨est, he, h1⟩

/-- C149, kriging: the second parameter with the Martinez method. -/
example : let law := fun _ : Fin 2 => gaussianReal 0 1
    let P := (Measure.pi law).prod (Measure.pi law)
    let g := fun x : Fin 2 → ℝ => 1 - Phi ((3 - (2 + x 0)) / Real.sqrt 1)
    ∀ᵐ ω ∂(Measure.infinitePi fun _ : ℕ => P), ∃ est : ℕ → ℝ × ℝ, (∀ N, sobolEstimates "Martinez" (∫ x, g x ∂(Measure.pi law)) N 1 1
      (sobolOutput (fun x => rowValues (krigExec (fun p => p.getD 0 0 + p.getD 1 0) (fun _ => 1) 3 [1, 2] x)) N
        (fun k => (ω k).1) (fun k => (ω k).2)) = .ok (est N)) ∧ ∃ f t, Tendsto est atTop (𝓝 (f, t)) ∧ 0 ≤ f ∧ f ≤ t ∧ t ≤ 1 := by
  intro law P g
  have h := C149_kriging (Measure.infinitePi fun _ : ℕ => P) law (fun p => p.getD 0 0 + p.getD 1 0) (fun _ => 1) 3 1 [2] (fun _ => one_pos)
    (fun a => by simpa using (measurable_pi_apply (X := fun _ : Fin 2 => ℝ) 0).const_add a) measurable_const 1 (by norm_num) g
    (by funext x; simp [g]) (fun k ω => ω k) (fun k => measurable_pi_apply k)
    (fun k => (measurePreserving_eval_infinitePi (fun _ : ℕ => P) k).map_eq)
    (iIndepFun_infinitePi (P := fun _ : ℕ => P) (X := fun _ x => x) (fun _ => measurable_id)) 1 exampleVariance
  filter_upwards [h] with ω h
  exact h "Martinez" (by simp) _ tendsto_const_nhds

/-- C149, kriging: the sum of the two first-order indices with the method of Mauntz and Kucherenko. -/
example : let law := fun _ : Fin 2 => gaussianReal 0 1
    let P := (Measure.pi law).prod (Measure.pi law)
    let g := fun x : Fin 2 → ℝ => 1 - Phi ((3 - (2 + x 0)) / Real.sqrt 1)
    ∀ᵐ ω ∂(Measure.infinitePi fun _ : ℕ => P), ∃ est : Fin 2 → ℕ → ℝ × ℝ, (∀ (i : Fin 2) N,
      sobolEstimates "MauntzKucherenko" (∫ x, g x ∂(Measure.pi law)) N i 1
      (sobolOutput (fun x => rowValues (krigExec (fun p => p.getD 0 0 + p.getD 1 0) (fun _ => 1) 3 [1, 2] x)) N
        (fun k => (ω k).1) (fun k => (ω k).2)) = .ok (est i N)) ∧ ∃ a, Tendsto (fun N => ∑ i, (est i N).1) atTop (𝓝 a) ∧ a ≤ 1 := by
  intro law P g
  have h := C149_kriging_sum (Measure.infinitePi fun _ : ℕ => P) law (fun p => p.getD 0 0 + p.getD 1 0) (fun _ => 1) 3 1 [2] (fun _ => one_pos)
    (fun a => by simpa using (measurable_pi_apply (X := fun _ : Fin 2 => ℝ) 0).const_add a) measurable_const 1 (by norm_num) g
    (by funext x; simp [g]) (fun k ω => ω k) (fun k => measurable_pi_apply k)
    (fun k => (measurePreserving_eval_infinitePi (fun _ : ℕ => P) k).map_eq)
    (iIndepFun_infinitePi (P := fun _ : ℕ => P) (X := fun _ x => x) (fun _ => measurable_id)) exampleVariance
  filter_upwards [h] with ω h
  exact h "MauntzKucherenko" (by simp) _ tendsto_const_nhds

/-- C148, polynomial chaos: the first-order index of the first parameter with the Jansen method is underestimated in the limit. -/
example : let law := fun _ : Fin 2 => gaussianReal 0 1
    let P := chaosLaw law 2
    let g := fun x : Fin 2 → ℝ => podExact (S := 2) 3 1 fun _ => 2 + x 0
    ∃ n > 0, ∀ᵐ ω ∂(Measure.infinitePi fun _ : ℕ => P), ∃ est : ℕ → ℝ × ℝ, (∀ N, sobolEstimates "Jansen" (∫ x, g x ∂(Measure.pi law)) N 0 1
      (chaosOutput (fun (_ : Fin 2) p => p.getD 0 0 + p.getD 1 0) 3 1 2 [1, 2]
      (sobolDesign 2 (List.ofFn fun k : Fin N => List.ofFn (ω k).1.1) (List.ofFn fun k : Fin N => List.ofFn (ω k).1.2))
      fun s c => (if c / N = 0 then (ω (c % N)).2.1 else if c / N = 1 then (ω (c % N)).2.2.1 else (ω (c % N)).2.2.2) s) = .ok (est N)) ∧
      Tendsto (fun N => (est N).1) atTop (𝓝 (firstVariance law 0 g / (variance g (Measure.pi law) + n))) := by
  intro law P g
  obtain ⟨n, hn, h, -⟩ := C148_violated 3 (Measure.infinitePi fun _ : ℕ => P) law two_pos one_pos (fun (_ : Fin 2) p => p.getD 0 0 + p.getD 1 0) [1, 2] 1
    (by norm_num) (by
      refine measurable_pi_lambda _ fun s => ?_
      simpa using (measurable_pi_apply (X := fun _ : Fin 2 => ℝ) 0).const_add 2) 0 (fun k ω => (ω k).1)
    (fun b k ω => if b = 0 then (ω k).2.1 else if b = 1 then (ω k).2.2.1 else (ω k).2.2.2) (fun k => measurable_pi_apply k)
    (fun k => (measurePreserving_eval_infinitePi (fun _ : ℕ => P) k).map_eq)
    (iIndepFun_infinitePi (P := fun _ : ℕ => P) (X := fun _ x => x) (fun _ => measurable_id)) g (by funext x; simp [g])
  refine ⟨n, hn, ?_⟩
  filter_upwards [h] with ω h
  obtain ⟨est, he, h1, -⟩ := h "Jansen" (by simp) _ tendsto_const_nhds
  exact ⟨est, he, h1⟩

/-- C149, polynomial chaos: the second parameter with the Saltelli method. -/
example : let law := fun _ : Fin 2 => gaussianReal 0 1
    let P := chaosLaw law 2
    let m := ∫ x : Fin 2 → ℝ, podExact (S := 2) 3 1 (fun _ => 2 + x 0) ∂(Measure.pi law)
    ∀ᵐ ω ∂(Measure.infinitePi fun _ : ℕ => P), ∃ est : ℕ → ℝ × ℝ, (∀ N, sobolEstimates "Saltelli" m N 1 1
      (chaosOutput (fun (_ : Fin 2) p => p.getD 0 0 + p.getD 1 0) 3 1 2 [1, 2]
      (sobolDesign 2 (List.ofFn fun k : Fin N => List.ofFn (ω k).1.1) (List.ofFn fun k : Fin N => List.ofFn (ω k).1.2))
      fun s c => (if c / N = 0 then (ω (c % N)).2.1 else if c / N = 1 then (ω (c % N)).2.2.1 else (ω (c % N)).2.2.2) s) = .ok (est N)) ∧
      ∃ a t, Tendsto est atTop (𝓝 (a, t)) ∧ 0 ≤ a ∧ a ≤ t ∧ t ≤ 1 := by
  intro law P m
  have h := C149_chaos 3 (Measure.infinitePi fun _ : ℕ => P) law two_pos one_pos (fun (_ : Fin 2) p => p.getD 0 0 + p.getD 1 0) [1, 2] 1
    (by norm_num) (by
      refine measurable_pi_lambda _ fun s => ?_
      simpa using (measurable_pi_apply (X := fun _ : Fin 2 => ℝ) 0).const_add 2) 1 (fun k ω => (ω k).1)
    (fun b k ω => if b = 0 then (ω k).2.1 else if b = 1 then (ω k).2.2.1 else (ω k).2.2.2) (fun k => measurable_pi_apply k)
    (fun k => (measurePreserving_eval_infinitePi (fun _ : ℕ => P) k).map_eq)
    (iIndepFun_infinitePi (P := fun _ : ℕ => P) (X := fun _ x => x) (fun _ => measurable_id))
  filter_upwards [h] with ω h
  exact h "Saltelli" (by simp) (fun _ => m) (by simp [m])

/-- C149, polynomial chaos: the sum of the first-order indices with the Jansen method. -/
example : let law := fun _ : Fin 2 => gaussianReal 0 1
    let P := chaosLaw law 2
    let m := ∫ x : Fin 2 → ℝ, podExact (S := 2) 3 1 (fun _ => 2 + x 0) ∂(Measure.pi law)
    ∀ᵐ ω ∂(Measure.infinitePi fun _ : ℕ => P), ∃ est : Fin 2 → ℕ → ℝ × ℝ, (∀ (i : Fin 2) N, sobolEstimates "Jansen" m N i 1
      (chaosOutput (fun (_ : Fin 2) p => p.getD 0 0 + p.getD 1 0) 3 1 2 [1, 2]
      (sobolDesign 2 (List.ofFn fun k : Fin N => List.ofFn (ω k).1.1) (List.ofFn fun k : Fin N => List.ofFn (ω k).1.2))
      fun s c => (if c / N = 0 then (ω (c % N)).2.1 else if c / N = 1 then (ω (c % N)).2.2.1 else (ω (c % N)).2.2.2) s) = .ok (est i N)) ∧
      ∃ a, Tendsto (fun N => ∑ i, (est i N).1) atTop (𝓝 a) ∧ a ≤ 1 := by
  intro law P m
  have hz : ∀ (i : Fin 2) (k : ℕ), (fun ω : ℕ → ((Fin 2 → ℝ) × (Fin 2 → ℝ)) × ((Fin 2 → ℝ) × ((Fin 2 → ℝ) × (Fin 2 → ℝ))) =>
      ((ω k).1, ((if (0 : ℕ) = 0 then (ω k).2.1 else if (0 : ℕ) = 1 then (ω k).2.2.1 else (ω k).2.2.2),
        ((if (1 : ℕ) = 0 then (ω k).2.1 else if (1 : ℕ) = 1 then (ω k).2.2.1 else (ω k).2.2.2),
        (if 2 + (i : ℕ) = 0 then (ω k).2.1 else if 2 + (i : ℕ) = 1 then (ω k).2.2.1 else (ω k).2.2.2))))) = fun ω => ω k := by
    intro i k
    funext ω
    rw [if_pos rfl, if_neg one_ne_zero, if_pos rfl, if_neg (by omega), if_neg (by omega)]
  have h := C149_chaos_sum 3 (Measure.infinitePi fun _ : ℕ => P) law two_pos one_pos (fun (_ : Fin 2) p => p.getD 0 0 + p.getD 1 0) [1, 2] 1
    (by norm_num) (by
      refine measurable_pi_lambda _ fun s => ?_
      simpa using (measurable_pi_apply (X := fun _ : Fin 2 => ℝ) 0).const_add 2) (fun k ω => (ω k).1)
    (fun b k ω => if b = 0 then (ω k).2.1 else if b = 1 then (ω k).2.2.1 else (ω k).2.2.2) (fun i k => by rw [hz i k]; exact measurable_pi_apply k)
    (fun i k => by rw [hz i k]; exact (measurePreserving_eval_infinitePi (fun _ : ℕ => P) k).map_eq)
    (fun i => by
      rw [show (fun k => _) = fun k => _ from funext (hz i)]
      exact iIndepFun_infinitePi (P := fun _ : ℕ => P) (X := fun _ x => x) (fun _ => measurable_id))
  filter_upwards [h] with ω h
  exact h "Jansen" (by simp) (fun _ => m) (by simp [m])

end Verif.Props
