import Verif.Props.DetectionLimit

/-!
# C186: the detection size separates the smaller from the larger defects
-/

namespace Verif.Props
open Verif.Model Verif.Py Set

/-- The function `√(k + (a - m)²/S)` is convex. -/
theorem root_convex {k m S : ℝ} (hk : 0 < k) (hS : 0 < S) : ConvexOn ℝ univ fun a : ℝ => Real.sqrt (k + (a - m) ^ 2 / S) := by
  refine ⟨convex_univ, fun a _ b _ u v hu hv huv => ?_⟩
  simp only [smul_eq_mul]
  have ha : 0 < k + (a - m) ^ 2 / S := by positivity
  have hb : 0 < k + (b - m) ^ 2 / S := by positivity
  set A := Real.sqrt (k + (a - m) ^ 2 / S) with hA
  set B := Real.sqrt (k + (b - m) ^ 2 / S) with hB
  have hA2 : A ^ 2 = k + (a - m) ^ 2 / S := Real.sq_sqrt ha.le
  have hB2 : B ^ 2 = k + (b - m) ^ 2 / S := Real.sq_sqrt hb.le
  have hA0 : 0 ≤ A := Real.sqrt_nonneg _
  have hB0 : 0 ≤ B := Real.sqrt_nonneg _
  have hAB : k + (a - m) * (b - m) / S ≤ A * B := by
    refine le_of_sq_le_sq ?_ (mul_nonneg hA0 hB0)
    rw [mul_pow, hA2, hB2]
    have e : (k + (a - m) ^ 2 / S) * (k + (b - m) ^ 2 / S) - (k + (a - m) * (b - m) / S) ^ 2 = k / S * (a - b) ^ 2 := by
      field_simp; ring
    have : 0 ≤ k / S * (a - b) ^ 2 := by positivity
    linarith
  rw [Real.sqrt_le_left (by positivity)]
  have e : k + (u * a + v * b - m) ^ 2 / S = u ^ 2 * (k + (a - m) ^ 2 / S) + v ^ 2 * (k + (b - m) ^ 2 / S) + 2 * (u * v) * (k + (a - m) * (b - m) / S) := by
    have hm : u * a + v * b - m = u * (a - m) + v * (b - m) := by
      have : v = 1 - u := by linarith
      subst this; ring
    rw [hm]
    have hk1 : k = k * (u + v) ^ 2 := by rw [huv]; ring
    conv_lhs => rw [hk1]
    field_simp
    ring
  rw [e, ← hA2, ← hB2]
  have : 0 ≤ 2 * (u * v) := by positivity
  nlinarith [mul_le_mul_of_nonneg_left hAB this]

/-- A function that is convex or concave changes its sign once. -/
theorem sign_change {h : ℝ → ℝ} (hc : ConvexOn ℝ univ h ∨ ConcaveOn ℝ univ h) {lo hi d : ℝ} (hlo : h lo < 0) (hhi : 0 < h hi) (hd : h d = 0)
    (h1 : lo ≤ d) (h2 : d ≤ hi) : (∀ a, lo ≤ a → a < d → h a < 0) ∧ ∀ a, d < a → a ≤ hi → 0 < h a := by
  have hld : lo < d := lt_of_le_of_ne h1 fun e => by rw [e, hd] at hlo; exact lt_irrefl _ hlo
  have hdh : d < hi := lt_of_le_of_ne h2 fun e => by rw [← e, hd] at hhi; exact lt_irrefl _ hhi
  have seg : ∀ p q r : ℝ, p < q → q < r → ∃ u v : ℝ, 0 < u ∧ 0 < v ∧ u + v = 1 ∧ u * p + v * r = q := by
    intro p q r hpq hqr
    have : 0 < r - p := by linarith
    refine ⟨(r - q) / (r - p), (q - p) / (r - p), div_pos (by linarith) this, div_pos (by linarith) this, ?_, ?_⟩
    · field_simp; ring
    · field_simp; ring
  rcases hc with hc | hc
  · have key : ∀ p q r : ℝ, p < q → q < r → ∃ u v : ℝ, 0 < u ∧ 0 < v ∧ h q ≤ u * h p + v * h r := by
      intro p q r hpq hqr
      obtain ⟨u, v, hu, hv, huv, e⟩ := seg p q r hpq hqr
      refine ⟨u, v, hu, hv, ?_⟩
      have := hc.2 (mem_univ p) (mem_univ r) hu.le hv.le huv
      simpa only [smul_eq_mul, e] using this
    constructor
    · intro a ha had
      rcases eq_or_lt_of_le ha with rfl | ha
      · exact hlo
      · obtain ⟨u, v, hu, hv, hh⟩ := key lo a d ha had
        rw [hd, mul_zero, add_zero] at hh
        exact lt_of_le_of_lt hh (mul_neg_of_pos_of_neg hu hlo)
    · intro a had _
      obtain ⟨u, v, hu, hv, hh⟩ := key lo d a hld had
      rw [hd] at hh
      by_contra hn
      push Not at hn
      have := mul_neg_of_pos_of_neg hu hlo
      have := mul_nonpos_of_nonneg_of_nonpos hv.le hn
      linarith
  · have key : ∀ p q r : ℝ, p < q → q < r → ∃ u v : ℝ, 0 < u ∧ 0 < v ∧ u * h p + v * h r ≤ h q := by
      intro p q r hpq hqr
      obtain ⟨u, v, hu, hv, huv, e⟩ := seg p q r hpq hqr
      refine ⟨u, v, hu, hv, ?_⟩
      have := hc.2 (mem_univ p) (mem_univ r) hu.le hv.le huv
      simpa only [smul_eq_mul, e] using this
    constructor
    · intro a _ had
      obtain ⟨u, v, hu, hv, hh⟩ := key a d hi had hdh
      rw [hd] at hh
      by_contra hn
      push Not at hn
      have := mul_pos hv hhi
      have := mul_nonneg hu.le hn
      linarith
    · intro a had ha
      rcases eq_or_lt_of_le ha with rfl | ha
      · exact hhi
      · obtain ⟨u, v, hu, hv, hh⟩ := key d a hi had ha
        rw [hd, mul_zero, zero_add] at hh
        exact lt_of_lt_of_le (mul_pos hv hhi) hh

/-- **C186.**  For every data set whose fit leaves residuals, every detection threshold and every level strictly between the POD of the smallest and that
of the largest observed defect there is one detection size, the same for every correct solver, and between the smallest and the largest observed defect
every smaller defect has a POD below the level, every larger one a POD above it. -/
theorem C186_separates {n : ℕ} (x y : Fin n → ℝ) (det p : ℝ) (hx : ∃ i j, x i ≠ x j) (hs : 0 < linearStderr x y) (i0 i1 : Fin n)
    (hmin : ∀ i, x i0 ≤ x i) (hmax : ∀ i, x i ≤ x i1) (hlo : gaussPodOf x y det (x i0) < p) (hhi : p < gaussPodOf x y det (x i1)) :
    ∃ d, (∀ solve, SolveSpec solve → ∀ z chi M, gaussDetectionOf solve x y det z chi M p none = .ok ([d], [labelP p])) ∧
      (x i0 < d ∧ d < x i1) ∧ ∀ a, x i0 ≤ a → a ≤ x i1 → (a < d → gaussPodOf x y det a < p) ∧ (d < a → p < gaussPodOf x y det a) := by
  obtain ⟨hpv, hcont⟩ := gaussPod_continuous x y det hx hs
  have hS : 0 < ∑ i, (x i - smean x) ^ 2 := sxx_pos x hx
  set S := ∑ i, (x i - smean x) ^ 2 with hSd
  set s := linearStderr x y with hsd
  have hk : 0 < 1 + 1 / (n : ℝ) := by positivity
  set N : ℝ → ℝ := fun a => Real.sqrt ((1 + 1 / (n : ℝ)) + (a - smean x) ^ 2 / S) with hN
  have hNp : ∀ a, 0 < N a := fun a => Real.sqrt_pos.2 (by positivity)
  have hform : ∀ a, gaussPodOf x y det a = PhiC ((det - (olsIntercept x y + olsSlope x y * a)) / (s * N a)) := by
    intro a
    rw [gaussPodOf, podGauss, predictionVariance_eq x _ a hx, Real.sqrt_mul (sq_nonneg _), Real.sqrt_sq hs.le, ← add_assoc]
  have h01 : x i0 ≤ x i1 := hmin i1
  obtain ⟨d, hd, hdp⟩ := intermediate_value_Icc h01 hcont.continuousOn (⟨hlo.le, hhi.le⟩ : p ∈ Icc (gaussPodOf x y det (x i0)) (gaussPodOf x y det (x i1)))
  -- the level set of a solution
  have hsep : ∀ d, x i0 ≤ d → d ≤ x i1 → gaussPodOf x y det d = p →
      ∀ a, x i0 ≤ a → a ≤ x i1 → (a < d → gaussPodOf x y det a < p) ∧ (d < a → p < gaussPodOf x y det a) := by
    intro d hd0 hd1 hdp
    set c := (det - (olsIntercept x y + olsSlope x y * d)) / (s * N d) with hc
    set h : ℝ → ℝ := fun a => c * s * N a - (det - (olsIntercept x y + olsSlope x y * a)) with hh
    have hp : p = PhiC c := by rw [← hdp, hform d]
    have hlt : ∀ a, gaussPodOf x y det a < p ↔ h a < 0 := by
      intro a
      rw [hform a, hp, PhiC_eq, PhiC_eq, sub_lt_sub_iff_left, Phi_strictMono.lt_iff_lt, lt_div_iff₀ (mul_pos hs (hNp a))]
      simp only [hh]
      constructor <;> intro q <;> linarith
    have hgt : ∀ a, p < gaussPodOf x y det a ↔ 0 < h a := by
      intro a
      rw [hform a, hp, PhiC_eq, PhiC_eq, sub_lt_sub_iff_left, Phi_strictMono.lt_iff_lt, div_lt_iff₀ (mul_pos hs (hNp a))]
      simp only [hh]
      constructor <;> intro q <;> linarith
    have hd0' : h d = 0 := by
      have : c * (s * N d) = det - (olsIntercept x y + olsSlope x y * d) := by
        rw [hc]; exact div_mul_cancel₀ _ (mul_pos hs (hNp d)).ne'
      simp only [hh]; linarith
    have hconv : ConvexOn ℝ univ N := root_convex hk hS
    have haff1 : ConvexOn ℝ univ fun a : ℝ => -(det - (olsIntercept x y + olsSlope x y * a)) := by
      refine ⟨convex_univ, fun a _ b _ u v _ _ huv => le_of_eq ?_⟩
      simp only [smul_eq_mul]
      have : v = 1 - u := by linarith
      subst this; ring
    have haff2 : ConcaveOn ℝ univ fun a : ℝ => -(det - (olsIntercept x y + olsSlope x y * a)) := by
      refine ⟨convex_univ, fun a _ b _ u v _ _ huv => le_of_eq ?_⟩
      simp only [smul_eq_mul]
      have : v = 1 - u := by linarith
      subst this; ring
    have hcc : ConvexOn ℝ univ h ∨ ConcaveOn ℝ univ h := by
      have e : h = fun a => (c * s) * N a + -(det - (olsIntercept x y + olsSlope x y * a)) := by funext a; simp only [hh]; ring
      rw [e]
      rcases le_total 0 (c * s) with hcs | hcs
      · exact Or.inl ((hconv.smul hcs).add haff1)
      · right
        have e1 : ConcaveOn ℝ univ fun a => (c * s) * N a := by
          have := (hconv.smul (neg_nonneg.2 hcs)).neg
          refine this.congr fun a _ => ?_
          simp
        exact e1.add haff2
    obtain ⟨g1, g2⟩ := sign_change hcc ((hlt _).1 hlo) ((hgt _).1 hhi) hd0' hd0 hd1
    exact fun a ha0 ha1 => ⟨fun had => (hlt a).2 (g1 a ha0 had), fun had => (hgt a).2 (g2 a had ha1)⟩
  have hD := hsep d hd.1 hd.2 hdp
  have hd0 : x i0 < d := lt_of_le_of_ne hd.1 fun e => by rw [e, hdp] at hlo; exact lt_irrefl _ hlo
  have hd1 : d < x i1 := lt_of_le_of_ne hd.2 fun e => by rw [← e, hdp] at hhi; exact lt_irrefl _ hhi
  refine ⟨d, fun solve hso z chi M => ?_, ⟨hd0, hd1⟩, hD⟩
  have hne : List.ofFn x ≠ [] := by
    intro h0
    have : x i0 ∈ List.ofFn x := (List.mem_ofFn' _ _).2 ⟨i0, rfl⟩
    rw [h0] at this
    exact absurd this (by simp)
  obtain ⟨mn, mx, e1, e2⟩ := sampleMinMax_ok hne
  have hmn : mn = x i0 := by
    have h := sampleMin_spec e1
    obtain ⟨i, hi⟩ := (List.mem_ofFn' _ _).1 h.1
    refine le_antisymm (h.2 ((List.mem_ofFn' _ _).2 ⟨i0, rfl⟩)) ?_
    rw [← hi]; exact hmin i
  have hmx : mx = x i1 := by
    have h := sampleMax_spec e2
    obtain ⟨i, hi⟩ := (List.mem_ofFn' _ _).1 h.1
    refine le_antisymm ?_ (h.2 ((List.mem_ofFn' _ _).2 ⟨i1, rfl⟩))
    rw [← hi]; exact hmax i
  rw [gaussDetectionOf, e1, e2]
  simp only [hmn, hmx]
  rw [computeDetectionSize]
  simp only [Option.getD_none, not_true_eq_false, not_and, hlo.le, hhi.le, Option.map_none, true_implies, if_false, Except.ok.injEq, Prod.mk.injEq, and_true]
  obtain ⟨r1, r2⟩ := hso _ p _ _ h01 hcont.continuousOn hlo.le hhi.le
  obtain ⟨q1, q2⟩ := hD _ r1.1 r1.2
  rw [r2] at q1 q2
  rcases lt_trichotomy (solve (gaussPodOf x y det) p (x i0) (x i1)) d with h | h | h
  · exact absurd (q1 h) (lt_irrefl _)
  · rw [h]
  · exact absurd (q2 h) (lt_irrefl _)

/-- Instance: three observations, threshold 1, level one half. -/
example : ∃ d, (∀ solve, SolveSpec solve → gaussDetectionOf solve ![0, 1, 2] ![0, 1, 3] 1 (fun _ _ => 0) (fun _ => 1) 1 (1 / 2) none
    = .ok ([d], [labelP (1 / 2)])) ∧ (0 < d ∧ d < 2) ∧ ∀ a, d < a → a ≤ 2 → 1 / 2 < gaussPodOf ![0, 1, 2] ![0, 1, 3] 1 a := by
  have hx : ∃ i j, (![0, 1, 2] : Fin 3 → ℝ) i ≠ ![0, 1, 2] j := ⟨0, 1, by norm_num⟩
  have e1 : olsSlope (![0, 1, 2] : Fin 3 → ℝ) ![0, 1, 3] = 3 / 2 := by norm_num [olsSlope, smean, Fin.sum_univ_succ]
  have e0 : olsIntercept (![0, 1, 2] : Fin 3 → ℝ) ![0, 1, 3] = -1 / 6 := by rw [olsIntercept, e1]; norm_num [smean, Fin.sum_univ_succ]
  have hs : 0 < linearStderr (![0, 1, 2] : Fin 3 → ℝ) ![0, 1, 3] := by
    rw [linearStderr, linearScale]
    refine Real.sqrt_pos.2 ?_
    simp only [olsResiduals, e0, e1]
    norm_num [Fin.sum_univ_succ]
  have hpv := (gaussPod_continuous ![0, 1, 2] ![0, 1, 3] 1 hx hs).1
  have half : PhiC 0 = 1 / 2 := by rw [PhiC_eq, Phi_zero]; norm_num
  have lt1 : gaussPodOf ![0, 1, 2] ![0, 1, 3] 1 0 < 1 / 2 := by
    rw [gaussPodOf, podGauss, ← half, PhiC_eq, PhiC_eq, sub_lt_sub_iff_left]
    refine Phi_strictMono (div_pos ?_ (hpv 0))
    rw [e0, e1]; norm_num
  have lt2 : 1 / 2 < gaussPodOf ![0, 1, 2] ![0, 1, 3] 1 2 := by
    rw [gaussPodOf, podGauss, ← half, PhiC_eq, PhiC_eq, sub_lt_sub_iff_left]
    refine Phi_strictMono (div_neg_of_neg_of_pos ?_ (hpv 2))
    rw [e0, e1]; norm_num
  obtain ⟨d, h1, h2, h3⟩ := C186_separates ![0, 1, 2] ![0, 1, 3] 1 (1 / 2) hx hs 0 2 (by intro i; fin_cases i <;> simp) (by
    intro i
    change _ ≤ (2 : ℝ)
    fin_cases i <;> norm_num) lt1 lt2
  exact ⟨d, fun solve hso => h1 solve hso _ _ _, h2, fun a hda ha => (h3 a (by have := h2.1; simp only [Matrix.cons_val_zero] at this ⊢; linarith) ha).2 hda⟩

end Verif.Props
