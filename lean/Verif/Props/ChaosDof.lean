import Verif.Model.ChaosDof

/-!
# C111: degrees of freedom of the chaos POD
-/

namespace Verif.Props
open Verif.Py Verif.Model

theorem chaosStderrF_fin {n p : ℕ} {ssr : ℝ} (h : p + 1 < n) (hs : 0 ≤ ssr) :
    chaosStderrF n p ssr = .fin (Real.sqrt (ssr / ((n : ℝ) - p - 1))) := by
  have hd : 0 < (n : ℝ) - p - 1 := by
    have : ((p + 1 : ℕ) : ℝ) < n := by exact_mod_cast h
    push_cast at this; linarith
  rw [chaosStderrF, F.div_fin _ hd.ne', npSqrt, if_neg (not_lt.mpr (div_nonneg hs hd.le))]

theorem chaosStderrF_nan {n p : ℕ} {ssr : ℝ} (h : n < p + 1) (hs : 0 < ssr) : chaosStderrF n p ssr = .nan := by
  have hd : (n : ℝ) - p - 1 < 0 := by
    have : (n : ℝ) < ((p + 1 : ℕ) : ℝ) := by exact_mod_cast h
    push_cast at this; linarith
  rw [chaosStderrF, F.div_fin _ hd.ne, npSqrt, if_pos (div_neg_of_pos_of_neg hs hd)]

theorem chaosStderrF_inf {n p : ℕ} {ssr : ℝ} (h : n = p + 1) (hs : 0 < ssr) : chaosStderrF n p ssr = .pinf := by
  have hd : (n : ℝ) - p - 1 = 0 := by rw [h]; push_cast; ring
  rw [chaosStderrF, hd]
  simp [F.div, F.infSign, hs, hs.ne', npSqrt]

theorem chaosPodF_fin (det se : ℝ) (values z : List ℝ) :
    chaosPodF det (.fin se) values z = fracAbove det (List.zipWith (fun v zi => v + zi * se) values z) := by
  have key : ∀ values z : List ℝ,
      (List.zipWith (fun v zi => F.add (.fin v) (F.mul (.fin zi) (.fin se))) values z).countP (fun y => F.lt (.fin det) y)
        = (List.zipWith (fun v zi => v + zi * se) values z).countP (fun y => decide (det < y)) := by
    intro values
    induction values with
    | nil => intro z; rfl
    | cons a t ih =>
      intro z
      cases z with
      | nil => rfl
      | cons b u =>
        rw [List.zipWith_cons_cons, List.zipWith_cons_cons, List.countP_cons, List.countP_cons, ih u]
        congr 1
  rw [chaosPodF, fracAboveF, fracAbove, key]
  simp

/-- **C111 (restricted).**  Number of observations `n`, of basis functions `p`.  The run completes exactly when `n ≥ p + 2`; then the POD
values are the fractions computed with the standard error `sqrt(SSR/(n-p-1))`.  Otherwise it raises TypeError and no simulated curve is
stored.  Missing: what the failed run leaves as POD. -/
theorem C111_completes_iff_partial (n p : ℕ) (ssr det : ℝ) (hs : 0 ≤ ssr) (draw : ℤ → ℝ) (cols : List (List ℝ × List ℝ))
    (simulated : ℝ → List (List (List ℝ × List ℝ))) (s : ChaosPodState) :
    (Ok (chaosRunDof n p ssr det draw cols simulated s).1 ↔ p + 2 ≤ n) ∧
    (p + 2 ≤ n → (chaosRunDof n p ssr det draw cols simulated s).2 =
      ⟨some (cols.map fun c => fracAbove det (List.zipWith (fun v zi => v + zi * Real.sqrt (ssr / ((n : ℝ) - p - 1))) c.1 c.2)),
       some ((simulated (draw ((n : ℤ) - p - 1))).map fun cs => cs.map fun c =>
          fracAbove det (List.zipWith (fun v zi => v + zi * Real.sqrt (ssr / ((n : ℝ) - p - 1))) c.1 c.2))⟩) ∧
    (n < p + 2 → Raises (chaosRunDof n p ssr det draw cols simulated s).1 .typeError ∧
      (chaosRunDof n p ssr det draw cols simulated s).2.perDefect = s.perDefect) := by
  have hpos : p + 2 ≤ n → chaosRunDof n p ssr det draw cols simulated s = (.ok (),
      ⟨some (cols.map fun c => fracAbove det (List.zipWith (fun v zi => v + zi * Real.sqrt (ssr / ((n : ℝ) - p - 1))) c.1 c.2)),
       some ((simulated (draw ((n : ℤ) - p - 1))).map fun cs => cs.map fun c =>
          fracAbove det (List.zipWith (fun v zi => v + zi * Real.sqrt (ssr / ((n : ℝ) - p - 1))) c.1 c.2))⟩) := by
    intro h
    have hd : ¬ (n : ℤ) - p - 1 ≤ 0 := by omega
    rw [chaosRunDof, chiSquareDraw, if_neg hd]
    simp only [chaosStderrF_fin (show p + 1 < n by omega) hs, chaosPodF_fin]
  have hneg : n < p + 2 → ∃ m, (chaosRunDof n p ssr det draw cols simulated s).1 = .error ⟨.typeError, m⟩ ∧
      (chaosRunDof n p ssr det draw cols simulated s).2.perDefect = s.perDefect := by
    intro h
    have hd : (n : ℤ) - p - 1 ≤ 0 := by omega
    rw [chaosRunDof, chiSquareDraw, if_pos hd]
    exact ⟨_, rfl, rfl⟩
  refine ⟨⟨fun ⟨a, ha⟩ => ?_, fun h => ⟨(), by rw [hpos h]⟩⟩, fun h => by rw [hpos h], fun h => ?_⟩
  · by_contra hc
    obtain ⟨m, hm, -⟩ := hneg (by omega)
    rw [hm] at ha
    cases ha
  · obtain ⟨m, hm, hm2⟩ := hneg h
    exact ⟨⟨m, hm⟩, hm2⟩

example : Ok (chaosRunDof 5 3 4 1 (fun _ => 2) [([1, 2], [0, 0])] (fun _ => []) ⟨none, none⟩).1 :=
  ((C111_completes_iff_partial 5 3 4 1 (by norm_num) _ _ _ _).1).mpr (by norm_num)

/-- **C111 is violated.**  With at most `p + 1` observations and imperfect residuals, the run raises but leaves a POD model.  With fewer
than `p + 1` it is 0 for every defect size, with exactly `p + 1` it is the fraction of positive deviates; both do not depend on the
metamodel or on the threshold. -/
theorem C111_violated (n p : ℕ) (ssr det : ℝ) (hs : 0 < ssr) (draw : ℤ → ℝ) (cols : List (List ℝ × List ℝ))
    (hlen : ∀ c ∈ cols, c.1.length = c.2.length) (simulated : ℝ → List (List (List ℝ × List ℝ))) (hn : n < p + 2) :
    let s := (chaosRunDof n p ssr det draw cols simulated ⟨none, none⟩)
    Raises s.1 .typeError ∧
    (n < p + 1 → (chaosGetPod s.2).1 = .ok (cols.map fun _ => 0)) ∧
    (n = p + 1 → (chaosGetPod s.2).1 = .ok (cols.map fun c => fracAbove 0 c.2)) := by
  intro s
  have hr := ((C111_completes_iff_partial n p ssr det hs.le draw cols simulated ⟨none, none⟩).2.2 hn).1
  have hpod : s.2.pod = some (cols.map fun c => chaosPodF det (chaosStderrF n p ssr) c.1 c.2) := by
    have hd : (n : ℤ) - p - 1 ≤ 0 := by omega
    simp only [s]
    rw [chaosRunDof, chiSquareDraw, if_pos hd]
  refine ⟨hr, fun h => ?_, fun h => ?_⟩
  · rw [chaosGetPod, hpod]
    simp only [Except.ok.injEq]
    refine List.map_congr_left fun c _ => ?_
    rw [chaosStderrF_nan h hs, chaosPodF, fracAboveF]
    have : (List.zipWith (fun v zi => F.add (.fin v) (F.mul (.fin zi) (.nan : F ℝ))) c.1 c.2).countP (fun y => F.lt (.fin det) y) = 0 := by
      rw [List.countP_eq_zero]
      intro y hy
      have : y = .nan := by
        rw [← List.map_uncurry_zip_eq_zipWith, List.mem_map] at hy
        obtain ⟨q, -, rfl⟩ := hy
        simp [Function.uncurry]
      rw [this]; simp
    rw [this]; simp
  · rw [chaosGetPod, hpod]
    simp only [Except.ok.injEq]
    refine List.map_congr_left fun c hc => ?_
    rw [chaosStderrF_inf h hs, chaosPodF, fracAboveF, fracAbove]
    have key : ∀ values z : List ℝ, values.length = z.length →
        (List.zipWith (fun v zi => F.add (.fin v) (F.mul (.fin zi) (.pinf : F ℝ))) values z).countP (fun y => F.lt (.fin det) y)
          = z.countP (fun y => decide (0 < y)) := by
      intro values
      induction values with
      | nil => intro z hz; cases z with
        | nil => rfl
        | cons => simp at hz
      | cons a t ih =>
        intro z hz
        cases z with
        | nil => simp at hz
        | cons b u =>
          rw [List.zipWith_cons_cons, List.countP_cons, List.countP_cons, ih u (by simpa using hz)]
          congr 1
          rcases lt_trichotomy b 0 with hb | hb | hb
          · simp [F.mul, F.infSign, hb.ne, not_lt.mpr hb.le, F.add, F.lt]
          · simp [F.mul, F.infSign, hb]
          · simp [F.mul, F.infSign, hb.ne', hb, F.add, F.lt]
    rw [key _ _ (hlen c hc), List.length_zipWith, hlen c hc, min_self]

/-- Four observations, three basis functions: values far above the threshold, two negative deviates out of three: "POD" 1/3. -/
example : (chaosGetPod (chaosRunDof 4 3 1 1 (fun _ => 2) [([100, 100, 100], [-1, 2, -3])] (fun _ => []) ⟨none, none⟩).2).1
    = .ok [1 / 3] := by
  have h := (C111_violated 4 3 1 1 one_pos (fun _ => 2) [([100, 100, 100], [-1, 2, -3])] (by simp) (fun _ => []) (by norm_num)).2.2 rfl
  rw [h]
  norm_num [fracAbove]

end Verif.Props
