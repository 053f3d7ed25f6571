import Verif.Props.SobolMirror

/-!
# C251: metamodel POD of the opposite signals (/repo/otpod/_kriging_tools.py 32-55, 422-490, _kriging_pod.py 198-217, _polynomial_chaos_pod.py 187-252, 734-774)
-/

namespace Verif.Props
open Verif.Py Verif.Model Matrix

/-! ## Order statistics, means and interpolation of complements -/

/-- Reading a sorted sample between two ranks. -/
theorem atPos_segment (s : List ℝ) (t : ℝ) (i : ℕ) (hi : i + 1 < s.length) (h0 : (i : ℝ) ≤ t) (h1 : t ≤ i + 1) :
    atPos s t = (1 - (t - i)) * s.getD i 0 + (t - i) * s.getD (i + 1) 0 := by
  have hp : (0 : ℝ) ≤ i := Nat.cast_nonneg i
  have hl : (i : ℝ) + 1 + 1 ≤ s.length := by exact_mod_cast hi
  unfold atPos
  rw [if_neg (by linarith)]
  rcases h1.lt_or_eq with h1 | h1
  · rw [if_neg (by linarith)]
    have : ⌊t⌋₊ = i := (Nat.floor_eq_iff (hp.trans h0)).mpr ⟨h0, h1⟩
    simp only [this]
  · subst h1
    by_cases hlast : (s.length : ℝ) - 1 ≤ i + 1
    · rw [if_pos hlast]
      have : s.length - 1 = i + 1 := by
        have : (s.length : ℝ) = i + 1 + 1 := by linarith
        have : s.length = i + 1 + 1 := by exact_mod_cast this
        omega
      rw [this]
      ring
    · rw [if_neg hlast]
      have : ⌊(i : ℝ) + 1⌋₊ = i + 1 := by
        rw [Nat.floor_eq_iff (by linarith)]
        push_cast
        constructor <;> linarith
      simp only [this]
      push_cast
      ring

theorem getD_mirror (s : List ℝ) (i : ℕ) (hi : i < s.length) : ((s.map (1 - ·)).reverse).getD i 0 = 1 - s.getD (s.length - 1 - i) 0 := by
  rw [List.getD_eq_getElem _ _ (by simpa using hi), List.getD_eq_getElem _ _ (by omega), List.getElem_reverse, List.getElem_map]
  simp

theorem atPos_mirror (s : List ℝ) (hs : s ≠ []) (t : ℝ) : atPos (s.map (1 - ·)).reverse ((s.length : ℝ) - 1 - t) = 1 - atPos s t := by
  have hpos : 0 < s.length := List.length_pos_iff.mpr hs
  have hpos' : (1 : ℝ) ≤ s.length := by exact_mod_cast hpos
  have hl : (s.map (1 - ·)).reverse.length = s.length := by simp
  rcases lt_or_ge t 0 with h | h
  · rw [atPos, if_neg (by linarith), if_pos (by rw [hl]; linarith), hl, getD_mirror s _ (by omega), atPos, if_pos h]
    simp
  rcases le_or_gt ((s.length : ℝ) - 1) t with h2 | h2
  · have e : atPos s t = s.getD (s.length - 1) 0 := by rw [atPos, if_neg (by linarith), if_pos h2]
    rw [e]
    rcases h2.lt_or_eq with h3 | h3
    · rw [atPos, if_pos (by linarith), getD_mirror s _ hpos]
      simp
    · rw [← h3, sub_self]
      by_cases h1 : s.length = 1
      · rw [atPos, if_neg (lt_irrefl _), if_pos (by rw [hl, h1]; simp), hl, getD_mirror s _ (by omega), h1]
      · rw [atPos_segment _ 0 0 (by rw [hl]; omega) (by simp) (by simp), getD_mirror s 0 hpos]
        simp
  · set i := ⌊t⌋₊ with hi
    have f0 : (i : ℝ) ≤ t := Nat.floor_le h
    have f1 : t < i + 1 := Nat.lt_floor_add_one t
    have hi1 : i + 1 < s.length := by
      have : (i : ℝ) < s.length - 1 := by linarith
      have : (i : ℝ) + 1 < s.length := by linarith
      exact_mod_cast this
    have hc : ((s.length - 2 - i : ℕ) : ℝ) = s.length - 2 - i := by
      rw [Nat.cast_sub (by omega), Nat.cast_sub (by omega)]
      norm_num
    rw [atPos_segment s t i hi1 f0 f1.le, atPos_segment _ _ (s.length - 2 - i) (by rw [hl]; omega) (by rw [hc]; linarith) (by rw [hc]; linarith), hc,
      getD_mirror s _ (by omega), getD_mirror s _ (by omega), show s.length - 1 - (s.length - 2 - i) = i + 1 by omega,
      show s.length - 1 - (s.length - 2 - i + 1) = i by omega]
    ring

theorem sortR_mirror (l : List ℝ) : sortR (l.map (1 - ·)) = ((sortR l).map (1 - ·)).reverse := by
  refine List.Perm.eq_of_pairwise (le := fun a b => a ≤ b) (fun a b _ _ h h' => le_antisymm h h') (sortR_pairwise _) ?_ ?_
  · rw [List.pairwise_reverse, List.pairwise_map]
    exact (sortR_pairwise l).imp fun h => by linarith
  · exact (sortR_perm _).trans (((sortR_perm l).symm.map _).trans (List.reverse_perm _).symm)

/-- The quantile of the complements at a level is the complement of the quantile at the opposite level. -/
theorem quantile_mirror (l : List ℝ) (hl : l ≠ []) (q : ℝ) : quantile (l.map (1 - ·)) q = 1 - quantile l (1 - q) := by
  have hs : sortR l ≠ [] := fun h => hl (List.length_eq_zero_iff.mp (by rw [← sortR_length, h]; rfl))
  rw [quantile, quantile, sortR_mirror, List.length_map, ← atPos_mirror _ hs, sortR_length]
  congr 1
  ring

theorem listMean_mirror (l : List ℝ) (hl : l ≠ []) : listMean (l.map (1 - ·)) = 1 - listMean l := by
  have hne : (l.length : ℝ) ≠ 0 := by simpa using hl
  have hs : ∀ q : List ℝ, (q.map (1 - ·)).sum = q.length - q.sum := fun q => by
    induction q with
    | nil => simp
    | cons a q ih => rw [List.map_cons, List.sum_cons, ih, List.sum_cons, List.length_cons]; push_cast; ring
  rw [listMean, listMean, hs, List.length_map, sub_div, div_self hne]

theorem interpGo_mirror (pts : List (ℝ × ℝ)) (hp : pts ≠ []) (t : ℝ) : interpGo (pts.map fun p => (p.1, 1 - p.2)) t = 1 - interpGo pts t := by
  induction pts with
  | nil => exact absurd rfl hp
  | cons p pts ih =>
    cases pts with
    | nil => rfl
    | cons q pts =>
      simp only [List.map_cons, interpGo] at ih ⊢
      split_ifs
      · ring
      · exact ih (by simp)

/-- Interpolation of the complements: the complement, and the same exceptions. -/
theorem interp1d_mirror {xs ys : List ℝ} {f : ℝ → Res ℝ} (h : interp1d xs ys = .ok f) :
    ∃ f', interp1d xs (ys.map (1 - ·)) = .ok f' ∧ ∀ t, f' t = (f t).map (1 - ·) := by
  rw [interp1d] at h
  split_ifs at h with hlen
  rw [Except.ok.injEq] at h
  subst h
  refine ⟨_, by rw [interp1d, if_pos (by simpa using hlen)], fun t => ?_⟩
  have hzip : xs.zip (ys.map (1 - ·)) = (xs.zip ys).map fun p => (p.1, 1 - p.2) := by
    rw [List.zip_map_right]
    rfl
  have hsort : sortPts ((xs.zip ys).map fun p => (p.1, 1 - p.2)) = (sortPts (xs.zip ys)).map fun p => (p.1, 1 - p.2) := by
    unfold sortPts
    rw [List.map_mergeSort]
    intro a _ b _
    rfl
  rw [hzip, hsort]
  generalize sortPts (xs.zip ys) = pts
  cases pts with
  | nil => rfl
  | cons p pts =>
    have h1 : ((List.map (fun p : ℝ × ℝ => (p.1, 1 - p.2)) (p :: pts)).getLast (by simp)).1 = ((p :: pts).getLast (by simp)).1 := by
      rw [List.getLast_map]
    have h2 := interpGo_mirror (p :: pts) (by simp) t
    simp only [List.map_cons] at h1 h2 ⊢
    rw [interpEval, interpEval, h1, h2]
    split_ifs <;> rfl

theorem countP_mirror (l : List ℝ) (det : ℝ) (h : ∀ v ∈ l, v ≠ det) :
    (((l.map fun v => -v).countP fun y => decide (-det < y) : ℕ) : ℝ) = l.length - (l.countP fun y => decide (det < y) : ℕ) := by
  induction l with
  | nil => simp
  | cons v l ih =>
    have hv := h v (by simp)
    rw [List.map_cons, List.countP_cons, List.countP_cons, List.length_cons]
    push_cast
    rw [ih fun w hw => h w (by simp [hw])]
    rcases lt_or_gt_of_ne hv with h1 | h1
    · simp [h1, not_lt.mpr h1.le]
      ring
    · simp [h1, not_lt.mpr h1.le]

theorem fracAbove_mirror (l : List ℝ) (hl : l ≠ []) (det : ℝ) (h : ∀ v ∈ l, v ≠ det) : fracAbove (-det) (l.map fun v => -v) = 1 - fracAbove det l := by
  have hne : (l.length : ℝ) ≠ 0 := by simpa using hl
  rw [fracAbove, fracAbove, countP_mirror l det h, List.length_map, sub_div, div_self hne]

/-! ## Kriging -/

theorem podLaw_mirror (l : List ℝ) (hl : l ≠ []) (det : ℝ) (h : ∀ v ∈ l, v ≠ det) (z : ℝ) :
    (podLaw (-det) (l.map fun v => -v)).draw (-z) = 1 - (podLaw det l).draw z := by
  have hpos : (0 : ℝ) < l.length := by exact_mod_cast List.length_pos_iff.mpr hl
  have p0 : 0 ≤ fracAbove det l := by rw [fracAbove]; positivity
  have p1 : fracAbove det l ≤ 1 := by
    rw [fracAbove, div_le_one hpos]
    exact_mod_cast List.countP_le_length
  unfold podLaw
  dsimp only
  rw [fracAbove_mirror l hl det h, List.length_map, sub_sub_cancel, mul_comm (1 - fracAbove det l)]
  generalize fracAbove det l = p at *
  by_cases hv : 0 < p * (1 - p) / l.length
  · rw [if_pos hv, if_pos hv]
    simp only [PodLaw.draw]
    ring
  · rw [if_neg hv, if_neg hv]
    have h3 : p * (1 - p) ≤ 0 := by
      by_contra hc
      exact hv (div_pos (not_le.mp hc) hpos)
    rcases p0.lt_or_eq with h4 | h4
    · have : p = 1 := by nlinarith
      subst this
      norm_num [PodLaw.draw]
    · rw [← h4]
      norm_num [PodLaw.draw]

/-- The opposite draws. -/
def oppositeDraws {X : Type} (w : KrigDraws X) : KrigDraws X := ⟨w.xs, w.xi.map fun z => -z, w.mix.map fun c => (c.1, -c.2)⟩

/-- The simulated values are POD values of the metamodel; no simulated signal equals the threshold, and each value names one of the trajectories. -/
structure ProperDraws {X : Type} (mean variance : ℝ × X → ℝ) (det A : ℝ) (w : KrigDraws X) : Prop where
  points : w.xs ≠ []
  values : w.mix ≠ []
  component : ∀ c ∈ w.mix, c.1 < w.xi.length
  noTie : ∀ z ∈ w.xi, ∀ v ∈ krigTrajectory mean variance A w.xs z, v ≠ det

theorem podSample_mirror {X : Type} (mean variance : ℝ × X → ℝ) (det A : ℝ) (w : KrigDraws X) (hw : ProperDraws mean variance det A w) :
    podSamplePerDefect (fun p => -mean p) variance (-det) A (oppositeDraws w) = (podSamplePerDefect mean variance det A w).map (1 - ·) := by
  have htraj : ∀ z, krigTrajectory (fun p => -mean p) variance A w.xs (-z) = (krigTrajectory mean variance A w.xs z).map fun v => -v := by
    intro z
    simp only [krigTrajectory, List.map_map]
    refine List.map_congr_left fun p _ => ?_
    simp only [Function.comp]
    ring
  have hne : ∀ z, krigTrajectory mean variance A w.xs z ≠ [] := by
    intro z
    simpa [krigTrajectory, mergeDefectInX] using hw.points
  simp only [podSamplePerDefect, oppositeDraws, List.map_map, Function.comp_def]
  refine List.map_congr_left fun c hc => ?_
  have hlt := hw.component c hc
  rw [List.getD_eq_getElem _ _ (by simpa using hlt), List.getD_eq_getElem _ _ (by simpa using hlt), List.getElem_map, List.getElem_map, htraj]
  exact podLaw_mirror _ (hne _) det (hw.noTie _ (List.getElem_mem _)) _

/-- The amplitude estimated on the opposite signals is the same. -/
theorem amplitude_mirror {n q : ℕ} (K : Matrix (Fin n) (Fin n) ℝ) (F : Matrix (Fin n) (Fin q) ℝ) (hS : IsUnit (borderedMatrix K F).det) (one : Fin q → ℝ)
    (hone : F *ᵥ one = fun _ => 1) (y : Fin n → ℝ) : krigAmplitude K F (fun i => -y i) = krigAmplitude K F y := by
  have := amplitude_units K F hS one hone y (-1) 0
  simpa using this

/-- **C251, kriging.**  The kriging model of the opposite signals (the amplitude is the same, `amplitude_mirror`), the opposite threshold and the opposite draws: both runs give curves, the
POD curve is one minus the former one and the curve at a confidence level is one minus the former curve at the complementary level, at every size, exceptions included. -/
theorem C251_kriging {n q d : ℕ} (k : (Fin (d + 1) → ℝ) → (Fin (d + 1) → ℝ) → ℝ) (f : (Fin (d + 1) → ℝ) → Fin q → ℝ) (sample : Fin n → Fin (d + 1) → ℝ) (y : Fin n → ℝ) (det : ℝ)
    (rows : ℕ) (w : ℕ → KrigDraws (Fin d → ℝ)) (σ : SimAttrs) (hnum : σ.number = σ.sizes.length)
    (hw : ∀ i (hi : i < σ.sizes.length), ProperDraws (fun p => designMean k f sample y (fullPoint p)) (fun p => designVar k f sample (fullPoint p)) det σ.sizes[i] (w i)) (level : ℝ) :
    let run := krigingDesignRun k f sample y det rows w σ
    let run' := krigingDesignRun k f sample (fun i => -y i) (-det) rows (fun i => oppositeDraws (w i)) σ
    ∃ g g' h h', run.2.curve = some g ∧ run'.2.curve = some g' ∧ getPODCLModel run.2 (1 - level) = .ok h ∧ getPODCLModel run'.2 level = .ok h' ∧
      (∀ x, g' x = (g x).map (1 - ·)) ∧ ∀ x, h' x = (h x).map (1 - ·) := by
  intro run run'
  have hmean : ∀ x, designMean k f sample (fun i => -y i) x = -designMean k f sample y x := fun x => by rw [designMean, designMean, krigMean_neg]
  obtain ⟨cols, hc⟩ : ∃ cols, cols = σ.sizes.mapIdx fun i A => podSamplePerDefect (fun p => designMean k f sample y (fullPoint p))
        (fun p => designVar k f sample (fullPoint p)) det A (w i) := ⟨_, rfl⟩
  have hcols : (σ.sizes.mapIdx fun i A => podSamplePerDefect (fun p => designMean k f sample (fun i => -y i) (fullPoint p))
        (fun p => designVar k f sample (fullPoint p)) (-det) A (oppositeDraws (w i))) = cols.map fun c => c.map (1 - ·) := by
    rw [hc]
    refine List.ext_getElem (by simp) fun j q1 q2 => ?_
    simp only [List.getElem_mapIdx, List.getElem_map, hmean]
    exact podSample_mirror _ _ det _ _ (hw j (by simpa using q1))
  have hne : ∀ c ∈ cols, c ≠ [] := by
    intro c hcm
    rw [hc] at hcm
    obtain ⟨j, hj, rfl⟩ := List.mem_iff_getElem.mp hcm
    simp only [List.getElem_mapIdx, podSamplePerDefect]
    simpa using (hw j (by simpa using hj)).values
  have hlen : cols.length = σ.sizes.length := by rw [hc]; simp
  obtain ⟨g, hg⟩ : ∃ g, interp1d σ.sizes (cols.map listMean) = .ok g := ⟨_, by rw [interp1d, if_pos (by rw [List.length_map, hlen])]⟩
  obtain ⟨h, hh⟩ : ∃ h, interp1d σ.sizes (cols.map fun col => quantile col (1 - (1 - level))) = .ok h :=
    ⟨_, by rw [interp1d, if_pos (by rw [List.length_map, hlen])]⟩
  obtain ⟨g', hg', hgg⟩ := interp1d_mirror hg
  obtain ⟨h', hh', hhh⟩ := interp1d_mirror hh
  have em : (cols.map fun c => c.map (1 - ·)).map listMean = (cols.map listMean).map (1 - ·) := by
    rw [List.map_map, List.map_map]
    exact List.map_congr_left fun c hcm => listMean_mirror c (hne c hcm)
  have eq : ((cols.map fun c => c.map (1 - ·)).map fun col => quantile col (1 - level)) = (cols.map fun col => quantile col (1 - (1 - level))).map (1 - ·) := by
    rw [List.map_map, List.map_map]
    exact List.map_congr_left fun c hcm => quantile_mirror c (hne c hcm) _
  have r1 : run = _ := krigRun_eq rows _ σ hnum (by rw [← hc]; exact hg)
  have r2 : run' = _ := krigRun_eq rows _ σ hnum (f := g') (by rw [hcols, em]; exact hg')
  refine ⟨g, g', h, h', by rw [r1], by rw [r2], ?_, ?_, hgg, hhh⟩
  · rw [r1]
    change interp1d σ.sizes ((σ.sizes.mapIdx _).map _) = _
    rw [← hc]
    exact hh
  · rw [r2]
    change interp1d σ.sizes ((σ.sizes.mapIdx _).map _) = _
    rw [hcols, eq]
    exact hh'

/-! ## Chaos -/

variable {X U : Type}

/-- One row of simulated POD values: opposite coefficients, residuals and threshold. -/
theorem chaosRow_mirror (S S' : ChaosSetup X U) (hT : S'.transformation = S.transformation) (hB : S'.basis = S.basis) (hse : S'.stderr = S.stderr)
    (hsam : S'.samplingSize = S.samplingSize) (hdet : S'.detection = -S.detection) (hn : S.samplingSize ≠ 0) (sizes coefs : List ℝ) (d : ChaosDraws X)
    (h1 : d.xs.length = S.samplingSize) (h2 : d.noise.length = S.samplingSize * sizes.length)
    (htie : ∀ j (hj : j < sizes.length) i (hi : i < d.xs.length), chaosFunction S.transformation S.basis coefs (sizes[j], d.xs[i]) +
      (d.noise.map (· * S.stderr)).getD (S.samplingSize * j + i) 0 ≠ S.detection) :
    chaosPodRow S' sizes.length sizes (coefs.map fun b => -b) ⟨d.xs, d.noise.map fun z => -z⟩ = (chaosPodRow S sizes.length sizes coefs d).map (1 - ·) := by
  rw [chaosRow_eq S sizes coefs d h1 h2, chaosRow_eq S' sizes _ ⟨d.xs, d.noise.map fun z => -z⟩ (by rw [hsam]; exact h1) (by rw [hsam]; simpa using h2)]
  refine List.ext_getElem (by simp) fun j q1 q2 => ?_
  have hj : j < sizes.length := by simpa using q1
  simp only [List.getElem_mapIdx, List.getElem_map, hsam, hdet, hT, hB]
  have hfun : ∀ (b : List ℝ) (B : List (U → ℝ)) p, chaosFunction S.transformation B (b.map fun b => -b) p = -chaosFunction S.transformation B b p := by
    intro b
    induction b with
    | nil => intro B p; simp [chaosFunction]
    | cons a b ih =>
      intro B p
      cases B with
      | nil => simp [chaosFunction]
      | cons ψ B =>
        have := ih B p
        simp only [chaosFunction, List.map_cons, List.zipWith_cons_cons, List.sum_cons] at this ⊢
        rw [this]
        ring
  have hnoise : ∀ i, ((d.noise.map fun z => -z).map (· * S'.stderr)).getD i 0 = -(d.noise.map (· * S.stderr)).getD i 0 := by
    intro i
    rw [List.getD_eq_getElem?_getD, List.getD_eq_getElem?_getD, List.getElem?_map, List.getElem?_map, List.getElem?_map, hse]
    cases d.noise[i]? <;> simp
  have hl : (d.xs.mapIdx fun i x => chaosFunction S.transformation S.basis (coefs.map fun b => -b) (sizes[j], x) +
        ((d.noise.map fun z => -z).map (· * S'.stderr)).getD (S.samplingSize * j + i) 0)
      = (d.xs.mapIdx fun i x => chaosFunction S.transformation S.basis coefs (sizes[j], x) + (d.noise.map (· * S.stderr)).getD (S.samplingSize * j + i) 0).map fun v => -v := by
    refine List.ext_getElem (by simp) fun i q1 q2 => ?_
    simp only [List.getElem_mapIdx, List.getElem_map, hfun, hnoise]
    ring
  have hn0 : (S.samplingSize : ℝ) ≠ 0 := by exact_mod_cast hn
  rw [hl, countP_mirror, List.length_mapIdx, h1, sub_div, div_self hn0]
  intro v hv
  obtain ⟨i, hi, rfl⟩ := List.mem_iff_getElem.mp hv
  simp only [List.getElem_mapIdx]
  exact htie j hj i (by simpa using hi)

/-- No simulated signal of a row equals the threshold. -/
def NoTie (S : ChaosSetup X U) (sizes coefs : List ℝ) (d : ChaosDraws X) : Prop :=
  ∀ j (hj : j < sizes.length) i (hi : i < d.xs.length), chaosFunction S.transformation S.basis coefs (sizes[j], d.xs[i]) +
    (d.noise.map (· * S.stderr)).getD (S.samplingSize * j + i) 0 ≠ S.detection

/-- **C251, chaos.**  The chaos fitted on the opposite signals, the opposite threshold and draws: the curves are related as in `C251_kriging`. -/
theorem C251_chaos {m : ℕ} (zero : ℝ × X) (T : ℝ × X → U) (φ : Fin m → U → ℝ) (det : ℝ) (N : ℕ) (z : ℕ → ℝ × X) (y : ℕ → ℝ)
    (hG : IsUnit ((basisMatrix (fun j w => φ j (T w)) N z)ᵀ * basisMatrix (fun j w => φ j (T w)) N z).det) (n : ℕ) (hn : n ≠ 0) (a : SimAttrs)
    (hnum : a.number = a.sizes.length) (w : ChaosDraws X) (hw : w.xs.length = n ∧ w.noise.length = n * a.sizes.length)
    (u : ℝ) (v : ℕ → Fin m → ℝ) (ws : List (ChaosDraws X)) (hne : ws ≠ []) (hws : ∀ q ∈ ws, q.xs.length = n ∧ q.noise.length = n * a.sizes.length) (level : ℝ) :
    let opp := fun d : ChaosDraws X => (⟨d.xs, d.noise.map fun z => -z⟩ : ChaosDraws X)
    let S := { fittedChaos zero T φ det N z y with samplingSize := n }
    let S' := { fittedChaos zero T φ (-det) N z (fun i => -y i) with samplingSize := n }
    let coefs := fun q => List.ofFn (chaosDraw (lsCoefs (basisMatrix (fun j w => φ j (T w)) N z) fun i => y i) (fun _ => u * ((N : ℝ) - m - 1) * S.stderr ^ 2) v q)
    let sims := ws.mapIdx fun q d => (coefs q, d)
    let sims' := ws.mapIdx fun q d => (List.ofFn (chaosDraw (lsCoefs (basisMatrix (fun j w => φ j (T w)) N z) fun i => -y i)
      (fun _ => u * ((N : ℝ) - m - 1) * S'.stderr ^ 2) (fun q j => -v q j) q), opp d)
    NoTie S a.sizes S.coefs w → (∀ q (hq : q < ws.length), NoTie S a.sizes (coefs q) ws[q]) →
    ∃ f f' g g', (chaosRunSim S w sims a).2.curve = some f ∧ (chaosRunSim S' (opp w) sims' a).2.curve = some f' ∧
      getPODCLModel (chaosRunSim S w sims a).2 (1 - level) = .ok g ∧ getPODCLModel (chaosRunSim S' (opp w) sims' a).2 level = .ok g' ∧
      (∀ x, f' x = (f x).map (1 - ·)) ∧ ∀ x, g' x = (g x).map (1 - ·) := by
  intro opp S S' coefs sims sims' ht0 ht
  have h0 : ∀ i, (0 : ℝ) * ((basisMatrix (fun j w => φ j (T w)) N z) *ᵥ (0 : Fin m → ℝ)) i = 0 := fun i => zero_mul _
  have hy : (fun i : Fin N => -y i) = fun i : Fin N => -1 * y i + 0 := by funext i; ring
  have hco : (lsCoefs (basisMatrix (fun j w => φ j (T w)) N z) fun i => -y i) = -lsCoefs (basisMatrix (fun j w => φ j (T w)) N z) fun i => y i := by
    rw [hy, lsCoefs_units _ hG (fun i => y i) (-1) 0 0 h0]
    simp
  have hse : S'.stderr = S.stderr := by
    change Real.sqrt (chaosScale (basisMatrix (fun j w => φ j (T w)) N z) fun i => -y i) = Real.sqrt (chaosScale (basisMatrix (fun j w => φ j (T w)) N z) fun i => y i)
    rw [hy, chaosScale_units _ hG (fun i => y i) (-1) 0 0 h0]
    norm_num
  have hrow : ∀ b d, d.xs.length = n → d.noise.length = n * a.sizes.length → NoTie S a.sizes b d →
      chaosPodRow S' a.number a.sizes (b.map fun b => -b) (opp d) = (chaosPodRow S a.number a.sizes b d).map (1 - ·) := by
    intro b d g1 g2 g3
    rw [hnum]
    exact chaosRow_mirror S S' rfl rfl hse rfl rfl hn a.sizes b d g1 g2 g3
  have hlen : ∀ b d, d.xs.length = n → d.noise.length = n * a.sizes.length → (chaosPodRow S a.number a.sizes b d).length = a.sizes.length := by
    intro b d g1 g2
    rw [hnum, chaosRow_eq S a.sizes b d g1 g2]
    simp
  have hrow0 : chaosPodRow S' a.number a.sizes S'.coefs (opp w) = (chaosPodRow S a.number a.sizes S.coefs w).map (1 - ·) := by
    have e1 : S'.coefs = S.coefs.map fun b => -b := by
      change List.ofFn (lsCoefs (basisMatrix (fun j w => φ j (T w)) N z) fun i => -y i) = (List.ofFn (lsCoefs (basisMatrix (fun j w => φ j (T w)) N z) fun i => y i)).map _
      rw [hco, List.map_ofFn]
      rfl
    rw [e1]
    exact hrow _ w hw.1 hw.2 ht0
  obtain ⟨rows, hr⟩ : ∃ rows, rows = sims.map fun q => chaosPodRow S a.number a.sizes q.1 q.2 := ⟨_, rfl⟩
  have hsims : (sims'.map fun q => chaosPodRow S' a.number a.sizes q.1 q.2) = rows.map fun r => r.map (1 - ·) := by
    rw [hr]
    refine List.ext_getElem (by simp [sims, sims']) fun q q1 q2 => ?_
    have hq : q < ws.length := by simpa [sims'] using q1
    simp only [sims, sims', List.getElem_map, List.getElem_mapIdx]
    have hd : List.ofFn (chaosDraw (lsCoefs (basisMatrix (fun j w => φ j (T w)) N z) fun i => -y i) (fun _ => u * ((N : ℝ) - m - 1) * S'.stderr ^ 2) (fun q j => -v q j) q)
        = (coefs q).map fun b => -b := by
      simp only [coefs, List.map_ofFn]
      congr 1
      funext j
      simp only [chaosDraw, hco, hse, Pi.neg_apply, Function.comp]
      ring
    rw [hd]
    exact hrow _ _ (hws _ (List.getElem_mem hq)).1 (hws _ (List.getElem_mem hq)).2 (ht q hq)
  have hrl : ∀ r ∈ rows, r.length = a.number := by
    intro r hrm
    rw [hr] at hrm
    obtain ⟨q, hq, rfl⟩ := List.mem_iff_getElem.mp hrm
    have hq' : q < ws.length := by simpa [sims] using hq
    simp only [sims, List.getElem_map, List.getElem_mapIdx]
    rw [hlen _ _ (hws _ (List.getElem_mem hq')).1 (hws _ (List.getElem_mem hq')).2, hnum]
  have hrne : rows ≠ [] := by
    rw [hr]
    simpa [sims] using hne
  have hcols : columnsOf (rows.map fun r => r.map (1 - ·)) a.number = (columnsOf rows a.number).map fun c => c.map (1 - ·) := by
    rw [columnsOf, columnsOf, List.map_map]
    refine List.map_congr_left fun j hj => ?_
    exact column_complement rows a.number j hrl (List.mem_range.mp hj)
  obtain ⟨f, hf⟩ : ∃ f, interp1d a.sizes (chaosPodRow S a.number a.sizes S.coefs w) = .ok f := ⟨_, by rw [interp1d, if_pos (hlen _ w hw.1 hw.2).symm]⟩
  obtain ⟨f', hf', hff⟩ := interp1d_mirror hf
  obtain ⟨g, hg⟩ : ∃ g, interp1d a.sizes ((columnsOf rows a.number).map fun col => quantile col (1 - (1 - level))) = .ok g :=
    ⟨_, by rw [interp1d, if_pos (by simp [columnsOf, hnum])]⟩
  obtain ⟨g', hg', hgg⟩ := interp1d_mirror hg
  have eq : (((columnsOf rows a.number).map fun c => c.map (1 - ·)).map fun col => quantile col (1 - level))
      = ((columnsOf rows a.number).map fun col => quantile col (1 - (1 - level))).map (1 - ·) := by
    rw [List.map_map, List.map_map]
    refine List.map_congr_left fun c hcm => quantile_mirror c ?_ _
    rw [columnsOf, List.mem_map] at hcm
    obtain ⟨j, -, rfl⟩ := hcm
    simpa using hrne
  have r1 := chaosRun_eq S w sims a hnum hf
  have r2 := chaosRun_eq S' (opp w) sims' a hnum (f := f') (by rw [hrow0]; exact hf')
  refine ⟨f, f', g, g', by rw [r1], by rw [r2], ?_, ?_, hff, hgg⟩
  · rw [r1]
    change interp1d a.sizes ((columnsOf (sims.map _) _).map _) = _
    rw [← hr]
    exact hg
  · rw [r2]
    change interp1d a.sizes ((columnsOf (sims'.map _) _).map _) = _
    rw [hsims, hcols, eq]
    exact hg'

/-- Two points, one trajectory, two values drawn from its law. -/
example : ProperDraws (X := ℝ) (fun p => p.1 + p.2) (fun _ => 4) 2 1 ⟨[0, 3], [1 / 4], [(0, 1), (0, -1)]⟩ := by
  refine ⟨by simp, by simp, by simp, ?_⟩
  have : Real.sqrt 4 = 2 := by rw [show (4 : ℝ) = 2 ^ 2 by norm_num]; exact Real.sqrt_sq (by norm_num)
  norm_num [krigTrajectory, mergeDefectInX, this]

/-- A chaos with two functions, one size, two points. -/
example : NoTie (X := Unit) (U := ℝ) ⟨(0, ()), fun p => p.1, [fun _ => 1, fun x => x], [1, 2], 1, 2, 4⟩ [1] [1, 2] ⟨[(), ()], [1 / 2, 3 / 2]⟩ := by
  intro j hj i hi
  obtain rfl : j = 0 := by simpa using hj
  have : i = 0 ∨ i = 1 := by simp only [List.length_cons, List.length_nil] at hi; omega
  rcases this with rfl | rfl <;> norm_num [chaosFunction]

/-- The quantile of three complements. -/
example : quantile ([0.2, 0.9, 0.5].map (1 - ·)) 0.05 = 1 - quantile [0.2, 0.9, 0.5] (1 - 0.05) := quantile_mirror _ (by simp) _

end Verif.Props
