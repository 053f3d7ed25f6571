import Verif.Props.ClassifierError
import Verif.Props.Threshold
import Verif.Props.OtherSizes

/-!
# C222: an error of the chaos metamodel acts like a change of the detection threshold
-/

namespace Verif.Props
open Verif.Py Verif.Model

variable {X U V : Type}

/-- One row of POD values. -/
theorem chaosRow_eq (S : ChaosSetup X U) (sizes coefs : List ℝ) (d : ChaosDraws X) (h1 : d.xs.length = S.samplingSize)
    (h2 : d.noise.length = S.samplingSize * sizes.length) :
    chaosPodRow S sizes.length sizes coefs d = sizes.mapIdx fun j a =>
      (((d.xs.mapIdx fun k x => chaosFunction S.transformation S.basis coefs (a, x) +
        (d.noise.map (· * S.stderr)).getD (S.samplingSize * j + k) 0).countP fun y => decide (S.detection < y) : ℕ) : ℝ) / S.samplingSize := by
  rw [chaosPodRow, ← h1, C36_chaos_layout _ _ _ _ _ _ (by simpa [h1] using h2)]

/-- Number of values above a threshold: it grows when the distances to the threshold grow. -/
theorem countP_shift (l : List X) (u v : ℕ → X → ℝ) (τ σ : ℝ) (h : ∀ k, ∀ x ∈ l, u k x - τ ≤ v k x - σ) :
    (l.mapIdx u).countP (fun y => decide (τ < y)) ≤ (l.mapIdx v).countP fun y => decide (σ < y) := by
  induction l generalizing u v with
  | nil => simp
  | cons x l ih =>
    rw [List.mapIdx_cons, List.mapIdx_cons, List.countP_cons, List.countP_cons]
    have h0 := h 0 x List.mem_cons_self
    have ih' := ih (fun k => u (k + 1)) (fun k => v (k + 1)) fun k y hy => h (k + 1) y (List.mem_cons_of_mem _ hy)
    refine Nat.add_le_add ih' ?_
    by_cases hu : τ < u 0 x
    · have : σ < v 0 x := by linarith
      simp [hu, this]
    · simp [hu]

/-- The rows with two metamodels are ordered when the distances to the thresholds are. -/
theorem chaosRow_le (S : ChaosSetup X U) (T : ChaosSetup X V) (sizes cS cT : List ℝ) (hn : T.samplingSize = S.samplingSize) (he : T.stderr = S.stderr)
    (d : ChaosDraws X) (h1 : d.xs.length = S.samplingSize) (h2 : d.noise.length = S.samplingSize * sizes.length)
    (h : ∀ a ∈ sizes, ∀ x ∈ d.xs, chaosFunction T.transformation T.basis cT (a, x) - T.detection ≤
      chaosFunction S.transformation S.basis cS (a, x) - S.detection) :
    List.Forall₂ (· ≤ ·) (chaosPodRow T sizes.length sizes cT d) (chaosPodRow S sizes.length sizes cS d) := by
  rw [chaosRow_eq S sizes cS d h1 h2, chaosRow_eq T sizes cT d (h1.trans hn.symm) (by rw [hn]; exact h2), hn, he]
  rw [List.forall₂_iff_get]
  refine ⟨by simp, fun j h3 h4 => ?_⟩
  simp only [List.get_eq_getElem, List.getElem_mapIdx]
  refine div_le_div_of_nonneg_right ?_ (Nat.cast_nonneg _)
  norm_cast
  refine countP_shift d.xs _ _ _ _ fun k x hx => ?_
  have := h (sizes[j]'(by simpa using h3)) (List.getElem_mem _) x hx
  linarith

/-- Columns follow the rows. -/
theorem columns_le {rows rows' : List (List ℝ)} {n : ℕ} (h : List.Forall₂ (fun r r' => List.Forall₂ (· ≤ ·) r r') rows rows') (q : ℝ) :
    List.Forall₂ (· ≤ ·) ((columnsOf rows n).map fun col => quantile col q) ((columnsOf rows' n).map fun col => quantile col q) := by
  simp only [columnsOf, List.map_map]
  rw [List.forall₂_map_left_iff, List.forall₂_map_right_iff, List.forall₂_same]
  intro j _
  refine quantile_le ?_ q
  rw [List.forall₂_map_left_iff, List.forall₂_map_right_iff]
  refine h.imp fun r r' hr => ?_
  by_cases hj : j < r.length
  · rw [List.getD_eq_getElem _ _ hj, List.getD_eq_getElem _ _ (hr.length_eq ▸ hj)]
    exact (List.forall₂_iff_get.mp hr).2 j hj _
  · rw [List.getD_eq_default _ _ (by omega), List.getD_eq_default _ _ (by rw [← hr.length_eq]; omega)]

/-- What a run with the signal `g` itself in place of the metamodel would use, for the threshold `τ`. -/
def exactSetup (S : ChaosSetup X U) (g : ℝ × X → ℝ) (τ : ℝ) : ChaosSetup X (ℝ × X) :=
  { zero := S.zero, transformation := id, basis := [g], coefs := [1], stderr := S.stderr, samplingSize := S.samplingSize, detection := τ }

theorem exactSetup_fun (S : ChaosSetup X U) (g : ℝ × X → ℝ) (τ : ℝ) (p : ℝ × X) :
    chaosFunction (exactSetup S g τ).transformation (exactSetup S g τ).basis [1] p = g p := by
  simp [chaosFunction, exactSetup]

/-- Draws fit the sizes of the run. -/
def DrawsFit (S : ChaosSetup X U) (sizes : List ℝ) (d : ChaosDraws X) : Prop :=
  d.xs.length = S.samplingSize ∧ d.noise.length = S.samplingSize * sizes.length

/-- Ordered metamodels give ordered runs. -/
theorem chaosRun_le (S : ChaosSetup X U) (T : ChaosSetup X V) (hn : T.samplingSize = S.samplingSize) (he : T.stderr = S.stderr) (s : SimAttrs)
    (hs : s.sizes.Pairwise (· < ·)) (hne : s.sizes ≠ []) (hnum : s.number = s.sizes.length) (w : ChaosDraws X) (hw : DrawsFit S s.sizes w)
    (sims : List (List ℝ × List ℝ × ChaosDraws X)) (hsims : ∀ q ∈ sims, DrawsFit S s.sizes q.2.2)
    (h : ∀ a ∈ s.sizes, ∀ x ∈ w.xs, chaosFunction T.transformation T.basis T.coefs (a, x) - T.detection ≤
      chaosFunction S.transformation S.basis S.coefs (a, x) - S.detection)
    (h' : ∀ q ∈ sims, ∀ a ∈ s.sizes, ∀ x ∈ q.2.2.xs, chaosFunction T.transformation T.basis q.2.1 (a, x) - T.detection ≤
      chaosFunction S.transformation S.basis q.1 (a, x) - S.detection) (level : ℝ) :
    ∃ f f' g g', (chaosRunSim S w (sims.map fun q => (q.1, q.2.2)) s).2.curve = some f ∧
      (chaosRunSim T w (sims.map fun q => (q.2.1, q.2.2)) s).2.curve = some f' ∧
      getPODCLModel (chaosRunSim S w (sims.map fun q => (q.1, q.2.2)) s).2 level = .ok g ∧
      getPODCLModel (chaosRunSim T w (sims.map fun q => (q.2.1, q.2.2)) s).2 level = .ok g' ∧
      ∀ a, s.sizes.getD 0 0 ≤ a → a ≤ s.sizes.getD (s.sizes.length - 1) 0 →
        (∃ v v', f a = .ok v ∧ f' a = .ok v' ∧ v' ≤ v) ∧ ∃ v v', g a = .ok v ∧ g' a = .ok v' ∧ v' ≤ v := by
  have hle := hs.imp fun {a b : ℝ} (h : a < b) => h.le
  have R := chaosRow_le S T s.sizes S.coefs T.coefs hn he w hw.1 hw.2 h
  obtain ⟨f, hf, -, -, -, hv, -⟩ := interp1d_spec s.sizes (chaosPodRow S s.number s.sizes S.coefs w)
    (by rw [hnum, chaosRow_eq S s.sizes _ w hw.1 hw.2]; simp) hne hs
  rw [← hnum] at R
  obtain ⟨f', hf', hlef⟩ := interp1d_le hle R hf
  have C : List.Forall₂ (fun r r' => List.Forall₂ (· ≤ ·) r r')
      ((sims.map fun q => (q.2.1, q.2.2)).map fun q => chaosPodRow T s.number s.sizes q.1 q.2)
      ((sims.map fun q => (q.1, q.2.2)).map fun q => chaosPodRow S s.number s.sizes q.1 q.2) := by
    rw [List.map_map, List.map_map, List.forall₂_map_left_iff, List.forall₂_map_right_iff, List.forall₂_same]
    intro q hq
    simp only [Function.comp_apply]
    rw [hnum]
    exact chaosRow_le S T s.sizes q.1 q.2.1 hn he q.2.2 (hsims q hq).1 (hsims q hq).2 (h' q hq)
  obtain ⟨g, hg, -, -, -, hvg, -⟩ := interp1d_spec s.sizes ((columnsOf ((sims.map fun q => (q.1, q.2.2)).map fun q =>
    chaosPodRow S s.number s.sizes q.1 q.2) s.number).map fun col => quantile col (1 - level)) (by simp [columnsOf, hnum]) hne hs
  obtain ⟨g', hg', hleg⟩ := interp1d_le hle (columns_le C (1 - level) (n := s.number)) hg
  have e1 : chaosRunSim S w (sims.map fun q => (q.1, q.2.2)) s = (.ok (), { s with curve := some f, perDefect := some (columnsOf
      ((sims.map fun q => (q.1, q.2.2)).map fun q => chaosPodRow S s.number s.sizes q.1 q.2) s.number) }) := by
    rw [chaosRunSim, if_neg (by omega), hf]
  have e2 : chaosRunSim T w (sims.map fun q => (q.2.1, q.2.2)) s = (.ok (), { s with curve := some f', perDefect := some (columnsOf
      ((sims.map fun q => (q.2.1, q.2.2)).map fun q => chaosPodRow T s.number s.sizes q.1 q.2) s.number) }) := by
    rw [chaosRunSim, if_neg (by omega), hf']
  refine ⟨f, f', g, g', by rw [e1], by rw [e2], by rw [e1, getPODCLModel]; exact hg, by rw [e2, getPODCLModel]; exact hg', fun a ha hb => ⟨?_, ?_⟩⟩
  · obtain ⟨v, hva, -⟩ := hv a ha hb
    obtain ⟨v', hv', hl⟩ := hlef a v hva
    exact ⟨v, v', hva, hv', hl⟩
  · obtain ⟨v, hva, -⟩ := hvg a ha hb
    obtain ⟨v', hv', hl⟩ := hleg a v hva
    exact ⟨v, v', hva, hv', hl⟩

/-- **C222, threshold.**  Let the metamodel, with the fitted coefficients and with every simulated vector of coefficients, be within `η` of
the signal `g` at the requested sizes and drawn parameters.  Over the whole range of sizes the POD and the curve at a confidence level lie
between those of the signal itself for the thresholds `detection + η` and `detection - η`, with the same draws. -/
theorem C222_threshold (S : ChaosSetup X U) (g : ℝ × X → ℝ) (η : ℝ) (s : SimAttrs) (hs : s.sizes.Pairwise (· < ·)) (hne : s.sizes ≠ [])
    (hnum : s.number = s.sizes.length) (w : ChaosDraws X) (hw : DrawsFit S s.sizes w) (sims : List (List ℝ × ChaosDraws X))
    (hsims : ∀ q ∈ sims, DrawsFit S s.sizes q.2)
    (h : ∀ a ∈ s.sizes, ∀ x ∈ w.xs, |chaosFunction S.transformation S.basis S.coefs (a, x) - g (a, x)| ≤ η)
    (h' : ∀ q ∈ sims, ∀ a ∈ s.sizes, ∀ x ∈ q.2.xs, |chaosFunction S.transformation S.basis q.1 (a, x) - g (a, x)| ≤ η) (level : ℝ) :
    let run := (chaosRunSim S w sims s).2
    let exact τ := (chaosRunSim (exactSetup S g τ) w (sims.map fun q => ([1], q.2)) s).2
    ∃ f f1 f2 c c1 c2, run.curve = some f ∧ (exact (S.detection + η)).curve = some f1 ∧ (exact (S.detection - η)).curve = some f2 ∧
      getPODCLModel run level = .ok c ∧ getPODCLModel (exact (S.detection + η)) level = .ok c1 ∧
      getPODCLModel (exact (S.detection - η)) level = .ok c2 ∧
      ∀ a, s.sizes.getD 0 0 ≤ a → a ≤ s.sizes.getD (s.sizes.length - 1) 0 →
        (∃ v v1 v2, f a = .ok v ∧ f1 a = .ok v1 ∧ f2 a = .ok v2 ∧ v1 ≤ v ∧ v ≤ v2) ∧
        ∃ v v1 v2, c a = .ok v ∧ c1 a = .ok v1 ∧ c2 a = .ok v2 ∧ v1 ≤ v ∧ v ≤ v2 := by
  intro run ex
  have m1 : ((sims.map fun q => (q.1, [(1 : ℝ)], q.2)).map fun q => (q.1, q.2.2)) = sims := by
    rw [List.map_map]; exact List.map_id sims
  have m2 : ((sims.map fun q => (q.1, [(1 : ℝ)], q.2)).map fun q => (q.2.1, q.2.2)) = sims.map fun q => ([1], q.2) := by simp
  have m3 : ((sims.map fun q => ([(1 : ℝ)], q.1, q.2)).map fun q => (q.1, q.2.2)) = sims.map fun q => ([1], q.2) := by simp
  have m4 : ((sims.map fun q => ([(1 : ℝ)], q.1, q.2)).map fun q => (q.2.1, q.2.2)) = sims := by
    rw [List.map_map]; exact List.map_id sims
  obtain ⟨f, f1, c, c1, a1, a2, a3, a4, a5⟩ := chaosRun_le S (exactSetup S g (S.detection + η)) rfl rfl s hs hne hnum w hw
    (sims.map fun q => (q.1, [1], q.2)) (fun q hq => by
      obtain ⟨q, hq', rfl⟩ := List.mem_map.mp hq
      exact hsims q hq') (fun a ha x hx => by
      change chaosFunction _ _ [1] _ - _ ≤ _
      rw [exactSetup_fun]
      have := (abs_le.mp (h a ha x hx)).1
      change g (a, x) - (S.detection + η) ≤ _
      linarith) (fun q hq a ha x hx => by
      obtain ⟨q, hq', rfl⟩ := List.mem_map.mp hq
      rw [exactSetup_fun]
      have := (abs_le.mp (h' q hq' a ha x hx)).1
      change g (a, x) - (S.detection + η) ≤ _
      dsimp only
      linarith) level
  obtain ⟨f2, f', c2, c', b1, b2, b3, b4, b5⟩ := chaosRun_le (exactSetup S g (S.detection - η)) S rfl rfl s hs hne hnum w hw
    (sims.map fun q => ([1], q.1, q.2)) (fun q hq => by
      obtain ⟨q, hq', rfl⟩ := List.mem_map.mp hq
      exact hsims q hq') (fun a ha x hx => by
      change _ ≤ chaosFunction _ _ [1] _ - _
      rw [exactSetup_fun]
      have := (abs_le.mp (h a ha x hx)).2
      change _ ≤ g (a, x) - (S.detection - η)
      linarith) (fun q hq a ha x hx => by
      obtain ⟨q, hq', rfl⟩ := List.mem_map.mp hq
      rw [exactSetup_fun]
      have := (abs_le.mp (h' q hq' a ha x hx)).2
      change _ ≤ g (a, x) - (S.detection - η)
      dsimp only
      linarith) level
  rw [m1] at a1 a3
  rw [m2] at a2 a4
  rw [m3] at b1 b3
  rw [m4] at b2 b4
  have ef : f' = f := by rw [a1] at b2; exact (Option.some.inj b2).symm
  have ec : c' = c := by rw [a3] at b4; exact (Except.ok.inj b4).symm
  subst ef ec
  refine ⟨_, f1, f2, _, c1, c2, a1, a2, b1, a3, a4, b3, fun a ha hb => ⟨?_, ?_⟩⟩
  · obtain ⟨v, v1, k1, k2, k3⟩ := (a5 a ha hb).1
    obtain ⟨v2, v', l1, l2, l3⟩ := (b5 a ha hb).1
    rw [k1, Except.ok.injEq] at l2
    subst l2
    exact ⟨v, v1, v2, k1, k2, l1, k3, l3⟩
  · obtain ⟨v, v1, k1, k2, k3⟩ := (a5 a ha hb).2
    obtain ⟨v2, v', l1, l2, l3⟩ := (b5 a ha hb).2
    rw [k1, Except.ok.injEq] at l2
    subst l2
    exact ⟨v, v1, v2, k1, k2, l1, k3, l3⟩

theorem countP_near (l : List X) (u v : ℕ → X → ℝ) (τ η : ℝ) (h : ∀ k, ∀ x ∈ l, |u k x - v k x| ≤ η) :
    |(((l.mapIdx u).countP fun y => decide (τ < y) : ℕ) : ℝ) - ((l.mapIdx v).countP fun y => decide (τ < y) : ℕ)| ≤
      ((l.mapIdx v).countP fun y => decide (|y - τ| ≤ η) : ℕ) := by
  induction l generalizing u v with
  | nil => simp
  | cons x l ih =>
    rw [List.mapIdx_cons, List.mapIdx_cons, List.countP_cons, List.countP_cons, List.countP_cons]
    have h0 := h 0 x List.mem_cons_self
    have ih' := ih (fun k => u (k + 1)) (fun k => v (k + 1)) fun k y hy => h (k + 1) y (List.mem_cons_of_mem _ hy)
    push_cast
    rw [abs_le] at ih' ⊢ h0
    by_cases hu : τ < u 0 x <;> by_cases hv : τ < v 0 x
    · simp only [hu, hv, decide_true, if_true]
      split_ifs <;> constructor <;> linarith [ih'.1, ih'.2]
    · have hn : |v 0 x - τ| ≤ η := by rw [abs_le]; constructor <;> linarith [h0.1, h0.2]
      simp only [hu, hv, hn, decide_true, decide_false, if_true, Bool.false_eq_true, if_false]
      constructor <;> linarith [ih'.1, ih'.2]
    · have hn : |v 0 x - τ| ≤ η := by rw [abs_le]; constructor <;> linarith [h0.1, h0.2]
      simp only [hu, hv, hn, decide_true, decide_false, if_true, Bool.false_eq_true, if_false]
      constructor <;> linarith [ih'.1, ih'.2]
    · simp only [hu, hv, decide_false, Bool.false_eq_true, if_false]
      split_ifs <;> constructor <;> linarith [ih'.1, ih'.2]

/-- **C222, distance.**  At a requested size the POD differs from that of the signal itself, with the same draws, by at most the share of the
draws whose signal is within `η` of the threshold. -/
theorem C222_near (S : ChaosSetup X U) (g : ℝ × X → ℝ) (η : ℝ) (s : SimAttrs) (hs : s.sizes.Pairwise (· < ·))
    (hnum : s.number = s.sizes.length) (w : ChaosDraws X) (hw : DrawsFit S s.sizes w) (sims sims' : List (List ℝ × ChaosDraws X)) (j : ℕ)
    (hj : j < s.sizes.length) (h : ∀ x ∈ w.xs, |chaosFunction S.transformation S.basis S.coefs (s.sizes[j], x) - g (s.sizes[j], x)| ≤ η) :
    ∃ f f' v v', (chaosRunSim S w sims s).2.curve = some f ∧ (chaosRunSim (exactSetup S g S.detection) w sims' s).2.curve = some f' ∧
      f s.sizes[j] = .ok v ∧ f' s.sizes[j] = .ok v' ∧
      |v - v'| ≤ (((w.xs.mapIdx fun k x => g (s.sizes[j], x) + (w.noise.map (· * S.stderr)).getD (S.samplingSize * j + k) 0).countP
        fun y => decide (|y - S.detection| ≤ η) : ℕ) : ℝ) / w.xs.length := by
  obtain ⟨f, hf, hfv⟩ := chaos_node S s hs hnum w sims hw.1 hw.2 j hj
  obtain ⟨f', hf', hfv'⟩ := chaos_node (exactSetup S g S.detection) s hs hnum w sims' hw.1 hw.2 j hj
  refine ⟨f, f', _, _, hf, hf', hfv, hfv', ?_⟩
  rw [← sub_div, abs_div, abs_of_nonneg (Nat.cast_nonneg w.xs.length : (0 : ℝ) ≤ w.xs.length)]
  refine div_le_div_of_nonneg_right ?_ (Nat.cast_nonneg _)
  have e : (exactSetup S g S.detection).coefs = [1] := rfl
  simp only [e, exactSetup_fun]
  exact countP_near w.xs _ _ _ _ fun k x hx => by
    have := h x hx
    change |_ + _ - (_ + (w.noise.map (· * S.stderr)).getD (S.samplingSize * j + k) 0)| ≤ η
    rwa [add_sub_add_right_eq_sub]

/-- The metamodel `2 a` for the signal `2 a + 1/2`, two sizes, one draw: the hypotheses of both theorems hold with `η = 1/2`. -/
example (e1 e2 : ℝ) (s : SimAttrs) (hs : s.sizes = [1, 2]) (hn : s.number = 2) :
    let S : ChaosSetup Unit ℝ := ⟨(0, ()), Prod.fst, [id], [2], 0, 1, 3⟩
    ∃ f f1 f2, (chaosRunSim S ⟨[()], [e1, e2]⟩ [([2], ⟨[()], [e2, e1]⟩)] s).2.curve = some f ∧
      (chaosRunSim (exactSetup S (fun q => 2 * q.1 + 1 / 2) (3 + 1 / 2)) ⟨[()], [e1, e2]⟩ [([1], ⟨[()], [e2, e1]⟩)] s).2.curve = some f1 ∧
      (chaosRunSim (exactSetup S (fun q => 2 * q.1 + 1 / 2) (3 - 1 / 2)) ⟨[()], [e1, e2]⟩ [([1], ⟨[()], [e2, e1]⟩)] s).2.curve = some f2 ∧
      ∃ v v1 v2, f (3 / 2) = .ok v ∧ f1 (3 / 2) = .ok v1 ∧ f2 (3 / 2) = .ok v2 ∧ v1 ≤ v ∧ v ≤ v2 := by
  intro S
  have hfun : ∀ a : ℝ, |chaosFunction S.transformation S.basis [2] (a, ()) - (2 * a + 1 / 2)| ≤ 1 / 2 := by
    intro a
    have : chaosFunction S.transformation S.basis [2] (a, ()) = 2 * a := by simp [chaosFunction, S]
    rw [this]
    norm_num [abs_of_nonneg]
  obtain ⟨f, f1, f2, c, c1, c2, h1, h2, h3, _, _, _, h⟩ := C222_threshold S (fun q => 2 * q.1 + 1 / 2) (1 / 2) s (by rw [hs]; norm_num) (by simp [hs])
    (by rw [hs, hn]; rfl) ⟨[()], [e1, e2]⟩ ⟨rfl, by rw [hs]; rfl⟩ [([2], ⟨[()], [e2, e1]⟩)] (by
      intro q hq
      rw [List.mem_singleton.mp hq]
      exact ⟨rfl, by rw [hs]; rfl⟩) (fun a _ _ _ => hfun a) (fun q hq a _ _ _ => by
      rw [List.mem_singleton.mp hq]
      exact hfun a) (19 / 20)
  exact ⟨f, f1, f2, h1, h2, h3, (h (3 / 2) (by rw [hs]; norm_num) (by rw [hs]; norm_num)).1⟩

end Verif.Props
