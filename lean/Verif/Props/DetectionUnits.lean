import Verif.Props.ChaosUnits
import Verif.Props.KrigCurveUnits
import Verif.Props.GridRefine

/-!
# C231: the detection sizes of the metamodels in other units

C227 and C228 compare the curves.  Here `computeDetectionSize` (_kriging_tools.py 59-77, same text in _polynomial_chaos_pod.py) is applied to both runs.
-/

namespace Verif.Props

open Verif.Py Verif.Model Set Matrix

/-- The size in the new unit, with the same label, or the same exception. -/
def sizesInUnits (k c : ℝ) (r : Res (List ℝ × List String)) : Res (List ℝ × List String) := r.map fun q => (q.1.map (k * · + c), q.2)

/-- Interpolated curves are continuous between the first and the last size. -/
theorem interp_total (xs ys : List ℝ) (hlen : xs.length = ys.length) (hne : xs ≠ []) (hinc : xs.Pairwise (· < ·)) (r : ℝ → Res ℝ)
    (hr : interp1d xs ys = .ok r) (model : ℝ → ℝ)
    (hm : ∀ t ∈ Icc (xs.getD 0 0) (xs.getD (xs.length - 1) 0), r t = .ok (model t)) :
    ContinuousOn model (Icc (xs.getD 0 0) (xs.getD (xs.length - 1) 0)) := by
  cases xs with
  | nil => exact absurd rfl hne
  | cons x xs =>
  cases ys with
  | nil => simp at hlen
  | cons y ys =>
  have hlt : ((x :: xs).zip (y :: ys)).Pairwise (fun a b => a.1 < b.1) := by
    have h := hinc
    rw [← List.map_fst_zip (l₁ := x :: xs) (l₂ := y :: ys) (by rw [hlen]), List.pairwise_map] at h
    exact h
  have hreq : r = interpEval ((x :: xs).zip (y :: ys)) := by
    rw [interp1d, if_pos hlen, sortPts_of_sorted (hlt.imp fun h => h.le), Except.ok.injEq] at hr
    exact hr.symm
  refine ((interpGo_continuousOn _ _ hlt).mono fun t ht => ht.1).congr fun t ht => ?_
  have h := hm t ht
  rw [hreq, List.zip_cons_cons] at h
  unfold interpEval at h
  dsimp only at h
  split at h
  · cases h
  · split at h
    · cases h
    · exact (Except.ok.inj h).symm

/-- The values that a run with matching sizes interpolates. -/
theorem krig_interp (rows : ℕ) (sim : ℕ → ℝ → List ℝ) (s : SimAttrs) (hnum : s.number = s.sizes.length) (c : ℝ) (f g : ℝ → Res ℝ)
    (hf : (krigingRunSim rows sim s).2.curve = some f) (hg : getPODCLModel (krigingRunSim rows sim s).2 c = .ok g) :
    (∃ ys, s.sizes.length = ys.length ∧ interp1d s.sizes ys = .ok f) ∧ ∃ ys, s.sizes.length = ys.length ∧ interp1d s.sizes ys = .ok g := by
  have hex : ∃ r, interp1d s.sizes ((s.sizes.mapIdx sim).map listMean) = .ok r := ⟨_, by rw [interp1d, if_pos (by simp)]⟩
  obtain ⟨r, hr⟩ := hex
  rw [krigRun_eq rows sim s hnum hr] at hf hg
  refine ⟨⟨_, by simp, hr.trans (congrArg _ (Option.some.inj hf))⟩, ⟨_, ?_, hg⟩⟩
  simp

theorem chaos_interp {X U : Type} (S : ChaosSetup X U) (w : ChaosDraws X) (sims : List (List ℝ × ChaosDraws X)) (s : SimAttrs)
    (hnum : s.number = s.sizes.length) (c : ℝ) (f g : ℝ → Res ℝ)
    (hf : (chaosRunSim S w sims s).2.curve = some f) (hg : getPODCLModel (chaosRunSim S w sims s).2 c = .ok g)
    (hex : ∃ r, interp1d s.sizes (chaosPodRow S s.number s.sizes S.coefs w) = .ok r) :
    (∃ ys, s.sizes.length = ys.length ∧ interp1d s.sizes ys = .ok f) ∧ ∃ ys, s.sizes.length = ys.length ∧ interp1d s.sizes ys = .ok g := by
  have hlen : ∀ ys h, interp1d s.sizes ys = .ok h → s.sizes.length = ys.length := by
    intro ys h hh
    by_contra hne
    rw [interp1d, if_neg hne] at hh
    cases hh
  obtain ⟨r, hr⟩ := hex
  rw [chaosRun_eq S w sims s hnum hr] at hf hg
  exact ⟨⟨_, hlen _ _ hr, hr.trans (congrArg _ (Option.some.inj hf))⟩, ⟨_, hlen _ _ hg, hg⟩⟩

/-- Two continuous curves which are the same in two units, and take the level at most once: the search gives the same size in both units. -/
theorem detection_units (solve : (ℝ → ℝ) → ℝ → ℝ → ℝ → ℝ) (hs : SolveSpec solve) (d1 d2 d1' d2' k c : ℝ) (hk : 0 < k) (mn mx : ℝ) (hmm : mn ≤ mx)
    (model model' : ℝ → ℝ) (modelCl modelCl' : ℝ → ℝ → ℝ) (level p : ℝ)
    (hf : ContinuousOn model (Icc mn mx)) (hg : ContinuousOn (modelCl level) (Icc mn mx))
    (hff : ∀ x ∈ Icc mn mx, model' (k * x + c) = model x) (hgg : ∀ x ∈ Icc mn mx, modelCl' level (k * x + c) = modelCl level x)
    (h1 : ∀ x ∈ Icc mn mx, ∀ x' ∈ Icc mn mx, model x = p → model x' = p → x = x')
    (h2 : ∀ x ∈ Icc mn mx, ∀ x' ∈ Icc mn mx, modelCl level x = p → modelCl level x' = p → x = x') :
    sizesDetection solve d1' d2' (k * mn + c) (k * mx + c) model' modelCl' p none = sizesInUnits k c (sizesDetection solve d1 d2 mn mx model modelCl p none) ∧
    sizesDetection solve d1' d2' (k * mn + c) (k * mx + c) model' modelCl' p (some level) =
      sizesInUnits k c (sizesDetection solve d1 d2 mn mx model modelCl p (some level)) := by
  have hmn : mn ∈ Icc mn mx := ⟨le_rfl, hmm⟩
  have hmx : mx ∈ Icc mn mx := ⟨hmm, le_rfl⟩
  have key : ∀ F F' : ℝ → ℝ, ContinuousOn F (Icc mn mx) → (∀ x ∈ Icc mn mx, F' (k * x + c) = F x) →
      (∀ x ∈ Icc mn mx, ∀ x' ∈ Icc mn mx, F x = p → F x' = p → x = x') → F mn ≤ p → p ≤ F mx →
      solve F' p (k * mn + c) (k * mx + c) = k * solve F p mn mx + c := by
    intro F F' hF hFF hu hlo hhi
    have hcont : ContinuousOn F' (Icc (k * mn + c) (k * mx + c)) := by
      have hmaps : MapsTo (fun u => (u - c) / k) (Icc (k * mn + c) (k * mx + c)) (Icc mn mx) := by
        intro u hu
        constructor
        · rw [le_div_iff₀ hk]; linarith [hu.1]
        · rw [div_le_iff₀ hk]; linarith [hu.2]
      have hc : ContinuousOn (fun u : ℝ => (u - c) / k) (Icc (k * mn + c) (k * mx + c)) := by fun_prop
      refine (hF.comp hc hmaps).congr fun u hu => ?_
      have e : k * ((u - c) / k) + c = u := by field_simp; ring
      have := hFF _ (hmaps hu)
      rw [e] at this
      exact this
    obtain ⟨i1, i2⟩ := hs F p mn mx hmm hF hlo hhi
    obtain ⟨j1, j2⟩ := hs F' p (k * mn + c) (k * mx + c) (by nlinarith) hcont (by rw [hFF _ hmn]; exact hlo) (by rw [hFF _ hmx]; exact hhi)
    set u := solve F' p (k * mn + c) (k * mx + c)
    have hu' : (u - c) / k ∈ Icc mn mx := by
      constructor
      · rw [le_div_iff₀ hk]; linarith [j1.1]
      · rw [div_le_iff₀ hk]; linarith [j1.2]
    have e : k * ((u - c) / k) + c = u := by field_simp; ring
    have e2 : F ((u - c) / k) = p := by rw [← hFF _ hu', e]; exact j2
    rw [hu _ i1 _ hu' i2 e2, e]
  constructor
  · simp only [sizesDetection, computeDetectionSize, Option.getD_some, hff _ hmn, hff _ hmx]
    by_cases hb : model mn ≤ p ∧ p ≤ model mx
    · rw [if_neg (by simpa using hb), if_neg (by simpa using hb), key model model' hf hff h1 hb.1 hb.2]
      rfl
    · rw [if_pos hb, if_pos hb]; rfl
  · simp only [sizesDetection, computeDetectionSize, Option.getD_some, Option.map_some, hff _ hmn, hff _ hmx, hgg _ hmn, hgg _ hmx]
    by_cases hb : model mn ≤ p ∧ p ≤ model mx
    · have n1 : ¬ ¬ (model mn ≤ p ∧ p ≤ model mx) := not_not.mpr hb
      rw [if_neg n1, if_neg n1]
      by_cases hb2 : modelCl level mn ≤ p ∧ p ≤ modelCl level mx
      · have n2 : ¬ ¬ (modelCl level mn ≤ p ∧ p ≤ modelCl level mx) := not_not.mpr hb2
        rw [if_neg n2, if_neg n2, key model model' hf hff h1 hb.1 hb.2,
          key (modelCl level) (modelCl' level) hg hgg h2 hb2.1 hb2.2]
        rfl
      · rw [if_pos hb2, if_pos hb2]; rfl
    · rw [if_pos hb, if_pos hb]; rfl

/-- From the curves of two runs to the sizes. -/
theorem curves_detection (solve : (ℝ → ℝ) → ℝ → ℝ → ℝ → ℝ) (hs : SolveSpec solve) (d1 d2 d1' d2' k c : ℝ) (hk : 0 < k) (sizes sizes' : List ℝ) (hne : sizes ≠ [])
    (hinc : sizes.Pairwise (· < ·)) (hsizes : sizes' = sizes.map (k * · + c)) (f f' g g' : ℝ → Res ℝ)
    (hf : ∃ ys, sizes.length = ys.length ∧ interp1d sizes ys = .ok f) (hg : ∃ ys, sizes.length = ys.length ∧ interp1d sizes ys = .ok g)
    (hff : ∀ x, f' (k * x + c) = f x) (hgg : ∀ x, g' (k * x + c) = g x) (model model' : ℝ → ℝ) (modelCl modelCl' : ℝ → ℝ → ℝ) (level p : ℝ)
    (hm : ∀ x ∈ Icc (sizes.getD 0 0) (sizes.getD (sizes.length - 1) 0), f x = .ok (model x) ∧ g x = .ok (modelCl level x))
    (hm' : ∀ x ∈ Icc (sizes'.getD 0 0) (sizes'.getD (sizes'.length - 1) 0), f' x = .ok (model' x) ∧ g' x = .ok (modelCl' level x))
    (h1 : ∀ x x', f x = .ok p → f x' = .ok p → x = x') (h2 : ∀ x x', g x = .ok p → g x' = .ok p → x = x') (o : Option ℝ) (ho : o = none ∨ o = some level) :
    sizesDetection solve d1' d2' (sizes'.getD 0 0) (sizes'.getD (sizes'.length - 1) 0) model' modelCl' p o =
      sizesInUnits k c (sizesDetection solve d1 d2 (sizes.getD 0 0) (sizes.getD (sizes.length - 1) 0) model modelCl p o) := by
  have hpos := List.length_pos_iff.mpr hne
  have hget : ∀ i, i < sizes.length → sizes'.getD i 0 = k * sizes.getD i 0 + c := by
    intro i hi
    rw [hsizes, List.getD_eq_getElem _ _ (by simpa using hi), List.getD_eq_getElem _ _ hi, List.getElem_map]
  have hl : sizes'.length = sizes.length := by rw [hsizes, List.length_map]
  rw [hl, hget 0 hpos, hget _ (by omega)] at hm' ⊢
  have hmm : sizes.getD 0 0 ≤ sizes.getD (sizes.length - 1) 0 := getD_mono (hinc.imp fun h => h.le) (Nat.zero_le _) (by omega)
  obtain ⟨ys, l1, e1⟩ := hf
  obtain ⟨zs, l2, e2⟩ := hg
  have hmap : ∀ x ∈ Icc (sizes.getD 0 0) (sizes.getD (sizes.length - 1) 0),
      k * x + c ∈ Icc (k * sizes.getD 0 0 + c) (k * sizes.getD (sizes.length - 1) 0 + c) := by
    intro x hx
    exact ⟨by nlinarith [hx.1], by nlinarith [hx.2]⟩
  obtain ⟨a1, a2⟩ := detection_units solve hs d1 d2 d1' d2' k c hk _ _ hmm model model' modelCl modelCl' level p
    (interp_total sizes ys l1 hne hinc f e1 model fun x hx => (hm x hx).1) (interp_total sizes zs l2 hne hinc g e2 _ fun x hx => (hm x hx).2)
    (fun x hx => by
      have := (hm' _ (hmap x hx)).1
      rw [hff, (hm x hx).1] at this
      exact (Except.ok.inj this).symm)
    (fun x hx => by
      have := (hm' _ (hmap x hx)).2
      rw [hgg, (hm x hx).2] at this
      exact (Except.ok.inj this).symm)
    (fun x hx x' hx' e e' => h1 x x' (by rw [(hm x hx).1, e]) (by rw [(hm x' hx').1, e']))
    (fun x hx x' hx' e e' => h2 x x' (by rw [(hm x hx).2, e]) (by rw [(hm x' hx').2, e']))
  rcases ho with rfl | rfl
  · exact a1
  · exact a2

variable {X X' U : Type}

/-- **C231, polynomial chaos.**  In the setting of C227 (other units of the defects, of the parameters, of the signals and of the threshold, the same random
draws), `computeDetectionSize` gives in both systems of units the same exception, or the same labels with the sizes converted, with and without
confidence level.  `model`, `modelCl` are the values of the two curves on the range of the sizes; the level is taken at most once by each curve. -/
theorem C231_chaos {m : ℕ} (zero : ℝ × X) (zero' : ℝ × X') (T : ℝ × X → U) (T' : ℝ × X' → U) (φ : Fin m → U → ℝ) (det : ℝ) (N : ℕ) (z : ℕ → ℝ × X)
    (y : ℕ → ℝ) (k c : ℝ) (hk : 0 < k) (e : X → X') (hT : ∀ p, T' (convert k c e p) = T p) (s t : ℝ) (hs : 0 < s)
    (ht : t = 0 ∨ ∃ one, HasConstant φ one)
    (hG : IsUnit ((basisMatrix (fun j w => φ j (T w)) N z)ᵀ * basisMatrix (fun j w => φ j (T w)) N z).det) (n : ℕ) (a a' : SimAttrs)
    (hnum : a.number = a.sizes.length) (hnum' : a'.number = a.number) (hsizes : a'.sizes = a.sizes.map (k * · + c))
    (hne : a.sizes ≠ []) (hinc : a.sizes.Pairwise (· < ·))
    (w : ChaosDraws X) (hw : w.xs.length = n ∧ w.noise.length = n * a.sizes.length)
    (u : ℝ) (v : ℕ → Fin m → ℝ) (ws : List (ChaosDraws X)) (hws : ∀ q ∈ ws, q.xs.length = n ∧ q.noise.length = n * a.sizes.length) (level p : ℝ)
    (solve : (ℝ → ℝ) → ℝ → ℝ → ℝ → ℝ) (hso : SolveSpec solve) (d1 d2 d1' d2' : ℝ) (model model' : ℝ → ℝ) (modelCl modelCl' : ℝ → ℝ → ℝ) :
    let S := { fittedChaos zero T φ det N z y with samplingSize := n }
    let S' := { fittedChaos zero' T' φ (s * det + t) N (fun i => convert k c e (z i)) (fun i => s * y i + t) with samplingSize := n }
    let sims := ws.mapIdx fun q d => (List.ofFn (chaosDraw (lsCoefs (basisMatrix (fun j w => φ j (T w)) N z) fun i => y i)
      (fun _ => u * ((N : ℝ) - m - 1) * S.stderr ^ 2) v q), d)
    let sims' := ws.mapIdx fun q d => (List.ofFn (chaosDraw (lsCoefs (basisMatrix (fun j w => φ j (T' w)) N fun i => convert k c e (z i)) fun i => s * y i + t)
      (fun _ => u * ((N : ℝ) - m - 1) * S'.stderr ^ 2) v q), (⟨d.xs.map e, d.noise⟩ : ChaosDraws X'))
    let run := chaosRunSim S w sims a
    let run' := chaosRunSim S' ⟨w.xs.map e, w.noise⟩ sims' a'
    let mn := a.sizes.getD 0 0
    let mx := a.sizes.getD (a.sizes.length - 1) 0
    let mn' := a'.sizes.getD 0 0
    let mx' := a'.sizes.getD (a'.sizes.length - 1) 0
    ∀ f f' g g', run.2.curve = some f → run'.2.curve = some f' → getPODCLModel run.2 level = .ok g → getPODCLModel run'.2 level = .ok g' →
      (∀ x ∈ Icc mn mx, f x = .ok (model x) ∧ g x = .ok (modelCl level x)) →
      (∀ x ∈ Icc mn' mx', f' x = .ok (model' x) ∧ g' x = .ok (modelCl' level x)) →
      (∀ x x', f x = .ok p → f x' = .ok p → x = x') → (∀ x x', g x = .ok p → g x' = .ok p → x = x') →
      ∀ o, o = none ∨ o = some level →
        sizesDetection solve d1' d2' mn' mx' model' modelCl' p o = sizesInUnits k c (sizesDetection solve d1 d2 mn mx model modelCl p o) := by
  intro S S' sims sims' run run' mn mx mn' mx' f f' g g' hf hf' hg hg' hm hm' h1 h2 o ho
  obtain ⟨F, F', G, G', c1, c2, c3, c4, c5, c6⟩ := C227_curves zero zero' T T' φ det N z y k c hk e hT s t hs ht hG n a a' hnum hnum' hsizes w hw u v ws hws level
  have q1 : F = f := Option.some.inj (c1.symm.trans hf)
  have q2 : F' = f' := Option.some.inj (c2.symm.trans hf')
  have q3 : G = g := Except.ok.inj (c3.symm.trans hg)
  have q4 : G' = g' := Except.ok.inj (c4.symm.trans hg')
  subst q1 q2 q3 q4
  have hex : ∃ r, interp1d a.sizes (chaosPodRow S a.number a.sizes S.coefs w) = .ok r := by
    have hl : a.sizes.length = (chaosPodRow S a.number a.sizes S.coefs w).length := by
      rw [hnum, chaosRow_eq S a.sizes S.coefs w hw.1 hw.2]
      simp
    exact ⟨_, by rw [interp1d, if_pos hl]⟩
  obtain ⟨i1, i2⟩ := chaos_interp S w sims a hnum level F G hf hg hex
  exact curves_detection solve hso d1 d2 d1' d2' k c hk a.sizes a'.sizes hne hinc hsizes F F' G G' i1 i2 c5 c6 model model' modelCl modelCl' level p hm hm'
    h1 h2 o ho

/-- **C231, kriging.**  In the setting of C228 (other units and origins of the inputs, of the signals and of the threshold, the same random draws),
`computeDetectionSize` gives in both systems of units the same exception, or the same labels with the sizes converted, with and without confidence
level.  `model`, `modelCl` are the values of the two curves on the range of the sizes; the level is taken at most once by each curve. -/
theorem C231_kriging {n q d : ℕ} (r : (Fin (d + 1) → ℝ) → (Fin (d + 1) → ℝ) → ℝ) (f : (Fin (d + 1) → ℝ) → Fin q → ℝ) (one : Fin q → ℝ)
    (hone : ∀ x, f x ⬝ᵥ one = 1) (hn : n ≠ 0) (sample : Fin n → Fin (d + 1) → ℝ) (y : Fin n → ℝ) (a b : Fin (d + 1) → ℝ) (ha : ∀ j, 0 < a j)
    (h1 : ∀ j, 1e-12 < Real.sqrt (svar fun i => sample i j)) (h2 : ∀ j, 1e-12 < a j * Real.sqrt (svar fun i => sample i j))
    (s t : ℝ) (hs : 0 < s)
    (hS : IsUnit (borderedMatrix (krigK r fun i => normalise sample (sample i)) (krigF f fun i => normalise sample (sample i))).det)
    (det : ℝ) (rows : ℕ) (w : ℕ → KrigDraws (Fin d → ℝ)) (σ σ' : SimAttrs) (hnum : σ.number = σ.sizes.length) (hnum' : σ'.number = σ.number)
    (hsizes : σ'.sizes = σ.sizes.map (a 0 * · + b 0)) (hne : σ.sizes ≠ []) (hinc : σ.sizes.Pairwise (· < ·)) (level p : ℝ)
    (solve : (ℝ → ℝ) → ℝ → ℝ → ℝ → ℝ) (hso : SolveSpec solve) (d1 d2 d1' d2' : ℝ) (model model' : ℝ → ℝ) (modelCl modelCl' : ℝ → ℝ → ℝ) :
    let sample' := fun i => rescale a b (sample i)
    let y' := fun i => s * y i + t
    let τ := krigAmplitude (krigK r fun i => normalise sample (sample i)) (krigF f fun i => normalise sample (sample i)) y
    let τ' := krigAmplitude (krigK r fun i => normalise sample' (sample' i)) (krigF f fun i => normalise sample' (sample' i)) y'
    let w' : ℕ → KrigDraws (Fin d → ℝ) := fun i => ⟨(w i).xs.map (rescale (Fin.tail a) (Fin.tail b)), (w i).xi, (w i).mix⟩
    let run := krigingDesignRun (fun u v => τ * r u v) f sample y det rows w σ
    let run' := krigingDesignRun (fun u v => τ' * r u v) f sample' y' (s * det + t) rows w' σ'
    let mn := σ.sizes.getD 0 0
    let mx := σ.sizes.getD (σ.sizes.length - 1) 0
    let mn' := σ'.sizes.getD 0 0
    let mx' := σ'.sizes.getD (σ'.sizes.length - 1) 0
    τ ≠ 0 → ∀ F F' G G', run.2.curve = some F → run'.2.curve = some F' → getPODCLModel run.2 level = .ok G → getPODCLModel run'.2 level = .ok G' →
      (∀ x ∈ Icc mn mx, F x = .ok (model x) ∧ G x = .ok (modelCl level x)) →
      (∀ x ∈ Icc mn' mx', F' x = .ok (model' x) ∧ G' x = .ok (modelCl' level x)) →
      (∀ x x', F x = .ok p → F x' = .ok p → x = x') → (∀ x x', G x = .ok p → G x' = .ok p → x = x') →
      ∀ o, o = none ∨ o = some level →
        sizesDetection solve d1' d2' mn' mx' model' modelCl' p o = sizesInUnits (a 0) (b 0) (sizesDetection solve d1 d2 mn mx model modelCl p o) := by
  intro sample' y' τ τ' w' run run' mn mx mn' mx' hτ F F' G G' hf hf' hg hg' hm hm' k1 k2 o ho
  obtain ⟨f1, f2, f3, f4, c1, c2, c3, c4, c5, c6⟩ := C228_curves r f one hone hn sample y a b ha h1 h2 s t hs hS det rows w σ σ' hnum hnum' hsizes level hτ
  have q1 : f1 = F := Option.some.inj (c1.symm.trans hf)
  have q2 : f2 = F' := Option.some.inj (c2.symm.trans hf')
  have q3 : f3 = G := Except.ok.inj (c3.symm.trans hg)
  have q4 : f4 = G' := Except.ok.inj (c4.symm.trans hg')
  subst q1 q2 q3 q4
  obtain ⟨i1, i2⟩ := krig_interp rows _ σ hnum level f1 f3 hf hg
  exact curves_detection solve hso d1 d2 d1' d2' (a 0) (b 0) (ha 0) σ.sizes σ'.sizes hne hinc hsizes f1 f2 f3 f4 i1 i2 c5 c6 model model' modelCl modelCl'
    level p hm hm' k1 k2 o ho

/-- A curve from 0 at 1 mm to 1 at 3 mm, and in inches from another origin: the size of the level 0.9 is converted, for every correct solver. -/
example (solve : (ℝ → ℝ) → ℝ → ℝ → ℝ → ℝ) (hs : SolveSpec solve) :
    sizesDetection solve 0 0 (1 / 25.4 * 1 + 2) (1 / 25.4 * 3 + 2) (fun x => (25.4 * (x - 2) - 1) / 2) (fun _ x => (25.4 * (x - 2) - 1) / 4) 0.9 none =
      sizesInUnits (1 / 25.4) 2 (sizesDetection solve 0 0 1 3 (fun x => (x - 1) / 2) (fun _ x => (x - 1) / 4) 0.9 none) :=
  (detection_units solve hs 0 0 0 0 (1 / 25.4) 2 (by norm_num) 1 3 (by norm_num) _ _ (fun _ x => (x - 1) / 4) (fun _ x => (25.4 * (x - 2) - 1) / 4) 0.95 0.9
    (by fun_prop) (by fun_prop) (fun x _ => by ring) (fun x _ => by ring) (fun x _ x' _ e e' => by linarith) fun x _ x' _ e e' => by linarith).1

end Verif.Props
