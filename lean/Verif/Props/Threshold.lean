import Verif.Model.Bootstrap
import Verif.Model.Metamodel
import Verif.Model.ChaosRun
import Verif.Props.Base
import Verif.Props.Binomial
import Verif.Props.GaussPOD
import Verif.Props.QuantileReg
import Verif.Props.MeanCurve
import Verif.Props.MonteCarlo

/-!
# C141, C142: influence of the detection threshold on the POD
-/

namespace Verif.Props
open Verif.Py Verif.Model MeasureTheory

/-- The transformed threshold exists for every larger threshold, and is larger. -/
theorem boxCox_larger {lam t t' y : ℝ} (h : boxCoxTransform lam t = .ok y) (ht : t ≤ t') :
    ∃ y', boxCoxTransform lam t' = .ok y' ∧ y ≤ y' := by
  have h0 : 0 < t := by
    rw [boxCoxTransform] at h
    split_ifs at h with h0
    exact h0
  have h' : boxCoxTransform lam t' = .ok (boxCoxFun lam t') := by rw [boxCoxTransform, if_pos (h0.trans_le ht)]
  exact ⟨_, h', ((C14_boxcox_preserves_decisions lam t t' y _ h h').2.1).mpr ht⟩

/-- The fitted line does not depend on the detection threshold; only the transformed threshold does. -/
theorem computeLinearModel_larger (fmax : ℝ) (env : LinEnv) (draws : ℕ → ℝ × ℝ × ℝ) (obs : List (ℝ × ℝ)) (det det' : ℝ)
    (noise sat : Option ℝ) (boxCox censored : Bool) (hdet : det ≤ det') (r : LinModelResult)
    (h : computeLinearModel fmax env draws obs det noise sat boxCox censored = .ok r) :
    ∃ t, r.detection ≤ t ∧
      computeLinearModel fmax env draws obs det' noise sat boxCox censored = .ok { r with detection := t } := by
  unfold computeLinearModel at h ⊢
  dsimp only at h ⊢
  generalize (if censored = true then uncensoredObs fmax obs noise sat else obs) = unc at *
  cases boxCox with
  | false =>
    simp only [Bool.false_eq_true, if_false] at h ⊢
    cases hf : linFit env draws censored unc (noiseDefects fmax obs noise) (satDefects fmax obs sat) noise sat with
    | error e => rw [hf] at h; simp at h
    | ok fit =>
      rw [hf] at h
      simp only [Except.ok.injEq] at h
      subst h
      exact ⟨det', hdet, rfl⟩
  | true =>
    simp only [if_true] at h ⊢
    cases hshift : boxCoxShift (unc.map Prod.snd) with
    | error e => rw [hshift] at h; simp at h
    | ok shift =>
      rw [hshift] at h
      dsimp only at h ⊢
      cases hb : env.boxCox (unc.map Prod.fst) (unc.map Prod.snd) shift with
      | error e => rw [hb] at h; simp at h
      | ok lam =>
        rw [hb] at h
        dsimp only at h ⊢
        cases hsig : boxCoxSample lam ((unc.map Prod.snd).map (· + shift)) with
        | error e => rw [hsig] at h; simp at h
        | ok signals =>
          rw [hsig] at h
          dsimp only at h ⊢
          cases hno : boxCoxThreshold lam shift (if censored then noise else none) with
          | error e => rw [hno] at h; simp at h
          | ok noise' =>
            rw [hno] at h
            dsimp only at h ⊢
            cases hsa : boxCoxThreshold lam shift (if censored then sat else none) with
            | error e => rw [hsa] at h; simp at h
            | ok sat' =>
              rw [hsa] at h
              dsimp only at h ⊢
              cases hd : boxCoxTransform lam (det + shift) with
              | error e => rw [hd] at h; simp at h
              | ok d1 =>
                rw [hd] at h
                dsimp only at h
                obtain ⟨d2, h2, h12⟩ := boxCox_larger hd (by linarith : det + shift ≤ det' + shift)
                rw [h2]
                dsimp only
                cases hf : linFit env draws censored ((unc.map Prod.fst).zip signals) (noiseDefects fmax obs noise)
                    (satDefects fmax obs sat) noise' sat' with
                | error e => rw [hf] at h; simp at h
                | ok fit =>
                  rw [hf] at h
                  simp only [Except.ok.injEq] at h
                  subst h
                  exact ⟨d2, h12, rfl⟩

/-- The empirical tail decreases. -/
theorem empiricalCCDF_antitone (rs : List ℝ) : Antitone (empiricalCCDF rs) := by
  intro t t' h
  unfold empiricalCCDF
  apply div_le_div_of_nonneg_right _ (Nat.cast_nonneg _)
  exact_mod_cast List.countP_mono_left fun r _ hr => by
    simp only [decide_eq_true_eq] at hr ⊢
    linarith

/-- Contract of the fitted laws: complementary distribution functions decrease. -/
def LawsDecrease (env : PodEnv) : Prop := ∀ name rs ccdf, env.fitLaw name rs = .ok ccdf → Antitone ccdf

/-- Bootstrap curves with a larger threshold. -/
theorem bootstrapColl_larger (fmax : ℝ) (env : PodEnv) (hlaw : LawsDecrease env) (d : PodData) (det' : ℝ)
    (hdet : d.detection ≤ det') (name : String) (ss : List (List (ℝ × ℝ) × (ℕ → ℝ × ℝ × ℝ))) (fs : List (ℝ → ℝ))
    (h : bootstrapColl fmax env d name ss = .ok fs) :
    ∃ fs', bootstrapColl fmax env { d with detection := det' } name ss = .ok fs' ∧
      List.Forall₂ (fun f' f => ∀ x, f' x ≤ f x) fs' fs := by
  induction ss generalizing fs with
  | nil =>
    simp only [bootstrapColl, Except.ok.injEq] at h ⊢
    subst h
    exact ⟨[], rfl, .nil⟩
  | cons s ss ih =>
    rw [bootstrapColl] at h ⊢
    rw [bootstrapModel] at h ⊢
    cases hm : computeLinearModel fmax env.lin s.2 s.1 d.detection d.noise d.sat d.boxCox d.censored with
    | error e => rw [hm] at h; simp at h
    | ok r =>
      rw [hm] at h
      dsimp only at h
      obtain ⟨t, ht, hm'⟩ := computeLinearModel_larger fmax env.lin s.2 s.1 d.detection det' d.noise d.sat d.boxCox d.censored hdet r hm
      cases hl : env.fitLaw name r.fit.residuals with
      | error e => rw [hl] at h; simp at h
      | ok ccdf =>
        rw [hl] at h
        dsimp only at h
        cases hc : bootstrapColl fmax env d name ss with
        | error e => rw [hc] at h; simp at h
        | ok fs0 =>
          rw [hc] at h
          simp only [Except.ok.injEq] at h
          subst h
          obtain ⟨fs', h1, h2⟩ := ih fs0 hc
          dsimp only
          rw [hm']
          dsimp only
          rw [hl]
          dsimp only
          rw [h1]
          refine ⟨_, rfl, .cons (fun x => ?_) h2⟩
          exact hlaw _ _ _ hl (by linarith)

/-- The quantile of the collected curves follows the order of the curves. -/
theorem podCl_larger {coll coll' : List (ℝ → ℝ)} (h : List.Forall₂ (fun f' f => ∀ x, f' x ≤ f x) coll' coll)
    (n : ℕ) (c x v : ℝ) (hv : podClFromCollection n coll c x = .ok v) :
    ∃ v', podClFromCollection n coll' c x = .ok v' ∧ v' ≤ v := by
  have key : ∀ (is : List ℕ) (vs : List ℝ), collectCurves coll x is = .ok vs →
      ∃ vs', collectCurves coll' x is = .ok vs' ∧ List.Forall₂ (· ≤ ·) vs' vs := by
    intro is
    induction is with
    | nil => intro vs hvs; simp only [collectCurves, Except.ok.injEq] at hvs ⊢; subst hvs; exact ⟨[], rfl, .nil⟩
    | cons i is ih =>
      intro vs hvs
      rw [collectCurves] at hvs ⊢
      cases hi : coll[i]? with
      | none => rw [hi] at hvs; simp at hvs
      | some f =>
        rw [hi] at hvs
        dsimp only at hvs
        cases hr : collectCurves coll x is with
        | error e => rw [hr] at hvs; simp at hvs
        | ok ws =>
          rw [hr] at hvs
          simp only [Except.ok.injEq] at hvs
          subst hvs
          obtain ⟨ws', h1, h2⟩ := ih ws hr
          obtain ⟨hlt, hf⟩ := List.getElem?_eq_some_iff.mp hi
          have hlt' : i < coll'.length := by rw [h.length_eq]; exact hlt
          rw [List.getElem?_eq_getElem hlt', h1]
          refine ⟨_, rfl, .cons ?_ h2⟩
          have := h.get hlt' hlt
          simp only [List.get_eq_getElem] at this
          rw [← hf]
          exact this x
  rw [podClFromCollection] at hv ⊢
  cases hc : collectCurves coll x (List.range n) with
  | error e => rw [hc] at hv; simp at hv
  | ok vs =>
    rw [hc] at hv
    dsimp only at hv
    split_ifs at hv with hne
    rw [Except.ok.injEq] at hv
    obtain ⟨vs', h1, h2⟩ := key _ _ hc
    rw [h1]
    have hne' : vs' ≠ [] := by
      rintro rfl
      exact hne (List.length_eq_zero_iff.mp h2.length_eq.symm)
    dsimp only
    rw [if_neg hne']
    exact ⟨_, rfl, by rw [← hv]; exact quantile_le h2 _⟩

/-- The lower bound of the binomial POD, as a function of the distance to the threshold. -/
theorem podBinomialCl_larger (qBeta : ℕ → ℕ → ℝ → ℝ) (hq : QBetaSpec qBeta) (rs : List ℝ) (hne : rs ≠ []) (det det' : ℝ)
    (hdet : det ≤ det') (lin : ℝ → ℝ) (c x : ℝ) (hc : 1 / 2 < c) (hc1 : c < 1) :
    podBinomialCl qBeta rs det' lin c x ≤ podBinomialCl qBeta rs det lin c x := by
  have hN : 0 < rs.length := List.length_pos_iff.mpr hne
  obtain ⟨N, r, hr⟩ : ∃ N, ∃ r : Fin N → ℝ, rs = List.ofFn r := ⟨_, rs.get, (List.ofFn_get rs).symm⟩
  subst hr
  rw [List.length_ofFn] at hN
  have e : ∀ t, podBinomialCl qBeta (List.ofFn r) t lin c x = podBinomialCl qBeta (List.ofFn r) 0 id c (lin x - t) := by
    intro t
    unfold podBinomialCl
    simp only [id, zero_sub, neg_sub]
  rw [e, e]
  have hle : numAbove r (0 - id (lin x - det')) ≤ numAbove r (0 - id (lin x - det)) := by
    unfold numAbove
    apply Finset.card_le_card
    intro i hi
    simp only [Finset.mem_filter, Finset.mem_univ, true_and, id] at hi ⊢
    linarith
  rcases hle.lt_or_eq with h | h
  · exact ((C21_confidence_curve_partial qBeta hq hN r 0 id c c (by linarith) hc1 hc1 (lin x - det') (lin x - det)).2.1 h (Or.inr hc)).le
  · rw [podBinomialCl_eq qBeta hN r, podBinomialCl_eq qBeta hN r, h]

/-- **C141 (linear model).**  Let a run of `UnivariateLinearModelPOD` succeed.  With the same data, the same random draws and a larger detection
threshold the run succeeds too, fits the same line, and its POD curve and its confidence curves are nowhere above the former ones — with or
without Box-Cox transformation and censoring, for every choice of the residual law.  (For the binomial POD the confidence level must
exceed one half, see C21.) -/
theorem C141_linear (fmax : ℝ) (env : PodEnv) (hlaw : LawsDecrease env) (qBeta : ℕ → ℕ → ℝ → ℝ) (hq : QBetaSpec qBeta) (d : PodData)
    (w : PodDraws) (hσ : ∀ z ∈ w.gauss, 0 < z.2.2) (det' : ℝ) (hdet : d.detection ≤ det') (s s' : PodRunAttrs)
    (hok : (linearPodRun fmax env d w s).1 = .ok ()) :
    let t := (linearPodRun fmax env d w s).2
    let t' := (linearPodRun fmax env { d with detection := det' } w s').2
    (linearPodRun fmax env { d with detection := det' } w s').1 = .ok () ∧
    ∃ r r' f f', t.model = some r ∧ t'.model = some r' ∧ t.pod = some f ∧ t'.pod = some f' ∧
      r'.obs = r.obs ∧ r'.fit = r.fit ∧ r.detection ≤ r'.detection ∧
      (∀ x, f' x ≤ f x) ∧
      (d.fact = .binomial → r.fit.residuals ≠ [] → ∀ c x, 1 / 2 < c → c < 1 →
        podBinomialCl qBeta r'.fit.residuals r'.detection (fun x => r'.fit.intercept + r'.fit.slope * x) c x
          ≤ podBinomialCl qBeta r.fit.residuals r.detection (fun x => r.fit.intercept + r.fit.slope * x) c x) ∧
      (d.fact ≠ .binomial → ∃ coll coll', t.coll = some coll ∧ t'.coll = some coll' ∧
        ∀ n c x v, podClFromCollection n coll c x = .ok v →
          ∃ v', podClFromCollection n coll' c x = .ok v' ∧ v' ≤ v) := by
  dsimp only
  unfold linearPodRun at hok ⊢
  cases hm : computeLinearModel fmax env.lin w.starts d.obs d.detection d.noise d.sat d.boxCox d.censored with
  | error e => rw [hm] at hok; simp at hok
  | ok r =>
    obtain ⟨u, hu, hm'⟩ := computeLinearModel_larger fmax env.lin w.starts d.obs d.detection det' d.noise d.sat d.boxCox d.censored hdet r hm
    cases hfact : d.fact with
    | binomial =>
      simp only [hm, hm', hfact, podFunction] at hok ⊢
      refine ⟨trivial, r, { r with detection := u }, _, _, rfl, rfl, rfl, rfl, rfl, rfl, hu, fun x => ?_, ?_, by simp⟩
      · exact empiricalCCDF_antitone _ (by simpa using hu)
      · intro _ hne c x hc hc1
        exact podBinomialCl_larger qBeta hq _ hne _ _ hu _ c x hc hc1
    | normal =>
      simp only [hm, hm', hfact, podFunction] at hok ⊢
      refine ⟨trivial, r, { r with detection := u }, _, _, rfl, rfl, rfl, rfl, rfl, rfl, hu, fun x => ?_, by simp, fun _ => ?_⟩
      · exact PhiC_antitone (div_le_div_of_nonneg_right (by simpa using hu) (Real.sqrt_nonneg _))
      · refine ⟨_, _, rfl, rfl, fun n c x v hv => podCl_larger ?_ n c x v hv⟩
        rw [List.forall₂_map_left_iff, List.forall₂_map_right_iff, List.forall₂_same]
        intro z hz x
        exact PhiC_antitone (div_le_div_of_nonneg_right (by simpa using hu) (hσ z hz).le)
    | other name =>
      cases hl : env.fitLaw name r.fit.residuals with
      | error e => simp [hm, hfact, podFunction, hl] at hok
      | ok ccdf =>
        cases hb : bootstrapColl fmax env d name w.resamples with
        | error e => simp [hm, hfact, podFunction, hl, hb] at hok
        | ok fs =>
          obtain ⟨fs', hb', hfs⟩ := bootstrapColl_larger fmax env hlaw d det' hdet name w.resamples fs hb
          simp only [hfact] at hb'
          simp only [hm, hm', hfact, podFunction, hl, hb, hb'] at hok ⊢
          refine ⟨trivial, r, { r with detection := u }, _, _, rfl, rfl, rfl, rfl, rfl, rfl, hu, fun x => ?_, by simp, fun _ => ?_⟩
          · exact hlaw _ _ _ hl (by simpa using hu)
          · exact ⟨_, _, rfl, rfl, fun n c x v hv => podCl_larger hfs n c x v hv⟩

/-! ## Metamodels -/

/-- Between sorted abscissae the interpolated value follows the ordinates. -/
theorem interpGo_le (xs : List ℝ) (hs : xs.Pairwise (· ≤ ·)) (ys zs : List ℝ) (h : List.Forall₂ (· ≤ ·) ys zs) (t : ℝ)
    (ht : ∀ x ∈ xs.head?, x ≤ t) : interpGo (xs.zip ys) t ≤ interpGo (xs.zip zs) t := by
  induction xs generalizing ys zs with
  | nil => simp
  | cons a xs ih =>
    cases h with
    | nil => simp
    | @cons y z ys zs hyz h =>
      cases xs with
      | nil => simpa [interpGo] using hyz
      | cons b xs =>
        cases h with
        | nil => simpa [interpGo] using hyz
        | @cons y' z' ys zs hyz' h =>
          simp only [List.zip_cons_cons, interpGo]
          have hat : a ≤ t := ht a (by simp)
          split_ifs with hb
          · have hab : 0 < b - a := by linarith
            have e : ∀ u v : ℝ, (v - u) / (b - a) * (t - a) + u = v * ((t - a) / (b - a)) + u * ((b - t) / (b - a)) := by
              intro u v
              field_simp
              ring
            rw [e, e]
            have h1 : 0 ≤ (t - a) / (b - a) := div_nonneg (by linarith) hab.le
            have h2 : 0 ≤ (b - t) / (b - a) := div_nonneg (by linarith) hab.le
            exact add_le_add (mul_le_mul_of_nonneg_right hyz' h1) (mul_le_mul_of_nonneg_right hyz h2)
          · have := ih (List.pairwise_cons.mp hs).2 (y' :: ys) (z' :: zs) (.cons hyz' h) (by simpa using hb)
            simpa using this

/-- `interp1d` follows the ordinates. -/
theorem interp1d_le {xs : List ℝ} (hs : xs.Pairwise (· ≤ ·)) {ys zs : List ℝ} (h : List.Forall₂ (· ≤ ·) ys zs) {g : ℝ → Res ℝ}
    (hg : interp1d xs zs = .ok g) :
    ∃ f, interp1d xs ys = .ok f ∧ ∀ t v, g t = .ok v → ∃ v', f t = .ok v' ∧ v' ≤ v := by
  rw [interp1d] at hg
  split_ifs at hg with hlen
  rw [Except.ok.injEq] at hg
  subst hg
  refine ⟨_, by rw [interp1d, if_pos (by rw [hlen, h.length_eq])], fun t v hv => ?_⟩
  have sorted : ∀ ws : List ℝ, (xs.zip ws).Pairwise fun a b => a.1 ≤ b.1 := by
    intro ws
    rw [List.pairwise_iff_getElem] at hs ⊢
    intro i j hi hj hij
    simp only [List.getElem_zip]
    rw [List.length_zip] at hi hj
    exact hs i j (by omega) (by omega) hij
  rw [sortPts_of_sorted (sorted _)] at hv ⊢
  cases xs with
  | nil => simp [interpEval] at hv
  | cons a xs =>
    cases h with
    | nil => simp [interpEval] at hv
    | @cons y z ys zs hyz h =>
      have hl : ∀ ws : List ℝ, ∀ w, ws.length = xs.length →
          (((a :: xs).zip (w :: ws)).getLast (by simp)).1 = (a :: xs).getLast (by simp) := by
        intro ws w hw
        have : (((a :: xs).zip (w :: ws)).map Prod.fst).getLast (by simp) = (a :: xs).getLast (by simp) := by
          congr 1
          exact List.map_fst_zip (by simp [hw])
        rw [← this, List.getLast_map]
      simp only [List.length_cons, Nat.add_right_cancel_iff] at hlen
      have l1 := hl zs z hlen.symm
      have l2 := hl ys y (by rw [h.length_eq, hlen])
      simp only [List.zip_cons_cons] at l1 l2 hv ⊢
      rw [interpEval] at hv ⊢
      rw [l1] at hv
      rw [l2]
      split_ifs at hv ⊢ with h1 h2
      rw [Except.ok.injEq] at hv
      refine ⟨_, rfl, ?_⟩
      rw [← hv]
      have := interpGo_le (a :: xs) hs (y :: ys) (z :: zs) (.cons hyz h) t (by simpa using h1)
      simpa using this

/-- The fraction above the threshold decreases. -/
theorem fracAbove_antitone (col : List ℝ) : Antitone fun det => fracAbove det col := empiricalCCDF_antitone col

/-- Columns of ordered rows are ordered. -/
theorem columnsOf_le {rows rows' : List (List ℝ)} (h : List.Forall₂ (List.Forall₂ (· ≤ ·)) rows rows') (number : ℕ) :
    List.Forall₂ (List.Forall₂ (· ≤ ·)) (columnsOf rows number) (columnsOf rows' number) := by
  unfold columnsOf
  rw [List.forall₂_map_left_iff, List.forall₂_map_right_iff, List.forall₂_same]
  intro j _
  rw [List.forall₂_map_left_iff, List.forall₂_map_right_iff]
  refine h.imp fun r r' hr => ?_
  by_cases hj : j < r.length
  · have hj' : j < r'.length := by rw [← hr.length_eq]; exact hj
    rw [List.getD_eq_getElem _ _ hj, List.getD_eq_getElem _ _ hj']
    have := hr.get hj hj'
    simpa using this
  · have hj' : ¬ j < r'.length := by rw [← hr.length_eq]; exact hj
    rw [List.getD_eq_default _ _ (not_lt.mp hj), List.getD_eq_default _ _ (not_lt.mp hj')]

/-- The confidence curve of ordered columns. -/
theorem getPODCLModel_le {s s' : SimAttrs} (hs : s.sizes.Pairwise (· ≤ ·)) (hsz : s'.sizes = s.sizes) {cols cols' : List (List ℝ)}
    (hc : s.perDefect = some cols) (hc' : s'.perDefect = some cols') (h : List.Forall₂ (List.Forall₂ (· ≤ ·)) cols' cols)
    (c : ℝ) {g : ℝ → Res ℝ} (hg : getPODCLModel s c = .ok g) :
    ∃ f, getPODCLModel s' c = .ok f ∧ ∀ t v, g t = .ok v → ∃ v', f t = .ok v' ∧ v' ≤ v := by
  unfold getPODCLModel at hg ⊢
  rw [hc] at hg
  rw [hc', hsz]
  refine interp1d_le hs ?_ hg
  rw [List.forall₂_map_left_iff, List.forall₂_map_right_iff]
  exact h.imp fun a b hab => quantile_le hab _

/-- **C141 (polynomial chaos).**  With the same metamodel, the same random draws and a larger detection threshold, the simulation succeeds
when it did, and the POD curve and the confidence curves are nowhere above the former ones. -/
theorem C141_chaos {X U : Type} (c : ChaosSetup X U) (det' : ℝ) (hdet : c.detection ≤ det') (w0 : ChaosDraws X)
    (sims : List (List ℝ × ChaosDraws X)) (s : SimAttrs) (hs : s.sizes.Pairwise (· ≤ ·))
    (hok : (chaosRunSim c w0 sims s).1 = .ok ()) :
    let t := (chaosRunSim c w0 sims s).2
    let t' := (chaosRunSim { c with detection := det' } w0 sims s).2
    (chaosRunSim { c with detection := det' } w0 sims s).1 = .ok () ∧
    (∃ f f', t.curve = some f ∧ t'.curve = some f' ∧ ∀ a v, f a = .ok v → ∃ v', f' a = .ok v' ∧ v' ≤ v) ∧
    (∀ level g, getPODCLModel t level = .ok g →
      ∃ g', getPODCLModel t' level = .ok g' ∧ ∀ a v, g a = .ok v → ∃ v', g' a = .ok v' ∧ v' ≤ v) := by
  have row : ∀ coefs w, List.Forall₂ (· ≤ ·) (chaosPodRow { c with detection := det' } s.number s.sizes coefs w)
      (chaosPodRow c s.number s.sizes coefs w) := by
    intro coefs w
    unfold chaosPodRow chaosComputePOD
    dsimp only
    rw [List.forall₂_map_left_iff, List.forall₂_map_right_iff, List.forall₂_same]
    intro col _
    exact fracAbove_antitone col hdet
  have rows : List.Forall₂ (List.Forall₂ (· ≤ ·))
      (columnsOf (sims.map fun q => chaosPodRow { c with detection := det' } s.number s.sizes q.1 q.2) s.number)
      (columnsOf (sims.map fun q => chaosPodRow c s.number s.sizes q.1 q.2) s.number) := by
    apply columnsOf_le
    rw [List.forall₂_map_left_iff, List.forall₂_map_right_iff, List.forall₂_same]
    intro q _
    exact row q.1 q.2
  unfold chaosRunSim at hok ⊢
  dsimp only at hok ⊢
  split_ifs at hok ⊢ with hn
  cases hi : interp1d s.sizes (chaosPodRow c s.number s.sizes c.coefs w0) with
  | error e => rw [hi] at hok; simp at hok
  | ok g =>
    obtain ⟨f, hf, hle⟩ := interp1d_le hs (row c.coefs w0) hi
    rw [hf]
    dsimp only
    refine ⟨rfl, ⟨_, _, rfl, rfl, hle⟩, fun level g' hg' => ?_⟩
    exact getPODCLModel_le (s := { s with curve := some g, perDefect := _ }) (s' := { s with curve := some f, perDefect := _ })
      hs rfl rfl rfl rows level hg'

/-- **C141 (quantile regression).**  On an increasing quantile line a larger threshold gives a larger detection size. -/
theorem C141_quantile_regression (pick : ℝ → ℝ → ℝ) (fit : ℝ → QuantFit) (det det' a b p d d' : ℝ) (hdet : det ≤ det')
    (hslope : 0 < (fit (1 - p)).slope) (h : qrDetectionSize pick fit det a b p = .ok d)
    (h' : qrDetectionSize pick fit det' a b p = .ok d') : d ≤ d' ∧ (det < det' → d < d') := by
  have key : ∀ v e, qrDetectionSize pick fit v a b p = .ok e → e = (v - (fit (1 - p)).intercept) / (fit (1 - p)).slope := by
    intro v e he
    unfold qrDetectionSize brentLine qrFitFor at he
    split_ifs at he with h1 h2
    · exact absurd h2 hslope.ne'
    · simpa using he.symm
  rw [key _ _ h, key _ _ h']
  constructor
  · exact div_le_div_of_nonneg_right (by linarith) hslope.le
  · intro hlt
    exact div_lt_div_of_pos_right (by linarith) hslope

/-- **C141 (detection sizes).**  When one POD curve is nowhere above another one, as with a larger threshold, its detection size is not
smaller. -/
theorem C141_detection_size (solve : (ℝ → ℝ) → ℝ → ℝ → ℝ → ℝ) (hs : SolveSpec solve) (dataMin dataMax : ℝ)
    (hd : dataMin ≤ dataMax) (f f' : ℝ → ℝ) (hf : ContinuousOn f (Set.Icc dataMin dataMax)) (hf' : ContinuousOn f' (Set.Icc dataMin dataMax))
    (hmono : StrictMonoOn f (Set.Icc dataMin dataMax)) (hle : ∀ x, f' x ≤ f x) (p d d' : ℝ) (lbl lbl' : List String)
    (h : computeDetectionSize solve dataMin dataMax f none (some p) none none none = .ok ([d], lbl))
    (h' : computeDetectionSize solve dataMin dataMax f' none (some p) none none none = .ok ([d'], lbl')) : d ≤ d' := by
  have key : ∀ (g : ℝ → ℝ) (e : ℝ) (l : List String), ContinuousOn g (Set.Icc dataMin dataMax) →
      computeDetectionSize solve dataMin dataMax g none (some p) none none none = .ok ([e], l) →
      e ∈ Set.Icc dataMin dataMax ∧ g e = p := by
    intro g e l hg he
    obtain ⟨h1, h2, -, -⟩ := C16_detection_size solve hs dataMin dataMax g g p p none none hd hg hg
    simp only [Option.getD_none] at h1 h2
    have he' : computeDetectionSize solve dataMin dataMax g (some g) (some p) none none none = .ok ([e], l) := by
      rw [← he]; simp [computeDetectionSize]
    by_cases hc : g dataMin ≤ p ∧ p ≤ g dataMax
    · obtain ⟨e', h3, h4, h5⟩ := h2 hc
      rw [he'] at h3
      simp only [Except.ok.injEq, Prod.mk.injEq, List.cons.injEq, and_true] at h3
      rw [h3.1]
      exact ⟨h4, h5⟩
    · obtain ⟨m, hm⟩ := h1.mpr hc
      rw [he'] at hm
      simp at hm
  obtain ⟨hd1, hd2⟩ := key f d lbl hf h
  obtain ⟨hd3, hd4⟩ := key f' d' lbl' hf' h'
  by_contra hlt
  push Not at hlt
  have := hmono hd3 hd1 hlt
  have := hle d'
  linarith

/-- Data of the examples: three observations, two thresholds, every kind of residual law. -/
private def thrData (fact : ResFact) : PodData := ⟨[(1, 1), (2, 2.5), (3, 3)], 1, none, none, false, false, fact⟩

private noncomputable def thrEnv : PodEnv where
  lin := { boxCox := fun _ _ _ => .ok 1, ols := fun _ => (0, 1, 1), fmin := fun _ x => ⟨x, 0⟩ }
  fitLaw := fun _ _ => .ok PhiC

example (fact : ResFact) :
    LawsDecrease thrEnv ∧ (thrData fact).detection ≤ 2 ∧
    (linearPodRun 100 thrEnv (thrData fact) ⟨fun _ => (0, 0, 0), [(1, 2, 1)], [([(1, 1), (1, 1), (3, 3)], fun _ => (0, 0, 0))]⟩
      ⟨none, none, none⟩).1 = .ok () := by
  refine ⟨?_, by norm_num [thrData], ?_⟩
  · intro name rs ccdf h
    simp only [thrEnv, Except.ok.injEq] at h
    subst h
    exact PhiC_antitone
  · cases fact <;>
      simp [linearPodRun, thrData, thrEnv, computeLinearModel, linFit, podFunction, bootstrapColl, bootstrapModel]

/-- One chaos simulation: POD values at the sizes 1 and 2 with the thresholds 1 and 3. -/
example :
    (chaosRunSim (X := ℝ) (U := ℝ × ℝ) ⟨(0, 0), id, [fun p => p.1, fun p => p.2], [1, 1], 1, 2, 1⟩ ⟨[0, 1], [0, 0, 0, 0]⟩
      [([1, 2], ⟨[0, 1], [0, 0, 0, 0]⟩)] ⟨⟨[1, 2], 2⟩, none, none⟩).1 = .ok () := by
  simp [chaosRunSim, interp1d, chaosPodRow, chaosComputePOD, reshapeF]

example : qrDetectionSize (fun a _ => a) (fun _ => ⟨0, 2, 0⟩) 4 0 10 0.9 = .ok 2 ∧
    qrDetectionSize (fun a _ => a) (fun _ => ⟨0, 2, 0⟩) 6 0 10 0.9 = .ok 3 := by
  constructor <;> norm_num [qrDetectionSize, brentLine, qrFitFor]

/-- **C142 (restricted).**  Kriging: the expectation of the simulated POD values at a defect size, given the trajectories, decreases with the
detection threshold. -/
theorem C142_mean_partial (det det' : ℝ) (hdet : det ≤ det') {n : ℕ} (hn : n ≠ 0) (traj : Fin n → List ℝ) (ht : ∀ i, traj i ≠ []) :
    ∫ p, p ∂(mixtureLaw fun i => podLaw det' (traj i)) ≤ ∫ p, p ∂(mixtureLaw fun i => podLaw det (traj i)) := by
  rw [(C37_mixture_mean_partial det hn traj ht).2.1, (C37_mixture_mean_partial det' hn traj ht).2.1]
  exact div_le_div_of_nonneg_right (Finset.sum_le_sum fun i _ => fracAbove_antitone (traj i) hdet) (Nat.cast_nonneg _)

/-- **C142 violated.**  The simulated values themselves, hence their lower quantiles (the confidence curve), are not ordered: when a trajectory
has values on both sides of a threshold and all values are below a larger one, the values simulated with the first threshold are negative with
positive probability, those simulated with the larger threshold are all 0. -/
theorem C142_violated (det det' : ℝ) {n : ℕ} (traj : Fin n → List ℝ) (ht : ∀ i, traj i ≠ []) (i : Fin n)
    (h1 : ∃ y ∈ traj i, det < y) (h2 : ∃ y ∈ traj i, ¬ det < y) (h3 : ∀ j, ∀ y ∈ traj j, y ≤ det') :
    det ≤ det' ∧ 0 < mixtureLaw (fun j => podLaw det (traj j)) (Set.Iio 0) ∧
    mixtureLaw (fun j => podLaw det' (traj j)) = Measure.dirac 0 := by
  refine ⟨?_, (C37_violated det traj i h1 h2).1, ?_⟩
  · obtain ⟨y, hy, hlt⟩ := h1
    exact hlt.le.trans (h3 i y hy)
  · have hn : (n : ENNReal) ≠ 0 := by
      rw [Nat.cast_ne_zero]
      rintro rfl
      exact i.elim0
    have : ∀ j, (podLaw det' (traj j)).law = Measure.dirac 0 := fun j =>
      (C37_estimator_law_partial det' (traj j) (ht j)).1 fun y hy => not_lt.mpr (h3 j y hy)
    rw [mixtureLaw]
    simp only [this, Finset.sum_const, Finset.card_univ, Fintype.card_fin]
    rw [← Nat.cast_smul_eq_nsmul ENNReal, smul_smul, ENNReal.inv_mul_cancel hn (ENNReal.natCast_ne_top n), one_smul]

example : 0 < mixtureLaw (fun j => podLaw 1 ((![[0, 2], [2, 2]] : Fin 2 → List ℝ) j)) (Set.Iio 0) ∧
    mixtureLaw (fun j => podLaw 5 ((![[0, 2], [2, 2]] : Fin 2 → List ℝ) j)) = Measure.dirac 0 :=
  (C142_violated 1 5 ![[0, 2], [2, 2]] (by intro i; fin_cases i <;> simp) 0 ⟨2, by simp, by norm_num⟩ ⟨0, by simp, by norm_num⟩
    (by intro j; fin_cases j <;> simp <;> norm_num)).2

end Verif.Props
