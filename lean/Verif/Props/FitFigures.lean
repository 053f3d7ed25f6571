import Verif.Model.FitFigures
import Verif.Props.CensoredRun
import Verif.Props.QuantileReg
import Verif.Props.LinearRun
import Mathlib.Analysis.Convex.Segment

/-!
# C166: the figures of the fitted models
-/

namespace Verif.Props
open Verif.Py Verif.Model

/-- A point of a segment, by coordinates. -/
theorem mem_segment_pair {p q z : ℝ × ℝ} :
    z ∈ segment ℝ p q ↔ ∃ t : ℝ, 0 ≤ t ∧ t ≤ 1 ∧ z.1 = p.1 + t * (q.1 - p.1) ∧ z.2 = p.2 + t * (q.2 - p.2) := by
  rw [segment_eq_image']
  constructor
  · rintro ⟨t, ⟨h0, h1⟩, rfl⟩
    exact ⟨t, h0, h1, by simp, by simp⟩
  · rintro ⟨t, h0, h1, e1, e2⟩
    exact ⟨t, ⟨h0, h1⟩, Prod.ext (by simp [e1]) (by simp [e2])⟩

/-- The line painted through points of a straight line, whatever their order. -/
theorem painted_fitted (b0 b1 : ℝ) (obs : List (ℝ × ℝ)) (x y : ℝ) :
    (x, y) ∈ painted (fittedPoints b0 b1 obs) ↔ y = b0 + b1 * x ∧ ∃ o ∈ obs, ∃ o' ∈ obs, o.1 ≤ x ∧ x ≤ o'.1 := by
  induction obs with
  | nil => simp [fittedPoints, painted]
  | cons p r ih =>
    cases r with
    | nil =>
      simp only [fittedPoints, List.map_cons, List.map_nil, painted, Set.mem_singleton_iff, Prod.mk.injEq, List.mem_singleton, exists_eq_left]
      constructor
      · rintro ⟨rfl, rfl⟩; exact ⟨rfl, le_rfl, le_rfl⟩
      · rintro ⟨h, h1, h2⟩
        have : x = p.1 := le_antisymm h2 h1
        exact ⟨this, by rw [h, this]⟩
    | cons q r =>
      have hseg : (x, y) ∈ segment ℝ (p.1, b0 + b1 * p.1) (q.1, b0 + b1 * q.1) ↔
          y = b0 + b1 * x ∧ ((p.1 ≤ x ∧ x ≤ q.1) ∨ (q.1 ≤ x ∧ x ≤ p.1)) := by
        rw [mem_segment_pair]
        constructor
        · rintro ⟨t, h0, h1, e1, e2⟩
          dsimp only at e1 e2
          refine ⟨by rw [e2, e1]; ring, ?_⟩
          rcases le_total p.1 q.1 with h | h
          · exact Or.inl ⟨by nlinarith, by nlinarith⟩
          · exact Or.inr ⟨by nlinarith, by nlinarith⟩
        · rintro ⟨hy, h⟩
          rcases eq_or_ne p.1 q.1 with he | hne
          · have : x = p.1 := by rcases h with h | h <;> linarith [h.1, h.2]
            exact ⟨0, le_rfl, zero_le_one, by simp [this], by simp [hy, this]⟩
          · have hd : q.1 - p.1 ≠ 0 := sub_ne_zero.mpr (Ne.symm hne)
            refine ⟨(x - p.1) / (q.1 - p.1), ?_, ?_, ?_, ?_⟩
            · rcases h with h | h
              · exact div_nonneg (by linarith [h.1]) (by linarith [h.1, h.2])
              · exact div_nonneg_of_nonpos (by linarith [h.2]) (by linarith [h.1, h.2])
            · rcases h with h | h
              · rw [div_le_one (lt_of_le_of_ne (by linarith [h.1, h.2]) (Ne.symm hd))]; linarith [h.2]
              · rw [div_le_one_of_neg (lt_of_le_of_ne (by linarith [h.1, h.2]) hd)]; linarith [h.1]
            · dsimp only; rw [div_mul_cancel₀ _ hd]; ring
            · dsimp only
              rw [hy, show b0 + b1 * q.1 - (b0 + b1 * p.1) = b1 * (q.1 - p.1) by ring]
              field_simp; ring
      have hp : painted (fittedPoints b0 b1 (p :: q :: r))
          = segment ℝ (p.1, b0 + b1 * p.1) (q.1, b0 + b1 * q.1) ∪ painted (fittedPoints b0 b1 (q :: r)) := rfl
      rw [hp, Set.mem_union, hseg, ih, ← and_or_left]
      refine and_congr_right fun _ => ?_
      constructor
      · rintro ((⟨h1, h2⟩ | ⟨h1, h2⟩) | ⟨o, ho, o', ho', h1, h2⟩)
        · exact ⟨p, by simp, q, by simp, h1, h2⟩
        · exact ⟨q, by simp, p, by simp, h1, h2⟩
        · exact ⟨o, List.mem_cons_of_mem _ ho, o', List.mem_cons_of_mem _ ho', h1, h2⟩
      · rintro ⟨o, ho, o', ho', h1, h2⟩
        rw [List.mem_cons] at ho ho'
        rcases ho with rfl | ho <;> rcases ho' with rfl | ho'
        · rcases le_total q.1 x with h | h
          · exact Or.inl (Or.inr ⟨h, h2⟩)
          · exact Or.inl (Or.inl ⟨h1, h⟩)
        · rcases le_total q.1 x with h | h
          · exact Or.inr ⟨q, by simp, o', ho', h, h2⟩
          · exact Or.inl (Or.inl ⟨h1, h⟩)
        · rcases le_total q.1 x with h | h
          · exact Or.inl (Or.inr ⟨h, h2⟩)
          · exact Or.inr ⟨o, ho, q, by simp, h1, h⟩
        · exact Or.inr ⟨o, ho, o', ho', h1, h2⟩

/-- The fits of an analysis: residuals on the kept observations, a censored fit exactly with a threshold. -/
theorem analysisFits_residuals {env : LinEnv} {draws : ℕ → ℝ × ℝ × ℝ} {censored : Bool} {unc : List (ℝ × ℝ)} {dNoise dSat : List ℝ}
    {noise sat lam : Option ℝ} {an : AnalysisFit} (h : analysisFits env draws censored unc dNoise dSat noise sat lam = .ok an) :
    an.unc.residuals = lineResiduals an.unc.intercept an.unc.slope unc ∧ an.cens.isSome = censored ∧
      ∀ c, an.cens = some c → c.residuals = lineResiduals c.intercept c.slope unc := by
  unfold analysisFits at h
  dsimp only at h
  cases censored with
  | false =>
    simp only [Bool.false_eq_true, if_false, Except.ok.injEq] at h
    subst h
    exact ⟨rfl, rfl, by simp⟩
  | true =>
    simp only [if_true] at h
    cases hc : censoredFit env draws (env.ols unc) unc dNoise dSat noise sat with
    | error e => rw [hc] at h; cases h
    | ok fit =>
      rw [hc] at h
      dsimp only at h
      rw [Except.ok.injEq] at h
      subst h
      refine ⟨rfl, rfl, ?_⟩
      intro c hcc
      rw [Option.some.injEq] at hcc
      subst hcc
      unfold censoredFit at hc
      split at hc
      · cases hc
      · split at hc
        · cases hc
        · rw [Except.ok.injEq] at hc
          subst hc; rfl

/-- The fit a figure is asked for. -/
def asked (an : AnalysisFit) (model : String) : Option LineFit :=
  if model = "uncensored" then some an.unc else if model = "censored" then an.cens else none

/-- **C166.**  The figures of an analysis, for every analysis that succeeded: the points are the observations between the thresholds with
their transformed signals, the red line is exactly the fitted line over the range of these defects, whatever the order of the data, and the
residuals are the vertical distances between the two. -/
theorem C166_linear (fmax : ℝ) (env : LinEnv) (draws : ℕ → ℝ × ℝ × ℝ) (obs : List (ℝ × ℝ)) (noise sat : Option ℝ) (boxCox : Bool)
    (userLambda : Option ℝ) (an : AnalysisFit) (hrun : analysisRun fmax env draws obs noise sat boxCox userLambda = .ok an) (model : String) :
    (asked an model = none → Raises (drawLinearFig an model) .nameError ∧ Raises (drawResidualFig an model) .nameError) ∧
    (asked an model ≠ none ↔ model = "uncensored" ∨ (model = "censored" ∧ (noise ≠ none ∨ sat ≠ none))) ∧
    ∀ fit, asked an model = some fit → ∃ fig res g, drawLinearFig an model = .ok fig ∧ drawResidualFig an model = .ok res ∧
      RunTransform boxCox an.lambda g ∧
      fig.data = (if noise = none ∧ sat = none then obs else uncensoredObs fmax obs noise sat).map (fun o => (o.1, g o.2)) ∧
      (∀ x y, (x, y) ∈ painted fig.line ↔
        y = fit.intercept + fit.slope * x ∧ ∃ o ∈ fig.data, ∃ o' ∈ fig.data, o.1 ≤ x ∧ x ≤ o'.1) ∧
      res.data = fig.data.map (fun o => (o.1, o.2 - (fit.intercept + fit.slope * o.1))) ∧
      (∀ x y, (x, y) ∈ painted res.line ↔ y = 0 ∧ ∃ o ∈ fig.data, ∃ o' ∈ fig.data, o.1 ≤ x ∧ x ≤ o'.1) := by
  obtain ⟨g, hg, ho, hf⟩ := analysisRun_shape fmax env draws obs noise sat boxCox userLambda an hrun
  obtain ⟨r1, r2, r3⟩ := analysisFits_residuals hf
  have hcens : an.cens = none ↔ noise = none ∧ sat = none := by
    rw [← Option.not_isSome_iff_eq_none, r2]
    cases noise <;> cases sat <;> simp
  have hdata : an.obs = (if noise = none ∧ sat = none then obs else uncensoredObs fmax obs noise sat).map (fun o => (o.1, g o.2)) := by
    rw [ho]
    congr 1
    cases noise <;> cases sat <;> simp
  have hz : ∀ b0 b1 : ℝ, (an.obs.map Prod.fst).zip (lineResiduals b0 b1 an.obs) = an.obs.map fun o => (o.1, o.2 - (b0 + b1 * o.1)) := by
    intro b0 b1
    rw [lineResiduals, List.zip_map']
  have h0 : ∀ x y : ℝ, (x, y) ∈ painted (fittedPoints 0 0 an.obs) ↔ y = 0 ∧ ∃ o ∈ an.obs, ∃ o' ∈ an.obs, o.1 ≤ x ∧ x ≤ o'.1 := by
    intro x y
    rw [painted_fitted]; simp
  by_cases hu : model = "uncensored"
  · subst hu
    refine ⟨by simp [asked], by simp [asked], ?_⟩
    intro fit hfit
    simp only [asked, if_true, Option.some.injEq] at hfit
    subst hfit
    refine ⟨_, _, g, by simp only [drawLinearFig, if_true]; rw [if_neg (by simp)], by simp only [drawResidualFig, if_true]; rw [if_neg (by simp)],
      hg, hdata, fun x y => painted_fitted _ _ _ x y, ?_, h0⟩
    dsimp only
    rw [r1, hz]
  · by_cases hc : model = "censored"
    · subst hc
      have ha : asked an "censored" = an.cens := by simp [asked]
      rw [ha]
      refine ⟨fun h => ?_, ?_, ?_⟩
      · rw [drawLinearFig, drawResidualFig, if_pos (by simp [h]), if_pos (by simp [h])]
        exact ⟨⟨_, rfl⟩, ⟨_, rfl⟩⟩
      · rw [ne_eq, hcens]; simp; tauto
      · intro fit hfit
        have hn : ¬ (("censored" : String) = "censored" ∧ an.cens.isNone = true) := by simp [hfit]
        refine ⟨_, _, g, by rw [drawLinearFig, if_neg hn, if_neg (by simp), if_pos rfl, hfit],
          by rw [drawResidualFig, if_neg hn, if_neg (by simp), if_pos rfl, hfit], hg, hdata, fun x y => painted_fitted _ _ _ x y, ?_, h0⟩
        dsimp only
        rw [r3 _ hfit, hz]
    · have ha : asked an model = none := by simp [asked, hu, hc]
      refine ⟨fun _ => ?_, by simp [ha, hu, hc], by simp [ha]⟩
      rw [drawLinearFig, drawResidualFig, if_neg (by simp [hc]), if_neg hu, if_neg hc, if_neg (by simp [hc]), if_neg hu, if_neg hc]
      exact ⟨⟨_, rfl⟩, ⟨_, rfl⟩⟩

/-- **C166 (partial).**  The label of the ordinate is the right one (`Box Cox (signals)` for transformed signals, `Signals` otherwise)
exactly when censored models and transformations go together.  Missing: see `C166_violated`. -/
theorem C166_label_partial (an : AnalysisFit) (model : String) (fig : FitFigure) (h : drawLinearFig an model = .ok fig) :
    fig.ylabel = (if an.lambda.isSome then "Box Cox (signals)" else "Signals") ↔ (model = "censored" ↔ an.lambda.isSome = true) := by
  unfold drawLinearFig at h
  split_ifs at h with h1 h2 h3
  · rw [Except.ok.injEq] at h
    subst h
    subst h2
    cases an.lambda.isSome <;> simp
  · cases hc : an.cens with
    | none => rw [hc] at h; cases h
    | some c =>
      rw [hc] at h
      dsimp only at h
      rw [Except.ok.injEq] at h
      subst h
      subst h3
      cases an.lambda.isSome <;> simp

/-- **C166 is violated.**  Every analysis with Box-Cox shows its transformed signals under the label `Signals`, and every censored analysis
without Box-Cox shows its raw signals under the label `Box Cox (signals)`. -/
theorem C166_violated (fmax : ℝ) (env : LinEnv) (draws : ℕ → ℝ × ℝ × ℝ) (obs : List (ℝ × ℝ)) (noise sat : Option ℝ) (boxCox : Bool)
    (userLambda : Option ℝ) (an : AnalysisFit) (hrun : analysisRun fmax env draws obs noise sat boxCox userLambda = .ok an) :
    (boxCox = true → ∃ fig lam shift, drawLinearFig an "uncensored" = .ok fig ∧ fig.ylabel = "Signals" ∧
      fig.data.map Prod.snd = (if noise = none ∧ sat = none then obs else uncensoredObs fmax obs noise sat).map
        fun o => boxCoxFun lam (o.2 + shift)) ∧
    (boxCox = false → noise ≠ none ∨ sat ≠ none → ∃ fig, drawLinearFig an "censored" = .ok fig ∧ fig.ylabel = "Box Cox (signals)" ∧
      fig.data = uncensoredObs fmax obs noise sat) := by
  have key := C166_linear fmax env draws obs noise sat boxCox userLambda an hrun
  constructor
  · rintro rfl
    obtain ⟨fig, res, g, hf, -, hg, hd, -⟩ := (key "uncensored").2.2 an.unc (by simp [asked])
    obtain ⟨lam, shift, -, rfl⟩ := hg.2 rfl
    refine ⟨fig, lam, shift, hf, ?_, ?_⟩
    · simp only [drawLinearFig, if_true] at hf
      rw [if_neg (by simp), Except.ok.injEq] at hf
      rw [← hf]
    · rw [hd, List.map_map]; rfl
  · rintro rfl hth
    have hne := (key "censored").2.1.mpr (Or.inr ⟨rfl, hth⟩)
    obtain ⟨fit, hfit⟩ := Option.ne_none_iff_exists'.mp hne
    obtain ⟨fig, res, g, hf, -, hg, hd, -⟩ := (key "censored").2.2 fit hfit
    obtain ⟨-, rfl⟩ := hg.1 rfl
    have hc : an.cens = some fit := by simpa [asked] using hfit
    refine ⟨fig, hf, ?_, ?_⟩
    · rw [drawLinearFig, if_neg (by simp [hc]), if_neg (by simp), if_pos rfl, hc] at hf
      dsimp only at hf
      rw [Except.ok.injEq] at hf
      rw [← hf]
    · rw [hd, if_neg (by tauto)]; simp

/-- **C166 (quantile regression).**  The red line of the quantile figure crosses the threshold at the detection size, when the regression
with the default tolerances of the figure gives the line of the POD. -/
theorem C166_quantile (pick : ℝ → ℝ → ℝ) (hpick : ∀ a b, a ≤ b → a ≤ pick a b ∧ pick a b ≤ b) (fit fitFigure : ℝ → QuantFit)
    (obs : List (ℝ × ℝ)) (det mn mx p d : ℝ) (hmn : IsLeast {x | ∃ o ∈ obs, o.1 = x} mn) (hmx : IsGreatest {x | ∃ o ∈ obs, o.1 = x} mx)
    (hsame : fitFigure (1 - p) = fit (1 - p)) (hd : qrDetectionSize pick fit det mn mx p = .ok d) :
    (d, det) ∈ painted (drawQuantileFig fitFigure obs p).line ∧ (drawQuantileFig fitFigure obs p).data = obs := by
  obtain ⟨o, ho, e⟩ := hmn.1
  obtain ⟨o', ho', e'⟩ := hmx.1
  have hle : mn ≤ mx := hmn.2 hmx.1
  obtain ⟨h1, h2, h3⟩ := (C83_qr_detection_size pick hpick fit det mn mx p hle).2 d hd
  refine ⟨?_, rfl⟩
  rw [drawQuantileFig, painted_fitted, hsame]
  exact ⟨h3.symm, o, ho, o', ho', by rw [e]; exact h1, by rw [e']; exact h2⟩

/-- Through sorted abscissas the painted line is the graph of a function. -/
theorem painted_sorted (f : ℝ → ℝ) (xs : List ℝ) (hs : xs.Pairwise (· ≤ ·)) :
    (∀ x ∈ xs, (x, f x) ∈ painted (xs.map fun x => (x, f x))) ∧
    (∀ x y, (x, y) ∈ painted (xs.map fun x => (x, f x)) → ∃ a ∈ xs, ∃ b ∈ xs, a ≤ x ∧ x ≤ b) ∧
    ∀ x, (∃ a ∈ xs, ∃ b ∈ xs, a ≤ x ∧ x ≤ b) → ∃! y, (x, y) ∈ painted (xs.map fun x => (x, f x)) := by
  induction xs with
  | nil => simp [painted]
  | cons p r ih =>
    cases r with
    | nil =>
      refine ⟨by simp [painted], ?_, ?_⟩
      · intro x y h
        simp only [List.map_cons, List.map_nil, painted, Set.mem_singleton_iff, Prod.mk.injEq] at h
        exact ⟨p, by simp, p, by simp, h.1.ge, h.1.le⟩
      · rintro x ⟨a, ha, b, hb, h1, h2⟩
        simp only [List.mem_singleton] at ha hb
        rw [ha] at h1; rw [hb] at h2
        obtain rfl : x = p := le_antisymm h2 h1
        exact ⟨f x, by simp [painted], fun y h => by simpa [painted] using h⟩
    | cons q r =>
      obtain ⟨i1, i2, i3⟩ := ih (List.pairwise_cons.mp hs).2
      have hpq : p ≤ q := (List.pairwise_cons.mp hs).1 q (by simp)
      have hq : ∀ a ∈ q :: r, q ≤ a := by
        intro a ha
        rcases List.mem_cons.mp ha with rfl | ha
        · exact le_rfl
        · exact (List.pairwise_cons.mp (List.pairwise_cons.mp hs).2).1 a ha
      have hp : painted ((p :: q :: r).map fun x => (x, f x))
          = segment ℝ (p, f p) (q, f q) ∪ painted ((q :: r).map fun x => (x, f x)) := rfl
      have hrest : ∀ x y, (x, y) ∈ painted ((q :: r).map fun x => (x, f x)) → q ≤ x := by
        intro x y h
        obtain ⟨a, ha, -, -, h1, -⟩ := i2 x y h
        exact (hq a ha).trans h1
      rw [hp]
      refine ⟨?_, ?_, ?_⟩
      · intro x hx
        rcases List.mem_cons.mp hx with rfl | hx
        · exact Or.inl (left_mem_segment ℝ _ _)
        · exact Or.inr (i1 x hx)
      · rintro x y (h | h)
        · obtain ⟨t, h0, h1, e1, -⟩ := mem_segment_pair.mp h
          dsimp only at e1
          exact ⟨p, by simp, q, by simp, by nlinarith, by nlinarith⟩
        · obtain ⟨a, ha, b, hb, h1, h2⟩ := i2 x y h
          exact ⟨a, List.mem_cons_of_mem _ ha, b, List.mem_cons_of_mem _ hb, h1, h2⟩
      · rintro x ⟨a, ha, b, hb, h1, h2⟩
        have hpx : p ≤ x := by
          rcases List.mem_cons.mp ha with rfl | ha
          · exact h1
          · exact hpq.trans ((hq a ha).trans h1)
        -- a point of the segment is determined by its abscissa, or lies at `q`
        have hend : ∀ y, (q, y) ∈ segment ℝ (p, f p) (q, f q) → y = f q := by
          intro y h
          obtain ⟨t, h0, h1, e1, e2⟩ := mem_segment_pair.mp h
          dsimp only at e1 e2
          rcases hpq.lt_or_eq with hlt | he
          · have : t = 1 := by
              have : (1 - t) * (q - p) = 0 := by linarith
              rcases mul_eq_zero.mp this with h | h <;> linarith
            rw [e2, this]; ring
          · rw [e2, he]; ring
        rcases lt_trichotomy x q with hx | hx | hx
        · have hlt : p < q := lt_of_le_of_lt hpx hx
          have hd : q - p ≠ 0 := (sub_pos.mpr hlt).ne'
          refine ⟨f p + (x - p) / (q - p) * (f q - f p), Or.inl (mem_segment_pair.mpr ⟨(x - p) / (q - p), ?_, ?_, ?_, rfl⟩), ?_⟩
          · exact div_nonneg (by linarith) (by linarith)
          · rw [div_le_one (by linarith)]; linarith
          · dsimp only; rw [div_mul_cancel₀ _ hd]; ring
          · rintro y (h | h)
            · obtain ⟨t, -, -, e1, e2⟩ := mem_segment_pair.mp h
              dsimp only at e1 e2
              have : t = (x - p) / (q - p) := by rw [eq_div_iff hd]; linarith
              rw [e2, this]
            · exact absurd (hrest x y h) (not_le.mpr hx)
        · subst hx
          obtain ⟨y, hy, huniq⟩ := i3 x ⟨x, by simp, x, by simp, le_rfl, le_rfl⟩
          have hyf : f x = y := huniq _ (i1 x (by simp))
          refine ⟨y, Or.inr hy, ?_⟩
          rintro y' (h | h)
          · rw [hend y' h, hyf]
          · exact huniq y' h
        · have hmem : ∃ a ∈ q :: r, ∃ b ∈ q :: r, a ≤ x ∧ x ≤ b := by
            refine ⟨q, by simp, b, ?_, hx.le, h2⟩
            rcases List.mem_cons.mp hb with rfl | hb
            · exact absurd (h2.trans hpq) (not_le.mpr hx)
            · exact hb
          obtain ⟨y, hy, huniq⟩ := i3 x hmem
          refine ⟨y, Or.inr hy, ?_⟩
          rintro y' (h | h)
          · obtain ⟨t, h0, h1, e1, -⟩ := mem_segment_pair.mp h
            dsimp only at e1
            exfalso
            nlinarith
          · exact huniq y' h

/-- **C166 (polynomial chaos).**  For one input the red line of the chaos figure is the graph of a function on the range of the defects that
has the value of the model at every defect, whatever the order of the data; with more inputs the figure is refused. -/
theorem C166_chaos (dim : ℕ) (pred : ℝ → ℝ) (obs : List (ℝ × ℝ)) :
    (dim ≠ 1 → Raises (drawChaosFig dim pred obs) .exception) ∧
    (dim = 1 → ∃ fig, drawChaosFig dim pred obs = .ok fig ∧ fig.data = obs ∧
      (∀ o ∈ obs, ∀ y, (o.1, y) ∈ painted fig.line ↔ y = pred o.1) ∧
      ∀ x, (∃ o ∈ obs, ∃ o' ∈ obs, o.1 ≤ x ∧ x ≤ o'.1) → ∃! y, (x, y) ∈ painted fig.line) := by
  constructor
  · intro h
    rw [drawChaosFig, if_pos h]; exact ⟨_, rfl⟩
  · intro h
    have hs : ((obs.map Prod.fst).mergeSort (fun a b => decide (a ≤ b))).Pairwise (· ≤ ·) := by
      have := List.pairwise_mergeSort (le := fun a b : ℝ => decide (a ≤ b)) (by simp; intro a b c; exact le_trans)
        (by simp; exact fun a b => le_total a b) (obs.map Prod.fst)
      simpa using this
    obtain ⟨h1, -, h3⟩ := painted_sorted pred _ hs
    have hmem : ∀ o ∈ obs, o.1 ∈ (obs.map Prod.fst).mergeSort (fun a b => decide (a ≤ b)) := fun o ho => by
      rw [List.mem_mergeSort]; exact List.mem_map_of_mem ho
    refine ⟨_, by rw [drawChaosFig, if_neg (not_not.mpr h)], rfl, ?_, ?_⟩
    · intro o ho y
      obtain ⟨y', hy', hu⟩ := h3 o.1 ⟨o.1, hmem o ho, o.1, hmem o ho, le_rfl, le_rfl⟩
      constructor
      · intro hy
        rw [hu y hy, hu _ (h1 _ (hmem o ho))]
      · rintro rfl
        exact h1 _ (hmem o ho)
    · rintro x ⟨o, ho, o', ho', ha, hb⟩
      exact h3 x ⟨o.1, hmem o ho, o'.1, hmem o' ho', ha, hb⟩

/-- Non-trivial instance: a censored analysis without Box-Cox that succeeds, and an analysis with Box-Cox on unsorted data. -/
example (draws : ℕ → ℝ × ℝ × ℝ) : ∃ env an, analysisRun 1000 env draws demoCensored (some 1) (some 5) false none = .ok an ∧ an.cens ≠ none ∧
    ∃ fig, drawLinearFig an "censored" = .ok fig ∧ fig.ylabel = "Box Cox (signals)" ∧ fig.data = uncensoredObs 1000 demoCensored (some 1) (some 5) := by
  obtain ⟨env, henv⟩ := exactFit_exists
  have hfin : ∀ o ∈ demoCensored, -(1000 : ℝ) < o.2 ∧ o.2 < 1000 := by norm_num [demoCensored]
  have hx : ∃ o ∈ keptObs id (some 1) (some 5) demoCensored, ∃ o' ∈ keptObs id (some 1) (some 5) demoCensored, o.1 ≠ o'.1 := by
    rw [demoCensored_kept]; exact ⟨(1, 2), by simp, (2, 4), by simp, by norm_num⟩
  have hl := demoCensored_line
  rw [← demoCensored_kept] at hl
  obtain ⟨r, hr⟩ := C120_succeeds 1000 env henv draws demoCensored 3 (some 1) (some 5) hfin hx hl
    (by rw [demoCensored_kept]; simp)
  obtain ⟨an, han, hc⟩ := analysis_of_pod 1000 env draws demoCensored 3 1 (some 5) r hr
  exact ⟨env, an, han, by simp [hc], (C166_violated _ _ _ _ _ _ _ _ _ han).2 rfl (by simp)⟩

example : ∃ an, analysisRun 1000 demoLin (fun _ => (0, 0, 0)) [(3, 1), (1, 2), (2, 3)] none none true none = .ok an ∧
    ∃ fig, drawLinearFig an "uncensored" = .ok fig ∧ fig.ylabel = "Signals" := by
  have hsh := demoLin_shift
  have h1 : ∃ an, analysisRun 1000 demoLin (fun _ => (0, 0, 0)) [(3, 1), (1, 2), (2, 3)] none none true none = .ok an := by
    simp [analysisRun, hsh, boxCoxSample, boxCoxThreshold, analysisFits, demoLin]
  obtain ⟨an, h1⟩ := h1
  obtain ⟨fig, -, -, h2, h3, -⟩ := (C166_violated _ _ _ _ _ _ _ _ _ h1).1 rfl
  exact ⟨an, h1, fig, h2, h3⟩

/-- The chaos figure on unsorted data. -/
example : ∃ fig, drawChaosFig 1 (fun x => x ^ 2) [(2, 5), (1, 1), (3, 8)] = .ok fig ∧ ∀ y, ((1 : ℝ), y) ∈ painted fig.line ↔ y = 1 ^ 2 := by
  obtain ⟨fig, h, -, h2, -⟩ := (C166_chaos 1 (fun x => x ^ 2) [(2, 5), (1, 1), (3, 8)]).2 rfl
  exact ⟨fig, h, h2 (1, 1) (by simp)⟩

end Verif.Props
