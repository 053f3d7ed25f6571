import Verif.Py.Sample
import Mathlib.MeasureTheory.Constructions.Pi
import Mathlib.MeasureTheory.Integral.Bochner.Set
import Mathlib.Data.Fintype.Fin

/-!
# Rank of an observation among simulated values, and sample quantiles

Helpers for C128.
-/

namespace Verif.Props
open Verif.Py MeasureTheory Set

/-! ## Quantiles and counts -/

theorem sorted_count {s : List ℝ} (hs : s.Pairwise (· ≤ ·)) (v : ℝ) (i : ℕ) (hi : i < s.length) :
    s.getD i 0 ≤ v ↔ i < s.countP (fun t => decide (t ≤ v)) := by
  induction s generalizing i with
  | nil => simp at hi
  | cons b s ih =>
    rw [List.pairwise_cons] at hs
    rw [List.countP_cons]
    by_cases hb : b ≤ v
    · simp only [hb, decide_true, if_true]
      cases i with
      | zero => simp [hb]
      | succ i =>
        rw [List.getD_cons_succ, ih hs.2 i (by simpa using hi)]
        omega
    · have h0 : s.countP (fun t => decide (t ≤ v)) = 0 := by
        rw [List.countP_eq_zero]
        intro t ht
        have := hs.1 t ht
        simp only [decide_eq_true_eq, not_le]
        linarith
      have hd : decide (b ≤ v) = false := by simpa using hb
      rw [h0, hd]
      simp only [Bool.false_eq_true, if_false, add_zero, Nat.not_lt_zero, iff_false, not_le]
      have hb' : v < b := not_le.mp hb
      cases i with
      | zero => simpa using hb'
      | succ i =>
        have hi' : i < s.length := by simpa using hi
        rw [List.getD_cons_succ, List.getD_eq_getElem _ _ hi']
        exact hb'.trans_le (hs.1 _ (List.getElem_mem hi'))

/-- The sample quantile is below `v` when at least `J+1` values are, and only if at least `J` are; `J` is `q * size` rounded. -/
theorem quantile_count {xs : List ℝ} (hne : xs ≠ []) {q : ℝ} (hq0 : 0 ≤ q) (hq1 : q ≤ 1) :
    ∃ J : ℕ, J ≤ xs.length ∧ q * xs.length - 1 / 2 ≤ J ∧ (J : ℝ) ≤ q * xs.length + 1 / 2 ∧
      ∀ ys : List ℝ, ys.length = xs.length → ∀ v : ℝ,
        (J + 1 ≤ ys.countP (fun t => decide (t ≤ v)) → quantile ys q ≤ v) ∧
        (quantile ys q ≤ v → J ≤ ys.countP (fun t => decide (t ≤ v))) := by
  have hl : 0 < xs.length := List.length_pos_iff.mpr hne
  have hl' : (0 : ℝ) < xs.length := by exact_mod_cast hl
  have hcount : ∀ (ys : List ℝ) (v : ℝ), ys.countP (fun t => decide (t ≤ v)) = (sortR ys).countP (fun t => decide (t ≤ v)) :=
    fun ys v => ((sortR_perm ys).countP_eq _).symm
  set t := q * xs.length - 1 / 2 with ht
  by_cases h1 : t < 0
  · refine ⟨0, Nat.zero_le _, by simpa using h1.le, by push_cast; nlinarith, fun ys hys v => ⟨fun h => ?_, fun _ => Nat.zero_le _⟩⟩
    rw [quantile, hys, ← ht, atPos, if_pos h1, sorted_count (sortR_pairwise ys) v 0 (by rw [sortR_length, hys]; exact hl), ← hcount]
    omega
  · by_cases h2 : (xs.length : ℝ) - 1 ≤ t
    · refine ⟨xs.length, le_rfl, by nlinarith, by linarith, fun ys hys v => ⟨fun h => ?_, fun h => ?_⟩⟩
      · have := List.countP_le_length (p := fun t => decide (t ≤ v)) (l := ys)
        omega
      · rw [quantile, hys, ← ht, atPos, if_neg h1, sortR_length, hys, if_pos h2,
          sorted_count (sortR_pairwise ys) v _ (by rw [sortR_length, hys]; omega), ← hcount] at h
        omega
    · have h1' := not_lt.mp h1
      have h2' := not_le.mp h2
      have hf := Nat.floor_le h1'
      have hf2 := Nat.lt_floor_add_one t
      have hi : ⌊t⌋₊ + 1 < xs.length := by
        have : ((⌊t⌋₊ + 1 : ℕ) : ℝ) < (xs.length : ℝ) := by push_cast; linarith
        exact_mod_cast this
      refine ⟨⌊t⌋₊ + 1, hi.le, by push_cast; exact hf2.le, by push_cast; linarith, fun ys hys v => ?_⟩
      have hm := getD_mono (sortR_pairwise ys) (Nat.le_succ ⌊t⌋₊) (by rw [sortR_length, hys]; exact hi)
      simp only [Nat.succ_eq_add_one] at hm
      have hval : quantile ys q
          = (1 - (t - ⌊t⌋₊)) * (sortR ys).getD ⌊t⌋₊ 0 + (t - ⌊t⌋₊) * (sortR ys).getD (⌊t⌋₊ + 1) 0 := by
        rw [quantile, hys, ← ht, atPos, if_neg h1, sortR_length, hys, if_neg h2]
      constructor
      · intro h
        rw [hcount, Nat.succ_le_iff, ← sorted_count (sortR_pairwise ys) v _ (by rw [sortR_length, hys]; exact hi)] at h
        rw [hval]
        nlinarith
      · intro h
        rw [hcount, Nat.succ_le_iff, ← sorted_count (sortR_pairwise ys) v _ (by rw [sortR_length, hys]; omega)]
        rw [hval] at h
        nlinarith

/-! ## Ranks -/

/-- Number of values above the value of index `i`. -/
noncomputable def rankOf {N : ℕ} (t : Fin N → ℝ) (i : Fin N) : ℕ := (Finset.univ.filter fun k => t i < t k).card

theorem rankOf_lt {N : ℕ} (t : Fin N → ℝ) (i : Fin N) : rankOf t i < N := by
  have h : (Finset.univ.filter fun k => t i < t k) ⊂ Finset.univ := by
    rw [Finset.filter_ssubset]
    exact ⟨i, Finset.mem_univ _, lt_irrefl _⟩
  simpa [rankOf] using Finset.card_lt_card h

theorem rankOf_anti {N : ℕ} (t : Fin N → ℝ) {i j : Fin N} (h : t i < t j) : rankOf t j < rankOf t i := by
  refine Finset.card_lt_card ⟨?_, ?_⟩
  · intro k hk
    simp only [Finset.mem_filter, Finset.mem_univ, true_and] at hk ⊢
    exact h.trans hk
  · intro hsub
    have := hsub (show j ∈ _ by simpa using h)
    simp at this

theorem rankOf_count {N : ℕ} (t : Fin N → ℝ) (ht : Function.Injective t) (j : ℕ) :
    (Finset.univ.filter fun i => j ≤ rankOf t i).card = N - j := by
  have hinj : Function.Injective (fun i => (⟨rankOf t i, rankOf_lt t i⟩ : Fin N)) := by
    intro a b hab
    have hab' : rankOf t a = rankOf t b := congrArg Fin.val hab
    by_contra hne
    rcases lt_or_gt_of_ne (fun h => hne (ht h)) with h | h
    · have := rankOf_anti t h; omega
    · have := rankOf_anti t h; omega
  have hbij := Finite.injective_iff_bijective.mp hinj
  have h1 : (Finset.univ.filter fun i => j ≤ rankOf t i).card = (Finset.univ.filter fun r : Fin N => j ≤ (r : ℕ)).card := by
    refine Finset.card_bijective _ hbij fun i => ?_
    simp
  rw [h1]
  have h2 : (Finset.univ.filter fun r : Fin N => j ≤ (r : ℕ)).card = ((Finset.range N).filter fun r => j ≤ r).card := by
    rw [Finset.card_filter, Finset.card_filter, Finset.sum_range]
  rw [h2]
  have : (Finset.range N).filter (fun r => j ≤ r) = Finset.Ico j N := by
    ext r; simp [and_comm]
  rw [this, Nat.card_Ico]

section Law
variable (τ : Measure ℝ) [IsProbabilityMeasure τ]

theorem rankOf_measurable {N : ℕ} (i : Fin N) : Measurable fun t : Fin N → ℝ => rankOf t i := by
  simp only [rankOf, Finset.card_filter]
  refine Finset.measurable_sum _ fun k _ => ?_
  exact Measurable.ite (measurableSet_lt (measurable_pi_apply i) (measurable_pi_apply k)) measurable_const measurable_const

theorem no_ties (hτ : ∀ v, τ {v} = 0) (N : ℕ) : ∀ᵐ t ∂(Measure.pi fun _ : Fin (N + 1) => τ), Function.Injective t := by
  have pair : ∀ i k : Fin (N + 1), i ≠ k → ∀ᵐ t ∂(Measure.pi fun _ : Fin (N + 1) => τ), t i ≠ t k := by
    intro i k hik
    have hp := measurePreserving_piFinSuccAbove (fun _ : Fin (N + 1) => τ) i
    obtain ⟨j, hj⟩ := Fin.exists_succAbove_eq (Ne.symm hik)
    have hmeas : MeasurableSet {q : ℝ × (Fin N → ℝ) | q.1 = q.2 j} :=
      measurableSet_eq_fun measurable_fst ((measurable_pi_apply j).comp measurable_snd)
    have h0 : (τ.prod (Measure.pi fun _ : Fin N => τ)) {q | q.1 = q.2 j} = 0 := by
      rw [← Measure.prod_swap, Measure.map_apply measurable_swap hmeas, Measure.measure_prod_null (measurable_swap hmeas)]
      refine Filter.Eventually.of_forall fun u => ?_
      have : Prod.mk u ⁻¹' (Prod.swap ⁻¹' {q : ℝ × (Fin N → ℝ) | q.1 = q.2 j}) = {u j} := by
        ext v; simp
      change τ _ = 0
      rw [this]
      exact hτ _
    have h1 := hp.measure_preimage hmeas.nullMeasurableSet
    rw [h0] at h1
    rw [ae_iff]
    convert h1 using 2
    ext t
    simp [MeasurableEquiv.piFinSuccAbove, Fin.insertNthEquiv, Fin.removeNth, hj]
  have all : ∀ᵐ t ∂(Measure.pi fun _ : Fin (N + 1) => τ), ∀ i k : Fin (N + 1), i ≠ k → t i ≠ t k := by
    rw [ae_all_iff]; intro i
    rw [ae_all_iff]; intro k
    by_cases h : i = k
    · exact Filter.Eventually.of_forall fun t h' => absurd h h'
    · filter_upwards [pair i k h] with t ht _ using ht
  filter_upwards [all] with t ht i k hik
  by_contra hne
  exact ht i k hne hik

/-- The rank of one of `N+1` independent values with the same continuous law is uniform. -/
theorem rankOf_uniform (hτ : ∀ v, τ {v} = 0) (N j : ℕ) (hj : j ≤ N + 1) :
    (Measure.pi fun _ : Fin (N + 1) => τ).real {t | j ≤ rankOf t 0} = ((N : ℝ) + 1 - j) / (N + 1) := by
  set P := Measure.pi fun _ : Fin (N + 1) => τ with hP
  have hms : ∀ i : Fin (N + 1), MeasurableSet {t : Fin (N + 1) → ℝ | j ≤ rankOf t i} := fun i =>
    rankOf_measurable i (measurableSet_Ici (a := j))
  -- all indices have the same probability
  have hsym : ∀ i : Fin (N + 1), P.real {t | j ≤ rankOf t i} = P.real {t | j ≤ rankOf t 0} := by
    intro i
    have hmp := measurePreserving_piCongrLeft (α := fun _ : Fin (N + 1) => ℝ) (fun _ => τ) (Equiv.swap 0 i)
    have h := hmp.measure_preimage (hms i).nullMeasurableSet
    rw [measureReal_def, measureReal_def, ← h]
    congr 2
    ext t
    have hval : ∀ k, (MeasurableEquiv.piCongrLeft (fun _ : Fin (N + 1) => ℝ) (Equiv.swap 0 i)) t k = t (Equiv.swap 0 i k) := by
      intro k
      have := Equiv.piCongrLeft_apply_apply (fun _ : Fin (N + 1) => ℝ) (Equiv.swap 0 i) t (Equiv.swap 0 i k)
      rw [Equiv.swap_apply_self] at this
      exact this
    have hr : rankOf ((MeasurableEquiv.piCongrLeft (fun _ : Fin (N + 1) => ℝ) (Equiv.swap 0 i)) t) i = rankOf t 0 := by
      unfold rankOf
      refine Finset.card_bijective (Equiv.swap 0 i) (Equiv.bijective _) fun k => ?_
      simp only [Finset.mem_filter, Finset.mem_univ, true_and, hval, Equiv.swap_apply_right]
    simp only [mem_preimage, mem_ofPred_eq, hr]
  -- the indicators sum to the number of indices of rank at least j
  have hsum : ∑ i : Fin (N + 1), P.real {t | j ≤ rankOf t i} = (N : ℝ) + 1 - j := by
    have h1 : ∀ i : Fin (N + 1), P.real {t | j ≤ rankOf t i} = ∫ t, ({t | j ≤ rankOf t i} : Set _).indicator (fun _ => (1 : ℝ)) t ∂P := by
      intro i
      rw [integral_indicator_const _ (hms i)]
      simp
    simp only [h1]
    rw [← integral_finsetSum _ fun i _ => (integrable_const (1 : ℝ)).indicator (hms i)]
    have h2 : (fun t => ∑ i : Fin (N + 1), ({t | j ≤ rankOf t i} : Set _).indicator (fun _ => (1 : ℝ)) t)
        =ᵐ[P] fun _ => (N : ℝ) + 1 - j := by
      filter_upwards [no_ties τ hτ N] with t ht
      have := rankOf_count t ht j
      rw [Finset.card_filter] at this
      have h3 : ((∑ i : Fin (N + 1), if j ≤ rankOf t i then 1 else 0 : ℕ) : ℝ) = ((N + 1 - j : ℕ) : ℝ) := by rw [this]
      rw [Nat.cast_sub hj] at h3
      push_cast at h3
      rw [← h3]
      refine Finset.sum_congr rfl fun i _ => ?_
      simp [indicator]
    rw [integral_congr_ae h2]
    simp
  simp only [hsym] at hsum
  rw [Finset.sum_const, Finset.card_univ, Fintype.card_fin, nsmul_eq_mul] at hsum
  push_cast at hsum
  rw [eq_div_iff (by positivity)]
  linarith

variable {Ω Ω' : Type*} [MeasurableSpace Ω] [MeasurableSpace Ω']

/-- The number of simulated values above an independent value with the same continuous law is uniform. -/
theorem above_uniform (hτ : ∀ v, τ {v} = 0) (P : Measure Ω) (P' : Measure Ω') [IsProbabilityMeasure P] [IsProbabilityMeasure P']
    (T : Ω → ℝ) (T' : ℕ → Ω' → ℝ) (hT : Measurable T) (hT' : ∀ k, Measurable (T' k)) (N : ℕ) (hlaw : P.map T = τ)
    (hlaw' : P'.map (fun ω (k : Fin N) => T' k ω) = Measure.pi fun _ => τ) (j : ℕ) (hj : j ≤ N + 1) :
    (P.prod P').real {ω | j ≤ ((Finset.range N).filter fun k => T ω.1 ≤ T' k ω.2).card} = ((N : ℝ) + 1 - j) / (N + 1) := by
  have hm' : Measurable fun ω (k : Fin N) => T' k ω := measurable_pi_lambda _ fun k => hT' k
  let c : Ω × Ω' → Fin (N + 1) → ℝ := fun ω => Fin.cons (T ω.1) fun k => T' k ω.2
  have hc : MeasurePreserving c (P.prod P') (Measure.pi fun _ : Fin (N + 1) => τ) := by
    have h1 : MeasurePreserving T P τ := ⟨hT, hlaw⟩
    have h2 : MeasurePreserving (fun ω (k : Fin N) => T' k ω) P' (Measure.pi fun _ => τ) := ⟨hm', hlaw'⟩
    have h3 := (measurePreserving_piFinSuccAbove (fun _ : Fin (N + 1) => τ) 0).symm
    have h4 := h3.comp (h1.prod h2)
    have he : c = (MeasurableEquiv.piFinSuccAbove (fun _ : Fin (N + 1) => ℝ) 0).symm ∘
        Prod.map T (fun ω (k : Fin N) => T' k ω) := by
      funext ω
      simp [c, MeasurableEquiv.piFinSuccAbove, Fin.insertNthEquiv]
    rw [he]
    exact h4
  have hpre := hc.measure_preimage (rankOf_measurable (N := N + 1) 0 (measurableSet_Ici (a := j))).nullMeasurableSet
  have hreal : (P.prod P').real (c ⁻¹' {t | j ≤ rankOf t 0}) = (Measure.pi fun _ : Fin (N + 1) => τ).real {t | j ≤ rankOf t 0} :=
    congrArg ENNReal.toReal hpre
  rw [← rankOf_uniform τ hτ N j hj, ← hreal]
  refine measureReal_congr ?_
  have hties := hc.quasiMeasurePreserving.ae (no_ties τ hτ N)
  filter_upwards [hties] with ω hω
  apply propext
  change j ≤ _ ↔ j ≤ rankOf (c ω) 0
  have : rankOf (c ω) 0 = ((Finset.range N).filter fun k => T ω.1 ≤ T' k ω.2).card := by
    rw [rankOf, Fin.card_filter_univ_succ', Finset.card_filter, Finset.card_filter, Finset.sum_range]
    simp only [lt_self_iff_false, if_false, zero_add]
    refine Finset.sum_congr rfl fun k _ => ?_
    have hne : c ω 0 ≠ c ω k.succ := fun h => by
      have := hω h
      exact absurd this (Fin.succ_ne_zero k).symm
    have : (c ω 0 < c ω k.succ) ↔ T ω.1 ≤ T' k ω.2 := by
      rw [lt_iff_le_and_ne]
      simp only [c, Fin.cons_zero, Fin.cons_succ] at hne ⊢
      exact ⟨fun h => h.1, fun h => ⟨h, hne⟩⟩
    simp only [Function.comp, this]
  rw [this]

end Law

end Verif.Props
