import Verif.Model.Criterion
import Verif.Props.AdaptiveSignal
import Verif.Props.MonteCarlo
import Mathlib.Algebra.Order.BigOperators.Group.List

/-!
# C89: the adaptive criterion
-/

namespace Verif.Props
open Verif.Py Verif.Model

/-- Mean squared distance of the simulated values to the reference value. -/
noncomputable def msd (xs : List ℝ) (c : ℝ) : ℝ := (xs.map fun x => (x - c) ^ 2).sum / xs.length

theorem sum_sub_const (xs : List ℝ) (c : ℝ) : (xs.map fun x => x - c).sum = xs.sum - xs.length * c := by
  induction xs with
  | nil => simp
  | cons a l ih => simp only [List.map_cons, List.sum_cons, ih, List.length_cons]; push_cast; ring

theorem sum_sq_shift (xs : List ℝ) (c m : ℝ) :
    (xs.map fun x => (x - c) ^ 2).sum
      = (xs.map fun x => (x - m) ^ 2).sum + 2 * (m - c) * (xs.sum - xs.length * m) + xs.length * (m - c) ^ 2 := by
  induction xs with
  | nil => simp
  | cons a l ih => simp only [List.map_cons, List.sum_cons, ih, List.length_cons]; push_cast; ring

theorem sum_sq_nonneg (xs : List ℝ) (c : ℝ) : 0 ≤ (xs.map fun x => (x - c) ^ 2).sum :=
  List.sum_nonneg (by simp only [List.mem_map]; rintro _ ⟨x, _, rfl⟩; positivity)

/-- Bias-variance decomposition around the mean. -/
theorem msd_eq (xs : List ℝ) (c : ℝ) (h : xs ≠ []) :
    msd xs c = (xs.map fun x => (x - listMean xs) ^ 2).sum / xs.length + (listMean xs - c) ^ 2 := by
  have hl : (xs.length : ℝ) ≠ 0 := by exact_mod_cast (List.length_pos_iff.mpr h).ne'
  have hm : xs.length * listMean xs = xs.sum := by rw [listMean]; field_simp
  rw [msd, sum_sq_shift xs c (listMean xs), hm]
  field_simp
  ring

theorem sum_sq_single (a : ℝ) : ([a].map fun x => (x - listMean [a]) ^ 2).sum = 0 := by simp [listMean]

/-- The criterion of one size is between one and two times the mean squared distance to the reference. -/
theorem critDefect_bounds (xs : List ℝ) (c : ℝ) (h : xs ≠ []) : msd xs c ≤ critDefect xs c ∧ critDefect xs c ≤ 2 * msd xs c := by
  rw [msd_eq xs c h, critDefect, listVar]
  have hs := sum_sq_nonneg xs (listMean xs)
  have hb := sq_nonneg (listMean xs - c)
  match xs, h with
  | [a], _ => rw [sum_sq_single]; simp only [zero_div, zero_add]; constructor <;> linarith
  | a :: b :: l, _ =>
    generalize ((a :: b :: l).map fun x => (x - listMean (a :: b :: l)) ^ 2).sum = S at hs ⊢
    generalize (listMean (a :: b :: l) - c) ^ 2 = B at hb ⊢
    have hn : (2 : ℝ) ≤ ((a :: b :: l).length : ℝ) := by simp only [List.length_cons]; push_cast; linarith [l.length.cast_nonneg (α := ℝ)]
    generalize ((a :: b :: l).length : ℝ) = n at hn ⊢
    have h1 : S / n ≤ S / (n - 1) := div_le_div_of_nonneg_left hs (by linarith) (by linarith)
    have h2 : S / (n - 1) ≤ 2 * (S / n) := by
      rw [div_le_iff₀ (by linarith)]
      rw [mul_div_assoc', div_mul_eq_mul_div, le_div_iff₀ (by linarith)]
      nlinarith
    constructor <;> linarith

theorem msd_zero_iff (xs : List ℝ) (c : ℝ) (h : xs ≠ []) : msd xs c = 0 ↔ ∀ x ∈ xs, x = c := by
  have hl : (xs.length : ℝ) ≠ 0 := by exact_mod_cast (List.length_pos_iff.mpr h).ne'
  rw [msd, div_eq_zero_iff, or_iff_left hl]
  clear hl h
  induction xs with
  | nil => simp
  | cons a l ih =>
    have h1 := sq_nonneg (a - c)
    have h2 := sum_sq_nonneg l c
    simp only [List.map_cons, List.sum_cons, List.mem_cons, forall_eq_or_imp]
    rw [add_eq_zero_iff_of_nonneg h1 h2, pow_eq_zero_iff (by norm_num), sub_eq_zero]
    exact and_congr_right fun _ => ih

theorem msd_nonneg (xs : List ℝ) (c : ℝ) : 0 ≤ msd xs c :=
  div_nonneg (sum_sq_nonneg xs c) (Nat.cast_nonneg _)

theorem msd_le (xs : List ℝ) (c R : ℝ) (h : xs ≠ []) (hR : ∀ x ∈ xs, |x - c| ≤ R) : msd xs c ≤ R ^ 2 := by
  have hl : (0 : ℝ) < xs.length := by exact_mod_cast List.length_pos_iff.mpr h
  rw [msd, div_le_iff₀ hl]
  clear hl h
  induction xs with
  | nil => simp
  | cons a l ih =>
    have := ih (fun x hx => hR x (List.mem_cons_of_mem _ hx))
    have ha : (a - c) ^ 2 ≤ R ^ 2 := by
      rw [← sq_abs]; exact pow_le_pow_left₀ (abs_nonneg _) (hR a (by simp)) 2
    simp only [List.map_cons, List.sum_cons, List.length_cons]; push_cast
    linarith

theorem listMean_le_of {xs : List ℝ} {R : ℝ} (hne : xs ≠ []) (h : ∀ x ∈ xs, x ≤ R) : listMean xs ≤ R := by
  have hl : (0 : ℝ) < xs.length := by exact_mod_cast List.length_pos_iff.mpr hne
  rw [listMean, div_le_iff₀ hl]
  have := List.sum_le_card_nsmul xs R h
  rw [nsmul_eq_mul] at this; linarith

theorem listMean_mono_zip {f g : List ℝ → ℝ → ℝ} (a : List (List ℝ)) (b : List ℝ)
    (h : ∀ p ∈ a.zip b, f p.1 p.2 ≤ g p.1 p.2) :
    listMean (List.zipWith f a b) ≤ listMean (List.zipWith g a b) := by
  rw [listMean, listMean, List.length_zipWith, List.length_zipWith]
  apply div_le_div_of_nonneg_right _ (Nat.cast_nonneg _)
  induction a generalizing b with
  | nil => simp
  | cons x a ih =>
    cases b with
    | nil => simp
    | cons y b =>
      simp only [List.zipWith_cons_cons, List.sum_cons]
      have h1 := h (x, y) (by simp)
      have h2 := ih b (fun p hp => h p (by simp [hp]))
      simp only at h1; linarith

/-- The average over the defect sizes of the mean squared distance between simulated and reference POD. -/
noncomputable def msdAll (sims : List (List ℝ)) (current : List ℝ) : ℝ := listMean (List.zipWith msd sims current)

theorem zip_mem_left {α β : Type} {a : List α} {b : List β} {p : α × β} (h : p ∈ a.zip b) : p.1 ∈ a :=
  (List.of_mem_zip (a := p.1) (b := p.2) h).1

theorem candCriterion_ok (sims : List (List ℝ)) (current : List ℝ) (hlen : sims.length ≤ current.length) (hne : sims ≠ []) :
    candCriterion sims current = .ok (.fin (Real.sqrt (listMean (List.zipWith critDefect sims current)))) := by
  rw [candCriterion, if_neg (by omega), if_neg hne]

theorem msdAll_nonneg (sims : List (List ℝ)) (current : List ℝ) : 0 ≤ msdAll sims current := by
  refine div_nonneg (List.sum_nonneg ?_) (Nat.cast_nonneg _)
  intro x hx
  rw [← List.map_uncurry_zip_eq_zipWith] at hx
  obtain ⟨p, _, rfl⟩ := List.mem_map.mp hx
  exact msd_nonneg _ _

/-- **C89.**  For simulated samples that are not empty and at least one defect size, the criterion is a number `v ≥ 0`; its square is
at least the average over the sizes of the mean squared distance between the simulated POD values and the reference POD, and at most
twice that average. -/
theorem C89_criterion_mean_square (sims : List (List ℝ)) (current : List ℝ) (hlen : sims.length ≤ current.length)
    (hne : sims ≠ []) (hs : ∀ l ∈ sims, l ≠ []) :
    ∃ v, candCriterion sims current = .ok (.fin v) ∧ 0 ≤ v ∧ msdAll sims current ≤ v ^ 2 ∧ v ^ 2 ≤ 2 * msdAll sims current := by
  refine ⟨_, candCriterion_ok sims current hlen hne, Real.sqrt_nonneg _, ?_⟩
  have h1 : msdAll sims current ≤ listMean (List.zipWith critDefect sims current) :=
    listMean_mono_zip sims current fun p hp => (critDefect_bounds p.1 p.2 (hs _ (zip_mem_left hp))).1
  have h2 : listMean (List.zipWith critDefect sims current) ≤ 2 * msdAll sims current := by
    have := listMean_mono_zip (f := critDefect) (g := fun a b => 2 * msd a b) sims current
      fun p hp => (critDefect_bounds p.1 p.2 (hs _ (zip_mem_left hp))).2
    refine this.trans (le_of_eq ?_)
    have hz : List.zipWith (fun a b => 2 * msd a b) sims current = (List.zipWith msd sims current).map (2 * ·) := by
      rw [List.map_zipWith]
    rw [hz, msdAll, listMean, listMean, List.sum_map_mul_left, List.length_map]
    simp only [List.map_id', mul_div_assoc]
  rw [Real.sq_sqrt ((msdAll_nonneg _ _).trans h1)]
  exact ⟨h1, h2⟩

example : ∃ v, candCriterion [[0, 1], [1, 1]] [0, 1] = .ok (.fin v) ∧ 1 / 4 ≤ v ^ 2 ∧ v ^ 2 ≤ 1 / 2 := by
  obtain ⟨v, h, _, h1, h2⟩ := C89_criterion_mean_square [[0, 1], [1, 1]] [0, 1] (by simp) (by simp) (by simp)
  have hm : msdAll [[0, 1], [1, 1]] [0, 1] = 1 / 4 := by norm_num [msdAll, msd, listMean]
  rw [hm] at h1 h2
  exact ⟨v, h, h1, by linarith⟩

/-- Sum of the squared differences over all ordered pairs. -/
theorem sum_pairs_sq (xs : List ℝ) :
    (xs.map fun a : ℝ => (xs.map fun b : ℝ => (a - b) ^ 2).sum).sum
      = 2 * (xs.length : ℝ) * (xs.map fun x => (x - listMean xs) ^ 2).sum := by
  by_cases h : xs = []
  · simp [h]
  have hl : (xs.length : ℝ) ≠ 0 := by exact_mod_cast (List.length_pos_iff.mpr h).ne'
  have hm : xs.length * listMean xs = xs.sum := by rw [listMean]; field_simp
  have e : ∀ a : ℝ, (xs.map fun b => (a - b) ^ 2).sum
      = (xs.map fun x => (x - listMean xs) ^ 2).sum + xs.length * (a - listMean xs) ^ 2 := by
    intro a
    have := sum_sq_shift xs a (listMean xs)
    rw [hm, sub_self, mul_zero, add_zero] at this
    rw [show (fun b => (a - b) ^ 2) = fun b => (b - a) ^ 2 from funext fun b => by ring, this]
    ring
  simp only [e]
  rw [List.sum_map_add, List.sum_map_mul_left, List.map_const', List.sum_replicate, nsmul_eq_mul]
  ring

/-- **C89, value.**  The square of the criterion is the average over the sizes of: half the mean squared difference between two distinct
simulated values, plus the squared distance between their mean and the reference. -/
theorem C89_criterion_value (sims : List (List ℝ)) (current : List ℝ) (hlen : sims.length ≤ current.length)
    (hne : sims ≠ []) (hs : ∀ l ∈ sims, 2 ≤ l.length) :
    ∃ v, candCriterion sims current = .ok (.fin v) ∧ 0 ≤ v ∧
      v ^ 2 = listMean (List.zipWith (fun xs c =>
        (xs.map fun a => (xs.map fun b => (a - b) ^ 2).sum).sum / (2 * (xs.length * (xs.length - 1)))
          + (listMean xs - c) ^ 2) sims current) := by
  refine ⟨_, candCriterion_ok sims current hlen hne, Real.sqrt_nonneg _, ?_⟩
  obtain ⟨v, hv, -, h1, -⟩ := C89_criterion_mean_square sims current hlen hne fun l hl h => by
    have := hs l hl; rw [h] at this; simp at this
  rw [candCriterion_ok sims current hlen hne] at hv
  have hnn : 0 ≤ listMean (List.zipWith critDefect sims current) :=
    (msdAll_nonneg _ _).trans (listMean_mono_zip sims current fun p hp => (critDefect_bounds p.1 p.2 (by
      intro h
      have := hs _ (zip_mem_left hp)
      rw [h] at this; simp at this)).1)
  rw [Real.sq_sqrt hnn]
  congr 1
  rw [← List.map_uncurry_zip_eq_zipWith, ← List.map_uncurry_zip_eq_zipWith]
  apply List.map_congr_left
  intro p hp
  have h2 : (2 : ℝ) ≤ p.1.length := by exact_mod_cast hs _ (zip_mem_left hp)
  have ha : (p.1.length : ℝ) - 1 ≠ 0 := by linarith
  have hb : (p.1.length : ℝ) ≠ 0 := by linarith
  simp only [Function.uncurry, critDefect, listVar, sum_pairs_sq]
  field_simp

/-- Values 0 and 1, then 1 and 1, with references 0 and 1: (1/2 + 1/4) / 2. -/
example : ∃ v, candCriterion [[0, 1], [1, 1]] [0, 1] = .ok (.fin v) ∧ v ^ 2 = 3 / 8 := by
  obtain ⟨v, h, _, h1⟩ := C89_criterion_value [[0, 1], [1, 1]] [0, 1] (by simp) (by simp) (by simp)
  exact ⟨v, h, by rw [h1]; norm_num [listMean]⟩

/-- **C89, outcome.**  The criterion raises IndexError exactly when there are more sizes than reference values, is NaN exactly when there is no
size, and is a number otherwise. -/
theorem C89_criterion_outcome (sims : List (List ℝ)) (current : List ℝ) :
    (Raises (candCriterion sims current) .indexError ↔ current.length < sims.length) ∧
    (candCriterion sims current = .ok .nan ↔ sims = []) ∧
    ((∃ v, candCriterion sims current = .ok (.fin v)) ↔ sims ≠ [] ∧ sims.length ≤ current.length) := by
  unfold candCriterion
  by_cases h1 : current.length < sims.length
  · have hne : sims ≠ [] := by rintro rfl; simp at h1
    rw [if_pos h1]
    exact ⟨⟨fun _ => h1, fun _ => ⟨_, rfl⟩⟩, ⟨fun h => (by cases h), fun h => absurd h hne⟩,
      ⟨fun ⟨v, h⟩ => (by cases h), fun h => absurd h.2 (by omega)⟩⟩
  · rw [if_neg h1]
    by_cases h2 : sims = []
    · rw [if_pos h2]
      exact ⟨⟨fun ⟨m, h⟩ => (by cases h), fun h => absurd h h1⟩, ⟨fun _ => h2, fun _ => rfl⟩,
        ⟨fun ⟨v, h⟩ => (by cases h), fun h => absurd h2 h.1⟩⟩
    · rw [if_neg h2]
      exact ⟨⟨fun ⟨m, h⟩ => (by cases h), fun h => absurd h h1⟩, ⟨fun h => (by cases h), fun h => absurd h h2⟩,
        ⟨fun _ => ⟨h2, by omega⟩, fun _ => ⟨_, rfl⟩⟩⟩

example : candCriterion [] [0.5] = .ok .nan ∧ Raises (candCriterion [[0], [1]] [0.5]) .indexError :=
  ⟨(C89_criterion_outcome _ _).2.1.mpr rfl, (C89_criterion_outcome _ _).1.mpr (by simp)⟩

/-- **C89.**  The criterion is zero exactly when every simulated POD value equals the reference POD of its size. -/
theorem C89_criterion_zero (sims : List (List ℝ)) (current : List ℝ) (hlen : sims.length ≤ current.length)
    (hne : sims ≠ []) (hs : ∀ l ∈ sims, l ≠ []) :
    candCriterion sims current = .ok (.fin 0) ↔ ∀ p ∈ sims.zip current, ∀ x ∈ p.1, x = p.2 := by
  obtain ⟨v, hv, h0, h1, h2⟩ := C89_criterion_mean_square sims current hlen hne hs
  have hz : candCriterion sims current = .ok (.fin 0) ↔ msdAll sims current = 0 := by
    rw [hv]
    constructor
    · intro h
      injection h with h; injection h with h
      subst h
      exact le_antisymm (by simpa using h1) (msdAll_nonneg _ _)
    · intro h
      rw [h] at h2
      have : v = 0 := by
        have := sq_nonneg v
        exact pow_eq_zero_iff (two_ne_zero) |>.mp (by linarith)
      rw [this]
  rw [hz, msdAll, listMean, div_eq_zero_iff]
  have hl : ((List.zipWith msd sims current).length : ℝ) ≠ 0 := by
    rw [List.length_zipWith, min_eq_left hlen]
    exact_mod_cast (List.length_pos_iff.mpr hne).ne'
  rw [or_iff_left hl]
  clear hl hz h1 h2 hv hlen hne
  induction sims generalizing current with
  | nil => simp
  | cons a sims ih =>
    cases current with
    | nil => simp
    | cons c current =>
      have h3 : 0 ≤ (List.zipWith msd sims current).sum := by
        refine List.sum_nonneg ?_
        intro x hx
        rw [← List.map_uncurry_zip_eq_zipWith] at hx
        obtain ⟨p, _, rfl⟩ := List.mem_map.mp hx
        exact msd_nonneg _ _
      rw [List.zipWith_cons_cons, List.sum_cons, add_eq_zero_iff_of_nonneg (msd_nonneg _ _) h3,
        msd_zero_iff a c (hs a (by simp))]
      have := ih current (fun l hl => hs l (by simp [hl]))
      simp only [List.zip_cons_cons, List.mem_cons, forall_eq_or_imp]
      exact and_congr_right fun _ => this

example : candCriterion [[1 / 2, 1 / 2], [1]] [1 / 2, 1] = .ok (.fin 0) :=
  (C89_criterion_zero _ _ (by simp) (by simp) (by simp)).mpr (by simp)

/-- **C89.**  When no simulated POD value is further than `R` from the reference POD, the criterion is at most `√2 · R`. -/
theorem C89_criterion_bounded (sims : List (List ℝ)) (current : List ℝ) (hlen : sims.length ≤ current.length)
    (hne : sims ≠ []) (hs : ∀ l ∈ sims, l ≠ []) (R : ℝ) (hR : ∀ p ∈ sims.zip current, ∀ x ∈ p.1, |x - p.2| ≤ R) :
    ∃ v, candCriterion sims current = .ok (.fin v) ∧ v ≤ Real.sqrt 2 * R := by
  obtain ⟨v, hv, h0, h1, h2⟩ := C89_criterion_mean_square sims current hlen hne hs
  refine ⟨v, hv, ?_⟩
  have hz : List.zipWith msd sims current ≠ [] := by
    intro h
    have := congrArg List.length h
    rw [List.length_zipWith, min_eq_left hlen] at this
    exact hne (List.eq_nil_of_length_eq_zero this)
  have hm : msdAll sims current ≤ R ^ 2 := by
    refine listMean_le_of hz ?_
    intro x hx
    rw [← List.map_uncurry_zip_eq_zipWith] at hx
    obtain ⟨p, hp, rfl⟩ := List.mem_map.mp hx
    exact msd_le p.1 p.2 R (hs _ (zip_mem_left hp)) (hR p hp)
  have hRn : 0 ≤ R := by
    cases sims with
    | nil => exact absurd rfl hne
    | cons a l =>
      cases current with
      | nil => simp at hlen
      | cons c cs =>
        obtain ⟨x, hx⟩ := List.exists_mem_of_ne_nil a (hs a (by simp))
        exact (abs_nonneg _).trans (hR (a, c) (by simp) x hx)
  have h3 : v ^ 2 ≤ (Real.sqrt 2 * R) ^ 2 := by rw [mul_pow, Real.sq_sqrt (by norm_num)]; linarith
  exact (sq_le_sq₀ h0 (by positivity)).mp h3

example : ∃ v, candCriterion [[0, 1], [1, 1]] [0, 1] = .ok (.fin v) ∧ v ≤ Real.sqrt 2 * 1 :=
  C89_criterion_bounded _ _ (by simp) (by simp) (by simp) 1 (by
    intro p hp x hx
    simp only [List.zip_cons_cons, List.zip_nil_right, List.mem_cons, List.not_mem_nil, or_false] at hp
    rcases hp with rfl | rfl <;> simp only [List.mem_cons, List.not_mem_nil, or_false] at hx <;>
      rcases hx with rfl | rfl <;> norm_num)

/-- **C89.**  The reference POD of size `j` is the fraction of the sampled points at which the prediction exceeds the threshold. -/
theorem C89_reference_pod {X : Type} (zero : ℝ × X) (metamodel : ℝ × X → ℝ) (detection : ℝ) (sizes : List ℝ) (xs : List X) :
    currentPOD zero metamodel detection xs.length sizes.length sizes xs
      = sizes.map fun d => (xs.countP (fun x => decide (detection < metamodel (d, x))) : ℝ) / xs.length := by
  have h := C36_hitmiss_layout zero metamodel sizes xs
  rw [hitMissComputePOD] at h
  rw [currentPOD, h, List.map_map]
  apply List.map_congr_left
  intro d _
  simp only [Function.comp, fracAbove, List.length_map, List.countP_map]
  rfl

example : currentPOD (0, 0) (fun p : ℝ × ℝ => p.1 + p.2) 11 2 1 [10] [1, 2] = [1 / 2] := by
  have := C89_reference_pod (X := ℝ) (0, 0) (fun p => p.1 + p.2) 11 [10] [1, 2]
  simp only [List.length_cons, List.length_nil, Nat.zero_add, Nat.reduceAdd, List.map_cons, List.map_nil] at this
  rw [this]; norm_num [List.countP_cons]

/-- **C89.**  In the enrichment loop the best candidate is well defined: with POD values no further than `7·10⁸` from the reference
(for instance probabilities), every candidate has a criterion below the initial bound `10⁹`, so the hypothesis of the theorems on the
loop (C45, C48) holds. -/
theorem C89_loop_hypothesis {X M : Type} (physical : X → Res ℝ) (fit : List X → List ℝ → Res M)
    (refit : M → List X → List ℝ → Res M) (sizes : List ℝ)
    (cur : ℕ → M → List ℝ) (sim : ℕ → M → M → List X → List ℝ → ℕ → X → ℝ → List ℝ) (hne : sizes ≠ [])
    (hcur : ∀ it ref, (cur it ref).length = sizes.length)
    (hsim : ∀ it ref m xs ys i x d, sim it ref m xs ys i x d ≠ [] ∧
      ∀ c ∈ cur it ref, ∀ p ∈ sim it ref m xs ys i x d, |p - c| ≤ 700000000) :
    CritBelow (critEnv physical fit refit sizes cur sim) := by
  intro it ref m xs ys i x v hv
  obtain ⟨w, hw, hle⟩ := C89_criterion_bounded (sizes.map (sim it ref m xs ys i x)) (cur it ref)
    (by rw [List.length_map, hcur]) (by simpa using hne)
    (by
      intro l hl
      obtain ⟨d, _, rfl⟩ := List.mem_map.mp hl
      exact (hsim it ref m xs ys i x d).1)
    700000000
    (by
      intro p hp y hy
      have hp' := List.of_mem_zip (a := p.1) (b := p.2) hp
      obtain ⟨d, _, hd⟩ := List.mem_map.mp hp'.1
      rw [← hd] at hy
      exact (hsim it ref m xs ys i x d).2 p.2 hp'.2 y hy)
  have : v = .fin w := by
    have h : Except.ok v = Except.ok (F.fin w) := hv.symm.trans hw
    injection h
  subst this
  rw [F.lt_fin, decide_eq_true_eq]
  have h2 : Real.sqrt 2 < 1.4143 := by
    rw [Real.sqrt_lt' (by norm_num)]; norm_num
  nlinarith

example : CritBelow (critEnv (X := ℝ) (M := Unit) (fun x => .ok x) (fun _ _ => .ok ()) (fun _ _ _ => .ok ()) [1, 2]
    (fun _ _ => [1 / 4, 3 / 4]) (fun _ _ _ _ _ _ _ _ => [0, 1])) :=
  C89_loop_hypothesis _ _ _ _ _ _ (by simp) (by simp) (by
    intro _ _ _ _ _ _ _ _
    refine ⟨by simp, ?_⟩
    intro c hc p hp
    simp only [List.mem_cons, List.not_mem_nil, or_false] at hc hp
    rcases hc with rfl | rfl <;> rcases hp with rfl | rfl <;> norm_num [abs_le])

end Verif.Props
