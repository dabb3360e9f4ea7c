import Verif.Model.Quantization
import Mathlib.Algebra.Order.AbsoluteValue.Basic
import Mathlib.Tactic.Linarith
import Mathlib.Tactic.FieldSimp
import Mathlib.Tactic.Ring
/-! C71: scalar and uniform quantizers. -/
namespace Komm
variable {K : Type} [Field K] [LinearOrder K] [IsStrictOrderedRing K]

theorem digitize_le (ts : List K) (x : K) : digitize ts x ≤ ts.length := by
  induction ts with
  | nil => exact le_rfl
  | cons t ts ih => rw [digitize]; split <;> simp only [List.length_cons] <;> omega

theorem digitize_spec (ts : List K) (x : K) :
    (∀ i < digitize ts x, ts.getD i 0 ≤ x) ∧ (digitize ts x < ts.length → x < ts.getD (digitize ts x) 0) := by
  induction ts with
  | nil => exact ⟨fun i h => absurd h (Nat.not_lt_zero _), fun h => absurd h (Nat.not_lt_zero _)⟩
  | cons t ts ih =>
    by_cases hx : x < t
    · rw [digitize, if_pos hx]
      exact ⟨fun i h => absurd h (Nat.not_lt_zero _), fun _ => hx⟩
    · rw [digitize, if_neg hx]
      refine ⟨fun i h => ?_, fun h => ?_⟩
      · cases i with
        | zero => exact not_lt.mp hx
        | succ i => exact ih.1 i (by omega)
      · exact ih.2 (by simpa using h)

/-- The list is sorted without repetitions. -/
theorem npUnique_eq_iff (l : List K) : npUnique l = l ↔ l.Pairwise (· < ·) := by
  have hs : (npUnique l).Pairwise (· < ·) := by
    have h1 : (npUnique l).Pairwise (· ≤ ·) := List.pairwise_insertionSort _ _
    have h2 : (npUnique l).Nodup := (List.Perm.nodup_iff (List.perm_insertionSort _ _)).mpr (List.nodup_dedup l)
    exact (h1.and h2).imp fun h => lt_of_le_of_ne h.1 h.2
  constructor
  · intro h; rwa [h] at hs
  · intro h
    have hd : l.dedup = l := List.Nodup.dedup (h.imp fun h => ne_of_lt h)
    rw [npUnique, hd]
    exact List.Pairwise.insertionSort_eq (h.imp le_of_lt)

theorem interleave_sorted (ls ts : List K) (h : ts.length + 1 = ls.length) :
    (interleave ls ts).Pairwise (· < ·) ↔ ∀ i < ts.length, ls.getD i 0 < ts.getD i 0 ∧ ts.getD i 0 < ls.getD (i + 1) 0 := by
  induction ts generalizing ls with
  | nil =>
    obtain ⟨l, ls, rfl⟩ := List.exists_cons_of_length_eq_add_one h.symm
    simp [interleave]
  | cons t ts ih =>
    obtain ⟨l, ls, rfl⟩ := List.exists_cons_of_length_eq_add_one h.symm
    simp only [List.length_cons, Nat.add_right_cancel_iff] at h
    rw [interleave, ← List.isChain_iff_pairwise, List.isChain_cons_cons]
    have hh := ih ls h
    obtain ⟨l', ls', rfl⟩ := List.exists_cons_of_length_eq_add_one h.symm
    obtain ⟨w, hw⟩ : ∃ w, interleave (l' :: ls') ts = l' :: w := by cases ts <;> exact ⟨_, rfl⟩
    rw [hw, List.isChain_cons_cons, ← hw, List.isChain_iff_pairwise, hh]
    constructor
    · rintro ⟨h1, h2, h3⟩ i hi
      cases i with
      | zero => exact ⟨h1, h2⟩
      | succ i => exact h3 i (by simpa using hi)
    · intro h3
      have h0 := h3 0 (by simp)
      exact ⟨h0.1, h0.2, fun i hi => h3 (i + 1) (by simpa using hi)⟩

/-- `ScalarQuantizer(levels, thresholds)` is accepted exactly when there is one threshold strictly between any two consecutive levels. -/
theorem C71_accepts (levels thresholds : List K) :
    scalarQuantizerAccepts levels thresholds = true ↔
      levels.length = thresholds.length + 1 ∧
      ∀ i < thresholds.length, levels.getD i 0 < thresholds.getD i 0 ∧ thresholds.getD i 0 < levels.getD (i + 1) 0 := by
  rw [scalarQuantizerAccepts]
  by_cases h : thresholds.length + 1 = levels.length
  · rw [if_neg (by simpa using h), decide_eq_true_iff, npUnique_eq_iff, interleave_sorted _ _ h]
    exact ⟨fun h2 => ⟨h.symm, h2⟩, fun h2 => h2.2⟩
  · rw [if_pos h]
    exact ⟨fun h2 => absurd h2 (by simp), fun h2 => absurd h2.1.symm h⟩

theorem levels_mono {levels thresholds : List K}
    (hl : levels.length = thresholds.length + 1)
    (h : ∀ i < thresholds.length, levels.getD i 0 < thresholds.getD i 0 ∧ thresholds.getD i 0 < levels.getD (i + 1) 0)
    {i j : Nat} (hij : i ≤ j) (hj : j < levels.length) : levels.getD i 0 ≤ levels.getD j 0 := by
  induction j, hij using Nat.le_induction with
  | base => exact le_rfl
  | succ j _ ih =>
    have := h j (by omega)
    exact (ih (by omega)).trans (this.1.trans this.2).le

theorem thresholds_mono {levels thresholds : List K}
    (hl : levels.length = thresholds.length + 1)
    (h : ∀ i < thresholds.length, levels.getD i 0 < thresholds.getD i 0 ∧ thresholds.getD i 0 < levels.getD (i + 1) 0)
    {i j : Nat} (hij : i ≤ j) (hj : j < thresholds.length) : thresholds.getD i 0 ≤ thresholds.getD j 0 := by
  rcases Nat.eq_or_lt_of_le hij with rfl | hlt
  · exact le_rfl
  · exact ((h i (by omega)).2.le.trans (levels_mono hl h hlt (by omega))).trans (h j hj).1.le

theorem quantize_eq {levels thresholds : List K} (hl : levels.length = thresholds.length + 1) (x : K) :
    quantize levels thresholds x = some (levels.getD (digitize thresholds x) 0) := by
  have : digitize thresholds x < levels.length := by have := digitize_le thresholds x; omega
  rw [quantize, List.getD_eq_getElem?_getD, List.getElem?_eq_getElem this]; rfl

/-- The documented rule: the output is level `i` exactly when the input lies in cell `i`, i.e. `λ[i-1] ≤ x < λ[i]`, where the missing
bounds of the first and last cell are infinite. -/
theorem C71_cell (levels thresholds : List K) (ha : scalarQuantizerAccepts levels thresholds = true) (x : K) (i : Nat)
    (hi : i < levels.length) :
    quantize levels thresholds x = some (levels.getD i 0) ↔
      (0 < i → thresholds.getD (i - 1) 0 ≤ x) ∧ (i < thresholds.length → x < thresholds.getD i 0) := by
  obtain ⟨hl, h⟩ := (C71_accepts levels thresholds).mp ha
  have hs := digitize_spec thresholds x
  have hd := digitize_le thresholds x
  rw [quantize_eq hl, Option.some.injEq]
  have hinj : levels.getD (digitize thresholds x) 0 = levels.getD i 0 ↔ digitize thresholds x = i := by
    refine ⟨fun he => ?_, fun he => by rw [he]⟩
    by_contra hne
    rcases Nat.lt_or_gt_of_ne hne with hlt | hlt
    · have h1 := h (digitize thresholds x) (by omega)
      have h2 := levels_mono hl h (Nat.succ_le_of_lt hlt) hi
      exact absurd (h1.1.trans h1.2) (not_lt.mpr (h2.trans he.ge))
    · have h1 := h i (by omega)
      have h2 := levels_mono hl h (Nat.succ_le_of_lt hlt) (by omega)
      exact absurd (h1.1.trans h1.2) (not_lt.mpr (h2.trans he.le))
  rw [hinj]
  constructor
  · rintro rfl
    exact ⟨fun hp => hs.1 _ (by omega), hs.2⟩
  · rintro ⟨h1, h2⟩
    by_contra hne
    rcases Nat.lt_or_gt_of_ne hne with hlt | hlt
    · have h3 := hs.2 (by omega)
      have h4 := thresholds_mono hl h (show digitize thresholds x ≤ i - 1 by omega) (by omega)
      exact absurd (h3.trans_le h4) (not_lt.mpr (h1 (by omega)))
    · have h3 := hs.1 i hlt
      exact absurd (h2 (by omega)) (not_lt.mpr h3)

/-- Every input has an output, which is one of the levels. -/
theorem C71_output_is_a_level (levels thresholds : List K) (ha : scalarQuantizerAccepts levels thresholds = true) (x : K) :
    ∃ y ∈ levels, quantize levels thresholds x = some y := by
  obtain ⟨hl, -⟩ := (C71_accepts levels thresholds).mp ha
  have hd : digitize thresholds x < levels.length := by have := digitize_le thresholds x; omega
  exact ⟨levels[digitize thresholds x], List.getElem_mem hd, by rw [quantize, List.getElem?_eq_getElem hd]⟩

theorem digitize_mono {ts : List K} {x y : K} (h : x ≤ y) : digitize ts x ≤ digitize ts y := by
  induction ts with
  | nil => exact le_rfl
  | cons t ts ih =>
    rw [digitize, digitize]
    by_cases hy : y < t
    · rw [if_pos hy, if_pos (h.trans_lt hy)]
    · rw [if_neg hy]; split <;> omega

/-- The quantizer is monotone. -/
theorem C71_monotone (levels thresholds : List K) (ha : scalarQuantizerAccepts levels thresholds = true) (x y qx qy : K)
    (hxy : x ≤ y) (hx : quantize levels thresholds x = some qx) (hy : quantize levels thresholds y = some qy) : qx ≤ qy := by
  obtain ⟨hl, h⟩ := (C71_accepts levels thresholds).mp ha
  rw [quantize_eq hl, Option.some.injEq] at hx hy
  rw [← hx, ← hy]
  exact levels_mono hl h (digitize_mono hxy) (by have := digitize_le thresholds y; omega)

/-- Quantizing a level returns it, so quantizing twice is the same as quantizing once. -/
theorem C71_idempotent (levels thresholds : List K) (ha : scalarQuantizerAccepts levels thresholds = true) (y : K) (hy : y ∈ levels) :
    quantize levels thresholds y = some y := by
  obtain ⟨hl, h⟩ := (C71_accepts levels thresholds).mp ha
  obtain ⟨i, hi, rfl⟩ := List.mem_iff_getElem.mp hy
  have e : levels[i] = levels.getD i 0 := by rw [List.getD_eq_getElem?_getD, List.getElem?_eq_getElem hi]; rfl
  rw [e, C71_cell levels thresholds ha _ i hi]
  refine ⟨fun hp => ?_, fun hlt => (h i hlt).1⟩
  have := (h (i - 1) (by omega)).2
  rw [show i - 1 + 1 = i by omega] at this
  exact this.le

/-- If the thresholds are the midpoints of consecutive levels, the output is a nearest level. -/
theorem nearest_of_midpoints (levels thresholds : List K) (ha : scalarQuantizerAccepts levels thresholds = true)
    (hm : ∀ i < thresholds.length, thresholds.getD i 0 = (levels.getD i 0 + levels.getD (i + 1) 0) / 2) (x q : K)
    (hq : quantize levels thresholds x = some q) (y : K) (hy : y ∈ levels) : |x - q| ≤ |x - y| := by
  obtain ⟨hl, h⟩ := (C71_accepts levels thresholds).mp ha
  rw [quantize_eq hl, Option.some.injEq] at hq
  obtain ⟨i, hi, rfl⟩ := List.mem_iff_getElem.mp hy
  have e : levels[i] = levels.getD i 0 := by rw [List.getD_eq_getElem?_getD, List.getElem?_eq_getElem hi]; rfl
  have hs := digitize_spec thresholds x
  have hd := digitize_le thresholds x
  rw [e, ← hq]
  rcases Nat.lt_trichotomy i (digitize thresholds x) with hlt | heq | hgt
  · have h1 := hs.1 (digitize thresholds x - 1) (by omega)
    rw [hm _ (by omega), show digitize thresholds x - 1 + 1 = digitize thresholds x by omega] at h1
    have h2 := levels_mono hl h (show i ≤ digitize thresholds x - 1 by omega) (by omega)
    have h3 := levels_mono hl h (show digitize thresholds x - 1 ≤ digitize thresholds x by omega) (by omega)
    rw [abs_le']
    have h4 : x - levels.getD i 0 ≤ |x - levels.getD i 0| := le_abs_self _
    constructor <;> linarith
  · rw [heq]
  · have h1 := hs.2 (by omega)
    rw [hm _ (by omega)] at h1
    have h2 := levels_mono hl h (show digitize thresholds x + 1 ≤ i by omega) hi
    have h3 := levels_mono hl h (show digitize thresholds x ≤ digitize thresholds x + 1 by omega) (by omega)
    rw [abs_le']
    have h4 : -(x - levels.getD i 0) ≤ |x - levels.getD i 0| := neg_le_abs _
    constructor <;> linarith

theorem uniformLevels_length (L : Nat) (Δ θ : K) : (uniformLevels L Δ θ).length = L := by simp [uniformLevels]
theorem uniformThresholds_length (L : Nat) (Δ θ : K) : (uniformThresholds L Δ θ).length = L - 1 := by
  rw [uniformThresholds, List.length_dropLast, List.length_map, uniformLevels_length]

theorem uniformLevels_getD (L : Nat) (Δ θ : K) (i : Nat) (hi : i < L) :
    (uniformLevels L Δ θ).getD i 0 = ((i : K) - ((L : K) - 1) / 2 + θ) * Δ := by
  rw [uniformLevels, List.getD_eq_getElem?_getD, List.getElem?_map, List.getElem?_range hi]; rfl

theorem uniformThresholds_getD (L : Nat) (Δ θ : K) (i : Nat) (hi : i + 1 < L) :
    (uniformThresholds L Δ θ).getD i 0 = ((i : K) - ((L : K) - 1) / 2 + θ) * Δ + Δ / 2 := by
  have h1 : i < (uniformThresholds L Δ θ).length := by rw [uniformThresholds_length]; omega
  have h2 : i < (uniformLevels L Δ θ).length := by rw [uniformLevels_length]; omega
  rw [List.getD_eq_getElem?_getD, List.getElem?_eq_getElem h1, Option.getD_some]
  simp only [uniformThresholds, List.getElem_dropLast, List.getElem_map]
  have := uniformLevels_getD L Δ θ i (by omega)
  rw [List.getD_eq_getElem?_getD, List.getElem?_eq_getElem h2, Option.getD_some] at this
  rw [this]

theorem uniform_midpoint (L : Nat) (Δ θ : K) (i : Nat) (hi : i < (uniformThresholds L Δ θ).length) :
    (uniformThresholds L Δ θ).getD i 0 = ((uniformLevels L Δ θ).getD i 0 + (uniformLevels L Δ θ).getD (i + 1) 0) / 2 := by
  rw [uniformThresholds_length] at hi
  rw [uniformThresholds_getD L Δ θ i (by omega), uniformLevels_getD L Δ θ i (by omega), uniformLevels_getD L Δ θ (i + 1) (by omega)]
  push_cast
  ring

/-- The levels and thresholds of a uniform quantizer satisfy the conditions of `ScalarQuantizer`; the thresholds are the midpoints. -/
theorem C71_uniform_valid (L : Nat) (Δ θ : K) (ha : uniformQuantizerAccepts L Δ = true) :
    scalarQuantizerAccepts (uniformLevels L Δ θ) (uniformThresholds L Δ θ) = true ∧
    ∀ i, i + 1 < L → (uniformThresholds L Δ θ).getD i 0 = ((uniformLevels L Δ θ).getD i 0 + (uniformLevels L Δ θ).getD (i + 1) 0) / 2 := by
  have hL : L > 1 ∧ Δ > 0 := by
    rw [uniformQuantizerAccepts] at ha
    by_cases h1 : L > 1
    · by_cases h2 : Δ > 0
      · exact ⟨h1, h2⟩
      · rw [if_neg (by simpa using h1), if_pos h2] at ha; exact absurd ha (by simp)
    · rw [if_pos h1] at ha; exact absurd ha (by simp)
  refine ⟨?_, fun i hi => uniform_midpoint L Δ θ i (by rw [uniformThresholds_length]; omega)⟩
  rw [C71_accepts, uniformLevels_length, uniformThresholds_length]
  refine ⟨by omega, fun i hi => ?_⟩
  rw [uniformThresholds_getD L Δ θ i (by omega), uniformLevels_getD L Δ θ i (by omega), uniformLevels_getD L Δ θ (i + 1) (by omega)]
  have := hL.2
  constructor
  · linarith
  · push_cast
    have e : ((i : K) + 1 - ((L : K) - 1) / 2 + θ) * Δ = ((i : K) - ((L : K) - 1) / 2 + θ) * Δ + Δ := by ring
    rw [e]; linarith

theorem uniformAccepts_iff (L : Nat) (Δ : K) : uniformQuantizerAccepts L Δ = true ↔ 1 < L ∧ 0 < Δ := by
  rw [uniformQuantizerAccepts]
  by_cases h1 : L > 1 <;> by_cases h2 : Δ > 0 <;> simp_all

/-- A uniform quantizer outputs a level nearest to the input. -/
theorem C71_uniform_nearest (L : Nat) (Δ θ : K) (ha : uniformQuantizerAccepts L Δ = true) (x q : K)
    (hq : quantize (uniformLevels L Δ θ) (uniformThresholds L Δ θ) x = some q) (y : K) (hy : y ∈ uniformLevels L Δ θ) :
    |x - q| ≤ |x - y| :=
  nearest_of_midpoints _ _ (C71_uniform_valid L Δ θ ha).1 (fun i hi => uniform_midpoint L Δ θ i hi) x q hq y hy

/-- Inside the granular region the error is at most half a step. -/
theorem C71_uniform_error (L : Nat) (Δ θ : K) (ha : uniformQuantizerAccepts L Δ = true) (x q : K)
    (hlo : (uniformLevels L Δ θ).getD 0 0 - Δ / 2 ≤ x) (hhi : x ≤ (uniformLevels L Δ θ).getD (L - 1) 0 + Δ / 2)
    (hq : quantize (uniformLevels L Δ θ) (uniformThresholds L Δ θ) x = some q) : |x - q| ≤ Δ / 2 := by
  obtain ⟨hL, hΔ⟩ := (uniformAccepts_iff L Δ).mp ha
  obtain ⟨hl, h⟩ := (C71_accepts _ _).mp (C71_uniform_valid L Δ θ ha).1
  rw [quantize_eq hl, Option.some.injEq] at hq
  have hs := digitize_spec (uniformThresholds L Δ θ) x
  have hd := digitize_le (uniformThresholds L Δ θ) x
  rw [uniformThresholds_length] at hd hs
  generalize digitize (uniformThresholds L Δ θ) x = d at hs hd hq
  rw [← hq, abs_le']
  constructor
  · by_cases hlt : d < L - 1
    · have := hs.2 hlt
      rw [uniformThresholds_getD L Δ θ d (by omega)] at this
      rw [uniformLevels_getD L Δ θ d (by omega)]
      linarith
    · have : d = L - 1 := by omega
      rw [this]; linarith
  · by_cases h0 : d = 0
    · rw [h0]; linarith
    · have := hs.1 (d - 1) (by omega)
      rw [uniformThresholds_getD L Δ θ (d - 1) (by omega)] at this
      rw [uniformLevels_getD L Δ θ d (by omega)]
      have hc : ((d - 1 : Nat) : K) = (d : K) - 1 := by
        rw [Nat.cast_sub (by omega)]; simp
      rw [hc] at this
      have e : ((d : K) - 1 - ((L : K) - 1) / 2 + θ) * Δ = ((d : K) - ((L : K) - 1) / 2 + θ) * Δ - Δ := by ring
      rw [e] at this
      linarith

/-- `mid_riser` has a threshold at zero, `mid_tread` a level at zero. -/
theorem C71_mid_riser (L : Nat) (Δ : K) (ha : uniformQuantizerAccepts L Δ = true) : (0 : K) ∈ uniformThresholds L Δ (midRiserOffset L) := by
  obtain ⟨hL, hΔ⟩ := (uniformAccepts_iff L Δ).mp ha
  have key : ∀ i, i + 1 < L → ((i : K) - ((L : K) - 1) / 2 + midRiserOffset L) * Δ + Δ / 2 = 0 →
      (0 : K) ∈ uniformThresholds L Δ (midRiserOffset L) := by
    intro i hi h0
    have h1 : i < (uniformThresholds L Δ (midRiserOffset L)).length := by rw [uniformThresholds_length]; omega
    have h2 := uniformThresholds_getD L Δ (midRiserOffset L) i hi
    rw [List.getD_eq_getElem?_getD, List.getElem?_eq_getElem h1, Option.getD_some, h0] at h2
    rw [← h2]
    exact List.getElem_mem h1
  rcases Nat.even_or_odd' L with ⟨q, rfl | rfl⟩
  · refine key (q - 1) (by omega) ?_
    rw [midRiserOffset, if_pos (by omega), Nat.cast_sub (by omega)]
    push_cast
    ring
  · refine key q (by omega) ?_
    rw [midRiserOffset, if_neg (by omega)]
    push_cast
    ring

theorem C71_mid_tread (L : Nat) (Δ : K) (ha : uniformQuantizerAccepts L Δ = true) : (0 : K) ∈ uniformLevels L Δ (midTreadOffset L) := by
  obtain ⟨hL, hΔ⟩ := (uniformAccepts_iff L Δ).mp ha
  rw [uniformLevels, List.mem_map]
  rcases Nat.even_or_odd' L with ⟨q, rfl | rfl⟩
  · refine ⟨q, List.mem_range.mpr (by omega), ?_⟩
    rw [midTreadOffset, if_neg (by omega)]
    push_cast
    ring
  · refine ⟨q, List.mem_range.mpr (by omega), ?_⟩
    rw [midTreadOffset, if_pos (by omega)]
    push_cast
    ring

/-- Non-vacuity: accepted quantizers, and an input in the granular region. -/
example : scalarQuantizerAccepts [-2, -1, 0, 1, (2 : Rat)] [-3 / 2, -3 / 10, 8 / 10, 14 / 10] = true ∧
    uniformQuantizerAccepts 4 (1 / 2 : Rat) = true ∧ (uniformLevels 4 (1 / 2 : Rat) 0).getD 0 0 - 1 / 4 ≤ 1 / 3 ∧
    quantize (uniformLevels 4 (1 / 2 : Rat) 0) (uniformThresholds 4 (1 / 2 : Rat) 0) (1 / 3) = some (1 / 4) := by decide +kernel

end Komm
