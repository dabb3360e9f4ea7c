import Verif.Model.SignalProcessing
import Mathlib.Algebra.Polynomial.Coeff
import Mathlib.Data.List.GetD
import Mathlib.Tactic.Ring
/-! C106: `convolve` is multiplication of polynomials. -/
namespace Komm
open Polynomial

theorem mapM_forall₂ {α β : Type} (f : α → Option β) (l : List α) (r : List β) (h : l.mapM f = some r) : List.Forall₂ (fun a b => f a = some b) l r := by
  induction l generalizing r with
  | nil => simp at h; subst h; exact .nil
  | cons a l ih =>
    rw [List.mapM_cons] at h
    simp only [Option.bind_eq_bind, Option.bind_eq_some_iff, Option.pure_def, Option.some_inj] at h
    obtain ⟨b, hb, r', hr, rfl⟩ := h
    exact .cons hb (ih r' hr)

section
variable {K : Type} [CommRing K]

/-- The polynomial whose coefficients are the samples. -/
noncomputable def samplePoly (a : List K) : K[X] := ∑ i ∈ Finset.range a.length, C (a.getD i 0) * X ^ i

theorem samplePoly_coeff (a : List K) (i : Nat) : (samplePoly a).coeff i = a.getD i 0 := by
  rw [samplePoly, Polynomial.finsetSum_coeff]
  simp only [coeff_C_mul, coeff_X_pow, mul_ite, mul_one, mul_zero, Finset.sum_ite_eq, Finset.mem_range]
  split
  · rfl
  · rename_i h; rw [List.getD_eq_default _ _ (by omega)]

theorem samplePoly_inj {a b : List K} (hl : a.length = b.length) (h : samplePoly a = samplePoly b) : a = b := by
  refine List.ext_getElem hl fun i h1 h2 => ?_
  have := congrArg (fun p => p.coeff i) h
  simp only [samplePoly_coeff] at this
  rwa [List.getD_eq_getElem _ _ h1, List.getD_eq_getElem _ _ h2] at this

theorem reverse_getD (v : List K) (i : Nat) (hi : i < v.length) : v.reverse.getD i 0 = v.getD (v.length - 1 - i) 0 := by
  rw [List.getD_eq_getElem _ _ (by simpa using hi), List.getD_eq_getElem _ _ (by omega), List.getElem_reverse]

/-- Every output of the correlation with the reversed list is a coefficient of the product. -/
theorem corrAt_reverse (a v : List K) (hv : 0 < v.length) (k : Nat) : corrAt a v.reverse ((k : ℤ) - (v.length - 1 : Nat)) = (samplePoly a * samplePoly v).coeff k := by
  rw [corrAt, List.length_reverse, Polynomial.coeff_mul, Finset.Nat.sum_antidiagonal_eq_sum_range_succ (fun i j => (samplePoly a).coeff i * (samplePoly v).coeff j)]
  simp only [samplePoly_coeff]
  rw [← Finset.sum_range_reflect, ← Finset.sum_range_reflect (fun i => a.getD i 0 * v.getD (k - i) 0)]
  simp only [Nat.succ_eq_add_one, Nat.add_sub_cancel]
  -- both sums now run over the index `j` into `v`
  have e : ∀ j ∈ Finset.range v.length, entryZ a ((k : ℤ) - (v.length - 1 : Nat) + (v.length - 1 - j : Nat)) * v.reverse.getD (v.length - 1 - j) 0
      = if j ≤ k then a.getD (k - j) 0 * v.getD j 0 else 0 := by
    intro j hj
    have hj := Finset.mem_range.mp hj
    rw [reverse_getD _ _ (by omega), show v.length - 1 - (v.length - 1 - j) = j by omega,
      show (k : ℤ) - (v.length - 1 : Nat) + (v.length - 1 - j : Nat) = (k : ℤ) - j by omega, entryZ]
    by_cases h : j ≤ k
    · rw [if_pos h, if_neg (by omega), show ((k : ℤ) - j).toNat = k - j by omega]
    · rw [if_neg h, if_pos (by omega), zero_mul]
  rw [Finset.sum_congr rfl e, ← Finset.sum_filter]
  have e2 : ∀ j ∈ Finset.range (k + 1), a.getD (k - j) 0 * v.getD (k - (k - j)) 0 = a.getD (k - j) 0 * v.getD j 0 := by
    intro j hj
    have := Finset.mem_range.mp hj
    rw [show k - (k - j) = j by omega]
  rw [Finset.sum_congr rfl e2]
  refine Finset.sum_subset (fun j hj => ?_) (fun j hj hn => ?_)
  · have := (Finset.mem_filter.mp hj).2; exact Finset.mem_range.mpr (by omega)
  · have := Finset.mem_range.mp hj
    rw [Finset.mem_filter, Finset.mem_range] at hn
    rw [List.getD_eq_default v 0 (by omega), mul_zero]

/-- The window of the full convolution that each mode returns: first index and number of samples (`N ≥ n` are the two lengths). -/
def window (mode : ConvMode) (N n : Nat) : Nat × Nat :=
  match mode with
  | .full => (0, N + n - 1)
  | .same => ((n - 1) / 2, N)
  | .valid => (n - 1, N - n + 1)

theorem correlate_eq (mode : ConvMode) (a v : List K) (hv : 0 < v.length) :
    npCorrelate mode a v.reverse = (List.range (window mode a.length v.length).2).map fun k : Nat => (samplePoly a * samplePoly v).coeff ((window mode a.length v.length).1 + k) := by
  cases mode <;> simp only [window, npCorrelate, List.length_reverse] <;> refine List.map_congr_left fun k hk => ?_ <;> rw [← corrAt_reverse a v hv] <;> congr 1 <;> omega

/-- `np.convolve` of two non-empty one-dimensional signals is the window of the coefficients of the product of the two polynomials. -/
theorem C106_window (mode : ConvMode) (a v : List K) (ha : a ≠ []) (hv : v ≠ []) :
    npConvolve mode a v = some ((List.range (window mode (max a.length v.length) (min a.length v.length)).2).map fun k : Nat =>
      (samplePoly a * samplePoly v).coeff ((window mode (max a.length v.length) (min a.length v.length)).1 + k)) := by
  have ha' := List.length_pos_iff.mpr ha
  have hv' := List.length_pos_iff.mpr hv
  rw [npConvolve]
  by_cases h : v.length > a.length
  · simp only [h, if_true]
    rw [if_neg (by omega), if_neg (by omega), correlate_eq mode v a ha', max_eq_right h.le, min_eq_left h.le, mul_comm (samplePoly v)]
  · simp only [h, if_false]
    rw [if_neg (by omega), if_neg (by omega), correlate_eq mode a v hv', max_eq_left (not_lt.mp h), min_eq_right (not_lt.mp h)]

/-- An empty signal raises. -/
theorem C106_empty (mode : ConvMode) (a v : List K) : npConvolve mode a v = none ↔ a = [] ∨ v = [] := by
  constructor
  · intro h
    by_contra hc
    push Not at hc
    rw [C106_window mode a v hc.1 hc.2] at h
    exact absurd h (by simp)
  · rintro (rfl | rfl)
    · rw [npConvolve]
      by_cases h : v.length > 0
      · simp [h, Nat.pos_iff_ne_zero.mp h]
      · simp [show v.length = 0 by omega]
    · rw [npConvolve]
      simp

theorem samplePoly_mul_coeff_zero (a v : List K) (k : Nat) (hk : a.length + v.length - 1 ≤ k) (ha : a ≠ []) : (samplePoly a * samplePoly v).coeff k = 0 := by
  rw [Polynomial.coeff_mul]
  refine Finset.sum_eq_zero fun p hp => ?_
  have hp := Finset.mem_antidiagonal.mp hp
  have := List.length_pos_iff.mpr ha
  rw [samplePoly_coeff, samplePoly_coeff]
  by_cases h : p.1 < a.length
  · rw [List.getD_eq_default v 0 (by omega), mul_zero]
  · rw [List.getD_eq_default a 0 (by omega), zero_mul]

/-- Full mode: `len(a) + len(v) - 1` samples, and the polynomial of the result is the product. -/
theorem C106_full (a v : List K) (ha : a ≠ []) (hv : v ≠ []) :
    ∃ y, npConvolve .full a v = some y ∧ y.length = a.length + v.length - 1 ∧ samplePoly y = samplePoly a * samplePoly v := by
  refine ⟨_, C106_window .full a v ha hv, ?_, ?_⟩
  · simp only [List.length_map, List.length_range, window]; omega
  · ext k
    rw [samplePoly_coeff]
    simp only [window, Nat.zero_add]
    by_cases hk : k < max a.length v.length + min a.length v.length - 1
    · rw [List.getD_eq_getElem _ _ (by simpa using hk), List.getElem_map, List.getElem_range]
    · rw [List.getD_eq_default _ _ (by simpa using hk), samplePoly_mul_coeff_zero a v k (by omega) ha]

/-- The order of the two signals does not matter, in any mode. -/
theorem C106_comm (mode : ConvMode) (a v : List K) : npConvolve mode a v = npConvolve mode v a := by
  by_cases ha : a = []
  · rw [(C106_empty mode a v).mpr (Or.inl ha), (C106_empty mode v a).mpr (Or.inr ha)]
  by_cases hv : v = []
  · rw [(C106_empty mode a v).mpr (Or.inr hv), (C106_empty mode v a).mpr (Or.inl hv)]
  rw [C106_window mode a v ha hv, C106_window mode v a hv ha, max_comm, min_comm, mul_comm (samplePoly a)]

theorem full_ne_nil {a v y : List K} (h : npConvolve .full a v = some y) : y ≠ [] := by
  have hc : ¬ (a = [] ∨ v = []) := fun hc => by rw [(C106_empty .full a v).mpr hc] at h; exact absurd h (by simp)
  push Not at hc
  obtain ⟨y', h1, h2, -⟩ := C106_full a v hc.1 hc.2
  rw [h, Option.some_inj] at h1
  have := List.length_pos_iff.mpr hc.1
  have := List.length_pos_iff.mpr hc.2
  rw [h1]
  exact List.length_pos_iff.mp (by omega)

/-- Filtering in two steps is filtering with the convolution of the filters. -/
theorem C106_assoc (a b c x y u w : List K) (h1 : npConvolve .full a b = some x) (h2 : npConvolve .full x c = some y)
    (h3 : npConvolve .full b c = some u) (h4 : npConvolve .full a u = some w) : y = w := by
  have hne : ∀ {p q r : List K}, npConvolve .full p q = some r → p ≠ [] ∧ q ≠ [] := fun {p q r} h => by
    have hc : ¬ (p = [] ∨ q = []) := fun hc => by rw [(C106_empty .full p q).mpr hc] at h; exact absurd h (by simp)
    push Not at hc; exact hc
  have full : ∀ {p q r : List K}, npConvolve .full p q = some r → r.length = p.length + q.length - 1 ∧ samplePoly r = samplePoly p * samplePoly q := fun {p q r} h => by
    obtain ⟨r', g1, g2, g3⟩ := C106_full p q (hne h).1 (hne h).2
    rw [h, Option.some_inj] at g1
    exact g1 ▸ ⟨g2, g3⟩
  have pos : ∀ {l : List K}, l ≠ [] → 0 < l.length := fun h => List.length_pos_iff.mpr h
  refine samplePoly_inj ?_ ?_
  · have := pos (hne h1).1; have := pos (hne h1).2; have := pos (hne h3).2
    rw [(full h2).1, (full h4).1, (full h1).1, (full h3).1]; omega
  · rw [(full h2).2, (full h4).2, (full h1).2, (full h3).2, mul_assoc]

/-- A unit impulse delayed by `d` samples delays the signal by `d` samples. -/
theorem C106_impulse (a : List K) (ha : a ≠ []) (d : Nat) : npConvolve .full (List.replicate d 0 ++ [1]) a = some (List.replicate d 0 ++ a) := by
  obtain ⟨y, h1, h2, h3⟩ := C106_full (List.replicate d (0 : K) ++ [1]) a (by simp) ha
  rw [h1]
  congr 1
  refine samplePoly_inj ?_ ?_
  · rw [h2]; simp
  · rw [h3]
    have : samplePoly (List.replicate d (0 : K) ++ [1]) = X ^ d := by
      ext k
      rw [samplePoly_coeff, coeff_X_pow]
      rcases lt_trichotomy k d with h | h | h
      · rw [List.getD_append _ _ _ _ (by simpa using h), List.getD_replicate _ h, if_neg (by omega)]
      · subst h; rw [List.getD_append_right _ _ _ _ (by simp), if_pos rfl]; simp
      · rw [List.getD_eq_default _ _ (by simp; omega), if_neg (by omega)]
    rw [this]
    ext k
    rw [samplePoly_coeff, mul_comm, coeff_mul_X_pow']
    by_cases h : d ≤ k
    · rw [if_pos h, samplePoly_coeff, List.getD_append_right _ _ _ _ (by simpa using h)]; simp
    · rw [if_neg h, List.getD_append _ _ _ _ (by simpa using h), List.getD_replicate _ (by omega)]

/-- `valid`: only the positions where the shorter signal lies inside of the longer one, so every output is a sum over the whole shorter signal. -/
theorem C106_valid (a v : List K) (hv : v ≠ []) (h : v.length ≤ a.length) : ∃ y, npConvolve .valid a v = some y ∧ y.length = a.length - v.length + 1 ∧
    ∀ k, k < y.length → y.getD k 0 = ∑ j ∈ Finset.range v.length, v.getD j 0 * a.getD (k + (v.length - 1 - j)) 0 := by
  have hv' := List.length_pos_iff.mpr hv
  have ha : a ≠ [] := List.length_pos_iff.mp (by omega)
  refine ⟨_, C106_window .valid a v ha hv, ?_, ?_⟩
  · simp [window, max_eq_left h, min_eq_right h]
  · intro k hk
    rw [List.getD_eq_getElem _ _ hk, List.getElem_map, List.getElem_range, window, min_eq_right h]
    dsimp only
    rw [mul_comm, Polynomial.coeff_mul, Finset.Nat.sum_antidiagonal_eq_sum_range_succ (fun i j => (samplePoly v).coeff i * (samplePoly a).coeff j)]
    simp only [samplePoly_coeff]
    have hsub : Finset.range v.length ⊆ Finset.range (v.length - 1 + k).succ := fun j hj => Finset.mem_range.mpr (by have := Finset.mem_range.mp hj; omega)
    rw [← Finset.sum_subset hsub]
    · refine Finset.sum_congr rfl fun j hj => ?_
      have := Finset.mem_range.mp hj
      rw [show v.length - 1 + k - j = k + (v.length - 1 - j) by omega]
    · intro j _ hj
      rw [List.getD_eq_default v 0 (by simpa using hj), zero_mul]

/-- Arrays: one of the inputs must be one-dimensional; the other is filtered slice by slice, and it does not matter which input it is. -/
theorem C106_axis (mode : ConvMode) (x : List K) (rows rows' : List (List K)) :
    convolve (.many rows) (.many rows') mode = none ∧
    convolve (.one x) (.many rows) mode = convolve (.many rows) (.one x) mode ∧
    ∀ out, convolve (.one x) (.many rows) mode = some out →
      ∃ ys : List (List K), out = .many ys ∧ ys.length = rows.length ∧ ∀ i, i < rows.length → npConvolve mode x (rows.getD i []) = some (ys.getD i []) := by
  refine ⟨rfl, rfl, fun out h => ?_⟩
  simp only [convolve, applyAlongAxis] at h
  split at h
  · exact absurd h (by simp)
  · rw [Option.map_eq_some_iff] at h
    obtain ⟨ys, h1, h2⟩ := h
    refine ⟨ys, h2.symm, ?_⟩
    have h1 := mapM_forall₂ _ _ _ h1
    have hl := h1.length_eq
    refine ⟨hl.symm, fun i hi => ?_⟩
    rw [List.getD_eq_getElem _ _ hi, List.getD_eq_getElem _ _ (by omega)]
    exact (List.forall₂_iff_get.mp h1).2 i hi (by omega)

/-- One-dimensional inputs. -/
theorem C106_one (mode : ConvMode) (x y : List K) : convolve (.one x) (.one y) mode = (npConvolve mode x y).map .one := rfl
end

example : npConvolve .full [1, 1] [1, 1, (0 : ℤ)] = some [1, 2, 1, 0] ∧ npConvolve .same [1, 2, (3 : ℤ)] [1, 1] = some [1, 3, 5] ∧
    npConvolve .valid [1, 2, (3 : ℤ)] [1, 1] = some [3, 5] := by decide +kernel
end Komm
