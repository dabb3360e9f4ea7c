import Verif.Model.BCH
import Verif.Lemmas.Bifield2
import Verif.Lemmas.CyclicCode
import Mathlib.LinearAlgebra.Vandermonde
/-! Lemmas about BCH codes and Berlekamp's algorithm. -/
namespace Komm
open Polynomial

/-- Vandermonde: a weighted power sum over distinct non-zero nodes that vanishes for as many consecutive exponents as
there are nodes has zero weights. -/
theorem powersum_zero {K : Type} [Field K] [DecidableEq K] (L : Finset K) (hL : ∀ β ∈ L, β ≠ 0) (c : K → K) (a : Nat)
    (h : ∀ s < L.card, ∑ β ∈ L, c β * β ^ (a + s) = 0) : ∀ β ∈ L, c β = 0 := by
  let e := L.equivFin
  have key := Matrix.eq_zero_of_forall_pow_sum_mul_pow_eq_zero
    (f := fun i : Fin L.card => ((e.symm i : L) : K)) (v := fun i => c (e.symm i : L) * ((e.symm i : L) : K) ^ a)
    (fun i j hij => e.symm.injective (Subtype.ext hij)) (fun s => by
      have := h s s.is_lt
      rw [← Finset.sum_coe_sort L (fun β => c β * β ^ (a + s))] at this
      rw [← Equiv.sum_comp e.symm (fun β : L => c (β : K) * (β : K) ^ (a + s))] at this
      rw [← this]
      apply Finset.sum_congr rfl
      intro i _
      rw [pow_add]; ring)
  intro β hβ
  have := congrFun key (e ⟨β, hβ⟩)
  simp only [Equiv.symm_apply_apply, Pi.zero_apply, mul_eq_zero] at this
  rcases this with h | h
  · exact h
  · exact absurd (eq_zero_of_pow_eq_zero h) (hL β hβ)

/-- `Σ_{l ≤ D} s_l S_{m-l}`. -/
def lfsrSum {K : Type} [Field K] (S s : Nat → K) (D m : Nat) : K := ∑ l ∈ Finset.range (D + 1), s l * S (m - l)

/-- If `S_m = Σ β^m` for `1 ≤ m ≤ N`, and the recurrence `(s, D)` holds for `m = D+1, …, j` with at least `|L|` terms,
every locator is a root of the reversed recurrence. -/
theorem lfsr_roots {K : Type} [Field K] [DecidableEq K] (L : Finset K) (hL : ∀ β ∈ L, β ≠ 0) (N : Nat) (S s : Nat → K)
    (hS : ∀ m, 1 ≤ m → m ≤ N → S m = ∑ β ∈ L, β ^ m) (D j : Nat) (hj : j ≤ N)
    (hrec : ∀ m, D < m → m ≤ j → lfsrSum S s D m = 0) (hlen : D + L.card ≤ j) :
    ∀ β ∈ L, ∑ l ∈ Finset.range (D + 1), s l * β ^ (D - l) = 0 := by
  apply powersum_zero L hL _ 1
  intro t ht
  have h := hrec (D + 1 + t) (by omega) (by omega)
  rw [← h, lfsrSum]
  simp_rw [Finset.sum_mul]
  rw [Finset.sum_comm]
  apply Finset.sum_congr rfl
  intro l hl
  have hl := Finset.mem_range.mp hl
  rw [hS _ (by omega) (by omega), Finset.mul_sum]
  apply Finset.sum_congr rfl
  intro β _
  rw [show D + 1 + t - l = (D - l) + (1 + t) by omega, pow_add]; ring

theorem lfsr_next {K : Type} [Field K] (L : Finset K) (N : Nat) (S s : Nat → K)
    (hS : ∀ m, 1 ≤ m → m ≤ N → S m = ∑ β ∈ L, β ^ m) (D j : Nat) (hj : j < N) (hD : D ≤ j)
    (h : ∀ β ∈ L, ∑ l ∈ Finset.range (D + 1), s l * β ^ (D - l) = 0) : lfsrSum S s D (j + 1) = 0 := by
  have : lfsrSum S s D (j + 1) =
      ∑ β ∈ L, (∑ l ∈ Finset.range (D + 1), s l * β ^ (D - l)) * β ^ (j + 1 - D) := by
    simp_rw [Finset.sum_mul]
    rw [lfsrSum, Finset.sum_comm]
    apply Finset.sum_congr rfl
    intro l hl
    have hl := Finset.mem_range.mp hl
    rw [hS _ (by omega) (by omega), Finset.mul_sum]
    apply Finset.sum_congr rfl
    intro β _
    rw [show j + 1 - l = (D - l) + (j + 1 - D) by omega, pow_add]; ring
  rw [this]
  apply Finset.sum_eq_zero
  intro β hβ
  rw [h β hβ, zero_mul]

theorem lfsrSum_extend {K : Type} [Field K] (S s : Nat → K) (D R m : Nat) (hR : D ≤ R) (hs : ∀ l, D < l → s l = 0) :
    lfsrSum S s D m = lfsrSum S s R m := by
  unfold lfsrSum
  apply Finset.sum_subset
  · intro x; simp; omega
  · intro x _ hx
    rw [hs x (by simp at hx; omega), zero_mul]

/-- The update step: the combined recurrence. -/
theorem lfsrSum_combine {K : Type} [Field K] (S s p q : Nat → K) (D Dk sh m : Nat) (a : K) (hD : Dk + sh ≤ D)
    (hp : ∀ l, p l = s l + (if l < sh then 0 else q (l - sh)) * a)
    (hq : ∀ l, Dk < l → q l = 0) :
    lfsrSum S p D m = lfsrSum S s D m + a * lfsrSum S q Dk (m - sh) := by
  unfold lfsrSum
  have h1 : ∑ l ∈ Finset.range (D + 1), p l * S (m - l) =
      ∑ l ∈ Finset.range (D + 1), s l * S (m - l) +
      a * ∑ l ∈ Finset.range (D + 1), (if l < sh then 0 else q (l - sh)) * S (m - l) := by
    rw [Finset.mul_sum, ← Finset.sum_add_distrib]
    apply Finset.sum_congr rfl
    intro l _; rw [hp]; ring
  rw [h1]
  congr 2
  rw [show D + 1 = sh + (D + 1 - sh) by omega, Finset.sum_range_add]
  rw [Finset.sum_eq_zero, zero_add]
  · rw [show D + 1 - sh = (Dk + 1) + (D - sh - Dk) by omega, Finset.sum_range_add]
    rw [add_comm, Finset.sum_eq_zero, zero_add]
    · apply Finset.sum_congr rfl
      intro l _
      rw [if_neg (by omega), show sh + l - sh = l by omega, Nat.sub_sub]
    · intro l _
      rw [if_neg (by omega), hq _ (by omega), zero_mul]
  · intro l hl
    rw [if_pos (Finset.mem_range.mp hl), zero_mul]

end Komm
