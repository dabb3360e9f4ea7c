import Verif.Model.Random
import Mathlib.Algebra.Order.BigOperators.Group.Finset
import Mathlib.Algebra.Order.Field.Basic
import Mathlib.Tactic.Linarith
import Mathlib.Data.Fintype.Fin
import Mathlib.Order.Interval.Finset.Fin
/-! The behaviour of `rng.choice`. -/
namespace Komm
variable {K : Type} [Field K] [LinearOrder K] [IsStrictOrderedRing K] {n : Nat}

/-- The probability of the symbols before `j`. -/
def below (p : Fin n → K) (j : Fin n) : K := ∑ i ∈ Finset.univ.filter (fun i : Fin n => i < j), p i

theorem cumsum_eq (p : Fin n → K) (j : Fin n) : cumsum p j = below p j + p j := by
  have : Finset.univ.filter (fun i : Fin n => i ≤ j) = insert j (Finset.univ.filter fun i : Fin n => i < j) := by
    ext i; simp [le_iff_lt_or_eq, or_comm]
  rw [cumsum, this, Finset.sum_insert (by simp), below, add_comm]

theorem cumsum_mono (p : Fin n → K) (h0 : ∀ i, 0 ≤ p i) {i j : Fin n} (h : i ≤ j) : cumsum p i ≤ cumsum p j :=
  Finset.sum_le_sum_of_subset_of_nonneg (fun k hk => by simp at hk ⊢; exact hk.trans h) fun k _ _ => h0 k

theorem cumsum_le_below (p : Fin n → K) (h0 : ∀ i, 0 ≤ p i) {i j : Fin n} (h : i < j) : cumsum p i ≤ below p j :=
  Finset.sum_le_sum_of_subset_of_nonneg (fun k hk => by simp at hk ⊢; exact lt_of_le_of_lt hk h) fun k _ _ => h0 k

theorem below_zero (p : Fin n → K) (h : 0 < n) : below p ⟨0, h⟩ = 0 :=
  Finset.sum_eq_zero fun i hi => by simp [Fin.lt_def] at hi

theorem below_succ (p : Fin n → K) (j : Fin n) (h : j.val + 1 < n) : below p ⟨j.val + 1, h⟩ = cumsum p j := by
  refine Finset.sum_congr ?_ fun _ _ => rfl
  ext i
  simp only [Finset.mem_filter, Finset.mem_univ, true_and, Fin.lt_def, Fin.le_def]
  omega

theorem below_nonneg (p : Fin n → K) (h0 : ∀ i, 0 ≤ p i) (j : Fin n) : 0 ≤ below p j := Finset.sum_nonneg fun i _ => h0 i

theorem cumsum_le_one (p : Fin n → K) (h0 : ∀ i, 0 ≤ p i) (h1 : ∑ i, p i = 1) (j : Fin n) : cumsum p j ≤ 1 := by
  rw [← h1]
  exact Finset.sum_le_sum_of_subset_of_nonneg (Finset.subset_univ _) fun i _ _ => h0 i

/-- `rng.choice` returns `j` exactly when the draw falls in the `j`-th interval of the cumulative distribution. -/
theorem rngChoice_iff (p : Fin n → K) (h0 : ∀ i, 0 ≤ p i) (h1 : ∑ i, p i = 1) (u : K) (hu0 : 0 ≤ u) (j : Fin n) :
    rngChoice p u = some j ↔ below p j ≤ u ∧ u < below p j + p j := by
  classical
  rw [rngChoice]
  simp only [h1, div_one, ← cumsum_eq]
  set S := Finset.univ.filter fun k : Fin n => cumsum p k ≤ u with hS
  have hdown : ∀ a b : Fin n, a ≤ b → b ∈ S → a ∈ S := fun a b hab hb => by
    simp only [hS, Finset.mem_filter, Finset.mem_univ, true_and] at hb ⊢
    exact (cumsum_mono p h0 hab).trans hb
  constructor
  · intro h
    split at h
    next hlt =>
      have hj : S.card = j.val := by simpa [Fin.ext_iff] using h
      have hjS : j ∉ S := by
        intro hjS
        have : Finset.univ.filter (fun i : Fin n => i ≤ j) ⊆ S := fun i hi => hdown i j (by simpa using hi) hjS
        have := Finset.card_le_card this
        rw [show (Finset.univ.filter fun i : Fin n => i ≤ j) = Finset.Iic j by ext; simp, Fin.card_Iic] at this
        omega
      refine ⟨?_, by simpa [hS] using hjS⟩
      rcases Nat.eq_zero_or_pos j.val with hz | hz
      · rw [show j = ⟨0, j.pos⟩ from Fin.ext hz, below_zero]; exact hu0
      · obtain ⟨i, hi⟩ : ∃ i : Fin n, i.val + 1 = j.val := ⟨⟨j.val - 1, by omega⟩, by simp; omega⟩
        have hb : below p j = cumsum p i := by
          rw [← below_succ p i (by omega)]; congr 1; exact Fin.ext hi.symm
        rw [hb]
        by_contra hc
        have : S ⊆ Finset.univ.filter fun k : Fin n => k < i := fun k hk => by
          simp only [Finset.mem_filter, Finset.mem_univ, true_and]
          by_contra hki
          have := hdown i k (not_lt.mp hki) hk
          simp [hS] at this
          exact hc this
        have := Finset.card_le_card this
        rw [show (Finset.univ.filter fun k : Fin n => k < i) = Finset.Iio i by ext; simp, Fin.card_Iio] at this
        omega
    next => exact absurd h (by simp)
  · rintro ⟨ha, hb⟩
    have hcard : S.card = j.val := by
      have : S = Finset.Iio j := by
        ext k
        simp only [hS, Finset.mem_filter, Finset.mem_univ, true_and, Finset.mem_Iio]
        constructor
        · intro hk
          by_contra hkj
          exact absurd (hb.trans_le (cumsum_mono p h0 (not_lt.mp hkj))) (not_lt.mpr hk)
        · intro hk
          exact (cumsum_le_below p h0 hk).trans ha
      rw [this, Fin.card_Iio]
    rw [dif_pos (by rw [hcard]; exact j.isLt)]
    exact congrArg some (Fin.ext hcard)

theorem rngChoice_total (p : Fin n → K) (h0 : ∀ i, 0 ≤ p i) (h1 : ∑ i, p i = 1) (u : K) (hu1 : u < 1) :
    ∃ j, rngChoice p u = some j := by
  rw [rngChoice]
  simp only [h1, div_one]
  have hn : 0 < n := by
    rcases Nat.eq_zero_or_pos n with rfl | h
    · simp at h1
    · exact h
  have hlast : cumsum p ⟨n - 1, by omega⟩ = 1 := by
    rw [← h1, cumsum]
    exact Finset.sum_congr (by ext i; simp [Fin.le_def]; omega) fun _ _ => rfl
  have hlt : (Finset.univ.filter fun k : Fin n => cumsum p k ≤ u).card < n := by
    conv_rhs => rw [← Fintype.card_fin n, ← Finset.card_univ]
    refine Finset.card_lt_card ⟨Finset.subset_univ _, fun h => ?_⟩
    have := h (Finset.mem_univ (⟨n - 1, by omega⟩ : Fin n))
    simp [hlast] at this
    exact absurd (this.trans_lt hu1) (lt_irrefl _)
  rw [dif_pos hlt]
  exact ⟨_, rfl⟩

end Komm
