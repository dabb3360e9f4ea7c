import Verif.Model.Ring
import Mathlib.LinearAlgebra.Matrix.Determinant.Basic
import Mathlib.Algebra.Polynomial.Eval.Defs
import Mathlib.Algebra.BigOperators.Fin

namespace Komm
open Matrix

/-- The `n × n` matrix whose entries are those of a list of rows. -/
def listMatrix {α : Type} [CommRing α] (n : Nat) (m : List (List α)) : Matrix (Fin n) (Fin n) α :=
  fun i j => (m.getD i []).getD j 0

theorem foldl_range_sum {α : Type} [CommRing α] (n : Nat) (f : Nat → α) (a : α) :
    (List.range n).foldl (fun s j => s + f j) a = a + ∑ j : Fin n, f j := by
  induction n with
  | zero => simp
  | succ n ih =>
    rw [List.range_succ, List.foldl_append, ih, Fin.sum_univ_castSucc]
    simp [add_assoc]

theorem getD_take_append_drop {α : Type} (row : List α) (j c : Nat) (d : α) (hj : j < row.length) :
    (row.take j ++ row.drop (j + 1)).getD c d = row.getD (if c < j then c else c + 1) d := by
  simp only [List.getD_eq_getElem?_getD]
  congr 1
  rw [List.getElem?_append]
  simp only [List.length_take, List.getElem?_take, List.getElem?_drop]
  split_ifs <;> first | rfl | omega | (congr 1; omega)

theorem detRec_eq {α : Type} [CommRing α] (n : Nat) (m : List (List α)) (hm : m.length = n + 1)
    (hrow : ∀ r ∈ m, r.length = n + 1) : detRec (n + 1) m = (listMatrix (n + 1) m).det := by
  induction n generalizing m with
  | zero =>
    rw [zero_add, det_fin_one]
    cases m with
    | nil => simp at hm
    | cons r m =>
      cases r with
      | nil => simp at hrow
      | cons a r => simp [detRec, listMatrix]
  | succ n ih =>
    rw [detRec, foldl_range_sum, zero_add, det_succ_row_zero]
    apply Finset.sum_congr rfl
    intro j _
    cases m with
    | nil => simp at hm
    | cons r m =>
      have hr : r.length = n + 1 + 1 := hrow r (by simp)
      have e1 : (if (j : Nat) % 2 = 1 then (-1 : α) else 1) = (-1) ^ (j : Nat) := by
        rcases Nat.mod_two_eq_zero_or_one (j : Nat) with h | h
        · rw [h, if_neg (by decide), Even.neg_one_pow (Nat.even_iff.mpr h)]
        · rw [h, if_pos rfl, Odd.neg_one_pow (Nat.odd_iff.mpr h)]
      rw [e1]
      have e2 : ((r :: m).headD []).getD (j : Nat) 0 = listMatrix (n + 1 + 1) (r :: m) 0 j := by
        simp [listMatrix]
      rw [e2]
      congr 1
      rw [ih]
      · congr 1
        ext a b
        simp only [listMatrix, minorOf, List.tail_cons, submatrix_apply]
        have ha : (a : Nat) < m.length := by simp at hm; omega
        have hb : (m.map fun row => row.take j ++ row.drop (j + 1)).getD a [] =
            (m.getD a []).take j ++ (m.getD a []).drop (j + 1) := by
          simp [ha]
        rw [hb]
        have hlen : (m.getD a []).length = n + 1 + 1 := by
          rw [List.getD_eq_getElem?_getD, List.getElem?_eq_getElem ha]
          exact hrow _ (by simp)
        rw [getD_take_append_drop _ _ _ _ (by rw [hlen]; exact j.isLt)]
        have hs : ((r :: m).getD (Fin.succ a : Nat) []) = m.getD a [] := by simp
        rw [hs]
        congr 1
        by_cases h : (b : Nat) < j
        · rw [if_pos h, Fin.succAbove_of_castSucc_lt]
          · simp
          · exact h
        · rw [if_neg h, Fin.succAbove_of_le_castSucc]
          · simp
          · rw [Fin.le_def]; simpa using h
      · simp [minorOf]; simp at hm; omega
      · intro row hrow'
        simp only [minorOf, List.tail_cons, List.mem_map] at hrow'
        obtain ⟨r', hr', rfl⟩ := hrow'
        have := hrow r' (by simp [hr'])
        have := j.isLt
        simp; omega

theorem determinant_spec {α : Type} [CommRing α] (m : List (List α)) (hm : m ≠ [])
    (hrow : ∀ r ∈ m, r.length = m.length) : determinant m = some (listMatrix m.length m).det := by
  unfold determinant
  have h0 : m.length ≠ 0 := by simpa using hm
  have h1 : (m.any fun row => decide (row.length ≠ m.length)) = false := by
    rw [List.any_eq_false]; intro r hr; simpa using hrow r hr
  rw [h1, if_neg (by simp), if_neg h0]
  congr 1
  obtain ⟨n, hn⟩ := Nat.exists_eq_succ_of_ne_zero h0
  rw [hn]
  exact detRec_eq n m hn (by rw [← Nat.succ_eq_add_one, ← hn]; exact hrow)

theorem horner_spec {α : Type} [CommRing α] (cs : List α) (x : α) :
    horner cs x = ∑ i : Fin cs.length, cs[i] * x ^ (i : Nat) := by
  rw [horner, List.foldl_reverse]
  induction cs with
  | nil => simp
  | cons c cs ih =>
    rw [List.foldr_cons, ih]
    refine Eq.trans ?_ (Fin.sum_univ_succ (n := cs.length) fun i => (c :: cs)[i] * x ^ (i : Nat)).symm
    simp only [Fin.val_zero, pow_zero, mul_one, Fin.val_succ, Finset.sum_mul, pow_succ]
    rw [add_comm]
    congr 1
    apply Finset.sum_congr rfl
    intro i _
    simp [mul_assoc]

end Komm
