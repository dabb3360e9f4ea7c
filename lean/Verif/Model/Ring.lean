import Mathlib.Algebra.Ring.Defs
/-
Model of the generic algorithms of /repo/src/komm/_algebra/ring.py over an arbitrary ring.
-/
namespace Komm

/-- `ring.horner` (ring.py:76-96): `coefficients` are ring elements already embedded
(`coefficient * one`). -/
def horner {α : Type} [CommRing α] (coefficients : List α) (x : α) : α :=
  coefficients.reverse.foldl (fun result c => result * x + c) 0

/-- The minor obtained by deleting row 0 and column `j` (ring.py:120). -/
def minorOf {α : Type} (m : List (List α)) (j : Nat) : List (List α) :=
  m.tail.map fun row => row.take j ++ row.drop (j + 1)

/-- The recursion of `ring.determinant` (ring.py:112-124) on the order `n` of the matrix, for `n ≥ 1`. -/
def detRec {α : Type} [CommRing α] : Nat → List (List α) → α
  | 0, _ => 0
  | 1, m => (m.headD []).headD 0
  | n + 2, m =>
    (List.range (n + 2)).foldl (fun det j =>
      det + ((if j % 2 = 1 then -1 else 1) * (m.headD []).getD j 0) * detRec (n + 1) (minorOf m j)) 0

/-- `ring.determinant` (ring.py:99-124).  `none`: `ValueError` for a non-square matrix, `IndexError` for
the empty matrix. -/
def determinant {α : Type} [CommRing α] (m : List (List α)) : Option α :=
  if m.any fun row => row.length ≠ m.length then none
  else if m.length = 0 then none
  else some (detRec m.length m)

end Komm
