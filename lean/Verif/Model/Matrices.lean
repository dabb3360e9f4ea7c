import Mathlib.Algebra.BigOperators.Fin
import Mathlib.Data.ZMod.Basic
/-
Model of /repo/src/komm/_util/matrices.py.  A two-dimensional 0/1 array of shape (k, n) is a
function `Fin k → Fin n → ZMod 2`; arithmetic `% 2` is arithmetic of `ZMod 2`.

`np.asarray(matrix, dtype=int)` (matrices.py:38) does not copy an integer array, so the Python `rref` also
overwrites its argument; the model returns the new matrix and leaves this side effect out.
-/
namespace Komm

/-- A 0/1 matrix of shape `(k, n)`. -/
abbrev BMat (k n : Nat) := Fin k → Fin n → ZMod 2

/-- A 0/1 vector of length `n`. -/
abbrev BVec (n : Nat) := Fin n → ZMod 2

/-- `np.dot(A, B) % 2` for two matrices. -/
def matMul {k m n : Nat} (A : BMat k m) (B : BMat m n) : BMat k n := fun i j => ∑ t, A i t * B t j

/-- `np.dot(u, A) % 2` for a vector and a matrix. -/
def vecMat {k n : Nat} (u : BVec k) (A : BMat k n) : BVec n := fun j => ∑ i, u i * A i j

/-- `np.eye(k)`. -/
def eye (k : Nat) : BMat k k := fun i j => if i = j then 1 else 0

/-- `_pivot` (matrices.py:14-16): index of the first non-zero entry, `row.size` if there is none. -/
def rowPivot {n : Nat} (row : BVec n) : Nat :=
  match (List.finRange n).find? fun j => row j ≠ 0 with
  | some j => j
  | none => n

/-- `np.argmin([f(x) for x in x0 :: xs])` as an element (matrices.py:42-43): the first minimiser. -/
def argminFrom {α : Type} (f : α → Nat) (x0 : α) (xs : List α) : α :=
  xs.foldl (fun best x => if f x < f best then x else best) x0

/-- Exchange of rows `r` and `p` (matrices.py:45). -/
def swapRows {k n : Nat} (M : BMat k n) (r p : Fin k) : BMat k n :=
  fun i => if i = r then M p else if i = p then M r else M i

/-- Pivot column and subtraction of row `r` from the other rows (matrices.py:47-53).  Row `r` itself is not
changed by the inner loop, so the rows can be updated simultaneously. -/
def eliminateRow {k n : Nat} (M : BMat k n) (r : Fin k) : BMat k n :=
  if h : rowPivot (M r) < n then
    fun i => if i ≠ r ∧ M i ⟨rowPivot (M r), h⟩ ≠ 0 then M i + M r else M i
  else M

/-- One iteration of the loop of `rref` (matrices.py:40-53) for row `r`; the candidate rows are
`reduced[r:]` (matrices.py:42-43). -/
def rrefStep {k n : Nat} (M : BMat k n) (r : Fin k) : BMat k n :=
  eliminateRow
    (swapRows M r (argminFrom (fun i => rowPivot (M i)) r ((List.finRange k).filter fun i => r < i))) r

/-- `rref` (matrices.py:19-54). -/
def rref {k n : Nat} (M : BMat k n) : BMat k n := (List.finRange k).foldl rrefStep M

/-- `np.concatenate((matrix, eye), axis=1)` (matrices.py:87-88). -/
def augment {k n : Nat} (M : BMat k n) : BMat k (n + k) :=
  fun i => Fin.append (M i) (eye k i)

/-- The pivot search of `xrref` (matrices.py:94-99): column `j` is recorded when it equals the next unit
vector; nothing is recorded once there are `n_rows` pivots. -/
def findPivots {k n : Nat} (R : BMat k n) : List (Fin n) :=
  (List.finRange n).foldl (fun pivots j =>
    if k ≤ pivots.length then pivots
    else if ∀ i : Fin k, R i j = if (i : Nat) = pivots.length then 1 else 0 then pivots ++ [j]
    else pivots) []

/-- `xrref` (matrices.py:57-101): `(row_transform, reduced, pivots)`. -/
def xrref {k n : Nat} (M : BMat k n) : BMat k k × BMat k n × List (Fin n) :=
  let a := rref (augment M)
  let reduced : BMat k n := fun i j => a i (Fin.castAdd k j)
  let rowTransform : BMat k k := fun i j => a i (Fin.natAdd n j)
  (rowTransform, reduced, findPivots reduced)

/-- `rank` (matrices.py:104-119). -/
def rank {k n : Nat} (M : BMat k n) : Nat := (xrref M).2.2.length

/-- `pseudo_inverse` (matrices.py:122-160).  Row `pivots[t]` of `reduced_inverse` is row `t` of
`np.eye(pivots.size, n_rows)`, the other rows are zero. -/
def pseudoInverse {k n : Nat} (M : BMat k n) : BMat n k :=
  let (rowTransform, _, pivots) := xrref M
  let reducedInverse : BMat n k := fun j t => if j ∈ pivots ∧ pivots.idxOf j = (t : Nat) then 1 else 0
  matMul reducedInverse rowTransform

/-- `np.setdiff1d(range(n_cols), pivots)` (matrices.py:170). -/
def notPivots {n : Nat} (pivots : List (Fin n)) : List (Fin n) :=
  (List.finRange n).filter fun j => j ∉ pivots

/-- `null_matrix` (matrices.py:163-173).  When the rank is smaller than the number of rows the shapes of the
two assignments do not match and numpy raises: `none`. -/
def nullMatrix {k n : Nat} (M : BMat k n) : Option (BMat (n - k) n) :=
  let (_, reduced, pivots) := xrref M
  let np := notPivots pivots
  if h : np.length = n - k ∧ pivots.length = k then
    some fun t j =>
      if hj : j ∈ pivots then
        reduced ⟨pivots.idxOf j, h.2 ▸ List.idxOf_lt_length_of_mem hj⟩ (np.get (t.cast h.1.symm))
      else if j = np.get (t.cast h.1.symm) then 1 else 0
  else none

end Komm
