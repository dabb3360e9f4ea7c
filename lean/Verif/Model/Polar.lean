import Verif.Model.BlockFamilies
import Mathlib.Algebra.Order.Field.Basic
/-
Model of /repo/src/komm/_error_control_block/PolarCode.py and
/repo/src/komm/_error_control_decoders/WagnerDecoder.py.  `none` is a raised `ValueError`.
-/
namespace Komm

/-- The 2×2 kernel `[[1, 0], [1, 1]]` (PolarCode.py:62). -/
def polarKernel : List (List (ZMod 2)) := [[1, 0], [1, 1]]

/-- `hadamard` after `mu` iterations of `hadamard = np.kron(hadamard, [[1, 0], [1, 1]])` (PolarCode.py:60-62):
entry `(2 * i + a, 2 * j + b)` of `np.kron(A, B)` is `A[i][j] * B[a][b]` for a 2×2 matrix `B`. -/
def polarHadamard : Nat → Nat → Nat → ZMod 2
  | 0, _, _ => 1
  | mu + 1, i, j => polarHadamard mu (i / 2) (j / 2) * (polarKernel.getD (i % 2) []).getD (j % 2) 0

/-- `self.active` (PolarCode.py:59). -/
def polarActive (mu : Nat) (frozen : List Nat) : List Nat := (List.range (2 ^ mu)).filter fun i => i ∉ frozen

/-- `hadamard[self.active]` (PolarCode.py:63). -/
def polarGenerator (mu : Nat) (frozen : List Nat) : BMat (polarActive mu frozen).length (2 ^ mu) :=
  fun i j => polarHadamard mu (polarActive mu frozen)[i] j

/-- `v = np.zeros(n); v[self.active] = u` (PolarCode.py:74-75). -/
def polarScatter (mu : Nat) (frozen : List Nat) (u : BVec (polarActive mu frozen).length) : BVec (2 ^ mu) :=
  (List.finRange (polarActive mu frozen).length).foldl
    (fun v i => fun j => if (j : Nat) = (polarActive mu frozen)[i] then u i else v j) 0

/-- `v[i : i + m] ^= v[i + m : i + 2 * m]` (PolarCode.py:79). -/
def polarXor {n : Nat} (m i : Nat) (v : BVec n) : BVec n :=
  fun j => if i ≤ (j : Nat) ∧ (j : Nat) < i + m then v j + vget v (j + m) else v j

/-- One iteration of the outer loop (PolarCode.py:77-79): `range(0, n, 2 * m)` has `n / (2 * m)` elements. -/
def polarStage {n : Nat} (v : BVec n) (d : Nat) : BVec n :=
  let m := 2 ^ d
  (List.range (n / (2 * m))).foldl (fun v t => polarXor m (t * (2 * m)) v) v

/-- The butterfly (PolarCode.py:76-79). -/
def polarTransform (mu : Nat) (v : BVec (2 ^ mu)) : BVec (2 ^ mu) := (List.range mu).foldl polarStage v

/-- `PolarCode(mu, frozen)` (PolarCode.py:50-63) for a list of non-negative indices; `encode` is overridden
(PolarCode.py:69-82). -/
def polarCode (mu : Nat) (frozen : List Nat) :
    Option (LinCode (polarActive mu frozen).length (2 ^ mu - (polarActive mu frozen).length) (2 ^ mu)) :=
  if ¬ mu ≥ 1 then none
  else if ¬ ∀ i ∈ frozen, i < 2 ^ mu then none
  else if frozen.length ≠ frozen.dedup.length then none
  else (blockCodeOfGenerator (polarGenerator mu frozen)).map fun c =>
    { c with encode := fun u => polarTransform mu (polarScatter mu frozen u) }

/-- `WagnerDecoder.decode` on one block (WagnerDecoder.py:38-44), exact arithmetic over an ordered field. -/
def wagnerWord {K : Type} [Field K] [LinearOrder K] {n : Nat} (r : Fin (n + 1) → K) : BVec (n + 1) :=
  let v : BVec (n + 1) := fun j => if r j < 0 then 1 else 0
  if (∑ j, if v j ≠ 0 then 1 else 0) % 2 ≠ 0 then
    let i := argminOn (fun j : Fin (n + 1) => |r j|) 0 ((List.finRange (n + 1)).drop 1)
    fun j => if j = i then v j + 1 else v j
  else v

/-- `WagnerDecoder.decode`: project the corrected word (WagnerDecoder.py:43-44). -/
def wagnerDecode {K : Type} [Field K] [LinearOrder K] {k m n : Nat} (c : LinCode k m (n + 1)) (r : Fin (n + 1) → K) :
    BVec k := c.project (wagnerWord r)

end Komm
