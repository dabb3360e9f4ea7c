import Verif.Model.BlockFamilies
import Mathlib.Algebra.Order.Field.Rat
/-
Model of /repo/src/komm/_error_control_block/ReedMullerCode.py and
/repo/src/komm/_error_control_decoders/ReedDecoder.py.  `none` is a raised `ValueError`.
-/
namespace Komm

/-- `np.tile(block, reps)`. -/
def tile {α : Type} (block : List α) (reps : Nat) : List α := (List.replicate reps block).flatten

/-- The variable `block` in iteration `i` (ReedMullerCode.py:115-118). -/
def rmBlock (mu i : Nat) : List (ZMod 2) :=
  List.replicate (2 ^ (mu - i - 1)) 0 ++ List.replicate (2 ^ (mu - i - 1)) 1

/-- `v[r]` after the loop (ReedMullerCode.py:113-119): row `r = mu - i - 1` is written in iteration `i = mu - r - 1`. -/
def rmV (mu r : Nat) : List (ZMod 2) := tile (rmBlock mu (mu - r - 1)) (2 ^ (mu - r - 1))

/-- `reduce(np.multiply, v[indices, :])` (ReedMullerCode.py:124). -/
def rmRow (mu : Nat) (indices : List Nat) : BVec (2 ^ mu) :=
  fun j => (indices.map fun r => (rmV mu r).getD j 0).prod

/-- `G_list` (ReedMullerCode.py:121-127): `range(rho, 0, -1)`, then the all-one row. -/
def rmRows (rho mu : Nat) : List (BVec (2 ^ mu)) :=
  (((List.range rho).reverse.map (· + 1)).flatMap fun ell =>
    (combinations (List.range mu) ell).map (rmRow mu)) ++ [fun _ => 1]

/-- `reed_muller_generator_matrix(rho, mu)` (ReedMullerCode.py:111-129). -/
def rmGenerator (rho mu : Nat) : BMat (rmRows rho mu).length (2 ^ mu) := fun i => (rmRows rho mu)[i]

/-- `ReedMullerCode(rho, mu)` (ReedMullerCode.py:60-65), non-negative arguments. -/
def reedMullerCode (rho mu : Nat) :
    Option (LinCode (rmRows rho mu).length (2 ^ mu - (rmRows rho mu).length) (2 ^ mu)) :=
  if ¬ rho < mu then none else blockCodeOfGenerator (rmGenerator rho mu)

/-- `ReedMullerCode.minimum_distance` (ReedMullerCode.py:72-73). -/
def reedMullerMinimumDistance (rho mu : Nat) : Nat := 2 ^ (mu - rho)

/-- One entry of `np.dot(bin_vectors[ell], 2**indices)`: the dot product of a row of bits with the powers of two
(ReedMullerCode.py:105-106). -/
def dotPow (bits indices : List Nat) : Nat := (List.zipWith (fun b i => b * 2 ^ i) bits indices).sum

/-- `np.dot(bin_vectors[ell], 2**indices)` with `bin_vectors[ell] = int_to_bits(range(2**ell), width=ell)`
(ReedMullerCode.py:100, 105-106). -/
def scatterAll (ell : Nat) (indices : List Nat) : List Nat :=
  (List.range (2 ^ ell)).map fun a => dotPow (intToBits .lsbFirst a ell) indices

/-- One Reed partition (ReedMullerCode.py:103-107): the rows of `setS[newaxis] + setQ[newaxis].T`. -/
def reedPartition (mu ell : Nat) (indices : List Nat) : List (List Nat) :=
  let setE := (List.range mu).filter fun i => i ∉ indices
  let setS := scatterAll ell indices
  let setQ := scatterAll (mu - ell) setE
  setQ.map fun q => setS.map fun s => s + q

/-- `reed_partitions()` (ReedMullerCode.py:98-108): `range(rho, -1, -1)`. -/
def reedPartitions (rho mu : Nat) : List (List (List Nat)) :=
  (List.range (rho + 1)).reverse.flatMap fun ell =>
    (combinations (List.range mu) ell).map fun indices => reedPartition mu ell indices

/-- `np.count_nonzero(bx[partition], axis=1) % 2` (ReedDecoder.py:53, 64). -/
def reedChecksums {n : Nat} (bx : BVec n) (partition : List (List Nat)) : List Nat :=
  partition.map fun row => (row.countP fun j => vget bx j ≠ 0) % 2

/-- The loop of `decode_hard` (ReedDecoder.py:52-55); the list is `u_hat`. -/
def reedHardLoop {n : Nat} : BVec n → List (List (List Nat) × BVec n) → List (ZMod 2)
  | _, [] => []
  | bx, (partition, g) :: rest =>
    let checksums := reedChecksums bx partition
    let u : ZMod 2 := if checksums.countP (· ≠ 0) > checksums.length / 2 then 1 else 0
    u :: reedHardLoop (fun j => bx j + u * g j) rest

/-- `ReedDecoder(code, "hard").decode(r)` on one block (ReedDecoder.py:49-56). -/
def reedDecodeHard (rho mu : Nat) (r : BVec (2 ^ mu)) : BVec (rmRows rho mu).length :=
  vecOfList _ (reedHardLoop r ((reedPartitions rho mu).zip (rmRows rho mu)))

/-- `np.min` of a non-empty list. -/
def listMin : List ℚ → ℚ
  | [] => 0
  | [x] => x
  | x :: y :: l => min x (listMin (y :: l))

/-- The loop of `decode_soft` (ReedDecoder.py:63-68). -/
def reedSoftLoop {n : Nat} (r : Fin n → ℚ) : BVec n → List (List (List Nat) × BVec n) → List (ZMod 2)
  | _, [] => []
  | bx, (partition, g) :: rest =>
    let checksums := reedChecksums bx partition
    let minReliability := partition.map fun row => listMin (row.map fun j => if h : j < n then |r ⟨j, h⟩| else 0)
    let decisionVar := (List.zipWith (fun (c : Nat) w => (1 - 2 * (c : ℚ)) * w) checksums minReliability).sum
    let u : ZMod 2 := if decisionVar < 0 then 1 else 0
    u :: reedSoftLoop r (fun j => bx j + u * g j) rest

/-- `ReedDecoder(code, "soft").decode(r)` on one block (ReedDecoder.py:60-69), exact arithmetic. -/
def reedDecodeSoft (rho mu : Nat) (r : Fin (2 ^ mu) → ℚ) : BVec (rmRows rho mu).length :=
  vecOfList _ (reedSoftLoop r (fun j => if r j < 0 then 1 else 0) ((reedPartitions rho mu).zip (rmRows rho mu)))

end Komm
