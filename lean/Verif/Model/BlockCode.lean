import Verif.Model.Matrices
import Verif.Model.BitOps
import Verif.Model.Blockwise
/-
Model of /repo/src/komm/_error_control_block/base.py, BlockCode.py, SystematicBlockCode.py, SlepianArray.py and
/repo/src/komm/_error_control_decoders/SyndromeTableDecoder.py, ExhaustiveSearchDecoder.py.
Words are vectors over `ZMod 2`; `none` is a raised exception (or, where said, non-termination).
-/
namespace Komm

/-- A block code object: the attributes `generator_matrix`, `generator_matrix_right_inverse`, `check_matrix` and the
(overridable) methods `encode`, `project_word`, `check` on one block (base.py:13-131).  `k`, `m`, `n` are
`dimension`, `redundancy`, `length`. -/
structure LinCode (k m n : Nat) where
  generator : BMat k n
  rightInverse : BMat n k
  checkMatrix : BMat m n
  encode : BVec k → BVec n
  project : BVec n → BVec k
  check : BVec n → BVec m

/-- Entry `i` of an array (`0` outside; the model only reads inside). -/
def vget {k : Nat} (u : BVec k) (i : Nat) : ZMod 2 := if h : i < k then u ⟨i, h⟩ else 0

/-- A Python list of bits as a vector. -/
def vecOfList (k : Nat) (l : List (ZMod 2)) : BVec k := fun i => l.getD i 0

/-- `bits_to_int` (LSB-first) of a 0/1 vector (bit_operations.py:36-44). -/
def vecToNat {m : Nat} (v : BVec m) : Nat := bitsToInt .lsbFirst (List.ofFn fun i => (v i).val)

/-- `int_to_bits(n, m)` (LSB-first) as a vector (bit_operations.py:85-93). -/
def natToVec (m n : Nat) : BVec m := fun i => ((intToBits .lsbFirst n m).getD i 0 : Nat)

/-- `np.sum` of a 0/1 integer vector. -/
def vsum {n : Nat} (v : BVec n) : Nat := ∑ i, (v i).val

namespace LinCode

variable {k m n : Nat}

/-- The base-class methods (base.py:79-82, 88-91, 126-129). -/
def ofMatrices (G : BMat k n) (GR : BMat n k) (H : BMat m n) : LinCode k m n where
  generator := G
  rightInverse := GR
  checkMatrix := H
  encode u := vecMat u G
  project v := vecMat v GR
  check r := fun i => ∑ j, r j * H i j

/-- `inverse_encode` (base.py:109-112). -/
def inverseEncode (c : LinCode k m n) (v : BVec n) : Option (BVec k) :=
  if c.check v ≠ 0 then none else some (c.project v)

/-- `encode` on an input of several blocks (base.py:79-84). -/
def encodeStream (c : LinCode k m n) (l : List (ZMod 2)) : Option (List (ZMod 2)) :=
  blockwise k (fun row => some (List.ofFn (c.encode (vecOfList k row)))) l

/-- `project_word` on an input of several blocks (base.py:88-93). -/
def projectStream (c : LinCode k m n) (l : List (ZMod 2)) : Option (List (ZMod 2)) :=
  blockwise n (fun row => some (List.ofFn (c.project (vecOfList n row)))) l

/-- `check` on an input of several blocks (base.py:126-131). -/
def checkStream (c : LinCode k m n) (l : List (ZMod 2)) : Option (List (ZMod 2)) :=
  blockwise n (fun row => some (List.ofFn (c.check (vecOfList n row)))) l

/-- `inverse_encode` on an input of several blocks (base.py:109-112). -/
def inverseEncodeStream (c : LinCode k m n) (l : List (ZMod 2)) : Option (List (ZMod 2)) :=
  match c.checkStream l with
  | none => none
  | some s => if ∃ b ∈ s, b ≠ 0 then none else c.projectStream l

/-- `codewords` (base.py:139-153); the batches of 1024 messages are concatenated in order. -/
def codewords (c : LinCode k m n) : List (BVec n) := (List.range (2 ^ k)).map fun i => c.encode (natToVec k i)

/-- `np.bincount(values, minlength=size)` for values smaller than `size`. -/
def bincount (values : List Nat) (size : Nat) : List Nat := (List.range size).map fun w => values.count w

/-- `codeword_weight_distribution` (base.py:161-178); both branches count the same weights. -/
def weightDistribution (c : LinCode k m n) : List Nat := bincount (c.codewords.map vsum) (n + 1)

/-- `np.flatnonzero`. -/
def flatnonzero (l : List Nat) : List Nat := (List.range l.length).filter fun i => l.getD i 0 ≠ 0

/-- `minimum_distance` (base.py:186); `none` is `IndexError`. -/
def minimumDistance (c : LinCode k m n) : Option Nat := (flatnonzero c.weightDistribution)[1]?

/-- `packing_radius` (base.py:273). -/
def packingRadius (c : LinCode k m n) : Option Nat := c.minimumDistance.map fun d => (d - 1) / 2

/-! #### coset leaders -/

/-- `H_cols = bits_to_int(check_matrix.T)` (base.py:195, 235). -/
def hCols (c : LinCode k m n) : List (Fin n × Nat) :=
  (List.finRange n).map fun j => (j, vecToNat fun i => c.checkMatrix i j)

/-- The mutable state of `coset_leaders` (base.py:196-208).  `done` records the `return` of line 220-223. -/
structure Bfs (n : Nat) where
  visited : Nat → Bool
  count : Nat
  leaders : Nat → BVec n
  next : List Nat
  done : Bool

/-- Body of the innermost loop (base.py:211-223); nothing happens after the `return`. -/
def bfsStep (m : Nat) {n : Nat} (s : Nat) (b : Bfs n) (jh : Fin n × Nat) : Bfs n :=
  if b.done then b
  else
    let s0 := s ^^^ jh.2
    if b.visited s0 then b
    else
      { visited := fun t => if t = s0 then true else b.visited t
        count := b.count + 1
        leaders := fun t => if t = s0 then fun i => b.leaders s i + (if i = jh.1 then 1 else 0) else b.leaders t
        next := b.next ++ [s0]
        done := b.count + 1 == 2 ^ m }

/-- One iteration of `while True` (base.py:207-224) up to the assignment of `syndromes`. -/
def bfsRound (c : LinCode k m n) (syndromes : List Nat) (b : Bfs n) : Bfs n :=
  syndromes.foldl (fun b s => c.hCols.foldl (bfsStep m s) b) { b with next := [] }

/-- The `while True` loop (base.py:207-224); `fuel` bounds the number of iterations, `none` means that the loop has not
returned within it. -/
def bfsLoop (c : LinCode k m n) : Nat → List Nat → Bfs n → Option (Bfs n)
  | 0, _, _ => none
  | fuel + 1, syndromes, b =>
    let b' := c.bfsRound syndromes b
    if b'.done then some b' else bfsLoop c fuel b'.next b'

/-- The state before the loop (base.py:196-200). -/
def bfsInit (n : Nat) : Bfs n :=
  { visited := fun t => t == 0, count := 1, leaders := fun _ => 0, next := [], done := false }

/-- `coset_leaders` (base.py:194-224) as the table `syndrome integer ↦ leader`, `none` if the loop has not returned
within `fuel` iterations. -/
def cosetLeaders (c : LinCode k m n) (fuel : Nat) : Option (Nat → BVec n) :=
  (c.bfsLoop fuel [0] (bfsInit n)).map Bfs.leaders

/-- The mutable state of `coset_leader_weight_distribution` inside one round (base.py:236-250). -/
structure WBfs where
  visited : Nat → Bool
  count : Nat
  next : List Nat
  done : Bool

/-- Body of the innermost loop (base.py:253-263). -/
def wStep (m : Nat) (s : Nat) (b : WBfs) (h : Nat) : WBfs :=
  if b.done then b
  else
    let s0 := s ^^^ h
    if b.visited s0 then b
    else
      { visited := fun t => if t = s0 then true else b.visited t
        count := b.count + 1
        next := b.next ++ [s0]
        done := b.count + 1 == 2 ^ m }

/-- One iteration of `while True` (base.py:250-264). -/
def wRound (c : LinCode k m n) (syndromes : List Nat) (b : WBfs) : WBfs :=
  syndromes.foldl (fun b s => (c.hCols.map Prod.snd).foldl (wStep m s) b) { b with next := [] }

/-- The `while True` loop (base.py:248-265); the result lists the entries `distribution[0..weight+1]` written. -/
def wLoop (c : LinCode k m n) : Nat → List Nat → WBfs → List Nat → Option (List Nat)
  | 0, _, _, _ => none
  | fuel + 1, syndromes, b, distribution =>
    let distribution := distribution ++ [syndromes.length]
    let b' := c.wRound syndromes b
    if b'.done then some (distribution ++ [b'.next.length])
    else wLoop c fuel b'.next b' distribution

/-- `coset_leader_weight_distribution` when the leaders are not cached (base.py:235-265).  The remaining entries of the
`n + 1` array are zero; an entry beyond it would be an `IndexError`. -/
def leaderWeightDistribution (c : LinCode k m n) (fuel : Nat) : Option (List Nat) :=
  match c.wLoop fuel [0] { visited := fun t => t == 0, count := 1, next := [], done := false } [] with
  | none => none
  | some l => if n + 1 < l.length then none else some (l ++ List.replicate (n + 1 - l.length) 0)

/-- `coset_leader_weight_distribution` when the leaders are cached (base.py:233-234). -/
def leaderWeightDistributionCached (m n : Nat) (leaders : Nat → BVec n) : List Nat :=
  bincount ((List.range (2 ^ m)).map fun s => vsum (leaders s)) (n + 1)

/-- `covering_radius` (base.py:281). -/
def coveringRadius (c : LinCode k m n) (fuel : Nat) : Option Nat :=
  match c.leaderWeightDistribution fuel with
  | none => none
  | some d => (flatnonzero d).getLast?

end LinCode

/-! #### decoders and standard array -/

/-- `SyndromeTableDecoder.decode` on one block (SyndromeTableDecoder.py:40-45), with the table computed by
`coset_leaders()` at construction (L26-27). -/
def syndromeTableDecode {k m n : Nat} (c : LinCode k m n) (leaders : Nat → BVec n) (r : BVec n) : BVec k :=
  c.project (r + leaders (vecToNat (c.check r)))

/-- The first element of `x0 :: xs` minimising `f` (`codewords[np.argmin(metrics)]`). -/
def argminOn {α K : Type} [LT K] [DecidableRel (α := K) (· < ·)] (f : α → K) (x0 : α) (xs : List α) : α :=
  xs.foldl (fun best x => if f x < f best then x else best) x0

/-- `ExhaustiveSearchDecoder.decode`, hard input, one block (ExhaustiveSearchDecoder.py:47-55). -/
def exhaustiveHard {k m n : Nat} (c : LinCode k m n) (r : BVec n) : Option (BVec k) :=
  match c.codewords with
  | [] => none
  | v0 :: vs =>
    some (c.project (argminOn (fun v : BVec n => ∑ j, if r j ≠ v j then 1 else 0) v0 vs))

/-- `ExhaustiveSearchDecoder.decode`, soft input, one block (ExhaustiveSearchDecoder.py:47-55), over an ordered ring. -/
def exhaustiveSoft {K : Type} [CommRing K] [LT K] [DecidableRel (α := K) (· < ·)] {k m n : Nat}
    (c : LinCode k m n) (r : Fin n → K) : Option (BVec k) :=
  match c.codewords with
  | [] => none
  | v0 :: vs =>
    some (c.project (argminOn (fun v : BVec n => ∑ j, -r j * (-1) ^ (v j).val) v0 vs))

/-- `SlepianArray.entry` (SlepianArray.py:62-66). -/
def slepianEntry {k m n : Nat} (c : LinCode k m n) (leaders : Nat → BVec n) (i j : Nat) : BVec n :=
  leaders i + c.encode (natToVec k j)

/-- `SlepianArray.row` (SlepianArray.py:88-89). -/
def slepianRow {k m n : Nat} (c : LinCode k m n) (leaders : Nat → BVec n) (i : Nat) : List (BVec n) :=
  (List.range (2 ^ k)).map fun j => slepianEntry c leaders i j

/-- `SlepianArray.col` (SlepianArray.py:111-112). -/
def slepianCol {k m n : Nat} (c : LinCode k m n) (leaders : Nat → BVec n) (j : Nat) : List (BVec n) :=
  (List.range (2 ^ m)).map fun i => slepianEntry c leaders i j

/-! #### constructors -/

/-- `BlockCode(generator_matrix=G)` (BlockCode.py:66-70, 136-172).  The Python object can be created for every `G`; when
`G` has not full row rank, `check_matrix` (hence `check`, `inverse_encode`) raises: `none`. -/
def blockCodeOfGenerator {k n : Nat} (G : BMat k n) : Option (LinCode k (n - k) n) :=
  (nullMatrix G).map fun H => LinCode.ofMatrices G (pseudoInverse G) H

/-- `BlockCode(check_matrix=H)` (BlockCode.py:71-75, 136-172). -/
def blockCodeOfCheck {m n : Nat} (H : BMat m n) : Option (LinCode (n - m) m n) :=
  (nullMatrix H).map fun N => LinCode.ofMatrices (rref N) (pseudoInverse (rref N)) H

/-- `BlockCode(generator_matrix=…, check_matrix=…)`: exactly one must be given (BlockCode.py:58-65). -/
def blockCodeArgs (hasGenerator hasCheck : Bool) : Bool := !((!hasGenerator && !hasCheck) || (hasGenerator && hasCheck))

/-- `parity_set = np.setdiff1d(np.arange(n), information_set)` (SystematicBlockCode.py:84). -/
def paritySet (n : Nat) (info : List Nat) : List Nat := (List.range n).filter fun j => j ∉ info

/-- The object `SystematicBlockCode(P, information_set)` with `information_set` and `parity_set` as lists of positions
(SystematicBlockCode.py:126-213). -/
def systematicObj {k m : Nat} (P : BMat k m) (info par : List Nat) : LinCode k m (k + m) where
  generator i j :=
    if (j : Nat) ∈ info then (if info.idxOf (j : Nat) = (i : Nat) then 1 else 0) else vget (P i) (par.idxOf (j : Nat))
  rightInverse j t := if info[(t : Nat)]? = some (j : Nat) then 1 else 0
  checkMatrix s j :=
    if (j : Nat) ∈ info then vget (fun i => P i s) (info.idxOf (j : Nat))
    else (if par.idxOf (j : Nat) = (s : Nat) then 1 else 0)
  encode u := fun j =>
    if (j : Nat) ∈ info then vget u (info.idxOf (j : Nat)) else vget (vecMat u P) (par.idxOf (j : Nat))
  project v := fun t => vget v (info.getD t 0)
  check r := fun s => vecMat (fun t : Fin k => vget r (info.getD t 0)) P s + vget r (par.getD s 0)

/-- `SystematicBlockCode(P, information_set)` with an explicit information set (SystematicBlockCode.py:55, 67-73).
The constructor rejects a wrong size and entries larger than `n`; the entry `n` itself and repeated entries are accepted
by it but make `generator_matrix` and the methods raise (index error, shape mismatch): also `none` here. -/
def systematicNew {k m : Nat} (P : BMat k m) (info : List Nat) : Option (LinCode k m (k + m)) :=
  if info.length ≠ k ∨ info = [] ∨ ∃ j ∈ info, k + m < j then none
  else if (∃ j ∈ info, k + m ≤ j) ∨ (paritySet (k + m) info).length ≠ m then none
  else some (systematicObj P info (paritySet (k + m) info))

/-- `information_set="left"` (SystematicBlockCode.py:58-59). -/
def systematicLeft {k m : Nat} (P : BMat k m) : LinCode k m (k + m) :=
  systematicObj P (List.range k) (paritySet (k + m) (List.range k))

/-- `information_set="right"`: `np.arange(m, n)` (SystematicBlockCode.py:60-61). -/
def systematicRight {k m : Nat} (P : BMat k m) : LinCode k m (k + m) :=
  systematicObj P ((List.range k).map (m + ·)) (paritySet (k + m) ((List.range k).map (m + ·)))

end Komm
