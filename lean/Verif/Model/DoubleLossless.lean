import Verif.Model.DoubleLog
import Verif.Model.FanoShannon
import Verif.Model.Tunstall
/-
/repo/src/komm/_lossless_coding/FanoCode.py and TunstallCode.py in double precision.  `sum` is `np.sum`, which adds in some order.  The validation of the pmf is that of the other models and is not
repeated.
-/
namespace Komm

/-- `np.cumsum` of doubles: sequential rounded additions. -/
noncomputable def cumsumD (acc : Double) : List Double → List Double
  | [] => []
  | p :: ps => (acc + p) :: cumsumD (acc + p) ps

open Classical in
/-- `np.argmin` (index of the first minimum) of a non-empty list of which `best` at `bestIndex` is the first minimum of the part before `next`. -/
noncomputable def argminReal : (best : ℝ) → (bestIndex next : Nat) → List ℝ → Nat
  | _, bi, _, [] => bi
  | best, bi, next, v :: vs => if v < best then argminReal v next (next + 1) vs else argminReal best bi (next + 1) vs

/-- `np.argmin(np.abs(np.cumsum(probs) - np.sum(probs) / 2))` (FanoCode.py:94), every operation rounded. -/
noncomputable def fanoSplitD (sum : List Double → Double) (probs : List Double) : Nat :=
  match (cumsumD 0 probs).map fun c : Double => |rnd (c.val - rnd ((sum probs).val / 2))| with
  | [] => 0
  | v :: vs => argminReal v 0 1 vs

/-- The `while stack` loop of `fano_code_lengths` (FanoCode.py:86-97); `items` are the pairs (index, probability) in decreasing order of probability; `none` when the fuel is used up. -/
noncomputable def fanoLoopD (sum : List Double → Double) (items : List (Nat × Double)) : (fuel : Nat) → (stack : List (Nat × Nat × Nat)) → (lengths : List Nat) → Option (List Nat)
  | _, [], lengths => some lengths
  | 0, _ :: _, _ => none
  | fuel + 1, (lo, hi, length) :: stack, lengths =>
    if hi - lo = 1 then
      fanoLoopD sum items fuel stack (lengths.set (items.getD lo (0, 0)).1 length)
    else
      let probs := ((items.drop lo).take (hi - lo)).map Prod.snd
      let mid := lo + fanoSplitD sum probs + 1
      fanoLoopD sum items fuel ((lo, mid, length + 1) :: (mid, hi, length + 1) :: stack) lengths

/-- `fano_code_lengths` (FanoCode.py:81-99).  `sorted(..., reverse=True)` is stable. -/
noncomputable def fanoLengthsD (sum : List Double → Double) (pmf : List Double) : Option (List Nat) :=
  let items := (pmf.mapIdx fun i p => (i, p)).insertionSort fun a b => b.2 ≤ a.2
  fanoLoopD sum items (2 * pmf.length) [(0, pmf.length, 0)] (List.replicate pmf.length 0)

/-- `FanoCode.__init__` and `fano_code` (FanoCode.py:54-63, 102-109); the probabilities of blocks are rounded products. -/
noncomputable def fanoCodeD (sum : List Double → Double) (pmf : List Double) (k : Nat) : Option FVCode :=
  if k < 1 then none
  else
    match fanoLengthsD sum (extendedPmf pmf k) with
    | none => none
    | some lengths =>
      match canonicalCode lengths with
      | none => none
      | some codewords => FVCode.create pmf.length 2 k (dictOfPairs ((allWords pmf.length k).zip codewords))

/-- A node of the Tunstall tree (TunstallCode.py:98-104). -/
abbrev TNodeD := Word × Double

/-- The children of a node (TunstallCode.py:116-118): rounded products. -/
noncomputable def tunstallChildrenD (pmf : List Double) (node : TNodeD) : List TNodeD :=
  pmf.mapIdx fun symbol p => (node.1 ++ [symbol], node.2 * p)

/-- The `for _ in range(K)` loop (TunstallCode.py:114-119); `choose` is the position of the popped node. -/
noncomputable def tunstallLoopD (pmf : List Double) (choose : List TNodeD → Nat) : (K : Nat) → (heap : List TNodeD) → List TNodeD
  | 0, heap => heap
  | K + 1, heap =>
    match heap[choose heap]? with
    | none => heap
    | some node => tunstallLoopD pmf choose K (heap.eraseIdx (choose heap) ++ tunstallChildrenD pmf node)

/-- `K = ceil((2**n - S) / (S - 1)) - 1` (TunstallCode.py:107): the true division of integers is correctly rounded. -/
noncomputable def tunstallRoundsD (S n : Nat) : Nat := (⌈rnd ((2 ^ n - S : ℝ) / (S - 1))⌉ - 1).toNat

/-- The leaves after the loop (TunstallCode.py:112-119). -/
noncomputable def tunstallLeavesD (pmf : List Double) (n : Nat) (choose : List TNodeD → Nat) : List TNodeD :=
  tunstallLoopD pmf choose (tunstallRoundsD pmf.length n) (pmf.mapIdx fun symbol p => ([symbol], p))

/-- `TunstallCode.__init__` and `tunstall_code` (TunstallCode.py:61-71, 121-130) with an explicit target block size. -/
noncomputable def tunstallCodeD (pmf : List Double) (n : Nat) (choose : List TNodeD → Nat) : Option VFCode :=
  if 2 ^ n < pmf.length then none
  else if pmf.length = 1 then none
  else VFCode.create 2 pmf.length n (dictOfPairs ((allWords 2 n).zip (((tunstallLeavesD pmf n choose).map Prod.fst).insertionSort (· ≤ ·))))

end Komm
