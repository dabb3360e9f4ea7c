import Verif.Model.LosslessCodes
/-
Model of /repo/src/komm/_lossless_coding/HuffmanCode.py.

Probabilities are elements of an arbitrary type `α` with an addition, a multiplication, an equality test and a
`<` test (floating-point numbers are one instance, rational numbers another).  The heap of `heapq` is
modelled as a list of node indices from which `heappop` removes a minimum with respect to `Node.__lt__`; the
keys `(probability, ±index)` of different nodes differ, so the minimum is unique whenever `<` is a strict
total order.  The progress bar is not modelled.
-/
namespace Komm

/-- `Policy = Literal["high", "low"]`. -/
inductive HuffmanPolicy | high | low
deriving DecidableEq, Repr

/-- `Assignment = Literal["tree", "canonical"]`. -/
inductive HuffmanAssignment | tree | canonical
deriving DecidableEq, Repr

/-- `Node` (HuffmanCode.py:115-125).  `parent = none` stands for `-1`. -/
structure HNode (α : Type) where
  probability : α
  keyIndex : Int
  leaf : Bool
  parent : Option Nat
  bit : Nat
deriving DecidableEq, Repr

section
variable {α : Type} [DecidableEq α] [Add α] [LT α] [DecidableLT α]

/-- `Node.__lt__` (HuffmanCode.py:124-125): tuple comparison of the keys. -/
def HNode.lt (a b : HNode α) : Bool :=
  if a.probability = b.probability then decide (a.keyIndex < b.keyIndex)
  else decide (a.probability < b.probability)

/-- The inner function `node` of `huffman_tree` (HuffmanCode.py:133-135). -/
def mkHNode (policy : HuffmanPolicy) (index : Nat) (probability : α) (leaf : Bool) : HNode α :=
  { probability := probability
    keyIndex := if policy = .high ∧ leaf = false then (index : Int) else -(index : Int)
    leaf := leaf, parent := none, bit := 0 }

/-- The index chosen by `heappop`: a minimum of the heap `h :: hs` with respect to `lt`. -/
def heapMin (lt : Nat → Nat → Bool) (h : Nat) : List Nat → Nat
  | [] => h
  | x :: hs => if lt x (heapMin lt h hs) then x else heapMin lt h hs

/-- `Node.__lt__` on indices of the node list. -/
def nodeLt (tree : List (HNode α)) (i j : Nat) : Bool :=
  match tree[i]?, tree[j]? with
  | some a, some b => a.lt b
  | _, _ => false

/-- `node.bit = bit; node.parent = parent` for the node at index `i` (HuffmanCode.py:152-154). -/
def setParent (tree : List (HNode α)) (i bit parent : Nat) : List (HNode α) :=
  tree.modify i fun nd => { nd with bit := bit, parent := some parent }

/-- The parent node created from the nodes `i0` and `i1` (HuffmanCode.py:147-151). -/
def mkParent (policy : HuffmanPolicy) (tree : List (HNode α)) (i0 i1 : Nat) : List (HNode α) :=
  match tree[i0]?, tree[i1]? with
  | some n0, some n1 => [mkHNode policy tree.length (n0.probability + n1.probability) false]
  | _, _ => []

/-- The tree after one round of the loop of `huffman_tree` (HuffmanCode.py:145-157). -/
def huffmanJoin (policy : HuffmanPolicy) (tree : List (HNode α)) (i1 i0 : Nat) : List (HNode α) :=
  setParent (setParent tree i1 1 tree.length) i0 0 tree.length ++ mkParent policy tree i0 i1

/-- The `while len(heap) > 1` loop (HuffmanCode.py:144-157).  Each round shortens the heap by one, so the
initial heap size bounds the number of rounds. -/
def huffmanLoop (policy : HuffmanPolicy) : (fuel : Nat) → (tree : List (HNode α)) → (heap : List Nat) →
    List (HNode α)
  | 0, tree, _ => tree
  | fuel + 1, tree, heap =>
    match heap with
    | [] => tree
    | [_] => tree
    | h :: hs =>
      let i1 := heapMin (nodeLt tree) h hs
      match (h :: hs).erase i1 with
      | [] => tree
      | g :: gs =>
        let i0 := heapMin (nodeLt tree) g gs
        huffmanLoop policy fuel (huffmanJoin policy tree i1 i0) (tree.length :: (g :: gs).erase i0)

/-- The initial node list (HuffmanCode.py:137-140). -/
def huffmanLeaves (policy : HuffmanPolicy) (pmf : List α) : List (HNode α) :=
  pmf.mapIdx fun i p => mkHNode policy i p true

/-- `huffman_tree` (HuffmanCode.py:128-159). -/
def huffmanTree (pmf : List α) (policy : HuffmanPolicy) : List (HNode α) :=
  huffmanLoop policy pmf.length (huffmanLeaves policy pmf) (List.range pmf.length)
end

section
variable {α : Type}

/-- One step of `tree_lengths` (HuffmanCode.py:165-166). -/
def depthStep (tree : List (HNode α)) (depths : List Nat) (i : Nat) : List Nat :=
  match (tree[i]?).bind HNode.parent with
  | some p => depths.set i (depths.getD p 0 + 1)
  | none => depths

/-- `tree_lengths` (HuffmanCode.py:162-168): nodes are visited from the last to the first. -/
def treeLengths (tree : List (HNode α)) (size : Nat) : List Nat :=
  ((List.range tree.length).reverse.foldl (depthStep tree) (List.replicate tree.length 0)).take size

/-- The `while node.parent >= 0` loop of `tree_codewords` (HuffmanCode.py:176-178): the bits collected from
the node upwards.  Parents have larger indices than their children, so `tree.length` rounds suffice. -/
def walkUp (tree : List (HNode α)) : (fuel : Nat) → (i : Nat) → Word
  | 0, _ => []
  | fuel + 1, i =>
    match tree[i]? with
    | none => []
    | some nd =>
      match nd.parent with
      | none => []
      | some p => nd.bit :: walkUp tree fuel p

/-- `tree_codewords` (HuffmanCode.py:171-181). -/
def treeCodewords (tree : List (HNode α)) (size : Nat) : List Word :=
  (List.range size).map fun i => (walkUp tree tree.length i).reverse
end

/-- `reduce(np.multiply.outer, [pmf] * k).ravel()` (HuffmanCode.py:190, FanoCode.py:103, ShannonCode.py:92)
for `k ≥ 1`: the probabilities of the blocks in lexicographic order. -/
def extendedPmf {α : Type} [Mul α] (pmf : List α) : (k : Nat) → List α
  | 0 => []
  | 1 => pmf
  | k + 2 => (extendedPmf pmf (k + 1)).flatMap fun a => pmf.map fun p => a * p

/-- `huffman_code` (HuffmanCode.py:184-201): the list of codewords, in block order. -/
def huffmanCodewords {α : Type} [DecidableEq α] [Add α] [LT α] [DecidableLT α]
    (pmf : List α) (policy : HuffmanPolicy) (assignment : HuffmanAssignment) : Option (List Word) :=
  let tree := huffmanTree pmf policy
  match assignment with
  | .canonical => canonicalCode (treeLengths tree pmf.length)
  | .tree => some (treeCodewords tree pmf.length)

/-- `HuffmanCode.__init__` (HuffmanCode.py:74-95).  `validate_pmf` (non-negative entries with sum close to one)
is not modelled: the model accepts more inputs. -/
def huffmanCode {α : Type} [DecidableEq α] [Add α] [Mul α] [LT α] [DecidableLT α]
    (pmf : List α) (k : Nat) (policy : HuffmanPolicy) (assignment : HuffmanAssignment) : Option FVCode :=
  if k < 1 then none
  else
    match huffmanCodewords (extendedPmf pmf k) policy assignment with
    | none => none
    | some codewords => FVCode.create pmf.length 2 k (dictOfPairs ((allWords pmf.length k).zip codewords))

end Komm
