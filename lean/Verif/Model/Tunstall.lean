import Verif.Model.LosslessCodes
import Mathlib.Data.Rat.Floor
import Mathlib.Data.List.Lex
/-
Model of /repo/src/komm/_lossless_coding/TunstallCode.py, in exact arithmetic.

Nodes are compared by probability only, so which of several most probable leaves `heappop` returns depends
on the internal layout of the heap.  The model leaves this choice to an oracle `choose` that returns, at each
round, the position of the popped node; the theorems quantify over all oracles that return a valid position.
-/
namespace Komm

/-- A node of the Tunstall tree: sourceword and probability (TunstallCode.py:98-104). -/
abbrev TNode := Word × ℚ

/-- The children of a node (TunstallCode.py:116-118). -/
def tunstallChildren (pmf : List ℚ) (node : TNode) : List TNode :=
  pmf.mapIdx fun symbol p => (node.1 ++ [symbol], node.2 * p)

/-- The `for _ in range(K)` loop (TunstallCode.py:114-119). -/
def tunstallLoop (pmf : List ℚ) (choose : List TNode → Nat) : (K : Nat) → (heap : List TNode) → List TNode
  | 0, heap => heap
  | K + 1, heap =>
    match heap[choose heap]? with
    | none => heap -- `heappop` of an empty heap (excluded for valid oracles)
    | some node => tunstallLoop pmf choose K (heap.eraseIdx (choose heap) ++ tunstallChildren pmf node)

/-- `K = ceil((2**n - S) / (S - 1)) - 1` (TunstallCode.py:107), as the number of rounds of `range(K)`.
The division is exact here (true division of `int`s in Python). -/
def tunstallRounds (S n : Nat) : Nat := (⌈((2 ^ n - S : ℚ) / (S - 1))⌉ - 1).toNat

/-- The leaves after the loop (TunstallCode.py:112-119). -/
def tunstallLeaves (pmf : List ℚ) (n : Nat) (choose : List TNode → Nat) : List TNode :=
  tunstallLoop pmf choose (tunstallRounds pmf.length n) (pmf.mapIdx fun symbol p => ([symbol], p))

/-- `tunstall_code` (TunstallCode.py:121-130). -/
def tunstallMapping (pmf : List ℚ) (n : Nat) (choose : List TNode → Nat) : List (Word × Word) :=
  dictOfPairs ((allWords 2 n).zip (((tunstallLeaves pmf n choose).map Prod.fst).insertionSort (· ≤ ·)))

/-- `TunstallCode.__init__` (TunstallCode.py:56-71) with an explicit target block size; a one-symbol pmf makes
the division in `tunstall_code` fail. -/
def tunstallCode (pmf : List ℚ) (n : Nat) (choose : List TNode → Nat) : Option VFCode :=
  if 2 ^ n < pmf.length then none
  else if pmf.length = 1 then none
  else VFCode.create 2 pmf.length n (tunstallMapping pmf n choose)

/-- An oracle: the first most probable leaf. -/
def firstMaxFrom : (best : ℚ) → (bi next : Nat) → List TNode → Nat
  | _, bi, _, [] => bi
  | best, bi, next, v :: vs =>
    if best < v.2 then firstMaxFrom v.2 next (next + 1) vs else firstMaxFrom best bi (next + 1) vs

def firstMax : List TNode → Nat
  | [] => 0
  | v :: vs => firstMaxFrom v.2 0 1 vs

end Komm
