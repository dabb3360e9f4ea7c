import Mathlib.Data.List.Basic
/-
Model of /repo/src/komm/_integer_coding/UnaryCode.py and FibonacciCode.py.  `none` is a raised `ValueError`.
-/
namespace Komm

/-- `unary_encode` (UnaryCode.py:48-49). -/
def unaryWord (integer : Nat) : List Nat := List.replicate integer 1 ++ [0]

/-- `unary_decode` (UnaryCode.py:52-53). -/
def unaryValue (bits : List Nat) : Nat := bits.length - 1

/-- `UnaryCode.encode` (UnaryCode.py:13-25). -/
def unaryEncode (input : List Int) : Option (List Nat) :=
  if ¬ (∀ n ∈ input, 0 ≤ n) then none
  else some (input.flatMap fun n => unaryWord n.toNat)

/-- The inner `while j < input.size and input[j] == 1` loop and the slice `input[i : j + 1]`
(UnaryCode.py:38-44): splits off the first codeword; `none` when `j` reaches the end. -/
def unaryScan : List Nat → Option (List Nat × List Nat)
  | [] => none
  | b :: rest => if b = 1 then (unaryScan rest).map fun (w, r) => (b :: w, r) else some ([b], rest)

/-- The outer loop (UnaryCode.py:37-44). -/
def unaryDecodeLoop : (fuel : Nat) → List Nat → Option (List Nat)
  | _, [] => some []
  | 0, _ :: _ => none
  | fuel + 1, b :: input =>
    match unaryScan (b :: input) with
    | none => none
    | some (w, rest) => (unaryDecodeLoop fuel rest).map (unaryValue w :: ·)

/-- `UnaryCode.decode` (UnaryCode.py:27-45). -/
def unaryDecode (input : List Int) : Option (List Nat) :=
  if ¬ (∀ b ∈ input, 0 ≤ b ∧ b < 2) then none
  else unaryDecodeLoop input.length (input.map Int.toNat)

/-- `fibonacci` (FibonacciCode.py:50-54). -/
def fibonacci : Nat → Nat
  | 0 => 0
  | 1 => 1
  | n + 2 => fibonacci (n + 1) + fibonacci n

/-- `while fibonacci(i + 1) <= integer: i += 1` (FibonacciCode.py:60-62); fuel bounds the number of rounds. -/
def fibonacciSearch (integer : Nat) : (fuel i : Nat) → Nat
  | 0, i => i
  | fuel + 1, i => if fibonacci (i + 1) ≤ integer then fibonacciSearch integer fuel (i + 1) else i

/-- The `while integer > 0` loop (FibonacciCode.py:58-64): the list `positions`. -/
def fibonacciPositions : (fuel integer : Nat) → List Nat
  | 0, _ => []
  | fuel + 1, integer =>
    if integer > 0 then
      let i := fibonacciSearch integer (integer + 2) 0
      (i - 2) :: fibonacciPositions fuel (integer - fibonacci i)
    else []

/-- `fibonacci_encode` (FibonacciCode.py:57-66). -/
def fibonacciWord (integer : Nat) : List Nat :=
  let positions := fibonacciPositions integer integer
  let last := positions.foldr max 0 + 1
  ((List.range last).map fun i => if i ∈ positions then 1 else 0) ++ [1]

/-- `fibonacci_decode` (FibonacciCode.py:69-70). -/
def fibonacciValue (bits : List Nat) : Nat :=
  (bits.dropLast.mapIdx fun i bit => if bit ≠ 0 then fibonacci (i + 2) else 0).sum

/-- `FibonacciCode.encode` (FibonacciCode.py:15-27). -/
def fibonacciEncode (input : List Int) : Option (List Nat) :=
  if ¬ (∀ n ∈ input, 1 ≤ n) then none
  else some (input.flatMap fun n => fibonacciWord n.toNat)

/-- The inner loop and the slice `input[i : j + 2]` (FibonacciCode.py:40-46). -/
def fibonacciScan : List Nat → Option (List Nat × List Nat)
  | [] => none
  | [_] => none
  | a :: b :: rest =>
    if a = b ∧ b = 1 then some ([a, b], rest) else (fibonacciScan (b :: rest)).map fun (w, r) => (a :: w, r)

/-- The outer loop (FibonacciCode.py:39-46). -/
def fibonacciDecodeLoop : (fuel : Nat) → List Nat → Option (List Nat)
  | _, [] => some []
  | 0, _ :: _ => none
  | fuel + 1, b :: input =>
    match fibonacciScan (b :: input) with
    | none => none
    | some (w, rest) => (fibonacciDecodeLoop fuel rest).map (fibonacciValue w :: ·)

/-- `FibonacciCode.decode` (FibonacciCode.py:29-47). -/
def fibonacciDecode (input : List Int) : Option (List Nat) :=
  if ¬ (∀ b ∈ input, 0 ≤ b ∧ b < 2) then none
  else fibonacciDecodeLoop input.length (input.map Int.toNat)

end Komm
