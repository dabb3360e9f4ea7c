import Verif.Model.Huffman
import Mathlib.Data.Int.Log
import Mathlib.Data.Rat.Floor
/-
Model of /repo/src/komm/_lossless_coding/FanoCode.py and ShannonCode.py, in exact (rational) arithmetic.
-/
namespace Komm

/-- `np.cumsum`. -/
def cumsumFrom (acc : ℚ) : List ℚ → List ℚ
  | [] => []
  | p :: ps => (acc + p) :: cumsumFrom (acc + p) ps

/-- `np.argmin` (index of the first minimum) of a non-empty list `v :: vs`. -/
def argminAux : (best : ℚ) → (bestIndex next : Nat) → List ℚ → Nat
  | _, bi, _, [] => bi
  | best, bi, next, v :: vs => if v < best then argminAux v next (next + 1) vs else argminAux best bi (next + 1) vs

/-- `np.argmin`. -/
def argminList : List ℚ → Nat
  | [] => 0
  | v :: vs => argminAux v 0 1 vs

/-- `np.argmin(np.abs(np.cumsum(probs) - np.sum(probs) / 2))` (FanoCode.py:94). -/
def fanoSplit (probs : List ℚ) : Nat := argminList ((cumsumFrom 0 probs).map fun s => |s - probs.sum / 2|)

/-- The `while stack` loop of `fano_code_lengths` (FanoCode.py:86-97); `items` are the pairs (index,
probability) in decreasing order of probability; `none` when the fuel is used up (the loop does not end). -/
def fanoLoop (items : List (Nat × ℚ)) : (fuel : Nat) → (stack : List (Nat × Nat × Nat)) → (lengths : List Nat) →
    Option (List Nat)
  | _, [], lengths => some lengths
  | 0, _ :: _, _ => none
  | fuel + 1, (lo, hi, length) :: stack, lengths =>
    if hi - lo = 1 then
      fanoLoop items fuel stack (lengths.set (items.getD lo (0, 0)).1 length)
    else
      let probs := ((items.drop lo).take (hi - lo)).map Prod.snd
      let mid := lo + fanoSplit probs + 1
      fanoLoop items fuel ((lo, mid, length + 1) :: (mid, hi, length + 1) :: stack) lengths

/-- `fano_code_lengths` (FanoCode.py:81-99).  `sorted(..., reverse=True)` is stable. -/
def fanoLengths (pmf : List ℚ) : Option (List Nat) :=
  let items := (pmf.mapIdx fun i p => (i, p)).insertionSort fun a b => b.2 ≤ a.2
  fanoLoop items (2 * pmf.length) [(0, pmf.length, 0)] (List.replicate pmf.length 0)

/-- `FanoCode.__init__` and `fano_code` (FanoCode.py:54-63, 102-109). -/
def fanoCode (pmf : List ℚ) (k : Nat) : Option FVCode :=
  if k < 1 then none
  else
    match fanoLengths (extendedPmf pmf k) with
    | none => none
    | some lengths =>
      match canonicalCode lengths with
      | none => none
      | some codewords => FVCode.create pmf.length 2 k (dictOfPairs ((allWords pmf.length k).zip codewords))

/-- One length of `shannon_code_lengths` (ShannonCode.py:85-88): `max(1, ceil(log2(1 / p)))`, exactly. -/
def shannonLength (p : ℚ) : Nat := (max 1 (Int.clog 2 (1 / p))).toNat

/-- `ShannonCode.__init__` and `shannon_code` (ShannonCode.py:56-67, 91-98). -/
def shannonCode (pmf : List ℚ) (k : Nat) : Option FVCode :=
  if ¬ (∀ p ∈ pmf, 0 < p) then none
  else if k < 1 then none
  else
    match canonicalCode ((extendedPmf pmf k).map shannonLength) with
    | none => none
    | some codewords => FVCode.create pmf.length 2 k (dictOfPairs ((allWords pmf.length k).zip codewords))

end Komm
