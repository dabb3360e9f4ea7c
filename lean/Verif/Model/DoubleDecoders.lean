import Verif.Model.DoubleViterbi
import Verif.Model.SCDecoder
import Verif.Model.ReedMuller
import Verif.Model.BlockCode
import Mathlib.Analysis.SpecialFunctions.Exp
/-
The soft-input decoders of block codes in double precision: ExhaustiveSearchDecoder.py, WagnerDecoder.py, ReedDecoder.py, SCDecoder.py (all in
/repo/src/komm/_error_control_decoders) and `boxplus` (/repo/src/komm/_util/special_functions.py).  Doubles are those of `Model/Double.lean` (finite, no overflow).

The order in which `np.sum` and `@` add is not modelled: any order, with every partial sum rounded (`SumOf`).  The exponential and `log1p` of numpy are not modelled: they are any functions
that meet an accuracy requirement (`ExpAccurate`, `Log1pAccurate`).
-/
namespace Komm
open scoped BigOperators

/-- `-x`: exact. -/
def Double.neg (x : Double) : Double := ⟨-x.val, by
  obtain ⟨m, e, h1, h2, h3⟩ := x.2
  exact ⟨-m, e, by rwa [abs_neg], h2, by rw [Double.val, h3]; push_cast; ring⟩⟩

/-- `abs(x)`: exact. -/
def Double.abs (x : Double) : Double := ⟨|x.val|, by
  rcases abs_choice x.val with h | h
  · rw [h]; exact x.2
  · rw [h]; exact x.neg.2⟩

/-- `ExhaustiveSearchDecoder(code, "soft").decode`, one block (ExhaustiveSearchDecoder.py:47-55): the products by ±1 are exact, the sums are rounded. -/
noncomputable def exhaustiveSoftD {k m n : Nat} (sum : List Double → Double) (c : LinCode k m n) (r : Fin n → Double) : Option (BVec k) :=
  match c.codewords with
  | [] => none
  | v0 :: vs =>
    some (c.project (argminOn (fun v : BVec n => sum (List.ofFn fun j : Fin n => if v j = 0 then (r j).neg else r j)) v0 vs))

/-- `WagnerDecoder.decode` on one block (WagnerDecoder.py:38-44), before the projection. -/
noncomputable def wagnerWordD {n : Nat} (r : Fin (n + 1) → Double) : BVec (n + 1) :=
  let v : BVec (n + 1) := fun j => if r j < 0 then 1 else 0
  if (∑ j, if v j ≠ 0 then 1 else 0) % 2 ≠ 0 then
    let i := argminOn (fun j : Fin (n + 1) => (r j).abs) 0 ((List.finRange (n + 1)).drop 1)
    fun j => if j = i then v j + 1 else v j
  else v

/-- `WagnerDecoder.decode`: project the corrected word (WagnerDecoder.py:43-44). -/
noncomputable def wagnerDecodeD {k m n : Nat} (c : LinCode k m (n + 1)) (r : Fin (n + 1) → Double) : BVec k := c.project (wagnerWordD r)

/-- `np.min` of a non-empty list of doubles. -/
noncomputable def listMinD : List Double → Double
  | [] => 0
  | [x] => x
  | x :: y :: l => min x (listMinD (y :: l))

/-- The loop of `decode_soft` (ReedDecoder.py:63-68): `decision_var` is a rounded sum of exact products by ±1. -/
noncomputable def reedSoftLoopD {n : Nat} (dot : List Double → Double) (r : Fin n → Double) : BVec n → List (List (List Nat) × BVec n) → List (ZMod 2)
  | _, [] => []
  | bx, (partition, g) :: rest =>
    let checksums := reedChecksums bx partition
    let minReliability := partition.map fun row => listMinD (row.map fun j => if h : j < n then (r ⟨j, h⟩).abs else 0)
    let decisionVar := dot (List.zipWith (fun (c : Nat) (w : Double) => if c = 0 then w else w.neg) checksums minReliability)
    let u : ZMod 2 := if decisionVar < 0 then 1 else 0
    u :: reedSoftLoopD dot r (fun j => bx j + u * g j) rest

/-- `ReedDecoder(code, "soft").decode(r)` on one block (ReedDecoder.py:60-69). -/
noncomputable def reedDecodeSoftD (dot : List Double → Double) (rho mu : Nat) (r : Fin (2 ^ mu) → Double) : BVec (rmRows rho mu).length :=
  vecOfList _ (reedSoftLoopD dot r (fun j => if r j < 0 then 1 else 0) ((reedPartitions rho mu).zip (rmRows rho mu)))

/-- An exponential that is accurate to `2⁻⁵⁰` on the non-positive reals (`np.exp`, special_functions.py:163-164). -/
def ExpAccurate (E : ℝ → ℝ) : Prop := ∀ x ≤ 0, 0 ≤ E x ∧ |E x - Real.exp x| ≤ 1 / 2 ^ 50

/-- A function `log(1 + x)` that is accurate to `2⁻⁵⁰` from 0 to 2 (`np.log1p`, special_functions.py:165). -/
def Log1pAccurate (L : ℝ → ℝ) : Prop := ∀ x, 0 ≤ x → x ≤ 2 → 0 ≤ L x ∧ |L x - Real.log (1 + x)| ≤ 1 / 2 ^ 50

/-- `boxplus` of two doubles (special_functions.py:162-165), each operation rounded. -/
noncomputable def boxplusD (E L : ℝ → ℝ) (a b : ℝ) : ℝ :=
  let s := npSign a * npSign b * min |a| |b|
  let p1 := E (-|rnd (a + b)|)
  let p2 := E (-|rnd (a - b)|)
  rnd (rnd (s + L p1) - L p2)

/-- `SCDecoder(code, "soft").decode` (SCDecoder.py:41-97): `boxplus` and the sums of `g` (SCDecoder.py:18) are rounded. -/
noncomputable def scSoftD (E L : ℝ → ℝ) (mu : Nat) (frozen : List Nat) (li : List ℝ) : Option (List ℝ) :=
  blockwise (2 ^ mu) (scBlockF (boxplusD E L) (fun x y => rnd (x + y)) mu frozen) li

open Classical in
/-- `SCDecoder(code, "hard").decode` (SCDecoder.py:94-95). -/
noncomputable def scHardD (E L : ℝ → ℝ) (mu : Nat) (frozen : List Nat) (li : List ℝ) : Option (List (ZMod 2)) :=
  (scSoftD E L mu frozen li).map fun l : List ℝ => l.map fun x : ℝ => if x < 0 then 1 else 0

end Komm
