import Verif.Model.BinaryPolynomial
import Verif.Model.BlockCode
/-
Model of /repo/src/komm/_error_control_block/CyclicCode.py.  Polynomials are natural numbers as in
Model/BinaryPolynomial.lean; `none` is a raised exception.
-/
namespace Komm

/-- Degree of a non-zero polynomial as a natural number (`BinaryPolynomial.degree`, BinaryPolynomial.py:157-166). -/
def polyDeg (p : Nat) : Nat := bitLength p - 1

/-- `X ** e` (BinaryPolynomial.py:136-137) for the polynomial `X`. -/
def polyX (e : Nat) : Nat := BP.ringPower 1 BP.mul 2 e

/-- `poly.coefficients(width=w)` as a vector (BinaryPolynomial.py:168-185).  Simplification: for `w = 0` Python returns
a default-width array, the vector here is empty. -/
def polyVec (w : Nat) (p : Nat) : BVec w := fun i => ((BP.coefficients p (some w)).getD i 0 : Nat)

/-- `BinaryPolynomial.from_coefficients(v)` (BinaryPolynomial.py:71-82). -/
def vecPoly {w : Nat} (v : BVec w) : Nat := BP.fromCoefficients (List.ofFn fun i => (v i).val)

/-- The constructor: the pair (`generator_polynomial`, `check_polynomial`) (CyclicCode.py:58-77).  If both are given
the constructor sets neither attribute and every later use raises: `none`. -/
def cyclicPolys (n : Nat) (generator check : Option Nat) : Option (Nat × Nat) :=
  let modulus := BP.fromExponents [0, n]
  match generator, check with
  | none, none => none
  | some g, none =>
    match BP.divmod modulus g with
    | none => none
    | some (quotient, remainder) => if remainder ≠ 0 then none else some (g, quotient)
  | none, some h =>
    match BP.divmod modulus h with
    | none => none
    | some (quotient, remainder) => if remainder ≠ 0 then none else some (quotient, h)
  | some _, some _ => none

/-- `CyclicCode.check` on one block (CyclicCode.py:213-217). -/
def cyclicCheck (n g : Nat) (r : BVec n) : BVec (polyDeg g) := polyVec (polyDeg g) (BP.mod (vecPoly r) g)

/-- The object with `systematic=True` (CyclicCode.py:96-219, 331-359).  `generator_matrix_right_inverse` raises
`NotImplementedError` and is not used; the field holds zeros. -/
def cyclicSystematic (n g h : Nat) : LinCode (polyDeg h) (polyDeg g) n where
  generator i := polyVec n (BP.add (polyX (polyDeg g + i)) (BP.mod (polyX (polyDeg g + i)) g))
  rightInverse := fun _ _ => 0
  checkMatrix := fun i j => polyVec (polyDeg g) (BP.mod (polyX j) g) i
  encode u :=
    let shifted := BP.shl (vecPoly u) (polyDeg g)
    polyVec n (BP.add shifted (BP.mod shifted g))
  project v := polyVec (polyDeg h) (BP.shr (vecPoly v) (polyDeg g))
  check := cyclicCheck n g

/-- The object with `systematic=False` (CyclicCode.py:96-219, 362-388). -/
def cyclicNonSystematic (n g h : Nat) : LinCode (polyDeg h) (polyDeg g) n where
  generator i := polyVec n (BP.mul (polyX i) g)
  rightInverse := fun _ _ => 0
  checkMatrix := fun i => polyVec n (BP.mul (polyX i) (BP.reciprocal h))
  encode u := polyVec n (BP.mul (vecPoly u) g)
  project v := polyVec (polyDeg h) (BP.div (vecPoly v) g)
  check := cyclicCheck n g

end Komm
