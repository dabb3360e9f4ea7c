import Verif.Model.BinaryPolynomial
/-
Model of /repo/src/komm/_algebra/FiniteBifield.py, field.py and BinaryPolynomialFraction.py.

A field element is represented by the integer `value.value` of its polynomial; all elements of one
expression live in the same field (the `_check_same_ambient` guard, FiniteBifield.py:32-34, is a type
error here).  `field(value)` does not reduce its argument (FiniteBifield.py:181-182), so the theorems are
about *reduced* elements, `value < 2 ** degree`; see DESIGN.md.
-/
namespace Komm

/-- `FiniteBifield` (FiniteBifield.py:168-179): the attributes set by the constructor. -/
structure Bifield where
  degree : Nat
  modulus : Nat
deriving DecidableEq, Repr

namespace Bifield

/-- `FiniteBifield.__init__` (FiniteBifield.py:168-179); `none` is `ValueError`.  `modulus = none` selects
the default primitive polynomial. -/
def create (degree : Int) (modulus : Option Nat) : Option Bifield :=
  if degree < 1 then none
  else
    match (match modulus with
      | none => BP.defaultPrimitivePolynomial degree
      | some m => some m) with
    | none => none
    | some m =>
      if BP.degree m ≠ degree then none
      else if !BP.isIrreducible m then none
      else some ⟨degree.toNat, m⟩

/-- `FiniteBifield.order` (FiniteBifield.py:205-209). -/
def order (F : Bifield) : Nat := 2 ^ F.degree

/-- `FiniteBifieldElement.__add__`/`__sub__` (FiniteBifield.py:36-42). -/
def add (_F : Bifield) (a b : Nat) : Nat := BP.add a b

/-- `FiniteBifieldElement.__mul__` (FiniteBifield.py:47-50). -/
def mul (F : Bifield) (a b : Nat) : Nat := BP.mod (BP.mul a b) F.modulus

/-- `FiniteBifieldElement.inverse` (FiniteBifield.py:58-62); `none` is `ZeroDivisionError`. -/
def inverse (F : Bifield) (a : Nat) : Option Nat :=
  let (d, s, _) := BP.xgcd a F.modulus
  if d = 1 then some s else none

/-- `FiniteBifieldElement.__truediv__` (FiniteBifield.py:64-66). -/
def truediv (F : Bifield) (a b : Nat) : Option Nat :=
  match F.inverse b with
  | none => none
  | some i => some (F.mul a i)

/-- `FiniteBifieldElement.__pow__` = `field.power` (FiniteBifield.py:68-69, field.py:14-28). -/
def pow (F : Bifield) (a : Nat) (n : Int) : Option Nat :=
  if n < 0 then
    match F.inverse a with
    | none => none
    | some i => some (BP.ringPower 1 F.mul i (-n).toNat)
  else some (BP.ringPower 1 F.mul a n.toNat)

/-- `FiniteBifieldElement.__pow__` for a non-negative exponent. -/
def npow (F : Bifield) (a n : Nat) : Nat := BP.ringPower 1 F.mul a n

/-- `FiniteBifieldElement.logarithm` (FiniteBifield.py:71-75); `none` is `ValueError`. -/
def logarithm (F : Bifield) (x base : Nat) : Option Nat :=
  (List.range F.order).find? fun i => F.npow base i == x

/-- The `while True` loop of `conjugates` (FiniteBifield.py:78-87), with fuel. -/
def conjugatesLoop (F : Bifield) (x : Nat) : (fuel : Nat) → (acc : List Nat) → (exponent : Nat) → List Nat
  | 0, acc, _ => acc
  | fuel + 1, acc, e =>
    let y := F.npow x (2 ^ e)
    if acc.contains y then acc else conjugatesLoop F x fuel (acc ++ [y]) (e + 1)

/-- `FiniteBifieldElement.conjugates` (FiniteBifield.py:77-87).  The fuel is larger than the field size,
so it is never exhausted on reduced elements (the accumulator has no repetitions). -/
def conjugates (F : Bifield) (x : Nat) : List Nat := conjugatesLoop F x (F.order + 1) [] 0

/-- `np.convolve(a, [y, one])` on arrays of field elements (full convolution), the only use in
`minimal_polynomial` (FiniteBifield.py:91-92): coefficient `k` is `a[k] * y + a[k-1] * one`. -/
def convolveMonomial (F : Bifield) (a : List Nat) (y : Nat) : List Nat :=
  List.zipWith F.add (a.map (F.mul · y) ++ [0]) (0 :: a.map (F.mul · 1))

/-- `FiniteBifieldElement.minimal_polynomial` (FiniteBifield.py:89-93): `reduce(np.convolve, monomials)`
starts from the first monomial `[y0, one]`. -/
def minimalPolynomial (F : Bifield) (x : Nat) : Nat :=
  match F.conjugates x with
  | [] => 0
  | y :: ys => BP.fromCoefficients (ys.foldl F.convolveMonomial [y, 1])

/-- Horner evaluation inside `find_roots` (FiniteBifield.py:245-247). -/
def horner (F : Bifield) (coefficients : List Nat) (x : Nat) : Nat :=
  coefficients.reverse.foldl (fun acc c => F.add (F.mul acc x) c) 0

/-- The loop of `find_roots` (FiniteBifield.py:243-251) over the remaining candidates. -/
def findRootsLoop (F : Bifield) (coefficients : List Nat) : List Nat → (roots : List Nat) → List Nat
  | [], roots => roots
  | x :: xs, roots =>
    if F.horner coefficients x = 0 then
      let roots' := roots ++ [x]
      -- `len(roots) >= len(coefficients) - 1`: natural subtraction agrees since `len(roots) ≥ 1`
      if roots'.length ≥ coefficients.length - 1 then roots'
      else findRootsLoop F coefficients xs roots'
    else findRootsLoop F coefficients xs roots

/-- `find_roots` (FiniteBifield.py:219-252). -/
def findRoots (F : Bifield) (coefficients : List Nat) : List Nat :=
  findRootsLoop F coefficients (List.range F.order) []

end Bifield

/-- `BinaryPolynomialFraction` (BinaryPolynomialFraction.py:7-37): the two stored attributes. -/
structure BPFraction where
  numerator : Nat
  denominator : Nat
deriving DecidableEq, Repr

namespace BPFraction

/-- `BinaryPolynomialFraction.__init__`/`__post_init__` (BinaryPolynomialFraction.py:27-37); `none` is
`ZeroDivisionError`. -/
def create (n d : Nat) : Option BPFraction :=
  if d = 0 then none
  else
    let g := BP.gcd n d
    some ⟨BP.div n g, BP.div d g⟩

/-- `__add__` and `__sub__` (BinaryPolynomialFraction.py:56-64). -/
def add (x y : BPFraction) : Option BPFraction :=
  create (BP.add (BP.mul x.numerator y.denominator) (BP.mul y.numerator x.denominator))
    (BP.mul x.denominator y.denominator)

/-- `__mul__` (BinaryPolynomialFraction.py:69-72). -/
def mul (x y : BPFraction) : Option BPFraction :=
  create (BP.mul x.numerator y.numerator) (BP.mul x.denominator y.denominator)

/-- `__truediv__` (BinaryPolynomialFraction.py:77-80). -/
def truediv (x y : BPFraction) : Option BPFraction :=
  create (BP.mul x.numerator y.denominator) (BP.mul x.denominator y.numerator)

/-- `inverse` (BinaryPolynomialFraction.py:85-86). -/
def inverse (x : BPFraction) : Option BPFraction := create x.denominator x.numerator

/-- `__mul__` lifted to results that may have raised. -/
def mulO (x y : Option BPFraction) : Option BPFraction := x.bind fun a => y.bind fun b => mul a b

/-- `__pow__` (BinaryPolynomialFraction.py:82-83) through `field.power` (field.py) and `ring.power`:
a negative exponent is a non-negative power of the inverse. -/
def pow (x : BPFraction) (n : Int) : Option BPFraction :=
  if n < 0 then (inverse x).bind fun i => BP.ringPower (create 1 1) mulO (some i) (-n).toNat
  else BP.ringPower (create 1 1) mulO (some x) n.toNat

/-- `__eq__` (BinaryPolynomialFraction.py:49-54). -/
def eq (x y : BPFraction) : Bool := x.numerator == y.numerator && x.denominator == y.denominator

end BPFraction
end Komm
