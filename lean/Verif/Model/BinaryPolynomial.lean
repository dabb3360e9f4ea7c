import Verif.Model.BitOps
/-
Model of /repo/src/komm/_algebra/{ring,field,domain,Integers,BinaryPolynomial}.py specialised to
`BinaryPolynomial`.

A `BinaryPolynomial` is represented by its `value` attribute, a natural number (negative integers are
not polynomials; the class does not reject them, they are outside the model).
-/
namespace Komm

/-- Python's `int.bit_length` for non-negative integers. -/
def bitLength (n : Nat) : Nat := if n = 0 then 0 else n.log2 + 1

namespace BP

/-- `BinaryPolynomial.__add__` / `__sub__` (BinaryPolynomial.py:111-115). -/
def add (a b : Nat) : Nat := a ^^^ b

/-- `BinaryPolynomial.__lshift__` (BinaryPolynomial.py:105-106). -/
def shl (a n : Nat) : Nat := a <<< n

/-- `BinaryPolynomial.__rshift__` (BinaryPolynomial.py:108-109). -/
def shr (a n : Nat) : Nat := a >>> n

/-- The `while b:` loop of `BinaryPolynomial.__mul__` (BinaryPolynomial.py:121-127).  The loop runs
`b.bit_length()` times; `fuel` bounds the iterations. -/
def mulLoop : (fuel : Nat) → (value a b : Nat) → Nat
  | 0, value, _, _ => value
  | fuel + 1, value, a, b =>
    if b = 0 then value
    else mulLoop fuel (if b % 2 = 1 then value ^^^ a else value) (a <<< 1) (b >>> 1)

/-- `BinaryPolynomial.__mul__` (BinaryPolynomial.py:120-128). -/
def mul (a b : Nat) : Nat := mulLoop (bitLength b) 0 a b

/-- The `while d >= 0:` loop of `BinaryPolynomial.__divmod__` (BinaryPolynomial.py:143-147).  Each
iteration shortens `mod`; `fuel` bounds the iterations. -/
def divLoop (den : Nat) : (fuel : Nat) → (div mod : Nat) → Nat × Nat
  | 0, div, mod => (div, mod)
  | fuel + 1, div, mod =>
    if bitLength den ≤ bitLength mod then
      let d := bitLength mod - bitLength den
      divLoop den fuel (div ^^^ (1 <<< d)) (mod ^^^ (den <<< d))
    else (div, mod)

/-- The value of `BinaryPolynomial.__divmod__` for a non-zero divisor (BinaryPolynomial.py:142-148). -/
def divmodCore (a den : Nat) : Nat × Nat := divLoop den (bitLength a + 1) 0 a

/-- `BinaryPolynomial.__divmod__` (BinaryPolynomial.py:139-148): `none` is `ZeroDivisionError`. -/
def divmod (a den : Nat) : Option (Nat × Nat) :=
  if den = 0 then none else some (divmodCore a den)

/-- `__floordiv__` where the caller guarantees a non-zero divisor (BinaryPolynomial.py:150-151). -/
def div (a den : Nat) : Nat := (divmodCore a den).1

/-- `__mod__` where the caller guarantees a non-zero divisor (BinaryPolynomial.py:153-154). -/
def mod (a den : Nat) : Nat := (divmodCore a den).2

/-- `BinaryPolynomial.degree` (BinaryPolynomial.py:157-166); `-1` for the zero polynomial. -/
def degree (a : Nat) : Int := (bitLength a : Int) - 1

/-- `BinaryPolynomial.coefficients(width)` (BinaryPolynomial.py:168-185).  `width or max(degree+1, 1)`:
both `None` and `0` select the default width. -/
def coefficients (a : Nat) (width : Option Nat := none) : List Nat :=
  let w := match width with
    | none => max (bitLength a) 1
    | some 0 => max (bitLength a) 1
    | some w => w
  intToBits .lsbFirst a w

/-- `BinaryPolynomial.from_coefficients` (BinaryPolynomial.py:71-82). -/
def fromCoefficients (c : List Nat) : Nat := bitsToInt .lsbFirst c

/-- `BinaryPolynomial.exponents` (BinaryPolynomial.py:187-199): indices of non-zero coefficients. -/
def exponents (a : Nat) : List Nat :=
  (List.range (coefficients a).length).filter fun i => (coefficients a).getD i 0 ≠ 0

/-- `BinaryPolynomial.from_exponents` (BinaryPolynomial.py:85-96): `np.bincount` counts each exponent,
`bits_to_int` converts the counts to `uint8` (bit_operations.py:38, modulo 256) and treats every non-zero entry as one. -/
def fromExponents (e : List Nat) : Nat :=
  bitsToInt .lsbFirst ((List.range (e.foldr (fun x m => max (x + 1) m) 0)).map fun i => e.count i % 256)

/-- `BinaryPolynomial.reciprocal(width)` (BinaryPolynomial.py:201-213). -/
def reciprocal (a : Nat) (width : Option Nat := none) : Nat :=
  bitsToInt .lsbFirst (coefficients a width).reverse

/-- `power_mod` (BinaryPolynomial.py:363-374), loop on the exponent with fuel. -/
def powerModLoop (modulus : Nat) : (fuel : Nat) → (result current exponent : Nat) → Nat
  | 0, result, _, _ => result
  | fuel + 1, result, current, exponent =>
    if exponent = 0 then result
    else
      powerModLoop modulus fuel
        (if exponent % 2 = 1 then mod (mul result current) modulus else result)
        (mod (mul current current) modulus)
        (exponent >>> 1)

/-- `power_mod` (BinaryPolynomial.py:363-374); the modulus is non-zero at every call site. -/
def powerMod (base exponent modulus : Nat) : Nat :=
  powerModLoop modulus (bitLength exponent) 1 base exponent

/-- `domain.gcd` (domain.py:14-31) on `BinaryPolynomial`.  Each step strictly shortens the second
component; `fuel` bounds the iterations. -/
def gcdLoop : (fuel : Nat) → (x y : Nat) → Nat
  | 0, x, _ => x
  | fuel + 1, x, y => if y = 0 then x else gcdLoop fuel y (mod x y)

/-- `domain.gcd` (domain.py:14-31). -/
def gcd (x y : Nat) : Nat := gcdLoop (bitLength y + 1) x y

/-- `BinaryPolynomial.gcd(*poly_list)` (BinaryPolynomial.py:294-298): `reduce` over a non-empty list;
`none` is the `TypeError` raised by `reduce` on an empty list. -/
def gcdList : List Nat → Option Nat
  | [] => none
  | p :: ps => some (ps.foldl gcd p)

/-- `domain.xgcd` (domain.py:34-56), recursion on the first argument with fuel. -/
def xgcdRec : (fuel : Nat) → (x y : Nat) → Nat × Nat × Nat
  | 0, _, y => (y, 0, 1)
  | fuel + 1, x, y =>
    if x = 0 then (y, 0, 1)
    else
      let (d, s, t) := xgcdRec fuel (mod y x) x
      (d, add t (mul s (div y x)), s)

/-- `BinaryPolynomial.xgcd` / `domain.xgcd` (BinaryPolynomial.py:287-291, domain.py:34-56). -/
def xgcd (x y : Nat) : Nat × Nat × Nat := xgcdRec (bitLength x + 1) x y

/-- `domain.lcm` (domain.py:59-77). -/
def domainLcm (x y : Nat) : Nat :=
  if x = 0 ∨ y = 0 then 0 else mul (div x (gcd x y)) y

/-- `BinaryPolynomial.lcm(*poly_list)` (BinaryPolynomial.py:301-305): product of all arguments divided by
the gcd of all arguments.  `none` is an exception (`TypeError` for no arguments, `ZeroDivisionError`
when all arguments are zero). -/
def lcmList (ps : List Nat) : Option Nat :=
  match ps with
  | [] => none
  | p :: rest =>
    match gcdList (p :: rest) with
    | none => none
    | some g => (divmod (rest.foldl mul p) g).map Prod.fst

/-- `ring.power` (ring.py:31-58) for a non-negative exponent, for any ring given by its `one` and
`mul`; recursion on `n // 2`. -/
def ringPower {α : Type} (one : α) (mul : α → α → α) (x : α) (n : Nat) : α :=
  if n = 0 then one
  else if n = 1 then x
  else
    let y := ringPower one mul x (n / 2)
    let y := mul y y
    if n % 2 = 1 then mul x y else y
termination_by n
decreasing_by omega

/-- `BinaryPolynomial.__pow__` (BinaryPolynomial.py:136-137); negative exponents raise `ValueError`
(ring.py:48-49). -/
def pow (a : Nat) (n : Int) : Option Nat :=
  if n < 0 then none else some (ringPower 1 mul a n.toNat)

end BP

/-- The `while i * i <= n` loop of `prime_factors` (Integers.py:70-81), with fuel. -/
def primeFactorsLoop : (fuel : Nat) → (n i : Nat) → (factors : List Nat) → Nat × List Nat
  | 0, n, _, factors => (n, factors)
  | fuel + 1, n, i, factors =>
    if i * i ≤ n then
      if n % i ≠ 0 then primeFactorsLoop fuel n (i + 1) factors
      else primeFactorsLoop fuel (n / i) i (factors ++ [i])
    else (n, factors)

/-- `prime_factors` (Integers.py:70-81).  The fuel `n` bounds the loop: every iteration either
increments `i` (at most `sqrt n` times) or divides `n`. -/
def primeFactors (n : Nat) : List Nat :=
  let (m, factors) := primeFactorsLoop (n + 1) n 2 []
  if m > 1 then factors ++ [m] else factors

namespace BP

/-- `BinaryPolynomial.is_irreducible` (BinaryPolynomial.py:232-258).  `set(prime_factors(degree))` only
changes how often a test is repeated, so the list is used. -/
def isIrreducible (a : Nat) : Bool :=
  let degree := bitLength a - 1
  if bitLength a ≤ 1 then false
  else
    if (primeFactors degree).any fun q =>
        gcd a (add (powerMod 2 (2 ^ (degree / q)) a) (mod 2 a)) != 1 then false
    else add (powerMod 2 (2 ^ degree) a) (mod 2 a) == 0

/-- `BinaryPolynomial.is_primitive` (BinaryPolynomial.py:260-284). -/
def isPrimitive (a : Nat) : Bool :=
  if !isIrreducible a then false
  else if a = 2 then false
  else
    let order := 2 ^ (bitLength a - 1) - 1
    !((primeFactors order).any fun q => powerMod 2 (order / q) a == 1)

/-- The table inside `default_primitive_polynomial` (BinaryPolynomial.py:333-360), entry `i` is degree
`i + 1`. -/
def defaultTable : List Nat :=
  [0b11, 0b111, 0b1011, 0b10011, 0b100101, 0b1000011, 0b10001001, 0b100011101, 0b1000010001,
   0b10000001001, 0b100000000101, 0b1000001010011, 0b10000000011011, 0b100010001000011,
   0b1000000000000011, 0b11010000000010001, 0b100000000000001001, 0b1000000000010000001,
   0b10000000000000100111, 0b100000000000000001001, 0b1000000000000000000101,
   0b10000000000000000000011, 0b100000000000000000100001, 0b1000000000000000010000111]

/-- `default_primitive_polynomial` (BinaryPolynomial.py:329-360); `none` is `ValueError`. -/
def defaultPrimitivePolynomial (degree : Int) : Option Nat :=
  if 1 ≤ degree ∧ degree ≤ 24 then defaultTable[(degree - 1).toNat]? else none

/-- `ring.binary_horner` (ring.py:61-73) for any target ring given by its operations; used by
`BinaryPolynomial.evaluate` (BinaryPolynomial.py:215-230).  `coefficient * one` with coefficient 1. -/
def binaryHorner {α : Type} (zero one : α) (add mul : α → α → α) (coefficients : List Nat) (x : α) : α :=
  coefficients.reverse.foldl
    (fun result c => if c ≠ 0 then add (mul result x) one else mul result x) zero

end BP
end Komm
