import Mathlib.Data.Int.Init
/-
Model of /repo/src/komm/_algebra/Integers.py (class `Integer`) and of the generic algorithms of
/repo/src/komm/_algebra/domain.py over `Integers`.  Python integers are unbounded.
-/
namespace Komm

/-- `Integer.__divmod__`, `__floordiv__`, `__mod__` (Integers.py:38-46): Python's division rounds the quotient
towards minus infinity; `none` is `ZeroDivisionError`. -/
def integerDivmod (a b : Int) : Option (Int × Int) :=
  if b = 0 then none else some (Int.fdiv a b, Int.fmod a b)

/-- The loop of `domain.gcd` (domain.py:29-31) over `Integers`, with fuel. -/
def integerGcdLoop : (fuel : Nat) → Int → Int → Int
  | 0, x, _ => x
  | fuel + 1, x, y => if y = 0 then x else integerGcdLoop fuel y (Int.fmod x y)

/-- `domain.gcd` (domain.py:14-31) over `Integers`: the absolute value of the second variable decreases. -/
def integerGcd (x y : Int) : Int := integerGcdLoop (y.natAbs + 1) x y

/-- `domain.xgcd` (domain.py:34-56) over `Integers`, with fuel. -/
def integerXgcdAux : (fuel : Nat) → Int → Int → Int × Int × Int
  | 0, _, y => (y, 0, 1)
  | fuel + 1, x, y =>
    if x = 0 then (y, 0, 1)
    else
      let r := integerXgcdAux fuel (Int.fmod y x) x
      (r.1, r.2.2 - r.2.1 * Int.fdiv y x, r.2.1)

/-- `domain.xgcd` (domain.py:34-56) over `Integers`. -/
def integerXgcd (x y : Int) : Int × Int × Int := integerXgcdAux (x.natAbs + 1) x y

/-- `domain.lcm` (domain.py:59-77) over `Integers`. -/
def integerLcm (x y : Int) : Int :=
  if x = 0 ∨ y = 0 then 0 else Int.fdiv x (integerGcd x y) * y

end Komm
