import Verif.Model.FiniteBifield
import Mathlib.Algebra.Order.Ring.Int
import Mathlib.Algebra.Order.Group.Unbundled.Abs
import Mathlib.Algebra.Order.Group.Abs
/-
Equality, hashing and printing of the objects of /repo/src/komm/_algebra, and Python dictionaries keyed by them.  `none` is a raised exception.
-/
namespace Komm.Py

/-- The objects: Python integers, `BinaryPolynomial(v)`, elements of a `FiniteBifield`, `FiniteBifield`s, `BinaryPolynomialFraction`s (numerator and denominator as stored), `Integer(v)`,
and the ambient rings. -/
inductive Obj
  | int (v : ℤ)
  | poly (v : ℤ)
  | elem (F : Bifield) (v : ℤ)
  | field (F : Bifield)
  | fraction (n d : ℤ)
  | integer (v : ℤ)
  | polynomials
  | fractions
  | integers
deriving DecidableEq

/-- `x.__eq__(y)`; `none` is `NotImplemented`.  `int.__eq__`; BinaryPolynomial.py:98-103, 315-318; FiniteBifield.py:27-30, 184-187; BinaryPolynomialFraction.py:49-54, 96-99; Integers.py:18-21, 53-56. -/
def eqMethod : Obj → Obj → Option Bool
  | .int v, .int w => some (v == w)
  | .poly v, .int w => some (v == w)
  | .poly v, .poly w => some (v == w)
  | .elem F v, .elem G w => some ((F.degree == G.degree && F.modulus == G.modulus) && v == w)
  | .field F, .field G => some (F.degree == G.degree && F.modulus == G.modulus)
  | .fraction n d, .fraction n' d' => some (n == n' && d == d')
  | .integer v, .integer w => some (v == w)
  | .polynomials, .polynomials => some true
  | .fractions, .fractions => some true
  | .integers, .integers => some true
  | _, _ => none

/-- `x == y` in Python: the method of `x`, then the reflected one, then identity (objects of different classes are not identical). -/
def pyEq (x y : Obj) : Bool :=
  match eqMethod x y with
  | some b => b
  | none => match eqMethod y x with
    | some b => b
    | none => false

/-- `sys.hash_info.modulus` of 64-bit CPython. -/
def hashModulus : ℤ := 2 ^ 61 - 1

/-- `hash` of a Python integer (CPython, 64 bits). -/
def intHash (v : ℤ) : ℤ :=
  let h := Int.sign v * (|v| % hashModulus)
  if h = -1 then -2 else h

/-- `hash(x)` when `x.__hash__()` returns `v` (CPython's `slot_tp_hash`): `v` itself if it fits in 64 bits, otherwise the hash of the integer `v`. -/
def slotHash (v : ℤ) : ℤ :=
  let h := if -2 ^ 63 ≤ v ∧ v < 2 ^ 63 then v else intHash v
  if h = -1 then -2 else h

/-- `hash(x)`: `BinaryPolynomial.__hash__` (BinaryPolynomial.py:63-64) returns the value, `FiniteBifieldElement.__hash__` (FiniteBifield.py:24-25) the hash of its polynomial; the other classes
define `__eq__` without `__hash__`, so that hashing them raises `TypeError`. -/
def pyHash : Obj → Option ℤ
  | .int v => some (intHash v)
  | .poly v => some (slotHash v)
  | .elem _ v => some (slotHash (slotHash v))
  | _ => none

/-! ### dictionaries (and sets: dictionaries without values) -/

/-- A Python dictionary: the entries (hash, key, value) in order of insertion. -/
abbrev Dict (β : Type) := List (ℤ × Obj × β)

/-- Whether an entry is the one of a key: same hash and equal. -/
def hits {β : Type} (h : ℤ) (k : Obj) (e : ℤ × Obj × β) : Bool := e.1 == h && pyEq e.2.1 k

/-- `d.get(k)`. -/
def Dict.get {β : Type} (d : Dict β) (k : Obj) : Option (Option β) :=
  (pyHash k).map fun h => (d.find? (hits h k)).map fun e => e.2.2

/-- Replaces the value of the first entry of the key, or appends an entry. -/
def setEntry {β : Type} (h : ℤ) (k : Obj) (v : β) : Dict β → Dict β
  | [] => [(h, k, v)]
  | e :: d => if hits h k e then (e.1, e.2.1, v) :: d else e :: setEntry h k v d

/-- `d[k] = v`. -/
def Dict.set {β : Type} (d : Dict β) (k : Obj) (v : β) : Option (Dict β) := (pyHash k).map fun h => setEntry h k v d

/-- `d.pop(k, None)`. -/
def Dict.remove {β : Type} (d : Dict β) (k : Obj) : Option (Dict β) := (pyHash k).map fun h => d.eraseP (hits h k)

/-- One statement on a dictionary. -/
inductive Stmt (β : Type)
  | set (k : Obj) (v : β)
  | remove (k : Obj)

/-- Running statements. -/
def run {β : Type} (d : Dict β) : List (Stmt β) → Option (Dict β)
  | [] => some d
  | .set k v :: p => (d.set k v).bind fun d' => run d' p
  | .remove k :: p => (d.remove k).bind fun d' => run d' p

/-! ### elements of different fields -/

/-- A field element with its field (FiniteBifield.py:14-16). -/
structure Elem where
  ambient : Bifield
  value : Nat
deriving DecidableEq

/-- `_check_same_ambient` (FiniteBifield.py:32-34), then the operation. -/
def Elem.checked (f : Bifield → Nat → Nat → Option Nat) (x y : Elem) : Option Elem :=
  if pyEq (.field x.ambient) (.field y.ambient) = false then none else (f x.ambient x.value y.value).map fun v => ⟨x.ambient, v⟩

/-- `__add__` and `__sub__` (FiniteBifield.py:36-42). -/
def Elem.add (x y : Elem) : Option Elem := Elem.checked (fun F a b => some (F.add a b)) x y

/-- `__mul__` (FiniteBifield.py:47-50). -/
def Elem.mul (x y : Elem) : Option Elem := Elem.checked (fun F a b => some (F.mul a b)) x y

/-- `__truediv__` (FiniteBifield.py:64-66). -/
def Elem.div (x y : Elem) : Option Elem := Elem.checked (fun F a b => F.truediv a b) x y

/-! ### printing -/

/-- `FiniteBifield.__repr__` (FiniteBifield.py:211-216): the arguments in the printed expression `FiniteBifield(degree)` or `FiniteBifield(degree, modulus=…)`. -/
def reprField (F : Bifield) : Option (Nat × Option Nat) :=
  match BP.defaultPrimitivePolynomial F.degree with
  | none => none
  | some m => if pyEq (.int F.modulus) (.poly m) then some (F.degree, none) else some (F.degree, some F.modulus)

/-- The binary digits of a positive number, most significant first (the digits of `bin`). -/
def binDigits : Nat → List Char
  | 0 => []
  | n + 1 => binDigits ((n + 1) / 2) ++ [if (n + 1) % 2 = 0 then '0' else '1']
decreasing_by omega

/-- `f"{v:#b}"` and `bin(v)` (BinaryPolynomial.py:54-58). -/
def binRepr (v : ℤ) : List Char :=
  (if v < 0 then ['-'] else []) ++ ['0', 'b'] ++ (if v = 0 then ['0'] else binDigits v.natAbs)

/-- The value of a string of binary digits; `none` is a syntax error. -/
def readDigits : Nat → List Char → Option Nat
  | acc, [] => some acc
  | acc, '0' :: l => readDigits (2 * acc) l
  | acc, '1' :: l => readDigits (2 * acc + 1) l
  | _, _ => none

/-- The value of the Python expressions `0b…` and `-0b…`. -/
def readLiteral : List Char → Option ℤ
  | '0' :: 'b' :: c :: l => (readDigits 0 (c :: l)).map Int.ofNat
  | '-' :: '0' :: 'b' :: c :: l => (readDigits 0 (c :: l)).map fun n : Nat => -Int.ofNat n
  | _ => none

/-- The class name and the opening parenthesis. -/
def polyName : List Char := "BinaryPolynomial(".toList

/-- `repr(BinaryPolynomial(v))` (BinaryPolynomial.py:54-55). -/
def reprPoly (v : ℤ) : List Char := polyName ++ binRepr v ++ [')']

/-- `eval` of an expression `BinaryPolynomial(literal)`. -/
def evalPoly (s : List Char) : Option Obj :=
  if polyName.isPrefixOf s ∧ s.getLast? = some ')' then (readLiteral ((s.drop polyName.length).dropLast)).map Obj.poly else none

end Komm.Py
