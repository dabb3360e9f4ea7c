import Mathlib.Algebra.Polynomial.Basic
import Mathlib.Algebra.Polynomial.Coeff
import Mathlib.Data.ZMod.Basic
/-! Specification: the polynomial of a word, and its cyclic shift. -/
namespace Komm
open Polynomial

/-- The polynomial `v_0 + v_1 X + … + v_{n-1} X^{n-1}` of a word `v`. -/
noncomputable def wordPoly {n : Nat} (v : Fin n → ZMod 2) : (ZMod 2)[X] := ∑ i, C (v i) * X ^ (i : Nat)

/-- Cyclic shift of a word by one position: symbol `i` moves to position `i + 1` (mod `n`). -/
def cyclicShift {n : Nat} (v : Fin n → ZMod 2) : Fin n → ZMod 2 :=
  fun i => v ⟨(i + (n - 1)) % n, Nat.mod_lt _ (by have := i.is_lt; omega)⟩

end Komm
