import Verif.Lemmas.Primitive

/-! C06–C08: irreducibility, primitivity and the default primitive polynomials. -/
namespace Komm
open Polynomial

/-- C06: `is_irreducible()` decides irreducibility in GF(2)[X], for every polynomial. -/
theorem C06_is_irreducible (a : Nat) : BP.isIrreducible a = true ↔ Irreducible (toPoly a) :=
  BP.isIrreducible_iff a

/-- C07: `is_primitive()` decides primitivity (irreducible, and `X` has order `2^deg - 1`). -/
theorem C07_is_primitive (a : Nat) : BP.isPrimitive a = true ↔ IsPrimitivePoly (toPoly a) :=
  BP.isPrimitive_iff a

/-- C07, group form: for a primitive polynomial every non-zero class of the quotient is a power of
the class of `X`. -/
theorem C07_primitive_generates (a : Nat) (h : BP.isPrimitive a = true)
    (y : AdjoinRoot (toPoly a)) (hy : y ≠ 0) : ∃ n : Nat, y = AdjoinRoot.root (toPoly a) ^ n :=
  primitive_generates ((BP.isPrimitive_iff a).mp h) y hy

/-- C08: every value returned by `default_primitive_polynomial(m)` is a primitive polynomial of degree
`m`; it returns a value exactly for `1 ≤ m ≤ 24` and raises otherwise. -/
theorem C08_default_primitive (m : Int) :
    (∀ p, BP.defaultPrimitivePolynomial m = some p →
      IsPrimitivePoly (toPoly p) ∧ ((toPoly p).natDegree : Int) = m) ∧
    ((BP.defaultPrimitivePolynomial m).isSome ↔ 1 ≤ m ∧ m ≤ 24) := by
  constructor
  · intro p hp
    unfold BP.defaultPrimitivePolynomial at hp
    split at hp
    · rename_i hm
      have hi : (m - 1).toNat < 24 := by omega
      have hdeg := BP.defaultTable_degree _ hi
      rw [hp] at hdeg
      simp only [Option.map_some, Option.some.injEq] at hdeg
      have hall := List.all_eq_true.mp BP.defaultTable_primitive p (List.mem_of_getElem? hp)
      refine ⟨(BP.isPrimitive_iff p).mp hall, ?_⟩
      rw [natDegree_toPoly, hdeg]; omega
    · simp at hp
  · unfold BP.defaultPrimitivePolynomial
    split
    · rename_i hm
      have hi : (m - 1).toNat < 24 := by omega
      have hdeg := BP.defaultTable_degree _ hi
      simp only [hm, and_self, iff_true]
      cases h : BP.defaultTable[(m - 1).toNat]? with
      | none => rw [h] at hdeg; simp at hdeg
      | some _ => rfl
    · rename_i hm; simp only [Option.isSome_none, Bool.false_eq_true, false_iff]; exact hm

example : BP.isIrreducible 0b10011 = true ∧ BP.isIrreducible 0b10101 = false := by decide +kernel
example : BP.isPrimitive 0b10011 = true ∧ BP.isPrimitive 0b11111 = false ∧
    BP.isIrreducible 0b11111 = true := by decide +kernel
example : BP.defaultPrimitivePolynomial 5 = some 0b100101 ∧
    BP.defaultPrimitivePolynomial 25 = none := by decide +kernel

end Komm
