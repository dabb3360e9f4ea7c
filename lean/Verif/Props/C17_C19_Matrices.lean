import Verif.Lemmas.Matrices2
import Verif.Lemmas.PseudoInverse

/-! C17–C19: linear algebra over GF(2). -/
namespace Komm

/-! ### C17 -/

/-- `rref(M)` is in reduced row echelon form and has the row space of `M`. -/
theorem C17_rref {k n : Nat} (M : BMat k n) :
    IsRREF (rref M) ∧
    Submodule.span (ZMod 2) (Set.range (rref M)) = Submodule.span (ZMod 2) (Set.range M) :=
  ⟨rref_isRREF M, rowEquiv_span (rref_rowEquiv M)⟩

/-- `rref` is canonical: equal row spaces have equal reduced forms. -/
theorem C17_rref_canonical {k n : Nat} (M N : BMat k n)
    (h : Submodule.span (ZMod 2) (Set.range M) = Submodule.span (ZMod 2) (Set.range N)) :
    rref M = rref N :=
  (rref_isRREF M).unique (rref_isRREF N)
    (by rw [rowEquiv_span (rref_rowEquiv M), rowEquiv_span (rref_rowEquiv N), h])

/-- `xrref(M) = (P, R, pivots)`: `P` is invertible, `P M = R = rref(M)`, and `pivots[i]` is the column of
the leading entry of row `i`. -/
theorem C17_xrref {k n : Nat} (M : BMat k n) :
    IsUnit (Matrix.of (xrref M).1) ∧ matMul (xrref M).1 M = (xrref M).2.1 ∧ (xrref M).2.1 = rref M ∧
    (∀ (i : Fin k) (j : Fin n), (xrref M).2.2[(i : Nat)]? = some j ↔ Leading (xrref M).2.1 i j) ∧
    (xrref M).2.2.length ≤ k ∧ (xrref M).2.2.Pairwise (· < ·) := by
  obtain ⟨h1, h2, h3, h4⟩ := xrref_spec M
  refine ⟨h1, of_inj (by rw [of_matMul, h2]), h4, (findPivots_spec h3).2, (findPivots_spec h3).1,
    findPivots_sorted h3⟩

/-- `rank(M)` is the dimension of the row space. -/
theorem C17_rank {k n : Nat} (M : BMat k n) :
    rank M = Module.finrank (ZMod 2) (Submodule.span (ZMod 2) (Set.range M)) := rank_spec M

/-- Non-vacuity: a rank-2 matrix with three rows. -/
example : rref (fun i j => (![![0, 1, 1], ![1, 1, 0], ![1, 0, 1]] : Fin 3 → Fin 3 → ZMod 2) i j) =
    ![![1, 0, 1], ![0, 1, 1], ![0, 0, 0]] := by decide +kernel
example : rank (![![0, 1, 1], ![1, 1, 0], ![1, 0, 1]] : BMat 3 3) = 2 := by decide +kernel

/-! ### C18 -/

/-- For full row rank, `pseudo_inverse(M)` is a right inverse. -/
theorem C18_pseudo_inverse {k n : Nat} (M : BMat k n)
    (hM : Module.finrank (ZMod 2) (Submodule.span (ZMod 2) (Set.range M)) = k) :
    matMul M (pseudoInverse M) = eye k := pseudoInverse_spec M (by rw [rank_spec, hM])

/-- The hypothesis, in terms of the rows: full row rank is linear independence of the rows. -/
theorem C18_pseudo_inverse_of_independent {k n : Nat} (M : BMat k n) (hM : LinearIndependent (ZMod 2) M) :
    matMul M (pseudoInverse M) = eye k :=
  C18_pseudo_inverse M (by rw [finrank_span_eq_card hM, Fintype.card_fin])

example : rank (![![1, 0, 1, 1], ![1, 1, 0, 1]] : BMat 2 4) = 2 ∧
    pseudoInverse (![![1, 0, 1, 1], ![1, 1, 0, 1]] : BMat 2 4) =
      ![![1, 0], ![1, 1], ![0, 0], ![0, 0]] := by decide +kernel

/-- For every matrix, of whatever rank, it is a generalised inverse: `M M⁺ M = M`. -/
theorem C18_generalised_inverse {k n : Nat} (M : BMat k n) : matMul (matMul M (pseudoInverse M)) M = M :=
  pseudoInverse_generalised M

example : rank (![![1, 0, 1], ![1, 0, 1]] : BMat 2 3) = 1 ∧
    matMul (matMul (![![1, 0, 1], ![1, 0, 1]] : BMat 2 3) (pseudoInverse ![![1, 0, 1], ![1, 0, 1]])) ![![1, 0, 1], ![1, 0, 1]] =
      ![![1, 0, 1], ![1, 0, 1]] := by decide +kernel

/-! ### C19 -/

/-- For full row rank, the `n - k` rows of `null_matrix(M)` are a basis of the null space of `M`;
rank-deficient matrices are rejected. -/
theorem C19_null_matrix {k n : Nat} (M : BMat k n) :
    (rank M ≠ k → nullMatrix M = none) ∧
    (rank M = k → ∃ N : BMat (n - k) n, nullMatrix M = some N ∧ LinearIndependent (ZMod 2) N ∧
      ∀ v : BVec n, v ∈ Submodule.span (ZMod 2) (Set.range N) ↔ ∀ i, ∑ j, M i j * v j = 0) :=
  nullMatrix_spec M

example : rank (![![1, 0, 1, 1], ![1, 1, 0, 1]] : BMat 2 4) = 2 ∧
    nullMatrix (![![1, 0, 1, 1], ![1, 1, 0, 1]] : BMat 2 4) =
      some ![![1, 1, 1, 0], ![1, 0, 0, 1]] := by decide +kernel
example : nullMatrix (![![1, 1], ![1, 1]] : BMat 2 2) = none := by decide +kernel

end Komm
