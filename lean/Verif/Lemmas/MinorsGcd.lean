import Verif.Lemmas.Catastrophic
import Verif.Lemmas.Ring
import Mathlib.LinearAlgebra.Matrix.Adjugate
import Mathlib.LinearAlgebra.Matrix.NonsingularInverse
import Mathlib.LinearAlgebra.Matrix.ToLin
import Mathlib.LinearAlgebra.Multilinear.Basic
import Mathlib.RingTheory.PrincipalIdealDomain
import Mathlib.Data.Fin.Tuple.Sort
import Mathlib.Data.List.Sort
import Mathlib.LinearAlgebra.Basis.VectorSpace
/-! Maximal minors of polynomial matrices: the ideal they generate, its relation to `invariant_factors` and to catastrophic encoders. -/
namespace Komm
open Polynomial Matrix
variable {k n : Nat}

section minors
variable {R : Type} [CommRing R]

/-- The ideal generated by the minors of order `k` of a matrix with `k` rows (columns chosen in any order, with repetitions). -/
def minorIdeal (A : Matrix (Fin k) (Fin n) R) : Ideal R := Ideal.span (Set.range fun f : Fin k → Fin n => (A.submatrix id f).det)

theorem det_mul_mem_minorIdeal (A : Matrix (Fin k) (Fin n) R) (Q : Matrix (Fin n) (Fin k) R) : (A * Q).det ∈ minorIdeal A := by
  have h1 : (A * Q).det = (Matrix.detRowAlternating (R := R) (n := Fin k)).toMultilinearMap
      (fun i => ∑ j : Fin n, Q j i • fun r => A r j) := by
    rw [← Matrix.det_transpose]
    change Matrix.det _ = Matrix.det _
    congr 1
    ext i r
    simp [Matrix.mul_apply, Finset.sum_apply, mul_comm]
  rw [h1, MultilinearMap.map_sum]
  refine Ideal.sum_mem _ fun f _ => ?_
  rw [MultilinearMap.map_smul_univ, smul_eq_mul]
  refine Ideal.mul_mem_left _ _ (Ideal.subset_span ⟨f, ?_⟩)
  change _ = Matrix.det _
  dsimp only
  rw [← Matrix.det_transpose]
  rfl

theorem minorIdeal_mul_le (P : Matrix (Fin k) (Fin k) R) (A : Matrix (Fin k) (Fin n) R) (Q : Matrix (Fin n) (Fin n) R) :
    minorIdeal (P * A * Q) ≤ minorIdeal A := by
  refine Ideal.span_le.mpr ?_
  rintro _ ⟨f, rfl⟩
  have : (P * A * Q).submatrix id f = P * (A * Q.submatrix id f) := by
    ext i j
    simp [Matrix.mul_assoc, Matrix.mul_apply]
  dsimp only
  rw [this, Matrix.det_mul]
  exact Ideal.mul_mem_left _ _ (det_mul_mem_minorIdeal A _)
end minors

namespace PMat

/-- The matrix as a matrix of polynomials. -/
noncomputable def polyMatrix (M : PMat k n) : Matrix (Fin k) (Fin n) (ZMod 2)[X] := fun i j => toPoly (M i j)

theorem rowMap_eq (M : PMat k n) (w : Fin k → (ZMod 2)[X]) : rowMap M w = w ᵥ* polyMatrix M := rfl

theorem Equivalent.symm {M N : PMat k n} (h : Equivalent M N) : Equivalent N M := by
  obtain ⟨e, e', h⟩ := h
  exact ⟨e.symm, e'.symm, fun w => by simp [h]⟩

theorem Equivalent.minorIdeal_le {M N : PMat k n} (h : Equivalent M N) : minorIdeal (polyMatrix N) ≤ minorIdeal (polyMatrix M) := by
  obtain ⟨e, e', h⟩ := h
  have key : polyMatrix N = (LinearMap.toMatrix' e.toLinearMap)ᵀ * polyMatrix M * (LinearMap.toMatrix' e'.toLinearMap)ᵀ := by
    have h2 : ∀ w, w ᵥ* polyMatrix N = w ᵥ* ((LinearMap.toMatrix' e.toLinearMap)ᵀ * polyMatrix M * (LinearMap.toMatrix' e'.toLinearMap)ᵀ) := by
      intro w
      rw [← rowMap_eq, h, rowMap_eq, ← Matrix.vecMul_vecMul, ← Matrix.vecMul_vecMul, Matrix.vecMul_transpose, Matrix.vecMul_transpose,
        LinearMap.toMatrix'_mulVec, LinearMap.toMatrix'_mulVec]
      rfl
    refine Matrix.ext fun i j => ?_
    have := congrFun (h2 (Pi.single i 1)) j
    simpa [Matrix.single_one_vecMul] using this
  rw [key]
  exact minorIdeal_mul_le _ _ _

theorem Equivalent.minorIdeal_eq {M N : PMat k n} (h : Equivalent M N) : minorIdeal (polyMatrix M) = minorIdeal (polyMatrix N) :=
  le_antisymm h.symm.minorIdeal_le h.minorIdeal_le

/-- Row operations do not change the row space. -/
theorem swapRow_range (M : PMat (k + 1) n) (i : Fin (k + 1)) (w : Fin (k + 1) → (ZMod 2)[X]) :
    ∃ w', rowMap (swapRow M i) w' = rowMap M w := by
  refine ⟨fun r => w (Equiv.swap 0 i r), ?_⟩
  funext j
  simp only [rowMap_apply, swapRow]
  exact Fintype.sum_equiv (Equiv.swap 0 i) _ _ fun r => rfl

theorem addRows_range (M : PMat (k + 1) n) (q : Fin k → Nat) (w : Fin (k + 1) → (ZMod 2)[X]) :
    ∃ w', rowMap (addRows M q) w' = rowMap M w := by
  refine ⟨addToFirst (fun j => toPoly (q j)) w, ?_⟩
  obtain ⟨e, e', h⟩ := equivalent_addRows M q
  funext s
  simp only [rowMap_apply, Fin.sum_univ_succ, addToFirst, addRows,
    LinearMap.coe_mk, AddHom.coe_mk, Fin.cons_zero, Fin.cons_succ, Fin.cases_zero, Fin.cases_succ, BP.toPoly_add, BP.toPoly_mul]
  simp only [mul_add, add_mul, Finset.sum_add_distrib, Finset.sum_mul]
  have : ∑ i : Fin k, toPoly (q i) * w i.succ * toPoly (M 0 s) = ∑ i : Fin k, w i.succ * (toPoly (q i) * toPoly (M 0 s)) :=
    Finset.sum_congr rfl fun i _ => by ring
  rw [this, add_assoc, add_comm (∑ i : Fin k, w i.succ * (toPoly (q i) * toPoly (M 0 s))), add_assoc, zmod2_poly_add_self, add_zero]

theorem loopRows_range (fuel : Nat) (M : PMat (k + 1) (n + 1)) (a0 : Nat) (w : Fin (k + 1) → (ZMod 2)[X]) :
    ∃ w', rowMap (loopRows fuel M a0).1 w' = rowMap M w := by
  induction fuel generalizing M a0 w with
  | zero => exact ⟨w, rfl⟩
  | succ fuel ih =>
    rw [loopRows]
    cases hfi : (List.finRange k).find? fun i : Fin k => decide (M i.succ 0 ≠ 0 ∧ BP.mod (M i.succ 0) a0 ≠ 0) with
    | none => exact ⟨w, rfl⟩
    | some i =>
      obtain ⟨w1, h1⟩ := addRows_range M (fun i' => if i' = i then BP.div (M i.succ 0) a0 else 0) w
      obtain ⟨w2, h2⟩ := swapRow_range (addRows M fun i' => if i' = i then BP.div (M i.succ 0) a0 else 0) i.succ w1
      obtain ⟨w3, h3⟩ := ih (swapRow (addRows M fun i' => if i' = i then BP.div (M i.succ 0) a0 else 0) i.succ) (BP.mod (M i.succ 0) a0) w2
      exact ⟨w3, by rw [← h1, ← h2, ← h3]⟩

theorem dvd_of_mod {a b : Nat} (hb : b ≠ 0) (h : BP.mod a b = 0) : toPoly b ∣ toPoly a := by
  have := BP.toPoly_mod a hb
  rw [h, toPoly_zero] at this
  exact EuclideanDomain.mod_eq_zero.mp this.symm

theorem rowMap_addCols (M : PMat k (n + 1)) (q : Fin n → Nat) (w : Fin k → (ZMod 2)[X]) :
    rowMap (addCols M q) w 0 = rowMap M w 0 ∧
    ∀ j : Fin n, rowMap (addCols M q) w j.succ = rowMap M w j.succ + toPoly (q j) * rowMap M w 0 := by
  constructor
  · simp [rowMap_apply, addCols]
  · intro j
    simp only [rowMap_apply, addCols, Fin.cases_succ, BP.toPoly_add, BP.toPoly_mul, mul_add, Finset.sum_add_distrib]
    have : ∑ i, w i * (toPoly (q j) * toPoly (M i 0)) = toPoly (q j) * ∑ i, w i * toPoly (M i 0) := by
      rw [Finset.mul_sum]
      exact Finset.sum_congr rfl fun i _ => by rw [mul_left_comm]
    rw [this]

/-- After a stage, some combination of the rows is a multiple of its first, non-zero entry. -/
theorem stage_row (M : PMat (k + 1) (n + 1)) (p : Fin (k + 1) × Fin (n + 1)) (hp : M p.1 p.2 ≠ 0) :
    ∃ w, rowMap (stage M p).1 w 0 ≠ 0 ∧ ∀ j, rowMap (stage M p).1 w 0 ∣ rowMap (stage M p).1 w j := by
  obtain ⟨_, n1, c1, d1⟩ := loopCols_spec (bitLength (M p.1 p.2)) (swapCol (swapRow M p.1) p.2) (M p.1 p.2) hp
    (by simp [swapCol, swapRow]) le_rfl
  obtain ⟨r1, hr1⟩ : ∃ r, r = loopCols (bitLength (M p.1 p.2)) (swapCol (swapRow M p.1) p.2) (M p.1 p.2) := ⟨_, rfl⟩
  rw [← hr1] at n1 c1 d1
  obtain ⟨r2, hr2⟩ : ∃ r, r = loopRows (bitLength r1.2) r1.1 r1.2 := ⟨_, rfl⟩
  have hs : stage M p = (clearCol (clearRow r2.1 r2.2) r2.2, r2.2) := by rw [hr2, hr1]; rfl
  have e0 : ∀ j, rowMap r1.1 (Pi.single 0 1) j = toPoly (r1.1 0 j) := by
    intro j
    rw [rowMap_apply, Finset.sum_eq_single 0]
    · simp
    · intro b _ hb; simp [Pi.single_eq_of_ne hb]
    · simp
  obtain ⟨w2, h2⟩ := loopRows_range (bitLength r1.2) r1.1 r1.2 (Pi.single 0 1)
  rw [← hr2] at h2
  -- the column operations
  have hcol0 : rowMap (clearRow r2.1 r2.2) w2 0 = rowMap r2.1 w2 0 := (rowMap_addCols _ _ _).1
  have hcol : ∀ j : Fin n, rowMap (clearRow r2.1 r2.2) w2 j.succ =
      rowMap r2.1 w2 j.succ + toPoly (BP.div (r2.1 0 j.succ) r2.2) * rowMap r2.1 w2 0 := (rowMap_addCols _ _ _).2
  obtain ⟨w3, h3⟩ := addRows_range (clearRow r2.1 r2.2) (fun i => BP.div ((clearRow r2.1 r2.2) i.succ 0) r2.2) w2
  have h3' : rowMap (stage M p).1 w3 = rowMap (clearRow r2.1 r2.2) w2 := by rw [hs]; exact h3
  have h0 : rowMap (stage M p).1 w3 0 = toPoly r1.2 := by
    rw [h3', hcol0, h2, e0, c1]
  refine ⟨w3, ?_, fun j => ?_⟩
  · rw [h0, Ne, toPoly_eq_zero]; exact n1
  · rw [h0, h3']
    refine Fin.cases ?_ (fun j => ?_) j
    · rw [hcol0, h2, e0, c1]
    · rw [hcol, h2, e0, e0, c1]
      exact dvd_add (dvd_of_mod n1 (d1 j)) (Dvd.dvd.mul_left dvd_rfl _)

/-- The minors after a stage are those of the remaining matrix times the corner. -/
theorem minorIdeal_stage (N : PMat (k + 1) (n + 1)) (a : Nat) (ha : a ≠ 0) (hc : N 0 0 = a) (h0 : ∀ i : Fin k, N i.succ 0 = 0)
    (hw : ∃ w, rowMap N w 0 ≠ 0 ∧ ∀ j, rowMap N w 0 ∣ rowMap N w j) :
    minorIdeal (polyMatrix N) = Ideal.span {toPoly a} * minorIdeal (polyMatrix fun (i : Fin k) (j : Fin n) => N i.succ j.succ) := by
  obtain ⟨N', hN'⟩ : ∃ N' : PMat k n, N' = fun (i : Fin k) (j : Fin n) => N i.succ j.succ := ⟨_, rfl⟩
  rw [← hN']
  have hap : toPoly a ≠ 0 := by rwa [Ne, toPoly_eq_zero]
  apply le_antisymm
  · refine Ideal.span_le.mpr ?_
    rintro _ ⟨f, rfl⟩
    obtain ⟨w, hw0, hdvd⟩ := hw
    choose s hs using hdvd
    have hw00 : rowMap N w 0 = w 0 * toPoly a := by rw [(rowMap_of_stage N h0 w).1, hc]
    have hwne : w 0 ≠ 0 := by intro h; rw [hw00, h, zero_mul] at hw0; exact hw0 rfl
    -- replace the first row by the multiple of `a`
    have hdet : w 0 * ((polyMatrix N).submatrix id f).det =
        w 0 * (toPoly a * (((polyMatrix N).submatrix id f).updateRow 0 fun j => s (f j)).det) := by
      have e1 : w 0 * ((polyMatrix N).submatrix id f).det =
          (((polyMatrix N).submatrix id f).updateRow 0 (w 0 • ((polyMatrix N).submatrix id f) 0 +
            ∑ i : Fin k, w i.succ • ((polyMatrix N).submatrix id f) i.succ)).det := by
        have hadd : ∀ t : Finset (Fin k), (((polyMatrix N).submatrix id f).updateRow 0 (w 0 • ((polyMatrix N).submatrix id f) 0 +
            ∑ i ∈ t, w i.succ • ((polyMatrix N).submatrix id f) i.succ)).det = w 0 * ((polyMatrix N).submatrix id f).det := by
          intro t
          induction t using Finset.induction_on with
          | empty =>
            rw [Finset.sum_empty, add_zero, Matrix.det_updateRow_smul, Matrix.updateRow_eq_self]
          | insert i t hi ih =>
            rw [Finset.sum_insert hi, add_comm (w i.succ • _), ← add_assoc, Matrix.det_updateRow_add, ih,
              Matrix.det_updateRow_smul]
            have : (((polyMatrix N).submatrix id f).updateRow 0 (((polyMatrix N).submatrix id f) i.succ)).det = 0 := by
              apply Matrix.det_zero_of_row_eq (i := 0) (j := i.succ) (Fin.succ_ne_zero i).symm
              rw [Matrix.updateRow_self, Matrix.updateRow_ne (Fin.succ_ne_zero i)]
            rw [this, mul_zero, add_zero]
        exact (hadd Finset.univ).symm
      rw [e1, ← Matrix.det_updateRow_smul, ← Matrix.det_updateRow_smul]
      congr 2
      funext j
      have h1 := hs (f j)
      rw [rowMap_apply, Fin.sum_univ_succ, hw00] at h1
      simp only [Pi.add_apply, Pi.smul_apply, Matrix.submatrix_apply, id_eq, smul_eq_mul, Finset.sum_apply, polyMatrix]
      rw [h1]; ring
    have hdet' := mul_left_cancel₀ hwne hdet
    dsimp only
    rw [hdet']
    refine Ideal.mul_mem_mul (Ideal.mem_span_singleton_self _) ?_
    rw [Matrix.det_succ_row_zero]
    refine Ideal.sum_mem _ fun j _ => Ideal.mul_mem_left _ _ ?_
    by_cases hz : ∃ c, f (j.succAbove c) = 0
    · obtain ⟨c, hcz⟩ := hz
      have : (((((polyMatrix N).submatrix id f).updateRow 0 fun j => s (f j)).submatrix Fin.succ j.succAbove)).det = 0 := by
        apply Matrix.det_eq_zero_of_column_eq_zero c
        intro i
        rw [Matrix.submatrix_apply, Matrix.updateRow_ne (Fin.succ_ne_zero i), Matrix.submatrix_apply, hcz]
        simp [polyMatrix, h0]
      rw [this]; exact Ideal.zero_mem _
    · push Not at hz
      refine Ideal.subset_span ⟨fun c => (f (j.succAbove c)).pred (hz c), ?_⟩
      dsimp only
      congr 1
      refine Matrix.ext fun i c => ?_
      rw [Matrix.submatrix_apply, Matrix.submatrix_apply, Matrix.updateRow_ne (Fin.succ_ne_zero i), Matrix.submatrix_apply, hN']
      simp [polyMatrix]
  · rw [Ideal.span_singleton_mul_le_iff]
    intro z hz
    refine Submodule.span_induction ?_ ?_ ?_ ?_ hz
    · rintro _ ⟨f, rfl⟩
      refine Ideal.subset_span ⟨Fin.cons 0 fun i => (f i).succ, ?_⟩
      dsimp only
      rw [Matrix.det_succ_column_zero, Fin.sum_univ_succ, Finset.sum_eq_zero, add_zero]
      · simp only [Matrix.submatrix_apply, id_eq, Fin.cons_zero, polyMatrix, hc]
        simp only [Fin.val_zero, pow_zero, one_mul, Fin.succAbove_zero]
        congr 2
        refine Matrix.ext fun i c => ?_
        simp [hN', polyMatrix]
      · intro i _
        simp [polyMatrix, h0]
    · simp
    · intro x y _ _ hx hy; rw [mul_add]; exact Ideal.add_mem _ hx hy
    · intro r x _ hx; rw [smul_eq_mul, mul_left_comm]; exact Ideal.mul_mem_left _ _ hx

/-- The product of the invariant factors generates the ideal of the maximal minors. -/
theorem invariantFactors_minorIdeal (k n : Nat) (M : PMat k n) {fs : List Nat} (h : invariantFactors k n M = some fs) :
    minorIdeal (polyMatrix M) = if fs.length = k then Ideal.span {(fs.map toPoly).prod} else ⊥ := by
  induction k generalizing n fs with
  | zero =>
    simp only [invariantFactors, Option.some.injEq] at h
    subst h
    simp only [List.length_nil, if_true, List.map_nil, List.prod_nil]
    rw [Ideal.span_singleton_one, Ideal.eq_top_iff_one]
    exact Ideal.subset_span ⟨fun i => i.elim0, by simp⟩
  | succ k ih =>
    cases n with
    | zero => simp [invariantFactors] at h
    | succ n =>
      rw [invariantFactors] at h
      split at h
      · cases h
      · split at h
        · rename_i hle
          cases h
          rw [if_neg (by simp)]
          have hz := (leastEntry_spec M).1 hle
          rw [eq_bot_iff]
          refine Ideal.span_le.mpr ?_
          rintro _ ⟨f, rfl⟩
          have : ((polyMatrix M).submatrix id f).det = 0 := by
            apply Matrix.det_eq_zero_of_row_eq_zero 0
            intro j; simp [polyMatrix, hz]
          simp [this]
        · rename_i p hp
          obtain ⟨gs, hg, rfl⟩ := Option.map_eq_some_iff.mp h
          have hp0 := (leastEntry_spec M).2 p hp
          obtain ⟨heq, hne, hc, h0, _⟩ := stage_spec M p hp0
          rw [heq.minorIdeal_eq, minorIdeal_stage _ _ hne hc h0 (stage_row M p hp0), ih n _ hg]
          by_cases hl : gs.length = k
          · rw [if_pos hl, if_pos (by simp [hl]), Ideal.span_singleton_mul_span_singleton]; simp
          · rw [if_neg hl, if_neg (by simpa using hl)]; simp

end PMat

/-! ### the list of minors computed by `_minors_gcd` -/

theorem mem_pyCombinations {α : Type} (l : List α) (m : Nat) (c : List α) : c ∈ pyCombinations l m ↔ c.Sublist l ∧ c.length = m := by
  induction l generalizing m c with
  | nil =>
    cases m with
    | zero => simp [pyCombinations]
    | succ m =>
      simp only [pyCombinations, List.not_mem_nil, List.sublist_nil, false_iff, not_and]
      rintro rfl
      simp
  | cons x l ih =>
    cases m with
    | zero =>
      simp only [pyCombinations, List.mem_singleton, List.length_eq_zero_iff]
      constructor
      · rintro rfl; exact ⟨List.nil_sublist _, rfl⟩
      · exact fun h => h.2
    | succ m =>
      rw [pyCombinations, List.mem_append, List.mem_map, ih]
      constructor
      · rintro (⟨c', hc', rfl⟩ | ⟨h1, h2⟩)
        · rw [ih] at hc'
          exact ⟨hc'.1.cons_cons x, by simp [hc'.2]⟩
        · exact ⟨h1.cons x, h2⟩
      · rintro ⟨h1, h2⟩
        cases h1 with
        | cons _ h => exact Or.inr ⟨h, h2⟩
        | cons_cons _ h => exact Or.inl ⟨_, (ih _ _).mpr ⟨h, by simpa using h2⟩, rfl⟩

theorem toPoly_foldl_add (l : List Nat) (a : Nat) (t : Nat → Nat) :
    toPoly (l.foldl (fun det j => BP.add det (t j)) a) = l.foldl (fun det j => det + toPoly (t j)) (toPoly a) := by
  induction l generalizing a with
  | nil => rfl
  | cons x l ih => rw [List.foldl_cons, List.foldl_cons, ih, BP.toPoly_add]

theorem toPoly_headD_getD (m : List (List Nat)) (j : Nat) :
    toPoly ((m.headD []).getD j 0) = ((m.map (List.map toPoly)).headD []).getD j 0 := by
  cases m with
  | nil => simp
  | cons r m =>
    simp only [List.headD_cons, List.map_cons]
    rw [List.getD_eq_getElem?_getD, List.getD_eq_getElem?_getD, List.getElem?_map]
    cases r[j]? <;> simp

theorem toPoly_bpDeterminant (m : Nat) (l : List (List Nat)) :
    toPoly (bpDeterminant m l) = detRec m (l.map (List.map toPoly)) := by
  induction m using Nat.strong_induction_on generalizing l with
  | _ m ih =>
    match m with
    | 0 => simp [bpDeterminant, detRec]
    | 1 =>
      rw [bpDeterminant, detRec]
      cases l with
      | nil => simp
      | cons r l => cases r <;> simp
    | m + 2 =>
      rw [bpDeterminant, detRec, toPoly_foldl_add, toPoly_zero]
      congr 1
      funext det j
      rw [BP.toPoly_mul, ih (m + 1) (by omega), toPoly_headD_getD]
      have hsign : (if j % 2 = 1 then (-1 : (ZMod 2)[X]) else 1) = 1 := by
        split
        · rw [neg_eq_iff_add_eq_zero]; exact zmod2_poly_add_self 1
        · rfl
      rw [hsign, one_mul, minorOf]
      congr 3
      cases l with
      | nil => rfl
      | cons r l => simp [List.map_take, List.map_drop, Function.comp_def]

theorem toPoly_minor (A : PMat k n) (hk : 0 < k) (f : Fin k → Fin n) :
    toPoly (bpDeterminant k ((List.finRange k).map fun i : Fin k => (List.ofFn f).map fun j : Fin n => A i j)) =
      ((PMat.polyMatrix A).submatrix id f).det := by
  obtain ⟨m, rfl⟩ : ∃ m, k = m + 1 := ⟨k - 1, by omega⟩
  rw [toPoly_bpDeterminant, detRec_eq]
  · congr 1
    refine Matrix.ext fun i j => ?_
    have hi : (i : Nat) < (List.finRange (m + 1)).length := by rw [List.length_finRange]; exact i.2
    have hj : (j : Nat) < (List.ofFn f).length := by rw [List.length_ofFn]; exact j.2
    simp only [listMatrix, List.getD_eq_getElem?_getD, List.getElem?_map, List.getElem?_eq_getElem hi, Option.map_some,
      Option.getD_some, List.getElem?_eq_getElem hj, List.getElem_ofFn, List.getElem_finRange]
    rfl
  · simp
  · intro r hr
    simp only [List.map_map, List.mem_map] at hr
    obtain ⟨i, _, rfl⟩ := hr
    simp

/-- The minors in the list of `_minors_gcd` generate the same divisibility conditions as all of them. -/
theorem dvd_minors_iff (A : PMat k n) (hk : 0 < k) (p : (ZMod 2)[X]) :
    (∀ q ∈ (pyCombinations (List.finRange n) k).map (fun js : List (Fin n) =>
        bpDeterminant k ((List.finRange k).map fun i : Fin k => js.map fun j : Fin n => A i j)), p ∣ toPoly q) ↔
      ∀ f : Fin k → Fin n, p ∣ ((PMat.polyMatrix A).submatrix id f).det := by
  constructor
  · intro h f
    by_cases hf : Function.Injective f
    · have hmono : StrictMono (f ∘ Tuple.sort f) :=
        (Tuple.monotone_sort f).strictMono_of_injective (hf.comp (Tuple.sort f).injective)
      have hmem : List.ofFn (f ∘ Tuple.sort f) ∈ pyCombinations (List.finRange n) k := by
        rw [mem_pyCombinations]
        refine ⟨?_, by simp⟩
        refine List.sublist_of_subperm_of_pairwise (r := (· ≤ ·)) ?_ ?_ ?_
        · refine List.subperm_of_subset ?_ (fun x _ => List.mem_finRange x)
          rw [List.nodup_ofFn]; exact hmono.injective
        · rw [List.pairwise_ofFn]
          exact fun i j hij => (hmono hij).le
        · exact (List.pairwise_lt_finRange n).imp fun h => le_of_lt h
      have := h _ (List.mem_map.mpr ⟨_, hmem, rfl⟩)
      rw [toPoly_minor A hk] at this
      have e : (PMat.polyMatrix A).submatrix id (f ∘ Tuple.sort f) =
          ((PMat.polyMatrix A).submatrix id f).submatrix id (Tuple.sort f) := rfl
      rw [e, Matrix.det_permute'] at this
      rcases Int.units_eq_one_or (Equiv.Perm.sign (Tuple.sort f)) with hs | hs <;> simpa [hs] using this
    · rw [Function.not_injective_iff] at hf
      obtain ⟨a, b, hab, hne⟩ := hf
      rw [Matrix.det_zero_of_column_eq hne (fun i => by simp [hab])]
      exact dvd_zero _
  · intro h q hq
    obtain ⟨js, hjs, rfl⟩ := List.mem_map.mp hq
    rw [mem_pyCombinations] at hjs
    obtain ⟨_, hlen⟩ := hjs
    subst hlen
    have := h fun i => js.get i
    rw [← toPoly_minor A hk, List.ofFn_get] at this
    exact this

/-- `_minors_gcd` returns a generator of the ideal of the maximal minors. -/
theorem minorsGcdOf_spec (F : Fin k → Fin n → BPFraction) (hk : 0 < k) {g : Nat} (h : minorsGcdOf F = some g) :
    (∀ i j, (F i j).denominator = 1) ∧
    minorIdeal (PMat.polyMatrix fun i j => (F i j).numerator) = Ideal.span {toPoly g} := by
  rw [minorsGcdOf] at h
  split at h
  · cases h
  rename_i hden
  push Not at hden
  rw [if_neg hk.ne'] at h
  refine ⟨hden, ?_⟩
  have hne : ((pyCombinations (List.finRange n) k).map fun js : List (Fin n) =>
      bpDeterminant k ((List.finRange k).map fun i : Fin k => js.map fun j : Fin n => (F i j).numerator)) ≠ [] := by
    intro h0; rw [h0] at h; cases h
  obtain ⟨g', hg', hdvd⟩ := BP.gcdList_spec _ hne
  rw [hg'] at h
  cases h
  obtain ⟨z, hz⟩ := (IsPrincipalIdealRing.principal (minorIdeal (PMat.polyMatrix fun i j => (F i j).numerator))).principal
  have hz' : minorIdeal (PMat.polyMatrix fun i j => (F i j).numerator) = Ideal.span {z} := hz
  rw [hz']
  apply le_antisymm
  · rw [← hz']
    refine Ideal.span_le.mpr ?_
    rintro _ ⟨f, rfl⟩
    exact Ideal.mem_span_singleton.mpr ((dvd_minors_iff _ hk _).mp ((hdvd _).mp dvd_rfl) f)
  · rw [Ideal.span_singleton_le_span_singleton, hdvd, dvd_minors_iff _ hk]
    intro f
    rw [← Ideal.mem_span_singleton, ← hz']
    exact Ideal.subset_span ⟨f, rfl⟩

/-! ### Massey and Sain -/

theorem dependent_of_minors_zero {K : Type} [Field K] (A : Matrix (Fin k) (Fin n) K)
    (h : ∀ f : Fin k → Fin n, (A.submatrix id f).det = 0) : ∃ w : Fin k → K, w ≠ 0 ∧ w ᵥ* A = 0 := by
  by_contra hno
  push Not at hno
  have hinj : LinearMap.ker (Matrix.vecMulLinear A) = ⊥ := by
    rw [LinearMap.ker_eq_bot']
    intro w hw
    by_contra h0
    exact hno w h0 hw
  obtain ⟨l, hl⟩ := LinearMap.exists_leftInverse_of_injective _ hinj
  have h1 : A * (LinearMap.toMatrix' l)ᵀ = 1 := by
    refine Matrix.ext fun i j => ?_
    have h2 : Pi.single i 1 ᵥ* (A * (LinearMap.toMatrix' l)ᵀ) = Pi.single i 1 := by
      rw [← Matrix.vecMul_vecMul, Matrix.vecMul_transpose, LinearMap.toMatrix'_mulVec]
      exact LinearMap.congr_fun hl (Pi.single i 1)
    rw [Matrix.single_one_vecMul] at h2
    have := congrFun h2 j
    rw [Matrix.row_apply] at this
    rw [this, Matrix.one_apply, Pi.single_apply]
    exact if_congr eq_comm rfl rfl
  have h2 := det_mul_mem_minorIdeal A (LinearMap.toMatrix' l)ᵀ
  have h3 : minorIdeal A = ⊥ := by
    rw [eq_bot_iff]
    refine Ideal.span_le.mpr ?_
    rintro _ ⟨f, rfl⟩
    simp [h f]
  rw [h1, Matrix.det_one, h3] at h2
  exact one_ne_zero (Ideal.mem_bot.mp h2)

local notation "PS" => PowerSeries (ZMod 2)

theorem FiniteSeries.add {a b : PS} (ha : FiniteSeries a) (hb : FiniteSeries b) : FiniteSeries (a + b) := by
  obtain ⟨p, rfl⟩ := ha
  obtain ⟨q, rfl⟩ := hb
  exact ⟨p + q, by simp⟩

theorem FiniteSeries.mul_poly {a : PS} (ha : FiniteSeries a) (q : (ZMod 2)[X]) : FiniteSeries ((q : PS) * a) := by
  obtain ⟨p, rfl⟩ := ha
  exact ⟨q * p, by simp⟩

theorem FiniteSeries.sum {ι : Type} (t : Finset ι) (a : ι → PS) (ha : ∀ i ∈ t, FiniteSeries (a i)) : FiniteSeries (∑ i ∈ t, a i) := by
  classical
  induction t using Finset.induction_on with
  | empty => exact ⟨0, by simp⟩
  | insert i t hi ih =>
    rw [Finset.sum_insert hi]
    exact (ha i (by simp)).add (ih fun j hj => ha j (by simp [hj]))

theorem finite_of_X_pow_mul {a : PS} (s : Nat) (h : FiniteSeries (((X ^ s : (ZMod 2)[X]) : PS) * a)) : FiniteSeries a := by
  rw [finiteSeries_iff] at h ⊢
  refine Set.Finite.of_finite_image (f := fun t => t + s) (h.subset ?_) (fun x _ y _ hxy => by simpa using hxy)
  rintro _ ⟨t, ht, rfl⟩
  simp only [Set.mem_setOf_eq, Polynomial.coe_pow, Polynomial.coe_X, PowerSeries.coeff_X_pow_mul] at ht ⊢
  exact ht

/-- The encoder with polynomial generator matrix `A` maps some infinite input to a finite output unless the gcd of the minors is a
power of `X`. -/
theorem massey_sain (A : Matrix (Fin k) (Fin n) (ZMod 2)[X]) (g : (ZMod 2)[X]) (hg : minorIdeal A = Ideal.span {g}) :
    (∀ U : Fin k → PS, (∀ j, FiniteSeries (∑ i, U i * (A i j : PS))) → ∀ i, FiniteSeries (U i)) ↔ ∃ s, g = X ^ s := by
  constructor
  · intro h
    by_contra hno
    -- an irreducible factor other than `X`
    obtain ⟨p, hp, hp0, hpg⟩ : ∃ p : (ZMod 2)[X], Irreducible p ∧ p.coeff 0 = 1 ∧ p ∣ g := by
      by_cases hg0 : g = 0
      · refine ⟨X + C 1, irreducible_of_degree_eq_one (degree_X_add_C 1), by simp, by rw [hg0]; exact dvd_zero _⟩
      · obtain ⟨s, g', rfl, hg'⟩ := exists_unit_part g hg0
        have hu : ¬ IsUnit g' := by
          intro hu
          have : g' = 1 := zmod2_associated_iff.mp (associated_one_iff_isUnit.mpr hu)
          exact hno ⟨s, by rw [this, mul_one]⟩
        obtain ⟨p, hp, hpd⟩ := WfDvdMonoid.exists_irreducible_factor hu (by rintro rfl; simp at hg')
        refine ⟨p, hp, ?_, hpd.mul_left _⟩
        obtain ⟨r, rfl⟩ := hpd
        rw [Polynomial.mul_coeff_zero] at hg'
        rcases zmod2_cases (p.coeff 0) with h0 | h1
        · rw [h0, zero_mul] at hg'; exact absurd hg' (by decide)
        · exact h1
    have hmax : (Ideal.span {p}).IsMaximal := PrincipalIdealRing.isMaximal_of_irreducible hp
    letI : Field ((ZMod 2)[X] ⧸ Ideal.span {p}) := Ideal.Quotient.field _
    obtain ⟨wb, hwb, hw0⟩ := dependent_of_minors_zero (A.map (Ideal.Quotient.mk (Ideal.span {p}))) (by
      intro f
      have : (A.map (Ideal.Quotient.mk (Ideal.span {p}))).submatrix id f = (A.submatrix id f).map (Ideal.Quotient.mk (Ideal.span {p})) := rfl
      rw [this, ← RingHom.mapMatrix_apply, ← RingHom.map_det, Ideal.Quotient.eq_zero_iff_mem, Ideal.mem_span_singleton]
      have hm : (A.submatrix id f).det ∈ minorIdeal A := Ideal.subset_span ⟨f, rfl⟩
      rw [hg, Ideal.mem_span_singleton] at hm
      exact hpg.trans hm)
    choose w hw using fun i => Ideal.Quotient.mk_surjective (wb i)
    have hdv : ∀ j, p ∣ ∑ i, w i * A i j := by
      intro j
      rw [← Ideal.mem_span_singleton, ← Ideal.Quotient.eq_zero_iff_mem, map_sum]
      have := congrFun hw0 j
      simp only [Matrix.vecMul, dotProduct, Matrix.map_apply, Pi.zero_apply] at this
      rw [← this]
      exact Finset.sum_congr rfl fun i _ => by rw [map_mul, hw]
    have hinv := coe_mul_inv hp0
    obtain ⟨i, hi⟩ : ∃ i, ¬ p ∣ w i := by
      by_contra hall
      push Not at hall
      apply hwb
      funext i
      rw [← hw i, Pi.zero_apply, Ideal.Quotient.eq_zero_iff_mem, Ideal.mem_span_singleton]
      exact hall i
    have hfin := h (fun i => (w i : PS) * (p : PS)⁻¹) (by
      intro j
      obtain ⟨c, hc⟩ := hdv j
      refine ⟨c, ?_⟩
      have hc' := congrArg (Polynomial.coeToPowerSeries.ringHom (R := ZMod 2)) hc
      rw [map_sum, map_mul] at hc'
      simp only [map_mul, Polynomial.coeToPowerSeries.ringHom_apply] at hc'
      calc ∑ i, (w i : PS) * (p : PS)⁻¹ * (A i j : PS) = (p : PS)⁻¹ * ∑ i, (w i : PS) * (A i j : PS) := by
            rw [Finset.mul_sum]; exact Finset.sum_congr rfl fun i _ => by ring
        _ = ((p : PS) * (p : PS)⁻¹) * (c : PS) := by rw [hc']; ring
        _ = (c : PS) := by rw [hinv, one_mul]) i
    obtain ⟨q, hq⟩ := hfin
    apply hi
    refine ⟨q, ?_⟩
    rw [← Polynomial.coe_inj, Polynomial.coe_mul, ← hq]
    rw [mul_left_comm, hinv, mul_one]
  · rintro ⟨s, rfl⟩ U hV i
    have key : ∀ x ∈ minorIdeal A, FiniteSeries ((x : PS) * U i) := by
      intro x hx
      refine Submodule.span_induction ?_ ?_ ?_ ?_ hx
      · rintro _ ⟨f, rfl⟩
        -- `det · U = V adj`
        have hadj : (((A.submatrix id f).det : (ZMod 2)[X]) : PS) * U i =
            ∑ j, (((A.submatrix id f).adjugate j i : (ZMod 2)[X]) : PS) * ∑ i', U i' * (A i' (f j) : PS) := by
          have h1 : ∀ i', ∑ j, A i' (f j) * (A.submatrix id f).adjugate j i = if i' = i then (A.submatrix id f).det else 0 := by
            intro i'
            have := congrFun (congrFun (Matrix.mul_adjugate (A.submatrix id f)) i') i
            rw [Matrix.mul_apply, Matrix.smul_apply, Matrix.one_apply] at this
            simp only [Matrix.submatrix_apply, id_eq] at this
            rw [this]; split <;> simp
          have h2 : ∀ i', ∑ j, (A i' (f j) : PS) * ((A.submatrix id f).adjugate j i : PS) =
              if i' = i then ((A.submatrix id f).det : PS) else 0 := by
            intro i'
            have := congrArg (Polynomial.coeToPowerSeries.ringHom (R := ZMod 2)) (h1 i')
            rw [map_sum] at this
            simp only [map_mul, Polynomial.coeToPowerSeries.ringHom_apply] at this
            rw [this]; split <;> simp
          calc (((A.submatrix id f).det : (ZMod 2)[X]) : PS) * U i
              = ∑ i', U i' * ∑ j, (A i' (f j) : PS) * ((A.submatrix id f).adjugate j i : PS) := by
                rw [Finset.sum_eq_single i]
                · rw [h2 i, if_pos rfl, mul_comm]
                · intro b _ hb; rw [h2 b, if_neg hb, mul_zero]
                · simp
            _ = _ := by
                simp only [Finset.mul_sum]
                rw [Finset.sum_comm]
                exact Finset.sum_congr rfl fun j _ => Finset.sum_congr rfl fun i' _ => by ring
        dsimp only
        rw [hadj]
        exact FiniteSeries.sum _ _ fun j _ => (hV (f j)).mul_poly _
      · exact ⟨0, by simp⟩
      · intro x y _ _ hx hy
        rw [Polynomial.coe_add, add_mul]; exact hx.add hy
      · intro r x _ hx
        rw [smul_eq_mul, Polynomial.coe_mul, mul_assoc]; exact hx.mul_poly r
    have := key (X ^ s) (by rw [hg]; exact Ideal.mem_span_singleton_self _)
    exact finite_of_X_pow_mul s this

end Komm
