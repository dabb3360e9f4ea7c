import Verif.Lemmas.Matrices2
/-! `pseudo_inverse` is a generalised inverse for every matrix, of any rank. -/
namespace Komm
variable {k n : Nat}

theorem pseudoInverse_generalised (M : BMat k n) : matMul (matMul M (pseudoInverse M)) M = M := by
  obtain ⟨h1, h2, h3, _⟩ := xrref_spec M
  set P := (xrref M).1 with hP
  set R := (xrref M).2.1 with hR
  set L := findPivots R with hL
  set RI : BMat n k := fun j t => if j ∈ L ∧ L.idxOf j = (t : Nat) then 1 else 0 with hRI
  have hpi : pseudoInverse M = matMul RI P := rfl
  have hnd : L.Nodup := (findPivots_sorted h3).imp (fun h => ne_of_lt h)
  have hE : ∀ i t : Fin k, (Matrix.of R * Matrix.of RI) i t = if (t : Nat) < L.length ∧ i = t then 1 else 0 := by
    intro i t
    rw [Matrix.mul_apply]
    by_cases ht : (t : Nat) < L.length
    · rw [Finset.sum_eq_single L[(t : Nat)]]
      · simp only [Matrix.of_apply, hRI]
        rw [if_pos ⟨List.getElem_mem ht, hnd.idxOf_getElem t ht⟩, mul_one]
        have hlead := findPivots_leading h3 t ht
        by_cases h : i = t
        · subst h; rw [if_pos ⟨ht, rfl⟩]; exact zmod2_ne_zero hlead.1
        · rw [if_neg (fun h' => h h'.2)]; exact h3.column _ _ hlead i h
      · intro j _ hj
        simp only [Matrix.of_apply, hRI]
        rw [if_neg, mul_zero]
        rintro ⟨h5, h6⟩
        apply hj
        simp only [← h6]
        exact (List.getElem_idxOf (List.idxOf_lt_length_of_mem h5)).symm
      · intro h; exact absurd (Finset.mem_univ _) h
    · rw [if_neg (fun h' => ht h'.1)]
      apply Finset.sum_eq_zero
      intro j _
      simp only [Matrix.of_apply, hRI]
      rw [if_neg, mul_zero]
      rintro ⟨h5, h6⟩
      exact ht (h6 ▸ List.idxOf_lt_length_of_mem h5)
  have hRRI : Matrix.of R * Matrix.of RI * Matrix.of R = Matrix.of R := by
    ext i j
    rw [Matrix.mul_apply, Finset.sum_eq_single i]
    · rw [hE]
      by_cases hi : (i : Nat) < L.length
      · rw [if_pos ⟨hi, rfl⟩, one_mul]
      · rw [if_neg (fun h => hi h.1), zero_mul, Matrix.of_apply, findPivots_zero h3 i (not_lt.mp hi)]; rfl
    · intro b _ hb
      rw [hE, if_neg (fun h => hb h.2.symm), zero_mul]
    · intro h; exact absurd (Finset.mem_univ _) h
  apply of_inj
  rw [of_matMul, of_matMul, hpi, of_matMul]
  obtain ⟨u, hu⟩ := h1
  have hM' : Matrix.of M = (↑u⁻¹ : Matrix (Fin k) (Fin k) (ZMod 2)) * Matrix.of R := by
    rw [h2, ← hu, ← Matrix.mul_assoc, Units.inv_mul, Matrix.one_mul]
  have e : Matrix.of M * (Matrix.of RI * Matrix.of P) * Matrix.of M =
      Matrix.of M * Matrix.of RI * (Matrix.of P * Matrix.of M) := by simp only [Matrix.mul_assoc]
  rw [e, ← h2, hM', Matrix.mul_assoc, Matrix.mul_assoc, ← Matrix.mul_assoc (Matrix.of R), hRRI]

end Komm
