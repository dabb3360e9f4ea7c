import Verif.Props.C164_Renumber
import Verif.Props.C82_Absorption

/-! C165: absorbing chains with renumbered states. -/
namespace Komm
open MarkovChain Renumber
variable {n : ℕ}
namespace Renumber

/-- the transient states of the renumbered chain are the transient states of the chain, renumbered -/
def eT (P : TMat ℝ n) (σ : Equiv.Perm (Fin n)) (h : ∀ i, i ∈ transientStates (renumber P σ) ↔ σ i ∈ transientStates P) :
    Transient (renumber P σ) ≃ Transient P := σ.subtypeEquiv h

def eA (P : TMat ℝ n) (σ : Equiv.Perm (Fin n)) (h : ∀ i, i ∈ absorbingStates (renumber P σ) ↔ σ i ∈ absorbingStates P) :
    Absorbing (renumber P σ) ≃ Absorbing P := σ.subtypeEquiv h

theorem visits (P : TMat ℝ n) (hP : validTransitionMatrix P = true) (σ : Equiv.Perm (Fin n)) (hn : 0 < n)
    (h : ∀ i, i ∈ transientStates (renumber P σ) ↔ σ i ∈ transientStates P) :
    meanNumberOfVisits (renumber P σ) = (meanNumberOfVisits P).map fun N => N.submatrix (eT P σ h) (eT P σ h) := by
  have hab := (C164_structure P hP σ hn).2.2.2.2.2.2.2.2.2.2.1
  have hq : 1 - subQ (renumber P σ) = (1 - subQ P).submatrix (eT P σ h) (eT P σ h) := by
    rw [Matrix.submatrix_sub]
    have h1 : (1 : Matrix (Transient P) (Transient P) ℝ).submatrix (eT P σ h) (eT P σ h) = 1 := Matrix.submatrix_one_equiv _
    simp only [Pi.sub_apply, h1]
    rfl
  unfold meanNumberOfVisits
  rw [hab]
  by_cases h0 : isAbsorbing P = true
  · rw [if_neg (not_not_intro h0), if_neg (not_not_intro h0), hq]
    unfold npInv
    rw [Matrix.det_submatrix_equiv_self]
    by_cases hd : (1 - subQ P).det = 0
    · rw [if_pos hd, if_pos hd]; rfl
    · rw [if_neg hd, if_neg hd, Option.map_some, Matrix.inv_submatrix_equiv]
  · rw [if_pos h0, if_pos h0]; rfl

end Renumber

/-- Renumbering the states of a chain moves the entries of the three arrays about absorption with the states: the method raises for both chains or for
neither, and the entries at the states `i`, `j` of the renumbered chain are those at the states `σ i`, `σ j` of the chain. -/
theorem C165_absorption (P : TMat ℝ n) (hP : validTransitionMatrix P = true) (σ : Equiv.Perm (Fin n)) (hn : 0 < n) :
    (meanNumberOfVisits (renumber P σ) = none ↔ meanNumberOfVisits P = none) ∧
    (meanTimeToAbsorption (renumber P σ) = none ↔ meanTimeToAbsorption P = none) ∧
    (absorptionProbabilities (renumber P σ) = none ↔ absorptionProbabilities P = none) ∧
    (∀ N N', meanNumberOfVisits (renumber P σ) = some N' → meanNumberOfVisits P = some N →
      ∀ i j (hi : i ∈ transientStates (renumber P σ)) (hi' : σ i ∈ transientStates P) (hj : j ∈ transientStates (renumber P σ))
        (hj' : σ j ∈ transientStates P), N' ⟨i, hi⟩ ⟨j, hj⟩ = N ⟨σ i, hi'⟩ ⟨σ j, hj'⟩) ∧
    (∀ t t', meanTimeToAbsorption (renumber P σ) = some t' → meanTimeToAbsorption P = some t →
      ∀ i (hi : i ∈ transientStates (renumber P σ)) (hi' : σ i ∈ transientStates P), t' ⟨i, hi⟩ = t ⟨σ i, hi'⟩) ∧
    (∀ B B', absorptionProbabilities (renumber P σ) = some B' → absorptionProbabilities P = some B →
      ∀ i j (hi : i ∈ transientStates (renumber P σ)) (hi' : σ i ∈ transientStates P) (hj : j ∈ absorbingStates (renumber P σ))
        (hj' : σ j ∈ absorbingStates P), B' ⟨i, hi⟩ ⟨j, hj⟩ = B ⟨σ i, hi'⟩ ⟨σ j, hj'⟩) := by
  obtain ⟨-, -, -, -, hT, hA, -⟩ := C164_structure P hP σ hn
  have hv := visits P hP σ hn hT
  unfold meanTimeToAbsorption absorptionProbabilities
  rw [hv]
  refine ⟨by simp, by simp, by simp, ?_, ?_, ?_⟩
  · intro N N' h1 h2 i j hi hi' hj hj'
    rw [h2, Option.map_some, Option.some.injEq] at h1
    rw [← h1]; rfl
  · intro t t' h1 h2 i hi hi'
    obtain ⟨N, h3, rfl⟩ := Option.map_eq_some_iff.mp h2
    rw [h3, Option.map_some, Option.map_some, Option.some.injEq] at h1
    rw [← h1]
    exact Equiv.sum_comp (eT P σ hT) fun j => N ⟨σ i, hi'⟩ j
  · intro B B' h1 h2 i j hi hi' hj hj'
    obtain ⟨N, h3, rfl⟩ := Option.map_eq_some_iff.mp h2
    rw [h3, Option.map_some, Option.map_some, Option.some.injEq] at h1
    rw [← h1, Matrix.mul_apply, Matrix.mul_apply]
    exact Equiv.sum_comp (eT P σ hT) fun k => N ⟨σ i, hi'⟩ k * subR P k ⟨σ j, hj'⟩

/-- Non-vacuity: a two-state absorbing chain whose states are exchanged: both arrays exist, state 1 is transient before, state 0 after. -/
example : ∃ P : TMat ℝ 2, P = ![![1, 0], ![1/2, 1/2]] ∧ validTransitionMatrix P = true ∧
    1 ∈ transientStates P ∧ 0 ∈ transientStates (renumber P (Equiv.swap 0 1)) ∧
    (∃ N, meanNumberOfVisits P = some N) ∧ ∃ N, meanNumberOfVisits (renumber P (Equiv.swap 0 1)) = some N := by
  refine ⟨_, rfl, ?_⟩
  generalize hPdef : (![![1, 0], ![1/2, 1/2]] : TMat ℝ 2) = P
  have hP : validTransitionMatrix P = true := by
    rw [C72_accepts, ← hPdef]
    refine ⟨fun i j => ?_, fun i => ?_⟩
    · fin_cases i <;> fin_cases j <;> simp
    · fin_cases i <;> simp [Fin.sum_univ_two] <;> norm_num
  have hA : ∀ i : Fin 2, i ∈ absorbingStates P ↔ i = 0 := by
    intro i
    rw [absorbingStates, Finset.mem_filter, ← hPdef]
    fin_cases i <;> simp
  have ha : isAbsorbing P = true := by
    rw [(C72_absorbing P hP).2 (by norm_num)]
    intro i
    fin_cases i
    · exact ⟨0, (hA 0).mpr rfl, 0, by simp⟩
    · exact ⟨0, (hA 0).mpr rfl, 1, by rw [pow_one, Matrix.of_apply, ← hPdef]; simp⟩
  have h1 : (1 : Fin 2) ∈ transientStates P := by rw [transient_iff P hP ha, hA]; decide
  obtain ⟨hv, -, -, -, hT, -, -, -, -, -, hab, -⟩ := C164_structure P hP (Equiv.swap 0 1) (by norm_num)
  obtain ⟨N, hN, -⟩ := C82_mean_number_of_visits P hP ha
  obtain ⟨N', hN', -⟩ := C82_mean_number_of_visits _ hv (hab.trans ha)
  refine ⟨hP, h1, ?_, ⟨N, hN⟩, ⟨N', hN'⟩⟩
  rw [hT, Equiv.swap_apply_left]
  exact h1

end Komm
