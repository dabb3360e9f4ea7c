import Verif.Props.C72_MarkovChain
import Verif.Props.C83_Stationary

/-! C164: Markov chains with renumbered states. -/
namespace Komm
open MarkovChain
namespace Renumber
variable {K : Type} [Field K] [LinearOrder K] [IsStrictOrderedRing K] {n : ℕ}

/-- the chain in which state `i` is what state `σ i` was -/
def renumber (P : TMat K n) (σ : Equiv.Perm (Fin n)) : TMat K n := fun i j => P (σ i) (σ j)

omit [LinearOrder K] [IsStrictOrderedRing K] in
theorem pow_eq (P : TMat K n) (σ : Equiv.Perm (Fin n)) (m : ℕ) (i j : Fin n) :
    (Matrix.of (renumber P σ) ^ m) i j = (Matrix.of P ^ m) (σ i) (σ j) := by
  induction m generalizing i j with
  | zero => simp [Matrix.one_apply]
  | succ m ih =>
    rw [pow_succ, pow_succ, Matrix.mul_apply, Matrix.mul_apply]
    simp only [ih]
    exact Equiv.sum_comp σ fun k => (Matrix.of P ^ m) (σ i) k * Matrix.of P k (σ j)

theorem valid (P : TMat K n) (σ : Equiv.Perm (Fin n)) : validTransitionMatrix (renumber P σ) = true ↔ validTransitionMatrix P = true := by
  rw [C72_accepts, C72_accepts]
  constructor
  · rintro ⟨h1, h2⟩
    refine ⟨fun i j => by simpa [renumber] using h1 (σ.symm i) (σ.symm j), fun i => ?_⟩
    have := h2 (σ.symm i)
    simp only [renumber, Equiv.apply_symm_apply] at this
    rwa [Equiv.sum_comp σ (P i)] at this
  · rintro ⟨h1, h2⟩
    exact ⟨fun i j => h1 _ _, fun i => (Equiv.sum_comp σ (P (σ i))).trans (h2 _)⟩

end Renumber
open Renumber
variable {K : Type} [Field K] [LinearOrder K] [IsStrictOrderedRing K] {n : ℕ}

/-- Renumbering the states renumbers the answers of all the structural methods of `MarkovChain`: the constructor accepts the same chains; accessible,
recurrent, transient and absorbing states, communicating classes and periods move with the states; the flags and the index of primitivity stay. -/
theorem C164_structure (P : TMat K n) (hP : validTransitionMatrix P = true) (σ : Equiv.Perm (Fin n)) (hn : 0 < n) :
    validTransitionMatrix (renumber P σ) = true ∧
    (∀ i j, (∃ R, accessibleStatesFrom (renumber P σ) i = some R ∧ j ∈ R) ↔ ∃ R, accessibleStatesFrom P (σ i) = some R ∧ σ j ∈ R) ∧
    (∀ i j, (∃ c ∈ communicatingClasses (renumber P σ), i ∈ c ∧ j ∈ c) ↔ ∃ c ∈ communicatingClasses P, σ i ∈ c ∧ σ j ∈ c) ∧
    (∀ i, i ∈ recurrentStates (renumber P σ) ↔ σ i ∈ recurrentStates P) ∧
    (∀ i, i ∈ transientStates (renumber P σ) ↔ σ i ∈ transientStates P) ∧
    (∀ i, i ∈ absorbingStates (renumber P σ) ↔ σ i ∈ absorbingStates P) ∧
    (∀ i, period (renumber P σ) i = period P (σ i)) ∧
    isIrreducible (renumber P σ) = isIrreducible P ∧ isAperiodic (renumber P σ) = isAperiodic P ∧ isRegular (renumber P σ) = isRegular P ∧
    isAbsorbing (renumber P σ) = isAbsorbing P ∧ indexOfPrimitivity (renumber P σ) = indexOfPrimitivity P := by
  have hv := (valid P σ).mpr hP
  have all : ∀ {p : Fin n → Prop}, (∀ i, p (σ i)) ↔ ∀ i, p i := fun {p} => ⟨fun h i => by simpa using h (σ.symm i), fun h i => h _⟩
  have hper : ∀ i, period (renumber P σ) i = period P (σ i) := fun i => by
    obtain ⟨d, h1, h2⟩ := C72_period (renumber P σ) hv i
    obtain ⟨d', h3, h4⟩ := C72_period P hP (σ i)
    rw [h1, h3]
    congr 1
    have : ∀ g, g ∣ d ↔ g ∣ d' := fun g => by rw [h2, h4]; simp only [pow_eq]
    exact Nat.dvd_antisymm ((this d).mp dvd_rfl) ((this d').mpr dvd_rfl)
  have hrec : ∀ i, i ∈ recurrentStates (renumber P σ) ↔ σ i ∈ recurrentStates P := fun i => by
    rw [(C72_recurrent _ hv i).1, (C72_recurrent _ hP (σ i)).1]
    simp only [pow_eq]
    exact all (p := fun j => (∃ m, 0 < (Matrix.of P ^ m) (σ i) j) → ∃ m, 0 < (Matrix.of P ^ m) j (σ i))
  have hirr : isIrreducible (renumber P σ) = isIrreducible P := by
    rw [Bool.eq_iff_iff, C72_irreducible _ hv hn, C72_irreducible _ hP hn]
    simp only [pow_eq]
    rw [← all (p := fun i => ∀ j, ∃ m, 0 < (Matrix.of P ^ m) i j)]
    exact forall_congr' fun i => all (p := fun j => ∃ m, 0 < (Matrix.of P ^ m) (σ i) j)
  have hfull : ∀ e, (∀ i j, 0 < (Matrix.of (renumber P σ) ^ e) i j) ↔ ∀ i j, 0 < (Matrix.of P ^ e) i j := fun e => by
    simp only [pow_eq]
    rw [← all (p := fun i => ∀ j, 0 < (Matrix.of P ^ e) i j)]
    exact forall_congr' fun i => all (p := fun j => 0 < (Matrix.of P ^ e) (σ i) j)
  have habs : ∀ i, i ∈ absorbingStates (renumber P σ) ↔ σ i ∈ absorbingStates P := fun i => by
    rw [absorbingStates, absorbingStates, Finset.mem_filter, Finset.mem_filter]
    simp only [Finset.mem_univ, true_and, renumber]
  refine ⟨hv, fun i j => ?_, fun i j => ?_, hrec, fun i => ?_, habs, hper, hirr, ?_, ?_, ?_, ?_⟩
  · obtain ⟨R, h1, h2⟩ := C72_accessible (renumber P σ) hv i
    obtain ⟨R', h3, h4⟩ := C72_accessible P hP (σ i)
    rw [h1, h3]
    simp only [Option.some.injEq, exists_eq_left', h2, h4, pow_eq]
  · rw [(C72_classes _ hv).2.2.2, (C72_classes _ hP).2.2.2]
    simp only [pow_eq]
  · rw [(C72_recurrent _ hv i).2, (C72_recurrent _ hP (σ i)).2, hrec]
  · rw [isAperiodic, isAperiodic, decide_eq_decide]
    simp only [hper]
    exact all (p := fun i => period P i = some 1)
  · rw [Bool.eq_iff_iff, C73_regular _ hv hn, C73_regular _ hP hn]
    simp only [hfull]
  · rw [Bool.eq_iff_iff, (C72_absorbing _ hv).2 hn, (C72_absorbing _ hP).2 hn]
    rw [← all (p := fun i => ∃ a ∈ absorbingStates P, ∃ m, 0 < (Matrix.of P ^ m) i a)]
    refine forall_congr' fun i => ?_
    simp only [habs, pow_eq]
    constructor
    · rintro ⟨a, h1, h2⟩; exact ⟨σ a, h1, h2⟩
    · rintro ⟨a, h1, h2⟩; exact ⟨σ.symm a, by simpa using h1, by simpa using h2⟩
  · refine Option.ext fun e => ?_
    rw [C73_least _ hv hn, C73_least _ hP hn]
    simp only [hfull]

/-- The stationary distributions move with the states. -/
theorem C164_stationary (P : TMat ℝ n) (hP : validTransitionMatrix P = true) (σ : Equiv.Perm (Fin n)) (hn : 0 < n) (x : Fin n → ℝ) :
    IsStationaryResult (renumber P σ) (fun i => x (σ i)) ↔ IsStationaryResult P x := by
  have hirr := (C164_structure P hP σ hn).2.2.2.2.2.2.2.1
  have hcost : ∀ z : Fin n → ℝ, stationaryCost (renumber P σ) (fun i => z (σ i)) = stationaryCost P z := fun z => by
    unfold stationaryCost stationaryResidual
    simp only [renumber]
    have e1 : ∀ j, ∑ i, z (σ i) * P (σ i) j = ∑ i, z i * P i j := fun j => Equiv.sum_comp σ fun i => z i * P i j
    simp only [e1]
    rw [Equiv.sum_comp σ fun j => ((∑ i, z i * P i j) - z j) ^ 2, Equiv.sum_comp σ z]
  unfold IsStationaryResult
  rw [hirr, hcost]
  refine and_congr_right fun _ => ⟨fun h z => ?_, fun h z => ?_⟩
  · rw [← hcost z]; exact h _
  · have := hcost fun i => z (σ.symm i)
    simp only [Equiv.symm_apply_apply] at this
    rw [this]; exact h _

/-- Non-vacuity: a chain with two classes, and a renumbering that really moves the answers. -/
def renumberExample : TMat ℚ 3 := ![![0, 1, 0], ![1, 0, 0], ![1/2, 0, 1/2]]
example : validTransitionMatrix renumberExample = true ∧ transientStates renumberExample = {2} ∧
    transientStates (renumber renumberExample (Equiv.swap 0 2)) = {0} ∧ period renumberExample 0 = some 2 ∧
    period (renumber renumberExample (Equiv.swap 0 2)) 0 = some 1 ∧ period (renumber renumberExample (Equiv.swap 0 2)) 2 = some 2 := by decide +kernel

end Komm
