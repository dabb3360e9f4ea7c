import Verif.Model.Polar
import Verif.Props.C49_SimpleFamilies
import Mathlib.Algebra.Order.BigOperators.Group.Finset
import Mathlib.Tactic.Linarith

/-! C56: Wagner decoding of single parity-check codes is maximum likelihood. -/
namespace Komm

variable {K : Type} [Field K] [LinearOrder K] [IsStrictOrderedRing K] {n : Nat}

/-- Correlation of the received L-values with the antipodal image of a word. -/
def correlation {n : Nat} (r : Fin n → K) (v : BVec n) : K := ∑ j, r j * (-1) ^ (v j).val

theorem correlation_eq (r : Fin n → K) (v : BVec n) :
    correlation r v = ∑ j, |r j| - 2 * ∑ j, if v j = (if r j < 0 then 1 else 0) then 0 else |r j| := by
  unfold correlation
  rw [Finset.mul_sum, ← Finset.sum_sub_distrib]
  apply Finset.sum_congr rfl
  intro j _
  have v1 : (1 : ZMod 2).val = 1 := rfl
  by_cases h : r j < 0
  · rw [if_pos h, abs_of_neg h]
    rcases zmod2_cases (v j) with e | e
    · rw [e, if_neg (by decide)]; simp; ring
    · rw [e, if_pos rfl, v1]; ring
  · rw [if_neg h, abs_of_nonneg (not_lt.mp h)]
    rcases zmod2_cases (v j) with e | e
    · rw [e, if_pos rfl]; simp
    · rw [e, if_neg (by decide), v1]; ring

/-- The word computed by the decoder has even weight, and no even-weight word has a larger correlation with the
received L-values. -/
theorem C56_word (r : Fin (n + 1) → K) :
    Even (hammingNorm (wagnerWord r)) ∧
      ∀ v : BVec (n + 1), Even (hammingNorm v) → correlation r v ≤ correlation r (wagnerWord r) := by
  set v0 : BVec (n + 1) := fun j => if r j < 0 then 1 else 0 with hv0
  have hnorm : (∑ j, if v0 j ≠ 0 then 1 else 0) = hammingNorm v0 := by
    rw [hammingNorm, Finset.card_filter]
  have hnn : ∀ v : BVec (n + 1), ∀ j ∈ Finset.univ, 0 ≤ if v j = v0 j then 0 else |r j| := by
    intro v j _; split
    · exact le_rfl
    · exact abs_nonneg _
  by_cases hodd : hammingNorm v0 % 2 = 0
  · have hw : wagnerWord r = v0 := by
      unfold wagnerWord
      simp only
      rw [if_neg (by rw [hnorm]; simpa using hodd)]
    rw [hw]
    refine ⟨Nat.even_iff.mpr hodd, fun v _ => ?_⟩
    rw [correlation_eq, correlation_eq]
    have h1 := Finset.sum_nonneg (hnn v)
    have h2 : ∑ j, (if v0 j = (if r j < 0 then 1 else 0) then 0 else |r j|) = 0 :=
      Finset.sum_eq_zero fun j _ => by rw [if_pos rfl]
    rw [h2]
    simp only [hv0] at h1
    linarith
  · set i := argminOn (fun j : Fin (n + 1) => |r j|) 0 ((List.finRange (n + 1)).drop 1) with hi
    have hmin : ∀ j, |r i| ≤ |r j| := by
      intro j
      have hs := (argminOn_spec (fun j : Fin (n + 1) => |r j|) 0 ((List.finRange (n + 1)).drop 1)).2 j
      rw [← hi] at hs
      apply hs
      have : (0 : Fin (n + 1)) :: (List.finRange (n + 1)).drop 1 = List.finRange (n + 1) := by
        rw [List.finRange_succ]; rfl
      rw [this]; exact List.mem_finRange j
    have hw : wagnerWord r = fun j => if j = i then v0 j + 1 else v0 j := by
      unfold wagnerWord
      simp only
      rw [if_pos (by rw [hnorm]; simpa using hodd)]
    have hval : ∑ j, (if (if j = i then v0 j + 1 else v0 j) = v0 j then 0 else |r j|) = |r i| := by
      rw [Finset.sum_eq_single i]
      · rw [if_pos rfl, if_neg]
        rcases zmod2_cases (v0 i) with e | e <;> rw [e] <;> decide
      · intro j _ hj; rw [if_neg hj, if_pos rfl]
      · simp
    rw [hw]
    constructor
    · rw [← sum_zero_iff_even]
      have h1 : ¬ ∑ j, v0 j = 0 := by rw [sum_zero_iff_even, Nat.even_iff]; exact hodd
      have h2 : (∑ j, if j = i then v0 j + 1 else v0 j) = ∑ j, v0 j + 1 := by
        rw [← Finset.add_sum_erase _ _ (Finset.mem_univ i), ← Finset.add_sum_erase _ v0 (Finset.mem_univ i), if_pos rfl]
        rw [Finset.sum_congr rfl fun j hj => if_neg (Finset.ne_of_mem_erase hj)]
        ring
      rw [h2]
      rcases zmod2_cases (∑ j, v0 j) with e | e
      · exact absurd e h1
      · rw [e]; decide
    · intro v hv
      rw [correlation_eq, correlation_eq]
      change _ ≤ _ - 2 * ∑ j, (if (if j = i then v0 j + 1 else v0 j) = v0 j then 0 else |r j|)
      rw [hval]
      change _ - 2 * ∑ j, (if v j = v0 j then 0 else |r j|) ≤ _
      have hne : ∃ j, v j ≠ v0 j := by
        by_contra hc
        push Not at hc
        have : v = v0 := funext hc
        rw [this, Nat.even_iff] at hv
        exact hodd hv
      obtain ⟨j, hj⟩ := hne
      have h1 := Finset.single_le_sum (hnn v) (Finset.mem_univ j)
      rw [if_neg hj] at h1
      have h2 := hmin j
      linarith

/-- `WagnerDecoder(SingleParityCheckCode(n + 1)).decode(r)`: no message has a codeword better correlated with the
received L-values. -/
theorem C56_wagner :
    ∃ c, singleParityCheckCode (n + 1) = some c ∧ ∀ (r : Fin (n + 1) → K) (u : BVec (n + 1 - 1)),
      correlation r (c.encode u) ≤ correlation r (c.encode (wagnerDecode c r)) := by
  obtain ⟨c, h1, h2, h3, -⟩ := C49_single_parity_check (n := n + 1) (by omega)
  refine ⟨c, h1, fun r u => ?_⟩
  obtain ⟨he, hbest⟩ := C56_word r
  obtain ⟨u', hu'⟩ := (h3 _).mpr he
  have : c.encode (wagnerDecode c r) = wagnerWord r := by
    rw [wagnerDecode, ← hu', h2.project_encode]
  rw [this]
  exact hbest _ ((h3 _).mp ⟨u, rfl⟩)

/-- The documented example (one word already even, one corrected in its least reliable position). -/
example : List.ofFn (wagnerWord (![152/100, -36/100, 156/100, 82/100] : Fin 4 → ℚ)) = [0, 0, 0, 0] := by decide +kernel
example : List.ofFn (wagnerWord (![-75/100, 120/100, -211/100, 173/100] : Fin 4 → ℚ)) = [1, 0, 1, 0] := by
  decide +kernel

end Komm
