import Verif.Lemmas.Hamming
import Verif.Lemmas.SpanCheck
import Verif.Props.C41_C48_BlockCodes

/-! C51: the binary Golay code. -/
namespace Komm

theorem golay_ge_seven : ∀ u, u ≠ 0 → 7 ≤ hammingNorm (golayCode.encode u) :=
  distance_by_enumeration golayCode (left_lawful _) 7
    [4190209, 8323074, 7921668, 6737928, 5615632, 4943904, 5488704, 5152896, 6643968, 6918656, 6050816, 7485440]
    (by decide +kernel) (by decide +kernel)

/-- Minimum distance 7. -/
theorem C51_distance : golayCode.Lawful ∧ golayCode.minimumDistance = some (golayMinimumDistance false) ∧
    golayMinimumDistance false = 7 := by
  refine ⟨left_lawful _, ?_, rfl⟩
  rw [minimumDistance_spec golayCode (left_lawful _)]
  refine ⟨⟨Pi.single 6 1, ?_, ?_⟩, golay_ge_seven⟩
  · decide
  · rw [← vsum_eq]; decide +kernel

/-- The code is perfect: every word of length 23 is within distance 3 of exactly one codeword. -/
theorem C51_perfect (r : BVec 23) : ∃! u, hammingDist r (golayCode.encode u) ≤ 3 :=
  LinCode.Lawful.perfect (left_lawful _) 3 golay_ge_seven (by decide) r

/-- The extended code has minimum distance 8. -/
theorem C51_extended_distance : golayCodeExt.Lawful ∧
    golayCodeExt.minimumDistance = some (golayMinimumDistance true) ∧ golayMinimumDistance true = 8 :=
  ⟨left_lawful _, extended_distance golayParity 7 C51_distance.2.1 rfl, rfl⟩

/-- The extended code is self-dual: a word is a codeword iff it is orthogonal to all codewords. -/
theorem C51_self_dual (v : BVec 24) :
    (∃ u, golayCodeExt.encode u = v) ↔ ∀ w, ∑ j, v j * golayCodeExt.encode w j = 0 := by
  have hl : golayCodeExt.Lawful := left_lawful _
  have hGG : ∀ i i' : Fin 12, ∑ j, golayCodeExt.generator i j * golayCodeExt.generator i' j = 0 := by decide +kernel
  have hHH : ∀ i i' : Fin 12, ∑ j, golayCodeExt.checkMatrix i j * golayCodeExt.checkMatrix i' j = 0 := by
    decide +kernel
  constructor
  · rintro ⟨u, rfl⟩ w
    simp only [hl.encode_eq, Finset.sum_mul, Finset.mul_sum]
    rw [Finset.sum_comm]
    apply Finset.sum_eq_zero
    intro i _
    rw [Finset.sum_comm]
    apply Finset.sum_eq_zero
    intro i' _
    have : ∀ j, u i' * golayCodeExt.generator i' j * (w i * golayCodeExt.generator i j) =
        u i' * w i * (golayCodeExt.generator i' j * golayCodeExt.generator i j) := fun j => by ring
    rw [Finset.sum_congr rfl fun j _ => this j, ← Finset.mul_sum, hGG, mul_zero]
  · intro h
    rw [← hl.check_zero]
    funext i
    obtain ⟨w, hw⟩ := (hl.check_zero (golayCodeExt.checkMatrix i)).mp (by
      funext i'; rw [hl.check_eq, Pi.zero_apply]; exact hHH i i')
    rw [hl.check_eq, Pi.zero_apply, ← hw]
    exact h w

/-- Consequence with the decoders: syndrome-table decoding of the Golay code corrects any three errors. -/
theorem C51_corrects_three (fuel : Nat) (hf : 23 ≤ fuel) :
    ∃ T, golayCode.cosetLeaders fuel = some T ∧ ∀ u e, hammingNorm e ≤ 3 →
      syndromeTableDecode golayCode T (golayCode.encode u + e) = u :=
  C45_corrects golayCode C51_distance.1 (by decide) fuel hf 7 C51_distance.2.1

end Komm
