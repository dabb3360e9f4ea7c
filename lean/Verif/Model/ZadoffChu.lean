import Verif.Model.Sequences
import Mathlib.Analysis.SpecialFunctions.Trigonometric.Basic
/-
Model of /repo/src/komm/_sequences_complex/*.py, with exact complex numbers.
-/
namespace Komm

/-- `zadoff_chu_sequence` (_sequences_complex/sequences.py:5-9). -/
noncomputable def zadoffChuValues (length rootIndex : Nat) : List ℂ :=
  (List.range length).map fun n : Nat =>
    Complex.exp (-Complex.I * (Real.pi : ℂ) * (rootIndex : ℂ) * (n : ℂ) * ((n : ℂ) + 1) / (length : ℂ))

/-- `ZadoffChuSequence(length, root_index).sequence` (ZadoffChuSequence.py:47-52); `none` is `ValueError`. -/
noncomputable def zadoffChu (length rootIndex : Int) : Option (List ℂ) :=
  if length % 2 = 0 then none
  else if ¬ (1 ≤ rootIndex ∧ rootIndex < length) then none
  else some (zadoffChuValues length.toNat rootIndex.toNat)

end Komm
