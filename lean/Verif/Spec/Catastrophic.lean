import Verif.Model.Convolutional
import Mathlib.Data.Set.Finite.Basic
/-! Catastrophic encoders [base.py:163]: an input sequence of infinite weight gives an output sequence of finite weight. -/
namespace Komm

/-- The first `T` blocks of an infinite input, as the list of bits handed to `encode`. -/
def firstBlocks {k : Nat} (u : Nat → Fin k → ZMod 2) (T : Nat) : List (ZMod 2) :=
  (List.range T).flatMap fun t => List.ofFn (u t)

/-- The encoder is catastrophic: for some infinite input with infinitely many ones, the number of ones in the output of its first
`T` blocks is bounded independently of `T`. -/
def CatastrophicEncoder {k n σ : Nat} (c : StateSpace k n σ) : Prop :=
  ∃ u : Nat → Fin k → ZMod 2, {t | ∃ i, u t i = 1}.Infinite ∧
    ∃ B, ∀ T, ∃ out, c.encode (firstBlocks u T) = some out ∧ out.count 1 ≤ B

/-- The encoder identifies two inputs: some finite input, not all zero, gives zero output for all times. -/
def DegenerateEncoder {k n σ : Nat} (c : StateSpace k n σ) : Prop :=
  ∃ u : Nat → Fin k → ZMod 2, (∃ t i, u t i = 1) ∧ {t | ∃ i, u t i = 1}.Finite ∧
    ∀ T, ∃ out, c.encode (firstBlocks u T) = some out ∧ out.count 1 = 0
end Komm
