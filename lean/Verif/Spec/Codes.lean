import Mathlib.Data.List.Basic
import Mathlib.Algebra.BigOperators.Group.List.Basic
import Mathlib.Algebra.Order.Field.Rat

/-! Specification of sets of words. -/
namespace Komm

/-- No (non-empty) word is a prefix of a (non-empty) word at another position. -/
def PrefixFree (words : List (List Nat)) : Prop :=
  ∀ i j (hi : i < words.length) (hj : j < words.length), i ≠ j →
    words[i] ≠ [] → words[j] ≠ [] → ¬ words[i] <+: words[j]

/-- Different sequences of words spell different sequences of symbols. -/
def UniquelyParsable (words : List (List Nat)) : Prop :=
  ∀ l₁ l₂ : List (List Nat), (∀ w ∈ l₁, w ∈ words) → (∀ w ∈ l₂, w ∈ words) →
    l₁.flatten = l₂.flatten → l₁ = l₂

/-- Every infinite sequence over `{0, …, cardinality-1}` starts with one of the words (non-empty). -/
def FullyCovering (words : List (List Nat)) (cardinality : Nat) : Prop :=
  ∀ f : Nat → Nat, (∀ i, f i < cardinality) →
    ∃ w ∈ words, w ≠ [] ∧ w = (List.range w.length).map f

/-- The Kraft sum `∑ b ^ (-l)` over the positive lengths. -/
def kraftSum (lengths : List Nat) (b : Nat) : ℚ :=
  ((lengths.filter fun l => 0 < l).map fun l => (1 : ℚ) / (b : ℚ) ^ l).sum

end Komm
