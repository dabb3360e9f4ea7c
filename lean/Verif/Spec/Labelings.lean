import Mathlib.Data.List.Basic
/-! Specification vocabulary for labelings: independent of the model. -/
namespace Komm

/-- Number of positions in which two words differ. -/
def wordDist : List Nat → List Nat → Nat
  | a :: as, b :: bs => (if a = b then 0 else 1) + wordDist as bs
  | _, _ => 0

/-- `rows` lists every binary word of length `m` exactly once (a bijection between indices and words). -/
def IsLabelTable (m : Nat) (rows : List (List Nat)) : Prop :=
  rows.Nodup ∧ ∀ w : List Nat, w ∈ rows ↔ w.length = m ∧ ∀ b ∈ w, b = 0 ∨ b = 1

end Komm
