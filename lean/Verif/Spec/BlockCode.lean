import Verif.Model.BlockCode
import Mathlib.InformationTheory.Hamming
/-! Specification of "a linear block code object is consistent": what a user of any `BlockCode` relies on.
Distances and weights are Mathlib's `hammingDist` and `hammingNorm`. -/
namespace Komm

/-- The contract between the attributes and methods of a block code object. -/
structure LinCode.Lawful {k m n : Nat} (c : LinCode k m n) : Prop where
  /-- dimension plus redundancy is the length -/
  dim : k + m = n
  /-- `encode(u) = u G` -/
  encode_eq : ∀ u j, c.encode u j = ∑ i, u i * c.generator i j
  /-- `check(v) = v Hᵀ` -/
  check_eq : ∀ v i, c.check v i = ∑ j, v j * c.checkMatrix i j
  /-- `project_word(encode(u)) = u` -/
  project_encode : ∀ u, c.project (c.encode u) = u
  /-- the words with zero syndrome are exactly the codewords -/
  check_zero : ∀ v, c.check v = 0 ↔ ∃ u, c.encode u = v

end Komm
