import Verif.Model.Convolutional
/-! Specification of the trajectories of a linear encoder `s ↦ sA + uB`, with output `sC + uD`. -/
namespace Komm.StateSpace
variable {k n σ : Nat}

/-- The state reached from `s` with the input blocks `us`. -/
def run (c : StateSpace k n σ) : BVec σ → List (BVec k) → BVec σ
  | s, [] => s
  | s, u :: us => c.run (c.next s u) us

/-- The output blocks produced from `s` by the input blocks `us`. -/
def outs (c : StateSpace k n σ) : BVec σ → List (BVec k) → List (BVec n)
  | _, [] => []
  | s, u :: us => c.output s u :: c.outs (c.next s u) us

/-- The bit stream that consists of the given blocks. -/
def flat {m : Nat} (vs : List (BVec m)) : List (ZMod 2) := (vs.map fun v : BVec m => List.ofFn v).flatten

end Komm.StateSpace
