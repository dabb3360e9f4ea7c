import Verif.Model.TrellisDecoders
/-
Model of /repo/src/komm/_error_control_convolutional/ViterbiStreamDecoder.py.
-/
namespace Komm
namespace StateSpace
variable {k n σ : Nat}

/-- The memory of a new `ViterbiStreamDecoder` (ViterbiStreamDecoder.py:30-37).  Of the array `metrics` only the last column is
kept, see `Mealy.Memory`. -/
def streamMemory {K : Type} [Zero K] (c : StateSpace k n σ) (tracebackLength : Nat) (state : Fin (2 ^ σ)) :
    Mealy.Memory (2 ^ σ) K :=
  haveI : NeZero (2 ^ σ) := ⟨(Nat.two_pow_pos σ).ne'⟩
  let _ := c
  Mealy.Memory.fresh tracebackLength state

/-- `ViterbiStreamDecoder.decode` (ViterbiStreamDecoder.py:50-79): the decoded bits and the memory left behind; `none` when
`reshape(-1, n)` raises. -/
def streamDecode {K Z : Type} [Add K] [LinearOrder K] (c : StateSpace k n σ) (metric : Nat → List Z → K)
    (memory : Mealy.Memory (2 ^ σ) K) (input : List Z) : Option (List (ZMod 2) × Mealy.Memory (2 ^ σ) K) :=
  haveI : NeZero (2 ^ σ) := ⟨(Nat.two_pow_pos σ).ne'⟩
  if n = 0 ∨ input.length % n ≠ 0 then none
  else
    let r := c.finiteStateMachine.viterbiStreaming metric (chunks n input) memory
    some ((r.1.map fun x : Int => symbolBits k x).flatten, r.2)

/-- `decode` with `input_type="hard"`: `metric_function` of line 46, which is that of `ViterbiDecoder`. -/
def streamHard (c : StateSpace k n σ) (memory : Mealy.Memory (2 ^ σ) Int) (input : List (ZMod 2)) :
    Option (List (ZMod 2) × Mealy.Memory (2 ^ σ) Int) :=
  c.streamDecode (hardMetric n) memory input

/-- `decode` with `input_type="soft"`: `metric_function` of line 48. -/
noncomputable def streamSoft (c : StateSpace k n σ) (memory : Mealy.Memory (2 ^ σ) ℝ) (input : List ℝ) :
    Option (List (ZMod 2) × Mealy.Memory (2 ^ σ) ℝ) :=
  c.streamDecode (softMetric n) memory input

end StateSpace
end Komm
