import Verif.Model.Convolutional
import Mathlib.Logic.Equiv.Fin.Basic
/-
Model of /repo/src/komm/_error_control_convolutional/TerminatedConvolutionalCode.py (and of the decoders of
ViterbiDecoder.py for such codes).
-/
namespace Komm
open scoped BigOperators

/-- `A_pow[j]` (TerminatedConvolutionalCode.py:247-249), `matrix_power(A, j) % 2` (line 297). -/
def matPow {σ : Nat} (A : BMat σ σ) : Nat → BMat σ σ
  | 0 => eye σ
  | j + 1 => matMul (matPow A j) A

namespace StateSpace
variable {k n σ : Nat}

/-- `np.vstack([B_mat @ A_pow[j] for j in range(top, top - count, -1)])` (TerminatedConvolutionalCode.py:250-251). -/
def stackedPowers (c : StateSpace k n σ) (count top : Nat) : BMat (count * k) σ := fun r =>
  matMul c.B (matPow c.A (top - (finProdFinEquiv.symm r).1)) (finProdFinEquiv.symm r).2

/-- `M_info` (TerminatedConvolutionalCode.py:250). -/
def infoMatrix (c : StateSpace k n σ) (h μ : Nat) : BMat (h * k) σ := c.stackedPowers h (h + μ - 1)

/-- `M_tail` (TerminatedConvolutionalCode.py:251). -/
def tailMatrix (c : StateSpace k n σ) (μ : Nat) : BMat (μ * k) σ := c.stackedPowers μ (μ - 1)

/-- `_tail_projector` (TerminatedConvolutionalCode.py:240-252). -/
def tailProjector (c : StateSpace k n σ) (h μ : Nat) : BMat (h * k) (μ * k) :=
  matMul (c.infoMatrix h μ) (pseudoInverse (c.tailMatrix μ))

/-- `_zs_multiplier` (TerminatedConvolutionalCode.py:291-297). -/
def zsMultiplier (c : StateSpace k n σ) (h : Nat) : BMat σ σ :=
  pseudoInverse (fun i j => matPow c.A h i j + eye σ i j)

end StateSpace

/-- `TerminationMode` (TerminatedConvolutionalCode.py:15). -/
inductive TerminationMode
  | directTruncation
  | zeroTermination
  | tailBiting
deriving DecidableEq

/-- `TerminatedConvolutionalCode` (TerminatedConvolutionalCode.py:82-96): the state-space representation and the
`memory_order` of the convolutional code, `num_blocks` and `mode`. -/
structure Terminated (k n σ : Nat) where
  code : StateSpace k n σ
  memoryOrder : Nat
  numBlocks : Nat
  mode : TerminationMode

namespace Terminated
variable {k n σ : Nat}

/-- `dimension` (TerminatedConvolutionalCode.py:104). -/
abbrev dimension (t : Terminated k n σ) : Nat := t.numBlocks * k

/-- `length` = `codeword_length()` (TerminatedConvolutionalCode.py:100, 214-217, 263-267, 308-311). -/
abbrev length (t : Terminated k n σ) : Nat :=
  match t.mode with
  | .directTruncation => t.numBlocks * n
  | .zeroTermination => (t.numBlocks + t.memoryOrder) * n
  | .tailBiting => t.numBlocks * n

/-- `pre_process_input` (TerminatedConvolutionalCode.py:207-208, 254-257, 299-300); `none` when `np.vstack([])` raises. -/
def preProcessInput (t : Terminated k n σ) (u : BVec t.dimension) : Option (List (ZMod 2)) :=
  match t.mode with
  | .directTruncation => some (List.ofFn u)
  | .zeroTermination =>
    if t.numBlocks = 0 ∨ t.memoryOrder = 0 then none
    else some (List.ofFn u ++ List.ofFn (vecMat u (t.code.tailProjector t.numBlocks t.memoryOrder)))
  | .tailBiting => some (List.ofFn u)

/-- `initial_state` (TerminatedConvolutionalCode.py:210-212, 259-261, 302-306). -/
def initialState (t : Terminated k n σ) (u : BVec t.dimension) : Option (BVec σ) :=
  match t.mode with
  | .directTruncation => some 0
  | .zeroTermination => some 0
  | .tailBiting => (t.code.encodeWithState (List.ofFn u) 0).map fun r => vecMat r.2 (t.code.zsMultiplier t.numBlocks)

/-- `encode` on one block (TerminatedConvolutionalCode.py:126-134). -/
def encode (t : Terminated k n σ) (u : BVec t.dimension) : Option (List (ZMod 2)) :=
  (t.preProcessInput u).bind fun input => (t.initialState u).bind fun s =>
    (t.code.encodeWithState input s).map Prod.fst

/-- `generator_matrix` = `encode(np.eye(dimension))` (TerminatedConvolutionalCode.py:115-116); rows that do not exist because
`encode` raises are zero here. -/
def generatorMatrix (t : Terminated k n σ) : BMat t.dimension t.length := fun i =>
  vecOfList t.length ((t.encode (eye t.dimension i)).getD [])

end Terminated
end Komm
