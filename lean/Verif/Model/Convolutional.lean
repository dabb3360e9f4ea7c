import Verif.Model.BlockCode
import Verif.Model.FiniteBifield
import Verif.Model.FiniteStateMachine
import Mathlib.Algebra.BigOperators.Fin
/-
Model of /repo/src/komm/_error_control_convolutional/base.py, ConvolutionalCode.py, LowRateConvolutionalCode.py,
HighRateConvolutionalCode.py and TerminatedConvolutionalCode.py.  Arrays of integers reduced modulo 2 are arrays over
`ZMod 2`; `k`, `n`, `σ` are `num_input_bits`, `num_output_bits`, `degree`.
-/
namespace Komm
open scoped BigOperators

/-- The matrices returned by `state_space_representation` (base.py:91-125). -/
structure StateSpace (k n σ : Nat) where
  A : BMat σ σ
  B : BMat k σ
  C : BMat σ n
  D : BMat k n

namespace StateSpace
variable {k n σ : Nat}

/-- `(state @ C_mat + u @ D_mat) % 2` (base.py:250). -/
def output (c : StateSpace k n σ) (state : BVec σ) (u : BVec k) : BVec n := vecMat state c.C + vecMat u c.D

/-- `(state @ A_mat + u @ B_mat) % 2` (base.py:251). -/
def next (c : StateSpace k n σ) (state : BVec σ) (u : BVec k) : BVec σ := vecMat state c.A + vecMat u c.B

/-- The loop over the rows of the reshaped input (base.py:249-251). -/
def encodeBlocks (c : StateSpace k n σ) (us : List (BVec k)) (initial : BVec σ) : List (BVec n) × BVec σ :=
  us.foldl (fun (acc : List (BVec n) × BVec σ) u => (acc.1 ++ [c.output acc.2 u], c.next acc.2 u)) ([], initial)

/-- `encode_with_state` (base.py:217-253); `none` when `reshape((-1, k))` raises (`k = 0`, or the length is not a multiple
of `k`).  The initial state has the right length by its type (base.py:240-246). -/
def encodeWithState (c : StateSpace k n σ) (input : List (ZMod 2)) (initial : BVec σ) :
    Option (List (ZMod 2) × BVec σ) :=
  if k = 0 ∨ input.length % k ≠ 0 then none
  else
    let r := c.encodeBlocks ((chunks k input).map fun row : List (ZMod 2) => vecOfList k row) initial
    some ((r.1.map fun v : BVec n => List.ofFn v).flatten, r.2)

/-- `encode` (base.py:202-215). -/
def encode (c : StateSpace k n σ) (input : List (ZMod 2)) : Option (List (ZMod 2)) :=
  (c.encodeWithState input 0).map Prod.fst

/-- `finite_state_machine` (base.py:127-142): states and inputs are integer-coded, LSB first.  The call of
`encode_with_state` on one block is the body of its loop run once. -/
def finiteStateMachine (c : StateSpace k n σ) : Mealy (2 ^ σ) (2 ^ k) where
  next s x := ⟨vecToNat (c.encodeBlocks [natToVec k x] (natToVec σ s)).2 % 2 ^ σ, Nat.mod_lt _ (Nat.two_pow_pos σ)⟩
  out s x := vecToNat (((c.encodeBlocks [natToVec k x] (natToVec σ s)).1).getD 0 0)

end StateSpace

/-! ### `ConvolutionalCode` -/

/-- `ConvolutionalCode(feedforward_polynomials, feedback_polynomials)` (ConvolutionalCode.py:83-103); polynomials are
integers, bit `i` the coefficient of `D^i`. -/
structure ConvCode (k n : Nat) where
  feedforward : Fin k → Fin n → Nat
  feedback : Fin k → Nat

namespace ConvCode
variable {k n : Nat}

/-- The default `feedback_polynomials = None` (ConvolutionalCode.py:94-95). -/
def ofFeedforward (ff : Fin k → Fin n → Nat) : ConvCode k n := ⟨ff, fun _ => 1⟩

/-- Entry `i` of `constraint_lengths` (ConvolutionalCode.py:221-226); a negative value (all polynomials of the row zero)
does not occur when the feedback polynomial is non-zero. -/
def constraintLength (c : ConvCode k n) (i : Fin k) : Nat :=
  (((List.finRange n).map fun j : Fin n => BP.degree (c.feedforward i j)).foldl max (BP.degree (c.feedback i))).toNat

/-- `degree` = `overall_constraint_length` (ConvolutionalCode.py:132-141, base.py:77). -/
def degree (c : ConvCode k n) : Nat := ∑ i, c.constraintLength i

/-- `memory_order` (base.py:89). -/
def memoryOrder (c : ConvCode k n) : Nat :=
  ((List.finRange k).map fun i : Fin k => c.constraintLength i).foldl max 0

/-- `generator_matrix` (ConvolutionalCode.py:205-211); `none` when a division raises. -/
def generatorMatrix (c : ConvCode k n) (i : Fin k) (j : Fin n) : Option BPFraction :=
  (BPFraction.create (c.feedforward i j) 1).bind fun p =>
    (BPFraction.create (c.feedback i) 1).bind fun q => BPFraction.truediv p q

/-- `betas[i][r, j]` (ConvolutionalCode.py:301-304). -/
def beta (c : ConvCode k n) (i : Fin k) (r : Nat) (j : Fin n) : ZMod 2 :=
  ((BP.coefficients (c.feedforward i j) (some (c.constraintLength i + 1))).getD r 0 : Nat)

/-- `alphas[i][r, 0]` (ConvolutionalCode.py:306-309). -/
def alpha (c : ConvCode k n) (i : Fin k) (r : Nat) : ZMod 2 :=
  ((BP.coefficients (c.feedback i) (some (c.constraintLength i + 1))).getD r 0 : Nat)

/-- `A_blocks[i]` (ConvolutionalCode.py:318-321): `hstack([alpha[1:], eye(nu, nu - 1)])`. -/
def blockA (c : ConvCode k n) (i : Fin k) : BMat (c.constraintLength i) (c.constraintLength i) := fun r s =>
  if (s : Nat) = 0 then c.alpha i (r + 1) else if (r : Nat) = (s : Nat) - 1 then 1 else 0

/-- `B_blocks[i]` (ConvolutionalCode.py:322): the only row of `eye(1, nu)`. -/
def blockB (c : ConvCode k n) (i : Fin k) : BVec (c.constraintLength i) := fun s => if (s : Nat) = 0 then 1 else 0

/-- `C_blocks[i]` (ConvolutionalCode.py:323). -/
def blockC (c : ConvCode k n) (i : Fin k) : BMat (c.constraintLength i) n := fun r j =>
  c.beta i (r + 1) j + c.alpha i (r + 1) * c.beta i 0 j

/-- `state_space_representation` (ConvolutionalCode.py:301-331).  `block_diagonal` (matrices.py:176-187) and `vstack`
place block `i` at the offset `ν_0 + ... + ν_{i-1}`, which is the indexing of `finSigmaFinEquiv`. -/
def stateSpace (c : ConvCode k n) : StateSpace k n c.degree where
  A r s :=
    let p := (finSigmaFinEquiv (n := c.constraintLength)).symm r
    let q := (finSigmaFinEquiv (n := c.constraintLength)).symm s
    if h : p.1 = q.1 then c.blockA q.1 (p.2.cast (by rw [h])) q.2 else 0
  B i s :=
    let q := (finSigmaFinEquiv (n := c.constraintLength)).symm s
    if i = q.1 then c.blockB q.1 q.2 else 0
  C r j :=
    let p := (finSigmaFinEquiv (n := c.constraintLength)).symm r
    c.blockC p.1 p.2 j
  D i j := c.beta i 0 j

end ConvCode

/-! ### `LowRateConvolutionalCode` -/

/-- `LowRateConvolutionalCode(g_row)` (LowRateConvolutionalCode.py:44-50). -/
structure LowRate (n : Nat) where
  gRow : Fin n → Nat

namespace LowRate
variable {n : Nat}

/-- `degree` (LowRateConvolutionalCode.py:85); also `memory_order`. -/
def degree (c : LowRate n) : Nat := (((List.finRange n).map fun j : Fin n => BP.degree (c.gRow j)).foldl max 0).toNat

/-- `generator_matrix` (LowRateConvolutionalCode.py:101-106). -/
def generatorMatrix (c : LowRate n) (j : Fin n) : Option BPFraction := BPFraction.create (c.gRow j) 1

/-- `beta[r, j]` (LowRateConvolutionalCode.py:171). -/
def beta (c : LowRate n) (r : Nat) (j : Fin n) : ZMod 2 :=
  ((BP.coefficients (c.gRow j) (some (c.degree + 1))).getD r 0 : Nat)

/-- `state_space_representation` (LowRateConvolutionalCode.py:170-176). -/
def stateSpace (c : LowRate n) : StateSpace 1 n c.degree where
  A r s := if (s : Nat) = r + 1 then 1 else 0
  B _ s := if (s : Nat) = 0 then 1 else 0
  C r j := c.beta (r + 1) j
  D _ j := c.beta 0 j

end LowRate

/-! ### `HighRateConvolutionalCode` -/

/-- `HighRateConvolutionalCode(h_row)` (HighRateConvolutionalCode.py:44-50), `n = k + 1`. -/
structure HighRate (k : Nat) where
  hRow : Fin (k + 1) → Nat

namespace HighRate
variable {k : Nat}

/-- `degree` (HighRateConvolutionalCode.py:85); `memory_order` (149-151, 171) is the same number when `k ≥ 1`. -/
def degree (c : HighRate k) : Nat :=
  (((List.finRange (k + 1)).map fun j : Fin (k + 1) => BP.degree (c.hRow j)).foldl max 0).toNat

/-- Entry `i` of `constraint_lengths` (HighRateConvolutionalCode.py:149-151). -/
def constraintLength (c : HighRate k) (i : Fin k) : Nat :=
  (max (BP.degree (c.hRow i.castSucc)) (BP.degree (c.hRow (Fin.last k)))).toNat

/-- `memory_order` (base.py:89). -/
def memoryOrder (c : HighRate k) : Nat := ((List.finRange k).map fun i : Fin k => c.constraintLength i).foldl max 0

/-- `generator_matrix` (HighRateConvolutionalCode.py:133-139). -/
def generatorMatrix (c : HighRate k) (i : Fin k) (j : Fin (k + 1)) : Option BPFraction :=
  if (j : Nat) = k then BPFraction.create (c.hRow i.castSucc) (c.hRow (Fin.last k))
  else BPFraction.create (if (i : Nat) = j then 1 else 0) 1

/-- `beta[i, r]` before `fliplr` (HighRateConvolutionalCode.py:204). -/
def beta (c : HighRate k) (i : Fin k) (r : Nat) : ZMod 2 :=
  ((BP.coefficients (c.hRow i.castSucc) (some (c.degree + 1))).getD r 0 : Nat)

/-- `alpha[0, r]` before `fliplr` (HighRateConvolutionalCode.py:206). -/
def alpha (c : HighRate k) (r : Nat) : ZMod 2 :=
  ((BP.coefficients (c.hRow (Fin.last k)) (some (c.degree + 1))).getD r 0 : Nat)

/-- `state_space_representation` (HighRateConvolutionalCode.py:203-215).  Column `j` of the flipped arrays is entry
`σ - j`; the last column is entry 0.  (`σ = 0` makes `np.eye(-1, 0)` raise: the theorems about it assume `σ ≥ 1`.) -/
def stateSpace (c : HighRate k) : StateSpace k (k + 1) c.degree where
  A r s := if (r : Nat) + 1 = c.degree then c.alpha (c.degree - s) else if (s : Nat) = r + 1 then 1 else 0
  B i s := c.beta i (c.degree - s) + c.alpha (c.degree - s) * c.beta i 0
  C r j := if (r : Nat) + 1 = c.degree ∧ (j : Nat) = k then 1 else 0
  D i j := if (j : Nat) = k then c.beta i 0 else if (i : Nat) = j then 1 else 0

end HighRate
end Komm
