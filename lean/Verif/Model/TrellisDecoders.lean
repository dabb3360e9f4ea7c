import Verif.Model.Terminated
import Mathlib.Data.EReal.Basic
/-
Model of /repo/src/komm/_error_control_decoders/ViterbiDecoder.py and BCJRDecoder.py, with the post-processing of
/repo/src/komm/_error_control_convolutional/TerminatedConvolutionalCode.py:219-236, 269-287, 313-326.
-/
namespace Komm
open scoped BigOperators

/-- Row `y` of `_cache_bit` (ViterbiDecoder.py:47): `int_to_bits(y, width=n)`, least significant bit first; also the row of an
input symbol in `int_to_bits(x_hat, width=k)` (line 87).  The shift and the remainder are those of Python, so that -1 (no edge)
gives ones. -/
def symbolBits (width : Nat) (x : Int) : List (ZMod 2) :=
  (List.range width).map fun i : Nat => (((x / 2 ^ i) % 2 : Int) : ZMod 2)

/-- `_metric_function_hard` (ViterbiDecoder.py:51-52). -/
def hardMetric (n : Nat) (y : Nat) (z : List (ZMod 2)) : Int :=
  (((List.zip (symbolBits n y) z).countP fun p => p.1 ≠ p.2 : Nat) : Int)

/-- `_metric_function_soft` (ViterbiDecoder.py:54-55): `np.dot`. -/
noncomputable def softMetric (n : Nat) (y : Nat) (z : List ℝ) : ℝ :=
  (List.zipWith (fun (b : ZMod 2) (x : ℝ) => ((b.val : Nat) : ℝ) * x) (symbolBits n y) z).sum

namespace Terminated
variable {k n σ : Nat}

/-- `_initial_metrics` (ViterbiDecoder.py:48-49). -/
def initialMetrics {K : Type} [Zero K] (σ : Nat) : Fin (2 ^ σ) → WithTop K := fun s =>
  if (s : Nat) = 0 then ((0 : K) : WithTop K) else ⊤

/-- `l[:-μ]`: empty when `μ = 0`. -/
def dropTail {α : Type} (μ : Nat) (l : List α) : List α := if μ = 0 then [] else l.take (l.length - μ)

/-- `viterbi_post_process_output` (TerminatedConvolutionalCode.py:219-224, 269-274, 313-316); `none` is
`NotImplementedError`. -/
def viterbiPostProcess {K : Type} [LinearOrder K] (t : Terminated k n σ) (xsHat : Fin (2 ^ σ) → List Int)
    (finalMetrics : Fin (2 ^ σ) → WithTop K) : Option (List Int) :=
  haveI : NeZero (2 ^ σ) := ⟨(Nat.two_pow_pos σ).ne'⟩
  match t.mode with
  | .directTruncation => some (xsHat (Mealy.argminState finalMetrics))
  | .zeroTermination => some (dropTail t.memoryOrder (xsHat 0))
  | .tailBiting => none

/-- `ViterbiDecoder.decode` on one block (ViterbiDecoder.py:33-37, 74-88); `metric` is one of the two metric functions.  `none` is
an exception: tail-biting, or `reshape(-1, n)` of a word that is not made of blocks of `n`. -/
def viterbiBlock {K Z : Type} [Add K] [Zero K] [LinearOrder K] (t : Terminated k n σ) (metric : Nat → List Z → K)
    (r : List Z) : Option (List (ZMod 2)) :=
  haveI : NeZero (2 ^ σ) := ⟨(Nat.two_pow_pos σ).ne'⟩
  if n = 0 ∨ r.length % n ≠ 0 then none
  else
    let res := t.code.finiteStateMachine.viterbi metric (initialMetrics σ) (chunks n r)
    (t.viterbiPostProcess res.1 res.2).map fun xs : List Int => (xs.map fun x : Int => symbolBits k x).flatten

/-- `ViterbiDecoder(code, "hard").decode` (ViterbiDecoder.py:57-90). -/
def viterbiHard (t : Terminated k n σ) (r : List (ZMod 2)) : Option (List (ZMod 2)) :=
  blockwise t.length (t.viterbiBlock (hardMetric n)) r

/-- `ViterbiDecoder(code, "soft").decode` (ViterbiDecoder.py:57-90). -/
noncomputable def viterbiSoft (t : Terminated k n σ) (r : List ℝ) : Option (List (ZMod 2)) :=
  blockwise t.length (t.viterbiBlock (softMetric n)) r

/-! ### BCJR -/

/-- `bcjr_initial_final_distributions` (TerminatedConvolutionalCode.py:226-231, 276-281, 318-321). -/
noncomputable def bcjrDistributions (t : Terminated k n σ) : Option ((Fin (2 ^ σ) → ℝ) × (Fin (2 ^ σ) → ℝ)) :=
  match t.mode with
  | .directTruncation => some (fun s => if (s : Nat) = 0 then 1 else 0, fun _ => 1 / ((2 ^ σ : Nat) : ℝ))
  | .zeroTermination => some (fun s => if (s : Nat) = 0 then 1 else 0, fun s => if (s : Nat) = 0 then 1 else 0)
  | .tailBiting => none

/-- `bcjr_post_process_output` (TerminatedConvolutionalCode.py:233-236, 283-287). -/
def bcjrPostProcess {α : Type} (t : Terminated k n σ) (posteriors : List α) : Option (List α) :=
  match t.mode with
  | .directTruncation => some posteriors
  | .zeroTermination => some (dropTail t.memoryOrder posteriors)
  | .tailBiting => none

end Terminated

/-- `_metric_function` (BCJRDecoder.py:49, 52-53). -/
noncomputable def bcjrMetric (n : Nat) (y : Nat) (z : List ℝ) : ℝ :=
  0.5 * (List.zipWith (fun (b : ZMod 2) (x : ℝ) => (-1) ^ b.val * x) (symbolBits n y) z).sum

/-- `np.log(a) - np.log(b)` of two non-negative numbers (labelings/base.py:114-115); `none` is `nan`. -/
noncomputable def logRatio (a b : ℝ) : Option EReal :=
  if a = 0 then (if b = 0 then none else some ⊥)
  else if b = 0 then some ⊤ else some ((Real.log a - Real.log b : ℝ) : EReal)

/-- `marginalize` (labelings/base.py:104-116) of the metrics `m` of one group of `M` indices; `matrix` lists the rows of the
labeling. -/
noncomputable def marginalizeRow {M m : Nat} (matrix : Fin M → Fin m → Nat) (metrics : Fin M → ℝ) : List (Option EReal) :=
  List.ofFn fun i : Fin m =>
    logRatio (∑ x, metrics x * (if matrix x i = 0 then 1 else 0)) (∑ x, metrics x * (if matrix x i = 1 then 1 else 0))

/-- `NaturalLabeling(m).matrix` (NaturalLabeling.py:38-40): most significant bit first. -/
def naturalMatrix (m : Nat) : Fin (2 ^ m) → Fin m → Nat := fun x i => (intToBits .msbFirst x m).getD i 0

namespace Terminated
variable {k n σ : Nat}

/-- `NaturalLabeling(k).marginalize` (labelings/base.py:104-116) of one row of posteriors; a row of `nan`s is `none`. -/
noncomputable def rowBits (row : Option (Fin (2 ^ k) → ℝ)) : List (Option EReal) :=
  match row with
  | none => List.replicate k none
  | some p => marginalizeRow (naturalMatrix k) p

/-- `BCJRDecoder.decode` with soft output on one block (BCJRDecoder.py:34-50, 72-86); an entry that is `none` is a `nan`. -/
noncomputable def bcjrBlock (t : Terminated k n σ) (li : List ℝ) : Option (List (Option EReal)) :=
  if k = 0 ∨ n = 0 ∨ li.length % n ≠ 0 then none
  else t.bcjrDistributions.bind fun d =>
    (t.bcjrPostProcess (t.code.finiteStateMachine.forwardBackward (bcjrMetric n) (chunks n li) none (some d.1) (some d.2))).map
      fun rows : List (Option (Fin (2 ^ k) → ℝ)) =>
        (rows.map fun row : Option (Fin (2 ^ k) → ℝ) => rowBits row).flatten

/-- `BCJRDecoder(code, "soft").decode` (BCJRDecoder.py:55-92). -/
noncomputable def bcjrSoft (t : Terminated k n σ) (li : List ℝ) : Option (List (Option EReal)) :=
  blockwise t.length t.bcjrBlock li

open Classical in
/-- `(output < 0.0).astype(int)` (BCJRDecoder.py:88-90): comparisons with `nan` are false. -/
noncomputable def hardDecision (l : List (Option EReal)) : List (ZMod 2) :=
  l.map fun x : Option EReal => match x with
    | none => 0
    | some x => if x < 0 then 1 else 0

/-- `BCJRDecoder(code, "hard").decode` (BCJRDecoder.py:55-92). -/
noncomputable def bcjrHard (t : Terminated k n σ) (li : List ℝ) : Option (List (ZMod 2)) :=
  (t.bcjrSoft li).map hardDecision

end Terminated
end Komm
