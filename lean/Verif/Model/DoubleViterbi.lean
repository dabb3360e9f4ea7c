import Verif.Lemmas.Double
import Verif.Model.TrellisDecoders
import Verif.Model.StreamDecoder
/-
The Viterbi decoders of /repo/src/komm/_error_control_decoders/ViterbiDecoder.py and
/repo/src/komm/_error_control_convolutional/ViterbiStreamDecoder.py, with the path metrics in double precision, as numpy keeps them: `metrics` and
`new_metrics` are `float64` arrays (MealyMachine.py:214, 261, 48-49 of ViterbiDecoder.py), so that every `metrics[t, s0] + metric_function(y, z)`
(MealyMachine.py:222, 265) is rounded.  Received values are finite.
-/
namespace Komm

/-- The doubles, with the rounded addition of `float64` (no operation of the theorems overflows; see `Model/Double.lean`). -/
def Double : Type := {x : ℝ // IsDouble x}

namespace Double

/-- The real number that a double stands for. -/
def val (x : Double) : ℝ := x.1

noncomputable instance : LinearOrder Double := inferInstanceAs (LinearOrder {x : ℝ // IsDouble x})

/-- `a + b`: the exact sum, rounded. -/
noncomputable instance : Add Double := ⟨fun a b => ⟨rnd (a.val + b.val), rnd_isDouble _⟩⟩

noncomputable instance : Zero Double := ⟨⟨0, 0, 0, by norm_num, by norm_num, by simp⟩⟩

/-- `float(k)`. -/
noncomputable def ofInt (k : Int) : Double := ⟨rnd (k : ℝ), rnd_isDouble _⟩

end Double

/-- `SumOf l v`: `v` is what some program that adds the doubles `l`, two at a time and each sum rounded, in any order and association, computes.
`np.dot` is such a program; which one depends on the BLAS library. -/
inductive SumOf : List Double → Double → Prop
  | nil : SumOf [] 0
  | one (x : Double) : SumOf [x] x
  | add {l l' : List Double} {a b : Double} : SumOf l a → SumOf l' b → SumOf (l ++ l') (a + b)
  | perm {l l' : List Double} {a : Double} : l.Perm l' → SumOf l a → SumOf l' a

/-- `_metric_function_hard` (ViterbiDecoder.py:51-52): `float` of the count. -/
noncomputable def hardMetricD (n : Nat) (y : Nat) (z : List (ZMod 2)) : Double := Double.ofInt (hardMetric n y z)

/-- `_metric_function_soft` (ViterbiDecoder.py:54-55): `np.dot` of the bits and the received values; the products by 0 and 1 are exact. -/
noncomputable def softMetricD (dot : List Double → Double) (n : Nat) (y : Nat) (z : List Double) : Double :=
  dot (List.zipWith (fun (b : ZMod 2) (x : Double) => if b = 0 then 0 else x) (symbolBits n y) z)

namespace Terminated
variable {k n σ : Nat}

/-- `ViterbiDecoder(code, "hard").decode` (ViterbiDecoder.py:57-90) with metrics in double precision. -/
noncomputable def viterbiHardD (t : Terminated k n σ) (r : List (ZMod 2)) : Option (List (ZMod 2)) :=
  blockwise t.length (t.viterbiBlock (hardMetricD n)) r

/-- `ViterbiDecoder(code, "soft").decode` (ViterbiDecoder.py:57-90) with metrics in double precision. -/
noncomputable def viterbiSoftD (dot : List Double → Double) (t : Terminated k n σ) (r : List Double) : Option (List (ZMod 2)) :=
  blockwise t.length (t.viterbiBlock (softMetricD dot n)) r

end Terminated

namespace StateSpace
variable {k n σ : Nat}

/-- `ViterbiStreamDecoder(code, input_type="hard").decode` (ViterbiStreamDecoder.py:50-79) with metrics in double precision. -/
noncomputable def streamHardD (c : StateSpace k n σ) (memory : Mealy.Memory (2 ^ σ) Double) (input : List (ZMod 2)) :
    Option (List (ZMod 2) × Mealy.Memory (2 ^ σ) Double) :=
  c.streamDecode (hardMetricD n) memory input

end StateSpace
end Komm
