import Verif.Model.Random
import Mathlib.Analysis.SpecialFunctions.Log.Base
import Mathlib.Analysis.SpecialFunctions.Pow.Real
/-! Model of `src/komm/_util/information_theory.py` and of the `mutual_information` and `capacity` methods of `src/komm/_channels`, over the
real numbers (exact arithmetic instead of floating point; `np.isclose` in the validators is equality).  `none` is an exception. -/
namespace Komm

/-- The parameter `base: float | Literal["e"]`. -/
inductive LogBase | e | num (b : ℝ)

/-- The number denoted by the base. -/
noncomputable def LogBase.val : LogBase → ℝ
  | .e => Real.exp 1
  | .num b => b

open Classical in
/-- `validate_log_base` (validators.py:9-15). -/
noncomputable def validLogBase : LogBase → Bool
  | .e => true
  | .num b => ! (decide (b ≤ 0) || decide (b = 1))

open Classical in
/-- The logarithm used by `entropy` and `relative_entropy` (information_theory.py:46-51, 151-156): `np.log`, `np.log2` or a quotient. -/
noncomputable def infoLog (base : LogBase) (x : ℝ) : ℝ :=
  match base with
  | .e => Real.log x
  | .num b => if b = 2 then Real.logb 2 x else Real.log x / Real.log b

section
variable {n m : Nat}
open Classical in
/-- `entropy(pmf, base)` (information_theory.py:42-52): `pmf = pmf[pmf > 0]`, then `np.dot(pmf, log(1 / pmf))`. -/
noncomputable def entropy (p : Fin n → ℝ) (base : LogBase) : Option ℝ :=
  if validPmf p && validLogBase base then
    some (∑ i ∈ Finset.univ.filter (fun i : Fin n => p i > 0), p i * infoLog base (1 / p i))
  else none

open Classical in
/-- `binary_entropy(p)` (information_theory.py:73-76). -/
noncomputable def binaryEntropy (p : ℝ) : Option ℝ :=
  if ¬ validProbability p then none
  else if p = 0 ∨ p = 1 then some 0
  else some (-p * Real.logb 2 p - (1 - p) * Real.logb 2 (1 - p))

open Classical in
/-- The loop of `binary_entropy_inv` (information_theory.py:99-104) with its last line; `none` when the fuel is exhausted. -/
noncomputable def entropyInvLoop (h tol : ℝ) : Nat → ℝ → ℝ → Option ℝ
  | 0, _, _ => none
  | fuel + 1, low, high =>
    if high - low > tol then
      let mid := (low + high) / 2
      if (binaryEntropy mid).getD 0 < h then entropyInvLoop h tol fuel mid high else entropyInvLoop h tol fuel low mid
    else some ((low + high) / 2)

/-- What `binary_entropy_inv(h, tol)` (information_theory.py:94-105) may return: `some none` when it raises, `none` when it does not
terminate within `fuel` iterations. -/
noncomputable def binaryEntropyInv (fuel : Nat) (h tol : ℝ) : Option (Option ℝ) :=
  if ¬ (0 ≤ h ∧ h ≤ 1) then some none
  else if h = 0 ∨ h = 1 then some (some (1 / 2 * h))
  else (entropyInvLoop h tol fuel 0 (1 / 2)).map some

open Classical in
/-- `relative_entropy(pmf, qmf, base)` (information_theory.py:143-157) for inputs of the same length.  The result is an extended real:
`log(p / 0)` is `inf` in numpy (the warning is suppressed), and so is the dot product when the logarithm of the base is positive; the
sign is turned by the division by `np.log(base)` for a base below 1. -/
noncomputable def relativeEntropy (p q : Fin n → ℝ) (base : LogBase) : Option EReal :=
  if validPmf p && validPmf q && validLogBase base then
    if ∃ i, p i > 0 ∧ q i = 0 then some (if base.val < 1 then ⊥ else ⊤)
    else some ((∑ i ∈ Finset.univ.filter (fun i : Fin n => p i > 0), p i * infoLog base (p i / q i) : ℝ) : EReal)
  else none

/-- `output_pmf = np.dot(input_pmf, transition_matrix)` (information_theory.py:168). -/
noncomputable def outputPmf (r : Fin n → ℝ) (P : Fin n → Fin m → ℝ) : Fin m → ℝ := fun j => ∑ i, r i * P i j

open Classical in
/-- `mutual_information(input_pmf, transition_matrix, base)` (information_theory.py:165-178). -/
noncomputable def mutualInformation (r : Fin n → ℝ) (P : Fin n → Fin m → ℝ) (base : LogBase) : Option ℝ :=
  if validPmf r && validLogBase base && validChannelMatrix P then do
    let prior ← entropy (outputPmf r P) base
    let posterior ← if (∀ i, (entropy (P i) base).isSome) then some (∑ i, r i * (entropy (P i) base).getD 0) else none
    some (prior - posterior)
  else none

open Classical in
/-- One pass of the loop of `arimoto_blahut` (information_theory.py:196-204). -/
noncomputable def arimotoStep (P : Fin n → Fin m → ℝ) (r : Fin n → ℝ) : Fin n → ℝ :=
  let qsum : Fin m → ℝ := fun j => ∑ i, r i * P i j
  let q : Fin n → Fin m → ℝ := fun i j => if qsum j = 0 then 0 else r i * P i j / qsum j
  let r' : Fin n → ℝ := fun i => ∏ j, q i j ^ P i j
  fun i => r' i / ∑ k, r' k

open Classical in
/-- `arimoto_blahut(transition_matrix, initial_guess, max_iter, tol)` (information_theory.py:190-206); `last = none` is `last_r = inf`; the
first argument is `max_iter - iters`. -/
noncomputable def arimotoLoop (P : Fin n → Fin m → ℝ) (tol : ℝ) : Nat → Option (Fin n → ℝ) → (Fin n → ℝ) → (Fin n → ℝ)
  | 0, _, r => r
  | k + 1, last, r =>
    if (match last with | none => True | some l => ∃ i, |r i - l i| > tol) then arimotoLoop P tol k (some r) (arimotoStep P r) else r

/-- `DiscreteMemorylessChannel.capacity(base)` (DiscreteMemorylessChannel.py:92-96); `max_iter = 1000`, `tol = 1e-12` in the code. -/
noncomputable def dmcCapacity (maxIter : Nat) (tol : ℝ) (P : Fin n → Fin m → ℝ) (base : LogBase) : Option ℝ :=
  mutualInformation (arimotoLoop P tol maxIter none fun _ => 1 / n) P base
end

open Classical in
/-- `BinarySymmetricChannel.mutual_information` (BinarySymmetricChannel.py:82-87), for an input pmf of length 2 (the code does not check
the length). -/
noncomputable def bscMutualInformation (p : ℝ) (r : Fin 2 → ℝ) (base : LogBase) : Option ℝ :=
  if validPmf r && validLogBase base then do
    let a ← binaryEntropy (p + r 1 - 2 * p * r 1)
    let b ← binaryEntropy p
    some ((a - b) / Real.logb 2 base.val)
  else none

open Classical in
/-- `BinarySymmetricChannel.capacity` (BinarySymmetricChannel.py:102-105). -/
noncomputable def bscCapacity (p : ℝ) (base : LogBase) : Option ℝ :=
  if validLogBase base then (binaryEntropy p).map fun h => (1 - h) / Real.logb 2 base.val else none

open Classical in
/-- `BinaryErasureChannel.mutual_information` (BinaryErasureChannel.py:82-87). -/
noncomputable def becMutualInformation (ε : ℝ) (r : Fin 2 → ℝ) (base : LogBase) : Option ℝ :=
  if validPmf r && validLogBase base then (binaryEntropy (r 1)).map fun h => (1 - ε) * h / Real.logb 2 base.val else none

/-- `BinaryErasureChannel.capacity` (BinaryErasureChannel.py:102-104). -/
noncomputable def becCapacity (ε : ℝ) (base : LogBase) : Option ℝ :=
  if validLogBase base then some ((1 - ε) / Real.logb 2 base.val) else none

open Classical in
/-- `ZChannel.mutual_information` (ZChannel.py:82-87). -/
noncomputable def zMutualInformation (p : ℝ) (r : Fin 2 → ℝ) (base : LogBase) : Option ℝ :=
  if validPmf r && validLogBase base then do
    let a ← binaryEntropy (r 1 * (1 - p))
    let b ← binaryEntropy p
    some ((a - r 1 * b) / Real.logb 2 base.val)
  else none

open Classical in
/-- `ZChannel.capacity` (ZChannel.py:102-108). -/
noncomputable def zCapacity (p : ℝ) (base : LogBase) : Option ℝ :=
  if validLogBase base then
    if p = 1 then some 0
    else some (Real.logb 2 (1 + (1 - p) * p ^ (p / (1 - p))) / Real.logb 2 base.val)
  else none

end Komm
