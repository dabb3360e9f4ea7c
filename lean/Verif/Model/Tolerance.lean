import Verif.Model.Information
import Verif.Model.FanoShannon
import Verif.Model.Tunstall
/-! Model of the validators of `src/komm/_util/validators.py` with the tolerance that they really have (`np.isclose`, `np.allclose`), and of the functions that use
them, on probabilities that need not sum to one exactly.  The other files of the model replace `np.isclose` by equality; `C131_conservative` says that the two agree
on exactly normalised probabilities. -/
namespace Komm.Tolerant
open Komm.MarkovChain
variable {K : Type} [Field K] [LinearOrder K] {n m : ℕ}

/-- `np.isclose(a, b)` with its default tolerances: `|a - b| ≤ 1e-8 + 1e-5 * |b|`. -/
def isclose (a b : K) : Bool := decide (|a - b| ≤ 1 / 10 ^ 8 + 1 / 10 ^ 5 * |b|)

/-- `validate_pmf(value)` for a 1D-array (validators.py:24-41). -/
def validPmf (p : Fin n → K) : Bool := decide (∀ i, p i ≥ 0) && isclose (∑ i, p i) 1

/-- `validate_transition_matrix(value)` (validators.py:44-60); the shape is in the type. -/
def validMatrix (P : Fin m → Fin n → K) : Bool := decide (∀ i j, P i j ≥ 0) && decide (∀ i, isclose (∑ j, P i j) 1 = true)

/-- `validate_integer_range(value, low, high)` (validators.py:63-72): the array, or `none` for `ValueError`. -/
def validateIntegerRange (value : List Int) (low high : Int) : Option (List Int) :=
  if ¬ ((∀ x ∈ value, x ≥ low) ∧ ∀ x ∈ value, x < high) then none else some value

/-- `validate_integer_min(value, low)` (validators.py:75-83). -/
def validateIntegerMin (value : List Int) (low : Int) : Option (List Int) := if ¬ (∀ x ∈ value, x ≥ low) then none else some value

/-- The check that numpy's `Generator.choice` makes of its argument `p`: `ValueError` if `abs(sum - 1) > sqrt(eps)`, where `eps = 2^-52`
(negative entries are excluded by the validators of komm). -/
def drawable (p : Fin n → K) : Bool := decide (|∑ i, p i - 1| ≤ 1 / 2 ^ 26)

/-- `rng.choice(n, p=p)` for one draw, with the check. -/
def choice (p : Fin n → K) (u : K) : Option (Fin n) := if drawable p then rngChoice p u else none

/-- `DiscreteMemorylessSource.emit(shape)` (DiscreteMemorylessSource.py:119-123), flattened: a single call of `choice`. -/
def emit (p : Fin n → K) (us : List K) : Option (List (Fin n)) := if drawable p then dmsEmit p us else none

/-- `DiscreteMemorylessChannel.transmit(input)` (DiscreteMemorylessChannel.py:108-114). -/
def transmit (P : Fin m → Fin n → K) (input : List (ℕ × K)) : Option (List (Fin n)) :=
  input.mapM fun xu => if h : xu.1 < m then choice (P ⟨xu.1, h⟩) xu.2 else none

/-- `MarkovChain.simulate(initial_state, steps)` (MarkovChain.py:656-662). -/
def simulate (P : TMat K n) : Fin n → List K → Option (List (Fin n))
  | _, [] => some []
  | state, u :: us => do
      let next ← choice (P state) u
      let rest ← simulate P next us
      pure (state :: rest)

open Classical in
/-- `entropy(pmf, base)` (information_theory.py:42-52). -/
noncomputable def entropy (p : Fin n → ℝ) (base : LogBase) : Option ℝ :=
  if validPmf p && validLogBase base then
    some (∑ i ∈ Finset.univ.filter (fun i : Fin n => p i > 0), p i * infoLog base (1 / p i))
  else none

open Classical in
/-- `relative_entropy(pmf, qmf, base)` (information_theory.py:143-157), for inputs of the same length. -/
noncomputable def relativeEntropy (p q : Fin n → ℝ) (base : LogBase) : Option EReal :=
  if validPmf p && validPmf q && validLogBase base then
    if ∃ i, p i > 0 ∧ q i = 0 then some (if base.val < 1 then ⊥ else ⊤)
    else some ((∑ i ∈ Finset.univ.filter (fun i : Fin n => p i > 0), p i * infoLog base (p i / q i) : ℝ) : EReal)
  else none

open Classical in
/-- `mutual_information(input_pmf, transition_matrix, base)` (information_theory.py:165-178); `entropy` validates the output pmf again. -/
noncomputable def mutualInformation (r : Fin n → ℝ) (P : Fin n → Fin m → ℝ) (base : LogBase) : Option ℝ :=
  if validPmf r && validLogBase base && validMatrix P then do
    let prior ← entropy (outputPmf r P) base
    let posterior ← if (∀ i, (entropy (P i) base).isSome) then some (∑ i, r i * (entropy (P i) base).getD 0) else none
    some (prior - posterior)
  else none

open Classical in
/-- `BinarySymmetricChannel.mutual_information` (BinarySymmetricChannel.py:82-87), for an input pmf of length 2. -/
noncomputable def bscMutualInformation (p : ℝ) (r : Fin 2 → ℝ) (base : LogBase) : Option ℝ :=
  if validPmf r && validLogBase base then do
    let a ← binaryEntropy (p + r 1 - 2 * p * r 1)
    let b ← binaryEntropy p
    some ((a - b) / Real.logb 2 base.val)
  else none

/-- The vector of the entries of a list. -/
def vec (pmf : List ℚ) (i : Fin pmf.length) : ℚ := pmf[i]

/-- `HuffmanCode(pmf, source_block_size, policy, ...)` (HuffmanCode.py:74-95) with its `validate_pmf`. -/
def huffmanCode (pmf : List ℚ) (k : ℕ) (policy : HuffmanPolicy) (assignment : HuffmanAssignment) : Option FVCode :=
  if validPmf (vec pmf) then Komm.huffmanCode pmf k policy assignment else none

/-- `FanoCode(pmf, source_block_size)` (FanoCode.py:54-63) with its `validate_pmf`. -/
def fanoCode (pmf : List ℚ) (k : ℕ) : Option FVCode := if validPmf (vec pmf) then Komm.fanoCode pmf k else none

/-- `ShannonCode(pmf, source_block_size)` (ShannonCode.py:56-67) with its `validate_pmf`. -/
def shannonCode (pmf : List ℚ) (k : ℕ) : Option FVCode := if validPmf (vec pmf) then Komm.shannonCode pmf k else none

/-- `TunstallCode(pmf, target_block_size)` (TunstallCode.py:60-72) with its `validate_pmf`. -/
def tunstallCode (pmf : List ℚ) (n : ℕ) (choose : List TNode → ℕ) : Option VFCode :=
  if validPmf (vec pmf) then Komm.tunstallCode pmf n choose else none

end Komm.Tolerant
