import Verif.Model.MarkovChain
/-! Model of the methods of komm that draw from a random generator: `numpy.random.Generator.choice`, `DiscreteMemorylessSource.emit`
(`src/komm/_sources/DiscreteMemorylessSource.py`), `MarkovChain.simulate` and `simulate_until_absorption`
(`src/komm/_sources/MarkovChain.py`) and the `transmit` methods of `src/komm/_channels`.  A generator is the sequence of the values in
`[0, 1)` that `Generator.random` returns, over any ordered field (exact arithmetic). -/
namespace Komm
variable {K : Type} [Field K] [LinearOrder K] {n : Nat}

/-- `cdf = p.cumsum()` (numpy `Generator.choice`). -/
def cumsum (p : Fin n → K) (j : Fin n) : K := ∑ i ∈ Finset.univ.filter (fun i : Fin n => i ≤ j), p i

/-- `rng.choice(n, p=p)` for one draw `u = rng.random()`: `cdf = p.cumsum(); cdf /= cdf[-1]; cdf.searchsorted(u, side="right")`, i.e. the
number of entries of the (non-decreasing) cdf that are `≤ u`.  `none` stands for an index outside the range. -/
def rngChoice (p : Fin n → K) (u : K) : Option (Fin n) :=
  let total := ∑ i, p i
  let idx := (Finset.univ.filter fun j : Fin n => cumsum p j / total ≤ u).card
  if h : idx < n then some ⟨idx, h⟩ else none

/-- `validate_pmf(value)` for a 1D-array (validators.py:24-41); exact equality for `np.isclose`. -/
def validPmf (p : Fin n → K) : Bool := decide (∀ i, p i ≥ 0) && decide (∑ i, p i = 1)

/-- `DiscreteMemorylessSource.emit(shape)` (DiscreteMemorylessSource.py:123), flattened: one draw per entry. -/
def dmsEmit (p : Fin n → K) (us : List K) : Option (List (Fin n)) := us.mapM (rngChoice p)

namespace MarkovChain

/-- The loop of `simulate` (MarkovChain.py:659-661): one draw per step, the last one is not used. -/
def simulate (P : TMat K n) : Fin n → List K → Option (List (Fin n))
  | _, [] => some []
  | state, u :: us => do
      let next ← rngChoice (P state) u
      let rest ← simulate P next us
      pure (state :: rest)

/-- The loop of `simulate_until_absorption` (MarkovChain.py:693-695) after `output = [state]`; `none` when the draws are exhausted while
the loop is still running. -/
def untilLoop (P : TMat K n) : Fin n → List K → Option (List (Fin n))
  | state, [] => if state ∈ transientStates P then none else some []
  | state, u :: us =>
    if state ∈ transientStates P then do
      let next ← rngChoice (P state) u
      let rest ← untilLoop P next us
      pure (next :: rest)
    else some []

/-- What `simulate_until_absorption` (MarkovChain.py:687-696) does: raise, return an array, or (as far as the finite list of draws goes)
still be running. -/
inductive Outcome (α : Type) | raises | running | returns (a : α)
  deriving DecidableEq

/-- `simulate_until_absorption(initial_state)` (MarkovChain.py:687-696). -/
def simulateUntilAbsorption (P : TMat K n) (state : Fin n) (us : List K) : Outcome (List (Fin n)) :=
  if ¬ isAbsorbing P then .raises
  else match untilLoop P state us with
    | none => .running
    | some rest => .returns (state :: rest)

end MarkovChain

/-- `validate_probability` (validators.py:18-21). -/
def validProbability (p : K) : Bool := decide (0 ≤ p) && decide (p ≤ 1)

/-- `BinarySymmetricChannel.transition_matrix` (BinarySymmetricChannel.py:62-63). -/
def bscMatrix (p : K) : Fin 2 → Fin 2 → K := ![![1 - p, p], ![p, 1 - p]]

/-- `BinarySymmetricChannel.transmit` (BinarySymmetricChannel.py:114-117), entry by entry: `(input + (u < p)) % 2`. -/
def bscTransmit (p : K) (input : List (Nat × K)) : List Nat := input.map fun xu => (xu.1 + if xu.2 < p then 1 else 0) % 2

/-- `BinaryErasureChannel.transition_matrix` (BinaryErasureChannel.py:62-63). -/
def becMatrix (e : K) : Fin 2 → Fin 3 → K := ![![1 - e, 0, e], ![0, 1 - e, e]]

/-- `BinaryErasureChannel.transmit` (BinaryErasureChannel.py:113-118): erased entries become 2. -/
def becTransmit (e : K) (input : List (Nat × K)) : List Nat := input.map fun xu => if xu.2 < e then 2 else xu.1

/-- `ZChannel.transition_matrix` (ZChannel.py:62-63). -/
def zMatrix (p : K) : Fin 2 → Fin 2 → K := ![![1, 0], ![p, 1 - p]]

/-- `ZChannel.transmit` (ZChannel.py:117-120): `(input * (u >= p)).astype(int)`. -/
def zTransmit (p : K) (input : List (Nat × K)) : List Nat := input.map fun xu => xu.1 * if xu.2 ≥ p then 1 else 0

/-- `validate_transition_matrix` without `square` (validators.py:44-60). -/
def validChannelMatrix {m : Nat} (P : Fin m → Fin n → K) : Bool := decide (∀ i j, P i j ≥ 0) && decide (∀ i, ∑ j, P i j = 1)

/-- `DiscreteMemorylessChannel.transmit` (DiscreteMemorylessChannel.py:108-114): `IndexError` (`none`) for a symbol outside the input
alphabet (negative symbols, which numpy would wrap around, are not modelled). -/
def dmcTransmit {m : Nat} (P : Fin m → Fin n → K) (input : List (Nat × K)) : Option (List (Fin n)) :=
  input.mapM fun xu => if h : xu.1 < m then rngChoice (P ⟨xu.1, h⟩) xu.2 else none

end Komm
