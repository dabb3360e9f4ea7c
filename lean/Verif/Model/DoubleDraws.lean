import Verif.Model.DoubleLossless
import Verif.Model.Random
/-
Drawing from a pmf of doubles: numpy's `Generator.choice`, and the methods of komm that call it: `DiscreteMemorylessSource.emit` (/repo/src/komm/_sources/DiscreteMemorylessSource.py),
`MarkovChain.simulate` and `simulate_until_absorption` (/repo/src/komm/_sources/MarkovChain.py), `DiscreteMemorylessChannel.transmit` (/repo/src/komm/_channels/DiscreteMemorylessChannel.py), every
operation rounded.  The check of the sum of the pmf is that of `Model/Tolerance.lean` and is not repeated.
-/
namespace Komm

/-- `Generator.random`: the first 53 bits of an infinite sequence of random bits, i.e. of a number `u` in `[0, 1)`. -/
noncomputable def randomD (u : ℝ) : ℝ := ⌊u * 2 ^ 53⌋ / 2 ^ 53

/-- `cdf = p.cumsum(); cdf /= cdf[-1]` (numpy `Generator.choice`). -/
noncomputable def cdfD (p : List Double) : List ℝ :=
  let c := cumsumD 0 p
  c.map fun x : Double => rnd (x.val / (c.getLastD 0).val)

open Classical in
/-- The loop of numpy's binary search `searchsorted(a, key, side="right")`. -/
noncomputable def bisectRight (a : List ℝ) (key : ℝ) (lo hi : Nat) : Nat :=
  if lo < hi then
    let mid := lo + (hi - lo) / 2
    if a.getD mid 0 ≤ key then bisectRight a key (mid + 1) hi else bisectRight a key lo mid
  else lo
termination_by hi - lo
decreasing_by all_goals omega

/-- `rng.choice(n, p=p)` when `rng.random()` returns `u`; `none` stands for an index outside the range. -/
noncomputable def choiceD {n : Nat} (p : Fin n → Double) (u : ℝ) : Option (Fin n) :=
  let cdf := cdfD (List.ofFn p)
  let idx := bisectRight cdf u 0 cdf.length
  if h : idx < n then some ⟨idx, h⟩ else none

/-- `DiscreteMemorylessSource.emit(shape)` (DiscreteMemorylessSource.py:123), flattened. -/
noncomputable def dmsEmitD {n : Nat} (p : Fin n → Double) (us : List ℝ) : Option (List (Fin n)) := us.mapM (choiceD p)

/-- `DiscreteMemorylessChannel.transmit` (DiscreteMemorylessChannel.py:108-114); `none` for a symbol outside the input alphabet (see `dmcTransmit`). -/
noncomputable def dmcTransmitD {m n : Nat} (P : Fin m → Fin n → Double) (input : List (Nat × ℝ)) : Option (List (Fin n)) :=
  input.mapM fun xu : Nat × ℝ => if h : xu.1 < m then choiceD (P ⟨xu.1, h⟩) xu.2 else none

namespace MarkovChain
variable {n : Nat}

/-- A transition matrix of doubles, seen as a matrix of reals: what the comparisons `P > 0` and `P[i, i] == 1` see. -/
def realMat (P : Fin n → Fin n → Double) : TMat ℝ n := fun i j => (P i j).val

/-- The loop of `simulate` (MarkovChain.py:659-661). -/
noncomputable def simulateD (P : Fin n → Fin n → Double) : Fin n → List ℝ → Option (List (Fin n))
  | _, [] => some []
  | state, u :: us => do
      let next ← choiceD (P state) u
      let rest ← simulateD P next us
      pure (state :: rest)

/-- The loop of `simulate_until_absorption` (MarkovChain.py:693-695) after `output = [state]`; `none` when the draws are exhausted while the loop is still running. -/
noncomputable def untilLoopD (P : Fin n → Fin n → Double) : Fin n → List ℝ → Option (List (Fin n))
  | state, [] => if state ∈ transientStates (realMat P) then none else some []
  | state, u :: us =>
    if state ∈ transientStates (realMat P) then do
      let next ← choiceD (P state) u
      let rest ← untilLoopD P next us
      pure (next :: rest)
    else some []

/-- `simulate_until_absorption(initial_state)` (MarkovChain.py:687-696). -/
noncomputable def simulateUntilAbsorptionD (P : Fin n → Fin n → Double) (state : Fin n) (us : List ℝ) : Outcome (List (Fin n)) :=
  if ¬ isAbsorbing (realMat P) then .raises
  else match untilLoopD P state us with
    | none => .running
    | some rest => .returns (state :: rest)

end MarkovChain
end Komm
