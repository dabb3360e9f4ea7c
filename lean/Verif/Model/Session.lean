import Verif.Model.Random
import Verif.Model.GaussianChannel
/-! Model of the way komm's objects use random generators: `src/komm/_util/global_rng.py`, the constructors of the sources and channels
(which keep the generator passed to them, or the one that `global_rng.get()` returns at that moment) and their random methods (each of
which takes the next values of the generator that the object keeps).

Generators are numbered.  The `i`-th request made to generator `g` is answered from `ω (g, i)`, a pair: the value returned if the request is
for `Generator.random`, and the value returned if it is for a standard normal sample.  Simplification: numpy produces both from one stream
of bits, of which a request may use several words; here every request has its own index.  `ω` stands for the states (seeds) of all the
generators. -/
namespace Komm.Session
open Komm.MarkovChain

/-- What the generators will return. -/
abbrev Randomness := ℕ × ℕ → ℝ × ℝ

/-- The objects of komm that keep a generator, by the arguments of their constructors. -/
inductive RandomObject
  /-- `DiscreteMemorylessSource(pmf)` (DiscreteMemorylessSource.py:24-34). -/
  | source (q : ℕ) (pmf : Fin q → ℝ)
  /-- `BinarySymmetricChannel(p)` (BinarySymmetricChannel.py:28-32). -/
  | bsc (p : ℝ)
  /-- `BinaryErasureChannel(e)` (BinaryErasureChannel.py:24-28). -/
  | bec (e : ℝ)
  /-- `ZChannel(p)` (ZChannel.py:28-32). -/
  | zch (p : ℝ)
  /-- `DiscreteMemorylessChannel(P)` (DiscreteMemorylessChannel.py:21-27). -/
  | dmc (a b : ℕ) (P : Fin a → Fin b → ℝ)
  /-- `GaussianChannel(noise_power)` (GaussianChannel.py:30-35). -/
  | gaussian (noisePower : ℝ)
  /-- `MarkovChain(P)` (MarkovChain.py:43-51). -/
  | chain (n : ℕ) (P : TMat ℝ n)

/-- The constructors accept the arguments (validators.py:18-60, GaussianChannel.py:34). -/
noncomputable def RandomObject.accepted : RandomObject → Prop
  | .source _ pmf => validPmf pmf = true
  | .bsc p => validProbability p = true
  | .bec e => validProbability e = true
  | .zch p => validProbability p = true
  | .dmc _ _ P => validChannelMatrix P = true
  | .gaussian noisePower => GaussianChannel.construct noisePower ≠ none
  | .chain _ P => validTransitionMatrix P = true

/-- The random methods, with their arguments.  What a Gaussian channel returns is real or complex; the model lets the session see it through
a function into lists of integers (decisions, counts of errors, quantised samples), so that every response is a list of integers. -/
inductive Call
  /-- `emit(size)` (DiscreteMemorylessSource.py:96-123), flattened. -/
  | emit (size : ℕ)
  /-- `transmit(input)` of the discrete channels, flattened. -/
  | transmit (input : List ℕ)
  /-- `transmit(input)` of a Gaussian channel, real input (GaussianChannel.py:37-78), followed by `see`. -/
  | transmitReal (n : ℕ) (input : Fin n → ℝ) (see : (Fin n → ℝ) → List ℕ)
  /-- `transmit(input)` of a Gaussian channel, complex input, followed by `see`. -/
  | transmitComplex (n : ℕ) (input : Fin n → ℂ) (see : (Fin n → ℂ) → List ℕ)
  /-- `simulate(initial_state, steps)` (MarkovChain.py:626-661). -/
  | simulate (initial steps : ℕ)
  /-- `simulate_until_absorption(initial_state)` (MarkovChain.py:663-696). -/
  | untilAbsorption (initial : ℕ)

/-- The number of requests that a call which returns `out` makes to its generator: one for each symbol emitted or transmitted, two for each
complex number (GaussianChannel.py:65-69), one per step (the last one in vain, MarkovChain.py:659-661), and one for each state visited after
the initial one (MarkovChain.py:693-695). -/
def Call.requests : Call → List ℕ → ℕ
  | .emit size, _ => size
  | .transmit input, _ => input.length
  | .transmitReal n _ _, _ => n
  | .transmitComplex n _ _, _ => n * 2
  | .simulate _ steps, _ => steps
  | .untilAbsorption _, out => out.length - 1

/-- What a call returns, given the answers to its requests; `none` for an exception, or if the call is still running. -/
noncomputable def respond : RandomObject → Call → List (ℝ × ℝ) → Option (List ℕ)
  | .source _ pmf, .emit _, us => (dmsEmit pmf (us.map Prod.fst)).map (List.map Fin.val)
  | .bsc p, .transmit input, us => some (bscTransmit p (input.zip (us.map Prod.fst)))
  | .bec e, .transmit input, us => some (becTransmit e (input.zip (us.map Prod.fst)))
  | .zch p, .transmit input, us => some (zTransmit p (input.zip (us.map Prod.fst)))
  | .dmc _ _ P, .transmit input, us => (dmcTransmit P (input.zip (us.map Prod.fst))).map (List.map Fin.val)
  | .gaussian noisePower, .transmitReal _ x see, us =>
      some (see (GaussianChannel.transmitReal noisePower x fun i => (us.getD i.val 0).2))
  | .gaussian noisePower, .transmitComplex _ x see, us =>
      some (see (GaussianChannel.transmitComplex noisePower x fun i c => (us.getD (i.val * 2 + c.val) 0).2))
  | .chain n P, .simulate i _, us =>
      if h : i < n then (MarkovChain.simulate P ⟨i, h⟩ (us.map Prod.fst)).map (List.map Fin.val) else none
  | .chain n P, .untilAbsorption i, us =>
      if h : i < n then
        match simulateUntilAbsorption P ⟨i, h⟩ (us.map Prod.fst) with
        | .returns out => some (out.map Fin.val)
        | _ => none
      else none
  | _, _, _ => none

/-- The state of a session: the current global generator (global_rng.py:3), the objects created so far, each with the generator it keeps,
and the number of requests made so far to each generator. -/
structure World where
  current : ℕ
  objects : List (RandomObject × ℕ)
  used : ℕ → ℕ

/-- One statement of a session. -/
inductive Command
  /-- `komm.global_rng.set(g)` (global_rng.py:10-12). -/
  | set (g : ℕ)
  /-- A constructor, with the generator passed as `rng=`, if any. -/
  | new (o : RandomObject) (rng : Option ℕ)
  /-- A method of the `k`-th object. -/
  | call (k : ℕ) (c : Call)

/-- The next `m` answers of generator `g`. -/
def answers (ω : Randomness) (w : World) (g m : ℕ) : List (ℝ × ℝ) := (List.range m).map fun j => ω (g, w.used g + j)

/-- `Step ω w c y w'`: in state `w` the statement `c` completes with the response `y` (`[]` for statements other than calls) and leaves the
state `w'`.  A constructor keeps the generator passed to it, or else the current global one (`rng or global_rng.get()`,
DiscreteMemorylessSource.py:34, MarkovChain.py:51, DiscreteMemorylessChannel.py:27; `field(default_factory=global_rng.get)`,
BinarySymmetricChannel.py:29, BinaryErasureChannel.py:25, ZChannel.py:29, GaussianChannel.py:31); a call takes the next answers of the
generator that the object keeps. -/
def Step (ω : Randomness) (w : World) : Command → List ℕ → World → Prop
  | .set g, y, w' => y = [] ∧ w' = { w with current := g }
  | .new o rng, y, w' => y = [] ∧ o.accepted ∧ w' = { w with objects := w.objects ++ [(o, rng.getD w.current)] }
  | .call k c, y, w' => ∃ o g, w.objects[k]? = some (o, g) ∧ respond o c (answers ω w g (c.requests y)) = some y ∧
      w' = { w with used := Function.update w.used g (w.used g + c.requests y) }

/-- A session: a rule that chooses the next statement from the responses so far (the program of the user). -/
abbrev Program := List (List ℕ) → Command

/-- `Runs ω σ past w ys`: from state `w`, after the responses `past`, the program `σ` goes on with the responses `ys`. -/
def Runs (ω : Randomness) (σ : Program) : List (List ℕ) → World → List (List ℕ) → Prop
  | _, _, [] => True
  | past, w, y :: ys => ∃ w', Step ω w (σ past) y w' ∧ Runs ω σ (past ++ [y]) w' ys

/-- `DiscreteMemorylessSource(cardinality)` (DiscreteMemorylessSource.py:29-33): the probabilities of the source, or `ValueError`. -/
noncomputable def uniformPmf (cardinality : ℤ) : Option (Fin cardinality.toNat → ℝ) :=
  if ¬ (cardinality ≥ 1) then none
  else
    let pmf : Fin cardinality.toNat → ℝ := fun _ => 1 / (cardinality : ℝ)
    open Classical in if validPmf pmf = true then some pmf else none

end Komm.Session
