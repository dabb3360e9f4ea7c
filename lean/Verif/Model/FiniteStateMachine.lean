import Mathlib.Algebra.Order.Monoid.WithTop
import Mathlib.Analysis.SpecialFunctions.Log.Basic
import Mathlib.Data.Fintype.Basic
/-
Model of /repo/src/komm/_finite_state_machine/MealyMachine.py and MooreMachine.py.  The arrays `transitions` and
`outputs` are functions on `Fin S` (states) and `Fin X` (input symbols).
-/
namespace Komm

/-- `MealyMachine` (MealyMachine.py:51-53): arrays of shape `(S, X)`. -/
structure Mealy (S X : Nat) where
  next : Fin S → Fin X → Fin S
  out : Fin S → Fin X → Nat

/-- `MooreMachine` (MooreMachine.py:58-60). -/
structure Moore (S X : Nat) where
  next : Fin S → Fin X → Fin S
  out : Fin S → Nat

namespace Mealy
variable {S X : Nat}

/-- `MealyMachine.process` (MealyMachine.py:181-188), for a one-dimensional input. -/
def process (M : Mealy S X) (input : List (Fin X)) (initialState : Fin S) : List Nat × Fin S :=
  input.foldl (fun (acc : List Nat × Fin S) x => (acc.1 ++ [M.out acc.2 x], M.next acc.2 x)) ([], initialState)

/-- `input_edges[s0, s1]` (MealyMachine.py:123-127): the last input symbol leading from `s0` to `s1`, -1 if none. -/
def inputEdges (M : Mealy S X) (s0 s1 : Fin S) : Int :=
  (List.finRange X).foldl (fun (acc : Int) (x : Fin X) => if M.next s0 x = s1 then ((x : Nat) : Int) else acc) (-1)

/-- `output_edges[s0, s1]` (MealyMachine.py:145-149). -/
def outputEdges (M : Mealy S X) (s0 s1 : Fin S) : Int :=
  (List.finRange X).foldl (fun (acc : Int) (x : Fin X) => if M.next s0 x = s1 then ((M.out s0 x : Nat) : Int) else acc) (-1)

/-- The two loops over `s0` and over `zip(transitions[s0], outputs[s0])` for one time step
(MealyMachine.py:220-225, 263-268): new metrics (from `inf`) and choices (from 0).  `⊤` is `np.inf`. -/
def trellisStep {K Z : Type} [Add K] [LinearOrder K] [NeZero S] (M : Mealy S X) (metric : Nat → Z → K)
    (metrics : Fin S → WithTop K) (z : Z) : (Fin S → WithTop K) × (Fin S → Fin S) :=
  (List.finRange S).foldl (fun acc s0 =>
    (List.finRange X).foldl (fun (acc : (Fin S → WithTop K) × (Fin S → Fin S)) (x : Fin X) =>
      let s1 := M.next s0 x
      let candidate : WithTop K := metrics s0 + ((metric (M.out s0 x) z : K) : WithTop K)
      if candidate < acc.1 s1 then (Function.update acc.1 s1 candidate, Function.update acc.2 s1 s0) else acc) acc)
    (fun _ => ⊤, fun _ => 0)

/-- The forward pass of `viterbi` (MealyMachine.py:211-225): final metrics, and the choices, latest first. -/
def viterbiForward {K Z : Type} [Add K] [LinearOrder K] [NeZero S] (M : Mealy S X) (metric : Nat → Z → K)
    (initialMetrics : Fin S → WithTop K) (observed : List Z) : (Fin S → WithTop K) × List (Fin S → Fin S) :=
  observed.foldl (fun (acc : (Fin S → WithTop K) × List (Fin S → Fin S)) z =>
    ((M.trellisStep metric acc.1 z).1, (M.trellisStep metric acc.1 z).2 :: acc.2)) (initialMetrics, [])

/-- The backtracking of `viterbi` (MealyMachine.py:228-234) for one final state; the choices are latest first. -/
def backtrack (M : Mealy S X) : List (Fin S → Fin S) → Fin S → List Int
  | [], _ => []
  | choice :: earlier, s1 => M.backtrack earlier (choice s1) ++ [M.inputEdges (choice s1) s1]

/-- `viterbi` (MealyMachine.py:190-236): `input_hat[:, final_state]` and `metrics[L, final_state]`. -/
def viterbi {K Z : Type} [Add K] [LinearOrder K] [NeZero S] (M : Mealy S X) (metric : Nat → Z → K)
    (initialMetrics : Fin S → WithTop K) (observed : List Z) : (Fin S → List Int) × (Fin S → WithTop K) :=
  let r := M.viterbiForward metric initialMetrics observed
  (fun s => M.backtrack r.2 s, r.1)

/-! #### streaming Viterbi -/

/-- `MetricMemory` (MealyMachine.py:10-12): only the last column of `metrics` is ever read, so only it is kept;
`paths` has shape `(S, T + 1)`, here a list of columns per state. -/
structure Memory (S : Nat) (K : Type) where
  paths : Fin S → List (Fin S)
  metrics : Fin S → WithTop K

/-- The memory of a fresh `ViterbiStreamDecoder` (ViterbiStreamDecoder.py:31-37) with traceback length `tau` and initial
state `state`. -/
def Memory.fresh {K : Type} [Zero K] [NeZero S] (tau : Nat) (state : Fin S) : Memory S K where
  paths := fun _ => List.replicate (tau + 1) 0
  metrics := fun s => if s = state then 0 else ⊤

/-- `np.argmin` of an array of `S ≥ 1` metrics: the first minimiser. -/
def argminState {K : Type} [LinearOrder K] [NeZero S] (m : Fin S → WithTop K) : Fin S :=
  (List.finRange S).foldl (fun best s => if m s < m best then s else best) 0

/-- One iteration of `viterbi_streaming` (MealyMachine.py:260-281): the output symbol and the new memory.  The path that is
read is the one stored for the state `s_star` *before* the update. -/
def streamStep {K Z : Type} [Add K] [LinearOrder K] [NeZero S] (M : Mealy S X) (metric : Nat → Z → K)
    (memory : Memory S K) (z : Z) : Int × Memory S K :=
  let step := M.trellisStep metric memory.metrics z
  let sStar := argminState step.1
  let out := M.inputEdges ((memory.paths sStar).getD 0 0) ((memory.paths sStar).getD 1 0)
  (out, ⟨fun s1 => (memory.paths (step.2 s1)).drop 1 ++ [s1], step.1⟩)

/-- `viterbi_streaming` (MealyMachine.py:238-283): the outputs, and the memory after the call (it is mutated in place). -/
def viterbiStreaming {K Z : Type} [Add K] [LinearOrder K] [NeZero S] (M : Mealy S X) (metric : Nat → Z → K)
    (observed : List Z) (memory : Memory S K) : List Int × Memory S K :=
  observed.foldl (fun (acc : List Int × Memory S K) z =>
    let r := M.streamStep metric acc.2 z
    (acc.1 ++ [r.1], r.2)) ([], memory)

end Mealy

/-! #### forward-backward: arithmetic in the log domain, `⊥` is `-inf` -/

/-- `np.log` on a non-negative number (with `divide="ignore"`: `log 0 = -inf`). -/
noncomputable def npLog (x : ℝ) : WithBot ℝ := if x = 0 then ⊥ else ((Real.log x : ℝ) : WithBot ℝ)

/-- `np.exp`. -/
noncomputable def npExp : WithBot ℝ → ℝ
  | ⊥ => 0
  | (x : ℝ) => Real.exp x

/-- `np.logaddexp`. -/
noncomputable def logaddexp : WithBot ℝ → WithBot ℝ → WithBot ℝ
  | ⊥, b => b
  | (a : ℝ), ⊥ => ((a : ℝ) : WithBot ℝ)
  | (a : ℝ), (b : ℝ) => ((Real.log (Real.exp a + Real.exp b) : ℝ) : WithBot ℝ)

/-- `np.logaddexp.reduce` of `[f(0), …, f(S-1)]`. -/
noncomputable def logaddexpReduce {S : Nat} (f : Fin S → WithBot ℝ) : WithBot ℝ :=
  (List.finRange S).foldl (fun acc s => logaddexp acc (f s)) ⊥

namespace Mealy
variable {S X : Nat}

/-- `log_gamma[t]` (MealyMachine.py:330-333) for one observation `z` and the priors `p` of that time: for parallel
transitions the last input symbol overwrites the previous ones. -/
noncomputable def logGamma {Z : Type} (M : Mealy S X) (metric : Nat → Z → ℝ) (z : Z) (p : Fin X → ℝ)
    (s0 s1 : Fin S) : WithBot ℝ :=
  (List.finRange X).foldl (fun (acc : WithBot ℝ) (x : Fin X) =>
    if M.next s0 x = s1 then npLog (p x) + ((metric (M.out s0 x) z : ℝ) : WithBot ℝ) else acc) ⊥

/-- The forward recursion (MealyMachine.py:335-339) for one step. -/
noncomputable def alphaStep (gamma : Fin S → Fin S → WithBot ℝ) (alpha : Fin S → WithBot ℝ) : Fin S → WithBot ℝ :=
  fun s1 => logaddexpReduce fun s0 => gamma s0 s1 + alpha s0

/-- The backward recursion (MealyMachine.py:341-345) for one step. -/
noncomputable def betaStep (gamma : Fin S → Fin S → WithBot ℝ) (beta : Fin S → WithBot ℝ) : Fin S → WithBot ℝ :=
  fun s0 => logaddexpReduce fun s1 => gamma s0 s1 + beta s1

/-- `np.amax` over the inputs. -/
noncomputable def amax (l : Fin X → WithBot ℝ) : WithBot ℝ := (List.finRange X).foldl (fun acc x => max acc (l x)) ⊥

/-- One row of lines 358-361 of MealyMachine.py: subtract the maximum, exponentiate, normalise.  `none`: the maximum is
`-inf` and numpy produces `nan`. -/
noncomputable def normalizeRow (l : Fin X → WithBot ℝ) : Option (Fin X → ℝ) :=
  match amax l with
  | ⊥ => none
  | (m : ℝ) => some fun x =>
      npExp (l x + ((-m : ℝ) : WithBot ℝ)) / ∑ x', npExp (l x' + ((-m : ℝ) : WithBot ℝ))

/-- The output row at time `t` (MealyMachine.py:349-361).  `gammas` is the list of `log_gamma[t]`, `alpha` is
`log_alpha[t]` and `beta` is `log_beta[t + 1]`. -/
noncomputable def posteriorRow (M : Mealy S X) (gammas : List (Fin S → Fin S → WithBot ℝ))
    (init final : Fin S → WithBot ℝ) (t : Nat) : Option (Fin X → ℝ) :=
  let alpha := (gammas.take t).foldl (fun a g => alphaStep g a) init
  let beta := (gammas.drop (t + 1)).foldr betaStep final
  let gamma := gammas.getD t (fun _ _ => ⊥)
  normalizeRow fun x => logaddexpReduce fun s0 =>
    alpha s0 + gamma s0 (M.next s0 x) + beta (M.next s0 x)

/-- `forward_backward` (MealyMachine.py:285-363); the optional arguments default to uniform distributions.
The priors are indexed by time and input symbol. -/
noncomputable def forwardBackward {Z : Type} (M : Mealy S X) (metric : Nat → Z → ℝ) (observed : List Z)
    (inputPriors : Option (Nat → Fin X → ℝ)) (init final : Option (Fin S → ℝ)) : List (Option (Fin X → ℝ)) :=
  let priors := inputPriors.getD fun _ _ => 1 / (X : ℝ)
  let init := init.getD fun _ => 1 / (S : ℝ)
  let final := final.getD fun _ => 1 / (S : ℝ)
  let gammas := observed.mapIdx fun t z => M.logGamma metric z (priors t)
  (List.range observed.length).map fun t =>
    M.posteriorRow gammas (fun s => npLog (init s)) (fun s => npLog (final s)) t

end Mealy

/-- `MooreMachine.process` (MooreMachine.py:144-150). -/
def Moore.process {S X : Nat} (M : Moore S X) (input : List (Fin X)) (initialState : Fin S) : List Nat × Fin S :=
  input.foldl (fun (acc : List Nat × Fin S) x => (acc.1 ++ [M.out (M.next acc.2 x)], M.next acc.2 x)) ([], initialState)

end Komm
