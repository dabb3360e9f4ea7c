import Mathlib.Algebra.Order.Field.Basic
import Mathlib.Algebra.Order.Field.Rat
import Mathlib.Data.Fintype.Basic
import Mathlib.Data.Finset.Image
import Mathlib.Algebra.BigOperators.Group.Finset.Basic
import Mathlib.Tactic.NormNum
import Mathlib.Data.Fin.VecNotation
/-! Model of `MarkovChain` (`src/komm/_sources/MarkovChain.py`): the structure of the chain.  States are `Fin n`; a transition matrix is a
function into a linearly ordered field (exact arithmetic).  Methods cached with `@cache` are pure functions here. -/
namespace Komm
variable {K : Type} [Field K] [LinearOrder K] [IsStrictOrderedRing K] {n : Nat}

/-- Square transition matrices. -/
abbrev TMat (K : Type) (n : Nat) := Fin n → Fin n → K

/-- `validate_transition_matrix(value, square=True)` (validators.py:44-60); `np.allclose(·, 1.0)` is exact equality here, and the shape
is in the type. -/
def validTransitionMatrix (P : TMat K n) : Bool :=
  decide (∀ i j, P i j ≥ 0) && decide (∀ i, ∑ j, P i j = 1)

namespace MarkovChain

/-- `self.transition_matrix > 0` (MarkovChain.py:78). -/
def adj (P : TMat K n) (i j : Fin n) : Bool := decide (P i j > 0)

/-- `np.flatnonzero(adjacency_matrix[state])` (MarkovChain.py:86). -/
def neighbors (P : TMat K n) (i : Fin n) : List (Fin n) := (List.finRange n).filter fun j : Fin n => adj P i j

/-- The loop of `_accessible_states_from` (MarkovChain.py:81-87), at most `fuel` iterations (`none` when they do not suffice).  The head of
the list is the top of the stack (the end of the Python list). -/
def accLoop (P : TMat K n) : Nat → List (Fin n) → Finset (Fin n) → Option (Finset (Fin n))
  | _, [], accessible => some accessible
  | 0, _ :: _, _ => none
  | fuel + 1, state :: stack, accessible =>
    if state ∈ accessible then accLoop P fuel stack accessible
    else
      let accessible' := insert state accessible
      accLoop P fuel (((neighbors P state).filter fun j : Fin n => j ∉ accessible').reverse ++ stack) accessible'

/-- `accessible_states_from(state)` (MarkovChain.py:77-88, 119). -/
def accessibleStatesFrom (P : TMat K n) (state : Fin n) : Option (Finset (Fin n)) := accLoop P (n * n + 1) [state] ∅

/-- `reach[i]` (MarkovChain.py:123, 247). -/
def reach (P : TMat K n) (i : Fin n) : Finset (Fin n) := (accessibleStatesFrom P i).getD ∅

/-- The loop of `_communicating_classes` (MarkovChain.py:126-133) over the remaining states. -/
def classesLoop (P : TMat K n) : List (Fin n) → Finset (Fin n) → List (Finset (Fin n))
  | [], _ => []
  | i :: is, visited =>
    if i ∈ visited then classesLoop P is visited
    else
      let eq := Finset.univ.filter fun j : Fin n => j ∈ reach P i ∧ i ∈ reach P j
      eq :: classesLoop P is (visited ∪ eq)

/-- `communicating_classes()` (MarkovChain.py:122-134, 160). -/
def communicatingClasses (P : TMat K n) : List (Finset (Fin n)) := classesLoop P (List.finRange n) ∅

/-- `is_irreducible()` (MarkovChain.py:195). -/
def isIrreducible (P : TMat K n) : Bool := (communicatingClasses P).length = 1

/-- `transient_states()` (MarkovChain.py:246-254, 280). -/
def transientStates (P : TMat K n) : Finset (Fin n) :=
  Finset.univ.filter fun i : Fin n => ∃ j ∈ reach P i, i ∉ reach P j

/-- `recurrent_states()` (MarkovChain.py:306). -/
def recurrentStates (P : TMat K n) : Finset (Fin n) := Finset.univ \ transientStates P

/-- `(Pn @ adjacency_matrix) > 0` on boolean arrays (MarkovChain.py:378). -/
def boolMul (A B : Fin n → Fin n → Bool) : Fin n → Fin n → Bool := fun i j => decide (∃ k, A i k = true ∧ B k j = true)

/-- The loop of `index_of_primitivity` (MarkovChain.py:375-378): `count` iterations left, the current one being number `m`. -/
def primitivityLoop (A : Fin n → Fin n → Bool) : Nat → Nat → (Fin n → Fin n → Bool) → Option Nat
  | 0, _, _ => none
  | count + 1, m, Pn => if ∀ i j, Pn i j = true then some m else primitivityLoop A count (m + 1) (boolMul Pn A)

/-- `index_of_primitivity()` (MarkovChain.py:372-379); `none` is the `ValueError`. -/
def indexOfPrimitivity (P : TMat K n) : Option Nat := primitivityLoop (adj P) ((n - 1) ^ 2 + 1) 1 (adj P)

/-- The inner loop of the breadth-first search (MarkovChain.py:579-583) over the neighbours `vs` of `u`; `lu` is `levels[u]`. -/
def bfsVisit (cls : Finset (Fin n)) (lu : Nat) : List (Fin n) → (Fin n → Option Nat) → List (Fin n) → (Fin n → Option Nat) × List (Fin n)
  | [], levels, queue => (levels, queue)
  | v :: vs, levels, queue =>
    if v ∈ cls ∧ levels v = none then bfsVisit cls lu vs (Function.update levels v (some (lu + 1))) (queue ++ [v])
    else bfsVisit cls lu vs levels queue

/-- The outer loop (MarkovChain.py:577-583), at most `fuel` iterations. -/
def bfsLoop (P : TMat K n) (cls : Finset (Fin n)) : Nat → (Fin n → Option Nat) → List (Fin n) → Option (Fin n → Option Nat)
  | _, levels, [] => some levels
  | 0, _, _ :: _ => none
  | fuel + 1, levels, u :: queue =>
    match levels u with
    | none => none
    | some lu =>
      let r := bfsVisit cls lu (neighbors P u) levels queue
      bfsLoop P cls fuel r.1 r.2

/-- One step of the gcd accumulation (MarkovChain.py:587-589); `none` is the `KeyError` of `levels[·]`. -/
def gcdStep (cls : Finset (Fin n)) (levels : Fin n → Option Nat) (u : Fin n) (d : Option Nat) (v : Fin n) : Option Nat :=
  if v ∈ cls then
    match d, levels u, levels v with
    | some d, some lu, some lv => some (Int.gcd d ((lu : Int) + 1 - lv))
    | _, _, _ => none
  else d

/-- `period(state)` (MarkovChain.py:546-590).  The iteration order of the frozenset `cls` (which does not matter) is increasing here. -/
def period (P : TMat K n) (state : Fin n) : Option Nat :=
  match (communicatingClasses P).find? fun c : Finset (Fin n) => state ∈ c with
  | none => none
  | some cls =>
    match bfsLoop P cls n (Function.update (fun _ => none) state (some 0)) [state] with
    | none => none
    | some levels =>
      ((List.finRange n).filter fun u : Fin n => u ∈ cls).foldl
        (fun (d : Option Nat) (u : Fin n) => (neighbors P u).foldl (gcdStep cls levels u) d) (some 0)

/-- `is_aperiodic()` (MarkovChain.py:625). -/
def isAperiodic (P : TMat K n) : Bool := decide (∀ i, period P i = some 1)

/-- `is_regular()` (MarkovChain.py:341). -/
def isRegular (P : TMat K n) : Bool := isIrreducible P && isAperiodic P

/-- `absorbing_states()` (MarkovChain.py:413). -/
def absorbingStates (P : TMat K n) : Finset (Fin n) := Finset.univ.filter fun i : Fin n => P i i = 1

/-- `is_absorbing()` (MarkovChain.py:448-454). -/
def isAbsorbing (P : TMat K n) : Bool :=
  if absorbingStates P = ∅ then false
  else decide (∀ i ∈ Finset.univ \ absorbingStates P, ¬ absorbingStates P ∩ reach P i = ∅)

/-- The documented chains (MarkovChain.py docstrings). -/
example :
    let A : TMat Rat 3 := ![![1/2, 1/4, 1/4], ![1/2, 0, 1/2], ![1/4, 1/4, 1/2]]
    let B : TMat Rat 3 := ![![1/2, 1/2, 0], ![1/2, 1/2, 0], ![0, 0, 1]]
    let C : TMat Rat 3 := ![![1/2, 1/2, 0], ![1/2, 0, 1/2], ![0, 0, 1]]
    let D : TMat Rat 3 := ![![0, 1, 0], ![0, 0, 1], ![1, 0, 0]]
    validTransitionMatrix A = true ∧ accessibleStatesFrom A 1 = some {0, 1, 2} ∧ accessibleStatesFrom B 0 = some {0, 1} ∧
    accessibleStatesFrom B 2 = some {2} ∧ communicatingClasses A = [{0, 1, 2}] ∧ communicatingClasses B = [{0, 1}, {2}] ∧
    transientStates A = ∅ ∧ transientStates C = {0, 1} ∧ recurrentStates C = {2} ∧ indexOfPrimitivity A = some 2 ∧
    indexOfPrimitivity B = none ∧ period A 1 = some 1 ∧ period D 0 = some 3 ∧ isRegular A = true ∧ isRegular D = false ∧
    absorbingStates C = {2} ∧ isAbsorbing C = true ∧ isAbsorbing B = false := by decide +kernel

end MarkovChain
end Komm
