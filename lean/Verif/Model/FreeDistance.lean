import Verif.Model.Convolutional
import Verif.Model.Lexicode
/-
Model of `free_distance` (/repo/src/komm/_error_control_convolutional/base.py:179-200).
-/
namespace Komm
namespace Mealy
variable {S X : Nat}

/-- Comparison of the tuples `(weight, state)` by `heapq`. -/
def itemLE (a b : Nat × Fin S) : Bool := a.1 < b.1 || (a.1 == b.1 && (a.2 : Nat) ≤ (b.2 : Nat))

/-- The smallest item of a non-empty heap. -/
def heapMin (a : Nat × Fin S) (l : List (Nat × Fin S)) : Nat × Fin S :=
  l.foldl (fun m b => if itemLE m b then m else b) a

/-- `heappop`: the smallest item and the other items (a heap is modelled by the list of its items). -/
def heapPop : List (Nat × Fin S) → Option ((Nat × Fin S) × List (Nat × Fin S))
  | [] => none
  | a :: l => some (heapMin a l, (a :: l).erase (heapMin a l))

/-- The body of the loop over the input symbols (base.py:193-199). -/
def relax (M : Mealy S X) (w : Nat) (s : Fin S) (acc : (Fin S → WithTop Nat) × List (Nat × Fin S)) (x : Fin X) :
    (Fin S → WithTop Nat) × List (Nat × Fin S) :=
  let s1 := M.next s x
  let w1 := w + bitCount (M.out s x)
  if ((w1 : Nat) : WithTop Nat) < acc.1 s1 then (Function.update acc.1 s1 ((w1 : Nat) : WithTop Nat), (w1, s1) :: acc.2)
  else if (s1 : Nat) = 0 ∧ w1 > 0 then (acc.1, (w1, s1) :: acc.2)
  else acc

/-- The `while` loop (base.py:188-200).  `some (some d)` is `return d`, `some none` is `raise RuntimeError`, `none` means that the
fuel ran out. -/
def freeLoop (M : Mealy S X) : Nat → (Fin S → WithTop Nat) → List (Nat × Fin S) → Option (Option Nat)
  | 0, _, _ => none
  | fuel + 1, best, heap =>
    match heapPop heap with
    | none => some none
    | some ((w, s), rest) =>
      if (s : Nat) = 0 ∧ w > 0 then some (some w)
      else
        let r := (List.finRange X).foldl (M.relax w s) (best, rest)
        M.freeLoop fuel r.1 r.2

/-- `free_distance` for a machine (base.py:185-200); `np.inf` is `⊤`. -/
def freeDistance [NeZero S] (M : Mealy S X) (fuel : Nat) : Option (Option Nat) :=
  M.freeLoop fuel (fun _ => ⊤) [(0, 0)]

end Mealy

/-- `free_distance` of a convolutional code (base.py:179-200). -/
def StateSpace.freeDistance {k n σ : Nat} (c : StateSpace k n σ) (fuel : Nat) : Option (Option Nat) :=
  haveI : NeZero (2 ^ σ) := ⟨(Nat.two_pow_pos σ).ne'⟩
  c.finiteStateMachine.freeDistance fuel

end Komm
