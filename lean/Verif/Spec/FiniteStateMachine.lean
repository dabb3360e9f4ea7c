import Verif.Model.FiniteStateMachine
/-! Specification of trajectories through a Mealy machine. -/
namespace Komm.Mealy
variable {S X : Nat}

/-- The state reached from `s` by the inputs `xs`. -/
def run (M : Mealy S X) : Fin S → List (Fin X) → Fin S
  | s, [] => s
  | s, x :: xs => M.run (M.next s x) xs

/-- The outputs produced from `s` by the inputs `xs`. -/
def outs (M : Mealy S X) : Fin S → List (Fin X) → List Nat
  | _, [] => []
  | s, x :: xs => M.out s x :: M.outs (M.next s x) xs

/-- The total metric of the trajectory from `s` with inputs `xs` against the observations `zs`. -/
def cost {K Z : Type} [AddCommMonoid K] (M : Mealy S X) (metric : Nat → Z → K) (s : Fin S) (xs : List (Fin X))
    (zs : List Z) : K := (List.zipWith metric (M.outs s xs) zs).sum

/-- The sequence of states visited from `s` with inputs `xs` (both ends included). -/
def states (M : Mealy S X) : Fin S → List (Fin X) → List (Fin S)
  | s, [] => [s]
  | s, x :: xs => s :: M.states (M.next s x) xs

/-- No two different inputs lead from one state to the same next state. -/
def NoParallel (M : Mealy S X) : Prop := ∀ s x x', M.next s x = M.next s x' → x = x'

end Komm.Mealy

namespace Komm.Mealy
open scoped BigOperators
variable {S X : Nat}

/-- Joint weight of: initial state `s`, inputs `xs`, the observations `zs`, and the final-state weight:
`init(s) · ∏ₜ prior(t, xₜ) · exp(total metric) · final(s_L)`. -/
noncomputable def jointWeight {Z : Type} (M : Mealy S X) (metric : Nat → Z → ℝ) (zs : List Z)
    (prior : Nat → Fin X → ℝ) (init final : Fin S → ℝ) (s : Fin S) (xs : Fin zs.length → Fin X) : ℝ :=
  init s * (∏ t : Fin zs.length, prior t (xs t)) * Real.exp (M.cost metric s (List.ofFn xs) zs) * final (M.run s (List.ofFn xs))

end Komm.Mealy
