import Verif.Lemmas.FiniteStateMachine
/-! C59: processing composes. -/
namespace Komm

/-- `MealyMachine.process` of a concatenation is `process` of the first part and then of the second part from the state
reached; one output per input; and the `t`-th output and the states follow the two tables. -/
theorem C59_mealy {S X : Nat} (M : Mealy S X) (s : Fin S) (xs ys : List (Fin X)) :
    M.process (xs ++ ys) s =
      ((M.process xs s).1 ++ (M.process ys (M.process xs s).2).1, (M.process ys (M.process xs s).2).2) ∧
    (M.process xs s).1.length = xs.length ∧
    M.process [] s = ([], s) ∧
    ∀ x, M.process [x] s = ([M.out s x], M.next s x) := by
  simp only [Mealy.process_eq, Mealy.outs_append, Mealy.run_append, Mealy.outs_length]
  exact ⟨trivial, trivial, rfl, fun x => rfl⟩

theorem Moore.process_append {S X : Nat} (M : Moore S X) (s : Fin S) (xs ys : List (Fin X)) :
    M.process (xs ++ ys) s =
      ((M.process xs s).1 ++ (M.process ys (M.process xs s).2).1, (M.process ys (M.process xs s).2).2) := by
  have key : ∀ (l : List (Fin X)) (a : List Nat) (s : Fin S),
      l.foldl (fun (acc : List Nat × Fin S) x => (acc.1 ++ [M.out (M.next acc.2 x)], M.next acc.2 x)) (a, s) =
      (a ++ (M.process l s).1, (M.process l s).2) := by
    intro l
    induction l with
    | nil => intro a s; simp [Moore.process]
    | cons x l ih =>
      intro a s
      have h : M.process (x :: l) s = ([] ++ [M.out (M.next s x)] ++ (M.process l (M.next s x)).1, (M.process l (M.next s x)).2) := by
        rw [← ih]; rfl
      rw [List.foldl_cons, ih, h]
      simp
  rw [Moore.process, List.foldl_append]
  exact key ys _ _

/-- `MooreMachine.process` likewise; a Moore machine emits the output of the state it enters. -/
theorem C59_moore {S X : Nat} (M : Moore S X) (s : Fin S) (xs ys : List (Fin X)) :
    M.process (xs ++ ys) s =
      ((M.process xs s).1 ++ (M.process ys (M.process xs s).2).1, (M.process ys (M.process xs s).2).2) ∧
    (M.process xs s).1.length = xs.length ∧
    M.process [] s = ([], s) ∧
    ∀ x, M.process [x] s = ([M.out (M.next s x)], M.next s x) := by
  refine ⟨M.process_append s xs ys, ?_, rfl, fun x => rfl⟩
  induction xs using List.reverseRecOn with
  | nil => rfl
  | append_singleton xs x ih =>
    rw [M.process_append, List.length_append, List.length_append, ih]; rfl

/-- The machine of the documentation. -/
def exampleMealy : Mealy 4 2 where
  next := fun s x => (![![0, 1], ![2, 3], ![0, 1], ![2, 3]] : Fin 4 → Fin 2 → Fin 4) s x
  out := fun s x => (![![0, 3], ![1, 2], ![3, 0], ![2, 1]] : Fin 4 → Fin 2 → Nat) s x

/-- MealyMachine.py:168-179. -/
example : exampleMealy.process [1, 1, 0, 1, 0] 0 = ([3, 2, 2, 0, 1], 2) := by decide

/-- MooreMachine.py:131-142. -/
example : (⟨fun s x => (![![0, 1], ![2, 3], ![0, 1], ![2, 3]] : Fin 4 → Fin 2 → Fin 4) s x,
    fun s => (![0, 0, 1, 1] : Fin 4 → Nat) s⟩ : Moore 4 2).process [1, 1, 0, 1, 0] 0 = ([0, 1, 1, 0, 1], 2) := by decide

/-- `input_edges`, `output_edges` (MealyMachine.py:111-150). -/
example : ((List.finRange 4).map fun s0 => (List.finRange 4).map fun s1 => exampleMealy.inputEdges s0 s1) =
    [[0, 1, -1, -1], [-1, -1, 0, 1], [0, 1, -1, -1], [-1, -1, 0, 1]] ∧
    ((List.finRange 4).map fun s0 => (List.finRange 4).map fun s1 => exampleMealy.outputEdges s0 s1) =
    [[0, 3, -1, -1], [-1, -1, 1, 2], [3, 0, -1, -1], [-1, -1, 2, 1]] := by decide

end Komm
