/-
Model of /repo/src/komm/_util/decorators.py:28-48 for one-dimensional arrays.
-/
namespace Komm

/-- `arr.reshape(-1, m)` of a one-dimensional array whose length is a multiple of `m ≥ 1`
(decorators.py:42): consecutive rows of `m` entries. -/
def chunks {α : Type} (m : Nat) (l : List α) : List (List α) :=
  (List.range (l.length / m)).map fun i => (l.drop (i * m)).take m

/-- `@blockwise(m)` over a function acting on each row (decorators.py:28-48): `none` is the `ValueError` of a
length that is not a multiple of `m` (and the `ZeroDivisionError` of `m = 0`).  `f` may itself fail on a row. -/
def blockwise {α β : Type} (m : Nat) (f : List α → Option (List β)) (l : List α) : Option (List β) :=
  if m = 0 then none
  else if l.length % m ≠ 0 then none
  else ((chunks m l).mapM f).map List.flatten

end Komm
