import Verif.Model.Polar
import Verif.Model.Blockwise
import Mathlib.Analysis.SpecialFunctions.Log.Basic
/-
Model of /repo/src/komm/_error_control_decoders/SCDecoder.py and of `boxplus` and `logcosh` in
/repo/src/komm/_util/special_functions.py.  Floating-point numbers are reals (no infinities).  The loop is written for any scalar `boxplus` and any addition: `scBlock` has exact ones,
`Model/DoubleDecoders.lean` has the rounded ones of `float64`.
-/
namespace Komm

/-- `np.sign`. -/
noncomputable def npSign (x : ℝ) : ℝ := if x < 0 then -1 else if x = 0 then 0 else 1

/-- `boxplus` of two scalars (special_functions.py:162-165). -/
noncomputable def boxplus (a b : ℝ) : ℝ :=
  let s := npSign a * npSign b * min |a| |b|
  let p1 := Real.exp (-|a + b|)
  let p2 := Real.exp (-|a - b|)
  s + Real.log (1 + p1) - Real.log (1 + p2)

/-- `boxplus` of two arrays (special_functions.py:158-165); `none` is `ValueError`. -/
noncomputable def boxplusArray (a b : List ℝ) : Option (List ℝ) :=
  if a.length ≠ b.length then none else some (List.zipWith boxplus a b)

/-- `boxplus` of two arrays with a scalar operation `f` (special_functions.py:158-165). -/
def boxplusArrayF (f : ℝ → ℝ → ℝ) (a b : List ℝ) : Option (List ℝ) :=
  if a.length ≠ b.length then none else some (List.zipWith f a b)

/-- `logcosh` (special_functions.py:129-133). -/
noncomputable def logcosh (x : ℝ) : ℝ :=
  let s := npSign x * x
  let p := Real.exp (-2 * s)
  s + Real.log (1 + p) - Real.log 2

/-- `g` (SCDecoder.py:17-18); the three arrays have the same size. -/
def scG (add : ℝ → ℝ → ℝ) (r s : List ℝ) (b : List (ZMod 2)) : List ℝ :=
  List.zipWith add s (List.zipWith (fun (b : ZMod 2) (r : ℝ) => (-1) ^ b.val * r) b r)

/-- The variables of the loop (SCDecoder.py:60-62).  The dictionaries are functions; `none` is an absent key. -/
structure SCState where
  depth : Int
  index : Nat
  beliefs : Nat × Nat → Option (List ℝ)
  decisions : Nat × Nat → Option (List (ZMod 2))

/-- `d[key] = value`. -/
def dictSet {α : Type} (d : Nat × Nat → Option α) (key : Nat × Nat) (value : α) : Nat × Nat → Option α :=
  fun x => if x = key then some value else d x

open Classical in
/-- One pass of the loop body (SCDecoder.py:64-89); `none` is a `KeyError` or the `ValueError` of `boxplus`. -/
noncomputable def scStep (f add : ℝ → ℝ → ℝ) (mu : Nat) (frozen : List Nat) (s : SCState) : Option SCState :=
  let depth := s.depth.toNat
  let active := (depth, s.index)
  if depth = mu then
    if s.index ∈ frozen then
      some { s with decisions := dictSet s.decisions active [0], depth := s.depth - 1, index := s.index / 2 }
    else (s.beliefs active).bind fun belief =>
      some { s with
        decisions := dictSet s.decisions active (belief.map fun x : ℝ => if x < 0 then 1 else 0)
        depth := s.depth - 1, index := s.index / 2 }
  else
    let childL := (depth + 1, s.index * 2)
    let childR := (depth + 1, s.index * 2 + 1)
    (s.beliefs active).bind fun msg =>
      let M := msg.length
      match s.decisions childL, s.decisions childR with
      | none, _ =>
        (boxplusArrayF f (msg.take (M / 2)) (msg.drop (M / 2))).bind fun belief =>
          some { s with beliefs := dictSet s.beliefs childL belief, depth := s.depth + 1, index := s.index * 2 }
      | some side, none =>
        some { s with
          beliefs := dictSet s.beliefs childR (scG add (msg.take (M / 2)) (msg.drop (M / 2)) side)
          depth := s.depth + 1, index := s.index * 2 + 1 }
      | some a, some b =>
        some { s with
          decisions := dictSet s.decisions active (List.zipWith (fun (x : ZMod 2) (y : ZMod 2) => x + y) a b ++ b)
          depth := s.depth - 1, index := s.index / 2 }

/-- `while active[0] >= 0` (SCDecoder.py:63-89) with at most `fuel` passes; `none`: an exception, or the fuel ran out. -/
noncomputable def scLoop (f add : ℝ → ℝ → ℝ) (mu : Nat) (frozen : List Nat) : Nat → SCState → Option SCState
  | 0, s => if s.depth ≥ 0 then none else some s
  | fuel + 1, s => if s.depth ≥ 0 then (scStep f add mu frozen s).bind (scLoop f add mu frozen fuel) else some s

/-- The inner `decode` (SCDecoder.py:57-91) for `PolarCode(mu, frozen)`.  A pass visits a leaf once and an interior node three
times, `4 · 2 ^ mu` is more than enough. -/
noncomputable def scBlockF (f add : ℝ → ℝ → ℝ) (mu : Nat) (frozen : List Nat) (li : List ℝ) : Option (List ℝ) :=
  (scLoop f add mu frozen (4 * 2 ^ mu) ⟨0, 0, dictSet (fun _ => none) (0, 0) li, fun _ => none⟩).bind fun s =>
    (polarActive mu frozen).mapM fun i : Nat => (s.beliefs (mu, i)).bind fun l : List ℝ => l[0]?

/-- The inner `decode` (SCDecoder.py:57-91) in exact arithmetic. -/
noncomputable def scBlock (mu : Nat) (frozen : List Nat) (li : List ℝ) : Option (List ℝ) :=
  scBlockF boxplus (fun x y => x + y) mu frozen li

/-- `SCDecoder(code, "soft").decode` (SCDecoder.py:41-97). -/
noncomputable def scSoft (mu : Nat) (frozen : List Nat) (li : List ℝ) : Option (List ℝ) :=
  blockwise (2 ^ mu) (scBlock mu frozen) li

open Classical in
/-- `SCDecoder(code, "hard").decode` (SCDecoder.py:94-95). -/
noncomputable def scHard (mu : Nat) (frozen : List Nat) (li : List ℝ) : Option (List (ZMod 2)) :=
  (scSoft mu frozen li).map fun l : List ℝ => l.map fun x : ℝ => if x < 0 then 1 else 0

end Komm
