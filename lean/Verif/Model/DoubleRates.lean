import Verif.Model.LosslessRates
import Verif.Model.DoubleInfo
import Verif.Model.DoubleLog
/-
`rate` and `kraft_parameter` of the source codes (/repo/src/komm/_lossless_coding/FixedToVariableCode.py, VariableToFixedCode.py) in double precision.  The validation of the pmf is that of the other
models and is not repeated.
-/
namespace Komm

/-- `ProdOf l v`: `v` is what some program that multiplies the doubles of the non-empty list `l`, two at a time and each product rounded, in any order and association, computes (`np.prod`). -/
inductive ProdOf : List Double → Double → Prop
  | one (x : Double) : ProdOf [x] x
  | mul {l l' : List Double} {a b : Double} : ProdOf l a → ProdOf l' b → ProdOf (l ++ l') (a * b)
  | perm {l l' : List Double} {a : Double} : l.Perm l' → ProdOf l a → ProdOf l' a

/-- `product(pmf, repeat=k)` (FixedToVariableCode.py:437). -/
def tuplesOf {α : Type} (pmf : List α) : (k : Nat) → List (List α)
  | 0 => [[]]
  | k + 1 => pmf.flatMap fun p => (tuplesOf pmf k).map (p :: ·)

/-- `FixedToVariableCode.rate` (FixedToVariableCode.py:434-439); `prod` is `np.prod`, `dot` is `np.dot`; `none` when `np.dot` rejects the shapes. -/
noncomputable def fvRateD (prod : List Double → Double) (dot : List (ℝ × ℝ) → Double) (c : FVCode) (pmf : List Double) : Option ℝ :=
  let probabilities := (tuplesOf pmf c.sourceBlockSize).map prod
  let lengths := c.codewords.map List.length
  if lengths.length ≠ probabilities.length then none
  else some (rnd ((dot (List.zipWith (fun (l : Nat) (p : Double) => ((l : ℝ), p.val)) lengths probabilities)).val / c.sourceBlockSize))

open Classical in
/-- `VariableToFixedCode.rate` (VariableToFixedCode.py:358-363); `none` is the `IndexError` for a symbol outside the pmf, or a division by zero (numpy returns `inf` there). -/
noncomputable def vfRateD (prod : List Double → Double) (dot : List (ℝ × ℝ) → Double) (c : VFCode) (pmf : List Double) : Option ℝ :=
  if ∃ w ∈ c.sourcewords, ∃ a ∈ w, pmf.length ≤ a then none
  else
    let d := dot (c.sourcewords.map fun w : Word => ((w.length : ℝ), (prod (w.map fun a => pmf.getD a 0)).val))
    if d.val = 0 then none else some (rnd (c.targetBlockSize / d.val))

/-- `kraft_parameter` (FixedToVariableCode.py:411-413); `fp b l` is `np.float_power(b, -l)`, `sum` is `np.sum`. -/
noncomputable def kraftD (sum : List Double → Double) (fp : Nat → Nat → Double) (c : FVCode) : ℝ :=
  (sum ((c.codewords.map List.length).map fun l : Nat => fp c.targetCardinality l)).val

/-- What is assumed of `np.float_power`: exact when the result is representable, and accurate to a unit in the last place otherwise. -/
structure FloatPowerAccurate (fp : Nat → Nat → Double) : Prop where
  exact : ∀ b l : Nat, IsDouble (1 / (b : ℝ) ^ l) → (fp b l).val = 1 / (b : ℝ) ^ l
  near : ∀ b l : Nat, |(fp b l).val - 1 / (b : ℝ) ^ l| ≤ 1 / (b : ℝ) ^ l / 2 ^ 52 + 2 ^ (-1074 : ℤ)

end Komm
