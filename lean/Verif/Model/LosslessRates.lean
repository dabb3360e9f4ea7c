import Verif.Model.LosslessCodes
/-! Model of `FixedToVariableCode.kraft_parameter` and `VariableToFixedCode.rate`, in exact arithmetic. -/
namespace Komm

/-- `kraft_parameter` (FixedToVariableCode.py:411-413). -/
def FVCode.kraftParameter (c : FVCode) : ℚ :=
  ((c.codewords.map List.length).map fun l => (1 : ℚ) / (c.targetCardinality : ℚ) ^ l).sum

/-- `rate` (VariableToFixedCode.py:358-363); `none` is the `IndexError` for a symbol outside the pmf, or a division by zero (numpy
returns `inf` there; this does not happen for a fully covering code and a valid pmf). -/
def VFCode.rate (c : VFCode) (pmf : List ℚ) : Option ℚ :=
  if c.sourcewords.any fun x => x.any fun symb => pmf.length ≤ symb then none
  else
    let probabilities := c.sourcewords.map fun x => (x.map fun symb => pmf.getD symb 0).prod
    let lengths := c.sourcewords.map List.length
    let dot := (List.zipWith (fun (l : Nat) (p : ℚ) => l * p) lengths probabilities).sum
    if dot = 0 then none else some ((c.targetBlockSize : ℚ) / dot)

end Komm
