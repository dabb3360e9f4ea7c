import Verif.Model.LosslessCodes
/-
Model of the classmethods `from_enc_mapping` (FixedToVariableCode.py), `from_dec_mapping` and
`from_sourcewords` (VariableToFixedCode.py).
-/
namespace Komm

/-- `max(max(word) for word in words)` (FixedToVariableCode.py:100-101, VariableToFixedCode.py:105-106, 170);
`none`: `max()` of an empty sequence raises. -/
def maxSymbol (words : List Word) : Option Nat :=
  if words = [] then none
  else if words.any fun w => w.length = 0 then none
  else some ((words.map fun w => w.foldr max 0).foldr max 0)

/-- `FixedToVariableCode.from_enc_mapping` (FixedToVariableCode.py:66-103). -/
def FVCode.fromEncMapping (enc : List (Word × Word)) : Option FVCode :=
  match maxSymbol (enc.map Prod.fst), maxSymbol (enc.map Prod.snd) with
  | some mx, some my => FVCode.create (mx + 1) (my + 1) ((enc.map Prod.fst).headD []).length enc
  | _, _ => none

/-- `VariableToFixedCode.from_dec_mapping` (VariableToFixedCode.py:67-108). -/
def VFCode.fromDecMapping (dec : List (Word × Word)) : Option VFCode :=
  match maxSymbol (dec.map Prod.fst), maxSymbol (dec.map Prod.snd) with
  | some my, some mx => VFCode.create (my + 1) (mx + 1) ((dec.map Prod.fst).headD []).length dec
  | _, _ => none

/-- `next(n for n in count(1) if calY**n >= size)` (VariableToFixedCode.py:171), from the current `n`, with
fuel; `size` steps suffice when `calY ≥ 2`. -/
def leastPowerFrom (calY size : Nat) : (fuel n : Nat) → Nat
  | 0, n => n
  | fuel + 1, n => if size ≤ calY ^ n then n else leastPowerFrom calY size fuel (n + 1)

/-- `VariableToFixedCode.from_sourcewords` (VariableToFixedCode.py:110-173). -/
def VFCode.fromSourcewords (sourcewords : List Word) (calY : Nat := 2) : Option VFCode :=
  if sourcewords.any fun w => w.length = 0 then none
  else if calY < 2 then none
  else
    match maxSymbol sourcewords with
    | none => none
    | some mx =>
      let n := leastPowerFrom calY sourcewords.length sourcewords.length 1
      VFCode.create calY (mx + 1) n (dictOfPairs ((allWords calY n).zip sourcewords))

end Komm
