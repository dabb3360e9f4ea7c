import Verif.Model.Pulses
/-
The two methods of /repo/src/komm/_pulses/RaisedCosinePulse.py that use `np.isclose` to find removable singularities, with the tolerance of `np.isclose` (in `Model/Pulses.lean` it is
modelled as equality).  Otherwise exact real numbers.
-/
namespace Komm

/-- `np.isclose(a, b)` with the default tolerances `rtol = 1e-5`, `atol = 1e-8`. -/
def isCloseTo (a b : ℝ) : Prop := |a - b| ≤ 1 / 10 ^ 8 + 1 / 10 ^ 5 * |b|

open Classical in
/-- `_RootRaisedCosinePulse.waveform` (RaisedCosinePulse.py:204-224): the second assignment overwrites the first. -/
noncomputable def rrcWaveformTol (α t : ℝ) : ℝ :=
  if α = 0 then npSinc t
  else
    let num := Real.sin (2 * Real.pi * ((1 - α) / 2) * t) + 4 * α * t * Real.cos (2 * Real.pi * ((1 + α) / 2) * t)
    let den := Real.pi * t * (1 - (4 * α * t) ^ 2)
    let w0 := num / den
    let w1 := if isCloseTo t 0 then 1 + α * (4 / Real.pi - 1) else w0
    if isCloseTo |t| (1 / (4 * α)) then
      α / Real.sqrt 2 * ((1 + 2 / Real.pi) * Real.sin (Real.pi / (4 * α)) + (1 - 2 / Real.pi) * Real.cos (Real.pi / (4 * α)))
    else w1

open Classical in
/-- `RaisedCosinePulse.autocorrelation` (RaisedCosinePulse.py:120-132). -/
noncomputable def rcAutocorrelationTol (α τ : ℝ) : ℝ :=
  if α = 0 then npSinc τ
  else
    let term := npSinc (α * τ) * Real.cos (Real.pi * τ) / (1 - (α * τ) ^ 2)
    let term1 := if isCloseTo |τ| (1 / α) then Real.cos (Real.pi / α) / 2 else term
    raisedCosine τ α - α / 4 * term1

/-- The object `RaisedCosinePulse(rolloff)` (RaisedCosinePulse.py:49-164), with the tolerance. -/
noncomputable def raisedCosinePulseTol (α : ℝ) : Option Pulse :=
  (raisedCosinePulse α).map fun P : Pulse => { P with autocorrelation := rcAutocorrelationTol α }

/-- The object `RaisedCosinePulse(rolloff).root()` (RaisedCosinePulse.py:181-224), with the tolerance. -/
noncomputable def rootRaisedCosinePulseTol (α : ℝ) : Option Pulse :=
  (raisedCosinePulse α).map fun P : Pulse => rootPulse P (rrcWaveformTol α)

end Komm
