import Mathlib.Analysis.SpecialFunctions.Pow.Complex
import Mathlib.Analysis.SpecialFunctions.Trigonometric.Basic
import Mathlib.Data.EReal.Basic
import Mathlib.MeasureTheory.Integral.IntervalIntegral.Basic
/-
Model of /repo/src/komm/_pulses, with exact real and complex numbers.  The methods act entrywise on arrays; the model is the
action on one entry.  `np.isclose(a, b)`, which decides when the value at a removable singularity is used, is modelled as
equality (in floating point it is an absolute tolerance 1e-8 plus a relative tolerance 1e-5).
The 256-node Gauss-Legendre quadrature in `_RootBeaulieuPulse.waveform` is modelled as the integral that it approximates.
-/
namespace Komm

/-- `np.sinc` (numpy): `sin(πx) / (πx)`, and 1 at 0. -/
noncomputable def npSinc (x : ℝ) : ℝ := if x = 0 then 1 else Real.sin (Real.pi * x) / (Real.pi * x)

/-- `rect` (_pulses/util.py:5-7). -/
noncomputable def npRect (x : ℝ) : ℝ := if -(1 / 2) ≤ x ∧ x < 1 / 2 then 1 else 0

/-- `tri` (_pulses/util.py:10-12). -/
noncomputable def npTri (x : ℝ) : ℝ := (1 - |x|) * (if -1 ≤ x then 1 else 0) * (if x < 1 then 1 else 0) + 0

/-- `raised_cosine` (_pulses/util.py:15-18). -/
noncomputable def raisedCosine (x α : ℝ) : ℝ :=
  Real.pi / 4 * npSinc x * (npSinc (α * x + 1 / 2) + npSinc (α * x - 1 / 2)) + 0

/-- The methods of a pulse object (_pulses/base.py:10-53). -/
structure Pulse where
  waveform : ℝ → ℝ
  spectrum : ℝ → ℂ
  energy : ℝ
  autocorrelation : ℝ → ℝ
  energySpectralDensity : ℝ → ℝ
  support : EReal × EReal

namespace Pulse

/-- The times at which `taps` samples the waveform (base.py:71-74): `np.arange(start * sps, end * sps + 1) / sps`, for `sps ≥ 1`. -/
noncomputable def tapTimes (sps : Nat) (start stop : Int) : List ℝ :=
  (List.range (stop * sps + 1 - start * sps).toNat).map fun i : Nat => (((start * sps + i : Int) : ℝ) / (sps : ℝ))

open Classical in
/-- `taps` (base.py:55-74); `none` is `ValueError`. -/
noncomputable def taps (P : Pulse) (sps : Nat) (span : Option (Int × Int)) : Option (List ℝ) :=
  if span = none ∧ (P.support.1 = ⊥ ∨ P.support.2 = ⊤) then none
  else some ((tapTimes sps (span.getD (0, 1)).1 (span.getD (0, 1)).2).map P.waveform)

end Pulse

/-- `RectangularPulse(width)` (RectangularPulse.py:65-176). -/
noncomputable def rectangularPulse (w : ℝ) : Pulse where
  waveform t := npRect ((t - w / 2) / w)
  spectrum f := ((w * npSinc (w * f) : ℝ) : ℂ) * Complex.exp (-2 * Complex.I * Real.pi * w / 2 * f)
  energy := w
  autocorrelation τ := w * npTri (τ / w)
  energySpectralDensity f := w ^ 2 * npSinc (w * f) ^ 2
  support := ((0 : ℝ), w)

/-- `ManchesterPulse()` (ManchesterPulse.py:49-129). -/
noncomputable def manchesterPulse : Pulse where
  waveform t := -npRect (2 * (t - 1 / 4)) + npRect (2 * (t - 3 / 4))
  spectrum f := ((npSinc (f / 2) * Real.sin (2 * Real.pi * f / 4) : ℝ) : ℂ) * Complex.exp (-2 * Complex.I * Real.pi * (f / 2 + 1 / 4))
  energy := 1
  autocorrelation τ := npTri (2 * τ) - 1 / 2 * npTri (2 * (τ - 1 / 2)) - 1 / 2 * npTri (2 * (τ + 1 / 2))
  energySpectralDensity f := npSinc (f / 2) ^ 2 * Real.sin (2 * Real.pi * f / 4) ^ 2
  support := ((0 : ℝ), (1 : ℝ))

/-- `b_bar` (GaussianPulse.py:55). -/
noncomputable def gaussianB (B : ℝ) : ℝ := B / Real.sqrt (Real.log 2)

/-- `GaussianPulse(half_power_bandwidth)` (GaussianPulse.py:36-130); `none` is `ValueError`. -/
noncomputable def gaussianPulse (B : ℝ) : Option Pulse :=
  if ¬ B > 0 then none
  else some {
    waveform := fun t => Real.exp (-(1 / 2) * (2 * Real.pi * gaussianB B * t) ^ 2)
    spectrum := fun f => ((1 / (Real.sqrt (2 * Real.pi) * gaussianB B) * Real.exp (-(1 / 2) * (f / gaussianB B) ^ 2) : ℝ) : ℂ)
    energy := 1 / (2 * Real.sqrt Real.pi * gaussianB B)
    autocorrelation := fun τ => 1 / (2 * Real.sqrt Real.pi * gaussianB B) * Real.exp (-(Real.pi * gaussianB B * τ) ^ 2)
    energySpectralDensity := fun f => 1 / (2 * Real.pi * gaussianB B ^ 2) * Real.exp (-(f / gaussianB B) ^ 2)
    support := (⊥, ⊤) }

/-- `SincPulse()` (SincPulse.py:44-122). -/
noncomputable def sincPulse : Pulse where
  waveform t := npSinc t
  spectrum f := ((npRect f : ℝ) : ℂ)
  energy := 1
  autocorrelation τ := npSinc τ
  energySpectralDensity f := npRect f
  support := (⊥, ⊤)

/-- `SincPulse().root()` (SincPulse.py:139-148). -/
noncomputable def rootSincPulse : Pulse := sincPulse

/-- `RaisedCosinePulse.spectrum` (RaisedCosinePulse.py:78-89). -/
noncomputable def rcSpectrum (α f : ℝ) : ℂ :=
  if α = 0 then ((npRect f : ℝ) : ℂ)
  else if |f| < (1 - α) / 2 then 1
  else if (1 - α) / 2 ≤ |f| ∧ |f| < (1 + α) / 2 then ((1 / 2 * (1 + Real.cos (Real.pi * (|f| - (1 - α) / 2) / α)) : ℝ) : ℂ)
  else 0

/-- `RaisedCosinePulse.autocorrelation` (RaisedCosinePulse.py:120-132). -/
noncomputable def rcAutocorrelation (α τ : ℝ) : ℝ :=
  if α = 0 then npSinc τ
  else raisedCosine τ α - α / 4 *
    (if |τ| = 1 / α then Real.cos (Real.pi / α) / 2
     else npSinc (α * τ) * Real.cos (Real.pi * τ) / (1 - (α * τ) ^ 2))

/-- `RaisedCosinePulse(rolloff)` (RaisedCosinePulse.py:49-164); `none` is `ValueError`. -/
noncomputable def raisedCosinePulse (α : ℝ) : Option Pulse :=
  if ¬ (0 ≤ α ∧ α ≤ 1) then none
  else some {
    waveform := fun t => raisedCosine t α
    spectrum := rcSpectrum α
    energy := 1 - α / 4
    autocorrelation := rcAutocorrelation α
    energySpectralDensity := fun f => ‖rcSpectrum α f‖ ^ 2
    support := (⊥, ⊤) }

/-- `RootPulse` (base.py:86-112) with the given waveform: `np.sqrt` of a complex number is the principal square root. -/
noncomputable def rootPulse (base : Pulse) (waveform : ℝ → ℝ) : Pulse where
  waveform := waveform
  spectrum f := base.spectrum f ^ (1 / 2 : ℂ)
  energy := base.waveform 0
  autocorrelation τ := base.waveform τ
  energySpectralDensity f := ‖base.spectrum f ^ (1 / 2 : ℂ)‖ ^ 2
  support := (⊥, ⊤)

/-- `_RootRaisedCosinePulse.waveform` (RaisedCosinePulse.py:204-224). -/
noncomputable def rrcWaveform (α t : ℝ) : ℝ :=
  if α = 0 then npSinc t
  else if |t| = 1 / (4 * α) then
    α / Real.sqrt 2 * ((1 + 2 / Real.pi) * Real.sin (Real.pi / (4 * α)) + (1 - 2 / Real.pi) * Real.cos (Real.pi / (4 * α)))
  else if t = 0 then 1 + α * (4 / Real.pi - 1)
  else (Real.sin (2 * Real.pi * ((1 - α) / 2) * t) + 4 * α * t * Real.cos (2 * Real.pi * ((1 + α) / 2) * t)) /
    (Real.pi * t * (1 - (4 * α * t) ^ 2))

/-- `RaisedCosinePulse(rolloff).root()` (RaisedCosinePulse.py:181-224). -/
noncomputable def rootRaisedCosinePulse (α : ℝ) : Option Pulse :=
  (raisedCosinePulse α).map fun P : Pulse => rootPulse P (rrcWaveform α)

/-- `β` (BeaulieuPulse.py:70, 92, 141). -/
noncomputable def beaulieuBeta (α : ℝ) : ℝ := 2 * Real.log 2 / α

/-- `BeaulieuPulse.waveform` (BeaulieuPulse.py:66-77). -/
noncomputable def beaulieuWaveform (α t : ℝ) : ℝ :=
  if α = 0 then npSinc t
  else npSinc t * (4 * beaulieuBeta α * Real.pi * t * Real.sin (Real.pi * α * t) + 2 * beaulieuBeta α ^ 2 * Real.cos (Real.pi * α * t)
      - beaulieuBeta α ^ 2) / ((2 * Real.pi * t) ^ 2 + beaulieuBeta α ^ 2)

/-- `BeaulieuPulse.spectrum` (BeaulieuPulse.py:88-102). -/
noncomputable def beaulieuSpectrum (α f : ℝ) : ℂ :=
  if α = 0 then ((npRect f : ℝ) : ℂ)
  else if 1 / 2 ≤ |f| ∧ |f| < (1 + α) / 2 then ((1 - Real.exp (-beaulieuBeta α * ((1 + α) / 2 - |f|)) : ℝ) : ℂ)
  else if (1 - α) / 2 ≤ |f| ∧ |f| < 1 / 2 then ((Real.exp (-beaulieuBeta α * (|f| - (1 - α) / 2)) : ℝ) : ℂ)
  else if |f| < (1 - α) / 2 then 1
  else 0

/-- `BeaulieuPulse.autocorrelation` (BeaulieuPulse.py:137-154). -/
noncomputable def beaulieuAutocorrelation (α τ : ℝ) : ℝ :=
  if α = 0 then npSinc τ
  else
    npSinc τ * (2 * Real.cos (Real.pi * α * τ) - 1)
    + (4 * beaulieuBeta α * (Real.cos (2 * Real.pi * ((1 - α) / 2) * τ) + Real.cos (2 * Real.pi * ((1 + α) / 2) * τ))
        + 4 * Real.pi * τ * (Real.sin (2 * Real.pi * ((1 + α) / 2) * τ) - Real.sin (2 * Real.pi * ((1 - α) / 2) * τ))
        - 2 * beaulieuBeta α * Real.cos (Real.pi * τ)) / (4 * beaulieuBeta α ^ 2 + (2 * Real.pi * τ) ^ 2)
    - (4 * beaulieuBeta α * Real.cos (2 * Real.pi * ((1 + α) / 2) * τ) + 8 * Real.pi * τ * Real.sin (2 * Real.pi * ((1 + α) / 2) * τ)
        - 2 * beaulieuBeta α * Real.cos (Real.pi * τ) - 4 * Real.pi * τ * Real.sin (Real.pi * τ)) / (beaulieuBeta α ^ 2 + (2 * Real.pi * τ) ^ 2)

/-- `BeaulieuPulse(rolloff)` (BeaulieuPulse.py:48-187); `none` is `ValueError`. -/
noncomputable def beaulieuPulse (α : ℝ) : Option Pulse :=
  if ¬ (0 ≤ α ∧ α ≤ 1) then none
  else some {
    waveform := beaulieuWaveform α
    spectrum := beaulieuSpectrum α
    energy := 1 - α / (4 * Real.log 2)
    autocorrelation := beaulieuAutocorrelation α
    energySpectralDensity := fun f => ‖beaulieuSpectrum α f‖ ^ 2
    support := (⊥, ⊤) }

/-- `_RootBeaulieuPulse.waveform` (BeaulieuPulse.py:223-260), with the quadrature sum over `[0, sqrt(α / 2)]` replaced by the integral. -/
noncomputable def rootBeaulieuWaveform (α t : ℝ) : ℝ :=
  if α = 0 then npSinc t
  else
    (1 - α) * npSinc ((1 - α) * t)
    + 2 * (Real.log 2 / α * Real.cos (2 * Real.pi * ((1 - α) / 2) * t) - 2 * Real.pi * t * Real.sin (2 * Real.pi * ((1 - α) / 2) * t)
        - Real.log 2 / α / Real.sqrt 2 * Real.cos (Real.pi * t) + Real.sqrt 2 * Real.pi * t * Real.sin (Real.pi * t))
      / ((Real.log 2 / α) ^ 2 + (2 * Real.pi * t) ^ 2)
    + ∫ v in (0 : ℝ)..Real.sqrt (α / 2),
        4 * v * Real.sqrt (1 - Real.exp (-2 * (Real.log 2 / α) * v ^ 2)) * Real.cos (2 * Real.pi * t * ((1 + α) / 2 - v ^ 2))

/-- `BeaulieuPulse(rolloff).root()` (BeaulieuPulse.py:204-220; base.py:86-112). -/
noncomputable def rootBeaulieuPulse (α : ℝ) : Option Pulse :=
  (beaulieuPulse α).map fun P : Pulse => rootPulse P (rootBeaulieuWaveform α)

end Komm
