import Verif.Model.Pulses
import Mathlib.Analysis.Fourier.LpSpace
/-! Specification of pulses: what the methods of a pulse object mean (textbook definitions). -/
namespace Komm
open MeasureTheory FourierTransform

/-- `p` is square integrable and `S` is its (Plancherel) Fourier transform. -/
structure IsFourierPair (p : ℝ → ℝ) (S : ℝ → ℂ) : Prop where
  time : MemLp (fun t => (p t : ℂ)) 2
  freq : MemLp S 2
  fourier : (𝓕 (time.toLp _) : Lp ℂ 2 (volume : Measure ℝ)) = freq.toLp S

/-- The methods of a pulse describe one and the same signal `p(t)`. -/
structure Pulse.Consistent (P : Pulse) : Prop where
  /-- `spectrum` is the Fourier transform of `waveform` -/
  fourier : IsFourierPair P.waveform P.spectrum
  /-- `energy` is the integral of the squared waveform, -/
  energy : P.energy = ∫ t, P.waveform t ^ 2
  /-- `autocorrelation` is the correlation of the waveform with its shifts, -/
  autocorrelation : ∀ τ, P.autocorrelation τ = ∫ t, P.waveform t * P.waveform (t + τ)
  /-- the energy spectral density is the squared magnitude of the spectrum, -/
  density : ∀ f, P.energySpectralDensity f = ‖P.spectrum f‖ ^ 2
  /-- its integral is the energy, -/
  parseval : P.energy = ∫ f, P.energySpectralDensity f
  /-- its inverse Fourier transform is the autocorrelation, -/
  wienerKhinchin : ∀ τ : ℝ, (P.autocorrelation τ : ℂ) = ∫ f : ℝ, (P.energySpectralDensity f : ℂ) * Complex.exp (2 * Real.pi * Complex.I * f * τ)
  /-- and the waveform vanishes outside the support. -/
  support : ∀ t : ℝ, P.waveform t ≠ 0 → P.support.1 ≤ (t : EReal) ∧ (t : EReal) ≤ P.support.2

/-- Zero intersymbol interference: the waveform is 1 at time 0 and 0 at all other integers. -/
def Pulse.IsNyquist (P : Pulse) : Prop := ∀ n : Int, P.waveform n = if n = 0 then 1 else 0

end Komm
