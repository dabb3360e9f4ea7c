import Mathlib.Analysis.SpecialFunctions.Pow.Real
import Mathlib.Data.Complex.Basic
/-! Model of `src/komm/_channels/GaussianChannel.py`, in exact arithmetic.  `rng.normal(loc, scale, size)` is `loc + scale * z` where `z` is an
array of `size` standard normal samples; the model takes the array `z` as an argument.  The input may have any shape: `ι` is its index type. -/
namespace Komm.GaussianChannel

/-- `GaussianChannel.__post_init__` (GaussianChannel.py:33-35): `none` is `ValueError`; otherwise the noise power the object stores. -/
noncomputable def construct (noisePower : ℝ) : Option ℝ :=
  open Classical in if ¬ (noisePower ≥ 0) then none else some noisePower

/-- `rng.normal(loc, scale, size)`, given the standard normal samples `z` (numpy: `legacy_gauss`/`random_normal` is `loc + scale * gauss`). -/
def normal {κ : Type} (loc scale : ℝ) (z : κ → ℝ) : κ → ℝ := fun k => loc + scale * z k

/-- `GaussianChannel.transmit` for an input that is not complex (GaussianChannel.py:72-78). -/
noncomputable def transmitReal {ι : Type} (noisePower : ℝ) (input : ι → ℝ) (z : ι → ℝ) : ι → ℝ :=
  let noise := normal 0 (Real.sqrt noisePower) z
  fun i => input i + noise i

/-- `GaussianChannel.transmit` for a complex input (GaussianChannel.py:64-70, 78): the array of samples has the extra axis of length two. -/
noncomputable def transmitComplex {ι : Type} (noisePower : ℝ) (input : ι → ℂ) (z : ι → Fin 2 → ℝ) : ι → ℂ :=
  let noiseRI : ι → Fin 2 → ℝ := fun i => normal 0 (Real.sqrt (noisePower / 2)) (z i)
  let noise : ι → ℂ := fun i => (noiseRI i 0 : ℂ) + Complex.I * (noiseRI i 1 : ℂ)
  fun i => input i + noise i

end Komm.GaussianChannel
