import Mathlib.Algebra.BigOperators.Group.Finset.Basic
import Mathlib.Algebra.Ring.Defs
import Mathlib.Analysis.SpecialFunctions.Complex.Arg
/-! Model of `convolve` and `fourier_transform` (`src/komm/_util/signal_processing.py`), in exact arithmetic. -/
namespace Komm

inductive ConvMode | full | valid | same
  deriving DecidableEq

section
variable {K : Type} [CommRing K]

/-- An entry of a list, zero outside. -/
def entryZ (a : List K) (i : ℤ) : K := if i < 0 then 0 else a.getD i.toNat 0

/-- The inner product of `r` with the part of `a` that starts at index `s`, zeros outside of `a`. -/
def corrAt (a r : List K) (s : ℤ) : K := ∑ i ∈ Finset.range r.length, entryZ a (s + i) * r.getD i 0

/-- `multiarray.correlate(a, r, mode)` of numpy (no conjugation) for `r.length ≤ a.length`: the first shift and the number of outputs
depend on the mode (`_pyarray_correlate`: `n_left = n - 1`, `n / 2` or `0`). -/
def npCorrelate (mode : ConvMode) (a r : List K) : List K :=
  let N := a.length
  let n := r.length
  let left : Nat := match mode with | .full => n - 1 | .same => n / 2 | .valid => 0
  let count : Nat := match mode with | .full => N + n - 1 | .same => N | .valid => N - n + 1
  (List.range count).map fun k : Nat => corrAt a r ((k : ℤ) - left)

/-- `np.convolve(a, v, mode)`: the longer list comes first; empty lists raise ValueError (`none`). -/
def npConvolve (mode : ConvMode) (a v : List K) : Option (List K) :=
  let p := if v.length > a.length then (v, a) else (a, v)
  if p.1.length = 0 then none
  else if p.2.length = 0 then none
  else some (npCorrelate mode p.1 p.2.reverse)

/-- An array seen along `axis`: one-dimensional, or the list of its one-dimensional slices along `axis`. -/
inductive Signal (K : Type) where
  | one (l : List K)
  | many (rows : List (List K))

/-- `np.apply_along_axis(f, axis, arr)`: on every slice along the axis; no slice at all raises ValueError. -/
def applyAlongAxis (f : List K → Option (List K)) : Signal K → Option (Signal K)
  | .one l => (f l).map .one
  | .many rows => if rows = [] then none else (rows.mapM f).map .many

/-- `convolve(input1, input2, axis, mode)` (signal_processing.py:164-172). -/
def convolve (input1 input2 : Signal K) (mode : ConvMode := .full) : Option (Signal K) :=
  match input1, input2 with
  | .one x, arr => applyAlongAxis (fun y => npConvolve mode x y) arr
  | arr, .one x => applyAlongAxis (fun y => npConvolve mode x y) arr
  | .many _, .many _ => none
end

section
open Complex

/-- `np.fft.fft(w, n)` along one slice: the input is cut or padded with zeros to `n` entries. -/
noncomputable def npFft (w : List ℂ) (n : Nat) : List ℂ :=
  (List.range n).map fun j : Nat => ∑ k ∈ Finset.range n, w.getD k 0 * exp (-(2 * Real.pi * I * (j * k : ℕ) / n))

/-- `np.fft.fftshift`: `np.roll` by `n // 2`. -/
def fftshift {α : Type} (l : List α) : List α :=
  let n := l.length
  l.drop (n - n / 2) ++ l.take (n - n / 2)

/-- `np.fft.fftfreq(n, d)`: `0, 1, ..., (n - 1) // 2, -(n // 2), ..., -1` divided by `n d`. -/
noncomputable def fftfreq (n : Nat) (d : ℝ) : List ℝ :=
  let N := if n = 0 then 0 else (n - 1) / 2 + 1
  ((List.range N).map fun i : Nat => ((i : ℤ) : ℝ) * (1 / (n * d))) ++
  ((List.range (n / 2)).map fun i : Nat => ((-((n / 2 : Nat) : ℤ) + i : ℤ) : ℝ) * (1 / (n * d)))

/-- `fourier_transform(waveform, time_step, nfft)` on one slice (signal_processing.py:204-209); `none` is ValueError of `np.fft.fft` (a number
of points below one). -/
noncomputable def fourierTransform (waveform : List ℂ) (timeStep : ℝ) (nfft : Option ℤ) : Option (List ℂ × List ℝ) :=
  let n : ℤ := match nfft with | none => waveform.length | some k => if k = 0 then waveform.length else k
  if n < 1 then none
  else
    let spectrum := fftshift (npFft waveform n.toNat)
    some (spectrum.map fun s : ℂ => s * timeStep, fftshift (fftfreq n.toNat timeStep))
end
end Komm
