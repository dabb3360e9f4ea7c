import Verif.Lemmas.Double
/-
`PAMConstellation` (/repo/src/komm/_constellations/PAMConstellation.py) in double precision: each arithmetic operation is followed by rounding.
-/
namespace Komm

/-- `peak = (M - 1) * δ / 2` (PAMConstellation.py:59). -/
noncomputable def pamPeakD (M : Nat) (δ : ℝ) : ℝ := rnd (rnd (((M : ℝ) - 1) * δ) / 2)

/-- `step` of `np.linspace(-peak, peak, num=M)` (PAMConstellation.py:60): `(stop - start) / (num - 1)`. -/
noncomputable def pamStepD (M : Nat) (δ : ℝ) : ℝ := rnd (rnd (pamPeakD M δ - -pamPeakD M δ) / ((M : ℝ) - 1))

/-- `matrix[i][0]` (PAMConstellation.py:58-60) for `M ≥ 2`: `np.linspace` evaluates `i * step + start`, and sets the last point to `stop`.  (When `step`
underflows to zero numpy evaluates `i / (M - 1) * (stop - start) + start`; the theorems exclude such `δ`.) -/
noncomputable def pamPointD (M : Nat) (δ : ℝ) (i : Nat) : ℝ :=
  if i = M - 1 then pamPeakD M δ else rnd (rnd ((i : ℝ) * pamStepD M δ) + -pamPeakD M δ)

/-- `astype(int)` of a float that is an integer: on x86-64 what does not fit in 64 bits becomes `-2^63`. -/
def castInt64 (k : ℤ) : ℤ := if -2 ^ 63 ≤ k ∧ k < 2 ^ 63 then k else -2 ^ 63

/-- `closest_indices` (PAMConstellation.py:153-157) of one received double. -/
noncomputable def pamClosestD (M : Nat) (δ r : ℝ) : ℤ :=
  npClip (castInt64 (npRound (rnd (rnd (r / δ) + rnd (((M : ℝ) - 1) / 2))))) ((M : ℤ) - 1)

end Komm
