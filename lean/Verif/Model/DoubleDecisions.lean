import Verif.Lemmas.Double
import Verif.Model.DoubleViterbi
import Verif.Model.DoublePam
import Verif.Model.Quantization
/-
`UniformQuantizer` (/repo/src/komm/_quantization/UniformQuantizer.py) and the constellations of /repo/src/komm/_constellations (QAMConstellation.py, PSKConstellation.py, ASKConstellation.py and the
generic `closest_indices` of base.py) in double precision:
each arithmetic operation is followed by rounding (`rnd`, `Model/Double.lean`; finite values, no overflow).
-/
namespace Komm

/-- `levels[i]` (UniformQuantizer.py:128-129): `(i - (L - 1) / 2 + θ) * Δ`. -/
noncomputable def uniformLevelD (L : Nat) (Δ θ : ℝ) (i : Nat) : ℝ := rnd (rnd (rnd ((i : ℝ) - rnd (((L : ℝ) - 1) / 2)) + θ) * Δ)

/-- `levels` (UniformQuantizer.py:129). -/
noncomputable def uniformLevelsD (L : Nat) (Δ θ : ℝ) : List ℝ := (List.range L).map fun i : Nat => uniformLevelD L Δ θ i

/-- `thresholds` (UniformQuantizer.py:143): `(levels + step / 2)[:-1]`. -/
noncomputable def uniformThresholdsD (L : Nat) (Δ θ : ℝ) : List ℝ := ((uniformLevelsD L Δ θ).map fun y : ℝ => rnd (y + rnd (Δ / 2))).dropLast

/-- The product of two complex numbers as numpy computes it (no fused operations): `(a + b j) * (c + s j)`. -/
noncomputable def cmulD (a b c s : ℝ) : ℝ × ℝ := (rnd (rnd (a * c) - rnd (b * s)), rnd (rnd (a * s) + rnd (b * c)))

/-- One coordinate of `closest_indices` (QAMConstellation.py:204, 206-209): `clip(around((z / (δ / 2) + M - 1) / 2), 0, M - 1)`. -/
noncomputable def qamIndexD (M : Nat) (δ z : ℝ) : ℤ :=
  npClip (npRound (rnd (rnd (rnd (rnd (z / rnd (δ / 2)) + M) - 1) / 2))) ((M : ℤ) - 1)

/-- `closest_indices` (QAMConstellation.py:201-211) of the received value `a + b j`; `c + s j` is the value of `np.exp(-2j * np.pi * φ)`. -/
noncomputable def qamClosestD (Mi Mq : Nat) (δi δq c s a b : ℝ) : ℤ :=
  let z := cmulD a b c s
  Mq * qamIndexD Mi δi z.1 + qamIndexD Mq δq z.2

/-- `matrix[Mq * i + q]` (QAMConstellation.py:92-98) for points `x`, `y` of the two PAM constellations; `c + s j` is the value of `np.exp(2j * np.pi * φ)`.
(`1j * matrix_q.T` and its sum with `matrix_i` are exact.) -/
noncomputable def qamPointD (x y c s : ℝ) : ℝ × ℝ := cmulD x y c s

/-- How accurate the two rotations have to be: `c + s j` is within `η` of `exp(2πjφ)` in each coordinate. -/
def RotationAccurate (φ η c s : ℝ) : Prop := |c - Real.cos (2 * Real.pi * φ)| ≤ η ∧ |s - Real.sin (2 * Real.pi * φ)| ≤ η

/-! ### PSK -/

/-- How accurate `np.angle` has to be: the angle of a non-zero complex number up to a whole number of turns (the signed zeros of numpy put the negative axis on either side) and `2⁻⁵⁰`. -/
def AngleAccurate (ang : ℝ → ℝ → ℝ) : Prop :=
  ∀ x y : ℝ, (x ≠ 0 ∨ y ≠ 0) → |ang x y| ≤ 4 ∧ ∃ k : ℤ, |ang x y - (Complex.arg ⟨x, y⟩ + 2 * Real.pi * k)| ≤ 1 / 2 ^ 50

/-- `closest_indices` (PSKConstellation.py:163-166) of the received value `a + b j`; `c + s j` is the value of `np.exp(-2j * np.pi * φ)`, `ang` is `np.angle` and `pi` is `np.pi`.
(The doubling of `np.pi` and the float remainder are exact.) -/
noncomputable def pskClosestD (ang : ℝ → ℝ → ℝ) (pi : ℝ) (M : Nat) (c s a b : ℝ) : ℤ :=
  let z := cmulD a b c s
  let turn := rnd (ang z.1 z.2 / (2 * pi))
  npRound (rnd (M * turn)) % (M : ℤ)

/-- `x.round(15)` of a float: `np.round` multiplies by `10**15`, rounds to an integer and divides. -/
noncomputable def round15 (x : ℝ) : ℝ := rnd (((npRound (rnd (x * 10 ^ 15)) : ℤ) : ℝ) / 10 ^ 15)

/-- `matrix[i]` (PSKConstellation.py:69-73) for amplitude `A`; `c1 + s1 j` is the value of `np.exp(2j * np.pi * i / M)` and `c2 + s2 j` that of `np.exp(2j * np.pi * φ)`.  (Adding `0.0` is exact.) -/
noncomputable def pskPointD (A c1 s1 c2 s2 : ℝ) : ℝ × ℝ :=
  let z := cmulD (rnd (A * c1)) (rnd (A * s1)) c2 s2
  (round15 z.1, round15 z.2)

/-! ### ASK -/

/-- `closest_indices` (ASKConstellation.py:167-171) of the received value `a + b j`; `c + s j` is the value of `np.exp(-2j * np.pi * φ)`. -/
noncomputable def askClosestD (M : Nat) (A c s a b : ℝ) : ℤ :=
  npClip (castInt64 (npRound (rnd ((cmulD a b c s).1 / A)))) ((M : ℤ) - 1)

/-! ### generic decisions -/

/-- A modulus (`np.abs` of a complex array, base.py:125) that is accurate to a relative error of `2⁻⁵¹`.  For real arrays `np.abs` is exact. -/
def ModulusAccurate (h : ℝ → ℝ → ℝ) : Prop := ∀ x y : ℝ, 0 ≤ h x y ∧ |h x y - Real.sqrt (x ^ 2 + y ^ 2)| ≤ Real.sqrt (x ^ 2 + y ^ 2) / 2 ^ 51

/-- One term `np.abs(diff) ** 2` (base.py:124-125) for the coordinates `x`, `y` of the received value and the point. -/
noncomputable def sqTermD (h : ℝ → ℝ → ℝ) (x y : ℝ × ℝ) : Double :=
  ⟨rnd (h (rnd (x.1 - y.1)) (rnd (x.2 - y.2)) * h (rnd (x.1 - y.1)) (rnd (x.2 - y.2))), rnd_isDouble _⟩

/-- `_squared_distances` (base.py:123-125): one entry. -/
noncomputable def sqDistD {N : Nat} (sum : List Double → Double) (h : ℝ → ℝ → ℝ) (r p : Fin N → ℝ × ℝ) : Double :=
  sum (List.ofFn fun n : Fin N => sqTermD h (r n) (p n))

/-- `closest_indices` (base.py:138-142) for one block; points and received values are pairs (real part, imaginary part). -/
noncomputable def closestD {M N : Nat} (sum : List Double → Double) (h : ℝ → ℝ → ℝ) (m : Fin (M + 1) → Fin N → ℝ × ℝ) (r : Fin N → ℝ × ℝ) : Fin (M + 1) :=
  argminOn (fun i => sqDistD sum h r (m i)) 0 ((List.finRange (M + 1)).drop 1)

end Komm
