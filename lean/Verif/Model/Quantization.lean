import Mathlib.Algebra.Order.Field.Basic
import Mathlib.Data.List.Sort
import Mathlib.Data.List.Dedup
import Mathlib.Algebra.Order.Field.Rat
import Mathlib.Tactic.NormNum
/-! Model of the scalar quantizers (`src/komm/_quantization`).  Floating-point numbers are replaced by the elements of a linearly ordered
field `K` (exact arithmetic, no `nan`, no infinities); the elementwise maps over arrays are the map of the scalar functions below. -/
namespace Komm
variable {K : Type} [Field K] [LinearOrder K] [IsStrictOrderedRing K]

/-- `np.digitize(x, thresholds, right=False)` on non-decreasing thresholds (base.py:37-39): the number of the first threshold larger
than `x`, `len(thresholds)` if there is none. -/
def digitize : List K → K → Nat
  | [], _ => 0
  | t :: ts, x => if x < t then 0 else digitize ts x + 1

/-- `quantize`: `self.levels[self.digitize(input)]` (base.py:52); `none` is `IndexError`. -/
def quantize (levels thresholds : List K) (x : K) : Option K := levels[digitize thresholds x]?

/-- `interleaved` (ScalarQuantizer.py:52-54): levels at the even, thresholds at the odd positions. -/
def interleave : List K → List K → List K
  | [], _ => []
  | l :: _, [] => [l]
  | l :: ls, t :: ts => l :: t :: interleave ls ts

/-- `np.unique(x)`: the distinct values in increasing order. -/
def npUnique (x : List K) : List K := x.dedup.insertionSort (· ≤ ·)

/-- Which arguments `ScalarQuantizer.__init__` accepts (ScalarQuantizer.py:43-57); otherwise `ValueError`. -/
def scalarQuantizerAccepts (levels thresholds : List K) : Bool :=
  if ¬ thresholds.length + 1 = levels.length then false
  else npUnique (interleave levels thresholds) = interleave levels thresholds

/-- Which arguments `UniformQuantizer.__init__` accepts (UniformQuantizer.py:49-53). -/
def uniformQuantizerAccepts (numLevels : Nat) (step : K) : Bool :=
  if ¬ numLevels > 1 then false else if ¬ step > 0 then false else true

/-- `UniformQuantizer.levels` (UniformQuantizer.py:128-129). -/
def uniformLevels (L : Nat) (Δ θ : K) : List K := (List.range L).map fun i : Nat => ((i : K) - ((L : K) - 1) / 2 + θ) * Δ

/-- `UniformQuantizer.thresholds` (UniformQuantizer.py:143). -/
def uniformThresholds (L : Nat) (Δ θ : K) : List K := ((uniformLevels L Δ θ).map fun y : K => y + Δ / 2).dropLast

/-- The offset chosen by `UniformQuantizer.mid_riser` (UniformQuantizer.py:84). -/
def midRiserOffset (L : Nat) : K := if L % 2 = 0 then 0 else -(1 / 2)

/-- The offset chosen by `UniformQuantizer.mid_tread` (UniformQuantizer.py:113). -/
def midTreadOffset (L : Nat) : K := if L % 2 = 1 then 0 else -(1 / 2)

/-! ### Lloyd–Max -/

/-- `np.linspace(a, b, num=n)` (endpoint included): `a + i (b - a) / (n - 1)`, and `[a]` for `n = 1`. -/
def linspace (a b : K) (n : Nat) : List K :=
  (List.range n).map fun i : Nat => if n = 1 then a else a + (i : K) * ((b - a) / ((n : K) - 1))

/-- `np.trapezoid(y, x)`: `Σ (x[i+1] - x[i]) (y[i+1] + y[i]) / 2`. -/
def trapezoid (y x : List K) : K :=
  ((List.range (x.length - 1)).map fun i : Nat => (x.getD (i + 1) 0 - x.getD i 0) * (y.getD (i + 1) 0 + y.getD i 0) / 2).sum

/-- The thresholds of one iteration, with the end points (LloydMaxQuantizer.py:154, 157): `x_min`, the midpoints of consecutive levels,
`x_max`. -/
def lloydThresholds (xmin xmax : K) (y : List K) : List K :=
  xmin :: ((List.range (y.length - 1)).map fun i : Nat => (1 / 2) * (y.getD i 0 + y.getD (i + 1) 0)) ++ [xmax]

/-- The new level of cell `[a, b]` (LloydMaxQuantizer.py:160-164); the old level is kept when the probability of the cell is zero. -/
def lloydLevel (pdf : K → K) (pts : Nat) (a b old : K) : K :=
  let x := linspace a b pts
  let den := trapezoid (x.map pdf) x
  if den ≠ 0 then trapezoid (x.map fun v : K => v * pdf v) x / den else old

/-- The inner loop (LloydMaxQuantizer.py:159-164); each level depends only on the thresholds and on its old value. -/
def lloydLevels (pdf : K → K) (pts : Nat) (lam y : List K) : List K :=
  (List.range y.length).map fun i : Nat => lloydLevel pdf pts (lam.getD i 0) (lam.getD (i + 1) 0) (y.getD i 0)

/-- The outer loop (LloydMaxQuantizer.py:156-166), starting from levels `y` and thresholds `lam`; `stop y y_old` is the outcome of
`np.allclose(y, y_old)`. -/
def lloydLoop (pdf : K → K) (pts : Nat) (xmin xmax : K) (stop : List K → List K → Bool) : Nat → List K → List K → List K × List K
  | 0, y, lam => (y, lam)
  | n + 1, y, _ =>
    let lam' := lloydThresholds xmin xmax y
    let y' := lloydLevels pdf pts lam' y
    if stop y' y then (y', lam') else lloydLoop pdf pts xmin xmax stop n y' lam'

/-- `lloyd_max_quantizer` with at least one iteration (LloydMaxQuantizer.py:141-168): levels and inner thresholds.  The uninitialised
thresholds (`np.empty`) are overwritten by the first iteration; they are `[]` here. -/
def lloydMax (pdf : K → K) (numLevels : Nat) (xmin xmax : K) (pts maxIter : Nat) (stop : List K → List K → Bool) : List K × List K :=
  let delta := (xmax - xmin) / numLevels
  let y0 := linspace (xmin + delta / 2) (xmax - delta / 2) numLevels
  let r := lloydLoop pdf pts xmin xmax stop maxIter y0 []
  (r.1, r.2.tail.dropLast)

/-- The documented quantizer (ScalarQuantizer.py:31-40, 120-135). -/
example : scalarQuantizerAccepts [-2, -1, 0, 1, (2 : Rat)] [-3 / 2, -3 / 10, 8 / 10, 14 / 10] = true ∧
    scalarQuantizerAccepts [-2, -1, 0, 1, (2 : Rat)] [-1 / 2, -3 / 10, 8 / 10, 14 / 10] = false ∧
    [-5 / 2, -2, -3 / 2, -1, -1 / 2, 0, 1 / 2, 1, 3 / 2, 2, (5 / 2 : Rat)].map (digitize [-3 / 2, -3 / 10, 8 / 10, 14 / 10]) =
      [0, 0, 1, 1, 1, 2, 2, 3, 4, 4, 4] ∧
    [-5 / 2, -2, -3 / 2, -1, -1 / 2, 0, (5 / 2 : Rat)].map (quantize [-2, -1, 0, 1, 2] [-3 / 2, -3 / 10, 8 / 10, 14 / 10]) =
      [some (-2), some (-2), some (-1), some (-1), some (-1), some 0, some 2] ∧
    uniformLevels 4 (1 / 2 : Rat) 0 = [-3 / 4, -1 / 4, 1 / 4, 3 / 4] ∧ uniformThresholds 4 (1 / 2 : Rat) 0 = [-1 / 2, 0, 1 / 2] ∧
    uniformLevels 5 (1 / 2 : Rat) 2 = [0, 1 / 2, 1, 3 / 2, 2] := by decide +kernel

/-- The documented Lloyd–Max quantizer of a uniform input, with fewer levels and integration points (LloydMaxQuantizer.py:26-36). -/
example : lloydMax (fun _ : Rat => 1 / 8) 4 (-4) 4 5 3 (fun a b => a = b) = ([-3, -1, 1, 3], [-2, 0, 2]) := by decide +kernel

end Komm
