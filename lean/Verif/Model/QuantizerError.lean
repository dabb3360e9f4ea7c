import Verif.Model.Quantization
/-! Model of `ScalarQuantizer.mean_squared_error` (the same method for all quantizers), in exact arithmetic. -/
namespace Komm
variable {K : Type} [Field K] [LinearOrder K] [IsStrictOrderedRing K]

/-- `mean_squared_error` (_quantization/base.py:76-84); the thresholds are one fewer than the levels, so no index is out of range. -/
def meanSquaredError (levels thresholds : List K) (pdf : K → K) (xmin xmax : K) (pts : Nat) : K :=
  let lam := xmin :: thresholds ++ [xmax]
  ((List.range levels.length).map fun i : Nat =>
    let x := linspace (lam.getD i 0) (lam.getD (i + 1) 0) pts
    trapezoid (x.map fun v : K => (levels.getD i 0 - v) ^ 2 * pdf v) x).sum

end Komm
