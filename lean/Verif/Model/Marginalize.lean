import Verif.Model.Labelings
import Verif.Model.TrellisDecoders
/-
Model of `marginalize` of the labelings (/repo/src/komm/_labelings/base.py:91-116); all subclasses inherit it unchanged
(Labeling.py:108, NaturalLabeling.py:105-107, ReflectedLabeling.py:106-108, ProductLabeling.py:204-206,
ReflectedRectangularLabeling.py:139-140).  Exact real arithmetic; one-dimensional input; metrics are non-negative
(`np.log` of a negative number is not modelled).
-/
namespace Komm

/-- The column `i` of `mask_b = (self.matrix == b)` as numbers (base.py:110-111). -/
def Lab.mask (L : Lab) (b i : Nat) : List ℝ := L.matrix.map fun r : List Nat => if r.getD i 0 = b then 1 else 0

/-- One row of `np.log(m @ mask0) - np.log(m @ mask1)` (base.py:114). -/
noncomputable def Lab.lvalues (L : Lab) (row : List ℝ) : List (Option EReal) :=
  (List.range L.numBits).map fun i : Nat =>
    logRatio (List.zipWith (fun x y : ℝ => x * y) row (L.mask 0 i)).sum (List.zipWith (fun x y : ℝ => x * y) row (L.mask 1 i)).sum

/-- `marginalize` (base.py:103-116): the length check, `reshape(-1, M)`, the rows, `reshape(-1)`. -/
noncomputable def Lab.marginalize (L : Lab) (metrics : List ℝ) : Option (List (Option EReal)) :=
  if L.cardinality = 0 then none
  else if metrics.length % L.cardinality ≠ 0 then none
  else some ((chunks L.cardinality metrics).map L.lvalues).flatten

end Komm
