import Mathlib.Probability.Distributions.Gaussian.Real
import Mathlib.Probability.CDF
import Mathlib.Data.EReal.Basic
import Mathlib.Analysis.SpecialFunctions.Gamma.Basic
/-! Model of `gaussian_q`, `gaussian_q_inv` and `marcum_q` in `src/komm/_util/special_functions.py`, in exact arithmetic and on one scalar (the functions
apply the scalar one to every entry, `np.vectorize`, lines 42, 73 and 125).  `math.erfc` and `statistics.NormalDist.inv_cdf` are taken to be the
functions their documentation names. -/
namespace Komm
open MeasureTheory ProbabilityTheory

/-- `math.erfc`: the complementary error function. -/
noncomputable def erfc (x : ℝ) : ℝ := 2 / √Real.pi * ∫ t in Set.Ioi x, Real.exp (-t ^ 2)

/-- `_gaussian_q` (special_functions.py:12-16). -/
noncomputable def gaussianQ (x : ℝ) : ℝ := 0.5 * erfc (x / √2)

open Classical in
/-- `NormalDist().inv_cdf(p)`: `none` is `StatisticsError`, raised unless `0 < p < 1`; otherwise the least `x` with `p ≤ cdf x`. -/
noncomputable def normInvCdf (p : ℝ) : Option ℝ :=
  if p ≤ 0 ∨ 1 ≤ p then none else some (sInf {x | p ≤ cdf (gaussianReal 0 1) x})

open Classical in
/-- `_gaussian_q_inv` (special_functions.py:46-51); `+ 0.0` in line 73 changes nothing in exact arithmetic. -/
noncomputable def gaussianQInv (y : ℝ) : Option EReal :=
  if y = 0 then some ⊤ else if y = 1 then some ⊥ else (normInvCdf y).map fun x => ((-x : ℝ) : EReal)

/-- The summand of lines 85-87 of special_functions.py. -/
noncomputable def auxTerm (m : ℕ) (a b : ℝ) (i : ℕ) : ℝ :=
  let innerSum := ∑ k ∈ Finset.range (i - m + 1), Real.exp (-m * a) * (m * a) ^ k / Real.Gamma (k + 1)
  Real.exp (-b) * b ^ i / Real.Gamma (i + 1) * (1 - innerSum)

/-- The loop of `_auxiliary_p` (special_functions.py:84-91): `fuel` iterations are left, the next index is `i`. -/
noncomputable def auxLoop (m : ℕ) (a b tol : ℝ) : ℕ → ℕ → ℝ → ℝ
  | 0, _, result => result
  | fuel + 1, i, result =>
    let term := auxTerm m a b i
    let result := result + term
    open Classical in if |term| < tol then result else auxLoop m a b tol fuel (i + 1) result

/-- `_auxiliary_p` (special_functions.py:77-91). -/
noncomputable def auxiliaryP (m : ℕ) (a b : ℝ) (maxIter : ℕ := 100) (tol : ℝ := 1 / 10 ^ 16) : ℝ :=
  let result := ∑ k ∈ Finset.range m, Real.exp (-b) * b ^ k / Real.Gamma (k + 1)
  auxLoop m a b tol (maxIter - m) m result

open Classical in
/-- `marcum_q` (special_functions.py:119-126) of scalar arguments; `none` is `ValueError`. -/
noncomputable def marcumQ (m : ℤ) (a x : ℝ) : Option ℝ :=
  if ¬ (m > 0) then none
  else if ¬ (a ≥ 0) ∨ ¬ (x ≥ 0) then none
  else some (auxiliaryP m.toNat (a ^ 2 / (2 * m)) (x ^ 2 / 2))

end Komm
