import Verif.Model.MarkovChain
import Mathlib.LinearAlgebra.Matrix.NonsingularInverse
import Mathlib.Data.Real.Basic
/-! Model of the numerical methods of `MarkovChain` over the real numbers (`src/komm/_sources/MarkovChain.py`).  Floating-point arithmetic
is replaced by exact arithmetic. -/
namespace Komm.MarkovChain
variable {n : Nat}

/-- The rows and columns `transient = list(self.transient_states())` (MarkovChain.py:482, 539): the result arrays are indexed here by the
states themselves instead of by their positions in that list. -/
abbrev Transient (P : TMat ℝ n) := { i : Fin n // i ∈ transientStates P }

/-- The columns `absorbing = list(self.absorbing_states())` (MarkovChain.py:538). -/
abbrev Absorbing (P : TMat ℝ n) := { i : Fin n // i ∈ absorbingStates P }

/-- `Q = P[np.ix_(transient, transient)]` (MarkovChain.py:484). -/
def subQ (P : TMat ℝ n) : Matrix (Transient P) (Transient P) ℝ := Matrix.of fun i j => P i j

/-- `R = P[np.ix_(transient, absorbing)]` (MarkovChain.py:541). -/
def subR (P : TMat ℝ n) : Matrix (Transient P) (Absorbing P) ℝ := Matrix.of fun i j => P i j

/-- `np.linalg.inv`: `none` is `LinAlgError` (singular matrix). -/
noncomputable def npInv {ι : Type} [Fintype ι] [DecidableEq ι] (A : Matrix ι ι ℝ) : Option (Matrix ι ι ℝ) := if A.det = 0 then none else some A⁻¹

/-- `mean_number_of_visits()` (MarkovChain.py:480-487); `none` when it raises. -/
noncomputable def meanNumberOfVisits (P : TMat ℝ n) : Option (Matrix (Transient P) (Transient P) ℝ) :=
  if ¬ isAbsorbing P then none else npInv (1 - subQ P)

/-- `mean_time_to_absorption()` (MarkovChain.py:511-512). -/
noncomputable def meanTimeToAbsorption (P : TMat ℝ n) : Option (Transient P → ℝ) :=
  (meanNumberOfVisits P).map fun N => fun i => ∑ j, N i j

/-- `absorption_probabilities()` (MarkovChain.py:537-543). -/
noncomputable def absorptionProbabilities (P : TMat ℝ n) : Option (Matrix (Transient P) (Absorbing P) ℝ) :=
  (meanNumberOfVisits P).map fun N => N * subR P

/-- `A.T @ x - b` of `stationary_distribution` (MarkovChain.py:239-241): the entries `(P^T x - x)[j]` and the last one `Σ x - 1`. -/
def stationaryResidual (P : TMat ℝ n) (x : Fin n → ℝ) : (Fin n → ℝ) × ℝ :=
  (fun j => (∑ i, x i * P i j) - x j, (∑ i, x i) - 1)

/-- The squared Euclidean norm of the residual, minimised by `np.linalg.lstsq` (MarkovChain.py:242). -/
def stationaryCost (P : TMat ℝ n) (x : Fin n → ℝ) : ℝ := (∑ j, (stationaryResidual P x).1 j ^ 2) + (stationaryResidual P x).2 ^ 2

/-- What `stationary_distribution()` may return (MarkovChain.py:235-243): it raises unless the chain is irreducible; `np.linalg.lstsq` is
specified by its contract, it returns a minimiser of the squared residual. -/
def IsStationaryResult (P : TMat ℝ n) (x : Fin n → ℝ) : Prop := isIrreducible P = true ∧ ∀ z, stationaryCost P x ≤ stationaryCost P z

end Komm.MarkovChain
