import Verif.Model.Constellations
import Verif.Model.NDArray
/-! The methods of `src/komm/_constellations` on arrays of any shape. `none` is a raised exception. -/
namespace Komm
namespace Constellation
section base
variable {𝕜 : Type} [RCLike 𝕜] {M N : Nat}

/-- A row of `received.reshape(-1, N)` as a vector. -/
def vec (N : Nat) (r : List 𝕜) : Fin N → 𝕜 := fun j => r.getD j.val 0

/-- The common pattern `f(received.reshape(-1, N)).reshape(*received.shape[:-1], -1)` (base.py:140-141, 185-192), `f` acting on each row. -/
def mapBlocks {α β : Type} (N : Nat) (f : List α → Option (List β)) (a : NDArray α) : Option (NDArray β) := do
  let r ← a.reshape [] [N]
  let out ← (chunks N r.data).mapM f
  NDArray.reshape ⟨[out.flatten.length], out.flatten⟩ a.shape.dropLast []

/-- `_validate_received` (base.py:50-58). -/
def validateReceived (N : Nat) (a : NDArray 𝕜) : Option (NDArray 𝕜) :=
  match a.shape.getLast? with
  | none => none
  | some last => if N = 0 then none else if last % N ≠ 0 then none else some a

/-- `_validate_priors` (base.py:38-48), exact equality for `np.isclose` in `validate_pmf` (validators.py:34-41). -/
noncomputable def validatePriors (M : Nat) (priors : Option (List ℝ)) : Option (List ℝ) :=
  open Classical in
  let p := priors.getD (List.replicate M (1 / (M : ℝ)))
  if ¬ (∀ x ∈ p, 0 ≤ x) then none
  else if ¬ (p.sum = 1) then none
  else if p.length ≠ M then none
  else some p

/-- `Constellation.closest_indices` (base.py:138-142). -/
noncomputable def closestIndices (m : Fin M → Fin N → 𝕜) (a : NDArray 𝕜) : Option (NDArray ℤ) := do
  let received ← validateReceived N a
  mapBlocks N (fun r => (closest m (vec N r)).map fun i => [(i.val : ℤ)]) received

/-- `self.matrix[index]` for an integer index: negative indices count from the end, others out of range raise `IndexError`. -/
def matrixRow (m : Fin M → Fin N → 𝕜) (i : ℤ) : Option (List 𝕜) :=
  if h : 0 ≤ i ∧ i < M then some (List.ofFn (m ⟨i.toNat, by omega⟩))
  else if h : -(M : ℤ) ≤ i ∧ i < 0 then some (List.ofFn (m ⟨(i + M).toNat, by omega⟩))
  else none

/-- `Constellation.indices_to_symbols` (base.py:119-121). -/
def indicesToSymbols (m : Fin M → Fin N → 𝕜) (indices : NDArray ℤ) : Option (NDArray 𝕜) := do
  let rows ← indices.data.mapM (matrixRow m)
  NDArray.reshape ⟨indices.shape ++ [N], rows.flatten⟩ indices.shape.dropLast []

/-- `Constellation.closest_symbols` (base.py:155-158), `ci` being the method `closest_indices` of the class. -/
def closestSymbols (m : Fin M → Fin N → 𝕜) (ci : NDArray 𝕜 → Option (NDArray ℤ)) (received : NDArray 𝕜) : Option (NDArray 𝕜) := do
  let indices ← ci received
  let symbols ← indicesToSymbols m indices
  symbols.reshape received.shape.dropLast []

/-- `Constellation.posteriors` (base.py:182-192); the priors are those that `_validate_priors` returned. -/
noncomputable def posteriorsArray (complex : Bool) (m : Fin M → Fin N → 𝕜) (a : NDArray 𝕜) (noisePower : ℝ) (priors : Option (List ℝ)) :
    Option (NDArray ℝ) := do
  let p ← validatePriors M priors
  let received ← validateReceived N a
  mapBlocks N (fun r => some (List.ofFn (posteriors complex m (vec N r) noisePower fun i => p.getD i.val 0))) received
end base

/-- `closest_indices` of the classes that work entry by entry (PAMConstellation.py:153-157, ASKConstellation.py:167-171,
QAMConstellation.py:201-211, PSKConstellation.py:163-166). -/
def closestEntries {𝕜 : Type} (f : 𝕜 → ℤ) (a : NDArray 𝕜) : Option (NDArray ℤ) := some ⟨a.shape, a.data.map f⟩

/-- `OrthogonalConstellation.closest_indices` and `SimplexConstellation.closest_indices` (OrthogonalConstellation.py:156-159,
SimplexConstellation.py:154-157): without validation. -/
noncomputable def orthogonalClosestArray (M : Nat) (a : NDArray ℝ) : Option (NDArray ℤ) :=
  mapBlocks M (fun r => (orthogonalClosest (vec M r)).map fun i => [(i.val : ℤ)]) a

/-- `BiorthogonalConstellation.closest_indices` (BiorthogonalConstellation.py:167-173), order `2 N`. -/
noncomputable def biorthogonalClosestArray (N : Nat) (a : NDArray ℝ) : Option (NDArray ℤ) :=
  mapBlocks N (fun r => (biorthogonalClosest (vec N r)).map fun i => [(i.val : ℤ)]) a

/-- `BiorthogonalConstellation.__init__` (BiorthogonalConstellation.py:46-49): the orders accepted. -/
def biorthogonalAccepts (order : Nat) : Bool := decide (order % 2 = 0)

/-- `QAMConstellation.__init__` (QAMConstellation.py:46-53) for a single integer. -/
def qamOrders (order : Nat) : Option (Nat × Nat) := if Nat.sqrt order ^ 2 = order then some (Nat.sqrt order, Nat.sqrt order) else none

/-- `Constellation.__init__` (Constellation.py:28-35): the stored matrix. -/
def constructMatrix {𝕜 : Type} (matrix : NDArray 𝕜) : Option (NDArray 𝕜) :=
  match matrix.shape with
  | [n] => some ⟨[n, 1], matrix.data⟩
  | [_, _] => some matrix
  | _ => none

end Constellation
end Komm
