import Verif.Model.Quantization
import Mathlib.Analysis.SpecialFunctions.Complex.Arg
import Mathlib.Analysis.SpecialFunctions.Trigonometric.Basic
import Mathlib.Analysis.SpecialFunctions.Log.Basic
import Mathlib.Data.Real.Sqrt
import Mathlib.Data.Rat.Floor
import Mathlib.Data.Nat.Size
import Mathlib.Data.Fintype.Sigma
/-! Model of `src/komm/_constellations`, in exact arithmetic.  A constellation is its `matrix`, `M` points with `N` coordinates in `ℝ` or `ℂ`.
The methods that act on arrays treat the received array as a sequence of blocks of `N` coordinates (`received.reshape(-1, N)`, base.py:140);
they are modelled here on one block. -/
namespace Komm
open Real

/-- `np.round` / `np.around`: to the nearest integer, ties to the even one. -/
def npRound {K : Type} [Field K] [LinearOrder K] [FloorRing K] (x : K) : ℤ :=
  let f := ⌊x⌋
  if x - f < 1 / 2 then f else if 1 / 2 < x - f then f + 1 else if f % 2 = 0 then f else f + 1

/-- `np.clip(x, 0, hi)`, i.e. `minimum(maximum(x, 0), hi)`. -/
def npClip (x hi : ℤ) : ℤ := min (max x 0) hi

namespace Constellation
section base
variable {𝕜 : Type} [RCLike 𝕜] {M N : Nat} {ι : Type} [Fintype ι]

/-- `priors = np.ones(M) / M` (base.py:41).  Points are indexed by any finite type (`Fin M` where the order matters). -/
noncomputable def uniformPriors (ι : Type) [Fintype ι] : ι → ℝ := fun _ => 1 / Fintype.card ι

/-- `Constellation.mean(priors)` (base.py:74-75). -/
noncomputable def mean (m : ι → Fin N → 𝕜) (priors : ι → ℝ) : Fin N → 𝕜 := fun j => ∑ i, (priors i : 𝕜) * m i j

/-- `Constellation.mean_energy(priors)` (base.py:91-93). -/
noncomputable def meanEnergy (m : ι → Fin N → 𝕜) (priors : ι → ℝ) : ℝ := ∑ i, priors i * ∑ j, ‖m i j‖ ^ 2

/-- `Constellation._squared_distances` for one block (base.py:123-125). -/
noncomputable def sqDist (m : Fin M → Fin N → 𝕜) (r : Fin N → 𝕜) (i : Fin M) : ℝ := ∑ j, ‖r j - m i j‖ ^ 2

/-- `Constellation.minimum_distance()` (base.py:103-106): the diagonal is `inf`. -/
noncomputable def minimumDistance [DecidableEq ι] (m : ι → Fin N → 𝕜) : WithTop ℝ :=
  Finset.univ.inf fun i : ι => Finset.univ.inf fun k : ι =>
    if i = k then (⊤ : WithTop ℝ) else ((√ (∑ j, ‖m i j - m k j‖ ^ 2) : ℝ) : WithTop ℝ)

open Classical in
/-- `np.argmin(distances, axis=-1)`: the first index with the least value. -/
noncomputable def argminFin (f : Fin M → ℝ) : Option (Fin M) :=
  (List.finRange M).find? fun i : Fin M => decide (∀ k, f i ≤ f k)

/-- `np.argmax`. -/
noncomputable def argmaxFin (f : Fin M → ℝ) : Option (Fin M) := argminFin fun i => - f i

/-- `Constellation.closest_indices` for one block (base.py:138-142). -/
noncomputable def closest (m : Fin M → Fin N → 𝕜) (r : Fin N → 𝕜) : Option (Fin M) := argminFin (sqDist m r)

open Classical in
/-- `Constellation.posteriors` for one block (base.py:182-192); `complex` is `np.iscomplexobj(self.matrix)`.  `np.log(0) = -inf` and
`np.exp(-inf) = 0`: the points with prior zero get posterior zero and do not take part in the maximum. -/
noncomputable def posteriors (complex : Bool) (m : Fin M → Fin N → 𝕜) (r : Fin N → 𝕜) (noisePower : ℝ) (priors : Fin M → ℝ) : Fin M → ℝ :=
  let variance := if complex then noisePower else 2 * noisePower
  let logp : Fin M → WithBot ℝ := fun i => if priors i = 0 then ⊥ else ((- sqDist m r i / variance + log (priors i) : ℝ) : WithBot ℝ)
  let top : ℝ := (Finset.univ.sup logp).unbotD 0
  let p : Fin M → ℝ := fun i => (logp i).recBotCoe 0 fun x => exp (x - top)
  fun i => p i / ∑ k, p k
end base

/-! ### PAM -/

/-- `PAMConstellation(M, δ).matrix[i][0]` (PAMConstellation.py:58-60). -/
def pamPoint {K : Type} [Field K] [LinearOrder K] [IsStrictOrderedRing K] (M : Nat) (δ : K) (i : Nat) : K :=
  let peak := ((M : K) - 1) * δ / 2
  (linspace (-peak) peak M).getD i 0

/-- `PAMConstellation(M, δ).matrix` (PAMConstellation.py:58-60). -/
noncomputable def pam (M : Nat) (δ : ℝ) : Fin M → Fin 1 → ℝ := fun i _ => pamPoint M δ i

/-- `PAMConstellation.mean_energy()` (PAMConstellation.py:113-114). -/
noncomputable def pamMeanEnergy (M : Nat) (δ : ℝ) : ℝ := δ ^ 2 * ((M : ℝ) ^ 2 - 1) / 12

/-- `PAMConstellation.closest_indices` (PAMConstellation.py:153-157). -/
def pamClosest {K : Type} [Field K] [LinearOrder K] [FloorRing K] (M : Nat) (δ : K) (r : K) : ℤ :=
  npClip (npRound (r / δ + ((M : K) - 1) / 2)) ((M : ℤ) - 1)

/-! ### ASK -/

/-- `np.exp(2j * np.pi * φ)`. -/
noncomputable def phase (φ : ℝ) : ℂ := Complex.exp (2 * π * φ * Complex.I)

/-- `ASKConstellation(M, A, φ).matrix` (ASKConstellation.py:72-76). -/
noncomputable def ask (M : Nat) (A φ : ℝ) : Fin M → Fin 1 → ℂ := fun i _ => (A : ℂ) * (i.val : ℂ) * phase φ

/-- `ASKConstellation.mean()` (ASKConstellation.py:113-115). -/
noncomputable def askMean (M : Nat) (A φ : ℝ) : ℂ := ((1 / 2 * A * ((M : ℝ) - 1) : ℝ) : ℂ) * phase φ

/-- `ASKConstellation.mean_energy()` (ASKConstellation.py:131-132). -/
noncomputable def askMeanEnergy (M : Nat) (A : ℝ) : ℝ := A ^ 2 * ((M : ℝ) - 1) * (2 * (M : ℝ) - 1) / 6

/-- `ASKConstellation.closest_indices` (ASKConstellation.py:167-171). -/
noncomputable def askClosest (M : Nat) (A φ : ℝ) (r : ℂ) : ℤ := npClip (npRound ((r * phase (-φ)).re / A)) ((M : ℤ) - 1)

/-! ### QAM -/

/-- `QAMConstellation((Mi, Mq), (δi, δq), φ).matrix` (QAMConstellation.py:92-98): row `Mq * i + q` of the reshaped array. -/
noncomputable def qam (Mi Mq : Nat) (δi δq φ : ℝ) : Fin (Mi * Mq) → Fin 1 → ℂ := fun k _ =>
  (((pamPoint Mi δi (k.val / Mq) : ℝ) : ℂ) + Complex.I * ((pamPoint Mq δq (k.val % Mq) : ℝ) : ℂ)) * phase φ

/-- `QAMConstellation.mean_energy()` (QAMConstellation.py:161-163). -/
noncomputable def qamMeanEnergy (Mi Mq : Nat) (δi δq : ℝ) : ℝ := δi ^ 2 * ((Mi : ℝ) ^ 2 - 1) / 12 + δq ^ 2 * ((Mq : ℝ) ^ 2 - 1) / 12

/-- `QAMConstellation.closest_indices` (QAMConstellation.py:201-211). -/
noncomputable def qamClosest (Mi Mq : Nat) (δi δq φ : ℝ) (r : ℂ) : ℤ :=
  let z := r * phase (-φ)
  let ri := z.re / (δi / 2)
  let rq := z.im / (δq / 2)
  let i := npClip (npRound ((ri + Mi - 1) / 2)) ((Mi : ℤ) - 1)
  let q := npClip (npRound ((rq + Mq - 1) / 2)) ((Mq : ℤ) - 1)
  Mq * i + q

/-! ### PSK -/

/-- `PSKConstellation(M, A, φ).matrix` (PSKConstellation.py:69-73), without the rounding to 15 decimals. -/
noncomputable def psk (M : Nat) (A φ : ℝ) : Fin M → Fin 1 → ℂ := fun i _ =>
  (A : ℂ) * Complex.exp (2 * π * Complex.I * (i.val : ℂ) / (M : ℂ)) * phase φ

/-- `PSKConstellation.minimum_distance()` (PSKConstellation.py:142-143). -/
noncomputable def pskMinimumDistance (M : Nat) (A : ℝ) : ℝ := 2 * A * sin (π / M)

/-- `PSKConstellation.closest_indices` (PSKConstellation.py:163-166). -/
noncomputable def pskClosest (M : Nat) (φ : ℝ) (r : ℂ) : ℤ :=
  let turn := Complex.arg (r * phase (-φ)) / (2 * π)
  npRound (M * turn) % M

/-! ### APSK and cross QAM -/

/-- `APSKConstellation(orders, amplitudes, phase_offsets).matrix` (APSKConstellation.py:90-93): the points of the rings one after the other,
indexed by ring and position in the ring. -/
noncomputable def apsk {R : Nat} (orders : Fin R → Nat) (amplitudes phases : Fin R → ℝ) : ((k : Fin R) × Fin (orders k)) → Fin 1 → ℂ :=
  fun x => psk (orders x.1) (amplitudes x.1) (phases x.1) x.2

/-- `APSKConstellation.mean_energy()` (APSKConstellation.py:151-152). -/
noncomputable def apskMeanEnergy {R : Nat} (orders : Fin R → Nat) (amplitudes : Fin R → ℝ) : ℝ :=
  (∑ k, (orders k : ℝ) * amplitudes k ^ 2) / ((∑ k, orders k : Nat) : ℝ)

/-- `CrossQAMConstellation.__init__` (CrossQAMConstellation.py:34-39): the orders accepted (`Nat.size` is `int.bit_length`). -/
def crossQamAccepts (order : Nat) : Bool := ! (decide (order < 32) || decide (order &&& (order - 1) ≠ 0) || decide ((Nat.size order - 1) % 2 = 0))

/-- `L` (CrossQAMConstellation.py:93-94). -/
def crossSide (order : Nat) : Nat := 3 * 2 ^ ((Nat.size order - 1 - 3) / 2)

/-- `threshold` (CrossQAMConstellation.py:96). -/
noncomputable def crossThreshold (order : Nat) (δ : ℝ) : ℝ := 2 ^ ((Nat.size order - 1 - 1) / 2) * (δ / 2)

/-- `is_corner` (CrossQAMConstellation.py:95-97). -/
def IsCorner (order : Nat) (δ : ℝ) (k : Fin (crossSide order * crossSide order)) : Prop :=
  |(qam (crossSide order) (crossSide order) δ δ 0 k 0).re| > crossThreshold order δ ∧
  |(qam (crossSide order) (crossSide order) δ δ 0 k 0).im| > crossThreshold order δ

open Classical in
noncomputable instance (order : Nat) (δ : ℝ) : Fintype { k // ¬ IsCorner order δ k } := Subtype.fintype _

/-- `CrossQAMConstellation(order, δ, φ).matrix` (CrossQAMConstellation.py:92-99): the points of the big constellation that are not corners. -/
noncomputable def crossQam (order : Nat) (δ φ : ℝ) : { k // ¬ IsCorner order δ k } → Fin 1 → ℂ :=
  fun k j => qam (crossSide order) (crossSide order) δ δ 0 k.1 j * phase φ

/-- `CrossQAMConstellation.mean_energy()` (CrossQAMConstellation.py:152-153). -/
noncomputable def crossQamMeanEnergy (order : Nat) (δ : ℝ) : ℝ := δ ^ 2 * (31 * (order : ℝ) - 32) / 192

/-! ### Orthogonal, biorthogonal and simplex constellations -/

/-- `OrthogonalConstellation(M, A).matrix` (OrthogonalConstellation.py:65-66). -/
noncomputable def orthogonal (M : Nat) (A : ℝ) : Fin M → Fin M → ℝ := fun i j => A * if i = j then 1 else 0

/-- `OrthogonalConstellation.closest_indices` and `SimplexConstellation.closest_indices` for one block (OrthogonalConstellation.py:156-159,
SimplexConstellation.py:154-157). -/
noncomputable def orthogonalClosest {M : Nat} (r : Fin M → ℝ) : Option (Fin M) := argmaxFin r

/-- `BiorthogonalConstellation(2 N, A).matrix` (BiorthogonalConstellation.py:70-73). -/
noncomputable def biorthogonal (N : Nat) (A : ℝ) : Fin (N + N) → Fin N → ℝ :=
  Fin.append (fun i j => A * if i = j then 1 else 0) (fun i j => -A * if i = j then 1 else 0)

/-- `BiorthogonalConstellation.closest_indices` for one block (BiorthogonalConstellation.py:167-173). -/
noncomputable def biorthogonalClosest {N : Nat} (r : Fin N → ℝ) : Option (Fin (N + N)) := argmaxFin (Fin.append r fun j => - r j)

/-- `BiorthogonalConstellation.minimum_distance()` (BiorthogonalConstellation.py:148-149), order `2 N`. -/
noncomputable def biorthogonalMinimumDistance (N : Nat) (A : ℝ) : ℝ := if 2 * N = 2 then 2 * A else A * √2

/-- `SimplexConstellation(M, A).matrix` (SimplexConstellation.py:65-66). -/
noncomputable def simplex (M : Nat) (A : ℝ) : Fin M → Fin M → ℝ := fun i j => A * ((if i = j then 1 else 0) - 1 / (M : ℝ))

end Constellation
end Komm
