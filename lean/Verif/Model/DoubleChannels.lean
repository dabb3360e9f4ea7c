import Verif.Model.DoubleInfo
/-
The `mutual_information` and `capacity` methods of the binary channels (/repo/src/komm/_channels/BinarySymmetricChannel.py, BinaryErasureChannel.py, ZChannel.py) in double precision.
The validators of the pmf and of the base are those of the model in exact arithmetic and are not repeated; `pi` is `input_pmf[1]`.  `none` is `ValueError`.
-/
namespace Komm

open Classical in
/-- `binary_entropy(p)` with `validate_probability` (information_theory.py:73-76, validators.py:18-21). -/
noncomputable def checkedEntropyD (F : InfoLibm) (p : ℝ) : Option ℝ := if 0 ≤ p ∧ p ≤ 1 then some (binaryEntropyD F p) else none

/-- `base = e if base == "e" else base` (BinarySymmetricChannel.py:84, 104); `math.e` is a double. -/
noncomputable def baseD : LogBase → ℝ
  | .e => rnd (Real.exp 1)
  | .num b => b

/-- `BinarySymmetricChannel.mutual_information` (BinarySymmetricChannel.py:85-87). -/
noncomputable def bscMutualInformationD (F : InfoLibm) (p pi : ℝ) (base : LogBase) : Option ℝ :=
  (checkedEntropyD F (rnd (rnd (p + pi) - rnd (rnd (2 * p) * pi)))).bind fun a : ℝ =>
    (checkedEntropyD F p).bind fun b : ℝ => some (rnd (rnd (a - b) / F.log2 (baseD base)))

/-- `BinarySymmetricChannel.capacity` (BinarySymmetricChannel.py:102-105). -/
noncomputable def bscCapacityD (F : InfoLibm) (p : ℝ) (base : LogBase) : Option ℝ :=
  (checkedEntropyD F p).map fun h : ℝ => rnd (rnd (1 - h) / F.log2 (baseD base))

/-- `BinaryErasureChannel.mutual_information` (BinaryErasureChannel.py:85-87). -/
noncomputable def becMutualInformationD (F : InfoLibm) (ε pi : ℝ) (base : LogBase) : Option ℝ :=
  (checkedEntropyD F pi).map fun h : ℝ => rnd (rnd (rnd (1 - ε) * h) / F.log2 (baseD base))

/-- `BinaryErasureChannel.capacity` (BinaryErasureChannel.py:102-104). -/
noncomputable def becCapacityD (F : InfoLibm) (ε : ℝ) (base : LogBase) : ℝ := rnd (rnd (1 - ε) / F.log2 (baseD base))

/-- `ZChannel.mutual_information` (ZChannel.py:85-87). -/
noncomputable def zMutualInformationD (F : InfoLibm) (p pi : ℝ) (base : LogBase) : Option ℝ :=
  (checkedEntropyD F (rnd (pi * rnd (1 - p)))).bind fun a : ℝ =>
    (checkedEntropyD F p).bind fun b : ℝ => some (rnd (rnd (a - rnd (pi * b)) / F.log2 (baseD base)))

open Classical in
/-- `ZChannel.capacity` (ZChannel.py:102-108); `pow` is `float.__pow__`. -/
noncomputable def zCapacityD (F : InfoLibm) (pow : ℝ → ℝ → ℝ) (p : ℝ) (base : LogBase) : ℝ :=
  if p = 1 then 0
  else
    let q := rnd (1 - p)
    rnd (F.log2 (rnd (1 + rnd (q * pow p (rnd (p / q))))) / F.log2 (baseD base))

/-! `mutual_information` of a discrete memoryless channel -/

/-- `validate_pmf(value)` (validators.py:36-40): `sum` is `value.sum()`, which adds in some order, and `np.isclose(s, 1.0)` is `abs(s - 1.0) <= 1e-8 + 1e-5 * abs(1.0)`. -/
def validPmfD (sum : List Double → Double) (l : List Double) : Prop :=
  (∀ x ∈ l, 0 ≤ x.val) ∧ |rnd ((sum l).val - 1)| ≤ rnd (rnd (1 / 10 ^ 8) + rnd (rnd (1 / 10 ^ 5) * 1))

open Classical in
/-- `mutual_information(input_pmf, transition_matrix, base)` (information_theory.py:165-178); the check of the base is not repeated.  `none` when a validator raises, or when an entropy is
infinite (C143; the result is then `inf`, `-inf` or `nan`).  Each entry of the matrix product `np.dot(input_pmf, transition_matrix)` is computed by some summation (`gemv j`), which may depend on its
position. -/
noncomputable def mutualInformationD {n m : Nat} (F : InfoLibm) (dot : List (ℝ × ℝ) → Double) (gemv : Fin m → List (ℝ × ℝ) → Double) (sum : List Double → Double) (r : Fin n → Double)
    (P : Fin n → Fin m → Double) (base : LogBase) : Option ℝ :=
  let out : List Double := List.ofFn fun j : Fin m => gemv j (List.ofFn fun i : Fin n => ((r i).val, (P i j).val))
  if validPmfD sum (List.ofFn r) ∧ (∀ i, validPmfD sum (List.ofFn (P i))) ∧ validPmfD sum out then
    let prior : EReal := entropyD F dot out base
    let rows : Fin n → EReal := fun i => entropyD F dot (List.ofFn (P i)) base
    if (prior ≠ ⊤ ∧ prior ≠ ⊥) ∧ ∀ i, rows i ≠ ⊤ ∧ rows i ≠ ⊥ then
      some (rnd (prior.toReal - (dot (List.ofFn fun i : Fin n => ((r i).val, (rows i).toReal))).val))
    else none
  else none

end Komm
