import Verif.Model.Convolutional

/-! Model of `invariant_factors` (_util/matrices.py) and of `is_catastrophic` (_error_control_convolutional/base.py).
Integers stand for binary polynomials; the `int64` range of the numpy array is not modelled. -/
namespace Komm

/-- A `k × n` matrix of integers standing for binary polynomials (matrices.py:206). -/
abbrev PMat (k n : Nat) := Fin k → Fin n → Nat

namespace PMat
variable {k n : Nat}

/-- Step E1 (matrices.py:213-221): the first entry, in row-major order, of least degree among the non-zero entries; `none` when
all entries are zero (the case of matrices.py:210-211). -/
def leastEntry (M : PMat k n) : Option (Fin k × Fin n) :=
  ((List.finRange k).flatMap fun i : Fin k => (List.finRange n).map fun j : Fin n => (i, j)).foldl
    (fun best p =>
      if M p.1 p.2 = 0 then best
      else match best with
        | none => some p
        | some b => if BP.degree (M p.1 p.2) < BP.degree (M b.1 b.2) then some p else some b)
    none

/-- Exchange of rows 0 and `i` (matrices.py:222, 254). -/
def swapRow (M : PMat (k + 1) n) (i : Fin (k + 1)) : PMat (k + 1) n := fun r => M (Equiv.swap 0 i r)

/-- Exchange of columns 0 and `j` (matrices.py:223, 238). -/
def swapCol (M : PMat k (n + 1)) (j : Fin (n + 1)) : PMat k (n + 1) := fun r s => M r (Equiv.swap 0 j s)

/-- `matrix[:, j] -= q j * matrix[:, 0]` for every `j` at once (matrices.py:236-237, 259-262): column 0 is not changed by the
loop, so the columns can be updated simultaneously. -/
def addCols (M : PMat k (n + 1)) (q : Fin n → Nat) : PMat k (n + 1) :=
  fun i => Fin.cases (M i 0) fun j => BP.add (M i j.succ) (BP.mul (q j) (M i 0))

/-- `matrix[i, :] -= q i * matrix[0, :]` for every `i` at once (matrices.py:252-253, 264-267). -/
def addRows (M : PMat (k + 1) n) (q : Fin k → Nat) : PMat (k + 1) n :=
  Fin.cases (M 0) fun i j => BP.add (M i.succ j) (BP.mul (q i) (M 0 j))

/-- Step E2a (matrices.py:225-240).  Every iteration replaces `a0` by a remainder, so `bitLength a0` iterations suffice. -/
def loopCols : (fuel : Nat) → (M : PMat (k + 1) (n + 1)) → (a0 : Nat) → PMat (k + 1) (n + 1) × Nat
  | 0, M, a0 => (M, a0)
  | fuel + 1, M, a0 =>
    match (List.finRange n).find? fun j : Fin n => decide (M 0 j.succ ≠ 0 ∧ BP.mod (M 0 j.succ) a0 ≠ 0) with
    | none => (M, a0)
    | some j =>
      loopCols fuel
        (swapCol (addCols M fun j' => if j' = j then BP.div (M 0 j.succ) a0 else 0) j.succ) (BP.mod (M 0 j.succ) a0)

/-- Step E2b (matrices.py:241-256). -/
def loopRows : (fuel : Nat) → (M : PMat (k + 1) (n + 1)) → (a0 : Nat) → PMat (k + 1) (n + 1) × Nat
  | 0, M, a0 => (M, a0)
  | fuel + 1, M, a0 =>
    match (List.finRange k).find? fun i : Fin k => decide (M i.succ 0 ≠ 0 ∧ BP.mod (M i.succ 0) a0 ≠ 0) with
    | none => (M, a0)
    | some i =>
      loopRows fuel
        (swapRow (addRows M fun i' => if i' = i then BP.div (M i.succ 0) a0 else 0) i.succ) (BP.mod (M i.succ 0) a0)

/-- Step E3a (matrices.py:258-262). -/
def clearRow (M : PMat (k + 1) (n + 1)) (a0 : Nat) : PMat (k + 1) (n + 1) :=
  addCols M fun j => BP.div (M 0 j.succ) a0

/-- Step E3b (matrices.py:263-267). -/
def clearCol (M : PMat (k + 1) (n + 1)) (a0 : Nat) : PMat (k + 1) (n + 1) :=
  addRows M fun i => BP.div (M i.succ 0) a0

/-- Steps E1 to E3 (matrices.py:213-267) once the least entry is known: the matrix left behind, and `a0`. -/
def stage (M : PMat (k + 1) (n + 1)) (p : Fin (k + 1) × Fin (n + 1)) : PMat (k + 1) (n + 1) × Nat :=
  let r1 := loopCols (bitLength (M p.1 p.2)) (swapCol (swapRow M p.1) p.2) (M p.1 p.2)
  let r2 := loopRows (bitLength r1.2) r1.1 r1.2
  (clearCol (clearRow r2.1 r2.2) r2.2, r2.2)

/-- `invariant_factors` (matrices.py:190-269); `none` is the `ValueError` for more rows than columns. -/
def invariantFactors : (k n : Nat) → PMat k n → Option (List Nat)
  | 0, _, _ => some []
  | _ + 1, 0, _ => none
  | k + 1, n + 1, M =>
    if k + 1 > n + 1 then none
    else match leastEntry M with
      | none => some []
      | some p =>
        (invariantFactors k n fun i j => (stage M p).1 i.succ j.succ).map fun fs => (stage M p).2 :: fs

end PMat

/-- `reduce(domain.lcm, denominators)` (base.py:169-170); `none` is the `TypeError` of `reduce` on an empty list. -/
def commonDenominator {k n : Nat} (G : Fin k → Fin n → BPFraction) : Option Nat :=
  match (List.finRange k).flatMap fun i : Fin k => (List.finRange n).map fun j : Fin n => (G i j).denominator with
  | [] => none
  | d :: ds => some (ds.foldl BP.domainLcm d)

/-- `G_prime` (base.py:171-173).  The product exists whenever the entry is a fraction with a non-zero denominator. -/
def clearDenominators {k n : Nat} (q : Nat) (G : Fin k → Fin n → BPFraction) : PMat k n := fun i j =>
  (((BPFraction.create q 1).bind fun fq => BPFraction.mul fq (G i j)).map BPFraction.numerator).getD 0

/-- `is_catastrophic` (base.py:168-178) for a generator matrix of fractions; `none` is an exception: the `TypeError` above, or a
`ValueError` (more rows than columns, or a matrix not of full rank). -/
def isCatastrophicOf {k n : Nat} (G : Fin k → Fin n → BPFraction) : Option Bool :=
  (commonDenominator G).bind fun q =>
    (PMat.invariantFactors k n (clearDenominators q G)).bind fun factors =>
      if factors.length < k then none
      else (BPFraction.create (factors.getLastD 0) q).map fun α => decide ((BP.exponents α.numerator).length ≠ 1)

/-- `is_catastrophic` on a generator matrix whose entries may have raised. -/
def isCatastrophic {k n : Nat} (G : Fin k → Fin n → Option BPFraction) : Option Bool :=
  if h : ∀ i j, (G i j).isSome then isCatastrophicOf fun i j => (G i j).get (h i j) else none

/-- `ConvolutionalCode.is_catastrophic` (ConvolutionalCode.py:356). -/
def ConvCode.isCatastrophic {k n : Nat} (c : ConvCode k n) : Option Bool := Komm.isCatastrophic c.generatorMatrix

/-- `LowRateConvolutionalCode.is_catastrophic` (LowRateConvolutionalCode.py:197). -/
def LowRate.isCatastrophic {n : Nat} (c : LowRate n) : Option Bool :=
  Komm.isCatastrophic fun _ : Fin 1 => c.generatorMatrix

/-- `HighRateConvolutionalCode.is_catastrophic` (HighRateConvolutionalCode.py:236). -/
def HighRate.isCatastrophic {k : Nat} (c : HighRate k) : Option Bool := Komm.isCatastrophic c.generatorMatrix

/-! #### `_minors_gcd` -/

/-- `itertools.combinations(l, k)`: the sublists of length `k`, in lexicographic order of positions. -/
def pyCombinations {α : Type} : List α → Nat → List (List α)
  | _, 0 => [[]]
  | [], _ + 1 => []
  | x :: xs, k + 1 => (pyCombinations xs k).map (x :: ·) ++ pyCombinations xs (k + 1)

/-- `ring.determinant` (ring.py:99-124) of a square matrix of binary polynomials of order `n ≥ 1`: the sign is `±1`, and
`sign * cofactor` is the cofactor (`BinaryPolynomial.__rmul__`, BinaryPolynomial.py:130-134, `-1 % 2 = 1`). -/
def bpDeterminant : Nat → List (List Nat) → Nat
  | 0, _ => 0
  | 1, m => (m.headD []).headD 0
  | n + 2, m =>
    (List.range (n + 2)).foldl (fun det j =>
      BP.add det (BP.mul ((m.headD []).getD j 0)
        (bpDeterminant (n + 1) (m.tail.map fun row : List Nat => row.take j ++ row.drop (j + 1))))) 0

/-- `_minors_gcd` (base.py:144-158) for a generator matrix of fractions; `none` is an exception: `ValueError` when some entry is not
a polynomial, `IndexError` of `determinant` for `k = 0`, `TypeError` of `reduce` when there is no minor (`n < k`). -/
def minorsGcdOf {k n : Nat} (G : Fin k → Fin n → BPFraction) : Option Nat :=
  if ∃ i j, (G i j).denominator ≠ 1 then none
  else if k = 0 then none
  else BP.gcdList ((pyCombinations (List.finRange n) k).map fun js : List (Fin n) =>
    bpDeterminant k ((List.finRange k).map fun i : Fin k => js.map fun j : Fin n => (G i j).numerator))

/-- `_minors_gcd` on a generator matrix whose entries may have raised. -/
def minorsGcd {k n : Nat} (G : Fin k → Fin n → Option BPFraction) : Option Nat :=
  if h : ∀ i j, (G i j).isSome then minorsGcdOf fun i j => (G i j).get (h i j) else none

end Komm
