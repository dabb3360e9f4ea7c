import Verif.Model.BlockCode
import Mathlib.Data.Nat.Choose.Basic
/-
Model of /repo/src/komm/_error_control_block/{RepetitionCode,SingleParityCheckCode,CordaroWagnerCode,HammingCode,
SimplexCode,GolayCode,util}.py.  `none` is a raised `ValueError`.
-/
namespace Komm

/-- `np.ones((r, n))`. -/
def onesMat (r n : Nat) : BMat r n := fun _ _ => 1

/-- `RepetitionCode(n)` (RepetitionCode.py:51-55). -/
def repetitionCode (n : Nat) : Option (LinCode 1 (n - 1) n) :=
  if ¬ n ≥ 1 then none else blockCodeOfGenerator (onesMat 1 n)

/-- `RepetitionCode.minimum_distance` (RepetitionCode.py:62-63). -/
def repetitionMinimumDistance (n : Nat) : Nat := n

/-- `RepetitionCode.coset_leader_weight_distribution` (RepetitionCode.py:66-73). -/
def repetitionLeaderWeightDistribution (n : Nat) : List Nat :=
  let d := (List.range ((n + 1) / 2)).foldl (fun d w => d.set w (n.choose w)) (List.replicate (n + 1) 0)
  if n % 2 = 0 then d.set (n / 2) (n.choose (n / 2) / 2) else d

/-- `SingleParityCheckCode(n)` (SingleParityCheckCode.py:51-55). -/
def singleParityCheckCode (n : Nat) : Option (LinCode (n - 1) 1 n) :=
  if ¬ n ≥ 1 then none else blockCodeOfCheck (onesMat 1 n)

/-- `SingleParityCheckCode.minimum_distance` (SingleParityCheckCode.py:62-63). -/
def singleParityCheckMinimumDistance (_n : Nat) : Nat := 2

/-- `SingleParityCheckCode.codeword_weight_distribution` (SingleParityCheckCode.py:66-71); `range(0, n + 1, 2)`. -/
def singleParityCheckWeightDistribution (n : Nat) : List Nat :=
  (List.range (n / 2 + 1)).foldl (fun d t => d.set (2 * t) (n.choose (2 * t))) (List.replicate (n + 1) 0)

/-- `int(np.ceil(2 * n / 3)) - 1` (CordaroWagnerCode.py:52, 57), exact arithmetic. -/
def cordaroWagnerDistance (n : Nat) : Nat := (2 * n + 2) / 3 - 1

/-- `cordaro_wagner_generator_matrix` (CordaroWagnerCode.py:55-63): the three runs of equal columns. -/
def cordaroWagnerGenerator (n : Nat) : BMat 2 n :=
  let d := cordaroWagnerDistance n
  let q := (n + 1) / 3
  fun i j =>
    if (j : Nat) < d - q then (if i = 0 then 1 else 0)
    else if (j : Nat) < d - q + q then (if i = 0 then 0 else 1)
    else 1

/-- `CordaroWagnerCode(n)` (CordaroWagnerCode.py:40-44). -/
def cordaroWagnerCode (n : Nat) : Option (LinCode 2 (n - 2) n) :=
  if ¬ n ≥ 2 then none else blockCodeOfGenerator (cordaroWagnerGenerator n)

/-- `CordaroWagnerCode.minimum_distance` (CordaroWagnerCode.py:51-52). -/
def cordaroWagnerMinimumDistance (n : Nat) : Nat := cordaroWagnerDistance n

/-! #### Hamming and simplex codes -/

/-- `itertools.combinations(pool, w)`, in its lexicographic order. -/
def combinations {α : Type} : List α → Nat → List (List α)
  | _, 0 => [[]]
  | [], _ + 1 => []
  | x :: xs, w + 1 => (combinations xs w).map (x :: ·) ++ combinations xs (w + 1)

/-- The index lists visited by the two loops (HammingCode.py:96-97), in order. -/
def hammingIndexLists (m : Nat) : List (List Nat) :=
  ((List.range (m + 1)).drop 2).flatMap fun w => combinations (List.range m) w

/-- `hamming_parity_submatrix(m)` (HammingCode.py:94-99): row `i` has ones at the `i`-th index list. -/
def hammingParity (m : Nat) : BMat (2 ^ m - m - 1) m :=
  fun i s => if (s : Nat) ∈ (hammingIndexLists m).getD i [] then 1 else 0

/-- `extended_parity_submatrix` (util.py:5-10). -/
def extendedParity {k m : Nat} (P : BMat k m) : BMat k (m + 1) :=
  fun i s => if h : (s : Nat) < m then P i ⟨s, h⟩ else 1 + ∑ t, P i t

/-- `.T`. -/
def transposeMat {k m : Nat} (P : BMat k m) : BMat m k := fun i j => P j i

/-- `HammingCode(mu)` (HammingCode.py:77-82). -/
def hammingCode (mu : Nat) : Option (LinCode (2 ^ mu - mu - 1) mu (2 ^ mu - mu - 1 + mu)) :=
  if ¬ mu ≥ 2 then none else some (systematicLeft (hammingParity mu))

/-- `HammingCode(mu, extended=True)` (HammingCode.py:77-82, 100-101). -/
def hammingCodeExt (mu : Nat) : Option (LinCode (2 ^ mu - mu - 1) (mu + 1) (2 ^ mu - mu - 1 + (mu + 1))) :=
  if ¬ mu ≥ 2 then none else some (systematicLeft (extendedParity (hammingParity mu)))

/-- `HammingCode.minimum_distance` (HammingCode.py:89-90). -/
def hammingMinimumDistance (extended : Bool) : Nat := if extended then 4 else 3

/-- `SimplexCode(kappa)` (SimplexCode.py:72-77). -/
def simplexCode (kappa : Nat) : Option (LinCode kappa (2 ^ kappa - kappa - 1) (kappa + (2 ^ kappa - kappa - 1))) :=
  if ¬ kappa ≥ 2 then none else some (systematicLeft (transposeMat (hammingParity kappa)))

/-- `SimplexCode(kappa, extended=True)` (SimplexCode.py:72-77). -/
def simplexCodeExt (kappa : Nat) :
    Option (LinCode (kappa + 1) (2 ^ kappa - kappa - 1) (kappa + 1 + (2 ^ kappa - kappa - 1))) :=
  if ¬ kappa ≥ 2 then none else some (systematicLeft (transposeMat (extendedParity (hammingParity kappa))))

/-- `SimplexCode.minimum_distance` (SimplexCode.py:84-85). -/
def simplexMinimumDistance (kappa : Nat) : Nat := 2 ^ (kappa - 1)

/-! #### Golay code -/

/-- The literal array of `golay_parity_submatrix` (GolayCode.py:76-89). -/
def golayRows : List (List Nat) :=
  [[1, 1, 1, 1, 1, 1, 1, 1, 1, 1, 0],
   [0, 0, 0, 0, 1, 1, 1, 1, 1, 1, 1],
   [0, 1, 1, 1, 0, 0, 0, 1, 1, 1, 1],
   [1, 0, 1, 1, 0, 1, 1, 0, 0, 1, 1],
   [1, 1, 0, 1, 1, 0, 1, 0, 1, 0, 1],
   [1, 1, 1, 0, 1, 1, 0, 1, 0, 0, 1],
   [0, 0, 1, 1, 1, 1, 0, 0, 1, 0, 1],
   [0, 1, 0, 1, 0, 1, 1, 1, 0, 0, 1],
   [0, 1, 1, 0, 1, 0, 1, 0, 0, 1, 1],
   [1, 0, 0, 1, 1, 0, 0, 1, 0, 1, 1],
   [1, 0, 1, 0, 0, 0, 1, 1, 1, 0, 1],
   [1, 1, 0, 0, 0, 1, 0, 0, 1, 1, 1]]

/-- `golay_parity_submatrix()` (GolayCode.py:75-90). -/
def golayParity : BMat 12 11 := fun i j => ((golayRows.getD i []).getD j 0 : Nat)

/-- `GolayCode()` (GolayCode.py:62-64). -/
def golayCode : LinCode 12 11 23 := systematicLeft golayParity

/-- `GolayCode(extended=True)` (GolayCode.py:62-64, 90). -/
def golayCodeExt : LinCode 12 12 24 := systematicLeft (extendedParity golayParity)

/-- `GolayCode.minimum_distance` (GolayCode.py:71-72). -/
def golayMinimumDistance (extended : Bool) : Nat := if extended then 8 else 7

end Komm
