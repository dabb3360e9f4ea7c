import Verif.Model.DoubleViterbi
import Verif.Model.FanoShannon
import Mathlib.Analysis.SpecialFunctions.Log.Base
/-
The sizes that the library computes with floating-point logarithms: the field widths of the Lempel–Ziv codes, the codeword lengths of the Shannon codes and the default block size of the
Tunstall codes.  Doubles are those of `Model/Double.lean`.

The logarithms of the C library (used by Python's `math.log`, `math.log2` and by `np.log2`) are not modelled: they are any functions that meet an accuracy requirement
(`LogAccurate`, `Log2Accurate`).
-/
namespace Komm

/-- A natural logarithm that is accurate to one unit in the last place (a relative error of at most `2⁻⁵²`) on the doubles from 1 on. -/
def LogAccurate (L : ℝ → ℝ) : Prop := ∀ x, IsDouble x → 1 ≤ x → |L x - Real.log x| ≤ Real.log x / 2 ^ 52

/-- A base-2 logarithm with the same accuracy, that is exact on powers of two. -/
def Log2Accurate (L : ℝ → ℝ) : Prop :=
  (∀ x, IsDouble x → 1 ≤ x → |L x - Real.logb 2 x| ≤ Real.logb 2 x / 2 ^ 52) ∧ ∀ k : Nat, k ≤ 1023 → L (2 ^ k) = k

/-- Python's `math.log(n, b)` of two positive integers: both are converted to `float`, and the two logarithms are divided. -/
noncomputable def pyLog (L : ℝ → ℝ) (n b : Nat) : ℝ := rnd (L (rnd (n : ℝ)) / L (rnd (b : ℝ)))

/-- `ceil(log(n, calY))` (LempelZiv77Code.py:87-89, LempelZivSSCode.py:88-90, LempelZiv78Code.py:96, 99, 115, 120, LempelZivWelchCode.py:68, 75, 109, 117). -/
noncomputable def widthD (L : ℝ → ℝ) (calY n : Nat) : Nat := ⌈pyLog L n calY⌉.toNat

/-- `ceil(log2(self.pmf.size))` (TunstallCode.py:63). -/
noncomputable def tunstallSizeD (L2 : ℝ → ℝ) (S : Nat) : Nat := ⌈L2 (rnd (S : ℝ))⌉.toNat

/-- `a * b` of two doubles: the exact product, rounded. -/
noncomputable instance : Mul Double := ⟨fun a b => ⟨rnd (a.val * b.val), rnd_isDouble _⟩⟩

/-- One length of `shannon_code_lengths` (ShannonCode.py:85-88): `max(1, ceil(log2(1 / p)))`, each operation rounded. -/
noncomputable def shannonLengthD (L2 : ℝ → ℝ) (p : Double) : Nat := (max 1 ⌈L2 (rnd (1 / p.val))⌉).toNat

open Classical in
/-- `ShannonCode.__init__` and `shannon_code` (ShannonCode.py:56-67, 91-98) in double precision.  A block probability that is 0 or so small that its inverse overflows has
length `inf`, which `astype(int)` makes negative (on x86-64), so that `canonical_code` raises. -/
noncomputable def shannonCodeD (L2 : ℝ → ℝ) (pmf : List Double) (k : Nat) : Option FVCode :=
  if ¬ (∀ p ∈ pmf, 0 < p.val) then none
  else if k < 1 then none
  else if ∃ p ∈ extendedPmf pmf k, p.val = 0 ∨ 2 ^ 1024 ≤ rnd (1 / p.val) then none
  else
    match canonicalCode ((extendedPmf pmf k).map (shannonLengthD L2)) with
    | none => none
    | some codewords => FVCode.create pmf.length 2 k (dictOfPairs ((allWords pmf.length k).zip codewords))

end Komm
