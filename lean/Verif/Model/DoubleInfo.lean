import Verif.Model.DoubleViterbi
import Verif.Model.Information
/-
The information measures of /repo/src/komm/_util/information_theory.py in double precision.  Doubles are those of `Model/Double.lean`, except that quotients that overflow are `inf`.
The validators (`validate_pmf`, `validate_log_base`, `validate_probability`) are those of the model in exact arithmetic and are not repeated.

The logarithms of the C library are not modelled: they are any functions that meet an accuracy requirement (`InfoLibm.Accurate`).  The order in which `np.dot` adds, and whether it uses fused
multiply-add instructions, is not modelled either: any combination (`DotOf`).
-/
namespace Komm

/-- `np.log`, `np.log2` and `math.log2`. -/
structure InfoLibm where
  log : ℝ → ℝ
  log2 : ℝ → ℝ

/-- Accurate to a few units in the last place. -/
structure InfoLibm.Accurate (F : InfoLibm) : Prop where
  log_near : ∀ x, 0 < x → |F.log x - Real.log x| ≤ |Real.log x| / 2 ^ 50
  log2_near : ∀ x, 0 < x → |F.log2 x - Real.logb 2 x| ≤ |Real.logb 2 x| / 2 ^ 50

/-- `DotOf l v`: `v` is a value that a summation of the products of the pairs in `l` may return: products are rounded and added, or added by a fused multiply-add. -/
inductive DotOf : List (ℝ × ℝ) → Double → Prop
  | nil : DotOf [] 0
  | fma {l : List (ℝ × ℝ)} {a : Double} (x y : ℝ) : DotOf l a → DotOf ((x, y) :: l) ⟨rnd (a.val + x * y), rnd_isDouble _⟩
  | add {l l' : List (ℝ × ℝ)} {a b : Double} : DotOf l a → DotOf l' b → DotOf (l ++ l') (a + b)
  | perm {l l' : List (ℝ × ℝ)} {a : Double} : l.Perm l' → DotOf l a → DotOf l' a

open Classical in
/-- The logarithm of `x` to a base (information_theory.py:46-51, 151-156). -/
noncomputable def infoLogD (F : InfoLibm) (base : LogBase) (x : ℝ) : ℝ :=
  match base with
  | .e => F.log x
  | .num b => if b = 2 then F.log2 x else rnd (F.log x / F.log b)

open Classical in
/-- `np.dot(weights, log(quotients))` with the quotients rounded (information_theory.py:46-52, 151-157).  A quotient that overflows has an infinite logarithm, and makes the result infinite. -/
noncomputable def infoDotD (F : InfoLibm) (dot : List (ℝ × ℝ) → Double) (base : LogBase) (l : List (ℝ × ℝ)) : EReal :=
  if ∃ x ∈ l, 2 ^ 1024 ≤ rnd x.2 then (if base.val < 1 then ⊥ else ⊤)
  else ((dot (l.map fun x : ℝ × ℝ => (x.1, infoLogD F base (rnd x.2)))).val : EReal)

open Classical in
/-- `entropy(pmf, base)` (information_theory.py:42-52). -/
noncomputable def entropyD (F : InfoLibm) (dot : List (ℝ × ℝ) → Double) (pmf : List Double) (base : LogBase) : EReal :=
  infoDotD F dot base ((pmf.filter fun p : Double => decide (0 < p.val)).map fun p : Double => (p.val, 1 / p.val))

open Classical in
/-- `relative_entropy(pmf, qmf, base)` (information_theory.py:143-157) for inputs of the same length; the pairs are `(pmf[i], qmf[i])`.  A quotient by 0 is `inf`. -/
noncomputable def relativeEntropyD (F : InfoLibm) (dot : List (ℝ × ℝ) → Double) (pq : List (Double × Double)) (base : LogBase) : EReal :=
  let kept := pq.filter fun x : Double × Double => decide (0 < x.1.val)
  if ∃ x ∈ kept, x.2.val = 0 then (if base.val < 1 then ⊥ else ⊤)
  else infoDotD F dot base (kept.map fun x : Double × Double => (x.1.val, x.1.val / x.2.val))

open Classical in
/-- `binary_entropy(p)` (information_theory.py:73-76). -/
noncomputable def binaryEntropyD (F : InfoLibm) (p : ℝ) : ℝ :=
  if p = 0 ∨ p = 1 then 0
  else rnd (rnd (-p * F.log2 p) - rnd (rnd (1 - p) * F.log2 (rnd (1 - p))))

open Classical in
/-- The loop of `binary_entropy_inv` (information_theory.py:99-105) with its last line; `none` when the fuel is exhausted. -/
noncomputable def entropyInvLoopD (F : InfoLibm) (h tol : ℝ) : Nat → ℝ → ℝ → Option ℝ
  | 0, _, _ => none
  | fuel + 1, low, high =>
    if rnd (high - low) > tol then
      let mid := rnd (rnd (low + high) / 2)
      if binaryEntropyD F mid < h then entropyInvLoopD F h tol fuel mid high else entropyInvLoopD F h tol fuel low mid
    else some (rnd (rnd (low + high) / 2))

open Classical in
/-- `binary_entropy_inv(h, tol)` (information_theory.py:96-105) for `h` from 0 to 1; `none` when it does not terminate within `fuel` iterations. -/
noncomputable def binaryEntropyInvD (F : InfoLibm) (fuel : Nat) (h tol : ℝ) : Option ℝ :=
  if h = 0 ∨ h = 1 then some (rnd (1 / 2 * h)) else entropyInvLoopD F h tol fuel 0 (1 / 2)

end Komm
