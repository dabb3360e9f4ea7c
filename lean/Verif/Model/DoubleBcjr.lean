import Verif.Model.DoubleDecoders
import Verif.Model.TrellisDecoders
/-
`MealyMachine.forward_backward` (/repo/src/komm/_finite_state_machine/MealyMachine.py), `Labeling.marginalize` (/repo/src/komm/_labelings/base.py) and `BCJRDecoder`
(/repo/src/komm/_error_control_decoders/BCJRDecoder.py) in double precision.  Doubles are those of `Model/Double.lean` (the values in the theorems are far from overflow); `⊥` is `-inf`.

The order in which `np.sum`, `np.dot` and `@` add is not modelled: any order, with every partial sum rounded (`SumOf`).  The exponential and the logarithms of numpy are not modelled: they are any
functions that meet an accuracy requirement (`Libm.Accurate`).  `np.logaddexp` is modelled as numpy implements it.
-/
namespace Komm
open scoped BigOperators

/-- The elementary functions of the C library (`np.exp`, `np.log1p`, `np.log`).  Their values outside the doubles do not matter. -/
structure Libm where
  exp : ℝ → Double
  log1p : ℝ → ℝ
  log : ℝ → ℝ

/-- Accurate to a few units in the last place: a relative error of at most `2⁻⁵⁰`; the exponential may be off by one unit more where it underflows. -/
structure Libm.Accurate (F : Libm) : Prop where
  exp_near : ∀ x, x ≤ 0 → 0 ≤ (F.exp x).val ∧ |(F.exp x).val - Real.exp x| ≤ Real.exp x / 2 ^ 50 + 2 ^ (-1074 : ℤ)
  log1p_near : ∀ x, 0 ≤ x → x ≤ 2 → 0 ≤ F.log1p x ∧ |F.log1p x - Real.log (1 + x)| ≤ Real.log (1 + x) / 2 ^ 50
  log_near : ∀ x, 0 < x → |F.log x - Real.log x| ≤ |Real.log x| / 2 ^ 50

/-- `a + b` of two doubles or `-inf`. -/
noncomputable def addD : WithBot ℝ → WithBot ℝ → WithBot ℝ
  | (a : ℝ), (b : ℝ) => ((rnd (a + b) : ℝ) : WithBot ℝ)
  | _, _ => ⊥

/-- `np.log` of a non-negative double (with `divide="ignore"`: `log 0 = -inf`). -/
noncomputable def npLogD (F : Libm) (x : Double) : WithBot ℝ := if x.val = 0 then ⊥ else ((F.log x.val : ℝ) : WithBot ℝ)

/-- `np.logaddexp` of two finite doubles (`npy_logaddexp` of numpy's C sources). -/
noncomputable def logaddexpFinite (F : Libm) (a b : ℝ) : ℝ :=
  if a = b then rnd (a + rnd (Real.log 2))
  else if 0 < rnd (a - b) then rnd (a + F.log1p (F.exp (-rnd (a - b))).val)
  else rnd (b + F.log1p (F.exp (rnd (a - b))).val)

/-- `np.logaddexp`; with `-inf`, the other argument is returned (`exp(-inf) = log1p(0) = 0`). -/
noncomputable def logaddexpD (F : Libm) : WithBot ℝ → WithBot ℝ → WithBot ℝ
  | ⊥, b => b
  | (a : ℝ), ⊥ => ((a : ℝ) : WithBot ℝ)
  | (a : ℝ), (b : ℝ) => ((logaddexpFinite F a b : ℝ) : WithBot ℝ)

/-- `np.logaddexp.reduce` of `[f(0), …, f(S-1)]`. -/
noncomputable def logaddexpReduceD (F : Libm) {S : Nat} (f : Fin S → WithBot ℝ) : WithBot ℝ :=
  (List.finRange S).foldl (fun acc s => logaddexpD F acc (f s)) ⊥

namespace Mealy
variable {S X : Nat}

/-- `log_gamma[t]` (MealyMachine.py:330-333). -/
noncomputable def logGammaD {Z : Type} (F : Libm) (M : Mealy S X) (metric : Nat → Z → Double) (z : Z) (p : Fin X → Double) (s0 s1 : Fin S) : WithBot ℝ :=
  (List.finRange X).foldl (fun (acc : WithBot ℝ) (x : Fin X) =>
    if M.next s0 x = s1 then addD (npLogD F (p x)) (((metric (M.out s0 x) z).val : ℝ) : WithBot ℝ) else acc) ⊥

/-- The forward recursion (MealyMachine.py:335-339) for one step. -/
noncomputable def alphaStepD (F : Libm) (gamma : Fin S → Fin S → WithBot ℝ) (alpha : Fin S → WithBot ℝ) : Fin S → WithBot ℝ :=
  fun s1 => logaddexpReduceD F fun s0 => addD (gamma s0 s1) (alpha s0)

/-- The backward recursion (MealyMachine.py:341-345) for one step. -/
noncomputable def betaStepD (F : Libm) (gamma : Fin S → Fin S → WithBot ℝ) (beta : Fin S → WithBot ℝ) : Fin S → WithBot ℝ :=
  fun s0 => logaddexpReduceD F fun s1 => addD (gamma s0 s1) (beta s1)

/-- `np.exp` of a double or `-inf`. -/
noncomputable def npExpD (F : Libm) : WithBot ℝ → Double
  | ⊥ => 0
  | (x : ℝ) => F.exp x

/-- One row of lines 358-361 of MealyMachine.py. -/
noncomputable def normalizeRowD (F : Libm) (sum : List Double → Double) (l : Fin X → WithBot ℝ) : Option (Fin X → Double) :=
  match amax l with
  | ⊥ => none
  | (m : ℝ) => some fun x =>
      ⟨rnd ((npExpD F (addD (l x) ((-m : ℝ) : WithBot ℝ))).val / (sum (List.ofFn fun x' : Fin X => npExpD F (addD (l x') ((-m : ℝ) : WithBot ℝ)))).val), rnd_isDouble _⟩

/-- The output row at time `t` (MealyMachine.py:349-361). -/
noncomputable def posteriorRowD (F : Libm) (sum : List Double → Double) (M : Mealy S X) (gammas : List (Fin S → Fin S → WithBot ℝ))
    (init final : Fin S → WithBot ℝ) (t : Nat) : Option (Fin X → Double) :=
  let alpha := (gammas.take t).foldl (fun a g => alphaStepD F g a) init
  let beta := (gammas.drop (t + 1)).foldr (betaStepD F) final
  let gamma := gammas.getD t (fun _ _ => ⊥)
  normalizeRowD F sum fun x => logaddexpReduceD F fun s0 =>
    addD (addD (alpha s0) (gamma s0 (M.next s0 x))) (beta (M.next s0 x))

/-- `forward_backward` (MealyMachine.py:285-363) in double precision. -/
noncomputable def forwardBackwardD {Z : Type} (F : Libm) (sum : List Double → Double) (M : Mealy S X) (metric : Nat → Z → Double) (observed : List Z)
    (inputPriors : Option (Nat → Fin X → Double)) (init final : Option (Fin S → Double)) : List (Option (Fin X → Double)) :=
  let priors := inputPriors.getD fun _ _ => ⟨rnd (1 / (X : ℝ)), rnd_isDouble _⟩
  let init := init.getD fun _ => ⟨rnd (1 / (S : ℝ)), rnd_isDouble _⟩
  let final := final.getD fun _ => ⟨rnd (1 / (S : ℝ)), rnd_isDouble _⟩
  let gammas := observed.mapIdx fun t z => M.logGammaD F metric z (priors t)
  (List.range observed.length).map fun t =>
    M.posteriorRowD F sum gammas (fun s => npLogD F (init s)) (fun s => npLogD F (final s)) t

end Mealy

/-- `np.log(a) - np.log(b)` of two non-negative doubles (labelings/base.py:114-115); `none` is `nan`. -/
noncomputable def logRatioD (F : Libm) (a b : Double) : Option EReal :=
  if a.val = 0 then (if b.val = 0 then none else some ⊥)
  else if b.val = 0 then some ⊤ else some ((rnd (F.log a.val - F.log b.val) : ℝ) : EReal)

/-- `marginalize` (labelings/base.py:104-116) of the metrics of one group of `M` indices: the products by 0 and 1 are exact. -/
noncomputable def marginalizeRowD (F : Libm) (dot : List Double → Double) {M m : Nat} (matrix : Fin M → Fin m → Nat) (metrics : Fin M → Double) : List (Option EReal) :=
  List.ofFn fun i : Fin m =>
    logRatioD F (dot (List.ofFn fun x : Fin M => if matrix x i = 0 then metrics x else 0)) (dot (List.ofFn fun x : Fin M => if matrix x i = 1 then metrics x else 0))

/-- `_metric_function` (BCJRDecoder.py:49, 52-53): the products by ±1 are exact. -/
noncomputable def bcjrMetricD (dot : List Double → Double) (n : Nat) (y : Nat) (z : List Double) : Double :=
  ⟨rnd (0.5 * (dot (List.zipWith (fun (b : ZMod 2) (x : Double) => if b = 0 then x else x.neg) (symbolBits n y) z)).val), rnd_isDouble _⟩

namespace Terminated
variable {k n σ : Nat}

/-- `bcjr_initial_final_distributions` (TerminatedConvolutionalCode.py:226-231, 276-281, 318-321): `np.eye(1, num_states, 0)` and `np.ones(num_states) / num_states`. -/
noncomputable def bcjrDistributionsD (t : Terminated k n σ) : Option ((Fin (2 ^ σ) → Double) × (Fin (2 ^ σ) → Double)) :=
  match t.mode with
  | .directTruncation => some (fun s => if (s : Nat) = 0 then Double.ofInt 1 else 0, fun _ => ⟨rnd (1 / ((2 ^ σ : Nat) : ℝ)), rnd_isDouble _⟩)
  | .zeroTermination => some (fun s => if (s : Nat) = 0 then Double.ofInt 1 else 0, fun s => if (s : Nat) = 0 then Double.ofInt 1 else 0)
  | .tailBiting => none

/-- `NaturalLabeling(k).marginalize` (labelings/base.py:104-116) of one row of posteriors; a row of `nan`s is `none`. -/
noncomputable def rowBitsD (F : Libm) (dot : List Double → Double) (row : Option (Fin (2 ^ k) → Double)) : List (Option EReal) :=
  match row with
  | none => List.replicate k none
  | some p => marginalizeRowD F dot (naturalMatrix k) p

/-- `BCJRDecoder.decode` with soft output on one block (BCJRDecoder.py:34-50, 72-86) in double precision; an entry that is `none` is a `nan`. -/
noncomputable def bcjrBlockD (F : Libm) (sum : List Double → Double) (t : Terminated k n σ) (li : List Double) : Option (List (Option EReal)) :=
  if k = 0 ∨ n = 0 ∨ li.length % n ≠ 0 then none
  else t.bcjrDistributionsD.bind fun d =>
    (t.bcjrPostProcess (t.code.finiteStateMachine.forwardBackwardD F sum (bcjrMetricD sum n) (chunks n li) none (some d.1) (some d.2))).map
      fun rows : List (Option (Fin (2 ^ k) → Double)) =>
        (rows.map fun row : Option (Fin (2 ^ k) → Double) => rowBitsD F sum row).flatten

/-- `BCJRDecoder(code, "soft").decode` (BCJRDecoder.py:55-92) in double precision. -/
noncomputable def bcjrSoftD (F : Libm) (sum : List Double → Double) (t : Terminated k n σ) (li : List Double) : Option (List (Option EReal)) :=
  blockwise t.length (t.bcjrBlockD F sum) li

/-- `BCJRDecoder(code, "hard").decode` (BCJRDecoder.py:55-92) in double precision. -/
noncomputable def bcjrHardD (F : Libm) (sum : List Double → Double) (t : Terminated k n σ) (li : List Double) : Option (List (ZMod 2)) :=
  (t.bcjrSoftD F sum li).map hardDecision

end Terminated
end Komm
