import Verif.Lemmas.ForwardBackward
import Verif.Props.C59_Process
import Mathlib.Algebra.BigOperators.Field
/-! C65: the forward-backward algorithm, in exact arithmetic. -/
namespace Komm
open Mealy
open scoped BigOperators
variable {S X : Nat} {Z : Type}

/-- `forward_backward` returns, for each time `t`, the posterior distribution of the input at time `t`: the share of the
total weight (initial pmf × priors × exp(metrics) × final pmf, summed over all initial states and input sequences) that is
carried by the input sequences with symbol `x` at time `t`. -/
theorem C65_posterior (M : Mealy S X) (hM : M.NoParallel) (metric : Nat → Z → ℝ) (zs : List Z)
    (priors : Option (Nat → Fin X → ℝ)) (init final : Option (Fin S → ℝ))
    (hp : ∀ p, priors = some p → ∀ t x, 0 ≤ p t x) (hi : ∀ p, init = some p → ∀ s, 0 ≤ p s)
    (hf : ∀ p, final = some p → ∀ s, 0 ≤ p s)
    (w : Fin S → (Fin zs.length → Fin X) → ℝ)
    (hw : w = M.jointWeight metric zs (priors.getD fun _ _ => 1 / (X : ℝ)) (init.getD fun _ => 1 / (S : ℝ))
      (final.getD fun _ => 1 / (S : ℝ)))
    (hne : ∑ s, ∑ xs, w s xs ≠ 0) :
    (M.forwardBackward metric zs priors init final).length = zs.length ∧
    ∀ t : Fin zs.length, (M.forwardBackward metric zs priors init final)[t]? =
      some (some fun x => (∑ s, ∑ xs : Fin zs.length → Fin X, if xs t = x then w s xs else 0) / ∑ s, ∑ xs, w s xs) := by
  subst hw
  constructor
  · simp [forwardBackward]
  · intro t
    simp only [forwardBackward, Fin.getElem?_fin]
    rw [List.getElem?_map, List.getElem?_range t.is_lt]
    simp only [Option.map_some, Option.some.injEq]
    apply posteriorRow_spec M hM metric zs _ _ _ _ _ _ t hne
    · intro t x
      cases priors with
      | none => simp
      | some p => exact hp p rfl t x
    · intro s
      cases init with
      | none => simp
      | some p => exact hi p rfl s
    · intro s
      cases final with
      | none => simp
      | some p => exact hf p rfl s

/-- Each row is a probability distribution. -/
theorem C65_normalized (M : Mealy S X) (hM : M.NoParallel) (metric : Nat → Z → ℝ) (zs : List Z)
    (priors : Option (Nat → Fin X → ℝ)) (init final : Option (Fin S → ℝ))
    (hp : ∀ p, priors = some p → ∀ t x, 0 ≤ p t x) (hi : ∀ p, init = some p → ∀ s, 0 ≤ p s)
    (hf : ∀ p, final = some p → ∀ s, 0 ≤ p s)
    (hne : ∑ s, ∑ xs, M.jointWeight metric zs (priors.getD fun _ _ => 1 / (X : ℝ)) (init.getD fun _ => 1 / (S : ℝ))
      (final.getD fun _ => 1 / (S : ℝ)) s xs ≠ 0) (row : Option (Fin X → ℝ))
    (hr : row ∈ M.forwardBackward metric zs priors init final) :
    ∃ p : Fin X → ℝ, row = some p ∧ (∀ x, 0 ≤ p x) ∧ ∑ x, p x = 1 := by
  obtain ⟨h1, h2⟩ := C65_posterior M hM metric zs priors init final hp hi hf _ rfl hne
  obtain ⟨i, hi', hrow⟩ := List.mem_iff_getElem.mp hr
  have h := h2 ⟨i, by omega⟩
  simp only [Fin.getElem?_fin] at h
  rw [List.getElem?_eq_getElem hi', hrow, Option.some.injEq] at h
  refine ⟨_, h, ?_, ?_⟩
  · intro x
    have hnn : ∀ s (xs : Fin zs.length → Fin X), 0 ≤ M.jointWeight metric zs (priors.getD fun _ _ => 1 / (X : ℝ))
        (init.getD fun _ => 1 / (S : ℝ)) (final.getD fun _ => 1 / (S : ℝ)) s xs := by
      intro s xs
      unfold jointWeight
      refine mul_nonneg (mul_nonneg (mul_nonneg ?_ (Finset.prod_nonneg fun t _ => ?_)) (Real.exp_pos _).le) ?_
      · cases init with
        | none => simp
        | some p => exact hi p rfl s
      · cases priors with
        | none => simp
        | some p => exact hp p rfl t _
      · cases final with
        | none => simp
        | some p => exact hf p rfl _
    apply div_nonneg
    · refine Finset.sum_nonneg fun s _ => Finset.sum_nonneg fun xs _ => ?_
      split
      · exact hnn s xs
      · exact le_rfl
    · exact Finset.sum_nonneg fun s _ => Finset.sum_nonneg fun xs _ => hnn s xs
  · rw [← Finset.sum_div, div_eq_one_iff_eq hne, Finset.sum_comm]
    apply Finset.sum_congr rfl
    intro s _
    rw [Finset.sum_comm]
    apply Finset.sum_congr rfl
    intro xs _
    simp

/-- Non-vacuity: with the default (uniform) arguments the total weight is never zero. -/
example (metric : Nat → Z → ℝ) (zs : List Z) : exampleMealy.NoParallel ∧
    ∑ s, ∑ xs : Fin zs.length → Fin 2, exampleMealy.jointWeight metric zs (fun _ _ => 1 / ((2 : Nat) : ℝ))
      (fun _ => 1 / ((4 : Nat) : ℝ)) (fun _ => 1 / ((4 : Nat) : ℝ)) s xs ≠ 0 := by
  refine ⟨by unfold NoParallel; decide, ne_of_gt ?_⟩
  refine Finset.sum_pos (fun s _ => Finset.sum_pos (fun xs _ => ?_) ⟨fun _ => 0, Finset.mem_univ _⟩) ⟨0, Finset.mem_univ _⟩
  unfold jointWeight
  have : 0 < ∏ t : Fin zs.length, (1 : ℝ) / ((2 : Nat) : ℝ) := Finset.prod_pos fun t _ => by norm_num
  positivity

/-- Without the no-parallel hypothesis the result is wrong: for a one-state machine whose output is its input and a metric
that favours output 1, both inputs get the same "posterior", although the posterior weights `1` and `e` differ. -/
theorem C65_parallel_wrong (metric : Nat → Nat → ℝ) (hm : metric 0 0 = 0 ∧ metric 1 0 = 1) :
    let M : Mealy 1 2 := ⟨fun _ _ => 0, fun _ x => (x : Nat)⟩
    (∀ row ∈ M.forwardBackward metric [0] none none none, ∀ p, row = some p → p 0 = p 1) ∧
    M.jointWeight metric [0] (fun _ _ => 1 / 2) (fun _ => 1) (fun _ => 1) 0 (fun _ => 0) ≠
      M.jointWeight metric [0] (fun _ _ => 1 / 2) (fun _ => 1) (fun _ => 1) 0 (fun _ => 1) := by
  intro M
  constructor
  · intro row hr p hp
    simp only [forwardBackward, List.length_singleton, List.range_one, List.map_singleton, List.mem_singleton] at hr
    rw [hr, posteriorRow] at hp
    simp only [normalizeRow] at hp
    split at hp
    · simp at hp
    · rw [Option.some.injEq] at hp
      rw [← hp]
  · simp [jointWeight, cost, outs, M, hm.1, hm.2]

end Komm
