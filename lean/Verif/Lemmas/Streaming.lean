import Verif.Lemmas.FiniteStateMachine
namespace Komm.Mealy
variable {S X : Nat}

theorem states_length (M : Mealy S X) (s : Fin S) (xs : List (Fin X)) : (M.states s xs).length = xs.length + 1 := by
  induction xs generalizing s with
  | nil => rfl
  | cons x xs ih => simp [states, ih]

theorem states_snoc (M : Mealy S X) (s : Fin S) (xs : List (Fin X)) (x : Fin X) :
    M.states s (xs ++ [x]) = M.states s xs ++ [M.next (M.run s xs) x] := by
  induction xs generalizing s with
  | nil => rfl
  | cons y xs ih => simp [states, run, ih]

theorem states_getElem (M : Mealy S X) (s : Fin S) (xs : List (Fin X)) (i : Nat) (hi : i < xs.length) :
    (M.states s xs).getD (i + 1) s = M.next ((M.states s xs).getD i s) xs[i] := by
  induction xs generalizing s i with
  | nil => simp at hi
  | cons y xs ih =>
    cases i with
    | zero =>
      cases xs <;> simp [states]
    | succ i =>
      have hi' : i < xs.length := by simpa using hi
      have hl : i + 1 < (M.states (M.next s y) xs).length := by rw [states_length]; omega
      have h := ih (M.next s y) i hi'
      simp only [states, List.getD_cons_succ, List.getElem_cons_succ]
      rw [List.getD_eq_getElem?_getD, List.getElem?_eq_getElem hl, Option.getD_some] at h ⊢
      rw [List.getD_eq_getElem?_getD, List.getElem?_eq_getElem (by omega), Option.getD_some] at h ⊢
      exact h

section
variable {K Z : Type} [AddCommGroup K] [LinearOrder K] [IsOrderedAddMonoid K] [NeZero S]

theorem viterbiStreaming_snoc (M : Mealy S X) (metric : Nat → Z → K) (zs : List Z) (z : Z) (m : Memory S K) :
    M.viterbiStreaming metric (zs ++ [z]) m =
      ((M.viterbiStreaming metric zs m).1 ++ [(M.streamStep metric (M.viterbiStreaming metric zs m).2 z).1],
        (M.streamStep metric (M.viterbiStreaming metric zs m).2 z).2) := by
  unfold viterbiStreaming
  rw [List.foldl_append]; rfl

theorem viterbiStreaming_append (M : Mealy S X) (metric : Nat → Z → K) (as bs : List Z) (m : Memory S K) :
    M.viterbiStreaming metric (as ++ bs) m =
      ((M.viterbiStreaming metric as m).1 ++ (M.viterbiStreaming metric bs (M.viterbiStreaming metric as m).2).1,
        (M.viterbiStreaming metric bs (M.viterbiStreaming metric as m).2).2) := by
  induction bs using List.reverseRecOn with
  | nil => simp [viterbiStreaming]
  | append_singleton bs z ih =>
    rw [← List.append_assoc, viterbiStreaming_snoc, ih, viterbiStreaming_snoc]
    simp

theorem viterbiStreaming_length (M : Mealy S X) (metric : Nat → Z → K) (zs : List Z) (m : Memory S K) :
    (M.viterbiStreaming metric zs m).1.length = zs.length := by
  induction zs using List.reverseRecOn with
  | nil => rfl
  | append_singleton zs z ih => rw [viterbiStreaming_snoc]; simp [ih]

theorem viterbiStreaming_metrics (M : Mealy S X) (metric : Nat → Z → K) (zs : List Z) (m : Memory S K) :
    (M.viterbiStreaming metric zs m).2.metrics = (M.viterbiForward metric m.metrics zs).1 := by
  induction zs using List.reverseRecOn with
  | nil => rfl
  | append_singleton zs z ih => rw [viterbiStreaming_snoc, viterbiForward_snoc, streamStep, ih]

/-- The stored path of a state with finite metric is the tail of the state sequence of a best path to it. -/
theorem viterbiStreaming_paths (M : Mealy S X) (metric : Nat → Z → K) (zs : List Z) (tau : Nat) (s : Fin S)
    (hs : (M.viterbiStreaming metric zs (Memory.fresh tau 0)).2.metrics s ≠ ⊤) :
    ∃ xs : List (Fin X), xs.length = zs.length ∧ M.run 0 xs = s ∧
      (M.viterbiStreaming metric zs (Memory.fresh tau 0)).2.metrics s = ((M.cost metric 0 xs zs : K) : WithTop K) ∧
      (M.viterbiStreaming metric zs (Memory.fresh tau 0)).2.paths s =
        (List.replicate tau 0 ++ M.states 0 xs).drop xs.length := by
  induction zs using List.reverseRecOn generalizing s with
  | nil =>
    have h0 : s = 0 := by
      by_contra h
      apply hs
      show (if s = 0 then (0 : WithTop K) else ⊤) = ⊤
      rw [if_neg h]
    subst h0
    refine ⟨[], rfl, rfl, ?_, ?_⟩
    · show (if (0 : Fin S) = 0 then (0 : WithTop K) else ⊤) = _
      rw [if_pos rfl]; simp [cost, outs]
    · show List.replicate (tau + 1) 0 = _
      rw [List.replicate_succ']; simp [states]
  | append_singleton zs z ih =>
    rw [viterbiStreaming_snoc, streamStep] at hs
    simp only at hs
    rw [viterbiStreaming_snoc, streamStep]
    simp only
    set m := (M.viterbiStreaming metric zs (Memory.fresh tau 0)).2 with hm
    rcases (trellisStep_spec M metric m.metrics z s).2 with h | ⟨x, hx, he⟩
    · exact absurd h hs
    · set c := (M.trellisStep metric m.metrics z).2 s with hc
      have hcne : m.metrics c ≠ ⊤ := by
        intro h; apply hs; rw [he, h, WithTop.top_add]
      obtain ⟨xs, hl, hr, hcost, hp⟩ := ih c hcne
      refine ⟨xs ++ [x], by simp [hl], by rw [run_append, hr]; exact hx, ?_, ?_⟩
      · rw [he, hcost, cost_snoc _ _ _ _ _ _ _ hl, hr, WithTop.coe_add]
      · rw [hp, states_snoc, hr, hx, List.drop_drop, List.length_append, List.length_singleton, ← List.append_assoc,
          List.drop_append_of_le_length (l₂ := [s])]
        simp [states_length]

end
end Komm.Mealy
