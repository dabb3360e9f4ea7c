import Verif.Spec.FiniteStateMachine
namespace Komm.Mealy
variable {S X : Nat}

theorem process_eq (M : Mealy S X) (xs : List (Fin X)) (s : Fin S) : M.process xs s = (M.outs s xs, M.run s xs) := by
  have key : ∀ (xs : List (Fin X)) (acc : List Nat) (s : Fin S),
      xs.foldl (fun (acc : List Nat × Fin S) x => (acc.1 ++ [M.out acc.2 x], M.next acc.2 x)) (acc, s) =
        (acc ++ M.outs s xs, M.run s xs) := by
    intro xs
    induction xs with
    | nil => intro acc s; simp [outs, run]
    | cons x xs ih => intro acc s; rw [List.foldl_cons, ih]; simp [outs, run]
  simpa [process] using key xs [] s

theorem outs_length (M : Mealy S X) (s : Fin S) (xs : List (Fin X)) : (M.outs s xs).length = xs.length := by
  induction xs generalizing s with
  | nil => rfl
  | cons x xs ih => simp [outs, ih]

theorem run_append (M : Mealy S X) (s : Fin S) (xs ys : List (Fin X)) : M.run s (xs ++ ys) = M.run (M.run s xs) ys := by
  induction xs generalizing s with
  | nil => rfl
  | cons x xs ih => exact ih _

theorem outs_append (M : Mealy S X) (s : Fin S) (xs ys : List (Fin X)) :
    M.outs s (xs ++ ys) = M.outs s xs ++ M.outs (M.run s xs) ys := by
  induction xs generalizing s with
  | nil => rfl
  | cons x xs ih => simp [outs, run, ih]

theorem cost_snoc {K Z : Type} [AddCommMonoid K] (M : Mealy S X) (metric : Nat → Z → K) (s : Fin S) (xs : List (Fin X))
    (x : Fin X) (zs : List Z) (z : Z) (h : xs.length = zs.length) :
    M.cost metric s (xs ++ [x]) (zs ++ [z]) = M.cost metric s xs zs + metric (M.out (M.run s xs) x) z := by
  unfold cost
  rw [outs_append, List.zipWith_append (by rw [outs_length, h]), List.sum_append]
  simp [outs]

theorem inputEdges_eq (M : Mealy S X) (hM : M.NoParallel) (s : Fin S) (x : Fin X) :
    M.inputEdges s (M.next s x) = ((x : Nat) : Int) := by
  unfold inputEdges
  have key : ∀ (l : List (Fin X)) (acc : Int), (x ∈ l ∨ acc = ((x : Nat) : Int)) →
      l.foldl (fun (acc : Int) (x' : Fin X) => if M.next s x' = M.next s x then ((x' : Nat) : Int) else acc) acc =
        ((x : Nat) : Int) := by
    intro l
    induction l with
    | nil => intro acc h; simpa using h
    | cons a l ih =>
      intro acc h
      rw [List.foldl_cons]
      apply ih
      split
      · rename_i he
        right; rw [hM _ _ _ he]
      · rename_i he
        rcases h with h | h
        · rcases List.mem_cons.mp h with h | h
          · rw [h] at he; exact absurd rfl he
          · exact Or.inl h
        · exact Or.inr h
  exact key _ _ (Or.inl (List.mem_finRange x))

theorem inputEdges_exists (M : Mealy S X) (s s1 : Fin S) (h : ∃ x, M.next s x = s1) :
    ∃ x, M.next s x = s1 ∧ M.inputEdges s s1 = ((x : Fin X) : Nat) := by
  unfold inputEdges
  have key : ∀ (l : List (Fin X)) (acc : Int), ((∃ x ∈ l, M.next s x = s1) ∨ ∃ x, M.next s x = s1 ∧ acc = ((x : Fin X) : Nat)) →
      ∃ x, M.next s x = s1 ∧
      l.foldl (fun (acc : Int) (x' : Fin X) => if M.next s x' = s1 then ((x' : Nat) : Int) else acc) acc =
        ((x : Nat) : Int) := by
    intro l
    induction l with
    | nil => intro acc h; simpa using h
    | cons a l ih =>
      intro acc h
      rw [List.foldl_cons]
      apply ih
      split
      · rename_i he
        right; exact ⟨a, he, rfl⟩
      · rename_i he
        rcases h with ⟨x, hx, hx2⟩ | h
        · rcases List.mem_cons.mp hx with h | h
          · rw [h] at hx2; exact absurd hx2 he
          · exact Or.inl ⟨x, h, hx2⟩
        · exact Or.inr h
  obtain ⟨x, hx⟩ := h
  exact key _ _ (Or.inl ⟨x, List.mem_finRange x, hx⟩)

section trellis
variable {K Z : Type} [Add K] [LinearOrder K] [NeZero S]

theorem foldl_foldl_flatMap {α β γ : Type} (f : γ → α → β → γ) (l : List α) (m : List β) (c : γ) :
    l.foldl (fun acc a => m.foldl (fun acc b => f acc a b) acc) c =
      (l.flatMap fun a => m.map fun b => (a, b)).foldl (fun acc p => f acc p.1 p.2) c := by
  induction l generalizing c with
  | nil => rfl
  | cons a l ih => rw [List.foldl_cons, ih, List.flatMap_cons, List.foldl_append, List.foldl_map]

/-- One trellis step: the new metric is the minimum of the candidates, the choice attains it. -/
theorem trellisStep_spec (M : Mealy S X) (metric : Nat → Z → K) (m : Fin S → WithTop K) (z : Z) (s : Fin S) :
    (∀ s0 x, M.next s0 x = s → (M.trellisStep metric m z).1 s ≤ m s0 + ((metric (M.out s0 x) z : K) : WithTop K)) ∧
    ((M.trellisStep metric m z).1 s = ⊤ ∨ ∃ x, M.next ((M.trellisStep metric m z).2 s) x = s ∧
      (M.trellisStep metric m z).1 s = m ((M.trellisStep metric m z).2 s) +
        ((metric (M.out ((M.trellisStep metric m z).2 s) x) z : K) : WithTop K)) := by
  have key : ∀ (l : List (Fin S × Fin X)) (acc : (Fin S → WithTop K) × (Fin S → Fin S)),
      (acc.1 s = ⊤ ∨ ∃ x, M.next (acc.2 s) x = s ∧
        acc.1 s = m (acc.2 s) + ((metric (M.out (acc.2 s) x) z : K) : WithTop K)) →
      let r := l.foldl (fun (acc : (Fin S → WithTop K) × (Fin S → Fin S)) (p : Fin S × Fin X) =>
        if m p.1 + ((metric (M.out p.1 p.2) z : K) : WithTop K) < acc.1 (M.next p.1 p.2) then
          (Function.update acc.1 (M.next p.1 p.2) (m p.1 + ((metric (M.out p.1 p.2) z : K) : WithTop K)),
            Function.update acc.2 (M.next p.1 p.2) p.1) else acc) acc
      r.1 s ≤ acc.1 s ∧
      (∀ p ∈ l, M.next p.1 p.2 = s → r.1 s ≤ m p.1 + ((metric (M.out p.1 p.2) z : K) : WithTop K)) ∧
      (r.1 s = ⊤ ∨ ∃ x, M.next (r.2 s) x = s ∧
        r.1 s = m (r.2 s) + ((metric (M.out (r.2 s) x) z : K) : WithTop K)) := by
    intro l
    induction l with
    | nil => intro acc h; exact ⟨le_rfl, by simp, h⟩
    | cons p l ih =>
      intro acc h
      simp only [List.foldl_cons]
      set acc' := (if m p.1 + ((metric (M.out p.1 p.2) z : K) : WithTop K) < acc.1 (M.next p.1 p.2) then
          (Function.update acc.1 (M.next p.1 p.2) (m p.1 + ((metric (M.out p.1 p.2) z : K) : WithTop K)),
            Function.update acc.2 (M.next p.1 p.2) p.1) else acc) with hacc'
      have h1 : acc'.1 s ≤ acc.1 s ∧
          (M.next p.1 p.2 = s → acc'.1 s ≤ m p.1 + ((metric (M.out p.1 p.2) z : K) : WithTop K)) ∧
          (acc'.1 s = ⊤ ∨ ∃ x, M.next (acc'.2 s) x = s ∧
            acc'.1 s = m (acc'.2 s) + ((metric (M.out (acc'.2 s) x) z : K) : WithTop K)) := by
        rw [hacc']
        split
        · rename_i hlt
          by_cases he : M.next p.1 p.2 = s
          · rw [he] at hlt ⊢
            simp only [Function.update_self]
            exact ⟨le_of_lt hlt, fun _ => le_rfl, Or.inr ⟨p.2, he, rfl⟩⟩
          · simp only [Function.update_of_ne (fun e => he (Eq.symm e))]
            exact ⟨le_rfl, fun e => absurd e he, h⟩
        · rename_i hlt
          refine ⟨le_rfl, fun e => ?_, h⟩
          rw [e] at hlt
          exact not_lt.mp hlt
      obtain ⟨i1, i2, i3⟩ := ih acc' h1.2.2
      refine ⟨i1.trans h1.1, ?_, i3⟩
      intro q hq he
      rcases List.mem_cons.mp hq with rfl | hq
      · exact i1.trans (h1.2.1 he)
      · exact i2 q hq he
  obtain ⟨_, k2, k3⟩ := key ((List.finRange S).flatMap fun a => (List.finRange X).map fun b => (a, b))
    (fun _ => ⊤, fun _ => 0) (Or.inl rfl)
  have he : M.trellisStep metric m z = ((List.finRange S).flatMap fun a => (List.finRange X).map fun b => (a, b)).foldl
      (fun (acc : (Fin S → WithTop K) × (Fin S → Fin S)) (p : Fin S × Fin X) =>
        if m p.1 + ((metric (M.out p.1 p.2) z : K) : WithTop K) < acc.1 (M.next p.1 p.2) then
          (Function.update acc.1 (M.next p.1 p.2) (m p.1 + ((metric (M.out p.1 p.2) z : K) : WithTop K)),
            Function.update acc.2 (M.next p.1 p.2) p.1) else acc) (fun _ => ⊤, fun _ => 0) :=
    foldl_foldl_flatMap (fun (acc : (Fin S → WithTop K) × (Fin S → Fin S)) (s0 : Fin S) (x : Fin X) =>
        if m s0 + ((metric (M.out s0 x) z : K) : WithTop K) < acc.1 (M.next s0 x) then
          (Function.update acc.1 (M.next s0 x) (m s0 + ((metric (M.out s0 x) z : K) : WithTop K)),
            Function.update acc.2 (M.next s0 x) s0) else acc) _ _ _
  rw [he]
  refine ⟨fun s0 x hx => k2 (s0, x) ?_ hx, k3⟩
  rw [List.mem_flatMap]
  exact ⟨s0, List.mem_finRange s0, List.mem_map.mpr ⟨x, List.mem_finRange x, rfl⟩⟩

/-- The states visited going backwards through the choices, earliest first, excluding the final state. -/
def statePath : List (Fin S → Fin S) → Fin S → List (Fin S)
  | [], _ => []
  | choice :: earlier, s1 => statePath earlier (choice s1) ++ [choice s1]

theorem viterbiForward_snoc (M : Mealy S X) (metric : Nat → Z → K) (init : Fin S → WithTop K) (zs : List Z) (z : Z) :
    M.viterbiForward metric init (zs ++ [z]) =
      ((M.trellisStep metric (M.viterbiForward metric init zs).1 z).1,
        (M.trellisStep metric (M.viterbiForward metric init zs).1 z).2 :: (M.viterbiForward metric init zs).2) := by
  unfold viterbiForward
  rw [List.foldl_append]; rfl

end trellis

section viterbi
variable {K Z : Type} [AddCommGroup K] [LinearOrder K] [IsOrderedAddMonoid K] [NeZero S]

theorem viterbiForward_spec (M : Mealy S X) (metric : Nat → Z → K) (init : Fin S → WithTop K) (zs : List Z) (s : Fin S) :
    (∀ s0 xs, xs.length = zs.length → M.run s0 xs = s →
      (M.viterbiForward metric init zs).1 s ≤ init s0 + ((M.cost metric s0 xs zs : K) : WithTop K)) ∧
    ((M.viterbiForward metric init zs).1 s = ⊤ ∨ ∃ s0 xs, xs.length = zs.length ∧ M.run s0 xs = s ∧
      (M.viterbiForward metric init zs).1 s = init s0 + ((M.cost metric s0 xs zs : K) : WithTop K) ∧
      (M.NoParallel → M.backtrack (M.viterbiForward metric init zs).2 s = xs.map fun x : Fin X => ((x : Nat) : Int)) ∧
      ∃ xs', xs'.length = zs.length ∧ M.run s0 xs' = s ∧
        M.backtrack (M.viterbiForward metric init zs).2 s = xs'.map fun x : Fin X => ((x : Nat) : Int)) := by
  induction zs using List.reverseRecOn generalizing s with
  | nil =>
    constructor
    · intro s0 xs hl hr
      have : xs = [] := by simpa using hl
      subst this
      rw [← hr]
      simp [viterbiForward, run, cost, outs]
    · right
      exact ⟨s, [], rfl, rfl, by simp [viterbiForward, cost, outs], fun _ => rfl, [], rfl, rfl, rfl⟩
  | append_singleton zs z ih =>
    rw [viterbiForward_snoc]
    obtain ⟨t1, t2⟩ := trellisStep_spec M metric (M.viterbiForward metric init zs).1 z s
    constructor
    · intro s0 xs hl hr
      obtain ⟨xs', x, rfl⟩ : ∃ xs' x, xs = xs' ++ [x] := by
        rcases List.eq_nil_or_concat xs with h | ⟨xs', x, h⟩
        · rw [h] at hl; simp at hl
        · exact ⟨xs', x, by rw [h]; simp⟩
      have hl' : xs'.length = zs.length := by simpa using hl
      rw [run_append] at hr
      have h1 := t1 (M.run s0 xs') x hr
      have h2 := (ih (M.run s0 xs')).1 s0 xs' hl' rfl
      rw [cost_snoc _ _ _ _ _ _ _ hl', WithTop.coe_add, ← add_assoc]
      exact h1.trans (add_le_add_left h2 _)
    · rcases t2 with t2 | ⟨x, hx, he⟩
      · exact Or.inl t2
      · simp only
        set c := (M.trellisStep metric (M.viterbiForward metric init zs).1 z).2 s with hc
        rcases (ih c).2 with h | ⟨s0, xs, hl, hr, hm, hb, xs', hl', hr', hb'⟩
        · left; rw [he, h, WithTop.top_add]
        · right
          refine ⟨s0, xs ++ [x], by simp [hl], by rw [run_append, hr]; exact hx, ?_, ?_, ?_⟩
          · rw [he, hm, cost_snoc _ _ _ _ _ _ _ hl, hr, WithTop.coe_add, add_assoc]
          · intro hM
            rw [backtrack, ← hc, hb hM, List.map_append, List.map_singleton]
            congr 2
            have := inputEdges_eq M hM c x
            rw [hx] at this
            exact this
          · obtain ⟨x', hx', hi⟩ := inputEdges_exists M c s ⟨x, hx⟩
            refine ⟨xs' ++ [x'], by simp [hl'], by rw [run_append, hr']; exact hx', ?_⟩
            rw [backtrack, ← hc, hb', List.map_append, List.map_singleton, hi]

end viterbi
end Komm.Mealy
