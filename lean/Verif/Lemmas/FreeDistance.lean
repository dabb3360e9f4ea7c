import Verif.Model.FreeDistance
import Verif.Lemmas.Convolutional
import Verif.Lemmas.Lexicode
import Mathlib.Data.DFinsupp.WellFounded
/-! Correctness and termination of the search of `free_distance`. -/
namespace Komm.Mealy
variable {S X : Nat} (M : Mealy S X)

/-! ### the heap -/

theorem heapMin_spec (a : Nat × Fin S) (l : List (Nat × Fin S)) :
    heapMin a l ∈ a :: l ∧ ∀ b ∈ a :: l, (heapMin a l).1 ≤ b.1 := by
  have h : ∀ (l : List (Nat × Fin S)) (a : Nat × Fin S),
      (heapMin a l ∈ a :: l) ∧ (heapMin a l).1 ≤ a.1 ∧ ∀ b ∈ l, (heapMin a l).1 ≤ b.1 := by
    intro l
    induction l with
    | nil => intro a; simp [heapMin]
    | cons y l ih =>
      intro a
      have e : heapMin a (y :: l) = heapMin (if itemLE a y then a else y) l := rfl
      rw [e]
      have hle : (if itemLE a y then a else y).1 ≤ a.1 ∧ (if itemLE a y then a else y).1 ≤ y.1 := by
        by_cases hc : itemLE a y
        · rw [if_pos hc]
          refine ⟨le_rfl, ?_⟩
          simp only [itemLE, Bool.or_eq_true, decide_eq_true_eq, Bool.and_eq_true, beq_iff_eq] at hc
          omega
        · rw [if_neg hc]
          refine ⟨?_, le_rfl⟩
          simp only [itemLE, Bool.or_eq_true, decide_eq_true_eq, Bool.and_eq_true, beq_iff_eq] at hc
          omega
      obtain ⟨h1, h2, h3⟩ := ih (if itemLE a y then a else y)
      refine ⟨?_, le_trans h2 hle.1, ?_⟩
      · rcases List.mem_cons.mp h1 with h | h
        · rw [h]
          split <;> simp
        · simp [h]
      · intro b hb
        rcases List.mem_cons.mp hb with rfl | hb
        · exact le_trans h2 hle.2
        · exact h3 b hb
  obtain ⟨h1, h2, h3⟩ := h l a
  refine ⟨h1, ?_⟩
  intro b hb
  rcases List.mem_cons.mp hb with rfl | hb
  · exact h2
  · exact h3 b hb

/-! ### walks -/

/-- The weight of the walk from `s` with inputs `xs`. -/
def walkWeight (s : Fin S) (xs : List (Fin X)) : Nat := ((M.outs s xs).map bitCount).sum

theorem walkWeight_snoc (s : Fin S) (xs : List (Fin X)) (x : Fin X) :
    M.walkWeight s (xs ++ [x]) = M.walkWeight s xs + bitCount (M.out (M.run s xs) x) := by
  rw [walkWeight, outs_append, List.map_append, List.sum_append]
  simp [walkWeight, outs]

theorem run_snoc (s : Fin S) (xs : List (Fin X)) (x : Fin X) : M.run s (xs ++ [x]) = M.next (M.run s xs) x := by
  rw [run_append]; rfl

/-! ### the loop over the inputs -/

/-- What a relaxation step guarantees. -/
structure Relaxed (w : Nat) (s : Fin S) (best best' : Fin S → WithTop Nat) (heap heap' : List (Nat × Fin S))
    (xs : List (Fin X)) : Prop where
  le : ∀ i, best' i ≤ best i
  sub : ∀ a ∈ heap, a ∈ heap'
  new : ∀ a ∈ heap', a ∈ heap ∨ ∃ x, a = (w + bitCount (M.out s x), M.next s x)
  bestNew : ∀ i, best' i = best i ∨ ∃ (b : Nat), best' i = (b : WithTop Nat) ∧ (b, i) ∈ heap' ∧
    ∃ x, b = w + bitCount (M.out s x) ∧ i = M.next s x
  done : ∀ x ∈ xs, best' (M.next s x) ≤ ((w + bitCount (M.out s x) : Nat) : WithTop Nat) ∧
    ((M.next s x : Nat) = 0 → 0 < w + bitCount (M.out s x) → (w + bitCount (M.out s x), M.next s x) ∈ heap')
  same : best' = best → ∀ (p : Nat × Fin S → Bool), (∀ a, p a = true → ¬ ((a.2 : Nat) = 0 ∧ a.1 > 0)) →
    heap'.countP p = heap.countP p

theorem relax_spec (w : Nat) (s : Fin S) (xs : List (Fin X)) (best : Fin S → WithTop Nat) (heap : List (Nat × Fin S)) :
    M.Relaxed w s best (xs.foldl (M.relax w s) (best, heap)).1 heap (xs.foldl (M.relax w s) (best, heap)).2 xs := by
  induction xs using List.reverseRecOn with
  | nil =>
    exact ⟨fun _ => le_rfl, fun _ h => h, fun _ h => Or.inl h, fun _ => Or.inl rfl, by simp, fun _ _ _ => rfl⟩
  | append_singleton xs x ih =>
    rw [List.foldl_append, List.foldl_cons, List.foldl_nil]
    generalize hr : xs.foldl (M.relax w s) (best, heap) = r at ih ⊢
    obtain ⟨b1, h1⟩ := r
    simp only at ih
    rw [relax]
    set s1 := M.next s x with hs1
    set w1 := w + bitCount (M.out s x) with hw1
    simp only
    by_cases hlt : ((w1 : Nat) : WithTop Nat) < b1 s1
    · rw [if_pos hlt]
      have hle : ∀ i, Function.update b1 s1 ((w1 : Nat) : WithTop Nat) i ≤ b1 i := by
        intro i
        by_cases hi : i = s1
        · subst hi; rw [Function.update_self]; exact hlt.le
        · rw [Function.update_of_ne hi]
      refine ⟨fun i => le_trans (hle i) (ih.le i), fun a ha => List.mem_cons_of_mem _ (ih.sub a ha), ?_, ?_, ?_, ?_⟩
      · intro a ha
        rcases List.mem_cons.mp ha with rfl | ha
        · exact Or.inr ⟨x, rfl⟩
        · exact ih.new a ha
      · intro i
        by_cases hi : i = s1
        · right
          subst hi
          exact ⟨w1, by dsimp only; rw [Function.update_self], List.mem_cons_self, x, rfl, rfl⟩
        · dsimp only
          rw [Function.update_of_ne hi]
          rcases ih.bestNew i with h | ⟨b, h2, h3, h4⟩
          · exact Or.inl h
          · exact Or.inr ⟨b, h2, List.mem_cons_of_mem _ h3, h4⟩
      · intro y hy
        rcases List.mem_append.mp hy with hy | hy
        · obtain ⟨h2, h3⟩ := ih.done y hy
          exact ⟨le_trans (hle _) h2, fun ha hb => List.mem_cons_of_mem _ (h3 ha hb)⟩
        · rw [List.mem_singleton] at hy
          subst hy
          exact ⟨by dsimp only; rw [← hs1, Function.update_self], fun _ _ => List.mem_cons_self⟩
      · intro he
        exfalso
        have := congrFun he s1
        dsimp only at this
        rw [Function.update_self] at this
        have h2 := ih.le s1
        rw [this] at hlt
        exact absurd (lt_of_lt_of_le hlt h2) (lt_irrefl _)
    · rw [if_neg hlt]
      by_cases h0 : (s1 : Nat) = 0 ∧ w1 > 0
      · rw [if_pos h0]
        refine ⟨ih.le, fun a ha => List.mem_cons_of_mem _ (ih.sub a ha), ?_, ?_, ?_, ?_⟩
        · intro a ha
          rcases List.mem_cons.mp ha with rfl | ha
          · exact Or.inr ⟨x, rfl⟩
          · exact ih.new a ha
        · intro i
          rcases ih.bestNew i with h | ⟨b, h2, h3, h4⟩
          · exact Or.inl h
          · exact Or.inr ⟨b, h2, List.mem_cons_of_mem _ h3, h4⟩
        · intro y hy
          rcases List.mem_append.mp hy with hy | hy
          · obtain ⟨h2, h3⟩ := ih.done y hy
            exact ⟨h2, fun ha hb => List.mem_cons_of_mem _ (h3 ha hb)⟩
          · rw [List.mem_singleton] at hy
            subst hy
            exact ⟨not_lt.mp hlt, fun _ _ => List.mem_cons_self⟩
        · intro he p hp
          rw [List.countP_cons_of_neg, ih.same he p hp]
          intro hpa
          exact hp _ hpa h0
      · rw [if_neg h0]
        refine ⟨ih.le, ih.sub, ih.new, ih.bestNew, ?_, ih.same⟩
        intro y hy
        rcases List.mem_append.mp hy with hy | hy
        · exact ih.done y hy
        · rw [List.mem_singleton] at hy
          subst hy
          exact ⟨not_lt.mp hlt, fun ha hb => absurd ⟨ha, hb⟩ h0⟩

/-! ### the invariant -/

/-- All the edges leaving `s` have been relaxed with weight `b` at `s`. -/
def Expanded (best : Fin S → WithTop Nat) (heap : List (Nat × Fin S)) (b : Nat) (s : Fin S) : Prop :=
  ∀ x, best (M.next s x) ≤ ((b + bitCount (M.out s x) : Nat) : WithTop Nat) ∧
    ((M.next s x : Nat) = 0 → 0 < b + bitCount (M.out s x) →
      ∃ w' ≤ b + bitCount (M.out s x), 0 < w' ∧ (w', M.next s x) ∈ heap)

structure Inv [NeZero S] (best : Fin S → WithTop Nat) (heap : List (Nat × Fin S)) : Prop where
  heapSound : ∀ a ∈ heap, ∃ xs, M.run 0 xs = a.2 ∧ M.walkWeight 0 xs = a.1
  bestSound : ∀ i (b : Nat), best i = (b : WithTop Nat) → ∃ xs, M.run 0 xs = i ∧ M.walkWeight 0 xs = b
  bestDone : ∀ i (b : Nat), best i = (b : WithTop Nat) → (b, i) ∈ heap ∨ M.Expanded best heap b i
  start : (0, 0) ∈ heap ∨ M.Expanded best heap 0 0

theorem inv_init [NeZero S] : M.Inv (fun _ => ⊤) [((0 : Nat), (0 : Fin S))] where
  heapSound := by
    intro a ha
    rw [List.mem_singleton] at ha
    subst ha
    exact ⟨[], rfl, rfl⟩
  bestSound := by intro i b h; exact absurd h (by simp)
  bestDone := by intro i b h; exact absurd h (by simp)
  start := Or.inl (by simp)

theorem inv_step [NeZero S] {best : Fin S → WithTop Nat} {heap rest : List (Nat × Fin S)} {w : Nat} {s : Fin S}
    (h : M.Inv best heap) (hmem : (w, s) ∈ heap) (hrest : rest = heap.erase (w, s)) (hne : ¬ ((s : Nat) = 0 ∧ w > 0)) :
    M.Inv ((List.finRange X).foldl (M.relax w s) (best, rest)).1 ((List.finRange X).foldl (M.relax w s) (best, rest)).2 := by
  have R := M.relax_spec w s (List.finRange X) best rest
  set best' := ((List.finRange X).foldl (M.relax w s) (best, rest)).1
  set heap' := ((List.finRange X).foldl (M.relax w s) (best, rest)).2
  have hkeep : ∀ a ∈ heap, a ≠ (w, s) → a ∈ heap' := by
    intro a ha hne'
    apply R.sub
    rw [hrest]
    exact (List.mem_erase_of_ne hne').mpr ha
  have hexp : M.Expanded best' heap' w s := by
    intro x
    obtain ⟨h1, h2⟩ := R.done x (List.mem_finRange x)
    exact ⟨h1, fun ha hb => ⟨_, le_rfl, hb, h2 ha hb⟩⟩
  have hmono : ∀ b i, M.Expanded best heap b i → M.Expanded best' heap' b i := by
    intro b i hE x
    obtain ⟨h1, h2⟩ := hE x
    refine ⟨le_trans (R.le _) h1, fun ha hb => ?_⟩
    obtain ⟨w', hw1, hw2, hw3⟩ := h2 ha hb
    refine ⟨w', hw1, hw2, hkeep _ hw3 ?_⟩
    intro he
    apply hne
    have e1 : w' = w := congrArg Prod.fst he
    have e2 : M.next i x = s := congrArg Prod.snd he
    rw [← e1, ← e2]
    exact ⟨ha, hw2⟩
  obtain ⟨ys, hys1, hys2⟩ := h.heapSound _ hmem
  have hnew : ∀ x, ∃ xs, M.run 0 xs = M.next s x ∧ M.walkWeight 0 xs = w + bitCount (M.out s x) := by
    intro x
    refine ⟨ys ++ [x], ?_, ?_⟩
    · rw [run_snoc, hys1]
    · rw [walkWeight_snoc, hys1, hys2]
  refine ⟨?_, ?_, ?_, ?_⟩
  · intro a ha
    rcases R.new a ha with h1 | ⟨x, rfl⟩
    · rw [hrest] at h1
      exact h.heapSound a (List.mem_of_mem_erase h1)
    · exact hnew x
  · intro i b hb
    rcases R.bestNew i with h1 | ⟨b', h1, _, x, h3, h4⟩
    · exact h.bestSound i b (h1 ▸ hb)
    · rw [h1] at hb
      have : b' = b := WithTop.coe_injective hb
      subst this
      obtain ⟨xs, hx⟩ := hnew x
      exact ⟨xs, by rw [h4]; exact hx.1, by rw [h3]; exact hx.2⟩
  · intro i b hb
    rcases R.bestNew i with h1 | ⟨b', h1, h2, _⟩
    · rcases h.bestDone i b (h1 ▸ hb) with h2 | h2
      · by_cases he : (b, i) = (w, s)
        · right
          cases he
          exact hexp
        · exact Or.inl (hkeep _ h2 he)
      · exact Or.inr (hmono _ _ h2)
    · rw [h1] at hb
      have : b' = b := WithTop.coe_injective hb
      subst this
      exact Or.inl h2
  · rcases h.start with h1 | h1
    · by_cases he : ((0 : Nat), (0 : Fin S)) = (w, s)
      · right
        cases he
        exact hexp
      · exact Or.inl (hkeep _ h1 he)
    · exact Or.inr (hmono _ _ h1)

/-! ### what the invariant says about walks -/

/-- Walks lighter than everything in the heap have been expanded. -/
theorem inv_walk [NeZero S] {best : Fin S → WithTop Nat} {heap : List (Nat × Fin S)} (h : M.Inv best heap)
    (xs : List (Fin X)) (hl : ∀ a ∈ heap, M.walkWeight 0 xs < a.1) :
    ∃ b ≤ M.walkWeight 0 xs, M.Expanded best heap b (M.run 0 xs) ∧
      ∃ ys, M.run 0 ys = M.run 0 xs ∧ M.walkWeight 0 ys = b := by
  induction xs using List.reverseRecOn with
  | nil =>
    refine ⟨0, Nat.zero_le _, ?_, [], rfl, rfl⟩
    rcases h.start with h1 | h1
    · exact absurd (hl _ h1) (by simp [walkWeight, outs])
    · exact h1
  | append_singleton xs x ih =>
    rw [walkWeight_snoc] at hl
    obtain ⟨b, hb, hE, _⟩ := ih (fun a ha => lt_of_le_of_lt (Nat.le_add_right _ _) (hl a ha))
    have h1 := (hE x).1
    rw [run_snoc, walkWeight_snoc]
    obtain ⟨b', hb'⟩ : ∃ b' : Nat, best (M.next (M.run 0 xs) x) = (b' : WithTop Nat) := by
      have := ne_top_of_le_ne_top (WithTop.coe_ne_top) h1
      exact ⟨_, (WithTop.coe_untop _ this).symm⟩
    have hle : b' ≤ b + bitCount (M.out (M.run 0 xs) x) := by
      rw [hb'] at h1; exact_mod_cast h1
    refine ⟨b', by omega, ?_, h.bestSound _ _ hb'⟩
    rcases h.bestDone _ _ hb' with h2 | h2
    · have := hl _ h2
      simp only at this
      omega
    · exact h2

/-- A closed walk of positive weight whose last step cannot be replaced by a weightless one leaves a trace in the heap. -/
theorem inv_closed [NeZero S] {best : Fin S → WithTop Nat} {heap : List (Nat × Fin S)} (h : M.Inv best heap)
    (xs : List (Fin X)) (x : Fin X) (hz : M.next (M.run 0 xs) x = 0)
    (hlast : 0 < bitCount (M.out (M.run 0 xs) x) ∨ ∀ ys, M.run 0 ys = M.run 0 xs → 0 < M.walkWeight 0 ys) :
    ∃ a ∈ heap, a.1 ≤ M.walkWeight 0 (xs ++ [x]) := by
  rw [walkWeight_snoc]
  by_contra hno
  push Not at hno
  obtain ⟨b, hb, hE, ys, hy1, hy2⟩ := M.inv_walk h xs (fun a ha => lt_of_le_of_lt (Nat.le_add_right _ _) (hno a ha))
  have hpos : 0 < b + bitCount (M.out (M.run 0 xs) x) := by
    rcases hlast with h1 | h1
    · omega
    · have := h1 ys hy1; omega
  obtain ⟨w', h1, _, h3⟩ := (hE x).2 (by rw [hz]; simp) hpos
  have := hno _ h3
  simp only at this
  omega

/-! ### termination -/

/-- Items other than a positive weight at state 0. -/
def pending (a : Nat × Fin S) : Bool := !((a.2 : Nat) == 0 && decide (a.1 > 0))

theorem freeLoop_terminates [NeZero S] (best : Fin S → WithTop Nat) (heap : List (Nat × Fin S)) :
    ∃ N r, ∀ fuel, N ≤ fuel → M.freeLoop fuel best heap = some r := by
  have wf : WellFounded (Prod.Lex (fun a b : Fin S → WithTop Nat => a < b) (fun a b : Nat => a < b)) :=
    WellFounded.prod_lex (wellFounded_lt) (wellFounded_lt)
  have key : ∀ q : (Fin S → WithTop Nat) × Nat, ∀ heap : List (Nat × Fin S), heap.countP pending = q.2 →
      ∃ N r, ∀ fuel, N ≤ fuel → M.freeLoop fuel q.1 heap = some r := by
    intro q
    induction q using wf.induction with
    | h q ih =>
      intro heap hcount
      cases heap with
      | nil =>
        refine ⟨1, none, ?_⟩
        intro fuel hf
        obtain ⟨f, rfl⟩ : ∃ f, fuel = f + 1 := ⟨fuel - 1, by omega⟩
        rfl
      | cons a l =>
        have hpop : heapPop (a :: l) = some (heapMin a l, (a :: l).erase (heapMin a l)) := rfl
        set m := heapMin a l with hm
        have hmem := (heapMin_spec a l).1
        rw [← hm] at hmem
        by_cases hret : (m.2 : Nat) = 0 ∧ m.1 > 0
        · refine ⟨1, some m.1, ?_⟩
          intro fuel hf
          obtain ⟨f, rfl⟩ : ∃ f, fuel = f + 1 := ⟨fuel - 1, by omega⟩
          rw [freeLoop, hpop]
          simp only
          rw [if_pos hret]
        · have R := M.relax_spec m.1 m.2 (List.finRange X) q.1 ((a :: l).erase m)
          set r := (List.finRange X).foldl (M.relax m.1 m.2) (q.1, (a :: l).erase m) with hr
          have hlex : Prod.Lex (fun a b : Fin S → WithTop Nat => a < b) (fun a b : Nat => a < b) (r.1, r.2.countP pending) q := by
            by_cases hsame : r.1 = q.1
            · have h1 := R.same hsame pending (by
                intro a ha hb
                simp [pending, hb.1, hb.2] at ha)
              have hpm : pending m = true := by
                rw [pending]
                by_contra hc
                apply hret
                simp only [Bool.not_eq_true', Bool.and_eq_false_iff, not_or, Bool.not_eq_false, beq_iff_eq, decide_eq_true_eq] at hc
                exact hc
              have h2 : ((a :: l).erase m).countP pending + 1 = (a :: l).countP pending := by
                have hperm := List.perm_cons_erase hmem
                rw [hperm.countP_eq, List.countP_cons_of_pos hpm]
              have : (r.1, r.2.countP pending) = (q.1, r.2.countP pending) := by rw [hsame]
              rw [this, show q = (q.1, q.2) from rfl]
              apply Prod.Lex.right
              rw [h1, ← hcount, ← h2]
              exact Nat.lt_succ_self _
            · rw [show q = (q.1, q.2) from rfl]
              apply Prod.Lex.left
              exact lt_of_le_of_ne (fun i => R.le i) hsame
          obtain ⟨N, v, hN⟩ := ih (r.1, r.2.countP pending) hlex r.2 rfl
          refine ⟨N + 1, v, ?_⟩
          intro fuel hf
          obtain ⟨f, rfl⟩ : ∃ f, fuel = f + 1 := ⟨fuel - 1, by omega⟩
          rw [freeLoop, hpop]
          simp only
          rw [if_neg hret]
          exact hN f (by omega)
  exact key (best, heap.countP pending) heap rfl

/-! ### partial correctness -/

/-- The walks that the search can find: closed walks whose last step is not weightless from a state reachable at no weight. -/
def Essential [NeZero S] (xs : List (Fin X)) (x : Fin X) : Prop :=
  M.next (M.run 0 xs) x = 0 ∧
  (0 < bitCount (M.out (M.run 0 xs) x) ∨ ∀ ys, M.run 0 ys = M.run 0 xs → 0 < M.walkWeight 0 ys)

theorem freeLoop_spec [NeZero S] (fuel : Nat) (best : Fin S → WithTop Nat) (heap : List (Nat × Fin S)) (h : M.Inv best heap)
    (r : Option Nat) (hr : M.freeLoop fuel best heap = some r) :
    (∀ d, r = some d → 0 < d ∧ (∃ xs, M.run 0 xs = 0 ∧ M.walkWeight 0 xs = d) ∧
      ∀ xs x, M.Essential xs x → d ≤ M.walkWeight 0 (xs ++ [x])) ∧
    (r = none → ∀ xs x, ¬ M.Essential xs x) := by
  induction fuel generalizing best heap with
  | zero => exact absurd hr (by simp [freeLoop])
  | succ fuel ih =>
    cases heap with
    | nil =>
      have : r = none := by
        have : M.freeLoop (fuel + 1) best [] = some none := rfl
        rw [this] at hr
        exact (Option.some.inj hr).symm
      subst this
      refine ⟨by intro d hd; exact absurd hd (by simp), ?_⟩
      intro _ xs x hE
      obtain ⟨a, ha, _⟩ := M.inv_closed h xs x hE.1 hE.2
      exact absurd ha (by simp)
    | cons a l =>
      have hpop : heapPop (a :: l) = some (heapMin a l, (a :: l).erase (heapMin a l)) := rfl
      obtain ⟨hmem, hmin⟩ := heapMin_spec a l
      set m := heapMin a l with hm
      rw [freeLoop, hpop] at hr
      simp only at hr
      by_cases hret : (m.2 : Nat) = 0 ∧ m.1 > 0
      · rw [if_pos hret] at hr
        have : r = some m.1 := (Option.some.inj hr).symm
        subst this
        refine ⟨?_, by intro hc; exact absurd hc (by simp)⟩
        intro d hd
        have : m.1 = d := Option.some.inj hd
        subst this
        refine ⟨hret.2, ?_, ?_⟩
        · obtain ⟨xs, h1, h2⟩ := h.heapSound m hmem
          refine ⟨xs, ?_, h2⟩
          rw [h1]
          exact Fin.ext (by simpa using hret.1)
        · intro xs x hE
          obtain ⟨b, hb, hle⟩ := M.inv_closed h xs x hE.1 hE.2
          exact le_trans (hmin b hb) hle
      · rw [if_neg hret] at hr
        exact ih _ _ (M.inv_step h hmem rfl hret) hr

end Komm.Mealy
