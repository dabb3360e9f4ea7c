import Verif.Model.MarkovChain
import Verif.Lemmas.Walks
import Mathlib.Data.Fintype.BigOperators
/-! Reachability in the model of `MarkovChain`. -/
namespace Komm.MarkovChain
open Walk
variable {K : Type} [Field K] [LinearOrder K] [IsStrictOrderedRing K] {n : Nat}

/-- One step with positive probability. -/
def Step (P : TMat K n) (i j : Fin n) : Prop := 0 < P i j

theorem adj_iff (P : TMat K n) (i j : Fin n) : adj P i j = true ↔ Step P i j := by simp [adj, Step]

theorem mem_neighbors (P : TMat K n) (i j : Fin n) : j ∈ neighbors P i ↔ Step P i j := by
  rw [neighbors, List.mem_filter, adj_iff]; simp

theorem neighbors_length (P : TMat K n) (i : Fin n) : (neighbors P i).length ≤ n := by
  rw [neighbors]
  exact (List.length_filter_le _ _).trans (by simp)

theorem accLoop_isSome (P : TMat K n) (fuel : Nat) : ∀ (stack : List (Fin n)) (acc : Finset (Fin n)),
    stack.length + (n - acc.card) * n ≤ fuel → (accLoop P fuel stack acc).isSome := by
  induction fuel with
  | zero =>
    intro stack acc h
    have : stack = [] := List.length_eq_zero_iff.mp (by omega)
    subst this; rfl
  | succ fuel ih =>
    intro stack acc h
    cases stack with
    | nil => rfl
    | cons s stack =>
      rw [accLoop]
      rw [List.length_cons] at h
      by_cases hs : s ∈ acc
      · rw [if_pos hs]; exact ih _ _ (by omega)
      · rw [if_neg hs]
        apply ih
        have h1 : (insert s acc).card = acc.card + 1 := Finset.card_insert_of_notMem hs
        have h2 : (insert s acc).card ≤ n := by simpa using Finset.card_le_univ (insert s acc)
        have h3 : (((neighbors P s).filter fun j : Fin n => j ∉ insert s acc).reverse ++ stack).length ≤ n + stack.length := by
          rw [List.length_append, List.length_reverse]
          have := (List.length_filter_le (fun j : Fin n => decide (j ∉ insert s acc)) (neighbors P s)).trans (neighbors_length P s)
          omega
        obtain ⟨d, hd⟩ : ∃ d, n - acc.card = d + 1 := ⟨n - acc.card - 1, by omega⟩
        have h4 : n - (insert s acc).card = d := by omega
        rw [hd, Nat.succ_mul] at h
        rw [h4]
        omega

theorem accLoop_sound (P : TMat K n) (i : Fin n) (fuel : Nat) : ∀ (stack : List (Fin n)) (acc R : Finset (Fin n)),
    (∀ s ∈ stack, ∃ m, W (Step P) m i s) → (∀ s ∈ acc, ∃ m, W (Step P) m i s) → accLoop P fuel stack acc = some R →
    ∀ s ∈ R, ∃ m, W (Step P) m i s := by
  induction fuel with
  | zero =>
    intro stack acc R h1 h2 h
    cases stack with
    | nil => rw [accLoop, Option.some.injEq] at h; subst h; exact h2
    | cons s stack => exact absurd h (by simp [accLoop])
  | succ fuel ih =>
    intro stack acc R h1 h2 h
    cases stack with
    | nil => rw [accLoop, Option.some.injEq] at h; subst h; exact h2
    | cons s stack =>
      rw [accLoop] at h
      by_cases hs : s ∈ acc
      · rw [if_pos hs] at h
        exact ih stack acc R (fun t ht => h1 t (List.mem_cons_of_mem _ ht)) h2 h
      · rw [if_neg hs] at h
        refine ih _ _ R ?_ ?_ h
        · intro t ht
          rw [List.mem_append, List.mem_reverse, List.mem_filter] at ht
          rcases ht with ht | ht
          · obtain ⟨m, hm⟩ := h1 s List.mem_cons_self
            exact ⟨m + 1, W_succ.mpr ⟨s, hm, (mem_neighbors P s t).mp ht.1⟩⟩
          · exact h1 t (List.mem_cons_of_mem _ ht)
        · intro t ht
          rw [Finset.mem_insert] at ht
          rcases ht with rfl | ht
          · exact h1 t List.mem_cons_self
          · exact h2 t ht

theorem accLoop_complete (P : TMat K n) (fuel : Nat) : ∀ (stack : List (Fin n)) (acc R : Finset (Fin n)),
    (∀ a ∈ acc, ∀ b, Step P a b → b ∈ acc ∨ b ∈ stack) → accLoop P fuel stack acc = some R →
    (∀ s ∈ stack, s ∈ R) ∧ (∀ s ∈ acc, s ∈ R) ∧ ∀ a ∈ R, ∀ b, Step P a b → b ∈ R := by
  induction fuel with
  | zero =>
    intro stack acc R h1 h
    cases stack with
    | nil =>
      rw [accLoop, Option.some.injEq] at h; subst h
      exact ⟨fun s hs => absurd hs (List.not_mem_nil), fun s hs => hs, fun a ha b hb => (h1 a ha b hb).resolve_right List.not_mem_nil⟩
    | cons s stack => exact absurd h (by simp [accLoop])
  | succ fuel ih =>
    intro stack acc R h1 h
    cases stack with
    | nil =>
      rw [accLoop, Option.some.injEq] at h; subst h
      exact ⟨fun s hs => absurd hs (List.not_mem_nil), fun s hs => hs, fun a ha b hb => (h1 a ha b hb).resolve_right List.not_mem_nil⟩
    | cons s stack =>
      rw [accLoop] at h
      by_cases hs : s ∈ acc
      · rw [if_pos hs] at h
        obtain ⟨k1, k2, k3⟩ := ih stack acc R (fun a ha b hb => by
          rcases h1 a ha b hb with hb | hb
          · exact Or.inl hb
          · rcases List.mem_cons.mp hb with rfl | hb
            · exact Or.inl hs
            · exact Or.inr hb) h
        refine ⟨fun t ht => ?_, k2, k3⟩
        rcases List.mem_cons.mp ht with rfl | ht
        · exact k2 t hs
        · exact k1 t ht
      · rw [if_neg hs] at h
        obtain ⟨k1, k2, k3⟩ := ih _ _ R (fun a ha b hb => by
          by_cases hbm : b ∈ insert s acc
          · exact Or.inl hbm
          · right
            rw [List.mem_append, List.mem_reverse, List.mem_filter]
            rcases Finset.mem_insert.mp ha with rfl | ha
            · exact Or.inl ⟨(mem_neighbors P a b).mpr hb, by simpa using hbm⟩
            · rcases h1 a ha b hb with hb' | hb'
              · exact absurd (Finset.mem_insert_of_mem hb') hbm
              · rcases List.mem_cons.mp hb' with rfl | hb'
                · exact absurd (Finset.mem_insert_self _ _) hbm
                · exact Or.inr hb') h
        refine ⟨fun t ht => ?_, fun t ht => k2 t (Finset.mem_insert_of_mem ht), k3⟩
        rcases List.mem_cons.mp ht with rfl | ht
        · exact k2 t (Finset.mem_insert_self _ _)
        · exact k1 t (List.mem_append_right _ ht)

theorem accessible_eq (P : TMat K n) (i : Fin n) : accessibleStatesFrom P i = some (reach P i) := by
  have : (accessibleStatesFrom P i).isSome := accLoop_isSome P _ _ _ (by simp; omega)
  rw [reach]
  cases h : accessibleStatesFrom P i with
  | none => rw [h] at this; exact absurd this (by simp)
  | some R => rfl

/-- The search finds exactly the reachable states. -/
theorem mem_reach (P : TMat K n) (i j : Fin n) : j ∈ reach P i ↔ ∃ m, W (Step P) m i j := by
  have h := accessible_eq P i
  rw [accessibleStatesFrom] at h
  constructor
  · intro hj
    refine accLoop_sound P i _ _ _ _ ?_ ?_ h j hj
    · intro s hs
      rw [List.mem_singleton] at hs
      exact ⟨0, W_zero.mpr hs.symm⟩
    · intro s hs; exact absurd hs (Finset.notMem_empty s)
  · rintro ⟨m, hm⟩
    obtain ⟨k1, -, k3⟩ := accLoop_complete P _ _ _ _ (fun a ha => absurd ha (Finset.notMem_empty a)) h
    induction m generalizing j with
    | zero => rw [W_zero] at hm; subst hm; exact k1 i (List.mem_singleton_self i)
    | succ m ih =>
      obtain ⟨k, h1, h2⟩ := W_succ.mp hm
      exact k3 k (ih k h1) j h2

/-! ### classes -/

/-- Mutual reachability. -/
def Comm (P : TMat K n) (i j : Fin n) : Prop := j ∈ reach P i ∧ i ∈ reach P j

theorem reach_trans {P : TMat K n} {i j k : Fin n} (h1 : j ∈ reach P i) (h2 : k ∈ reach P j) : k ∈ reach P i := by
  rw [mem_reach] at *
  obtain ⟨a, ha⟩ := h1
  obtain ⟨b, hb⟩ := h2
  exact ⟨a + b, ha.add hb⟩

theorem reach_self (P : TMat K n) (i : Fin n) : i ∈ reach P i := by
  rw [mem_reach]; exact ⟨0, W_zero.mpr rfl⟩

theorem Comm.refl (P : TMat K n) (i : Fin n) : Comm P i i := ⟨reach_self P i, reach_self P i⟩
theorem Comm.symm {P : TMat K n} {i j : Fin n} (h : Comm P i j) : Comm P j i := ⟨h.2, h.1⟩
theorem Comm.trans {P : TMat K n} {i j k : Fin n} (h1 : Comm P i j) (h2 : Comm P j k) : Comm P i k :=
  ⟨reach_trans h1.1 h2.1, reach_trans h2.2 h1.2⟩

/-- The class of `i`. -/
def classOf (P : TMat K n) (i : Fin n) : Finset (Fin n) := Finset.univ.filter fun j : Fin n => j ∈ reach P i ∧ i ∈ reach P j

theorem mem_classOf {P : TMat K n} {i j : Fin n} : j ∈ classOf P i ↔ Comm P i j := by simp [classOf, Comm]

theorem classOf_eq {P : TMat K n} {i j : Fin n} (h : Comm P i j) : classOf P i = classOf P j := by
  ext k; rw [mem_classOf, mem_classOf]; exact ⟨fun hk => h.symm.trans hk, fun hk => h.trans hk⟩

theorem classesLoop_spec (P : TMat K n) : ∀ (is : List (Fin n)) (visited : Finset (Fin n)),
    (∀ a ∈ visited, ∀ b, Comm P a b → b ∈ visited) →
    (∀ c ∈ classesLoop P is visited, ∃ i, i ∉ visited ∧ c = classOf P i) ∧
    (classesLoop P is visited).Pairwise (fun c d => Disjoint c d) ∧
    ∀ i ∈ is, i ∈ visited ∨ classOf P i ∈ classesLoop P is visited := by
  intro is
  induction is with
  | nil => intro visited _; exact ⟨fun c hc => absurd hc List.not_mem_nil, List.Pairwise.nil, fun i hi => absurd hi List.not_mem_nil⟩
  | cons i is ih =>
    intro visited hv
    rw [classesLoop]
    by_cases hi : i ∈ visited
    · rw [if_pos hi]
      obtain ⟨h1, h2, h3⟩ := ih visited hv
      refine ⟨h1, h2, fun j hj => ?_⟩
      rcases List.mem_cons.mp hj with rfl | hj
      · exact Or.inl hi
      · exact h3 j hj
    · rw [if_neg hi]
      change (∀ c ∈ classOf P i :: classesLoop P is (visited ∪ classOf P i), _) ∧ (classOf P i :: classesLoop P is (visited ∪ classOf P i)).Pairwise _ ∧
        ∀ j ∈ i :: is, j ∈ visited ∨ classOf P j ∈ classOf P i :: classesLoop P is (visited ∪ classOf P i)
      have hv' : ∀ a ∈ visited ∪ classOf P i, ∀ b, Comm P a b → b ∈ visited ∪ classOf P i := by
        intro a ha b hb
        rcases Finset.mem_union.mp ha with ha | ha
        · exact Finset.mem_union_left _ (hv a ha b hb)
        · exact Finset.mem_union_right _ (mem_classOf.mpr ((mem_classOf.mp ha).trans hb))
      obtain ⟨h1, h2, h3⟩ := ih _ hv'
      refine ⟨?_, List.pairwise_cons.mpr ⟨?_, h2⟩, ?_⟩
      · intro c hc
        rcases List.mem_cons.mp hc with rfl | hc
        · exact ⟨i, hi, rfl⟩
        · obtain ⟨j, hj, rfl⟩ := h1 c hc
          exact ⟨j, fun hj' => hj (Finset.mem_union_left _ hj'), rfl⟩
      · intro d hd
        obtain ⟨j, hj, rfl⟩ := h1 d hd
        rw [Finset.disjoint_left]
        intro k hk hk'
        apply hj
        exact Finset.mem_union_right _ (mem_classOf.mpr ((mem_classOf.mp hk).trans (mem_classOf.mp hk').symm))
      · intro j hj
        rcases List.mem_cons.mp hj with rfl | hj
        · exact Or.inr List.mem_cons_self
        · rcases h3 j hj with h | h
          · rcases Finset.mem_union.mp h with h | h
            · exact Or.inl h
            · right
              rw [← classOf_eq (mem_classOf.mp h)]
              exact List.mem_cons_self
          · exact Or.inr (List.mem_cons_of_mem _ h)

theorem mem_classes (P : TMat K n) (c : Finset (Fin n)) : c ∈ communicatingClasses P ↔ ∃ i, c = classOf P i := by
  obtain ⟨h1, h2, h3⟩ := classesLoop_spec P (List.finRange n) ∅ (fun a ha => absurd ha (Finset.notMem_empty a))
  constructor
  · intro hc
    obtain ⟨i, -, hi⟩ := h1 c hc
    exact ⟨i, hi⟩
  · rintro ⟨i, rfl⟩
    exact (h3 i (List.mem_finRange i)).resolve_left (Finset.notMem_empty i)

theorem classes_disjoint (P : TMat K n) : (communicatingClasses P).Pairwise (fun c d => Disjoint c d) :=
  (classesLoop_spec P (List.finRange n) ∅ (fun a ha => absurd ha (Finset.notMem_empty a))).2.1

theorem find_class (P : TMat K n) (i : Fin n) :
    (communicatingClasses P).find? (fun c : Finset (Fin n) => decide (i ∈ c)) = some (classOf P i) := by
  have hmem := (mem_classes P _).mpr ⟨i, rfl⟩
  cases h : (communicatingClasses P).find? (fun c : Finset (Fin n) => decide (i ∈ c)) with
  | none =>
    rw [List.find?_eq_none] at h
    exact absurd (mem_classOf.mpr (Comm.refl P i)) (by simpa using h _ hmem)
  | some c =>
    have h1 := List.find?_some h
    have h2 := List.mem_of_find?_eq_some h
    obtain ⟨j, rfl⟩ := (mem_classes P c).mp h2
    rw [decide_eq_true_iff, mem_classOf] at h1
    rw [classOf_eq h1]

end Komm.MarkovChain
