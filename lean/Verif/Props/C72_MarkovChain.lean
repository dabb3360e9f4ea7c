import Verif.Lemmas.MarkovPeriod
import Mathlib.LinearAlgebra.Matrix.Defs
import Mathlib.Data.Matrix.Mul
import Mathlib.NumberTheory.FrobeniusNumber
import Mathlib.Algebra.Order.BigOperators.Group.Finset
/-! C72, C73: structure of Markov chains.  The specification uses the powers of the transition matrix: `(Matrix.of P ^ m) i j` is the
probability of being in state `j` after `m` steps from state `i`. -/
namespace Komm
open MarkovChain Walk
variable {K : Type} [Field K] [LinearOrder K] [IsStrictOrderedRing K] {n : Nat}

theorem pow_nonneg_entries (P : TMat K n) (hP : ∀ i j, 0 ≤ P i j) (m : Nat) (i j : Fin n) : 0 ≤ (Matrix.of P ^ m) i j := by
  induction m generalizing j with
  | zero => rw [pow_zero, Matrix.one_apply]; split <;> simp
  | succ m ih =>
    rw [pow_succ, Matrix.mul_apply]
    exact Finset.sum_nonneg fun k _ => mul_nonneg (ih k) (hP k j)

theorem pow_pos_iff_walk (P : TMat K n) (hP : ∀ i j, 0 ≤ P i j) (m : Nat) (i j : Fin n) : 0 < (Matrix.of P ^ m) i j ↔ W (Step P) m i j := by
  induction m generalizing j with
  | zero =>
    rw [pow_zero, Matrix.one_apply, W_zero]
    by_cases h : i = j
    · rw [if_pos h]; exact ⟨fun _ => h, fun _ => zero_lt_one⟩
    · rw [if_neg h]; exact ⟨fun h' => absurd h' (lt_irrefl _), fun h' => absurd h' h⟩
  | succ m ih =>
    rw [pow_succ, Matrix.mul_apply, W_succ]
    constructor
    · intro h
      by_contra hc
      push Not at hc
      have : ∑ k, (Matrix.of P ^ m) i k * Matrix.of P k j = 0 := by
        apply Finset.sum_eq_zero
        intro k _
        by_cases hk : W (Step P) m i k
        · have h1 : ¬ 0 < P k j := hc k hk
          have h2 : P k j = 0 := le_antisymm (not_lt.mp h1) (hP k j)
          rw [Matrix.of_apply, h2, mul_zero]
        · have h1 := mt (ih k).mp hk
          have h2 := le_antisymm (not_lt.mp h1) (pow_nonneg_entries P hP m i k)
          rw [h2, zero_mul]
      rw [this] at h
      exact lt_irrefl _ h
    · rintro ⟨k, h1, h2⟩
      refine Finset.sum_pos' (fun k _ => mul_nonneg (pow_nonneg_entries P hP m i k) (hP k j)) ⟨k, Finset.mem_univ k, ?_⟩
      exact mul_pos ((ih k).mpr h1) h2

/-- A matrix is accepted iff its entries are non-negative and its rows sum to one. -/
theorem C72_accepts (P : TMat K n) : validTransitionMatrix P = true ↔ (∀ i j, 0 ≤ P i j) ∧ ∀ i, ∑ j, P i j = 1 := by
  simp [validTransitionMatrix]

/-- `accessible_states_from(i)` always returns, exactly the states that are reached from `i` with positive probability in some number of
steps. -/
theorem C72_accessible (P : TMat K n) (hP : validTransitionMatrix P = true) (i : Fin n) :
    ∃ R, accessibleStatesFrom P i = some R ∧ ∀ j, j ∈ R ↔ ∃ m, 0 < (Matrix.of P ^ m) i j := by
  refine ⟨reach P i, accessible_eq P i, fun j => ?_⟩
  rw [mem_reach]
  exact exists_congr fun m => (pow_pos_iff_walk P ((C72_accepts P).mp hP).1 m i j).symm

theorem reach_iff_pow (P : TMat K n) (hP : validTransitionMatrix P = true) (i j : Fin n) :
    j ∈ reach P i ↔ ∃ m, 0 < (Matrix.of P ^ m) i j := by
  rw [mem_reach]
  exact exists_congr fun m => (pow_pos_iff_walk P ((C72_accepts P).mp hP).1 m i j).symm

/-- `communicating_classes()` is a partition of the states into nonempty disjoint sets, and two states are in the same set exactly when
each is accessible from the other. -/
theorem C72_classes (P : TMat K n) (hP : validTransitionMatrix P = true) :
    (∀ c ∈ communicatingClasses P, c.Nonempty) ∧ (communicatingClasses P).Pairwise (fun c d => Disjoint c d) ∧
    (∀ i, ∃ c ∈ communicatingClasses P, i ∈ c) ∧
    ∀ i j, (∃ c ∈ communicatingClasses P, i ∈ c ∧ j ∈ c) ↔ (∃ m, 0 < (Matrix.of P ^ m) i j) ∧ ∃ m, 0 < (Matrix.of P ^ m) j i := by
  refine ⟨fun c hc => ?_, classes_disjoint P, fun i => ⟨classOf P i, (mem_classes P _).mpr ⟨i, rfl⟩, mem_classOf.mpr (Comm.refl P i)⟩,
    fun i j => ?_⟩
  · obtain ⟨i, rfl⟩ := (mem_classes P c).mp hc
    exact ⟨i, mem_classOf.mpr (Comm.refl P i)⟩
  · rw [← reach_iff_pow P hP, ← reach_iff_pow P hP]
    constructor
    · rintro ⟨c, hc, hi, hj⟩
      obtain ⟨k, rfl⟩ := (mem_classes P c).mp hc
      exact (mem_classOf.mp hi).symm.trans (mem_classOf.mp hj)
    · intro h
      exact ⟨classOf P i, (mem_classes P _).mpr ⟨i, rfl⟩, mem_classOf.mpr (Comm.refl P i), mem_classOf.mpr h⟩

/-- `is_irreducible()`: every state is accessible from every state. -/
theorem C72_irreducible (P : TMat K n) (hP : validTransitionMatrix P = true) (hn : 0 < n) :
    isIrreducible P = true ↔ ∀ i j, ∃ m, 0 < (Matrix.of P ^ m) i j := by
  have h0 : classOf P ⟨0, hn⟩ ∈ communicatingClasses P := (mem_classes P _).mpr ⟨_, rfl⟩
  have hd := classes_disjoint P
  have hm := mem_classes P
  rw [isIrreducible, decide_eq_true_iff]
  constructor
  · intro h i j
    rw [← reach_iff_pow P hP]
    obtain ⟨c, hc⟩ := List.length_eq_one_iff.mp h
    have e : ∀ k, classOf P k = c := fun k => by
      have := (hm _).mpr ⟨k, rfl⟩
      rw [hc, List.mem_singleton] at this
      exact this
    have h1 : j ∈ classOf P i := by rw [e i, ← e j]; exact mem_classOf.mpr (Comm.refl P j)
    exact (mem_classOf.mp h1).1
  · intro h
    have e : ∀ c ∈ communicatingClasses P, c = Finset.univ := by
      intro c hc
      obtain ⟨i, rfl⟩ := (hm c).mp hc
      ext j
      rw [mem_classOf]
      exact ⟨fun _ => Finset.mem_univ j, fun _ => ⟨(reach_iff_pow P hP i j).mpr (h i j), (reach_iff_pow P hP j i).mpr (h j i)⟩⟩
    generalize communicatingClasses P = l at *
    match l with
    | [] => exact absurd h0 List.not_mem_nil
    | [_] => rfl
    | c :: d :: l =>
      have h1 := (List.pairwise_cons.mp hd).1 d List.mem_cons_self
      rw [e c List.mem_cons_self, e d (List.mem_cons_of_mem _ List.mem_cons_self)] at h1
      exact absurd (Finset.mem_univ (⟨0, hn⟩ : Fin n)) (Finset.disjoint_left.mp h1 (Finset.mem_univ _))

/-- `transient_states()` and `recurrent_states()`: a state is recurrent iff it is accessible from every state accessible from it. -/
theorem C72_recurrent (P : TMat K n) (hP : validTransitionMatrix P = true) (i : Fin n) :
    (i ∈ recurrentStates P ↔ ∀ j, (∃ m, 0 < (Matrix.of P ^ m) i j) → ∃ m, 0 < (Matrix.of P ^ m) j i) ∧
    (i ∈ transientStates P ↔ i ∉ recurrentStates P) := by
  have h2 : i ∈ transientStates P ↔ i ∉ recurrentStates P := by simp [recurrentStates]
  refine ⟨?_, h2⟩
  rw [← not_iff_not, ← h2, transientStates, Finset.mem_filter]
  simp only [Finset.mem_univ, true_and, not_forall]
  constructor
  · rintro ⟨j, h1, h2⟩
    exact ⟨j, (reach_iff_pow P hP i j).mp h1, fun h => h2 ((reach_iff_pow P hP j i).mpr h)⟩
  · rintro ⟨j, h1, h2⟩
    exact ⟨j, (reach_iff_pow P hP i j).mpr h1, fun h => h2 ((reach_iff_pow P hP j i).mp h)⟩

/-- The recurrent states are those of the closed classes: `i` is recurrent iff no step with positive probability leaves its class. -/
theorem C72_recurrent_closed (P : TMat K n) (c : Finset (Fin n)) (hc : c ∈ communicatingClasses P)
    (i : Fin n) (hi : i ∈ c) : i ∈ recurrentStates P ↔ ∀ u ∈ c, ∀ v, 0 < P u v → v ∈ c := by
  obtain ⟨k, rfl⟩ := (mem_classes P c).mp hc
  have hki := mem_classOf.mp hi
  have hrec : i ∈ recurrentStates P ↔ ∀ j ∈ reach P i, i ∈ reach P j := by
    rw [recurrentStates, transientStates]; simp
  rw [hrec]
  constructor
  · intro h u hu v hv
    have hiu : Comm P i u := hki.symm.trans (mem_classOf.mp hu)
    have h1 : v ∈ reach P i := reach_trans hiu.1 ((mem_reach P u v).mpr ⟨1, W_one.mpr hv⟩)
    exact mem_classOf.mpr (hki.trans ⟨h1, h v h1⟩)
  · intro h j hj
    obtain ⟨m, hm⟩ := (mem_reach P i j).mp hj
    have : j ∈ classOf P k := by
      clear hj
      induction m generalizing j with
      | zero => rw [W_zero] at hm; subst hm; exact hi
      | succ m ih =>
        obtain ⟨w, h1, h2⟩ := W_succ.mp hm
        exact h w (ih w h1) j h2
    exact (hki.symm.trans (mem_classOf.mp this)).2

/-- Every chain has a recurrent state; more precisely one is accessible from every state. -/
theorem C72_recurrent_exists (P : TMat K n) (hP : validTransitionMatrix P = true) (i : Fin n) :
    ∃ j ∈ recurrentStates P, ∃ m, 0 < (Matrix.of P ^ m) i j := by
  classical
  simp only [← reach_iff_pow P hP]
  have hrec : ∀ i, i ∈ recurrentStates P ↔ ∀ j ∈ reach P i, i ∈ reach P j := fun i => by
    rw [recurrentStates, transientStates]; simp
  -- strong induction on the number of accessible states
  have main : ∀ k i, (reach P i).card = k → ∃ j ∈ recurrentStates P, j ∈ reach P i := by
    intro k
    induction k using Nat.strong_induction_on with
    | _ k ih =>
      intro i hk
      by_cases h : i ∈ recurrentStates P
      · exact ⟨i, h, reach_self P i⟩
      · rw [hrec] at h
        push Not at h
        obtain ⟨j, h1, h2⟩ := h
        have hss : reach P j ⊂ reach P i := by
          refine Finset.ssubset_iff_subset_ne.mpr ⟨fun v hv => reach_trans h1 hv, fun he => h2 ?_⟩
          rw [he]; exact reach_self P i
        obtain ⟨v, hv1, hv2⟩ := ih _ (by rw [← hk]; exact Finset.card_lt_card hss) j rfl
        exact ⟨v, hv1, reach_trans h1 hv2⟩
  exact main _ i rfl

/-- `period(i)` always returns, and it is the greatest common divisor of the numbers of steps after which the chain can be back in `i`
(0 if it cannot come back). -/
theorem C72_period (P : TMat K n) (hP : validTransitionMatrix P = true) (i : Fin n) :
    ∃ d, period P i = some d ∧ ∀ g : Nat, g ∣ d ↔ ∀ m, 0 < (Matrix.of P ^ m) i i → g ∣ m := by
  obtain ⟨d, h1, h2⟩ := period_spec P i
  refine ⟨d, h1, fun g => ?_⟩
  rw [h2]
  exact forall_congr' fun m => by rw [pow_pos_iff_walk P ((C72_accepts P).mp hP).1]

/-- States of the same class have the same period. -/
theorem C72_period_class (P : TMat K n) (c : Finset (Fin n)) (hc : c ∈ communicatingClasses P) (i j : Fin n) (hi : i ∈ c) (hj : j ∈ c) :
    period P i = period P j := by
  obtain ⟨k, rfl⟩ := (mem_classes P c).mp hc
  have hij : Comm P i j := (mem_classOf.mp hi).symm.trans (mem_classOf.mp hj)
  obtain ⟨d, h1, h2⟩ := period_spec P i
  obtain ⟨d', h1', h2'⟩ := period_spec P j
  rw [h1, h1']
  obtain ⟨a, ha⟩ := (mem_reach P i j).mp hij.1
  obtain ⟨b, hb⟩ := (mem_reach P j i).mp hij.2
  congr 1
  apply Nat.dvd_antisymm
  · rw [h2']
    intro m hm
    have k1 := (h2 d).mp dvd_rfl _ ((ha.add hm).add hb)
    have k2 := (h2 d).mp dvd_rfl _ (ha.add hb)
    rw [show a + m + b = (a + b) + m by ring] at k1
    exact (Nat.dvd_add_right k2).mp k1
  · rw [h2]
    intro m hm
    have k1 := (h2' d').mp dvd_rfl _ ((hb.add hm).add ha)
    have k2 := (h2' d').mp dvd_rfl _ (hb.add ha)
    rw [show b + m + a = (b + a) + m by ring] at k1
    exact (Nat.dvd_add_right k2).mp k1

/-- `absorbing_states()`: the states that are never left; `is_absorbing()`: there is one, and every state leads to one. -/
theorem C72_absorbing (P : TMat K n) (hP : validTransitionMatrix P = true) :
    (∀ i, i ∈ absorbingStates P ↔ ∀ j, j ≠ i → P i j = 0) ∧
    (0 < n → (isAbsorbing P = true ↔ ∀ i, ∃ a ∈ absorbingStates P, ∃ m, 0 < (Matrix.of P ^ m) i a)) := by
  obtain ⟨hnn, hsum⟩ := (C72_accepts P).mp hP
  refine ⟨fun i => ?_, fun hn => ?_⟩
  · rw [absorbingStates, Finset.mem_filter]
    simp only [Finset.mem_univ, true_and]
    have hs := hsum i
    rw [← Finset.add_sum_erase Finset.univ (P i) (Finset.mem_univ i)] at hs
    constructor
    · intro h j hj
      rw [h] at hs
      have h0 : ∑ x ∈ Finset.univ.erase i, P i x = 0 := by linarith
      exact (Finset.sum_eq_zero_iff_of_nonneg (fun x _ => hnn i x)).mp h0 j (Finset.mem_erase.mpr ⟨hj, Finset.mem_univ j⟩)
    · intro h
      rw [Finset.sum_eq_zero (fun x hx => h x (Finset.mem_erase.mp hx).1), add_zero] at hs
      exact hs
  · rw [isAbsorbing]
    constructor
    · intro h
      by_cases he : absorbingStates P = ∅
      · rw [if_pos he] at h; exact absurd h (by simp)
      · rw [if_neg he, decide_eq_true_iff] at h
        intro i
        by_cases hi : i ∈ absorbingStates P
        · exact ⟨i, hi, (reach_iff_pow P hP i i).mp (reach_self P i)⟩
        · have := h i (by simp [hi])
          obtain ⟨a, ha⟩ := Finset.nonempty_iff_ne_empty.mpr this
          rw [Finset.mem_inter] at ha
          exact ⟨a, ha.1, (reach_iff_pow P hP i a).mp ha.2⟩
    · intro h
      obtain ⟨a, ha, -⟩ := h ⟨0, hn⟩
      rw [if_neg (by intro he; rw [he] at ha; exact absurd ha (Finset.notMem_empty a)), decide_eq_true_iff]
      intro i _
      obtain ⟨b, hb, hm⟩ := h i
      exact Finset.nonempty_iff_ne_empty.mp ⟨b, Finset.mem_inter.mpr ⟨hb, (reach_iff_pow P hP i b).mpr hm⟩⟩

/-! ### C73 -/

theorem boolMul_walk (P : TMat K n) (A : Fin n → Fin n → Bool) (m : Nat) (hA : ∀ i j, A i j = true ↔ W (Step P) m i j) (i j : Fin n) :
    boolMul A (adj P) i j = true ↔ W (Step P) (m + 1) i j := by
  rw [boolMul, decide_eq_true_iff, W_succ]
  exact exists_congr fun k => by rw [hA, adj_iff]

theorem primitivityLoop_spec (P : TMat K n) (count : Nat) : ∀ (m : Nat) (A : Fin n → Fin n → Bool),
    (∀ i j, A i j = true ↔ W (Step P) m i j) →
    (∀ e, primitivityLoop (adj P) count m A = some e ↔ m ≤ e ∧ e < m + count ∧ Full (Step P) e ∧ ∀ e', m ≤ e' → e' < e → ¬ Full (Step P) e') ∧
    (primitivityLoop (adj P) count m A = none ↔ ∀ e, m ≤ e → e < m + count → ¬ Full (Step P) e) := by
  induction count with
  | zero =>
    intro m A _
    refine ⟨fun e => ⟨fun h => absurd h (by simp [primitivityLoop]), fun h => by omega⟩, ⟨fun _ e h1 h2 => by omega, fun _ => rfl⟩⟩
  | succ count ih =>
    intro m A hA
    have hfull : (∀ i j, A i j = true) ↔ Full (Step P) m := forall_congr' fun i => forall_congr' fun j => hA i j
    rw [primitivityLoop]
    by_cases h : ∀ i j, A i j = true
    · rw [if_pos h]
      refine ⟨fun e => ?_, ?_⟩
      · rw [Option.some.injEq]
        constructor
        · rintro rfl
          exact ⟨le_rfl, by omega, hfull.mp h, fun e' h1 h2 => by omega⟩
        · rintro ⟨h1, h2, h3, h4⟩
          by_contra hne
          exact h4 m le_rfl (by omega) (hfull.mp h)
      · exact ⟨fun h' => absurd h' (by simp), fun h' => absurd (hfull.mp h) (h' m le_rfl (by omega))⟩
    · rw [if_neg h]
      have hnf := mt hfull.mpr h
      obtain ⟨k1, k2⟩ := ih (m + 1) (boolMul A (adj P)) (boolMul_walk P A m hA)
      refine ⟨fun e => ?_, ?_⟩
      · rw [k1]
        constructor
        · rintro ⟨h1, h2, h3, h4⟩
          refine ⟨by omega, by omega, h3, fun e' h5 h6 => ?_⟩
          rcases Nat.eq_or_lt_of_le h5 with rfl | h7
          · exact hnf
          · exact h4 e' h7 h6
        · rintro ⟨h1, h2, h3, h4⟩
          have : e ≠ m := by rintro rfl; exact hnf h3
          exact ⟨by omega, by omega, h3, fun e' h5 h6 => h4 e' (by omega) h6⟩
      · rw [k2]
        constructor
        · intro h' e h1 h2
          rcases Nat.eq_or_lt_of_le h1 with rfl | h7
          · exact hnf
          · exact h' e h7 (by omega)
        · intro h' e h1 h2
          exact h' e (by omega) (by omega)

theorem full_iff (P : TMat K n) (hP : validTransitionMatrix P = true) (e : Nat) :
    Full (Step P) e ↔ ∀ i j, 0 < (Matrix.of P ^ e) i j :=
  forall_congr' fun i => forall_congr' fun j => (pow_pos_iff_walk P ((C72_accepts P).mp hP).1 e i j).symm

/-- `index_of_primitivity()` returns `e` iff `e ≥ 1` is the least exponent for which all entries of `P ^ e` are positive. -/
theorem C73_least (P : TMat K n) (hP : validTransitionMatrix P = true) (hn : 0 < n) (e : Nat) :
    indexOfPrimitivity P = some e ↔
      1 ≤ e ∧ (∀ i j, 0 < (Matrix.of P ^ e) i j) ∧ ∀ e', 1 ≤ e' → e' < e → ¬ ∀ i j, 0 < (Matrix.of P ^ e') i j := by
  haveI : Nonempty (Fin n) := ⟨⟨0, hn⟩⟩
  have h := (primitivityLoop_spec P ((n - 1) ^ 2 + 1) 1 (adj P) (fun i j => by rw [adj_iff, W_one])).1 e
  rw [indexOfPrimitivity, h]
  simp only [full_iff P hP]
  constructor
  · rintro ⟨h1, _, h3, h4⟩
    exact ⟨h1, h3, h4⟩
  · rintro ⟨h1, h3, h4⟩
    refine ⟨h1, ?_, h3, h4⟩
    by_contra hlt
    have hw := wielandt (r := Step P) ⟨e, h1, (full_iff P hP e).mpr h3⟩
    rw [Fintype.card_fin] at hw
    exact h4 ((n - 1) ^ 2 + 1) (by omega) (by omega) ((full_iff P hP _).mp hw)

/-- It raises exactly when no power of the transition matrix is positive: the bound `(n - 1)² + 1` never cuts the search short. -/
theorem C73_raises (P : TMat K n) (hP : validTransitionMatrix P = true) (hn : 0 < n) :
    indexOfPrimitivity P = none ↔ ¬ ∃ e ≥ 1, ∀ i j, 0 < (Matrix.of P ^ e) i j := by
  haveI : Nonempty (Fin n) := ⟨⟨0, hn⟩⟩
  rw [indexOfPrimitivity, (primitivityLoop_spec P ((n - 1) ^ 2 + 1) 1 (adj P) (fun i j => by rw [adj_iff, W_one])).2]
  constructor
  · rintro h ⟨e, h1, h2⟩
    have hw := wielandt (r := Step P) ⟨e, h1, (full_iff P hP e).mpr h2⟩
    rw [Fintype.card_fin] at hw
    exact h _ (by omega) (by omega) hw
  · intro h e h1 _ hf
    exact h ⟨e, h1, (full_iff P hP e).mp hf⟩

/-- `is_regular()` (irreducible and aperiodic) holds exactly when some power of the transition matrix is positive, i.e. exactly when
`index_of_primitivity()` does not raise. -/
theorem C73_regular (P : TMat K n) (hP : validTransitionMatrix P = true) (hn : 0 < n) :
    isRegular P = true ↔ ∃ e ≥ 1, ∀ i j, 0 < (Matrix.of P ^ e) i j := by
  rw [isRegular, Bool.and_eq_true, C72_irreducible P hP hn, isAperiodic, decide_eq_true_iff]
  simp only [← full_iff P hP, pow_pos_iff_walk P ((C72_accepts P).mp hP).1]
  constructor
  · rintro ⟨hirr, hper⟩
    -- large return times
    have hret : ∀ i, ∃ N, ∀ m ≥ N, W (Step P) m i i := by
      intro i
      obtain ⟨d, h1, h2⟩ := period_spec P i
      rw [hper i, Option.some.injEq] at h1
      subst h1
      obtain ⟨N, hN⟩ := Nat.exists_mem_closure_of_ge {m | W (Step P) m i i}
      refine ⟨N, fun m hm => ?_⟩
      have hg : Nat.setGcd {m | W (Step P) m i i} ∣ 1 := (h2 _).mpr fun m hm => Nat.setGcd_dvd_of_mem hm
      have hmem := hN m hm (hg.trans (one_dvd m))
      refine AddSubmonoid.closure_induction (motive := fun m _ => W (Step P) m i i) (fun m hm => hm) (W_zero.mpr rfl) (fun a b _ _ ha hb => ha.add hb) hmem
    choose N hN using hret
    choose L hL using hirr
    refine ⟨(∑ i, N i) + (∑ i, ∑ j, L i j) + 1, by omega, fun i j => ?_⟩
    have h1 : N i ≤ ∑ i, N i := Finset.single_le_sum (f := N) (fun _ _ => Nat.zero_le _) (Finset.mem_univ i)
    have h2 : L i j ≤ ∑ i, ∑ j, L i j :=
      (Finset.single_le_sum (f := fun j => L i j) (fun _ _ => Nat.zero_le _) (Finset.mem_univ j)).trans
        (Finset.single_le_sum (f := fun i => ∑ j, L i j) (fun _ _ => Nat.zero_le _) (Finset.mem_univ i))
    have h3 := (hN i ((∑ i, N i) + (∑ i, ∑ j, L i j) + 1 - L i j) (by omega)).add (hL i j)
    rwa [Nat.sub_add_cancel (by omega)] at h3
  · rintro ⟨e, h1, h2⟩
    refine ⟨fun i j => ⟨e, h2 i j⟩, fun i => ?_⟩
    obtain ⟨d, k1, k2⟩ := period_spec P i
    rw [k1, Option.some.injEq]
    have a1 := (k2 d).mp dvd_rfl e (h2 i i)
    have a2 := (k2 d).mp dvd_rfl (e + 1) (Walk.Full.succ h2 h1 i i)
    exact Nat.dvd_one.mp ((Nat.dvd_add_right a1).mp a2)

theorem C73_regular_iff_index (P : TMat K n) (hP : validTransitionMatrix P = true) (hn : 0 < n) :
    isRegular P = true ↔ ∃ e, indexOfPrimitivity P = some e := by
  rw [C73_regular P hP hn]
  have := C73_raises P hP hn
  cases h : indexOfPrimitivity P with
  | none => exact ⟨fun h' => absurd h' (this.mp h), fun ⟨e, he⟩ => absurd he (by simp)⟩
  | some e =>
    refine ⟨fun _ => ⟨e, rfl⟩, fun _ => ?_⟩
    by_contra hc
    rw [this.mpr hc] at h
    exact absurd h (by simp)

/-- Non-vacuity: the extremal chain for Wielandt's bound (3 states, index `(3-1)² + 1 = 5`), a periodic chain and an absorbing one. -/
example :
    let A : TMat Rat 3 := ![![0, 1, 0], ![0, 0, 1], ![1/2, 1/2, 0]]
    let B : TMat Rat 4 := ![![0, 1, 0, 0], ![1/2, 0, 1/2, 0], ![0, 0, 0, 1], ![0, 0, 1, 0]]
    validTransitionMatrix A = true ∧ indexOfPrimitivity A = some 5 ∧ validTransitionMatrix B = true ∧ indexOfPrimitivity B = none ∧
    recurrentStates B = {2, 3} ∧ period B 0 = some 2 ∧ communicatingClasses B = [{0, 1}, {2, 3}] := by decide +kernel

end Komm
