import Verif.Lemmas.Random
import Verif.Props.C82_Absorption
import Mathlib.MeasureTheory.Measure.Lebesgue.Basic
/-! C84: random draws follow the given distribution. -/
namespace Komm
open MarkovChain
variable {K : Type} [Field K] [LinearOrder K] [IsStrictOrderedRing K] {n : Nat}

theorem validPmf_iff (p : Fin n → K) : validPmf p = true ↔ (∀ i, 0 ≤ p i) ∧ ∑ i, p i = 1 := by simp [validPmf]

/-- Every draw gives a symbol of the alphabet with positive probability. -/
theorem C84_choice_positive (p : Fin n → K) (hp : validPmf p = true) (u : K) (hu : 0 ≤ u ∧ u < 1) :
    ∃ j, rngChoice p u = some j ∧ 0 < p j := by
  obtain ⟨h0, h1⟩ := (validPmf_iff p).mp hp
  obtain ⟨j, hj⟩ := rngChoice_total p h0 h1 u hu.2
  refine ⟨j, hj, ?_⟩
  obtain ⟨ha, hb⟩ := (rngChoice_iff p h0 h1 u hu.1 j).mp hj
  linarith

open MeasureTheory in
theorem choice_set (p : Fin n → ℝ) (hp : validPmf p = true) (j : Fin n) :
    {u : ℝ | u ∈ Set.Ico (0 : ℝ) 1 ∧ rngChoice p u = some j} = Set.Ico (below p j) (below p j + p j) := by
  obtain ⟨h0, h1⟩ := (validPmf_iff p).mp hp
  ext u
  simp only [Set.mem_setOf_eq, Set.mem_Ico]
  constructor
  · rintro ⟨hu, h⟩
    exact (rngChoice_iff p h0 h1 u hu.1 j).mp h
  · rintro ⟨ha, hb⟩
    have hu0 : 0 ≤ u := (below_nonneg p h0 j).trans ha
    refine ⟨⟨hu0, hb.trans_le ?_⟩, (rngChoice_iff p h0 h1 u hu0 j).mpr ⟨ha, hb⟩⟩
    rw [← cumsum_eq]
    exact cumsum_le_one p h0 h1 j

open MeasureTheory in
/-- The generator values in `[0, 1)` for which symbol `j` is drawn have total length `pmf[j]`. -/
theorem C84_choice_measure (p : Fin n → ℝ) (hp : validPmf p = true) (j : Fin n) :
    volume {u : ℝ | u ∈ Set.Ico (0 : ℝ) 1 ∧ rngChoice p u = some j} = ENNReal.ofReal (p j) := by
  rw [choice_set p hp j, Real.volume_Ico]
  congr 1; ring

/-- `emit` returns one symbol per draw, each with positive probability, and each is a function of its own draw. -/
theorem C84_emit (p : Fin n → K) (hp : validPmf p = true) (us : List K) (hu : ∀ u ∈ us, 0 ≤ u ∧ u < 1) :
    ∃ out, dmsEmit p us = some out ∧ out.length = us.length ∧ (∀ s ∈ out, 0 < p s) ∧
      ∀ t (h : t < us.length), rngChoice p us[t] = out[t]? := by
  induction us with
  | nil => exact ⟨[], rfl, rfl, by simp, by simp⟩
  | cons u us ih =>
    obtain ⟨out, h1, h2, h3, h4⟩ := ih fun u hu' => hu u (List.mem_cons_of_mem _ hu')
    obtain ⟨j, hj, hpj⟩ := C84_choice_positive p hp u (hu u (by simp))
    refine ⟨j :: out, ?_, by simp [h2], ?_, ?_⟩
    · rw [dmsEmit] at h1 ⊢
      simp [List.mapM_cons, hj, h1]
    · intro s hs
      rcases List.mem_cons.mp hs with rfl | hs
      · exact hpj
      · exact h3 s hs
    · intro t ht
      cases t with
      | zero => simpa using hj
      | succ t => simpa using h4 t (by simpa using ht)

theorem row_valid (P : TMat K n) (hP : validTransitionMatrix P = true) (i : Fin n) : validPmf (P i) = true := by
  obtain ⟨h0, h1⟩ := (C72_accepts P).mp hP
  exact (validPmf_iff _).mpr ⟨h0 i, h1 i⟩

/-- `simulate(i, steps)` returns `steps` states, the first is `i` and every move has positive probability. -/
theorem C84_simulate (P : TMat K n) (hP : validTransitionMatrix P = true) (i : Fin n) (us : List K) (hu : ∀ u ∈ us, 0 ≤ u ∧ u < 1) :
    ∃ out, simulate P i us = some out ∧ out.length = us.length ∧ (0 < us.length → out[0]? = some i) ∧
      ∀ t (h : t + 1 < out.length), 0 < P out[t] out[t + 1] := by
  induction us generalizing i with
  | nil => exact ⟨[], rfl, rfl, by simp, by simp⟩
  | cons u us ih =>
    obtain ⟨j, hj, hpj⟩ := C84_choice_positive (P i) (row_valid P hP i) u (hu u (by simp))
    obtain ⟨out, h1, h2, h3, h4⟩ := ih j fun u hu' => hu u (List.mem_cons_of_mem _ hu')
    refine ⟨i :: out, by simp [simulate, hj, h1], by simp [h2], by simp, ?_⟩
    intro t ht
    cases t with
    | zero =>
      have hl : 0 < us.length := by simp at ht; omega
      have := h3 hl
      rw [List.getElem?_eq_getElem (by omega), Option.some.injEq] at this
      simpa [this] using hpj
    | succ t => simpa using h4 t (by simpa using ht)

theorem simulate_cons (P : TMat K n) (i : Fin n) (u : K) (us : List K) (out : List (Fin n)) :
    simulate P i (u :: us) = some out ↔ ∃ j rest, rngChoice (P i) u = some j ∧ simulate P j us = some rest ∧ out = i :: rest := by
  simp only [simulate, Option.bind_eq_bind, Option.pure_def, Option.bind_eq_some_iff, Option.some.injEq]
  constructor
  · rintro ⟨j, hj, rest, hr, rfl⟩; exact ⟨j, rest, hj, hr, rfl⟩
  · rintro ⟨j, rest, hj, hr, rfl⟩; exact ⟨j, hj, rest, hr, rfl⟩

theorem simulate_iff (P : TMat K n) (hP : validTransitionMatrix P = true) (us : List K) (hu : ∀ u ∈ us, 0 ≤ u ∧ u < 1) :
    ∀ (i : Fin n) (out : List (Fin n)), out.length = us.length → (simulate P i us = some out ↔
      (0 < us.length → out[0]? = some i) ∧ ∀ t (h : t + 1 < us.length) (h' : t + 1 < out.length), rngChoice (P out[t]) us[t] = some out[t + 1]) := by
  induction us with
  | nil => intro i out h; cases out <;> simp_all [simulate]
  | cons u us ih =>
    intro i out hlen
    obtain ⟨s, out, rfl⟩ : ∃ s o, out = s :: o := by cases out with
      | nil => simp at hlen
      | cons s o => exact ⟨s, o, rfl⟩
    have hlen' : out.length = us.length := by simpa using hlen
    have hu' : ∀ u ∈ us, 0 ≤ u ∧ u < 1 := fun u h => hu u (List.mem_cons_of_mem _ h)
    rw [simulate_cons]
    constructor
    · rintro ⟨j, rest, hj, hr, he⟩
      obtain ⟨rfl, rfl⟩ := List.cons.inj he
      obtain ⟨h1, h2⟩ := (ih hu' j out hlen').mp hr
      refine ⟨by simp, fun t ht ht' => ?_⟩
      cases t with
      | zero =>
        have hl : 0 < us.length := by simpa using ht
        have := h1 hl
        rw [List.getElem?_eq_getElem (by omega), Option.some.injEq] at this
        simpa [this] using hj
      | succ t => simpa using h2 t (by simpa using ht) (by simpa using ht')
    · rintro ⟨h1, h2⟩
      have hs : s = i := by simpa using h1
      subst hs
      rcases Nat.eq_zero_or_pos us.length with hz | hz
      · obtain rfl := List.length_eq_zero_iff.mp hz
        obtain rfl := List.length_eq_zero_iff.mp hlen'
        obtain ⟨j, hj, -⟩ := C84_choice_positive (P s) (row_valid P hP s) u (hu u (by simp))
        exact ⟨j, [], hj, rfl, rfl⟩
      · have h0 := h2 0 (by simpa using hz) (by simp; omega)
        refine ⟨out[0], out, by simpa using h0, (ih hu' _ _ hlen').mpr ⟨fun _ => by rw [List.getElem?_eq_getElem], fun t ht ht' => ?_⟩, rfl⟩
        exact h2 (t + 1) (by simpa using ht) (by simpa using ht')

open MeasureTheory in
/-- The law of `simulate`: the vectors of generator values in `[0, 1)^steps` for which the trajectory is `s` have volume
`P[s_0, s_1] P[s_1, s_2] ⋯`. -/
theorem C84_simulate_measure (P : TMat ℝ n) (hP : validTransitionMatrix P = true) (m : Nat) (s : Fin (m + 1) → Fin n) :
    volume {u : Fin (m + 1) → ℝ | (∀ t, u t ∈ Set.Ico (0 : ℝ) 1) ∧ simulate P (s 0) (List.ofFn u) = some (List.ofFn s)} =
      ENNReal.ofReal (∏ t : Fin m, P (s t.castSucc) (s t.succ)) := by
  obtain ⟨h0, h1⟩ := (C72_accepts P).mp hP
  let a : Fin (m + 1) → ℝ := Fin.snoc (fun t : Fin m => below (P (s t.castSucc)) (s t.succ)) 0
  let b : Fin (m + 1) → ℝ := Fin.snoc (fun t : Fin m => below (P (s t.castSucc)) (s t.succ) + P (s t.castSucc) (s t.succ)) 1
  have hset : {u : Fin (m + 1) → ℝ | (∀ t, u t ∈ Set.Ico (0 : ℝ) 1) ∧ simulate P (s 0) (List.ofFn u) = some (List.ofFn s)} =
      Set.univ.pi fun t => Set.Ico (a t) (b t) := by
    ext u
    simp only [Set.mem_setOf_eq, Set.mem_pi, Set.mem_univ, true_implies]
    have key : ∀ t : Fin m, (u t.castSucc ∈ Set.Ico (0 : ℝ) 1 ∧ rngChoice (P (s t.castSucc)) (u t.castSucc) = some (s t.succ)) ↔
        u t.castSucc ∈ Set.Ico (a t.castSucc) (b t.castSucc) := by
      intro t
      have := choice_set (P (s t.castSucc)) (row_valid P hP _) (s t.succ)
      rw [Set.ext_iff] at this
      simpa [a, b] using this (u t.castSucc)
    have hlast : u (Fin.last m) ∈ Set.Ico (0 : ℝ) 1 ↔ u (Fin.last m) ∈ Set.Ico (a (Fin.last m)) (b (Fin.last m)) := by simp [a, b]
    have hsim : (∀ t, u t ∈ Set.Ico (0 : ℝ) 1) → (simulate P (s 0) (List.ofFn u) = some (List.ofFn s) ↔
        ∀ t : Fin m, rngChoice (P (s t.castSucc)) (u t.castSucc) = some (s t.succ)) := by
      intro hu
      rw [simulate_iff P hP (List.ofFn u) (fun x hx => by obtain ⟨t, rfl⟩ := (List.mem_ofFn' _ _).mp hx; exact hu t) (s 0) (List.ofFn s) (by simp)]
      constructor
      · rintro ⟨-, h⟩ t
        have := h t.val (by simp) (by simp)
        simp only [List.getElem_ofFn] at this
        exact this
      · intro h
        refine ⟨by simp, fun t ht ht' => ?_⟩
        have := h ⟨t, by simpa using ht⟩
        simp only [List.getElem_ofFn]
        exact this
    constructor
    · rintro ⟨hu, h⟩ t
      induction t using Fin.lastCases with
      | last => exact hlast.mp (hu _)
      | cast t => exact (key t).mp ⟨hu _, (hsim hu).mp h t⟩
    · intro h
      have hu : ∀ t, u t ∈ Set.Ico (0 : ℝ) 1 := by
        intro t
        induction t using Fin.lastCases with
        | last => exact hlast.mpr (h _)
        | cast t => exact ((key t).mpr (h _)).1
      exact ⟨hu, (hsim hu).mpr fun t => ((key t).mpr (h _)).2⟩
  rw [hset, Real.volume_pi_Ico, Fin.prod_univ_castSucc]
  simp only [a, b, Fin.snoc_castSucc, Fin.snoc_last, add_sub_cancel_left, sub_zero, ENNReal.ofReal_one, mul_one]
  rw [ENNReal.ofReal_prod_of_nonneg fun t _ => h0 _ _]

/-- `simulate_until_absorption` raises exactly for a chain that is not absorbing; what it returns starts at the initial state, moves with
positive probability, stays in non-absorbing states before its last state, and its last state is absorbing. -/
theorem C84_until_absorption (P : TMat ℝ n) (hP : validTransitionMatrix P = true) (i : Fin n) (us : List ℝ) (hu : ∀ u ∈ us, 0 ≤ u ∧ u < 1) :
    (simulateUntilAbsorption P i us = .raises ↔ ¬ isAbsorbing P = true) ∧
    ∀ out, simulateUntilAbsorption P i us = .returns out →
      out[0]? = some i ∧ (∀ t (h : t + 1 < out.length), 0 < P out[t] out[t + 1]) ∧
      ∀ t (h : t < out.length), out[t] ∈ absorbingStates P ↔ t + 1 = out.length := by
  constructor
  · rw [simulateUntilAbsorption]
    constructor
    · intro h
      split at h
      · assumption
      · split at h <;> cases h
    · intro h; rw [if_pos h]
  · intro out h
    rw [simulateUntilAbsorption] at h
    split at h
    · cases h
    · rename_i hab
      have hab : isAbsorbing P = true := by simpa using hab
      suffices H : ∀ (us : List ℝ) (i : Fin n) rest, (∀ u ∈ us, 0 ≤ u ∧ u < 1) → untilLoop P i us = some rest →
          (∀ t (h : t + 1 < (i :: rest).length), 0 < P (i :: rest)[t] (i :: rest)[t + 1]) ∧
          ∀ t (h : t < (i :: rest).length), (i :: rest)[t] ∈ absorbingStates P ↔ t + 1 = (i :: rest).length by
        split at h
        · cases h
        · rename_i rest hr
          injection h with h
          subst h
          exact ⟨rfl, H us i rest hu hr⟩
      intro us
      have hstop : ∀ i : Fin n, i ∉ transientStates P →
          (∀ t (h : t + 1 < [i].length), 0 < P [i][t] [i][t + 1]) ∧ ∀ t (h : t < [i].length), [i][t] ∈ absorbingStates P ↔ t + 1 = [i].length := by
        intro i hi
        refine ⟨fun t ht => absurd ht (by simp), fun t ht => ?_⟩
        have ht0 : t = 0 := by simpa using ht
        subst ht0
        have := (transient_iff P hP hab i).not.mp hi
        simpa using this
      induction us with
      | nil =>
        intro i rest _ hr
        rw [untilLoop] at hr
        split at hr
        · cases hr
        · injection hr with hr
          subst hr
          exact hstop i ‹_›
      | cons u us ih =>
        intro i rest hu hr
        rw [untilLoop] at hr
        split at hr
        · rename_i hi
          simp only [Option.bind_eq_bind, Option.pure_def, Option.bind_eq_some_iff, Option.some.injEq] at hr
          obtain ⟨j, hj, rest', hr', rfl⟩ := hr
          obtain ⟨j', hj', hpj⟩ := C84_choice_positive (P i) (row_valid P hP i) u (hu u (by simp))
          obtain rfl : j = j' := by rw [hj] at hj'; simpa using hj'
          obtain ⟨h1, h2⟩ := ih j rest' (fun u h => hu u (List.mem_cons_of_mem _ h)) hr'
          refine ⟨fun t ht => ?_, fun t ht => ?_⟩
          · cases t with
            | zero => simpa using hpj
            | succ t => exact h1 t (by simpa using ht)
          · cases t with
            | zero =>
              have := (transient_iff P hP hab i).mp hi
              simpa using this
            | succ t => simpa using h2 t (by simpa using ht)
        · injection hr with hr
          subst hr
          exact hstop i ‹_›

/-- Non-vacuity: a documented chain and some draws (the hypotheses hold, the loop returns). -/
example : let D : TMat Rat 3 := ![![0, 1, 0], ![0, 0, 1], ![1, 0, 0]]
    validTransitionMatrix D = true ∧ simulate D 2 [0, 1/2, 1/3, 9/10, 0] = some [2, 0, 1, 2, 0] := by decide +kernel

example : let C : TMat Rat 4 := ![![1, 0, 0, 0], ![1/2, 0, 1/2, 0], ![0, 1/2, 0, 1/2], ![0, 0, 0, 1]]
    validTransitionMatrix C = true ∧ isAbsorbing C = true ∧ simulateUntilAbsorption C 1 [3/4, 0, 1/2, 1/2, 7/8] = .returns [1, 2, 1, 2, 3] ∧
    simulateUntilAbsorption C 1 [3/4, 0, 1/2] = .running ∧ simulateUntilAbsorption C 0 [] = .returns [0] := by decide +kernel

example : validPmf (![1/2, 0, 1/2] : Fin 3 → Rat) = true ∧ dmsEmit (![1/2, 0, 1/2] : Fin 3 → Rat) [0, 1/2, 49/100, 99/100] = some [0, 2, 0, 2] := by
  decide +kernel

end Komm
