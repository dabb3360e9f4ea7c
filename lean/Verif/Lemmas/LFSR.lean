import Verif.Lemmas.Sequences
import Verif.Lemmas.ShiftRegister
import Verif.Lemmas.PolyMisc
/-! The LFSR of the library as a linear recurrence. -/
namespace Komm
open Polynomial

/-- The state after `n` iterations. -/
def lfsrState (taps st : List Nat) (n : Nat) : List Nat := (lfsrStep taps)^[n] st

/-- The infinite output stream. -/
def lfsrStream (taps st : List Nat) (n : Nat) : Nat := (lfsrState taps st n).getLastD 0

theorem lfsrLoop_eq (taps st : List Nat) (N : Nat) : lfsrLoop taps N st = (List.range N).map (lfsrStream taps st) := by
  induction N generalizing st with
  | zero => rfl
  | succ N ih =>
    rw [lfsrLoop, ih, List.range_succ_eq_map, List.map_cons, List.map_map]
    rfl

theorem lfsrState_length (taps st : List Nat) (h : st ≠ []) (n : Nat) : (lfsrState taps st n).length = st.length := by
  have hp : 0 < st.length := List.length_pos_iff.mpr h
  induction n with
  | zero => rfl
  | succ n ih =>
    rw [lfsrState, Function.iterate_succ_apply', ← lfsrState, lfsrStep]
    simp only [List.length_cons, List.length_dropLast, ih]
    omega

theorem lfsrState_bits (taps st : List Nat) (h : ∀ b ∈ st, b < 2) (n : Nat) : ∀ b ∈ lfsrState taps st n, b < 2 := by
  induction n with
  | zero => exact h
  | succ n ih =>
    rw [lfsrState, Function.iterate_succ_apply', ← lfsrState, lfsrStep]
    intro b hb
    rcases List.mem_cons.mp hb with rfl | hb
    · exact Nat.mod_lt _ (by norm_num)
    · exact ih b (List.dropLast_subset _ hb)

theorem lfsrState_shift (taps st : List Nat) (h : st ≠ []) (n j : Nat) (hj : j + 1 < st.length) :
    (lfsrState taps st (n + 1)).getD (j + 1) 0 = (lfsrState taps st n).getD j 0 := by
  have hl := lfsrState_length taps st h n
  rw [lfsrState, Function.iterate_succ_apply', ← lfsrState, lfsrStep, List.getD_cons_succ]
  rw [List.getD_eq_getElem?_getD, List.getD_eq_getElem?_getD, List.getElem?_dropLast, if_pos (by omega)]

theorem getLastD_eq (l : List Nat) : l.getLastD 0 = l.getD (l.length - 1) 0 := by
  cases l with
  | nil => rfl
  | cons a l => rw [List.getLastD_eq_getLast?, List.getLast?_eq_getElem?, List.getD_eq_getElem?_getD]

/-- The cells of the register hold the next outputs. -/
theorem lfsrState_getD (taps st : List Nat) (h : st ≠ []) (n j : Nat) (hj : j < st.length) :
    (lfsrState taps st n).getD j 0 = lfsrStream taps st (n + (st.length - 1 - j)) := by
  have key : ∀ k n, (hk : k < st.length) → (lfsrState taps st n).getD (st.length - 1 - k) 0 = lfsrStream taps st (n + k) := by
    intro k
    induction k with
    | zero =>
      intro n _
      rw [lfsrStream, getLastD_eq, lfsrState_length taps st h, Nat.sub_zero, Nat.add_zero]
    | succ k ih =>
      intro n hk
      rw [show n + (k + 1) = (n + 1) + k by omega, ← ih (n + 1) (by omega),
        show st.length - 1 - k = (st.length - 1 - (k + 1)) + 1 by omega]
      exact (lfsrState_shift taps st h n _ (by omega)).symm
  rw [← key _ n (by omega)]
  congr 1
  omega

theorem countP_mod_two (l : List Nat) (g : Nat → Nat) (hg : ∀ t, g t < 2) :
    (((l.countP fun t : Nat => g t ≠ 0) % 2 : Nat) : ZMod 2) = (l.map fun t : Nat => ((g t : Nat) : ZMod 2)).sum := by
  have : ∀ l : List Nat, ((l.countP fun t : Nat => g t ≠ 0 : Nat) : ZMod 2) = (l.map fun t : Nat => ((g t : Nat) : ZMod 2)).sum := by
    intro l
    induction l with
    | nil => rfl
    | cons a l ih =>
      rw [List.countP_cons, List.map_cons, List.sum_cons, ← ih]
      have := hg a
      have : g a = 0 ∨ g a = 1 := by omega
      rcases this with h | h <;> simp [h, add_comm]
  rw [← this]
  simp

theorem sum_exponents (b : Nat) (M : Nat) (hM : bitLength b ≤ M) (g : Nat → ZMod 2) :
    ((BP.exponents b).map g).sum = ∑ t ∈ Finset.range M, (toPoly b).coeff t * g t := by
  have hnd : (BP.exponents b).Nodup := (BP.exponents_sorted b).imp (fun h => Nat.ne_of_lt h)
  rw [← List.sum_toFinset g hnd]
  have he : (BP.exponents b).toFinset = (Finset.range M).filter fun t => (toPoly b).coeff t ≠ 0 := by
    ext t
    rw [List.mem_toFinset, BP.mem_exponents, Finset.mem_filter, Finset.mem_range, toPoly_coeff]
    constructor
    · intro h
      refine ⟨?_, by simp [h]⟩
      by_contra hc
      have hlt : b < 2 ^ t := lt_of_lt_of_le (lt_two_pow_bitLength b) (Nat.pow_le_pow_right (by norm_num) (by omega))
      rw [Nat.testBit_lt_two_pow hlt] at h
      exact absurd h (by simp)
    · rintro ⟨_, h⟩
      by_contra hc
      exact h (by rw [if_neg hc])
  rw [he, Finset.sum_filter]
  apply Finset.sum_congr rfl
  intro t _
  rcases (by decide : ∀ x : ZMod 2, x = 0 ∨ x = 1) ((toPoly b).coeff t) with h | h <;> simp [h]

/-- The stream of the LFSR with feedback polynomial `f` of degree `m ≥ 1`, over GF(2). -/
theorem lfsrStream_step (f : Nat) (st : List Nat) (hm : 1 ≤ (toPoly f).natDegree) (hst : st.length = (toPoly f).natDegree)
    (hb : ∀ b ∈ st, b < 2) (n : Nat) :
    (lfsrStream (BP.exponents (BP.add f 1)) st (n + (toPoly f).natDegree) : ZMod 2) =
      ∑ t ∈ Finset.range (toPoly f).natDegree, (toPoly f).coeff (t + 1) *
        (lfsrStream (BP.exponents (BP.add f 1)) st (n + ((toPoly f).natDegree - (t + 1))) : ZMod 2) +
      (1 + (toPoly f).coeff 0) * (lfsrStream (BP.exponents (BP.add f 1)) st n : ZMod 2) := by
  set m := (toPoly f).natDegree with hmdef
  set taps := BP.exponents (BP.add f 1) with htaps
  have hne : st ≠ [] := by rintro rfl; simp at hst; omega
  have h1 := lfsrState_getD taps st hne (n + 1) 0 (by omega)
  rw [show n + 1 + (st.length - 1 - 0) = n + m by omega] at h1
  rw [← h1, lfsrState, Function.iterate_succ_apply', ← lfsrState, lfsrStep, List.getD_cons_zero]
  have hl := lfsrState_length taps st hne n
  have hbits := lfsrState_bits taps st hb n
  rw [countP_mod_two _ (fun t : Nat => (lfsrState taps st n).getD (if t = 0 then (lfsrState taps st n).length - 1 else t - 1) 0) (by
    intro t
    rw [List.getD_eq_getElem?_getD]
    cases hx : (lfsrState taps st n)[(if t = 0 then (lfsrState taps st n).length - 1 else t - 1)]? with
    | none => simp
    | some x => exact hbits x (List.mem_of_getElem? hx))]
  have hdeg : bitLength (BP.add f 1) ≤ m + 1 := by
    have h2 : m = bitLength f - 1 := natDegree_toPoly f
    have hf : f < 2 ^ (m + 1) := by
      rw [← bitLength_le_iff]; omega
    rw [bitLength_le_iff]
    exact Nat.xor_lt_two_pow hf (Nat.one_lt_two_pow (by omega))
  rw [htaps, sum_exponents _ (m + 1) hdeg, ← htaps, Finset.sum_range_succ', BP.toPoly_add, toPoly_one]
  congr 1
  · apply Finset.sum_congr rfl
    intro t ht
    rw [Finset.mem_range] at ht
    rw [if_neg (by omega), Nat.add_sub_cancel, lfsrState_getD taps st hne n t (by omega), coeff_add, coeff_one, if_neg (by omega),
      add_zero, hst]
    congr 2
    rw [show n + (m - 1 - t) = n + (m - (t + 1)) by omega]
  · rw [if_pos rfl, coeff_add, coeff_one_zero, hl, hst, lfsrState_getD taps st hne n (m - 1) (by omega), add_comm (1 : ZMod 2), hst,
      Nat.sub_self, Nat.add_zero]

end Komm
