import Verif.Spec.Convolutional
import Verif.Lemmas.BlockCode
import Verif.Lemmas.FiniteStateMachine
import Verif.Lemmas.Blockwise
namespace Komm.StateSpace
variable {k n σ : Nat} (c : StateSpace k n σ)

theorem encodeBlocks_eq (us : List (BVec k)) (s : BVec σ) : c.encodeBlocks us s = (c.outs s us, c.run s us) := by
  have h : ∀ (us : List (BVec k)) (s : BVec σ) (acc : List (BVec n)),
      us.foldl (fun (acc : List (BVec n) × BVec σ) u => (acc.1 ++ [c.output acc.2 u], c.next acc.2 u)) (acc, s) =
        (acc ++ c.outs s us, c.run s us) := by
    intro us
    induction us with
    | nil => intro s acc; simp [outs, run]
    | cons u us ih => intro s acc; rw [List.foldl_cons, ih]; simp [outs, run]
  have := h us s []
  rw [List.nil_append] at this
  exact this

theorem run_append (s : BVec σ) (us vs : List (BVec k)) : c.run s (us ++ vs) = c.run (c.run s us) vs := by
  induction us generalizing s with
  | nil => rfl
  | cons u us ih => rw [List.cons_append, run, ih]; rfl

theorem outs_append (s : BVec σ) (us vs : List (BVec k)) :
    c.outs s (us ++ vs) = c.outs s us ++ c.outs (c.run s us) vs := by
  induction us generalizing s with
  | nil => rfl
  | cons u us ih => rw [List.cons_append, outs, ih]; rfl

theorem outs_length (s : BVec σ) (us : List (BVec k)) : (c.outs s us).length = us.length := by
  induction us generalizing s with
  | nil => rfl
  | cons u us ih => rw [outs, List.length_cons, List.length_cons, ih]

theorem vecOfList_ofFn {m : Nat} (v : BVec m) : vecOfList m (List.ofFn v) = v := by
  funext i
  rw [vecOfList, List.getD_eq_getElem?_getD, List.getElem?_eq_getElem (by simp)]
  simp

theorem ofFn_vecOfList {m : Nat} (l : List (ZMod 2)) (h : l.length = m) : List.ofFn (vecOfList m l) = l := by
  apply List.ext_getElem
  · simp [h]
  · intro i h1 h2
    rw [List.getElem_ofFn, vecOfList, List.getD_eq_getElem?_getD, List.getElem?_eq_getElem h2]; rfl

theorem flat_length {m : Nat} (vs : List (BVec m)) : (flat vs).length = vs.length * m := by
  rw [flat, List.length_flatten, List.map_map]
  induction vs with
  | nil => simp
  | cons v vs ih => simp only [List.map_cons, List.sum_cons, List.length_cons, ih, Function.comp_apply, List.length_ofFn]; ring

theorem chunks_flat {m : Nat} (hm : 0 < m) (vs : List (BVec m)) :
    (chunks m (flat vs)).map (fun row : List (ZMod 2) => vecOfList m row) = vs := by
  rw [flat, chunks_flatten m hm]
  · rw [List.map_map]
    conv_rhs => rw [← List.map_id vs]
    apply List.map_congr_left
    intro v _
    exact vecOfList_ofFn v
  · intro r hr
    obtain ⟨v, _, rfl⟩ := List.mem_map.mp hr
    simp

/-- Every stream of a valid length is the stream of its blocks. -/
theorem exists_flat {m : Nat} (hm : 0 < m) (l : List (ZMod 2)) (hl : l.length % m = 0) : ∃ vs : List (BVec m), l = flat vs := by
  refine ⟨(chunks m l).map (fun row : List (ZMod 2) => vecOfList m row), ?_⟩
  rw [flat, List.map_map]
  conv_lhs => rw [← flatten_chunks m hm l hl]
  congr 1
  conv_lhs => rw [← List.map_id (chunks m l)]
  apply List.map_congr_left
  intro r hr
  exact (ofFn_vecOfList r (chunks_row_length m hm l hl r hr)).symm

theorem encodeWithState_flat (hk : 0 < k) (us : List (BVec k)) (s : BVec σ) :
    c.encodeWithState (flat us) s = some (flat (c.outs s us), c.run s us) := by
  rw [encodeWithState, if_neg]
  · simp only [chunks_flat hk, encodeBlocks_eq]; rfl
  · rintro (h | h)
    · omega
    · rw [flat_length] at h; simp at h

theorem flat_append {m : Nat} (us vs : List (BVec m)) : flat (us ++ vs) = flat us ++ flat vs := by simp [flat]

theorem flat_injective {m : Nat} (hm : 0 < m) {us vs : List (BVec m)} (h : flat us = flat vs) : us = vs := by
  rw [← chunks_flat hm us, h, chunks_flat hm]

theorem flat_zipWith {m : Nat} (us vs : List (BVec m)) :
    List.zipWith (· + ·) (flat us) (flat vs) = flat (List.zipWith (· + ·) us vs) := by
  induction us generalizing vs with
  | nil => simp [flat]
  | cons u us ih =>
    cases vs with
    | nil => simp [flat]
    | cons v vs =>
      have := ih vs
      simp only [flat, List.map_cons, List.flatten_cons, List.zipWith_cons_cons] at this ⊢
      rw [List.zipWith_append (by simp), this]
      congr 1
      apply List.ext_getElem
      · simp
      · intro i h1 h2; simp

theorem next_add (s s' : BVec σ) (u u' : BVec k) : c.next (s + s') (u + u') = c.next s u + c.next s' u' := by
  simp only [next, vecMat_add]; abel

theorem output_add (s s' : BVec σ) (u u' : BVec k) : c.output (s + s') (u + u') = c.output s u + c.output s' u' := by
  simp only [output, vecMat_add]; abel

theorem run_add (s s' : BVec σ) (us us' : List (BVec k)) (h : us.length = us'.length) :
    c.run (s + s') (List.zipWith (· + ·) us us') = c.run s us + c.run s' us' := by
  induction us generalizing s s' us' with
  | nil => cases us' with
    | nil => rfl
    | cons u us => simp at h
  | cons u us ih => cases us' with
    | nil => simp at h
    | cons u' us' =>
      rw [List.zipWith_cons_cons, run, next_add, ih _ _ _ (by simpa using h)]; rfl

theorem outs_add (s s' : BVec σ) (us us' : List (BVec k)) (h : us.length = us'.length) :
    c.outs (s + s') (List.zipWith (· + ·) us us') = List.zipWith (· + ·) (c.outs s us) (c.outs s' us') := by
  induction us generalizing s s' us' with
  | nil => cases us' with
    | nil => rfl
    | cons u us => simp at h
  | cons u us ih => cases us' with
    | nil => simp at h
    | cons u' us' =>
      rw [List.zipWith_cons_cons, outs, output_add, next_add, ih _ _ _ (by simpa using h)]; rfl

/-! ### the finite-state machine -/

/-- The integer code of a block, as a symbol. -/
def code {m : Nat} (v : BVec m) : Fin (2 ^ m) := ⟨vecToNat v, vecToNat_lt v⟩

theorem natToVec_code {m : Nat} (v : BVec m) : natToVec m (code v : Nat) = v := natToVec_vecToNat v

theorem fsm_next (s : BVec σ) (u : BVec k) : c.finiteStateMachine.next (code s) (code u) = code (c.next s u) := by
  apply Fin.ext
  simp only [finiteStateMachine, encodeBlocks_eq, run, code, natToVec_vecToNat]
  exact Nat.mod_eq_of_lt (vecToNat_lt _)

theorem fsm_out (s : BVec σ) (u : BVec k) : c.finiteStateMachine.out (code s) (code u) = vecToNat (c.output s u) := by
  simp only [finiteStateMachine, natToVec_code, encodeBlocks_eq, outs]
  rfl

theorem fsm_run (s : BVec σ) (us : List (BVec k)) :
    c.finiteStateMachine.run (code s) (us.map fun u : BVec k => code u) = code (c.run s us) := by
  induction us generalizing s with
  | nil => rfl
  | cons u us ih => rw [List.map_cons, Mealy.run, fsm_next, ih]; rfl

theorem fsm_outs (s : BVec σ) (us : List (BVec k)) :
    c.finiteStateMachine.outs (code s) (us.map fun u : BVec k => code u) = (c.outs s us).map fun v : BVec n => vecToNat v := by
  induction us generalizing s with
  | nil => rfl
  | cons u us ih => rw [List.map_cons, Mealy.outs, fsm_next, fsm_out, ih]; rfl

theorem code_surj {m : Nat} (x : Fin (2 ^ m)) : ∃ v : BVec m, code v = x :=
  ⟨natToVec m x, Fin.ext (vecToNat_natToVec (x : Nat) x.is_lt)⟩

theorem code_inj {m : Nat} {u v : BVec m} (h : code u = code v) : u = v := vecToNat_inj (Fin.mk.inj_iff.mp h)

theorem code_zero {m : Nat} : code (0 : BVec m) = ⟨0, Nat.two_pow_pos m⟩ := Fin.ext vecToNat_zero

end Komm.StateSpace
