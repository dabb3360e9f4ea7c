import Verif.Lemmas.FreeDistance
/-! In a linear machine every closed walk of positive weight has the weight of one that the search of `free_distance` can find. -/
namespace Komm.StateSpace
variable {k n σ : Nat} (c : StateSpace k n σ)

theorem next_zero : c.next 0 0 = 0 := by
  have := c.next_add 0 0 0 0
  rw [add_zero, add_zero, bvec_add_self] at this
  exact this
theorem output_zero : c.output 0 0 = 0 := by
  have := c.output_add 0 0 0 0
  rw [add_zero, add_zero, bvec_add_self] at this
  exact this

theorem run_zeros (a : Nat) : c.run 0 (List.replicate a 0) = 0 := by
  induction a with
  | zero => rfl
  | succ a ih => rw [List.replicate_succ, StateSpace.run, next_zero, ih]

theorem outs_zeros (a : Nat) : c.outs 0 (List.replicate a 0) = List.replicate a 0 := by
  induction a with
  | zero => rfl
  | succ a ih => rw [List.replicate_succ, StateSpace.outs, next_zero, ih, output_zero, List.replicate_succ]

theorem run_pad (a : Nat) (us : List (BVec k)) : c.run 0 (List.replicate a 0 ++ us) = c.run 0 us := by
  rw [run_append, run_zeros]

theorem outs_pad (a : Nat) (us : List (BVec k)) : c.outs 0 (List.replicate a 0 ++ us) = List.replicate a 0 ++ c.outs 0 us := by
  rw [outs_append, run_zeros, outs_zeros]

theorem zipWith_add_zeros (l : List (BVec n)) : List.zipWith (fun a b : BVec n => a + b) l (List.replicate l.length 0) = l := by
  induction l with
  | nil => rfl
  | cons a l ih => simp [List.replicate_succ, ih]

/-- Adding a weightless walk to the same state. -/
theorem closing (us ys : List (BVec k)) (hrun : c.run 0 ys = c.run 0 us) (hy : ∀ v ∈ c.outs 0 ys, v = 0) :
    ∃ vs a, c.run 0 vs = 0 ∧ c.outs 0 vs = List.replicate a 0 ++ c.outs 0 us := by
  set p := List.replicate (ys.length - us.length) 0 ++ us with hp
  set q := List.replicate (us.length - ys.length) 0 ++ ys with hq
  have hlen : p.length = q.length := by simp [hp, hq]; omega
  refine ⟨List.zipWith (fun a b : BVec k => a + b) p q, ys.length - us.length, ?_, ?_⟩
  · have := c.run_add 0 0 p q hlen
    rw [add_zero] at this
    rw [this, hp, hq, run_pad, run_pad, hrun, bvec_add_self]
  · have := c.outs_add 0 0 p q hlen
    rw [add_zero] at this
    rw [this]
    have h0 : c.outs 0 q = List.replicate (c.outs 0 p).length 0 := by
      rw [List.eq_replicate_iff]
      constructor
      · rw [outs_length, outs_length, hlen]
      · intro v hv
        rw [hq, outs_pad, List.mem_append] at hv
        rcases hv with h | h
        · exact List.eq_of_mem_replicate h
        · exact hy v h
    rw [h0, zipWith_add_zeros, hp, outs_pad]

theorem exists_last_nonzero (l : List (BVec n)) (h : ∃ v ∈ l, v ≠ 0) :
    ∃ l0 v m, v ≠ 0 ∧ l = l0 ++ v :: List.replicate m (0 : BVec n) := by
  induction l using List.reverseRecOn with
  | nil => obtain ⟨v, hv, _⟩ := h; exact absurd hv (by simp)
  | append_singleton l x ih =>
    by_cases hx : x = 0
    · subst hx
      obtain ⟨v, hv, hv0⟩ := h
      rw [List.mem_append, List.mem_singleton] at hv
      obtain ⟨l0, v, m, h1, h2⟩ := ih ⟨v, hv.resolve_right hv0, hv0⟩
      refine ⟨l0, v, m + 1, h1, ?_⟩
      rw [h2, List.replicate_succ', List.append_assoc, List.cons_append]
    · exact ⟨l, x, 0, hx, rfl⟩

/-- Every closed walk with a non-zero output can be shortened, up to leading zeros, to one that ends with a non-zero output or at a state
that no weightless walk reaches. -/
theorem exists_essential (us : List (BVec k)) (hrun : c.run 0 us = 0) (hne : ∃ v ∈ c.outs 0 us, v ≠ 0) :
    ∃ vs x a b, c.run 0 (vs ++ [x]) = 0 ∧
      c.outs 0 (vs ++ [x]) ++ List.replicate b 0 = List.replicate a 0 ++ c.outs 0 us ∧
      (c.output (c.run 0 vs) x ≠ 0 ∨ ∀ ys, c.run 0 ys = c.run 0 vs → ∃ v ∈ c.outs 0 ys, v ≠ 0) := by
  obtain ⟨l0, v, m, hv, hl⟩ := exists_last_nonzero _ hne
  induction m generalizing us l0 with
  | zero =>
    cases us using List.reverseRecOn with
    | nil => exact absurd hl (by simp [StateSpace.outs])
    | append_singleton us x =>
      refine ⟨us, x, 0, 0, hrun, by simp, Or.inl ?_⟩
      rw [outs_append] at hl
      have h1 := (List.append_inj' hl rfl).2
      have : c.output (c.run 0 us) x = v := by simpa [StateSpace.outs] using h1
      rw [this]; exact hv
  | succ m ih =>
    cases us using List.reverseRecOn with
    | nil => exact absurd hl (by simp [StateSpace.outs])
    | append_singleton us x =>
      rw [outs_append, List.replicate_succ', ← List.cons_append, ← List.append_assoc] at hl
      have h1 := List.append_inj' hl rfl
      have ho : c.outs (c.run 0 us) [x] = [0] := h1.2
      by_cases hy : ∀ ys, c.run 0 ys = c.run 0 us → ∃ v ∈ c.outs 0 ys, v ≠ 0
      · exact ⟨us, x, 0, 0, hrun, by simp, Or.inr hy⟩
      · push Not at hy
        obtain ⟨ys, hy1, hy2⟩ := hy
        obtain ⟨vs, a, hvs, hvo⟩ := c.closing us ys hy1 hy2
        have hdec : c.outs 0 vs = (List.replicate a 0 ++ l0) ++ v :: List.replicate m 0 := by
          rw [hvo, h1.1, List.append_assoc]
        obtain ⟨ws, y, a', b, hw1, hw2, hw3⟩ := ih vs hvs ⟨v, by rw [hdec]; simp, hv⟩ _ hdec
        refine ⟨ws, y, a' + a, b + 1, hw1, ?_, hw3⟩
        rw [List.replicate_succ', ← List.append_assoc, hw2, hvo, outs_append, ho]
        simp [List.replicate_append_replicate, ← List.append_assoc]

/-! ### weights -/

theorem count_ofFn {m : Nat} (v : BVec m) : (List.ofFn v).count 1 = ∑ i, if v i = 1 then 1 else 0 := by
  induction m with
  | zero => simp
  | succ m ih =>
    rw [List.ofFn_succ, List.count_cons, ih, Fin.sum_univ_succ, Nat.add_comm]
    congr 1
    by_cases h : v 0 = 1 <;> simp [h]

theorem bitCount_vecToNat {m : Nat} (v : BVec m) : bitCount (vecToNat v) = (List.ofFn v).count 1 := by
  rw [bitCount_eq m _ (vecToNat_lt v), count_ofFn, Finset.sum_range]
  apply Finset.sum_congr rfl
  intro i _
  have h := congrFun (natToVec_vecToNat v) i
  rw [natToVec_apply] at h
  rw [← h]
  cases (vecToNat v).testBit i <;> simp

/-- The number of ones in the blocks `vs`. -/
theorem count_flat {m : Nat} (vs : List (BVec m)) : (flat vs).count 1 = (vs.map fun v : BVec m => bitCount (vecToNat v)).sum := by
  induction vs with
  | nil => rfl
  | cons v vs ih =>
    have : flat (v :: vs) = List.ofFn v ++ flat vs := rfl
    rw [this, List.count_append, ih, List.map_cons, List.sum_cons, bitCount_vecToNat]

theorem count_ofFn_pos {m : Nat} (v : BVec m) : 0 < (List.ofFn v).count 1 ↔ v ≠ 0 := by
  rw [List.count_pos_iff, List.mem_ofFn]
  constructor
  · rintro ⟨i, hi⟩ rfl
    exact absurd hi (by simp)
  · intro h
    by_contra hc
    push Not at hc
    apply h
    funext i
    have := hc i
    exact (by decide : ∀ x : ZMod 2, x ≠ 1 → x = 0) (v i) this

theorem count_flat_pos {m : Nat} (vs : List (BVec m)) : 0 < (flat vs).count 1 ↔ ∃ v ∈ vs, v ≠ 0 := by
  induction vs with
  | nil => simp [flat]
  | cons v vs ih =>
    have : flat (v :: vs) = List.ofFn v ++ flat vs := rfl
    rw [this, List.count_append, Nat.add_pos_iff_pos_or_pos, ih, count_ofFn_pos]
    simp

theorem count_flat_zeros {m : Nat} (a : Nat) : (flat (List.replicate a (0 : BVec m))).count 1 = 0 := by
  by_contra h
  obtain ⟨v, hv, hv0⟩ := (count_flat_pos _).mp (Nat.pos_of_ne_zero h)
  exact hv0 (List.eq_of_mem_replicate hv)

theorem walkWeight_code (us : List (BVec k)) (z : Fin (2 ^ σ)) (hz : z = code (0 : BVec σ)) :
    c.finiteStateMachine.walkWeight z (us.map fun u : BVec k => code u) = (flat (c.outs 0 us)).count 1 := by
  subst hz
  rw [Mealy.walkWeight, fsm_outs, count_flat, List.map_map]
  rfl

theorem exists_codes (xs : List (Fin (2 ^ k))) : ∃ us : List (BVec k), xs = us.map fun u : BVec k => code u := by
  induction xs with
  | nil => exact ⟨[], rfl⟩
  | cons x xs ih =>
    obtain ⟨us, rfl⟩ := ih
    obtain ⟨u, rfl⟩ := code_surj x
    exact ⟨u :: us, rfl⟩

theorem freeDistance_spec : ∃ N r, (∀ fuel, N ≤ fuel → c.freeDistance fuel = some r) ∧
    (∀ d, r = some d → 0 < d ∧ (∃ us, c.run 0 us = 0 ∧ (flat (c.outs 0 us)).count 1 = d) ∧
      ∀ us, c.run 0 us = 0 → 0 < (flat (c.outs 0 us)).count 1 → d ≤ (flat (c.outs 0 us)).count 1) ∧
    (r = none → ∀ us, c.run 0 us = 0 → (flat (c.outs 0 us)).count 1 = 0) := by
  haveI : NeZero (2 ^ σ) := ⟨(Nat.two_pow_pos σ).ne'⟩
  have hz : (0 : Fin (2 ^ σ)) = code (0 : BVec σ) := by rw [code_zero]; rfl
  obtain ⟨N, r, hN⟩ := c.finiteStateMachine.freeLoop_terminates (fun _ => ⊤) [(0, 0)]
  obtain ⟨h1, h2⟩ := c.finiteStateMachine.freeLoop_spec N _ _ c.finiteStateMachine.inv_init r (hN N le_rfl)
  have ess : ∀ us, c.run 0 us = 0 → 0 < (flat (c.outs 0 us)).count 1 →
      ∃ xs x, c.finiteStateMachine.Essential xs x ∧
        c.finiteStateMachine.walkWeight 0 (xs ++ [x]) = (flat (c.outs 0 us)).count 1 := by
    intro us hu hp
    obtain ⟨vs, x, a, b, g1, g2, g3⟩ := c.exists_essential us hu ((count_flat_pos _).mp hp)
    refine ⟨vs.map fun u : BVec k => code u, code x, ⟨?_, ?_⟩, ?_⟩
    · rw [hz, fsm_run, fsm_next]
      rw [run_append] at g1
      exact congrArg code g1
    · rcases g3 with g3 | g3
      · left
        rw [hz, fsm_run, fsm_out, bitCount_vecToNat, count_ofFn_pos]
        exact g3
      · right
        intro ys hy
        obtain ⟨ys, rfl⟩ := exists_codes ys
        rw [c.walkWeight_code ys 0 hz, count_flat_pos]
        apply g3
        rw [hz, fsm_run, fsm_run] at hy
        exact code_inj hy
    · have : (vs.map fun u : BVec k => code u) ++ [code x] = (vs ++ [x]).map fun u : BVec k => code u := by simp
      rw [this, c.walkWeight_code _ 0 hz]
      have g4 := congrArg (fun l => (flat l).count 1) g2
      simp only [flat_append, List.count_append, count_flat_zeros] at g4
      omega
  refine ⟨N, r, fun fuel hf => hN fuel hf, ?_, ?_⟩
  · intro d hd
    obtain ⟨g1, ⟨xs, g2, g3⟩, g4⟩ := h1 d hd
    obtain ⟨us, rfl⟩ := exists_codes xs
    refine ⟨g1, ⟨us, ?_, ?_⟩, ?_⟩
    · rw [hz, fsm_run] at g2
      exact code_inj g2
    · rw [← c.walkWeight_code us 0 hz]; exact g3
    · intro us hu hp
      obtain ⟨xs, x, e1, e2⟩ := ess us hu hp
      rw [← e2]
      exact g4 xs x e1
  · intro hn us hu
    by_contra hp
    obtain ⟨xs, x, e1, _⟩ := ess us hu (Nat.pos_of_ne_zero hp)
    exact h2 hn xs x e1

end Komm.StateSpace
