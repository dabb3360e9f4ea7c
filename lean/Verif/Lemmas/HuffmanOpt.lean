import Verif.Lemmas.Huffman
import Verif.Lemmas.Kraft

namespace Komm

section exchange
variable {X : Type} (w : X → ℚ)

/-- Kraft sum and cost of a list of weighted symbols with lengths. -/
def kr (A : List (X × Nat)) : ℚ := (A.map fun e => (1 : ℚ) / 2 ^ e.2).sum
def co (A : List (X × Nat)) : ℚ := (A.map fun e => w e.1 * (e.2 : ℚ)).sum
def tot (A : List (X × Nat)) : Nat := (A.map Prod.snd).sum

theorem kr_cons (e : X × Nat) (A : List (X × Nat)) : kr (e :: A) = 1 / 2 ^ e.2 + kr A := by simp [kr]
theorem co_cons (e : X × Nat) (A : List (X × Nat)) : co w (e :: A) = w e.1 * e.2 + co w A := by simp [co]
theorem tot_cons (e : X × Nat) (A : List (X × Nat)) : tot (e :: A) = e.2 + tot A := by simp [tot]

theorem bubble (a : X) (l : Nat) (R : List (X × Nat)) (hmin : ∀ e ∈ R, w a ≤ w e.1) :
    ∃ l' R', R'.map Prod.fst = R.map Prod.fst ∧ kr ((a, l') :: R') = kr ((a, l) :: R) ∧
      co w ((a, l') :: R') ≤ co w ((a, l) :: R) ∧ tot ((a, l') :: R') = tot ((a, l) :: R) ∧
      (∀ e ∈ R', e.2 ≤ l') ∧
      (∀ M, l ≤ M → (∀ e ∈ R, e.2 ≤ M) → l' ≤ M ∧ ∀ e ∈ R', e.2 ≤ M) := by
  induction R with
  | nil => exact ⟨l, [], rfl, rfl, le_rfl, rfl, by simp, fun M h _ => ⟨h, by simp⟩⟩
  | cons x R ih =>
    obtain ⟨l', R', h1, h2, h3, h4, h5, h6⟩ := ih (fun e he => hmin e (by simp [he]))
    have hx := hmin x (by simp)
    simp only [kr_cons, co_cons, tot_cons] at h2 h3 h4
    rcases Nat.le_total x.2 l' with hle | hle
    · refine ⟨l', x :: R', by simp [h1], ?_, ?_, ?_, ?_, ?_⟩
      · simp only [kr_cons]; linarith
      · simp only [co_cons]; linarith
      · simp only [tot_cons]; omega
      · intro e he
        rcases List.mem_cons.mp he with rfl | he
        · exact hle
        · exact h5 e he
      · intro M hM hR
        obtain ⟨h7, h8⟩ := h6 M hM (fun e he => hR e (by simp [he]))
        refine ⟨h7, ?_⟩
        intro e he
        rcases List.mem_cons.mp he with rfl | he
        · exact hR e (by simp)
        · exact h8 e he
    · refine ⟨x.2, (x.1, l') :: R', by simp [h1], ?_, ?_, ?_, ?_, ?_⟩
      · simp only [kr_cons]; linarith
      · simp only [co_cons]
        have hle' : (l' : ℚ) ≤ (x.2 : ℚ) := by exact_mod_cast hle
        nlinarith
      · simp only [tot_cons]; omega
      · intro e he
        rcases List.mem_cons.mp he with rfl | he
        · exact hle
        · exact (h5 e he).trans hle
      · intro M hM hR
        obtain ⟨h7, h8⟩ := h6 M hM (fun e he => hR e (by simp [he]))
        refine ⟨hR x (by simp), ?_⟩
        intro e he
        rcases List.mem_cons.mp he with rfl | he
        · exact h7
        · exact h8 e he

theorem kr_nat (A : List (X × Nat)) (M : Nat) (h : ∀ e ∈ A, e.2 ≤ M) : ∃ N : Nat, kr A * 2 ^ M = N := by
  induction A with
  | nil => exact ⟨0, by simp [kr]⟩
  | cons e A ih =>
    obtain ⟨N, hN⟩ := ih (fun e he => h e (by simp [he]))
    refine ⟨2 ^ (M - e.2) + N, ?_⟩
    rw [kr_cons, add_mul, hN]
    push_cast
    congr 1
    rw [pow_sub₀ _ (by norm_num) (h e (by simp))]
    field_simp

theorem kr_nonneg (A : List (X × Nat)) : 0 ≤ kr A := by
  induction A with
  | nil => simp [kr]
  | cons e A ih => rw [kr_cons]; positivity

/-- The two lightest symbols can be given the same length without increasing the cost. -/
theorem equalize (a b : X) (R0 : List X) (hab : w a ≤ w b) (hR : ∀ x ∈ R0, w b ≤ w x) (h0 : 0 ≤ w a)
    (n : Nat) : ∀ (la lb : Nat) (R : List (X × Nat)), R.map Prod.fst = R0 →
      tot ((a, la) :: (b, lb) :: R) = n → kr ((a, la) :: (b, lb) :: R) ≤ 1 →
      ∃ m R', 1 ≤ m ∧ R'.map Prod.fst = R0 ∧ kr ((a, m) :: (b, m) :: R') ≤ 1 ∧
        co w ((a, m) :: (b, m) :: R') ≤ co w ((a, la) :: (b, lb) :: R) := by
  induction n using Nat.strong_induction_on with
  | _ n ih =>
    intro la lb R hRm htot hkr
    have hmem : ∀ (R' : List (X × Nat)), R'.map Prod.fst = R0 → ∀ e ∈ R', w b ≤ w e.1 := by
      intro R' h e he; exact hR e.1 (by rw [← h]; exact List.mem_map_of_mem he)
    obtain ⟨l1, B, h1, h2, h3, h4, h5, -⟩ := bubble w a la ((b, lb) :: R) (by
      intro e he
      rcases List.mem_cons.mp he with rfl | he
      · exact hab
      · exact hab.trans (hmem R hRm e he))
    match B, h1 with
    | (b', lb') :: R1, h1 =>
      simp only [List.map_cons, List.cons.injEq] at h1
      obtain ⟨rfl, h1t⟩ := h1
      obtain ⟨l0, R2, g1, g2, g3, g4, g5, g6⟩ := bubble w b' lb' R1 (hmem R1 (h1t.trans hRm))
      have hle0 : l0 ≤ l1 := (g6 l1 (h5 (b', lb') (by simp)) (fun e he => h5 e (by simp [he]))).1
      have hkr' : kr ((a, l1) :: (b', l0) :: R2) = kr ((a, la) :: (b', lb) :: R) := by
        rw [← h2, kr_cons, g2, ← kr_cons]
      have hco' : co w ((a, l1) :: (b', l0) :: R2) ≤ co w ((a, la) :: (b', lb) :: R) := by
        refine le_trans ?_ h3
        rw [co_cons, co_cons w _ ((b', lb') :: R1)]
        linarith
      have htot' : tot ((a, l1) :: (b', l0) :: R2) = n := by
        rw [← htot, ← h4, tot_cons, g4, ← tot_cons]
      have hR2 : R2.map Prod.fst = R0 := g1.trans (h1t.trans hRm)
      rcases Nat.eq_or_lt_of_le hle0 with heq | hlt
      · subst heq
        refine ⟨l0, R2, ?_, hR2, by rw [hkr']; exact hkr, hco'⟩
        by_contra hc
        have hl : l0 = 0 := by omega
        rw [← hkr', hl, kr_cons, kr_cons] at hkr
        have := kr_nonneg R2
        norm_num at hkr
        linarith
      · -- decrease the longest length
        obtain ⟨L, rfl⟩ : ∃ L, l1 = L + 1 := ⟨l1 - 1, by omega⟩
        obtain ⟨N, hN⟩ := kr_nat ((b', l0) :: R2) L (by
          intro e he
          rcases List.mem_cons.mp he with rfl | he
          · simp; omega
          · have := g5 e he; omega)
        have hpos : (0 : ℚ) < 2 ^ L := by positivity
        have hk1 : kr ((a, L) :: (b', l0) :: R2) ≤ 1 := by
          rw [← hkr', kr_cons] at hkr
          have h6 : (1 : ℚ) / 2 + N ≤ 2 ^ L := by
            have := mul_le_mul_of_nonneg_right hkr hpos.le
            rw [add_mul, hN, one_mul] at this
            have h7 : (1 : ℚ) / 2 ^ (L + 1) * 2 ^ L = 1 / 2 := by
              rw [pow_succ]; field_simp
            rw [h7] at this; exact this
          have h8 : N < 2 ^ L := by
            have : (N : ℚ) < ((2 ^ L : Nat) : ℚ) := by push_cast; linarith
            exact_mod_cast this
          have h9 : (1 : ℚ) + N ≤ 2 ^ L := by
            have : ((1 + N : Nat) : ℚ) ≤ ((2 ^ L : Nat) : ℚ) := by exact_mod_cast (by omega : 1 + N ≤ 2 ^ L)
            push_cast at this; exact this
          rw [kr_cons]
          rw [← hN] at h9
          have : (1 / 2 ^ L + kr ((b', l0) :: R2)) * 2 ^ L ≤ 1 * 2 ^ L := by
            rw [add_mul, one_div, inv_mul_cancel₀ hpos.ne', one_mul]; exact h9
          exact le_of_mul_le_mul_right this hpos
        obtain ⟨m, R3, q1, q2, q3, q4⟩ := ih (tot ((a, L) :: (b', l0) :: R2)) (by
          rw [← htot', tot_cons, tot_cons (a, L + 1)]; simp only; omega) L l0 R2 hR2 rfl hk1
        refine ⟨m, R3, q1, q2, q3, q4.trans (le_trans ?_ hco')⟩
        rw [co_cons, co_cons w (a, L + 1)]
        push_cast
        nlinarith

end exchange

/-! ### optimality of the merging process -/

theorem HT.wt_eq (p : Nat → ℚ) (T : HT) : T.wt p = (T.paths.map fun e => p e.1).sum := by
  induction T with
  | leaf i => simp [HT.wt, HT.paths]
  | node i l r ihl ihr => simp [HT.wt, HT.paths, ihl, ihr, Function.comp_def]

def HT.cost (p : Nat → ℚ) (T : HT) : ℚ := (T.paths.map fun e => p e.1 * (e.2.length : ℚ)).sum

theorem HT.cost_node (p : Nat → ℚ) (i : Nat) (l r : HT) :
    (HT.node i l r).cost p = l.cost p + r.cost p + (l.wt p + r.wt p) := by
  have h : ∀ (s : List (Nat × Word)) (b : Nat),
      ((s.map fun e => (e.1, b :: e.2)).map fun e => p e.1 * (e.2.length : ℚ)).sum =
        (s.map fun e => p e.1 * (e.2.length : ℚ)).sum + (s.map fun e => p e.1).sum := by
    intro s b
    induction s with
    | nil => simp
    | cons x s ih =>
      simp only [List.map_cons, List.sum_cons, List.length_cons] at ih ⊢
      rw [ih]; push_cast; ring
  rw [HT.cost, HT.paths, List.map_append, List.sum_append, h, h, ← HT.wt_eq, ← HT.wt_eq]
  simp only [HT.cost]
  ring

theorem lawful_rat : LawfulLt ℚ := ⟨lt_irrefl, fun _ _ _ => lt_trans⟩

theorem HT.wt_nonneg {p : Nat → ℚ} (hp : ∀ i, 0 ≤ p i) (T : HT) : 0 ≤ T.wt p := by
  induction T with
  | leaf i => exact hp i
  | node i l r ihl ihr => exact add_nonneg ihl ihr

theorem co_perm {X : Type} (w : X → ℚ) {A B : List (X × Nat)} (h : A.Perm B) : co w A = co w B :=
  (h.map _).sum_eq
theorem kr_perm {X : Type} {A B : List (X × Nat)} (h : A.Perm B) : kr A = kr B :=
  (h.map _).sum_eq

theorem Merge.optimal {p : Nat → ℚ} (hp : ∀ i, 0 ≤ p i) {F : List HT} {T : HT}
    (h : Merge (selMin p) F T) : ∀ A : List (HT × Nat), (A.map Prod.fst).Perm F → kr A ≤ 1 →
      T.cost p ≤ (F.map fun T => T.cost p).sum + co (fun T => T.wt p) A := by
  induction h with
  | done T =>
    intro A hA _
    have : 0 ≤ co (fun T : HT => T.wt p) A := by
      unfold co
      apply List.sum_nonneg
      intro x hx
      obtain ⟨e, _, rfl⟩ := List.mem_map.mp hx
      exact mul_nonneg (HT.wt_nonneg hp _) (by positivity)
    simp; exact this
  | @step F F2 T1 T0 T i hF hs _ ih =>
    intro A hA hk
    obtain ⟨⟨S1, l1⟩, A1, hA1, hS1, hA1'⟩ := perm_map_cons (hA.trans hF)
    obtain ⟨⟨S0, l0⟩, A2, hA2, hS0, hA2'⟩ := perm_map_cons hA1'
    simp only at hS1 hS0
    subst hS1 hS0
    have hperm := hA1.trans (hA2.cons _)
    obtain ⟨hs1, hs2⟩ := hs lawful_rat
    obtain ⟨m, R', hm, hR', hkr, hco⟩ := equalize (fun T : HT => T.wt p) S1 S0 (A2.map Prod.fst)
      (not_lt.mp hs1) (fun x hx => not_lt.mp (hs2 x (hA2'.subset hx))) (HT.wt_nonneg hp _) _ l1 l0 A2 rfl rfl
      (by rw [← kr_perm hperm]; exact hk)
    obtain ⟨m, rfl⟩ : ∃ m', m = m' + 1 := ⟨m - 1, by omega⟩
    have := ih ((HT.node i S0 S1, m) :: R') (by
      rw [List.map_cons, hR']; exact hA2'.cons _) (by
      rw [kr_cons] at hkr ⊢
      rw [kr_cons] at hkr
      have h2 : (1 : ℚ) / 2 ^ m = 1 / 2 ^ (m + 1) + 1 / 2 ^ (m + 1) := by rw [pow_succ]; field_simp; norm_num
      simp only at hkr ⊢
      rw [h2]; linarith)
    refine this.trans ?_
    rw [co_perm _ hperm]
    rw [((hF.map fun T => T.cost p).sum_eq)]
    simp only [List.map_cons, List.sum_cons, HT.cost_node]
    rw [co_cons, co_cons] at hco
    rw [co_cons]
    simp only [HT.wt] at hco ⊢
    push_cast at hco
    nlinarith

end Komm
