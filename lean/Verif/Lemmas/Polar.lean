import Verif.Model.Polar
import Verif.Lemmas.ReedMuller2

namespace Komm

variable {mu : Nat}

/-! ### the Kronecker power -/

theorem polarKernel_get (i j : Nat) :
    (polarKernel.getD (i % 2) []).getD (j % 2) 0 = if j % 2 = 1 → i % 2 = 1 then 1 else 0 := by
  rcases Nat.mod_two_eq_zero_or_one i with h | h <;> rcases Nat.mod_two_eq_zero_or_one j with h' | h' <;>
    simp [h, h', polarKernel]

open Classical in
/-- Entry `(i, j)` is one exactly when the binary digits of `j` are contained in those of `i`. -/
theorem polarHadamard_eq (mu i j : Nat) (hi : i < 2 ^ mu) (hj : j < 2 ^ mu) :
    polarHadamard mu i j = if ∀ b, j.testBit b = true → i.testBit b = true then 1 else 0 := by
  induction mu generalizing i j with
  | zero =>
    have : j = 0 := by simpa using hj
    subst this
    simp [polarHadamard]
  | succ mu ih =>
    rw [polarHadamard, polarKernel_get, ih _ _ (by rw [pow_succ] at hi; omega) (by rw [pow_succ] at hj; omega)]
    have key : (∀ b, j.testBit b = true → i.testBit b = true) ↔
        (∀ b, (j / 2).testBit b = true → (i / 2).testBit b = true) ∧ (j % 2 = 1 → i % 2 = 1) := by
      constructor
      · intro h
        refine ⟨fun b => ?_, ?_⟩
        · have := h (b + 1)
          rwa [Nat.testBit_add_one, Nat.testBit_add_one] at this
        · have := h 0
          simpa [Nat.testBit_zero] using this
      · rintro ⟨h1, h2⟩ b
        cases b with
        | zero => simpa [Nat.testBit_zero] using h2
        | succ b => rw [Nat.testBit_add_one, Nat.testBit_add_one]; exact h1 b
    by_cases a : ∀ b, (j / 2).testBit b = true → (i / 2).testBit b = true
    · by_cases b : j % 2 = 1 → i % 2 = 1
      · rw [if_pos a, if_pos b, if_pos (key.mpr ⟨a, b⟩), mul_one]
      · rw [if_neg b, mul_zero, if_neg fun h => b (key.mp h).2]
    · rw [if_neg a, zero_mul, if_neg fun h => a (key.mp h).1]

/-- The Kronecker power is its own inverse modulo 2. -/
theorem polarHadamard_sq (mu i j : Nat) (hi : i < 2 ^ mu) (hj : j < 2 ^ mu) :
    ∑ x ∈ Finset.range (2 ^ mu), polarHadamard mu i x * polarHadamard mu x j = if i = j then 1 else 0 := by
  induction mu generalizing i j with
  | zero =>
    have : i = 0 := by simpa using hi
    have : j = 0 := by simpa using hj
    subst_vars
    simp [polarHadamard]
  | succ mu ih =>
    rw [pow_succ] at hi hj
    have ih' := ih (i / 2) (j / 2) (by omega) (by omega)
    rw [pow_succ', sum_range_two_mul]
    have e : ∀ a, polarHadamard (mu + 1) i (2 * a) * polarHadamard (mu + 1) (2 * a) j +
        polarHadamard (mu + 1) i (2 * a + 1) * polarHadamard (mu + 1) (2 * a + 1) j =
        (polarHadamard mu (i / 2) a * polarHadamard mu a (j / 2)) * (if i % 2 = j % 2 then 1 else 0) := by
      intro a
      have h1 : 2 * a % 2 = 0 := by omega
      have h2 : 2 * a / 2 = a := by omega
      have h3 : (2 * a + 1) % 2 = 1 := by omega
      have h4 : (2 * a + 1) / 2 = a := by omega
      simp only [polarHadamard, h1, h2, h3, h4]
      rcases Nat.mod_two_eq_zero_or_one i with h | h <;> rcases Nat.mod_two_eq_zero_or_one j with h' | h' <;>
        simp only [h, h', polarKernel, List.getD_cons_zero, List.getD_cons_succ]
      · simp
      · simp
      · simp only [mul_one]
        rw [CharTwo.add_self_eq_zero]; simp
      · simp
    rw [Finset.sum_congr rfl fun a _ => e a, ← Finset.sum_mul, ih']
    by_cases h : i = j
    · subst h; simp
    · rw [if_neg h]
      by_cases h1 : i / 2 = j / 2
      · rw [if_neg (show ¬ i % 2 = j % 2 by omega), mul_zero]
      · rw [if_neg h1, zero_mul]

/-! ### the butterfly -/

theorem vget_fn {n : Nat} (f : Fin n → ZMod 2) (x : Nat) (hx : x < n) : vget (fun j => f j) x = f ⟨x, hx⟩ := by
  simp [vget, hx]

theorem polarStage_apply (d : Nat) (hd : d < mu) (v : BVec (2 ^ mu)) (j : Fin (2 ^ mu)) :
    polarStage v d j = if (j : Nat).testBit d then v j else v j + vget v (j + 2 ^ d) := by
  set m := 2 ^ d with hm
  have hmpos : 0 < m := by positivity
  have inv : ∀ T, ∀ j : Fin (2 ^ mu),
      (List.range T).foldl (fun v t => polarXor m (t * (2 * m)) v) v j =
        if (j : Nat) / (2 * m) < T ∧ (j : Nat) % (2 * m) < m then v j + vget v (j + m) else v j := by
    intro T
    induction T with
    | zero => intro j; simp
    | succ T ih =>
      intro j
      rw [List.range_succ, List.foldl_append, List.foldl_cons, List.foldl_nil, polarXor]
      have hdm := Nat.div_add_mod (j : Nat) (2 * m)
      have hml := Nat.mod_lt (j : Nat) (show 0 < 2 * m by omega)
      have hiff : (T * (2 * m) ≤ (j : Nat) ∧ (j : Nat) < T * (2 * m) + m) ↔
          (j : Nat) / (2 * m) = T ∧ (j : Nat) % (2 * m) < m := by
        constructor
        · rintro ⟨h1, h2⟩
          have : (j : Nat) / (2 * m) = T := by
            apply Nat.div_eq_of_lt_le
            · exact h1
            · rw [Nat.add_mul]; omega
          refine ⟨this, ?_⟩
          rw [this, Nat.mul_comm] at hdm
          omega
        · rintro ⟨h1, h2⟩
          rw [h1, Nat.mul_comm] at hdm
          omega
      by_cases hj : T * (2 * m) ≤ (j : Nat) ∧ (j : Nat) < T * (2 * m) + m
      · rw [if_pos hj]
        obtain ⟨h1, h2⟩ := hiff.mp hj
        have e1 : (List.range T).foldl (fun v t => polarXor m (t * (2 * m)) v) v j = v j := by
          rw [ih, if_neg (by omega)]
        have e2 : vget ((List.range T).foldl (fun v t => polarXor m (t * (2 * m)) v) v) (j + m) = vget v (j + m) := by
          unfold vget
          split
          · rw [ih, if_neg]
            rintro ⟨-, h⟩
            simp only at h
            rw [← hdm, Nat.add_assoc, Nat.mul_add_mod, Nat.mod_eq_of_lt (by omega)] at h
            omega
          · rfl
        rw [e1, e2, if_pos ⟨by omega, h2⟩]
      · rw [if_neg hj, ih]
        rw [hiff] at hj
        apply if_congr _ rfl rfl
        constructor
        · rintro ⟨a, b⟩; exact ⟨by omega, b⟩
        · rintro ⟨a, b⟩
          refine ⟨?_, b⟩
          by_contra hc
          exact hj ⟨by omega, b⟩
  rw [polarStage, ← hm, inv]
  have h2m : 2 * m = 2 ^ (d + 1) := by rw [pow_succ']
  have hlt : (j : Nat) / (2 * m) < 2 ^ mu / (2 * m) := by
    apply Nat.div_lt_div_of_lt_of_dvd _ j.2
    rw [h2m]
    exact Nat.pow_dvd_pow 2 (by omega)
  have hbit : (j : Nat) % (2 * m) < m ↔ ¬ (j : Nat).testBit d = true := by
    rw [Nat.testBit_eq_decide_div_mod_eq, decide_eq_true_eq, h2m, pow_succ, Nat.mod_mul, ← hm]
    have := Nat.mod_lt (j : Nat) hmpos
    rcases Nat.mod_two_eq_zero_or_one ((j : Nat) / m) with h | h <;> rw [h] <;> omega
  by_cases h : (j : Nat).testBit d = true
  · rw [if_pos h, if_neg fun hc => hbit.mp hc.2 h]
  · rw [if_neg h, if_pos ⟨hlt, hbit.mpr h⟩]

/-- `x` contributes to position `j` after the stages `0, …, d - 1`. -/
def Reach (d j x : Nat) : Prop := ∀ b, (d ≤ b → x.testBit b = j.testBit b) ∧ (b < d → j.testBit b = true → x.testBit b = true)

theorem reach_full (mu j x : Nat) (hj : j < 2 ^ mu) (hx : x < 2 ^ mu) :
    Reach mu j x ↔ ∀ b, j.testBit b = true → x.testBit b = true := by
  constructor
  · intro h b hb
    by_cases hb' : b < mu
    · exact (h b).2 hb' hb
    · rw [(h b).1 (by omega)]; exact hb
  · intro h b
    refine ⟨fun hb => ?_, fun _ => h b⟩
    rw [Nat.testBit_lt_two_pow (lt_of_lt_of_le hx (Nat.pow_le_pow_right (by omega) hb)),
      Nat.testBit_lt_two_pow (lt_of_lt_of_le hj (Nat.pow_le_pow_right (by omega) hb))]

open Classical in
theorem polarTransform_partial (v : BVec (2 ^ mu)) : ∀ d ≤ mu, ∀ j : Fin (2 ^ mu),
    (List.range d).foldl polarStage v j = ∑ x : Fin (2 ^ mu), if Reach d j x then v x else 0 := by
  intro d
  induction d with
  | zero =>
    intro _ j
    have : ∀ x : Fin (2 ^ mu), Reach 0 j x ↔ x = j := by
      intro x
      constructor
      · intro h; exact Fin.ext (Nat.eq_of_testBit_eq fun b => (h b).1 (by omega))
      · rintro rfl b; exact ⟨fun _ => rfl, fun h => absurd h (by omega)⟩
    simp [this]
  | succ d ih =>
    intro hd j
    rw [List.range_succ, List.foldl_append, List.foldl_cons, List.foldl_nil, polarStage_apply d (by omega)]
    by_cases h : (j : Nat).testBit d = true
    · rw [if_pos h, ih (by omega)]
      apply Finset.sum_congr rfl
      intro x _
      apply if_congr _ rfl rfl
      constructor
      · intro hr b
        refine ⟨fun hb => (hr b).1 (by omega), fun hb hj => ?_⟩
        by_cases e : b = d
        · subst e; rw [(hr b).1 le_rfl]; exact h
        · exact (hr b).2 (by omega) hj
      · intro hr b
        refine ⟨fun hb => ?_, fun hb hj => (hr b).2 (by omega) hj⟩
        by_cases e : b = d
        · subst e; rw [h]; exact (hr b).2 (by omega) h
        · exact (hr b).1 (by omega)
    · have hf : (j : Nat).testBit d = false := by simpa using h
      have hlt : (j : Nat) + 2 ^ d < 2 ^ mu := by
        apply Nat.lt_pow_two_of_testBit
        intro b hb
        rw [testBit_add_two_pow _ _ _ hf, Nat.testBit_lt_two_pow
          (lt_of_lt_of_le j.2 (Nat.pow_le_pow_right (by omega) hb))]
        simp; omega
      rw [if_neg h, vget, dif_pos hlt, ih (by omega), ih (by omega), ← Finset.sum_add_distrib]
      apply Finset.sum_congr rfl
      intro x _
      have hne : ∀ b, b ≠ d → ((j : Nat) + 2 ^ d).testBit b = (j : Nat).testBit b := by
        intro b hb
        rw [testBit_add_two_pow _ _ _ hf]
        simp; intro e; exact absurd e.symm hb
      have hself : ((j : Nat) + 2 ^ d).testBit d = true := by rw [testBit_add_two_pow _ _ _ hf]; simp
      have key : Reach (d + 1) j x ↔
          (∀ b, b ≠ d → (d ≤ b → (x : Nat).testBit b = (j : Nat).testBit b) ∧
            (b < d → (j : Nat).testBit b = true → (x : Nat).testBit b = true)) := by
        constructor
        · intro hr b hb
          exact ⟨fun h' => (hr b).1 (by omega), fun h' => (hr b).2 (by omega)⟩
        · intro hr b
          by_cases e : b = d
          · subst e
            exact ⟨fun h' => absurd h' (by omega), fun _ hj => absurd hj h⟩
          · exact ⟨fun h' => (hr b e).1 (by omega), fun h' => (hr b e).2 (by omega)⟩
      have k1 : Reach d j x ↔ Reach (d + 1) j x ∧ (x : Nat).testBit d = false := by
        rw [key]
        constructor
        · intro hr
          exact ⟨fun b _ => hr b, by rw [(hr d).1 le_rfl, hf]⟩
        · rintro ⟨hr, hx⟩ b
          by_cases e : b = d
          · subst e; exact ⟨fun _ => by rw [hx, hf], fun h' => absurd h' (by omega)⟩
          · exact hr b e
      have k2 : Reach d (j + 2 ^ d) x ↔ Reach (d + 1) j x ∧ (x : Nat).testBit d = true := by
        rw [key]
        constructor
        · intro hr
          refine ⟨fun b hb => ?_, by rw [(hr d).1 le_rfl, hself]⟩
          have := hr b
          rwa [hne b hb] at this
        · rintro ⟨hr, hx⟩ b
          by_cases e : b = d
          · subst e; exact ⟨fun _ => by rw [hx, hself], fun h' => absurd h' (by omega)⟩
          · have := hr b e
            rwa [← hne b e] at this
      simp only
      cases hx : (x : Nat).testBit d
      · rw [hx] at k1 k2
        simp only [and_true, Bool.false_eq_true, and_false] at k1 k2
        rw [if_neg k2.mp, add_zero]
        exact if_congr k1 rfl rfl
      · rw [hx] at k1 k2
        simp only [and_true, Bool.true_eq_false, and_false] at k1 k2
        rw [if_neg k1.mp, zero_add]
        exact if_congr k2 rfl rfl

/-- The butterfly is multiplication by the Kronecker power. -/
theorem polarTransform_eq (v : BVec (2 ^ mu)) (j : Fin (2 ^ mu)) :
    polarTransform mu v j = ∑ x, v x * polarHadamard mu x j := by
  classical
  rw [polarTransform, polarTransform_partial v mu le_rfl]
  apply Finset.sum_congr rfl
  intro x _
  rw [polarHadamard_eq mu x j x.2 j.2]
  by_cases h : ∀ b, (j : Nat).testBit b = true → (x : Nat).testBit b = true
  · rw [if_pos ((reach_full mu j x j.2 x.2).mpr h), if_pos h, mul_one]
  · rw [if_neg fun h' => h ((reach_full mu j x j.2 x.2).mp h'), if_neg h, mul_zero]

theorem polarTransform_invol (v : BVec (2 ^ mu)) : polarTransform mu (polarTransform mu v) = v := by
  funext j
  simp only [polarTransform_eq, Finset.sum_mul]
  rw [Finset.sum_comm]
  have : ∀ y : Fin (2 ^ mu), ∑ x : Fin (2 ^ mu), v y * polarHadamard mu y x * polarHadamard mu x j =
      if y = j then v y else 0 := by
    intro y
    have h := polarHadamard_sq mu y j y.2 j.2
    rw [Finset.sum_range] at h
    simp only [mul_assoc]
    rw [← Finset.mul_sum, h]
    simp [Fin.ext_iff]
  simp [this]

/-! ### scattering -/

theorem polarActive_nodup (frozen : List Nat) : (polarActive mu frozen).Nodup := List.nodup_range.filter _

theorem scatter_foldl {n : Nat} (A : List Nat) (hA : A.Nodup) (u : Fin A.length → ZMod 2) (L : List (Fin A.length))
    (v : BVec n) (j : Fin n) :
    L.foldl (fun (v : BVec n) i => fun j => if (j : Nat) = A[i] then u i else v j) v j =
      if h : ∃ i ∈ L, A[i] = (j : Nat) then u h.choose else v j := by
  induction L generalizing v with
  | nil => simp
  | cons a L ih =>
    rw [List.foldl_cons, ih]
    have inj : ∀ i i' : Fin A.length, A[i] = A[i'] → i = i' := by
      intro i i' e
      exact Fin.ext ((List.Nodup.getElem_inj_iff hA).mp e)
    by_cases h : ∃ i ∈ L, A[i] = (j : Nat)
    · have h' : ∃ i ∈ a :: L, A[i] = (j : Nat) := by
        obtain ⟨i, hi, e⟩ := h; exact ⟨i, by simp [hi], e⟩
      rw [dif_pos h, dif_pos h']
      congr 1
      exact inj _ _ (h.choose_spec.2.trans h'.choose_spec.2.symm)
    · rw [dif_neg h]
      by_cases ha : (j : Nat) = A[a]
      · have h' : ∃ i ∈ a :: L, A[i] = (j : Nat) := ⟨a, by simp, ha.symm⟩
        rw [if_pos ha, dif_pos h']
        congr 1
        exact inj _ _ (ha.symm.trans h'.choose_spec.2.symm)
      · rw [if_neg ha, dif_neg]
        rintro ⟨i, hi, e⟩
        rcases List.mem_cons.mp hi with rfl | hi
        · exact ha e.symm
        · exact h ⟨i, hi, e⟩

variable {frozen : List Nat}

theorem polarActive_lt (i : Fin (polarActive mu frozen).length) : (polarActive mu frozen)[i] < 2 ^ mu := by
  have : (polarActive mu frozen)[i] ∈ polarActive mu frozen := List.getElem_mem _
  simp only [polarActive, List.mem_filter, List.mem_range] at this
  exact this.1

theorem polarScatter_active (u : BVec (polarActive mu frozen).length) (i : Fin (polarActive mu frozen).length) :
    polarScatter mu frozen u ⟨(polarActive mu frozen)[i], polarActive_lt i⟩ = u i := by
  rw [polarScatter, scatter_foldl _ (polarActive_nodup frozen)]
  have h : ∃ i' ∈ List.finRange (polarActive mu frozen).length,
      (polarActive mu frozen)[i'] = (polarActive mu frozen)[i] := ⟨i, by simp, rfl⟩
  rw [dif_pos h]
  congr 1
  exact Fin.ext ((List.Nodup.getElem_inj_iff (polarActive_nodup frozen)).mp h.choose_spec.2)

theorem polarScatter_frozen (u : BVec (polarActive mu frozen).length) (j : Fin (2 ^ mu)) (hj : (j : Nat) ∈ frozen) :
    polarScatter mu frozen u j = 0 := by
  rw [polarScatter, scatter_foldl _ (polarActive_nodup frozen), dif_neg]
  · rfl
  · rintro ⟨i, _, e⟩
    have : (polarActive mu frozen)[i] ∈ polarActive mu frozen := List.getElem_mem _
    rw [e] at this
    simp only [polarActive, List.mem_filter, decide_eq_true_eq] at this
    exact this.2 hj

/-- The butterfly applied to the scattered message is the product with the selected rows. -/
theorem polar_encode_eq (u : BVec (polarActive mu frozen).length) (j : Fin (2 ^ mu)) :
    polarTransform mu (polarScatter mu frozen u) j = ∑ i, u i * polarGenerator mu frozen i j := by
  rw [polarTransform_eq]
  symm
  apply Finset.sum_of_injOn (fun i => (⟨(polarActive mu frozen)[i], polarActive_lt i⟩ : Fin (2 ^ mu)))
  · intro a _ b _ e
    simp only [Fin.mk.injEq] at e
    exact Fin.ext ((List.Nodup.getElem_inj_iff (polarActive_nodup frozen)).mp e)
  · intro _ _; simp
  · intro x _ hx
    rw [polarScatter_frozen, zero_mul]
    by_contra hc
    apply hx
    have hm : (x : Nat) ∈ polarActive mu frozen := by
      simp only [polarActive, List.mem_filter, List.mem_range, decide_eq_true_eq]
      exact ⟨x.2, hc⟩
    obtain ⟨i, hi, e⟩ := List.getElem_of_mem hm
    exact ⟨⟨i, hi⟩, by simp, Fin.ext e⟩
  · intro i _
    rw [polarScatter_active]
    rfl

theorem polar_independent : LinearIndependent (ZMod 2) (polarGenerator mu frozen) := by
  rw [Fintype.linearIndependent_iff]
  intro g hg i
  have h0 : polarTransform mu (polarScatter mu frozen g) = 0 := by
    funext j
    rw [polar_encode_eq]
    have := congrFun hg j
    simpa [Finset.sum_apply] using this
  have h1 : polarScatter mu frozen g = 0 := by
    rw [← polarTransform_invol (polarScatter mu frozen g), h0]
    funext j
    rw [polarTransform_eq]
    simp
  rw [← polarScatter_active g i, h1]
  rfl

end Komm
