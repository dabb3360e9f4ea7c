import Verif.Model.Matrices
import Verif.Spec.Matrices
import Mathlib.LinearAlgebra.Matrix.NonsingularInverse
import Mathlib.LinearAlgebra.Matrix.Rank
import Mathlib.LinearAlgebra.Matrix.Permutation
import Mathlib.Algebra.CharP.Two

namespace Komm

variable {k n : Nat}

/-! ### rowPivot -/

theorem rowPivot_le (row : BVec n) : rowPivot row ≤ n := by
  unfold rowPivot; split
  · exact Nat.le_of_lt (Fin.is_lt _)
  · exact le_rfl

theorem rowPivot_spec (row : BVec n) :
    (∀ j : Fin n, (j : Nat) < rowPivot row → row j = 0) ∧
    (∀ h : rowPivot row < n, row ⟨rowPivot row, h⟩ ≠ 0) := by
  unfold rowPivot
  split
  · rename_i j hj
    have hj1 := List.find?_some hj
    refine ⟨fun i hi => ?_, fun _ => by simpa using hj1⟩
    rw [List.find?_eq_some_iff_append] at hj
    obtain ⟨_, as, bs, he, hno⟩ := hj
    have hmem : i ∈ as := by
      have hs : (as ++ j :: bs).Pairwise (· < ·) := he ▸ List.pairwise_lt_finRange n
      have hi' : i ∈ as ++ j :: bs := he ▸ List.mem_finRange i
      rcases List.mem_append.mp hi' with h | h
      · exact h
      · exfalso
        rcases List.mem_cons.mp h with h | h
        · subst h; exact lt_irrefl _ hi
        · have := (List.pairwise_cons.mp (List.pairwise_append.mp hs).2.1).1 i h
          exact absurd hi (by simpa using le_of_lt this)
    simpa using hno i hmem
  · rename_i h
    rw [List.find?_eq_none] at h
    refine ⟨fun j _ => ?_, fun h' => absurd h' (lt_irrefl _)⟩
    simpa using h j (List.mem_finRange j)

theorem rowPivot_eq (row : BVec n) (p : Nat) (hp : p ≤ n) (h0 : ∀ j : Fin n, (j : Nat) < p → row j = 0)
    (h1 : ∀ h : p < n, row ⟨p, h⟩ ≠ 0) : rowPivot row = p := by
  obtain ⟨a, b⟩ := rowPivot_spec row
  have := rowPivot_le row
  rcases Nat.lt_trichotomy (rowPivot row) p with h | h | h
  · exact absurd (h0 ⟨rowPivot row, by omega⟩ h) (b (by omega))
  · exact h
  · exact absurd (a ⟨p, by omega⟩ h) (h1 (by omega))

theorem le_rowPivot (row : BVec n) (p : Nat) (hp : p ≤ n) (h0 : ∀ j : Fin n, (j : Nat) < p → row j = 0) :
    p ≤ rowPivot row := by
  by_contra h
  exact (rowPivot_spec row).2 (by omega) (h0 ⟨_, by omega⟩ (by simpa using h))

theorem leading_iff (R : BMat k n) (i : Fin k) (j : Fin n) : Leading R i j ↔ rowPivot (R i) = j := by
  constructor
  · rintro ⟨h1, h2⟩
    exact rowPivot_eq _ _ (le_of_lt j.is_lt) (fun j' hj' => h2 j' hj') (fun _ => h1)
  · intro h
    obtain ⟨a, b⟩ := rowPivot_spec (R i)
    refine ⟨?_, fun j' hj' => a j' (by rw [h]; exact hj')⟩
    have := b (by rw [h]; exact j.is_lt)
    simpa [h] using this

/-! ### argmin -/

theorem argminFrom_spec {α : Type} (f : α → Nat) (x0 : α) (xs : List α) :
    argminFrom f x0 xs ∈ x0 :: xs ∧ ∀ y ∈ x0 :: xs, f (argminFrom f x0 xs) ≤ f y := by
  unfold argminFrom
  induction xs generalizing x0 with
  | nil => simp
  | cons x xs ih =>
    rw [List.foldl_cons]
    obtain ⟨h1, h2⟩ := ih (if f x < f x0 then x else x0)
    split at h1 <;> rename_i hx
    · simp only [hx, if_true] at h2 ⊢
      refine ⟨List.mem_cons_of_mem _ h1, fun y hy => ?_⟩
      rcases List.mem_cons.mp hy with rfl | hy
      · have := h2 x (by simp); omega
      · exact h2 y hy
    · simp only [hx, if_false] at h2 ⊢
      refine ⟨?_, fun y hy => ?_⟩
      · rcases List.mem_cons.mp h1 with h | h
        · rw [h]; simp
        · simp [h]
      · rcases List.mem_cons.mp hy with rfl | hy
        · exact h2 _ (by simp)
        · rcases List.mem_cons.mp hy with rfl | hy
          · have := h2 x0 (by simp); omega
          · exact h2 y (by simp [hy])

/-! ### the invariant -/

/-- Rows before `r` are in their final shape. -/
def RInv (r : Nat) (M : BMat k n) : Prop :=
  (∀ i j : Fin k, (i : Nat) < r → i < j → rowPivot (M j) = n ∨ rowPivot (M i) < rowPivot (M j)) ∧
  (∀ (i : Fin k) (h : rowPivot (M i) < n), (i : Nat) < r → ∀ j ≠ i, M j ⟨rowPivot (M i), h⟩ = 0)

theorem rrefStep_inv (M : BMat k n) (r : Fin k) (h : RInv r M) : RInv (r + 1) (rrefStep M r) := by
  obtain ⟨hp, hc⟩ := h
  unfold rrefStep
  set p := argminFrom (fun i => rowPivot (M i)) r ((List.finRange k).filter fun i => r < i) with hpdef
  obtain ⟨hpm, hpmin⟩ := argminFrom_spec (fun i => rowPivot (M i)) r
    ((List.finRange k).filter fun i => r < i)
  rw [← hpdef] at hpm hpmin
  have hrp : r ≤ p := by
    rcases List.mem_cons.mp hpm with h | h
    · exact h ▸ le_rfl
    · simp at h; exact le_of_lt h
  have hmin : ∀ j, r ≤ j → rowPivot (M p) ≤ rowPivot (M j) := by
    intro j hj
    apply hpmin
    rcases eq_or_lt_of_le hj with h | h
    · subst h; simp
    · simp [h]
  have hM1 : ∀ i, swapRows M r p i = if i = r then M p else if i = p then M r else M i := fun i => rfl
  generalize swapRows M r p = M1 at hM1 ⊢
  have hM1lt : ∀ i, i < r → M1 i = M i := by
    intro i hi
    have h1 : i ≠ r := ne_of_lt hi
    have h2 : i ≠ p := ne_of_lt (lt_of_lt_of_le hi hrp)
    simp [hM1, h1, h2]
  have hM1ge : ∀ i, r ≤ i → ∃ i', r ≤ i' ∧ M1 i = M i' := by
    intro i hi
    simp only [hM1]
    split
    · exact ⟨p, hrp, rfl⟩
    · split
      · exact ⟨r, le_rfl, rfl⟩
      · exact ⟨i, hi, rfl⟩
  have hM1r : M1 r = M p := by simp [hM1]
  -- the invariant for rows before r survives the swap
  have hp1 : ∀ i j : Fin k, i < r → i < j →
      rowPivot (M1 j) = n ∨ rowPivot (M1 i) < rowPivot (M1 j) := by
    intro i j hi hj
    rw [hM1lt i hi]
    rcases lt_or_ge j r with h | h
    · rw [hM1lt j h]; exact hp i j hi hj
    · obtain ⟨j', hj', e⟩ := hM1ge j h
      rw [e]; exact hp i j' hi (lt_of_lt_of_le hi hj')
  have hc1 : ∀ (i : Fin k) (h : rowPivot (M1 i) < n), i < r → ∀ j ≠ i, M1 j ⟨rowPivot (M1 i), h⟩ = 0 := by
    intro i h hi j hj
    have e : M1 i = M i := hM1lt i hi
    have h' : rowPivot (M i) < n := by rw [← e]; exact h
    have e' : (⟨rowPivot (M1 i), h⟩ : Fin n) = ⟨rowPivot (M i), h'⟩ := by
      apply Fin.ext; exact congrArg rowPivot e
    rw [e']
    rcases lt_or_ge j r with hjr | hjr
    · rw [hM1lt j hjr]; exact hc i h' hi j hj
    · obtain ⟨j', hj', ej⟩ := hM1ge j hjr
      rw [ej]; exact hc i h' hi j' (ne_of_gt (lt_of_lt_of_le hi hj'))
  have hmin1 : ∀ j, r ≤ j → rowPivot (M1 r) ≤ rowPivot (M1 j) := by
    intro j hj
    rw [hM1r]
    obtain ⟨j', hj', ej⟩ := hM1ge j hj
    rw [ej]; exact hmin j' hj'
  unfold eliminateRow
  split
  · rename_i hf
    set f : Fin n := ⟨rowPivot (M1 r), hf⟩ with hfdef
    set M2 : BMat k n := fun i => if i ≠ r ∧ M1 i f ≠ 0 then M1 i + M1 r else M1 i with hM2
    have hM2r : M2 r = M1 r := by simp [hM2]
    have hrf : M1 r f = 1 := by
      have h1 := (rowPivot_spec (M1 r)).2 hf
      have h2 : ∀ x : ZMod 2, x ≠ 0 → x = 1 := by decide
      exact h2 _ h1
    have hrlt : ∀ c : Fin n, c < f → M1 r c = 0 := fun c hc => (rowPivot_spec (M1 r)).1 c hc
    have hM2f : ∀ i, i ≠ r → M2 i f = 0 := by
      intro i hi
      simp only [hM2]
      split
      · rename_i h
        have h2 : ∀ x : ZMod 2, x ≠ 0 → x + 1 = 0 := by decide
        rw [Pi.add_apply, hrf]; exact h2 _ h.2
      · rename_i h
        by_contra hcon; exact h ⟨hi, hcon⟩
    -- entries to the left of f are unchanged
    have hM2lt : ∀ i (c : Fin n), c < f → M2 i c = M1 i c := by
      intro i c hc
      simp only [hM2]
      split
      · rw [Pi.add_apply, hrlt c hc, add_zero]
      · rfl
    -- rows before r have pivots before f, unchanged
    have hbefore : ∀ i, i < r → rowPivot (M1 i) < f ∧ rowPivot (M2 i) = rowPivot (M1 i) := by
      intro i hi
      have h1 : rowPivot (M1 i) < f := by
        rcases hp1 i r hi hi with h | h
        · exfalso; omega
        · exact h
      refine ⟨h1, rowPivot_eq _ _ (rowPivot_le _) ?_ ?_⟩
      · intro j hj
        rw [hM2lt i j (Fin.lt_def.mpr (lt_trans hj h1))]
        exact (rowPivot_spec (M1 i)).1 j hj
      · intro h
        rw [hM2lt i _ h1]
        exact (rowPivot_spec (M1 i)).2 h
    have hafter : ∀ j, r < j → (f : Nat) < rowPivot (M2 j) := by
      intro j hj
      apply le_rowPivot _ _ f.is_lt
      intro c hc
      rcases Nat.lt_succ_iff_lt_or_eq.mp hc with h | h
      · rw [hM2lt j c h]
        exact (rowPivot_spec (M1 j)).1 c (lt_of_lt_of_le h (hmin1 j (le_of_lt hj)))
      · have : c = f := Fin.ext h
        rw [this]; exact hM2f j (ne_of_gt hj)
    have hpr : rowPivot (M2 r) = f := by rw [hM2r]
    refine ⟨?_, ?_⟩
    · intro i j hi hj
      rcases Nat.lt_succ_iff_lt_or_eq.mp hi with hi | hi
      · have hi : i < r := hi
        rw [(hbefore i hi).2]
        rcases lt_trichotomy j r with h | h | h
        · rw [(hbefore j h).2]; exact hp1 i j hi hj
        · subst h; right; rw [hpr]; exact (hbefore i hi).1
        · right; exact lt_trans (hbefore i hi).1 (hafter j h)
      · have : i = r := Fin.ext hi
        subst this
        right; rw [hpr]; exact hafter j hj
    · intro i h hi j hj
      rcases Nat.lt_succ_iff_lt_or_eq.mp hi with hi | hi
      · have hi : i < r := hi
        have e := (hbefore i hi).2
        have h' : rowPivot (M1 i) < n := e ▸ h
        have e' : (⟨rowPivot (M2 i), h⟩ : Fin n) = ⟨rowPivot (M1 i), h'⟩ := Fin.ext e
        rw [e', hM2lt j _ (hbefore i hi).1]
        exact hc1 i h' hi j hj
      · have : i = r := Fin.ext hi
        subst this
        have e' : (⟨rowPivot (M2 i), h⟩ : Fin n) = f := Fin.ext hpr
        rw [e']; exact hM2f j hj
  · rename_i hf
    have hr : rowPivot (M1 r) = n := le_antisymm (rowPivot_le _) (not_lt.mp hf)
    refine ⟨?_, ?_⟩
    · intro i j hi hj
      rcases Nat.lt_succ_iff_lt_or_eq.mp hi with hi | hi
      · exact hp1 i j hi hj
      · have : i = r := Fin.ext hi
        subst this
        left
        exact le_antisymm (rowPivot_le _) (by have := hmin1 j (le_of_lt hj); omega)
    · intro i h hi j hj
      rcases Nat.lt_succ_iff_lt_or_eq.mp hi with hi | hi
      · exact hc1 i h hi j hj
      · have : i = r := Fin.ext hi
        subst this
        exact absurd h (by omega)

theorem foldl_finRange_inv {α : Type} (P : Nat → α → Prop) (f : α → Fin k → α) (a : α) (h0 : P 0 a)
    (hs : ∀ (r : Fin k) (x : α), P r x → P (r + 1) (f x r)) : P k ((List.finRange k).foldl f a) := by
  have : ∀ m ≤ k, P m (((List.finRange k).take m).foldl f a) := by
    intro m
    induction m with
    | zero => intro _; simpa using h0
    | succ m ih =>
      intro hm
      have hlt : m < (List.finRange k).length := by simpa using hm
      rw [List.take_succ_eq_append_getElem hlt, List.foldl_append]
      have := hs ⟨m, hm⟩ _ (ih (by omega))
      simpa using this
  have := this k le_rfl
  rwa [List.take_of_length_le (by simp)] at this

theorem rref_inv (M : BMat k n) : RInv k (rref M) :=
  foldl_finRange_inv (fun r M => RInv r M) rrefStep M
    ⟨fun _ _ h => absurd h (Nat.not_lt_zero _), fun _ _ h => absurd h (Nat.not_lt_zero _)⟩
    (fun r x h => rrefStep_inv x r h)

theorem rref_isRREF (M : BMat k n) : IsRREF (rref M) := by
  obtain ⟨h1, h2⟩ := rref_inv M
  refine ⟨?_, ?_⟩
  · intro i i' j' hii hl
    rw [leading_iff] at hl
    have := h1 i i' i.is_lt hii
    have hj := j'.is_lt
    refine ⟨⟨rowPivot (rref M i), by omega⟩, ?_, ?_⟩
    · rw [Fin.lt_def]; simp only; omega
    · rw [leading_iff]
  · intro i j hl i' hi'
    rw [leading_iff] at hl
    have hlt : rowPivot (rref M i) < n := by rw [hl]; exact j.is_lt
    have := h2 i hlt i.is_lt i' hi'
    have e : (⟨rowPivot (rref M i), hlt⟩ : Fin n) = j := Fin.ext hl
    rwa [e] at this

/-! ### bridge to `Matrix` -/

theorem of_matMul {k m n : Nat} (A : BMat k m) (B : BMat m n) :
    Matrix.of (matMul A B) = Matrix.of A * Matrix.of B := by
  ext i j; simp [matMul, Matrix.mul_apply]

theorem of_eye (k : Nat) : Matrix.of (eye k) = 1 := by
  ext i j; simp [eye, Matrix.one_apply]

theorem vecMat_eq {k n : Nat} (u : BVec k) (A : BMat k n) : vecMat u A = Matrix.vecMul u (Matrix.of A) := by
  ext j; simp [vecMat, Matrix.vecMul, dotProduct]

theorem of_inj {k n : Nat} {A B : BMat k n} (h : Matrix.of A = Matrix.of B) : A = B := Matrix.of.injective h

/-! ### row equivalence -/

/-- `B = Q A` for an invertible `Q`. -/
def RowEquiv (A B : BMat k n) : Prop :=
  ∃ Q : Matrix (Fin k) (Fin k) (ZMod 2), IsUnit Q ∧ Matrix.of B = Q * Matrix.of A

theorem RowEquiv.refl (A : BMat k n) : RowEquiv A A := ⟨1, isUnit_one, (Matrix.one_mul _).symm⟩

theorem RowEquiv.trans {A B C : BMat k n} (h1 : RowEquiv A B) (h2 : RowEquiv B C) : RowEquiv A C := by
  obtain ⟨P, hP, e1⟩ := h1
  obtain ⟨Q, hQ, e2⟩ := h2
  exact ⟨Q * P, hQ.mul hP, by rw [e2, e1, Matrix.mul_assoc]⟩

theorem rowEquiv_swap (M : BMat k n) (r p : Fin k) :
    RowEquiv M (swapRows M r p) := by
  refine ⟨(Equiv.swap r p).permMatrix (ZMod 2), ?_, ?_⟩
  · rw [Matrix.isUnit_iff_isUnit_det, Matrix.det_permutation]
    exact (Equiv.Perm.sign (Equiv.swap r p)).isUnit.map (Int.castRingHom (ZMod 2))
  · rw [Equiv.Perm.permMatrix, PEquiv.toMatrix_toPEquiv_mul]
    ext i j
    simp only [Matrix.submatrix_apply, id, swapRows, Matrix.of_apply]
    by_cases h1 : i = r
    · subst h1; simp
    · by_cases h2 : i = p
      · subst h2; simp [h1]
      · simp [h1, h2, Equiv.swap_apply_of_ne_of_ne h1 h2]

theorem rowEquiv_eliminate (M : BMat k n) (r : Fin k) (c : Fin k → Prop) [DecidablePred c] :
    RowEquiv M (fun i => if i ≠ r ∧ c i then M i + M r else M i) := by
  set Q : BMat k k := fun i j => (if i = j then 1 else 0) + (if i ≠ r ∧ c i ∧ j = r then 1 else 0) with hQ
  have hmul : ∀ {m : Nat} (A : BMat k m), matMul Q A = fun i => if i ≠ r ∧ c i then A i + A r else A i := by
    intro m A
    ext i j
    simp only [matMul, hQ, add_mul, Finset.sum_add_distrib, ite_mul, one_mul, zero_mul, Finset.sum_ite_eq,
      Finset.mem_univ, if_true]
    by_cases h : i ≠ r ∧ c i
    · simp [h]
    · have : ∀ x, ¬ (i ≠ r ∧ c i ∧ x = r) := by tauto
      simp only [this, if_false, Finset.sum_const_zero, add_zero, h]
  have hQQ : matMul Q Q = eye k := by
    rw [hmul Q]
    ext i j
    simp only [hQ, eye]
    by_cases h : i ≠ r ∧ c i
    · have h1 := h.1
      have h2 := h.2
      simp only [h1, h2, ne_eq, not_false_iff, true_and, and_self, if_true, Pi.add_apply, not_true_eq_false,
        false_and, if_false, add_zero]
      by_cases hj : j = r
      · subst hj
        simp [h1]
        exact CharTwo.add_self_eq_zero _
      · have : r ≠ j := Ne.symm hj
        simp [hj, this]
    · have : ¬ (i ≠ r ∧ c i ∧ j = r) := by tauto
      simp only [h, if_false, this, add_zero]
  refine ⟨Matrix.of Q, IsUnit.of_mul_eq_one (Matrix.of Q) ?_, ?_⟩
  · rw [← of_matMul, hQQ, of_eye]
  · rw [← of_matMul, hmul M]

theorem rrefStep_rowEquiv (M : BMat k n) (r : Fin k) : RowEquiv M (rrefStep M r) := by
  have key : ∀ A : BMat k n, RowEquiv A (eliminateRow A r) := by
    intro A
    unfold eliminateRow
    split
    · exact rowEquiv_eliminate A r _
    · exact RowEquiv.refl _
  exact (rowEquiv_swap M r _).trans (key _)

theorem rref_rowEquiv (M : BMat k n) : RowEquiv M (rref M) := by
  unfold rref
  generalize List.finRange k = l
  induction l generalizing M with
  | nil => exact RowEquiv.refl M
  | cons r l ih => exact (rrefStep_rowEquiv M r).trans (ih _)

theorem rowEquiv_span {A B : BMat k n} (h : RowEquiv A B) :
    Submodule.span (ZMod 2) (Set.range B) = Submodule.span (ZMod 2) (Set.range A) := by
  have key : ∀ (P : Matrix (Fin k) (Fin k) (ZMod 2)) (A B : BMat k n), Matrix.of B = P * Matrix.of A →
      Submodule.span (ZMod 2) (Set.range B) ≤ Submodule.span (ZMod 2) (Set.range A) := by
    intro P A B h
    rw [Submodule.span_le]
    rintro _ ⟨i, rfl⟩
    have : B i = ∑ t, P i t • A t := by
      ext j
      have := congrFun (congrFun h i) j
      simpa [Matrix.mul_apply] using this
    rw [this]
    exact Submodule.sum_mem _ fun t _ => Submodule.smul_mem _ _ (Submodule.subset_span ⟨t, rfl⟩)
  obtain ⟨Q, hQ, h⟩ := h
  apply le_antisymm (key Q A B h)
  obtain ⟨u, rfl⟩ := hQ
  apply key (↑u⁻¹ : Matrix (Fin k) (Fin k) (ZMod 2)) B A
  rw [h, ← Matrix.mul_assoc, Units.inv_mul, Matrix.one_mul]

end Komm
