import Verif.Lemmas.Matrices
import Mathlib.LinearAlgebra.Dimension.Constructions
import Mathlib.Algebra.BigOperators.Fin

namespace Komm

variable {k n : Nat}

theorem zmod2_cases (x : ZMod 2) : x = 0 ∨ x = 1 := by revert x; decide

theorem zmod2_ne_zero {x : ZMod 2} (h : x ≠ 0) : x = 1 := (zmod2_cases x).resolve_left h

/-! ### uniqueness of the reduced row echelon form -/

theorem IsRREF.coeff {A : BMat k n} (hA : IsRREF A) (c : Fin k → ZMod 2) {i : Fin k} {j : Fin n}
    (hl : Leading A i j) : (∑ t, c t • A t) j = c i := by
  rw [Finset.sum_apply, Finset.sum_eq_single i]
  · rw [Pi.smul_apply, zmod2_ne_zero hl.1, smul_eq_mul, mul_one]
  · intro b _ hb
    rw [Pi.smul_apply, hA.column i j hl b hb, smul_zero]
  · intro h; exact absurd (Finset.mem_univ i) h

theorem mem_span_rows {A : BMat k n} {v : BVec n} :
    v ∈ Submodule.span (ZMod 2) (Set.range A) ↔ ∃ c : Fin k → ZMod 2, ∑ t, c t • A t = v :=
  Submodule.mem_span_range_iff_exists_fun _

theorem row_zero_of_no_leading {A : BMat k n} {i : Fin k} (h : ∀ j, ¬ Leading A i j) : A i = 0 := by
  have h1 : rowPivot (A i) = n := by
    by_contra hc
    have := rowPivot_le (A i)
    exact h ⟨rowPivot (A i), by omega⟩ ((leading_iff _ _ _).mpr rfl)
  ext j
  exact (rowPivot_spec (A i)).1 j (by rw [h1]; exact j.is_lt)

/-- A vector of the row space vanishing on every pivot column is zero. -/
theorem IsRREF.eq_zero {A : BMat k n} (hA : IsRREF A) {v : BVec n}
    (hv : v ∈ Submodule.span (ZMod 2) (Set.range A)) (h : ∀ i j, Leading A i j → v j = 0) : v = 0 := by
  obtain ⟨c, rfl⟩ := mem_span_rows.mp hv
  apply Finset.sum_eq_zero
  intro i _
  by_cases hi : ∃ j, Leading A i j
  · obtain ⟨j, hj⟩ := hi
    have := h i j hj
    rw [hA.coeff c hj] at this
    rw [this, zero_smul]
  · rw [row_zero_of_no_leading (fun j hj => hi ⟨j, hj⟩), smul_zero]

/-- The leading position of a vector of the row space is a pivot column. -/
theorem IsRREF.leading_mem {A : BMat k n} (hA : IsRREF A) {v : BVec n}
    (hv : v ∈ Submodule.span (ZMod 2) (Set.range A)) {j : Fin n} (h1 : v j ≠ 0) (h0 : ∀ j' < j, v j' = 0) :
    ∃ i, Leading A i j := by
  by_contra hno
  obtain ⟨c, rfl⟩ := mem_span_rows.mp hv
  apply h1
  rw [Finset.sum_apply]
  apply Finset.sum_eq_zero
  intro i _
  by_cases hi : ∃ j', Leading A i j'
  · obtain ⟨j', hj'⟩ := hi
    rcases lt_trichotomy j' j with h | h | h
    · have := h0 j' h
      rw [hA.coeff c hj'] at this
      rw [this, zero_smul]; rfl
    · subst h; exact absurd ⟨i, hj'⟩ hno
    · rw [Pi.smul_apply, hj'.2 j h, smul_zero]
  · rw [row_zero_of_no_leading (fun j hj => hi ⟨j, hj⟩), smul_zero]; rfl

theorem leading_unique {A : BMat k n} {i : Fin k} {j j' : Fin n} (h : Leading A i j) (h' : Leading A i j') :
    j = j' := by
  rw [leading_iff] at h h'; exact Fin.ext (h.symm.trans h')

theorem IsRREF.strict {A : BMat k n} (hA : IsRREF A) {i i' : Fin k} {j j' : Fin n} (h : Leading A i j)
    (h' : Leading A i' j') (hii : i < i') : j < j' := by
  obtain ⟨j2, h2, h3⟩ := hA.staircase i i' j' hii h'
  rwa [leading_unique h h3]

theorem IsRREF.same_leading {A B : BMat k n} (hA : IsRREF A) (hB : IsRREF B)
    (hs : Submodule.span (ZMod 2) (Set.range A) = Submodule.span (ZMod 2) (Set.range B)) (i : Fin k) :
    ∀ j, Leading A i j → Leading B i j := by
  -- proved for both orders at once by strong induction on the row
  have key : ∀ m : Nat, ∀ i : Fin k, (i : Nat) = m → ∀ j, (Leading A i j ↔ Leading B i j) := by
    intro m
    induction m using Nat.strong_induction_on with
    | _ m ih =>
      intro i hi
      have aux : ∀ (A B : BMat k n), IsRREF A → IsRREF B →
          Submodule.span (ZMod 2) (Set.range A) = Submodule.span (ZMod 2) (Set.range B) →
          (∀ i' < i, ∀ j, (Leading A i' j ↔ Leading B i' j)) → ∀ j, Leading A i j →
          ∃ j₂ ≤ j, Leading B i j₂ := by
        intro A B hA hB hs ih j hj
        have hv : A i ∈ Submodule.span (ZMod 2) (Set.range B) := hs ▸ Submodule.subset_span ⟨i, rfl⟩
        obtain ⟨i₂, hi₂⟩ := hB.leading_mem hv hj.1 hj.2
        rcases lt_trichotomy i₂ i with h | h | h
        · have := (ih i₂ h j).mpr hi₂
          exact absurd (hA.strict this hj h) (lt_irrefl _)
        · subst h; exact ⟨j, le_rfl, hi₂⟩
        · obtain ⟨j₂, h2, h3⟩ := hB.staircase i i₂ j h hi₂
          exact ⟨j₂, le_of_lt h2, h3⟩
      have ih' : ∀ i' < i, ∀ j, (Leading A i' j ↔ Leading B i' j) := fun i' h j =>
        ih i' (by rw [← hi]; exact h) i' rfl j
      intro j
      constructor
      · intro hj
        obtain ⟨j₂, h2, h3⟩ := aux A B hA hB hs ih' j hj
        obtain ⟨j₃, h4, h5⟩ := aux B A hB hA hs.symm (fun i' h j => (ih' i' h j).symm) j₂ h3
        have := leading_unique hj h5
        subst this
        rwa [le_antisymm h4 h2]
      · intro hj
        obtain ⟨j₂, h2, h3⟩ := aux B A hB hA hs.symm (fun i' h j => (ih' i' h j).symm) j hj
        obtain ⟨j₃, h4, h5⟩ := aux A B hA hB hs ih' j₂ h3
        have := leading_unique hj h5
        subst this
        rwa [le_antisymm h4 h2]
  exact fun j => (key i i rfl j).mp

theorem IsRREF.unique {A B : BMat k n} (hA : IsRREF A) (hB : IsRREF B)
    (hs : Submodule.span (ZMod 2) (Set.range A) = Submodule.span (ZMod 2) (Set.range B)) : A = B := by
  funext i
  have hmA : A i ∈ Submodule.span (ZMod 2) (Set.range A) := Submodule.subset_span ⟨i, rfl⟩
  have hmB : B i ∈ Submodule.span (ZMod 2) (Set.range A) := hs ▸ Submodule.subset_span ⟨i, rfl⟩
  rw [← sub_eq_zero]
  apply hA.eq_zero (Submodule.sub_mem _ hmA hmB)
  intro i' j hj
  have hj' := hA.same_leading hB hs i' j hj
  rw [Pi.sub_apply]
  by_cases h : i = i'
  · subst h
    rw [zmod2_ne_zero hj.1, zmod2_ne_zero hj'.1, sub_self]
  · rw [hA.column i' j hj i h, hB.column i' j hj' i h, sub_self]

/-! ### xrref -/

theorem left_isRREF {a : BMat k (n + k)} (ha : IsRREF a) :
    IsRREF (fun i (j : Fin n) => a i (Fin.castAdd k j)) := by
  have hl : ∀ i (j : Fin n), Leading (fun i (j : Fin n) => a i (Fin.castAdd k j)) i j →
      Leading a i (Fin.castAdd k j) := by
    rintro i j ⟨h1, h2⟩
    refine ⟨h1, fun j' hj' => ?_⟩
    have hj : (j' : Nat) < j := hj'
    have := h2 ⟨j', lt_trans hj j.is_lt⟩ hj
    simpa using this
  refine ⟨?_, ?_⟩
  · intro i i' j' hii h
    obtain ⟨j, hj, hlj⟩ := ha.staircase i i' _ hii (hl _ _ h)
    have hj0 : (j : Nat) < j' := hj
    have hjn : (j : Nat) < n := lt_trans hj0 j'.is_lt
    refine ⟨⟨j, hjn⟩, hj, ?_, ?_⟩
    · exact hlj.1
    · intro c hc
      exact hlj.2 _ hc
  · intro i j h i' hi'
    exact ha.column i _ (hl i j h) i' hi'

theorem xrref_spec (M : BMat k n) :
    IsUnit (Matrix.of (xrref M).1) ∧ Matrix.of (xrref M).2.1 = Matrix.of (xrref M).1 * Matrix.of M ∧
    IsRREF (xrref M).2.1 ∧ (xrref M).2.1 = rref M := by
  obtain ⟨Q, hQ, he⟩ := rref_rowEquiv (augment M)
  have hP : Matrix.of (xrref M).1 = Q := by
    ext i j
    have := congrFun (congrFun he i) (Fin.natAdd n j)
    rw [Matrix.mul_apply] at this
    simp only [Matrix.of_apply, augment, Fin.append_right, eye] at this
    simpa [xrref] using this
  have hR : Matrix.of (xrref M).2.1 = Q * Matrix.of M := by
    ext i j
    have := congrFun (congrFun he i) (Fin.castAdd k j)
    rw [Matrix.mul_apply] at this
    simp only [Matrix.of_apply, augment, Fin.append_left] at this
    rw [Matrix.mul_apply]
    simpa [xrref] using this
  have hrr : IsRREF (xrref M).2.1 := left_isRREF (rref_isRREF (augment M))
  refine ⟨hP ▸ hQ, hP ▸ hR, hrr, hrr.unique (rref_isRREF M) ?_⟩
  rw [rowEquiv_span (rref_rowEquiv M)]
  exact rowEquiv_span ⟨Q, hQ, hR⟩

/-! ### pivots -/

theorem findPivots_spec {R : BMat k n} (hR : IsRREF R) :
    (findPivots R).length ≤ k ∧
    ∀ (i : Fin k) (j : Fin n), (findPivots R)[(i : Nat)]? = some j ↔ Leading R i j := by
  have key := foldl_finRange_inv (k := n)
    (fun m (L : List (Fin n)) => L.length ≤ k ∧
      ∀ (i : Fin k) (j : Fin n), L[(i : Nat)]? = some j ↔ (Leading R i j ∧ (j : Nat) < m))
    (fun pivots j =>
      if k ≤ pivots.length then pivots
      else if ∀ i : Fin k, R i j = if (i : Nat) = pivots.length then 1 else 0 then pivots ++ [j]
      else pivots) [] (by simp) (by
      rintro m L ⟨hlen, hL⟩
      split
      · rename_i hk
        refine ⟨hlen, fun i j => ?_⟩
        rw [hL]
        constructor
        · rintro ⟨h1, h2⟩; exact ⟨h1, by omega⟩
        · rintro ⟨h1, h2⟩
          have hi : (i : Nat) < L.length := lt_of_lt_of_le i.is_lt hk
          obtain ⟨h3, h4⟩ := (hL i L[(i : Nat)]).mp (List.getElem?_eq_getElem hi)
          have := leading_unique h1 h3
          subst this
          exact ⟨h1, h4⟩
      · rename_i hk
        have hk : L.length < k := not_le.mp hk
        -- facts about the next row
        have hnone : L[L.length]? = none := by simp
        split
        · rename_i hcol
          refine ⟨by simp; omega, fun i j => ?_⟩
          have hlead : Leading R ⟨L.length, hk⟩ m := by
            refine ⟨by rw [hcol]; simp, fun j' hj' => ?_⟩
            by_contra hne
            -- then row L.length would have a pivot before m
            have hex : ∃ j₂ : Fin n, j₂ ≤ j' ∧ Leading R ⟨L.length, hk⟩ j₂ := by
              have hlt : rowPivot (R ⟨L.length, hk⟩) ≤ j' := by
                by_contra hc
                exact hne ((rowPivot_spec _).1 j' (not_le.mp hc))
              exact ⟨⟨rowPivot (R ⟨L.length, hk⟩), lt_of_le_of_lt hlt j'.is_lt⟩, hlt,
                (leading_iff _ _ _).mpr rfl⟩
            obtain ⟨j₂, h2, h3⟩ := hex
            have := (hL ⟨L.length, hk⟩ j₂).mpr ⟨h3, lt_of_le_of_lt h2 hj'⟩
            simp at this
          rcases Nat.lt_trichotomy (i : Nat) L.length with h | h | h
          · rw [List.getElem?_append_left h, hL]
            constructor
            · rintro ⟨h1, h2⟩; exact ⟨h1, by omega⟩
            · rintro ⟨h1, h2⟩
              refine ⟨h1, ?_⟩
              have : j < m := hR.strict h1 hlead h
              exact this
          · have hi : i = ⟨L.length, hk⟩ := Fin.ext h
            subst hi
            simp only [List.getElem?_append_right le_rfl, Nat.sub_self, List.getElem?_cons_zero,
              Option.some.injEq]
            constructor
            · rintro rfl; exact ⟨hlead, by omega⟩
            · rintro ⟨h1, _⟩; exact leading_unique hlead h1
          · constructor
            · intro h1
              rw [List.getElem?_eq_none (by simp; omega)] at h1
              exact absurd h1 (by simp)
            · rintro ⟨h1, h2⟩
              exfalso
              have : m < j := hR.strict hlead h1 h
              have : (m : Nat) < j := this
              omega
        · rename_i hcol
          refine ⟨hlen, fun i j => ?_⟩
          rw [hL]
          constructor
          · rintro ⟨h1, h2⟩; exact ⟨h1, by omega⟩
          · rintro ⟨h1, h2⟩
            refine ⟨h1, ?_⟩
            rcases Nat.lt_succ_iff_lt_or_eq.mp h2 with h | h
            · exact h
            · exfalso
              have hjm : j = m := Fin.ext h
              subst hjm
              apply hcol
              -- column j is the unit vector of row i, and i is the next row
              have hi : (i : Nat) = L.length := by
                rcases Nat.lt_trichotomy (i : Nat) L.length with h' | h' | h'
                · obtain ⟨h3, h4⟩ := (hL i L[(i : Nat)]).mp (List.getElem?_eq_getElem h')
                  have := leading_unique h1 h3
                  rw [← this] at h4
                  exact absurd h4 (lt_irrefl _)
                · exact h'
                · obtain ⟨j₂, h3, h4⟩ := hR.staircase ⟨L.length, hk⟩ i j h' h1
                  have := (hL ⟨L.length, hk⟩ j₂).mpr ⟨h4, h3⟩
                  simp at this
              intro i'
              rw [← hi]
              split
              · rename_i h'
                rw [Fin.ext h']; exact zmod2_ne_zero h1.1
              · rename_i h'
                exact hR.column i j h1 i' (fun hc => h' (by rw [hc])))
  obtain ⟨h1, h2⟩ := key
  refine ⟨h1, fun i j => ?_⟩
  rw [show findPivots R = _ from rfl]
  refine (h2 i j).trans ?_
  simp

theorem findPivots_leading {R : BMat k n} (hR : IsRREF R) (t : Nat) (ht : t < (findPivots R).length) :
    Leading R ⟨t, lt_of_lt_of_le ht (findPivots_spec hR).1⟩ (findPivots R)[t] :=
  ((findPivots_spec hR).2 ⟨t, lt_of_lt_of_le ht (findPivots_spec hR).1⟩ _).mp (List.getElem?_eq_getElem ht)

theorem findPivots_sorted {R : BMat k n} (hR : IsRREF R) : (findPivots R).Pairwise (· < ·) := by
  rw [List.pairwise_iff_getElem]
  intro i j hi hj hij
  exact hR.strict (findPivots_leading hR i hi) (findPivots_leading hR j hj) hij

theorem findPivots_zero {R : BMat k n} (hR : IsRREF R) (i : Fin k) (h : (findPivots R).length ≤ i) :
    R i = 0 := by
  apply row_zero_of_no_leading
  intro j hj
  have := ((findPivots_spec hR).2 i j).mpr hj
  rw [List.getElem?_eq_none h] at this
  exact absurd this (by simp)

theorem rank_rref {R : BMat k n} (hR : IsRREF R) :
    Module.finrank (ZMod 2) (Submodule.span (ZMod 2) (Set.range R)) = (findPivots R).length := by
  set p := (findPivots R).length with hp
  have hpk := (findPivots_spec hR).1
  let f : Fin p → BVec n := fun t => R ⟨t, lt_of_lt_of_le t.is_lt hpk⟩
  have hli : LinearIndependent (ZMod 2) f := by
    rw [Fintype.linearIndependent_iff]
    intro g hg t
    have := congrFun hg ((findPivots R)[(t : Nat)]'(t.is_lt))
    rw [Finset.sum_apply, Finset.sum_eq_single t] at this
    · have h1 : f t ((findPivots R)[(t : Nat)]'(t.is_lt)) = 1 :=
        zmod2_ne_zero (findPivots_leading hR t t.is_lt).1
      rw [Pi.smul_apply, h1, smul_eq_mul, mul_one] at this
      exact this
    · intro b _ hb
      rw [Pi.smul_apply]
      have : f b ((findPivots R)[(t : Nat)]'(t.is_lt)) = 0 := by
        apply hR.column _ _ (findPivots_leading hR t t.is_lt)
        intro hc
        exact hb (Fin.ext (Fin.mk.inj_iff.mp hc))
      rw [this, smul_zero]
    · intro h; exact absurd (Finset.mem_univ t) h
  have hspan : Submodule.span (ZMod 2) (Set.range R) = Submodule.span (ZMod 2) (Set.range f) := by
    apply le_antisymm
    · rw [Submodule.span_le]
      rintro _ ⟨i, rfl⟩
      by_cases h : (i : Nat) < p
      · exact Submodule.subset_span ⟨⟨i, h⟩, rfl⟩
      · rw [findPivots_zero hR i (not_lt.mp h)]; exact Submodule.zero_mem _
    · apply Submodule.span_mono
      rintro _ ⟨t, rfl⟩; exact ⟨_, rfl⟩
  rw [hspan, finrank_span_eq_card hli, Fintype.card_fin]

theorem rank_spec (M : BMat k n) :
    rank M = Module.finrank (ZMod 2) (Submodule.span (ZMod 2) (Set.range M)) := by
  obtain ⟨h1, h2, h3, h4⟩ := xrref_spec M
  have := rank_rref h3
  rw [rank]
  rw [← rowEquiv_span (show RowEquiv M (xrref M).2.1 from ⟨_, h1, h2⟩), this]; rfl

/-! ### pseudo-inverse -/

theorem pseudoInverse_spec (M : BMat k n) (hM : rank M = k) : matMul M (pseudoInverse M) = eye k := by
  obtain ⟨h1, h2, h3, _⟩ := xrref_spec M
  set P := (xrref M).1 with hP
  set R := (xrref M).2.1 with hR
  have hL : (xrref M).2.2 = findPivots R := rfl
  have hlen : (findPivots R).length = k := hM
  set RI : BMat n k := fun j t => if j ∈ findPivots R ∧ (findPivots R).idxOf j = (t : Nat) then 1 else 0 with hRI
  have hpi : pseudoInverse M = matMul RI P := rfl
  have hnd : (findPivots R).Nodup := (findPivots_sorted h3).imp (fun h => ne_of_lt h)
  have hRRI : Matrix.of R * Matrix.of RI = 1 := by
    ext i t
    rw [Matrix.mul_apply]
    have ht : (t : Nat) < (findPivots R).length := by rw [hlen]; exact t.is_lt
    rw [Finset.sum_eq_single (findPivots R)[(t : Nat)]]
    · simp only [Matrix.of_apply, hRI]
      rw [if_pos ⟨List.getElem_mem ht, hnd.idxOf_getElem t ht⟩, mul_one, Matrix.one_apply]
      have hlead := findPivots_leading h3 t ht
      split
      · rename_i h; subst h; exact zmod2_ne_zero hlead.1
      · rename_i h; exact h3.column _ _ hlead i h
    · intro j _ hj
      simp only [Matrix.of_apply, hRI]
      rw [if_neg, mul_zero]
      rintro ⟨h5, h6⟩
      apply hj
      simp only [← h6]
      exact (List.getElem_idxOf (List.idxOf_lt_length_of_mem h5)).symm
    · intro h; exact absurd (Finset.mem_univ _) h
  apply of_inj
  rw [of_matMul, hpi, of_matMul, of_eye]
  obtain ⟨u, hu⟩ := h1
  have hM' : Matrix.of M = (↑u⁻¹ : Matrix (Fin k) (Fin k) (ZMod 2)) * Matrix.of R := by
    rw [h2, ← hu, ← Matrix.mul_assoc, Units.inv_mul, Matrix.one_mul]
  rw [hM', ← Matrix.mul_assoc, Matrix.mul_assoc (↑u⁻¹ : Matrix (Fin k) (Fin k) (ZMod 2)), hRRI,
    Matrix.mul_one, ← hu, Units.inv_mul]

/-! ### null matrix -/

theorem notPivots_length (L : List (Fin n)) (hL : L.Nodup) : (notPivots L).length = n - L.length := by
  have hnd : (notPivots L).Nodup := (List.nodup_finRange n).filter _
  rw [← List.toFinset_card_of_nodup hnd, ← List.toFinset_card_of_nodup hL]
  have : (notPivots L).toFinset = L.toFinsetᶜ := by
    ext j; simp [notPivots]
  rw [this, Finset.card_compl, Fintype.card_fin]

theorem sum_split (L : List (Fin n)) (hL : L.Nodup) (f : Fin n → ZMod 2) :
    ∑ j, f j = (∑ i : Fin L.length, f L[i]) + ∑ s : Fin (notPivots L).length, f (notPivots L)[s] := by
  have hnd : (notPivots L).Nodup := (List.nodup_finRange n).filter _
  have e1 : ∀ l : List (Fin n), l.Nodup → ∑ i : Fin l.length, f l[i] = ∑ j ∈ l.toFinset, f j := by
    intro l hl
    rw [List.sum_toFinset f hl, ← Fin.sum_univ_fun_getElem]
    rfl
  rw [e1 L hL, e1 _ hnd]
  have : (notPivots L).toFinset = L.toFinsetᶜ := by
    ext j; simp [notPivots]
  rw [this, Finset.sum_add_sum_compl]

theorem kernel_rowEquiv {A B : BMat k n} (h : RowEquiv A B) (v : BVec n) :
    (∀ i, ∑ j, B i j * v j = 0) ↔ (∀ i, ∑ j, A i j * v j = 0) := by
  have key : ∀ (P : Matrix (Fin k) (Fin k) (ZMod 2)) (A B : BMat k n), Matrix.of B = P * Matrix.of A →
      (∀ i, ∑ j, A i j * v j = 0) → (∀ i, ∑ j, B i j * v j = 0) := by
    intro P A B h hA i
    have h1 : Matrix.mulVec (Matrix.of A) v = 0 := by
      ext i; simpa [Matrix.mulVec, dotProduct] using hA i
    have h2 : Matrix.mulVec (Matrix.of B) v = 0 := by
      rw [h, ← Matrix.mulVec_mulVec, h1, Matrix.mulVec_zero]
    have := congrFun h2 i
    simpa [Matrix.mulVec, dotProduct] using this
  obtain ⟨Q, ⟨u, rfl⟩, h⟩ := h
  refine ⟨key (↑u⁻¹ : Matrix (Fin k) (Fin k) (ZMod 2)) B A ?_, key u A B h⟩
  rw [h, ← Matrix.mul_assoc, Units.inv_mul, Matrix.one_mul]

/-- The entries of the null matrix for a reduced matrix with `k` pivots. -/
theorem nullRows_spec {m : Nat} {R : BMat k n} (piv : Fin k → Fin n) (np : Fin m → Fin n)
    (hRL : ∀ i i' : Fin k, R i (piv i') = if i' = i then 1 else 0)
    (hsum : ∀ f : Fin n → ZMod 2, ∑ j, f j = (∑ i, f (piv i)) + ∑ s, f (np s))
    (hcov : ∀ j, (∃ i, piv i = j) ∨ (∃ s, np s = j))
    (N : BMat m n) (hN1 : ∀ t i, N t (piv i) = R i (np t))
    (hN2 : ∀ t s, N t (np s) = if s = t then 1 else 0) :
    LinearIndependent (ZMod 2) N ∧
    ∀ v : BVec n, v ∈ Submodule.span (ZMod 2) (Set.range N) ↔ ∀ i, ∑ j, R i j * v j = 0 := by
  have hker : ∀ v : BVec n, (∀ i, ∑ j, R i j * v j = 0) ↔
      ∀ i : Fin k, v (piv i) = ∑ s, R i (np s) * v (np s) := by
    intro v
    apply forall_congr'
    intro i
    rw [hsum]
    simp only [hRL, ite_mul, one_mul, zero_mul, Finset.sum_ite_eq', Finset.mem_univ, if_true]
    rw [add_eq_zero_iff_eq_neg, CharTwo.neg_eq]
  refine ⟨?_, ?_⟩
  · rw [Fintype.linearIndependent_iff]
    intro g hg s
    have := congrFun hg (np s)
    rw [Finset.sum_apply] at this
    simpa [hN2] using this
  · intro v
    rw [hker]
    constructor
    · intro hv
      obtain ⟨c, rfl⟩ := mem_span_rows.mp hv
      intro i
      simp only [Finset.sum_apply, Pi.smul_apply, hN1, hN2, smul_eq_mul, mul_ite, mul_one, mul_zero,
        Finset.sum_ite_eq, Finset.mem_univ, if_true]
      exact Finset.sum_congr rfl fun _ _ => mul_comm _ _
    · intro hv
      apply mem_span_rows.mpr
      refine ⟨fun s => v (np s), ?_⟩
      funext j
      rw [Finset.sum_apply]
      rcases hcov j with ⟨i, rfl⟩ | ⟨s, rfl⟩
      · rw [hv i]
        refine Finset.sum_congr rfl fun t _ => ?_
        rw [Pi.smul_apply, smul_eq_mul, hN1, mul_comm]
      · simp [hN2]

theorem nullMatrix_spec (M : BMat k n) :
    (rank M ≠ k → nullMatrix M = none) ∧
    (rank M = k → ∃ N, nullMatrix M = some N ∧ LinearIndependent (ZMod 2) N ∧
      ∀ v : BVec n, v ∈ Submodule.span (ZMod 2) (Set.range N) ↔ ∀ i, ∑ j, M i j * v j = 0) := by
  obtain ⟨h1, h2, h3, _⟩ := xrref_spec M
  constructor
  · intro h
    unfold nullMatrix
    simp only []
    rw [dif_neg]
    exact fun hc => h hc.2
  · intro h
    have hlen : (xrref M).2.2.length = k := h
    have hlead : ∀ (t : Nat) (ht : t < (xrref M).2.2.length),
        Leading (xrref M).2.1 ⟨t, hlen ▸ ht⟩ (xrref M).2.2[t] := fun t ht => findPivots_leading h3 t ht
    have hnd : (xrref M).2.2.Nodup := (findPivots_sorted h3).imp (fun h => ne_of_lt h)
    have hnp : (notPivots (xrref M).2.2).length = n - k := by
      rw [notPivots_length _ hnd, hlen]
    have hke := kernel_rowEquiv (show RowEquiv M (xrref M).2.1 from ⟨_, h1, h2⟩)
    unfold nullMatrix
    generalize xrref M = X at *
    obtain ⟨P, R, L⟩ := X
    simp only at *
    rw [dif_pos ⟨hnp, hlen⟩]
    refine ⟨_, rfl, ?_⟩
    have hnd2 : (notPivots L).Nodup := (List.nodup_finRange n).filter _
    refine (and_congr Iff.rfl (forall_congr' fun v => iff_congr Iff.rfl (hke v))).mp
      (nullRows_spec (R := R) (fun i => L.get (i.cast hlen.symm))
      (fun s => (notPivots L).get (s.cast hnp.symm)) ?_ ?_ ?_ _ (fun t i => ?_) (fun t s => ?_))
    · intro i i'
      have hl := hlead i' (by rw [hlen]; exact i'.is_lt)
      split
      · rename_i h; subst h; exact zmod2_ne_zero hl.1
      · rename_i h; exact h3.column _ _ hl i (Ne.symm h)
    · intro f
      rw [sum_split L hnd f]
      congr 1
      · exact Fintype.sum_equiv (finCongr hlen) _ _ (fun i => rfl)
      · exact Fintype.sum_equiv (finCongr hnp) _ _ (fun i => rfl)
    · intro j
      by_cases hj : j ∈ L
      · obtain ⟨i, rfl⟩ := List.mem_iff_get.mp hj
        exact Or.inl ⟨i.cast hlen, rfl⟩
      · have hj' : j ∈ notPivots L := by simp [notPivots, hj]
        obtain ⟨i, rfl⟩ := List.mem_iff_get.mp hj'
        exact Or.inr ⟨i.cast hnp, rfl⟩
    · have hm : L.get (i.cast hlen.symm) ∈ L := List.get_mem L _
      rw [dif_pos hm]
      have e : List.idxOf (L.get (i.cast hlen.symm)) L = i := hnd.idxOf_getElem i _
      congr 1
      apply Fin.ext
      exact e
    · have hnot : (notPivots L).get (s.cast hnp.symm) ∉ L := by
        have := List.get_mem (notPivots L) (s.cast hnp.symm)
        have h' := (List.mem_filter.mp this).2
        simp only [decide_eq_true_eq] at h'
        exact h'
      rw [dif_neg hnot]
      have hinj : (notPivots L).get (s.cast hnp.symm) =
          (notPivots L).get (t.cast hnp.symm) ↔ s = t := by
        constructor
        · intro he
          have := (List.Nodup.get_inj_iff hnd2 (i := s.cast hnp.symm) (j := t.cast hnp.symm)).mp he
          apply Fin.ext
          exact Fin.mk.inj_iff.mp this
        · rintro rfl; rfl
      by_cases hst : s = t
      · rw [if_pos hst, if_pos (hinj.mpr hst)]
      · rw [if_neg hst, if_neg (mt hinj.mp hst)]

end Komm
