import Verif.Lemmas.BCH
/-! Berlekamp's algorithm: the loop invariant. -/
namespace Komm
open Polynomial Bifield

def bmVal (hist : List BMEntry) (i : Nat) : Int := ((i : Int) - 1) - ((hist.getD i default).deg : Int)

theorem bmChoose_spec (hist : List BMEntry) (j : Nat) (h0 : hist.getD 0 default = ⟨[1], 1, 0⟩) :
    (bmChoose hist j).1 ≤ j ∧ (hist.getD (bmChoose hist j).1 default).disc ≠ 0 ∧
    ∀ i ≤ j, (hist.getD i default).disc ≠ 0 → bmVal hist i ≤ bmVal hist (bmChoose hist j).1 := by
  have key : ∀ (N : Nat) (r : Nat × Int), r = (List.range N).foldl (fun (acc : Nat × Int) (i : Nat) =>
      if (hist.getD i default).disc ≠ 0 ∧ ((i : Int) - 1) - ((hist.getD i default).deg : Int) > acc.2 then
        (i, ((i : Int) - 1) - ((hist.getD i default).deg : Int))
      else acc) ((0, -1) : Nat × Int) →
      (r.1 = 0 ∨ r.1 < N) ∧ (hist.getD r.1 default).disc ≠ 0 ∧ r.2 = bmVal hist r.1 ∧
      ∀ i < N, (hist.getD i default).disc ≠ 0 → bmVal hist i ≤ r.2 := by
    intro N
    induction N with
    | zero => rintro r rfl; exact ⟨Or.inl rfl, by simp only [List.range_zero, List.foldl_nil]; rw [h0]; simp,
        by simp only [List.range_zero, List.foldl_nil, bmVal]; rw [h0]; simp, by simp⟩
    | succ N ih =>
      rintro r' rfl
      have ih := ih _ rfl
      simp only [List.range_succ, List.foldl_append, List.foldl_cons, List.foldl_nil]
      generalize (List.range N).foldl _ _ = r at ih ⊢
      obtain ⟨h1, h2, h3, h4⟩ := ih
      split
      · rename_i hc
        refine ⟨Or.inr (by simp), hc.1, rfl, ?_⟩
        intro i hi hd
        rcases Nat.lt_succ_iff_lt_or_eq.mp hi with h | h
        · exact (h4 i h hd).trans (le_of_lt hc.2)
        · subst h; exact le_rfl
      · rename_i hc
        refine ⟨by omega, h2, h3, ?_⟩
        intro i hi hd
        rcases Nat.lt_succ_iff_lt_or_eq.mp hi with h | h
        · exact h4 i h hd
        · subst h
          by_contra hlt
          exact hc ⟨hd, by unfold bmVal at hlt; omega⟩
  obtain ⟨h1, h2, h3, h4⟩ := key (j + 1) _ rfl
  refine ⟨?_, h2, fun i hi hd => ?_⟩
  · rcases h1 with h | h
    · unfold bmChoose; rw [h]; omega
    · exact Nat.lt_succ_iff.mp h
  · have := h4 i (by omega) hd
    rw [h3] at this
    exact this

variable {F : Bifield}

/-- the coefficients of an entry, as field elements -/
noncomputable def BMEntry.coef (F : Bifield) (e : BMEntry) (l : Nat) : K F := φ F (e.sigma.getD l 0)

/-- the syndromes `S_1, S_2, …` as field elements -/
noncomputable def synd (F : Bifield) (S : List Nat) (m : Nat) : K F := φ F (S.getD (m - 1) 0)

structure BMGood (F : Bifield) (N : Nat) (S : List Nat) (j : Nat) (e : BMEntry) : Prop where
  len : e.sigma.length = e.deg + 1
  lt : ∀ x ∈ e.sigma, x < F.order
  one : e.sigma.getD 0 0 = 1
  le : e.deg ≤ j
  disc_lt : e.disc < F.order
  recur : ∀ m, e.deg < m → m ≤ j → ∑ l ∈ Finset.range (e.deg + 1), e.coef F l * synd F S (m - l) = 0
  disc : j < N → φ F e.disc = ∑ l ∈ Finset.range (e.deg + 1), e.coef F l * synd F S (j + 1 - l)

theorem BMGood.coef_zero {N : Nat} {S : List Nat} {j : Nat} {e : BMEntry} (h : BMGood F N S j e) (l : Nat) (hl : e.deg < l) :
    e.coef F l = 0 := by
  rw [BMEntry.coef, List.getD_eq_default _ _ (by rw [h.len]; omega), φ_zero]

structure BMInv (F : Bifield) (N : Nat) (S : List Nat) (j : Nat) (hist : List BMEntry) : Prop where
  len : hist.length = j + 2
  init : hist.getD 0 default = ⟨[1], 1, 0⟩
  good : ∀ i ≤ j, BMGood F N S i (hist.getD (i + 1) default)
  max_le : ∀ i ≤ j, (hist.getD i default).disc ≠ 0 → i ≤ (hist.getD i default).deg + (hist.getD (j + 1) default).deg
  max_eq : ∃ i ≤ j, (hist.getD i default).disc ≠ 0 ∧ i = (hist.getD i default).deg + (hist.getD (j + 1) default).deg

theorem BMInv.choose {N : Nat} {S : List Nat} {j : Nat} {hist : List BMEntry} (h : BMInv F N S j hist) :
    (bmChoose hist j).1 ≤ j ∧ (hist.getD (bmChoose hist j).1 default).disc ≠ 0 ∧
    (bmChoose hist j).1 = (hist.getD (bmChoose hist j).1 default).deg + (hist.getD (j + 1) default).deg := by
  obtain ⟨h1, h2, h3⟩ := bmChoose_spec hist j h.init
  refine ⟨h1, h2, ?_⟩
  obtain ⟨i, hi, hd, he⟩ := h.max_eq
  have h4 := h3 i hi hd
  have h5 := h.max_le _ h1 h2
  unfold bmVal at h4
  omega

theorem mapM_option_some {α β : Type} (f : α → Option β) (g : α → β) (l : List α) (h : ∀ a ∈ l, f a = some (g a)) :
    l.mapM f = some (l.map g) := by
  induction l with
  | nil => rfl
  | cons a l ih =>
    rw [List.mapM_cons, h a (by simp), ih (fun b hb => h b (by simp [hb]))]
    rfl

theorem truediv_φ (hF : F.Valid) {a b : Nat} (ha : a < F.order) (hb : b < F.order) (hb0 : b ≠ 0) :
    ∃ q, F.truediv a b = some q ∧ q < F.order ∧ φ F q * φ F b = φ F a := by
  obtain ⟨q, h1, h2, h3, _⟩ := (truediv_spec hF a b ha hb).1 hb0
  exact ⟨q, h1, h2, by rw [← φ_mul hF, h3]⟩

theorem getD_lt {l : List Nat} {B : Nat} (h : ∀ x ∈ l, x < B) (hB : 0 < B) (i : Nat) : l.getD i 0 < B := by
  rw [List.getD_eq_getElem?_getD]
  cases hx : l[i]? with
  | none => simpa
  | some x => exact h x (List.mem_of_getElem? hx)

/-- Lines 71-88: the new connection polynomial. -/
theorem bmUpdate_spec (hF : F.Valid) {N : Nat} {S : List Nat} {j : Nat} (hj : j < N) {hist : List BMEntry}
    (h : BMInv F N S j hist) :
    ∃ sigma D, bmUpdate F hist j = some (sigma, D) ∧ sigma.length = D + 1 ∧ (∀ x ∈ sigma, x < F.order) ∧
      sigma.getD 0 0 = 1 ∧ D ≤ j + 1 ∧
      (D = if (hist.getD (j + 1) default).disc = 0 then (hist.getD (j + 1) default).deg else
        max (hist.getD (j + 1) default).deg (j + 1 - (hist.getD (j + 1) default).deg)) ∧
      ∀ m, D < m → m ≤ j + 1 → ∑ l ∈ Finset.range (D + 1), φ F (sigma.getD l 0) * synd F S (m - l) = 0 := by
  have hg := h.good j le_rfl
  unfold bmUpdate
  simp only
  obtain ⟨h1, h2, h3⟩ := h.choose
  have h0pos : 0 < F.order := by have := one_lt_order hF; omega
  have hhist := h
  generalize hcur : hist.getD (j + 1) default = cur at *
  by_cases hd : cur.disc = 0
  · rw [if_pos hd, if_pos hd]
    refine ⟨cur.sigma, cur.deg, rfl, hg.len, hg.lt, hg.one, by have := hg.le; omega, rfl, ?_⟩
    intro m hm hm'
    rcases Nat.lt_or_ge m (j + 1) with hlt | hge
    · exact hg.recur m hm (by omega)
    · have : m = j + 1 := by omega
      subst this
      have := hg.disc hj
      rw [hd, φ_zero] at this
      exact this.symm
  · rw [if_neg hd, if_neg hd]
    generalize hk : (bmChoose hist j).1 = k at *
    generalize hek : hist.getD k default = ek at *
    -- facts about entry k
    have hekP : ek.sigma.length = ek.deg + 1 ∧ (∀ x ∈ ek.sigma, x < F.order) ∧ ek.disc < F.order ∧ ek.deg ≤ k := by
      rcases Nat.eq_zero_or_pos k with hk0 | hk0
      · subst hk0
        rw [h.init] at hek
        subst hek
        refine ⟨rfl, ?_, one_lt_order hF, by simp⟩
        intro x hx; simp at hx; subst hx; exact one_lt_order hF
      · have := h.good (k - 1) (by omega)
        rw [show k - 1 + 1 = k by omega, hek] at this
        exact ⟨this.len, this.lt, this.disc_lt, by have := this.le; omega⟩
    obtain ⟨hkl, hklt, hkd, hkdeg⟩ := hekP
    have hDeq : max cur.deg (ek.deg + (j + 1 - k)) = max cur.deg (j + 1 - cur.deg) := by
      congr 1; omega
    generalize hD : max cur.deg (ek.deg + (j + 1 - k)) = D at *
    generalize hfst : cur.sigma ++ (List.replicate (D + 1) 0).drop (cur.deg + 1) = fst
    generalize hsnd : (List.replicate (D + 1) 0).take (j + 1 - k) ++ ek.sigma ++
      (List.replicate (D + 1) 0).drop (ek.deg + (j + 1 - k) + 1) = snd
    have hfstget : ∀ i, fst.getD i 0 = cur.sigma.getD i 0 := by
      intro i
      rw [← hfst]
      by_cases hi : i < cur.sigma.length
      · rw [List.getD_append _ _ _ _ hi]
      · rw [List.getD_append_right _ _ _ _ (by omega), List.getD_eq_default (n := i) cur.sigma _ (by omega)]
        rw [List.drop_replicate, List.getD_eq_getElem?_getD, List.getElem?_replicate]
        split <;> rfl
    have hsh : j + 1 - k ≤ D + 1 := by omega
    have hsndget : ∀ i, snd.getD i 0 = if i < j + 1 - k then 0 else ek.sigma.getD (i - (j + 1 - k)) 0 := by
      intro i
      rw [← hsnd, List.append_assoc]
      have hl : ((List.replicate (D + 1) 0).take (j + 1 - k)).length = j + 1 - k := by simp; omega
      split
      · rename_i hi
        rw [List.getD_append _ _ _ _ (by rw [hl]; exact hi), List.take_replicate, List.getD_eq_getElem?_getD,
          List.getElem?_replicate]
        split <;> rfl
      · rename_i hi
        rw [List.getD_append_right _ _ _ _ (by rw [hl]; omega), hl]
        by_cases hi2 : i - (j + 1 - k) < ek.sigma.length
        · rw [List.getD_append _ _ _ _ hi2]
        · rw [List.getD_append_right _ _ _ _ (by omega), List.getD_eq_default (n := i - (j + 1 - k)) ek.sigma _ (by omega),
            List.drop_replicate, List.getD_eq_getElem?_getD, List.getElem?_replicate]
          split <;> rfl
    have hmem : ∀ i, ∃ q, F.truediv (F.mul (snd.getD i 0) cur.disc) ek.disc = some q ∧ q < F.order ∧
        φ F q * φ F ek.disc = φ F (snd.getD i 0) * φ F cur.disc := by
      intro i
      have := truediv_φ hF (mul_lt hF (snd.getD i 0) cur.disc) hkd h2
      rw [φ_mul hF] at this
      exact this
    choose q hq1 hq2 hq3 using hmem
    have hkne : φ F ek.disc ≠ 0 := fun e => h2 ((φ_eq_zero hF hkd).mp e)
    have hmap := mapM_option_some (fun i => (F.truediv (F.mul (snd.getD i 0) cur.disc) ek.disc).map
      fun q => F.add (fst.getD i 0) q) (fun i => F.add (fst.getD i 0) (q i)) (List.range (D + 1))
      (fun i _ => by rw [hq1]; rfl)
    rw [hmap]
    have hget : ∀ l, l ≤ D → ((List.range (D + 1)).map fun i => F.add (fst.getD i 0) (q i)).getD l 0 =
        F.add (cur.sigma.getD l 0) (q l) := by
      intro l hl
      rw [List.getD_eq_getElem _ _ (by simp; omega)]
      rw [List.getElem_map, List.getElem_range, hfstget]
    have _i : Fact (Irreducible (toPoly F.modulus)) := ⟨hF.2.2⟩
    have hqφ : ∀ l, φ F (q l) = (if l < j + 1 - k then 0 else ek.coef F (l - (j + 1 - k))) *
        (φ F cur.disc / φ F ek.disc) := by
      intro l
      have := hq3 l
      rw [hsndget] at this
      have e : φ F (q l) = φ F (if l < j + 1 - k then 0 else ek.sigma.getD (l - (j + 1 - k)) 0) * φ F cur.disc /
          φ F ek.disc := by rw [eq_div_iff hkne, this]
      rw [e]
      split
      · rw [φ_zero]; ring
      · rw [BMEntry.coef]; ring
    refine ⟨_, D, rfl, by simp, ?_, ?_, ?_, hDeq, ?_⟩
    · intro x hx
      obtain ⟨i, _, rfl⟩ := List.mem_map.mp hx
      exact add_lt (by rw [hfstget]; exact getD_lt hg.lt h0pos i) (hq2 i)
    · rw [hget 0 (by omega), hg.one]
      apply φ_inj hF (add_lt (one_lt_order hF) (hq2 0)) (one_lt_order hF)
      rw [φ_add, hqφ, if_pos (by omega)]; ring
    · have := hg.le; omega
    · intro m hm hm'
      set sg : Nat → K F := fun l => cur.coef F l + (if l < j + 1 - k then 0 else ek.coef F (l - (j + 1 - k))) *
        (φ F cur.disc / φ F ek.disc) with hsg
      have e1 : ∑ l ∈ Finset.range (D + 1), φ F (((List.range (D + 1)).map fun i =>
          F.add (fst.getD i 0) (q i)).getD l 0) * synd F S (m - l) = lfsrSum (synd F S) sg D m := by
        unfold lfsrSum
        apply Finset.sum_congr rfl
        intro l hl
        rw [hget l (by simp at hl; omega), φ_add, hqφ]
        rfl
      rw [e1, lfsrSum_combine (synd F S) (cur.coef F) sg (ek.coef F) D ek.deg (j + 1 - k) m
        (φ F cur.disc / φ F ek.disc) (by omega) (fun l => rfl)
        (fun l hl => by rw [BMEntry.coef, List.getD_eq_default _ _ (by rw [hkl]; omega), φ_zero]),
        ← lfsrSum_extend (synd F S) (cur.coef F) cur.deg D m (by omega) (fun l hl => hg.coef_zero l hl)]
      -- k = 0 is impossible here
      have hk0 : 0 < k := by
        rcases Nat.eq_zero_or_pos k with hk0 | hk0
        · omega
        · exact hk0
      have hgk := h.good (k - 1) (by omega)
      rw [show k - 1 + 1 = k by omega, hek] at hgk
      rcases Nat.lt_or_ge m (j + 1) with hlt | hge
      · have z1 : lfsrSum (synd F S) (cur.coef F) cur.deg m = 0 := hg.recur m (by omega) (by omega)
        have z2 : lfsrSum (synd F S) (ek.coef F) ek.deg (m - (j + 1 - k)) = 0 := hgk.recur _ (by omega) (by omega)
        rw [z1, z2]; ring
      · have hm1 : m = j + 1 := by omega
        subst hm1
        have z1 : lfsrSum (synd F S) (cur.coef F) cur.deg (j + 1) = φ F cur.disc := (hg.disc hj).symm
        have z2 : lfsrSum (synd F S) (ek.coef F) ek.deg (j + 1 - (j + 1 - k)) = φ F ek.disc := by
          rw [hgk.disc (by omega), show j + 1 - (j + 1 - k) = k - 1 + 1 by omega]; rfl
        have _c := charP_K hF
        rw [z1, z2, div_mul_cancel₀ _ hkne, CharTwo.add_self_eq_zero]

end Komm
