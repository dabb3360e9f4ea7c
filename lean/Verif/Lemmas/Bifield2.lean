import Verif.Lemmas.Bifield
import Mathlib.FieldTheory.Minpoly.Field
import Mathlib.Algebra.CharP.Algebra
import Mathlib.Algebra.CharP.Frobenius

namespace Komm
open Polynomial

namespace Bifield
variable {F : Bifield}

/-- The polynomial over the mathematical field with the given list of coefficients. -/
noncomputable def lpoly (F : Bifield) : List Nat → (K F)[X]
  | [] => 0
  | c :: cs => C (φ F c) + X * lpoly F cs

theorem lpoly_append_zero (l : List Nat) : lpoly F (l ++ [0]) = lpoly F l := by
  induction l with
  | nil => simp [lpoly, φ_zero]
  | cons c cs ih => simp [lpoly, ih]

theorem lpoly_zipWith (a b : List Nat) (h : a.length = b.length) :
    lpoly F (List.zipWith F.add a b) = lpoly F a + lpoly F b := by
  induction a generalizing b with
  | nil => cases b <;> simp_all [lpoly]
  | cons x a ih =>
    cases b with
    | nil => simp at h
    | cons y b => simp only [List.zipWith, lpoly, ih b (by simpa using h), φ_add, C_add]; ring

theorem lpoly_map_mul (hF : F.Valid) (a : List Nat) (y : Nat) :
    lpoly F (a.map (F.mul · y)) = lpoly F a * C (φ F y) := by
  induction a with
  | nil => simp [lpoly]
  | cons x a ih => simp only [List.map_cons, lpoly, ih, φ_mul hF, C_mul]; ring

theorem lpoly_convolveMonomial (hF : F.Valid) (a : List Nat) (y : Nat) :
    lpoly F (F.convolveMonomial a y) = lpoly F a * (X + C (φ F y)) := by
  rw [convolveMonomial, lpoly_zipWith _ _ (by simp), lpoly_append_zero, lpoly, lpoly_map_mul hF,
    lpoly_map_mul hF, φ_zero, φ_one]
  simp; ring

theorem lpoly_coeff (l : List Nat) (i : Nat) : (lpoly F l).coeff i = φ F (l.getD i 0) := by
  induction l generalizing i with
  | nil => simp [lpoly, φ_zero]
  | cons c cs ih =>
    cases i with
    | zero => simp [lpoly]
    | succ i =>
      rw [lpoly, coeff_add, coeff_C_succ, zero_add, coeff_X_mul, ih, List.getD_cons_succ]

theorem lpoly_natDegree_lt (l : List Nat) (h : lpoly F l ≠ 0) : (lpoly F l).natDegree < l.length := by
  by_contra hcon
  have h1 : (lpoly F l).coeff (lpoly F l).natDegree = 0 := by
    rw [lpoly_coeff, List.getD_eq_getElem?_getD, List.getElem?_eq_none (by omega)]
    simp [φ_zero]
  exact h (leadingCoeff_eq_zero.mp h1)

theorem lpoly_foldl (hF : F.Valid) (ys : List Nat) (a : List Nat) :
    lpoly F (ys.foldl F.convolveMonomial a) = lpoly F a * (ys.map fun y => X + C (φ F y)).prod := by
  induction ys generalizing a with
  | nil => simp
  | cons y ys ih => rw [List.foldl_cons, ih, lpoly_convolveMonomial hF, List.map_cons, List.prod_cons]; ring

theorem forall_mem_zipWith {α β γ : Type} (f : α → β → γ) (P : γ → Prop) (a : List α) (b : List β)
    (h : ∀ x ∈ a, ∀ y ∈ b, P (f x y)) : ∀ c ∈ List.zipWith f a b, P c := by
  induction a generalizing b with
  | nil => simp
  | cons x a ih =>
    cases b with
    | nil => simp
    | cons y b =>
      intro c hc
      rw [List.zipWith_cons_cons, List.mem_cons] at hc
      rcases hc with rfl | hc
      · exact h _ (by simp) _ (by simp)
      · exact ih b (fun x hx y hy => h x (by simp [hx]) y (by simp [hy])) c hc

theorem convolveMonomial_lt (hF : F.Valid) (a : List Nat) (y : Nat) :
    ∀ c ∈ F.convolveMonomial a y, c < F.order := by
  have h1 := one_lt_order hF
  apply forall_mem_zipWith
  intro u hu v hv
  apply add_lt
  · rcases List.mem_append.mp hu with h | h
    · obtain ⟨w, _, rfl⟩ := List.mem_map.mp h; exact mul_lt hF _ _
    · simp at h; omega
  · rcases List.mem_cons.mp hv with h | h
    · omega
    · obtain ⟨w, _, rfl⟩ := List.mem_map.mp h; exact mul_lt hF _ _

theorem foldl_convolve_lt (hF : F.Valid) (ys a : List Nat) (ha : ∀ c ∈ a, c < F.order) :
    ∀ c ∈ ys.foldl F.convolveMonomial a, c < F.order := by
  induction ys generalizing a with
  | nil => simpa using ha
  | cons y ys ih => exact ih _ (convolveMonomial_lt hF a y)

theorem charP_K (hF : F.Valid) : CharP (K F) 2 := by
  have _i : Fact (Irreducible (toPoly F.modulus)) := ⟨hF.2.2⟩
  exact charP_of_injective_algebraMap (FaithfulSMul.algebraMap_injective (ZMod 2) (K F)) 2

theorem map_toPoly_fromCoefficients (hF : F.Valid) (l : List Nat) (hl : ∀ c ∈ l, c = 0 ∨ c = 1) :
    (toPoly (BP.fromCoefficients l)).map (algebraMap (ZMod 2) (K F)) = lpoly F l := by
  have _i : Fact (Irreducible (toPoly F.modulus)) := ⟨hF.2.2⟩
  ext i
  rw [coeff_map, lpoly_coeff, toPoly_coeff, BP.fromCoefficients, bitsToInt, packLE_testBit]
  by_cases hi : i < l.length
  · have : l.getD i 0 = l[i] := by simp [hi]
    rw [this]
    rcases hl l[i] (List.getElem_mem hi) with h | h <;> rw [h] <;> simp [φ_zero, φ_one]
  · rw [List.getD_eq_getElem?_getD, List.getElem?_eq_none (by omega)]
    simp [φ_zero]

theorem algebraMap_injective_K (hF : F.Valid) : Function.Injective (algebraMap (ZMod 2) (K F)) := by
  have _i : Fact (Irreducible (toPoly F.modulus)) := ⟨hF.2.2⟩
  exact FaithfulSMul.algebraMap_injective (ZMod 2) (K F)

/-- Evaluation of a GF(2)-polynomial by the library's Horner rule is evaluation in the field. -/
theorem φ_binaryHorner (hF : F.Valid) (x : Nat) (l : List Nat) :
    φ F (BP.binaryHorner 0 1 F.add F.mul l x) =
      aeval (φ F x) (toPoly (BP.fromCoefficients l)) := by
  have _i : Fact (Irreducible (toPoly F.modulus)) := ⟨hF.2.2⟩
  rw [BP.binaryHorner, List.foldl_reverse]
  induction l with
  | nil => simp [BP.fromCoefficients, bitsToInt, packLE, φ_zero]
  | cons c cs ih =>
    have e : toPoly (BP.fromCoefficients (c :: cs)) =
        (if c ≠ 0 then 1 else 0) + X * toPoly (BP.fromCoefficients cs) := by
      rw [toPoly_half]
      have h1 : BP.fromCoefficients (c :: cs) >>> 1 = BP.fromCoefficients cs := by
        simp only [BP.fromCoefficients, bitsToInt, packLE, Nat.shiftRight_eq_div_pow]
        split <;> omega
      rw [h1]
      congr 1
      simp only [BP.fromCoefficients, bitsToInt, packLE]
      by_cases hc : c = 0
      · simp [hc]
      · simp only [hc, if_false, ne_eq, not_false_eq_true, if_true]
        rw [if_pos (by omega)]
    rw [List.foldr_cons, e, map_add, map_mul, aeval_X, ← ih]
    split <;> simp [φ_add, φ_mul hF, φ_one, mul_comm, add_comm]

theorem minimalPolynomial_spec (hF : F.Valid) {x : Nat} (hx : x < F.order) :
    toPoly (F.minimalPolynomial x) = minpoly (ZMod 2) (φ F x) := by
  classical
  have _i : Fact (Irreducible (toPoly F.modulus)) := ⟨hF.2.2⟩
  have _c := charP_K hF
  have _f := finite_K hF
  obtain ⟨hnd, hmem⟩ := conjugates_spec hF hx
  have hconj_lt : ∀ y ∈ F.conjugates x, y < F.order := by
    intro y hy; obtain ⟨i, rfl⟩ := (hmem y).mp hy; exact (npow_spec hF hx _).1
  -- the set of conjugates in the mathematical field
  set S : Finset (K F) := ((F.conjugates x).map (φ F)).toFinset with hS
  have hndφ : ((F.conjugates x).map (φ F)).Nodup :=
    List.Nodup.map_on (fun a ha b hb h => φ_inj hF (hconj_lt a ha) (hconj_lt b hb) h) hnd
  have hSmem : ∀ s, s ∈ S ↔ ∃ i, s = φ F x ^ (2 ^ i) := by
    intro s
    rw [hS, List.mem_toFinset, List.mem_map]
    constructor
    · rintro ⟨y, hy, rfl⟩
      obtain ⟨i, rfl⟩ := (hmem y).mp hy
      exact ⟨i, (npow_spec hF hx _).2⟩
    · rintro ⟨i, rfl⟩
      exact ⟨F.npow x (2 ^ i), (hmem _).mpr ⟨i, rfl⟩, (npow_spec hF hx _).2⟩
  set g : (K F)[X] := ∏ s ∈ S, (X - C s) with hg
  -- Frobenius invariance
  have hfrobS : S.image (frobenius (K F) 2) = S := by
    apply Finset.eq_of_subset_of_card_le
    · intro s hs
      obtain ⟨t, ht, rfl⟩ := Finset.mem_image.mp hs
      obtain ⟨i, rfl⟩ := (hSmem t).mp ht
      rw [hSmem]
      exact ⟨i + 1, by rw [frobenius_def, ← pow_mul, ← pow_succ]⟩
    · rw [Finset.card_image_of_injective _ (frobenius_inj (K F) 2)]
  have hginv : g.map (frobenius (K F) 2) = g := by
    rw [hg, Polynomial.map_prod]
    simp only [Polynomial.map_sub, map_X, map_C]
    conv_rhs => rw [← hfrobS]
    rw [Finset.prod_image (fun a _ b _ h => frobenius_inj (K F) 2 h)]
  have hcoef : ∀ i, g.coeff i = 0 ∨ g.coeff i = 1 := by
    intro i
    have h1 := congrArg (fun p => p.coeff i) hginv
    simp only [coeff_map, frobenius_def] at h1
    have : g.coeff i * (g.coeff i - 1) = 0 := by ring_nf; rw [h1]; ring
    rcases mul_eq_zero.mp this with h | h
    · exact Or.inl h
    · exact Or.inr (sub_eq_zero.mp h)
  -- the list computed by the program
  have hne : F.conjugates x ≠ [] := by
    intro h
    have := (hmem (F.npow x (2 ^ 0))).mpr ⟨0, rfl⟩
    rw [h] at this; simp at this
  obtain ⟨y, ys, hyys⟩ := List.exists_cons_of_ne_nil hne
  have hval : F.minimalPolynomial x = BP.fromCoefficients (ys.foldl F.convolveMonomial [y, 1]) := by
    unfold minimalPolynomial; rw [hyys]
  set l := ys.foldl F.convolveMonomial [y, 1] with hl
  have hlp : lpoly F l = g := by
    rw [hl, lpoly_foldl hF, hg, hS]
    rw [List.prod_toFinset _ hndφ, hyys, List.map_map, List.map_cons, List.prod_cons]
    have e1 : lpoly F [y, 1] = X - C (φ F y) := by
      simp only [lpoly, φ_one]
      rw [sub_eq_add_neg, ← C_neg, CharTwo.neg_eq]; simp; ring
    rw [e1]
    congr 2
    apply List.map_congr_left
    intro z _
    simp only [Function.comp]
    rw [sub_eq_add_neg, ← C_neg, CharTwo.neg_eq]
  have hl01 : ∀ c ∈ l, c = 0 ∨ c = 1 := by
    intro c hc
    have hclt : c < F.order := by
      apply foldl_convolve_lt hF ys [y, 1] _ c hc
      intro c hc
      simp at hc
      rcases hc with rfl | rfl
      · exact hconj_lt _ (by rw [hyys]; simp)
      · exact one_lt_order hF
    obtain ⟨i, hi, rfl⟩ := List.getElem_of_mem hc
    have h1 := lpoly_coeff (F := F) l i
    have h2 : l.getD i 0 = l[i] := by simp [hi]
    rw [h2, hlp] at h1
    rcases hcoef i with h | h
    · left; exact φ_inj hF hclt (by have := one_lt_order hF; omega) (by rw [← h1, h, φ_zero])
    · right; exact φ_inj hF hclt (one_lt_order hF) (by rw [← h1, h, φ_one])
  have hmap : (toPoly (F.minimalPolynomial x)).map (algebraMap (ZMod 2) (K F)) = g := by
    rw [hval, map_toPoly_fromCoefficients hF l hl01, hlp]
  have hxS : φ F x ∈ S := (hSmem _).mpr ⟨0, by simp⟩
  apply zmod2_dvd_antisymm
  · rw [← map_dvd_map' (algebraMap (ZMod 2) (K F)), hmap, hg]
    have hmin : ((minpoly (ZMod 2) (φ F x)).map (algebraMap (ZMod 2) (K F))) ≠ 0 := by
      rw [Polynomial.map_ne_zero_iff (algebraMap_injective_K hF)]
      exact minpoly.ne_zero (Algebra.IsIntegral.isIntegral _)
    have := (Multiset.prod_X_sub_C_dvd_iff_le_roots hmin S.val).mpr (by
      rw [Multiset.le_iff_subset S.nodup]
      intro s hs
      obtain ⟨i, rfl⟩ := (hSmem s).mp hs
      rw [mem_roots hmin, IsRoot.def, eval_map_algebraMap]
      have h3 : aeval (φ F x ^ 2 ^ i) (minpoly (ZMod 2) (φ F x)) =
          (aeval (φ F x) (minpoly (ZMod 2) (φ F x))) ^ 2 ^ i := by
        rw [← iterateFrobenius_def 2, ← iterateFrobenius_def 2]
        rw [aeval_def, aeval_def, hom_eval₂]
        congr 1
        exact Subsingleton.elim _ _
      rw [h3, minpoly.aeval, zero_pow (by positivity)])
    exact this
  · apply minpoly.dvd
    rw [← eval_map_algebraMap, hmap, hg, eval_prod]
    exact Finset.prod_eq_zero hxS (by simp)

/-! ### find_roots -/

theorem φ_horner (hF : F.Valid) (l : List Nat) (x : Nat) :
    φ F (F.horner l x) = (lpoly F l).eval (φ F x) := by
  rw [horner, List.foldl_reverse]
  induction l with
  | nil => simp [lpoly, φ_zero]
  | cons c cs ih =>
    rw [List.foldr_cons, φ_add, φ_mul hF, ih, lpoly]
    simp; ring

theorem horner_lt (hF : F.Valid) (l : List Nat) (hl : ∀ c ∈ l, c < F.order) (x : Nat) :
    F.horner l x < F.order := by
  rw [horner, List.foldl_reverse]
  have h1 := one_lt_order hF
  induction l with
  | nil => simp; omega
  | cons c cs ih =>
    rw [List.foldr_cons]
    exact add_lt (mul_lt hF _ _) (hl c (by simp))

theorem findRootsLoop_spec (hF : F.Valid) (cs : List Nat) (hcs : ∀ c ∈ cs, c < F.order)
    (hnz : ∃ c ∈ cs, c ≠ 0) (pre rest : List Nat) (h : pre ++ rest = List.range F.order)
    (roots : List Nat) (hroots : roots = pre.filter fun x => F.horner cs x = 0) :
    findRootsLoop F cs rest roots = (List.range F.order).filter fun x => F.horner cs x = 0 := by
  classical
  have _i : Fact (Irreducible (toPoly F.modulus)) := ⟨hF.2.2⟩
  induction rest generalizing pre roots with
  | nil => rw [findRootsLoop, hroots, ← h, List.append_nil]
  | cons x xs ih =>
    have happ : (pre ++ [x]) ++ xs = List.range F.order := by rw [← h]; simp
    rw [findRootsLoop]
    split
    · rename_i hx
      have hr' : roots ++ [x] = (pre ++ [x]).filter fun x => F.horner cs x = 0 := by
        rw [List.filter_append, ← hroots]; simp [hx]
      simp only
      split
      · rename_i hge
        -- the bound on the number of roots shows nothing is lost
        rw [hr', ← happ, List.filter_append (pre ++ [x]) xs]
        suffices hnil : (xs.filter fun x => F.horner cs x = 0) = [] by
          rw [hnil, List.append_nil]
        by_contra hne
        have hlen : 1 ≤ (xs.filter fun x => F.horner cs x = 0).length :=
          List.length_pos_iff.mpr hne
        have hp : lpoly F cs ≠ 0 := by
          obtain ⟨c, hc, hc0⟩ := hnz
          intro h0
          obtain ⟨i, hi, rfl⟩ := List.getElem_of_mem hc
          have h1 := lpoly_coeff (F := F) cs i
          rw [h0, coeff_zero] at h1
          have h2 : cs.getD i 0 = cs[i] := by simp [hi]
          rw [h2] at h1
          exact hc0 ((φ_eq_zero hF (hcs _ hc)).mp h1.symm)
        set all := (List.range F.order).filter fun x => F.horner cs x = 0 with hall
        have hnd : all.Nodup := List.nodup_range.filter _
        have hlt : ∀ a ∈ all, a < F.order := fun a ha => List.mem_range.mp (List.mem_filter.mp ha).1
        have hndφ : (all.map (φ F)).Nodup :=
          List.Nodup.map_on (fun a ha b hb h => φ_inj hF (hlt a ha) (hlt b hb) h) hnd
        have hle : all.length ≤ (lpoly F cs).natDegree := by
          rw [← List.length_map (f := φ F)]
          refine le_trans ?_ (card_roots' (lpoly F cs))
          have : ((all.map (φ F) : List (K F)) : Multiset (K F)) ≤ (lpoly F cs).roots := by
            rw [Multiset.le_iff_subset (Multiset.coe_nodup.mpr hndφ)]
            intro s hs
            rw [Multiset.mem_coe, List.mem_map] at hs
            obtain ⟨a, ha, rfl⟩ := hs
            rw [mem_roots hp, IsRoot.def, ← φ_horner hF]
            have := (List.mem_filter.mp ha).2
            simp only [decide_eq_true_eq] at this
            rw [this, φ_zero]
          simpa using Multiset.card_le_card this
        have hdeg := lpoly_natDegree_lt cs hp
        have hcount : all.length = (roots ++ [x]).length + (xs.filter fun x => F.horner cs x = 0).length := by
          rw [hall, ← happ, List.filter_append (pre ++ [x]) xs, List.length_append, ← hr']
        omega
      · exact ih (pre ++ [x]) happ _ hr'
    · rename_i hx
      apply ih (pre ++ [x]) happ
      rw [List.filter_append, ← hroots]; simp [hx]

theorem findRoots_spec (hF : F.Valid) (cs : List Nat) (hcs : ∀ c ∈ cs, c < F.order)
    (hnz : ∃ c ∈ cs, c ≠ 0) :
    F.findRoots cs = (List.range F.order).filter fun x => F.horner cs x = 0 :=
  findRootsLoop_spec hF cs hcs hnz [] _ rfl [] rfl

end Bifield
end Komm

namespace Komm
open Polynomial
namespace Bifield
variable {F : Bifield}

theorem create_default (d : Int) (h : 1 ≤ d ∧ d ≤ 24) :
    ∃ F, Bifield.create d none = some F ∧ (F.degree : Int) = d := by
  have hi : (d - 1).toNat < 24 := by omega
  have hdeg := BP.defaultTable_degree _ hi
  cases hp : BP.defaultTable[(d - 1).toNat]? with
  | none => rw [hp] at hdeg; simp at hdeg
  | some p =>
    rw [hp] at hdeg
    simp only [Option.map_some, Option.some.injEq] at hdeg
    have hall := List.all_eq_true.mp BP.defaultTable_primitive p (List.mem_of_getElem? hp)
    have hirr := ((BP.isPrimitive_iff p).mp hall).1
    refine ⟨⟨d.toNat, p⟩, ?_, by simp; omega⟩
    have hdp : BP.defaultPrimitivePolynomial d = some p := by
      rw [BP.defaultPrimitivePolynomial, if_pos h, hp]
    have := (create_eq_some_iff d p ⟨d.toNat, p⟩).mpr
      ⟨h.1, rfl, by rw [BP.degree, hdeg]; omega, hirr⟩
    unfold create at this ⊢
    rw [hdp]; exact this

theorem truediv_spec (hF : F.Valid) (a b : Nat) (ha : a < F.order) (hb : b < F.order) :
    (b ≠ 0 → ∃ q, F.truediv a b = some q ∧ q < F.order ∧ F.mul q b = a ∧
      ∀ q' < F.order, F.mul q' b = a → q' = q) ∧
    (b = 0 → F.truediv a b = none) := by
  have _i : Fact (Irreducible (toPoly F.modulus)) := ⟨hF.2.2⟩
  constructor
  · intro hb0
    obtain ⟨i, h1, h2, h3⟩ := inverse_spec hF hb hb0
    have h3' : φ F b * φ F i = 1 := by rw [← φ_mul hF, h3, φ_one]
    refine ⟨F.mul a i, by rw [truediv, h1], mul_lt hF _ _, ?_, ?_⟩
    · apply φ_inj hF (mul_lt hF _ _) ha
      rw [φ_mul hF, φ_mul hF, mul_assoc, mul_comm (φ F i), h3', mul_one]
    · intro q' hq' he
      apply φ_inj hF hq' (mul_lt hF _ _)
      rw [φ_mul hF, ← he, φ_mul hF, mul_assoc, h3', mul_one]
  · rintro rfl
    rw [truediv, inverse_zero hF]

theorem pow_spec (hF : F.Valid) (a : Nat) (ha : a < F.order) (n : Nat) :
    F.pow a 0 = some 1 ∧
    (∃ r, F.pow a n = some r ∧ r < F.order ∧ F.pow a (n + 1 : Nat) = some (F.mul r a)) ∧
    (∀ i, F.inverse a = some i → F.pow a (-(n : Int)) = F.pow i n) ∧
    (F.inverse a = none → F.pow a (-((n : Int) + 1)) = none) := by
  have hnat : ∀ b (k : Nat), F.pow b (k : Int) = some (F.npow b k) := by
    intro b k
    rw [pow, if_neg (by omega)]; rfl
  refine ⟨?_, ?_, ?_, ?_⟩
  · have := hnat a 0
    rw [npow_zero] at this; exact this
  · exact ⟨_, hnat a n, (npow_spec hF ha n).1, by rw [hnat, npow_succ hF ha]⟩
  · intro i hi
    rw [hnat]
    rcases Nat.eq_zero_or_pos n with rfl | hn
    · have := hnat a 0
      rw [npow_zero] at this ⊢; exact this
    · rw [pow, if_pos (by omega), hi, neg_neg]
      rfl
  · intro hi
    rw [pow, if_pos (by omega), hi]

theorem coefficients_from (p : Nat) : BP.fromCoefficients (BP.coefficients p) = p := by
  have h : BP.coefficients p = intToBits .lsbFirst p (max (bitLength p) 1) := rfl
  rw [h, BP.fromCoefficients, bitsToInt_intToBits, Nat.mod_eq_of_lt]
  rw [← bitLength_le_iff]; omega

theorem binaryHorner_lt (hF : F.Valid) (l : List Nat) (x : Nat) :
    BP.binaryHorner 0 1 F.add F.mul l x < F.order := by
  rw [BP.binaryHorner, List.foldl_reverse]
  have h1 := one_lt_order hF
  induction l with
  | nil => simp; omega
  | cons c cs ih =>
    rw [List.foldr_cons]
    split
    · exact add_lt (mul_lt hF _ _) h1
    · exact mul_lt hF _ _

theorem eval_eq_zero_iff (hF : F.Valid) {x : Nat} (hx : x < F.order) (p : Nat) :
    BP.binaryHorner 0 1 F.add F.mul (BP.coefficients p) x = 0 ↔
      toPoly (F.minimalPolynomial x) ∣ toPoly p := by
  have _i : Fact (Irreducible (toPoly F.modulus)) := ⟨hF.2.2⟩
  rw [← φ_eq_zero hF (binaryHorner_lt hF _ _), φ_binaryHorner hF, coefficients_from,
    minimalPolynomial_spec hF hx]
  exact minpoly.dvd_iff.symm

theorem minimalPolynomial_irreducible (hF : F.Valid) {x : Nat} (hx : x < F.order) :
    Irreducible (toPoly (F.minimalPolynomial x)) := by
  have _i : Fact (Irreducible (toPoly F.modulus)) := ⟨hF.2.2⟩
  have _f := finite_K hF
  rw [minimalPolynomial_spec hF hx]
  exact minpoly.irreducible (Algebra.IsIntegral.isIntegral _)

theorem foldr_range_succ_shift {α : Type} (n : Nat) (f : Nat → α → α) (z : α) :
    (List.range (n + 1)).foldr f z = f 0 ((List.range n).foldr (fun i => f (i + 1)) z) := by
  rw [List.range_succ_eq_map, List.foldr_cons, List.foldr_map]

theorem horner_eq_sum (hF : F.Valid) (cs : List Nat) (hcs : ∀ c ∈ cs, c < F.order)
    (x : Nat) (hx : x < F.order) :
    F.horner cs x =
      (List.range cs.length).foldr (fun i acc => F.add (F.mul (cs.getD i 0) (F.npow x i)) acc) 0 := by
  have h1 := one_lt_order hF
  have hlt : ∀ (l : List Nat) (g : Nat → Nat), (l.foldr (fun i acc => F.add (F.mul (g i) (F.npow x i)) acc) 0)
      < F.order := by
    intro l g
    induction l with
    | nil => simp; omega
    | cons i l ih => exact add_lt (mul_lt hF _ _) ih
  apply φ_inj hF (horner_lt hF cs hcs x) (hlt _ _)
  rw [φ_horner hF]
  have key : ∀ (l : List Nat) (k : Nat), φ F ((List.range l.length).foldr
      (fun i acc => F.add (F.mul (l.getD i 0) (F.npow x (i + k))) acc) 0) =
      φ F x ^ k * (lpoly F l).eval (φ F x) := by
    intro l
    induction l with
    | nil => intro k; simp [lpoly, φ_zero]
    | cons c l ih =>
      intro k
      rw [List.length_cons, foldr_range_succ_shift, φ_add, φ_mul hF, (npow_spec hF hx _).2]
      have := ih (k + 1)
      simp only [List.getD_cons_succ, List.getD_cons_zero, lpoly, eval_add, eval_C, eval_mul, eval_X]
      have e : ∀ i, i + 1 + k = i + (k + 1) := fun i => by omega
      simp only [e, this, Nat.zero_add]
      ring
  have := key cs 0
  simp only [Nat.add_zero, pow_zero, one_mul] at this
  exact this.symm

end Bifield
end Komm
