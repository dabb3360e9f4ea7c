import Verif.Lemmas.Rabin
import Verif.Spec.Primitive
import Mathlib.FieldTheory.Finite.Basic

namespace Komm
open Polynomial

theorem adjoinRoot_card (f : (ZMod 2)[X]) (hf : f ≠ 0) : Nat.card (AdjoinRoot f) = 2 ^ f.natDegree := by
  have b := AdjoinRoot.powerBasis hf
  have e := (AdjoinRoot.powerBasis hf).basis.equivFun
  rw [Nat.card_congr e.toEquiv, Nat.card_fun]
  simp

theorem adjoinRoot_finite (f : (ZMod 2)[X]) (hf : f ≠ 0) : Finite (AdjoinRoot f) := by
  apply Nat.finite_of_card_ne_zero
  rw [adjoinRoot_card f hf]; positivity

namespace BP

theorem powerMod_eq_one_iff (a : Nat) (ha : 2 ≤ bitLength a) (e : Nat) :
    powerMod 2 e a = 1 ↔ (AdjoinRoot.root (toPoly a)) ^ e = 1 := by
  have ha0 : a ≠ 0 := by rintro rfl; simp [bitLength] at ha
  have h1 : (1 : (ZMod 2)[X]) % toPoly a = 1 := by
    rw [mod_eq_self_iff (by simpa using ha0), ← toPoly_one, degree_toPoly_lt_iff ha0,
      show bitLength 1 = 1 by decide]; omega
  rw [← toPoly_eq_one, powerMod_spec a ha, toPoly_two]
  conv_lhs => rw [← h1]
  rw [mod_poly_dvd_iff, ← AdjoinRoot.mk_eq_mk, map_pow, AdjoinRoot.mk_X, map_one]

theorem isPrimitive_iff (a : Nat) : isPrimitive a = true ↔ IsPrimitivePoly (toPoly a) := by
  unfold isPrimitive IsPrimitivePoly
  by_cases hirr : isIrreducible a = true
  · have hI := (isIrreducible_iff a).mp hirr
    simp only [hirr, Bool.not_true, Bool.false_eq_true, if_false, hI, true_and]
    have ha : 2 ≤ bitLength a := by
      by_contra h
      have hlt : bitLength a ≤ 1 := by omega
      simp [isIrreducible, hlt] at hirr
    have ha0 : a ≠ 0 := by rintro rfl; simp [bitLength] at ha
    have hdeg : (toPoly a).natDegree = bitLength a - 1 := natDegree_toPoly a
    have _inst : Fact (Irreducible (toPoly a)) := ⟨hI⟩
    by_cases h2 : a = 2
    · subst h2
      simp only [if_true, Bool.false_eq_true, false_iff]
      have hroot : AdjoinRoot.root (toPoly 2) = 0 := by
        rw [← AdjoinRoot.mk_X, AdjoinRoot.mk_eq_zero, toPoly_two]
      rw [hroot, orderOf_zero, hdeg]
      decide
    · simp only [h2, if_false]
      have hroot : AdjoinRoot.root (toPoly a) ≠ 0 := by
        intro h
        rw [← AdjoinRoot.mk_X, AdjoinRoot.mk_eq_zero, ← toPoly_two] at h
        have hx : Irreducible (toPoly 2) := by rw [toPoly_two]; exact irreducible_X
        have := hx.isUnit_or_isUnit (h.choose_spec)
        rcases this with h' | h'
        · exact hI.not_isUnit h'
        · apply h2
          have := (isUnit_iff_eq_one _).mp h'
          have hc := h.choose_spec
          rw [this, mul_one] at hc
          exact (toPoly_injective hc).symm
      have _inst2 := adjoinRoot_finite (toPoly a) (by simpa using ha0)
      let _inst3 := Fintype.ofFinite (AdjoinRoot (toPoly a))
      have hcard : Fintype.card (AdjoinRoot (toPoly a)) = 2 ^ (bitLength a - 1) := by
        rw [← Nat.card_eq_fintype_card, adjoinRoot_card _ (by simpa using ha0), hdeg]
      have hpow : (AdjoinRoot.root (toPoly a)) ^ (2 ^ (bitLength a - 1) - 1) = 1 := by
        rw [← hcard]; exact FiniteField.pow_card_sub_one_eq_one _ hroot
      have hpos : 0 < 2 ^ (bitLength a - 1) - 1 := by
        have : 2 ^ 1 ≤ 2 ^ (bitLength a - 1) := Nat.pow_le_pow_right (by decide) (by omega)
        omega
      rw [hdeg]
      constructor
      · intro h
        apply orderOf_eq_of_pow_and_pow_div_prime hpos hpow
        intro p hp hpd hcon
        simp only [Bool.not_eq_true', List.any_eq_false, beq_iff_eq] at h
        exact h p ((mem_primeFactors_iff _ hpos p).mpr ⟨hp, hpd⟩) ((powerMod_eq_one_iff a ha _).mpr hcon)
      · intro h
        simp only [Bool.not_eq_true', List.any_eq_false, beq_iff_eq]
        intro q hq hcon
        rw [mem_primeFactors_iff _ hpos] at hq
        have h3 := orderOf_dvd_of_pow_eq_one ((powerMod_eq_one_iff a ha _).mp hcon)
        rw [h] at h3
        have h1 : 0 < (2 ^ (bitLength a - 1) - 1) / q := Nat.div_pos (Nat.le_of_dvd hpos hq.2) hq.1.pos
        have h2 := Nat.le_of_dvd h1 h3
        have h3 := Nat.div_lt_self hpos hq.1.one_lt
        omega
  · have hI : ¬ Irreducible (toPoly a) := fun h => hirr ((isIrreducible_iff a).mpr h)
    simp [hirr, hI]

theorem defaultTable_primitive : defaultTable.all isPrimitive = true := by decide +kernel

theorem defaultTable_degree :
    ∀ i < 24, (defaultTable[i]?).map bitLength = some (i + 2) := by decide +kernel

end BP
end Komm

namespace Komm
open Polynomial

theorem primitive_generates {f : (ZMod 2)[X]} (h : IsPrimitivePoly f) (y : AdjoinRoot f) (hy : y ≠ 0) :
    ∃ n : Nat, y = AdjoinRoot.root f ^ n := by
  classical
  have _i : Fact (Irreducible f) := ⟨h.1⟩
  have hf : f ≠ 0 := h.1.ne_zero
  have _f := adjoinRoot_finite f hf
  let _t := Fintype.ofFinite (AdjoinRoot f)
  have hcard : Fintype.card (AdjoinRoot f) = 2 ^ f.natDegree := by
    rw [← Nat.card_eq_fintype_card, adjoinRoot_card f hf]
  have hd : 1 ≤ f.natDegree := by
    have := h.1.natDegree_pos; omega
  have h2 : 2 ^ 1 ≤ 2 ^ f.natDegree := Nat.pow_le_pow_right (by decide) hd
  have hr0 : AdjoinRoot.root f ≠ 0 := by
    intro h0
    have := h.2
    rw [h0, orderOf_zero] at this; omega
  let r : (AdjoinRoot f)ˣ := Units.mk0 _ hr0
  have hor : orderOf r = Fintype.card (AdjoinRoot f)ˣ := by
    rw [Fintype.card_units, hcard, ← h.2, ← orderOf_units]; rfl
  have htop : Subgroup.zpowers r = ⊤ := by
    apply Subgroup.eq_top_of_card_eq
    rw [Nat.card_zpowers, hor, Nat.card_eq_fintype_card]
  have := mem_powers_iff_mem_zpowers.mpr
    ((Subgroup.eq_top_iff' _).mp htop (Units.mk0 y hy))
  obtain ⟨n, hn⟩ := this
  refine ⟨n, ?_⟩
  have := congrArg Units.val hn
  simpa [r] using this.symm

end Komm
