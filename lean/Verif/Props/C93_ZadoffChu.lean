import Verif.Model.ZadoffChu
import Verif.Props.C69_C70_Autocorrelation
import Mathlib.Analysis.SpecialFunctions.Complex.CircleAddChar
import Mathlib.NumberTheory.LegendreSymbol.AddCharacter
import Mathlib.Tactic.LinearCombination
/-! C93: Zadoff–Chu sequences. -/
namespace Komm
open scoped BigOperators

/-- Which parameters are accepted. -/
theorem C93_accepts (length rootIndex : Int) :
    (zadoffChu length rootIndex).isSome ↔ length % 2 = 1 ∧ 1 ≤ rootIndex ∧ rootIndex < length := by
  rw [zadoffChu]
  split_ifs with h1 h2
  · simp; omega
  · simp; omega
  · simp; omega

section
variable {L : Nat} [NeZero L]

/-- `n (n + 1) / 2` modulo an odd `L`. -/
noncomputable def tri (x : ZMod L) : ZMod L := (2 : ZMod L)⁻¹ * (x * (x + 1))

theorem two_inv (hL : L % 2 = 1) : (2 : ZMod L) * (2 : ZMod L)⁻¹ = 1 := by
  have : Nat.Coprime 2 L := by
    rw [Nat.coprime_two_left]
    exact Nat.odd_iff.mpr hL
  have := ZMod.coe_mul_inv_eq_one 2 this
  simpa using this

theorem value_eq (hL : L % 2 = 1) (q n : Nat) :
    Complex.exp (-Complex.I * (Real.pi : ℂ) * (q : ℂ) * (n : ℂ) * ((n : ℂ) + 1) / (L : ℂ)) =
      ZMod.stdAddChar (-((q : ZMod L) * tri (n : ZMod L))) := by
  obtain ⟨t, ht⟩ : ∃ t, n * (n + 1) = 2 * t := by
    have := Nat.even_mul_succ_self n
    rw [even_iff_two_dvd] at this
    exact this
  have e : -((q : ZMod L) * tri (n : ZMod L)) = ((-(q * t : Int) : Int) : ZMod L) := by
    rw [tri]
    have : (n : ZMod L) * ((n : ZMod L) + 1) = 2 * t := by exact_mod_cast congrArg (fun x : Nat => (x : ZMod L)) ht
    rw [this]
    push_cast
    linear_combination (-(q : ZMod L) * t) * two_inv hL
  rw [e, ZMod.stdAddChar_coe]
  congr 1
  have : (n : ℂ) * ((n : ℂ) + 1) = 2 * t := by exact_mod_cast congrArg (fun x : Nat => (x : ℂ)) ht
  rw [mul_assoc _ (n : ℂ), this]
  push_cast
  ring

theorem periodic_eq (hL : L % 2 = 1) (q : Nat) (i : Int) :
    periodic (zadoffChuValues L q) i = ZMod.stdAddChar (-((q : ZMod L) * tri (i : ZMod L))) := by
  have hpos : (0 : Int) < L := by have := NeZero.pos L; omega
  have h0 := Int.emod_nonneg i hpos.ne'
  have h1 := Int.emod_lt_of_pos i hpos
  rw [periodic, zadoffChuValues, List.length_map, List.length_range, List.getD_eq_getElem?_getD, List.getElem?_map,
    List.getElem?_range (by omega), Option.map_some, Option.getD_some, value_eq hL]
  congr 4
  have : (((i % (L : Int)).toNat : Nat) : ZMod L) = (((i % (L : Int)) : Int) : ZMod L) := by
    conv_rhs => rw [← Int.toNat_of_nonneg h0]
    push_cast; rfl
  rw [this, ZMod.intCast_mod]

theorem conj_char (a : ZMod L) : (starRingEnd ℂ) (ZMod.stdAddChar a) = ZMod.stdAddChar (-a) :=
  (AddChar.map_neg_eq_conj _ _).symm

theorem sum_range_zmod (f : ZMod L → ℂ) : ∑ i ∈ Finset.range L, f ((i : Int) : ZMod L) = ∑ a, f a := by
  rw [Finset.sum_range]
  refine Fintype.sum_bijective (fun i : Fin L => (((i : Nat) : Int) : ZMod L)) ?_ _ _ (fun _ => rfl)
  rw [Fintype.bijective_iff_injective_and_card]
  constructor
  · intro a b h
    simp only [Int.cast_natCast] at h
    rw [ZMod.natCast_eq_natCast_iff', Nat.mod_eq_of_lt a.2, Nat.mod_eq_of_lt b.2] at h
    exact Fin.ext h
  · simp [ZMod.card]

theorem char_sum (b : ZMod L) : ∑ x : ZMod L, (ZMod.stdAddChar (x * b) : ℂ) = if b = 0 then (L : ℂ) else 0 := by
  rw [AddChar.sum_mulShift b (ZMod.isPrimitive_stdAddChar L), ZMod.card]
  push_cast
  rfl

end

theorem zadoffChu_some {length rootIndex : Int} {z : List ℂ} (hz : zadoffChu length rootIndex = some z) :
    ∃ L q : Nat, length = L ∧ rootIndex = q ∧ L % 2 = 1 ∧ 1 ≤ q ∧ q < L ∧ z = zadoffChuValues L q := by
  rw [zadoffChu] at hz
  split_ifs at hz with h1 h2
  rw [Option.some.injEq] at hz
  exact ⟨length.toNat, rootIndex.toNat, by omega, by omega, by omega, by omega, by omega, hz.symm⟩

/-- The sequence has the requested length, and every entry is given by the documented formula; the periodic extension is given by the
same formula at every integer, so that the length is a period of it. -/
theorem C93_formula (length rootIndex : Int) (z : List ℂ) (hz : zadoffChu length rootIndex = some z) :
    (z.length : Int) = length ∧ ∀ n : Int,
      periodic z n = Complex.exp (-Complex.I * Real.pi * rootIndex * n * (n + 1) / length) := by
  obtain ⟨L, q, rfl, rfl, hL, h1, h2, rfl⟩ := zadoffChu_some hz
  haveI : NeZero L := ⟨by omega⟩
  refine ⟨by simp [zadoffChuValues], fun n => ?_⟩
  rw [periodic_eq hL]
  obtain ⟨t, ht⟩ : ∃ t : Int, n * (n + 1) = 2 * t := by
    have := Int.even_mul_succ_self n
    rw [even_iff_two_dvd] at this
    exact this
  have e : -((q : ZMod L) * tri (n : ZMod L)) = ((-(q * t : Int) : Int) : ZMod L) := by
    rw [tri]
    have : (n : ZMod L) * ((n : ZMod L) + 1) = 2 * t := by exact_mod_cast congrArg (fun x : Int => (x : ZMod L)) ht
    rw [this]
    push_cast
    linear_combination (-(q : ZMod L) * t) * two_inv hL
  rw [e, ZMod.stdAddChar_coe]
  congr 1
  have : (n : ℂ) * ((n : ℂ) + 1) = 2 * t := by exact_mod_cast congrArg (fun x : Int => (x : ℂ)) ht
  rw [mul_assoc _ (n : ℂ), this]
  push_cast
  ring

/-- Constant amplitude. -/
theorem C93_amplitude (length rootIndex : Int) (z : List ℂ) (hz : zadoffChu length rootIndex = some z) : ∀ x ∈ z, ‖x‖ = 1 := by
  obtain ⟨L, q, rfl, rfl, hL, h1, h2, rfl⟩ := zadoffChu_some hz
  haveI : NeZero L := ⟨by omega⟩
  intro x hx
  rw [zadoffChuValues, List.mem_map] at hx
  obtain ⟨n, _, rfl⟩ := hx
  rw [value_eq hL]
  exact AddChar.norm_apply _ _

theorem autocorrelation_char {L : Nat} [NeZero L] (hL : L % 2 = 1) (q : Nat) (l : Int) :
    ∃ w : ℂ, ‖w‖ = 1 ∧ (l = 0 → w = 1) ∧ cyclicAutocorrelation (starRingEnd ℂ) (zadoffChuValues L q) l =
      w * if (q : ZMod L) * (l : ZMod L) = 0 then (L : ℂ) else 0 := by
  refine ⟨ZMod.stdAddChar ((q : ZMod L) * tri (-(l : ZMod L))), AddChar.norm_apply _ _, ?_, ?_⟩
  · rintro rfl; simp [tri]
  rw [C70_cyclic_definition, show (zadoffChuValues L q).length = L by simp [zadoffChuValues]]
  have e : ∀ i : Nat, periodic (zadoffChuValues L q) (i : Int) * (starRingEnd ℂ) (periodic (zadoffChuValues L q) ((i : Int) - l)) =
      (fun a : ZMod L => ZMod.stdAddChar ((q : ZMod L) * tri (-(l : ZMod L))) * ZMod.stdAddChar (a * (-((q : ZMod L) * (l : ZMod L)))))
        ((i : Int) : ZMod L) := by
    intro i
    simp only
    rw [periodic_eq hL, periodic_eq hL, conj_char, neg_neg, ← AddChar.map_add_eq_mul, ← AddChar.map_add_eq_mul]
    congr 1
    simp only [tri]
    push_cast
    have h2 := two_inv (L := L) hL
    linear_combination ((q : ZMod L) * (i : ZMod L) * l) * (-1 : ZMod L) * h2
  rw [Finset.sum_congr rfl fun i _ => e i]
  refine (sum_range_zmod (fun a : ZMod L => ZMod.stdAddChar ((q : ZMod L) * tri (-(l : ZMod L))) *
    ZMod.stdAddChar (a * (-((q : ZMod L) * (l : ZMod L)))))).trans ?_
  rw [← Finset.mul_sum, char_sum]
  simp only [neg_eq_zero]

/-- Zero autocorrelation: if the root index is coprime to the length, the cyclic autocorrelation is the length at the multiples of the
length and zero at all other shifts. -/
theorem C93_autocorrelation (length rootIndex : Int) (z : List ℂ) (hz : zadoffChu length rootIndex = some z)
    (hq : IsCoprime rootIndex length) (l : Int) :
    ‖cyclicAutocorrelation (starRingEnd ℂ) z l‖ = (if length ∣ l then (length : ℝ) else 0) ∧
    cyclicAutocorrelation (starRingEnd ℂ) z 0 = length := by
  obtain ⟨L, q, rfl, rfl, hL, h1, h2, rfl⟩ := zadoffChu_some hz
  haveI : NeZero L := ⟨by omega⟩
  have hiff : (q : ZMod L) * (l : ZMod L) = 0 ↔ (L : Int) ∣ l := by
    have : (q : ZMod L) * (l : ZMod L) = (((q : Int) * l : Int) : ZMod L) := by push_cast; rfl
    rw [this, ZMod.intCast_zmod_eq_zero_iff_dvd]
    exact ⟨fun h => hq.symm.dvd_of_dvd_mul_left h, fun h => Dvd.dvd.mul_left h _⟩
  obtain ⟨w, hw, -, h⟩ := autocorrelation_char hL q l
  obtain ⟨w0, -, hw0, h0⟩ := autocorrelation_char hL q 0
  constructor
  · rw [h, norm_mul, hw, one_mul]
    by_cases hd : (L : Int) ∣ l
    · rw [if_pos hd, if_pos (hiff.mpr hd)]; simp
    · rw [if_neg hd, if_neg (fun hc => hd (hiff.mp hc))]; simp
  · rw [h0, hw0 rfl]; simp

/-- In general the magnitude is the length where the length divides the product of root index and shift, and zero elsewhere: the
coprimality is needed. -/
theorem C93_autocorrelation_general (length rootIndex : Int) (z : List ℂ) (hz : zadoffChu length rootIndex = some z) (l : Int) :
    ‖cyclicAutocorrelation (starRingEnd ℂ) z l‖ = if length ∣ rootIndex * l then (length : ℝ) else 0 := by
  obtain ⟨L, q, rfl, rfl, hL, h1, h2, rfl⟩ := zadoffChu_some hz
  haveI : NeZero L := ⟨by omega⟩
  obtain ⟨w, hw, -, h⟩ := autocorrelation_char hL q l
  have hiff : (q : ZMod L) * (l : ZMod L) = 0 ↔ (L : Int) ∣ (q : Int) * l := by
    have : (q : ZMod L) * (l : ZMod L) = (((q : Int) * l : Int) : ZMod L) := by push_cast; rfl
    rw [this, ZMod.intCast_zmod_eq_zero_iff_dvd]
  rw [h, norm_mul, hw, one_mul]
  by_cases hd : (L : Int) ∣ (q : Int) * l
  · rw [if_pos hd, if_pos (hiff.mpr hd)]; simp
  · rw [if_neg hd, if_neg (fun hc => hd (hiff.mp hc))]; simp

/-- Constant cross-correlation: if the difference of the root indices is coprime to the length, the cyclic cross-correlation of the two
sequences has magnitude `√length` at every shift. -/
theorem C93_cross_correlation (length q q' : Int) (z z' : List ℂ) (hz : zadoffChu length q = some z) (hz' : zadoffChu length q' = some z')
    (hq : IsCoprime (q' - q) length) (l : Int) :
    ‖∑ n ∈ Finset.range z.length, periodic z (n : Int) * (starRingEnd ℂ) (periodic z' ((n : Int) - l))‖ = Real.sqrt length := by
  obtain ⟨L, q, rfl, rfl, hL, h1, h2, rfl⟩ := zadoffChu_some hz
  obtain ⟨L', q', e, rfl, -, h1', h2', rfl⟩ := zadoffChu_some hz'
  have : L = L' := by exact_mod_cast e
  subst this
  haveI : NeZero L := ⟨by omega⟩
  rw [show (zadoffChuValues L q).length = L by simp [zadoffChuValues]]
  have h2i := two_inv (L := L) hL
  set D : ZMod L := (q' : ZMod L) - (q : ZMod L) with hD
  have hDu : IsUnit D := by
    obtain ⟨a, b, hab⟩ := hq
    have := congrArg (fun x : Int => (x : ZMod L)) hab
    push_cast at this
    rw [ZMod.natCast_self, mul_zero, add_zero] at this
    exact IsUnit.of_mul_eq_one _ ((mul_comm _ _).trans this)
  -- the phase as a function of the position
  set F : ZMod L → ZMod L := fun a => -((q : ZMod L) * tri a) + (q' : ZMod L) * tri (a - (l : ZMod L)) with hF
  have e1 : ∑ n ∈ Finset.range L, periodic (zadoffChuValues L q) (n : Int) *
      (starRingEnd ℂ) (periodic (zadoffChuValues L q') ((n : Int) - l)) = ∑ a : ZMod L, ZMod.stdAddChar (F a) := by
    rw [← sum_range_zmod]
    apply Finset.sum_congr rfl
    intro n _
    rw [periodic_eq hL, periodic_eq hL, conj_char, neg_neg, ← AddChar.map_add_eq_mul, hF]
    push_cast
    rfl
  rw [e1]
  have hsq : (∑ a : ZMod L, ZMod.stdAddChar (F a)) * (starRingEnd ℂ) (∑ a : ZMod L, ZMod.stdAddChar (F a)) = (L : ℂ) := by
    rw [map_sum, Finset.sum_mul_sum]
    have e2 : ∀ b a : ZMod L, (ZMod.stdAddChar (F a) : ℂ) * (starRingEnd ℂ) (ZMod.stdAddChar (F b)) = ZMod.stdAddChar (F a - F b) := by
      intro b a
      rw [conj_char, ← AddChar.map_add_eq_mul, sub_eq_add_neg]
    have e3 : ∑ a : ZMod L, ∑ b : ZMod L, (ZMod.stdAddChar (F a) : ℂ) * (starRingEnd ℂ) (ZMod.stdAddChar (F b)) =
        ∑ d : ZMod L, ∑ b : ZMod L, (ZMod.stdAddChar (F (b + d) - F b) : ℂ) := by
      rw [Finset.sum_comm, Finset.sum_comm (s := (Finset.univ : Finset (ZMod L))) (t := (Finset.univ : Finset (ZMod L)))
        (f := fun d b => (ZMod.stdAddChar (F (b + d) - F b) : ℂ))]
      apply Finset.sum_congr rfl
      intro b _
      rw [← Equiv.sum_comp (Equiv.addLeft b)]
      apply Finset.sum_congr rfl
      intro d _
      rw [e2]; rfl
    have e4 : ∀ b d : ZMod L, F (b + d) - F b = F d - F 0 + b * (D * d) := by
      intro b d
      simp only [hF, tri, hD]
      linear_combination (((q' : ZMod L) - q) * b * d) * h2i
    rw [e3]
    have e5 : ∀ d : ZMod L, ∑ b : ZMod L, (ZMod.stdAddChar (F (b + d) - F b) : ℂ) =
        ZMod.stdAddChar (F d - F 0) * if d = 0 then (L : ℂ) else 0 := by
      intro d
      have hz0 : D * d = 0 ↔ d = 0 := hDu.mul_right_eq_zero
      rw [Finset.sum_congr rfl fun b _ => by rw [e4 b d, AddChar.map_add_eq_mul], ← Finset.mul_sum, char_sum]
      simp only [hz0]
    rw [Finset.sum_congr rfl fun d _ => e5 d, Finset.sum_eq_single 0]
    · simp
    · intro d _ hd
      rw [if_neg hd, mul_zero]
    · simp
  rw [Complex.mul_conj, Complex.normSq_eq_norm_sq] at hsq
  have hsq' : ‖∑ a : ZMod L, (ZMod.stdAddChar (F a) : ℂ)‖ ^ 2 = (L : ℝ) := by exact_mod_cast hsq
  rw [← Real.sqrt_sq (norm_nonneg _), hsq']
  push_cast
  rfl

/-- Concrete cases: the documented example, and a root index that is not coprime to the length. -/
example : (zadoffChu 5 1).isSome ∧ IsCoprime (1 : Int) 5 ∧ (zadoffChu 9 3).isSome ∧ (9 : Int) ∣ 3 * 3 := by
  refine ⟨(C93_accepts 5 1).mpr (by norm_num), isCoprime_one_left, (C93_accepts 9 3).mpr (by norm_num), by norm_num⟩

/-- A finding that the documentation mentions: `ZadoffChuSequence(9, 3)` is accepted and its cyclic autocorrelation at shift 3 is 9 in
magnitude. -/
theorem C93_not_coprime : ∃ z, zadoffChu 9 3 = some z ∧ ‖cyclicAutocorrelation (starRingEnd ℂ) z 3‖ = 9 := by
  obtain ⟨z, hz⟩ := Option.isSome_iff_exists.mp ((C93_accepts 9 3).mpr (by norm_num))
  refine ⟨z, hz, ?_⟩
  rw [C93_autocorrelation_general 9 3 z hz 3, if_pos (by norm_num)]
  norm_num

example : IsCoprime ((3 : Int) - 1) 5 := ⟨-2, 1, by norm_num⟩

end Komm
