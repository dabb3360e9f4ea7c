import Verif.Spec.Primitive
import Mathlib.RingTheory.Polynomial.Basic
import Mathlib.Algebra.Polynomial.Reverse
import Mathlib.Algebra.Polynomial.AlgebraMap
import Mathlib.Algebra.Polynomial.FieldDivision
import Mathlib.RingTheory.AdjoinRoot
import Mathlib.LinearAlgebra.Pi
import Mathlib.Algebra.Field.ZMod
/-! Solutions of linear recurrences over GF(2) whose feedback polynomial is primitive. -/
namespace Komm.Shift
open Polynomial

/-- The left shift of infinite sequences. -/
def E : Module.End (ZMod 2) (ℕ → ZMod 2) := LinearMap.funLeft (ZMod 2) (ZMod 2) (fun i : ℕ => i + 1)

theorem E_pow (n : ℕ) (s : ℕ → ZMod 2) (i : ℕ) : (E ^ n) s i = s (i + n) := by
  induction n generalizing s i with
  | zero => simp
  | succ n ih =>
    rw [pow_succ, Module.End.mul_apply, ih]
    simp only [E, LinearMap.funLeft_apply]
    congr 1

theorem aeval_apply (p : (ZMod 2)[X]) (s : ℕ → ZMod 2) (i : ℕ) :
    (aeval E p s) i = ∑ j ∈ Finset.range (p.natDegree + 1), p.coeff j * s (i + j) := by
  rw [aeval_eq_sum_range]
  simp [LinearMap.sum_apply, Finset.sum_apply, E_pow]

/-- `s` satisfies the recurrence of the feedback polynomial `f`: `Σ_t f_t s(i + m - t) = 0`. -/
def Sat (f : (ZMod 2)[X]) (s : ℕ → ZMod 2) : Prop :=
  ∀ i, ∑ t ∈ Finset.range (f.natDegree + 1), f.coeff t * s (i + (f.natDegree - t)) = 0

theorem natDegree_reverse {f : (ZMod 2)[X]} (h0 : f.coeff 0 ≠ 0) : f.reverse.natDegree = f.natDegree := by
  rw [reverse_natDegree, natTrailingDegree_eq_zero.mpr (Or.inr h0), Nat.sub_zero]

theorem coeff_reverse_le (f : (ZMod 2)[X]) (j : ℕ) (hj : j ≤ f.natDegree) : f.reverse.coeff j = f.coeff (f.natDegree - j) := by
  rw [coeff_reverse, revAt_le hj]

theorem sat_iff {f : (ZMod 2)[X]} (h0 : f.coeff 0 ≠ 0) (s : ℕ → ZMod 2) : Sat f s ↔ aeval E f.reverse s = 0 := by
  rw [funext_iff]
  apply forall_congr'
  intro i
  rw [aeval_apply, natDegree_reverse h0, Pi.zero_apply, ← Finset.sum_range_reflect]
  have : ∀ j ∈ Finset.range (f.natDegree + 1), f.coeff (f.natDegree + 1 - 1 - j) * s (i + (f.natDegree - (f.natDegree + 1 - 1 - j))) =
      f.reverse.coeff j * s (i + j) := by
    intro j hj
    rw [Finset.mem_range] at hj
    rw [coeff_reverse_le f j (by omega), Nat.add_sub_cancel, show f.natDegree - (f.natDegree - j) = j by omega]
  rw [Finset.sum_congr rfl this]

theorem reverse_reverse {f : (ZMod 2)[X]} (h0 : f.coeff 0 ≠ 0) : f.reverse.reverse = f := by
  ext j
  by_cases hj : j ≤ f.natDegree
  · rw [coeff_reverse_le _ _ (by rw [natDegree_reverse h0]; exact hj), natDegree_reverse h0,
      coeff_reverse_le _ _ (Nat.sub_le _ _)]
    congr 1; omega
  · rw [coeff_eq_zero_of_natDegree_lt, coeff_eq_zero_of_natDegree_lt (by omega)]
    have : f.reverse.coeff 0 ≠ 0 := by
      rw [coeff_zero_reverse]
      exact leadingCoeff_ne_zero.mpr (by rintro rfl; simp at h0)
    rw [natDegree_reverse this, natDegree_reverse h0]; omega

theorem coeff_zero_reverse_ne {f : (ZMod 2)[X]} (h : f ≠ 0) : f.reverse.coeff 0 ≠ 0 := by
  rw [coeff_zero_reverse]
  exact leadingCoeff_ne_zero.mpr h

theorem reverse_irreducible {f : (ZMod 2)[X]} (h0 : f.coeff 0 ≠ 0) (hf : Irreducible f) : Irreducible f.reverse := by
  have unit_of : ∀ a : (ZMod 2)[X], a.coeff 0 ≠ 0 → IsUnit a.reverse → IsUnit a := by
    intro a ha hu
    have h1 := natDegree_eq_zero_of_isUnit hu
    rw [natDegree_reverse ha] at h1
    rw [eq_C_of_natDegree_eq_zero h1]
    exact (isUnit_iff_ne_zero.mpr ha).map C
  constructor
  · intro hu
    exact hf.not_isUnit (unit_of f h0 hu)
  · intro a b hab
    have hc : f.reverse.coeff 0 ≠ 0 := coeff_zero_reverse_ne hf.ne_zero
    rw [hab, mul_coeff_zero] at hc
    have ha := left_ne_zero_of_mul hc
    have hb := right_ne_zero_of_mul hc
    have := congrArg reverse hab
    rw [reverse_reverse h0, reverse_mul_of_domain] at this
    rcases hf.isUnit_or_isUnit this with h | h
    · exact Or.inl (unit_of a ha h)
    · exact Or.inr (unit_of b hb h)

theorem reverse_X_pow_sub_one (n : ℕ) (hn : 0 < n) : (X ^ n - 1 : (ZMod 2)[X]).reverse = X ^ n - 1 := by
  have hd : (X ^ n - 1 : (ZMod 2)[X]).natDegree = n := by
    have := natDegree_X_pow_sub_C (n := n) (r := (1 : ZMod 2))
    rwa [C_1] at this
  ext j
  by_cases hj : j ≤ n
  · rw [coeff_reverse_le _ _ (by rw [hd]; exact hj), hd]
    simp only [coeff_sub, coeff_X_pow, coeff_one]
    by_cases h1 : j = 0
    · subst h1
      rw [if_pos (by omega), if_neg (by omega), if_neg (by omega), if_pos rfl]
      decide
    · by_cases h2 : j = n
      · subst h2
        rw [if_neg (by omega), if_pos (by omega), if_pos rfl, if_neg h1]
        decide
      · rw [if_neg (by omega), if_neg (by omega), if_neg h2, if_neg h1]
  · rw [coeff_eq_zero_of_natDegree_lt, coeff_eq_zero_of_natDegree_lt (by rw [hd]; omega)]
    refine lt_of_le_of_lt (reverse_natDegree_le _) ?_
    rw [hd]; omega

theorem reverse_dvd {f : (ZMod 2)[X]} (n : ℕ) (hn : 0 < n) (h : f ∣ X ^ n - 1) : f.reverse ∣ X ^ n - 1 := by
  obtain ⟨q, hq⟩ := h
  rw [← reverse_X_pow_sub_one n hn, hq, reverse_mul_of_domain]
  exact dvd_mul_right _ _

variable {f : (ZMod 2)[X]}

theorem primitive_coeff_zero (hf : IsPrimitivePoly f) : f.coeff 0 ≠ 0 := by
  intro h0
  have hX : X ∣ f := X_dvd_iff.mpr h0
  have hass : Associated X f := (irreducible_X.associated_of_dvd hf.1 hX)
  have hroot : AdjoinRoot.root f = 0 := by
    rw [← AdjoinRoot.mk_X, AdjoinRoot.mk_eq_zero]
    exact hass.symm.dvd
  have ho := hf.2
  have hd : 0 < f.natDegree := hf.1.natDegree_pos
  haveI : Nontrivial (AdjoinRoot f) := AdjoinRoot.nontrivial f (by
    rw [degree_eq_natDegree hf.1.ne_zero]
    exact_mod_cast hd.ne')
  rw [hroot, orderOf_zero] at ho
  have : 2 ^ 1 ≤ 2 ^ f.natDegree := Nat.pow_le_pow_right (by norm_num) hd
  omega

theorem dvd_iff_pow (n : ℕ) : f ∣ X ^ n - 1 ↔ AdjoinRoot.root f ^ n = 1 := by
  rw [← AdjoinRoot.mk_eq_zero, map_sub, map_pow, AdjoinRoot.mk_X, map_one, sub_eq_zero]

theorem period_iff (hf : IsPrimitivePoly f) (s : ℕ → ZMod 2) (hs : Sat f s) (h0 : s ≠ 0) (n : ℕ) :
    (∀ i, s (i + n) = s i) ↔ 2 ^ f.natDegree - 1 ∣ n := by
  have hc := primitive_coeff_zero hf
  rw [sat_iff hc] at hs
  constructor
  · intro hper
    rcases Nat.eq_zero_or_pos n with rfl | hn
    · exact dvd_zero _
    have hann : aeval E (X ^ n - 1 : (ZMod 2)[X]) s = 0 := by
      rw [map_sub, map_pow, aeval_X, map_one, LinearMap.sub_apply, Module.End.one_apply, sub_eq_zero]
      funext i
      rw [E_pow]; exact hper i
    have hirr := reverse_irreducible hc hf.1
    have hd : f.reverse ∣ X ^ n - 1 := by
      by_contra hnd
      have hcop := (hirr.coprime_iff_not_dvd).mpr hnd
      obtain ⟨a, b, hab⟩ := hcop
      apply h0
      have := congrArg (fun p => aeval E p s) hab
      simp only [map_add, map_mul, map_one, LinearMap.add_apply, Module.End.mul_apply, Module.End.one_apply, hs, map_zero,
        zero_add] at this
      rw [hann, map_zero] at this
      exact this.symm
    have := reverse_dvd n hn hd
    rw [reverse_reverse hc, dvd_iff_pow] at this
    rw [← hf.2]
    exact orderOf_dvd_of_pow_eq_one this
  · intro hdvd
    rcases Nat.eq_zero_or_pos n with rfl | hn
    · simp
    rw [← hf.2, orderOf_dvd_iff_pow_eq_one, ← dvd_iff_pow] at hdvd
    obtain ⟨q, hq⟩ := reverse_dvd n hn hdvd
    have : aeval E (X ^ n - 1 : (ZMod 2)[X]) s = 0 := by
      rw [hq, mul_comm, map_mul, Module.End.mul_apply, hs, map_zero]
    intro i
    rw [map_sub, map_pow, aeval_X, map_one, LinearMap.sub_apply, Module.End.one_apply, sub_eq_zero] at this
    exact (E_pow n s i).symm.trans (congrFun this i)

/-- A solution is determined by its first `m` terms. -/
theorem sat_ext (h0 : f.coeff 0 ≠ 0) (s t : ℕ → ZMod 2) (hs : Sat f s) (ht : Sat f t) (h : ∀ i < f.natDegree, s i = t i) : s = t := by
  have hc : f.coeff 0 = 1 := (by decide : ∀ x : ZMod 2, x ≠ 0 → x = 1) _ h0
  have solve : ∀ u, Sat f u → ∀ i, u (i + f.natDegree) = -∑ j ∈ Finset.range f.natDegree, f.coeff (j + 1) * u (i + (f.natDegree - (j + 1))) := by
    intro u hu i
    have := hu i
    rw [Finset.sum_range_succ', hc, one_mul, Nat.sub_zero] at this
    exact eq_neg_of_add_eq_zero_right this
  funext i
  induction i using Nat.strong_induction_on with
  | _ i ih =>
    by_cases hi : i < f.natDegree
    · exact h i hi
    · obtain ⟨k, rfl⟩ : ∃ k, i = k + f.natDegree := ⟨i - f.natDegree, by omega⟩
      rw [solve s hs, solve t ht]
      congr 1
      apply Finset.sum_congr rfl
      intro j hj
      rw [Finset.mem_range] at hj
      rw [ih _ (by omega)]

theorem sat_shift (s : ℕ → ZMod 2) (hs : Sat f s) (a : ℕ) : Sat f (fun i => s (i + a)) := by
  intro i
  have := hs (i + a)
  rw [← this]
  apply Finset.sum_congr rfl
  intro t _
  dsimp only
  congr 2
  omega

theorem sat_add (s t : ℕ → ZMod 2) (hs : Sat f s) (ht : Sat f t) : Sat f (s + t) := by
  intro i
  have h1 := hs i
  have h2 := ht i
  simp only [Pi.add_apply, mul_add, Finset.sum_add_distrib, h1, h2, add_zero]

/-- The window of length `m` at position `i`. -/
def window (m : ℕ) (s : ℕ → ZMod 2) (i : ℕ) : Fin m → ZMod 2 := fun j => s (i + j)

theorem window_inj (h0 : f.coeff 0 ≠ 0) (s : ℕ → ZMod 2) (hs : Sat f s) (i j : ℕ)
    (h : window f.natDegree s i = window f.natDegree s j) (k : ℕ) : s (k + i) = s (k + j) := by
  have := sat_ext h0 _ _ (sat_shift s hs i) (sat_shift s hs j) (by
    intro k hk
    have := congrFun h ⟨k, hk⟩
    simp only [window] at this
    rw [Nat.add_comm k i, Nat.add_comm k j]; exact this)
  exact congrFun this k

theorem windows_bijective (hf : IsPrimitivePoly f) (s : ℕ → ZMod 2) (hs : Sat f s) (h0 : s ≠ 0) :
    Set.BijOn (window f.natDegree s) (Finset.range (2 ^ f.natDegree - 1) : Finset ℕ) {w | w ≠ 0} := by
  have hc := primitive_coeff_zero hf
  have hmaps : ∀ i, window f.natDegree s i ≠ 0 := by
    intro i hi
    apply h0
    have hz : ∀ k, s (k + i) = 0 := by
      intro k
      have := sat_ext hc _ _ (sat_shift s hs i) (show Sat f (fun _ => 0) from fun _ => by simp) (by
        intro k hk
        have := congrFun hi ⟨k, hk⟩
        simp only [window, Pi.zero_apply] at this
        rw [Nat.add_comm k i]; exact this)
      exact congrFun this k
    have hN : 2 ^ f.natDegree - 1 ∣ (2 ^ f.natDegree - 1) * i := dvd_mul_right _ _
    have hper := (period_iff hf s hs h0 _).mpr hN
    funext k
    rw [← hper k]
    have hd : 0 < f.natDegree := hf.1.natDegree_pos
    have h2 : 2 ^ 1 ≤ 2 ^ f.natDegree := Nat.pow_le_pow_right (by norm_num) hd
    have hle : i ≤ (2 ^ f.natDegree - 1) * i := Nat.le_mul_of_pos_left _ (by omega)
    rw [show k + (2 ^ f.natDegree - 1) * i = (k + (2 ^ f.natDegree - 1) * i - i) + i by omega, hz]
    rfl
  have hinj : Set.InjOn (window f.natDegree s) (Finset.range (2 ^ f.natDegree - 1) : Finset ℕ) := by
    have key : ∀ i j, i ≤ j → j < 2 ^ f.natDegree - 1 → window f.natDegree s i = window f.natDegree s j → i = j := by
      intro i j hij hj h
      have h1 := window_inj hc s hs i j h
      have hper : ∀ k, s (k + (j - i)) = s k := by
        have hu : Sat f (fun k => s (k + (j - i))) := sat_shift s hs _
        have hN : 2 ^ f.natDegree - 1 ∣ (2 ^ f.natDegree - 1) * i := dvd_mul_right _ _
        have hpN := (period_iff hf s hs h0 _).mpr hN
        have h2 : i ≤ (2 ^ f.natDegree - 1) * i := by
          rcases Nat.eq_zero_or_pos i with rfl | hi
          · simp
          · exact Nat.le_mul_of_pos_left _ (by omega)
        intro k
        rw [← hpN k, ← hpN (k + (j - i))]
        have := h1 (k + (2 ^ f.natDegree - 1) * i - i)
        rw [show k + (2 ^ f.natDegree - 1) * i - i + i = k + (2 ^ f.natDegree - 1) * i by omega] at this
        rw [this]
        congr 1; omega
      have := (period_iff hf s hs h0 _).mp hper
      have := Nat.eq_zero_of_dvd_of_lt this (by omega)
      omega
    intro i hi j hj h
    rw [Finset.mem_coe, Finset.mem_range] at hi hj
    rcases Nat.le_total i j with hle | hle
    · exact key i j hle hj h
    · exact (key j i hle hi h.symm).symm
  refine ⟨fun i _ => hmaps i, hinj, ?_⟩
  have hcard : (Finset.univ.filter fun w : Fin f.natDegree → ZMod 2 => w ≠ 0).card = 2 ^ f.natDegree - 1 := by
    rw [Finset.filter_ne' Finset.univ (0 : Fin f.natDegree → ZMod 2), Finset.card_erase_of_mem (Finset.mem_univ _),
      Finset.card_univ, Fintype.card_fun, ZMod.card, Fintype.card_fin]
  have himg : (Finset.range (2 ^ f.natDegree - 1)).image (window f.natDegree s) =
      Finset.univ.filter fun w : Fin f.natDegree → ZMod 2 => w ≠ 0 := by
    apply Finset.eq_of_subset_of_card_le
    · intro w hw
      rw [Finset.mem_image] at hw
      obtain ⟨i, _, rfl⟩ := hw
      simp [hmaps i]
    · rw [hcard, Finset.card_image_of_injOn hinj, Finset.card_range]
  intro w hw
  have : w ∈ (Finset.range (2 ^ f.natDegree - 1)).image (window f.natDegree s) := by
    rw [himg]; simpa using hw
  rw [Finset.mem_image] at this
  obtain ⟨i, h1, h2⟩ := this
  exact ⟨i, Finset.mem_coe.mpr h1, h2⟩

/-- One period contains `2^(m-1)` ones. -/
theorem ones (hf : IsPrimitivePoly f) (s : ℕ → ZMod 2) (hs : Sat f s) (h0 : s ≠ 0) :
    ((Finset.range (2 ^ f.natDegree - 1)).filter fun i => s i = 1).card = 2 ^ (f.natDegree - 1) := by
  have hb := windows_bijective hf s hs h0
  have hd : 0 < f.natDegree := hf.1.natDegree_pos
  have e : ((Finset.range (2 ^ f.natDegree - 1)).filter fun i => s i = 1).card =
      (Finset.univ.filter fun w : Fin f.natDegree → ZMod 2 => w ⟨0, hd⟩ = 1).card := by
    apply Finset.card_bij (fun i _ => window f.natDegree s i)
    · intro i hi
      rw [Finset.mem_filter] at hi
      rw [Finset.mem_filter]
      exact ⟨Finset.mem_univ _, hi.2⟩
    · intro i hi j hj h
      rw [Finset.mem_filter] at hi hj
      exact hb.2.1 (Finset.mem_coe.mpr hi.1) (Finset.mem_coe.mpr hj.1) h
    · intro w hw
      rw [Finset.mem_filter] at hw
      have hw0 : w ≠ 0 := by
        rintro rfl
        exact absurd hw.2 (by simp)
      obtain ⟨i, h1, h2⟩ := hb.2.2 hw0
      refine ⟨i, ?_, h2⟩
      rw [Finset.mem_filter]
      refine ⟨Finset.mem_coe.mp h1, ?_⟩
      have := congrFun h2 ⟨0, hd⟩
      rw [hw.2] at this
      exact this
  rw [e]
  obtain ⟨m, hm⟩ : ∃ m, f.natDegree = m + 1 := ⟨f.natDegree - 1, by omega⟩
  have key : ∀ (d : ℕ) (hd : 0 < d) (m : ℕ), d = m + 1 →
      (Finset.univ.filter fun w : Fin d → ZMod 2 => w ⟨0, hd⟩ = 1).card = 2 ^ m := by
    intro d hd m hm
    subst hm
    have : (Finset.univ.filter fun w : Fin (m + 1) → ZMod 2 => w ⟨0, hd⟩ = 1).card = (Finset.univ : Finset (Fin m → ZMod 2)).card := by
      symm
      apply Finset.card_bij (fun (v : Fin m → ZMod 2) _ => (Fin.cons (1 : ZMod 2) v : Fin (m + 1) → ZMod 2))
      · intro v _
        rw [Finset.mem_filter]
        exact ⟨Finset.mem_univ _, rfl⟩
      · intro v _ w _ h
        exact (Fin.cons_inj.mp h).2
      · intro w hw
        rw [Finset.mem_filter] at hw
        refine ⟨Fin.tail w, Finset.mem_univ _, ?_⟩
        have h1 : (1 : ZMod 2) = w 0 := hw.2.symm
        rw [h1]
        exact Fin.cons_self_tail w
    rw [this, Finset.card_univ, Fintype.card_fun, ZMod.card, Fintype.card_fin]
  rw [key _ hd m hm, hm, Nat.add_sub_cancel]

end Komm.Shift
