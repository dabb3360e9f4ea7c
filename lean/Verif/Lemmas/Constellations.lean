import Verif.Model.Constellations
import Mathlib.Tactic.Linarith
import Mathlib.Tactic.FieldSimp
import Mathlib.Algebra.Order.BigOperators.Group.Finset
/-! Rounding, clipping and the points of the constellations. -/
namespace Komm
open Real

section round
variable {K : Type} [Field K] [LinearOrder K] [IsStrictOrderedRing K] [FloorRing K]

theorem npRound_spec (x : K) : |x - npRound x| ≤ 1 / 2 := by
  have h1 := Int.floor_le x
  have h2 := Int.lt_floor_add_one x
  rw [npRound]
  split
  · rw [abs_le]; constructor <;> push_cast <;> linarith
  · split
    · rw [abs_le]; constructor <;> push_cast <;> linarith
    · split <;> rw [abs_le] <;> constructor <;> push_cast <;> linarith

theorem npRound_int (k : ℤ) : npRound (k : K) = k := by
  rw [npRound]
  simp

theorem npClip_range (x : ℤ) {M : Nat} (hM : 0 < M) : 0 ≤ npClip x ((M : ℤ) - 1) ∧ npClip x ((M : ℤ) - 1) < M := by
  rw [npClip]; omega

theorem npClip_id (x hi : ℤ) (h0 : 0 ≤ x) (h1 : x ≤ hi) : npClip x hi = x := by rw [npClip]; omega

theorem clip_round_nearest (x : K) (hi i : ℤ) (h0 : 0 ≤ i) (h1 : i ≤ hi) : |x - npClip (npRound x) hi| ≤ |x - i| := by
  have hr := npRound_spec x
  rw [abs_le] at hr
  generalize npRound x = k at *
  rw [npClip]
  rcases lt_or_ge k 0 with hk | hk
  · have e : min (max k 0) hi = 0 := by omega
    rw [e]
    have hk' : (k : K) ≤ -1 := by exact_mod_cast (by omega : k ≤ -1)
    have hi' : (0 : K) ≤ i := by exact_mod_cast h0
    push_cast
    rw [abs_of_neg (by linarith), abs_of_neg (by linarith)]; linarith
  · rcases lt_or_ge hi k with hk2 | hk2
    · have e : min (max k 0) hi = hi := by omega
      rw [e]
      have hk' : (hi : K) + 1 ≤ k := by exact_mod_cast (by omega : hi + 1 ≤ k)
      have hi' : (i : K) ≤ hi := by exact_mod_cast h1
      rw [abs_of_pos (by linarith), abs_of_pos (by linarith)]; linarith
    · have e : min (max k 0) hi = k := by omega
      rw [e]
      rcases lt_trichotomy i k with h | h | h
      · have h' : (i : K) + 1 ≤ k := by exact_mod_cast (by omega : i + 1 ≤ k)
        rw [abs_of_pos (a := x - i) (by linarith), abs_le]; constructor <;> linarith
      · rw [h]
      · have h' : (k : K) + 1 ≤ i := by exact_mod_cast (by omega : k + 1 ≤ i)
        rw [abs_of_neg (a := x - i) (by linarith), abs_le]; constructor <;> linarith
end round

namespace Constellation

theorem pamPoint_eq {K : Type} [Field K] [LinearOrder K] [IsStrictOrderedRing K] (M : Nat) (δ : K) (i : Nat) (hi : i < M) :
    pamPoint M δ i = δ * ((i : K) - ((M : K) - 1) / 2) := by
  rw [pamPoint, linspace]
  simp only [List.getD_eq_getElem?_getD, List.getElem?_map, List.getElem?_range hi, Option.map_some, Option.getD_some]
  split
  · next h =>
    subst h
    have : i = 0 := by omega
    subst this
    push_cast; ring
  · next h =>
    have h2 : (M : K) - 1 ≠ 0 := by
      rw [sub_ne_zero]; exact_mod_cast h
    field_simp
    ring

theorem norm_phase (φ : ℝ) : ‖phase φ‖ = 1 := by
  rw [phase, show (2 * π * φ * Complex.I : ℂ) = ((2 * π * φ : ℝ) : ℂ) * Complex.I by push_cast; ring]
  exact Complex.norm_exp_ofReal_mul_I _

theorem phase_neg (φ : ℝ) : phase (-φ) * phase φ = 1 := by
  rw [phase, phase, ← Complex.exp_add]
  convert Complex.exp_zero using 2
  push_cast; ring

/-- Distances are not changed by undoing the rotation. -/
theorem norm_rotate (r a : ℂ) (φ : ℝ) : ‖r - a * phase φ‖ = ‖r * phase (-φ) - a‖ := by
  have h : r - a * phase φ = (r * phase (-φ) - a) * phase φ := by
    rw [sub_mul, mul_assoc, phase_neg, mul_one]
  rw [h, norm_mul, norm_phase, mul_one]

theorem normSq_sub (z : ℂ) (x y : ℝ) : ‖z - (x + Complex.I * y)‖ ^ 2 = (z.re - x) ^ 2 + (z.im - y) ^ 2 := by
  rw [← Complex.normSq_eq_norm_sq, Complex.normSq_apply]
  simp; ring

theorem normSq_sub_real (z : ℂ) (x : ℝ) : ‖z - x‖ ^ 2 = (z.re - x) ^ 2 + z.im ^ 2 := by
  have := normSq_sub z x 0
  simpa using this

theorem argminFin_spec {M : Nat} (hM : 0 < M) (f : Fin M → ℝ) : ∃ i, argminFin f = some i ∧ (∀ k, f i ≤ f k) ∧ ∀ k, k < i → ∃ l, f l < f k := by
  classical
  haveI : Nonempty (Fin M) := ⟨⟨0, hM⟩⟩
  obtain ⟨i0, hi0⟩ := Finite.exists_min f
  rw [argminFin]
  obtain ⟨i, hi⟩ : ∃ i, (List.finRange M).find? (fun i : Fin M => decide (∀ k, f i ≤ f k)) = some i := by
    rw [← Option.isSome_iff_exists, List.find?_isSome]
    exact ⟨i0, List.mem_finRange i0, by simpa using hi0⟩
  refine ⟨i, hi, by simpa using List.find?_some hi, fun k hk => ?_⟩
  rw [List.find?_eq_some_iff_getElem] at hi
  obtain ⟨-, n, hn, he, hbefore⟩ := hi
  have : k.val < n := by
    have : n = i.val := by simpa [Fin.ext_iff] using he
    have := Fin.lt_def.mp hk; omega
  have := hbefore k.val this
  simpa using this

end Constellation
end Komm
