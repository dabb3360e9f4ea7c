import Verif.Model.IntegerDomain
import Mathlib.Algebra.Order.Ring.Int
import Mathlib.Algebra.Order.Ring.Abs
import Mathlib.Tactic.Ring
/-! C118: the domain algorithms over the ring of integers. -/
namespace Komm

theorem fmod_of_neg (a : Int) {b : Int} (h : b < 0) : b < Int.fmod a b ∧ Int.fmod a b ≤ 0 := by
  have e := Int.neg_fmod_neg a b
  have h1 := Int.fmod_nonneg_of_pos (-a) (b := -b) (by omega)
  have h2 := Int.fmod_lt_of_pos (-a) (b := -b) (by omega)
  omega

/-- `divmod`, `//` and `%` of `Integer`: the division identity, with a remainder that has the sign of the
divisor and is smaller in absolute value; this determines both results.  Division by zero raises. -/
theorem C118_divmod (a b : Int) :
    (integerDivmod a b = none ↔ b = 0) ∧
    ∀ q r, integerDivmod a b = some (q, r) ↔
      b ≠ 0 ∧ a = q * b + r ∧ (0 ≤ r ∧ r < b ∨ b < r ∧ r ≤ 0) := by
  unfold integerDivmod
  by_cases hb : b = 0
  · subst hb; simp
  simp only [hb, if_false, reduceCtorEq, ne_eq, not_false_eq_true, true_and, Option.some.injEq, Prod.mk.injEq]
  have key : a = Int.fdiv a b * b + Int.fmod a b ∧
      (0 ≤ Int.fmod a b ∧ Int.fmod a b < b ∨ b < Int.fmod a b ∧ Int.fmod a b ≤ 0) := by
    refine ⟨(Int.fdiv_mul_add_fmod a b).symm, ?_⟩
    rcases lt_or_gt_of_ne hb with h | h
    · right
      exact fmod_of_neg a h
    · left
      exact ⟨Int.fmod_nonneg_of_pos a h, Int.fmod_lt_of_pos a h⟩
  intro q r
  constructor
  · rintro ⟨rfl, rfl⟩; exact key
  · rintro ⟨h1, h2⟩
    obtain ⟨k1, k2⟩ := key
    have h3 : (Int.fdiv a b - q) * b = r - Int.fmod a b := by
      have : Int.fdiv a b * b + Int.fmod a b = q * b + r := by rw [← k1, ← h1]
      rw [sub_mul]; omega
    have h4 : Int.fdiv a b - q = 0 := by
      by_contra h5
      have h6 : |b| ≤ |(Int.fdiv a b - q) * b| := by
        rw [abs_mul]
        exact le_mul_of_one_le_left (abs_nonneg _) (Int.one_le_abs h5)
      rw [h3] at h6
      rcases abs_cases b with ⟨e, _⟩ | ⟨e, _⟩ <;> rcases abs_cases (r - Int.fmod a b) with ⟨e', _⟩ | ⟨e', _⟩ <;>
        omega
    rw [h4, zero_mul] at h3
    constructor <;> omega

theorem fmod_natAbs_lt (x : Int) {y : Int} (hy : y ≠ 0) : (Int.fmod x y).natAbs < y.natAbs := by
  rcases lt_or_gt_of_ne hy with h | h
  · have := fmod_of_neg x h
    omega
  · have := Int.fmod_nonneg_of_pos x h
    have := Int.fmod_lt_of_pos x h
    omega

theorem gcd_fmod (x y : Int) : Int.gcd y (Int.fmod x y) = Int.gcd x y := by
  apply Nat.dvd_antisymm
  · apply Int.dvd_gcd
    · have e := Int.fdiv_mul_add_fmod x y
      refine Eq.subst (motive := fun z => ((Int.gcd y (Int.fmod x y) : Nat) : Int) ∣ z) e ?_
      exact dvd_add (Dvd.dvd.mul_left (Int.gcd_dvd_left _ _) _) (Int.gcd_dvd_right _ _)
    · exact Int.gcd_dvd_left _ _
  · apply Int.dvd_gcd
    · exact Int.gcd_dvd_right _ _
    · have e : Int.fmod x y = x - Int.fdiv x y * y := by
        have := Int.fdiv_mul_add_fmod x y; omega
      rw [e]
      exact dvd_sub (Int.gcd_dvd_left _ _) (Dvd.dvd.mul_left (Int.gcd_dvd_right _ _) _)

theorem sign_fmod (x : Int) {y : Int} (hy : y ≠ 0) (h : Int.fmod x y ≠ 0) : (Int.fmod x y).sign = y.sign := by
  rcases lt_or_gt_of_ne hy with h1 | h1
  · rw [Int.sign_eq_neg_one_of_neg h1, Int.sign_eq_neg_one_of_neg]
    have := fmod_of_neg x h1
    omega
  · rw [Int.sign_eq_one_of_pos h1, Int.sign_eq_one_of_pos]
    have := Int.fmod_nonneg_of_pos x h1
    omega

theorem integerGcdLoop_eq (fuel : Nat) : ∀ x y : Int, y.natAbs < fuel →
    integerGcdLoop fuel x y = if y = 0 then x else y.sign * Int.gcd x y := by
  induction fuel with
  | zero => intro x y h; omega
  | succ fuel ih =>
    intro x y h
    rw [integerGcdLoop]
    by_cases hy : y = 0
    · simp [hy]
    · rw [if_neg hy, if_neg hy, ih y (Int.fmod x y) (by have := fmod_natAbs_lt x hy; omega)]
      by_cases hr : Int.fmod x y = 0
      · rw [if_pos hr, ← gcd_fmod x y, hr]
        simp [Int.sign_mul_abs]
      · rw [if_neg hr, sign_fmod x hy hr, gcd_fmod]

/-- `gcd(x, y)` over the integers terminates with the greatest common divisor, with the sign of `y`
(or `x` itself if `y = 0`). -/
theorem C118_gcd (x y : Int) :
    (y ≠ 0 → integerGcd x y = y.sign * Int.gcd x y) ∧ (y = 0 → integerGcd x y = x) ∧
    integerGcd x y ∣ x ∧ integerGcd x y ∣ y ∧ ∀ d, d ∣ x → d ∣ y → d ∣ integerGcd x y := by
  have h := integerGcdLoop_eq (y.natAbs + 1) x y (by omega)
  rw [← integerGcd] at h
  have hd : ∀ d : Int, d ∣ integerGcd x y ↔ d ∣ (Int.gcd x y : Int) := by
    intro d
    rw [h]
    by_cases hy : y = 0
    · simp [hy, dvd_abs]
    · rw [if_neg hy]
      rcases lt_or_gt_of_ne hy with h1 | h1
      · rw [Int.sign_eq_neg_one_of_neg h1]; simp
      · rw [Int.sign_eq_one_of_pos h1]; simp
  have hd' : ∀ d : Int, (Int.gcd x y : Int) ∣ d → integerGcd x y ∣ d := by
    intro d h1
    refine dvd_trans ?_ h1
    rw [h]
    by_cases hy : y = 0
    · simp [hy, dvd_abs]
    · rw [if_neg hy]
      rcases lt_or_gt_of_ne hy with h1 | h1
      · rw [Int.sign_eq_neg_one_of_neg h1]; simp
      · rw [Int.sign_eq_one_of_pos h1]; simp
  refine ⟨fun hy => by rw [h, if_neg hy], fun hy => by rw [h, if_pos hy], hd' _ (Int.gcd_dvd_left _ _),
    hd' _ (Int.gcd_dvd_right _ _), fun d h1 h2 => (hd d).mpr (Int.dvd_coe_gcd h1 h2)⟩

theorem integerXgcdAux_eq (fuel : Nat) : ∀ x y : Int, x.natAbs < fuel →
    (integerXgcdAux fuel x y).1 = (if x = 0 then y else x.sign * Int.gcd x y) ∧
    (integerXgcdAux fuel x y).2.1 * x + (integerXgcdAux fuel x y).2.2 * y = (integerXgcdAux fuel x y).1 := by
  induction fuel with
  | zero => intro x y h; omega
  | succ fuel ih =>
    intro x y h
    rw [integerXgcdAux]
    by_cases hx : x = 0
    · simp [hx]
    · simp only [if_neg hx]
      obtain ⟨i1, i2⟩ := ih (Int.fmod y x) x (by have := fmod_natAbs_lt y hx; omega)
      constructor
      · rw [i1]
        by_cases hr : Int.fmod y x = 0
        · rw [if_pos hr, Int.gcd_comm, ← gcd_fmod y x, hr]
          simp [Int.sign_mul_abs]
        · rw [if_neg hr, sign_fmod y hx hr, Int.gcd_comm, gcd_fmod, Int.gcd_comm]
      · rw [← i2]
        have e := Int.fdiv_mul_add_fmod y x
        generalize Int.fmod y x = r at e ⊢
        generalize Int.fdiv y x = q at e ⊢
        subst e
        ring

/-- `xgcd(x, y)` over the integers terminates and returns `(d, s, t)` with `d = s x + t y` and `d` a greatest
common divisor (with the sign of `x`, or `y` itself if `x = 0`). -/
theorem C118_xgcd (x y : Int) :
    ∀ d s t, integerXgcd x y = (d, s, t) →
      s * x + t * y = d ∧ (x ≠ 0 → d = x.sign * Int.gcd x y) ∧ (x = 0 → d = y) ∧ d.natAbs = Int.gcd x y := by
  intro d s t h
  obtain ⟨h1, h2⟩ := integerXgcdAux_eq (x.natAbs + 1) x y (by omega)
  rw [← integerXgcd, h] at h1 h2
  simp only at h1 h2
  refine ⟨h2, fun hx => by rw [h1, if_neg hx], fun hx => by rw [h1, if_pos hx], ?_⟩
  rw [h1]
  by_cases hx : x = 0
  · simp [hx]
  · rw [if_neg hx, Int.natAbs_mul, Int.natAbs_natCast]
    rcases lt_or_gt_of_ne hx with h1 | h1
    · rw [Int.sign_eq_neg_one_of_neg h1]; simp
    · rw [Int.sign_eq_one_of_pos h1]; simp

/-- `lcm(x, y)` over the integers is the least common multiple with the sign of `x`, zero when an argument is
zero. -/
theorem C118_lcm (x y : Int) : integerLcm x y = x.sign * Int.lcm x y := by
  unfold integerLcm
  split
  · rename_i h
    rcases h with rfl | rfl <;> simp
  · rename_i h
    push Not at h
    obtain ⟨hx, hy⟩ := h
    obtain ⟨h1, -, h2, -, -⟩ := C118_gcd x y
    have hg : integerGcd x y ≠ 0 := by
      intro e; rw [e] at h2
      exact hx (zero_dvd_iff.mp h2)
    obtain ⟨k, hk⟩ := h2
    have e1 : Int.fdiv x (integerGcd x y) = k := by
      generalize integerGcd x y = g at hk hg ⊢
      rw [hk]
      exact Int.mul_fdiv_cancel_left k hg
    rw [e1]
    have hgl : (Int.gcd x y : Int) * Int.lcm x y = |x| * |y| := by
      have := Int.gcd_mul_lcm x y
      have := congrArg (Nat.cast (R := Int)) this
      push_cast at this
      simpa using this
    have hgp : (Int.gcd x y : Int) ≠ 0 := by
      rw [Int.natCast_ne_zero]
      exact fun e => hx (Int.gcd_eq_zero_iff.mp e).1
    apply mul_left_cancel₀ hgp
    have hs : y.sign * (Int.gcd x y : Int) * k = x := by rw [← h1 hy]; exact hk.symm
    have hyy : y.sign * |y| = y := Int.sign_mul_abs y
    have hxx : x.sign * |x| = x := Int.sign_mul_abs x
    calc (Int.gcd x y : Int) * (k * y) = (y.sign * (Int.gcd x y : Int) * k) * |y| := by
          have : k * y = k * (y.sign * |y|) := by rw [hyy]
          rw [this]
          ring
      _ = x * |y| := by rw [hs]
      _ = (x.sign * |x|) * |y| := by rw [hxx]
      _ = x.sign * ((Int.gcd x y : Int) * Int.lcm x y) := by rw [hgl]; ring
      _ = _ := by ring

example : integerGcd 12 (-18) = -6 ∧ integerGcd (-12) 18 = 6 ∧ integerLcm (-4) 6 = -12 ∧
    integerXgcd 240 46 = (2, -9, 47) ∧ integerDivmod (-7) 2 = some (-4, 1) ∧
    integerDivmod 7 (-2) = some (-4, -1) := by decide +kernel

end Komm
