import Verif.Model.DoubleInfo
import Verif.Props.C134_DoubleViterbi
import Verif.Props.C135_DoublePam
import Verif.Props.C137_DoubleHuffman
import Verif.Props.C138_DoubleDecoders
import Mathlib.Analysis.Complex.ExponentialBounds

/-! C143: entropies in double precision. -/
namespace Komm
open scoped BigOperators

/-! ### dot products -/

/-- Exact dot product, and the sum of the magnitudes of the products. -/
noncomputable def pairSum (l : List (ℝ × ℝ)) : ℝ := (l.map fun x : ℝ × ℝ => x.1 * x.2).sum
noncomputable def pairAbs (l : List (ℝ × ℝ)) : ℝ := (l.map fun x : ℝ × ℝ => |x.1 * x.2|).sum

theorem pairAbs_nonneg (l : List (ℝ × ℝ)) : 0 ≤ pairAbs l := List.sum_nonneg fun y hy => by
  obtain ⟨x, _, rfl⟩ := List.mem_map.mp hy
  exact abs_nonneg _

theorem abs_pairSum_le (l : List (ℝ × ℝ)) : |pairSum l| ≤ pairAbs l := by
  induction l with
  | nil => simp [pairSum, pairAbs]
  | cons x l ih =>
    have h1 : pairSum (x :: l) = x.1 * x.2 + pairSum l := by simp [pairSum]
    have h2 : pairAbs (x :: l) = |x.1 * x.2| + pairAbs l := by simp [pairAbs]
    rw [h1, h2]
    exact (abs_add_le _ _).trans (by linarith)

theorem DotOf.of_nil {l : List (ℝ × ℝ)} {v : Double} (h : DotOf l v) : l = [] → v = 0 := by
  induction h with
  | nil => intro _; rfl
  | fma x y _ _ => intro h; simp at h
  | add _ _ ih1 ih2 =>
    intro h
    obtain ⟨h1, h2⟩ := List.append_eq_nil_iff.mp h
    rw [ih1 h1, ih2 h2, Double.zero_add']
  | perm hp _ ih =>
    intro h
    subst h
    exact ih hp.eq_nil

/-- The error of a dot product, whatever the order. -/
theorem DotOf.error {l : List (ℝ × ℝ)} {v : Double} (h : DotOf l v) :
    |v.val - pairSum l| ≤ ((1 + 1 / 2 ^ 53) ^ l.length - 1) * pairAbs l + l.length * (1 + 1 / 2 ^ 53) ^ l.length * 2 ^ (-1075 : ℤ) := by
  have ht : (0 : ℝ) ≤ 2 ^ (-1075 : ℤ) := by positivity
  induction h with
  | nil => simp [pairSum, pairAbs, Double.val_zero]
  | @fma l a x y h1 ih =>
    have e1 : pairSum ((x, y) :: l) = x * y + pairSum l := by simp [pairSum]
    have e2 : pairAbs ((x, y) :: l) = |x * y| + pairAbs l := by simp [pairAbs]
    rw [e1, e2, List.length_cons, pow_succ]
    push_cast
    have he := rnd_error (a.val + x * y)
    change |rnd (a.val + x * y) - _| ≤ _
    have hA := pairAbs_nonneg l
    have hR := abs_pairSum_le l
    have hq : (1 : ℝ) ≤ (1 + 1 / 2 ^ 53) ^ l.length := one_le_pow₀ (by norm_num)
    have hn : (0 : ℝ) ≤ l.length := Nat.cast_nonneg _
    generalize (1 + 1 / 2 ^ 53 : ℝ) ^ l.length = q at *
    generalize (2 : ℝ) ^ (-1075 : ℤ) = t at *
    generalize (l.length : ℝ) = n at *
    generalize pairSum l = R at *
    generalize pairAbs l = A at *
    generalize x * y = z at *
    generalize rnd (a.val + z) = w at *
    have hz := abs_nonneg z
    have h3 : |a.val + z| ≤ q * A + n * q * t + |z| := by
      rw [show a.val + z = (a.val - R) + R + z by ring]
      have := abs_add_le ((a.val - R) + R) z
      have := abs_add_le (a.val - R) R
      linarith
    have h4 : |w - (z + R)| ≤ |w - (a.val + z)| + |a.val - R| := by
      rw [show w - (z + R) = (w - (a.val + z)) + (a.val - R) by ring]
      exact abs_add_le _ _
    have h5 : |a.val + z| / 2 ^ 53 ≤ (q * A + n * q * t + |z|) / 2 ^ 53 := div_le_div_of_nonneg_right h3 (by positivity)
    have h6 : t ≤ q * t := le_mul_of_one_le_left ht hq
    have h7 : |z| ≤ q * |z| := le_mul_of_one_le_left hz hq
    have h8 : 0 ≤ q * t := mul_nonneg (by linarith) ht
    refine h4.trans ((add_le_add (he.trans (add_le_add h5 le_rfl)) ih).trans ?_)
    have e : (q * (1 + 1 / 2 ^ 53) - 1) * (|z| + A) + (n + 1) * (q * (1 + 1 / 2 ^ 53)) * t =
        (q - 1) * A + n * q * t + (q * A + n * q * t + |z|) / 2 ^ 53 + (q * |z| - |z|) + (q * |z| - |z|) / 2 ^ 53 + q * t + q * t / 2 ^ 53 := by ring
    rw [e]
    have h9 : 0 ≤ (q * |z| - |z|) / 2 ^ 53 := div_nonneg (by linarith) (by positivity)
    have h10 : 0 ≤ q * t / 2 ^ 53 := div_nonneg h8 (by positivity)
    linarith
  | @add l l' a b h1 h2 ih1 ih2 =>
    rcases List.eq_nil_or_concat l with rfl | ⟨_, _, hc⟩
    · rw [h1.of_nil rfl, Double.zero_add']; exact ih2
    rcases List.eq_nil_or_concat l' with rfl | ⟨_, _, hc'⟩
    · rw [h2.of_nil rfl, Double.add_zero', List.append_nil]; exact ih1
    have hl : 1 ≤ l.length := by rw [hc]; simp
    have hl' : 1 ≤ l'.length := by rw [hc']; simp
    have es : pairSum (l ++ l') = pairSum l + pairSum l' := by simp [pairSum]
    have ea : pairAbs (l ++ l') = pairAbs l + pairAbs l' := by simp [pairAbs]
    rw [es, ea, List.length_append]
    push_cast
    have he := Double.add_error a b
    have hA := pairAbs_nonneg l
    have hA' := pairAbs_nonneg l'
    have hR := abs_pairSum_le l
    have hR' := abs_pairSum_le l'
    have hp1 : (1 : ℝ) ≤ (1 + 1 / 2 ^ 53) ^ l.length := one_le_pow₀ (by norm_num)
    have hp2 : (1 : ℝ) ≤ (1 + 1 / 2 ^ 53) ^ l'.length := one_le_pow₀ (by norm_num)
    have e1 : (1 + 1 / 2 ^ 53 : ℝ) ^ l.length * (1 + 1 / 2 ^ 53) ≤ (1 + 1 / 2 ^ 53) ^ (l.length + l'.length) := by
      rw [← pow_succ]; exact pow_le_pow_right₀ (by norm_num) (by omega)
    have e2 : (1 + 1 / 2 ^ 53 : ℝ) ^ l'.length * (1 + 1 / 2 ^ 53) ≤ (1 + 1 / 2 ^ 53) ^ (l.length + l'.length) := by
      rw [← pow_succ]; exact pow_le_pow_right₀ (by norm_num) (by omega)
    have hn : (0 : ℝ) ≤ l.length := Nat.cast_nonneg _
    have hn' : (0 : ℝ) ≤ l'.length := Nat.cast_nonneg _
    generalize (1 + 1 / 2 ^ 53 : ℝ) ^ (l.length + l'.length) = q at *
    generalize (1 + 1 / 2 ^ 53 : ℝ) ^ l.length = p1 at *
    generalize (1 + 1 / 2 ^ 53 : ℝ) ^ l'.length = p2 at *
    generalize (2 : ℝ) ^ (-1075 : ℤ) = t at *
    generalize (l.length : ℝ) = n at *
    generalize (l'.length : ℝ) = n' at *
    generalize pairSum l = R at *
    generalize pairSum l' = R' at *
    generalize pairAbs l = A at *
    generalize pairAbs l' = A' at *
    generalize (a + b).val = w at *
    have h3 : |a.val + b.val - (R + R')| ≤ ((p1 - 1) * A + n * p1 * t) + ((p2 - 1) * A' + n' * p2 * t) := by
      rw [show a.val + b.val - (R + R') = (a.val - R) + (b.val - R') by ring]
      exact (abs_add_le _ _).trans (add_le_add ih1 ih2)
    have h4 : |a.val + b.val| ≤ p1 * A + n * p1 * t + (p2 * A' + n' * p2 * t) := by
      rw [show a.val + b.val = (a.val + b.val - (R + R')) + (R + R') by ring]
      refine (abs_add_le _ _).trans ?_
      have := abs_add_le R R'
      linarith
    rw [show w - (R + R') = (w - (a.val + b.val)) + (a.val + b.val - (R + R')) by ring]
    refine (abs_add_le _ _).trans ?_
    have h5 : |w - (a.val + b.val)| ≤ (p1 * A + n * p1 * t + (p2 * A' + n' * p2 * t)) * (1 / 2 ^ 53) := by
      refine he.trans ?_
      rw [div_eq_mul_one_div]
      exact mul_le_mul_of_nonneg_right h4 (by positivity)
    have g1 : p1 * (1 + 1 / 2 ^ 53) * (A + n * t) ≤ q * (A + n * t) := mul_le_mul_of_nonneg_right e1 (add_nonneg hA (mul_nonneg hn ht))
    have g2 : p2 * (1 + 1 / 2 ^ 53) * (A' + n' * t) ≤ q * (A' + n' * t) := mul_le_mul_of_nonneg_right e2 (add_nonneg hA' (mul_nonneg hn' ht))
    refine (add_le_add h5 h3).trans ?_
    have c1 : (p1 * A + n * p1 * t + (p2 * A' + n' * p2 * t)) * (1 / 2 ^ 53) + (((p1 - 1) * A + n * p1 * t) + ((p2 - 1) * A' + n' * p2 * t)) =
        p1 * (1 + 1 / 2 ^ 53) * (A + n * t) + p2 * (1 + 1 / 2 ^ 53) * (A' + n' * t) - A - A' := by ring
    have c2 : (q - 1) * (A + A') + (n + n') * q * t = q * (A + n * t) + q * (A' + n' * t) - A - A' := by ring
    rw [c1, c2]
    linarith
  | perm hp _ ih =>
    have e1 : pairSum _ = pairSum _ := (hp.map fun x : ℝ × ℝ => x.1 * x.2).sum_eq
    have e2 : pairAbs _ = pairAbs _ := (hp.map fun x : ℝ × ℝ => |x.1 * x.2|).sum_eq
    rw [← e1, ← e2, ← hp.length_eq]
    exact ih

theorem DotOf.error_le {l : List (ℝ × ℝ)} {v : Double} (h : DotOf l v) (hl : l.length ≤ 2 ^ 40) :
    |v.val - pairSum l| ≤ l.length / 2 ^ 52 * pairAbs l + 1 / 2 ^ 100 := by
  have h1 := h.error
  have h2 := growth l.length (hl.trans (by norm_num))
  have hA := pairAbs_nonneg l
  have h3 := mul_le_mul_of_nonneg_right h2 hA
  have hn : (l.length : ℝ) ≤ 2 ^ 40 := by exact_mod_cast hl
  have hn0 : (0 : ℝ) ≤ l.length := Nat.cast_nonneg _
  have ht : (2 : ℝ) ^ (-1075 : ℤ) ≤ 1 / 2 ^ 150 := by
    rw [one_div, show ((2 : ℝ) ^ 150)⁻¹ = 2 ^ (-150 : ℤ) by rw [zpow_neg]; norm_cast]
    exact zpow_le_zpow_right₀ (by norm_num) (by norm_num)
  have ht0 : (0 : ℝ) ≤ 2 ^ (-1075 : ℤ) := by positivity
  have hq : (1 + 1 / 2 ^ 53 : ℝ) ^ l.length ≤ 2 := by
    have : (l.length : ℝ) / 2 ^ 52 ≤ 1 := by rw [div_le_one (by positivity)]; linarith
    linarith
  have hq0 : (0 : ℝ) ≤ (1 + 1 / 2 ^ 53) ^ l.length := by positivity
  have h4 : (l.length : ℝ) * (1 + 1 / 2 ^ 53) ^ l.length * 2 ^ (-1075 : ℤ) ≤ 2 ^ 40 * 2 * (1 / 2 ^ 150) :=
    mul_le_mul (mul_le_mul hn hq hq0 (by positivity)) ht ht0 (by positivity)
  have h5 : (2 : ℝ) ^ 40 * 2 * (1 / 2 ^ 150) ≤ 1 / 2 ^ 100 := by norm_num
  linarith

/-! ### logarithms -/

/-- `1 / |ln b|`. -/
noncomputable def logScale (base : LogBase) : ℝ := 1 / |Real.log base.val|

theorem log_rnd {x : ℝ} (hx : 1 / 2 ^ 1001 ≤ x) : 0 < rnd x ∧ |Real.log (rnd x) - Real.log x| ≤ 1 / 2 ^ 52 := by
  have h0 : 0 < x := lt_of_lt_of_le (by positivity) hx
  have h1 := rnd_error_normal hx
  have h2 := abs_le.mp h1
  have hp : 0 < rnd x := by
    have : x / 2 ^ 53 ≤ x / 2 := div_le_div_of_nonneg_left h0.le (by norm_num) (by norm_num)
    linarith [h2.1]
  refine ⟨hp, ?_⟩
  have u1 := Real.log_le_sub_one_of_pos (div_pos hp h0)
  have u2 := Real.log_le_sub_one_of_pos (div_pos h0 hp)
  rw [Real.log_div hp.ne' h0.ne'] at u1
  rw [Real.log_div h0.ne' hp.ne'] at u2
  have r1 : rnd x / x - 1 ≤ 1 / 2 ^ 53 := by
    rw [sub_le_iff_le_add, div_le_iff₀ h0]
    linarith [h2.2]
  have r2 : x / rnd x - 1 ≤ 1 / 2 ^ 52 := by
    rw [sub_le_iff_le_add, div_le_iff₀ hp]
    have := h2.1
    linarith
  rw [abs_le]
  constructor <;> linarith

/-- The computed logarithm to a base. -/
theorem infoLog_near {F : InfoLibm} (hF : F.Accurate) (base : LogBase) (hb0 : 0 < base.val) (hb1 : base.val ≠ 1) {x : ℝ} (hx : 1 / 2 ^ 1001 ≤ x) :
    |infoLogD F base (rnd x) - Real.logb base.val x| ≤ (logScale base + 1 + 8 * |Real.logb base.val x|) / 2 ^ 50 := by
  obtain ⟨hp, hl⟩ := log_rnd hx
  have hlb : Real.log base.val ≠ 0 := by
    intro h
    rcases Real.log_eq_zero.mp h with h | h | h <;> [exact hb0.ne' h; exact hb1 h; linarith]
  have hk : 0 < logScale base := by unfold logScale; exact div_pos one_pos (abs_pos.mpr hlb)
  -- the exact logarithm of the rounded quotient
  have hy : |Real.logb base.val (rnd x) - Real.logb base.val x| ≤ logScale base / 2 ^ 52 := by
    rw [Real.logb, Real.logb, ← sub_div, abs_div, logScale, div_div]
    rw [show (1 : ℝ) / (|Real.log base.val| * 2 ^ 52) = 1 / 2 ^ 52 / |Real.log base.val| by rw [div_div, mul_comm]]
    exact div_le_div_of_nonneg_right hl (abs_nonneg _)
  have hrel : |infoLogD F base (rnd x) - Real.logb base.val (rnd x)| ≤ 4 * |Real.logb base.val (rnd x)| / 2 ^ 50 + 1 / 2 ^ 60 := by
    have hgen := abs_nonneg (Real.logb base.val (rnd x))
    have h60 : (0 : ℝ) < 1 / 2 ^ 60 := by positivity
    cases base with
    | e =>
      have := hF.log_near _ hp
      have e1 : Real.logb (LogBase.e.val) (rnd x) = Real.log (rnd x) := by rw [Real.logb, LogBase.val, Real.log_exp, div_one]
      rw [e1]
      rw [e1] at hgen
      change |F.log (rnd x) - _| ≤ _
      linarith
    | num b =>
      unfold infoLogD
      change 0 < b at hb0
      change Real.log b ≠ 0 at hlb
      change 0 ≤ |Real.logb b (rnd x)| at hgen
      change |_ - Real.logb b (rnd x)| ≤ 4 * |Real.logb b (rnd x)| / 2 ^ 50 + 1 / 2 ^ 60
      simp only
      by_cases h2 : b = 2
      · rw [if_pos h2]
        subst h2
        have := hF.log2_near _ hp
        linarith
      · rw [if_neg h2]
        have n1 := hF.log_near _ hp
        have n2 := hF.log_near b hb0
        have hlb' : 0 < |Real.log b| := abs_pos.mpr hlb
        rw [Real.logb]
        generalize Real.log b = c at *
        generalize Real.log (rnd x) = z at *
        generalize F.log b = c' at *
        generalize F.log (rnd x) = z' at *
        have hc' : |c| * (1 - 1 / 2 ^ 50) ≤ |c'| := by
          have := abs_sub_abs_le_abs_sub c c'
          rw [abs_sub_comm] at this
          linarith
        have hc0 : 0 < |c'| := lt_of_lt_of_le (mul_pos hlb' (by norm_num)) hc'
        have hcne : c' ≠ 0 := abs_pos.mp hc0
        have q1 : |z' / c' - z / c| ≤ 3 * |z / c| / 2 ^ 50 := by
          rw [div_sub_div _ _ hcne hlb, abs_div, abs_mul, abs_div, show z' * c - c' * z = (z' - z) * c - (c' - c) * z by ring]
          have : |(z' - z) * c - (c' - c) * z| ≤ 2 * (|z| * |c|) / 2 ^ 50 := by
            refine (abs_sub _ _).trans ?_
            rw [abs_mul, abs_mul]
            have := mul_le_mul_of_nonneg_right n1 (abs_nonneg c)
            have := mul_le_mul_of_nonneg_right n2 (abs_nonneg z)
            linarith
          rw [div_le_iff₀ (mul_pos hc0 hlb')]
          refine this.trans ?_
          have e : 3 * (|z| / |c|) / 2 ^ 50 * (|c'| * |c|) = 3 * |z| * |c'| / 2 ^ 50 := by field_simp
          rw [e]
          have := mul_le_mul_of_nonneg_left hc' (abs_nonneg z)
          have h0 : 0 ≤ |z| * |c| := mul_nonneg (abs_nonneg _) (abs_nonneg _)
          linarith
        have q2 := rnd_error (z' / c')
        have ht : (2 : ℝ) ^ (-1075 : ℤ) ≤ 1 / 2 ^ 60 := by
          rw [one_div, show ((2 : ℝ) ^ 60)⁻¹ = 2 ^ (-60 : ℤ) by rw [zpow_neg]; norm_cast]
          exact zpow_le_zpow_right₀ (by norm_num) (by norm_num)
        generalize (2 : ℝ) ^ (-1075 : ℤ) = t at *
        have q3 := abs_sub_abs_le_abs_sub (z' / c') (z / c)
        have q4 := abs_sub_le (rnd (z' / c')) (z' / c') (z / c)
        have hZ0 := abs_nonneg (z / c)
        generalize |z / c| = Z at *
        have hZ : |z' / c'| ≤ 2 * Z := by linarith
        linarith
  have h3 := abs_sub_abs_le_abs_sub (Real.logb base.val (rnd x)) (Real.logb base.val x)
  have h4 := abs_sub_le (infoLogD F base (rnd x)) (Real.logb base.val (rnd x)) (Real.logb base.val x)
  have h5 := abs_nonneg (Real.logb base.val x)
  linarith

/-! ### entropies -/

/-- Error bound for `n` terms: `S` is the sum of the magnitudes of the terms, `W` the sum of the weights. -/
noncomputable def infoError (base : LogBase) (n : Nat) (S W : ℝ) : ℝ := ((n : ℝ) + 16) * (S + (logScale base + 1) * W + 1) / 2 ^ 50

theorem infoDot_near {F : InfoLibm} (hF : F.Accurate) {dot : List (ℝ × ℝ) → Double} (hdot : ∀ l, DotOf l (dot l)) (base : LogBase) (hb0 : 0 < base.val) (hb1 : base.val ≠ 1)
    (l : List (ℝ × ℝ)) (hl : l.length ≤ 2 ^ 40) (hw : ∀ x ∈ l, 0 ≤ x.1) (hx : ∀ x ∈ l, 1 / 2 ^ 1001 ≤ x.2 ∧ x.2 ≤ 2 ^ 1001) :
    ∃ v : ℝ, infoDotD F dot base l = (v : EReal) ∧
      |v - (l.map fun x : ℝ × ℝ => x.1 * Real.logb base.val x.2).sum| ≤
        infoError base l.length (l.map fun x : ℝ × ℝ => x.1 * |Real.logb base.val x.2|).sum (l.map fun x : ℝ × ℝ => x.1).sum := by
  have hno : ¬ ∃ x ∈ l, (2 : ℝ) ^ 1024 ≤ rnd x.2 := by
    rintro ⟨x, hxl, hbig⟩
    have h1 := rnd_error_normal (hx x hxl).1
    have h2 := (hx x hxl).2
    have h3 := (abs_le.mp h1).2
    have h4 : (2 : ℝ) ^ 1024 = 2 ^ 1001 * 2 ^ 23 := by rw [← pow_add]
    have h5 : (0 : ℝ) < 2 ^ 1001 := by positivity
    generalize (2 : ℝ) ^ 1001 = P at *
    generalize (2 : ℝ) ^ 1024 = Q at *
    linarith
  refine ⟨_, by rw [infoDotD, if_neg hno], ?_⟩
  have hk : 0 ≤ logScale base := by unfold logScale; positivity
  have hd := (hdot (l.map fun x : ℝ × ℝ => (x.1, infoLogD F base (rnd x.2)))).error_le (by rw [List.length_map]; exact hl)
  rw [List.length_map] at hd
  -- sums
  have key : ∀ m : List (ℝ × ℝ), (∀ x ∈ m, 0 ≤ x.1) → (∀ x ∈ m, 1 / 2 ^ 1001 ≤ x.2 ∧ x.2 ≤ 2 ^ 1001) →
      0 ≤ (m.map fun x : ℝ × ℝ => x.1 * |Real.logb base.val x.2|).sum ∧ 0 ≤ (m.map fun x : ℝ × ℝ => x.1).sum ∧
      |pairSum (m.map fun x : ℝ × ℝ => (x.1, infoLogD F base (rnd x.2))) - (m.map fun x : ℝ × ℝ => x.1 * Real.logb base.val x.2).sum| ≤
        ((logScale base + 1) * (m.map fun x : ℝ × ℝ => x.1).sum + 8 * (m.map fun x : ℝ × ℝ => x.1 * |Real.logb base.val x.2|).sum) / 2 ^ 50 ∧
      pairAbs (m.map fun x : ℝ × ℝ => (x.1, infoLogD F base (rnd x.2))) ≤ (m.map fun x : ℝ × ℝ => x.1 * |Real.logb base.val x.2|).sum +
        ((logScale base + 1) * (m.map fun x : ℝ × ℝ => x.1).sum + 8 * (m.map fun x : ℝ × ℝ => x.1 * |Real.logb base.val x.2|).sum) / 2 ^ 50 := by
    intro m
    induction m with
    | nil => intro _ _; simp [pairSum, pairAbs]
    | cons y m ih =>
      intro h1 h2
      obtain ⟨i1, i2, i3, i4⟩ := ih (fun x hx => h1 x (by simp [hx])) (fun x hx => h2 x (by simp [hx]))
      have hy := h1 y (by simp)
      have hn := infoLog_near hF base hb0 hb1 (h2 y (by simp)).1
      simp only [List.map_cons, List.sum_cons]
      have e1 : ∀ a b : ℝ, ∀ m', pairSum ((a, b) :: m') = a * b + pairSum m' := fun a b m' => by simp [pairSum]
      have e2 : ∀ a b : ℝ, ∀ m', pairAbs ((a, b) :: m') = |a * b| + pairAbs m' := fun a b m' => by simp [pairAbs, abs_mul]
      rw [e1, e2, abs_mul, abs_of_nonneg hy]
      generalize infoLogD F base (rnd y.2) = L at *
      generalize Real.logb base.val y.2 = L0 at *
      have hL := abs_sub_abs_le_abs_sub L L0
      have h0 := abs_nonneg L0
      have m1 := mul_le_mul_of_nonneg_left hn hy
      have m2 : y.1 * |L| ≤ y.1 * |L0| + y.1 * |L - L0| := by rw [← mul_add]; exact mul_le_mul_of_nonneg_left (by linarith) hy
      have m0 : 0 ≤ y.1 * |L0| := mul_nonneg hy h0
      have e3 : y.1 * ((logScale base + 1 + 8 * |L0|) / 2 ^ 50) = ((logScale base + 1) * y.1 + 8 * (y.1 * |L0|)) / 2 ^ 50 := by ring
      rw [e3] at m1
      refine ⟨by linarith, by linarith, ?_, ?_⟩
      · refine (show |y.1 * L + pairSum (m.map fun x : ℝ × ℝ => (x.1, infoLogD F base (rnd x.2))) - (y.1 * L0 + (m.map fun x : ℝ × ℝ => x.1 * Real.logb base.val x.2).sum)| ≤
          y.1 * |L - L0| + |pairSum (m.map fun x : ℝ × ℝ => (x.1, infoLogD F base (rnd x.2))) - (m.map fun x : ℝ × ℝ => x.1 * Real.logb base.val x.2).sum| from ?_).trans ?_
        · rw [← abs_of_nonneg hy, ← abs_mul, abs_of_nonneg hy]
          refine le_trans (le_of_eq ?_) (abs_add_le _ _)
          congr 1
          ring
        · linarith
      · linarith
  obtain ⟨s0, w0, k1, k2⟩ := key l hw hx
  unfold infoError
  have hn0 : (0 : ℝ) ≤ l.length := Nat.cast_nonneg _
  have hn : (l.length : ℝ) ≤ 2 ^ 40 := by exact_mod_cast hl
  have tri := abs_sub_le (dot (l.map fun x : ℝ × ℝ => (x.1, infoLogD F base (rnd x.2)))).val (pairSum (l.map fun x : ℝ × ℝ => (x.1, infoLogD F base (rnd x.2))))
    (l.map fun x : ℝ × ℝ => x.1 * Real.logb base.val x.2).sum
  have kw : 0 ≤ (logScale base + 1) * (l.map fun x : ℝ × ℝ => x.1).sum := mul_nonneg (by linarith) w0
  generalize (logScale base + 1) * (l.map fun x : ℝ × ℝ => x.1).sum = W at *
  generalize (l.map fun x : ℝ × ℝ => x.1 * |Real.logb base.val x.2|).sum = S at *
  generalize (l.length : ℝ) = n at *
  have d1 : n / 2 ^ 52 * pairAbs (l.map fun x : ℝ × ℝ => (x.1, infoLogD F base (rnd x.2))) ≤ n / 2 ^ 52 * (S + (W + 8 * S) / 2 ^ 50) := mul_le_mul_of_nonneg_left k2 (by positivity)
  have d2 : n / 2 ^ 52 * ((W + 8 * S) / 2 ^ 50) ≤ 1 / 2 ^ 12 * ((W + 8 * S) / 2 ^ 50) := by
    apply mul_le_mul_of_nonneg_right _ (by positivity)
    rw [div_le_div_iff₀ (by positivity) (by positivity)]
    linarith
  have d3 : (n + 16) * (S + W + 1) = n * S + n * W + n + 16 * S + 16 * W + 16 := by ring
  have d4 : 0 ≤ n * S := mul_nonneg hn0 s0
  have d5 : 0 ≤ n * W := mul_nonneg hn0 kw
  rw [d3]
  have d6 : n / 2 ^ 52 * (S + (W + 8 * S) / 2 ^ 50) = n * S / 2 ^ 52 + n / 2 ^ 52 * ((W + 8 * S) / 2 ^ 50) := by ring
  rw [d6] at d1
  linarith

theorem inv_bounds {p : ℝ} (h1 : 1 / 2 ^ 1000 ≤ p) (h2 : p ≤ 2) : 1 / 2 ^ 1001 ≤ 1 / p ∧ 1 / p ≤ 2 ^ 1001 := by
  have hp : 0 < p := lt_of_lt_of_le (by positivity) h1
  have e : (2 : ℝ) ^ 1001 = 2 ^ 1000 * 2 := pow_succ _ _
  have h3 : (1 : ℝ) ≤ 2 ^ 1000 := one_le_pow₀ (by norm_num)
  rw [e]
  clear e
  generalize (2 : ℝ) ^ 1000 = P at *
  constructor
  · apply one_div_le_one_div_of_le hp
    linarith
  · rw [div_le_iff₀ hp]
    rw [div_le_iff₀ (by linarith)] at h1
    linarith

theorem filter_sum {α : Type} (l : List α) (p : α → Bool) (f : α → ℝ) (h : ∀ x ∈ l, p x = false → f x = 0) : ((l.filter p).map f).sum = (l.map f).sum := by
  induction l with
  | nil => rfl
  | cons x l ih =>
    have ih' := ih fun y hy => h y (by simp [hy])
    by_cases hp : p x = true
    · rw [List.filter_cons_of_pos hp, List.map_cons, List.map_cons, List.sum_cons, List.sum_cons, ih']
    · rw [List.filter_cons_of_neg hp, ih', List.map_cons, List.sum_cons, h x (by simp) (by simpa using hp), zero_add]

/-- `entropy` in double precision, to any base: the exact entropy of the given numbers, up to `infoError`.  The positive probabilities must be at least `2⁻¹⁰⁰⁰` (see `C143_entropy_overflow`). -/
theorem C143_entropy {F : InfoLibm} (hF : F.Accurate) {dot : List (ℝ × ℝ) → Double} (hdot : ∀ l, DotOf l (dot l)) (base : LogBase) (hb0 : 0 < base.val) (hb1 : base.val ≠ 1)
    (pmf : List Double) (hlen : pmf.length ≤ 2 ^ 40) (hp : ∀ p ∈ pmf, p.val = 0 ∨ (1 / 2 ^ 1000 ≤ p.val ∧ p.val ≤ 2)) :
    ∃ v : ℝ, entropyD F dot pmf base = (v : EReal) ∧
      |v - (pmf.map fun p : Double => p.val * Real.logb base.val (1 / p.val)).sum| ≤
        infoError base pmf.length (pmf.map fun p : Double => p.val * |Real.logb base.val (1 / p.val)|).sum (pmf.map fun p : Double => p.val).sum := by
  have hpos : ∀ p ∈ pmf.filter fun p : Double => decide (0 < p.val), 1 / 2 ^ 1000 ≤ p.val ∧ p.val ≤ 2 := by
    intro p hm
    obtain ⟨h1, h2⟩ := List.mem_filter.mp hm
    rcases hp p h1 with h | h
    · rw [h] at h2; simp at h2
    · exact h
  obtain ⟨v, h1, h2⟩ := infoDot_near hF hdot base hb0 hb1 ((pmf.filter fun p : Double => decide (0 < p.val)).map fun p : Double => (p.val, 1 / p.val))
    (by rw [List.length_map]; exact (List.length_filter_le _ _).trans hlen)
    (by
      intro x hx
      obtain ⟨p, hm, rfl⟩ := List.mem_map.mp hx
      exact le_trans (by positivity) (hpos p hm).1)
    (by
      intro x hx
      obtain ⟨p, hm, rfl⟩ := List.mem_map.mp hx
      exact inv_bounds (hpos p hm).1 (hpos p hm).2)
  refine ⟨v, h1, ?_⟩
  have hz : ∀ p ∈ pmf, decide (0 < p.val) = false → p.val = 0 := by
    intro p hm hd
    rcases hp p hm with h | h
    · exact h
    · have : 0 < p.val := lt_of_lt_of_le (by positivity) h.1
      simp [this] at hd
  rw [List.map_map, List.map_map, List.map_map] at h2
  simp only [Function.comp_def] at h2
  rw [filter_sum _ _ _ (fun p hm hd => by rw [hz p hm hd, zero_mul]), filter_sum _ _ _ (fun p hm hd => by rw [hz p hm hd, zero_mul]), filter_sum _ _ _ (fun p hm hd => hz p hm hd)] at h2
  refine h2.trans ?_
  rw [List.length_map]
  unfold infoError
  apply div_le_div_of_nonneg_right _ (by positivity)
  have hnn : ∀ p ∈ pmf, 0 ≤ p.val := by
    intro p hm
    rcases hp p hm with h | h
    · rw [h]
    · exact le_trans (by positivity) h.1
  have s0 : 0 ≤ (pmf.map fun p : Double => p.val * |Real.logb base.val (1 / p.val)|).sum := List.sum_nonneg fun y hy => by
    obtain ⟨p, hm, rfl⟩ := List.mem_map.mp hy
    exact mul_nonneg (hnn p hm) (abs_nonneg _)
  have w0 : 0 ≤ (pmf.map fun p : Double => p.val).sum := List.sum_nonneg fun y hy => by
    obtain ⟨p, hm, rfl⟩ := List.mem_map.mp hy
    exact hnn p hm
  have hk : 0 ≤ logScale base := by unfold logScale; positivity
  apply mul_le_mul_of_nonneg_right
  · have : ((pmf.filter fun p : Double => decide (0 < p.val)).length : ℝ) ≤ pmf.length := by exact_mod_cast List.length_filter_le _ _
    linarith
  · have := mul_nonneg (by linarith : 0 ≤ logScale base + 1) w0
    linarith

/-- `relative_entropy` in double precision, to any base, when every positive `pmf[i]` meets a positive `qmf[i]` and their quotient is neither huge nor tiny. -/
theorem C143_relative_entropy {F : InfoLibm} (hF : F.Accurate) {dot : List (ℝ × ℝ) → Double} (hdot : ∀ l, DotOf l (dot l)) (base : LogBase) (hb0 : 0 < base.val) (hb1 : base.val ≠ 1)
    (pq : List (Double × Double)) (hlen : pq.length ≤ 2 ^ 40)
    (hp : ∀ x ∈ pq, x.1.val = 0 ∨ (0 < x.1.val ∧ 0 < x.2.val ∧ 1 / 2 ^ 1001 ≤ x.1.val / x.2.val ∧ x.1.val / x.2.val ≤ 2 ^ 1001)) :
    ∃ v : ℝ, relativeEntropyD F dot pq base = (v : EReal) ∧
      |v - (pq.map fun x : Double × Double => x.1.val * Real.logb base.val (x.1.val / x.2.val)).sum| ≤
        infoError base pq.length (pq.map fun x : Double × Double => x.1.val * |Real.logb base.val (x.1.val / x.2.val)|).sum (pq.map fun x : Double × Double => x.1.val).sum := by
  have hpos : ∀ x ∈ pq.filter fun x : Double × Double => decide (0 < x.1.val),
      0 < x.1.val ∧ 0 < x.2.val ∧ 1 / 2 ^ 1001 ≤ x.1.val / x.2.val ∧ x.1.val / x.2.val ≤ 2 ^ 1001 := by
    intro p hm
    obtain ⟨h1, h2⟩ := List.mem_filter.mp hm
    rcases hp p h1 with h | h
    · rw [h] at h2; simp at h2
    · exact h
  have hq : ¬ ∃ x ∈ pq.filter fun x : Double × Double => decide (0 < x.1.val), x.2.val = 0 := by
    rintro ⟨x, hm, h0⟩
    exact (hpos x hm).2.1.ne' h0
  obtain ⟨v, h1, h2⟩ := infoDot_near hF hdot base hb0 hb1 ((pq.filter fun x : Double × Double => decide (0 < x.1.val)).map fun x : Double × Double => (x.1.val, x.1.val / x.2.val))
    (by rw [List.length_map]; exact (List.length_filter_le _ _).trans hlen)
    (by
      intro x hx
      obtain ⟨p, hm, rfl⟩ := List.mem_map.mp hx
      exact (hpos p hm).1.le)
    (by
      intro x hx
      obtain ⟨p, hm, rfl⟩ := List.mem_map.mp hx
      exact (hpos p hm).2.2)
  refine ⟨v, by rw [relativeEntropyD, if_neg hq]; exact h1, ?_⟩
  have hz : ∀ p ∈ pq, decide (0 < p.1.val) = false → p.1.val = 0 := by
    intro p hm hd
    rcases hp p hm with h | h
    · exact h
    · simp [h.1] at hd
  rw [List.map_map, List.map_map, List.map_map] at h2
  simp only [Function.comp_def] at h2
  rw [filter_sum _ _ _ (fun p hm hd => by rw [hz p hm hd, zero_mul]), filter_sum _ _ _ (fun p hm hd => by rw [hz p hm hd, zero_mul]), filter_sum _ _ _ (fun p hm hd => hz p hm hd)] at h2
  refine h2.trans ?_
  rw [List.length_map]
  unfold infoError
  apply div_le_div_of_nonneg_right _ (by positivity)
  have hnn : ∀ p ∈ pq, 0 ≤ p.1.val := by
    intro p hm
    rcases hp p hm with h | h
    · rw [h]
    · exact h.1.le
  have s0 : 0 ≤ (pq.map fun x : Double × Double => x.1.val * |Real.logb base.val (x.1.val / x.2.val)|).sum := List.sum_nonneg fun y hy => by
    obtain ⟨p, hm, rfl⟩ := List.mem_map.mp hy
    exact mul_nonneg (hnn p hm) (abs_nonneg _)
  have w0 : 0 ≤ (pq.map fun x : Double × Double => x.1.val).sum := List.sum_nonneg fun y hy => by
    obtain ⟨p, hm, rfl⟩ := List.mem_map.mp hy
    exact hnn p hm
  have hk : 0 ≤ logScale base := by unfold logScale; positivity
  apply mul_le_mul_of_nonneg_right
  · have : ((pq.filter fun x : Double × Double => decide (0 < x.1.val)).length : ℝ) ≤ pq.length := by exact_mod_cast List.length_filter_le _ _
    linarith
  · have := mul_nonneg (by linarith : 0 ≤ logScale base + 1) w0
    linarith

/-- `relative_entropy` is infinite when a positive `pmf[i]` meets `qmf[i] = 0`. -/
theorem C143_relative_entropy_infinite (F : InfoLibm) (dot : List (ℝ × ℝ) → Double) (base : LogBase) (hb : 1 ≤ base.val) (pq : List (Double × Double))
    (h : ∃ x ∈ pq, 0 < x.1.val ∧ x.2.val = 0) : relativeEntropyD F dot pq base = ⊤ := by
  obtain ⟨x, hx, h1, h2⟩ := h
  rw [relativeEntropyD, if_pos ⟨x, List.mem_filter.mpr ⟨hx, by simpa using h1⟩, h2⟩, if_neg (not_lt.mpr hb)]

/-- FINDING: a positive probability of at most `2⁻¹⁰²⁵` makes `entropy` infinite, although it contributes next to nothing: its reciprocal overflows. -/
theorem C143_entropy_overflow (F : InfoLibm) (dot : List (ℝ × ℝ) → Double) (base : LogBase) (hb : 1 ≤ base.val) (pmf : List Double)
    (h : ∃ p ∈ pmf, 0 < p.val ∧ p.val ≤ 1 / 2 ^ 1025) : entropyD F dot pmf base = ⊤ := by
  obtain ⟨p, hm, h0, h1⟩ := h
  rw [entropyD, infoDotD, if_pos, if_neg (not_lt.mpr hb)]
  refine ⟨(p.val, 1 / p.val), List.mem_map.mpr ⟨p, List.mem_filter.mpr ⟨hm, by simpa using h0⟩, rfl⟩, ?_⟩
  have hd : IsDouble ((2 : ℝ) ^ 1024) := ⟨1, 1024, by norm_num, by norm_num, by rw [Int.cast_one, one_mul]; exact (zpow_natCast _ 1024).symm⟩
  change (2 : ℝ) ^ 1024 ≤ rnd (1 / p.val)
  have hle : (2 : ℝ) ^ 1024 ≤ 1 / p.val := by
    rw [le_div_iff₀ h0]
    have e : (2 : ℝ) ^ 1025 = 2 ^ 1024 * 2 := pow_succ _ _
    rw [e] at h1
    have hP : (0 : ℝ) < 2 ^ 1024 := by positivity
    clear e hd
    generalize (2 : ℝ) ^ 1024 = P at *
    rw [le_div_iff₀ (by linarith)] at h1
    have : 0 < p.val * P := mul_pos h0 hP
    linarith
  have := rnd_mono hle
  rwa [rnd_of_isDouble hd] at this

/-! ### the binary entropy function -/

theorem xlogx {x : ℝ} (h0 : 0 < x) (h1 : x ≤ 1) : 0 ≤ -(x * Real.logb 2 x) ∧ x * |Real.logb 2 x| ≤ 3 / 2 := by
  have hl2 := Real.log_two_gt_d9
  have hl : Real.log x ≤ 0 := Real.log_nonpos h0.le h1
  have hlb : Real.logb 2 x ≤ 0 := by rw [Real.logb]; exact div_nonpos_of_nonpos_of_nonneg hl (by linarith)
  refine ⟨by have := mul_nonneg h0.le (neg_nonneg.mpr hlb); linarith, ?_⟩
  rw [abs_of_nonpos hlb, Real.logb, ← neg_div, ← mul_div_assoc, div_le_iff₀ (by linarith)]
  have := Real.log_le_sub_one_of_pos (inv_pos.mpr h0)
  rw [Real.log_inv] at this
  have := mul_le_mul_of_nonneg_left this h0.le
  rw [mul_sub, mul_inv_cancel₀ h0.ne'] at this
  linarith

theorem one_sub_double {p : ℝ} (hd : IsDouble p) (h1 : p < 1) : 1 / 2 ^ 53 ≤ 1 - p := by
  obtain ⟨m, e, hm, he, rfl⟩ := hd
  rcases lt_or_ge e (-53) with h | h
  · have h2 : (2 : ℝ) ^ e ≤ 2 ^ (-54 : ℤ) := zpow_le_zpow_right₀ (by norm_num) (by omega)
    have h3 : (2 : ℝ) ^ (-54 : ℤ) = 1 / 2 ^ 54 := by rw [zpow_neg, one_div]; norm_cast
    have h4 : (m : ℝ) ≤ 2 ^ 53 := by exact_mod_cast (le_abs_self m).trans hm.le
    have h5 : (0 : ℝ) < 2 ^ e := two_zpow_pos e
    have h6 := mul_le_mul_of_nonneg_right h4 h5.le
    rw [h3] at h2
    have h7 := mul_le_mul_of_nonneg_left h2 (by norm_num : (0 : ℝ) ≤ 2 ^ 53)
    generalize (m : ℝ) * 2 ^ e = y at *
    generalize (2 : ℝ) ^ e = z at *
    norm_num at h7 ⊢
    linarith
  · obtain ⟨n, rfl⟩ : ∃ n : Nat, e = (n : ℤ) - 53 := ⟨(e + 53).toNat, by omega⟩
    have e1 : (2 : ℝ) ^ ((n : ℤ) - 53) = 2 ^ n * (1 / 2 ^ 53) := by
      rw [zpow_sub₀ (by norm_num), zpow_natCast, div_eq_mul_one_div]
      norm_cast
    rw [e1] at h1 ⊢
    have e2 : (m : ℝ) * (2 ^ n * (1 / 2 ^ 53)) = ((m * 2 ^ n : ℤ) : ℝ) * (1 / 2 ^ 53) := by push_cast; ring
    rw [e2] at h1 ⊢
    generalize m * 2 ^ n = k at *
    have h3 : (k : ℝ) < 2 ^ 53 := by
      rw [mul_one_div, div_lt_one (by positivity)] at h1
      exact h1
    have h4 : k + 1 ≤ 2 ^ 53 := by exact_mod_cast h3
    have h5 : (k : ℝ) + 1 ≤ 2 ^ 53 := by exact_mod_cast h4
    linarith

theorem small_t : (2 : ℝ) ^ (-1075 : ℤ) ≤ 1 / 2 ^ 60 := by
  rw [one_div, show ((2 : ℝ) ^ 60)⁻¹ = 2 ^ (-60 : ℤ) by rw [zpow_neg]; norm_cast]
  exact zpow_le_zpow_right₀ (by norm_num) (by norm_num)

/-- The binary entropy function in bits. -/
noncomputable def bitEntropy (p : ℝ) : ℝ := Real.binEntropy p / Real.log 2

theorem bitEntropy_eq (p : ℝ) : bitEntropy p = -(p * Real.logb 2 p) - (1 - p) * Real.logb 2 (1 - p) := by
  unfold bitEntropy Real.binEntropy Real.logb
  rw [Real.log_inv, Real.log_inv]
  ring

theorem bitEntropy_le_one (p : ℝ) : bitEntropy p ≤ 1 := by
  unfold bitEntropy
  rw [div_le_one (Real.log_pos (by norm_num))]
  exact Real.binEntropy_le_log_two

/-- `binary_entropy` in double precision: accurate to `2⁻⁴⁵` for every double `p` from 0 to 1. -/
theorem C143_binary_entropy {F : InfoLibm} (hF : F.Accurate) {p : ℝ} (hd : IsDouble p) (h0 : 0 ≤ p) (h1 : p ≤ 1) : |binaryEntropyD F p - Real.binEntropy p / Real.log 2| ≤ 1 / 2 ^ 45 := by
  change |_ - bitEntropy p| ≤ _
  unfold binaryEntropyD
  by_cases hb : p = 0 ∨ p = 1
  · rw [if_pos hb]
    rcases hb with rfl | rfl <;> simp [bitEntropy]
  rw [if_neg hb]
  rw [not_or] at hb
  have h0 : 0 < p := lt_of_le_of_ne h0 (Ne.symm hb.1)
  have h1 : p < 1 := lt_of_le_of_ne h1 hb.2
  have hq := one_sub_double hd h1
  obtain ⟨x1, x2⟩ := xlogx h0 h1.le
  obtain ⟨y1, y2⟩ := xlogx (x := 1 - p) (by linarith) (by linarith)
  have hup := bitEntropy_le_one p
  rw [bitEntropy_eq] at hup ⊢
  have a1 := hF.log2_near p h0
  have b1 := infoLog_near hF (.num 2) (by norm_num [LogBase.val]) (by norm_num [LogBase.val]) (x := 1 - p)
    (le_trans (by apply one_div_le_one_div_of_le (by positivity); exact pow_le_pow_right₀ (by norm_num) (by norm_num)) hq)
  have b2 : logScale (.num 2) ≤ 3 / 2 := by
    have := Real.log_two_gt_d9
    unfold logScale
    change 1 / |Real.log 2| ≤ _
    rw [abs_of_pos (by linarith), div_le_iff₀ (by linarith)]
    linarith
  have e : infoLogD F (.num 2) (rnd (1 - p)) = F.log2 (rnd (1 - p)) := by unfold infoLogD; simp
  rw [e] at b1
  change |F.log2 (rnd (1 - p)) - Real.logb 2 (1 - p)| ≤ (logScale (.num 2) + 1 + 8 * |Real.logb 2 (1 - p)|) / 2 ^ 50 at b1
  have c1 : |rnd (1 - p) - (1 - p)| ≤ (1 - p) / 2 ^ 53 := rnd_error_big (le_trans (by norm_num) hq)
  have ht := small_t
  have m1 := mul_le_mul_of_nonneg_left a1 h0.le
  have t1 : |rnd (-p * F.log2 p) - -(p * Real.logb 2 p)| ≤ 2 / 2 ^ 50 := by
    have n1 : |(-p * F.log2 p) - -(p * Real.logb 2 p)| ≤ 3 / 2 / 2 ^ 50 := by
      rw [show (-p * F.log2 p) - -(p * Real.logb 2 p) = -(p * (F.log2 p - Real.logb 2 p)) by ring, abs_neg, abs_mul, abs_of_pos h0]
      linarith
    have n2 : |-(p * Real.logb 2 p)| ≤ 3 / 2 := by rw [abs_neg, abs_mul, abs_of_pos h0]; exact x2
    have := rnd_near (A := 3 / 2) (by linarith) n1 n2
    refine this.trans (by norm_num)
  have hq0 : 0 < 1 - p := by linarith
  have hq1 : 1 - p ≤ 1 := by linarith
  have t2 : |rnd (rnd (1 - p) * F.log2 (rnd (1 - p))) - (1 - p) * Real.logb 2 (1 - p)| ≤ 16 / 2 ^ 50 := by
    have n1 : |rnd (1 - p) * F.log2 (rnd (1 - p)) - (1 - p) * Real.logb 2 (1 - p)| ≤ 15 / 2 ^ 50 := by
      generalize F.log2 (rnd (1 - p)) = L at *
      generalize Real.logb 2 (1 - p) = l at *
      generalize rnd (1 - p) = q' at *
      generalize 1 - p = q at *
      rw [show q' * L - q * l = q' * (L - l) + (q' - q) * l by ring]
      refine (abs_add_le _ _).trans ?_
      rw [abs_mul, abs_mul]
      have hl0 := abs_nonneg l
      have k1 : |q'| ≤ q + q / 2 ^ 53 := by
        have := abs_sub_abs_le_abs_sub q' q
        rw [abs_of_pos hq0] at this
        linarith
      have k2 : |q'| * |L - l| ≤ (q + q / 2 ^ 53) * ((5 / 2 + 8 * |l|) / 2 ^ 50) := by
        apply mul_le_mul k1 _ (abs_nonneg _) (by positivity)
        linarith
      have k3 : |q' - q| * |l| ≤ q / 2 ^ 53 * |l| := mul_le_mul_of_nonneg_right c1 hl0
      have k4 : (q + q / 2 ^ 53) * ((5 / 2 + 8 * |l|) / 2 ^ 50) = (1 + 1 / 2 ^ 53) * (5 / 2 * q + 8 * (q * |l|)) / 2 ^ 50 := by ring
      have k5 : q / 2 ^ 53 * |l| = q * |l| / 2 ^ 53 := by ring
      rw [k4] at k2
      rw [k5] at k3
      have k6 : 0 ≤ q * |l| := by positivity
      generalize q * |l| = z at *
      linarith
    have n2 : |(1 - p) * Real.logb 2 (1 - p)| ≤ 3 / 2 := by rw [abs_mul, abs_of_pos hq0]; exact y2
    have := rnd_near (A := 3 / 2) (by linarith) n1 n2
    refine this.trans (by norm_num)
  have n3 : |(rnd (-p * F.log2 p) - rnd (rnd (1 - p) * F.log2 (rnd (1 - p)))) - (-(p * Real.logb 2 p) - (1 - p) * Real.logb 2 (1 - p))| ≤ 18 / 2 ^ 50 := by
    rw [show ∀ a b c d : ℝ, (a - b) - (c - d) = (a - c) - (b - d) by intros; ring]
    refine (abs_sub _ _).trans ?_
    linarith
  have n4 : |-(p * Real.logb 2 p) - (1 - p) * Real.logb 2 (1 - p)| ≤ 1 := by rw [abs_le]; constructor <;> linarith
  refine (rnd_near (A := 1) (by linarith) n3 n4).trans (by norm_num)

/-! ### the inverse -/

/-- `binary_entropy_inv` at the ends of the range. -/
theorem C143_inverse_ends (F : InfoLibm) (fuel : Nat) (tol : ℝ) : binaryEntropyInvD F fuel 0 tol = some 0 ∧ binaryEntropyInvD F fuel 1 tol = some (1 / 2) := by
  constructor
  · rw [binaryEntropyInvD, if_pos (Or.inl rfl), mul_zero, rnd_zero]
  · rw [binaryEntropyInvD, if_pos (Or.inr rfl), mul_one, rnd_of_isDouble ⟨1, -1, by norm_num, by norm_num, by norm_num⟩]

theorem dyadic_double (a : ℤ) (k : Nat) (ha : |a| < 2 ^ 53) (hk : k ≤ 1000) : IsDouble ((a : ℝ) / 2 ^ k) :=
  ⟨a, -k, ha, by omega, by rw [zpow_neg, zpow_natCast, div_eq_mul_inv]⟩

theorem continuous_bitEntropy : Continuous bitEntropy := Real.binEntropy_continuous.div_const _

theorem inv_loop {F : InfoLibm} (hF : F.Accurate) {h tol : ℝ} (htol : 1 / 2 ^ 50 ≤ tol) (hh0 : 0 < h) (hh1 : h < 1) (fuel k : Nat) (a : ℤ) (hk : 50 ≤ k + fuel) (hk2 : k ≤ 49)
    (ha0 : 0 ≤ a) (ha1 : a + 1 ≤ 2 ^ k) (hlow : a = 0 ∨ binaryEntropyD F ((a : ℝ) / 2 ^ (k + 1)) < h) (hhigh : a + 1 = 2 ^ k ∨ h ≤ binaryEntropyD F (((a : ℝ) + 1) / 2 ^ (k + 1))) :
    ∃ x, entropyInvLoopD F h tol fuel ((a : ℝ) / 2 ^ (k + 1)) (((a : ℝ) + 1) / 2 ^ (k + 1)) = some x ∧ 0 ≤ x ∧ x ≤ 1 / 2 ∧
      ∃ y, 0 ≤ y ∧ y ≤ 1 / 2 ∧ |x - y| ≤ tol / 2 ∧ |bitEntropy y - h| ≤ 1 / 2 ^ 45 := by
  induction fuel generalizing k a with
  | zero => omega
  | succ fuel ih =>
    have hpow : (2 : ℤ) ^ k ≤ 2 ^ 49 := pow_le_pow_right₀ (by norm_num) hk2
    have hP : (0 : ℝ) < 2 ^ (k + 1) := by positivity
    have ha0' : (0 : ℝ) ≤ a := by exact_mod_cast ha0
    have ha1' : (a : ℝ) + 1 ≤ 2 ^ k := by exact_mod_cast ha1
    have hkk : (2 : ℝ) ^ (k + 1) = 2 ^ k * 2 := pow_succ _ _
    have ew : ((a : ℝ) + 1) / 2 ^ (k + 1) - (a : ℝ) / 2 ^ (k + 1) = 1 / 2 ^ (k + 1) := by ring
    have dw : IsDouble ((1 : ℝ) / 2 ^ (k + 1)) := by simpa using dyadic_double 1 (k + 1) (by norm_num) (by omega)
    have es : (a : ℝ) / 2 ^ (k + 1) + ((a : ℝ) + 1) / 2 ^ (k + 1) = ((2 * a + 1 : ℤ) : ℝ) / 2 ^ (k + 1) := by push_cast; ring
    have hsz : |2 * a + 1| < 2 ^ 53 := by rw [abs_of_nonneg (by omega)]; omega
    have ds : IsDouble (((2 * a + 1 : ℤ) : ℝ) / 2 ^ (k + 1)) := dyadic_double _ _ hsz (by omega)
    have em : ((2 * a + 1 : ℤ) : ℝ) / 2 ^ (k + 1) / 2 = ((2 * a + 1 : ℤ) : ℝ) / 2 ^ (k + 1 + 1) := by rw [pow_succ _ (k + 1), div_div]
    have dm : IsDouble (((2 * a + 1 : ℤ) : ℝ) / 2 ^ (k + 1 + 1)) := dyadic_double _ _ hsz (by omega)
    rw [entropyInvLoopD]
    simp only
    rw [ew, rnd_of_isDouble dw, es, rnd_of_isDouble ds, em, rnd_of_isDouble dm]
    by_cases hc : 1 / 2 ^ (k + 1) > tol
    · rw [if_pos hc]
      have hk3 : k + 1 ≤ 49 := by
        by_contra hcon
        have : (1 : ℝ) / 2 ^ (k + 1) ≤ 1 / 2 ^ 50 := by
          apply one_div_le_one_div_of_le (by positivity)
          exact pow_le_pow_right₀ (by norm_num) (by omega)
        linarith
      have e1 : ((a : ℝ) + 1) / 2 ^ (k + 1) = (((2 * a + 1 : ℤ) : ℝ) + 1) / 2 ^ (k + 1 + 1) := by
        rw [pow_succ _ (k + 1)]; push_cast; field_simp; ring
      have e2 : (a : ℝ) / 2 ^ (k + 1) = ((2 * a : ℤ) : ℝ) / 2 ^ (k + 1 + 1) := by
        rw [pow_succ _ (k + 1)]; push_cast; field_simp
      have e3 : ((2 * a + 1 : ℤ) : ℝ) = ((2 * a : ℤ) : ℝ) + 1 := by push_cast; ring
      have e4 : (2 : ℤ) ^ (k + 1) = 2 ^ k * 2 := pow_succ _ _
      by_cases hb : binaryEntropyD F (((2 * a + 1 : ℤ) : ℝ) / 2 ^ (k + 1 + 1)) < h
      · rw [if_pos hb, e1]
        apply ih (k + 1) (2 * a + 1) (by omega) hk3 (by omega) (by omega) (Or.inr hb)
        rcases hhigh with h' | h'
        · left; omega
        · right; rw [← e1]; exact h'
      · rw [if_neg hb, e2, e3]
        rw [e3] at hb
        apply ih (k + 1) (2 * a) (by omega) hk3 (by omega) (by omega) _ (Or.inr (not_lt.mp hb))
        rcases hlow with h' | h'
        · left; omega
        · right; rw [← e2]; exact h'
    · rw [if_neg hc]
      rw [gt_iff_lt, not_lt] at hc
      have hlow0 : 0 ≤ (a : ℝ) / 2 ^ (k + 1) := by positivity
      have hhi1 : ((a : ℝ) + 1) / 2 ^ (k + 1) ≤ 1 / 2 := by
        rw [div_le_iff₀ hP, hkk]; linarith
      have hlh : (a : ℝ) / 2 ^ (k + 1) ≤ ((a : ℝ) + 1) / 2 ^ (k + 1) := div_le_div_of_nonneg_right (by linarith) hP.le
      have hmid : ((2 * a + 1 : ℤ) : ℝ) / 2 ^ (k + 1 + 1) = ((a : ℝ) / 2 ^ (k + 1) + ((a : ℝ) + 1) / 2 ^ (k + 1)) / 2 := by rw [es, em]
      -- the entropies at the ends
      have dl : IsDouble ((a : ℝ) / 2 ^ (k + 1)) := dyadic_double a (k + 1) (by rw [abs_of_nonneg ha0]; omega) (by omega)
      have dh : IsDouble (((a : ℝ) + 1) / 2 ^ (k + 1)) := by
        have := dyadic_double (a + 1) (k + 1) (by rw [abs_of_nonneg (by omega)]; omega) (by omega)
        push_cast at this
        exact this
      have nl := abs_le.mp (C143_binary_entropy hF dl hlow0 (hlh.trans (hhi1.trans (by norm_num))))
      have nh := abs_le.mp (C143_binary_entropy hF dh (by positivity) (hhi1.trans (by norm_num)))
      change _ ≤ _ - bitEntropy _ ∧ _ - bitEntropy _ ≤ _ at nl
      change _ ≤ _ - bitEntropy _ ∧ _ - bitEntropy _ ≤ _ at nh
      have gl : bitEntropy ((a : ℝ) / 2 ^ (k + 1)) ≤ h + 1 / 2 ^ 45 := by
        rcases hlow with h' | h'
        · rw [h']
          have : bitEntropy (((0 : ℤ) : ℝ) / 2 ^ (k + 1)) = 0 := by simp [bitEntropy]
          rw [this]
          have : (0 : ℝ) < 1 / 2 ^ 45 := by positivity
          linarith
        · linarith [nl.1]
      have gh : h - 1 / 2 ^ 45 ≤ bitEntropy (((a : ℝ) + 1) / 2 ^ (k + 1)) := by
        rcases hhigh with h' | h'
        · have : ((a : ℝ) + 1) / 2 ^ (k + 1) = 2⁻¹ := by
            have : (a : ℝ) + 1 = 2 ^ k := by exact_mod_cast h'
            rw [this, hkk]; field_simp
          rw [this, bitEntropy, Real.binEntropy_two_inv, div_self (Real.log_pos (by norm_num)).ne']
          have : (0 : ℝ) < 1 / 2 ^ 45 := by positivity
          linarith
        · linarith [nh.2]
      refine ⟨_, rfl, ?_, ?_, ?_⟩
      · rw [hmid]; have := hlow0; have : 0 ≤ ((a : ℝ) + 1) / 2 ^ (k + 1) := by positivity
        linarith
      · rw [hmid, div_le_iff₀ (by norm_num)]
        exact (add_le_add (hlh.trans hhi1) hhi1).trans (by norm_num)
      · rw [hmid]
        clear hmid em es ds dm hsz nl nh dl dh ih
        have hw : ((a : ℝ) + 1) / 2 ^ (k + 1) = (a : ℝ) / 2 ^ (k + 1) + 1 / 2 ^ (k + 1) := by linarith
        have hw0 : (0 : ℝ) < 1 / 2 ^ (k + 1) := by positivity
        generalize ((a : ℝ) + 1) / 2 ^ (k + 1) = H at *
        generalize (a : ℝ) / 2 ^ (k + 1) = L at *
        generalize (1 : ℝ) / 2 ^ (k + 1) = W at *
        have fin : ∀ y, L ≤ y → y ≤ H → |bitEntropy y - h| ≤ 1 / 2 ^ 45 → ∃ y, 0 ≤ y ∧ y ≤ 1 / 2 ∧ |(L + H) / 2 - y| ≤ tol / 2 ∧ |bitEntropy y - h| ≤ 1 / 2 ^ 45 :=
          fun y y1 y2 y3 => ⟨y, by linarith, by linarith, by rw [abs_le]; constructor <;> linarith, y3⟩
        rcases le_or_gt h (bitEntropy L) with g | g
        · exact fin L le_rfl (by linarith) (by rw [abs_le]; constructor <;> linarith)
        rcases le_or_gt (bitEntropy H) h with g' | g'
        · exact fin H (by linarith) le_rfl (by rw [abs_le]; constructor <;> linarith)
        obtain ⟨y, hy, hye⟩ := intermediate_value_Icc (by linarith : L ≤ H) continuous_bitEntropy.continuousOn ⟨g.le, g'.le⟩
        exact fin y hy.1 hy.2 (by rw [hye, sub_self, abs_zero]; positivity)

/-- `binary_entropy_inv` in double precision, for tolerances of at least `2⁻⁵⁰` (the default is `10⁻¹²`): it terminates within 51 iterations, and the result is within half of the tolerance
of a `y` from 0 to 1/2 whose binary entropy is within `2⁻⁴⁵` of `h`. -/
theorem C143_inverse {F : InfoLibm} (hF : F.Accurate) {h tol : ℝ} (htol : 1 / 2 ^ 50 ≤ tol) (hh0 : 0 < h) (hh1 : h < 1) (fuel : Nat) (hfuel : 50 ≤ fuel) :
    ∃ x, binaryEntropyInvD F fuel h tol = some x ∧ 0 ≤ x ∧ x ≤ 1 / 2 ∧
      ∃ y, 0 ≤ y ∧ y ≤ 1 / 2 ∧ |x - y| ≤ tol / 2 ∧ |Real.binEntropy y / Real.log 2 - h| ≤ 1 / 2 ^ 45 := by
  have := inv_loop hF htol hh0 hh1 fuel 0 0 (by omega) (by omega) le_rfl (by norm_num) (Or.inl rfl) (Or.inl (by norm_num))
  rw [binaryEntropyInvD, if_neg (by rintro (h' | h') <;> linarith)]
  simp only [Int.cast_zero, zero_div, zero_add, pow_one] at this
  exact this

/-! ### the inverse with too small a tolerance -/

theorem double_gap {x y : ℝ} (hx : IsDouble x) (hy : IsDouble y) (h1 : 1 / 4 ≤ x) (h2 : x < y) : 1 / 2 ^ 54 ≤ y - x := by
  have key : ∀ z, IsDouble z → 1 / 4 ≤ z → ∃ k : ℤ, z = k * (1 / 2 ^ 54) := by
    rintro z ⟨m, e, hm, he, rfl⟩ h
    have hlt : -55 < e := by
      by_contra hc
      have h2 : (2 : ℝ) ^ e ≤ 2 ^ (-55 : ℤ) := zpow_le_zpow_right₀ (by norm_num) (by omega)
      have h3 : (2 : ℝ) ^ (-55 : ℤ) = 1 / 2 ^ 55 := by rw [zpow_neg, one_div]; norm_cast
      have h4 : (m : ℝ) < 2 ^ 53 := by exact_mod_cast lt_of_le_of_lt (le_abs_self m) hm
      have h5 : (0 : ℝ) < 2 ^ e := two_zpow_pos e
      have h6 := mul_lt_mul_of_pos_right h4 h5
      rw [h3] at h2
      have h7 := mul_le_mul_of_nonneg_left h2 (by norm_num : (0 : ℝ) ≤ 2 ^ 53)
      generalize (m : ℝ) * 2 ^ e = y at *
      generalize (2 : ℝ) ^ e = z at *
      norm_num at h7
      linarith
    obtain ⟨n, rfl⟩ : ∃ n : Nat, e = (n : ℤ) - 54 := ⟨(e + 54).toNat, by omega⟩
    refine ⟨m * 2 ^ n, ?_⟩
    have e1 : (2 : ℝ) ^ ((n : ℤ) - 54) = 2 ^ n * (1 / 2 ^ 54) := by
      rw [zpow_sub₀ (by norm_num), zpow_natCast, div_eq_mul_one_div]
      norm_cast
    rw [e1]; push_cast; ring
  obtain ⟨i, rfl⟩ := key x hx h1
  obtain ⟨j, rfl⟩ := key y hy (by linarith)
  have : (i : ℝ) < j := lt_of_mul_lt_mul_right h2 (by positivity)
  have : i + 1 ≤ j := by exact_mod_cast this
  have : (i : ℝ) + 1 ≤ j := by exact_mod_cast this
  rw [← sub_mul]
  have : (1 : ℝ) ≤ j - i := by linarith
  have := mul_le_mul_of_nonneg_right this (by positivity : (0 : ℝ) ≤ 1 / 2 ^ 54)
  linarith

theorem isDouble_twice {x : ℝ} (h : IsDouble x) : IsDouble (2 * x) := by
  obtain ⟨m, e, h1, h2, rfl⟩ := h
  exact ⟨m, e + 1, h1, by omega, by rw [zpow_add_one₀ (by norm_num)]; ring⟩

theorem hang_loop (F : InfoLibm) {h tol : ℝ} (htol : tol < 1 / 2 ^ 54) (fuel : Nat) (low high : ℝ) (dl : IsDouble low) (dh : IsDouble high) (h1 : 1 / 4 ≤ low) (h2 : low < high)
    (hl : binaryEntropyD F low < h) (hh : h ≤ binaryEntropyD F high) : entropyInvLoopD F h tol fuel low high = none := by
  induction fuel generalizing low high with
  | zero => rfl
  | succ fuel ih =>
    rw [entropyInvLoopD]
    simp only
    have hgap := double_gap dl dh h1 h2
    have hd : IsDouble ((1 : ℝ) / 2 ^ 54) := by simpa using dyadic_double 1 54 (by norm_num) (by norm_num)
    have hw := rnd_mono hgap
    rw [rnd_of_isDouble hd] at hw
    rw [if_pos (by linarith : rnd (high - low) > tol)]
    have m1 : low ≤ rnd (rnd (low + high) / 2) := by
      have a1 := rnd_mono (show 2 * low ≤ low + high by linarith)
      rw [rnd_of_isDouble (isDouble_twice dl)] at a1
      have a2 := rnd_mono (show low ≤ rnd (low + high) / 2 by linarith)
      rwa [rnd_of_isDouble dl] at a2
    have m2 : rnd (rnd (low + high) / 2) ≤ high := by
      have a1 := rnd_mono (show low + high ≤ 2 * high by linarith)
      rw [rnd_of_isDouble (isDouble_twice dh)] at a1
      have a2 := rnd_mono (show rnd (low + high) / 2 ≤ high by linarith)
      rwa [rnd_of_isDouble dh] at a2
    have dm := rnd_isDouble (rnd (low + high) / 2)
    generalize rnd (rnd (low + high) / 2) = mid at *
    by_cases hb : binaryEntropyD F mid < h
    · rw [if_pos hb]
      refine ih mid high dm dh (by linarith) (lt_of_le_of_ne m2 ?_) hb hh
      rintro rfl
      linarith
    · rw [if_neg hb]
      refine ih low mid dl dm h1 (lt_of_le_of_ne m1 ?_) hl (not_lt.mp hb)
      rintro rfl
      exact hb hl

theorem bitEntropy_quarter : bitEntropy (1 / 4) ≤ 7 / 8 := by
  rw [bitEntropy_eq]
  have e1 : Real.logb 2 (1 / 4) = -2 := by
    rw [show (1 : ℝ) / 4 = 2 ^ (-2 : ℤ) by norm_num, ← Real.rpow_intCast, Real.logb_rpow (by norm_num) (by norm_num)]; norm_num
  have e2 : Real.logb 2 (1 - 1 / 4) = Real.logb 2 3 - 2 := by
    rw [show (1 : ℝ) - 1 / 4 = 3 * (1 / 4) by norm_num, Real.logb_mul (by norm_num) (by norm_num), e1]; ring
  have e3 : 3 / 2 ≤ Real.logb 2 3 := by
    have h1 : (3 : ℝ) ≤ Real.logb 2 9 := by
      have := Real.logb_le_logb_of_le (b := 2) (by norm_num) (by norm_num : (0 : ℝ) < 2 ^ (3 : ℝ)) (show (2 : ℝ) ^ (3 : ℝ) ≤ 9 by norm_num)
      rwa [Real.logb_rpow (by norm_num) (by norm_num)] at this
    have h2 : Real.logb 2 9 = 2 * Real.logb 2 3 := by
      rw [show (9 : ℝ) = 3 * 3 by norm_num, Real.logb_mul (by norm_num) (by norm_num)]; ring
    linarith
  rw [e1, e2]
  linarith

/-- FINDING: with a tolerance below the spacing of the doubles (for instance 0), `binary_entropy_inv` never returns for `h` from 0.9 to nearly 1: the midpoint is one of the two ends. -/
theorem C143_inverse_hangs {F : InfoLibm} (hF : F.Accurate) {h tol : ℝ} (htol : tol < 1 / 2 ^ 54) (hh0 : 9 / 10 ≤ h) (hh1 : h ≤ 1 - 1 / 2 ^ 40) (fuel : Nat) :
    binaryEntropyInvD F fuel h tol = none := by
  have h40 : (0 : ℝ) < 1 / 2 ^ 40 := by positivity
  have dh : IsDouble (1 / 2 : ℝ) := ⟨1, -1, by norm_num, by norm_num, by norm_num⟩
  have dq : IsDouble (1 / 4 : ℝ) := ⟨1, -2, by norm_num, by norm_num, by norm_num⟩
  rw [binaryEntropyInvD, if_neg (by rintro (h' | h') <;> linarith)]
  cases fuel with
  | zero => rfl
  | succ fuel =>
    rw [entropyInvLoopD]
    simp only
    rw [sub_zero, zero_add, rnd_of_isDouble dh, show (1 / 2 / 2 : ℝ) = 1 / 4 by norm_num, rnd_of_isDouble dq]
    have h54 : (1 : ℝ) / 2 ^ 54 ≤ 1 / 2 := by norm_num
    rw [if_pos (by linarith : (1 / 2 : ℝ) > tol)]
    have n1 := abs_le.mp (C143_binary_entropy hF dq (by norm_num) (by norm_num))
    have n2 := abs_le.mp (C143_binary_entropy hF dh (by norm_num) (by norm_num))
    change _ ≤ _ - bitEntropy _ ∧ _ - bitEntropy _ ≤ _ at n1
    have q := bitEntropy_quarter
    have e2 : Real.binEntropy (1 / 2) / Real.log 2 = 1 := by
      rw [one_div, Real.binEntropy_two_inv, div_self (Real.log_pos (by norm_num)).ne']
    rw [e2] at n2
    have hl : binaryEntropyD F (1 / 4) < h := by
      have := n1.2
      have : (1 : ℝ) / 2 ^ 45 ≤ 1 / 100 := by norm_num
      linarith
    rw [if_pos hl]
    refine hang_loop F htol fuel _ _ dq dh le_rfl (by norm_num) hl ?_
    have := n2.1
    have : (1 : ℝ) / 2 ^ 45 ≤ 1 / 2 ^ 40 := by norm_num
    linarith

/-! ### the hypotheses can be met -/

/-- The exact logarithms are accurate. -/
noncomputable def exactInfo : InfoLibm := ⟨Real.log, Real.logb 2⟩

theorem exactInfo_accurate : exactInfo.Accurate :=
  ⟨fun x _ => by change |Real.log x - Real.log x| ≤ _; rw [sub_self, abs_zero]; positivity, fun x _ => by change |Real.logb 2 x - Real.logb 2 x| ≤ _; rw [sub_self, abs_zero]; positivity⟩

/-- A dot product by fused multiply-adds from the right. -/
noncomputable def fmaDot : List (ℝ × ℝ) → Double
  | [] => 0
  | x :: l => ⟨rnd ((fmaDot l).val + x.1 * x.2), rnd_isDouble _⟩

theorem fmaDot_dotOf : ∀ l, DotOf l (fmaDot l)
  | [] => DotOf.nil
  | x :: l => DotOf.fma x.1 x.2 (fmaDot_dotOf l)

/-- A pmf of a quarter and three quarters. -/
noncomputable def quarterD : Double := ⟨1 / 4, 1, -2, by norm_num, by norm_num, by norm_num⟩
noncomputable def threeQuartersD : Double := ⟨3 / 4, 3, -2, by norm_num, by norm_num, by norm_num⟩

example : exactInfo.Accurate ∧ (∀ l, DotOf l (fmaDot l)) ∧ 0 < (LogBase.num 2).val ∧ (LogBase.num 2).val ≠ 1 ∧ [quarterD, threeQuartersD].length ≤ 2 ^ 40 ∧
    ∀ p ∈ [quarterD, threeQuartersD], p.val = 0 ∨ (1 / 2 ^ 1000 ≤ p.val ∧ p.val ≤ 2) := by
  refine ⟨exactInfo_accurate, fmaDot_dotOf, by norm_num [LogBase.val], by norm_num [LogBase.val], by simp, ?_⟩
  have h : (1 : ℝ) / 2 ^ 1000 ≤ 1 / 2 ^ 2 := one_div_le_one_div_of_le (by positivity) (pow_le_pow_right₀ (by norm_num) (by norm_num))
  generalize (1 : ℝ) / 2 ^ 1000 = P at *
  intro p hp
  right
  simp only [List.mem_cons, List.not_mem_nil, or_false] at hp
  rcases hp with rfl | rfl
  · change P ≤ 1 / 4 ∧ (1 / 4 : ℝ) ≤ 2
    constructor <;> linarith
  · change P ≤ 3 / 4 ∧ (3 / 4 : ℝ) ≤ 2
    constructor <;> linarith

/-- The smallest positive double: `entropy([1.0, 5e-324])` is infinite. -/
noncomputable def smallestDouble : Double := ⟨2 ^ (-1074 : ℤ), 1, -1074, by norm_num, le_rfl, by rw [Int.cast_one, one_mul]⟩

example : entropyD exactInfo fmaDot [Double.ofInt 1, smallestDouble] (.num 2) = ⊤ :=
  C143_entropy_overflow _ _ _ (by norm_num [LogBase.val]) _ ⟨smallestDouble, by simp, two_zpow_pos (-1074), by
    change (2 : ℝ) ^ (-1074 : ℤ) ≤ 1 / 2 ^ 1025
    rw [one_div, ← zpow_natCast, ← zpow_neg]
    exact zpow_le_zpow_right₀ (by norm_num) (by norm_num)⟩

example : ∃ x, binaryEntropyInvD exactInfo 50 (1 / 2) (1 / 10 ^ 12) = some x := by
  obtain ⟨x, hx, _⟩ := C143_inverse exactInfo_accurate (h := 1 / 2) (tol := 1 / 10 ^ 12) (by norm_num) (by norm_num) (by norm_num) 50 le_rfl
  exact ⟨x, hx⟩

example (fuel : Nat) : binaryEntropyInvD exactInfo fuel (95 / 100) 0 = none := C143_inverse_hangs exactInfo_accurate (by norm_num) (by norm_num) (by norm_num) fuel

end Komm
