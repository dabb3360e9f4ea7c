import Verif.Model.SpecialFunctions
import Verif.Lemmas.Marcum
import Mathlib.Analysis.Complex.ExponentialBounds
/-! C105: `marcum_q` against the documented integral. -/
namespace Komm
open MeasureTheory Set Filter Topology

/-- The complementary distribution function of the (central) chi distribution with `2 m` degrees of freedom, the case `a = 0`. -/
noncomputable def chiTail (m : ℕ) (x : ℝ) : ℝ := ∫ u in Ioi x, u ^ (2 * m - 1) * Real.exp (-u ^ 2 / 2) / (2 ^ (m - 1) * (m - 1).factorial)

theorem chiTail_eq (m : ℕ) (hm : 0 < m) (x : ℝ) (hx : 0 ≤ x) : chiTail m x = ∑ j ∈ Finset.range m, pois (x ^ 2 / 2) j := by
  obtain ⟨n, rfl⟩ : ∃ n, m = n + 1 := ⟨m - 1, by omega⟩
  rw [← erlang_integral n x hx, chiTail]
  refine integral_congr_ae (Eventually.of_forall fun u => ?_)
  simp only [pois, Nat.add_sub_cancel, show 2 * (n + 1) - 1 = 2 * n + 1 by omega, neg_div]
  rw [div_pow, ← pow_mul, pow_succ]
  field_simp

/-- `marcum_q` raises exactly when `m` is not positive or `a` or `x` is negative. -/
theorem C105_raises_iff (m : ℤ) (a x : ℝ) : marcumQ m a x = none ↔ m ≤ 0 ∨ a < 0 ∨ x < 0 := by
  unfold marcumQ
  by_cases hm : m > 0
  · rw [if_neg (not_not.mpr hm)]
    by_cases h : ¬ (a ≥ 0) ∨ ¬ (x ≥ 0)
    · rw [if_pos h]
      simp only [true_iff]
      rcases h with h | h
      · exact Or.inr (Or.inl (not_le.mp h))
      · exact Or.inr (Or.inr (not_le.mp h))
    · rw [if_neg h]
      push Not at h
      simp only [reduceCtorEq, false_iff, not_or, not_lt, not_le]
      exact ⟨hm, h.1, h.2⟩
  · rw [if_pos hm]
    simp only [true_iff]
    exact Or.inl (not_lt.mp hm)

theorem marcumQ_some (m : ℕ) (hm : 0 < m) (a x : ℝ) (ha : 0 ≤ a) (hx : 0 ≤ x) :
    marcumQ m a x = some (auxiliaryP m (a ^ 2 / (2 * m)) (x ^ 2 / 2)) := by
  unfold marcumQ
  rw [if_neg (by push Not; exact_mod_cast hm), if_neg (by push Not; exact ⟨ha, hx⟩)]
  simp

theorem auxTerm_eq (m : ℕ) (a b : ℝ) (i : ℕ) (hi : m ≤ i) : auxTerm m a b i = marcumTerm m (m * a) b i := by
  simp only [auxTerm, marcumTerm, pois, Real.Gamma_nat_eq_factorial, show i - m + 1 = i + 1 - m by omega, neg_mul]

/-- The loop stops at an index `n`: at the end of the range, or just after the first term below `tol`. -/
theorem auxLoop_spec (m : ℕ) (a b tol : ℝ) (fuel i : ℕ) (hi : m ≤ i) (r : ℝ) : ∃ n, i ≤ n ∧ n ≤ i + fuel ∧
    auxLoop m a b tol fuel i r = r + ∑ j ∈ Finset.Ico i n, marcumTerm m (m * a) b j ∧
    (n = i + fuel ∨ ∃ k, i ≤ k ∧ n = k + 1 ∧ |marcumTerm m (m * a) b k| < tol) := by
  induction fuel generalizing i r with
  | zero => exact ⟨i, le_rfl, le_rfl, by simp [auxLoop], Or.inl rfl⟩
  | succ fuel ih =>
    rw [auxLoop]
    simp only [auxTerm_eq m a b i hi]
    split
    · rename_i h
      exact ⟨i + 1, by omega, by omega, by simp, Or.inr ⟨i, le_rfl, rfl, h⟩⟩
    · obtain ⟨n, h1, h2, h3, h4⟩ := ih (i + 1) (by omega) (r + marcumTerm m (m * a) b i)
      refine ⟨n, by omega, by omega, ?_, ?_⟩
      · rw [h3, Finset.sum_eq_sum_Ico_succ_bot (show i < n by omega), add_assoc]
      · rcases h4 with h4 | ⟨k, g1, g2, g3⟩
        · exact Or.inl (by omega)
        · exact Or.inr ⟨k, by omega, g2, g3⟩

theorem auxiliaryP_spec (m : ℕ) (a b tol : ℝ) (maxIter : ℕ) : ∃ n, m ≤ n ∧ n ≤ max m maxIter ∧
    auxiliaryP m a b maxIter tol = ∑ j ∈ Finset.range n, marcumTerm m (m * a) b j ∧
    (n = max m maxIter ∨ ∃ k, m ≤ k ∧ n = k + 1 ∧ |marcumTerm m (m * a) b k| < tol) := by
  have hmax : max m maxIter = m + (maxIter - m) := by omega
  rw [hmax]
  obtain ⟨n, h1, h2, h3, h4⟩ := auxLoop_spec m a b tol (maxIter - m) m le_rfl (∑ j ∈ Finset.range m, marcumTerm m (m * a) b j)
  refine ⟨n, h1, h2, ?_, h4⟩
  · rw [auxiliaryP]
    have e : ∑ k ∈ Finset.range m, Real.exp (-b) * b ^ k / Real.Gamma (k + 1) = ∑ j ∈ Finset.range m, marcumTerm m (m * a) b j :=
      Finset.sum_congr rfl fun j hj => by
        have : j + 1 - m = 0 := by have := Finset.mem_range.mp hj; omega
        rw [marcumTerm, this, Real.Gamma_nat_eq_factorial, pois]; simp
    simp only [e]
    rw [h3, Finset.sum_range_add_sum_Ico _ h1]

theorem scaled (m : ℕ) (hm : 0 < m) (a : ℝ) : (m : ℝ) * (a ^ 2 / (2 * m)) = a ^ 2 / 2 := by
  have : (m : ℝ) ≠ 0 := by positivity
  field_simp

/-- For `a = 0` the result is exactly the tail of the chi distribution. -/
theorem C105_central (m : ℕ) (hm : 0 < m) (x : ℝ) (hx : 0 ≤ x) : marcumQ m 0 x = some (chiTail m x) := by
  rw [marcumQ_some m hm 0 x le_rfl hx, chiTail_eq m hm x hx]
  obtain ⟨n, h1, -, h3, -⟩ := auxiliaryP_spec m (0 ^ 2 / (2 * m)) (x ^ 2 / 2) (1 / 10 ^ 16) 100
  rw [h3, scaled m hm, ← Finset.sum_range_add_sum_Ico _ h1]
  congr 1
  have e1 : ∑ j ∈ Finset.range m, marcumTerm m (0 ^ 2 / 2) (x ^ 2 / 2) j = ∑ j ∈ Finset.range m, pois (x ^ 2 / 2) j :=
    Finset.sum_congr rfl fun j hj => by
      have : j + 1 - m = 0 := by have := Finset.mem_range.mp hj; omega
      rw [marcumTerm, this]; simp
  have e2 : ∑ j ∈ Finset.Ico m n, marcumTerm m (0 ^ 2 / 2) (x ^ 2 / 2) j = 0 :=
    Finset.sum_eq_zero fun j hj => by
      obtain ⟨c, hc⟩ : ∃ c, j + 1 - m = c + 1 := ⟨j - m, by have := (Finset.mem_Ico.mp hj).1; omega⟩
      rw [marcumTerm, hc, Finset.sum_range_succ']
      simp [pois]
  rw [e1, e2, add_zero]

/-- At `x = 0` the result is one. -/
theorem C105_origin (m : ℕ) (hm : 0 < m) (a : ℝ) (ha : 0 ≤ a) : marcumQ m a 0 = some 1 := by
  rw [marcumQ_some m hm a 0 ha le_rfl]
  obtain ⟨n, h1, -, h3, -⟩ := auxiliaryP_spec m (a ^ 2 / (2 * m)) (0 ^ 2 / 2) (1 / 10 ^ 16) 100
  rw [h3, Finset.sum_eq_single 0]
  · have : 0 + 1 - m = 0 := by omega
    rw [marcumTerm, this]; simp [pois]
  · intro j _ hj
    rw [marcumTerm, pois]; simp [hj]
  · intro h
    exact absurd (Finset.mem_range.mpr (by omega)) h

/-- The result never exceeds the documented integral and is never less than the tail for `a = 0`; it is positive. -/
theorem C105_bounds (m : ℕ) (hm : 0 < m) (a x : ℝ) (ha : 0 < a) (hx : 0 ≤ x) :
    ∃ r, marcumQ m a x = some r ∧ 0 < r ∧ chiTail m x ≤ r ∧ r ≤ marcumIntegral m a x := by
  refine ⟨_, marcumQ_some m hm a x ha.le hx, ?_⟩
  obtain ⟨n, h1, -, h3, -⟩ := auxiliaryP_spec m (a ^ 2 / (2 * m)) (x ^ 2 / 2) (1 / 10 ^ 16) 100
  have hl : 0 ≤ a ^ 2 / 2 := by positivity
  have hb : 0 ≤ x ^ 2 / 2 := by positivity
  rw [h3, scaled m hm, marcum_integral_eq m hm a x ha hx, chiTail_eq m hm x hx]
  have hle : ∑ j ∈ Finset.range m, pois (x ^ 2 / 2) j ≤ ∑ j ∈ Finset.range n, marcumTerm m (a ^ 2 / 2) (x ^ 2 / 2) j := by
    rw [← Finset.sum_range_add_sum_Ico _ h1, ← add_zero (∑ j ∈ Finset.range m, pois (x ^ 2 / 2) j)]
    refine add_le_add (Finset.sum_le_sum fun j hj => ?_) (Finset.sum_nonneg fun j _ => marcumTerm_nonneg m hl hb j)
    have : j + 1 - m = 0 := by have := Finset.mem_range.mp hj; omega
    rw [marcumTerm, this]; simp
  refine ⟨lt_of_lt_of_le ?_ hle, hle, ?_⟩
  · have : 0 < pois (x ^ 2 / 2) 0 := by unfold pois; positivity
    exact lt_of_lt_of_le this (Finset.single_le_sum (f := pois (x ^ 2 / 2)) (fun j _ => pois_nonneg hb j) (Finset.mem_range.mpr hm))
  · have hs := marcum_series m hl hb
    rw [← hs.tsum_eq]
    exact hs.summable.sum_le_tsum _ fun j _ => marcumTerm_nonneg m hl hb j

/-- The series is the right one: without the early exit (`tol = 0`) and with growing `max_iter` the auxiliary function tends to the documented
integral. -/
theorem C105_limit (m : ℕ) (hm : 0 < m) (a x : ℝ) (ha : 0 < a) (hx : 0 ≤ x) :
    Tendsto (fun maxIter => auxiliaryP m (a ^ 2 / (2 * m)) (x ^ 2 / 2) maxIter 0) atTop (𝓝 (marcumIntegral m a x)) := by
  have hl : 0 ≤ a ^ 2 / 2 := by positivity
  have hb : 0 ≤ x ^ 2 / 2 := by positivity
  rw [marcum_integral_eq m hm a x ha hx]
  refine (marcum_series m hl hb).tendsto_sum_nat.congr' ?_
  filter_upwards [eventually_ge_atTop m] with M hM
  obtain ⟨n, -, -, h3, h4⟩ := auxiliaryP_spec m (a ^ 2 / (2 * m)) (x ^ 2 / 2) 0 M
  rw [h3, scaled m hm]
  rcases h4 with h4 | ⟨k, -, -, h⟩
  · rw [h4, max_eq_right hM]
  · exact absurd h (not_lt.mpr (abs_nonneg _))

/-- Beyond `b` the terms decrease geometrically. -/
theorem term_ratio (m : ℕ) {l b : ℝ} (hl : 0 ≤ l) (hb : 0 ≤ b) (i : ℕ) : marcumTerm m l b (i + 1) ≤ b / (i + 1) * marcumTerm m l b i := by
  have e : pois b (i + 1) = b / (i + 1) * pois b i := by
    rw [pois, pois, Nat.factorial_succ, pow_succ]
    push_cast
    have : (i.factorial : ℝ) ≠ 0 := by positivity
    field_simp
  rw [marcumTerm, marcumTerm, e, mul_assoc]
  have h1 : 0 ≤ pois b i := pois_nonneg hb i
  gcongr
  · intro k _ _; exact pois_nonneg hl k
  · omega

theorem term_tail (m : ℕ) {l b : ℝ} (hl : 0 ≤ l) (hb : 0 ≤ b) (i : ℕ) (hi : b < i + 1) :
    marcumMix m l b - ∑ j ∈ Finset.range (i + 1), marcumTerm m l b j ≤ b / (i + 1 - b) * marcumTerm m l b i := by
  have hs := marcum_series m hl hb
  have h1 : marcumMix m l b - ∑ j ∈ Finset.range (i + 1), marcumTerm m l b j = ∑' k, marcumTerm m l b (k + (i + 1)) := by
    rw [← hs.tsum_eq, ← hs.summable.sum_add_tsum_nat_add (i + 1)]; ring
  set q := b / (i + 1 : ℝ) with hq
  have hi0 : (0 : ℝ) < i + 1 := by positivity
  have hq0 : 0 ≤ q := by positivity
  have hq1 : q < 1 := (div_lt_one hi0).mpr hi
  have ht := marcumTerm_nonneg m hl hb
  have hbd : ∀ k, marcumTerm m l b (k + (i + 1)) ≤ (q * marcumTerm m l b i) * q ^ k := by
    intro k
    induction k with
    | zero => rw [Nat.zero_add, pow_zero, mul_one]; exact term_ratio m hl hb i
    | succ k ih =>
      rw [show k + 1 + (i + 1) = (k + (i + 1)) + 1 by ring]
      refine (term_ratio m hl hb _).trans ?_
      have hr : b / (((k + (i + 1) : ℕ) : ℝ) + 1) ≤ q := by
        rw [hq]; push_cast
        exact div_le_div_of_nonneg_left hb hi0 (by have : (0 : ℝ) ≤ k := by positivity
                                                   linarith)
      calc _ ≤ q * marcumTerm m l b (k + (i + 1)) := mul_le_mul_of_nonneg_right hr (ht _)
        _ ≤ q * ((q * marcumTerm m l b i) * q ^ k) := mul_le_mul_of_nonneg_left ih hq0
        _ = _ := by ring
  rw [h1]
  have hg := (hasSum_geometric_of_lt_one hq0 hq1).mul_left (q * marcumTerm m l b i)
  refine (Summable.tsum_le_tsum hbd ((summable_nat_add_iff (i + 1)).mpr hs.summable) hg.summable).trans (le_of_eq ?_)
  rw [hg.tsum_eq, hq]
  have : (i : ℝ) + 1 - b ≠ 0 := by linarith
  have : 1 - b / ((i : ℝ) + 1) ≠ 0 := by rw [hq] at hq1; linarith
  field_simp

/-- Accuracy.  `b = x ^ 2 / 2` must not exceed the number of terms, and the terms of index below `b` must not be less than the tolerance (there
are none when `x ^ 2 / 2 ≤ m`).  Then the error is at most `10^-16 x^2 / 2`, or what the limit of 100 terms leaves out. -/
theorem C105_accuracy_partial (m : ℕ) (hm : 0 < m) (a x : ℝ) (ha : 0 < a) (hx : 0 ≤ x) (hM : x ^ 2 / 2 ≤ (max m 100 : ℕ))
    (hterm : ∀ i : ℕ, m ≤ i → (i : ℝ) < x ^ 2 / 2 →
      1 / 10 ^ 16 ≤ pois (x ^ 2 / 2) i * (1 - ∑ k ∈ Finset.range (i + 1 - m), pois (a ^ 2 / 2) k)) :
    ∃ r, marcumQ m a x = some r ∧
      |marcumIntegral m a x - r| ≤ max (x ^ 2 / 2 * (1 / 10 ^ 16)) (((max m 100 : ℕ) + 1) * pois (x ^ 2 / 2) (max m 100)) := by
  obtain ⟨r, h1, -, -, h2⟩ := C105_bounds m hm a x ha hx
  refine ⟨r, h1, ?_⟩
  rw [abs_of_nonneg (by linarith)]
  rw [marcumQ_some m hm a x ha.le hx, Option.some_inj] at h1
  obtain ⟨n, g1, -, g3, g4⟩ := auxiliaryP_spec m (a ^ 2 / (2 * m)) (x ^ 2 / 2) (1 / 10 ^ 16) 100
  rw [← h1, g3]
  rw [scaled m hm] at g4 ⊢
  rw [marcum_integral_eq m hm a x ha hx]
  have hl : 0 ≤ a ^ 2 / 2 := by positivity
  have hb : 0 ≤ x ^ 2 / 2 := by positivity
  generalize a ^ 2 / 2 = l at *
  generalize x ^ 2 / 2 = b at *
  have ht := marcumTerm_nonneg m hl hb
  rcases g4 with g4 | ⟨k, k1, k2, k3⟩
  · refine le_trans ?_ (le_max_right _ _)
    set M := max m 100 with hMd
    have hs := term_tail m hl hb M (by linarith)
    rw [Finset.sum_range_succ] at hs
    rw [g4]
    have hd : b / ((M : ℝ) + 1 - b) ≤ M := by
      rw [div_le_iff₀ (by linarith)]
      nlinarith
    have hp := marcumTerm_le m hl hb M
    have h5 : b / ((M : ℝ) + 1 - b) * marcumTerm m l b M ≤ M * pois b M :=
      mul_le_mul hd hp (ht M) (by positivity)
    linarith
  · refine le_trans ?_ (le_max_left _ _)
    rw [abs_of_nonneg (ht k)] at k3
    have hkb : b ≤ k := by
      by_contra hc
      exact absurd (hterm k k1 (not_le.mp hc)) (not_le.mpr k3)
    have hs := term_tail m hl hb k (by linarith)
    rw [k2]
    refine hs.trans (mul_le_mul ?_ k3.le (ht k) hb)
    exact div_le_self hb (by linarith)

/-- In particular whenever `x ^ 2 / 2 ≤ m`. -/
theorem C105_accuracy_small_partial (m : ℕ) (hm : 0 < m) (a x : ℝ) (ha : 0 < a) (hx : 0 ≤ x) (h : x ^ 2 / 2 ≤ m) :
    ∃ r, marcumQ m a x = some r ∧
      |marcumIntegral m a x - r| ≤ max (x ^ 2 / 2 * (1 / 10 ^ 16)) (((max m 100 : ℕ) + 1) * pois (x ^ 2 / 2) (max m 100)) := by
  refine C105_accuracy_partial m hm a x ha hx (h.trans (by exact_mod_cast le_max_left m 100)) fun i hi hlt => ?_
  have : (m : ℝ) ≤ i := by exact_mod_cast hi
  linarith

example : (0 : ℕ) < 3 ∧ (0 : ℝ) < 1 / 2 ∧ (0 : ℝ) ≤ 2 ∧ (2 : ℝ) ^ 2 / 2 ≤ (3 : ℕ) := by norm_num

/-- What is missing: the early exit.  `marcum_q(1, 20, 10)` is less than `10^-18`, the true value more than `1 - 10^-18`. -/
theorem C105_early_exit : ∃ r, marcumQ (1 : ℕ) 20 10 = some r ∧ r ≤ 1 / 10 ^ 18 ∧ 1 - 1 / 10 ^ 18 ≤ marcumIntegral 1 20 10 := by
  have he : Real.exp (-50) ≤ 1 / 51 / 10 ^ 18 := by
    rw [Real.exp_neg, inv_eq_one_div, div_div]
    apply one_div_le_one_div_of_le (by positivity)
    have h1 : Real.exp 50 = Real.exp 1 ^ 50 := by rw [← Real.exp_nat_mul]; norm_num
    rw [h1]
    calc (51 : ℝ) * 10 ^ 18 ≤ 2.7 ^ 50 := by norm_num
      _ ≤ Real.exp 1 ^ 50 := by
        have := Real.exp_one_gt_d9
        gcongr
        linarith
  refine ⟨_, marcumQ_some 1 one_pos 20 10 (by norm_num) (by norm_num), ?_, ?_⟩
  · have hT : |auxTerm 1 (20 ^ 2 / (2 * (1 : ℕ))) (10 ^ 2 / 2) 1| < 1 / 10 ^ 16 ∧ auxTerm 1 (20 ^ 2 / (2 * (1 : ℕ))) (10 ^ 2 / 2) 1 ≤ 50 * Real.exp (-50) := by
      rw [auxTerm_eq 1 _ _ 1 le_rfl]
      have h0 := marcumTerm_nonneg 1 (l := (1 : ℕ) * (20 ^ 2 / (2 * (1 : ℕ)))) (b := 10 ^ 2 / 2) (by norm_num) (by norm_num) 1
      have h1 := marcumTerm_le 1 (l := (1 : ℕ) * (20 ^ 2 / (2 * (1 : ℕ)))) (b := 10 ^ 2 / 2) (by norm_num) (by norm_num) 1
      have h2 : pois (10 ^ 2 / 2) 1 = 50 * Real.exp (-50) := by
        rw [pois]; norm_num; ring
      rw [h2] at h1
      refine ⟨?_, h1⟩
      rw [abs_of_nonneg h0]
      refine lt_of_le_of_lt (h1.trans (mul_le_mul_of_nonneg_left he (by norm_num))) (by norm_num)
    have e : auxiliaryP 1 (20 ^ 2 / (2 * (1 : ℕ))) (10 ^ 2 / 2) = Real.exp (-50) + auxTerm 1 (20 ^ 2 / (2 * (1 : ℕ))) (10 ^ 2 / 2) 1 := by
      rw [auxiliaryP]
      simp only [show 100 - 1 = 98 + 1 from rfl]
      rw [auxLoop]
      simp only [hT.1, if_true]
      norm_num
    rw [e]
    have := hT.2
    linarith
  · rw [marcum_integral_eq 1 one_pos 20 10 (by norm_num) (by norm_num)]
    refine le_trans ?_ (marcumMix_ge 1 (by norm_num) (by norm_num))
    have : Real.exp (10 ^ 2 / 2 - 20 ^ 2 / 2 / 2) = Real.exp (-50) := by norm_num
    rw [this]
    linarith
end Komm
