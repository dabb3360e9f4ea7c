import Verif.Props.C106_Convolve
import Mathlib.Algebra.Field.GeomSum
import Mathlib.MeasureTheory.Integral.IntervalIntegral.Basic
import Mathlib.MeasureTheory.Integral.IntervalIntegral.FundThmCalculus
import Mathlib.Analysis.SpecialFunctions.Complex.Circle
import Mathlib.Topology.UniformSpace.HeineCantor
import Mathlib.Algebra.Order.Floor.Semiring
/-! C107: `fourier_transform`. -/
namespace Komm
open Complex MeasureTheory Filter Topology

/-- `e^{2 π i x}`. -/
noncomputable def unitExp (x : ℝ) : ℂ := exp (2 * Real.pi * I * x)

theorem unitExp_add (x y : ℝ) : unitExp (x + y) = unitExp x * unitExp y := by rw [unitExp, unitExp, unitExp, ← exp_add]; congr 1; push_cast; ring
theorem unitExp_zero : unitExp 0 = 1 := by simp [unitExp]
theorem unitExp_int (k : ℤ) : unitExp k = 1 := by rw [unitExp, mul_comm]; exact_mod_cast exp_int_mul_two_pi_mul_I k
theorem unitExp_nat_mul (x : ℝ) (k : ℕ) : unitExp (k * x) = unitExp x ^ k := by rw [unitExp, unitExp, ← exp_nat_mul]; congr 1; push_cast; ring
theorem unitExp_conj (x : ℝ) : (starRingEnd ℂ) (unitExp x) = unitExp (-x) := by
  rw [unitExp, unitExp, ← exp_conj]; congr 1
  rw [map_mul, map_mul, map_mul, conj_ofReal, conj_ofReal, conj_I, map_ofNat]; push_cast; ring
theorem unitExp_eq_one {x : ℝ} (h : unitExp x = 1) : ∃ k : ℤ, x = k := by
  rw [unitExp, exp_eq_one_iff] at h
  obtain ⟨k, hk⟩ := h
  refine ⟨k, ?_⟩
  have h2 : (2 * Real.pi * I : ℂ) ≠ 0 := by simp [Real.pi_ne_zero]
  have : (x : ℂ) = k := by
    have : (2 * Real.pi * I : ℂ) * x = (2 * Real.pi * I : ℂ) * k := by rw [hk]; ring
    exact mul_left_cancel₀ h2 this
  exact_mod_cast this
theorem unitExp_norm (x : ℝ) : ‖unitExp x‖ = 1 := by
  rw [unitExp, show (2 * Real.pi * I * x : ℂ) = ((2 * Real.pi * x : ℝ) : ℂ) * I by push_cast; ring, norm_exp_ofReal_mul_I]
theorem continuous_unitExp : Continuous unitExp := by unfold unitExp; fun_prop

/-- Orthogonality over `n` consecutive bins. -/
theorem unitExp_orthogonal (n : ℕ) (hn : 0 < n) (d c : ℤ) (hd : |d| < n) : ∑ j ∈ Finset.range n, unitExp (((j : ℤ) - c : ℤ) * d / n) = if d = 0 then (n : ℂ) else 0 := by
  have hn' : (n : ℝ) ≠ 0 := by positivity
  by_cases h : d = 0
  · rw [if_pos h, h]; simp [unitExp_zero]
  · rw [if_neg h]
    have e : ∀ j ∈ Finset.range n, unitExp (((j : ℤ) - c : ℤ) * d / n) = unitExp (-(c * d / n)) * unitExp (d / n) ^ j := fun j _ => by
      rw [← unitExp_nat_mul, ← unitExp_add]; congr 1; push_cast; ring
    rw [Finset.sum_congr rfl e, ← Finset.mul_sum, geom_sum_eq, ← unitExp_nat_mul, show (n : ℝ) * (d / n) = (d : ℤ) by field_simp, unitExp_int, sub_self, zero_div, mul_zero]
    intro h1
    obtain ⟨k, hk⟩ := unitExp_eq_one h1
    have : (d : ℝ) = ((k * n : ℤ) : ℝ) := by push_cast; field_simp at hk; linarith
    have hd' : d = k * n := by exact_mod_cast this
    have hk0 : k ≠ 0 := fun h0 => h (by rw [hd', h0, zero_mul])
    have : (n : ℤ) ≤ |d| := by
      rw [hd', abs_mul, Nat.abs_cast]
      have := Int.one_le_abs hk0
      nlinarith
    omega

theorem fftshift_length {α : Type} (l : List α) : (fftshift l).length = l.length := by
  simp only [fftshift, List.length_append, List.length_drop, List.length_take]; omega

theorem fftshift_getElem {α : Type} (l : List α) (j : ℕ) (hj : j < l.length) :
    (fftshift l)[j]'(by rw [fftshift_length]; exact hj) = l[(j + (l.length - l.length / 2)) % l.length]'(Nat.mod_lt _ (by omega)) := by
  simp only [fftshift]
  by_cases h : j < l.length / 2
  · rw [List.getElem_append_left (by rw [List.length_drop]; omega), List.getElem_drop]
    congr 1
    rw [Nat.mod_eq_of_lt (by omega)]; omega
  · rw [List.getElem_append_right (by rw [List.length_drop]; omega), List.getElem_take]
    congr 1
    rw [List.length_drop, Nat.mod_eq_sub_mod (by omega), Nat.mod_eq_of_lt (by omega)]; omega

theorem fftfreq_length (n : ℕ) (hn : 0 < n) (d : ℝ) : (fftfreq n d).length = n := by
  simp only [fftfreq, List.length_append, List.length_map, List.length_range, if_neg hn.ne']; omega

theorem freq_getElem (n : ℕ) (hn : 0 < n) (d : ℝ) (j : ℕ) (hj : j < n) :
    (fftshift (fftfreq n d)).getD j 0 = ((j : ℤ) - (n / 2 : ℕ) : ℤ) / (n * d) := by
  have hl := fftfreq_length n hn d
  rw [List.getD_eq_getElem _ _ (by rw [fftshift_length, hl]; exact hj), fftshift_getElem _ _ (by rw [hl]; exact hj)]
  simp only [hl]
  by_cases h : j < n / 2
  · have e : (j + (n - n / 2)) % n = j + (n - n / 2) := Nat.mod_eq_of_lt (by omega)
    simp only [e, fftfreq, if_neg hn.ne']
    rw [List.getElem_append_right (by simp only [List.length_map, List.length_range]; omega), List.getElem_map, List.getElem_range, mul_one_div]
    congr 2
    simp only [List.length_map, List.length_range]
    omega
  · have e : (j + (n - n / 2)) % n = j - n / 2 := by rw [Nat.mod_eq_sub_mod (by omega), Nat.mod_eq_of_lt (by omega)]; omega
    simp only [e, fftfreq, if_neg hn.ne']
    rw [List.getElem_append_left (by simp only [List.length_map, List.length_range]; omega), List.getElem_map, List.getElem_range, mul_one_div]
    congr 2
    omega

/-- The number of points: `nfft`, or the length of the waveform when `nfft` is `None` or zero. -/
def pointCount (len : ℕ) (nfft : Option ℤ) : ℤ := match nfft with | none => len | some k => if k = 0 then len else k

/-- It raises exactly when the number of points is not positive. -/
theorem C107_raises_iff (w : List ℂ) (dt : ℝ) (nfft : Option ℤ) : fourierTransform w dt nfft = none ↔ pointCount w.length nfft < 1 := by
  unfold fourierTransform
  simp only
  change (if pointCount w.length nfft < 1 then none else _) = none ↔ _
  split <;> simp_all

/-- Everything below is about a call that returns `(S, f)` computed with `n` points. -/
structure Transform (w : List ℂ) (dt : ℝ) (n : ℕ) (S : List ℂ) (f : List ℝ) : Prop where
  positive : 0 < n
  returned : fourierTransform w dt (some n) = some (S, f)

/-- With `nfft = None` (or `0`) the number of points is the length of the waveform. -/
theorem C107_default (w : List ℂ) (dt : ℝ) : fourierTransform w dt none = fourierTransform w dt (some w.length) ∧
    fourierTransform w dt (some 0) = fourierTransform w dt (some w.length) := by
  constructor <;> unfold fourierTransform <;> by_cases h : w.length = 0 <;> simp [h]

theorem transform_eq {w : List ℂ} {dt : ℝ} {n : ℕ} {S : List ℂ} {f : List ℝ} (h : Transform w dt n S f) :
    S = (fftshift (npFft w n)).map (fun s : ℂ => s * dt) ∧ f = fftshift (fftfreq n dt) := by
  obtain ⟨hn, h⟩ := h
  unfold fourierTransform at h
  simp only [Nat.cast_eq_zero, hn.ne', if_false] at h
  rw [if_neg (by omega)] at h
  simp only [Int.toNat_natCast, Option.some_inj, Prod.mk.injEq] at h
  exact ⟨h.1.symm, h.2.symm⟩

/-- Every positive number of points is accepted. -/
theorem transform_exists (w : List ℂ) (dt : ℝ) (n : ℕ) (hn : 0 < n) : ∃ S f, Transform w dt n S f := by
  refine ⟨(fftshift (npFft w n)).map (fun s : ℂ => s * dt), fftshift (fftfreq n dt), hn, ?_⟩
  unfold fourierTransform
  simp only [Nat.cast_eq_zero, hn.ne', if_false]
  rw [if_neg (by omega)]
  simp only [Int.toNat_natCast]

/-- There are `n` spectrum samples and `n` frequencies. -/
theorem C107_lengths {w : List ℂ} {dt : ℝ} {n : ℕ} {S : List ℂ} {f : List ℝ} (h : Transform w dt n S f) : S.length = n ∧ f.length = n := by
  obtain ⟨rfl, rfl⟩ := transform_eq h
  rw [List.length_map, fftshift_length, fftshift_length, fftfreq_length n h.positive]
  simp [npFft]

/-- The frequencies are `(j - n // 2) / (n dt)`: equally spaced, increasing (`dt > 0`), with zero at index `n // 2`. -/
theorem C107_frequencies {w : List ℂ} {dt : ℝ} {n : ℕ} {S : List ℂ} {f : List ℝ} (h : Transform w dt n S f) (j : ℕ) (hj : j < n) :
    f.getD j 0 = ((j : ℝ) - (n / 2 : ℕ)) / (n * dt) := by
  obtain ⟨rfl, rfl⟩ := transform_eq h
  rw [freq_getElem n h.positive dt j hj]
  push_cast; rfl

theorem bin_eq (n : ℕ) (hn : 0 < n) (j k : ℕ) (hj : j < n) :
    exp (-(2 * Real.pi * I * (((j + (n - n / 2)) % n) * k : ℕ) / n)) = unitExp (-(((j : ℤ) - (n / 2 : ℕ) : ℤ) * k / n)) := by
  have hn' : (n : ℝ) ≠ 0 := by positivity
  have key : exp (-(2 * Real.pi * I * (((j + (n - n / 2)) % n) * k : ℕ) / n)) = unitExp (-((((j + (n - n / 2)) % n : ℕ) : ℝ) * k / n)) := by
    rw [unitExp]; congr 1; push_cast; ring
  rw [key]
  by_cases h : j < n / 2
  · have e : (j + (n - n / 2)) % n = j + (n - n / 2) := Nat.mod_eq_of_lt (by omega)
    rw [e, show -(((j + (n - n / 2) : ℕ) : ℝ) * k / n) = -(((j : ℤ) - (n / 2 : ℕ) : ℤ) * k / n) + ((-(k : ℤ) : ℤ) : ℝ) by
      rw [Nat.cast_add, Nat.cast_sub (Nat.div_le_self n 2), Int.cast_sub, Int.cast_natCast, Int.cast_natCast, Int.cast_neg, Int.cast_natCast]; field_simp; ring, unitExp_add, unitExp_int, mul_one]
  · have e : (j + (n - n / 2)) % n = j - n / 2 := by rw [Nat.mod_eq_sub_mod (by omega), Nat.mod_eq_of_lt (by omega)]; omega
    rw [e]
    congr 3
    rw [Nat.cast_sub (by omega), Int.cast_sub, Int.cast_natCast, Int.cast_natCast]

/-- The sum, in terms of the bin number. -/
theorem spectrum_bin {w : List ℂ} {dt : ℝ} {n : ℕ} {S : List ℂ} {f : List ℝ} (h : Transform w dt n S f) (j : ℕ) (hj : j < n) :
    S.getD j 0 = dt * ∑ k ∈ Finset.range n, w.getD k 0 * unitExp (-(((j : ℤ) - (n / 2 : ℕ) : ℤ) * k / n)) := by
  obtain ⟨rfl, rfl⟩ := transform_eq h
  have hl : (npFft w n).length = n := by simp [npFft]
  rw [List.getD_eq_getElem _ _ (by rw [List.length_map, fftshift_length, hl]; exact hj), List.getElem_map, fftshift_getElem _ _ (by rw [hl]; exact hj)]
  simp only [hl]
  simp only [npFft]
  rw [List.getElem_map, List.getElem_range, mul_comm]
  congr 1
  exact Finset.sum_congr rfl fun k _ => by rw [bin_eq n h.positive j k hj]

/-- Each spectrum sample is the sum `dt ∑ w[k] exp(-2 π i f[j] k dt)` at its frequency; the waveform is cut or padded with zeros to `n` samples. -/
theorem C107_spectrum {w : List ℂ} {dt : ℝ} (hdt : dt ≠ 0) {n : ℕ} {S : List ℂ} {f : List ℝ} (h : Transform w dt n S f) (j : ℕ) (hj : j < n) :
    S.getD j 0 = dt * ∑ k ∈ Finset.range n, w.getD k 0 * unitExp (-(f.getD j 0 * (k * dt))) := by
  have hn : (n : ℝ) ≠ 0 := by have := h.positive; positivity
  rw [spectrum_bin h j hj, C107_frequencies h j hj]
  congr 1
  refine Finset.sum_congr rfl fun k _ => ?_
  congr 2
  rw [Int.cast_sub, Int.cast_natCast, Int.cast_natCast]; field_simp

theorem bin_freq {w : List ℂ} {dt : ℝ} (hdt : dt ≠ 0) {n : ℕ} {S : List ℂ} {f : List ℝ} (h : Transform w dt n S f) (j k : ℕ) (hj : j < n) :
    f.getD j 0 * (k * dt) = ((j : ℤ) - (n / 2 : ℕ) : ℤ) * k / n := by
  have hn : (n : ℝ) ≠ 0 := by have := h.positive; positivity
  rw [C107_frequencies h j hj, Int.cast_sub, Int.cast_natCast, Int.cast_natCast]; field_simp

/-- Inversion: the first `n` samples of the waveform (padded with zeros) come back. -/
theorem C107_inverse {w : List ℂ} {dt : ℝ} (hdt : dt ≠ 0) {n : ℕ} {S : List ℂ} {f : List ℝ} (h : Transform w dt n S f) (k : ℕ) (hk : k < n) :
    w.getD k 0 = 1 / (n * dt) * ∑ j ∈ Finset.range n, S.getD j 0 * unitExp (f.getD j 0 * (k * dt)) := by
  have hn : (n : ℂ) ≠ 0 := Nat.cast_ne_zero.mpr h.positive.ne'
  have hdt' : (dt : ℂ) ≠ 0 := by exact_mod_cast hdt
  have e : ∀ j ∈ Finset.range n, S.getD j 0 * unitExp (f.getD j 0 * (k * dt)) =
      ∑ l ∈ Finset.range n, dt * (w.getD l 0 * unitExp (((j : ℤ) - (n / 2 : ℕ) : ℤ) * ((k : ℤ) - l : ℤ) / n)) := by
    intro j hj
    have hj := Finset.mem_range.mp hj
    rw [spectrum_bin h j hj, bin_freq hdt h j k hj, mul_assoc, Finset.sum_mul, Finset.mul_sum]
    refine Finset.sum_congr rfl fun l _ => ?_
    rw [mul_assoc, ← unitExp_add]
    congr 3
    push_cast; ring
  rw [Finset.sum_congr rfl e, Finset.sum_comm]
  have e2 : ∀ l ∈ Finset.range n, ∑ j ∈ Finset.range n, (dt : ℂ) * (w.getD l 0 * unitExp (((j : ℤ) - (n / 2 : ℕ) : ℤ) * ((k : ℤ) - l : ℤ) / n)) =
      if l = k then dt * (w.getD k 0 * n) else 0 := by
    intro l hl
    have hl := Finset.mem_range.mp hl
    rw [← Finset.mul_sum, ← Finset.mul_sum, unitExp_orthogonal n h.positive ((k : ℤ) - l) (n / 2 : ℕ) (by rw [abs_lt]; omega)]
    by_cases hlk : l = k
    · subst hlk; simp
    · rw [if_neg (by omega), if_neg hlk, mul_zero, mul_zero]
  rw [Finset.sum_congr rfl e2, Finset.sum_ite_eq', if_pos (Finset.mem_range.mpr hk)]
  field_simp

/-- Parseval: the energy of the waveform (cut or padded to `n` samples) is the energy of the spectrum. -/
theorem C107_parseval {w : List ℂ} {dt : ℝ} (hdt : dt ≠ 0) {n : ℕ} {S : List ℂ} {f : List ℝ} (h : Transform w dt n S f) :
    dt * ∑ k ∈ Finset.range n, ‖w.getD k 0‖ ^ 2 = 1 / (n * dt) * ∑ j ∈ Finset.range n, ‖S.getD j 0‖ ^ 2 := by
  have hdt' : (dt : ℂ) ≠ 0 := by exact_mod_cast hdt
  have hn : (n : ℂ) ≠ 0 := Nat.cast_ne_zero.mpr h.positive.ne'
  have key : (dt : ℂ) * ∑ k ∈ Finset.range n, w.getD k 0 * (starRingEnd ℂ) (w.getD k 0) =
      1 / (n * dt) * ∑ j ∈ Finset.range n, S.getD j 0 * (starRingEnd ℂ) (S.getD j 0) := by
    have e : ∀ k ∈ Finset.range n, w.getD k 0 * (starRingEnd ℂ) (w.getD k 0) =
        ∑ j ∈ Finset.range n, 1 / (n * dt) * (S.getD j 0 * (unitExp (f.getD j 0 * (k * dt)) * (starRingEnd ℂ) (w.getD k 0))) := by
      intro k hk
      conv_lhs => rw [C107_inverse hdt h k (Finset.mem_range.mp hk)]
      rw [mul_assoc, Finset.sum_mul, Finset.mul_sum]
      rw [← C107_inverse hdt h k (Finset.mem_range.mp hk)]
      exact Finset.sum_congr rfl fun j _ => by ring
    rw [Finset.sum_congr rfl e, Finset.sum_comm, Finset.mul_sum, Finset.mul_sum]
    refine Finset.sum_congr rfl fun j hj => ?_
    have hj := Finset.mem_range.mp hj
    have hc : (starRingEnd ℂ) (S.getD j 0) = dt * ∑ k ∈ Finset.range n, unitExp (f.getD j 0 * (k * dt)) * (starRingEnd ℂ) (w.getD k 0) := by
      rw [C107_spectrum hdt h j hj, map_mul, conj_ofReal, map_sum]
      congr 1
      refine Finset.sum_congr rfl fun k _ => ?_
      rw [map_mul, unitExp_conj, neg_neg, mul_comm]
    rw [hc, Finset.mul_sum, Finset.mul_sum, Finset.mul_sum, Finset.mul_sum]
    exact Finset.sum_congr rfl fun k _ => by ring
  simp only [mul_conj, normSq_eq_norm_sq] at key
  exact_mod_cast key

/-- A real waveform has a Hermitian spectrum: at opposite frequencies the samples are conjugate. -/
theorem C107_hermitian {w : List ℂ} (hw : ∀ z ∈ w, z.im = 0) {dt : ℝ} (hdt : dt ≠ 0) {n : ℕ} {S : List ℂ} {f : List ℝ} (h : Transform w dt n S f)
    (j j' : ℕ) (hj : j < n) (hj' : j' < n) (hf : f.getD j' 0 = - f.getD j 0) : S.getD j' 0 = (starRingEnd ℂ) (S.getD j 0) := by
  rw [C107_spectrum hdt h j hj, C107_spectrum hdt h j' hj', map_mul, conj_ofReal, map_sum]
  congr 1
  refine Finset.sum_congr rfl fun k _ => ?_
  rw [map_mul, unitExp_conj, hf, neg_mul]
  congr 1
  have : (w.getD k 0).im = 0 := by
    by_cases hk : k < w.length
    · rw [List.getD_eq_getElem _ _ hk]; exact hw _ (List.getElem_mem hk)
    · rw [List.getD_eq_default _ _ (by omega)]; rfl
  exact (conj_eq_iff_im.mpr this).symm

/-- Convolution in time is multiplication in frequency, as long as the number of points holds the whole convolution. -/
theorem C107_convolution (a b y : List ℂ) (hy : npConvolve .full a b = some y) (dt : ℝ) (n : ℕ) (hn : y.length ≤ n)
    {Sa Sb Sy : List ℂ} {fa fb fy : List ℝ} (h1 : Transform a dt n Sa fa) (h2 : Transform b dt n Sb fb) (h3 : Transform y dt n Sy fy) (j : ℕ) (hj : j < n) :
    Sy.getD j 0 * dt = Sa.getD j 0 * Sb.getD j 0 := by
  rw [spectrum_bin h1 j hj, spectrum_bin h2 j hj, spectrum_bin h3 j hj]
  set x : ℝ := -(((j : ℤ) - (n / 2 : ℕ) : ℤ) / n) with hx
  have hne : a ≠ [] ∧ b ≠ [] := by
    have hc : ¬ (a = [] ∨ b = []) := fun hc => by rw [(C106_empty .full a b).mpr hc] at hy; exact absurd hy (by simp)
    push Not at hc; exact hc
  obtain ⟨y', g1, g2, g3⟩ := C106_full a b hne.1 hne.2
  rw [hy, Option.some_inj] at g1
  subst g1
  have hea : 0 < a.length := List.length_pos_iff.mpr hne.1
  have heb : 0 < b.length := List.length_pos_iff.mpr hne.2
  have ev : ∀ l : List ℂ, l.length ≤ n → ∑ k ∈ Finset.range n, l.getD k 0 * unitExp (-(((j : ℤ) - (n / 2 : ℕ) : ℤ) * k / n)) = (samplePoly l).eval (unitExp x) := by
    intro l hl
    rw [samplePoly, Polynomial.eval_finsetSum]
    have hsub : Finset.range l.length ⊆ Finset.range n := fun k hk => Finset.mem_range.mpr (by have := Finset.mem_range.mp hk; omega)
    rw [← Finset.sum_subset hsub]
    · refine Finset.sum_congr rfl fun k _ => ?_
      simp only [Polynomial.eval_mul, Polynomial.eval_C, Polynomial.eval_pow, Polynomial.eval_X]
      rw [← unitExp_nat_mul]
      congr 2
      rw [hx]; ring
    · intro k _ hk
      rw [List.getD_eq_default l 0 (by simpa using hk), zero_mul]
  rw [ev a (by omega), ev b (by omega), ev y hn, g3, Polynomial.eval_mul]
  ring

/-- Left Riemann sums of a continuous function converge to its integral. -/
theorem riemann_tendsto {T : ℝ} (hT : 0 ≤ T) (g : ℝ → ℂ) (hg : ContinuousOn g (Set.Icc 0 T)) :
    Tendsto (fun n : ℕ => ((T / n : ℝ) : ℂ) * ∑ k ∈ Finset.range n, g (k * (T / n))) atTop (𝓝 (∫ t in (0)..T, g t)) := by
  have huc := isCompact_Icc.uniformContinuousOn_of_continuous hg
  rw [Metric.uniformContinuousOn_iff] at huc
  rw [Metric.tendsto_atTop]
  intro ε hε
  obtain ⟨δ, hδ, hclose⟩ := huc (ε / (T + 1)) (by positivity)
  obtain ⟨N, hN⟩ := exists_nat_gt (T / δ)
  refine ⟨N + 1, fun n hn => ?_⟩
  have hnN : (N : ℝ) + 1 ≤ n := by exact_mod_cast hn
  have hn0 : (0 : ℝ) < n := by have : (0 : ℝ) ≤ N := by positivity
                               linarith
  set h := T / (n : ℝ) with hh
  have hh0 : 0 ≤ h := by positivity
  have hhδ : h < δ := by
    rw [hh, div_lt_iff₀ hn0]
    rw [div_lt_iff₀ hδ] at hN
    nlinarith
  have hend : (n : ℝ) * h = T := by rw [hh]; field_simp
  have hmem : ∀ i : ℕ, i ≤ n → (i : ℝ) * h ∈ Set.Icc 0 T := by
    intro i hi
    have : (i : ℝ) * h ≤ (n : ℝ) * h := mul_le_mul_of_nonneg_right (by exact_mod_cast hi) hh0
    exact ⟨by positivity, by linarith⟩
  have hsub : ∀ i : ℕ, i < n → Set.uIcc ((i : ℝ) * h) (((i + 1 : ℕ) : ℝ) * h) ⊆ Set.Icc 0 T := by
    intro i hi
    rw [Set.uIcc_of_le (by push_cast; nlinarith)]
    exact Set.Icc_subset_Icc (hmem i (by omega)).1 (hmem (i + 1) (by omega)).2
  have hint : ∀ i : ℕ, i < n → IntervalIntegrable g volume ((i : ℝ) * h) (((i + 1 : ℕ) : ℝ) * h) := fun i hi =>
    (hg.mono (hsub i hi)).intervalIntegrable
  have hsum := intervalIntegral.sum_integral_adjacent_intervals (a := fun i : ℕ => (i : ℝ) * h) (n := n) (f := g) (μ := volume) hint
  rw [hend, Nat.cast_zero, zero_mul] at hsum
  rw [← hsum, dist_eq_norm, Finset.mul_sum, ← Finset.sum_sub_distrib]
  have hbound : ∀ i ∈ Finset.range n, ‖(h : ℂ) * g (i * h) - ∫ t in ((i : ℝ) * h)..(((i + 1 : ℕ) : ℝ) * h), g t‖ ≤ ε / (T + 1) * h := by
    intro i hi
    rw [Finset.mem_range] at hi
    have e1 : (h : ℂ) * g (i * h) = ∫ _ in ((i : ℝ) * h)..(((i + 1 : ℕ) : ℝ) * h), g (i * h) := by
      rw [intervalIntegral.integral_const, real_smul]; congr 1; push_cast; ring
    rw [e1, ← intervalIntegral.integral_sub (by simp) (hint i hi)]
    have := intervalIntegral.norm_integral_le_of_norm_le_const (a := (i : ℝ) * h) (b := ((i + 1 : ℕ) : ℝ) * h)
      (f := fun t => g (i * h) - g t) (C := ε / (T + 1)) (by
        intro t ht
        have ht' := hsub i hi (Set.uIoc_subset_uIcc ht)
        rw [Set.uIoc_of_le (by push_cast; nlinarith)] at ht
        have hst : ((i + 1 : ℕ) : ℝ) * h = (i : ℝ) * h + h := by push_cast; ring
        have d2 := hclose _ (hmem i (by omega)) t ht' (by
          rw [Real.dist_eq, abs_of_nonpos (by linarith [ht.1])]; linarith [ht.2])
        rw [dist_eq_norm] at d2
        exact d2.le)
    refine this.trans (le_of_eq ?_)
    rw [abs_of_nonneg] <;> push_cast <;> [ring; nlinarith]
  refine lt_of_le_of_lt ((norm_sum_le _ _).trans (Finset.sum_le_sum hbound)) ?_
  rw [Finset.sum_const, Finset.card_range, nsmul_eq_mul]
  have : (n : ℝ) * (ε / (T + 1) * h) = ε / (T + 1) * T := by rw [← hend]; ring
  rw [this, div_mul_eq_mul_div, div_lt_iff₀ (by positivity)]
  nlinarith

/-- Why it is called the Fourier transform: take `n` samples, `T / n` apart, of a continuous waveform on `[0, T]`.  The sample of the spectrum at
the frequency `q / T` tends to the Fourier integral at that frequency. -/
theorem C107_integral {T : ℝ} (hT : 0 < T) (x : ℝ → ℂ) (hx : ContinuousOn x (Set.Icc 0 T)) (q : ℤ) (S : ℕ → List ℂ) (f : ℕ → List ℝ)
    (h : ∀ n, 0 < n → Transform ((List.range n).map fun k : ℕ => x (k * (T / n))) (T / n) n (S n) (f n)) :
    (∀ᶠ n : ℕ in atTop, (f n).getD (q + (n / 2 : ℕ)).toNat 0 = q / T) ∧
    Tendsto (fun n : ℕ => (S n).getD (q + (n / 2 : ℕ)).toNat 0) atTop (𝓝 (∫ t in (0)..T, x t * unitExp (-(q / T * t)))) := by
  have hbig : ∀ᶠ n : ℕ in atTop, 0 < n ∧ 0 ≤ q + (n / 2 : ℕ) ∧ q + (n / 2 : ℕ) < n := by
    filter_upwards [eventually_ge_atTop (2 * q.natAbs + 2)] with n hn
    omega
  constructor
  · filter_upwards [hbig] with n hn
    have hn0 : (n : ℝ) ≠ 0 := by have := hn.1; positivity
    have hj : (q + (n / 2 : ℕ)).toNat < n := by omega
    rw [C107_frequencies (h n hn.1) _ hj]
    have e : (((q + (n / 2 : ℕ)).toNat : ℕ) : ℝ) - ((n / 2 : ℕ) : ℝ) = q := by
      have : (((q + (n / 2 : ℕ)).toNat : ℕ) : ℤ) = q + (n / 2 : ℕ) := Int.toNat_of_nonneg hn.2.1
      have : (((q + (n / 2 : ℕ)).toNat : ℕ) : ℝ) = ((q + (n / 2 : ℕ) : ℤ) : ℝ) := by exact_mod_cast this
      rw [this, Int.cast_add, Int.cast_natCast]; ring
    rw [e]; congr 1; field_simp
  · have hg : ContinuousOn (fun t => x t * unitExp (-(q / T * t))) (Set.Icc 0 T) := hx.mul (continuous_unitExp.comp (by fun_prop)).continuousOn
    refine (riemann_tendsto hT.le _ hg).congr' ?_
    filter_upwards [hbig] with n hn
    have hn0 : (n : ℝ) ≠ 0 := by have := hn.1; positivity
    have hj : (q + (n / 2 : ℕ)).toNat < n := by omega
    rw [spectrum_bin (h n hn.1) _ hj]
    congr 1
    refine Finset.sum_congr rfl fun k hk => ?_
    rw [List.getD_eq_getElem _ _ (by simpa using hk), List.getElem_map, List.getElem_range]
    congr 2
    have e : ((((q + (n / 2 : ℕ)).toNat : ℕ) : ℤ) - (n / 2 : ℕ) : ℤ) = q := by omega
    rw [e]; field_simp

/-- The assumptions can be met. -/
example : ∃ S f, Transform [1, 2, 3, 4] 0.1 4 S f := transform_exists _ _ 4 (by norm_num)
end Komm
