import Verif.Props.C104_GaussianQ
import Verif.Props.C110_QAM
import Verif.Props.C110_PSK
import Verif.Props.C119_Modem
/-! C133: bit error rates of Gray-labelled PAM and QAM over the Gaussian channel. -/
namespace Komm
open MeasureTheory ProbabilityTheory GaussianChannel Constellation Set Filter

/-- The formula of the literature for the error rate of bit `k` (counted from the left) of Gray-labelled PAM of order `2^m`, when neighbouring points are at `2 x` standard deviations
of the noise: `2 / 2^m * Σ_{e < 2^m - 2^(m-1-k)} (-1)^⌊e / 2^(m-k)⌋ (2^k - ⌊e / 2^(m-k) + 1/2⌋) Q((2 e + 1) x)`. -/
noncomputable def grayBitErrorRate (m k : Nat) (x : ℝ) : ℝ :=
  2 / 2 ^ m * ∑ e ∈ Finset.range (2 ^ m - 2 ^ (m - 1 - k)), (-1) ^ (e / 2 ^ (m - k)) * ((2 : ℝ) ^ k - ((e + 2 ^ (m - 1 - k)) / 2 ^ (m - k) : Nat)) * gaussianQ ((2 * e + 1) * x)

/-! ### The bits of the reflected Gray label -/

theorem gray_bit_xor (j s : Nat) : ((j ^^^ (j >>> 1)) >>> s) % 2 = ((j + 2 ^ s) / (2 * 2 ^ s)) % 2 := by
  have h1 : (j ^^^ (j >>> 1)) >>> s = (j >>> s) ^^^ ((j >>> s) >>> 1) := by
    rw [Nat.shiftRight_xor_distrib, ← Nat.shiftRight_add, ← Nat.shiftRight_add, Nat.add_comm]
  rw [h1, Nat.shiftRight_eq_div_pow j s, Nat.shiftRight_eq_div_pow _ 1, Nat.xor_mod_two_eq, Nat.mul_comm 2, ← Nat.div_div_eq_div_mul,
    Nat.add_div_right _ (by positivity : 0 < 2 ^ s), Nat.pow_one]
  generalize j / 2 ^ s = a
  clear h1
  have h4 : a % 4 = 0 ∨ a % 4 = 1 ∨ a % 4 = 2 ∨ a % 4 = 3 := by omega
  rcases h4 with h | h | h | h <;> omega

theorem gray_bit (m k j : Nat) (hk : k < m) :
    (reflectedIndicesToBits m [j])[k]? = some (((j + 2 ^ (m - 1 - k)) / (2 * 2 ^ (m - 1 - k))) % 2) := by
  simp only [reflectedIndicesToBits, List.flatMap_cons, List.flatMap_nil, List.append_nil, intToBits, List.getElem?_map, List.getElem?_range hk, Option.map_some,
    gray_bit_xor]

/-! ### The law of a PAM decision -/

/-- Telescoping up to a cut. -/
theorem telescope_cut (g : Nat → ℝ) (n d : Nat) (hd : d ≤ n) : ∑ e ∈ Finset.range n, (g (e + 1) - g e) * (if e + 1 ≤ d then 1 else 0) = g d - g 0 := by
  induction n with
  | zero => have : d = 0 := by omega
            simp [this]
  | succ n ih =>
    rw [Finset.sum_range_succ]
    by_cases h : d ≤ n
    · rw [ih h, if_neg (by omega), mul_zero, add_zero]
    · have hd' : d = n + 1 := by omega
      have : ∑ e ∈ Finset.range n, (g (e + 1) - g e) * (if e + 1 ≤ d then (1 : ℝ) else 0) = ∑ e ∈ Finset.range n, (g (e + 1) - g e) :=
        Finset.sum_congr rfl fun e he => by rw [if_pos (by have := Finset.mem_range.mp he; omega), mul_one]
      rw [this, Finset.sum_range_sub, if_pos (by omega), hd']
      ring

theorem decompose_decision (f : Nat → ℝ) (M i D : Nat) (hi : i < M) (hD : D < M) :
    f D = f i + ∑ e ∈ Finset.range (M - 1 - i), (f (i + e + 1) - f (i + e)) * (if i + e + 1 ≤ D then 1 else 0) +
      ∑ e ∈ Finset.range i, (f (i - (e + 1)) - f (i - e)) * (if D ≤ i - (e + 1) then 1 else 0) := by
  rcases Nat.lt_or_ge D i with h | h
  · have h1 : ∑ e ∈ Finset.range (M - 1 - i), (f (i + e + 1) - f (i + e)) * (if i + e + 1 ≤ D then (1 : ℝ) else 0) = 0 :=
      Finset.sum_eq_zero fun e _ => by rw [if_neg (by omega), mul_zero]
    have h2 := telescope_cut (fun e => f (i - e)) i (i - D) (by omega)
    rw [h1, show i - (i - D) = D by omega] at *
    rw [Finset.sum_congr rfl (g := fun e => (f (i - (e + 1)) - f (i - e)) * (if e + 1 ≤ i - D then (1 : ℝ) else 0)), h2]
    · simp
    · intro e he
      have := Finset.mem_range.mp he
      congr 1
      exact if_congr (by omega) rfl rfl
  · have h1 : ∑ e ∈ Finset.range i, (f (i - (e + 1)) - f (i - e)) * (if D ≤ i - (e + 1) then (1 : ℝ) else 0) = 0 :=
      Finset.sum_eq_zero fun e he => by
        have := Finset.mem_range.mp he
        rw [if_neg (by omega), mul_zero]
    have h2 := telescope_cut (fun e => f (i + e)) (M - 1 - i) (D - i) (by omega)
    rw [h1, Finset.sum_congr rfl (g := fun e => (f (i + (e + 1)) - f (i + e)) * (if e + 1 ≤ D - i then (1 : ℝ) else 0)), h2]
    · simp only [Nat.add_zero, show i + (D - i) = D by omega]; ring
    · intro e he
      rw [Nat.add_assoc]
      congr 1
      exact if_congr (by omega) rfl rfl

theorem pam_decision_lt (M : Nat) (hM : 0 < M) (δ y : ℝ) : (pamClosest M δ y).toNat < M := by
  have h : 0 ≤ pamClosest M δ y ∧ pamClosest M δ y < M := npClip_range _ hM
  omega

theorem pam_decision_arg (M : Nat) (δ : ℝ) (hδ : 0 < δ) (i : Nat) (hi : i < M) (w : ℝ) :
    pamClosest M δ (pamPoint M δ i + w) = npClip (npRound (((i : ℤ) : ℝ) + w / δ)) ((M : ℤ) - 1) := by
  rw [pamClosest]
  congr 2
  rw [pamPoint_eq M δ i hi]; push_cast; field_simp; ring

/-- Away from the ties, the decision exceeds `i + e` exactly when the noise exceeds `(2 e + 1) δ / 2`. -/
theorem pam_decision_up (M : Nat) (δ : ℝ) (hδ : 0 < δ) (N : ℝ) (hN : 0 < N) (i e : Nat) (he : i + e + 1 < M) (u : ℝ) (hu : u ≠ (2 * e + 1) * (δ / (2 * √N))) :
    i + e + 1 ≤ (pamClosest M δ (pamPoint M δ i + √N * u)).toNat ↔ u ∈ Ioi ((2 * e + 1) * (δ / (2 * √N))) := by
  have hs : 0 < √N := Real.sqrt_pos.mpr hN
  rw [pam_decision_arg M δ hδ i (by omega), mem_Ioi]
  have key : ∀ x : ℝ, (2 * e + 1) * (δ / (2 * √N)) < x ↔ (e : ℝ) + 1 / 2 < √N * x / δ := fun x => by
    rw [lt_div_iff₀ hδ, show (2 * (e : ℝ) + 1) * (δ / (2 * √N)) = ((e + 1 / 2) * δ) / √N by field_simp, div_lt_iff₀ hs, mul_comm x]
  have key' : ∀ x : ℝ, x < (2 * e + 1) * (δ / (2 * √N)) ↔ √N * x / δ < (e : ℝ) + 1 / 2 := fun x => by
    rw [div_lt_iff₀ hδ, show (2 * (e : ℝ) + 1) * (δ / (2 * √N)) = ((e + 1 / 2) * δ) / √N by field_simp, lt_div_iff₀ hs, mul_comm x]
  rcases lt_or_gt_of_ne hu with h | h
  · have h' := (key' u).mp h
    have hr : npRound (((i : ℤ) : ℝ) + √N * u / δ) ≤ (i + e : ℤ) := npRound_le (by push_cast; linarith)
    rw [npClip]
    constructor
    · intro hc; omega
    · intro hc; exact absurd hc (not_lt.mpr h.le)
  · have h' := (key u).mp h
    have hr : (i + e + 1 : ℤ) ≤ npRound (((i : ℤ) : ℝ) + √N * u / δ) := npRound_ge (by push_cast; linarith)
    rw [npClip]
    simp only [h, iff_true]
    omega

theorem pam_decision_down (M : Nat) (δ : ℝ) (hδ : 0 < δ) (N : ℝ) (hN : 0 < N) (i e : Nat) (hi : i < M) (he : e < i) (u : ℝ) (hu : u ≠ -((2 * e + 1) * (δ / (2 * √N)))) :
    (pamClosest M δ (pamPoint M δ i + √N * u)).toNat ≤ i - (e + 1) ↔ u ∈ Iio (-((2 * e + 1) * (δ / (2 * √N)))) := by
  have hs : 0 < √N := Real.sqrt_pos.mpr hN
  rw [pam_decision_arg M δ hδ i hi, mem_Iio]
  have key : ∀ x : ℝ, -((2 * e + 1) * (δ / (2 * √N))) < x ↔ -((e : ℝ) + 1 / 2) < √N * x / δ := fun x => by
    rw [lt_div_iff₀ hδ, show -((2 * (e : ℝ) + 1) * (δ / (2 * √N))) = (-(e + 1 / 2) * δ) / √N by field_simp, div_lt_iff₀ hs, mul_comm x]
  have key' : ∀ x : ℝ, x < -((2 * e + 1) * (δ / (2 * √N))) ↔ √N * x / δ < -((e : ℝ) + 1 / 2) := fun x => by
    rw [div_lt_iff₀ hδ, show -((2 * (e : ℝ) + 1) * (δ / (2 * √N))) = (-(e + 1 / 2) * δ) / √N by field_simp, lt_div_iff₀ hs, mul_comm x]
  rcases lt_or_gt_of_ne hu with h | h
  · have h' := (key' u).mp h
    have hr : npRound (((i : ℤ) : ℝ) + √N * u / δ) ≤ (i - e - 1 : ℤ) := npRound_le (by push_cast; linarith)
    rw [npClip]
    simp only [h, iff_true]
    omega
  · have h' := (key u).mp h
    have hr : (i - e : ℤ) ≤ npRound (((i : ℤ) : ℝ) + √N * u / δ) := npRound_ge (by push_cast; linarith)
    rw [npClip]
    constructor
    · intro hc; omega
    · intro hc; exact absurd hc (not_lt.mpr h.le)

theorem lower_tail (a : ℝ) : (gaussianReal 0 1).real (Iio (-a)) = gaussianQ a := by
  have := nullSingletonClass_gaussianReal (μ := 0) (v := 1) one_ne_zero
  have h := tail_symm (-a)
  rw [neg_neg] at h
  rw [C104_tail, h, normalTail, ← compl_Iic, probReal_compl_eq_one_sub measurableSet_Iic, sub_sub_cancel, measureReal_def, measureReal_def, measure_congr Iio_ae_eq_Iic]

/-- The mean of any function of the decision on a PAM point, in terms of the tail function. -/
theorem pam_mean (M : Nat) (δ : ℝ) (hδ : 0 < δ) (N : ℝ) (hN : 0 < N) (i : Nat) (hi : i < M) (f : Nat → ℝ) :
    ∫ u, f (pamClosest M δ (pamPoint M δ i + √N * u)).toNat ∂(gaussianReal 0 1) =
      f i + ∑ e ∈ Finset.range (M - 1 - i), (f (i + e + 1) - f (i + e)) * gaussianQ ((2 * e + 1) * (δ / (2 * √N))) +
      ∑ e ∈ Finset.range i, (f (i - (e + 1)) - f (i - e)) * gaussianQ ((2 * e + 1) * (δ / (2 * √N))) := by
  have := nullSingletonClass_gaussianReal (μ := 0) (v := 1) one_ne_zero
  set c := δ / (2 * √N) with hc
  have hne : ∀ᵐ u ∂(gaussianReal 0 1), ∀ e : Nat, u ≠ (2 * e + 1) * c ∧ u ≠ -((2 * e + 1) * c) := by
    rw [ae_all_iff]
    intro e
    rw [Filter.eventually_and]
    exact ⟨by simp [ae_iff], by simp [ae_iff]⟩
  have hae : (fun u => f (pamClosest M δ (pamPoint M δ i + √N * u)).toNat) =ᵐ[gaussianReal 0 1] fun u =>
      f i + ∑ e ∈ Finset.range (M - 1 - i), (f (i + e + 1) - f (i + e)) * (Ioi ((2 * (e : ℝ) + 1) * c)).indicator (fun _ => (1 : ℝ)) u +
        ∑ e ∈ Finset.range i, (f (i - (e + 1)) - f (i - e)) * (Iio (-((2 * (e : ℝ) + 1) * c))).indicator (fun _ => (1 : ℝ)) u := by
    filter_upwards [hne] with u hu
    rw [decompose_decision f M i _ hi (pam_decision_lt M (by omega) δ _)]
    congr 1
    · congr 1
      refine Finset.sum_congr rfl fun e he => ?_
      have := Finset.mem_range.mp he
      rw [indicator_apply]
      congr 1
      exact if_congr (pam_decision_up M δ hδ N hN i e (by omega) u (hu e).1) rfl rfl
    · refine Finset.sum_congr rfl fun e he => ?_
      have := Finset.mem_range.mp he
      rw [indicator_apply]
      congr 1
      exact if_congr (pam_decision_down M δ hδ N hN i e hi this u (hu e).2) rfl rfl
  have i1 : ∀ (s : Set ℝ), MeasurableSet s → ∀ r : ℝ, Integrable (fun u => r * s.indicator (fun _ => (1 : ℝ)) u) (gaussianReal 0 1) := fun s hs r =>
    ((integrable_const (1 : ℝ)).indicator hs).const_mul r
  rw [integral_congr_ae hae, integral_add, integral_add, integral_const, integral_finsetSum, integral_finsetSum]
  · simp only [integral_const_mul, integral_indicator_const (1 : ℝ) measurableSet_Ioi, integral_indicator_const (1 : ℝ) measurableSet_Iio, lower_tail, probReal_univ, smul_eq_mul, mul_one,
      one_mul]
    simp only [C104_tail, normalTail]
  · exact fun e _ => i1 _ measurableSet_Iio _
  · exact fun e _ => i1 _ measurableSet_Ioi _
  · exact integrable_const _
  · exact integrable_finsetSum _ fun e _ => i1 _ measurableSet_Ioi _
  · exact (integrable_const _).add (integrable_finsetSum _ fun e _ => i1 _ measurableSet_Ioi _)
  · exact integrable_finsetSum _ fun e _ => i1 _ measurableSet_Iio _

/-! ### The sum over the points -/

theorem triangle_up (M : Nat) (G : Nat → Nat → ℝ) : ∑ i ∈ Finset.range M, ∑ e ∈ Finset.range (M - 1 - i), G (i + e + 1) e = ∑ b ∈ Finset.range M, ∑ e ∈ Finset.range b, G b e := by
  rw [Finset.sum_sigma', Finset.sum_sigma']
  refine Finset.sum_bij' (fun p _ => ⟨p.1 + p.2 + 1, p.2⟩) (fun p _ => ⟨p.1 - p.2 - 1, p.2⟩) ?_ ?_ ?_ ?_ ?_
  · rintro ⟨i, e⟩ h
    simp only [Finset.mem_sigma, Finset.mem_range] at h ⊢
    omega
  · rintro ⟨i, e⟩ h
    simp only [Finset.mem_sigma, Finset.mem_range] at h ⊢
    omega
  · rintro ⟨i, e⟩ h
    simp only [Finset.mem_sigma, Finset.mem_range] at h
    simp only [Sigma.mk.injEq, heq_eq_eq, and_true]; omega
  · rintro ⟨i, e⟩ h
    simp only [Finset.mem_sigma, Finset.mem_range] at h
    simp only [Sigma.mk.injEq, heq_eq_eq, and_true]; omega
  · rintro ⟨i, e⟩ h; rfl

theorem triangle_down (M : Nat) (G : Nat → Nat → ℝ) : ∑ i ∈ Finset.range M, ∑ e ∈ Finset.range i, G (i - e) e = ∑ b ∈ Finset.range M, ∑ e ∈ Finset.range b, G (M - b) e := by
  rw [Finset.sum_sigma', Finset.sum_sigma']
  refine Finset.sum_bij' (fun p _ => ⟨M - (p.1 - p.2), p.2⟩) (fun p _ => ⟨M - p.1 + p.2, p.2⟩) ?_ ?_ ?_ ?_ ?_
  · rintro ⟨i, e⟩ h
    simp only [Finset.mem_sigma, Finset.mem_range] at h ⊢
    omega
  · rintro ⟨i, e⟩ h
    simp only [Finset.mem_sigma, Finset.mem_range] at h ⊢
    omega
  · rintro ⟨i, e⟩ h
    simp only [Finset.mem_sigma, Finset.mem_range] at h
    simp only [Sigma.mk.injEq, heq_eq_eq, and_true]; omega
  · rintro ⟨i, e⟩ h
    simp only [Finset.mem_sigma, Finset.mem_range] at h
    simp only [Sigma.mk.injEq, heq_eq_eq, and_true]; omega
  · rintro ⟨i, e⟩ h
    simp only [Finset.mem_sigma, Finset.mem_range] at h
    simp only
    congr 1
    omega

/-- The number of thresholds above `e` at which the bit changes. -/
theorem threshold_count (h K e : Nat) (hh : 0 < h) (he : e < 2 * h * K) :
    ((Finset.range (2 * h * K)).filter fun b => e < b ∧ 2 * h ∣ b + h).card = K - (e + h) / (2 * h) := by
  have e1 : ((Finset.range (2 * h * K)).filter fun b => e < b ∧ 2 * h ∣ b + h).card = ((Finset.Ioc (e + h) (2 * h * K + h - 1)).filter fun c => 2 * h ∣ c).card := by
    refine Finset.card_bij (fun b _ => b + h) ?_ ?_ ?_
    · intro b hb
      simp only [Finset.mem_filter, Finset.mem_range, Finset.mem_Ioc] at hb ⊢
      exact ⟨by omega, hb.2.2⟩
    · intro a _ b _ hab; omega
    · intro c hc
      simp only [Finset.mem_filter, Finset.mem_range, Finset.mem_Ioc] at hc ⊢
      exact ⟨c - h, ⟨by omega, by omega, by rw [show c - h + h = c by omega]; exact hc.2⟩, by omega⟩
  have e2 : ((Finset.Ioc 0 (2 * h * K + h - 1)).filter fun c => 2 * h ∣ c) =
      ((Finset.Ioc 0 (e + h)).filter fun c => 2 * h ∣ c) ∪ ((Finset.Ioc (e + h) (2 * h * K + h - 1)).filter fun c => 2 * h ∣ c) := by
    rw [← Finset.filter_union]
    congr 1
    ext c
    simp only [Finset.mem_union, Finset.mem_Ioc]
    omega
  have e3 : Disjoint ((Finset.Ioc 0 (e + h)).filter fun c => 2 * h ∣ c) ((Finset.Ioc (e + h) (2 * h * K + h - 1)).filter fun c => 2 * h ∣ c) := by
    rw [Finset.disjoint_left]
    intro c h1 h2
    simp only [Finset.mem_filter, Finset.mem_Ioc] at h1 h2
    omega
  have e4 := congrArg Finset.card e2
  rw [Finset.card_union_of_disjoint e3, Nat.Ioc_filter_dvd_card_eq_div, Nat.Ioc_filter_dvd_card_eq_div,
    show 2 * h * K + h - 1 = (h - 1) + 2 * h * K by omega, Nat.add_mul_div_left _ _ (by omega), Nat.div_eq_of_lt (by omega : h - 1 < 2 * h)] at e4
  rw [e1, show 2 * h * K + h - 1 = (h - 1) + 2 * h * K by omega]
  omega

/-- The sign of a bit of the Gray label. -/
theorem sign_step (h j : Nat) :
    (-1 : ℝ) ^ ((j + h) / (2 * h)) - (-1) ^ ((j + 1 + h) / (2 * h)) = if 2 * h ∣ j + 1 + h then 2 * (-1) ^ ((j + h) / (2 * h)) else 0 := by
  rw [show j + 1 + h = j + h + 1 by omega, Nat.succ_div]
  by_cases hd : 2 * h ∣ j + h + 1
  · rw [if_pos hd, if_pos hd, pow_add, pow_one]; ring
  · rw [if_neg hd, if_neg hd, add_zero, sub_self]

theorem sign_prod (a b c : Nat) (h : a + c = b ∨ b + c = a) : (-1 : ℝ) ^ a * (-1) ^ b = (-1) ^ c := by
  have hs : ∀ n : Nat, ((-1 : ℝ) ^ n) * (-1) ^ n = 1 := fun n => by rw [← mul_pow]; simp
  rcases h with rfl | rfl
  · rw [pow_add, ← mul_assoc, hs, one_mul]
  · rw [pow_add, mul_comm ((-1 : ℝ) ^ b), mul_assoc, hs, mul_one]

/-- A bit differs. -/
theorem differ_sign (a b : Nat) : (if a % 2 ≠ b % 2 then (1 : ℝ) else 0) = (1 - (-1) ^ b * (-1) ^ a) / 2 := by
  rcases Nat.even_or_odd a with ha | ha <;> rcases Nat.even_or_odd b with hb | hb
  · rw [ha.neg_one_pow, hb.neg_one_pow, if_neg (by rw [not_not, Nat.even_iff.mp ha, Nat.even_iff.mp hb])]; norm_num
  · rw [ha.neg_one_pow, hb.neg_one_pow, if_pos (by rw [Nat.even_iff.mp ha, Nat.odd_iff.mp hb]; norm_num)]; norm_num
  · rw [ha.neg_one_pow, hb.neg_one_pow, if_pos (by rw [Nat.odd_iff.mp ha, Nat.even_iff.mp hb]; norm_num)]; norm_num
  · rw [ha.neg_one_pow, hb.neg_one_pow, if_neg (by rw [not_not, Nat.odd_iff.mp ha, Nat.odd_iff.mp hb])]; norm_num

/-- The sum over all sent points of the probability that one bit is wrong. -/
theorem bit_sum (h K : Nat) (hh : 0 < h) (q : Nat → ℝ) :
    ∑ i ∈ Finset.range (2 * h * K), (∑ e ∈ Finset.range (2 * h * K - 1 - i), ((1 - (-1 : ℝ) ^ ((i + h) / (2 * h)) * (-1) ^ ((i + e + 1 + h) / (2 * h))) / 2 -
        (1 - (-1 : ℝ) ^ ((i + h) / (2 * h)) * (-1) ^ ((i + e + h) / (2 * h))) / 2) * q e +
      ∑ e ∈ Finset.range i, ((1 - (-1 : ℝ) ^ ((i + h) / (2 * h)) * (-1) ^ ((i - (e + 1) + h) / (2 * h))) / 2 -
        (1 - (-1 : ℝ) ^ ((i + h) / (2 * h)) * (-1) ^ ((i - e + h) / (2 * h))) / 2) * q e) =
    2 * ∑ e ∈ Finset.range (2 * h * K - h), (-1) ^ (e / (2 * h)) * ((K : ℝ) - ((e + h) / (2 * h) : Nat)) * q e := by
  obtain ⟨M, hM⟩ : ∃ M, M = 2 * h * K := ⟨_, rfl⟩
  rw [← hM]
  have hT : 0 < 2 * h := by omega
  -- both sums count thresholds
  have up : ∀ i e, i + e + 1 < M → ((1 - (-1 : ℝ) ^ ((i + h) / (2 * h)) * (-1) ^ ((i + e + 1 + h) / (2 * h))) / 2 -
        (1 - (-1 : ℝ) ^ ((i + h) / (2 * h)) * (-1) ^ ((i + e + h) / (2 * h))) / 2) = if 2 * h ∣ i + e + 1 + h then (-1) ^ (e / (2 * h)) else 0 := by
    intro i e _
    have hs := sign_step h (i + e)
    have : (1 - (-1 : ℝ) ^ ((i + h) / (2 * h)) * (-1) ^ ((i + e + 1 + h) / (2 * h))) / 2 - (1 - (-1 : ℝ) ^ ((i + h) / (2 * h)) * (-1) ^ ((i + e + h) / (2 * h))) / 2 =
      (-1 : ℝ) ^ ((i + h) / (2 * h)) / 2 * ((-1) ^ ((i + e + h) / (2 * h)) - (-1) ^ ((i + e + 1 + h) / (2 * h))) := by ring
    rw [this, hs]
    by_cases hd : 2 * h ∣ i + e + 1 + h
    · rw [if_pos hd, if_pos hd, ← sign_prod ((i + h) / (2 * h)) ((i + e + h) / (2 * h)) (e / (2 * h))]
      · ring
      · left
        obtain ⟨t, ht⟩ := hd
        have ht0 : t ≠ 0 := by rintro rfl; omega
        have a1 : (i + e + h) / (2 * h) = t - 1 := by
          rw [show i + e + h = (2 * h - 1) + 2 * h * (t - 1) by
            obtain ⟨t', rfl⟩ : ∃ t', t = t' + 1 := ⟨t - 1, by omega⟩
            rw [Nat.mul_add] at ht; simp only [Nat.add_sub_cancel]; omega, Nat.add_mul_div_left _ _ hT, Nat.div_eq_of_lt (by omega), Nat.zero_add]
        have a2 := Nat.div_add_mod e (2 * h)
        have a3 := Nat.mod_lt e hT
        obtain ⟨c, hc⟩ : ∃ c, c = e / (2 * h) := ⟨_, rfl⟩
        obtain ⟨r, hr⟩ : ∃ r, r = e % (2 * h) := ⟨_, rfl⟩
        rw [← hc] at a2 ⊢
        rw [← hr] at a2 a3
        have hct : c + 1 ≤ t := by
          by_contra hcon
          have : t ≤ c := by omega
          have := Nat.mul_le_mul_left (2 * h) this
          omega
        have a4 : (i + h) / (2 * h) = t - 1 - c := by
          obtain ⟨t', rfl⟩ : ∃ t', t = t' + c + 1 := ⟨t - c - 1, by omega⟩
          rw [show i + h = (2 * h - 1 - r) + 2 * h * t' by
            rw [Nat.mul_add, Nat.mul_add] at ht; omega, Nat.add_mul_div_left _ _ hT, Nat.div_eq_of_lt (by omega)]
          omega
        rw [a1, a4]; omega
    · rw [if_neg hd, if_neg hd, mul_zero]
  have down : ∀ i e, e < i → ((1 - (-1 : ℝ) ^ ((i + h) / (2 * h)) * (-1) ^ ((i - (e + 1) + h) / (2 * h))) / 2 -
        (1 - (-1 : ℝ) ^ ((i + h) / (2 * h)) * (-1) ^ ((i - e + h) / (2 * h))) / 2) = if 2 * h ∣ i - e + h then (-1) ^ (e / (2 * h)) else 0 := by
    intro i e hei
    have hs := sign_step h (i - (e + 1))
    rw [show i - (e + 1) + 1 = i - e by omega] at hs
    have : (1 - (-1 : ℝ) ^ ((i + h) / (2 * h)) * (-1) ^ ((i - (e + 1) + h) / (2 * h))) / 2 - (1 - (-1 : ℝ) ^ ((i + h) / (2 * h)) * (-1) ^ ((i - e + h) / (2 * h))) / 2 =
      -((-1 : ℝ) ^ ((i + h) / (2 * h)) / 2) * ((-1) ^ ((i - (e + 1) + h) / (2 * h)) - (-1) ^ ((i - e + h) / (2 * h))) := by ring
    rw [this, hs]
    by_cases hd : 2 * h ∣ i - e + h
    · rw [if_pos hd, if_pos hd]
      obtain ⟨t, ht⟩ := hd
      have ht0 : t ≠ 0 := by rintro rfl; omega
      obtain ⟨t', rfl⟩ : ∃ t', t = t' + 1 := ⟨t - 1, by omega⟩
      have a1 : (i - (e + 1) + h) / (2 * h) = t' := by
        rw [show i - (e + 1) + h = (2 * h - 1) + 2 * h * t' by rw [Nat.mul_add] at ht; omega, Nat.add_mul_div_left _ _ hT, Nat.div_eq_of_lt (by omega), Nat.zero_add]
      have a4 : (i + h) / (2 * h) = t' + 1 + e / (2 * h) := by
        rw [show i + h = e + 2 * h * (t' + 1) by omega, Nat.add_mul_div_left _ _ hT]; omega
      rw [a1, a4, ← sign_prod (t' + 1 + e / (2 * h)) (t' + 1) (e / (2 * h)) (Or.inr rfl)]
      ring
    · rw [if_neg hd, if_neg hd, mul_zero]
  have d1 : ∀ b, b < M → 0 < b → (2 * h ∣ M - b + h ↔ 2 * h ∣ b + h) := by
    intro b hb hb0
    have hsum : M - b + h + (b + h) = 2 * h * (K + 1) := by rw [Nat.mul_add, ← hM]; omega
    have hd : 2 * h ∣ M - b + h + (b + h) := ⟨K + 1, hsum⟩
    exact ⟨fun hx => (Nat.dvd_add_right hx).mp hd, fun hx => (Nat.dvd_add_left hx).mp hd⟩
  have s1 : ∑ i ∈ Finset.range M, ∑ e ∈ Finset.range (M - 1 - i), ((1 - (-1 : ℝ) ^ ((i + h) / (2 * h)) * (-1) ^ ((i + e + 1 + h) / (2 * h))) / 2 -
        (1 - (-1 : ℝ) ^ ((i + h) / (2 * h)) * (-1) ^ ((i + e + h) / (2 * h))) / 2) * q e =
      ∑ b ∈ Finset.range M, ∑ e ∈ Finset.range b, (if 2 * h ∣ b + h then (-1) ^ (e / (2 * h)) else 0) * q e := by
    rw [← triangle_up M fun b e => (if 2 * h ∣ b + h then (-1 : ℝ) ^ (e / (2 * h)) else 0) * q e]
    refine Finset.sum_congr rfl fun i hi => Finset.sum_congr rfl fun e he => ?_
    rw [Finset.mem_range] at hi he
    rw [up i e (by omega)]
  have s2 : ∑ i ∈ Finset.range M, ∑ e ∈ Finset.range i, ((1 - (-1 : ℝ) ^ ((i + h) / (2 * h)) * (-1) ^ ((i - (e + 1) + h) / (2 * h))) / 2 -
        (1 - (-1 : ℝ) ^ ((i + h) / (2 * h)) * (-1) ^ ((i - e + h) / (2 * h))) / 2) * q e =
      ∑ b ∈ Finset.range M, ∑ e ∈ Finset.range b, (if 2 * h ∣ b + h then (-1) ^ (e / (2 * h)) else 0) * q e := by
    have := triangle_down M fun b e => (if 2 * h ∣ b + h then (-1 : ℝ) ^ (e / (2 * h)) else 0) * q e
    rw [Finset.sum_congr rfl fun i hi => Finset.sum_congr rfl fun e he => by rw [down i e (Finset.mem_range.mp he)], this]
    refine Finset.sum_congr rfl fun b hb => Finset.sum_congr rfl fun e he => ?_
    rw [Finset.mem_range] at hb he
    congr 1
    exact if_congr (d1 b hb (by omega)) rfl rfl
  rw [Finset.sum_add_distrib, s1, s2, ← two_mul]
  congr 1
  have s3 : ∀ b ∈ Finset.range M, ∑ e ∈ Finset.range b, (if 2 * h ∣ b + h then (-1 : ℝ) ^ (e / (2 * h)) else 0) * q e =
      ∑ e ∈ Finset.range M, (if e < b ∧ 2 * h ∣ b + h then (-1 : ℝ) ^ (e / (2 * h)) * q e else 0) := by
    intro b hb
    rw [Finset.mem_range] at hb
    have hsub : Finset.range b = (Finset.range M).filter fun e => e < b := by
      ext e; simp only [Finset.mem_filter, Finset.mem_range]; omega
    rw [hsub, Finset.sum_filter]
    refine Finset.sum_congr rfl fun e _ => ?_
    by_cases c1 : e < b <;> by_cases c2 : 2 * h ∣ b + h <;> simp [c1, c2]
  rw [Finset.sum_congr rfl s3, Finset.sum_comm]
  have s4 : ∀ e ∈ Finset.range M, ∑ b ∈ Finset.range M, (if e < b ∧ 2 * h ∣ b + h then (-1 : ℝ) ^ (e / (2 * h)) * q e else 0) =
      (-1) ^ (e / (2 * h)) * ((K : ℝ) - ((e + h) / (2 * h) : Nat)) * q e := by
    intro e he
    rw [Finset.mem_range] at he
    rw [← Finset.sum_filter, Finset.sum_const, nsmul_eq_mul, hM, threshold_count h K e hh (by omega), Nat.cast_sub]
    · ring
    · rw [Nat.div_le_iff_le_mul_add_pred hT]; omega
  rw [Finset.sum_congr rfl s4]
  refine (Finset.sum_subset (fun e he => by rw [Finset.mem_range] at *; omega) fun e he hne => ?_).symm
  rw [Finset.mem_range] at he hne
  have : (e + h) / (2 * h) = K := by
    rw [Nat.div_eq_iff hT]
    have : K * (2 * h) = M := by rw [hM, Nat.mul_comm]
    omega
  rw [this, sub_self, mul_zero, zero_mul]

/-! ### PAM -/

theorem measurable_decision (M : Nat) (δ N x : ℝ) : Measurable fun u : ℝ => (pamClosest M δ (x + √N * u)).toNat :=
  (Measurable.of_discrete (f := Int.toNat)).comp ((measurable_pamClosest M δ).comp (by fun_prop))

theorem pam_event_law (M : Nat) (δ N : ℝ) (i : Fin M) (A : Set Nat) :
    (stdNormals (Fin 1)).real {z | (pamClosest M δ (transmitReal N (pam M δ i) z 0)).toNat ∈ A} =
      (gaussianReal 0 1).real {u : ℝ | (pamClosest M δ (pamPoint M δ i + √N * u)).toNat ∈ A} := by
  have hev : MeasurePreserving (fun z : Fin 1 → ℝ => z 0) (stdNormals (Fin 1)) (gaussianReal 0 1) := measurePreserving_eval (fun _ : Fin 1 => gaussianReal 0 1) 0
  have hms : MeasurableSet {u : ℝ | (pamClosest M δ (pamPoint M δ i + √N * u)).toNat ∈ A} := measurable_decision M δ N _ (MeasurableSet.of_discrete (s := A))
  rw [measureReal_def, measureReal_def, ← hev.measure_preimage hms.nullMeasurableSet]
  congr 2
  ext z
  simp [transmitReal, normal, pam]

/-- The wrong-bit probabilities of one bit of Gray-labelled PAM, summed over the sent points. -/
theorem gray_bit_sum (m k : Nat) (hk : k < m) (δ : ℝ) (hδ : 0 < δ) (N : ℝ) (hN : 0 < N) :
    ∑ i ∈ Finset.range (2 ^ m), (gaussianReal 0 1).real {u : ℝ |
      (reflectedIndicesToBits m [(pamClosest (2 ^ m) δ (pamPoint (2 ^ m) δ i + √N * u)).toNat])[k]? ≠ (reflectedIndicesToBits m [i])[k]?} =
    2 ^ m * grayBitErrorRate m k (δ / (2 * √N)) := by
  obtain ⟨h, hh⟩ : ∃ h, h = 2 ^ (m - 1 - k) := ⟨_, rfl⟩
  have hh0 : 0 < h := by rw [hh]; positivity
  have hT : 2 ^ (m - k) = 2 * h := by rw [hh, ← pow_succ', show m - k = m - 1 - k + 1 by omega]
  have hM : 2 ^ m = 2 * h * 2 ^ k := by rw [← hT, ← pow_add]; congr 1; omega
  have key := bit_sum h (2 ^ k) hh0 fun e => gaussianQ ((2 * e + 1) * (δ / (2 * √N)))
  rw [← hM] at key
  have e1 : ∀ i ∈ Finset.range (2 ^ m), (gaussianReal 0 1).real {u : ℝ |
      (reflectedIndicesToBits m [(pamClosest (2 ^ m) δ (pamPoint (2 ^ m) δ i + √N * u)).toNat])[k]? ≠ (reflectedIndicesToBits m [i])[k]?} =
      ∑ e ∈ Finset.range (2 ^ m - 1 - i), ((1 - (-1 : ℝ) ^ ((i + h) / (2 * h)) * (-1) ^ ((i + e + 1 + h) / (2 * h))) / 2 -
        (1 - (-1 : ℝ) ^ ((i + h) / (2 * h)) * (-1) ^ ((i + e + h) / (2 * h))) / 2) * gaussianQ ((2 * e + 1) * (δ / (2 * √N))) +
      ∑ e ∈ Finset.range i, ((1 - (-1 : ℝ) ^ ((i + h) / (2 * h)) * (-1) ^ ((i - (e + 1) + h) / (2 * h))) / 2 -
        (1 - (-1 : ℝ) ^ ((i + h) / (2 * h)) * (-1) ^ ((i - e + h) / (2 * h))) / 2) * gaussianQ ((2 * e + 1) * (δ / (2 * √N))) := by
    intro i hi
    rw [Finset.mem_range] at hi
    have pm := pam_mean (2 ^ m) δ hδ N hN i hi fun j => (1 - (-1 : ℝ) ^ ((i + h) / (2 * h)) * (-1) ^ ((j + h) / (2 * h))) / 2
    have z : (1 - (-1 : ℝ) ^ ((i + h) / (2 * h)) * (-1) ^ ((i + h) / (2 * h))) / 2 = 0 := by
      rw [← mul_pow]; simp
    simp only [z, zero_add] at pm
    rw [← pm]
    have hms : MeasurableSet {u : ℝ | (reflectedIndicesToBits m [(pamClosest (2 ^ m) δ (pamPoint (2 ^ m) δ i + √N * u)).toNat])[k]? ≠ (reflectedIndicesToBits m [i])[k]?} :=
      measurable_decision (2 ^ m) δ N _ (MeasurableSet.of_discrete (s := {j | (reflectedIndicesToBits m [j])[k]? ≠ (reflectedIndicesToBits m [i])[k]?}))
    rw [← integral_indicator_one hms]
    refine integral_congr_ae (Eventually.of_forall fun u => ?_)
    simp only [← differ_sign, indicator_apply, Pi.one_apply]
    refine if_congr ?_ rfl rfl
    rw [mem_setOf_eq, gray_bit m k _ hk, gray_bit m k _ hk, ← hh, Ne, Option.some_inj]
  rw [Finset.sum_congr rfl e1, key, grayBitErrorRate, ← hh, hT]
  push_cast
  rw [← mul_assoc, mul_div_cancel₀ _ (by positivity : (2 : ℝ) ^ m ≠ 0)]

/-- The error rate of bit `k` (counted from the left) of `2^m`-ary PAM with `ReflectedLabeling(m)`, equally likely points and the nearest-point decision, over the real Gaussian
channel. -/
theorem C133_pam_bit (m k : Nat) (hk : k < m) (δ : ℝ) (hδ : 0 < δ) (N : ℝ) (hN : 0 < N) :
    ∑ i : Fin (2 ^ m), 1 / (2 : ℝ) ^ m * (stdNormals (Fin 1)).real {z |
      (reflectedIndicesToBits m [(pamClosest (2 ^ m) δ (transmitReal N (pam (2 ^ m) δ i) z 0)).toNat])[k]? ≠ (reflectedIndicesToBits m [i.val])[k]?} =
    grayBitErrorRate m k (δ / (2 * √N)) := by
  have key := gray_bit_sum m k hk δ hδ N hN
  rw [← Finset.mul_sum, show grayBitErrorRate m k (δ / (2 * √N)) = 1 / 2 ^ m * (2 ^ m * grayBitErrorRate m k (δ / (2 * √N))) by field_simp, ← key, ← Fin.sum_univ_eq_sum_range (fun i => (gaussianReal 0 1).real {u : ℝ |
      (reflectedIndicesToBits m [(pamClosest (2 ^ m) δ (pamPoint (2 ^ m) δ i + √N * u)).toNat])[k]? ≠ (reflectedIndicesToBits m [i])[k]?}) (2 ^ m)]
  congr 1
  exact Finset.sum_congr rfl fun i _ => pam_event_law (2 ^ m) δ N i {j | (reflectedIndicesToBits m [j])[k]? ≠ (reflectedIndicesToBits m [i.val])[k]?}

theorem wordDist_sum (m : Nat) (a b : List Nat) (ha : a.length = m) (hb : b.length = m) : (wordDist a b : ℝ) = ∑ k ∈ Finset.range m, (if a[k]? ≠ b[k]? then 1 else 0) := by
  induction m generalizing a b with
  | zero => simp [List.length_eq_zero_iff.mp ha, wordDist]
  | succ m ih =>
    obtain ⟨x, a, rfl⟩ := List.exists_cons_of_length_eq_add_one ha
    obtain ⟨y, b, rfl⟩ := List.exists_cons_of_length_eq_add_one hb
    rw [Finset.sum_range_succ', wordDist, Nat.cast_add, ih a b (by simpa using ha) (by simpa using hb), add_comm]
    congr 1
    by_cases h : x = y <;> simp [h]

theorem gray_length (m i : Nat) : (reflectedIndicesToBits m [i]).length = m := by
  simp [reflectedIndicesToBits, intToBits_length]

/-- The bit error rate: the expected fraction of wrong bits per symbol is the mean of the error rates of the `m` bits. -/
theorem C133_pam_ber (m : Nat) (δ : ℝ) (hδ : 0 < δ) (N : ℝ) (hN : 0 < N) :
    ∑ i : Fin (2 ^ m), 1 / (2 : ℝ) ^ m * ∫ z, (wordDist (reflectedIndicesToBits m [(pamClosest (2 ^ m) δ (transmitReal N (pam (2 ^ m) δ i) z 0)).toNat])
        (reflectedIndicesToBits m [i.val]) : ℝ) / m ∂(stdNormals (Fin 1)) =
    1 / m * ∑ k ∈ Finset.range m, grayBitErrorRate m k (δ / (2 * √N)) := by
  have e1 : ∀ i : Fin (2 ^ m), ∫ z, (wordDist (reflectedIndicesToBits m [(pamClosest (2 ^ m) δ (transmitReal N (pam (2 ^ m) δ i) z 0)).toNat])
        (reflectedIndicesToBits m [i.val]) : ℝ) / m ∂(stdNormals (Fin 1)) =
      1 / m * ∑ k ∈ Finset.range m, (stdNormals (Fin 1)).real {z |
      (reflectedIndicesToBits m [(pamClosest (2 ^ m) δ (transmitReal N (pam (2 ^ m) δ i) z 0)).toNat])[k]? ≠ (reflectedIndicesToBits m [i.val])[k]?} := by
    intro i
    have hms : ∀ k : Nat, MeasurableSet {z : Fin 1 → ℝ |
        (reflectedIndicesToBits m [(pamClosest (2 ^ m) δ (transmitReal N (pam (2 ^ m) δ i) z 0)).toNat])[k]? ≠ (reflectedIndicesToBits m [i.val])[k]?} := fun k => by
      have : Measurable fun z : Fin 1 → ℝ => (pamClosest (2 ^ m) δ (transmitReal N (pam (2 ^ m) δ i) z 0)).toNat :=
        (Measurable.of_discrete (f := Int.toNat)).comp ((measurable_pamClosest (2 ^ m) δ).comp ((measurable_pi_apply 0).comp (measurable_transmitReal N _)))
      exact this (MeasurableSet.of_discrete (s := {j | (reflectedIndicesToBits m [j])[k]? ≠ (reflectedIndicesToBits m [i.val])[k]?}))
    rw [integral_div, div_eq_inv_mul, one_div]
    congr 1
    simp only [fun z : Fin 1 → ℝ => wordDist_sum m _ _ (gray_length m (pamClosest (2 ^ m) δ (transmitReal N (pam (2 ^ m) δ i) z 0)).toNat) (gray_length m i.val)]
    rw [integral_finsetSum]
    · refine Finset.sum_congr rfl fun k _ => ?_
      rw [← integral_indicator_one (hms k)]
      refine integral_congr_ae (Eventually.of_forall fun z => ?_)
      simp only [indicator_apply, mem_setOf_eq, Pi.one_apply]
    · intro k _
      refine ((integrable_const (1 : ℝ)).indicator (hms k)).congr (Eventually.of_forall fun z => ?_)
      simp only [indicator_apply, mem_setOf_eq]
  simp only [e1]
  rw [Finset.sum_congr rfl fun k hk => (C133_pam_bit m k (Finset.mem_range.mp hk) δ hδ N hN).symm, Finset.sum_comm, Finset.mul_sum]
  refine Finset.sum_congr rfl fun i _ => ?_
  rw [← Finset.mul_sum]
  ring

/-! ### QAM -/

/-- The two coordinates of the decision are independent, each with the law of a PAM decision with half the noise power, whatever the phase offset. -/
theorem qam_box_law (Mi Mq : Nat) (δi δq φ : ℝ) (N : ℝ) (k : Fin (Mi * Mq)) (A B : Set ℤ) :
    (stdNormalPairs (Fin 1)).real {z | pamClosest Mi δi (transmitComplex N (qam Mi Mq δi δq φ k) z 0 * phase (-φ)).re ∈ A ∧
        pamClosest Mq δq (transmitComplex N (qam Mi Mq δi δq φ k) z 0 * phase (-φ)).im ∈ B} =
      (gaussianReal 0 1).real {u : ℝ | pamClosest Mi δi (pamPoint Mi δi (k.val / Mq) + √(N / 2) * u) ∈ A} *
        (gaussianReal 0 1).real {u : ℝ | pamClosest Mq δq (pamPoint Mq δq (k.val % Mq) + √(N / 2) * u) ∈ B} := by
  set a : ℝ := pamPoint Mi δi (k.val / Mq) with ha
  set b : ℝ := pamPoint Mq δq (k.val % Mq) with hb
  set S : Set ℂ := {w | pamClosest Mi δi (a + √(N / 2) * w.re) ∈ A ∧ pamClosest Mq δq (b + √(N / 2) * w.im) ∈ B} with hS
  have hSm : MeasurableSet S := by
    have m1 : Measurable fun w : ℂ => pamClosest Mi δi (a + √(N / 2) * w.re) := (measurable_pamClosest Mi δi).comp (by fun_prop)
    have m2 : Measurable fun w : ℂ => pamClosest Mq δq (b + √(N / 2) * w.im) := (measurable_pamClosest Mq δq).comp (by fun_prop)
    exact (m1 (MeasurableSet.of_discrete (s := A))).inter (m2 (MeasurableSet.of_discrete (s := B)))
  have hev : MeasurePreserving (fun z : Fin 1 → Fin 2 → ℝ => z 0) (stdNormalPairs (Fin 1)) (stdNormals (Fin 2)) :=
    measurePreserving_eval (fun _ : Fin 1 => stdNormals (Fin 2)) 0
  have hm1 : Measurable fun z : Fin 2 → ℝ => ((z 0 : ℂ) + z 1 * Complex.I) * Complex.exp (((2 * Real.pi * (-φ) : ℝ) : ℂ) * Complex.I) := by fun_prop
  have hm2 : Measurable fun z : Fin 2 → ℝ => (z 0 : ℂ) + z 1 * Complex.I := by fun_prop
  have hstep : {z | pamClosest Mi δi (transmitComplex N (qam Mi Mq δi δq φ k) z 0 * phase (-φ)).re ∈ A ∧
        pamClosest Mq δq (transmitComplex N (qam Mi Mq δi δq φ k) z 0 * phase (-φ)).im ∈ B} =
      (fun z : Fin 1 → Fin 2 → ℝ => z 0) ⁻¹' ((fun z : Fin 2 → ℝ => ((z 0 : ℂ) + z 1 * Complex.I) * Complex.exp (((2 * Real.pi * (-φ) : ℝ) : ℂ) * Complex.I)) ⁻¹' S) := by
    ext z
    simp only [mem_setOf_eq, mem_preimage, hS]
    have e : transmitComplex N (qam Mi Mq δi δq φ k) z 0 * phase (-φ) =
        ((a : ℂ) + Complex.I * b) + (√(N / 2) : ℝ) * (((z 0 0 : ℂ) + z 0 1 * Complex.I) * Complex.exp (((2 * Real.pi * (-φ) : ℝ) : ℂ) * Complex.I)) := by
      simp only [transmitComplex, normal, qam, ← ha, ← hb, ← phase_eq, zero_add]
      rw [add_mul, mul_assoc, phase_mul_neg, mul_one]
      push_cast
      ring
    rw [e]
    simp only [Complex.add_re, Complex.add_im, Complex.re_ofReal_mul, Complex.im_ofReal_mul, Complex.ofReal_re, Complex.ofReal_im, Complex.mul_re, Complex.mul_im,
      Complex.I_re, Complex.I_im, zero_mul, one_mul, mul_zero, sub_zero, add_zero, zero_add]
  have hbox : (fun z : Fin 2 → ℝ => (z 0 : ℂ) + z 1 * Complex.I) ⁻¹' S =
      Set.pi univ (fun l : Fin 2 => (![{u : ℝ | pamClosest Mi δi (a + √(N / 2) * u) ∈ A}, {u : ℝ | pamClosest Mq δq (b + √(N / 2) * u) ∈ B}] : Fin 2 → Set ℝ) l) := by
    ext z
    simp only [mem_preimage, hS, mem_setOf_eq, Set.mem_univ_pi, Fin.forall_fin_two, Matrix.cons_val_zero, Matrix.cons_val_one]
    have er : ((z 0 : ℂ) + z 1 * Complex.I).re = z 0 := by simp
    have ei : ((z 0 : ℂ) + z 1 * Complex.I).im = z 1 := by simp
    rw [er, ei]
  rw [hstep, measureReal_def, hev.measure_preimage (hm1 hSm).nullMeasurableSet, ← Measure.map_apply hm1 hSm, rotate_law, Measure.map_apply hm2 hSm, hbox,
    Measure.pi_pi, Fin.prod_univ_two, ENNReal.toReal_mul]
  rfl

/-- The row of the reflected rectangular labeling with index `2^mq i + q`. -/
theorem rectangular_row (mi mq : Nat) (hi : 1 ≤ mi) (hq : 1 ≤ mq) (L : Lab) (hL : rectangularLab mi mq = some L) (i q : Nat) (h1 : i < 2 ^ mi) (h2 : q < 2 ^ mq) :
    L.matrix.getD (2 ^ mq * i + q) [] = reflectedIndicesToBits mi [i] ++ reflectedIndicesToBits mq [q] := by
  obtain ⟨A, hA1, hA2, hA3, hA4, hA5⟩ := C38_reflected_matrix mi hi
  obtain ⟨B, hB1, hB2, hB3, hB4, hB5⟩ := C38_reflected_matrix mq hq
  have hAl := table_length _ _ hA4
  have hBl := table_length _ _ hB4
  obtain ⟨P', g1, g2⟩ := C39_product_order A B i q (by rw [hAl]; exact h1) (by rw [hBl]; exact h2)
  unfold rectangularLab at hL
  rw [if_neg (by rw [not_not]; exact ⟨hi, hq⟩), hA1, hB1] at hL
  simp only [g1, Option.map_some, Option.some_inj] at hL
  subst hL
  rw [List.getD_eq_getElem?_getD, Nat.mul_comm, ← hBl]
  simp only
  rw [g2]
  have e1 := hA5 i h1
  have e2 := hB5 q h2
  rw [List.getElem?_eq_getElem (by rw [hAl]; exact h1), Option.some_inj] at e1
  rw [List.getElem?_eq_getElem (by rw [hBl]; exact h2), Option.some_inj] at e2
  rw [e1, e2]
  rfl

/-- The error rate of bit `k` of QAM with `ReflectedRectangularLabeling((mi, mq))` over the complex Gaussian channel: the first `mi` bits have the rates of a PAM with step `δi`, the
others those of a PAM with step `δq`, each with half the noise power, whatever the phase offset. -/
theorem C133_qam_bit (mi mq : Nat) (hi : 1 ≤ mi) (hq : 1 ≤ mq) (L : Lab) (hL : rectangularLab mi mq = some L) (k : Nat) (hk : k < mi + mq)
    (δi δq φ : ℝ) (hδi : 0 < δi) (hδq : 0 < δq) (N : ℝ) (hN : 0 < N) :
    ∑ x : Fin (2 ^ mi * 2 ^ mq), 1 / (2 : ℝ) ^ (mi + mq) * (stdNormalPairs (Fin 1)).real {z |
      (L.matrix.getD (qamClosest (2 ^ mi) (2 ^ mq) δi δq φ (transmitComplex N (qam (2 ^ mi) (2 ^ mq) δi δq φ x) z 0)).toNat [])[k]? ≠ (L.matrix.getD x.val [])[k]?} =
    if k < mi then grayBitErrorRate mi k (δi / √(2 * N)) else grayBitErrorRate mq (k - mi) (δq / √(2 * N)) := by
  have hs2 : √(2 * N) = 2 * √(N / 2) := by
    rw [show 2 * N = 2 ^ 2 * (N / 2) by ring, Real.sqrt_mul (by norm_num), Real.sqrt_sq (by norm_num)]
  have row : ∀ (a b : ℤ) (x : Fin (2 ^ mi * 2 ^ mq)), 0 ≤ a → a < (2 ^ mi : Nat) → 0 ≤ b → b < (2 ^ mq : Nat) →
      ((L.matrix.getD (((2 ^ mq : Nat) : ℤ) * a + b).toNat [])[k]? ≠ (L.matrix.getD x.val [])[k]? ↔
        if k < mi then (reflectedIndicesToBits mi [a.toNat])[k]? ≠ (reflectedIndicesToBits mi [x.val / 2 ^ mq])[k]?
        else (reflectedIndicesToBits mq [b.toNat])[k - mi]? ≠ (reflectedIndicesToBits mq [x.val % 2 ^ mq])[k - mi]?) := by
    intro a b x ha0 ha1 hb0 hb1
    have hx : x.val / 2 ^ mq < 2 ^ mi := Nat.div_lt_of_lt_mul (lt_of_lt_of_eq x.isLt (Nat.mul_comm _ _))
    have hx2 := rectangular_row mi mq hi hq L hL (x.val / 2 ^ mq) (x.val % 2 ^ mq) hx (Nat.mod_lt _ (by positivity))
    rw [Nat.div_add_mod] at hx2
    obtain ⟨a, rfl⟩ := Int.eq_ofNat_of_zero_le ha0
    obtain ⟨b, rfl⟩ := Int.eq_ofNat_of_zero_le hb0
    have hab := rectangular_row mi mq hi hq L hL a b (by exact_mod_cast ha1) (by exact_mod_cast hb1)
    rw [show (((2 ^ mq : Nat) : ℤ) * (a : ℤ) + (b : ℤ)).toNat = 2 ^ mq * a + b by
      rw [show ((2 ^ mq : Nat) : ℤ) * (a : ℤ) + (b : ℤ) = ((2 ^ mq * a + b : Nat) : ℤ) by push_cast; ring, Int.toNat_natCast], hx2, hab, Int.toNat_natCast, Int.toNat_natCast]
    by_cases hc : k < mi
    · rw [if_pos hc, List.getElem?_append_left (by rw [gray_length]; exact hc), List.getElem?_append_left (by rw [gray_length]; exact hc)]
    · rw [if_neg hc, List.getElem?_append_right (by rw [gray_length]; omega), List.getElem?_append_right (by rw [gray_length]; omega), gray_length, gray_length]
  have rng : ∀ (m : Nat) (δ y : ℝ), 0 ≤ pamClosest (2 ^ m) δ y ∧ pamClosest (2 ^ m) δ y < (2 ^ m : Nat) := fun m δ y => npClip_range _ (by positivity)
  by_cases hc : k < mi
  · have e1 : ∀ x : Fin (2 ^ mi * 2 ^ mq), (stdNormalPairs (Fin 1)).real {z |
        (L.matrix.getD (qamClosest (2 ^ mi) (2 ^ mq) δi δq φ (transmitComplex N (qam (2 ^ mi) (2 ^ mq) δi δq φ x) z 0)).toNat [])[k]? ≠ (L.matrix.getD x.val [])[k]?} =
        (gaussianReal 0 1).real {u : ℝ | (reflectedIndicesToBits mi [(pamClosest (2 ^ mi) δi (pamPoint (2 ^ mi) δi (x.val / 2 ^ mq) + √(N / 2) * u)).toNat])[k]? ≠
          (reflectedIndicesToBits mi [x.val / 2 ^ mq])[k]?} := by
      intro x
      have h := qam_box_law (2 ^ mi) (2 ^ mq) δi δq φ N x {a | (reflectedIndicesToBits mi [a.toNat])[k]? ≠ (reflectedIndicesToBits mi [x.val / 2 ^ mq])[k]?} univ
      simp only [mem_univ, and_true, setOf_true, probReal_univ, mul_one] at h
      refine Eq.trans ?_ h
      congr 1
      ext z
      rw [mem_setOf_eq, mem_setOf_eq, qamClosest_eq, row _ _ x (rng _ _ _).1 (rng _ _ _).2 (rng _ _ _).1 (rng _ _ _).2, if_pos hc]
      rfl
    have hf := sum_flat (2 ^ mi) (2 ^ mq) fun i _ => 1 / (2 : ℝ) ^ (mi + mq) * (gaussianReal 0 1).real {u : ℝ |
      (reflectedIndicesToBits mi [(pamClosest (2 ^ mi) δi (pamPoint (2 ^ mi) δi i + √(N / 2) * u)).toNat])[k]? ≠ (reflectedIndicesToBits mi [i])[k]?}
    have key := gray_bit_sum mi k hc δi hδi (N / 2) (by positivity)
    simp only [e1]
    rw [hf, if_pos hc, hs2]
    simp only [Finset.sum_const, Finset.card_univ, Fintype.card_fin, nsmul_eq_mul]
    rw [Fin.sum_univ_eq_sum_range (fun i => ((2 ^ mq : Nat) : ℝ) * (1 / (2 : ℝ) ^ (mi + mq) * (gaussianReal 0 1).real {u : ℝ |
      (reflectedIndicesToBits mi [(pamClosest (2 ^ mi) δi (pamPoint (2 ^ mi) δi i + √(N / 2) * u)).toNat])[k]? ≠ (reflectedIndicesToBits mi [i])[k]?})) (2 ^ mi),
      ← Finset.mul_sum, ← Finset.mul_sum, key, pow_add]
    push_cast
    field_simp
  · have e1 : ∀ x : Fin (2 ^ mi * 2 ^ mq), (stdNormalPairs (Fin 1)).real {z |
        (L.matrix.getD (qamClosest (2 ^ mi) (2 ^ mq) δi δq φ (transmitComplex N (qam (2 ^ mi) (2 ^ mq) δi δq φ x) z 0)).toNat [])[k]? ≠ (L.matrix.getD x.val [])[k]?} =
        (gaussianReal 0 1).real {u : ℝ | (reflectedIndicesToBits mq [(pamClosest (2 ^ mq) δq (pamPoint (2 ^ mq) δq (x.val % 2 ^ mq) + √(N / 2) * u)).toNat])[k - mi]? ≠
          (reflectedIndicesToBits mq [x.val % 2 ^ mq])[k - mi]?} := by
      intro x
      have h := qam_box_law (2 ^ mi) (2 ^ mq) δi δq φ N x univ {b | (reflectedIndicesToBits mq [b.toNat])[k - mi]? ≠ (reflectedIndicesToBits mq [x.val % 2 ^ mq])[k - mi]?}
      simp only [mem_univ, true_and, setOf_true, probReal_univ, one_mul] at h
      refine Eq.trans ?_ h
      congr 1
      ext z
      rw [mem_setOf_eq, mem_setOf_eq, qamClosest_eq, row _ _ x (rng _ _ _).1 (rng _ _ _).2 (rng _ _ _).1 (rng _ _ _).2, if_neg hc]
      rfl
    have hf := sum_flat (2 ^ mi) (2 ^ mq) fun _ q => 1 / (2 : ℝ) ^ (mi + mq) * (gaussianReal 0 1).real {u : ℝ |
      (reflectedIndicesToBits mq [(pamClosest (2 ^ mq) δq (pamPoint (2 ^ mq) δq q + √(N / 2) * u)).toNat])[k - mi]? ≠ (reflectedIndicesToBits mq [q])[k - mi]?}
    have key := gray_bit_sum mq (k - mi) (by omega) δq hδq (N / 2) (by positivity)
    simp only [e1]
    rw [hf, if_neg hc, hs2]
    simp only [Finset.sum_const, Finset.card_univ, Fintype.card_fin, nsmul_eq_mul]
    rw [Fin.sum_univ_eq_sum_range (fun q => 1 / (2 : ℝ) ^ (mi + mq) * (gaussianReal 0 1).real {u : ℝ |
      (reflectedIndicesToBits mq [(pamClosest (2 ^ mq) δq (pamPoint (2 ^ mq) δq q + √(N / 2) * u)).toNat])[k - mi]? ≠ (reflectedIndicesToBits mq [q])[k - mi]?}) (2 ^ mq),
      ← Finset.mul_sum, key, pow_add]
    push_cast
    field_simp

/-! ### The known special cases -/

/-- One bit: `Q(x)`. -/
theorem C133_rate_1 (x : ℝ) : grayBitErrorRate 1 0 x = gaussianQ x := by
  simp [grayBitErrorRate, Finset.sum_range_succ]

/-- Two bits: `(Q(x) + Q(3x)) / 2` and `(2 Q(x) + Q(3x) - Q(5x)) / 2`. -/
theorem C133_rate_2 (x : ℝ) : grayBitErrorRate 2 0 x = (gaussianQ x + gaussianQ (3 * x)) / 2 ∧
    grayBitErrorRate 2 1 x = (2 * gaussianQ x + gaussianQ (3 * x) - gaussianQ (5 * x)) / 2 := by
  constructor
  · simp [grayBitErrorRate, Finset.sum_range_succ]
    norm_num
    ring
  · simp [grayBitErrorRate, Finset.sum_range_succ]
    norm_num
    ring

/-! ### QPSK -/

theorem psk4_dist (A φ : ℝ) (r : Fin 1 → ℂ) :
    sqDist (psk 4 A φ) r 0 + sqDist (psk 4 A φ) r 2 = sqDist (psk 4 A φ) r 1 + sqDist (psk 4 A φ) r 3 := by
  have e : ∀ k : Fin 4, Complex.exp (2 * Real.pi * Complex.I * (k.val : ℂ) / ((4 : Nat) : ℂ)) = Complex.I ^ k.val := fun k => by
    rw [show 2 * (Real.pi : ℂ) * Complex.I * (k.val : ℂ) / ((4 : Nat) : ℂ) = k.val * (Real.pi / 2 * Complex.I) by push_cast; ring, Complex.exp_nat_mul, Complex.exp_pi_div_two_mul_I]
  have p : ∀ k : Fin 4, psk 4 A φ k 0 = Complex.I ^ k.val * ((A : ℂ) * phase φ) := fun k => by
    rw [psk, e]; ring
  simp only [sqDist, Finset.univ_unique, Finset.sum_singleton, Fin.default_eq_zero, p]
  generalize (A : ℂ) * phase φ = w
  have h2 : Complex.I ^ (2 : Fin 4).val * w = -w := by
    show Complex.I ^ 2 * w = -w
    rw [Complex.I_sq]; ring
  have h3 : Complex.I ^ (3 : Fin 4).val * w = -(Complex.I * w) := by
    show Complex.I ^ 3 * w = _
    rw [Complex.I_pow_three]; ring
  have h0 : Complex.I ^ (0 : Fin 4).val * w = w := by
    show Complex.I ^ 0 * w = w
    simp
  have h1 : Complex.I ^ (1 : Fin 4).val * w = Complex.I * w := by
    show Complex.I ^ 1 * w = _
    simp
  rw [h0, h1, h2, h3, sub_neg_eq_add, sub_neg_eq_add]
  have a1 := parallelogram_law_with_norm ℝ (r 0) w
  have a2 := parallelogram_law_with_norm ℝ (r 0) (Complex.I * w)
  have a3 : ‖Complex.I * w‖ = ‖w‖ := by simp
  rw [a3] at a2
  nlinarith

/-- Which of the four points gets the other value of bit `k` and lies next to point `i`. -/
def qpskPartner (k : Nat) (i : Fin 4) : Fin 4 := if k = 0 then 3 - i else if i = 0 then 1 else if i = 1 then 0 else if i = 2 then 3 else 2

theorem qpsk_bits (k : Nat) (hk : k < 2) (i j : Fin 4) : (reflectedIndicesToBits 2 [j.val])[k]? ≠ (reflectedIndicesToBits 2 [i.val])[k]? ↔
    j = qpskPartner k i ∨ j = i + 2 := by
  obtain rfl | rfl : k = 0 ∨ k = 1 := by omega
  · revert i j; decide +kernel
  · revert i j; decide +kernel

/-- QPSK: each of the two bits of `PSKConstellation(4, A, φ)` with `ReflectedLabeling(2)` errs with probability `Q(A / sqrt(N))`, whatever point is sent. -/
theorem C133_qpsk (k : Nat) (hk : k < 2) (A φ : ℝ) (hA : 0 < A) (N : ℝ) (hN : 0 < N) (i : Fin 4) :
    (stdNormalPairs (Fin 1)).real {z | (reflectedIndicesToBits 2 [(pskClosest 4 φ (transmitComplex N (psk 4 A φ i) z 0)).toNat])[k]? ≠ (reflectedIndicesToBits 2 [i.val])[k]?} =
      gaussianQ (A / √N) := by
  choose g hg1 hg2 using fun r : Fin 1 → ℂ => C75_psk 4 (by omega) A φ hA.le (r 0)
  have hconst : ∀ r : Fin 1 → ℂ, r = fun _ => r 0 := fun r => funext fun j => by rw [Subsingleton.elim j 0]
  have hdist : pointDist (psk 4 A φ) i (qpskPartner k i) = pskMinimumDistance 4 A := by
    obtain ⟨d1, d2⟩ := psk_neighbour_dist 4 (by norm_num) A φ hA.le i
    have hp : qpskPartner k i = nextPoint i ∨ qpskPartner k i = prevPoint i := by
      obtain rfl | rfl : k = 0 ∨ k = 1 := by omega
      · clear d1 d2; revert i; decide +kernel
      · clear d1 d2; revert i; decide +kernel
    rcases hp with h | h <;> rw [h] <;> assumption
  have hne : psk 4 A φ (qpskPartner k i) ≠ psk 4 A φ i := by
    intro h
    have := psk_injective 4 A φ hA.ne' _ _ (congrFun h 0)
    obtain rfl | rfl : k = 0 ∨ k = 1 := by omega
    · clear hdist h; revert i; decide +kernel
    · clear hdist h; revert i; decide +kernel
  have hq : pskMinimumDistance 4 A / √(2 * N) = A / √N := by
    rw [pskMinimumDistance, Nat.cast_ofNat, Real.sin_pi_div_four, Real.sqrt_mul (by norm_num)]
    have : √N ≠ 0 := (Real.sqrt_pos.mpr hN).ne'
    field_simp
  obtain ⟨p1, p2⟩ := C110_pairwise_complex (psk 4 A φ) N hN i (qpskPartner k i) hne
  rw [hdist, hq] at p1 p2
  have key : ∀ z, (sqDist (psk 4 A φ) (transmitComplex N (psk 4 A φ i) z) (qpskPartner k i) < sqDist (psk 4 A φ) (transmitComplex N (psk 4 A φ i) z) i →
        (reflectedIndicesToBits 2 [(pskClosest 4 φ (transmitComplex N (psk 4 A φ i) z 0)).toNat])[k]? ≠ (reflectedIndicesToBits 2 [i.val])[k]?) ∧
      ((reflectedIndicesToBits 2 [(pskClosest 4 φ (transmitComplex N (psk 4 A φ i) z 0)).toNat])[k]? ≠ (reflectedIndicesToBits 2 [i.val])[k]? →
        sqDist (psk 4 A φ) (transmitComplex N (psk 4 A φ i) z) (qpskPartner k i) ≤ sqDist (psk 4 A φ) (transmitComplex N (psk 4 A φ i) z) i) := by
    intro z
    generalize transmitComplex N (psk 4 A φ i) z = r
    have hn : ∀ c, sqDist (psk 4 A φ) r (g r) ≤ sqDist (psk 4 A φ) r c := by
      have := hg2 r
      rw [← hconst r] at this
      exact this
    have hpar := psk4_dist A φ r
    rw [hg1 r, Int.toNat_natCast, qpsk_bits k hk]
    generalize g r = c at hn
    generalize sqDist (psk 4 A φ) r = D at hn hpar
    have n0 := hn 0
    have n1 := hn 1
    have n2 := hn 2
    have n3 := hn 3
    clear hn
    obtain rfl | rfl : k = 0 ∨ k = 1 := by omega
    · clear hdist hne p1 p2
      fin_cases i <;> fin_cases c <;> simp [qpskPartner] at n0 n1 n2 n3 ⊢ <;> linarith
    · clear hdist hne p1 p2
      fin_cases i <;> fin_cases c <;> simp [qpskPartner] at n0 n1 n2 n3 ⊢ <;> linarith
  refine le_antisymm ?_ ?_
  · rw [← p1]
    exact measureReal_mono (fun z hz => (key z).2 hz) (measure_ne_top _ _)
  · rw [← p2]
    exact measureReal_mono (fun z hz => (key z).1 hz) (measure_ne_top _ _)

/-! ### Bit and symbol error rates -/

/-- The bit error rate of Gray-labelled PAM lies between the symbol error rate divided by the number of bits, and the symbol error rate. -/
theorem C133_pam_bounds (m : Nat) (hm : 1 ≤ m) (δ : ℝ) (hδ : 0 < δ) (N : ℝ) (hN : 0 < N) :
    1 / m * (2 * ((2 : ℝ) ^ m - 1) / 2 ^ m * gaussianQ (δ / (2 * √N))) ≤ 1 / m * ∑ k ∈ Finset.range m, grayBitErrorRate m k (δ / (2 * √N)) ∧
    1 / m * ∑ k ∈ Finset.range m, grayBitErrorRate m k (δ / (2 * √N)) ≤ 2 * ((2 : ℝ) ^ m - 1) / 2 ^ m * gaussianQ (δ / (2 * √N)) := by
  have hser := C104_pam_error (2 ^ m) (by positivity) δ hδ N hN
  push_cast at hser
  rw [← hser, ← C133_pam_ber m δ hδ N hN, Finset.mul_sum]
  have hm' : (1 : ℝ) ≤ m := by exact_mod_cast hm
  have hmeas : ∀ i : Fin (2 ^ m), Measurable fun z : Fin 1 → ℝ => pamClosest (2 ^ m) δ (transmitReal N (pam (2 ^ m) δ i) z 0) := fun i =>
    (measurable_pamClosest (2 ^ m) δ).comp ((measurable_pi_apply 0).comp (measurable_transmitReal N _))
  have hset : ∀ i : Fin (2 ^ m), MeasurableSet {z : Fin 1 → ℝ | pamClosest (2 ^ m) δ (transmitReal N (pam (2 ^ m) δ i) z 0) ≠ i.val} := fun i =>
    hmeas i (MeasurableSet.of_discrete (s := {j | j ≠ (i.val : ℤ)}))
  have hint : ∀ i : Fin (2 ^ m), Integrable (fun z : Fin 1 → ℝ => (wordDist (reflectedIndicesToBits m [(pamClosest (2 ^ m) δ (transmitReal N (pam (2 ^ m) δ i) z 0)).toNat])
        (reflectedIndicesToBits m [i.val]) : ℝ) / m) (stdNormals (Fin 1)) := fun i => by
    refine Integrable.of_bound (C := 1) ?_ (Eventually.of_forall fun z => ?_)
    · exact ((Measurable.of_discrete (f := fun j : ℤ => (wordDist (reflectedIndicesToBits m [j.toNat]) (reflectedIndicesToBits m [i.val]) : ℝ) / m)).comp (hmeas i)).aestronglyMeasurable
    · rw [Real.norm_of_nonneg (by positivity), div_le_one (by linarith)]
      exact_mod_cast (wordDist_le_length _ _).trans (gray_length m _).le
  have ptw : ∀ (i : Fin (2 ^ m)) (j : ℤ), 0 ≤ j → j < (2 ^ m : Nat) → j ≠ i.val → 1 ≤ wordDist (reflectedIndicesToBits m [j.toNat]) (reflectedIndicesToBits m [i.val]) := by
    intro i j h0 h1 hne
    by_contra hc
    have h := wordDist_eq_zero _ _ (by rw [gray_length, gray_length]) (by omega : wordDist (reflectedIndicesToBits m [j.toNat]) (reflectedIndicesToBits m [i.val]) = 0)
    have a1 := C38_reflected_bits_of_indices m hm [j.toNat] (by simp) (fun x hx => by rw [List.mem_singleton.mp hx]; omega)
    have a2 := C38_reflected_bits_of_indices m hm [i.val] (by simp) (by simp)
    rw [h, a2, Option.some_inj] at a1
    have := List.cons.inj a1
    omega
  have rng : ∀ y : ℝ, 0 ≤ pamClosest (2 ^ m) δ y ∧ pamClosest (2 ^ m) δ y < (2 ^ m : Nat) := fun y => npClip_range _ (by positivity)
  constructor
  · refine Finset.sum_le_sum fun i _ => ?_
    rw [← mul_assoc, mul_comm (1 / (m : ℝ)), mul_assoc]
    refine mul_le_mul_of_nonneg_left ?_ (by positivity)
    rw [← integral_indicator_one (hset i), ← integral_const_mul]
    refine integral_mono (((integrable_const (1 : ℝ)).indicator (hset i)).const_mul _) (hint i) fun z => ?_
    simp only [indicator_apply, mem_setOf_eq, Pi.one_apply]
    by_cases hc : pamClosest (2 ^ m) δ (transmitReal N (pam (2 ^ m) δ i) z 0) ≠ i.val
    · rw [if_pos hc, mul_one]
      refine div_le_div_of_nonneg_right ?_ (by linarith)
      exact_mod_cast ptw i _ (rng _).1 (rng _).2 hc
    · rw [if_neg hc, mul_zero]; positivity
  · refine Finset.sum_le_sum fun i _ => ?_
    refine mul_le_mul_of_nonneg_left ?_ (by positivity)
    rw [← integral_indicator_one (hset i)]
    refine integral_mono (hint i) ((integrable_const (1 : ℝ)).indicator (hset i)) fun z => ?_
    simp only [indicator_apply, mem_setOf_eq, Pi.one_apply]
    by_cases hc : pamClosest (2 ^ m) δ (transmitReal N (pam (2 ^ m) δ i) z 0) ≠ i.val
    · rw [if_pos hc, div_le_one (by linarith)]
      exact_mod_cast (wordDist_le_length _ _).trans (gray_length m _).le
    · rw [if_neg hc, not_not.mp hc, Int.toNat_natCast, wordDist_self]; simp

/-! ### Examples: 4-PAM and 16-QAM -/

example : ∑ i : Fin (2 ^ 2), 1 / (2 : ℝ) ^ 2 * (stdNormals (Fin 1)).real {z |
      (reflectedIndicesToBits 2 [(pamClosest (2 ^ 2) 2 (transmitReal 1 (pam (2 ^ 2) 2 i) z 0)).toNat])[1]? ≠ (reflectedIndicesToBits 2 [i.val])[1]?} =
    (2 * gaussianQ 1 + gaussianQ 3 - gaussianQ 5) / 2 := by
  rw [C133_pam_bit 2 1 (by norm_num) 2 (by norm_num) 1 (by norm_num), (C133_rate_2 _).2]
  norm_num

example : ∃ L, rectangularLab 2 2 = some L ∧ ∑ x : Fin (2 ^ 2 * 2 ^ 2), 1 / (2 : ℝ) ^ (2 + 2) * (stdNormalPairs (Fin 1)).real {z |
      (L.matrix.getD (qamClosest (2 ^ 2) (2 ^ 2) 2 2 (1 / 8) (transmitComplex 2 (qam (2 ^ 2) (2 ^ 2) 2 2 (1 / 8) x) z 0)).toNat [])[2]? ≠ (L.matrix.getD x.val [])[2]?} =
    (gaussianQ 1 + gaussianQ 3) / 2 := by
  obtain ⟨L, hL, -⟩ := C39_rectangular 2 2 (by norm_num) (by norm_num)
  refine ⟨L, hL, ?_⟩
  rw [C133_qam_bit 2 2 (by norm_num) (by norm_num) L hL 2 (by norm_num) 2 2 (1 / 8) (by norm_num) (by norm_num) 2 (by norm_num), if_neg (by norm_num), (C133_rate_2 _).1]
  have : √(2 * 2 : ℝ) = 2 := by rw [show (2 * 2 : ℝ) = 2 ^ 2 by norm_num, Real.sqrt_sq (by norm_num)]
  rw [this]
  norm_num

end Komm
