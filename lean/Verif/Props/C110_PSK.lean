import Verif.Props.C110_ErrorRates
import Verif.Props.C76_Formulas
/-! C110, PSK: the symbol error rate lies between `Q(x)` and `2 Q(x)` with `x = d / sqrt(2 N)`, `d = 2 A sin(π / M)` the minimum distance. -/
namespace Komm
open MeasureTheory ProbabilityTheory GaussianChannel Constellation Real

/-- The neighbours of a point on the circle. -/
def nextPoint {M : Nat} (i : Fin M) : Fin M := ⟨(i.val + 1) % M, Nat.mod_lt _ i.pos⟩
def prevPoint {M : Nat} (i : Fin M) : Fin M := ⟨(i.val + (M - 1)) % M, Nat.mod_lt _ i.pos⟩

theorem cos_round_strict (M : Nat) (hM : 0 < M) (ε : ℝ) (hε : |ε| < 1 / 2) (j : ℤ) (hj : ¬ (M : ℤ) ∣ j) : cos (2 * π * ((ε + j) / M)) < cos (2 * π * (ε / M)) := by
  have hM' : (0 : ℝ) < M := by exact_mod_cast hM
  set R := npRound ((ε + j) / M) with hR
  set y := (ε + j) / M - R with hy
  have hy2 : |y| ≤ 1 / 2 := npRound_spec _
  have e1 : cos (2 * π * ((ε + j) / M)) = cos |2 * π * y| := by
    rw [cos_abs, hy, show 2 * π * ((ε + j) / M - R) = 2 * π * ((ε + j) / M) - R * (2 * π) by ring, cos_sub_int_mul_two_pi]
  have e2 : cos (2 * π * (ε / M)) = cos |2 * π * (ε / M)| := (cos_abs _).symm
  rw [e1, e2]
  have hpi := pi_pos
  refine cos_lt_cos_of_nonneg_of_le_pi (abs_nonneg _) ?_ ?_
  · rw [abs_mul, abs_of_pos (by positivity : 0 < 2 * π)]
    nlinarith
  · rw [abs_mul, abs_mul (2 * π) y]
    refine mul_lt_mul_of_pos_left ?_ (by positivity)
    have hyM : y = (ε + ((j - M * R : ℤ) : ℝ)) / M := by rw [hy]; push_cast; field_simp; ring
    rw [hyM, abs_div, abs_div]
    refine div_lt_div_of_pos_right ?_ (by positivity)
    have h0 : j - (M : ℤ) * (R : ℤ) ≠ 0 := fun h => hj ⟨R, by omega⟩
    have h1 : (1 : ℝ) ≤ |((j - M * R : ℤ) : ℝ)| := by
      rw [← Int.cast_abs]; exact_mod_cast Int.one_le_abs h0
    have h2 := abs_sub_abs_le_abs_sub (((j - M * R : ℤ) : ℝ)) (-ε)
    rw [abs_neg, sub_neg_eq_add, add_comm _ ε] at h2
    linarith

theorem psk_sqDist (M : Nat) (hM : 0 < M) (A φ : ℝ) (r : ℂ) : ∀ k : Fin M, sqDist (psk M A φ) (fun _ => r) k =
    ‖r * phase (-φ)‖ ^ 2 + A ^ 2 - 2 * A * ‖r * phase (-φ)‖ * cos (2 * π * ((M * ((r * phase (-φ)).arg / (2 * π)) - k.val) / M)) := by
  intro k
  have hM' : (0 : ℝ) < M := by exact_mod_cast hM
  have hpi := pi_pos
  rw [sqDist, Finset.univ_unique, Finset.sum_singleton, psk_eq, norm_rotate, dist_polar]
  congr 3
  field_simp

theorem cos_shift (M : Nat) (hM : 0 < M) (t : ℝ) (a b : Nat) (h : (a : ℤ) % M = (b : ℤ) % M) : cos (2 * π * ((t - a) / M)) = cos (2 * π * ((t - b) / M)) := by
  have hM' : (M : ℝ) ≠ 0 := by exact_mod_cast hM.ne'
  obtain ⟨c, hc⟩ := (Int.ModEq.dvd (show (a : ℤ) ≡ b [ZMOD M] from h) : (M : ℤ) ∣ (b : ℤ) - a)
  have hc' : (b : ℝ) - a = M * c := by exact_mod_cast hc
  have : 2 * π * ((t - a) / M) = 2 * π * ((t - b) / M) + (c : ℝ) * (2 * π) := by
    field_simp
    linarith
  rw [this, cos_add_int_mul_two_pi]

/-- A received value for which the point `i` is not the only nearest one is at least as close to a neighbour of `i`. -/
theorem psk_neighbour (M : Nat) (A φ : ℝ) (hA : 0 ≤ A) (r : ℂ) (i k : Fin M) (hk : k ≠ i)
    (h : sqDist (psk M A φ) (fun _ => r) k ≤ sqDist (psk M A φ) (fun _ => r) i) :
    sqDist (psk M A φ) (fun _ => r) (nextPoint i) ≤ sqDist (psk M A φ) (fun _ => r) i ∨
    sqDist (psk M A φ) (fun _ => r) (prevPoint i) ≤ sqDist (psk M A φ) (fun _ => r) i := by
  have hM : 0 < M := i.pos
  have hM' : (0 : ℝ) < M := by exact_mod_cast hM
  have hM1 : (1 : ℝ) ≤ M := by exact_mod_cast hM
  have hpi := pi_pos
  simp only [psk_sqDist M hM A φ r] at h ⊢
  set ρ := ‖r * phase (-φ)‖ with hρ
  set t := (M : ℝ) * ((r * phase (-φ)).arg / (2 * π)) with ht
  have hc0 : 0 ≤ 2 * A * ρ := by positivity
  suffices hs : cos (2 * π * ((t - i.val) / M)) ≤ cos (2 * π * ((t - (nextPoint i).val) / M)) ∨
      cos (2 * π * ((t - i.val) / M)) ≤ cos (2 * π * ((t - (prevPoint i).val) / M)) ∨ 2 * A * ρ = 0 by
    rcases hs with h1 | h1 | h1
    · left; have := mul_le_mul_of_nonneg_left h1 hc0; linarith
    · right; have := mul_le_mul_of_nonneg_left h1 hc0; linarith
    · left; rw [h1]; simp
  have hnext : cos (2 * π * ((t - (nextPoint i).val) / M)) = cos (2 * π * ((t - ((i.val + 1 : Nat) : ℝ)) / M)) :=
    cos_shift M hM t _ _ (by simp [nextPoint])
  have hprev : cos (2 * π * ((t - (prevPoint i).val) / M)) = cos (2 * π * ((t - ((i.val + (M - 1) : Nat) : ℝ)) / M)) :=
    cos_shift M hM t _ _ (by simp only [prevPoint]; push_cast; simp)
  have hprev' : cos (2 * π * ((t - ((i.val + (M - 1) : Nat) : ℝ)) / M)) = cos (2 * π * ((t - i.val + 1) / M)) := by
    have : 2 * π * ((t - ((i.val + (M - 1) : Nat) : ℝ)) / M) = 2 * π * ((t - i.val + 1) / M) - ((1 : ℤ) : ℝ) * (2 * π) := by
      rw [Nat.cast_add, Nat.cast_sub hM]; push_cast; field_simp; ring
    rw [this, cos_sub_int_mul_two_pi]
  set R := npRound ((t - i.val) / M) with hR
  set y := (t - i.val) / M - R with hy
  have hy2 : |y| ≤ 1 / 2 := npRound_spec _
  have shift : ∀ s : ℝ, cos (2 * π * ((t - i.val + s) / M)) = cos |2 * π * (y + s / M)| := by
    intro s
    rw [cos_abs, hy, show 2 * π * ((t - i.val) / M - R + s / M) = 2 * π * ((t - i.val + s) / M) - R * (2 * π) by ring, cos_sub_int_mul_two_pi]
  have s0 := shift 0
  rw [add_zero, zero_div, add_zero] at s0
  by_cases hb : |M * y| < 1 / 2
  · right; right
    have hj : ¬ (M : ℤ) ∣ ((i.val : ℤ) - k.val) := by
      intro hd
      have h1 := i.isLt
      have h2 := k.isLt
      have h3 : ((i.val : ℤ) - k.val) = 0 := Int.eq_zero_of_abs_lt_dvd hd (by rw [abs_lt]; constructor <;> omega)
      exact hk (Fin.ext (by omega))
    have hlt := cos_round_strict M hM (M * y) hb ((i.val : ℤ) - k.val + M * R) (by
      intro hd
      exact hj ((Int.dvd_add_left (Dvd.intro R rfl)).mp hd))
    have e1 : ((M : ℝ) * y + (((i.val : ℤ) - k.val + M * R : ℤ) : ℝ)) / M = (t - k.val) / M := by rw [hy]; push_cast; field_simp; ring
    have e2 : 2 * π * ((M : ℝ) * y / M) = 2 * π * y := by field_simp
    rw [e1, e2] at hlt
    rw [s0, cos_abs] at h
    rcases hc0.lt_or_eq with hp | hp
    · have := mul_lt_mul_of_pos_left hlt hp; linarith
    · exact hp.symm
  · have hb' : 1 / 2 ≤ M * |y| := by rw [abs_mul, abs_of_pos hM'] at hb; linarith
    have hb2 : 1 / M ≤ 2 * |y| := by rw [div_le_iff₀ hM']; linarith
    rcases le_total 0 y with hy0 | hy0
    · left
      rw [abs_of_nonneg hy0] at hb2 hy2
      have e : t - ((i.val + 1 : Nat) : ℝ) = t - i.val + (-1) := by push_cast; ring
      rw [hnext, e, shift, s0]
      refine cos_le_cos_of_nonneg_of_le_pi (abs_nonneg _) ?_ ?_
      · rw [abs_mul, abs_of_pos (by positivity : 0 < 2 * π), abs_of_nonneg hy0]; nlinarith
      · rw [abs_mul (2 * π), abs_mul (2 * π)]
        refine mul_le_mul_of_nonneg_left ?_ (abs_nonneg (2 * π))
        have : 0 < 1 / (M : ℝ) := by positivity
        rw [abs_of_nonneg hy0, abs_le, neg_div]
        constructor <;> linarith
    · right; left
      rw [abs_of_nonpos hy0] at hb2 hy2
      rw [hprev, hprev', shift, s0]
      refine cos_le_cos_of_nonneg_of_le_pi (abs_nonneg _) ?_ ?_
      · rw [abs_mul, abs_of_pos (by positivity : 0 < 2 * π), abs_of_nonpos hy0]; nlinarith
      · rw [abs_mul (2 * π), abs_mul (2 * π)]
        refine mul_le_mul_of_nonneg_left ?_ (abs_nonneg (2 * π))
        have : 0 < 1 / (M : ℝ) := by positivity
        rw [abs_of_nonpos hy0, abs_le]
        constructor <;> linarith

theorem psk_neighbour_dist (M : Nat) (hM : 2 ≤ M) (A φ : ℝ) (hA : 0 ≤ A) (i : Fin M) :
    pointDist (psk M A φ) i (nextPoint i) = pskMinimumDistance M A ∧ pointDist (psk M A φ) i (prevPoint i) = pskMinimumDistance M A := by
  have hM' : (0 : ℝ) < M := by exact_mod_cast (by omega : 0 < M)
  have hM2 : (2 : ℝ) ≤ M := by exact_mod_cast hM
  have hpi := pi_pos
  have hs : 0 ≤ sin (π / M) := sin_nonneg_of_nonneg_of_le_pi (by positivity) (div_le_self hpi.le (by linarith))
  have key : ∀ k : Fin M, cos (2 * π * ((0 + ((i.val : ℤ) - k.val : ℤ)) / M)) = cos (2 * (π / M)) → pointDist (psk M A φ) i k = pskMinimumDistance M A := by
    intro k hk
    rw [pointDist, Finset.univ_unique, Finset.sum_singleton, psk_dist, hk, cos_two_mul, cos_sq', pskMinimumDistance]
    rw [show 2 * A ^ 2 * (1 - (2 * (1 - sin (π / M) ^ 2) - 1)) = (2 * A * sin (π / M)) ^ 2 by ring, sqrt_sq (by positivity)]
  constructor
  · apply key
    have := cos_shift M (by omega) i.val (nextPoint i).val (i.val + 1) (by simp [nextPoint])
    rw [zero_add]
    push_cast at this ⊢
    rw [this, ← cos_neg]
    congr 1; ring
  · apply key
    have := cos_shift M (by omega) i.val (prevPoint i).val (i.val + (M - 1)) (by simp only [prevPoint]; push_cast; simp)
    rw [zero_add]
    rw [Int.cast_sub, Int.cast_natCast, Int.cast_natCast, this, Nat.cast_add, Nat.cast_sub (by omega)]
    have e : 2 * π * (((i.val : ℝ) - (i.val + ((M : ℝ) - (1 : Nat)))) / M) = 2 * (π / M) - ((1 : ℤ) : ℝ) * (2 * π) := by push_cast; field_simp; ring
    rw [e, cos_sub_int_mul_two_pi]

/-- PSK: between `Q(x)` and `2 Q(x)`, with `x` the minimum distance over `sqrt(2 N)`, for every point sent. -/
theorem C110_psk (M : Nat) (hM : 2 ≤ M) (A φ : ℝ) (hA : 0 < A) (N : ℝ) (hN : 0 < N) (i : Fin M) :
    gaussianQ (pskMinimumDistance M A / √(2 * N)) ≤ (stdNormalPairs (Fin 1)).real {z | pskClosest M φ (transmitComplex N (psk M A φ i) z 0) ≠ i.val} ∧
    (stdNormalPairs (Fin 1)).real {z | pskClosest M φ (transmitComplex N (psk M A φ i) z 0) ≠ i.val} ≤ 2 * gaussianQ (pskMinimumDistance M A / √(2 * N)) := by
  have hinj : Function.Injective (psk M A φ) := fun a b h => psk_injective M A φ hA.ne' a b (congrFun h 0)
  choose g hg1 hg2 using fun r : Fin 1 → ℂ => C75_psk M (by omega) A φ hA.le (r 0)
  have hset : {z | pskClosest M φ (transmitComplex N (psk M A φ i) z 0) ≠ i.val} = {z | g (transmitComplex N (psk M A φ i) z) ≠ i} := by
    ext z
    simp only [Set.mem_setOf_eq, hg1]
    rw [not_iff_not, Fin.ext_iff]
    norm_cast
  have hconst : ∀ r : Fin 1 → ℂ, r = fun _ => r 0 := fun r => funext fun j => by rw [Subsingleton.elim j 0]
  have hne : nextPoint i ≠ i ∧ prevPoint i ≠ i := by
    have hi := i.isLt
    constructor
    · intro h
      have := congrArg Fin.val h
      simp only [nextPoint] at this
      rcases Nat.lt_or_ge (i.val + 1) M with h1 | h1
      · rw [Nat.mod_eq_of_lt h1] at this; omega
      · rw [show i.val + 1 = M by omega, Nat.mod_self] at this; omega
    · intro h
      have := congrArg Fin.val h
      simp only [prevPoint] at this
      rcases Nat.eq_zero_or_pos i.val with h1 | h1
      · rw [h1, Nat.zero_add, Nat.mod_eq_of_lt (by omega)] at this; omega
      · rw [show i.val + (M - 1) = (i.val - 1) + M by omega, Nat.add_mod_right, Nat.mod_eq_of_lt (by omega)] at this; omega
  obtain ⟨d1, d2⟩ := psk_neighbour_dist M hM A φ hA.le i
  rw [hset]
  constructor
  · rw [← d1]
    exact (C110_bounds_complex (psk M A φ) hinj N hN g (fun r => by have := hg2 r; rwa [← hconst r] at this) i).2 _ hne.1
  · have p1 := (C110_pairwise_complex (psk M A φ) N hN i (nextPoint i) fun h => hne.1 (hinj h)).1
    have p2 := (C110_pairwise_complex (psk M A φ) N hN i (prevPoint i) fun h => hne.2 (hinj h)).1
    rw [d1] at p1
    rw [d2] at p2
    calc _ ≤ (stdNormalPairs (Fin 1)).real
          ({z | sqDist (psk M A φ) (transmitComplex N (psk M A φ i) z) (nextPoint i) ≤ sqDist (psk M A φ) (transmitComplex N (psk M A φ i) z) i} ∪
           {z | sqDist (psk M A φ) (transmitComplex N (psk M A φ i) z) (prevPoint i) ≤ sqDist (psk M A φ) (transmitComplex N (psk M A φ i) z) i}) := by
          refine measureReal_mono ?_ (measure_ne_top _ _)
          intro z hz
          have hn := hg2 (transmitComplex N (psk M A φ i) z) i
          have := psk_neighbour M A φ hA.le _ i _ hz hn
          rw [← hconst] at this
          exact this
      _ ≤ _ := measureReal_union_le _ _
      _ = _ := by rw [p1, p2]; ring

end Komm
