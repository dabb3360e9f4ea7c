import Verif.Props.C76_Formulas
import Verif.Props.C109_ConstellationArrays
/-! C156: constellations under similarities (gain, rotation, shift, change of coordinates), under reordering, and the bound on their minimum distance. -/
namespace Komm
open Constellation NDArray

variable {𝕜 𝕂 : Type} [RCLike 𝕜] [RCLike 𝕂] {M N N' : Nat}

/-- `T` multiplies all distances by `κ`: a gain, a rotation, a shift, a unitary mixing of the coordinates, the passage from complex
coordinates to real ones, and every combination of these. -/
def Similarity (κ : ℝ) (T : (Fin N → 𝕜) → Fin N' → 𝕂) : Prop :=
  ∀ x y, ∑ j, ‖T x j - T y j‖ ^ 2 = κ ^ 2 * ∑ j, ‖x j - y j‖ ^ 2

theorem Similarity.sqDist {κ : ℝ} {T : (Fin N → 𝕜) → Fin N' → 𝕂} (h : Similarity κ T) (m : Fin M → Fin N → 𝕜) (r : Fin N → 𝕜) (i : Fin M) :
    Constellation.sqDist (fun i => T (m i)) (T r) i = κ ^ 2 * Constellation.sqDist m r i := h r (m i)

/-- Gain, rotation and shift of every coordinate: `x ↦ a x + b`. -/
theorem similarity_affine (a : 𝕜) (b : Fin N → 𝕜) : Similarity ‖a‖ (fun (x : Fin N → 𝕜) j => a * x j + b j) := by
  intro x y
  rw [Finset.mul_sum]
  refine Finset.sum_congr rfl fun j _ => ?_
  rw [add_sub_add_right_eq_sub, ← mul_sub, norm_mul, mul_pow]

/-- Real and imaginary parts one after the other. -/
def realCoordinates (x : Fin N → ℂ) : Fin (N + N) → ℝ := Fin.append (fun j => (x j).re) fun j => (x j).im

theorem similarity_real : Similarity 1 (realCoordinates (N := N)) := by
  intro x y
  rw [Fin.sum_univ_add, ← Finset.sum_add_distrib, one_pow, one_mul]
  refine Finset.sum_congr rfl fun j _ => ?_
  simp only [realCoordinates, Fin.append_left, Fin.append_right, Real.norm_eq_abs, sq_abs]
  rw [Complex.sq_norm, Complex.normSq_apply, Complex.sub_re, Complex.sub_im]
  ring

theorem argminFin_congr (f g : Fin M → ℝ) (h : ∀ i k, f i ≤ f k ↔ g i ≤ g k) : argminFin f = argminFin g := by
  classical
  unfold argminFin
  congr 1
  funext i
  simp only [h]

/-- Decisions do not change, ties included, when constellation and received vector go through the same similarity. -/
theorem C156_closest (κ : ℝ) (hκ : κ ≠ 0) (T : (Fin N → 𝕜) → Fin N' → 𝕂) (h : Similarity κ T) (m : Fin M → Fin N → 𝕜) (r : Fin N → 𝕜) :
    closest (fun i => T (m i)) (T r) = closest m r := by
  unfold closest
  apply argminFin_congr
  intro i k
  rw [h.sqDist, h.sqDist]
  exact mul_le_mul_iff_right₀ (by positivity)

/-- The minimum distance is multiplied by `|κ|` (and stays infinite for a single point). -/
theorem C156_minimum_distance (κ : ℝ) (hκ : 0 ≤ κ) (T : (Fin N → 𝕜) → Fin N' → 𝕂) (h : Similarity κ T) (m : Fin M → Fin N → 𝕜) :
    minimumDistance (fun i => T (m i)) = (minimumDistance m).map (κ * ·) := by
  have hmono : Monotone fun x : WithTop ℝ => x.map (κ * ·) := by
    apply WithTop.monotone_map_iff.mpr
    intro x y hxy
    exact mul_le_mul_of_nonneg_left hxy hκ
  unfold minimumDistance
  rw [Finset.comp_inf_eq_inf_comp (fun x : WithTop ℝ => x.map (κ * ·)) (fun x y => hmono.map_min) rfl]
  refine Finset.inf_congr rfl fun i _ => ?_
  simp only [Function.comp_apply]
  rw [Finset.comp_inf_eq_inf_comp (fun x : WithTop ℝ => x.map (κ * ·)) (fun x y => hmono.map_min) rfl]
  refine Finset.inf_congr rfl fun k _ => ?_
  simp only [Function.comp_apply]
  split
  · rfl
  · rw [h, Real.sqrt_mul (sq_nonneg κ), Real.sqrt_sq hκ]
    rfl

/-- Posterior probabilities do not change when the noise power is scaled with the energy. -/
theorem C156_posteriors (κ : ℝ) (hκ : κ ≠ 0) (T : (Fin N → 𝕜) → Fin N' → 𝕂) (h : Similarity κ T) (m : Fin M → Fin N → 𝕜) (r : Fin N → 𝕜)
    (c c' : Bool) (n n' : ℝ) (hn : (if c' then n' else 2 * n') = κ ^ 2 * (if c then n else 2 * n)) (p : Fin M → ℝ) :
    posteriors c' (fun i => T (m i)) (T r) n' p = posteriors c m r n p := by
  unfold posteriors
  simp only [h.sqDist, hn]
  have e : ∀ x y : ℝ, -(κ ^ 2 * x) / (κ ^ 2 * y) = -x / y := fun x y => by
    rw [← mul_neg, mul_div_mul_left _ _ (pow_ne_zero 2 hκ)]
  simp only [e]

/-- A complex constellation is the real one of twice the dimension, with half the noise power. -/
theorem C156_complex_as_real (m : Fin M → Fin N → ℂ) (r : Fin N → ℂ) (n : ℝ) (p : Fin M → ℝ) :
    closest (fun i => realCoordinates (m i)) (realCoordinates r) = closest m r ∧
    minimumDistance (fun i => realCoordinates (m i)) = minimumDistance m ∧
    posteriors false (fun i => realCoordinates (m i)) (realCoordinates r) (n / 2) p = posteriors true m r n p := by
  refine ⟨C156_closest 1 one_ne_zero _ similarity_real m r, ?_, C156_posteriors 1 one_ne_zero _ similarity_real m r true false n _ (by simp; ring) p⟩
  rw [C156_minimum_distance 1 zero_le_one _ similarity_real]
  cases minimumDistance m with
  | top => rfl
  | coe x => simp

/-- Mean and mean energy of `a m + b`, for priors that add up to one. -/
theorem C156_mean (a : 𝕜) (b : Fin N → 𝕜) (m : Fin M → Fin N → 𝕜) (p : Fin M → ℝ) (hp : ∑ i, p i = 1) :
    mean (fun i j => a * m i j + b j) p = (fun j => a * mean m p j + b j) := by
  funext j
  have hp' : ∑ i, (p i : 𝕜) = 1 := by rw [← RCLike.ofReal_sum, hp, RCLike.ofReal_one]
  simp only [mean, mul_add, Finset.sum_add_distrib]
  rw [← Finset.sum_mul, hp', one_mul, Finset.mul_sum]
  congr 1
  exact Finset.sum_congr rfl fun i _ => by ring

theorem C156_energy_scale (a : 𝕜) (m : Fin M → Fin N → 𝕜) (p : Fin M → ℝ) :
    meanEnergy (fun i j => a * m i j) p = ‖a‖ ^ 2 * meanEnergy m p := by
  simp only [meanEnergy, norm_mul, mul_pow, ← Finset.mul_sum]
  rw [Finset.mul_sum]
  exact Finset.sum_congr rfl fun i _ => by ring

theorem norm_sub_sq_re (x y : 𝕜) : ‖x - y‖ ^ 2 = ‖x‖ ^ 2 - 2 * RCLike.re (x * (starRingEnd 𝕜) y) + ‖y‖ ^ 2 := by
  simp only [← RCLike.normSq_eq_def', RCLike.normSq_sub]
  ring

/-- Shifting the constellation: the mean energy about `b` is the least about the mean, where it is the energy minus that of the mean. -/
theorem C156_energy_shift (b : Fin N → 𝕜) (m : Fin M → Fin N → 𝕜) (p : Fin M → ℝ) (hp : ∑ i, p i = 1) :
    meanEnergy (fun i j => m i j - b j) p = meanEnergy m p - ∑ j, ‖mean m p j‖ ^ 2 + ∑ j, ‖mean m p j - b j‖ ^ 2 := by
  have e : ∀ j, ∑ i, p i * RCLike.re (m i j * (starRingEnd 𝕜) (b j)) = RCLike.re (mean m p j * (starRingEnd 𝕜) (b j)) := by
    intro j
    rw [mean, Finset.sum_mul, map_sum]
    exact Finset.sum_congr rfl fun i _ => by rw [mul_assoc, RCLike.re_ofReal_mul]
  have e2 : ∑ i, p i * ∑ j, RCLike.re (m i j * (starRingEnd 𝕜) (b j)) = ∑ j, RCLike.re (mean m p j * (starRingEnd 𝕜) (b j)) := by
    simp only [Finset.mul_sum]
    rw [Finset.sum_comm]
    exact Finset.sum_congr rfl fun j _ => e j
  simp only [meanEnergy, norm_sub_sq_re, Finset.sum_add_distrib, Finset.sum_sub_distrib, mul_add, mul_sub, ← Finset.mul_sum]
  rw [← Finset.sum_mul, hp, one_mul]
  have e3 : ∑ i, p i * (2 * ∑ j, RCLike.re (m i j * (starRingEnd 𝕜) (b j))) = 2 * ∑ j, RCLike.re (mean m p j * (starRingEnd 𝕜) (b j)) := by
    rw [← e2, Finset.mul_sum]
    exact Finset.sum_congr rfl fun i _ => by ring
  rw [e3]
  ring

/-- The centred constellation has the least energy of all shifts (and, by `C156_closest` and `C156_minimum_distance`, the same decisions
and distances). -/
theorem C156_centred (b : Fin N → 𝕜) (m : Fin M → Fin N → 𝕜) (p : Fin M → ℝ) (hp : ∑ i, p i = 1) :
    meanEnergy (fun i j => m i j - mean m p j) p ≤ meanEnergy (fun i j => m i j - b j) p := by
  rw [C156_energy_shift _ m p hp, C156_energy_shift b m p hp]
  have : ∑ j, ‖mean m p j - mean m p j‖ ^ 2 = 0 := by simp
  rw [this]
  have : 0 ≤ ∑ j, ‖mean m p j - b j‖ ^ 2 := Finset.sum_nonneg fun j _ => by positivity
  linarith

/-- The sum of all squared distances. -/
theorem pair_sum (m : Fin M → Fin N → 𝕜) (hM : 0 < M) :
    ∑ i, ∑ k, ∑ j, ‖m i j - m k j‖ ^ 2 = 2 * M ^ 2 * (meanEnergy m (uniformPriors (Fin M)) - ∑ j, ‖mean m (uniformPriors (Fin M)) j‖ ^ 2) := by
  have hM' : (M : ℝ) ≠ 0 := by exact_mod_cast hM.ne'
  have hp : ∑ i, uniformPriors (Fin M) i = 1 := by simp [uniformPriors, hM']
  have hE : ∀ f : Fin M → Fin N → 𝕜, ∑ i, ∑ j, ‖f i j‖ ^ 2 = M * meanEnergy f (uniformPriors (Fin M)) := by
    intro f
    simp only [meanEnergy, uniformPriors, Fintype.card_fin, ← Finset.mul_sum]
    field_simp
  have h1 : ∀ k, ∑ i, ∑ j, ‖m i j - m k j‖ ^ 2 =
      M * (meanEnergy m (uniformPriors (Fin M)) - ∑ j, ‖mean m (uniformPriors (Fin M)) j‖ ^ 2 + ∑ j, ‖m k j - mean m (uniformPriors (Fin M)) j‖ ^ 2) := by
    intro k
    rw [hE fun i j => m i j - m k j, C156_energy_shift _ m _ hp]
    simp only [norm_sub_rev]
  rw [Finset.sum_comm]
  simp only [h1, ← Finset.mul_sum, Finset.sum_add_distrib, Finset.sum_const, Finset.card_univ, Fintype.card_fin, nsmul_eq_mul]
  rw [hE fun i j => m i j - mean m (uniformPriors (Fin M)) j, C156_energy_shift _ m _ hp]
  simp
  ring

/-- No constellation of `M` points has a minimum distance above `√(2 M E / (M - 1))`, `E` its mean energy. -/
theorem C156_simplex_bound (m : Fin M → Fin N → 𝕜) (hM : 2 ≤ M) (d : ℝ) (hd0 : 0 ≤ d) (hd : minimumDistance m = (d : WithTop ℝ)) :
    d ^ 2 ≤ 2 * M / (M - 1) * meanEnergy m (uniformPriors (Fin M)) := by
  classical
  have hM' : (2 : ℝ) ≤ M := by exact_mod_cast hM
  have hpair : ∀ i k, (if i = k then 0 else d ^ 2) ≤ ∑ j, ‖m i j - m k j‖ ^ 2 := by
    intro i k
    split
    · exact Finset.sum_nonneg fun j _ => by positivity
    · rename_i hik
      have h1 : (d : WithTop ℝ) ≤ ((√ (∑ j, ‖m i j - m k j‖ ^ 2) : ℝ) : WithTop ℝ) := by
        rw [← hd, minimumDistance]
        refine (Finset.inf_le (Finset.mem_univ i)).trans ((Finset.inf_le (Finset.mem_univ k)).trans ?_)
        rw [if_neg hik]
      have h2 : d ≤ √ (∑ j, ‖m i j - m k j‖ ^ 2) := by exact_mod_cast h1
      calc d ^ 2 ≤ √ (∑ j, ‖m i j - m k j‖ ^ 2) ^ 2 := pow_le_pow_left₀ hd0 h2 2
        _ = _ := Real.sq_sqrt (Finset.sum_nonneg fun j _ => by positivity)
  have hsum : ∑ i : Fin M, ∑ k : Fin M, (if i = k then 0 else d ^ 2) = M * (M - 1) * d ^ 2 := by
    have : ∀ i : Fin M, ∑ k : Fin M, (if i = k then 0 else d ^ 2) = (M - 1) * d ^ 2 := by
      intro i
      have e : ∀ k : Fin M, (if i = k then (0 : ℝ) else d ^ 2) = d ^ 2 - if i = k then d ^ 2 else 0 := fun k => by split <;> ring
      simp only [e, Finset.sum_sub_distrib, Finset.sum_ite_eq, Finset.mem_univ, if_true, Finset.sum_const, Finset.card_univ, Fintype.card_fin, nsmul_eq_mul]
      ring
    simp only [this, Finset.sum_const, Finset.card_univ, Fintype.card_fin, nsmul_eq_mul]
    ring
  have h := Finset.sum_le_sum fun i (_ : i ∈ Finset.univ) => Finset.sum_le_sum fun k (_ : k ∈ Finset.univ) => hpair i k
  rw [hsum, pair_sum m (by omega)] at h
  have h0 : 0 ≤ ∑ j, ‖mean m (uniformPriors (Fin M)) j‖ ^ 2 := Finset.sum_nonneg fun j _ => by positivity
  rw [div_mul_eq_mul_div, le_div_iff₀ (by linarith)]
  have h2 : (M : ℝ) * (d ^ 2 * (M - 1)) ≤ M * (2 * M * meanEnergy m (uniformPriors (Fin M))) := by nlinarith
  exact le_of_mul_le_mul_left h2 (by linarith)

/-- `SimplexConstellation` attains the bound: it has the largest minimum distance of all constellations with its number of points and its
energy, whatever their dimension, real or complex. -/
theorem C156_simplex_optimal (hM : 2 ≤ M) (A : ℝ) (hA : 0 ≤ A) (m : Fin M → Fin N → 𝕜) (d : ℝ) (hd0 : 0 ≤ d) (hd : minimumDistance m = (d : WithTop ℝ))
    (hE : meanEnergy m (uniformPriors (Fin M)) ≤ meanEnergy (simplex M A) (uniformPriors (Fin M))) :
    minimumDistance m ≤ minimumDistance (simplex M A) := by
  have hM' : (2 : ℝ) ≤ M := by exact_mod_cast hM
  obtain ⟨-, h1, h2⟩ := C76_simplex M (by omega) A
  rw [h2 hM hA, hd, WithTop.coe_le_coe]
  have h3 := C156_simplex_bound m hM d hd0 hd
  rw [h1] at hE
  have h4 : 2 * M / (M - 1) * (A ^ 2 * ((M : ℝ) - 1) / M) = 2 * A ^ 2 := by
    have : (M : ℝ) - 1 ≠ 0 := by linarith
    field_simp
  have h5 : d ^ 2 ≤ 2 * A ^ 2 := by
    rw [← h4]
    exact h3.trans (mul_le_mul_of_nonneg_left hE (div_nonneg (by linarith) (by linarith)))
  apply abs_le_of_sq_le_sq' _ (by positivity) |>.2
  rw [mul_pow, Real.sq_sqrt (by norm_num)]
  linarith

/-- Reordering the points: `π i` is the old index of the new point `i`.  Distances and energies stay, posteriors are reordered, and so are
decisions without ties. -/
theorem C156_reorder (π : Equiv.Perm (Fin M)) (m : Fin M → Fin N → 𝕜) (r : Fin N → 𝕜) :
    minimumDistance (fun i => m (π i)) = minimumDistance m ∧
    (∀ p, meanEnergy (fun i => m (π i)) (fun i => p (π i)) = meanEnergy m p ∧ mean (fun i => m (π i)) (fun i => p (π i)) = mean m p) ∧
    (∀ c n p i, posteriors c (fun i => m (π i)) r n (fun i => p (π i)) i = posteriors c m r n p (π i)) ∧
    (∀ i, (∀ k, k ≠ π i → sqDist m r (π i) < sqDist m r k) → closest m r = some (π i) ∧ closest (fun i => m (π i)) r = some i) := by
  classical
  refine ⟨?_, fun p => ⟨?_, ?_⟩, fun c n p i => ?_, fun i hi => ?_⟩
  · unfold minimumDistance
    have h1 : ∀ f : Fin M → WithTop ℝ, (Finset.univ.inf fun i => f (π i)) = Finset.univ.inf f := by
      intro f
      apply le_antisymm
      · refine Finset.le_inf fun k _ => ?_
        have := Finset.inf_le (f := fun i => f (π i)) (Finset.mem_univ (π.symm k))
        rwa [Equiv.apply_symm_apply] at this
      · exact Finset.le_inf fun k _ => Finset.inf_le (Finset.mem_univ (π k))
    rw [← h1 fun i => Finset.univ.inf fun k => if i = k then (⊤ : WithTop ℝ) else ((√ (∑ j, ‖m i j - m k j‖ ^ 2) : ℝ) : WithTop ℝ)]
    refine Finset.inf_congr rfl fun i _ => ?_
    rw [← h1 fun k => if π i = k then (⊤ : WithTop ℝ) else ((√ (∑ j, ‖m (π i) j - m k j‖ ^ 2) : ℝ) : WithTop ℝ)]
    refine Finset.inf_congr rfl fun k _ => ?_
    simp only [EmbeddingLike.apply_eq_iff_eq]
  · exact Equiv.sum_comp π fun i => p i * ∑ j, ‖m i j‖ ^ 2
  · funext j
    exact Equiv.sum_comp π fun i => (p i : 𝕜) * m i j
  · have hs : ∀ f : Fin M → WithBot ℝ, (Finset.univ.sup fun i => f (π i)) = Finset.univ.sup f := by
      intro f
      apply le_antisymm
      · exact Finset.sup_le fun k _ => Finset.le_sup (Finset.mem_univ (π k))
      · refine Finset.sup_le fun k _ => ?_
        have := Finset.le_sup (f := fun i => f (π i)) (Finset.mem_univ (π.symm k))
        rwa [Equiv.apply_symm_apply] at this
    have hd : ∀ i, sqDist (fun i => m (π i)) r i = sqDist m r (π i) := fun _ => rfl
    unfold posteriors
    simp only [hd]
    generalize (if c then n else 2 * n) = v
    rw [hs fun i => if p i = 0 then ⊥ else ((- sqDist m r i / v + Real.log (p i) : ℝ) : WithBot ℝ)]
    generalize (Finset.univ.sup fun i => if p i = 0 then ⊥ else ((- sqDist m r i / v + Real.log (p i) : ℝ) : WithBot ℝ)).unbotD 0 = top
    exact congrArg₂ _ rfl (Equiv.sum_comp π fun i => @WithBot.recBotCoe ℝ (fun _ => ℝ) 0 (fun x => Real.exp (x - top))
      (if p i = 0 then (⊥ : WithBot ℝ) else ((- sqDist m r i / v + Real.log (p i) : ℝ) : WithBot ℝ)))
  · have hM := i.pos
    constructor
    · obtain ⟨k, h1, h2, -⟩ := argminFin_spec hM (sqDist m r)
      have : k = π i := by
        by_contra hne
        exact absurd (h2 (π i)) (not_le.mpr (hi k hne))
      rw [closest, h1, this]
    · obtain ⟨k, h1, h2, -⟩ := argminFin_spec hM (sqDist (fun i => m (π i)) r)
      have : k = i := by
        by_contra hne
        have h3 := hi (π k) (fun e => hne (π.injective e))
        exact absurd (h2 i) (not_le.mpr h3)
      rw [closest, h1, this]

/-- 4-PSK as a real constellation: four points of the plane; its minimum distance `√2` is below the bound `√(8/3)`, which the simplex with
the same energy attains. -/
example : minimumDistance (fun i => realCoordinates (psk 4 1 0 i)) = ((pskMinimumDistance 4 1 : ℝ) : WithTop ℝ) ∧
    meanEnergy (simplex 4 (2 / √3)) (uniformPriors (Fin 4)) = 1 ∧ minimumDistance (simplex 4 (2 / √3)) = ((2 / √3 * √2 : ℝ) : WithTop ℝ) := by
  have h3 : (√3 : ℝ) ^ 2 = 3 := Real.sq_sqrt (by norm_num)
  obtain ⟨-, h1, h2⟩ := C76_simplex 4 (by norm_num) (2 / √3)
  refine ⟨?_, ?_, h2 (by norm_num) (by positivity)⟩
  · rw [(C156_complex_as_real (psk 4 1 0) 0 1 (fun _ => 0)).2.1]
    exact (C76_psk 4 (by norm_num) 1 0).2.2 (by norm_num)
  · rw [h1, div_pow, h3]; norm_num

end Komm
