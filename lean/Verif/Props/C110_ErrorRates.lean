import Verif.Lemmas.GaussianLinear
/-! C110: symbol error rates of the constellations over the Gaussian channel. -/
namespace Komm
open MeasureTheory ProbabilityTheory GaussianChannel Constellation Set

/-- Euclidean distance between two points of a constellation. -/
noncomputable def pointDist {𝕜 : Type} [RCLike 𝕜] {M n : Nat} (m : Fin M → Fin n → 𝕜) (i k : Fin M) : ℝ := √(∑ j, ‖m i j - m k j‖ ^ 2)

/-! ### The pairwise error -/

theorem toReal_sum_real {n : Nat} (c : Fin n → ℝ) : ((∑ j, (c j).nnabs ^ 2 : NNReal) : ℝ) = ∑ j, c j ^ 2 := by
  push_cast
  exact Finset.sum_congr rfl fun j _ => by simp

theorem closer_real {M n : Nat} (m : Fin M → Fin n → ℝ) (N : ℝ) (i k : Fin M) (z : Fin n → ℝ) :
    (sqDist m (transmitReal N (m i) z) k ≤ sqDist m (transmitReal N (m i) z) i ↔ pointDist m i k ^ 2 / 2 ≤ ∑ j, (√N * (m k j - m i j)) * z j) ∧
    (sqDist m (transmitReal N (m i) z) k < sqDist m (transmitReal N (m i) z) i ↔ pointDist m i k ^ 2 / 2 < ∑ j, (√N * (m k j - m i j)) * z j) := by
  have hd : pointDist m i k ^ 2 = ∑ j, (m k j - m i j) ^ 2 := by
    rw [pointDist, Real.sq_sqrt (Finset.sum_nonneg fun j _ => by positivity)]
    exact Finset.sum_congr rfl fun j _ => by rw [Real.norm_eq_abs, sq_abs]; ring
  have key : sqDist m (transmitReal N (m i) z) k - sqDist m (transmitReal N (m i) z) i =
      pointDist m i k ^ 2 - 2 * ∑ j, (√N * (m k j - m i j)) * z j := by
    rw [hd]
    simp only [sqDist, transmitReal, normal, Real.norm_eq_abs, sq_abs]
    rw [← Finset.sum_sub_distrib, Finset.mul_sum, ← Finset.sum_sub_distrib]
    exact Finset.sum_congr rfl fun j _ => by ring
  constructor <;> constructor <;> intro h <;> linarith

theorem ne_zero_of_dist {M n : Nat} {𝕜 : Type} [RCLike 𝕜] (m : Fin M → Fin n → 𝕜) (i k : Fin M) (h : m k ≠ m i) : 0 < pointDist m i k := by
  apply Real.sqrt_pos.mpr
  obtain ⟨j, hj⟩ := Function.ne_iff.mp h
  refine Finset.sum_pos' (fun j _ => by positivity) ⟨j, Finset.mem_univ _, ?_⟩
  have : 0 < ‖m i j - m k j‖ := norm_pos_iff.mpr (sub_ne_zero.mpr (Ne.symm hj))
  positivity

/-- The probability that the received block is at least as close to another point as to the one sent, with noise power `N` in each real coordinate. -/
theorem C110_pairwise_real {M n : Nat} (m : Fin M → Fin n → ℝ) (N : ℝ) (hN : 0 < N) (i k : Fin M) (h : m k ≠ m i) :
    (stdNormals (Fin n)).real {z | sqDist m (transmitReal N (m i) z) k ≤ sqDist m (transmitReal N (m i) z) i} = gaussianQ (pointDist m i k / (2 * √N)) ∧
    (stdNormals (Fin n)).real {z | sqDist m (transmitReal N (m i) z) k < sqDist m (transmitReal N (m i) z) i} = gaussianQ (pointDist m i k / (2 * √N)) := by
  have hd := ne_zero_of_dist m i k h
  have hs : 0 < √N := Real.sqrt_pos.mpr hN
  set c : Fin n → ℝ := fun j => √N * (m k j - m i j) with hc
  set v : NNReal := ∑ j, (c j).nnabs ^ 2 with hv
  have hvr : (v : ℝ) = (√N * pointDist m i k) ^ 2 := by
    rw [hv, toReal_sum_real, mul_pow, pointDist, Real.sq_sqrt (Finset.sum_nonneg fun j _ => by positivity), Finset.mul_sum]
    exact Finset.sum_congr rfl fun j _ => by rw [Real.norm_eq_abs, sq_abs]; simp only [hc]; ring
  have hv0 : v ≠ 0 := by
    intro h0
    have : (v : ℝ) = 0 := by rw [h0]; rfl
    rw [hvr] at this
    have : √N * pointDist m i k ≠ 0 := by positivity
    simp_all
  have hsv : √(v : ℝ) = √N * pointDist m i k := by rw [hvr, Real.sqrt_sq (by positivity)]
  have hm : Measurable fun z : Fin n → ℝ => ∑ j, c j * z j := by fun_prop
  have hq : pointDist m i k ^ 2 / 2 / √(v : ℝ) = pointDist m i k / (2 * √N) := by rw [hsv]; field_simp
  obtain ⟨t1, t2⟩ := gaussian_tail v hv0 (pointDist m i k ^ 2 / 2)
  rw [hq] at t1 t2
  rw [← lin_law c] at t1 t2
  rw [map_measureReal_apply hm measurableSet_Ici] at t1
  rw [map_measureReal_apply hm measurableSet_Ioi] at t2
  refine ⟨?_, ?_⟩
  · rw [← t1]
    congr 1
    ext z
    exact (closer_real m N i k z).1
  · rw [← t2]
    congr 1
    ext z
    exact (closer_real m N i k z).2

theorem closer_complex {M n : Nat} (m : Fin M → Fin n → ℂ) (N : ℝ) (i k : Fin M) (z : Fin n → Fin 2 → ℝ) :
    (sqDist m (transmitComplex N (m i) z) k ≤ sqDist m (transmitComplex N (m i) z) i ↔
      pointDist m i k ^ 2 / 2 ≤ ∑ j, ∑ l : Fin 2, (√(N / 2) * (![(m k j - m i j).re, (m k j - m i j).im] : Fin 2 → ℝ) l) * z j l) ∧
    (sqDist m (transmitComplex N (m i) z) k < sqDist m (transmitComplex N (m i) z) i ↔
      pointDist m i k ^ 2 / 2 < ∑ j, ∑ l : Fin 2, (√(N / 2) * (![(m k j - m i j).re, (m k j - m i j).im] : Fin 2 → ℝ) l) * z j l) := by
  have hd : pointDist m i k ^ 2 = ∑ j, ((m k j - m i j).re ^ 2 + (m k j - m i j).im ^ 2) := by
    rw [pointDist, Real.sq_sqrt (Finset.sum_nonneg fun j _ => by positivity)]
    refine Finset.sum_congr rfl fun j _ => ?_
    rw [← Complex.normSq_eq_norm_sq, Complex.normSq_apply]
    simp only [Complex.sub_re, Complex.sub_im]
    ring
  have key : sqDist m (transmitComplex N (m i) z) k - sqDist m (transmitComplex N (m i) z) i =
      pointDist m i k ^ 2 - 2 * ∑ j, ∑ l : Fin 2, (√(N / 2) * (![(m k j - m i j).re, (m k j - m i j).im] : Fin 2 → ℝ) l) * z j l := by
    rw [hd]
    simp only [sqDist, transmitComplex, normal, ← Complex.normSq_eq_norm_sq, Complex.normSq_apply]
    rw [← Finset.sum_sub_distrib, Finset.mul_sum, ← Finset.sum_sub_distrib]
    refine Finset.sum_congr rfl fun j _ => ?_
    simp [Fin.sum_univ_two]
    ring
  constructor <;> constructor <;> intro h <;> linarith

/-- The same for complex points, noise power `N` in each complex coordinate. -/
theorem C110_pairwise_complex {M n : Nat} (m : Fin M → Fin n → ℂ) (N : ℝ) (hN : 0 < N) (i k : Fin M) (h : m k ≠ m i) :
    (stdNormalPairs (Fin n)).real {z | sqDist m (transmitComplex N (m i) z) k ≤ sqDist m (transmitComplex N (m i) z) i} = gaussianQ (pointDist m i k / √(2 * N)) ∧
    (stdNormalPairs (Fin n)).real {z | sqDist m (transmitComplex N (m i) z) k < sqDist m (transmitComplex N (m i) z) i} = gaussianQ (pointDist m i k / √(2 * N)) := by
  have hd := ne_zero_of_dist m i k h
  have hs : 0 < √(N / 2) := Real.sqrt_pos.mpr (by positivity)
  have hs2 : √(2 * N) = 2 * √(N / 2) := by
    rw [show 2 * N = 2 ^ 2 * (N / 2) by ring, Real.sqrt_mul (by norm_num), Real.sqrt_sq (by norm_num)]
  set c : Fin n → Fin 2 → ℝ := fun j l => √(N / 2) * (![(m k j - m i j).re, (m k j - m i j).im] : Fin 2 → ℝ) l with hc
  set v : NNReal := ∑ j, ∑ l, (c j l).nnabs ^ 2 with hv
  have hvr : (v : ℝ) = (√(N / 2) * pointDist m i k) ^ 2 := by
    rw [hv, NNReal.coe_sum, mul_pow, pointDist, Real.sq_sqrt (Finset.sum_nonneg fun j _ => by positivity), Finset.mul_sum]
    refine Finset.sum_congr rfl fun j _ => ?_
    rw [toReal_sum_real, ← Complex.normSq_eq_norm_sq, Complex.normSq_apply]
    simp [hc, Fin.sum_univ_two]
    ring
  have hv0 : v ≠ 0 := by
    intro h0
    have : (v : ℝ) = 0 := by rw [h0]; rfl
    rw [hvr] at this
    have : √(N / 2) * pointDist m i k ≠ 0 := by positivity
    simp_all
  have hsv : √(v : ℝ) = √(N / 2) * pointDist m i k := by rw [hvr, Real.sqrt_sq (by positivity)]
  have hm : Measurable fun z : Fin n → Fin 2 → ℝ => ∑ j, ∑ l, c j l * z j l := by fun_prop
  have hq : pointDist m i k ^ 2 / 2 / √(v : ℝ) = pointDist m i k / √(2 * N) := by rw [hsv, hs2]; field_simp
  obtain ⟨t1, t2⟩ := gaussian_tail v hv0 (pointDist m i k ^ 2 / 2)
  rw [hq] at t1 t2
  rw [← lin_law_pairs c] at t1 t2
  rw [map_measureReal_apply hm measurableSet_Ici] at t1
  rw [map_measureReal_apply hm measurableSet_Ioi] at t2
  refine ⟨?_, ?_⟩
  · rw [← t1]
    congr 1
    ext z
    exact (closer_complex m N i k z).1
  · rw [← t2]
    congr 1
    ext z
    exact (closer_complex m N i k z).2

/-! ### Bounds for any nearest-point decision -/

theorem union_gen {Ω : Type} [MeasurableSpace Ω] (P : Measure Ω) [IsProbabilityMeasure P] {M : Nat} (D : Ω → Fin M) (i : Fin M) (E : Fin M → Set Ω)
    (h : ∀ ω, D ω ≠ i → ω ∈ E (D ω)) : P.real {ω | D ω ≠ i} ≤ ∑ k ∈ Finset.univ.erase i, P.real (E k) := by
  calc P.real {ω | D ω ≠ i} ≤ P.real (⋃ k ∈ Finset.univ.erase i, E k) := by
        refine measureReal_mono ?_ (measure_ne_top _ _)
        intro ω hω
        simp only [Finset.mem_erase, Finset.mem_univ, and_true, mem_iUnion]
        exact ⟨D ω, hω, h ω hω⟩
    _ ≤ _ := measureReal_biUnion_finset_le _ _

/-- Union bound and best single term, real coordinates: `g` is any rule that decides for a nearest point. -/
theorem C110_bounds_real {M n : Nat} (m : Fin M → Fin n → ℝ) (hm : Function.Injective m) (N : ℝ) (hN : 0 < N) (g : (Fin n → ℝ) → Fin M)
    (hg : ∀ r, Nearest m r (g r)) (i : Fin M) :
    (stdNormals (Fin n)).real {z | g (transmitReal N (m i) z) ≠ i} ≤ ∑ k ∈ Finset.univ.erase i, gaussianQ (pointDist m i k / (2 * √N)) ∧
    ∀ k, k ≠ i → gaussianQ (pointDist m i k / (2 * √N)) ≤ (stdNormals (Fin n)).real {z | g (transmitReal N (m i) z) ≠ i} := by
  constructor
  · refine (union_gen (stdNormals (Fin n)) (fun z => g (transmitReal N (m i) z)) i
      (fun k => {z | sqDist m (transmitReal N (m i) z) k ≤ sqDist m (transmitReal N (m i) z) i}) fun z _ => hg _ i).trans_eq ?_
    refine Finset.sum_congr rfl fun k hk => (C110_pairwise_real m N hN i k fun h => ?_).1
    exact (Finset.mem_erase.mp hk).1 (hm h)
  · intro k hk
    rw [← (C110_pairwise_real m N hN i k fun h => hk (hm h)).2]
    refine measureReal_mono ?_
    intro z hz hc
    have := hg (transmitReal N (m i) z) k
    rw [hc] at this
    exact absurd (show sqDist m (transmitReal N (m i) z) k < sqDist m (transmitReal N (m i) z) i from hz) (not_lt.mpr this)

/-- Union bound and best single term, complex coordinates. -/
theorem C110_bounds_complex {M n : Nat} (m : Fin M → Fin n → ℂ) (hm : Function.Injective m) (N : ℝ) (hN : 0 < N) (g : (Fin n → ℂ) → Fin M)
    (hg : ∀ r, Nearest m r (g r)) (i : Fin M) :
    (stdNormalPairs (Fin n)).real {z | g (transmitComplex N (m i) z) ≠ i} ≤ ∑ k ∈ Finset.univ.erase i, gaussianQ (pointDist m i k / √(2 * N)) ∧
    ∀ k, k ≠ i → gaussianQ (pointDist m i k / √(2 * N)) ≤ (stdNormalPairs (Fin n)).real {z | g (transmitComplex N (m i) z) ≠ i} := by
  constructor
  · refine (union_gen (stdNormalPairs (Fin n)) (fun z => g (transmitComplex N (m i) z)) i
      (fun k => {z | sqDist m (transmitComplex N (m i) z) k ≤ sqDist m (transmitComplex N (m i) z) i}) fun z _ => hg _ i).trans_eq ?_
    refine Finset.sum_congr rfl fun k hk => (C110_pairwise_complex m N hN i k fun h => ?_).1
    exact (Finset.mem_erase.mp hk).1 (hm h)
  · intro k hk
    rw [← (C110_pairwise_complex m N hN i k fun h => hk (hm h)).2]
    refine measureReal_mono ?_
    intro z hz hc
    have := hg (transmitComplex N (m i) z) k
    rw [hc] at this
    exact absurd (show sqDist m (transmitComplex N (m i) z) k < sqDist m (transmitComplex N (m i) z) i from hz) (not_lt.mpr this)

/-- In terms of the least distance `d`: at most `(M - 1) Q(d / (2 sqrt(N)))`. -/
theorem C110_distance_real {M n : Nat} (m : Fin M → Fin n → ℝ) (N : ℝ) (hN : 0 < N) (g : (Fin n → ℝ) → Fin M) (hg : ∀ r, Nearest m r (g r))
    (d : ℝ) (hd : 0 < d) (h : ∀ i k, i ≠ k → d ≤ pointDist m i k) (i : Fin M) :
    (stdNormals (Fin n)).real {z | g (transmitReal N (m i) z) ≠ i} ≤ ((M : ℝ) - 1) * gaussianQ (d / (2 * √N)) := by
  have hs : 0 < √N := Real.sqrt_pos.mpr hN
  have hinj : Function.Injective m := by
    intro a b hab
    by_contra hne
    have := h a b hne
    rw [pointDist, hab] at this
    simp at this
    linarith
  refine (C110_bounds_real m hinj N hN g hg i).1.trans ?_
  calc _ ≤ ∑ k ∈ Finset.univ.erase i, gaussianQ (d / (2 * √N)) := Finset.sum_le_sum fun k hk => by
        apply C104_strictAnti.antitone
        have := h i k (Finset.mem_erase.mp hk).1.symm
        gcongr
    _ = _ := by
        rw [Finset.sum_const, Finset.card_erase_of_mem (Finset.mem_univ _), Finset.card_univ, Fintype.card_fin, nsmul_eq_mul, Nat.cast_sub i.pos, Nat.cast_one]

/-- The same for complex coordinates. -/
theorem C110_distance_complex {M n : Nat} (m : Fin M → Fin n → ℂ) (N : ℝ) (hN : 0 < N) (g : (Fin n → ℂ) → Fin M) (hg : ∀ r, Nearest m r (g r))
    (d : ℝ) (hd : 0 < d) (h : ∀ i k, i ≠ k → d ≤ pointDist m i k) (i : Fin M) :
    (stdNormalPairs (Fin n)).real {z | g (transmitComplex N (m i) z) ≠ i} ≤ ((M : ℝ) - 1) * gaussianQ (d / √(2 * N)) := by
  have hs : 0 < √(2 * N) := Real.sqrt_pos.mpr (by positivity)
  have hinj : Function.Injective m := by
    intro a b hab
    by_contra hne
    have := h a b hne
    rw [pointDist, hab] at this
    simp at this
    linarith
  refine (C110_bounds_complex m hinj N hN g hg i).1.trans ?_
  calc _ ≤ ∑ k ∈ Finset.univ.erase i, gaussianQ (d / √(2 * N)) := Finset.sum_le_sum fun k hk => by
        apply C104_strictAnti.antitone
        have := h i k (Finset.mem_erase.mp hk).1.symm
        gcongr
    _ = _ := by
        rw [Finset.sum_const, Finset.card_erase_of_mem (Finset.mem_univ _), Finset.card_univ, Fintype.card_fin, nsmul_eq_mul, Nat.cast_sub i.pos, Nat.cast_one]

/-- Two points: the error probability is exactly `Q(d / (2 sigma))`. -/
theorem C110_binary {n : Nat} (m : Fin 2 → Fin n → ℝ) (m' : Fin 2 → Fin n → ℂ) (hm : m 0 ≠ m 1) (hm' : m' 0 ≠ m' 1) (N : ℝ) (hN : 0 < N)
    (g : (Fin n → ℝ) → Fin 2) (g' : (Fin n → ℂ) → Fin 2) (hg : ∀ r, Nearest m r (g r)) (hg' : ∀ r, Nearest m' r (g' r)) (i : Fin 2) :
    (stdNormals (Fin n)).real {z | g (transmitReal N (m i) z) ≠ i} = gaussianQ (pointDist m 0 1 / (2 * √N)) ∧
    (stdNormalPairs (Fin n)).real {z | g' (transmitComplex N (m' i) z) ≠ i} = gaussianQ (pointDist m' 0 1 / √(2 * N)) := by
  have sym : pointDist m 1 0 = pointDist m 0 1 := by simp only [pointDist, norm_sub_rev]
  have sym' : pointDist m' 1 0 = pointDist m' 0 1 := by simp only [pointDist, norm_sub_rev]
  have inj : Function.Injective m := by
    intro a b h
    fin_cases a <;> fin_cases b <;> first | rfl | exact absurd h hm | exact absurd h.symm hm
  have inj' : Function.Injective m' := by
    intro a b h
    fin_cases a <;> fin_cases b <;> first | rfl | exact absurd h hm' | exact absurd h.symm hm'
  obtain ⟨u, l⟩ := C110_bounds_real m inj N hN g hg i
  obtain ⟨u', l'⟩ := C110_bounds_complex m' inj' N hN g' hg' i
  fin_cases i
  · have e : Finset.univ.erase (0 : Fin 2) = {1} := by decide
    simp only [Fin.zero_eta, e, Finset.sum_singleton] at u u' l l' ⊢
    exact ⟨le_antisymm u (l 1 (by decide)), le_antisymm u' (l' 1 (by decide))⟩
  · have e : Finset.univ.erase (1 : Fin 2) = {0} := by decide
    simp only [Fin.mk_one, e, Finset.sum_singleton, sym, sym'] at u u' l l' ⊢
    refine ⟨le_antisymm u ?_, le_antisymm u' ?_⟩
    · have := l 0 (by decide); rwa [sym] at this
    · have := l' 0 (by decide); rwa [sym'] at this

end Komm
