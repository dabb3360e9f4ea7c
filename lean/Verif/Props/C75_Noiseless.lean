import Verif.Props.C76_CrossQAM
import Mathlib.Analysis.InnerProductSpace.PiL2
/-! C75: every transmitted symbol is decided correctly without noise, and within half the minimum distance; conformance cases. -/
namespace Komm
open Real Constellation

/-- The generic decision, for a constellation without repeated points. -/
theorem C75_generic_noiseless {𝕜 : Type} [RCLike 𝕜] {M N : Nat} (m : Fin M → Fin N → 𝕜) (hm : Function.Injective m) (i : Fin M) :
    closest m (m i) = some i := by
  obtain ⟨k, h1, h2, -⟩ := C75_generic i.pos m (m i)
  have h3 := h2 i
  simp only [sub_self, norm_zero, ne_eq, OfNat.ofNat_ne_zero, not_false_eq_true, zero_pow, Finset.sum_const_zero] at h3
  have h4 : ∀ j, ‖m i j - m k j‖ ^ 2 = 0 := by
    have := (Finset.sum_eq_zero_iff_of_nonneg fun j _ => sq_nonneg ‖m i j - m k j‖).mp (le_antisymm h3 (Finset.sum_nonneg fun j _ => sq_nonneg _))
    exact fun j => this j (Finset.mem_univ _)
  have h5 : m i = m k := funext fun j => by
    have := h4 j
    rw [pow_eq_zero_iff (by norm_num), norm_eq_zero, sub_eq_zero] at this
    exact this
  rw [h1, hm h5]

/-- Noise of norm below half the minimum distance never changes a nearest-neighbour decision. -/
theorem C75_small_noise {𝕜 : Type} [RCLike 𝕜] {M N : Nat} (m : Fin M → Fin N → 𝕜) (i k : Fin M) (w : Fin N → 𝕜) (d : ℝ)
    (hd : minimumDistance m = (d : WithTop ℝ)) (hw : √ (∑ j, ‖w j‖ ^ 2) < d / 2) (hk : Nearest m (fun j => m i j + w j) k) : k = i := by
  by_contra hne
  have hdist : d ≤ √ (∑ j, ‖m i j - m k j‖ ^ 2) := by
    have h1 : minimumDistance m ≤ ((√ (∑ j, ‖m i j - m k j‖ ^ 2) : ℝ) : WithTop ℝ) := by
      rw [minimumDistance]
      refine (Finset.inf_le (Finset.mem_univ i)).trans ((Finset.inf_le (Finset.mem_univ k)).trans ?_)
      rw [if_neg (Ne.symm hne)]
    rw [hd] at h1
    exact WithTop.coe_le_coe.mp h1
  have hn := hk i
  have e1 : ∑ j, ‖m i j + w j - m i j‖ ^ 2 = ∑ j, ‖w j‖ ^ 2 := by simp
  rw [e1] at hn
  -- triangle inequality in the Euclidean norm
  have tri : √ (∑ j, ‖m i j - m k j‖ ^ 2) ≤ √ (∑ j, ‖m i j + w j - m k j‖ ^ 2) + √ (∑ j, ‖w j‖ ^ 2) := by
    have h := norm_sub_le (WithLp.toLp 2 (fun j => m i j + w j - m k j) : EuclideanSpace 𝕜 (Fin N)) (WithLp.toLp 2 w)
    rw [EuclideanSpace.norm_eq, EuclideanSpace.norm_eq, EuclideanSpace.norm_eq] at h
    simpa [add_sub_right_comm] using h
  have h3 := Real.sqrt_le_sqrt hn
  linarith

theorem C75_orthogonal_noiseless (M : Nat) (A : ℝ) (hA : 0 < A) (i : Fin M) : orthogonalClosest (orthogonal M A i) = some i := by
  obtain ⟨k, h1, h2, -⟩ := argminFin_spec i.pos fun j => - orthogonal M A i j
  rw [orthogonalClosest, argmaxFin, h1]
  by_contra hne
  have hik : ¬ i = k := fun h => hne (by rw [h])
  have := h2 i
  simp [orthogonal, hik] at this
  linarith

theorem C75_simplex_noiseless (M : Nat) (A : ℝ) (hA : 0 < A) (i : Fin M) : orthogonalClosest (simplex M A i) = some i := by
  obtain ⟨k, h1, h2, -⟩ := argminFin_spec i.pos fun j => - simplex M A i j
  rw [orthogonalClosest, argmaxFin, h1]
  by_contra hne
  have hik : ¬ i = k := fun h => hne (by rw [h])
  have := h2 i
  simp only [simplex, hik, if_true, if_false] at this
  linarith

theorem C75_biorthogonal_noiseless (N : Nat) (A : ℝ) (hA : 0 < A) (i : Fin (N + N)) : biorthogonalClosest (biorthogonal N A i) = some i := by
  obtain ⟨k, h1, h2, -⟩ := argminFin_spec i.pos fun j => - (Fin.append (biorthogonal N A i) (fun j => - biorthogonal N A i j) : Fin (N + N) → ℝ) j
  rw [biorthogonalClosest, argmaxFin, h1]
  by_contra hne
  have hik : ¬ k = i := fun h => hne (by rw [h])
  have := h2 i
  clear h1 h2 hne
  induction i using Fin.addCases with
  | left i =>
    induction k using Fin.addCases with
    | left k =>
      have : ¬ i = k := fun h => hik (by rw [h])
      simp_all [biorthogonal, Fin.append_left]
      linarith
    | right k => 
      simp only [biorthogonal, Fin.append_left, Fin.append_right, if_true] at this
      split at this <;> linarith
  | right i =>
    induction k using Fin.addCases with
    | left k =>
      simp only [biorthogonal, Fin.append_left, Fin.append_right, if_true] at this
      split at this <;> linarith
    | right k =>
      have h : ¬ i = k := fun h => hik (by rw [h])
      simp only [biorthogonal, Fin.append_right, if_true, h, if_false] at this
      linarith

/-! ### Documented cases -/

/-- `PAMConstellation(4).matrix`. -/
example : (List.range 4).map (pamPoint 4 (2 : ℚ)) = [-3, -1, 1, 3] := by decide +kernel

/-- `PAMConstellation(4).closest_indices([-0.8, 2.4])`. -/
example : [-8 / 10, 24 / 10].map (pamClosest 4 (2 : ℚ)) = [1, 3] := by decide +kernel

/-- Values far outside are clipped; ties go to the even integer before clipping. -/
example : [-100, 100, 0, 2, -2].map (pamClosest 4 (2 : ℚ)) = [0, 3, 2, 2, 0] := by decide +kernel

/-- `PAMConstellation(4).mean_energy()`, `ASKConstellation(4).mean_energy()`, `QAMConstellation(16).mean_energy()`. -/
example : pamMeanEnergy 4 2 = 5 ∧ askMeanEnergy 4 1 = 7 / 2 ∧ qamMeanEnergy 4 4 2 2 = 10 ∧ apskMeanEnergy ![4, 4] ![1, 2] = 5 / 2 := by
  refine ⟨?_, ?_, ?_, ?_⟩
  · rw [pamMeanEnergy]; norm_num
  · rw [askMeanEnergy]; norm_num
  · rw [qamMeanEnergy]; norm_num
  · rw [apskMeanEnergy]; simp [Fin.sum_univ_two]; norm_num

/-- `SimplexConstellation(4).matrix[0]`. -/
example : simplex 4 1 0 0 = 3 / 4 ∧ simplex 4 1 0 1 = -1 / 4 := by
  constructor <;> simp [simplex] <;> norm_num

/-- `PSKConstellation(4).matrix[1] = 1j`. -/
example : psk 4 1 0 1 0 = Complex.I := by
  rw [psk_eq]
  simp only [Complex.ofReal_one, one_mul]
  have : 2 * π * (((1 : Fin 4).val : ℝ) / (4 : ℕ)) = π / 2 := by norm_num; ring
  rw [this]
  push_cast
  rw [Complex.exp_pi_div_two_mul_I, phase_zero, mul_one]

end Komm
