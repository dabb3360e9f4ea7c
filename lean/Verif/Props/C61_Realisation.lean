import Verif.Lemmas.ConvHighRate
import Verif.Props.C60_Convolutional
/-! C61: from the zero state, the encoders output the series `U(D) G(D)`.  Sequences are power series over GF(2);
the first `T` blocks are fed and read, for every `T`. -/
namespace Komm
open StateSpace
variable {k n : Nat}

/-- The stream whose block `t` (for `t < T`) consists of the coefficients of `D^t` of the given series. -/
noncomputable def streamOf {m : Nat} (V : Fin m → PowerSeries (ZMod 2)) (T : Nat) : List (ZMod 2) :=
  (List.ofFn fun t : Fin T => List.ofFn fun i : Fin m => PowerSeries.coeff (t : Nat) (V i)).flatten

theorem streamOf_eq {m : Nat} (V : Fin m → PowerSeries (ZMod 2)) (T : Nat) :
    streamOf V T = flat (List.ofFn fun t : Fin T => fun i : Fin m => PowerSeries.coeff (t : Nat) (V i)) := by
  rw [streamOf, flat, List.map_ofFn]; rfl

theorem encode_of_outs {σ : Nat} (c : StateSpace k n σ) (hk : 0 < k) (U : Fin k → PowerSeries (ZMod 2))
    (V : Fin n → PowerSeries (ZMod 2)) (T : Nat)
    (h : c.outs 0 (List.ofFn fun t : Fin T => fun i : Fin k => PowerSeries.coeff (t : Nat) (U i)) =
      List.ofFn fun t : Fin T => fun j : Fin n => PowerSeries.coeff (t : Nat) (V j)) :
    c.encode (streamOf U T) = some (streamOf V T) := by
  rw [streamOf_eq, streamOf_eq, encode, encodeWithState_flat c hk, h]; rfl

/-- A series `G` is the expansion of the rational function stored in a `BinaryPolynomialFraction`. -/
def IsExpansion (x : Option BPFraction) (G : PowerSeries (ZMod 2)) : Prop :=
  ∃ f, x = some f ∧ (toPoly f.denominator).coeff 0 = 1 ∧
    (toPoly f.denominator : PowerSeries (ZMod 2)) * G = (toPoly f.numerator : PowerSeries (ZMod 2))

/-- A rational function has at most one expansion. -/
theorem IsExpansion.unique {x : Option BPFraction} {G G' : PowerSeries (ZMod 2)} (h : IsExpansion x G)
    (h' : IsExpansion x G') : G = G' := by
  obtain ⟨f, hf, hd, hG⟩ := h
  obtain ⟨f', hf', _, hG'⟩ := h'
  rw [hf] at hf'; cases hf'
  have hne : (toPoly f.denominator : PowerSeries (ZMod 2)) ≠ 0 := by
    intro h0
    have := congrArg (PowerSeries.coeff 0) h0
    rw [Polynomial.coeff_coe, hd] at this
    simp at this
  exact mul_left_cancel₀ hne (hG.trans hG'.symm)

theorem unit_of_coeff {q : Nat} (hq : (toPoly q).coeff 0 = 1) :
    (toPoly q : PowerSeries (ZMod 2)) * (toPoly q : PowerSeries (ZMod 2))⁻¹ = 1 := by
  apply PowerSeries.mul_inv_cancel
  rw [← PowerSeries.coeff_zero_eq_constantCoeff_apply, Polynomial.coeff_coe, hq]
  exact one_ne_zero

/-- A canonical fraction equal to `p/q` with `q(0) = 1` has the expansion `p q⁻¹`. -/
theorem isExpansion_of_value {p q : Nat} (hq : (toPoly q).coeff 0 = 1) {f : BPFraction} (hc : f.Canonical)
    (hv : toPoly f.numerator * toPoly q = toPoly p * toPoly f.denominator) :
    (toPoly f.denominator).coeff 0 = 1 ∧ (toPoly f.denominator : PowerSeries (ZMod 2)) *
      ((toPoly p : PowerSeries (ZMod 2)) * (toPoly q : PowerSeries (ZMod 2))⁻¹) =
        (toPoly f.numerator : PowerSeries (ZMod 2)) := by
  constructor
  · by_contra hne
    have h0 : (toPoly f.denominator).coeff 0 = 0 := (zmod2_cases _).resolve_right hne
    have h1 := congrArg (fun P => Polynomial.coeff P 0) hv
    simp only [Polynomial.mul_coeff_zero, hq, h0, mul_one, mul_zero] at h1
    have hX := hc.2 Polynomial.X (Polynomial.X_dvd_iff.mpr h1) (Polynomial.X_dvd_iff.mpr h0)
    have := congrArg (fun P : Polynomial (ZMod 2) => P.coeff 0) hX
    simp at this
  · have h := congrArg (fun P : Polynomial (ZMod 2) => (P : PowerSeries (ZMod 2))) hv
    simp only [Polynomial.coe_mul] at h
    rw [← mul_assoc, mul_comm (toPoly f.denominator : PowerSeries (ZMod 2)), ← h, mul_assoc, unit_of_coeff hq, mul_one]

theorem create_one {p : Nat} {x : BPFraction} (h : BPFraction.create p 1 = some x) :
    x.Canonical ∧ x.value = algebraMap _ _ (toPoly p) := by
  obtain ⟨_, hc, hv⟩ := BPFraction.create_value h
  refine ⟨hc, ?_⟩
  rw [hv, toPoly_one]; simp

theorem cross_of_value {p q : Nat} (hq : q ≠ 0) {f : BPFraction} (hc : f.Canonical)
    (hv : f.value = algebraMap _ _ (toPoly p) / algebraMap _ _ (toPoly q)) :
    toPoly f.numerator * toPoly q = toPoly p * toPoly f.denominator := by
  rw [BPFraction.value, div_eq_div_iff (BPFraction.algebraMap_ne_zero hc.1) (BPFraction.algebraMap_ne_zero hq),
    ← map_mul, ← map_mul] at hv
  exact FaithfulSMul.algebraMap_injective (Polynomial (ZMod 2)) (FractionRing (Polynomial (ZMod 2))) hv

theorem ne_zero_of_coeff {q : Nat} (hq : (toPoly q).coeff 0 = 1) : q ≠ 0 := by
  rintro rfl
  rw [toPoly_zero] at hq
  simp at hq

/-- `ConvolutionalCode` (feedforward and feedback): every entry of `generator_matrix` is `p_ij / q_i`, and the encoder,
started in the zero state, outputs `U(D) G(D)`.  The feedback polynomials are supposed to have constant term 1: the
construction of the state-space matrices never reads the constant term (see `C61_feedback_without_constant_term`). -/
theorem C61_convolutional_code (c : ConvCode k n) (hk : 0 < k) (hq : ∀ i, (toPoly (c.feedback i)).coeff 0 = 1) :
    ∃ G : Fin k → Fin n → PowerSeries (ZMod 2),
      (∀ i j, IsExpansion (c.generatorMatrix i j) (G i j)) ∧
      (∀ i j, (toPoly (c.feedback i) : PowerSeries (ZMod 2)) * G i j = (toPoly (c.feedforward i j) : PowerSeries (ZMod 2))) ∧
      ∀ (U : Fin k → PowerSeries (ZMod 2)) (T : Nat),
        c.stateSpace.encode (streamOf U T) = some (streamOf (fun j => ∑ i, U i * G i j) T) := by
  refine ⟨fun i j => (toPoly (c.feedforward i j) : PowerSeries (ZMod 2)) * (toPoly (c.feedback i) : PowerSeries (ZMod 2))⁻¹,
    ?_, ?_, ?_⟩
  · intro i j
    have hq0 := ne_zero_of_coeff (hq i)
    obtain ⟨p, hp⟩ := Option.isSome_iff_exists.mp ((BPFraction.create_isSome_iff (c.feedforward i j) 1).mpr one_ne_zero)
    obtain ⟨q, hqq⟩ := Option.isSome_iff_exists.mp ((BPFraction.create_isSome_iff (c.feedback i) 1).mpr one_ne_zero)
    obtain ⟨hpc, hpv⟩ := create_one hp
    obtain ⟨hqc, hqv⟩ := create_one hqq
    obtain ⟨f, hf⟩ := (BPFraction.truediv_isSome_iff hpc hqc).mpr (by
      rw [hqv]; exact BPFraction.algebraMap_ne_zero hq0)
    obtain ⟨hfc, hfv⟩ := BPFraction.value_truediv hf
    rw [hpv, hqv] at hfv
    obtain ⟨h1, h2⟩ := isExpansion_of_value (hq i) hfc (cross_of_value hq0 hfc hfv)
    refine ⟨f, ?_, h1, h2⟩
    rw [ConvCode.generatorMatrix, hp, hqq]; exact hf
  · intro i j
    rw [mul_left_comm, unit_of_coeff (hq i), mul_one]
  · intro U T
    apply encode_of_outs _ hk
    have h := c.realises hq U (fun i => U i * (toPoly (c.feedback i) : PowerSeries (ZMod 2))⁻¹)
      (fun i => by rw [mul_left_comm, unit_of_coeff (hq i), mul_one]) T
    rw [h]
    congr 1
    funext t j
    congr 1
    apply Finset.sum_congr rfl
    intro i _
    ring

/-- `LowRateConvolutionalCode`: the same with the polynomial generator row. -/
theorem C61_low_rate (c : LowRate n) :
    (∀ j, IsExpansion (c.generatorMatrix j) (toPoly (c.gRow j) : PowerSeries (ZMod 2))) ∧
    ∀ (U : PowerSeries (ZMod 2)) (T : Nat),
      c.stateSpace.encode (streamOf (fun _ : Fin 1 => U) T) =
        some (streamOf (fun j => U * (toPoly (c.gRow j) : PowerSeries (ZMod 2))) T) := by
  constructor
  · intro j
    obtain ⟨f, hf⟩ := Option.isSome_iff_exists.mp ((BPFraction.create_isSome_iff (c.gRow j) 1).mpr one_ne_zero)
    obtain ⟨hc, hv⟩ := create_one hf
    have h1 : (toPoly 1).coeff 0 = (1 : ZMod 2) := by rw [toPoly_one]; simp
    obtain ⟨h2, h3⟩ := isExpansion_of_value (p := c.gRow j) h1 hc
      (cross_of_value one_ne_zero hc (by rw [hv, toPoly_one]; simp))
    refine ⟨f, hf, h2, ?_⟩
    rw [← h3, toPoly_one]
    simp
  · intro U T
    apply encode_of_outs _ (by norm_num)
    rw [c.realises U T]
    congr 1
    funext t j
    rw [mul_comm]

/-- `HighRateConvolutionalCode` of positive degree with `q(0) = 1`: the first `n - 1` outputs are the inputs, and the
outputs satisfy the check row `∑ h_j V_j = 0`; equivalently `V = U G` for `generator_matrix`. -/
theorem C61_high_rate (c : HighRate k) (hk : 0 < k) (hσ : 1 ≤ c.degree)
    (hq : (toPoly (c.hRow (Fin.last k))).coeff 0 = 1) :
    ∃ G : Fin k → Fin (k + 1) → PowerSeries (ZMod 2),
      (∀ i j, IsExpansion (c.generatorMatrix i j) (G i j)) ∧
      (∀ i, ∑ j, G i j * (toPoly (c.hRow j) : PowerSeries (ZMod 2)) = 0) ∧
      (∀ (i j : Fin k), G i j.castSucc = if i = j then 1 else 0) ∧
      ∀ (U : Fin k → PowerSeries (ZMod 2)) (T : Nat),
        c.stateSpace.encode (streamOf U T) = some (streamOf (fun j => ∑ i, U i * G i j) T) := by
  set Q : PowerSeries (ZMod 2) := (toPoly (c.hRow (Fin.last k)) : PowerSeries (ZMod 2)) with hQ
  have hq0 := ne_zero_of_coeff hq
  have hQi : Q * Q⁻¹ = 1 := unit_of_coeff hq
  refine ⟨fun i j => Fin.lastCases (motive := fun _ => PowerSeries (ZMod 2))
    ((toPoly (c.hRow i.castSucc) : PowerSeries (ZMod 2)) * Q⁻¹) (fun j : Fin k => if i = j then 1 else 0) j, ?_, ?_, ?_, ?_⟩
  · intro i j
    induction j using Fin.lastCases with
    | last =>
      obtain ⟨f, hf⟩ := Option.isSome_iff_exists.mp
        ((BPFraction.create_isSome_iff (c.hRow i.castSucc) (c.hRow (Fin.last k))).mpr hq0)
      obtain ⟨_, hc, hv⟩ := BPFraction.create_value hf
      obtain ⟨h2, h3⟩ := isExpansion_of_value hq hc (cross_of_value hq0 hc hv)
      refine ⟨f, ?_, h2, ?_⟩
      · rw [HighRate.generatorMatrix, if_pos (by simp)]; exact hf
      · simp only [Fin.lastCases_last]; exact h3
    | cast j =>
      have hg : c.generatorMatrix i j.castSucc = BPFraction.create (if (i : Nat) = j then 1 else 0) 1 := by
        rw [HighRate.generatorMatrix, if_neg (by simp; omega)]; rfl
      obtain ⟨f, hf⟩ := Option.isSome_iff_exists.mp
        ((BPFraction.create_isSome_iff (if (i : Nat) = j then 1 else 0) 1).mpr one_ne_zero)
      obtain ⟨hc, hv⟩ := create_one hf
      have h1 : (toPoly 1).coeff 0 = (1 : ZMod 2) := by rw [toPoly_one]; simp
      obtain ⟨h2, h3⟩ := isExpansion_of_value (p := if (i : Nat) = j then 1 else 0) h1 hc
        (cross_of_value one_ne_zero hc (by rw [hv, toPoly_one]; simp))
      refine ⟨f, hg.trans hf, h2, ?_⟩
      rw [← h3, toPoly_one]
      simp only [Fin.lastCases_castSucc]
      by_cases hij : i = j
      · simp [hij]
      · rw [if_neg hij, if_neg (fun h => hij (Fin.ext h))]; simp
  · intro i
    rw [Fin.sum_univ_castSucc]
    simp only [Fin.lastCases_last, Fin.lastCases_castSucc, ite_mul, one_mul, zero_mul, Finset.sum_ite_eq, Finset.mem_univ,
      if_true]
    rw [mul_assoc, mul_comm Q⁻¹, ← hQ, hQi, mul_one]
    ext m
    rw [map_add]
    exact CharTwo.add_self_eq_zero _
  · intro i j
    simp only [Fin.lastCases_castSucc]
  · intro U T
    apply encode_of_outs _ hk
    have h := c.realises hσ hq U (∑ i, U i * ((toPoly (c.hRow i.castSucc) : PowerSeries (ZMod 2)) * Q⁻¹)) (by
      rw [Finset.mul_sum]
      apply Finset.sum_congr rfl
      intro i _
      rw [mul_left_comm, mul_left_comm Q, hQi, mul_one, mul_comm]) T
    rw [h]
    congr 1
    funext t j
    induction j using Fin.lastCases with
    | last => simp only [Fin.snoc_last, Fin.lastCases_last]
    | cast j => simp only [Fin.snoc_castSucc, Fin.lastCases_castSucc, mul_ite, mul_one, mul_zero, Finset.sum_ite_eq',
        Finset.mem_univ, if_true]

/-- The hypotheses are met by the documented feedback, low-rate and high-rate encoders. -/
example : (∀ i, (toPoly (exampleFeedback.feedback i)).coeff 0 = 1) ∧ exampleFeedback.degree = 4 ∧
    (toPoly (exampleHighRate.hRow (Fin.last 3))).coeff 0 = 1 ∧ 1 ≤ exampleHighRate.degree := by
  refine ⟨fun i => ?_, by decide +kernel, ?_, by decide +kernel⟩
  · rw [toPoly_coeff, if_pos]; revert i; decide
  · rw [toPoly_coeff, if_pos]; decide

/-- A finding: without the constant term, e.g. `feedforward = [[1]], feedback = [D]`, the generator matrix is `1/D`, but the
encoder (which ignores the coefficient of `D^0` of the feedback) is that of `1/(1 + D)`: for the input `1, 0` it outputs `1, 1`, so
that `D·V ≠ U·1`. -/
theorem C61_feedback_without_constant_term :
    (⟨![![1]], ![0b10]⟩ : ConvCode 1 1).generatorMatrix 0 0 = some ⟨1, 0b10⟩ ∧
    (⟨![![1]], ![0b10]⟩ : ConvCode 1 1).stateSpace.encode [1, 0, 0] = some [1, 1, 1] ∧
    (⟨![![1]], ![0b11]⟩ : ConvCode 1 1).stateSpace.encode [1, 0, 0] = some [1, 1, 1] := by decide +kernel

end Komm
