import Verif.Lemmas.Catastrophic
/-! C99: `is_catastrophic`. -/
namespace Komm
open Polynomial
variable {k n : Nat}
local notation "PS" => PowerSeries (ZMod 2)

theorem isCatastrophic_of_expansion (g : Fin k → Fin n → Option BPFraction) (G : Fin k → Fin n → PS)
    (h : ∀ i j, IsExpansion (g i j) (G i j)) :
    ∃ F : Fin k → Fin n → BPFraction, (∀ i j, g i j = some (F i j)) ∧ isCatastrophic g = isCatastrophicOf F ∧ Expands F G := by
  choose F hF hd he using h
  refine ⟨F, hF, ?_, hd, he⟩
  rw [isCatastrophic, dif_pos fun i j => by rw [hF]; rfl]
  congr 1
  funext i j
  simp [hF]

/-- The factors computed inside `is_catastrophic` (of the generator matrix times the common denominator) are powers of `D`, except
possibly the last one. -/
def OtherFactorsMonomial (g : Fin k → Fin n → Option BPFraction) : Prop :=
  ∀ (F : Fin k → Fin n → BPFraction) q fs, (∀ i j, g i j = some (F i j)) → commonDenominator F = some q →
    PMat.invariantFactors k n (clearDenominators q F) = some fs → ∀ f ∈ fs.dropLast, ∃ s, f = 2 ^ s

theorem otherFactorsMonomial_one (g : Fin 1 → Fin n → Option BPFraction) : OtherFactorsMonomial g := by
  intro F q fs _ _ hfs f hf
  have := PMat.invariantFactors_length_le _ _ _ hfs
  have h0 : fs.dropLast = [] := List.eq_nil_of_length_eq_zero (by simp; omega)
  rw [h0] at hf
  simp at hf

/-- The facts of this property for any encoder that outputs `U G`. -/
theorem catastrophic_generic {σ : Nat} (c : StateSpace k n σ) (g : Fin k → Fin n → Option BPFraction) (hk : 0 < k)
    (G : Fin k → Fin n → PS) (hexp : ∀ i j, IsExpansion (g i j) (G i j)) (hreal : RealisesSeries c G) :
    (isCatastrophic g = some true → CatastrophicEncoder c) ∧
    (isCatastrophic g = some false → OtherFactorsMonomial g → ¬ CatastrophicEncoder c) ∧
    (isCatastrophic g = none ↔ DegenerateEncoder c) := by
  obtain ⟨F, hF, hg, hE⟩ := isCatastrophic_of_expansion g G hexp
  rw [hg]
  refine ⟨fun ht => (catastrophic_iff c G hreal).mpr (isCatastrophicOf_true hE ht), fun hf hm hc => ?_, ?_⟩
  · obtain ⟨U, ⟨i, hi⟩, hV⟩ := (catastrophic_iff c G hreal).mp hc
    exact hi (isCatastrophicOf_false hE hf (fun q fs => hm F q fs hF) U hV i)
  · rw [isCatastrophicOf_none hE hk, degenerate_iff c G hreal]

/-- `ConvolutionalCode` (feedforward or feedback, any rate; constant term 1 in the feedback polynomials, as in C61): when
`is_catastrophic()` returns `True`, some input sequence of infinite weight gives an output of finite weight. -/
theorem C99_true (c : ConvCode k n) (hk : 0 < k) (hq : ∀ i, (toPoly (c.feedback i)).coeff 0 = 1)
    (h : c.isCatastrophic = some true) : CatastrophicEncoder c.stateSpace := by
  obtain ⟨G, hexp, _, hreal⟩ := C61_convolutional_code c hk hq
  exact (catastrophic_generic c.stateSpace c.generatorMatrix hk G hexp hreal).1 h

/-- When it returns `False`, and all the invariant factors it computed but the last are powers of `D` (in particular when they are
1), no such input exists.  Missing for the full property: the condition on the factors, which the code violates, see
`C99_wrong_false`. -/
theorem C99_false_partial (c : ConvCode k n) (hk : 0 < k) (hq : ∀ i, (toPoly (c.feedback i)).coeff 0 = 1)
    (h : c.isCatastrophic = some false) (hm : OtherFactorsMonomial c.generatorMatrix) :
    ¬ CatastrophicEncoder c.stateSpace := by
  obtain ⟨G, hexp, _, hreal⟩ := C61_convolutional_code c hk hq
  exact (catastrophic_generic c.stateSpace c.generatorMatrix hk G hexp hreal).2.1 h hm

/-- It raises exactly when two inputs are encoded alike: some non-zero finite input has zero output (all rates). -/
theorem C99_raises (c : ConvCode k n) (hk : 0 < k) (hq : ∀ i, (toPoly (c.feedback i)).coeff 0 = 1) :
    c.isCatastrophic = none ↔ DegenerateEncoder c.stateSpace := by
  obtain ⟨G, hexp, _, hreal⟩ := C61_convolutional_code c hk hq
  exact (catastrophic_generic c.stateSpace c.generatorMatrix hk G hexp hreal).2.2

/-- For one input bit per block the answer is right in both directions. -/
theorem C99_rate_one_over_n (c : ConvCode 1 n) (hq : (toPoly (c.feedback 0)).coeff 0 = 1) (b : Bool)
    (h : c.isCatastrophic = some b) : b = true ↔ CatastrophicEncoder c.stateSpace := by
  obtain ⟨G, hexp, _, hreal⟩ := C61_convolutional_code c one_pos (fun i => by rw [Subsingleton.elim i 0]; exact hq)
  obtain ⟨h1, h2, _⟩ := catastrophic_generic c.stateSpace c.generatorMatrix one_pos G hexp hreal
  cases b with
  | true => simp [h1 h]
  | false => simp [h2 h (otherFactorsMonomial_one _)]

/-- `LowRateConvolutionalCode`: the answer is right, and an exception is raised exactly for the all-zero row. -/
theorem C99_low_rate (c : LowRate n) :
    (∀ b, c.isCatastrophic = some b → (b = true ↔ CatastrophicEncoder c.stateSpace)) ∧
    (c.isCatastrophic = none ↔ ∀ j, c.gRow j = 0) := by
  obtain ⟨hexp, hreal⟩ := C61_low_rate c
  have hreal' : RealisesSeries c.stateSpace fun (_ : Fin 1) j => (toPoly (c.gRow j) : PS) := by
    intro U T
    have h1 : U = fun _ : Fin 1 => U 0 := by funext i; rw [Subsingleton.elim i 0]
    rw [h1, hreal]
    congr 2
    funext j
    simp
  obtain ⟨h1, h2, h3⟩ := catastrophic_generic c.stateSpace (fun _ : Fin 1 => c.generatorMatrix) one_pos _
    (fun _ j => hexp j) hreal'
  refine ⟨fun b h => ?_, ?_⟩
  · cases b with
    | true => simp [h1 h]
    | false => simp [h2 h (otherFactorsMonomial_one _)]
  · rw [LowRate.isCatastrophic, h3, degenerate_iff _ _ hreal']
    constructor
    · rintro ⟨w, hw, h0⟩ j
      have hw0 : w 0 ≠ 0 := fun h => hw (by funext i; rw [Subsingleton.elim i 0, h]; rfl)
      have := h0 j
      rw [Fin.sum_univ_one, ← Polynomial.coe_mul, ← Polynomial.coe_zero, Polynomial.coe_inj] at this
      exact toPoly_eq_zero.mp ((mul_eq_zero.mp this).resolve_left hw0)
    · intro h0
      exact ⟨fun _ => 1, fun h => one_ne_zero (congrFun h 0), fun j => by simp [h0 j]⟩

/-- `HighRateConvolutionalCode` (systematic; `q(0) = 1` and positive degree as in C61): `is_catastrophic()` never raises and always
returns `False`, and rightly so. -/
theorem C99_high_rate (c : HighRate k) (hk : 0 < k) (hσ : 1 ≤ c.degree)
    (hq : (toPoly (c.hRow (Fin.last k))).coeff 0 = 1) :
    c.isCatastrophic = some false ∧ ¬ CatastrophicEncoder c.stateSpace := by
  obtain ⟨G, hexp, _, hsys, hreal⟩ := C61_high_rate c hk hσ hq
  obtain ⟨h1, _, h3⟩ := catastrophic_generic c.stateSpace c.generatorMatrix hk G hexp hreal
  have hout : ∀ (U : Fin k → PS) (j : Fin k), ∑ i, U i * G i j.castSucc = U j := by
    intro U j
    simp [hsys]
  have hnc : ¬ CatastrophicEncoder c.stateSpace := by
    intro hc
    obtain ⟨U, ⟨i, hi⟩, hV⟩ := (catastrophic_iff _ G hreal).mp hc
    have := hV i.castSucc
    rw [hout] at this
    exact hi this
  refine ⟨?_, hnc⟩
  cases hcat : c.isCatastrophic with
  | none =>
    obtain ⟨w, hw, h0⟩ := (degenerate_iff _ G hreal).mp (h3.mp hcat)
    have hw0 : w = 0 := by
      ext1 i
      have := h0 i.castSucc
      rw [hout (fun i => (w i : PS)) i, ← Polynomial.coe_zero, Polynomial.coe_inj] at this
      exact this
    exact absurd hw0 hw
  | some b =>
    cases b with
    | false => rfl
    | true => exact absurd (h1 hcat) hnc

/-- The condition on the factors, from the computed values. -/
theorem otherFactorsMonomial_of (g : Fin k → Fin n → Option BPFraction) (F : Fin k → Fin n → BPFraction) (q : Nat) (fs : List Nat)
    (hF : ∀ i j, g i j = some (F i j)) (hq : commonDenominator F = some q)
    (hfs : PMat.invariantFactors k n (clearDenominators q F) = some fs) (h : ∀ f ∈ fs.dropLast, f = 1) :
    OtherFactorsMonomial g := by
  intro F' q' fs' hF' hq' hfs' f hf
  have e1 : F' = F := by
    ext1 i; ext1 j
    have := (hF' i j).symm.trans (hF i j)
    simpa using this
  subst e1
  rw [hq] at hq'; cases hq'
  rw [hfs] at hfs'; cases hfs'
  exact ⟨0, by simpa using h f hf⟩

/-- A concrete rate 2/3 encoder meeting the hypotheses of `C99_false_partial`. -/
example : ¬ CatastrophicEncoder (ConvCode.ofFeedforward ![![0b11, 0b10, 0b11], ![0b10, 0b1, 0b1]]).stateSpace := by
  refine C99_false_partial _ (by norm_num) (fun i => by simp [ConvCode.ofFeedforward]) (by decide +kernel)
    (otherFactorsMonomial_of _ ![![⟨0b11, 1⟩, ⟨0b10, 1⟩, ⟨0b11, 1⟩], ![⟨0b10, 1⟩, ⟨1, 1⟩, ⟨1, 1⟩]] 1 [1, 1] ?_ ?_ ?_ ?_) <;>
  decide +kernel

/-- A finding: `ConvolutionalCode([[0b11, 0], [0, 0b10]])`, i.e. `G = diag(1 + D, D)`, is declared not catastrophic, although the
all-ones first input has an output of weight 1: `invariant_factors` returns `1 + D, D`, where each factor should divide the next. -/
theorem C99_wrong_false :
    PMat.invariantFactors 2 2 ![![0b11, 0], ![0, 0b10]] = some [0b11, 0b10] ∧
    (ConvCode.ofFeedforward ![![0b11, 0], ![0, 0b10]]).isCatastrophic = some false ∧
    CatastrophicEncoder (ConvCode.ofFeedforward ![![0b11, 0], ![0, 0b10]]).stateSpace := by
  refine ⟨by decide +kernel, by decide +kernel, ?_⟩
  obtain ⟨G, _, hG, hreal⟩ := C61_convolutional_code (ConvCode.ofFeedforward ![![0b11, 0], ![0, 0b10]]) (by norm_num)
    (fun i => by simp [ConvCode.ofFeedforward])
  rw [catastrophic_iff _ G hreal]
  have ha : ((1 + X : (ZMod 2)[X])).coeff 0 = 1 := by simp
  have h3 : toPoly 0b11 = 1 + X := by
    have : (0b11 : Nat) = 1 ^^^ 2 := rfl
    rw [this, toPoly_xor, toPoly_one, toPoly_two]
  have hg : ∀ i j, G i j = (toPoly ((![![0b11, 0], ![0, 0b10]] : Fin 2 → Fin 2 → Nat) i j) : PS) := by
    intro i j
    have := hG i j
    simpa [ConvCode.ofFeedforward] using this
  refine ⟨![((1 + X : (ZMod 2)[X]) : PS)⁻¹, 0], ⟨0, ?_⟩, ?_⟩
  · rintro ⟨p, hp⟩
    simp only [Matrix.cons_val_zero] at hp
    have h1 := coe_mul_inv ha
    rw [hp, ← Polynomial.coe_mul, ← Polynomial.coe_one, Polynomial.coe_inj] at h1
    have h2 := congrArg (Polynomial.eval 1) h1
    rw [eval_mul, eval_one, eval_add, eval_one, eval_X, CharTwo.add_self_eq_zero, zero_mul] at h2
    exact zero_ne_one h2
  · intro j
    rw [Fin.sum_univ_two, hg, hg]
    fin_cases j
    · refine ⟨1, ?_⟩
      simp only [Matrix.cons_val_zero, Matrix.cons_val_one, zero_mul, add_zero, Fin.zero_eta, Polynomial.coe_one]
      rw [h3, mul_comm, coe_mul_inv ha]
    · refine ⟨0, ?_⟩
      simp

/-- What `invariant_factors` itself guarantees: it returns at most as many factors as rows, none of them zero; it raises exactly when
there are more rows than columns; and the number of factors is the number of rows exactly when the rows are linearly independent. -/
theorem C99_invariant_factors (M : PMat k n) :
    (PMat.invariantFactors k n M = none ↔ n < k) ∧
    ∀ fs, PMat.invariantFactors k n M = some fs →
      (∀ f ∈ fs, f ≠ 0) ∧ fs.length ≤ k ∧
      (fs.length = k ↔ ∀ w : Fin k → (ZMod 2)[X], (∀ j, ∑ i, w i * toPoly (M i j) = 0) → w = 0) := by
  refine ⟨PMat.invariantFactors_none k n M, fun fs hfs => ⟨PMat.invariantFactors_ne_zero k n M hfs,
    PMat.invariantFactors_length_le k n M hfs, ?_, ?_⟩⟩
  · intro hl w hw
    obtain ⟨κ, hκ⟩ := PMat.invariantFactors_prod k n M hfs hl
    have := hκ w
    have h0 : PMat.rowMap M w = 0 := funext hw
    rw [h0, map_zero] at this
    rcases smul_eq_zero.mp this.symm with h1 | h1
    · rw [List.prod_eq_zero_iff, List.mem_map] at h1
      obtain ⟨f, hf, hf0⟩ := h1
      exact absurd (toPoly_eq_zero.mp hf0) (PMat.invariantFactors_ne_zero k n _ hfs f hf)
    · exact h1
  · intro hind
    by_contra hl
    obtain ⟨w, hw, h0⟩ := PMat.invariantFactors_short k n M hfs
      (lt_of_le_of_ne (PMat.invariantFactors_length_le k n M hfs) hl)
    exact hw (hind w fun j => congrFun h0 j)

/-- For a single row, the factor is the greatest common divisor of the row. -/
theorem C99_single_row (M : PMat 1 n) (f : Nat) (h : PMat.invariantFactors 1 n M = some [f]) (p : (ZMod 2)[X]) :
    p ∣ toPoly f ↔ ∀ j, p ∣ toPoly (M 0 j) := by
  obtain ⟨κ, hκ⟩ := PMat.invariantFactors_prod 1 n M h rfl
  obtain ⟨w, φ, c, hφ, hw⟩ := PMat.invariantFactors_last 1 n M h rfl one_pos
  have hφ' : ∀ v : Fin 1 → (ZMod 2)[X], φ v = v 0 * φ (fun _ => 1) := by
    intro v
    rw [← smul_eq_mul, ← map_smul]
    congr 1
    funext i
    rw [Subsingleton.elim i 0]; simp
  have hu : w 0 * φ (fun _ => 1) = 1 := by rw [← hφ', hφ]
  have hw1 : w 0 = 1 := by
    have : IsUnit (w 0) := IsUnit.of_mul_eq_one _ hu
    exact zmod2_associated_iff.mp (associated_one_iff_isUnit.mpr this)
  have hM : ∀ j, toPoly (M 0 j) = toPoly f * c j := by
    intro j
    have := congrFun hw j
    rw [PMat.rowMap_apply, Fin.sum_univ_one, hw1, one_mul] at this
    simpa using this
  constructor
  · intro hp j
    rw [hM j]
    exact hp.mul_right _
  · intro hp
    choose y hy using hp
    have hrow : PMat.rowMap M (fun _ => 1) = p • y := by
      funext j
      rw [PMat.rowMap_apply, Fin.sum_univ_one, one_mul, hy j]
      simp
    have := congrFun (hκ fun _ => 1) 0
    rw [hrow, map_smul] at this
    simp at this
    exact ⟨_, this.symm⟩

/-- The hypotheses are met by documented encoders: `[[0b11, 0b101]]` is catastrophic (both polynomials are divisible by `1 + D`),
`[[0b111, 0b101]]` is not; for the rate 2/3 code of the documentation and for a feedback encoder all factors are 1. -/
example : (ConvCode.ofFeedforward ![![0b11, 0b101]]).isCatastrophic = some true ∧
    (ConvCode.ofFeedforward ![![0b111, 0b101]]).isCatastrophic = some false ∧
    (ConvCode.ofFeedforward ![![0b11, 0b10, 0b11], ![0b10, 0b1, 0b1]]).isCatastrophic = some false ∧
    (ConvCode.ofFeedforward ![![0b11, 0b101, 0], ![0, 0b11, 0b11]]).isCatastrophic = some true ∧
    (ConvCode.ofFeedforward ![![0b11, 0b101], ![0b11, 0b101]]).isCatastrophic = none ∧
    PMat.invariantFactors 2 3 ![![0b11, 0b10, 0b11], ![0b10, 0b1, 0b1]] = some [1, 1] ∧
    exampleFeedback.isCatastrophic = some false ∧ exampleHighRate.isCatastrophic = some false ∧
    (⟨![0b11, 0b101, 0b11]⟩ : LowRate 3).isCatastrophic = some true := by
  decide +kernel

end Komm
