import Verif.Model.FanoShannon
import Verif.Lemmas.HuffmanCode
import Mathlib.Analysis.SpecialFunctions.Log.Base

namespace Komm

theorem shannonLength_spec {p : ℚ} (hp : 0 < p) :
    1 ≤ shannonLength p ∧ (1 : ℚ) / 2 ^ shannonLength p ≤ p ∧
      (p < 1 → p < 2 / 2 ^ shannonLength p) := by
  have hinv : (0 : ℚ) < 1 / p := by positivity
  have h1 : (1 / p : ℚ) ≤ (2 : ℚ) ^ (Int.clog 2 (1 / p)) := by
    have := Int.self_le_zpow_clog (b := 2) (by norm_num) (1 / p)
    exact_mod_cast this
  have h2 : (2 : ℚ) ^ (Int.clog 2 (1 / p) - 1) < 1 / p := by
    have := Int.zpow_pred_clog_lt_self (b := 2) (by norm_num) hinv
    exact_mod_cast this
  have hl : ((shannonLength p : Nat) : ℤ) = max 1 (Int.clog 2 (1 / p)) := by
    unfold shannonLength
    rw [Int.toNat_of_nonneg (le_trans (by norm_num) (le_max_left _ _))]
  have hpow : (2 : ℚ) ^ shannonLength p = (2 : ℚ) ^ (max 1 (Int.clog 2 (1 / p))) := by
    rw [← hl, zpow_natCast]
  refine ⟨by omega, ?_, ?_⟩
  · rw [hpow]
    have h3 : (1 / p : ℚ) ≤ (2 : ℚ) ^ (max 1 (Int.clog 2 (1 / p))) :=
      h1.trans (zpow_le_zpow_right₀ (by norm_num) (le_max_right _ _))
    rw [div_le_iff₀ hp] at h3
    rw [div_le_iff₀ (by positivity)]
    linarith
  · intro hp1
    have hc : 1 ≤ Int.clog 2 (1 / p) := by
      by_contra hc
      have h4 : (2 : ℚ) ^ (Int.clog 2 (1 / p)) ≤ (2 : ℚ) ^ (0 : ℤ) :=
        zpow_le_zpow_right₀ (by norm_num) (by omega)
      rw [zpow_zero] at h4
      have h5 : (1 : ℚ) < 1 / p := by rw [lt_div_iff₀ hp]; linarith
      linarith
    rw [hpow, max_eq_right hc]
    rw [zpow_sub₀ (by norm_num), zpow_one, lt_div_iff₀ hp] at h2
    rw [lt_div_iff₀ (by positivity)]
    linarith

theorem blockProbabilities_pos {pmf : List ℚ} (hp : ∀ p ∈ pmf, 0 < p) (k : Nat) :
    ∀ p ∈ FVCode.blockProbabilities pmf k, 0 < p := by
  induction k with
  | zero => simp [FVCode.blockProbabilities]
  | succ k ih =>
    intro x hx
    obtain ⟨p, hpm, hx⟩ := List.mem_flatMap.mp hx
    obtain ⟨y, hy, rfl⟩ := List.mem_map.mp hx
    exact mul_pos (hp p hpm) (ih y hy)

theorem sum_flatMap_mul (A B : List ℚ) : (A.flatMap fun p => B.map (p * ·)).sum = A.sum * B.sum := by
  induction A with
  | nil => simp
  | cons a A ih => rw [List.flatMap_cons, List.sum_append, ih, List.sum_map_mul_left, List.map_id']; simp; ring

theorem blockProbabilities_sum (pmf : List ℚ) (k : Nat) :
    (FVCode.blockProbabilities pmf k).sum = pmf.sum ^ k := by
  induction k with
  | zero => simp [FVCode.blockProbabilities]
  | succ k ih => rw [FVCode.blockProbabilities, sum_flatMap_mul, ih, pow_succ']

theorem shannonCode_spec (pmf : List ℚ) (k : Nat) (hp : ∀ p ∈ pmf, 0 < p) (hsum : pmf.sum ≤ 1)
    (h2 : 2 ≤ pmf.length) (hk : 1 ≤ k) :
    ∃ c, shannonCode pmf k = some c ∧
      c.codewords.map List.length = (FVCode.blockProbabilities pmf k).map shannonLength ∧
      PrefixFree c.codewords ∧ (∀ w ∈ c.codewords, w ≠ [] ∧ ∀ a ∈ w, a < 2) ∧
      c.encMapping.map Prod.fst = allWords pmf.length k ∧ c.sourceBlockSize = k := by
  obtain ⟨j, rfl⟩ : ∃ j, k = j + 1 := ⟨k - 1, by omega⟩
  have hpos := blockProbabilities_pos hp (j + 1)
  have hsum0 : 0 ≤ pmf.sum := List.sum_nonneg (fun x hx => (hp x hx).le)
  have hlenB : (FVCode.blockProbabilities pmf (j + 1)).length = pmf.length ^ (j + 1) := by
    rw [← extendedPmf_eq, extendedPmf_length]
  have hl0 : ∀ l ∈ (FVCode.blockProbabilities pmf (j + 1)).map shannonLength, l ≠ 0 := by
    intro l hl
    obtain ⟨p, hpm, rfl⟩ := List.mem_map.mp hl
    have := (shannonLength_spec (hpos p hpm)).1
    omega
  have hkraft : kraftSum ((FVCode.blockProbabilities pmf (j + 1)).map shannonLength) 2 ≤ 1 := by
    rw [kraftSum_pos hl0, List.map_map]
    calc (List.map _ (FVCode.blockProbabilities pmf (j + 1))).sum
        ≤ (List.map id (FVCode.blockProbabilities pmf (j + 1))).sum := by
          apply List.sum_le_sum
          intro p hpm
          exact_mod_cast (shannonLength_spec (hpos p hpm)).2.1
      _ = pmf.sum ^ (j + 1) := by rw [List.map_id, blockProbabilities_sum]
      _ ≤ 1 := pow_le_one₀ hsum0 hsum
  obtain ⟨cs, hcs⟩ := (canonicalCode_isSome_iff _ 2 le_rfl).mpr ⟨by
    intro h
    have := congrArg List.length h
    rw [List.length_map, hlenB, List.length_nil] at this
    have : 0 < pmf.length ^ (j + 1) := Nat.pow_pos (by omega)
    omega, hkraft⟩
  obtain ⟨_, _, _, h3, h4, h5⟩ := canonicalCode_spec hcs
  have hlen : cs.length = pmf.length ^ (j + 1) := by
    have := congrArg List.length h3
    rw [List.length_map, List.length_map, hlenB] at this
    exact this
  obtain ⟨hc1, hc2, hc3⟩ := create_zip h2 le_rfl hk hlen h4
  refine ⟨⟨pmf.length, 2, j + 1, (allWords pmf.length (j + 1)).zip cs⟩, ?_, ?_⟩
  · unfold shannonCode
    rw [if_neg (by rw [not_not]; exact hp), if_neg (by omega), extendedPmf_eq, hcs]
    exact hc1
  · rw [hc2]
    refine ⟨h3, h5, ?_, hc3, rfl⟩
    intro w hw
    refine ⟨?_, h4 w hw⟩
    rintro rfl
    exact hl0 0 (by rw [← h3]; exact List.mem_map.mpr ⟨_, hw, rfl⟩) rfl

/-! ### entropy -/

/-- The entropy (in bits) of a list of probabilities. -/
noncomputable def entropyBits (l : List ℚ) : ℝ := (l.map fun p : ℚ => (p : ℝ) * Real.logb 2 (1 / (p : ℝ))).sum

theorem entropyBits_mul (A B : List ℚ) (hA : ∀ p ∈ A, 0 < p) (hB : ∀ p ∈ B, 0 < p) :
    entropyBits (A.flatMap fun p => B.map (p * ·)) =
      entropyBits A * ((B.sum : ℚ) : ℝ) + ((A.sum : ℚ) : ℝ) * entropyBits B := by
  have inner : ∀ (p : ℚ), 0 < p → ∀ B : List ℚ, (∀ q ∈ B, 0 < q) →
      entropyBits (B.map (p * ·)) =
        (p : ℝ) * Real.logb 2 (1 / (p : ℝ)) * ((B.sum : ℚ) : ℝ) + (p : ℝ) * entropyBits B := by
    intro p hp B hB
    induction B with
    | nil => simp [entropyBits]
    | cons q B ih =>
      have ih := ih (fun x hx => hB x (by simp [hx]))
      have hq := hB q (by simp)
      have hp' : (0 : ℝ) < (p : ℝ) := by exact_mod_cast hp
      have hq' : (0 : ℝ) < (q : ℝ) := by exact_mod_cast hq
      unfold entropyBits at ih ⊢
      simp only [List.map_cons, List.sum_cons]
      rw [ih]
      push_cast
      rw [show (1 : ℝ) / ((p : ℝ) * q) = (1 / p) * (1 / q) by field_simp,
        Real.logb_mul (by positivity) (by positivity)]
      ring
  induction A with
  | nil => simp [entropyBits]
  | cons p A ih =>
    have ih := ih (fun x hx => hA x (by simp [hx]))
    rw [List.flatMap_cons]
    have happ : ∀ X Y : List ℚ, entropyBits (X ++ Y) = entropyBits X + entropyBits Y := by
      intro X Y; simp [entropyBits]
    rw [happ, ih, inner p (hA p (by simp)) B hB]
    simp only [entropyBits, List.map_cons, List.sum_cons]
    push_cast
    ring

theorem entropyBits_block (pmf : List ℚ) (hp : ∀ p ∈ pmf, 0 < p) (hsum : pmf.sum = 1) (k : Nat) :
    entropyBits (FVCode.blockProbabilities pmf k) = k * entropyBits pmf := by
  induction k with
  | zero => simp [FVCode.blockProbabilities, entropyBits]
  | succ k ih =>
    rw [FVCode.blockProbabilities, entropyBits_mul _ _ hp (blockProbabilities_pos hp k), ih,
      blockProbabilities_sum, hsum]
    push_cast
    ring

theorem shannonLength_log {p : ℚ} (hp : 0 < p) :
    Real.logb 2 (1 / (p : ℝ)) ≤ shannonLength p ∧
      (p < 1 → (shannonLength p : ℝ) < Real.logb 2 (1 / (p : ℝ)) + 1) := by
  obtain ⟨_, h1, h2⟩ := shannonLength_spec hp
  have hp' : (0 : ℝ) < (p : ℝ) := by exact_mod_cast hp
  constructor
  · rw [Real.logb_le_iff_le_rpow (by norm_num) (by positivity), Real.rpow_natCast]
    have h3 : (((1 : ℚ) / 2 ^ shannonLength p : ℚ) : ℝ) ≤ (p : ℝ) := Rat.cast_le.mpr h1
    rw [Rat.cast_div, Rat.cast_one, Rat.cast_pow, Rat.cast_ofNat] at h3
    rw [div_le_iff₀ (by positivity)] at h3
    rw [div_le_iff₀ hp']
    linarith
  · intro hp1
    have h3 : (p : ℝ) < (((2 : ℚ) / 2 ^ shannonLength p : ℚ) : ℝ) := Rat.cast_lt.mpr (h2 hp1)
    rw [Rat.cast_div, Rat.cast_pow, Rat.cast_ofNat] at h3
    have h4 : (2 : ℝ) ^ shannonLength p < 2 * (1 / p) := by
      rw [lt_div_iff₀ (by positivity)] at h3
      rw [← mul_div_assoc, mul_one, lt_div_iff₀ hp']; linarith
    have h5 : Real.logb 2 ((2 : ℝ) ^ shannonLength p) < Real.logb 2 (2 * (1 / p)) :=
      Real.logb_lt_logb (by norm_num) (by positivity) h4
    rw [Real.logb_mul (by norm_num) (by positivity), Real.logb_self_eq_one (by norm_num),
      ← Real.rpow_natCast, Real.logb_rpow (by norm_num) (by norm_num)] at h5
    linarith

theorem shannon_bounds (B : List ℚ) (hB : ∀ p ∈ B, 0 < p) :
    entropyBits B ≤ ((List.zipWith (fun (l : Nat) (p : ℚ) => (l : ℚ) * p) (B.map shannonLength) B).sum : ℚ) ∧
    ((∀ p ∈ B, p < 1) → B ≠ [] →
      (((List.zipWith (fun (l : Nat) (p : ℚ) => (l : ℚ) * p) (B.map shannonLength) B).sum : ℚ) : ℝ) <
        entropyBits B + ((B.sum : ℚ) : ℝ)) := by
  induction B with
  | nil => simp [entropyBits]
  | cons p B ih =>
    obtain ⟨i1, i2⟩ := ih (fun x hx => hB x (by simp [hx]))
    have hp := hB p (by simp)
    have hp' : (0 : ℝ) < (p : ℝ) := by exact_mod_cast hp
    obtain ⟨l1, l2⟩ := shannonLength_log hp
    simp only [entropyBits, List.map_cons, List.sum_cons, List.zipWith_cons_cons] at i1 i2 ⊢
    rw [Rat.cast_add, Rat.cast_add, Rat.cast_mul, Rat.cast_natCast]
    constructor
    · nlinarith
    · intro h1 _
      have := l2 (h1 p (by simp))
      by_cases hne : B = []
      · subst hne
        simp only [List.map_nil, List.zipWith_nil_left, List.sum_nil, Rat.cast_zero, add_zero]
        nlinarith
      · have := i2 (fun q hq => h1 q (by simp [hq])) hne
        nlinarith

end Komm
