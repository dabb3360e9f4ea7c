import Verif.Model.DoubleLog
import Verif.Props.C135_DoublePam
import Verif.Props.C31_C34_LempelZiv
import Verif.Props.C114_LempelZivRate
import Verif.Lemmas.Shannon
import Verif.Props.C28_C30_Lossless
import Mathlib.Analysis.Complex.ExponentialBounds

/-! C136: sizes computed with floating-point logarithms.  The Lempel–Ziv codes compute the widths of their fields with `math.log(n, b)`, the Shannon codes their lengths with `np.log2`, the
Tunstall codes their default block size with `math.log2`.  For every logarithm that is accurate to one unit in the last place: the widths are never too small for fields of up to `2⁴⁴` values
(so that all round trips hold for these codes as they are computed), they are at most one symbol too large, and only when the number of values is an exact power of the base. -/
namespace Komm
open Filter Topology

theorem rnd_nat {n : Nat} (h : n ≤ 2 ^ 53) : rnd (n : ℝ) = n := by
  have := rnd_of_isDouble (isDouble_int (n : ℤ) (by rw [abs_of_nonneg (by positivity)]; exact_mod_cast h))
  simpa using this

theorem isDouble_nat {n : Nat} (h : n ≤ 2 ^ 53) : IsDouble (n : ℝ) := by
  have := isDouble_int (n : ℤ) (by rw [abs_of_nonneg (by positivity)]; exact_mod_cast h)
  simpa using this

theorem rnd_error_big {x : ℝ} (h : 1 / 2 ^ 100 ≤ x) : |rnd x - x| ≤ x / 2 ^ 53 := by
  have hx : 0 < x := lt_of_lt_of_le (by positivity) h
  rcases rnd_error_rel x with h1 | h1
  · rwa [abs_of_pos hx] at h1
  · exfalso
    rw [ulpExp] at h1
    have h2 : Int.log 2 |x| ≤ -1022 := by have := le_max_left (Int.log 2 |x| - 52) (-1074); omega
    have h3 : |x| < (2 : ℝ) ^ (Int.log 2 |x| + 1) := by exact_mod_cast Int.lt_zpow_succ_log_self (b := 2) (by norm_num) |x|
    have h4 : (2 : ℝ) ^ (Int.log 2 |x| + 1) ≤ 2 ^ (-100 : ℤ) := zpow_le_zpow_right₀ (by norm_num) (by omega)
    rw [abs_of_pos hx] at h3 h4
    have h5 : (2 : ℝ) ^ (-100 : ℤ) = 1 / 2 ^ 100 := by rw [zpow_neg, one_div]; norm_cast
    exact lt_irrefl _ (h3.trans_le (h4.trans (h5.le.trans h)))

/-- The error of `math.log(n, b)`: a relative error of at most `3 · 2⁻⁵²`. -/
theorem pyLog_error {L : ℝ → ℝ} (hL : LogAccurate L) {n b : Nat} (hn : 1 ≤ n) (hn' : n ≤ 2 ^ 53) (hb : 2 ≤ b) (hb' : b ≤ 2 ^ 53) :
    |pyLog L n b - Real.log n / Real.log b| ≤ 3 / 2 ^ 52 * (Real.log n / Real.log b) := by
  have hn1 : (1 : ℝ) ≤ n := by exact_mod_cast hn
  have hb1 : (2 : ℝ) ≤ b := by exact_mod_cast hb
  have e1 := hL n (isDouble_nat hn') hn1
  have e2 := hL b (isDouble_nat hb') (by linarith)
  rw [pyLog, rnd_nat hn', rnd_nat hb']
  have hbpos : 0 < Real.log b := Real.log_pos (by linarith)
  have hb3 : Real.log b ≤ 53 := by
    have h1 : Real.log b ≤ Real.log (2 ^ 53) := Real.log_le_log (by linarith) (by exact_mod_cast hb')
    rw [Real.log_pow] at h1
    have := Real.log_two_lt_d9
    push_cast at h1
    linarith
  generalize hA : L n = A at *
  generalize hB : L b = B at *
  generalize hN : Real.log n = N at *
  generalize hV : Real.log b = V at *
  have hN0 : 0 ≤ N := by rw [← hN]; exact Real.log_nonneg hn1
  rw [abs_le] at e1 e2
  have hBpos : 0 < B := by have : V / 2 ^ 52 ≤ V / 2 := div_le_div_of_nonneg_left hbpos.le (by norm_num) (by norm_num); linarith
  rcases Nat.eq_or_lt_of_le hn with h1 | h1
  · have hN0 : N = 0 := by rw [← hN, ← h1]; simp
    rw [hN0] at e1 ⊢
    have : A = 0 := by norm_num at e1; linarith
    rw [this, zero_div, rnd_zero]; simp
  · have hN2 : 1 / 2 ≤ N := by
      have h2 : Real.log 2 ≤ Real.log n := Real.log_le_log (by norm_num) (by exact_mod_cast h1)
      have := Real.log_two_gt_d9
      linarith
    -- the exact quotient of the two computed logarithms
    have q1 : N / V * (1 - 2 / 2 ^ 52) ≤ A / B := by
      rw [le_div_iff₀ hBpos]
      calc N / V * (1 - 2 / 2 ^ 52) * B ≤ N / V * (1 - 2 / 2 ^ 52) * (V * (1 + 1 / 2 ^ 52)) := by
            apply mul_le_mul_of_nonneg_left _ (mul_nonneg (div_nonneg hN0 hbpos.le) (by norm_num))
            linarith
        _ = N * ((1 - 2 / 2 ^ 52) * (1 + 1 / 2 ^ 52)) := by field_simp
        _ ≤ N * (1 - 1 / 2 ^ 52) := mul_le_mul_of_nonneg_left (by norm_num) hN0
        _ ≤ A := by linarith
    have q2 : A / B ≤ N / V * (1 + (2 + 1 / 4) / 2 ^ 52) := by
      rw [div_le_iff₀ hBpos]
      calc A ≤ N * (1 + 1 / 2 ^ 52) := by linarith
        _ ≤ N * ((1 + (2 + 1 / 4) / 2 ^ 52) * (1 - 1 / 2 ^ 52)) := mul_le_mul_of_nonneg_left (by norm_num) hN0
        _ = N / V * (1 + (2 + 1 / 4) / 2 ^ 52) * (V * (1 - 1 / 2 ^ 52)) := by field_simp
        _ ≤ _ := by
            apply mul_le_mul_of_nonneg_left _ (mul_nonneg (div_nonneg hN0 hbpos.le) (by norm_num))
            linarith
    have hr : 1 / 106 ≤ N / V := by rw [le_div_iff₀ hbpos]; linarith
    generalize N / V = r at *
    generalize A / B = q at *
    have hq : 1 / 2 ^ 100 ≤ q := by
      have : r * (1 / 2) ≤ r * (1 - 2 / 2 ^ 52) := mul_le_mul_of_nonneg_left (by norm_num) (by linarith)
      have : (1 : ℝ) / 2 ^ 100 ≤ 1 / 212 := by norm_num
      linarith
    have h3 := rnd_error_big hq
    rw [abs_le] at h3 ⊢
    constructor
    · have : q * (1 - 1 / 2 ^ 53) ≤ rnd q := by linarith
      have : r * (1 - 2 / 2 ^ 52) * (1 - 1 / 2 ^ 53) ≤ q * (1 - 1 / 2 ^ 53) := mul_le_mul_of_nonneg_right q1 (by norm_num)
      have : r * (1 - 3 / 2 ^ 52) ≤ r * ((1 - 2 / 2 ^ 52) * (1 - 1 / 2 ^ 53)) := mul_le_mul_of_nonneg_left (by norm_num) (by linarith)
      linarith
    · have : rnd q ≤ q * (1 + 1 / 2 ^ 53) := by linarith
      have : q * (1 + 1 / 2 ^ 53) ≤ r * (1 + (2 + 1 / 4) / 2 ^ 52) * (1 + 1 / 2 ^ 53) := mul_le_mul_of_nonneg_right q2 (by norm_num)
      have : r * ((1 + (2 + 1 / 4) / 2 ^ 52) * (1 + 1 / 2 ^ 53)) ≤ r * (1 + 3 / 2 ^ 52) := mul_le_mul_of_nonneg_left (by norm_num) (by linarith)
      linarith

/-- The gap between the logarithms of two different integers. -/
theorem log_gap {m n : Nat} (hm : 1 ≤ m) (h : m < n) : 1 / (n : ℝ) ≤ Real.log n - Real.log m := by
  have hm' : (0 : ℝ) < m := by exact_mod_cast hm
  have hn' : (0 : ℝ) < n := by exact_mod_cast (by omega : 0 < n)
  have h1 := Real.log_le_sub_one_of_pos (div_pos hm' hn')
  rw [Real.log_div hm'.ne' hn'.ne'] at h1
  have h2 : (m : ℝ) / n ≤ (n - 1) / n := div_le_div_of_nonneg_right (by
    have : ((m + 1 : ℕ) : ℝ) ≤ n := by exact_mod_cast h
    push_cast at this; linarith) hn'.le
  have h3 : ((n : ℝ) - 1) / n = 1 - 1 / n := by field_simp
  linarith

theorem log_small {n : Nat} (hn : 1 ≤ n) (h : n ≤ 2 ^ 44) : Real.log n ≤ 44 := by
  have h1 : Real.log n ≤ Real.log (2 ^ 44) := Real.log_le_log (by exact_mod_cast hn) (by exact_mod_cast h)
  rw [Real.log_pow] at h1
  have := Real.log_two_lt_d9
  push_cast at h1
  linarith

theorem lt_pyLog {L : ℝ → ℝ} (hL : LogAccurate L) {n b k : Nat} (hn' : n ≤ 2 ^ 44) (hb : 2 ≤ b) (hb' : b ≤ 2 ^ 53) (h : b ^ k < n) : (k : ℝ) < pyLog L n b := by
  have hn : 1 ≤ n := by omega
  have h1 := pyLog_error hL hn (by omega) hb hb'
  have h2 := log_gap (Nat.pow_pos (by omega)) h
  have h3 := log_small hn hn'
  have hV : 0 < Real.log b := Real.log_pos (by exact_mod_cast (by omega : 1 < b))
  have hnR : (n : ℝ) ≤ 2 ^ 44 := by exact_mod_cast hn'
  have hn0 : (0 : ℝ) < n := by exact_mod_cast hn
  have h4 : 1 / (2 : ℝ) ^ 44 ≤ 1 / n := one_div_le_one_div_of_le hn0 hnR
  push_cast at h2
  rw [Real.log_pow] at h2
  have h5 : 3 / 2 ^ 52 * (Real.log n / Real.log b) < Real.log n / Real.log b - k := by
    rw [← mul_div_assoc, div_lt_iff₀ hV, sub_mul, div_mul_cancel₀ _ hV.ne']
    have : 3 / 2 ^ 52 * Real.log n ≤ 3 / 2 ^ 52 * 44 := mul_le_mul_of_nonneg_left h3 (by norm_num)
    have : (3 : ℝ) / 2 ^ 52 * 44 < 1 / 2 ^ 44 := by norm_num
    linarith
  rw [abs_le] at h1
  linarith

theorem pyLog_lt {L : ℝ → ℝ} (hL : LogAccurate L) {n b k : Nat} (hn : 1 ≤ n) (hn' : n ≤ 2 ^ 44) (hb : 2 ≤ b) (hb' : b ≤ 2 ^ 53) (h : n < b ^ k) : pyLog L n b < k := by
  have h1 := pyLog_error hL hn (by omega) hb hb'
  have h2 := log_gap hn (Nat.lt_succ_self n)
  have h3 := log_small hn hn'
  have hV : 0 < Real.log b := Real.log_pos (by exact_mod_cast (by omega : 1 < b))
  have hnR : ((n + 1 : ℕ) : ℝ) ≤ 2 ^ 44 + 1 := by exact_mod_cast (by omega : n + 1 ≤ 2 ^ 44 + 1)
  have hn0 : (0 : ℝ) < (n + 1 : ℕ) := by exact_mod_cast (by omega)
  have h4 : 1 / ((2 : ℝ) ^ 44 + 1) ≤ 1 / (n + 1 : ℕ) := one_div_le_one_div_of_le hn0 hnR
  have h6 : Real.log (n + 1 : ℕ) ≤ Real.log (b ^ k : ℕ) := Real.log_le_log hn0 (by exact_mod_cast h)
  rw [Nat.cast_pow, Real.log_pow] at h6
  have h5 : 3 / 2 ^ 52 * (Real.log n / Real.log b) < k - Real.log n / Real.log b := by
    rw [← mul_div_assoc, div_lt_iff₀ hV, sub_mul, div_mul_cancel₀ _ hV.ne']
    have : 3 / 2 ^ 52 * Real.log n ≤ 3 / 2 ^ 52 * 44 := mul_le_mul_of_nonneg_left h3 (by norm_num)
    have : (3 : ℝ) / 2 ^ 52 * 44 < 1 / (2 ^ 44 + 1) := by norm_num
    linarith
  rw [abs_le] at h1
  linarith

/-- The widths that are computed: never too small, at most one too large, and exact unless the number of values is a power of the base. -/
theorem C136_width {L : ℝ → ℝ} (hL : LogAccurate L) {n b : Nat} (hn : 1 ≤ n) (hn' : n ≤ 2 ^ 44) (hb : 2 ≤ b) (hb' : b ≤ 2 ^ 53) :
    n ≤ b ^ widthD L b n ∧ Nat.clog b n ≤ widthD L b n ∧ widthD L b n ≤ Nat.clog b n + 1 ∧
    ((∀ k, n ≠ b ^ k) → widthD L b n = Nat.clog b n) := by
  have hge : n ≤ b ^ widthD L b n := by
    by_contra h
    have h1 := lt_pyLog hL hn' hb hb' (not_le.mp h)
    have h2 := Int.le_ceil (pyLog L n b)
    have h3 : ⌈pyLog L n b⌉ ≤ (widthD L b n : ℤ) := Int.self_le_toNat _
    have h4 : ((⌈pyLog L n b⌉ : ℤ) : ℝ) ≤ (widthD L b n : ℝ) := by exact_mod_cast h3
    linarith
  have hcl : Nat.clog b n ≤ widthD L b n := Nat.clog_le_of_le_pow hge
  have hup : n < b ^ Nat.clog b n → widthD L b n ≤ Nat.clog b n := by
    intro h
    have h1 := pyLog_lt hL hn hn' hb hb' h
    rw [widthD, Int.toNat_le, Int.ceil_le]
    exact_mod_cast h1.le
  have hle := Nat.le_pow_clog (by omega : 1 < b) n
  refine ⟨hge, hcl, ?_, fun h => le_antisymm (hup (lt_of_le_of_ne hle (h _))) hcl⟩
  have h1 := pyLog_lt hL hn hn' hb hb' (k := Nat.clog b n + 1) (lt_of_le_of_lt hle (Nat.pow_lt_pow_right (by omega) (by omega)))
  rw [widthD, Int.toNat_le, Int.ceil_le]
  exact_mod_cast h1.le

/-- The computed widths up to `2⁴⁴`, the exact ones above. -/
noncomputable def patched (L : ℝ → ℝ) (b n : Nat) : Nat := if n ≤ 2 ^ 44 then widthD L b n else Nat.clog b n

theorem patched_fieldWidth {L : ℝ → ℝ} (hL : LogAccurate L) {b : Nat} (hb : 2 ≤ b) (hb' : b ≤ 2 ^ 53) : FieldWidth b 1 (patched L b) := by
  intro n hn
  unfold patched
  split
  · rename_i h
    obtain ⟨h1, -, h3, -⟩ := C136_width hL hn h hb hb'
    exact ⟨h1, h3⟩
  · exact ⟨clog_sufficient hb n hn, by omega⟩

theorem patched_eq (L : ℝ → ℝ) (b : Nat) {n : Nat} (h : n ≤ 2 ^ 44) : patched L b n = widthD L b n := if_pos h

theorem lzwEncodeLoop_width {b N : Nat} {w w' : Nat → Nat} (h : ∀ n ≤ N, w n = w' n) : ∀ (input : List Nat) (D : List Word) (word : Word), D.length + input.length ≤ N →
    lzwEncodeLoop b w D word input = lzwEncodeLoop b w' D word input := by
  intro input
  induction input with
  | nil => intro D word hN; rw [lzwEncodeLoop, lzwEncodeLoop, h _ (by simpa using hN)]
  | cons a input ih =>
    intro D word hN
    rw [List.length_cons] at hN
    rw [lzwEncodeLoop, lzwEncodeLoop, h D.length (by omega), ih D _ (by omega), ih (D ++ [word ++ [a]]) _ (by simp; omega)]

theorem lzwDecodeLoop_width {b N : Nat} {w w' : Nat → Nat} (h : ∀ n ≤ N, w n = w' n) : ∀ (fuel : Nat) (D : List Word) (old : Word) (input out : List Nat),
    (∀ x ∈ D, x ≠ []) → old ≠ [] → D.length + 1 + out.length ≤ N → lzwDecodeLoop b w' fuel D old input = some out → lzwDecodeLoop b w fuel D old input = some out := by
  intro fuel
  induction fuel with
  | zero => intro D old input out _ _ _ h'; rw [lzwDecodeLoop] at h'; cases h'
  | succ fuel ih =>
    intro D old input out hD hold hN h'
    rw [lzwDecodeLoop] at h' ⊢
    rw [h _ (by omega)]
    dsimp only at h' ⊢
    split at h'
    · rename_i hk; rw [if_pos hk]; exact h'
    · rename_i hk
      rw [if_neg hk]
      generalize hwd : (D[symbolsToInteger (input.take (w' (D.length + 1))) b]?).getD (old ++ old.take 1) = word at h' ⊢
      have hne : word ≠ [] := by
        rw [← hwd]
        cases hg : D[symbolsToInteger (input.take (w' (D.length + 1))) b]? with
        | none => simpa using hold
        | some x => exact hD x (List.mem_of_getElem? hg)
      have hpos := List.length_pos_of_ne_nil hne
      split at h'
      · cases h'
      · rename_i out' he
        cases h'
        rw [ih _ _ _ out' ?_ hne ?_ he]
        · intro x hx
          rcases List.mem_append.mp hx with hx | hx
          · exact hD x hx
          · rw [List.mem_singleton] at hx; rw [hx]; simp [hold]
        · simp only [List.length_append, List.length_singleton] at hN ⊢; omega

theorem lz78TargetLoop_width {b M N : Nat} {w w' : Nat → Nat} (h : ∀ n ≤ N, w n = w' n) : ∀ (tokens : List (Nat × Int)) (i : Nat), i + tokens.length ≤ N →
    lz78TargetLoop b w M i tokens = lz78TargetLoop b w' M i tokens := by
  intro tokens
  induction tokens with
  | nil => intro i _; rfl
  | cons t tokens ih =>
    intro i hN
    obtain ⟨p, x⟩ := t
    rw [List.length_cons] at hN
    rw [lz78TargetLoop, lz78TargetLoop, h (i + 1) (by omega), ih (i + 1) (by omega)]

theorem lz78ParseLoop_width {b M N : Nat} {w w' : Nat → Nat} (h : ∀ n ≤ N, w n = w' n) : ∀ (fuel n : Nat) (target : List Nat) (tokens : List (Nat × Int)), n + tokens.length ≤ N →
    lz78ParseLoop b w' M fuel n target = some tokens → lz78ParseLoop b w M fuel n target = some tokens := by
  intro fuel
  induction fuel with
  | zero =>
    intro n target tokens _ h'
    cases target with
    | nil => rw [lz78ParseLoop] at h' ⊢; exact h'
    | cons a target => rw [lz78ParseLoop] at h'; cases h'
  | succ fuel ih =>
    intro n target tokens hN h'
    cases target with
    | nil => rw [lz78ParseLoop] at h' ⊢; exact h'
    | cons a target =>
      rw [lz78ParseLoop] at h' ⊢
      split at h'
      · cases h'
      · rename_i ts he
        cases h'
        rw [List.length_cons] at hN
        rw [h (n + 1) (by omega), ih _ _ ts (by omega) he]

theorem lz78Tokens_length : ∀ (source : List Nat) (D : List Word) (word : Word) (tokens : List (Nat × Int)), lz78TokensLoop D word source = some tokens →
    tokens.length ≤ source.length + (if word = [] then 0 else 1) := by
  intro source
  induction source with
  | nil =>
    intro D word tokens h
    rw [lz78TokensLoop] at h
    split at h
    · cases h; simp
    · rename_i hw
      split at h
      · cases h
      · cases h; simp [hw]
  | cons a source ih =>
    intro D word tokens h
    rw [lz78TokensLoop] at h
    rw [List.length_cons]
    split at h
    · have := ih _ _ _ h; rw [if_neg (by simp)] at this; omega
    · split at h
      · cases h
      · split at h
        · cases h
        · rename_i ts he
          cases h
          have := ih _ _ _ he
          rw [if_pos rfl] at this
          rw [List.length_cons]
          split <;> omega

/-- LZ77 and LZSS, with the widths as they are computed: `decode(encode(x)) == x` when the buffers and the alphabet have at most `2⁴⁴` elements. -/
theorem C136_lz77_lzss {L : ℝ → ℝ} (hL : LogAccurate L) {ss ls calX calY : Nat} {sb : Option (List Nat)} {c : LZParams} (hc : LZParams.create ss ls calX calY sb = some c)
    (hsb : ∀ b ∈ c.searchBuffer, b < 256) (h1 : ss ≤ 2 ^ 44) (h2 : ls ≤ 2 ^ 44) (h3 : calX ≤ 2 ^ 44) (h4 : calY ≤ 2 ^ 53) (source : List Nat) (hx : ∀ s ∈ source, s < calX)
    (hx' : ∀ s ∈ source, s < 256) :
    (∃ target, lz77Encode c (widthD L calY) source = some target ∧ lz77Decode c (widthD L calY) target = some source) ∧
    ∃ target, lzssEncode c (widthD L calY) source = some target ∧ lzssDecode c (widthD L calY) target = some source ∧
      target.length ≤ source.length * (1 + widthD L calY calX) := by
  obtain ⟨-, -, -, f4, -, g1, g2, g3, g4, -⟩ := create_facts hc
  have hw := patched_fieldWidth hL (g4 ▸ f4) h4
  have e1 : patched L calY c.searchSize = widthD L calY c.searchSize := patched_eq _ _ (by omega)
  have e2 : patched L calY c.lookaheadSize = widthD L calY c.lookaheadSize := patched_eq _ _ (by omega)
  have e3 : patched L calY c.sourceCardinality = widthD L calY c.sourceCardinality := patched_eq _ _ (by omega)
  constructor
  · obtain ⟨t, a1, a2⟩ := C31_lz77_roundtrip hc hsb (patched L calY) (fun n hn => (hw n hn).1) source hx hx'
    refine ⟨t, ?_, ?_⟩
    · rw [← a1, lz77Encode, lz77Encode]
      congr 1
      funext ts
      rw [lz77TokensToTarget, lz77TokensToTarget, e1, e2, e3]
    · rw [← a2, lz77Decode, lz77Decode, lz77TargetToTokens, lz77TargetToTokens, e1, e2, e3]
  · obtain ⟨t, a1, a2, a3⟩ := C32_lzss_roundtrip hc hsb (patched L calY) (fun n hn => (hw n hn).1) source hx hx'
    have e4 : lzssBreakEven c (patched L calY) = lzssBreakEven c (widthD L calY) := by rw [lzssBreakEven, lzssBreakEven, e1, e2, e3]
    have e5 : lzssTokensToTarget c (patched L calY) = lzssTokensToTarget c (widthD L calY) := by
      funext ts
      rw [lzssTokensToTarget, lzssTokensToTarget]
      congr 1
      funext t
      cases t <;> rw [lzssTokenSymbols, lzssTokenSymbols] <;> simp only [e1, e2, e3]
    refine ⟨t, ?_, ?_, ?_⟩
    · rw [← a1, lzssEncode, lzssEncode, e5, lzssSourceToTokens, lzssSourceToTokens, e4]
    · rw [← a2, lzssDecode, lzssDecode, lzssTargetToTokens, lzssTargetToTokens, e1, e2, e3]
    · rw [← g3, ← e3, g3]; exact a3

/-- LZ78, encoder: for an input of at most `2⁴⁴` symbols the output is that of exact widths with at most one extra symbol per pointer. -/
theorem lz78_same {L : ℝ → ℝ} {calX calY : Nat} (h3 : calX ≤ 2 ^ 44) (source : List Nat) (hl : source.length ≤ 2 ^ 44) :
    lz78Encode calX calY (widthD L calY) source = lz78Encode calX calY (patched L calY) source := by
  rw [lz78Encode, lz78Encode]
  cases h : lz78SourceToTokens calX source with
  | none => rfl
  | some tokens =>
    rw [Option.map_some, Option.map_some, lz78TokensToTarget, lz78TokensToTarget, patched_eq _ _ h3]
    rw [lz78SourceToTokens] at h
    split at h
    · cases h
    · have := lz78Tokens_length source _ _ _ h
      rw [if_pos rfl] at this
      rw [lz78TargetLoop_width (N := 2 ^ 44) (fun n hn => (patched_eq L calY hn).symm) tokens 0 (by omega)]

theorem lzw_same {L : ℝ → ℝ} {calX calY : Nat} (source : List Nat) (hl : calX + source.length ≤ 2 ^ 44) :
    lzwEncode calX calY (widthD L calY) source = lzwEncode calX calY (patched L calY) source := by
  rw [lzwEncode, lzwEncode, lzwEncodeLoop_width (N := 2 ^ 44) (fun n hn => (patched_eq L calY hn).symm) source _ _ (by simpa using hl)]

/-- LZ78, with the widths as they are computed: `decode(encode(x)) == x` for every input of at most `2⁴⁴` symbols. -/
theorem C136_lz78 {L : ℝ → ℝ} (hL : LogAccurate L) {calX calY : Nat} (hX : 2 ≤ calX) (h3 : calX ≤ 2 ^ 44) (hY : 2 ≤ calY) (h4 : calY ≤ 2 ^ 53) (source : List Nat)
    (hx : ∀ s ∈ source, s < calX) (hl : source.length ≤ 2 ^ 44) :
    ∃ target, lz78Encode calX calY (widthD L calY) source = some target ∧ lz78Decode calX calY (widthD L calY) target = some (source.map fun n : Nat => (n : Int)) := by
  have hw := patched_fieldWidth hL hY h4
  obtain ⟨tokens, a1, a2, a3⟩ := C33_lz78_layers hX (patched L calY) (fun n hn => (hw n hn).1) source hx
  have hlen : tokens.length ≤ source.length := by
    have a1' := a1
    rw [lz78SourceToTokens, if_neg (by rw [not_not]; exact hx)] at a1'
    simpa using lz78Tokens_length source _ _ _ a1'
  refine ⟨_, by rw [lz78_same h3 source hl, lz78Encode, a1, Option.map_some], ?_⟩
  rw [lz78Decode, lz78TargetToTokens]
  rw [lz78TargetToTokens, patched_eq _ _ h3] at a3
  rw [lz78ParseLoop_width (N := 2 ^ 44) (fun n hn => (patched_eq L calY hn).symm) _ 0 _ tokens (by omega) a3, Option.bind_some, a2]

/-- LZW, with the widths as they are computed: `decode(encode(x)) == x` when the alphabet and the input together have fewer than `2⁴⁴` symbols. -/
theorem C136_lzw {L : ℝ → ℝ} (hL : LogAccurate L) {calX calY : Nat} (hX : 2 ≤ calX) (hY : 2 ≤ calY) (h4 : calY ≤ 2 ^ 53) (source : List Nat)
    (hx : ∀ s ∈ source, s < calX) (hl : calX + source.length < 2 ^ 44) :
    ∃ target, lzwEncode calX calY (widthD L calY) source = some target ∧ lzwDecode calX calY (widthD L calY) target = some source := by
  have hw := patched_fieldWidth hL hY h4
  obtain ⟨t, a1, a2⟩ := C34_lzw_roundtrip hX (patched L calY) (fun n hn => (hw n hn).1) source hx
  refine ⟨t, by rw [lzw_same source (by omega), a1], ?_⟩
  rw [lzwDecode] at a2 ⊢
  split at a2
  · rename_i h; rw [if_pos h]; exact a2
  · rename_i h
    rw [if_neg h]
    dsimp only at a2 ⊢
    rw [patched_eq _ _ (by omega)] at a2
    split at a2
    · cases a2
    · rename_i old ho
      have hold : old ≠ [] := by
        have := List.mem_of_getElem? ho
        obtain ⟨s, -, rfl⟩ := List.mem_map.mp this
        simp
      split at a2
      · cases a2
      · rename_i out he
        rw [Option.some_inj] at a2
        have hlen := congrArg List.length a2
        rw [List.length_append] at hlen
        rw [lzwDecodeLoop_width (N := 2 ^ 44) (fun n hn => (patched_eq L calY hn).symm) _ _ old _ out ?_ hold ?_ he]
        · exact congrArg some a2
        · intro x hx
          obtain ⟨s, -, rfl⟩ := List.mem_map.mp hx
          simp
        · simp; omega

/-- The compression that the Lempel–Ziv codes achieve does not suffer: for every finite-state source, the codes with the computed widths use at most the negative log-probability plus a vanishing
number of target symbols per source symbol (one redundancy `δ` for all accurate logarithms and all inputs of fewer than `2⁴⁴` symbols). -/
theorem C136_redundancy (q b s : Nat) (hq : 2 ≤ q) (h3 : q ≤ 2 ^ 44) (hb : 2 ≤ b) (hb' : b ≤ 2 ^ 53) :
    ∃ δ : ℕ → ℝ, Tendsto δ atTop (𝓝 0) ∧ ∀ L, LogAccurate L → ∀ (F : FSource (Fin s) q) (s0 : Fin s) (x : List Nat), (∀ a ∈ x, a < q) → q + x.length ≤ 2 ^ 44 →
      0 < F.wordProb s0 x → ∃ out out', lz78Encode q b (widthD L b) x = some out ∧ lzwEncode q b (widthD L b) x = some out' ∧
        (out.length : ℝ) ≤ -Real.logb b (F.wordProb s0 x) + x.length * δ x.length ∧ (out'.length : ℝ) ≤ -Real.logb b (F.wordProb s0 x) + x.length * δ x.length := by
  obtain ⟨δ, h1, h2⟩ := C114_lz78_universal q b s 1 hq hb
  obtain ⟨δ', h1', h2'⟩ := C114_lzw_universal q b s 1 hq hb
  refine ⟨fun n => max (δ n) (δ' n), by simpa using h1.max h1', fun L hL F s0 x hx hl hp => ?_⟩
  obtain ⟨o, a1, a2⟩ := h2 (patched L b) (patched_fieldWidth hL hb hb') F s0 x hx hp
  obtain ⟨o', a1', a2'⟩ := h2' (patched L b) (patched_fieldWidth hL hb hb') F s0 x hx hp
  refine ⟨o, o', by rw [lz78_same h3 x (by omega), a1], by rw [lzw_same x hl, a1'], a2.trans ?_, a2'.trans ?_⟩
  · have := mul_le_mul_of_nonneg_left (le_max_left (δ x.length) (δ' x.length)) (Nat.cast_nonneg x.length (α := ℝ)); linarith
  · have := mul_le_mul_of_nonneg_left (le_max_right (δ x.length) (δ' x.length)) (Nat.cast_nonneg x.length (α := ℝ)); linarith

/-! ### Shannon codes -/

/-- Whatever logarithm is used: the constructor succeeds exactly when the computed lengths satisfy Kraft's inequality, and every code that is constructed is prefix-free, as `is_prefix_free()`
and `is_uniquely_decodable()` answer without looking. -/
theorem C136_shannon_any (L2 : ℝ → ℝ) (pmf : List Double) (k : Nat) (hpos : ∀ p ∈ pmf, 0 < p.val) (h2 : 2 ≤ pmf.length) (hk : 1 ≤ k)
    (hr : ∀ p ∈ extendedPmf pmf k, p.val ≠ 0 ∧ rnd (1 / p.val) < 2 ^ 1024) :
    ((shannonCodeD L2 pmf k).isSome = true ↔ (((extendedPmf pmf k).map fun p => (1 / 2 : ℚ) ^ shannonLengthD L2 p).sum ≤ 1)) ∧
    ∀ c, shannonCodeD L2 pmf k = some c →
      PrefixFree c.codewords ∧ c.codewords.map List.length = (extendedPmf pmf k).map (shannonLengthD L2) ∧ c.encMapping.map Prod.fst = allWords pmf.length k := by
  obtain ⟨j, rfl⟩ : ∃ j, k = j + 1 := ⟨k - 1, by omega⟩
  have hl0 : ∀ l ∈ (extendedPmf pmf (j + 1)).map (shannonLengthD L2), l ≠ 0 := by
    intro l hl
    obtain ⟨p, -, rfl⟩ := List.mem_map.mp hl
    have : (1 : ℤ) ≤ max 1 ⌈L2 (rnd (1 / p.val))⌉ := le_max_left _ _
    rw [shannonLengthD]; omega
  have hkr : kraftSum ((extendedPmf pmf (j + 1)).map (shannonLengthD L2)) 2 = ((extendedPmf pmf (j + 1)).map fun p => (1 / 2 : ℚ) ^ shannonLengthD L2 p).sum := by
    rw [kraftSum_pos hl0, List.map_map]
    congr 1
    refine List.map_congr_left fun p _ => ?_
    simp [one_div, inv_pow]
  have hunf : shannonCodeD L2 pmf (j + 1) = (match canonicalCode ((extendedPmf pmf (j + 1)).map (shannonLengthD L2)) with
      | none => none
      | some codewords => FVCode.create pmf.length 2 (j + 1) (dictOfPairs ((allWords pmf.length (j + 1)).zip codewords))) := by
    have hn : ¬ ∃ p ∈ extendedPmf pmf (j + 1), p.val = 0 ∨ 2 ^ 1024 ≤ rnd (1 / p.val) := by
      rintro ⟨p, hp, h⟩
      rcases h with h | h
      · exact (hr p hp).1 h
      · exact absurd h (not_le.mpr (hr p hp).2)
    rw [shannonCodeD, if_neg (not_not.mpr hpos), if_neg (by omega), if_neg hn]
    cases canonicalCode ((extendedPmf pmf (j + 1)).map (shannonLengthD L2)) <;> rfl
  have hiff := canonicalCode_isSome_iff ((extendedPmf pmf (j + 1)).map (shannonLengthD L2)) 2 le_rfl
  have hlenE := extendedPmf_length pmf j
  have hne : (extendedPmf pmf (j + 1)).map (shannonLengthD L2) ≠ [] := by
    intro h
    have := congrArg List.length h
    rw [List.length_map, hlenE, List.length_nil] at this
    have : 0 < pmf.length ^ (j + 1) := Nat.pow_pos (by omega)
    omega
  cases hcs : canonicalCode ((extendedPmf pmf (j + 1)).map (shannonLengthD L2)) with
  | none =>
    rw [hcs] at hunf
    rw [hunf]
    refine ⟨⟨fun h => ?_, fun h => ?_⟩, fun c h => ?_⟩
    · simp at h
    · obtain ⟨cs, h'⟩ := hiff.mpr ⟨hne, hkr ▸ h⟩
      rw [hcs] at h'; cases h'
    · simp at h
  | some cs =>
    obtain ⟨_, _, hK, h3, h4, h5⟩ := canonicalCode_spec hcs
    have hlen : cs.length = pmf.length ^ (j + 1) := by
      have := congrArg List.length h3
      rwa [List.length_map, List.length_map, hlenE] at this
    obtain ⟨hc1, hc2, hc3⟩ := create_zip h2 le_rfl hk hlen h4
    rw [hcs] at hunf
    dsimp only at hunf
    rw [hunf, hc1]
    refine ⟨⟨fun _ => hkr ▸ hK, fun _ => rfl⟩, fun c h => ?_⟩
    cases h
    exact ⟨hc2.symm ▸ h5, by rw [hc2]; exact h3, hc3⟩

/-- The probabilities whose Shannon length is computed reliably: a power of two, or not too near one. -/
def FarFromPowers (p : ℝ) : Prop := (∃ k : Nat, p = 1 / 2 ^ k) ∨ ∀ k : Nat, 1 / 2 ^ 40 < |p * 2 ^ k - 1|

theorem logb_gap {y : ℝ} (hy : 0 < y) (h : 1 / 2 ^ 40 < |y - 1|) : 1 / 2 ^ 41 < |Real.logb 2 y| := by
  have hl2 : (0 : ℝ) < Real.log 2 := Real.log_pos (by norm_num)
  have hl2' : Real.log 2 ≤ 1 := by have := Real.log_two_lt_d9; linarith
  have h1 : |Real.log y| ≤ |Real.logb 2 y| := by
    rw [Real.logb, abs_div, abs_of_pos hl2]
    exact le_div_self (abs_nonneg _) hl2 hl2'
  refine lt_of_lt_of_le ?_ h1
  rcases le_or_gt y 1 with h2 | h2
  · have := Real.log_le_sub_one_of_pos hy
    rw [abs_of_nonpos (by linarith : y - 1 ≤ 0)] at h
    rw [abs_of_nonpos (Real.log_nonpos hy.le h2)]
    have : (1 : ℝ) / 2 ^ 41 < 1 / 2 ^ 40 := by norm_num
    linarith
  · have h3 := Real.log_le_sub_one_of_pos (inv_pos.mpr hy)
    rw [Real.log_inv] at h3
    rw [abs_of_pos (by linarith : 0 < y - 1)] at h
    rw [abs_of_pos (Real.log_pos h2)]
    have h4 : y⁻¹ < 1 - 1 / 2 ^ 41 := by
      rw [inv_lt_comm₀ hy (by norm_num)]
      have : ((1 : ℝ) - 1 / 2 ^ 41)⁻¹ < 1 + 1 / 2 ^ 40 := by norm_num
      linarith
    linarith

/-- The computed length of a symbol is the exact one: the least `ℓ ≥ 1` with `2^-ℓ ≤ p`. -/
theorem C136_shannon_length {L2 : ℝ → ℝ} (hL : Log2Accurate L2) (p : Double) (h1 : 1 / 2 ^ 1000 ≤ p.val) (h2 : p.val ≤ 1) (hp : FarFromPowers p.val) :
    IsLeast {l : Nat | 1 ≤ l ∧ 1 / 2 ^ l ≤ p.val} (shannonLengthD L2 p) := by
  have hpos : 0 < p.val := lt_of_lt_of_le (by positivity) h1
  rcases hp with ⟨k, hk⟩ | hfar
  · have hk1000 : k ≤ 1000 := by
      rw [hk, one_div_le_one_div (by positivity) (by positivity)] at h1
      exact (pow_le_pow_iff_right₀ (by norm_num : (1 : ℝ) < 2)).mp h1
    have hd : IsDouble ((2 : ℝ) ^ k) := ⟨1, k, by norm_num, by omega, by simp⟩
    have : shannonLengthD L2 p = max 1 k := by
      rw [shannonLengthD, hk, one_div_one_div, rnd_of_isDouble hd, hL.2 k (by omega), Int.ceil_natCast]
      omega
    rw [this, hk]
    constructor
    · exact ⟨le_max_left _ _, one_div_le_one_div_of_le (by positivity) (pow_le_pow_right₀ (by norm_num) (le_max_right _ _))⟩
    · rintro l ⟨a1, a2⟩
      rw [one_div_le_one_div (by positivity) (by positivity)] at a2
      exact max_le a1 ((pow_le_pow_iff_right₀ (by norm_num : (1 : ℝ) < 2)).mp a2)
  · obtain ⟨r, hr⟩ : ∃ r, r = Real.logb 2 (1 / p.val) := ⟨_, rfl⟩
    have hinv : 1 ≤ 1 / p.val := by rw [le_div_iff₀ hpos]; linarith
    have hgap : ∀ k : Nat, 1 / 2 ^ 41 < |r - k| := by
      intro k
      have := logb_gap (mul_pos hpos (by positivity : (0 : ℝ) < 2 ^ k)) (hfar k)
      rw [Real.logb_mul hpos.ne' (by positivity), Real.logb_pow, Real.logb_self_eq_one (by norm_num), mul_one] at this
      rw [hr, one_div p.val, Real.logb_inv, ← neg_add', abs_neg]
      exact this
    have hx1 : 1 ≤ rnd (1 / p.val) := by
      have := rnd_mono hinv
      rwa [rnd_of_isDouble ⟨1, 0, by norm_num, by norm_num, by simp⟩] at this
    have herr : |L2 (rnd (1 / p.val)) - r| ≤ 1 / 2 ^ 41 := by
      have e1 := hL.1 _ (rnd_isDouble (1 / p.val)) hx1
      have e2 := rnd_error_big (x := 1 / p.val) (by linarith [(by norm_num : (1 : ℝ) / 2 ^ 100 ≤ 1)])
      generalize hx : rnd (1 / p.val) = x at *
      -- the logarithm of the rounded inverse
      obtain ⟨y, hy⟩ : ∃ y, y = x * p.val := ⟨_, rfl⟩
      have hy1 : |y - 1| ≤ 1 / 2 ^ 53 := by
        have : y - 1 = (x - 1 / p.val) * p.val := by rw [hy]; field_simp
        rw [this, abs_mul, abs_of_pos hpos]
        calc |x - 1 / p.val| * p.val ≤ 1 / p.val / 2 ^ 53 * p.val := mul_le_mul_of_nonneg_right e2 hpos.le
          _ = 1 / 2 ^ 53 := by field_simp
      rw [abs_le] at hy1
      have hy0 : 0 < y := by have : (1 : ℝ) / 2 ^ 53 < 1 := by norm_num
                             linarith
      have hxr : Real.logb 2 x = r + Real.logb 2 y := by
        rw [hy, hr, ← Real.logb_mul (by positivity) (by rw [← hy]; exact hy0.ne')]
        congr 1
        field_simp
      have hl2 : (0 : ℝ) < Real.log 2 := Real.log_pos (by norm_num)
      have hl2' := Real.log_two_gt_d9
      have hly : |Real.logb 2 y| ≤ 1 / 2 ^ 51 := by
        rw [Real.logb, abs_div, abs_of_pos hl2, div_le_iff₀ hl2, abs_le]
        have u := Real.log_le_sub_one_of_pos hy0
        have v := Real.log_le_sub_one_of_pos (inv_pos.mpr hy0)
        rw [Real.log_inv] at v
        have v2 : y⁻¹ ≤ 1 + 1 / 2 ^ 52 := by
          rw [inv_le_comm₀ hy0 (by norm_num)]
          have : ((1 : ℝ) + 1 / 2 ^ 52)⁻¹ ≤ 1 - 1 / 2 ^ 53 := by norm_num
          linarith
        have w : (1 : ℝ) / 2 ^ 51 * (1 / 2) ≤ 1 / 2 ^ 51 * Real.log 2 := mul_le_mul_of_nonneg_left (by linarith) (by norm_num)
        have z1 : (1 : ℝ) / 2 ^ 51 * (1 / 2) = 1 / 2 ^ 52 := by norm_num
        have z2 : (1 : ℝ) / 2 ^ 53 ≤ 1 / 2 ^ 52 := by norm_num
        constructor <;> linarith
      have hr1000 : r ≤ 1000 := by
        rw [hr]
        have : Real.logb 2 (1 / p.val) ≤ Real.logb 2 (2 ^ 1000) :=
          Real.logb_le_logb_of_le (by norm_num) (by positivity) (by rw [div_le_comm₀ hpos (by positivity)]; exact h1)
        rwa [Real.logb_pow, Real.logb_self_eq_one (by norm_num), mul_one] at this
      rw [hxr] at e1
      rw [abs_le] at e1 hly ⊢
      have c0 : r + Real.logb 2 y ≤ 1001 := by
        have : (1 : ℝ) / 2 ^ 51 ≤ 1 := by norm_num
        linarith
      have c1 : (r + Real.logb 2 y) / 2 ^ 52 ≤ 1001 / 2 ^ 52 := div_le_div_of_nonneg_right c0 (by positivity)
      have c2 : (1001 : ℝ) / 2 ^ 52 + 1 / 2 ^ 51 ≤ 1 / 2 ^ 41 := by norm_num
      constructor <;> linarith
    have hle : ∀ l : Nat, 1 / 2 ^ l ≤ p.val ↔ r ≤ l := by
      intro l
      rw [hr, Real.logb_le_iff_le_rpow (by norm_num) (by positivity), Real.rpow_natCast, div_le_comm₀ (by positivity) hpos]
    have hlen : ((shannonLengthD L2 p : Nat) : ℤ) = max 1 ⌈L2 (rnd (1 / p.val))⌉ := by
      rw [shannonLengthD, Int.toNat_of_nonneg (le_trans (by norm_num) (le_max_left _ _))]
    rw [abs_le] at herr
    constructor
    · refine ⟨by have : (1 : ℤ) ≤ max 1 ⌈L2 (rnd (1 / p.val))⌉ := le_max_left _ _
                 omega, ?_⟩
      rw [hle]
      by_contra hc
      have g := hgap (shannonLengthD L2 p)
      rw [abs_of_pos (by linarith)] at g
      have : ⌈L2 (rnd (1 / p.val))⌉ ≤ (shannonLengthD L2 p : ℤ) := by rw [hlen]; exact le_max_right _ _
      have := Int.ceil_le.mp this
      push_cast at this
      linarith
    · rintro l ⟨a1, a2⟩
      rw [hle] at a2
      have g := hgap l
      rw [abs_of_nonpos (by linarith)] at g
      have : ⌈L2 (rnd (1 / p.val))⌉ ≤ (l : ℤ) := Int.ceil_le.mpr (by push_cast; linarith)
      have : ((shannonLengthD L2 p : Nat) : ℤ) ≤ l := by rw [hlen]; exact max_le (by exact_mod_cast a1) this
      exact_mod_cast this

open Classical in
/-- The constructor of the Shannon code of single symbols succeeds, also when the probabilities, which are doubles, add up to slightly more than one: the codewords have the exact lengths. -/
theorem C136_shannon_succeeds {L2 : ℝ → ℝ} (hL : Log2Accurate L2) (pmf : List Double) (hlen : 2 ≤ pmf.length)
    (h1 : ∀ p ∈ pmf, 1 / 2 ^ 1000 ≤ p.val ∧ p.val ≤ 1 ∧ FarFromPowers p.val)
    (hs : (pmf.map Double.val).sum ≤ 1 + (pmf.map fun p => if ∃ k : Nat, p.val = 1 / 2 ^ k then 0 else p.val).sum / 2 ^ 41) :
    ∃ c, shannonCodeD L2 pmf 1 = some c ∧ PrefixFree c.codewords ∧ c.encMapping.map Prod.fst = allWords pmf.length 1 ∧
      ∃ ls, c.codewords.map List.length = ls ∧ List.Forall₂ (fun (p : Double) (l : Nat) => IsLeast {l : Nat | 1 ≤ l ∧ 1 / 2 ^ l ≤ p.val} l) pmf ls := by
  have hpos : ∀ p ∈ pmf, 0 < p.val := fun p hp => lt_of_lt_of_le (by positivity) (h1 p hp).1
  obtain ⟨a, b⟩ := C136_shannon_any L2 pmf 1 hpos hlen le_rfl (by
    intro p hp
    rw [extendedPmf] at hp
    refine ⟨(hpos p hp).ne', ?_⟩
    have h3 : 1 / p.val ≤ 2 ^ 1000 := by rw [div_le_comm₀ (hpos p hp) (by positivity)]; exact (h1 p hp).1
    have h4 := rnd_mono h3
    have hdd : IsDouble ((2 : ℝ) ^ 1000) := ⟨1, (1000 : ℕ), by norm_num, by norm_num, by rw [zpow_natCast]; simp⟩
    rw [rnd_of_isDouble hdd] at h4
    exact lt_of_le_of_lt h4 (pow_lt_pow_right₀ (by norm_num) (by norm_num)))
  have hk : (((extendedPmf pmf 1).map fun p => (1 / 2 : ℚ) ^ shannonLengthD L2 p).sum ≤ 1) := by
    rw [extendedPmf]
    have key : ∀ l : List Double, (∀ p ∈ l, 1 / 2 ^ 1000 ≤ p.val ∧ p.val ≤ 1 ∧ FarFromPowers p.val) →
        (((l.map fun p => (1 / 2 : ℚ) ^ shannonLengthD L2 p).sum : ℚ) : ℝ) ≤ (l.map Double.val).sum - (l.map fun p => if ∃ k : Nat, p.val = 1 / 2 ^ k then 0 else p.val).sum / 2 ^ 41 := by
      intro l
      induction l with
      | nil => intro _; simp
      | cons p l ih =>
        intro h
        have ih := ih fun x hx => h x (by simp [hx])
        obtain ⟨b1, b2, b3⟩ := h p (by simp)
        have hl := (C136_shannon_length hL p b1 b2 b3).1
        have hp0 : 0 < p.val := lt_of_lt_of_le (by positivity) b1
        rw [List.map_cons, List.sum_cons, List.map_cons, List.sum_cons, List.map_cons, List.sum_cons]
        push_cast at ih ⊢
        have hone : (1 / 2 : ℝ) ^ shannonLengthD L2 p ≤ p.val - (if ∃ k : Nat, p.val = 1 / 2 ^ k then 0 else p.val) / 2 ^ 41 := by
          have e : (1 / 2 : ℝ) ^ shannonLengthD L2 p = 1 / 2 ^ shannonLengthD L2 p := by rw [one_div, inv_pow, one_div]
          rw [e]
          split
          · rw [zero_div, sub_zero]; exact hl.2
          · rename_i hd
            rcases b3 with hd' | hf
            · exact absurd hd' hd
            · have g := hf (shannonLengthD L2 p)
              have h2 : (0 : ℝ) < 2 ^ shannonLengthD L2 p := by positivity
              have h5 := hl.2
              rw [div_le_iff₀ h2] at h5
              rw [abs_of_nonneg (by linarith)] at g
              rw [div_le_iff₀ h2]
              have h6 : (p.val - p.val / 2 ^ 41) * 2 ^ shannonLengthD L2 p = p.val * 2 ^ shannonLengthD L2 p * (1 - 1 / 2 ^ 41) := by ring
              rw [h6]
              have h7 : (1 + 1 / 2 ^ 40) * (1 - 1 / 2 ^ 41 : ℝ) ≤ p.val * 2 ^ shannonLengthD L2 p * (1 - 1 / 2 ^ 41) :=
                mul_le_mul_of_nonneg_right (by linarith) (by norm_num)
              have h8 : (1 : ℝ) ≤ (1 + 1 / 2 ^ 40) * (1 - 1 / 2 ^ 41 : ℝ) := by norm_num
              linarith
        rw [add_div]
        linarith
    have := key pmf h1
    have h9 : (((pmf.map fun p => (1 / 2 : ℚ) ^ shannonLengthD L2 p).sum : ℚ) : ℝ) ≤ 1 := by linarith
    exact_mod_cast h9
  obtain ⟨c, hc⟩ := Option.isSome_iff_exists.mp (a.mpr hk)
  obtain ⟨b1, b2, b3⟩ := b c hc
  refine ⟨c, hc, b1, b3, _, b2, ?_⟩
  rw [extendedPmf, List.forall₂_map_right_iff, List.forall₂_same]
  exact fun p hp => C136_shannon_length hL p (h1 p hp).1 (h1 p hp).2.1 (h1 p hp).2.2

/-- The double just below `1/16`. -/
noncomputable def belowSixteenth : Double := ⟨(2 ^ 53 - 1) / 2 ^ 57, 2 ^ 53 - 1, -57, by norm_num, by norm_num, by norm_num⟩

/-- The double `2⁻⁵³`. -/
noncomputable def lastBit : Double := ⟨1 / 2 ^ 53, 1, -53, by norm_num, by norm_num, by norm_num⟩

theorem rnd_four {x : ℝ} (h1 : 4 ≤ x) (h2 : x < 4 + 1 / 2 ^ 51) : rnd x = 4 := by
  have hx : x < 8 := by have : (1 : ℝ) / 2 ^ 51 < 1 := by norm_num
                        linarith
  have hlog : Int.log 2 |x| = 2 := by
    rw [abs_of_nonneg (by linarith)]
    apply le_antisymm
    · have : Int.log 2 x < 3 := (Int.lt_zpow_iff_log_lt (by norm_num) (by linarith)).mp (by norm_num; linarith)
      omega
    · exact (Int.zpow_le_iff_le_log (by norm_num) (by linarith)).mp (by norm_num; linarith)
  have hu : ulpExp x = -50 := by rw [ulpExp, hlog]; norm_num
  rw [rnd, hu]
  have : npRound (x / 2 ^ (-50 : ℤ)) = 2 ^ 52 := by
    apply npRound_near
    have e : x / (2 : ℝ) ^ (-50 : ℤ) = x * 2 ^ 50 := by rw [zpow_neg, div_inv_eq_mul]; norm_cast
    rw [e, abs_of_nonneg (by push_cast; linarith)]
    push_cast
    have : (1 : ℝ) / 2 ^ 51 * 2 ^ 50 = 1 / 2 := by norm_num
    have : x * 2 ^ 50 < (4 + 1 / 2 ^ 51) * 2 ^ 50 := mul_lt_mul_of_pos_right h2 (by norm_num)
    linarith
  rw [this]
  norm_num

/-- Finding: seventeen positive doubles that add up to exactly one, for which the constructor of the Shannon code raises when the logarithm is correctly rounded: `log2` rounds the logarithm of
the inverse of the number just below `1/16` to 4, although the length must be 5. -/
theorem C136_shannon_raises :
    ((List.replicate 16 belowSixteenth ++ [lastBit]).map Double.val).sum = 1 ∧ (∀ p ∈ List.replicate 16 belowSixteenth ++ [lastBit], 0 < p.val) ∧
    shannonCodeD (fun x => rnd (Real.logb 2 x)) (List.replicate 16 belowSixteenth ++ [lastBit]) 1 = none := by
  have v1 : belowSixteenth.val = (2 ^ 53 - 1) / 2 ^ 57 := rfl
  have v2 : lastBit.val = 1 / 2 ^ 53 := rfl
  have hmem : ∀ p ∈ List.replicate 16 belowSixteenth ++ [lastBit], p = belowSixteenth ∨ p = lastBit := by
    intro p hp
    rcases List.mem_append.mp hp with h | h
    · exact Or.inl (List.eq_of_mem_replicate h)
    · exact Or.inr (List.mem_singleton.mp h)
  have hpos : ∀ p ∈ List.replicate 16 belowSixteenth ++ [lastBit], 0 < p.val := by
    intro p hp
    rcases hmem p hp with rfl | rfl
    · rw [v1]; norm_num
    · rw [v2]; norm_num
  have hinv1 : 1 / belowSixteenth.val ≤ 16 + 1 / 2 ^ 48 := by rw [v1]; norm_num
  have hd : IsDouble (16 + 1 / 2 ^ 48) := ⟨2 ^ 52 + 1, -48, by norm_num, by norm_num, by norm_num⟩
  have hr1 := rnd_mono hinv1
  rw [rnd_of_isDouble hd] at hr1
  refine ⟨by simp [v1, v2]; norm_num, hpos, ?_⟩
  rw [← Option.not_isSome_iff_eq_none]
  intro hsome
  have := (C136_shannon_any (fun x => rnd (Real.logb 2 x)) _ 1 hpos (by simp) le_rfl (by
    intro p hp
    rw [extendedPmf] at hp
    refine ⟨(hpos p hp).ne', ?_⟩
    rcases hmem p hp with rfl | rfl
    · refine lt_of_le_of_lt hr1 (lt_of_lt_of_le (by norm_num : (16 : ℝ) + 1 / 2 ^ 48 < 2 ^ 53) (pow_le_pow_right₀ (by norm_num) (by norm_num)))
    · rw [v2, one_div_one_div, rnd_of_isDouble ⟨1, 53, by norm_num, by norm_num, by norm_num⟩]
      exact pow_lt_pow_right₀ (by norm_num) (by norm_num))).1.mp hsome
  have hlen : shannonLengthD (fun x => rnd (Real.logb 2 x)) belowSixteenth ≤ 4 := by
    rw [shannonLengthD, Int.toNat_le]
    refine max_le (by norm_num) (Int.ceil_le.mpr ?_)
    have h1 : Real.logb 2 (rnd (1 / belowSixteenth.val)) ≤ Real.logb 2 (16 + 1 / 2 ^ 48) := by
      refine Real.logb_le_logb_of_le (by norm_num) ?_ hr1
      have h16 : (1 : ℝ) ≤ 1 / belowSixteenth.val := by rw [v1]; norm_num
      have := rnd_mono h16
      rw [rnd_of_isDouble ⟨1, 0, by norm_num, by norm_num, by simp⟩] at this
      linarith
    have h2 : Real.logb 2 (16 + 1 / 2 ^ 48) = 4 + Real.logb 2 (1 + 1 / 2 ^ 52) := by
      rw [show (16 + 1 / 2 ^ 48 : ℝ) = 2 ^ 4 * (1 + 1 / 2 ^ 52) by norm_num, Real.logb_mul (by norm_num) (by norm_num), Real.logb_pow, Real.logb_self_eq_one (by norm_num)]
      norm_num
    have h3 : 0 ≤ Real.logb 2 (1 + 1 / 2 ^ 52) := Real.logb_nonneg (by norm_num) (by norm_num)
    have h4 : Real.logb 2 (1 + 1 / 2 ^ 52) < 1 / 2 ^ 51 := by
      have := Real.log_two_gt_d9
      rw [Real.logb, div_lt_iff₀ (by linarith)]
      have u := Real.log_le_sub_one_of_pos (by norm_num : (0 : ℝ) < 1 + 1 / 2 ^ 52)
      have w : (1 : ℝ) / 2 ^ 51 * 0.6 ≤ 1 / 2 ^ 51 * Real.log 2 := mul_le_mul_of_nonneg_left (by linarith) (by norm_num)
      have z : (1 : ℝ) / 2 ^ 52 < 1 / 2 ^ 51 * 0.6 := by norm_num
      linarith
    have h5 := rnd_mono h1
    rw [h2, rnd_four (x := 4 + Real.logb 2 (1 + 1 / 2 ^ 52)) (by linarith) (by linarith)] at h5
    exact_mod_cast h5
  rw [extendedPmf, List.map_append, List.sum_append, List.map_replicate, List.sum_replicate] at this
  have h6 : (1 / 2 : ℚ) ^ 4 ≤ (1 / 2 : ℚ) ^ shannonLengthD (fun x => rnd (Real.logb 2 x)) belowSixteenth :=
    pow_le_pow_of_le_one (by norm_num) (by norm_num) hlen
  have h7 : (0 : ℚ) < (1 / 2 : ℚ) ^ shannonLengthD (fun x => rnd (Real.logb 2 x)) lastBit := by positivity
  simp only [List.map_cons, List.map_nil, List.sum_cons, List.sum_nil, nsmul_eq_mul] at this
  generalize (1 / 2 : ℚ) ^ shannonLengthD (fun x => rnd (Real.logb 2 x)) belowSixteenth = u at *
  generalize (1 / 2 : ℚ) ^ shannonLengthD (fun x => rnd (Real.logb 2 x)) lastBit = v at *
  norm_num at h6 this
  linarith

/-! ### Tunstall codes -/

/-- The default block size: the exact one, so that the constructor does not find it too low. -/
theorem C136_tunstall {L2 : ℝ → ℝ} (hL : Log2Accurate L2) (S : Nat) (h1 : 1 ≤ S) (h2 : S ≤ 2 ^ 44) : tunstallSizeD L2 S = Nat.clog 2 S := by
  have hR : (1 : ℝ) ≤ S := by exact_mod_cast h1
  have hlb := Nat.le_pow_clog (by norm_num : 1 < 2) S
  rw [tunstallSizeD, rnd_nat (by omega)]
  rcases Nat.eq_or_lt_of_le hlb with h | h
  · have : (S : ℝ) = 2 ^ Nat.clog 2 S := by exact_mod_cast h
    have h44 : Nat.clog 2 S ≤ 44 := Nat.clog_le_of_le_pow h2
    rw [this, hL.2 _ (by omega)]
    simp
  · have e := hL.1 S (isDouble_nat (by omega)) hR
    have h3 := log_small h1 h2
    have hl2 : (0 : ℝ) < Real.log 2 := Real.log_pos (by norm_num)
    have hl2' := Real.log_two_gt_d9
    -- the gap to the integers above and below
    have g1 := log_gap h1 (Nat.lt_succ_self S)
    have g2 : Real.log (S + 1 : ℕ) ≤ Nat.clog 2 S * Real.log 2 := by
      rw [← Real.log_pow]; exact Real.log_le_log (by positivity) (by exact_mod_cast h)
    have g3 : 1 / ((2 : ℝ) ^ 44 + 1) ≤ 1 / (S + 1 : ℕ) := one_div_le_one_div_of_le (by positivity) (by exact_mod_cast (by omega : S + 1 ≤ 2 ^ 44 + 1))
    have g4 : 1 / (2 : ℝ) ^ 44 ≤ 1 / (S : ℝ) := one_div_le_one_div_of_le (by linarith) (by exact_mod_cast h2)
    have hc : 1 ≤ Nat.clog 2 S := by
      by_contra hc
      have : Nat.clog 2 S = 0 := by omega
      rw [this] at h; omega
    obtain ⟨m, hm⟩ : ∃ m, Nat.clog 2 S = m + 1 := ⟨_, (Nat.succ_pred_eq_of_pos hc).symm⟩
    have hlow : 2 ^ m < S := by
      by_contra hh
      have := Nat.clog_le_of_le_pow (not_lt.mp hh)
      omega
    have g5 := log_gap (Nat.pow_pos (by norm_num)) hlow
    push_cast at g5
    rw [Real.log_pow] at g5
    have hlogb : Real.logb 2 S = Real.log S / Real.log 2 := rfl
    have e2 : Real.logb 2 S / 2 ^ 52 ≤ 88 / 2 ^ 52 := by
      refine div_le_div_of_nonneg_right ?_ (by positivity)
      rw [hlogb, div_le_iff₀ hl2]; linarith
    rw [abs_le] at e
    have u1 : Real.logb 2 S ≤ Nat.clog 2 S - 1 / (2 ^ 44 + 1) := by
      rw [hlogb, div_le_iff₀ hl2, sub_mul]
      have : 1 / ((2 : ℝ) ^ 44 + 1) * Real.log 2 ≤ 1 / ((2 : ℝ) ^ 44 + 1) * 1 := mul_le_mul_of_nonneg_left (by have := Real.log_two_lt_d9; linarith) (by norm_num)
      linarith
    have u2 : (m : ℝ) + 1 / 2 ^ 44 ≤ Real.logb 2 S := by
      rw [hlogb, le_div_iff₀ hl2, add_mul]
      have : 1 / ((2 : ℝ) ^ 44) * Real.log 2 ≤ 1 / ((2 : ℝ) ^ 44) * 1 := mul_le_mul_of_nonneg_left (by have := Real.log_two_lt_d9; linarith) (by norm_num)
      linarith
    have n1 : (88 : ℝ) / 2 ^ 52 < 1 / (2 ^ 44 + 1) := by norm_num
    have n2 : (88 : ℝ) / 2 ^ 52 < 1 / 2 ^ 44 := by norm_num
    have : ⌈L2 S⌉ = ((m + 1 : ℕ) : ℤ) := by
      rw [Int.ceil_eq_iff]
      push_cast
      rw [hm] at u1
      push_cast at u1
      constructor <;> linarith
    rw [this, hm]
    rfl

/-- `TunstallCode(pmf)` without a block size is constructed, for every alphabet of 2 to `2⁴⁴` symbols, with a complete prefix-free set of sourcewords. -/
theorem C136_tunstall_default {L2 : ℝ → ℝ} (hL : Log2Accurate L2) (pmf : List ℚ) (hS : 2 ≤ pmf.length) (h2 : pmf.length ≤ 2 ^ 44)
    (choose : List TNode → Nat) (hc : ∀ heap, heap ≠ [] → choose heap < heap.length) :
    ∃ c, tunstallCode pmf (tunstallSizeD L2 pmf.length) choose = some c ∧ PrefixFree c.sourcewords ∧ FullyCovering c.sourcewords pmf.length := by
  rw [C136_tunstall hL _ (by omega) h2]
  obtain ⟨c, h1, h3, h4, -⟩ := C30_tunstall_tree pmf _ hS (Nat.le_pow_clog (by norm_num) _) choose hc
  exact ⟨c, h1, h3, h4⟩

/-! ### The accuracy requirements can be met, and the slack is real -/

theorem log_double {x : ℝ} (hx : IsDouble x) (h : 1 < x) : 1 / 2 ^ 54 ≤ Real.log x := by
  obtain ⟨m, e, hm, he, rfl⟩ := hx
  have hgap : 1 + 1 / 2 ^ 53 ≤ (m : ℝ) * 2 ^ e := by
    rcases le_or_gt 0 e with h0 | h0
    · obtain ⟨k, rfl⟩ := Int.eq_ofNat_of_zero_le h0
      have h1 : (1 : ℝ) < ((m * 2 ^ k : ℤ) : ℝ) := by push_cast; simpa using h
      have h2 : (1 : ℤ) < m * 2 ^ k := by exact_mod_cast h1
      have h3 : (2 : ℝ) ≤ ((m * 2 ^ k : ℤ) : ℝ) := by exact_mod_cast h2
      have h4 : (m : ℝ) * 2 ^ ((k : ℕ) : ℤ) = ((m * 2 ^ k : ℤ) : ℝ) := by push_cast; simp
      have h5 : (1 : ℝ) / 2 ^ 53 ≤ 1 := by norm_num
      rw [h4]
      linarith
    · obtain ⟨k, hk⟩ : ∃ k : ℕ, e = -(k : ℤ) := ⟨e.natAbs, by omega⟩
      subst hk
      rw [zpow_neg, zpow_natCast, ← div_eq_mul_inv] at h ⊢
      have hp : (0 : ℝ) < 2 ^ k := by positivity
      rw [lt_div_iff₀ hp, one_mul] at h
      have h2 : (2 : ℤ) ^ k < m := by exact_mod_cast h
      have h3 : (2 : ℝ) ^ k + 1 ≤ m := by exact_mod_cast h2
      have hk53 : (2 : ℤ) ^ k ≤ 2 ^ 53 := by
        have : m < 2 ^ 53 := lt_of_le_of_lt (le_abs_self m) hm
        omega
      have hk53' : (2 : ℝ) ^ k ≤ 2 ^ 53 := by exact_mod_cast hk53
      rw [le_div_iff₀ hp]
      have : 1 / (2 : ℝ) ^ 53 * 2 ^ k ≤ 1 / 2 ^ 53 * 2 ^ 53 := mul_le_mul_of_nonneg_left hk53' (by norm_num)
      have : (1 : ℝ) / 2 ^ 53 * 2 ^ 53 = 1 := by norm_num
      linarith
  generalize (m : ℝ) * 2 ^ e = x at *
  have h0 : 0 < x := by linarith
  have h3 := Real.log_le_sub_one_of_pos (inv_pos.mpr h0)
  rw [Real.log_inv] at h3
  have h4 : x⁻¹ ≤ (1 + 1 / 2 ^ 53 : ℝ)⁻¹ := inv_anti₀ (by norm_num) hgap
  have h5 : (1 + 1 / 2 ^ 53 : ℝ)⁻¹ ≤ 1 - 1 / 2 ^ 54 := by norm_num
  linarith

/-- A correctly rounded logarithm meets the requirement. -/
theorem C136_correctly_rounded : LogAccurate (fun x => rnd (Real.log x)) ∧ Log2Accurate (fun x => rnd (Real.logb 2 x)) := by
  have aux : ∀ y : ℝ, 1 / 2 ^ 100 ≤ y → |rnd y - y| ≤ y / 2 ^ 52 := fun y hy =>
    (rnd_error_big hy).trans (div_le_div_of_nonneg_left (le_trans (by positivity) hy) (by norm_num) (by norm_num))
  refine ⟨fun x hx h => ?_, fun x hx h => ?_, fun k hk => ?_⟩
  · rcases eq_or_lt_of_le h with rfl | h'
    · simp [rnd_zero]
    · exact aux _ (le_trans (by norm_num) (log_double hx h'))
  · rcases eq_or_lt_of_le h with rfl | h'
    · simp [rnd_zero]
    · refine aux _ (le_trans (by norm_num : (1 : ℝ) / 2 ^ 100 ≤ 1 / 2 ^ 54) ((log_double hx h').trans ?_))
      rw [Real.logb]
      exact le_div_self (Real.log_nonneg h) (Real.log_pos (by norm_num)) (by have := Real.log_two_lt_d9; linarith)
  · show rnd (Real.logb 2 (2 ^ k)) = k
    rw [Real.logb_pow, Real.logb_self_eq_one (by norm_num), mul_one]
    exact rnd_nat (by omega)

/-- The slack of `C136_width` is real: with a logarithm of the required accuracy, `ceil(log(125, 5))` can be 4 (Python computes `math.log(125, 5) = 3.0000000000000004`). -/
theorem C136_slack : ∃ L, LogAccurate L ∧ widthD L 5 125 = 4 ∧ Nat.clog 5 125 = 3 := by
  have h125 : Real.log 125 = 3 * Real.log 5 := by rw [show (125 : ℝ) = 5 ^ 3 by norm_num, Real.log_pow]; norm_num
  have h5 : 0 < Real.log 5 := Real.log_pos (by norm_num)
  obtain ⟨L, hL⟩ : ∃ L : ℝ → ℝ, L = Function.update Real.log 125 (Real.log 125 * (1 + 1 / 2 ^ 52)) := ⟨_, rfl⟩
  have l1 : L 125 = Real.log 125 * (1 + 1 / 2 ^ 52) := by rw [hL, Function.update_self]
  have l2 : L 5 = Real.log 5 := by rw [hL, Function.update_of_ne (by norm_num)]
  have hacc : LogAccurate L := by
    intro x _ hx
    by_cases h : x = 125
    · rw [h, l1, show Real.log 125 * (1 + 1 / 2 ^ 52) - Real.log 125 = Real.log 125 / 2 ^ 52 by ring, abs_of_nonneg (by rw [h125]; positivity)]
    · rw [hL, Function.update_of_ne h, sub_self, abs_zero]
      exact div_nonneg (Real.log_nonneg hx) (by norm_num)
  have hclog : Nat.clog 5 125 = 3 := by decide +kernel
  refine ⟨L, hacc, ?_, hclog⟩
  have hup := (C136_width hacc (n := 125) (b := 5) (by norm_num) (by norm_num) (by norm_num) (by norm_num)).2.2.1
  rw [hclog] at hup
  refine le_antisymm hup ?_
  have e : pyLog L 125 5 = rnd (3 * (1 + 1 / 2 ^ 52)) := by
    rw [pyLog, rnd_nat (by norm_num), rnd_nat (by norm_num)]
    push_cast
    rw [l1, l2, h125]
    congr 1
    field_simp
  have hd : IsDouble (3 + 1 / 2 ^ 51) := ⟨3 * 2 ^ 51 + 1, -51, by norm_num, by norm_num, by norm_num⟩
  have hm := rnd_mono (x := 3 + 1 / 2 ^ 51) (y := 3 * (1 + 1 / 2 ^ 52)) (by norm_num)
  rw [rnd_of_isDouble hd, ← e] at hm
  have : (3 : ℤ) < ⌈pyLog L 125 5⌉ := Int.lt_ceil.mpr (lt_of_lt_of_le (by norm_num) hm)
  rw [widthD]
  omega

/-- Non-vacuity: accepted Lempel–Ziv parameters, and probabilities that meet the hypotheses of `C136_shannon_succeeds`. -/
example : (∃ c, LZParams.create 9 9 3 3 none = some c) ∧
    ∃ p q : Double, p.val = 3 / 8 ∧ q.val = 1 / 4 ∧ FarFromPowers p.val ∧ FarFromPowers q.val ∧ ([p, p, q].map Double.val).sum = 1 := by
  refine ⟨⟨⟨9, 9, 3, 3, List.replicate 9 0⟩, by decide +kernel⟩, ⟨3 / 8, 3, -3, by norm_num, by norm_num, by norm_num⟩, ⟨1 / 4, 1, -2, by norm_num, by norm_num, by norm_num⟩, rfl, rfl, ?_, ?_, ?_⟩
  · refine Or.inr fun k => ?_
    show 1 / 2 ^ 40 < |(3 / 8 : ℝ) * 2 ^ k - 1|
    rcases le_or_gt k 1 with h | h
    · have : (2 : ℝ) ^ k ≤ 2 ^ 1 := pow_le_pow_right₀ (by norm_num) h
      rw [abs_of_nonpos (by linarith)]
      have : (1 : ℝ) / 2 ^ 40 < 1 / 4 := by norm_num
      linarith
    · have : (2 : ℝ) ^ 2 ≤ 2 ^ k := pow_le_pow_right₀ (by norm_num) h
      rw [abs_of_nonneg (by linarith)]
      have : (1 : ℝ) / 2 ^ 40 < 1 / 4 := by norm_num
      linarith
  · refine Or.inl ⟨2, ?_⟩
    show (1 / 4 : ℝ) = 1 / 2 ^ 2
    norm_num
  · show ([3 / 8, 3 / 8, 1 / 4] : List ℝ).sum = 1
    norm_num

end Komm
