import Verif.Props.C139_DoubleDecisions
import Verif.Props.C141_DoubleBcjr
import Verif.Model.DoubleDemapper

/-! C142: `Constellation.posteriors` and the soft demapper in double precision. -/
namespace Komm
open scoped BigOperators
variable {M N B : Nat}

/-- Squared distance of two blocks. -/
def distSq (r p : Fin N → ℝ × ℝ) : ℝ := ∑ n, (((r n).1 - (p n).1) ^ 2 + ((r n).2 - (p n).2) ^ 2)

/-- `2 σ²`: the noise power is the variance per dimension of real constellations, and the total variance of the complex noise. -/
noncomputable def noiseVariance (complex : Bool) (noise : ℝ) : ℝ := if complex then noise else 2 * noise

/-- The likelihood of point `p` times its prior probability `w`, up to a factor that does not depend on the point. -/
noncomputable def pointWeight (complex : Bool) (noise : ℝ) (r p : Fin N → ℝ × ℝ) (w : ℝ) : ℝ := w * Real.exp (-distSq r p / noiseVariance complex noise)

/-- Bound on the relative error of the posteriors of `M` points in dimension `N`, when the exponents and the logarithms of the priors add up to at most `A`. -/
noncomputable def demapError (M N : Nat) (A : ℝ) : ℝ := (2 * ((N : ℝ) + 132) * (A + 4) + M) / 2 ^ 51

/-- Bound on the error of the log-ratios. -/
noncomputable def demapLlrError (M N : Nat) (A : ℝ) : ℝ := 2 * (demapError M N A + M / 2 ^ 51) + 1 / 2 ^ 39

theorem distSq_nonneg (r p : Fin N → ℝ × ℝ) : 0 ≤ distSq r p := Finset.sum_nonneg fun n _ => by positivity

theorem variance_val (complex : Bool) (noise : Double) : (demapVarianceD complex noise).val = noiseVariance complex noise.val := by
  cases complex
  · change rnd (2 * noise.val) = 2 * noise.val
    exact rnd_of_isDouble (isDouble_double noise.2)
  · rfl

/-- The exponent. -/
theorem exponent_near {sum : List Double → Double} (hsum : ∀ l, SumOf l (sum l)) {h : ℝ → ℝ → ℝ} (hh : ModulusAccurate h) (hN : N ≤ 2 ^ 48) (p r : Fin N → ℝ × ℝ)
    (hp : ∀ n, IsDouble (p n).1 ∧ IsDouble (p n).2) (hr : ∀ n, IsDouble (r n).1 ∧ IsDouble (r n).2) {V A : ℝ} (hV : (2 : ℝ) ^ (-900 : ℤ) ≤ V) (hA : distSq r p / V ≤ A)
    (hs : ((N : ℝ) + 66) * (A + 1) / 2 ^ 51 ≤ 1) :
    |rnd (-(sqDistD sum h r p).val / V) - -distSq r p / V| ≤ ((N : ℝ) + 66) * (A + 1) / 2 ^ 51 := by
  have hV0 : 0 < V := lt_of_lt_of_le (by positivity) hV
  have e := sqDist_near hsum hh hN p r hp hr
  change |_ - distSq r p| ≤ _ * distSq r p + _ at e
  have hd := distSq_nonneg r p
  have hA0 : 0 ≤ A := le_trans (div_nonneg hd hV0.le) hA
  have hN0 : (0 : ℝ) ≤ N := Nat.cast_nonneg N
  have hNr : (N : ℝ) ≤ 2 ^ 48 := nat48 hN
  have htw : 2 * ((N : ℝ) * 2 ^ (-1075 : ℤ)) ≤ V / 2 ^ 100 := by
    have h1 : (N : ℝ) * 2 ^ (-1075 : ℤ) ≤ 2 ^ (48 : ℤ) * 2 ^ (-1075 : ℤ) := by
      apply mul_le_mul_of_nonneg_right _ (by positivity)
      rw [show (2 : ℝ) ^ (48 : ℤ) = 2 ^ (48 : ℕ) from zpow_natCast _ 48]
      exact hNr
    rw [← zpow_add₀ (by norm_num)] at h1
    have h2 : 2 * (2 : ℝ) ^ ((48 : ℤ) + -1075) ≤ 2 ^ (-900 : ℤ) / 2 ^ 100 := by
      rw [show ((2 : ℝ) ^ 100) = 2 ^ (100 : ℤ) from (zpow_natCast _ 100).symm, ← zpow_sub₀ (by norm_num)]
      rw [show 2 * (2 : ℝ) ^ ((48 : ℤ) + -1075) = 2 ^ (1 : ℤ) * 2 ^ ((48 : ℤ) + -1075) by rw [zpow_one], ← zpow_add₀ (by norm_num)]
      exact zpow_le_zpow_right₀ (by norm_num) (by norm_num)
    have h3 : (2 : ℝ) ^ (-900 : ℤ) / 2 ^ 100 ≤ V / 2 ^ 100 := div_le_div_of_nonneg_right hV (by positivity)
    exact (mul_le_mul_of_nonneg_left h1 (by norm_num)).trans (h2.trans h3)
  generalize (sqDistD sum h r p).val = d' at *
  generalize distSq r p = d at *
  generalize (2 : ℝ) * ((N : ℝ) * 2 ^ (-1075 : ℤ)) = w at *
  have e1 : |-d' / V - -d / V| ≤ (N + 64) * A / 2 ^ 51 + 1 / 2 ^ 100 := by
    rw [← sub_div, abs_div, abs_of_pos hV0, show -d' - -d = -(d' - d) by ring, abs_neg, div_le_iff₀ hV0]
    have hdA : d ≤ A * V := by rwa [div_le_iff₀ hV0] at hA
    have hg : (1 / 2 ^ 47 + (N : ℝ) / 2 ^ 52 * (1 + 1 / 2 ^ 47)) ≤ (N + 64) / 2 ^ 51 := by linarith
    calc |d' - d| ≤ _ := e
      _ ≤ (N + 64) / 2 ^ 51 * (A * V) + V / 2 ^ 100 := by
        apply add_le_add _ htw
        exact mul_le_mul hg hdA hd (by positivity)
      _ = _ := by ring
  have e2 : |-d / V| ≤ A := by rw [neg_div, abs_neg, abs_of_nonneg (div_nonneg hd hV0.le)]; exact hA
  have e3 : (N + 64 : ℝ) * A / 2 ^ 51 + 1 / 2 ^ 100 ≤ 3 := by
    have : (N + 64 : ℝ) * A / 2 ^ 51 ≤ ((N : ℝ) + 66) * (A + 1) / 2 ^ 51 := div_le_div_of_nonneg_right (by nlinarith) (by positivity)
    have : (1 : ℝ) / 2 ^ 100 ≤ 1 := by norm_num
    linarith
  have e4 := rnd_unit (G := A) (x := -d' / V) (by
    have := abs_sub_abs_le_abs_sub (-d' / V) (-d / V)
    linarith)
  have e5 := abs_sub_le (rnd (-d' / V)) (-d' / V) (-d / V)
  refine e5.trans ((add_le_add e4 e1).trans ?_)
  have : (A + 4) / 2 ^ 53 + ((N + 64 : ℝ) * A / 2 ^ 51 + 1 / 2 ^ 100) ≤ ((N : ℝ) + 66) * (A + 1) / 2 ^ 51 := by
    have e6 : ((N : ℝ) + 66) * (A + 1) / 2 ^ 51 = (N + 64 : ℝ) * A / 2 ^ 51 + (2 * A + N + 66) / 2 ^ 51 := by ring
    rw [e6]
    norm_num
    linarith
  exact this

/-- The logarithms before normalisation. -/
theorem logp_near {F : Libm} (hF : F.Accurate) {sum : List Double → Double} (hsum : ∀ l, SumOf l (sum l)) {h : ℝ → ℝ → ℝ} (hh : ModulusAccurate h) (hN : N ≤ 2 ^ 48) (p r : Fin N → ℝ × ℝ)
    (hp : ∀ n, IsDouble (p n).1 ∧ IsDouble (p n).2) (hr : ∀ n, IsDouble (r n).1 ∧ IsDouble (r n).2) (V prior : Double) {a b : ℝ} (hV : (2 : ℝ) ^ (-900 : ℤ) ≤ V.val) (hA : distSq r p / V.val ≤ a)
    (hb0 : 0 ≤ b) (h0 : 0 ≤ prior.val) (hb : prior.val ≠ 0 → |Real.log prior.val| ≤ b) (hs : ((N : ℝ) + 76) * (a + b + 4) / 2 ^ 51 ≤ 1) :
    Near (((N : ℝ) + 76) * (a + b + 4) / 2 ^ 51) (a + b) (((-distSq r p / V.val : ℝ) : WithBot ℝ) + npLog prior.val) (logpD F (sqDistD sum h r p) V prior) := by
  have hV0 : 0 < V.val := lt_of_lt_of_le (by positivity) hV
  have hd := distSq_nonneg r p
  have ha0 : 0 ≤ a := le_trans (div_nonneg hd hV0.le) hA
  have hN0 : (0 : ℝ) ≤ N := Nat.cast_nonneg N
  have e1 : ((N : ℝ) + 66) * (a + 1) / 2 ^ 51 + b / 2 ^ 50 + (a + b + 4) / 2 ^ 48 ≤ ((N : ℝ) + 76) * (a + b + 4) / 2 ^ 51 := by
    have : ((N : ℝ) + 76) * (a + b + 4) / 2 ^ 51 = (((N : ℝ) + 66) * (a + 1) + ((N : ℝ) + 66) * (b + 3) + 10 * (a + b + 4)) / 2 ^ 51 := by ring
    rw [this]
    have : 0 ≤ ((N : ℝ) + 66) * (b + 3) := by positivity
    norm_num
    linarith
  have hab : 0 ≤ (a + b + 4) / 2 ^ 48 := by positivity
  have hb2 : 0 ≤ b / 2 ^ 50 := by positivity
  have hx := exponent_near hsum hh hN p r hp hr hV hA (by linarith)
  have n1 : Near (((N : ℝ) + 66) * (a + 1) / 2 ^ 51) a ((-distSq r p / V.val : ℝ) : WithBot ℝ) ((rnd (-(sqDistD sum h r p).val / V.val) : ℝ) : WithBot ℝ) :=
    Or.inr ⟨_, _, rfl, rfl, hx, by rw [neg_div, abs_neg, abs_of_nonneg (div_nonneg hd hV0.le)]; exact hA⟩
  have n2 := npLog_near hF prior h0 hb
  exact (n1.add n2 (G := a + b) le_rfl (by linarith)).mono e1 le_rfl

/-- The exact normalised row. -/
theorem normalizeRow_weights (e w : Fin M → ℝ) (hw : ∀ i, 0 ≤ w i) (hne : ∃ i, w i ≠ 0) :
    Mealy.normalizeRow (fun i => ((e i : ℝ) : WithBot ℝ) + npLog (w i)) = some fun i => w i * Real.exp (e i) / ∑ k, w k * Real.exp (e k) := by
  unfold Mealy.normalizeRow
  cases hm : Mealy.amax (fun i => ((e i : ℝ) : WithBot ℝ) + npLog (w i)) with
  | bot =>
    exfalso
    obtain ⟨i, hi⟩ := hne
    have := (Mealy.amax_spec _).mp hm i
    rw [npLog, if_neg hi] at this
    exact absurd this (by rw [← WithBot.coe_add]; exact WithBot.coe_ne_bot)
  | coe c =>
    have key : ∀ i, npExp (((e i : ℝ) : WithBot ℝ) + npLog (w i) + ((-c : ℝ) : WithBot ℝ)) = w i * Real.exp (e i) * Real.exp (-c) := by
      intro i
      by_cases hi : w i = 0
      · rw [npLog, if_pos hi, hi]
        simp [npExp]
      · rw [npLog, if_neg hi, ← WithBot.coe_add, ← WithBot.coe_add]
        change Real.exp _ = _
        rw [Real.exp_add, Real.exp_add, Real.exp_log (lt_of_le_of_ne (hw i) (Ne.symm hi))]
        ring
    simp only [key]
    congr 1
    funext i
    rw [← Finset.sum_mul, mul_div_mul_right _ _ (Real.exp_pos _).ne']

/-- `posteriors` in double precision, any constellation, priors and noise power: every posterior probability is exact up to a factor `e^{±demapError}` and the underflow threshold. -/
theorem C142_posteriors {F : Libm} (hF : F.Accurate) {sum : List Double → Double} (hsum : ∀ l, SumOf l (sum l)) {h : ℝ → ℝ → ℝ} (hh : ModulusAccurate h) (complex : Bool)
    (m : Fin M → Fin N → ℝ × ℝ) (hm : ∀ i n, IsDouble (m i n).1 ∧ IsDouble (m i n).2) (r : Fin N → ℝ × ℝ) (hr : ∀ n, IsDouble (r n).1 ∧ IsDouble (r n).2) (noise : Double)
    (hV : (2 : ℝ) ^ (-900 : ℤ) ≤ noise.val) (priors : Fin M → Double) (h0 : ∀ i, 0 ≤ (priors i).val) (hne : ∃ i, (priors i).val ≠ 0) {a b : ℝ}
    (ha : ∀ i, distSq r (m i) / noiseVariance complex noise.val ≤ a) (hb0 : 0 ≤ b) (hb : ∀ i, (priors i).val ≠ 0 → |Real.log (priors i).val| ≤ b) (hE : demapError M N (a + b) ≤ 1 / 64) :
    ∃ q, posteriorsD F sum h complex m r noise (some priors) = some q ∧ ∀ i, 0 ≤ (q i).val ∧
      MulNear (demapError M N (a + b)) (2 ^ (-1069 : ℤ)) (pointWeight complex noise.val r (m i) (priors i).val / ∑ k, pointWeight complex noise.val r (m k) (priors k).val) (q i).val := by
  have hV2 : (2 : ℝ) ^ (-900 : ℤ) ≤ noiseVariance complex noise.val := by
    have : (0 : ℝ) < 2 ^ (-900 : ℤ) := by positivity
    unfold noiseVariance
    split <;> linarith
  have hV0 : 0 < noiseVariance complex noise.val := lt_of_lt_of_le (by positivity) hV2
  obtain ⟨i0, _⟩ := hne
  have ha0 : 0 ≤ a := le_trans (div_nonneg (distSq_nonneg r (m i0)) hV0.le) (ha i0)
  have hN0 : (0 : ℝ) ≤ N := Nat.cast_nonneg N
  have hM0 : (0 : ℝ) ≤ M := Nat.cast_nonneg M
  have hA4 : 4 ≤ a + b + 4 := by linarith
  unfold demapError at hE
  have hNb : (N : ℝ) ≤ 2 ^ 45 := by
    rw [div_le_iff₀ (by positivity)] at hE
    have : 2 * ((N : ℝ) + 132) * 4 ≤ 2 * ((N : ℝ) + 132) * (a + b + 4) := mul_le_mul_of_nonneg_left hA4 (by positivity)
    linarith
  have hMb : (M : ℝ) ≤ 2 ^ 45 := by
    rw [div_le_iff₀ (by positivity)] at hE
    have : 0 ≤ 2 * ((N : ℝ) + 132) * (a + b + 4) := by positivity
    linarith
  have hN48 : N ≤ 2 ^ 48 := by
    have : (N : ℝ) ≤ (2 ^ 48 : ℕ) := by push_cast; linarith
    exact_mod_cast this
  have hM2 : 0 ≤ (M : ℝ) / 2 ^ 51 := by positivity
  have split1 : (2 * ((N : ℝ) + 132) * (a + b + 4) + M) / 2 ^ 51 = 2 * (((N : ℝ) + 76) * (a + b + 4) / 2 ^ 51) + 112 * (a + b + 4) / 2 ^ 51 + M / 2 ^ 51 := by ring
  have hru : 7 * roundUnit (a + b) ≤ 112 * (a + b + 4) / 2 ^ 51 := by
    unfold roundUnit
    norm_num
    linarith
  have hru0 : 0 ≤ roundUnit (a + b) := by unfold roundUnit; positivity
  have hE1 : 0 ≤ ((N : ℝ) + 76) * (a + b + 4) / 2 ^ 51 := by positivity
  rw [split1] at hE
  have hnear := normalize_near hF hsum hMb (A := a + b) (E := ((N : ℝ) + 76) * (a + b + 4) / 2 ^ 51) (by linarith) (by linarith) (by linarith)
    (fun i => ((-distSq r (m i) / noiseVariance complex noise.val : ℝ) : WithBot ℝ) + npLog (priors i).val)
    (fun i => logpD F (sqDistD sum h r (m i)) (demapVarianceD complex noise) (priors i)) (fun i => by
      have := logp_near hF hsum hh hN48 (m i) r (hm i) hr (demapVarianceD complex noise) (priors i) (a := a) (b := b) (by rw [variance_val]; exact hV2) (by rw [variance_val]; exact ha i) hb0 (h0 i)
        (hb i) (by linarith)
      rwa [variance_val] at this)
  rw [normalizeRow_weights _ _ h0 ⟨i0, by assumption⟩] at hnear
  rcases hnear with ⟨h1, _⟩ | ⟨p, q, h1, h2, _, h4⟩
  · exact absurd h1 (by simp)
  · rw [Option.some.injEq] at h1
    refine ⟨q, h2, fun i => ⟨(h4 i).2.1, ?_⟩⟩
    have := (h4 i).2.2
    rw [← h1] at this
    refine this.mono ?_ ?_ le_rfl
    · refine div_nonneg (mul_nonneg (h0 i) (Real.exp_pos _).le) (Finset.sum_nonneg fun k _ => mul_nonneg (h0 k) (Real.exp_pos _).le)
    · unfold demapError
      rw [split1]
      linarith

/-- The total weight of the points whose label has bit `j` equal to `c`. -/
noncomputable def bitWeight (complex : Bool) (noise : ℝ) (m : Fin M → Fin N → ℝ × ℝ) (label : Fin M → Fin B → Nat) (r : Fin N → ℝ × ℝ) (w : Fin M → ℝ) (j : Fin B) (c : Nat) : ℝ :=
  ∑ i with label i j = c, pointWeight complex noise r (m i) (w i)

/-- The soft demapper in double precision: the log-ratio of every bit, given the received block, up to `demapLlrError` (beyond ±600: a value beyond ±500, possibly infinite). -/
theorem C142_soft {F : Libm} (hF : F.Accurate) {sum : List Double → Double} (hsum : ∀ l, SumOf l (sum l)) {h : ℝ → ℝ → ℝ} (hh : ModulusAccurate h) (complex : Bool)
    (m : Fin M → Fin N → ℝ × ℝ) (hm : ∀ i n, IsDouble (m i n).1 ∧ IsDouble (m i n).2) (label : Fin M → Fin B → Nat) (h01 : ∀ i j, label i j = 0 ∨ label i j = 1) (r : Fin N → ℝ × ℝ)
    (hr : ∀ n, IsDouble (r n).1 ∧ IsDouble (r n).2) (noise : Double)
    (hV : (2 : ℝ) ^ (-900 : ℤ) ≤ noise.val) (priors : Fin M → Double) (h0 : ∀ i, 0 ≤ (priors i).val) (hne : ∃ i, (priors i).val ≠ 0) {a b : ℝ}
    (ha : ∀ i, distSq r (m i) / noiseVariance complex noise.val ≤ a) (hb0 : 0 ≤ b) (hb : ∀ i, (priors i).val ≠ 0 → |Real.log (priors i).val| ≤ b) (hE : demapError M N (a + b) ≤ 1 / 64) :
    ∃ out : Fin B → Option EReal, softDemapD F sum h complex m label r noise (some priors) = some (List.ofFn out) ∧ ∀ j,
      0 < bitWeight complex noise.val m label r (fun i => (priors i).val) j 0 → 0 < bitWeight complex noise.val m label r (fun i => (priors i).val) j 1 →
      LlrNear (demapLlrError M N (a + b))
        (Real.log (bitWeight complex noise.val m label r (fun i => (priors i).val) j 0 / bitWeight complex noise.val m label r (fun i => (priors i).val) j 1)) (out j) := by
  obtain ⟨q, h1, h2⟩ := C142_posteriors hF hsum hh complex m hm r hr noise hV priors h0 hne ha hb0 hb hE
  have hw : ∀ i, 0 ≤ pointWeight complex noise.val r (m i) (priors i).val := fun i => mul_nonneg (h0 i) (Real.exp_pos _).le
  have hW : 0 < ∑ k, pointWeight complex noise.val r (m k) (priors k).val := by
    obtain ⟨i, hi⟩ := hne
    refine Finset.sum_pos' (fun k _ => hw k) ⟨i, Finset.mem_univ i, ?_⟩
    exact mul_pos (lt_of_le_of_ne (h0 i) (Ne.symm hi)) (Real.exp_pos _)
  have hV0 : 0 < noiseVariance complex noise.val := by
    have : 0 < noise.val := lt_of_lt_of_le (by positivity) hV
    unfold noiseVariance
    split <;> linarith
  have ha0 : 0 ≤ a := by
    obtain ⟨i, _⟩ := hne
    exact le_trans (div_nonneg (distSq_nonneg r (m i)) hV0.le) (ha i)
  have hE0 : 0 ≤ demapError M N (a + b) := by unfold demapError; positivity
  have hMe : (M : ℝ) / 2 ^ 51 ≤ demapError M N (a + b) := by
    unfold demapError
    apply div_le_div_of_nonneg_right _ (by positivity)
    have : 0 ≤ 2 * ((N : ℝ) + 132) * (a + b + 4) := by positivity
    linarith
  have hMb : (M : ℝ) ≤ 2 ^ 45 := by
    have := hMe.trans hE
    rw [div_le_iff₀ (by positivity)] at this
    linarith
  have hmarg := marginalize_near hF hsum hMb label h01 (fun i => pointWeight complex noise.val r (m i) (priors i).val / ∑ k, pointWeight complex noise.val r (m k) (priors k).val) q hE0
    (by linarith) (by rw [← Finset.sum_div, div_self hW.ne']) (fun i => ⟨div_nonneg (hw i) hW.le, (h2 i).1, (h2 i).2⟩)
  obtain ⟨out, hout⟩ : ∃ out : Fin B → Option EReal, marginalizeRowD F sum label q = List.ofFn out := ⟨_, rfl⟩
  refine ⟨out, by rw [softDemapD, h1, Option.map_some, hout], fun j p0 p1 => ?_⟩
  rw [hout] at hmarg
  have hj := (List.forall₂_iff_get.mp hmarg).2 j (by simp [marginalizeRow]) (by simp)
  simp only [List.get_eq_getElem, marginalizeRow, List.getElem_ofFn] at hj
  apply hj
  have key : ∀ c : Nat, ∑ x, pointWeight complex noise.val r (m x) (priors x).val / (∑ k, pointWeight complex noise.val r (m k) (priors k).val) * (if label x j = c then 1 else 0) =
      bitWeight complex noise.val m label r (fun i => (priors i).val) j c / ∑ k, pointWeight complex noise.val r (m k) (priors k).val := by
    intro c
    rw [bitWeight, Finset.sum_div, Finset.sum_filter]
    refine Finset.sum_congr rfl fun i _ => ?_
    split <;> simp
  simp only [Fin.eta]
  rw [key 0, key 1, logRatio, if_neg (div_pos p0 hW).ne', if_neg (div_pos p1 hW).ne', ← Real.log_div (div_pos p0 hW).ne' (div_pos p1 hW).ne', div_div_div_cancel_right₀ hW.ne']

theorem uniform_log (hM : 0 < M) (hMb : (M : ℝ) ≤ 2 ^ 45) : 0 < rnd (1 / (M : ℝ)) ∧ |Real.log (rnd (1 / (M : ℝ)))| ≤ 32 := by
  have hM' : (1 : ℝ) ≤ M := by exact_mod_cast hM
  have d1 : IsDouble (1 / ((2 ^ 45 : Nat) : ℝ)) := isDouble_inv_pow 45 (by norm_num)
  have h1 : 1 / ((2 ^ 45 : Nat) : ℝ) ≤ rnd (1 / (M : ℝ)) := by
    rw [← rnd_of_isDouble d1]
    apply rnd_mono
    apply one_div_le_one_div_of_le (by linarith)
    push_cast
    exact hMb.trans (by norm_num)
  have h2 : rnd (1 / (M : ℝ)) ≤ 1 := by
    have d2 : IsDouble 1 := by exact_mod_cast isDouble_int 1 (by norm_num)
    have := rnd_mono (x := 1 / (M : ℝ)) (y := 1) (by rw [div_le_one (by linarith)]; exact hM')
    rwa [rnd_of_isDouble d2] at this
  have h0 : (0 : ℝ) < 1 / ((2 ^ 45 : Nat) : ℝ) := by positivity
  have hp : 0 < rnd (1 / (M : ℝ)) := lt_of_lt_of_le h0 h1
  refine ⟨hp, ?_⟩
  rw [abs_le]
  constructor
  · have := Real.log_le_log h0 h1
    have e : Real.log (1 / ((2 ^ 45 : Nat) : ℝ)) = -(45 * Real.log 2) := by
      rw [one_div, Real.log_inv, Nat.cast_pow, Real.log_pow]
      norm_num
    have := Real.log_two_lt_d9
    linarith
  · exact (Real.log_nonpos hp.le h2).trans (by norm_num)

/-- Without priors: the log-ratios for equiprobable points. -/
theorem C142_uniform {F : Libm} (hF : F.Accurate) {sum : List Double → Double} (hsum : ∀ l, SumOf l (sum l)) {h : ℝ → ℝ → ℝ} (hh : ModulusAccurate h) (complex : Bool) (hM : 0 < M)
    (m : Fin M → Fin N → ℝ × ℝ) (hm : ∀ i n, IsDouble (m i n).1 ∧ IsDouble (m i n).2) (label : Fin M → Fin B → Nat) (h01 : ∀ i j, label i j = 0 ∨ label i j = 1) (r : Fin N → ℝ × ℝ)
    (hr : ∀ n, IsDouble (r n).1 ∧ IsDouble (r n).2) (noise : Double) (hV : (2 : ℝ) ^ (-900 : ℤ) ≤ noise.val) {a : ℝ}
    (ha : ∀ i, distSq r (m i) / noiseVariance complex noise.val ≤ a) (hE : demapError M N (a + 32) ≤ 1 / 64) :
    ∃ out : Fin B → Option EReal, softDemapD F sum h complex m label r noise none = some (List.ofFn out) ∧ ∀ j, (∃ i, label i j = 0) → (∃ i, label i j = 1) →
      LlrNear (demapLlrError M N (a + 32))
        (Real.log ((∑ i with label i j = 0, Real.exp (-distSq r (m i) / noiseVariance complex noise.val)) / ∑ i with label i j = 1, Real.exp (-distSq r (m i) / noiseVariance complex noise.val)))
        (out j) := by
  have hV0 : 0 < noiseVariance complex noise.val := by
    have : 0 < noise.val := lt_of_lt_of_le (by positivity) hV
    unfold noiseVariance
    split <;> linarith
  have ha0 : 0 ≤ a := le_trans (div_nonneg (distSq_nonneg r (m ⟨0, hM⟩)) hV0.le) (ha ⟨0, hM⟩)
  have hMb : (M : ℝ) ≤ 2 ^ 45 := by
    unfold demapError at hE
    rw [div_le_iff₀ (by positivity)] at hE
    have : 0 ≤ 2 * ((N : ℝ) + 132) * (a + 32 + 4) := by positivity
    linarith
  obtain ⟨u0, ulog⟩ := uniform_log hM hMb
  obtain ⟨out, h1, h2⟩ := C142_soft hF hsum hh complex m hm label h01 r hr noise hV (fun _ => ⟨rnd (1 / (M : ℝ)), rnd_isDouble _⟩) (fun _ => u0.le) ⟨⟨0, hM⟩, u0.ne'⟩ ha (by norm_num)
    (fun _ _ => ulog) hE
  refine ⟨out, h1, fun j e0 e1 => ?_⟩
  have key : ∀ c, bitWeight complex noise.val m label r (fun _ => rnd (1 / (M : ℝ))) j c =
      rnd (1 / (M : ℝ)) * ∑ i with label i j = c, Real.exp (-distSq r (m i) / noiseVariance complex noise.val) := by
    intro c
    rw [bitWeight, Finset.mul_sum]
    rfl
  have hpos : ∀ c, (∃ i, label i j = c) → 0 < ∑ i with label i j = c, Real.exp (-distSq r (m i) / noiseVariance complex noise.val) := by
    intro c ⟨i, hi⟩
    exact Finset.sum_pos (fun _ _ => Real.exp_pos _) ⟨i, by simp [hi]⟩
  have : 0 < bitWeight complex noise.val m label r (fun _ => rnd (1 / (M : ℝ))) j 0 → 0 < bitWeight complex noise.val m label r (fun _ => rnd (1 / (M : ℝ))) j 1 → LlrNear (demapLlrError M N (a + 32))
      (Real.log (bitWeight complex noise.val m label r (fun _ => rnd (1 / (M : ℝ))) j 0 / bitWeight complex noise.val m label r (fun _ => rnd (1 / (M : ℝ))) j 1)) (out j) := h2 j
  rw [key 0, key 1, mul_div_mul_left _ _ u0.ne'] at this
  exact this (mul_pos u0 (hpos 0 e0)) (mul_pos u0 (hpos 1 e1))

/-- The likelihood of the points with bit `j` equal to `c`. -/
noncomputable def bitLikelihood (complex : Bool) (noise : ℝ) (m : Fin M → Fin N → ℝ × ℝ) (label : Fin M → Fin B → Nat) (r : Fin N → ℝ × ℝ) (j : Fin B) (c : Nat) : ℝ :=
  ∑ i with label i j = c, Real.exp (-distSq r (m i) / noiseVariance complex noise)

/-- Hard decisions (`output < 0`) on the soft output, without priors: the more likely value of every bit whose log-ratio exceeds the error. -/
theorem C142_hard {F : Libm} (hF : F.Accurate) {sum : List Double → Double} (hsum : ∀ l, SumOf l (sum l)) {h : ℝ → ℝ → ℝ} (hh : ModulusAccurate h) (complex : Bool) (hM : 0 < M)
    (m : Fin M → Fin N → ℝ × ℝ) (hm : ∀ i n, IsDouble (m i n).1 ∧ IsDouble (m i n).2) (label : Fin M → Fin B → Nat) (h01 : ∀ i j, label i j = 0 ∨ label i j = 1) (r : Fin N → ℝ × ℝ)
    (hr : ∀ n, IsDouble (r n).1 ∧ IsDouble (r n).2) (noise : Double) (hV : (2 : ℝ) ^ (-900 : ℤ) ≤ noise.val) {a : ℝ}
    (ha : ∀ i, distSq r (m i) / noiseVariance complex noise.val ≤ a) (hE : demapError M N (a + 32) ≤ 1 / 64) :
    ∃ bits : Fin B → ZMod 2, (softDemapD F sum h complex m label r noise none).map Terminated.hardDecision = some (List.ofFn bits) ∧
      ∀ j, (∃ i, label i j = 0) → (∃ i, label i j = 1) →
        demapLlrError M N (a + 32) < |Real.log (bitLikelihood complex noise.val m label r j 0 / bitLikelihood complex noise.val m label r j 1)| →
        (bits j = 0 → bitLikelihood complex noise.val m label r j 1 < bitLikelihood complex noise.val m label r j 0) ∧
        (bits j = 1 → bitLikelihood complex noise.val m label r j 0 < bitLikelihood complex noise.val m label r j 1) := by
  obtain ⟨out, h1, h2⟩ := C142_uniform hF hsum hh complex hM m hm label h01 r hr noise hV ha hE
  refine ⟨fun j => (Terminated.hardDecision [out j]).headD 0, ?_, fun j e0 e1 hgt => ?_⟩
  · rw [h1, Option.map_some]
    congr 1
    apply List.ext_getElem (by simp [Terminated.hardDecision])
    intro i _ _
    simp [Terminated.hardDecision]
  · have hpos : ∀ c, (∃ i, label i j = c) → 0 < bitLikelihood complex noise.val m label r j c := by
      intro c ⟨i, hi⟩
      exact Finset.sum_pos (fun _ _ => Real.exp_pos _) ⟨i, by simp [hi]⟩
    have p0 := hpos 0 e0
    have p1 := hpos 1 e1
    beta_reduce
    rw [hard_llr (h2 j e0 e1) hgt, List.headD_cons]
    change ((if Real.log (bitLikelihood complex noise.val m label r j 0 / bitLikelihood complex noise.val m label r j 1) < 0 then (1 : ZMod 2) else 0) = 0 → _) ∧
      ((if Real.log (bitLikelihood complex noise.val m label r j 0 / bitLikelihood complex noise.val m label r j 1) < 0 then (1 : ZMod 2) else 0) = 1 → _)
    generalize bitLikelihood complex noise.val m label r j 0 = x at *
    generalize bitLikelihood complex noise.val m label r j 1 = y at *
    have hΔ : 0 ≤ demapLlrError M N (a + 32) := by
      have hV0 : 0 < noiseVariance complex noise.val := by
        have : 0 < noise.val := lt_of_lt_of_le (by positivity) hV
        unfold noiseVariance
        split <;> linarith
      have ha0 : 0 ≤ a := le_trans (div_nonneg (distSq_nonneg r (m ⟨0, hM⟩)) hV0.le) (ha ⟨0, hM⟩)
      unfold demapLlrError demapError
      positivity
    have hne : Real.log (x / y) ≠ 0 := by
      intro hc
      rw [hc, abs_zero] at hgt
      linarith
    by_cases hlt : Real.log (x / y) < 0
    · rw [if_pos hlt]
      rw [Real.log_neg_iff (div_pos p0 p1), div_lt_one p1] at hlt
      exact ⟨fun hc => absurd hc (by decide), fun _ => hlt⟩
    · rw [if_neg hlt]
      have hgt' : 0 < Real.log (x / y) := lt_of_le_of_ne (not_lt.mp hlt) (Ne.symm hne)
      rw [Real.log_pos_iff (div_pos p0 p1).le, one_lt_div p1] at hgt'
      exact ⟨fun _ => hgt', fun hc => absurd hc (by decide)⟩

/-! ### demapping followed by decoding -/

variable {k n σ : Nat}

/-- A binary constellation, the soft demapper and a BCJR decoder, all in double precision: the bits of the code are sent one per symbol (bit `b` as the point `c b`) and received as `r` over a Gaussian
channel.  The demapped values are doubles, and decoding them gives the posterior log-ratios of the message bits given `r`, up to the sum of both errors; a decided bit is the more probable one wherever the
log-ratio exceeds that error. -/
theorem C142_demap_decode {F : Libm} (hF : F.Accurate) {sum : List Double → Double} (hsum : ∀ l, SumOf l (sum l)) {h : ℝ → ℝ → ℝ} (hh : ModulusAccurate h) (t : Terminated k n σ)
    (v : BVec t.dimension → BVec t.length) (hB : DoubleBcjrAccurate F sum t v) (complex : Bool) (m : Fin 2 → Fin N → ℝ × ℝ) (hm : ∀ i n, IsDouble (m i n).1 ∧ IsDouble (m i n).2)
    (label : Fin 2 → Fin 1 → Nat) (c : ZMod 2 → Fin 2) (hc : ∀ i b, label i 0 = b.val ↔ i = c b) (r : Fin t.length → Fin N → ℝ × ℝ) (hr : ∀ j n, IsDouble (r j n).1 ∧ IsDouble (r j n).2)
    (noise : Double) (hV : (2 : ℝ) ^ (-900 : ℤ) ≤ noise.val) {a Λ : ℝ} (hΛ0 : 0 ≤ Λ) (ha : ∀ j i, distSq (r j) (m i) / noiseVariance complex noise.val ≤ a) (hΛ : Λ ≤ 599)
    (hd : ∀ j, |distSq (r j) (m (c 1)) - distSq (r j) (m (c 0))| / noiseVariance complex noise.val ≤ Λ) (hE : demapError 2 N (a + 32) ≤ 1 / 64)
    (hlen : t.length * demapLlrError 2 N (a + 32) ≤ 1) (hE' : bcjrError (t.length / n) k n σ (Λ + 1) ≤ 1 / 32) :
    ∃ (x : Fin t.length → Double) (y : Fin t.dimension → Option EReal) (b : BVec t.dimension),
      (∀ j, softDemapD F sum h complex m label (r j) noise none = some [some ((x j).val : EReal)]) ∧ t.bcjrSoftD F sum (List.ofFn x) = some (List.ofFn y) ∧
      t.bcjrHardD F sum (List.ofFn x) = some (List.ofFn b) ∧
      ∀ i, (|posteriorLogRatio v (fun j b => Real.exp (-distSq (r j) (m (c b)) / noiseVariance complex noise.val)) i| ≤ 599 →
          ∃ w : ℝ, y i = some (w : EReal) ∧ |w - posteriorLogRatio v (fun j b => Real.exp (-distSq (r j) (m (c b)) / noiseVariance complex noise.val)) i| ≤
            bcjrError (t.length / n) k n σ (Λ + 1) + t.length * demapLlrError 2 N (a + 32)) ∧
        (bcjrError (t.length / n) k n σ (Λ + 1) + t.length * demapLlrError 2 N (a + 32) <
            |posteriorLogRatio v (fun j b => Real.exp (-distSq (r j) (m (c b)) / noiseVariance complex noise.val)) i| →
          ∑ u with u i ≠ b i, ∏ j, Real.exp (-distSq (r j) (m (c (v u j))) / noiseVariance complex noise.val) <
            ∑ u with u i = b i, ∏ j, Real.exp (-distSq (r j) (m (c (v u j))) / noiseVariance complex noise.val)) := by
  have hV0 : 0 < noiseVariance complex noise.val := by
    have : 0 < noise.val := lt_of_lt_of_le (by positivity) hV
    unfold noiseVariance
    split <;> linarith
  have h01 : ∀ i j, label i j = 0 ∨ label i j = 1 := by
    intro i j
    rw [Subsingleton.elim j 0]
    have hc01 : c 0 ≠ c 1 := by
      intro he
      have a0 := (hc (c 0) 0).mpr rfl
      have a1 := (hc (c 0) 1).mpr he
      rw [a0] at a1
      exact absurd a1 (by decide)
    have : i = c 0 ∨ i = c 1 := by
      revert hc01
      generalize c 0 = p
      generalize c 1 = q
      revert i p q
      decide
    rcases this with h | h
    · exact Or.inl ((hc i 0).mpr h)
    · exact Or.inr ((hc i 1).mpr h)
  have hfil : ∀ b : ZMod 2, (Finset.univ.filter fun i : Fin 2 => label i 0 = b.val) = {c b} := by
    intro b
    ext i
    simp [hc i b]
  have hsoft : ∀ j, ∃ x : Double, softDemapD F sum h complex m label (r j) noise none = some [some (x.val : EReal)] ∧
      |x.val - Real.log (Real.exp (-distSq (r j) (m (c 0)) / noiseVariance complex noise.val) / Real.exp (-distSq (r j) (m (c 1)) / noiseVariance complex noise.val))| ≤ demapLlrError 2 N (a + 32) := by
    intro j
    obtain ⟨out, h1, h2⟩ := C142_uniform hF hsum hh complex two_pos m hm label h01 (r j) (hr j) noise hV (ha j) hE
    have h3 := h2 0 ⟨c 0, (hc _ 0).mpr rfl⟩ ⟨c 1, (hc _ 1).mpr rfl⟩
    have f0 := hfil 0
    have f1 := hfil 1
    rw [ZMod.val_zero] at f0
    rw [show (1 : ZMod 2).val = 1 from rfl] at f1
    rw [f0, f1, Finset.sum_singleton, Finset.sum_singleton] at h3
    have hL : |Real.log (Real.exp (-distSq (r j) (m (c 0)) / noiseVariance complex noise.val) / Real.exp (-distSq (r j) (m (c 1)) / noiseVariance complex noise.val))| ≤ Λ := by
      rw [← Real.exp_sub, Real.log_exp, ← sub_div, abs_div, abs_of_pos hV0, show -distSq (r j) (m (c 0)) - -distSq (r j) (m (c 1)) = distSq (r j) (m (c 1)) - distSq (r j) (m (c 0)) by ring]
      exact hd j
    obtain ⟨w, hw, hw2⟩ := h3.1 (by linarith)
    -- the output is a rounded value
    have hdbl : IsDouble w := by
      have e : ∀ q : Fin 2 → Double, marginalizeRowD F sum label q = [some (w : EReal)] → IsDouble w := by
        intro q hq
        rw [marginalizeRowD, List.ofFn_succ, List.ofFn_zero, List.cons.injEq] at hq
        have hq1 := hq.1
        unfold logRatioD at hq1
        split at hq1
        · split at hq1
          · simp at hq1
          · rw [Option.some.injEq] at hq1; exact absurd hq1.symm (EReal.coe_ne_bot w)
        · split at hq1
          · rw [Option.some.injEq] at hq1; exact absurd hq1.symm (EReal.coe_ne_top w)
          · rw [Option.some.injEq, EReal.coe_eq_coe_iff] at hq1
            rw [← hq1]
            exact rnd_isDouble _
      have hs := h1
      rw [List.ofFn_succ, List.ofFn_zero, hw] at hs
      unfold softDemapD at hs
      cases hq : posteriorsD F sum h complex m (r j) noise none with
      | none => rw [hq] at hs; exact absurd hs (by simp)
      | some q =>
        rw [hq, Option.map_some, Option.some.injEq] at hs
        exact e q hs
    exact ⟨⟨w, hdbl⟩, by rw [h1, List.ofFn_succ, List.ofFn_zero, hw]; rfl, hw2⟩
  choose x hx1 hx2 using hsoft
  have hone : ∀ j : Fin t.length, demapLlrError 2 N (a + 32) ≤ 1 := by
    intro j
    have hpos : (1 : ℝ) ≤ t.length := by exact_mod_cast (lt_of_le_of_lt (Nat.zero_le _) j.2)
    have h0 : 0 ≤ demapLlrError 2 N (a + 32) := le_trans (abs_nonneg _) (hx2 j)
    nlinarith
  obtain ⟨y, b, h1, h2, h3⟩ := hB (fun j b => Real.exp (-distSq (r j) (m (c b)) / noiseVariance complex noise.val)) (fun _ _ => Real.exp_pos _) x (demapLlrError 2 N (a + 32)) (Λ + 1) hx2
    (by
      intro j
      have hL : |Real.log (Real.exp (-distSq (r j) (m (c 0)) / noiseVariance complex noise.val) / Real.exp (-distSq (r j) (m (c 1)) / noiseVariance complex noise.val))| ≤ Λ := by
        rw [← Real.exp_sub, Real.log_exp, ← sub_div, abs_div, abs_of_pos hV0, show -distSq (r j) (m (c 0)) - -distSq (r j) (m (c 1)) = distSq (r j) (m (c 1)) - distSq (r j) (m (c 0)) by ring]
        exact hd j
      have h4 := hx2 j
      have h5 := hone j
      rw [abs_le] at h4 hL ⊢
      constructor <;> linarith [h4.1, h4.2, hL.1, hL.2])
    (by linarith) hlen hE'
  exact ⟨x, y, b, hx1, h1, h2, h3⟩

/-! ### concrete cases -/

theorem exists_modulus : ∃ h, ModulusAccurate h := ⟨fun x y => Real.sqrt (x ^ 2 + y ^ 2), fun x y => ⟨Real.sqrt_nonneg _, by rw [sub_self, abs_zero]; positivity⟩⟩

/-- Antipodal points. -/
def antipodal : Fin 2 → Fin 1 → ℝ × ℝ := fun i _ => if i = 0 then (1, 0) else (-1, 0)

/-- The zero-terminated code of octal generators 7 and 5, antipodal points, unit noise power, every sample received as 1/2: the hypotheses of `C142_demap_decode` hold. -/
example : ∃ (F : Libm) (sum : List Double → Double) (h : ℝ → ℝ → ℝ) (v : BVec 3 → BVec 10), F.Accurate ∧ (∀ l, SumOf l (sum l)) ∧ ModulusAccurate h ∧
    (∀ u, exampleTerm75.encode u = some (List.ofFn (v u))) ∧ DoubleBcjrAccurate F sum exampleTerm75 v ∧
    (∀ i n, IsDouble (antipodal i n).1 ∧ IsDouble (antipodal i n).2) ∧ (∀ (i : Fin 2) (b : ZMod 2), (fun (i : Fin 2) (_ : Fin 1) => (i : Nat)) i 0 = b.val ↔ i = (fun b : ZMod 2 => (b : Fin 2)) b) ∧
    IsDouble (1 / 2) ∧ (2 : ℝ) ^ (-900 : ℤ) ≤ (Double.ofInt 1).val ∧ (∀ i, distSq (fun _ => (1 / 2, 0)) (antipodal i) / noiseVariance false (Double.ofInt 1).val ≤ 2) ∧
    |distSq (fun _ => (1 / 2, 0)) (antipodal 1) - distSq (fun _ => (1 / 2, 0)) (antipodal 0)| / noiseVariance false (Double.ofInt 1).val ≤ 1 ∧ demapError 2 1 (2 + 32) ≤ 1 / 64 ∧
    (10 : ℝ) * demapLlrError 2 1 (2 + 32) ≤ 1 ∧ bcjrError (exampleTerm75.length / 2) 1 2 2 (1 + 1) ≤ 1 / 32 := by
  obtain ⟨F, hF⟩ := exists_libm
  obtain ⟨sum, hsum⟩ := exists_dot
  obtain ⟨h, hh⟩ := exists_modulus
  have hlen : ∀ u : BVec 3, (exampleTerm75.encode u).map List.length = some 10 := by decide +kernel
  have hex : ∀ u : BVec 3, ∃ v : BVec 10, exampleTerm75.encode u = some (List.ofFn v) := by
    intro u
    have h := hlen u
    cases he : exampleTerm75.encode u with
    | none => rw [he] at h; cases h
    | some l =>
      rw [he, Option.map_some, Option.some.injEq] at h
      exact ⟨fun i => l[i], by
        congr 1
        apply List.ext_getElem
        · simp [h]
        · intro i h1 h2; rw [List.getElem_ofFn]; rfl⟩
  choose v hv using hex
  have v1 : (Double.ofInt 1).val = 1 := by simpa using Double.val_ofInt 1 (by norm_num)
  have d1 : IsDouble 1 := by exact_mod_cast isDouble_int 1 (by norm_num)
  refine ⟨F, sum, h, v, hF, hsum, hh, hv, C141_zero hF hsum exampleConv75 two_pos (by decide +kernel) 3 (by norm_num) exampleTerm75 rfl v hv, ?_, (by decide : ∀ (i : Fin 2) (b : Fin 2), (i : Nat) = (b : Nat) ↔ i = b), ?_, ?_, ?_, ?_, ?_, ?_, ?_⟩
  · intro i n
    unfold antipodal
    split
    · exact ⟨d1, isDouble_zero⟩
    · exact ⟨isDouble_neg d1, isDouble_zero⟩
  · have := isDouble_inv_pow 1 (by norm_num)
    norm_num at this ⊢
    exact this
  · rw [v1]
    exact zpow_le_one_of_nonpos₀ (by norm_num) (by norm_num)
  · intro i
    rw [v1]
    fin_cases i <;> norm_num [distSq, antipodal, noiseVariance]
  · rw [v1]
    norm_num [distSq, antipodal, noiseVariance]
  · norm_num [demapError]
  · norm_num [demapLlrError, demapError]
  · have e : exampleTerm75.length / 2 = 5 := by decide +kernel
    rw [e]
    norm_num [bcjrError, roundUnit, bcjrMagnitude, fbMagnitude]

end Komm
