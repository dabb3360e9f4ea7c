import Verif.Lemmas.DoubleBcjr
import Verif.Props.C90_BCJR
import Verif.Props.C134_DoubleViterbi

/-! C141: `forward_backward` and the BCJR decoder in double precision. -/
namespace Komm
open scoped BigOperators
variable {S X : Nat}

/-! ### the forward-backward algorithm -/

theorem npLog_near {F : Libm} (hF : F.Accurate) {b : ℝ} (x : Double) (h0 : 0 ≤ x.val) (hb : x.val ≠ 0 → |Real.log x.val| ≤ b) :
    Near (b / 2 ^ 50) b (npLog x.val) (npLogD F x) := by
  unfold npLog npLogD
  by_cases h : x.val = 0
  · rw [if_pos h, if_pos h]; exact Or.inl ⟨rfl, rfl⟩
  · rw [if_neg h, if_neg h]
    refine Or.inr ⟨_, _, rfl, rfl, ?_, hb h⟩
    exact (hF.log_near _ (lt_of_le_of_ne h0 (Ne.symm h))).trans (div_le_div_of_nonneg_right (hb h) (by positivity))

theorem logGamma_near {F : Libm} (hF : F.Accurate) {Z : Type} (M : Mealy S X) (metric : Nat → Z → ℝ) (metricD : Nat → Z → Double) (z : Z) (p : Fin X → Double) {A b g e : ℝ}
    (hp : ∀ x, 0 ≤ (p x).val ∧ ((p x).val ≠ 0 → |Real.log (p x).val| ≤ b))
    (hm : ∀ s x, |metric (M.out s x) z| ≤ g ∧ |(metricD (M.out s x) z).val - metric (M.out s x) z| ≤ e) (hA : b + g ≤ 2 * A) (hE : b / 2 ^ 50 + e ≤ 1) (s0 s1 : Fin S) :
    Near (b / 2 ^ 50 + e + roundUnit A) (b + g) (M.logGamma metric z (fun x => (p x).val) s0 s1) (M.logGammaD F metricD z p s0 s1) := by
  unfold Mealy.logGamma Mealy.logGammaD
  refine foldl_two (fun a b' => Near (b / 2 ^ 50 + e + roundUnit A) (b + g) a b') _ _ ?_ _ _ _ (Or.inl ⟨rfl, rfl⟩)
  intro a a' x h
  beta_reduce
  by_cases hx : M.next s0 x = s1
  · rw [if_pos hx, if_pos hx]
    exact Near.add (G := 2 * A) (npLog_near hF (p x) (hp x).1 (hp x).2) (Or.inr ⟨_, _, rfl, rfl, (hm s0 x).2, (hm s0 x).1⟩) hA hE
  · rw [if_neg hx, if_neg hx]; exact h

/-- Magnitude of everything computed in the log domain over `T` steps of a machine with `S` states, when metrics are at most `g` and logarithms of given probabilities at most `b`. -/
def fbMagnitude (T S : Nat) (b g : ℝ) : ℝ := 2 * b + T * (b + g + S)

/-- Error in the log domain, when the metrics are given with errors of at most `e`. -/
noncomputable def fbError (T S : Nat) (b g e : ℝ) : ℝ := T * (e + (S + 3) * roundUnit (fbMagnitude T S b g)) + 3 * roundUnit (fbMagnitude T S b g)

/-- The posteriors that `forward_backward` computes in double precision are the exact ones, up to a factor `e^{±η}` and the underflow threshold. -/
theorem C141_forward_backward {F : Libm} (hF : F.Accurate) {sum : List Double → Double} (hsum : ∀ l, SumOf l (sum l)) (hX : (X : ℝ) ≤ 2 ^ 45) {Z : Type} (M : Mealy S X)
    (metric : Nat → Z → ℝ) (metricD : Nat → Z → Double) (zs : List Z) (priors : Nat → Fin X → Double) (init final : Fin S → Double) {b g e : ℝ} (hb0 : 0 ≤ b) (hg0 : 0 ≤ g) (he0 : 0 ≤ e)
    (hm : ∀ z ∈ zs, ∀ s x, |metric (M.out s x) z| ≤ g ∧ |(metricD (M.out s x) z).val - metric (M.out s x) z| ≤ e)
    (hp : ∀ t x, 0 ≤ (priors t x).val ∧ ((priors t x).val ≠ 0 → |Real.log (priors t x).val| ≤ b))
    (hi : ∀ s, 0 ≤ (init s).val ∧ ((init s).val ≠ 0 → |Real.log (init s).val| ≤ b))
    (hf : ∀ s, 0 ≤ (final s).val ∧ ((final s).val ≠ 0 → |Real.log (final s).val| ≤ b))
    (hE : fbError zs.length S b g e ≤ 1 / 32) :
    List.Forall₂ (fun (row : Option (Fin X → ℝ)) (row' : Option (Fin X → Double)) => (row = none ∧ row' = none) ∨ ∃ p q, row = some p ∧ row' = some q ∧ ∑ x, p x = 1 ∧
        ∀ x, 0 ≤ p x ∧ 0 ≤ (q x).val ∧
          MulNear (2 * fbError zs.length S b g e + 7 * roundUnit (fbMagnitude zs.length S b g) + X / 2 ^ 51) (2 ^ (-1069 : ℤ)) (p x) (q x).val)
      (M.forwardBackward metric zs (some fun t x => (priors t x).val) (some fun s => (init s).val) (some fun s => (final s).val))
      (M.forwardBackwardD F sum metricD zs (some priors) (some init) (some final)) := by
  unfold Mealy.forwardBackward Mealy.forwardBackwardD
  simp only [Option.getD_some]
  rw [List.forall₂_map_left_iff, List.forall₂_map_right_iff, List.forall₂_same]
  intro t ht
  rw [List.mem_range] at ht
  unfold Mealy.posteriorRow Mealy.posteriorRowD
  simp only
  have S0 : (0 : ℝ) ≤ S := Nat.cast_nonneg S
  have T1 : (1 : ℝ) ≤ zs.length := by exact_mod_cast (by omega : 1 ≤ zs.length)
  have hA : b + g + S ≤ fbMagnitude zs.length S b g := by
    unfold fbMagnitude
    have : 1 * (b + g + S) ≤ zs.length * (b + g + S) := mul_le_mul_of_nonneg_right T1 (by linarith)
    linarith
  have hAd : fbMagnitude zs.length S b g = 2 * b + zs.length * (b + g + S) := rfl
  unfold fbError at hE ⊢
  generalize fbMagnitude zs.length S b g = A at *
  have A0 : 0 ≤ A := by linarith
  have u0 : 0 < roundUnit A := by unfold roundUnit; positivity
  have hbu : b / 2 ^ 50 ≤ roundUnit A := by unfold roundUnit; norm_num; linarith
  have Tu : 0 ≤ (zs.length : ℝ) * (e + (S + 3) * roundUnit A) := by positivity
  have eT : 1 * (e + (S + 3) * roundUnit A) ≤ zs.length * (e + (S + 3) * roundUnit A) := mul_le_mul_of_nonneg_right T1 (by positivity)
  have Su : 0 ≤ (S : ℝ) * roundUnit A := by positivity
  have b50 : 0 ≤ b / 2 ^ 50 := by positivity
  have hu : roundUnit A ≤ 1 / 64 := by linarith
  have hg : GammasNear (e + 2 * roundUnit A) (b + g) (zs.mapIdx fun t z => M.logGamma metric z fun x => (priors t x).val) (zs.mapIdx fun t z => M.logGammaD F metricD z (priors t)) := by
    rw [GammasNear, List.forall₂_iff_get]
    refine ⟨by simp, ?_⟩
    intro i h1 h2 s0 s1
    simp only [List.get_eq_getElem, List.getElem_mapIdx]
    exact (logGamma_near hF M metric metricD _ (priors i) (hp i) (hm _ (List.getElem_mem _)) (A := A) (by linarith) (by linarith) s0 s1).mono (by linarith) le_rfl
  have hl : (zs.mapIdx fun t z => M.logGamma metric z fun x => (priors t x).val).length = zs.length := by simp
  refine normalize_near hF hsum hX A0 (by linarith) hu _ _ fun x => ?_
  refine (labels_near hF M (A := A) (by linarith) (by linarith) (by linarith) u0.le hg _ _ _ _ (fun s => npLog_near hF (init s) (hi s).1 (hi s).2)
    (fun s => npLog_near hF (final s) (hf s).1 (hf s).2) hb0 hb0 b50 b50 ?_ ?_ t (by rw [hl]; exact ht) x).mono ?_ le_rfl
  · rw [hl]; linarith
  · rw [hl]; linarith
  · rw [hl]; linarith

/-! ### log-likelihood ratios -/

theorem exp_big : Real.exp 601 ≤ 2 ^ 903 := by
  have h1 : Real.exp 2 ≤ 8 := by
    have h := Real.exp_one_lt_d9
    have : Real.exp 2 = Real.exp 1 * Real.exp 1 := by rw [← Real.exp_add]; norm_num
    have p := Real.exp_pos 1
    rw [this]; nlinarith
  have h2 : Real.exp 601 ≤ Real.exp ((301 : Nat) * 2) := Real.exp_le_exp.mpr (by norm_num)
  rw [Real.exp_nat_mul] at h2
  refine h2.trans ((pow_le_pow_left₀ (Real.exp_pos _).le h1 301).trans ?_)
  rw [show (8 : ℝ) = 2 ^ 3 by norm_num, ← pow_mul]

theorem tau_small {τ P : ℝ} (hτ : τ ≤ 2 ^ (-1020 : ℤ)) (hP : Real.exp (-601) ≤ P) : τ ≤ P / 2 ^ 100 := by
  refine hτ.trans (le_trans ?_ (div_le_div_of_nonneg_right hP (by positivity)))
  rw [Real.exp_neg, le_div_iff₀ (by positivity)]
  have h1 : ((2 : ℝ) ^ 903)⁻¹ ≤ (Real.exp 601)⁻¹ := inv_anti₀ (Real.exp_pos _) exp_big
  refine le_trans (le_of_lt ?_) h1
  have h2 : (2 : ℝ) ^ (-1020 : ℤ) * 2 ^ 100 = 2 ^ (-920 : ℤ) := by
    rw [← zpow_natCast, ← zpow_add₀ (by norm_num)]; norm_num
  have h3 : ((2 : ℝ) ^ 903)⁻¹ = 2 ^ (-903 : ℤ) := by rw [zpow_neg]; rfl
  rw [h2, h3]
  exact zpow_lt_zpow_right₀ (by norm_num) (by norm_num)

/-- The logarithm of a probability that is not tiny. -/
theorem log_mulNear {η τ P Q : ℝ} (h : MulNear η τ P Q) (hη0 : 0 ≤ η) (hη : η ≤ 1 / 4) (hτ : τ ≤ 2 ^ (-1020 : ℤ)) (hP : Real.exp (-601) ≤ P) :
    0 < Q ∧ |Real.log Q - Real.log P| ≤ η + 1 / 2 ^ 90 := by
  have P0 : 0 < P := lt_of_lt_of_le (Real.exp_pos _) hP
  have ht := tau_small hτ hP
  have el : 3 / 4 ≤ Real.exp (-η) := by have := Real.add_one_le_exp (-η); linarith
  have eu : 1 ≤ Real.exp η := Real.one_le_exp hη0
  have l1 : P * Real.exp (-(η + 1 / 2 ^ 90)) ≤ Q := by
    have k1 := one_sub_ge_exp (c := 1 / 2 ^ 91) (by positivity) (by norm_num)
    rw [show (2 : ℝ) * (1 / 2 ^ 91) = 1 / 2 ^ 90 by norm_num] at k1
    have k2 : P * Real.exp (-(η + 1 / 2 ^ 90)) ≤ P * Real.exp (-η) * (1 - 1 / 2 ^ 91) := by
      rw [neg_add, Real.exp_add, ← mul_assoc]; exact mul_le_mul_of_nonneg_left k1 (by positivity)
    have k3 : P * (3 / 4) ≤ P * Real.exp (-η) := mul_le_mul_of_nonneg_left el P0.le
    have := h.1
    generalize P * Real.exp (-η) = y at *
    norm_num at k2 ht ⊢
    linarith
  have l2 : Q ≤ P * Real.exp (η + 1 / 2 ^ 90) := by
    have k1 : 1 + 1 / 2 ^ 90 ≤ Real.exp (1 / 2 ^ 90) := by have := Real.add_one_le_exp ((1 : ℝ) / 2 ^ 90); linarith
    have k2 : P * Real.exp η * (1 + 1 / 2 ^ 90) ≤ P * Real.exp (η + 1 / 2 ^ 90) := by
      rw [Real.exp_add, ← mul_assoc]; exact mul_le_mul_of_nonneg_left k1 (by positivity)
    have k3 : P * 1 ≤ P * Real.exp η := mul_le_mul_of_nonneg_left eu P0.le
    have := h.2
    generalize P * Real.exp η = y at *
    norm_num at k2 ht ⊢
    linarith
  have Q0 : 0 < Q := lt_of_lt_of_le (by positivity) l1
  refine ⟨Q0, ?_⟩
  have m1 := Real.log_le_log (by positivity) l1
  have m2 := Real.log_le_log Q0 l2
  rw [Real.log_mul P0.ne' (Real.exp_pos _).ne', Real.log_exp] at m1 m2
  rw [abs_le]; constructor <;> linarith

/-- What a computed log-likelihood ratio `y` has to do with the exact one `L`, up to `Δ`: the difference is at most `Δ`, unless `L` is beyond ±600, where the computed one is beyond ±500 (it may be
infinite). -/
def LlrNear (Δ : ℝ) (L : ℝ) (y : Option EReal) : Prop :=
  (|L| ≤ 600 → ∃ v : ℝ, y = some (v : EReal) ∧ |v - L| ≤ Δ) ∧ (600 < L → ∃ v : EReal, y = some v ∧ ((500 : ℝ) : EReal) ≤ v) ∧
    (L < -600 → ∃ v : EReal, y = some v ∧ v ≤ ((-500 : ℝ) : EReal))

/-- One group of probabilities beyond the threshold. -/
theorem far_side {F : Libm} (hF : F.Accurate) {η τ P₀ P₁ : ℝ} {q₀ q₁ : Double} (hP0 : 0 < P₀) (hP1 : 0 < P₁) (hsum : P₀ + P₁ = 1) (h0 : MulNear η τ P₀ q₀.val) (h1 : MulNear η τ P₁ q₁.val)
    (n1 : 0 ≤ q₁.val) (hη : η ≤ 1 / 4) (hτ : τ ≤ 2 ^ (-1020 : ℤ)) (hL : 600 < Real.log P₀ - Real.log P₁) :
    q₀.val ≠ 0 ∧ (q₁.val ≠ 0 → 500 ≤ F.log q₀.val - F.log q₁.val) := by
  have e1 : P₁ ≤ Real.exp (-600) := by
    have : Real.log P₁ ≤ -600 := by
      have : Real.log P₀ ≤ 0 := Real.log_nonpos hP0.le (by linarith)
      linarith
    rwa [Real.log_le_iff_le_exp hP1] at this
  have e600 : Real.exp (-600) ≤ 1 / 4 := by
    have : Real.exp (-600) ≤ Real.exp (-3) := Real.exp_le_exp.mpr (by norm_num)
    refine this.trans ?_
    rw [Real.exp_neg, one_div]
    exact inv_anti₀ (by norm_num) (by have := Real.add_one_le_exp (3 : ℝ); linarith)
  have hp : 3 / 4 ≤ P₀ := by linarith
  have t1 : τ ≤ 1 / 2 ^ 100 := by
    have := tau_small hτ (P := 1) (Real.exp_le_one_iff.mpr (by norm_num)); linarith
  have el : 3 / 4 ≤ Real.exp (-η) := by have := Real.add_one_le_exp (-η); linarith
  have eu : Real.exp η ≤ 4 / 3 := by
    have := inv_anti₀ (by norm_num) el
    rw [Real.exp_neg, inv_inv] at this
    norm_num at this; exact this
  have q0l : 1 / 2 ≤ q₀.val := by
    have : 3 / 4 * (3 / 4) ≤ P₀ * Real.exp (-η) := mul_le_mul hp el (by norm_num) (by linarith)
    have := h0.1
    norm_num at t1 ⊢; linarith
  have q0u : q₀.val ≤ 2 := by
    have : P₀ * Real.exp η ≤ 1 * (4 / 3) := mul_le_mul (by linarith) eu (Real.exp_pos _).le (by norm_num)
    have := h0.2
    norm_num at t1 ⊢; linarith
  refine ⟨by linarith, fun hne => ?_⟩
  have q1p : 0 < q₁.val := lt_of_le_of_ne n1 (Ne.symm hne)
  have q1u : q₁.val ≤ Real.exp (-599) := by
    have k1 : P₁ * Real.exp η ≤ Real.exp (-600) * (4 / 3) := mul_le_mul e1 eu (Real.exp_pos _).le (Real.exp_pos _).le
    have k2 : τ ≤ Real.exp (-600) / 2 ^ 100 := tau_small hτ (Real.exp_le_exp.mpr (by norm_num))
    have k3 : Real.exp (-599) = Real.exp (-600) * Real.exp 1 := by rw [← Real.exp_add]; norm_num
    have k4 : 2 ≤ Real.exp 1 := by have := Real.add_one_le_exp (1 : ℝ); linarith
    have k5 : Real.exp (-600) * 2 ≤ Real.exp (-600) * Real.exp 1 := mul_le_mul_of_nonneg_left k4 (Real.exp_pos _).le
    have k6 := Real.exp_pos (-600)
    have := h1.2
    rw [k3]
    generalize Real.exp (-600) = w at *
    norm_num at k2
    linarith
  have a1 := hF.log_near _ q1p
  have a0 := hF.log_near q₀.val (by linarith)
  have b1 : Real.log q₁.val ≤ -599 := by rwa [Real.log_le_iff_le_exp q1p]
  have b0 : |Real.log q₀.val| ≤ 1 := by
    rw [abs_le]
    constructor
    · rw [Real.le_log_iff_exp_le (by linarith), Real.exp_neg]
      have k4 : 2 ≤ Real.exp 1 := by have := Real.add_one_le_exp (1 : ℝ); linarith
      have := inv_anti₀ (by norm_num) k4
      linarith
    · have := Real.log_le_sub_one_of_pos (x := q₀.val) (by linarith)
      linarith
  rw [abs_of_nonpos (a := Real.log q₁.val) (by linarith)] at a1
  rw [abs_le] at a1 a0 b0
  have c0 : |Real.log q₀.val| / 2 ^ 50 ≤ 1 := by
    have : |Real.log q₀.val| ≤ 1 := abs_le.mpr b0
    rw [div_le_one (by positivity)]; linarith
  have := a1.2
  have := a0.1
  norm_num at *
  linarith

theorem logRatio_near {F : Libm} (hF : F.Accurate) {η τ P₀ P₁ : ℝ} {q₀ q₁ : Double} (hP0 : 0 < P₀) (hP1 : 0 < P₁) (hsum : P₀ + P₁ = 1) (h0 : MulNear η τ P₀ q₀.val) (h1 : MulNear η τ P₁ q₁.val)
    (n0 : 0 ≤ q₀.val) (n1 : 0 ≤ q₁.val) (hη0 : 0 ≤ η) (hη : η ≤ 1 / 4) (hτ : τ ≤ 2 ^ (-1020 : ℤ)) :
    LlrNear (2 * η + 1 / 2 ^ 39) (Real.log P₀ - Real.log P₁) (logRatioD F q₀ q₁) := by
  have d500 : IsDouble 500 := by exact_mod_cast isDouble_int 500 (by norm_num)
  refine ⟨fun hL => ?_, fun hL => ?_, fun hL => ?_⟩
  · have key : ∀ P P' : ℝ, 0 < P → 0 < P' → P + P' = 1 → |Real.log P - Real.log P'| ≤ 600 → Real.exp (-601) ≤ P := by
      intro P P' hp hp' hs hd
      rw [abs_le] at hd
      rw [← Real.le_log_iff_exp_le hp]
      by_contra hc
      have c1 : P < Real.exp (-601) := by rwa [not_le, Real.log_lt_iff_lt_exp hp] at hc
      have c2 : Real.log P' < -1 := by linarith
      rw [Real.log_lt_iff_lt_exp hp'] at c2
      have c3 : Real.exp (-601) ≤ Real.exp (-1) := Real.exp_le_exp.mpr (by norm_num)
      have c4 : Real.exp (-1) ≤ 1 / 2 := by
        rw [Real.exp_neg, one_div]
        exact inv_anti₀ (by norm_num) (by have := Real.add_one_le_exp (1 : ℝ); linarith)
      linarith
    have g0 := key P₀ P₁ hP0 hP1 hsum hL
    have g1 := key P₁ P₀ hP1 hP0 (by linarith) (by rwa [abs_sub_comm])
    obtain ⟨a0, b0⟩ := log_mulNear h0 hη0 hη hτ g0
    obtain ⟨a1, b1⟩ := log_mulNear h1 hη0 hη hτ g1
    refine ⟨_, by rw [logRatioD, if_neg a0.ne', if_neg a1.ne'], ?_⟩
    have c0 := hF.log_near _ a0
    have c1 := hF.log_near _ a1
    have lb : ∀ P : ℝ, 0 < P → P ≤ 1 → Real.exp (-601) ≤ P → |Real.log P| ≤ 601 := by
      intro P h1 h2 h3
      rw [← Real.le_log_iff_exp_le h1] at h3
      have := Real.log_nonpos h1.le h2
      rw [abs_le]; constructor <;> linarith
    have e0 := lb P₀ hP0 (by linarith) g0
    have e1 := lb P₁ hP1 (by linarith) g1
    have f0 : |Real.log q₀.val| ≤ 602 := by rw [abs_le] at *; norm_num at b0; constructor <;> linarith
    have f1 : |Real.log q₁.val| ≤ 602 := by rw [abs_le] at *; norm_num at b1; constructor <;> linarith
    have i0 : |F.log q₀.val - Real.log q₀.val| ≤ 602 / 2 ^ 50 := c0.trans (div_le_div_of_nonneg_right f0 (by positivity))
    have i1 : |F.log q₁.val - Real.log q₁.val| ≤ 602 / 2 ^ 50 := c1.trans (div_le_div_of_nonneg_right f1 (by positivity))
    have r := rnd_unit (G := 1206) (x := F.log q₀.val - F.log q₁.val) (by rw [abs_le] at *; norm_num at i0 i1; constructor <;> linarith)
    generalize F.log q₀.val = x0 at *
    generalize F.log q₁.val = x1 at *
    clear c0 c1 f0 f1 e0 e1 g0 g1
    rw [abs_le] at *
    norm_num at b0 b1 i0 i1 r ⊢
    constructor <;> linarith
  · obtain ⟨a, b⟩ := far_side hF hP0 hP1 hsum h0 h1 n1 hη hτ hL
    rw [logRatioD, if_neg a]
    by_cases hq : q₁.val = 0
    · rw [if_pos hq]; exact ⟨_, rfl, le_top⟩
    · rw [if_neg hq]
      refine ⟨_, rfl, EReal.coe_le_coe_iff.mpr ?_⟩
      have := rnd_mono (b hq)
      rwa [rnd_of_isDouble d500] at this
  · obtain ⟨a, b⟩ := far_side hF hP1 hP0 (by linarith) h1 h0 n0 hη hτ (by linarith)
    rw [logRatioD]
    by_cases hq : q₀.val = 0
    · rw [if_pos hq, if_neg a]; exact ⟨_, rfl, bot_le⟩
    · rw [if_neg hq, if_neg a]
      refine ⟨_, rfl, EReal.coe_le_coe_iff.mpr ?_⟩
      have h := b hq
      have := rnd_mono (x := F.log q₀.val - F.log q₁.val) (y := -500) (by linarith)
      rwa [rnd_of_isDouble (isDouble_neg d500)] at this

/-- The bits of one row. -/
theorem marginalize_near {F : Libm} (hF : F.Accurate) {sum : List Double → Double} (hsum : ∀ l, SumOf l (sum l)) {N m : Nat} (hN : (N : ℝ) ≤ 2 ^ 45) (matrix : Fin N → Fin m → Nat)
    (h01 : ∀ x i, matrix x i = 0 ∨ matrix x i = 1) (p : Fin N → ℝ) (q : Fin N → Double) {η : ℝ} (hη0 : 0 ≤ η) (hη : η + N / 2 ^ 51 ≤ 1 / 4) (hp1 : ∑ x, p x = 1)
    (h : ∀ x, 0 ≤ p x ∧ 0 ≤ (q x).val ∧ MulNear η (2 ^ (-1069 : ℤ)) (p x) (q x).val) :
    List.Forall₂ (fun (a y : Option EReal) => ∀ L : ℝ, a = some (L : EReal) → LlrNear (2 * (η + N / 2 ^ 51) + 1 / 2 ^ 39) L y) (marginalizeRow matrix p) (marginalizeRowD F sum matrix q) := by
  unfold marginalizeRow marginalizeRowD
  rw [List.forall₂_iff_get]
  refine ⟨by simp, ?_⟩
  intro i h1 h2 L hL
  simp only [List.get_eq_getElem, List.getElem_ofFn] at hL ⊢
  have hi : i < m := by simpa using h1
  generalize (⟨i, hi⟩ : Fin m) = j at *
  have N0 : (0 : ℝ) ≤ N := Nat.cast_nonneg N
  have group : ∀ c : Nat, 0 ≤ ∑ x, p x * (if matrix x j = c then 1 else 0) ∧ 0 ≤ (sum (List.ofFn fun x : Fin N => if matrix x j = c then q x else 0)).val ∧
      MulNear (η + N / 2 ^ 51) (2 ^ (-1020 : ℤ)) (∑ x, p x * (if matrix x j = c then 1 else 0)) (sum (List.ofFn fun x : Fin N => if matrix x j = c then q x else 0)).val := by
    intro c
    have e0 : ∀ x, 0 ≤ p x * (if matrix x j = c then 1 else 0) := fun x => mul_nonneg (h x).1 (by split <;> norm_num)
    obtain ⟨a, b⟩ := sum_mulNear (by linarith) (by positivity : (0 : ℝ) ≤ 2 ^ (-1069 : ℤ)) (fun x => p x * (if matrix x j = c then 1 else 0)) (fun x : Fin N => if matrix x j = c then q x else 0) e0
      (fun x => by
        by_cases hx : matrix x j = c
        · rw [if_pos hx]; exact (h x).2.1
        · rw [if_neg hx]; exact le_rfl)
      (fun x => by
        by_cases hx : matrix x j = c
        · rw [if_pos hx, if_pos hx, mul_one]; exact (h x).2.2
        · rw [if_neg hx, if_neg hx, mul_zero]
          have : (0 : ℝ) ≤ 2 ^ (-1069 : ℤ) := by positivity
          exact ⟨by rw [zero_mul, Double.val_zero]; linarith, by rw [zero_mul, Double.val_zero]; linarith⟩) (hsum _)
    refine ⟨Finset.sum_nonneg fun x _ => e0 x, a, b.mono (Finset.sum_nonneg fun x _ => e0 x) le_rfl ?_⟩
    have e1 : (2 : ℝ) ^ (-1020 : ℤ) = 2 ^ 49 * 2 ^ (-1069 : ℤ) := by
      rw [show (-1020 : ℤ) = (49 : ℕ) + -1069 by norm_num, zpow_add₀ (by norm_num), zpow_natCast]
    rw [e1, ← mul_assoc]
    exact mul_le_mul_of_nonneg_right (by linarith) (by positivity)
  obtain ⟨a0, b0, c0⟩ := group 0
  obtain ⟨a1, b1, c1⟩ := group 1
  have htot : (∑ x, p x * (if matrix x j = 0 then 1 else 0)) + ∑ x, p x * (if matrix x j = 1 then 1 else 0) = 1 := by
    rw [← Finset.sum_add_distrib]
    refine Eq.trans ?_ hp1
    refine Finset.sum_congr rfl fun x _ => ?_
    rcases h01 x j with hx | hx <;> rw [hx] <;> simp
  generalize (∑ x, p x * (if matrix x j = 0 then 1 else 0)) = P0 at *
  generalize (∑ x, p x * (if matrix x j = 1 then 1 else 0)) = P1 at *
  rw [logRatio] at hL
  by_cases hz0 : P0 = 0
  · rw [if_pos hz0] at hL
    split at hL
    · simp at hL
    · rw [Option.some.injEq] at hL; exact absurd hL.symm (EReal.coe_ne_bot L)
  rw [if_neg hz0] at hL
  by_cases hz1 : P1 = 0
  · rw [if_pos hz1, Option.some.injEq] at hL; exact absurd hL.symm (EReal.coe_ne_top L)
  rw [if_neg hz1, Option.some.injEq, EReal.coe_eq_coe_iff] at hL
  rw [← hL]
  exact logRatio_near hF (lt_of_le_of_ne a0 (Ne.symm hz0)) (lt_of_le_of_ne a1 (Ne.symm hz1)) htot c0 c1 b0 b1 (by positivity) hη le_rfl

/-! ### the BCJR decoder -/

theorem naturalMatrix_bit {k : Nat} (x : Fin (2 ^ k)) (i : Fin k) : naturalMatrix k x i = 0 ∨ naturalMatrix k x i = 1 := by
  rw [naturalMatrix, intToBits, List.getD_eq_getElem _ _ (by simp)]
  simp only [List.getElem_map]
  omega

/-- The metric. -/
theorem bcjrMetric_near {sum : List Double → Double} (hsum : ∀ l, SumOf l (sum l)) (n y : Nat) (hn : (n : ℝ) ≤ 2 ^ 50) (z : List Double) {Λ : ℝ} (hΛ : 0 ≤ Λ)
    (hb : ∀ x ∈ z, |x.val| ≤ Λ) :
    |bcjrMetric n y (z.map Double.val)| ≤ n * Λ ∧ |(bcjrMetricD sum n y z).val - bcjrMetric n y (z.map Double.val)| ≤ (n + 1) * ((2 * (n * Λ) + 4) / 2 ^ 48) := by
  obtain ⟨l, hl⟩ : ∃ l, l = List.zipWith (fun (b : ZMod 2) (x : Double) => if b = 0 then x else x.neg) (symbolBits n y) z := ⟨_, rfl⟩
  have e1 : bcjrMetric n y (z.map Double.val) = 0.5 * realSum l := by
    rw [bcjrMetric, realSum, hl, List.map_zipWith, List.zipWith_map_right]
    congr 2
    congr 1
    funext b x
    rcases (by revert b; decide : ∀ b : ZMod 2, b = 0 ∨ b = 1) b with rfl | rfl
    · simp
    · rw [if_neg (by decide)]
      have : (1 : ZMod 2).val = 1 := rfl
      rw [this]; simp [Double.neg, Double.val]
  have e2 : (bcjrMetricD sum n y z).val = rnd (0.5 * (sum l).val) := by rw [hl]; rfl
  have len : l.length ≤ n := by rw [hl, List.length_zipWith]; simp [symbolBits]
  have habs : ∀ x ∈ l, |x.val| ≤ Λ := by
    intro x hx
    rw [hl, List.mem_iff_getElem] at hx
    obtain ⟨i, hi, rfl⟩ := hx
    rw [List.getElem_zipWith]
    rw [List.length_zipWith] at hi
    have := hb (z[i]'(by omega)) (List.getElem_mem _)
    split
    · exact this
    · rw [show (Double.neg (z[i]'(by omega))).val = -(z[i]'(by omega)).val from rfl, abs_neg]; exact this
  have hA : absSum l ≤ n * Λ := by
    have : absSum l ≤ l.length * Λ := by
      rw [absSum]
      have := List.sum_le_card_nsmul (l.map fun x : Double => |x.val|) Λ (by
        intro v hv
        obtain ⟨x, hx, rfl⟩ := List.mem_map.mp hv
        exact habs x hx)
      rwa [List.length_map, nsmul_eq_mul] at this
    refine this.trans (mul_le_mul_of_nonneg_right (by exact_mod_cast len) hΛ)
  have hA0 := absSum_nonneg l
  have hR := abs_realSum_le l
  have hs := SumOf.error (hsum l)
  have n0 : (0 : ℝ) ≤ n := Nat.cast_nonneg n
  have hc : (1 + 1 / 2 ^ 53 : ℝ) ^ l.length - 1 ≤ n / 2 ^ 52 :=
    (pow_unit_le l.length (le_trans (by exact_mod_cast len) hn)).trans (div_le_div_of_nonneg_right (by exact_mod_cast len) (by positivity))
  have hs2 : |(sum l).val - realSum l| ≤ n / 2 ^ 52 * (n * Λ) := hs.trans (mul_le_mul hc hA hA0 (by positivity))
  rw [e1, e2]
  generalize (sum l).val = v at *
  generalize realSum l = w at *
  have P0 : 0 ≤ n * Λ := by positivity
  generalize (n : ℝ) * Λ = P at *
  have hw : |w| ≤ P := hR.trans hA
  have nP : 0 ≤ n * P := by positivity
  have hv : n / 2 ^ 52 * P ≤ P / 4 := by
    have := mul_le_mul_of_nonneg_right hn P0
    norm_num at this ⊢; linarith
  refine ⟨?_, ?_⟩
  · rw [abs_mul]; norm_num; linarith [abs_nonneg w]
  · have hr := rnd_unit (G := P) (x := 0.5 * v) (by
      rw [abs_le] at hw hs2 ⊢
      norm_num
      constructor <;> linarith)
    rw [abs_le] at hr hs2 ⊢
    norm_num at hr hs2 ⊢
    constructor <;> nlinarith

variable {k n σ : Nat}

/-- Magnitude of the values computed by the BCJR decoder on one block of `T` trellis steps, when the received values are at most `Λ`. -/
def bcjrMagnitude (T k n σ : Nat) (Λ : ℝ) : ℝ := fbMagnitude T (2 ^ σ) (k + σ) (n * Λ)

/-- The error bound of the decoder. -/
noncomputable def bcjrError (T k n σ : Nat) (Λ : ℝ) : ℝ := (4 * (T * (n + 2 ^ σ + 4)) + 2 ^ k + 160) * roundUnit (bcjrMagnitude T k n σ Λ)

theorem isDouble_inv_pow (m : Nat) (hm : m ≤ 1000) : IsDouble (1 / ((2 ^ m : Nat) : ℝ)) :=
  ⟨1, -m, by norm_num, by omega, by push_cast; rw [zpow_neg, zpow_natCast, one_div]; simp⟩

theorem forwardBackward_map {Z Z' : Type} (M : Mealy S X) (metric : Nat → Z' → ℝ) (f : Z → Z') (zs : List Z) (p : Option (Nat → Fin X → ℝ)) (i e : Option (Fin S → ℝ)) :
    M.forwardBackward metric (zs.map f) p i e = M.forwardBackward (fun y z => metric y (f z)) zs p i e := by
  unfold Mealy.forwardBackward
  have h : ∀ g : Nat → Z' → (Fin S → Fin S → WithBot ℝ), List.mapIdx g (zs.map f) = List.mapIdx (fun t z => g t (f z)) zs := by
    intro g
    apply List.ext_getElem?
    intro i
    simp only [List.getElem?_mapIdx, List.getElem?_map, Option.map_map]
    rfl
  simp only [List.length_map, h]
  rfl

theorem log_pow_bound (m : Nat) : |Real.log (1 / ((2 ^ m : Nat) : ℝ))| ≤ m := by
  push_cast
  rw [one_div, Real.log_inv, Real.log_pow, abs_neg, abs_of_nonneg (by positivity)]
  have := Real.log_two_lt_d9
  have h2 : (m : ℝ) * Real.log 2 ≤ m * 1 := mul_le_mul_of_nonneg_left (by linarith) (Nat.cast_nonneg m)
  linarith

/-- The distributions are given exactly. -/
theorem distributions_exact (t : Terminated k n σ) (hσ : σ ≤ 1000) :
    (t.bcjrDistributions = none ∧ t.bcjrDistributionsD = none) ∨ ∃ i f : Fin (2 ^ σ) → Double, t.bcjrDistributionsD = some (i, f) ∧
      t.bcjrDistributions = some (fun s => (i s).val, fun s => (f s).val) ∧
      (∀ s, 0 ≤ (i s).val ∧ ((i s).val ≠ 0 → |Real.log (i s).val| ≤ k + σ)) ∧ ∀ s, 0 ≤ (f s).val ∧ ((f s).val ≠ 0 → |Real.log (f s).val| ≤ k + σ) := by
  have v1 : (Double.ofInt 1).val = 1 := by have := Double.val_ofInt 1 (by norm_num); push_cast at this; exact this
  have k0 : (0 : ℝ) ≤ k := Nat.cast_nonneg k
  have s0 : (0 : ℝ) ≤ σ := Nat.cast_nonneg σ
  have eye : ∀ s : Fin (2 ^ σ), (if (s : Nat) = 0 then Double.ofInt 1 else (0 : Double)).val = if (s : Nat) = 0 then 1 else 0 := by
    intro s
    by_cases hs : (s : Nat) = 0
    · rw [if_pos hs, if_pos hs, v1]
    · rw [if_neg hs, if_neg hs]; rfl
  have eyeb : ∀ s : Fin (2 ^ σ), 0 ≤ (if (s : Nat) = 0 then Double.ofInt 1 else (0 : Double)).val ∧
      ((if (s : Nat) = 0 then Double.ofInt 1 else (0 : Double)).val ≠ 0 → |Real.log (if (s : Nat) = 0 then Double.ofInt 1 else (0 : Double)).val| ≤ k + σ) := by
    intro s
    rw [eye]
    by_cases hs : (s : Nat) = 0
    · rw [if_pos hs]; exact ⟨by norm_num, fun _ => by rw [Real.log_one, abs_zero]; linarith⟩
    · rw [if_neg hs]; exact ⟨le_rfl, fun h => absurd rfl h⟩
  have uni : rnd (1 / ((2 ^ σ : Nat) : ℝ)) = 1 / ((2 ^ σ : Nat) : ℝ) := rnd_of_isDouble (isDouble_inv_pow σ hσ)
  cases hmode : t.mode with
  | directTruncation =>
    right
    refine ⟨fun s => if (s : Nat) = 0 then Double.ofInt 1 else 0, fun _ => ⟨rnd (1 / ((2 ^ σ : Nat) : ℝ)), rnd_isDouble _⟩, by rw [Terminated.bcjrDistributionsD, hmode], ?_, eyeb, ?_⟩
    · rw [Terminated.bcjrDistributions, hmode]
      simp only [Option.some.injEq, Prod.mk.injEq]
      exact ⟨funext fun s => (eye s).symm, funext fun _ => uni.symm⟩
    · intro s
      change 0 ≤ rnd (1 / ((2 ^ σ : Nat) : ℝ)) ∧ (rnd (1 / ((2 ^ σ : Nat) : ℝ)) ≠ 0 → |Real.log (rnd (1 / ((2 ^ σ : Nat) : ℝ)))| ≤ k + σ)
      rw [uni]
      exact ⟨by positivity, fun _ => (log_pow_bound σ).trans (by linarith)⟩
  | zeroTermination =>
    right
    refine ⟨_, _, by rw [Terminated.bcjrDistributionsD, hmode], ?_, eyeb, eyeb⟩
    rw [Terminated.bcjrDistributions, hmode]
    simp only [Option.some.injEq, Prod.mk.injEq]
    exact ⟨funext fun s => (eye s).symm, funext fun s => (eye s).symm⟩
  | tailBiting =>
    left
    exact ⟨by rw [Terminated.bcjrDistributions, hmode], by rw [Terminated.bcjrDistributionsD, hmode]⟩

open Terminated in
theorem forall₂_dropTail {α β : Type} {R : α → β → Prop} {l : List α} {l' : List β} (h : List.Forall₂ R l l') (μ : Nat) : List.Forall₂ R (dropTail μ l) (dropTail μ l') := by
  unfold dropTail
  split
  · exact List.Forall₂.nil
  · rw [h.length_eq]; exact List.forall₂_take _ h

/-- One block. -/
theorem bcjrBlock_near {F : Libm} (hF : F.Accurate) {sum : List Double → Double} (hsum : ∀ l, SumOf l (sum l)) (t : Terminated k n σ) (li : List Double) {Λ : ℝ} (hΛ : 0 ≤ Λ)
    (hli : ∀ x ∈ li, |x.val| ≤ Λ) (hT : 0 < li.length / n) (hE : bcjrError (li.length / n) k n σ Λ ≤ 1 / 32) :
    (t.bcjrBlock (li.map Double.val) = none ∧ t.bcjrBlockD F sum li = none) ∨ ∃ o o', t.bcjrBlock (li.map Double.val) = some o ∧ t.bcjrBlockD F sum li = some o' ∧
      List.Forall₂ (fun a y : Option EReal => ∀ L : ℝ, a = some (L : EReal) → LlrNear (bcjrError (li.length / n) k n σ Λ) L y) o o' := by
  unfold Terminated.bcjrBlock Terminated.bcjrBlockD
  rw [List.length_map]
  by_cases hc : k = 0 ∨ n = 0 ∨ li.length % n ≠ 0
  · rw [if_pos hc, if_pos hc]; exact Or.inl ⟨rfl, rfl⟩
  rw [if_neg hc, if_neg hc]
  obtain ⟨T, hTd⟩ : ∃ T, T = li.length / n := ⟨_, rfl⟩
  rw [← hTd] at hT hE ⊢
  have T1 : (1 : ℝ) ≤ T := by exact_mod_cast hT
  have n0 : (0 : ℝ) ≤ n := Nat.cast_nonneg n
  have k0 : (0 : ℝ) ≤ k := Nat.cast_nonneg k
  have s0 : (0 : ℝ) ≤ σ := Nat.cast_nonneg σ
  have S0 : (0 : ℝ) < 2 ^ σ := by positivity
  have X0 : (0 : ℝ) < 2 ^ k := by positivity
  have P0 : 0 ≤ n * Λ := by positivity
  have hAd : bcjrMagnitude T k n σ Λ = 2 * (k + σ) + T * (k + σ + n * Λ + 2 ^ σ) := by unfold bcjrMagnitude fbMagnitude; push_cast; rfl
  have TA : 1 * (k + σ + n * Λ + 2 ^ σ) ≤ T * (k + σ + n * Λ + 2 ^ σ) := mul_le_mul_of_nonneg_right T1 (by positivity)
  obtain ⟨u, hu⟩ : ∃ u, u = roundUnit (bcjrMagnitude T k n σ Λ) := ⟨_, rfl⟩
  have hue : bcjrError T k n σ Λ = (4 * (T * (n + 2 ^ σ + 4)) + 2 ^ k + 160) * u := by rw [hu]; rfl
  have ul : (2 * (n * Λ) + 4) / 2 ^ 48 ≤ u := by
    rw [hu, roundUnit, hAd]
    exact div_le_div_of_nonneg_right (by linarith) (by positivity)
  have u46 : 1 / 2 ^ 46 ≤ u := by
    refine le_trans ?_ ul
    norm_num; linarith
  have u0 : 0 < u := lt_of_lt_of_le (by positivity) u46
  have TN : 1 * (n + 2 ^ σ + 4) ≤ (T : ℝ) * (n + 2 ^ σ + 4) := mul_le_mul_of_nonneg_right T1 (by positivity)
  rw [hue] at hE ⊢
  have big : ∀ y : ℝ, y ≤ 4 * (T * (n + 2 ^ σ + 4)) + 2 ^ k + 160 → 0 ≤ y → y ≤ 2 ^ 41 := by
    intro y hy hy0
    have h1 : y * (1 / 2 ^ 46) ≤ (4 * (T * (n + 2 ^ σ + 4)) + 2 ^ k + 160) * u := mul_le_mul hy u46 (by positivity) (by linarith)
    have h2 : y * (1 / 2 ^ 46) ≤ 1 / 32 := h1.trans hE
    norm_num at h2 ⊢; linarith
  have hX : (2 : ℝ) ^ k ≤ 2 ^ 41 := big _ (by linarith) X0.le
  have hS : (2 : ℝ) ^ σ ≤ 2 ^ 41 := big _ (by linarith) S0.le
  have hn : (n : ℝ) ≤ 2 ^ 41 := big _ (by linarith) n0
  have hk : k ≤ 41 := by rwa [pow_le_pow_iff_right₀ (by norm_num)] at hX
  have hσ : σ ≤ 41 := by rwa [pow_le_pow_iff_right₀ (by norm_num)] at hS
  rcases distributions_exact t (by omega) with ⟨h1, h2⟩ | ⟨i, f, h1, h2, hi, hf⟩
  · rw [h1, h2]; exact Or.inl ⟨rfl, rfl⟩
  rw [h1, h2, Option.bind_some, Option.bind_some, chunks_map, forwardBackward_map]
  have len : (chunks n li).length = T := by rw [hTd]; simp [chunks]
  have e1 : ∀ q : Option (Fin (2 ^ σ) → ℝ), t.code.finiteStateMachine.forwardBackward (fun y (z : List Double) => bcjrMetric n y (z.map Double.val)) (chunks n li) none q =
      t.code.finiteStateMachine.forwardBackward (fun y (z : List Double) => bcjrMetric n y (z.map Double.val)) (chunks n li)
        (some fun _ _ => (⟨rnd (1 / ((2 ^ k : Nat) : ℝ)), rnd_isDouble _⟩ : Double).val) q := by
    intro q
    have : (fun (_ : Nat) (_ : Fin (2 ^ k)) => (⟨rnd (1 / ((2 ^ k : Nat) : ℝ)), rnd_isDouble _⟩ : Double).val) = fun _ _ => 1 / ((2 ^ k : Nat) : ℝ) := by
      funext _ _; exact rnd_of_isDouble (isDouble_inv_pow k (by omega))
    rw [this]; rfl
  rw [e1]
  have e2 : ∀ q q' : Option (Fin (2 ^ σ) → Double), t.code.finiteStateMachine.forwardBackwardD F sum (bcjrMetricD sum n) (chunks n li) none q q' =
      t.code.finiteStateMachine.forwardBackwardD F sum (bcjrMetricD sum n) (chunks n li) (some fun _ _ => ⟨rnd (1 / ((2 ^ k : Nat) : ℝ)), rnd_isDouble _⟩) q q' := fun _ _ => rfl
  rw [e2]
  have hfe : fbError (chunks n li).length (2 ^ σ) (k + σ) (n * Λ) ((n + 1) * u) = (T * (n + 2 ^ σ + 4) + 3) * u := by
    rw [fbError, len, show fbMagnitude T (2 ^ σ) (k + σ) (n * Λ) = bcjrMagnitude T k n σ Λ from rfl, ← hu]
    push_cast; ring
  have Eb : (T * (n + 2 ^ σ + 4) + 3) * u ≤ 1 / 32 := by
    refine le_trans ?_ hE
    exact mul_le_mul_of_nonneg_right (by linarith) u0.le
  have main := C141_forward_backward hF hsum (X := 2 ^ k) (by push_cast; linarith) t.code.finiteStateMachine (fun y (z : List Double) => bcjrMetric n y (z.map Double.val)) (bcjrMetricD sum n) (chunks n li)
    (fun _ _ => ⟨rnd (1 / ((2 ^ k : Nat) : ℝ)), rnd_isDouble _⟩) i f (b := k + σ) (g := n * Λ) (e := (n + 1) * u) (by positivity) P0 (by positivity)
    (fun z hz s x => by
      obtain ⟨a, b⟩ := bcjrMetric_near hsum n (t.code.finiteStateMachine.out s x) (by linarith) z hΛ (fun x hx => hli x (chunks_row_mem n li z hz x hx))
      exact ⟨a, b.trans (mul_le_mul_of_nonneg_left ul (by linarith))⟩)
    (fun _ _ => by
      change 0 ≤ rnd (1 / ((2 ^ k : Nat) : ℝ)) ∧ (rnd (1 / ((2 ^ k : Nat) : ℝ)) ≠ 0 → |Real.log (rnd (1 / ((2 ^ k : Nat) : ℝ)))| ≤ k + σ)
      rw [rnd_of_isDouble (isDouble_inv_pow k (by omega))]
      exact ⟨by positivity, fun _ => (log_pow_bound k).trans (by linarith)⟩)
    hi hf (by rw [hfe]; exact Eb)
  rw [hfe, len, show fbMagnitude T (2 ^ σ) (k + σ) (n * Λ) = bcjrMagnitude T k n σ Λ from rfl, ← hu] at main
  have fin : ∀ (rows : List (Option (Fin (2 ^ k) → ℝ))) (rows' : List (Option (Fin (2 ^ k) → Double))), List.Forall₂ (fun (row : Option (Fin (2 ^ k) → ℝ)) (row' : Option (Fin (2 ^ k) → Double)) =>
      (row = none ∧ row' = none) ∨ ∃ p q, row = some p ∧ row' = some q ∧ ∑ x, p x = 1 ∧ ∀ x, 0 ≤ p x ∧ 0 ≤ (q x).val ∧
          MulNear (2 * ((T * (n + 2 ^ σ + 4) + 3) * u) + 7 * u + ((2 ^ k : Nat) : ℝ) / 2 ^ 51) (2 ^ (-1069 : ℤ)) (p x) (q x).val) rows rows' →
      List.Forall₂ (fun a y : Option EReal => ∀ L : ℝ, a = some (L : EReal) → LlrNear ((4 * (T * (n + 2 ^ σ + 4)) + 2 ^ k + 160) * u) L y)
        (rows.map fun row : Option (Fin (2 ^ k) → ℝ) => Terminated.rowBits row).flatten (rows'.map fun row : Option (Fin (2 ^ k) → Double) => Terminated.rowBitsD F sum row).flatten := by
    intro rows rows' h
    apply List.rel_flatten
    rw [List.forall₂_map_left_iff, List.forall₂_map_right_iff]
    refine h.imp ?_
    rintro row row' (⟨rfl, rfl⟩ | ⟨p, q, rfl, rfl, hp, hpq⟩)
    · rw [Terminated.rowBits, Terminated.rowBitsD, List.forall₂_iff_get]
      refine ⟨rfl, ?_⟩
      intro i h1 h2 L hL
      simp at hL
    · rw [Terminated.rowBits, Terminated.rowBitsD]
      have h2k : ((2 ^ k : Nat) : ℝ) = 2 ^ k := by push_cast; rfl
      have small : (2 : ℝ) ^ k / 2 ^ 51 ≤ 2 ^ k * u / 32 := by
        have := mul_le_mul_of_nonneg_left u46 X0.le
        linarith
      have b1 : 1 / 2 ^ 39 ≤ 128 * u := by norm_num at u46 ⊢; linarith
      have Tu : 0 ≤ T * (n + 2 ^ σ + 4) * u := by positivity
      have Xu : 0 ≤ (2 : ℝ) ^ k * u := by positivity
      have := marginalize_near hF hsum (by rw [h2k]; linarith) (naturalMatrix k) naturalMatrix_bit p q (by positivity) (by rw [h2k]; nlinarith) hp hpq
      refine this.imp fun a y ha L hL => ?_
      obtain ⟨a1, a2, a3⟩ := ha L hL
      refine ⟨fun h => ?_, a2, a3⟩
      obtain ⟨v, v1, v2⟩ := a1 h
      refine ⟨v, v1, v2.trans ?_⟩
      rw [h2k]
      nlinarith
  unfold Terminated.bcjrPostProcess
  cases t.mode with
  | directTruncation => exact Or.inr ⟨_, _, rfl, rfl, fin _ _ main⟩
  | zeroTermination => exact Or.inr ⟨_, _, rfl, rfl, fin _ _ (forall₂_dropTail main t.memoryOrder)⟩
  | tailBiting => exact Or.inl ⟨rfl, rfl⟩

theorem mapM_rel {α β γ δ : Type} {R : γ → δ → Prop} (f : α → Option γ) (g : β → Option δ) (e : β → α) (l : List β)
    (h : ∀ x ∈ l, (f (e x) = none ∧ g x = none) ∨ ∃ c d, f (e x) = some c ∧ g x = some d ∧ R c d) (o : List γ) (ho : (l.map e).mapM f = some o) :
    ∃ o', l.mapM g = some o' ∧ List.Forall₂ R o o' := by
  induction l generalizing o with
  | nil => simp at ho; subst ho; exact ⟨[], rfl, List.Forall₂.nil⟩
  | cons a l ih =>
    rw [List.map_cons, List.mapM_cons] at ho
    rcases h a (by simp) with ⟨h1, _⟩ | ⟨c, d, h1, h2, hcd⟩
    · rw [h1] at ho; simp at ho
    · rw [h1] at ho
      cases hm : (l.map e).mapM f with
      | none => rw [hm] at ho; simp at ho
      | some o1 =>
        rw [hm] at ho
        obtain ⟨o1', h3, h4⟩ := ih (fun x hx => h x (by simp [hx])) o1 hm
        simp at ho
        subst ho
        exact ⟨d :: o1', by rw [List.mapM_cons, h2, h3]; rfl, List.Forall₂.cons hcd h4⟩

/-- `BCJRDecoder` with soft output, in double precision: wherever the decoder in exact arithmetic outputs a log-likelihood ratio `L`, the decoder in double precision outputs `L` up to
`bcjrError`; beyond ±600, it outputs a value beyond ±500, possibly infinite. -/
theorem C141_bcjr_soft {F : Libm} (hF : F.Accurate) {sum : List Double → Double} (hsum : ∀ l, SumOf l (sum l)) (t : Terminated k n σ) (r : List Double) {Λ : ℝ} (hΛ : 0 ≤ Λ)
    (hr : ∀ x ∈ r, |x.val| ≤ Λ) (hE : bcjrError (t.length / n) k n σ Λ ≤ 1 / 32) (out : List (Option EReal)) (ho : t.bcjrSoft (r.map Double.val) = some out) :
    ∃ out', t.bcjrSoftD F sum r = some out' ∧
      List.Forall₂ (fun a y : Option EReal => ∀ L : ℝ, a = some (L : EReal) → LlrNear (bcjrError (t.length / n) k n σ Λ) L y) out out' := by
  unfold Terminated.bcjrSoft blockwise at ho
  unfold Terminated.bcjrSoftD blockwise
  rw [List.length_map] at ho
  by_cases h0 : t.length = 0
  · rw [if_pos h0] at ho; simp at ho
  rw [if_neg h0] at ho ⊢
  by_cases h1 : r.length % t.length = 0
  · rw [if_neg (by simpa using h1)] at ho ⊢
    rw [chunks_map, Option.map_eq_some_iff] at ho
    obtain ⟨rows, h2, rfl⟩ := ho
    have hT : 0 < t.length / n := by
      have : ∃ T, t.length = T * n := by unfold Terminated.length; split <;> exact ⟨_, rfl⟩
      obtain ⟨T, hT⟩ := this
      rw [hT] at h0 ⊢
      have hn : 0 < n := by by_contra hc; exact h0 (by rw [show n = 0 by omega, mul_zero])
      rw [Nat.mul_div_cancel _ hn]
      by_contra hc
      exact h0 (by rw [show T = 0 by omega, zero_mul])
    obtain ⟨rows', h3, h4⟩ := mapM_rel (R := List.Forall₂ (fun a y : Option EReal => ∀ L : ℝ, a = some (L : EReal) → LlrNear (bcjrError (t.length / n) k n σ Λ) L y))
      t.bcjrBlock (t.bcjrBlockD F sum) (List.map Double.val) (chunks t.length r) (fun b hb => by
        have hl := chunks_row_length t.length (by omega) r h1 b hb
        have := bcjrBlock_near hF hsum t b hΛ (fun x hx => hr x (chunks_row_mem t.length r b hb x hx)) (by rw [hl]; exact hT) (by rw [hl]; exact hE)
        rw [hl] at this
        exact this) rows h2
    rw [h3]
    exact ⟨_, rfl, List.rel_flatten h4⟩
  · rw [if_pos h1] at ho; simp at ho

theorem hard_llr {Δ L : ℝ} {y : Option EReal} (h : LlrNear Δ L y) (hL : Δ < |L|) : Terminated.hardDecision [y] = [if L < 0 then 1 else 0] := by
  obtain ⟨h1, h2, h3⟩ := h
  rcases le_or_gt |L| 600 with hc | hc
  · obtain ⟨v, rfl, hv⟩ := h1 hc
    simp only [Terminated.hardDecision, List.map_cons, List.map_nil]
    congr 1
    apply if_congr _ rfl rfl
    rw [show (0 : EReal) = ((0 : ℝ) : EReal) from rfl, EReal.coe_lt_coe_iff]
    rw [abs_le] at hv
    rcases lt_abs.mp hL with h | h <;> constructor <;> intro <;> linarith [hv.1, hv.2, abs_nonneg (v - L)]
  · rcases lt_abs.mp hc with h | h
    · obtain ⟨v, rfl, hv⟩ := h2 h
      simp only [Terminated.hardDecision, List.map_cons, List.map_nil]
      congr 1
      rw [if_neg (by linarith : ¬ L < 0), if_neg]
      rw [not_lt]
      exact le_trans (EReal.coe_le_coe_iff.mpr (by norm_num : (0 : ℝ) ≤ 500)) hv
    · obtain ⟨v, rfl, hv⟩ := h3 (by linarith)
      simp only [Terminated.hardDecision, List.map_cons, List.map_nil]
      congr 1
      rw [if_pos (by linarith : L < 0), if_pos]
      exact lt_of_le_of_lt hv (EReal.coe_lt_coe_iff.mpr (by norm_num : (-500 : ℝ) < 0))

/-- `BCJRDecoder` with hard output, in double precision: it decides as in exact arithmetic wherever the magnitude of the exact log-likelihood ratio exceeds the error bound. -/
theorem C141_bcjr_hard {F : Libm} (hF : F.Accurate) {sum : List Double → Double} (hsum : ∀ l, SumOf l (sum l)) (t : Terminated k n σ) (r : List Double) {Λ : ℝ} (hΛ : 0 ≤ Λ)
    (hr : ∀ x ∈ r, |x.val| ≤ Λ) (hE : bcjrError (t.length / n) k n σ Λ ≤ 1 / 32) (out : List (Option EReal)) (ho : t.bcjrSoft (r.map Double.val) = some out) :
    ∃ bits bits', t.bcjrHard (r.map Double.val) = some bits ∧ t.bcjrHardD F sum r = some bits' ∧ bits.length = out.length ∧ bits'.length = out.length ∧
      ∀ (j : Nat) (L : ℝ), out[j]? = some (some (L : EReal)) → bcjrError (t.length / n) k n σ Λ < |L| → bits'[j]? = bits[j]? := by
  obtain ⟨out', h1, h2⟩ := C141_bcjr_soft hF hsum t r hΛ hr hE out ho
  refine ⟨_, _, by rw [Terminated.bcjrHard, ho]; rfl, by rw [Terminated.bcjrHardD, h1]; rfl, by simp [Terminated.hardDecision], by simp [Terminated.hardDecision, h2.length_eq], ?_⟩
  intro j L hj hL
  obtain ⟨hlt, hget⟩ := List.getElem?_eq_some_iff.mp hj
  have hlt' : j < out'.length := by rw [← h2.length_eq]; exact hlt
  have hrel := (List.forall₂_iff_get.mp h2).2 j hlt hlt' L (by simpa using hget)
  have a := hard_llr hrel hL
  have b : Terminated.hardDecision [some (L : EReal)] = [if L < 0 then 1 else 0] := by
    simp only [Terminated.hardDecision, List.map_cons, List.map_nil]
    congr 1
    apply if_congr _ rfl rfl
    rw [show (0 : EReal) = ((0 : ℝ) : EReal) from rfl, EReal.coe_lt_coe_iff]
  unfold Terminated.hardDecision at a b ⊢
  rw [List.getElem?_map, List.getElem?_map, hj, List.getElem?_eq_getElem hlt', Option.map_some, Option.map_some]
  simp only [List.map_cons, List.map_nil, List.cons.injEq, and_true] at a b
  rw [List.get_eq_getElem] at a
  rw [a]
  exact congrArg some b.symm

/-! ### against the posterior probabilities -/

theorem log_ratio_close {a b c d m : ℝ} (ha : 0 < a) (hb : 0 < b) (hc : 0 < c) (hd : 0 < d) (h1 : c ≤ Real.exp m * a) (h2 : a ≤ Real.exp m * c) (h3 : d ≤ Real.exp m * b)
    (h4 : b ≤ Real.exp m * d) : |Real.log (c / d) - Real.log (a / b)| ≤ 2 * m := by
  have key : ∀ x y : ℝ, 0 < x → 0 < y → x ≤ Real.exp m * y → Real.log x ≤ m + Real.log y := by
    intro x y hx hy h
    have := Real.log_le_log hx h
    rwa [Real.log_mul (Real.exp_pos _).ne' hy.ne', Real.log_exp] at this
  have a1 := key _ _ hc ha h1
  have a2 := key _ _ ha hc h2
  have a3 := key _ _ hd hb h3
  have a4 := key _ _ hb hd h4
  rw [Real.log_div hc.ne' hd.ne', Real.log_div ha.ne' hb.ne', abs_le]
  constructor <;> linarith

/-- The posterior log-ratios change by at most `N ε` when the `N` inputs change by at most `ε`. -/
theorem llr_lipschitz {K N : Nat} (v : BVec K → BVec N) (l l' : Fin N → ℝ) {ε : ℝ} (h : ∀ j, |l' j - l j| ≤ ε) (x : Fin K) :
    |llr (fun u => Real.exp ((∑ j, (-1) ^ (v u j).val * l' j) / 2)) x - llr (fun u => Real.exp ((∑ j, (-1) ^ (v u j).val * l j) / 2)) x| ≤ N * ε := by
  have hs : ∀ u, |(∑ j, (-1 : ℝ) ^ (v u j).val * l' j) - ∑ j, (-1 : ℝ) ^ (v u j).val * l j| ≤ N * ε := by
    intro u
    rw [← Finset.sum_sub_distrib]
    refine (Finset.abs_sum_le_sum_abs _ _).trans ?_
    calc ∑ j, |(-1 : ℝ) ^ (v u j).val * l' j - (-1 : ℝ) ^ (v u j).val * l j| ≤ ∑ _j : Fin N, ε := by
          apply Finset.sum_le_sum
          intro j _
          rw [← mul_sub, abs_mul, abs_pow, abs_neg, abs_one, one_pow, one_mul]
          exact h j
      _ = N * ε := by rw [Finset.sum_const, Finset.card_univ, Fintype.card_fin, nsmul_eq_mul]
  have hpos : ∀ (f : BVec K → ℝ) (b : ZMod 2), 0 < ∑ u with u x = b, Real.exp (f u) := fun f b =>
    Finset.sum_pos (fun u _ => Real.exp_pos _) ⟨fun _ => b, by simp⟩
  have hle : ∀ (f g : BVec K → ℝ) (b : ZMod 2), (∀ u, f u ≤ N * ε / 2 + g u) → ∑ u with u x = b, Real.exp (f u) ≤ Real.exp (N * ε / 2) * ∑ u with u x = b, Real.exp (g u) := by
    intro f g b hfg
    rw [Finset.mul_sum]
    apply Finset.sum_le_sum
    intro u _
    rw [← Real.exp_add]
    exact Real.exp_le_exp.mpr (hfg u)
  have e : (N : ℝ) * ε = 2 * (N * ε / 2) := by ring
  rw [e]
  unfold llr
  refine log_ratio_close (hpos _ 0) (hpos _ 1) (hpos _ 0) (hpos _ 1) (hle _ _ 0 ?_) (hle _ _ 0 ?_) (hle _ _ 1 ?_) (hle _ _ 1 ?_)
  all_goals
    intro u
    have := abs_le.mp (hs u)
    linarith [this.1, this.2]

/-- The BCJR decoder in double precision against the posterior probabilities of the message bits: `N` values are received, each the log-likelihood ratio of a memoryless channel up to an error of `ε`
and at most `Λ` in magnitude.  The soft output is the list of the posterior log-ratios up to `Δ = bcjrError + N ε`, as long as they are at most 599; and the hard output is the most probable value of
every bit whose posterior log-ratio exceeds `Δ`. -/
def DoubleBcjrAccurate (F : Libm) (sum : List Double → Double) (t : Terminated k n σ) (v : BVec t.dimension → BVec t.length) : Prop :=
  ∀ (p : Fin t.length → ZMod 2 → ℝ) (_ : ∀ j b, 0 < p j b) (r : Fin t.length → Double) (ε Λ : ℝ), (∀ j, |(r j).val - Real.log (p j 0 / p j 1)| ≤ ε) → (∀ j, |(r j).val| ≤ Λ) → 0 ≤ Λ →
    t.length * ε ≤ 1 → bcjrError (t.length / n) k n σ Λ ≤ 1 / 32 →
    ∃ (y : Fin t.dimension → Option EReal) (b : BVec t.dimension), t.bcjrSoftD F sum (List.ofFn r) = some (List.ofFn y) ∧ t.bcjrHardD F sum (List.ofFn r) = some (List.ofFn b) ∧ ∀ x,
      (|posteriorLogRatio v p x| ≤ 599 → ∃ w : ℝ, y x = some (w : EReal) ∧ |w - posteriorLogRatio v p x| ≤ bcjrError (t.length / n) k n σ Λ + t.length * ε) ∧
      (bcjrError (t.length / n) k n σ Λ + t.length * ε < |posteriorLogRatio v p x| →
        ∑ u with u x ≠ b x, ∏ j, p j (v u j) < ∑ u with u x = b x, ∏ j, p j (v u j))

theorem bcjr_accurate {F : Libm} (hF : F.Accurate) {sum : List Double → Double} (hsum : ∀ l, SumOf l (sum l)) (t : Terminated k n σ) (v : BVec t.dimension → BVec t.length)
    (hex : ∀ l : Fin t.length → ℝ, t.bcjrSoft (List.ofFn l) = some (List.ofFn fun x : Fin t.dimension =>
      some ((llr (fun u => Real.exp ((∑ j, (-1) ^ (v u j).val * l j) / 2)) x : ℝ) : EReal))) : DoubleBcjrAccurate F sum t v := by
  classical
  intro p hpos r ε Λ hr hrΛ hΛ hε hE
  have hmap : (List.ofFn r).map Double.val = List.ofFn fun j => (r j).val := by rw [List.map_ofFn]; rfl
  obtain ⟨out', h1, h2⟩ := C141_bcjr_soft hF hsum t (List.ofFn r) hΛ (by
    intro x hx
    obtain ⟨j, rfl⟩ := (List.mem_ofFn' _ _).mp hx
    exact hrΛ j) hE _ (by rw [hmap]; exact hex _)
  have hlen : out'.length = t.dimension := by rw [← h2.length_eq, List.length_ofFn]
  have hout : out' = List.ofFn fun x : Fin t.dimension => out'[(x : Nat)]'(by rw [hlen]; exact x.2) := by
    apply List.ext_getElem (by simp [hlen])
    intro i _ _
    simp
  refine ⟨fun x => out'[(x : Nat)]'(by rw [hlen]; exact x.2), fun x => (Terminated.hardDecision [out'[(x : Nat)]'(by rw [hlen]; exact x.2)]).headD 0, by rw [h1, ← hout], ?_, fun x => ?_⟩
  · rw [Terminated.bcjrHardD, h1, Option.map_some]
    congr 1
    apply List.ext_getElem (by simp [Terminated.hardDecision, hlen])
    intro i _ _
    simp [Terminated.hardDecision]
  · have hx' : (x : Nat) < out'.length := by rw [hlen]; exact x.2
    have hrel := (List.forall₂_iff_get.mp h2).2 x (by simp) hx' _ (by simp; rfl)
    rw [List.get_eq_getElem] at hrel
    have hd := llr_lipschitz v (fun j => Real.log (p j 0 / p j 1)) (fun j => (r j).val) hr x
    rw [llr_posterior v p hpos] at hd
    generalize llr (fun u => Real.exp ((∑ j, (-1) ^ (v u j).val * (r j).val) / 2)) x = L at hrel hd
    have hd' := abs_le.mp hd
    constructor
    · intro h599
      have h599' := abs_le.mp h599
      obtain ⟨w, hw, hwL⟩ := hrel.1 (abs_le.mpr ⟨by linarith [hd'.1], by linarith [hd'.2]⟩)
      refine ⟨w, hw, ?_⟩
      have := abs_le.mp hwL
      rw [abs_le]
      constructor <;> linarith [this.1, this.2, hd'.1, hd'.2]
    · intro hgt
      have hLgt : bcjrError (t.length / n) k n σ Λ < |L| := by
        have : |posteriorLogRatio v p x| ≤ |L| + |L - posteriorLogRatio v p x| := by
          have := abs_sub_abs_le_abs_sub (posteriorLogRatio v p x) L
          rw [abs_sub_comm] at this
          linarith
        linarith
      have hh : Terminated.hardDecision [out'[(x : Nat)]] = [if L < 0 then 1 else 0] := hard_llr hrel hLgt
      beta_reduce
      rw [hh, List.headD_cons]
      have hS : ∀ b : ZMod 2, 0 < ∑ u with u x = b, ∏ j, p j (v u j) := fun b =>
        Finset.sum_pos (fun u _ => Finset.prod_pos fun j _ => hpos j _) ⟨fun _ => b, by simp⟩
      have hsign : (L < 0 ↔ posteriorLogRatio v p x < 0) ∧ posteriorLogRatio v p x ≠ 0 := by
        have hE0 : 0 ≤ bcjrError (t.length / n) k n σ Λ := by
          unfold bcjrError roundUnit bcjrMagnitude fbMagnitude
          positivity
        have he0 : 0 ≤ (t.length : ℝ) * ε := le_trans (abs_nonneg _) hd
        refine ⟨⟨fun h => ?_, fun h => ?_⟩, fun h => ?_⟩
        · by_contra hc
          rw [abs_of_nonneg (not_lt.mp hc)] at hgt
          linarith [hd'.1, hd'.2]
        · rw [abs_of_neg h] at hgt
          linarith [hd'.1, hd'.2]
        · rw [h, abs_zero] at hgt
          linarith
      have hne : ∀ b b' : ZMod 2, b ≠ b' → (Finset.univ.filter fun u : BVec t.dimension => u x ≠ b) = Finset.univ.filter fun u => u x = b' := by
        intro b b' hb
        apply Finset.filter_congr
        intro u _
        revert hb
        exact (by decide : ∀ c b b' : ZMod 2, b ≠ b' → (c ≠ b ↔ c = b')) _ _ _
      rw [posteriorLogRatio] at hsign
      rcases lt_trichotomy (posteriorLogRatio v p x) 0 with h | h | h
      · rw [if_pos (hsign.1.mpr h), hne 1 0 (by decide)]
        rw [posteriorLogRatio, Real.log_neg_iff (div_pos (hS 0) (hS 1)), div_lt_one (hS 1)] at h
        exact h
      · exact absurd h hsign.2
      · rw [if_neg fun hc => absurd (hsign.1.mp hc) (not_lt.mpr h.le), hne 0 1 (by decide)]
        rw [posteriorLogRatio, Real.log_pos_iff (div_pos (hS 0) (hS 1)).le, one_lt_div (hS 1)] at h
        exact h

/-- Direct truncation, one input bit per step. -/
theorem C141_direct {F : Libm} (hF : F.Accurate) {sum : List Double → Double} (hsum : ∀ l, SumOf l (sum l)) (t : Terminated 1 n σ) (hmode : t.mode = .directTruncation) (hn : 0 < n)
    (hh : 0 < t.numBlocks) (hp : t.code.finiteStateMachine.NoParallel) (v : BVec t.dimension → BVec t.length) (hv : ∀ u, t.encode u = some (List.ofFn (v u))) :
    DoubleBcjrAccurate F sum t v := by
  refine bcjr_accurate hF hsum t v fun l => ?_
  rw [bcjr_direct t hmode one_pos hn hh hp l v hv]
  congr 2
  funext x
  have : reverseInBlocks t.numBlocks 1 x = x := reverseInBlocks_one _ x
  rw [this]

/-- Zero-termination, `ConvolutionalCode` with one input bit per step. -/
theorem C141_zero {F : Libm} (hF : F.Accurate) {sum : List Double → Double} (hsum : ∀ l, SumOf l (sum l)) (c : ConvCode 1 n) (hn : 0 < n) (hμ : 1 ≤ c.memoryOrder) (h : Nat) (hh : 1 ≤ h)
    (t : Terminated 1 n c.degree) (ht : t = ⟨c.stateSpace, c.memoryOrder, h, .zeroTermination⟩) (v : BVec t.dimension → BVec t.length) (hv : ∀ u, t.encode u = some (List.ofFn (v u))) :
    DoubleBcjrAccurate F sum t v := by
  refine bcjr_accurate hF hsum t v fun l => ?_
  subst ht
  have hν : ∀ i, c.constraintLength i = c.memoryOrder := fun i => by rw [Subsingleton.elim i 0]; simp [ConvCode.memoryOrder, List.finRange_succ]
  rw [bcjr_zero ⟨c.stateSpace, c.memoryOrder, h, .zeroTermination⟩ rfl one_pos hn hh hμ (c.fullTail hν) ((C89_no_parallel c).mpr fun i => by rw [hν i]; exact hμ) l v hv]
  congr 2
  funext x
  have : reverseInBlocks h 1 x = x := reverseInBlocks_one _ x
  rw [this]

/-- Zero-termination, `LowRateConvolutionalCode`. -/
theorem C141_low_rate {F : Libm} (hF : F.Accurate) {sum : List Double → Double} (hsum : ∀ l, SumOf l (sum l)) (c : LowRate n) (hn : 0 < n) (hμ : 1 ≤ c.degree) (h : Nat) (hh : 1 ≤ h)
    (t : Terminated 1 n c.degree) (ht : t = ⟨c.stateSpace, c.degree, h, .zeroTermination⟩) (v : BVec t.dimension → BVec t.length) (hv : ∀ u, t.encode u = some (List.ofFn (v u))) :
    DoubleBcjrAccurate F sum t v := by
  refine bcjr_accurate hF hsum t v fun l => ?_
  subst ht
  rw [bcjr_zero ⟨c.stateSpace, c.degree, h, .zeroTermination⟩ rfl one_pos hn hh hμ c.fullTail (C89_no_parallel_low_rate c hμ) l v hv]
  congr 2
  funext x
  have : reverseInBlocks h 1 x = x := reverseInBlocks_one _ x
  rw [this]

/-! ### concrete cases -/

/-- An accurate library exists. -/
theorem exists_libm : ∃ F : Libm, F.Accurate := by
  refine ⟨⟨fun x => ⟨rnd (Real.exp x), rnd_isDouble _⟩, fun x => Real.log (1 + x), Real.log⟩, ⟨fun x _ => ⟨?_, ?_⟩, fun x h _ => ⟨Real.log_nonneg (by linarith), ?_⟩, fun x _ => ?_⟩⟩
  · have := rnd_mono (Real.exp_pos x).le
    rwa [rnd_zero] at this
  · refine (rnd_error (Real.exp x)).trans ?_
    rw [abs_of_pos (Real.exp_pos x)]
    have e := Real.exp_pos x
    have : (2 : ℝ) ^ (-1075 : ℤ) ≤ 2 ^ (-1074 : ℤ) := zpow_le_zpow_right₀ (by norm_num) (by norm_num)
    have e2 : Real.exp x / 2 ^ 53 ≤ Real.exp x / 2 ^ 50 := by
      rw [div_le_div_iff₀ (by positivity) (by positivity)]
      nlinarith
    linarith
  · rw [sub_self, abs_zero]
    exact div_nonneg (Real.log_nonneg (by linarith)) (by positivity)
  · rw [sub_self, abs_zero]
    positivity

/-- A block of a thousand steps of a code of rate 1/2 and memory 6, received values up to 100: the error is below one in a thousand. -/
example : bcjrError 1000 1 2 6 100 ≤ 1 / 1000 := by
  unfold bcjrError roundUnit bcjrMagnitude fbMagnitude
  norm_num

/-- The zero-terminated code of octal generators 7 and 5, three message bits. -/
example : ∃ (F : Libm) (sum : List Double → Double) (v : BVec 3 → BVec 10), (∀ u, exampleTerm75.encode u = some (List.ofFn (v u))) ∧ DoubleBcjrAccurate F sum exampleTerm75 v ∧
    bcjrError (exampleTerm75.length / 2) 1 2 2 100 ≤ 1 / 32 := by
  obtain ⟨F, hF⟩ := exists_libm
  obtain ⟨sum, hsum⟩ := exists_dot
  have hlen : ∀ u : BVec 3, (exampleTerm75.encode u).map List.length = some 10 := by decide +kernel
  have hex : ∀ u : BVec 3, ∃ v : BVec 10, exampleTerm75.encode u = some (List.ofFn v) := by
    intro u
    have h := hlen u
    cases he : exampleTerm75.encode u with
    | none => rw [he] at h; cases h
    | some l =>
      rw [he, Option.map_some, Option.some.injEq] at h
      exact ⟨fun i => l[i], by
        congr 1
        apply List.ext_getElem
        · simp [h]
        · intro i h1 h2; rw [List.getElem_ofFn]; rfl⟩
  choose v hv using hex
  refine ⟨F, sum, v, hv, C141_zero hF hsum exampleConv75 two_pos (by decide +kernel) 3 (by norm_num) exampleTerm75 rfl v hv, ?_⟩
  have e : exampleTerm75.length / 2 = 5 := by decide +kernel
  rw [e]
  unfold bcjrError roundUnit bcjrMagnitude fbMagnitude
  norm_num

end Komm
