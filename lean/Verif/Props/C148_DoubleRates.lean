import Verif.Model.DoubleRates
import Verif.Props.C147_DoubleLossless

/-! C148: rates and Kraft parameters in double precision. -/
namespace Komm

/-- The exact product of a list of doubles. -/
noncomputable def realProd (l : List Double) : ℝ := (l.map fun x : Double => x.val).prod

theorem realProd_append (l l' : List Double) : realProd (l ++ l') = realProd l * realProd l' := by simp [realProd]

/-- The error of a product of probabilities, whatever the order. -/
theorem ProdOf.error {l : List Double} {v : Double} (h : ProdOf l v) (hl : ∀ x ∈ l, 0 ≤ x.val ∧ x.val ≤ 1) :
    ∃ e, l.length = e + 1 ∧ (0 ≤ v.val ∧ v.val ≤ 1) ∧ (0 ≤ realProd l ∧ realProd l ≤ 1) ∧
      |v.val - realProd l| ≤ ((1 + 1 / 2 ^ 53) ^ e - 1) * realProd l + e * (1 + 1 / 2 ^ 53) ^ e * 2 ^ (-1074 : ℤ) := by
  induction h with
  | one x => exact ⟨0, rfl, hl x (by simp), by simpa [realProd] using hl x (by simp), by simp [realProd]⟩
  | @mul l l' a b _ _ ih1 ih2 =>
    obtain ⟨e, he, ⟨a0, a1⟩, ⟨p0, p1⟩, h1⟩ := ih1 fun x hx => hl x (by simp [hx])
    obtain ⟨e', he', ⟨b0, b1⟩, ⟨q0, q1⟩, h2⟩ := ih2 fun x hx => hl x (by simp [hx])
    refine ⟨e + e' + 1, by rw [List.length_append]; omega, ?_, ?_, ?_⟩
    · rw [Double.mul_val]
      have m0 := rnd_mono (mul_nonneg a0 b0)
      have m1 := rnd_mono (mul_le_one₀ a1 b0 b1)
      rw [rnd_zero] at m0
      rw [rnd_of_isDouble (⟨1, 0, by norm_num, by norm_num, by norm_num⟩ : IsDouble 1)] at m1
      exact ⟨m0, m1⟩
    · rw [realProd_append]; exact ⟨mul_nonneg p0 q0, mul_le_one₀ p1 q0 q1⟩
    · rw [realProd_append, Double.mul_val]
      have hr := rnd_error (a.val * b.val)
      have ht : (2 : ℝ) ^ (-1074 : ℤ) = 2 * 2 ^ (-1075 : ℤ) := by
        rw [show (-1074 : ℤ) = 1 + -1075 by norm_num, zpow_add₀ (by norm_num), zpow_one]
      have tp := two_zpow_pos (-1075)
      rw [ht] at h1 h2 ⊢
      obtain ⟨G, hG⟩ : ∃ G : ℝ, G = (1 + 1 / 2 ^ 53) ^ e := ⟨_, rfl⟩
      obtain ⟨G', hG'⟩ : ∃ G' : ℝ, G' = (1 + 1 / 2 ^ 53) ^ e' := ⟨_, rfl⟩
      have g1 : 1 ≤ G := by rw [hG]; exact one_le_pow₀ (by norm_num)
      have g2 : 1 ≤ G' := by rw [hG']; exact one_le_pow₀ (by norm_num)
      rw [pow_succ, pow_add, ← hG, ← hG']
      rw [← hG] at h1
      rw [← hG'] at h2
      push_cast
      have hn1 : (0 : ℝ) ≤ e := Nat.cast_nonneg _
      have hn2 : (0 : ℝ) ≤ e' := Nat.cast_nonneg _
      generalize a.val = a at *
      generalize b.val = b at *
      generalize realProd l = P at *
      generalize realProd l' = Q at *
      generalize (e : ℝ) = n at *
      generalize (e' : ℝ) = m at *
      generalize (2 : ℝ) ^ (-1075 : ℤ) = t at *
      obtain ⟨u, hu⟩ : ∃ u : ℝ, u = 1 / 2 ^ 53 := ⟨_, rfl⟩
      have hab : 0 ≤ a * b := mul_nonneg a0 b0
      rw [abs_of_nonneg hab, show a * b / 2 ^ 53 = u * (a * b) by rw [hu]; ring] at hr
      rw [← hu]
      have hu0 : 0 ≤ u := by rw [hu]; positivity
      -- the exact product of the computed factors
      have hexact : |a * b - P * Q| ≤ (G * G' - 1) * (P * Q) + (n + m) * (G * G') * (2 * t) := by
        have d1 : a * b - P * Q = b * (a - P) + P * (b - Q) := by ring
        have d2 : |b * (a - P)| ≤ b * ((G - 1) * P) + n * G * (2 * t) * 1 := by
          rw [abs_mul, abs_of_nonneg b0]
          have := mul_le_mul_of_nonneg_left h1 b0
          have hc : 0 ≤ n * G * (2 * t) := by positivity
          nlinarith
        have d3 : |P * (b - Q)| ≤ P * ((G' - 1) * Q) + m * G' * (2 * t) := by
          rw [abs_mul, abs_of_nonneg p0]
          have := mul_le_mul_of_nonneg_left h2 p0
          have hc : 0 ≤ m * G' * (2 * t) := by positivity
          nlinarith
        have hbQ : b ≤ G' * Q + m * G' * (2 * t) := by have := (abs_le.mp h2).2; linarith
        have hGP : 0 ≤ (G - 1) * P := mul_nonneg (by linarith) p0
        have d4 : b * ((G - 1) * P) ≤ (G' * Q) * ((G - 1) * P) + m * G' * (2 * t) * (G - 1) := by
          have k1 := mul_le_mul_of_nonneg_right hbQ hGP
          have hc : 0 ≤ m * G' * (2 * t) * (G - 1) := mul_nonneg (by positivity) (by linarith)
          have k2 : m * G' * (2 * t) * (G - 1) * P ≤ m * G' * (2 * t) * (G - 1) * 1 := mul_le_mul_of_nonneg_left p1 hc
          nlinarith
        have d5 : n * G * (2 * t) ≤ n * (G * G') * (2 * t) := by
          have : 0 ≤ n * G * (2 * t) := by positivity
          nlinarith
        rw [d1]
        refine (abs_add_le _ _).trans ?_
        have e1 : (G' * Q) * ((G - 1) * P) + P * ((G' - 1) * Q) = (G * G' - 1) * (P * Q) := by ring
        have e2 : m * G' * (2 * t) * (G - 1) + m * G' * (2 * t) = m * (G * G') * (2 * t) := by ring
        linarith
      have hPQ : 0 ≤ P * Q := mul_nonneg p0 q0
      have hab2 : a * b ≤ P * Q + |a * b - P * Q| := by have := le_abs_self (a * b - P * Q); linarith
      have htri : |rnd (a * b) - P * Q| ≤ |rnd (a * b) - a * b| + |a * b - P * Q| := abs_sub_le _ _ _
      have hGG : 1 ≤ G * G' := by nlinarith
      have hlast : t ≤ (G * G') * (1 + u) * (2 * t) := by
        have : 1 ≤ (G * G') * (1 + u) := by nlinarith
        nlinarith
      have hA : u * (a * b) ≤ u * (P * Q) + u * |a * b - P * Q| := by
        have := mul_le_mul_of_nonneg_left hab2 hu0
        linarith
      have hB : (1 + u) * |a * b - P * Q| ≤ (1 + u) * ((G * G' - 1) * (P * Q) + (n + m) * (G * G') * (2 * t)) := mul_le_mul_of_nonneg_left hexact (by linarith)
      have e3 : (1 + u) * ((G * G' - 1) * (P * Q) + (n + m) * (G * G') * (2 * t)) + u * (P * Q) + (G * G') * (1 + u) * (2 * t) =
          (G * G' * (1 + u) - 1) * (P * Q) + (n + m + 1) * (G * G' * (1 + u)) * (2 * t) := by ring
      rw [← e3]
      linarith
  | @perm l l' a hp _ ih =>
    obtain ⟨e, h1, h2, h3, h4⟩ := ih fun x hx => hl x (hp.subset hx)
    have : realProd l = realProd l' := (hp.map _).prod_eq
    exact ⟨e, by rw [← hp.length_eq, h1], h2, this ▸ h3, this ▸ h4⟩

theorem ProdOf.error_le {l : List Double} {v : Double} (h : ProdOf l v) (hl : ∀ x ∈ l, 0 ≤ x.val ∧ x.val ≤ 1) (hn : l.length ≤ 2 ^ 40) :
    0 ≤ realProd l ∧ |v.val - realProd l| ≤ l.length / 2 ^ 52 * realProd l + 1 / 2 ^ 200 := by
  obtain ⟨e, h1, -, h3, h4⟩ := h.error hl
  refine ⟨h3.1, h4.trans ?_⟩
  have hg := growth e (by have : (2 : ℕ) ^ 40 ≤ 2 ^ 51 := by norm_num
                          omega)
  have heR : (e : ℝ) + 1 = l.length := by rw [h1]; push_cast; rfl
  have heN : (e : ℝ) ≤ 2 ^ 40 := by exact_mod_cast (by omega : e ≤ 2 ^ 40)
  have he0 : (0 : ℝ) ≤ e := Nat.cast_nonneg _
  have m1 := mul_le_mul_of_nonneg_right hg h3.1
  have m2 : (e : ℝ) / 2 ^ 52 * realProd l ≤ l.length / 2 ^ 52 * realProd l := by
    refine mul_le_mul_of_nonneg_right ?_ h3.1
    rw [← heR]
    exact div_le_div_of_nonneg_right (by linarith) (by positivity)
  have ht : (2 : ℝ) ^ (-1074 : ℤ) ≤ 1 / 2 ^ 250 := by
    rw [one_div, show ((2 : ℝ) ^ 250)⁻¹ = 2 ^ (-250 : ℤ) by rw [zpow_neg]; norm_cast]
    exact zpow_le_zpow_right₀ (by norm_num) (by norm_num)
  have hG : (1 + 1 / 2 ^ 53 : ℝ) ^ e ≤ 2 := by
    have : (e : ℝ) / 2 ^ 52 ≤ 1 := by rw [div_le_one (by positivity)]; linarith
    linarith
  have hG0 : 0 ≤ (1 + 1 / 2 ^ 53 : ℝ) ^ e := by positivity
  have m3 : e * (1 + 1 / 2 ^ 53 : ℝ) ^ e * 2 ^ (-1074 : ℤ) ≤ 2 ^ 40 * 2 * (1 / 2 ^ 250) :=
    mul_le_mul (mul_le_mul heN hG hG0 (by positivity)) ht (by positivity) (by positivity)
  have m4 : (2 : ℝ) ^ 40 * 2 * (1 / 2 ^ 250) ≤ 1 / 2 ^ 200 := by norm_num
  linarith

/-- A dot product of integers with nearly exact non-negative factors. -/
theorem near_dot (T : List (Nat × Double × ℝ)) {κ : ℝ} (hκ0 : 0 ≤ κ) (hN : T.length ≤ 2 ^ 40)
    (hT : ∀ x ∈ T, x.1 ≤ 2 ^ 50 ∧ 0 ≤ x.2.2 ∧ |x.2.1.val - x.2.2| ≤ κ * x.2.2 + 1 / 2 ^ 200) (hnn : ∀ x ∈ T, 0 ≤ x.2.1.val) {d : Double}
    (hd : DotOf (T.map fun x : Nat × Double × ℝ => ((x.1 : ℝ), x.2.1.val)) d) :
    |d.val - (T.map fun x : Nat × Double × ℝ => (x.1 : ℝ) * x.2.2).sum| ≤ (T.length / 2 ^ 52 + 2 * κ) * (T.map fun x : Nat × Double × ℝ => (x.1 : ℝ) * x.2.2).sum + 1 / 2 ^ 99 ∧
      0 ≤ (T.map fun x : Nat × Double × ℝ => (x.1 : ℝ) * x.2.2).sum := by
  have h1 := hd.error_le (by rw [List.length_map]; exact hN)
  have e1 : pairSum (T.map fun x : Nat × Double × ℝ => ((x.1 : ℝ), x.2.1.val)) = (T.map fun x : Nat × Double × ℝ => (x.1 : ℝ) * x.2.1.val).sum := by
    simp [pairSum, Function.comp_def]
  have e2 : pairAbs (T.map fun x : Nat × Double × ℝ => ((x.1 : ℝ), x.2.1.val)) = (T.map fun x : Nat × Double × ℝ => (x.1 : ℝ) * x.2.1.val).sum := by
    rw [pairAbs, List.map_map]
    congr 1
    exact List.map_congr_left fun x hx => abs_of_nonneg (mul_nonneg (Nat.cast_nonneg _) (hnn x hx))
  rw [e1, e2, List.length_map] at h1
  clear e1 e2 hd
  have hS0 : 0 ≤ (T.map fun x : Nat × Double × ℝ => (x.1 : ℝ) * x.2.2).sum :=
    List.sum_nonneg fun y hy => by
      obtain ⟨x, hx, rfl⟩ := List.mem_map.mp hy
      exact mul_nonneg (Nat.cast_nonneg _) (hT x hx).2.1
  refine ⟨?_, hS0⟩
  -- the exact sums
  have h2 : |(T.map fun x : Nat × Double × ℝ => (x.1 : ℝ) * x.2.1.val).sum - (T.map fun x : Nat × Double × ℝ => (x.1 : ℝ) * x.2.2).sum| ≤
      κ * (T.map fun x : Nat × Double × ℝ => (x.1 : ℝ) * x.2.2).sum + T.length * (2 ^ 50 * (1 / 2 ^ 200)) := by
    clear h1 hS0 hN hnn
    induction T with
    | nil => simp
    | cons x T ih =>
      have i := ih fun y hy => hT y (by simp [hy])
      obtain ⟨a1, a2, a3⟩ := hT x (by simp)
      simp only [List.map_cons, List.sum_cons, List.length_cons]
      push_cast
      have hx : (x.1 : ℝ) ≤ 2 ^ 50 := by exact_mod_cast a1
      have hx0 : (0 : ℝ) ≤ x.1 := Nat.cast_nonneg _
      have k1 : |(x.1 : ℝ) * x.2.1.val - x.1 * x.2.2| ≤ κ * (x.1 * x.2.2) + 2 ^ 50 * (1 / 2 ^ 200) := by
        rw [← mul_sub, abs_mul, abs_of_nonneg hx0]
        have := mul_le_mul_of_nonneg_left a3 hx0
        have h3 : (x.1 : ℝ) * (1 / 2 ^ 200) ≤ 2 ^ 50 * (1 / 2 ^ 200) := mul_le_mul_of_nonneg_right hx (by positivity)
        linarith
      have k2 := abs_add_le ((x.1 : ℝ) * x.2.1.val - x.1 * x.2.2) ((T.map fun x : Nat × Double × ℝ => (x.1 : ℝ) * x.2.1.val).sum - (T.map fun x : Nat × Double × ℝ => (x.1 : ℝ) * x.2.2).sum)
      have k3 : (x.1 : ℝ) * x.2.1.val + (T.map fun x : Nat × Double × ℝ => (x.1 : ℝ) * x.2.1.val).sum - (x.1 * x.2.2 + (T.map fun x : Nat × Double × ℝ => (x.1 : ℝ) * x.2.2).sum) =
        ((x.1 : ℝ) * x.2.1.val - x.1 * x.2.2) + ((T.map fun x : Nat × Double × ℝ => (x.1 : ℝ) * x.2.1.val).sum - (T.map fun x : Nat × Double × ℝ => (x.1 : ℝ) * x.2.2).sum) := by ring
      rw [k3]
      linarith
  have hNR : (T.length : ℝ) ≤ 2 ^ 40 := by exact_mod_cast hN
  have hN0 : (0 : ℝ) ≤ T.length := Nat.cast_nonneg _
  generalize (T.map fun x : Nat × Double × ℝ => (x.1 : ℝ) * x.2.1.val).sum = A at *
  generalize (T.map fun x : Nat × Double × ℝ => (x.1 : ℝ) * x.2.2).sum = S at *
  generalize (T.length : ℝ) = N at *
  have h3 : N * (2 ^ 50 * (1 / 2 ^ 200)) ≤ 1 / 2 ^ 110 := by
    have := mul_le_mul_of_nonneg_right hNR (by positivity : (0 : ℝ) ≤ 2 ^ 50 * (1 / 2 ^ 200))
    refine this.trans ?_
    norm_num
  have hA : A ≤ S + (κ * S + 1 / 2 ^ 110) := by have := (abs_le.mp h2).2; linarith
  have hq0 : 0 ≤ N / 2 ^ 52 := by positivity
  have hq1 : N / 2 ^ 52 ≤ 1 := by rw [div_le_one (by positivity)]; linarith
  have h4 : N / 2 ^ 52 * A ≤ N / 2 ^ 52 * S + (κ * S + 1 / 2 ^ 110) := by
    have k1 := mul_le_mul_of_nonneg_left hA hq0
    have k2 : 0 ≤ κ * S + 1 / 2 ^ 110 := by positivity
    have k3 := mul_le_mul_of_nonneg_right hq1 k2
    linarith
  have h5 : |d.val - S| ≤ |d.val - A| + |A - S| := abs_sub_le _ _ _
  have h6 : (3 : ℝ) * (1 / 2 ^ 110) + 1 / 2 ^ 100 ≤ 1 / 2 ^ 99 := by norm_num
  linarith

/-- Rounding a quotient of a nearly exact non-negative number. -/
theorem near_quotient {d S : ℝ} {κ k : ℝ} (hk : 1 ≤ k) (hS : 0 ≤ S) (hκ : κ ≤ 1) (h : |d - S| ≤ κ * S + 1 / 2 ^ 99) :
    |rnd (d / k) - S / k| ≤ (κ + 1 / 2 ^ 52) * (S / k) + 1 / 2 ^ 98 := by
  have hr := rnd_error (d / k)
  have ht : (2 : ℝ) ^ (-1075 : ℤ) ≤ 1 / 2 ^ 150 := by
    rw [one_div, show ((2 : ℝ) ^ 150)⁻¹ = 2 ^ (-150 : ℤ) by rw [zpow_neg]; norm_cast]
    exact zpow_le_zpow_right₀ (by norm_num) (by norm_num)
  have hd : |d| ≤ 2 * S + 1 / 2 ^ 99 := by
    have := abs_add_le (d - S) S
    rw [sub_add_cancel, abs_of_nonneg hS] at this
    have := mul_le_mul_of_nonneg_right hκ hS
    linarith
  have hk0 : 0 < k := by linarith
  have h1 : |d / k| ≤ 2 * (S / k) + 1 / 2 ^ 99 := by
    rw [abs_div, abs_of_pos hk0, div_le_iff₀ hk0, add_mul, mul_assoc, div_mul_cancel₀ _ hk0.ne']
    have : (1 : ℝ) / 2 ^ 99 ≤ 1 / 2 ^ 99 * k := le_mul_of_one_le_right (by positivity) hk
    linarith
  have h2 : |d / k - S / k| ≤ κ * (S / k) + 1 / 2 ^ 99 := by
    rw [← sub_div, abs_div, abs_of_pos hk0, div_le_iff₀ hk0, add_mul, mul_assoc, div_mul_cancel₀ _ hk0.ne']
    have : (1 : ℝ) / 2 ^ 99 ≤ 1 / 2 ^ 99 * k := le_mul_of_one_le_right (by positivity) hk
    linarith
  have h3 : |rnd (d / k) - S / k| ≤ |rnd (d / k) - d / k| + |d / k - S / k| := abs_sub_le _ _ _
  have hq : 0 ≤ S / k := div_nonneg hS hk0.le
  generalize d / k = x at *
  generalize S / k = y at *
  have h4 : |x| / 2 ^ 53 ≤ (2 * y + 1 / 2 ^ 99) / 2 ^ 53 := div_le_div_of_nonneg_right h1 (by positivity)
  have h5 : (2 * y + 1 / 2 ^ 99) / 2 ^ 53 = 1 / 2 ^ 52 * y + 1 / 2 ^ 152 := by ring
  have h6 : (1 : ℝ) / 2 ^ 99 + 1 / 2 ^ 152 + 1 / 2 ^ 150 ≤ 1 / 2 ^ 98 := by norm_num
  linarith

theorem tuplesOf_length {α : Type} (pmf : List α) (k : Nat) : (tuplesOf pmf k).length = pmf.length ^ k := by
  induction k with
  | zero => rfl
  | succ k ih => simp [tuplesOf, List.length_flatMap, ih, pow_succ, Nat.mul_comm]

theorem tuplesOf_mem {α : Type} (pmf : List α) (k : Nat) : ∀ t ∈ tuplesOf pmf k, t.length = k ∧ ∀ x ∈ t, x ∈ pmf := by
  induction k with
  | zero => simp [tuplesOf]
  | succ k ih =>
    intro t ht
    obtain ⟨p, hp, ht⟩ := List.mem_flatMap.mp ht
    obtain ⟨s, hs, rfl⟩ := List.mem_map.mp ht
    obtain ⟨h1, h2⟩ := ih s hs
    refine ⟨by simp [h1], ?_⟩
    intro x hx
    rcases List.mem_cons.mp hx with rfl | hx
    · exact hp
    · exact h2 x hx

theorem blockProbabilities_tuples (pmf : List Double) (k : Nat) :
    (FVCode.blockProbabilities (pmf.map Double.rat) k).map (fun q : ℚ => (q : ℝ)) = (tuplesOf pmf k).map realProd := by
  induction k with
  | zero => simp [FVCode.blockProbabilities, tuplesOf, realProd]
  | succ k ih =>
    rw [FVCode.blockProbabilities, tuplesOf, List.map_flatMap, List.map_flatMap, List.flatMap_map]
    congr 1
    funext p
    rw [List.map_map, List.map_map]
    have : (List.map (fun q : ℚ => (q : ℝ)) (FVCode.blockProbabilities (pmf.map Double.rat) k)).map (p.val * ·) = ((tuplesOf pmf k).map realProd).map (p.val * ·) := by rw [ih]
    rw [List.map_map, List.map_map] at this
    convert this using 2
    · funext q
      simp [Double.rat_val]
    · funext t
      simp [realProd]

/-- `FixedToVariableCode.rate` in double precision, for every code, every pmf of doubles in `[0, 1]` (underflow of the block probabilities included) and every order of the multiplications and additions:
the error with respect to the exact rate (of C79 and C100) is relatively small. -/
theorem C148_fixed_to_variable_rate {prod : List Double → Double} (hprod : ∀ l, l ≠ [] → ProdOf l (prod l)) {dot : List (ℝ × ℝ) → Double} (hdot : ∀ l, DotOf l (dot l)) (c : FVCode) (pmf : List Double)
    (hp : ∀ x ∈ pmf, 0 ≤ x.val ∧ x.val ≤ 1) (hk : 1 ≤ c.sourceBlockSize) (hk' : c.sourceBlockSize ≤ 2 ^ 40) (hn : c.codewords.length ≤ 2 ^ 40) (hlen : ∀ w ∈ c.codewords, w.length ≤ 2 ^ 50)
    (hcount : c.codewords.length = pmf.length ^ c.sourceBlockSize) :
    ∃ (r : ℚ) (r' : ℝ), c.rate (pmf.map Double.rat) = some r ∧ fvRateD prod dot c pmf = some r' ∧
      |r' - r| ≤ (c.codewords.length + 2 * c.sourceBlockSize + 1) / 2 ^ 52 * r + 1 / 2 ^ 98 := by
  have hlp : (FVCode.blockProbabilities (pmf.map Double.rat) c.sourceBlockSize).length = pmf.length ^ c.sourceBlockSize := by
    have := congrArg List.length (blockProbabilities_tuples pmf c.sourceBlockSize)
    rwa [List.length_map, List.length_map, tuplesOf_length] at this
  have hr1 : c.rate (pmf.map Double.rat) = some ((List.zipWith (fun (l : Nat) (p : ℚ) => (l : ℚ) * p) (c.codewords.map List.length) (FVCode.blockProbabilities (pmf.map Double.rat) c.sourceBlockSize)).sum /
      c.sourceBlockSize) := by
    unfold FVCode.rate
    dsimp only
    rw [if_neg (by rw [List.length_map, hlp, not_not]; exact hcount)]
  have hr2 : fvRateD prod dot c pmf = some (rnd ((dot (List.zipWith (fun (l : Nat) (p : Double) => ((l : ℝ), p.val)) (c.codewords.map List.length)
      ((tuplesOf pmf c.sourceBlockSize).map prod))).val / c.sourceBlockSize)) := by
    unfold fvRateD
    dsimp only
    rw [if_neg (by rw [List.length_map, List.length_map, tuplesOf_length, not_not]; exact hcount)]
  refine ⟨_, _, hr1, hr2, ?_⟩
  clear hr1 hr2
  · obtain ⟨k, hkk⟩ : ∃ k, k = c.sourceBlockSize := ⟨_, rfl⟩
    rw [← hkk] at hk hk' ⊢
    obtain ⟨T, hT⟩ : ∃ T : List (Nat × Double × ℝ), T = List.zipWith (fun (w : Word) (t : List Double) => (w.length, prod t, realProd t)) c.codewords (tuplesOf pmf k) := ⟨_, rfl⟩
    have hTlen : T.length = c.codewords.length := by
      rw [hT, List.length_zipWith, tuplesOf_length, hcount, hkk, min_self]
    have hmem : ∀ x ∈ T, ∃ w ∈ c.codewords, ∃ t ∈ tuplesOf pmf k, x = (w.length, prod t, realProd t) := by
      intro x hx
      rw [hT, List.zipWith_eq_zipWith_take_min] at hx
      rw [hT] at *
      obtain ⟨i, hi, rfl⟩ := List.getElem_of_mem hx
      simp only [List.length_zipWith, List.length_take] at hi
      refine ⟨c.codewords[i], List.getElem_mem _, (tuplesOf pmf k)[i], List.getElem_mem _, ?_⟩
      simp
    have hfacts : ∀ t ∈ tuplesOf pmf k, 0 ≤ (prod t).val ∧ 0 ≤ realProd t ∧ |(prod t).val - realProd t| ≤ k / 2 ^ 52 * realProd t + 1 / 2 ^ 200 := by
      intro t ht
      obtain ⟨h1, h2⟩ := tuplesOf_mem pmf k t ht
      have hne : t ≠ [] := by rintro rfl; simp at h1; omega
      have hP := hprod t hne
      obtain ⟨e, -, ⟨h3, -⟩, -, -⟩ := hP.error fun x hx => hp x (h2 x hx)
      obtain ⟨h4, h5⟩ := hP.error_le (fun x hx => hp x (h2 x hx)) (by rw [h1]; exact hk')
      rw [h1] at h5
      exact ⟨h3, h4, h5⟩
    have hkR : (k : ℝ) ≤ 2 ^ 40 := by exact_mod_cast hk'
    have hk1 : (1 : ℝ) ≤ k := by exact_mod_cast hk
    have e1 : List.zipWith (fun (l : Nat) (p : Double) => ((l : ℝ), p.val)) (c.codewords.map List.length) ((tuplesOf pmf k).map prod) = T.map fun x : Nat × Double × ℝ => ((x.1 : ℝ), x.2.1.val) := by
      rw [hT, List.map_zipWith, List.zipWith_map]
    have e2 : (((List.zipWith (fun (l : Nat) (p : ℚ) => (l : ℚ) * p) (c.codewords.map List.length) (FVCode.blockProbabilities (pmf.map Double.rat) k)).sum : ℚ) : ℝ) =
        (T.map fun x : Nat × Double × ℝ => (x.1 : ℝ) * x.2.2).sum := by
      have h1 := blockProbabilities_tuples pmf k
      rw [hT, List.map_zipWith]
      have h2 : List.zipWith (fun (w : Word) (t : List Double) => (w.length : ℝ) * realProd t) c.codewords (tuplesOf pmf k) =
          List.zipWith (fun (w : Word) (x : ℝ) => (w.length : ℝ) * x) c.codewords ((tuplesOf pmf k).map realProd) := by rw [List.zipWith_map_right]
      rw [h2, ← h1, List.zipWith_map_right, List.zipWith_map_left, Rat.cast_list_sum, List.map_zipWith]
      congr 2
      funext w q
      push_cast; rfl
    obtain ⟨n1, n2⟩ := near_dot T (κ := k / 2 ^ 52) (by positivity) (by rw [hTlen]; exact hn) (by
      intro x hx
      obtain ⟨w, hw, t, ht, rfl⟩ := hmem x hx
      exact ⟨hlen w hw, (hfacts t ht).2⟩) (by
      intro x hx
      obtain ⟨w, hw, t, ht, rfl⟩ := hmem x hx
      exact (hfacts t ht).1) (hdot _)
    rw [hTlen] at n1
    have hN : (c.codewords.length : ℝ) ≤ 2 ^ 40 := by exact_mod_cast hn
    have n3 := near_quotient (k := (k : ℝ)) hk1 n2 (by
      have : (c.codewords.length : ℝ) / 2 ^ 52 + 2 * (k / 2 ^ 52) ≤ 2 ^ 40 / 2 ^ 52 + 2 * (2 ^ 40 / 2 ^ 52) := by gcongr
      refine this.trans ?_
      norm_num) n1
    rw [e1, Rat.cast_div, e2, Rat.cast_natCast]
    refine n3.trans (le_of_eq ?_)
    ring


theorem wordProb_cast (pmf : List Double) (w : Word) :
    (((w.map fun a => (pmf.map Double.rat).getD a 0).prod : ℚ) : ℝ) = realProd (w.map fun a => pmf.getD a 0) := by
  induction w with
  | nil => simp [realProd]
  | cons a w ih =>
    rw [List.map_cons, List.prod_cons, List.map_cons, Rat.cast_mul, ih]
    have : realProd (pmf.getD a 0 :: w.map fun a => pmf.getD a 0) = (pmf.getD a 0).val * realProd (w.map fun a => pmf.getD a 0) := by simp [realProd]
    rw [this]
    congr 1
    by_cases ha : a < pmf.length
    · rw [List.getD_eq_getElem _ _ (by simpa using ha), List.getD_eq_getElem _ _ ha, List.getElem_map, Double.rat_val]
    · rw [List.getD_eq_default _ _ (by simpa using ha), List.getD_eq_default _ _ (by omega), Double.val_zero, Rat.cast_zero]

/-- `VariableToFixedCode.rate` in double precision, for every code whose mean sourceword length under the pmf is at least 1/2 (it is about 1 or more for a fully covering code): no failure, and a small
relative error with respect to the exact rate (of C101). -/
theorem C148_variable_to_fixed_rate {prod : List Double → Double} (hprod : ∀ l, l ≠ [] → ProdOf l (prod l)) {dot : List (ℝ × ℝ) → Double} (hdot : ∀ l, DotOf l (dot l)) (c : VFCode) (pmf : List Double)
    (hp : ∀ x ∈ pmf, 0 ≤ x.val ∧ x.val ≤ 1) (hn : c.sourcewords.length ≤ 2 ^ 40) {L : Nat} (hL : L ≤ 2 ^ 40) (hw : ∀ w ∈ c.sourcewords, w ≠ [] ∧ w.length ≤ L ∧ ∀ a ∈ w, a < pmf.length)
    (hmean : 1 / 2 ≤ (c.sourcewords.map fun w : Word => (w.length : ℝ) * (w.map fun a => (pmf.getD a 0).val).prod).sum) :
    ∃ (r : ℚ) (r' : ℝ), c.rate (pmf.map Double.rat) = some r ∧ vfRateD prod dot c pmf = some r' ∧
      |r' - r| ≤ (c.sourcewords.length + 2 * L + 1) / 2 ^ 50 * r + 2 ^ (-1075 : ℤ) := by
  obtain ⟨T, hT⟩ : ∃ T : List (Nat × Double × ℝ), T = c.sourcewords.map fun w : Word => (w.length, prod (w.map fun a => pmf.getD a 0), realProd (w.map fun a => pmf.getD a 0)) := ⟨_, rfl⟩
  have hTlen : T.length = c.sourcewords.length := by rw [hT, List.length_map]
  have hfacts : ∀ w ∈ c.sourcewords, 0 ≤ (prod (w.map fun a => pmf.getD a 0)).val ∧ 0 ≤ realProd (w.map fun a => pmf.getD a 0) ∧
      |(prod (w.map fun a => pmf.getD a 0)).val - realProd (w.map fun a => pmf.getD a 0)| ≤ L / 2 ^ 52 * realProd (w.map fun a => pmf.getD a 0) + 1 / 2 ^ 200 := by
    intro w hwm
    obtain ⟨h1, h2, -⟩ := hw w hwm
    have hP := hprod (w.map fun a => pmf.getD a 0) (by simpa using h1)
    have hin : ∀ x ∈ w.map fun a => pmf.getD a 0, 0 ≤ x.val ∧ x.val ≤ 1 := by
      intro x hx
      obtain ⟨a, -, rfl⟩ := List.mem_map.mp hx
      exact getD_facts hp a
    obtain ⟨e, -, ⟨h3, -⟩, -, -⟩ := hP.error hin
    obtain ⟨h4, h5⟩ := hP.error_le hin (by rw [List.length_map]; omega)
    refine ⟨h3, h4, h5.trans ?_⟩
    rw [List.length_map]
    have : (w.length : ℝ) / 2 ^ 52 ≤ L / 2 ^ 52 := div_le_div_of_nonneg_right (by exact_mod_cast h2) (by positivity)
    have := mul_le_mul_of_nonneg_right this h4
    linarith
  have hLR : (L : ℝ) ≤ 2 ^ 40 := by exact_mod_cast hL
  have hN : (c.sourcewords.length : ℝ) ≤ 2 ^ 40 := by exact_mod_cast hn
  obtain ⟨n1, -⟩ := near_dot T (κ := L / 2 ^ 52) (by positivity) (by rw [hTlen]; exact hn) (by
    intro x hx
    rw [hT] at hx
    obtain ⟨w, hwm, rfl⟩ := List.mem_map.mp hx
    refine ⟨(hw w hwm).2.1.trans (hL.trans (by norm_num)), (hfacts w hwm).2⟩) (by
    intro x hx
    rw [hT] at hx
    obtain ⟨w, hwm, rfl⟩ := List.mem_map.mp hx
    exact (hfacts w hwm).1) (hdot _)
  rw [hTlen] at n1
  have e1 : (T.map fun x : Nat × Double × ℝ => ((x.1 : ℝ), x.2.1.val)) = c.sourcewords.map fun w : Word => ((w.length : ℝ), (prod (w.map fun a => pmf.getD a 0)).val) := by
    rw [hT, List.map_map]; rfl
  have e2 : (T.map fun x : Nat × Double × ℝ => (x.1 : ℝ) * x.2.2).sum = (c.sourcewords.map fun w : Word => (w.length : ℝ) * (w.map fun a => (pmf.getD a 0).val).prod).sum := by
    rw [hT, List.map_map]
    congr 1
    refine List.map_congr_left fun w _ => ?_
    simp [realProd, Function.comp_def]
  have e3 : (((List.zipWith (fun (l : Nat) (p : ℚ) => (l : ℚ) * p) (c.sourcewords.map List.length) (c.sourcewords.map fun x => (x.map fun symb => (pmf.map Double.rat).getD symb 0).prod)).sum : ℚ) : ℝ) =
      (T.map fun x : Nat × Double × ℝ => (x.1 : ℝ) * x.2.2).sum := by
    rw [List.zipWith_map, List.zipWith_self, Rat.cast_list_sum, List.map_map, hT, List.map_map]
    congr 1
    refine List.map_congr_left fun w _ => ?_
    simp only [Function.comp_apply, Rat.cast_mul, Rat.cast_natCast, wordProb_cast]
  rw [e1] at n1
  rw [← e2] at hmean
  obtain ⟨S, hS⟩ : ∃ S, S = (T.map fun x : Nat × Double × ℝ => (x.1 : ℝ) * x.2.2).sum := ⟨_, rfl⟩
  rw [← hS] at n1 hmean e3
  obtain ⟨κ, hκ⟩ : ∃ κ : ℝ, κ = (c.sourcewords.length + 2 * L) / 2 ^ 52 := ⟨_, rfl⟩
  have n2 : |(dot (c.sourcewords.map fun w : Word => ((w.length : ℝ), (prod (w.map fun a => pmf.getD a 0)).val))).val - S| ≤ κ * S + 1 / 2 ^ 99 := by
    refine n1.trans (le_of_eq ?_)
    rw [hκ]; ring
  have hκ0 : 0 ≤ κ := by rw [hκ]; positivity
  have hκ1 : κ ≤ 1 / 2 ^ 10 := by
    have e42 : (1 : ℝ) / 2 ^ 10 * 2 ^ 52 = 2 ^ 42 := by norm_num
    rw [hκ, div_le_iff₀ (by positivity), e42]
    linarith
  obtain ⟨d, hd⟩ : ∃ d, d = (dot (c.sourcewords.map fun w : Word => ((w.length : ℝ), (prod (w.map fun a => pmf.getD a 0)).val))).val := ⟨_, rfl⟩
  rw [← hd] at n2
  have hsm : |d - S| ≤ (κ + 1 / 2 ^ 90) * S := by
    refine n2.trans ?_
    have : (1 : ℝ) / 2 ^ 99 ≤ 1 / 2 ^ 90 * (1 / 2) := by norm_num
    have h2 : (1 : ℝ) / 2 ^ 90 * (1 / 2) ≤ 1 / 2 ^ 90 * S := mul_le_mul_of_nonneg_left hmean (by positivity)
    linarith
  have hdS : S / 2 ≤ d := by
    have := (abs_le.mp hsm).1
    have h3 : (κ + 1 / 2 ^ 90) * S ≤ 1 / 2 * S := by
      refine mul_le_mul_of_nonneg_right ?_ (by linarith)
      refine (add_le_add hκ1 le_rfl).trans ?_
      norm_num
    linarith
  have hS0 : 0 < S := by linarith
  have hd0 : 0 < d := by linarith
  have hr1 : c.rate (pmf.map Double.rat) = some ((c.targetBlockSize : ℚ) / (List.zipWith (fun (l : Nat) (p : ℚ) => (l : ℚ) * p) (c.sourcewords.map List.length)
      (c.sourcewords.map fun x => (x.map fun symb => (pmf.map Double.rat).getD symb 0).prod)).sum) := by
    unfold VFCode.rate
    dsimp only
    rw [if_neg, if_neg]
    · intro h
      rw [h] at e3
      simp at e3
      linarith
    · simp only [List.any_eq_true, decide_eq_true_eq, not_exists, not_and, not_le, List.length_map]
      exact fun w hwm a ha => (hw w hwm).2.2 a ha
  have hr2 : vfRateD prod dot c pmf = some (rnd (c.targetBlockSize / d)) := by
    unfold vfRateD
    rw [if_neg]
    · dsimp only
      rw [← hd, if_neg hd0.ne']
    · simp only [not_exists, not_and, not_le]
      exact fun w hwm a ha => (hw w hwm).2.2 a ha
  refine ⟨_, _, hr1, hr2, ?_⟩
  rw [Rat.cast_div, e3, Rat.cast_natCast]
  have hb : (0 : ℝ) ≤ c.targetBlockSize := Nat.cast_nonneg _
  generalize (c.targetBlockSize : ℝ) = b at *
  have hr := rnd_error (b / d)
  have hq : |b / d - b / S| ≤ 2 * (κ + 1 / 2 ^ 90) * (b / S) := by
    have : b / d - b / S = (S - d) / d * (b / S) := by field_simp
    rw [this, abs_mul, abs_of_nonneg (div_nonneg hb hS0.le)]
    refine mul_le_mul_of_nonneg_right ?_ (div_nonneg hb hS0.le)
    rw [abs_div, abs_of_pos hd0, div_le_iff₀ hd0, abs_sub_comm]
    refine hsm.trans ?_
    have : (κ + 1 / 2 ^ 90) * S ≤ (κ + 1 / 2 ^ 90) * (2 * d) := mul_le_mul_of_nonneg_left (by linarith) (by positivity)
    linarith
  have hy : 0 ≤ b / S := div_nonneg hb hS0.le
  have hx0 : 0 ≤ b / d := div_nonneg hb hd0.le
  rw [abs_of_nonneg hx0] at hr
  have htri := abs_sub_le (rnd (b / d)) (b / d) (b / S)
  have hx : b / d ≤ 2 * (b / S) := by
    have : b / d ≤ b / (S / 2) := div_le_div_of_nonneg_left hb (by linarith) hdS
    rwa [div_div_eq_mul_div, mul_div_right_comm, mul_comm] at this
  have htop : (c.sourcewords.length + 2 * L + 1 : ℝ) / 2 ^ 50 = 4 * κ + 1 / 2 ^ 50 := by rw [hκ]; ring
  rw [htop]
  generalize b / d = x at *
  generalize b / S = y at *
  generalize (2 : ℝ) ^ (-1075 : ℤ) = t at *
  have h6 : x / 2 ^ 53 ≤ 2 * y / 2 ^ 53 := div_le_div_of_nonneg_right hx (by positivity)
  have h7 : 2 * (κ + 1 / 2 ^ 90) * y + 2 * y / 2 ^ 53 ≤ (4 * κ + 1 / 2 ^ 50) * y := by
    have : 2 * (κ + 1 / 2 ^ 90) * y + 2 * y / 2 ^ 53 = (2 * κ + (2 * (1 / 2 ^ 90) + 1 / 2 ^ 52)) * y := by ring
    rw [this]
    refine mul_le_mul_of_nonneg_right ?_ hy
    have : (2 * (1 / 2 ^ 90) + 1 / 2 ^ 52 : ℝ) ≤ 1 / 2 ^ 50 := by norm_num
    linarith
  linarith

/-! ### the Kraft parameter -/

/-- Sums of multiples of `2⁻⁵³` that do not exceed 1 are exact in every order. -/
theorem sum_exact {l : List Double} {v : Double} (h : SumOf l v) (hm : ∀ x ∈ l, ∃ k : Nat, x.val = k * 2 ^ (-53 : ℤ)) (h1 : realSum l ≤ 1) : v.val = realSum l := by
  have key : ∀ {l : List Double} {v : Double}, SumOf l v → (∀ x ∈ l, ∃ k : Nat, x.val = k * 2 ^ (-53 : ℤ)) → realSum l ≤ 1 →
      v.val = realSum l ∧ ∃ k : Nat, realSum l = k * 2 ^ (-53 : ℤ) := by
    intro l v h
    induction h with
    | nil => intro _ _; exact ⟨by simp [realSum, Double.val_zero], 0, by simp [realSum]⟩
    | one x =>
      intro hm _
      obtain ⟨k, hk⟩ := hm x (by simp)
      exact ⟨by simp [realSum], k, by simpa [realSum] using hk⟩
    | @add l l' a b _ _ ih1 ih2 =>
      intro hm h1
      have e : realSum (l ++ l') = realSum l + realSum l' := by simp [realSum]
      have hp := two_zpow_pos (-53)
      have hnn : ∀ l'' : List Double, (∀ x ∈ l'', ∃ k : Nat, x.val = k * 2 ^ (-53 : ℤ)) → 0 ≤ realSum l'' := by
        intro l'' hm
        refine List.sum_nonneg fun y hy => ?_
        obtain ⟨x, hx, rfl⟩ := List.mem_map.mp hy
        obtain ⟨k, hk⟩ := hm x hx
        rw [hk]; positivity
      have n1 := hnn l fun x hx => hm x (by simp [hx])
      have n2 := hnn l' fun x hx => hm x (by simp [hx])
      rw [e] at h1
      obtain ⟨v1, k1, hk1⟩ := ih1 (fun x hx => hm x (by simp [hx])) (by linarith)
      obtain ⟨v2, k2, hk2⟩ := ih2 (fun x hx => hm x (by simp [hx])) (by linarith)
      have ek : realSum (l ++ l') = ((k1 + k2 : Nat) : ℝ) * 2 ^ (-53 : ℤ) := by rw [e, hk1, hk2]; push_cast; ring
      have hle : k1 + k2 ≤ 2 ^ 53 := by
        rw [← e, ek, zpow_neg, ← div_eq_mul_inv, div_le_one (by positivity)] at h1
        exact_mod_cast h1
      have hd : IsDouble (realSum (l ++ l')) := by
        rw [ek]
        rcases Nat.lt_or_eq_of_le hle with hlt | heq
        · exact ⟨(k1 + k2 : Nat), -53, by rw [Nat.abs_cast]; exact_mod_cast hlt, by norm_num, by push_cast; rfl⟩
        · rw [heq]
          exact ⟨1, 0, by norm_num, by norm_num, by rw [zpow_neg]; norm_num⟩
      refine ⟨?_, _, ek⟩
      rw [Double.add_val, v1, v2, ← e, rnd_of_isDouble hd]
    | @perm l l' a hp _ ih =>
      intro hm h1
      have e : realSum l = realSum l' := (hp.map _).sum_eq
      rw [← e] at h1 ⊢
      exact ih (fun x hx => hm x (hp.subset hx)) h1
  exact (key h hm h1).1

/-- The Kraft parameter of a binary code with codewords of at most 53 bits is computed exactly whenever it is at most 1. -/
theorem C148_kraft_exact {sum : List Double → Double} (hsum : ∀ l, SumOf l (sum l)) {fp : Nat → Nat → Double} (hfp : FloatPowerAccurate fp) (c : FVCode) (h2 : c.targetCardinality = 2)
    (hlen : ∀ w ∈ c.codewords, w.length ≤ 53) (h1 : c.kraftParameter ≤ 1) : kraftD sum fp c = (c.kraftParameter : ℝ) := by
  have hval : ∀ l : Nat, (fp 2 l).val = 1 / (2 : ℝ) ^ l ∨ 1074 < l := by
    intro l
    by_cases h : l ≤ 1074
    · left
      have := hfp.exact 2 l ⟨1, -l, by norm_num, by omega, by rw [zpow_neg, zpow_natCast]; push_cast; rw [one_mul, one_div]⟩
      exact_mod_cast this
    · right; omega
  have e : realSum ((c.codewords.map List.length).map fun l : Nat => fp c.targetCardinality l) = (c.kraftParameter : ℝ) := by
    unfold realSum FVCode.kraftParameter
    rw [h2, Rat.cast_list_sum]
    simp only [List.map_map]
    congr 1
    refine List.map_congr_left fun w hw => ?_
    have := (hval w.length).resolve_right (by have := hlen w hw; omega)
    simp only [Function.comp_apply, this]
    push_cast
    rfl
  unfold kraftD
  rw [← e]
  refine sum_exact (hsum _) ?_ (by rw [e]; exact_mod_cast h1)
  intro x hx
  obtain ⟨l, hl, rfl⟩ := List.mem_map.mp hx
  obtain ⟨w, hw, rfl⟩ := List.mem_map.mp hl
  have hl53 := hlen w hw
  refine ⟨2 ^ (53 - w.length), ?_⟩
  rw [h2, (hval w.length).resolve_right (by omega)]
  rw [zpow_neg, ← div_eq_mul_inv, div_eq_div_iff (by positivity) (by positivity), one_mul]
  norm_cast
  rw [← pow_add]
  congr 1
  omega

/-- The Kraft parameter of any code is computed accurately. -/
theorem C148_kraft_near {sum : List Double → Double} (hsum : ∀ l, SumOf l (sum l)) {fp : Nat → Nat → Double} (hfp : FloatPowerAccurate fp) (c : FVCode) (hn : c.codewords.length ≤ 2 ^ 52) :
    |kraftD sum fp c - c.kraftParameter| ≤ (2 * c.codewords.length + 1) / 2 ^ 52 * c.kraftParameter + c.codewords.length * 2 ^ (-1073 : ℤ) := by
  obtain ⟨η, hη⟩ : ∃ η : ℝ, η = 2 ^ (-1074 : ℤ) := ⟨_, rfl⟩
  have hη0 : 0 ≤ η := by rw [hη]; positivity
  have e73 : (2 : ℝ) ^ (-1073 : ℤ) = 2 * η := by
    rw [hη, show (-1073 : ℤ) = 1 + -1074 by norm_num, zpow_add₀ (by norm_num)]; simp
  have hnear := hfp.near c.targetCardinality
  rw [← hη] at hnear
  rw [e73]
  have key : ∀ L : List Nat, |realSum (L.map fun l : Nat => fp c.targetCardinality l) - ((L.map fun l => (1 : ℚ) / (c.targetCardinality : ℚ) ^ l).sum : ℚ)| ≤
        (((L.map fun l => (1 : ℚ) / (c.targetCardinality : ℚ) ^ l).sum : ℚ) : ℝ) / 2 ^ 52 + L.length * η ∧
      absSum (L.map fun l : Nat => fp c.targetCardinality l) ≤ (((L.map fun l => (1 : ℚ) / (c.targetCardinality : ℚ) ^ l).sum : ℚ) : ℝ) * 2 + L.length * η := by
    intro L
    induction L with
    | nil => simp [realSum, absSum]
    | cons l L ih =>
      obtain ⟨h1, h2⟩ := ih
      obtain ⟨K, hK⟩ : ∃ K, K = (L.map fun l => (1 : ℚ) / (c.targetCardinality : ℚ) ^ l).sum := ⟨_, rfl⟩
      rw [← hK] at h1 h2
      have e1 : realSum ((l :: L).map fun l : Nat => fp c.targetCardinality l) = (fp c.targetCardinality l).val + realSum (L.map fun l : Nat => fp c.targetCardinality l) := by simp [realSum]
      have e2 : absSum ((l :: L).map fun l : Nat => fp c.targetCardinality l) = |(fp c.targetCardinality l).val| + absSum (L.map fun l : Nat => fp c.targetCardinality l) := by simp [absSum]
      have e3 : ((((l :: L).map fun l => (1 : ℚ) / (c.targetCardinality : ℚ) ^ l).sum : ℚ) : ℝ) = 1 / (c.targetCardinality : ℝ) ^ l + K := by
        rw [hK, List.map_cons, List.sum_cons]; push_cast; rfl
      rw [e1, e2, e3, List.length_cons]
      have hy : (0 : ℝ) ≤ 1 / (c.targetCardinality : ℝ) ^ l := by positivity
      have hn := hnear l
      obtain ⟨y, hy'⟩ : ∃ y : ℝ, y = 1 / (c.targetCardinality : ℝ) ^ l := ⟨_, rfl⟩
      rw [← hy'] at hn hy ⊢
      have hx := abs_le.mp hn
      have hx2 : |(fp c.targetCardinality l).val| ≤ y * 2 + η := by
        have : y / 2 ^ 52 ≤ y := div_le_self hy (by norm_num)
        exact abs_le.mpr ⟨by linarith [hx.1], by linarith [hx.2]⟩
      push_cast
      constructor
      · have h1' := abs_le.mp h1
        exact abs_le.mpr ⟨by linarith [hx.1, h1'.1], by linarith [hx.2, h1'.2]⟩
      · linarith
  obtain ⟨k1, k2⟩ := key (c.codewords.map List.length)
  have hs := (hsum ((c.codewords.map List.length).map fun l : Nat => fp c.targetCardinality l)).error
  change |kraftD sum fp c - _| ≤ _ at hs
  simp only [List.length_map] at hs k1 k2
  have hKdef : (((c.codewords.map List.length).map fun l => (1 : ℚ) / (c.targetCardinality : ℚ) ^ l).sum : ℚ) = c.kraftParameter := rfl
  rw [hKdef] at k1 k2
  have hg := growth c.codewords.length hn
  have hnR : (c.codewords.length : ℝ) ≤ 2 ^ 52 := by exact_mod_cast hn
  obtain ⟨n, hn'⟩ : ∃ n : ℝ, n = c.codewords.length := ⟨_, rfl⟩
  have hn0 : 0 ≤ n := by rw [hn']; positivity
  rw [← hn'] at k1 k2 hg hnR ⊢
  have hA : 0 ≤ absSum ((c.codewords.map List.length).map fun l : Nat => fp c.targetCardinality l) := by
    unfold absSum; exact List.sum_nonneg (by intro x hx; obtain ⟨y, -, rfl⟩ := List.mem_map.mp hx; exact abs_nonneg _)
  have h3 : |kraftD sum fp c - realSum ((c.codewords.map List.length).map fun l : Nat => fp c.targetCardinality l)| ≤ n / 2 ^ 52 * ((c.kraftParameter : ℝ) * 2 + n * η) :=
    hs.trans ((mul_le_mul_of_nonneg_right hg hA).trans (mul_le_mul_of_nonneg_left k2 (by positivity)))
  have h4 : n / 2 ^ 52 * (n * η) ≤ n * η := by
    have : n / 2 ^ 52 ≤ 1 := (div_le_one (by positivity)).mpr hnR
    nlinarith [mul_nonneg hn0 hη0]
  have h5 := abs_le.mp h3
  have h6 := abs_le.mp k1
  have e : n / 2 ^ 52 * ((c.kraftParameter : ℝ) * 2 + n * η) = 2 * n / 2 ^ 52 * c.kraftParameter + n / 2 ^ 52 * (n * η) := by ring
  have e' : (2 * n + 1) / 2 ^ 52 * (c.kraftParameter : ℝ) = 2 * n / 2 ^ 52 * c.kraftParameter + c.kraftParameter / 2 ^ 52 := by ring
  rw [e']
  rw [e] at h5
  exact abs_le.mpr ⟨by linarith [h5.1, h6.1], by linarith [h5.2, h6.2]⟩

/-- What a user may conclude from comparing the computed Kraft parameter with 1. -/
theorem C148_kraft_decides {sum : List Double → Double} (hsum : ∀ l, SumOf l (sum l)) {fp : Nat → Nat → Double} (hfp : FloatPowerAccurate fp) {calX k : Nat} {enc : List (Word × Word)} {c : FVCode}
    (hc : FVCode.create calX 2 k enc = some c) (hne : ∀ w ∈ c.codewords, w ≠ []) (hlen : ∀ w ∈ c.codewords, w.length ≤ 53) :
    (c.isUniquelyDecodable = some true → kraftD sum fp c ≤ 1) ∧
    (c.prefixFree = true → (kraftD sum fp c = 1 ↔ FullyCovering c.codewords 2)) := by
  obtain ⟨k1, k2⟩ := C100_kraft hc hne
  obtain ⟨hX, hY, -, -, -, hcc⟩ := FVCode.create_facts hc
  have hY' : c.targetCardinality = 2 := by rw [hcc]
  have hpf1 : c.prefixFree = true → c.kraftParameter ≤ 1 := by
    intro hp
    have hpf := (isPrefixFree_iff _).mp hp
    have hu := UniquelyParsable.of_prefixFree hpf hne
    obtain ⟨b, hb, hiff⟩ := C20_is_uniquely_parsable c.codewords hne
    refine k1 ?_
    rw [FVCode.isUniquelyDecodable, hb, hiff.mpr ⟨hpf.nodup hne, hu⟩]
  constructor
  · intro hu
    rw [C148_kraft_exact hsum hfp c hY' hlen (k1 hu)]
    exact_mod_cast k1 hu
  · intro hp
    rw [C148_kraft_exact hsum hfp c hY' hlen (hpf1 hp), ← k2 hp]
    constructor
    · intro h; exact_mod_cast h
    · intro h; rw [h]; simp

/-- Multiplying from the right, one factor at a time. -/
noncomputable def plainProd : List Double → Double
  | [] => 0
  | [x] => x
  | x :: y :: l => x * plainProd (y :: l)

theorem plainProd_prodOf : ∀ l, l ≠ [] → ProdOf l (plainProd l)
  | [], h => absurd rfl h
  | [x], _ => .one x
  | x :: y :: l, _ => .mul (.one x) (plainProd_prodOf (y :: l) (by simp))

/-- A correctly rounded power. -/
noncomputable def roundedPower (b l : Nat) : Double := ⟨rnd (1 / (b : ℝ) ^ l), rnd_isDouble _⟩

theorem roundedPower_accurate : FloatPowerAccurate roundedPower where
  exact b l h := rnd_of_isDouble h
  near b l := by
    have h0 : (0 : ℝ) ≤ 1 / (b : ℝ) ^ l := by positivity
    have := rnd_error (1 / (b : ℝ) ^ l)
    rw [abs_of_nonneg h0] at this
    refine this.trans ?_
    have h1 : 1 / (b : ℝ) ^ l / 2 ^ 53 ≤ 1 / (b : ℝ) ^ l / 2 ^ 52 := by
      refine div_le_div_of_nonneg_left h0 (by positivity) (by norm_num)
    have h2 : (2 : ℝ) ^ (-1075 : ℤ) ≤ 2 ^ (-1074 : ℤ) := zpow_le_zpow_right₀ (by norm_num) (by norm_num)
    linarith

/-! The hypotheses are met: a Huffman code for pairs, a Tunstall code, the pmf [3/4, 1/4]. -/

/-- The code 00→0, 01→10, 10→110, 11→111. -/
def pairCode : FVCode := ⟨2, 2, 2, [([0, 0], [0]), ([0, 1], [1, 0]), ([1, 0], [1, 1, 0]), ([1, 1], [1, 1, 1])]⟩

/-- The code 00→00, 01→01, 1→10. -/
def tripleCode : VFCode := ⟨2, 2, 2, [([0, 0], [0, 0]), ([0, 1], [0, 1]), ([1, 0], [1])]⟩

theorem pairCode_create : FVCode.create 2 2 2 [([0, 0], [0]), ([0, 1], [1, 0]), ([1, 0], [1, 1, 0]), ([1, 1], [1, 1, 1])] = some pairCode := by decide +kernel

theorem pairCode_codewords : pairCode.codewords = [[0], [1, 0], [1, 1, 0], [1, 1, 1]] := by decide +kernel

theorem tripleCode_sourcewords : tripleCode.sourcewords = [[0, 0], [0, 1], [1]] := by decide +kernel

theorem pmf_ok : ∀ x ∈ [threeQuartersD, quarterD], 0 ≤ x.val ∧ x.val ≤ 1 := by
  have v1 : threeQuartersD.val = 3 / 4 := rfl
  have v2 : quarterD.val = 1 / 4 := rfl
  intro x hx
  simp only [List.mem_cons, List.not_mem_nil, or_false] at hx
  rcases hx with rfl | rfl
  · rw [v1]; norm_num
  · rw [v2]; norm_num

example : (∃ (r : ℚ) (r' : ℝ), pairCode.rate ([threeQuartersD, quarterD].map Double.rat) = some r ∧ fvRateD plainProd fmaDot pairCode [threeQuartersD, quarterD] = some r' ∧ |r' - r| ≤ 9 / 2 ^ 52 * r + 1 / 2 ^ 98) ∧
    (∃ (r : ℚ) (r' : ℝ), tripleCode.rate ([threeQuartersD, quarterD].map Double.rat) = some r ∧ vfRateD plainProd fmaDot tripleCode [threeQuartersD, quarterD] = some r' ∧
      |r' - r| ≤ 8 / 2 ^ 50 * r + 2 ^ (-1075 : ℤ)) ∧
    kraftD plainSum roundedPower pairCode = 1 := by
  refine ⟨?_, ?_, ?_⟩
  · obtain ⟨r, r', h1, h2, h3⟩ := C148_fixed_to_variable_rate plainProd_prodOf fmaDot_dotOf pairCode [threeQuartersD, quarterD] pmf_ok (by decide) (by decide) (by decide +kernel)
      (by rw [pairCode_codewords]; intro w hw; simp only [List.mem_cons, List.not_mem_nil, or_false] at hw; rcases hw with rfl | rfl | rfl | rfl <;> norm_num) (by rw [pairCode_codewords]; rfl)
    refine ⟨r, r', h1, h2, h3.trans (le_of_eq ?_)⟩
    rw [pairCode_codewords, show pairCode.sourceBlockSize = 2 from rfl]
    norm_num
  · obtain ⟨r, r', h1, h2, h3⟩ := C148_variable_to_fixed_rate plainProd_prodOf fmaDot_dotOf tripleCode [threeQuartersD, quarterD] pmf_ok (by decide +kernel) (L := 2) (by norm_num)
      (by rw [tripleCode_sourcewords]; intro w hw; simp only [List.mem_cons, List.not_mem_nil, or_false] at hw; rcases hw with rfl | rfl | rfl <;> simp)
      (by
        have v1 : threeQuartersD.val = 3 / 4 := rfl
        have v2 : quarterD.val = 1 / 4 := rfl
        rw [tripleCode_sourcewords]
        simp [v1, v2]
        norm_num)
    refine ⟨r, r', h1, h2, h3.trans (le_of_eq ?_)⟩
    rw [tripleCode_sourcewords]
    norm_num
  · have h := (C148_kraft_decides plainSum_sumOf roundedPower_accurate pairCode_create (by decide +kernel) (by decide +kernel)).2 (by decide +kernel)
    rw [C148_kraft_exact plainSum_sumOf roundedPower_accurate pairCode rfl (by decide +kernel) (by decide +kernel)]
    have : pairCode.kraftParameter = 1 := by decide +kernel
    rw [this]; simp

end Komm
