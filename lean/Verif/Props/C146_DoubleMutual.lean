import Verif.Props.C145_DoubleChannels

/-! C146: `mutual_information` in double precision. -/
namespace Komm

/-- `Σ p log_b (1/p)`. -/
noncomputable def baseEntropy {m : Nat} (base : LogBase) (p : Fin m → ℝ) : ℝ := ∑ j, p j * Real.logb base.val (1 / p j)

theorem eta_bound {p L M : ℝ} (h0 : 0 ≤ p) (hM : 1 ≤ M) (hL : Real.log M = L) (h2 : p ≤ 2) : p * |Real.log (1 / p)| ≤ p * (L + 1) + 1 / M := by
  have hM0 : 0 < M := by linarith
  have hL0 : 0 ≤ L := hL ▸ Real.log_nonneg hM
  have hM1 : 0 < 1 / M := by positivity
  rcases eq_or_lt_of_le h0 with rfl | h0
  · rw [zero_mul, zero_mul]; linarith
  rw [one_div, Real.log_inv, abs_neg]
  rcases le_total p 1 with h | h
  · rw [abs_of_nonpos (Real.log_nonpos h0.le h)]
    have h1 := Real.log_le_sub_one_of_pos (inv_pos.mpr (mul_pos hM0 h0))
    rw [Real.log_inv, Real.log_mul hM0.ne' h0.ne', hL] at h1
    have h3 := mul_le_mul_of_nonneg_left h1 h0.le
    have h4 : p * ((M * p)⁻¹ - 1) = 1 / M - p := by field_simp
    rw [h4] at h3
    nlinarith
  · rw [abs_of_nonneg (Real.log_nonneg h)]
    have h1 := Real.log_le_sub_one_of_pos h0
    have h3 := mul_le_mul_of_nonneg_left h1 h0.le
    nlinarith [mul_nonneg h0.le hL0]

theorem logb_scale (base : LogBase) (x : ℝ) : |Real.logb base.val x| = |Real.log x| * logScale base := by
  rw [Real.logb, logScale, abs_div, mul_one_div]

section
variable {m : Nat}

theorem eta_total (p : Fin m → ℝ) (hm : 1 ≤ m) (h0 : ∀ j, 0 ≤ p j) (hW : ∑ j, p j ≤ 1 + 1 / 100) :
    ∑ j, p j * |Real.log (1 / p j)| ≤ 201 / 100 * (Real.log m + 1) ∧ ∀ j, p j ≤ 2 := by
  have hM : (1 : ℝ) ≤ m := by exact_mod_cast hm
  have hL : 0 ≤ Real.log m := Real.log_nonneg hM
  have h2 : ∀ j, p j ≤ 2 := fun j => by
    have := Finset.single_le_sum (f := p) (fun i _ => h0 i) (Finset.mem_univ j)
    linarith
  refine ⟨?_, h2⟩
  have h1 : ∑ j, p j * |Real.log (1 / p j)| ≤ ∑ j, (p j * (Real.log m + 1) + 1 / (m : ℝ)) := Finset.sum_le_sum fun j _ => eta_bound (h0 j) hM rfl (h2 j)
  rw [Finset.sum_add_distrib, ← Finset.sum_mul, Finset.sum_const, Finset.card_univ, Fintype.card_fin, nsmul_eq_mul, mul_one_div, div_self (by linarith : (m : ℝ) ≠ 0)] at h1
  have h3 := mul_le_mul_of_nonneg_right hW (by linarith : 0 ≤ Real.log m + 1)
  linarith

/-- `entropy` of an array that sums to about 1. -/
theorem entropy_fin {F : InfoLibm} (hF : F.Accurate) {dot : List (ℝ × ℝ) → Double} (hdot : ∀ l, DotOf l (dot l)) (base : LogBase) (hb0 : 0 < base.val) (hb1 : base.val ≠ 1)
    (p : Fin m → Double) (hm : 1 ≤ m) (hm2 : m ≤ 2 ^ 20) (hp : ∀ j, (p j).val = 0 ∨ 1 / 2 ^ 1000 ≤ (p j).val) (hW : ∑ j, (p j).val ≤ 1 + 1 / 100) :
    (∃ v : ℝ, entropyD F dot (List.ofFn p) base = (v : EReal) ∧
      |v - baseEntropy base fun j => (p j).val| ≤ 4 * (m + 16) * (logScale base * (Real.log m + 1) + 1) / 2 ^ 50) ∧
    |baseEntropy base fun j => (p j).val| ≤ 201 / 100 * (logScale base * (Real.log m + 1) + 1) := by
  have h0 : ∀ j, 0 ≤ (p j).val := fun j => by
    rcases hp j with h | h
    · rw [h]
    · exact le_trans (by positivity) h
  obtain ⟨hS, h2⟩ := eta_total (fun j => (p j).val) hm h0 hW
  have hk : 0 ≤ logScale base := by unfold logScale; positivity
  have hM : (1 : ℝ) ≤ m := by exact_mod_cast hm
  have hL : 0 ≤ Real.log m := Real.log_nonneg hM
  obtain ⟨v, hv, he⟩ := C143_entropy hF hdot base hb0 hb1 (List.ofFn p) (by rw [List.length_ofFn]; exact hm2.trans (by norm_num)) (by
    intro x hx
    obtain ⟨j, rfl⟩ := List.mem_ofFn' _ _ |>.mp hx
    rcases hp j with h | h
    · exact Or.inl h
    · exact Or.inr ⟨h, h2 j⟩)
  rw [List.map_ofFn, List.map_ofFn, List.map_ofFn, List.sum_ofFn, List.sum_ofFn, List.sum_ofFn, List.length_ofFn] at he
  simp only [Function.comp_def] at he
  have hS' : ∑ j, (p j).val * |Real.logb base.val (1 / (p j).val)| ≤ 201 / 100 * (Real.log m + 1) * logScale base := by
    simp only [logb_scale, ← mul_assoc]
    rw [← Finset.sum_mul]
    exact mul_le_mul_of_nonneg_right hS hk
  have hkL : 0 ≤ logScale base * Real.log m := mul_nonneg hk hL
  refine ⟨⟨v, hv, he.trans ?_⟩, ?_⟩
  · unfold infoError
    apply div_le_div_of_nonneg_right _ (by positivity)
    rw [show (4 : ℝ) * (m + 16) * (logScale base * (Real.log m + 1) + 1) = (m + 16) * (4 * (logScale base * (Real.log m + 1) + 1)) by ring]
    apply mul_le_mul_of_nonneg_left _ (by linarith)
    have hW' := mul_le_mul_of_nonneg_left hW (by linarith : 0 ≤ logScale base + 1)
    nlinarith
  · refine (Finset.abs_sum_le_sum_abs _ _).trans ?_
    simp only [abs_mul]
    have : ∑ j, |(p j).val| * |Real.logb base.val (1 / (p j).val)| = ∑ j, (p j).val * |Real.logb base.val (1 / (p j).val)| :=
      Finset.sum_congr rfl fun j _ => by rw [abs_of_nonneg (h0 j)]
    rw [this]
    nlinarith

/-- A relative perturbation of the probabilities. -/
theorem entropy_perturb (base : LogBase) (q q' : Fin m → ℝ) {δ : ℝ} (hδ0 : 0 ≤ δ) (hδ : δ ≤ 1 / 4) (h0 : ∀ j, 0 ≤ q j) (h : ∀ j, |q' j - q j| ≤ δ * q j) :
    |baseEntropy base q' - baseEntropy base q| ≤ δ * logScale base * (∑ j, q j * |Real.log (1 / q j)| + 4 * ∑ j, q j) := by
  have hk : 0 ≤ logScale base := by unfold logScale; positivity
  unfold baseEntropy
  rw [← Finset.sum_sub_distrib]
  refine (Finset.abs_sum_le_sum_abs _ _).trans ?_
  rw [Finset.mul_sum, ← Finset.sum_add_distrib, Finset.mul_sum]
  apply Finset.sum_le_sum
  intro j _
  rcases eq_or_lt_of_le (h0 j) with hz | hz
  · have := h j
    rw [← hz, mul_zero, sub_zero] at this
    rw [← hz, abs_nonpos_iff.mp this]
    simp
  obtain ⟨a1, a2⟩ := abs_le.mp (h j)
  have hq' : 0 < q' j := by nlinarith
  have e : ∀ x : ℝ, Real.logb base.val (1 / x) = -(Real.log x) / Real.log base.val := fun x => by rw [Real.logb, one_div, Real.log_inv]
  rw [e, e, one_div, Real.log_inv, abs_neg, show q' j * (-Real.log (q' j) / Real.log base.val) - q j * (-Real.log (q j) / Real.log base.val) =
    -(q' j * Real.log (q' j) - q j * Real.log (q j)) / Real.log base.val by ring, abs_div, abs_neg, div_eq_mul_one_div, show 1 / |Real.log base.val| = logScale base from rfl]
  rw [show δ * logScale base * (q j * |Real.log (q j)| + 4 * q j) = (δ * q j * |Real.log (q j)| + 4 * δ * q j) * logScale base by ring]
  apply mul_le_mul_of_nonneg_right _ hk
  -- the logarithms
  have l1 := Real.log_le_sub_one_of_pos (div_pos hq' hz)
  have l2 := Real.log_le_sub_one_of_pos (div_pos hz hq')
  rw [Real.log_div hq'.ne' hz.ne'] at l1
  rw [Real.log_div hz.ne' hq'.ne'] at l2
  have f1 : q' j / q j - 1 ≤ 2 * δ := by rw [sub_le_iff_le_add, div_le_iff₀ hz]; nlinarith
  have f2 : q j / q' j - 1 ≤ 2 * δ := by rw [sub_le_iff_le_add, div_le_iff₀ hq']; nlinarith
  have hl : |Real.log (q' j) - Real.log (q j)| ≤ 2 * δ := by rw [abs_le]; constructor <;> linarith
  rw [show q' j * Real.log (q' j) - q j * Real.log (q j) = (q' j - q j) * Real.log (q j) + q' j * (Real.log (q' j) - Real.log (q j)) by ring]
  refine (abs_add_le _ _).trans ?_
  rw [abs_mul, abs_mul, abs_of_pos hq']
  have b1 := mul_le_mul_of_nonneg_right (h j) (abs_nonneg (Real.log (q j)))
  have b2 := mul_le_mul_of_nonneg_left hl hq'.le
  have b3 : q' j * (2 * δ) ≤ 2 * q j * (2 * δ) := mul_le_mul_of_nonneg_right (by nlinarith) (by linarith)
  linarith

/-- `np.isclose(sum, 1.0)` for sums close to 1. -/
theorem valid_of_near {sum : List Double → Double} (hsum : ∀ l, SumOf l (sum l)) (p : Fin m → Double) (hm : m ≤ 2 ^ 20) (h0 : ∀ j, 0 ≤ (p j).val) (hW : |∑ j, (p j).val - 1| ≤ 1 / 2 ^ 18) :
    validPmfD sum (List.ofFn p) := by
  refine ⟨fun x hx => ?_, ?_⟩
  · obtain ⟨j, rfl⟩ := List.mem_ofFn' _ _ |>.mp hx
    exact h0 j
  have he := (hsum (List.ofFn p)).error
  rw [List.length_ofFn] at he
  have e1 : realSum (List.ofFn p) = ∑ j, (p j).val := by rw [realSum, List.map_ofFn, List.sum_ofFn]; rfl
  have e2 : absSum (List.ofFn p) = ∑ j, (p j).val := by
    rw [absSum, List.map_ofFn, List.sum_ofFn]
    exact Finset.sum_congr rfl fun j _ => abs_of_nonneg (h0 j)
  rw [e1, e2] at he
  have hg := growth m (hm.trans (by norm_num))
  have hm' : (m : ℝ) ≤ 2 ^ 20 := by exact_mod_cast hm
  generalize (1 + 1 / 2 ^ 53 : ℝ) ^ m = G at *
  generalize (∑ j, (p j).val) = W at *
  generalize (sum (List.ofFn p)).val = s at *
  obtain ⟨w1, w2⟩ := abs_le.mp hW
  have hs : |s - 1| ≤ 1 / 2 ^ 17 - 1 / 2 ^ 20 := by
    have t := abs_sub_le s W 1
    have hg2 : G - 1 ≤ 1 / 2 ^ 32 := by linarith
    have hW2 : W ≤ 2 := by linarith
    have hW0 : 0 ≤ W := by linarith
    have := mul_le_mul_of_nonneg_right hg2 hW0
    have h32 : (1 : ℝ) / 2 ^ 32 * W ≤ 1 / 2 ^ 32 * 2 := mul_le_mul_of_nonneg_left hW2 (by positivity)
    linarith
  have hd : IsDouble (1 / 2 ^ 17 : ℝ) := ⟨1, -17, by norm_num, by norm_num, by norm_num⟩
  have r1 : |rnd (s - 1)| ≤ 1 / 2 ^ 17 := by
    obtain ⟨s1, s2⟩ := abs_le.mp hs
    have hdn : IsDouble (-(1 / 2 ^ 17) : ℝ) := ⟨-1, -17, by norm_num, by norm_num, by norm_num⟩
    rw [abs_le]
    constructor
    · have := rnd_mono (by linarith : -(1 / 2 ^ 17) ≤ s - 1)
      rwa [rnd_of_isDouble hdn] at this
    · have := rnd_mono (by linarith : s - 1 ≤ 1 / 2 ^ 17)
      rwa [rnd_of_isDouble hd] at this
  refine r1.trans ?_
  have a1 : (1 : ℝ) / 2 ^ 17 ≤ rnd (1 / 10 ^ 5) := by
    have := rnd_mono (by norm_num : (1 : ℝ) / 2 ^ 17 ≤ 1 / 10 ^ 5)
    rwa [rnd_of_isDouble hd] at this
  have a2 : (0 : ℝ) ≤ rnd (1 / 10 ^ 8) := rnd_nonneg (by norm_num)
  rw [mul_one, rnd_of_isDouble (rnd_isDouble (1 / 10 ^ 5))]
  have := rnd_mono (by linarith : (1 : ℝ) / 2 ^ 17 ≤ rnd (1 / 10 ^ 8) + rnd (1 / 10 ^ 5))
  rwa [rnd_of_isDouble hd] at this

/-- An entry of the product `np.dot(input_pmf, transition_matrix)`. -/
theorem output_near {n : Nat} {v : Double} (r c : Fin n → Double) (hv : DotOf (List.ofFn fun i : Fin n => ((r i).val, (c i).val)) v) (hn : n ≤ 2 ^ 20)
    (hr : ∀ i, (r i).val = 0 ∨ 1 / 2 ^ 490 ≤ (r i).val) (hc : ∀ i, (c i).val = 0 ∨ 1 / 2 ^ 490 ≤ (c i).val) :
    (∑ i, (r i).val * (c i).val = 0 ∨ 1 / 2 ^ 980 ≤ ∑ i, (r i).val * (c i).val) ∧ |v.val - ∑ i, (r i).val * (c i).val| ≤ n / 2 ^ 51 * ∑ i, (r i).val * (c i).val := by
  have hr0 : ∀ i, 0 ≤ (r i).val := fun i => by rcases hr i with h | h <;> [rw [h]; exact le_trans (by positivity) h]
  have hc0 : ∀ i, 0 ≤ (c i).val := fun i => by rcases hc i with h | h <;> [rw [h]; exact le_trans (by positivity) h]
  have hq : ∑ i, (r i).val * (c i).val = 0 ∨ 1 / 2 ^ 980 ≤ ∑ i, (r i).val * (c i).val := by
    by_cases hz : ∀ i, (r i).val * (c i).val = 0
    · exact Or.inl (Finset.sum_eq_zero fun i _ => hz i)
    · right
      push Not at hz
      obtain ⟨i, hi⟩ := hz
      have h1 : 1 / 2 ^ 490 ≤ (r i).val := (hr i).resolve_left fun h => hi (by rw [h, zero_mul])
      have h2 : 1 / 2 ^ 490 ≤ (c i).val := (hc i).resolve_left fun h => hi (by rw [h, mul_zero])
      refine le_trans ?_ (Finset.single_le_sum (f := fun i => (r i).val * (c i).val) (fun i _ => mul_nonneg (hr0 i) (hc0 i)) (Finset.mem_univ i))
      have h3 := mul_le_mul h1 h2 (by positivity) (hr0 i)
      refine le_trans (le_of_eq ?_) h3
      rw [div_mul_div_comm, ← pow_add, one_mul]
  refine ⟨hq, ?_⟩
  have he := hv.error
  have e1 : pairSum (List.ofFn fun i : Fin n => ((r i).val, (c i).val)) = ∑ i, (r i).val * (c i).val := by rw [pairSum, List.map_ofFn, List.sum_ofFn]; rfl
  have e2 : pairAbs (List.ofFn fun i : Fin n => ((r i).val, (c i).val)) = ∑ i, (r i).val * (c i).val := by
    rw [pairAbs, List.map_ofFn, List.sum_ofFn]
    exact Finset.sum_congr rfl fun i _ => abs_of_nonneg (mul_nonneg (hr0 i) (hc0 i))
  rw [e1, e2, List.length_ofFn] at he
  rcases hq with hq | hq
  · -- all products are zero: the sum is exact
    rw [hq]
    have hall : ∀ i, (r i).val * (c i).val = 0 := fun i =>
      (Finset.sum_eq_zero_iff_of_nonneg fun i _ => mul_nonneg (hr0 i) (hc0 i)).mp hq i (Finset.mem_univ i)
    have key : ∀ {l : List (ℝ × ℝ)} {v : Double}, DotOf l v → (∀ x ∈ l, x.1 * x.2 = 0) → v.val = 0 := by
      intro l v h
      induction h with
      | nil => intro _; rfl
      | fma x y _ ih =>
        intro h
        change rnd _ = 0
        rw [ih fun z hz => h z (by simp [hz]), h (x, y) (by simp), zero_add, rnd_zero]
      | add _ _ ih1 ih2 =>
        intro h
        change rnd _ = 0
        rw [ih1 fun z hz => h z (by simp [hz]), ih2 fun z hz => h z (by simp [hz]), zero_add, rnd_zero]
      | perm hp _ ih => exact fun h => ih fun z hz => h z (hp.mem_iff.mp hz)
    rw [key hv (by
      intro x hx
      obtain ⟨i, rfl⟩ := List.mem_ofFn' _ _ |>.mp hx
      exact hall i)]
    simp
  · refine he.trans ?_
    have hg := growth n (hn.trans (by norm_num))
    have hn' : (n : ℝ) ≤ 2 ^ 20 := by exact_mod_cast hn
    have hn0 : (0 : ℝ) ≤ n := Nat.cast_nonneg n
    have ht : (2 : ℝ) ^ (-1075 : ℤ) ≤ 1 / 2 ^ 60 * (1 / 2 ^ 980) := by
      rw [div_mul_div_comm, ← pow_add, one_mul, one_div, ← zpow_natCast, ← zpow_neg]
      exact zpow_le_zpow_right₀ (by norm_num) (by norm_num)
    have ht2 : (2 : ℝ) ^ (-1075 : ℤ) ≤ 1 / 2 ^ 60 * ∑ i, (r i).val * (c i).val := ht.trans (mul_le_mul_of_nonneg_left hq (by positivity))
    have hQ0 : 0 ≤ ∑ i, (r i).val * (c i).val := Finset.sum_nonneg fun i _ => mul_nonneg (hr0 i) (hc0 i)
    have ht0 : (0 : ℝ) ≤ 2 ^ (-1075 : ℤ) := by positivity
    clear ht hq
    generalize (2 : ℝ) ^ (-1075 : ℤ) = t at *
    generalize (∑ i, (r i).val * (c i).val) = Q at *
    generalize (1 + 1 / 2 ^ 53 : ℝ) ^ n = G at *
    have hG : G ≤ 2 := by linarith
    have k1 := mul_le_mul_of_nonneg_right hg hQ0
    have k2 : n * G * t ≤ n * 2 * (1 / 2 ^ 60 * Q) := mul_le_mul (mul_le_mul_of_nonneg_left hG hn0) ht2 ht0 (by positivity)
    have k3 : 0 ≤ n * Q := mul_nonneg hn0 hQ0
    have k4 : (n : ℝ) / 2 ^ 52 * Q = n * Q / 2 ^ 52 := by ring
    have k5 : (n : ℝ) / 2 ^ 51 * Q = n * Q / 2 ^ 51 := by ring
    have k6 : (n : ℝ) * 2 * (1 / 2 ^ 60 * Q) = n * Q * 2 / 2 ^ 60 := by ring
    rw [k4] at k1
    rw [k6] at k2
    rw [k5]
    generalize (n : ℝ) * Q = X at *
    linarith

end

/-- The mutual information of the numbers `r`, `P`, with no rounding. -/
noncomputable def exactInformation {n m : Nat} (r : Fin n → ℝ) (P : Fin n → Fin m → ℝ) (base : LogBase) : ℝ :=
  ∑ i, ∑ j, r i * P i j * Real.logb base.val (P i j / ∑ k, r k * P k j)

theorem exactInformation_eq {n m : Nat} (r : Fin n → ℝ) (P : Fin n → Fin m → ℝ) (base : LogBase) (hr : ∀ i, 0 ≤ r i) (hP : ∀ i j, 0 ≤ P i j) :
    exactInformation r P base = baseEntropy base (fun j => ∑ k, r k * P k j) - ∑ i, r i * baseEntropy base (P i) := by
  have h : ∀ i j, r i * P i j * Real.logb base.val (P i j / ∑ k, r k * P k j) = r i * P i j * Real.logb base.val (1 / ∑ k, r k * P k j) - r i * (P i j * Real.logb base.val (1 / P i j)) := by
    intro i j
    by_cases hz : r i * P i j = 0
    · rw [hz, ← mul_assoc, hz]; ring
    · have h1 : 0 < P i j := lt_of_le_of_ne (hP i j) fun h => hz (by rw [← h, mul_zero])
      have h2 : 0 < ∑ k, r k * P k j := lt_of_lt_of_le (lt_of_le_of_ne (mul_nonneg (hr i) (hP i j)) (Ne.symm hz))
        (Finset.single_le_sum (f := fun k => r k * P k j) (fun k _ => mul_nonneg (hr k) (hP k j)) (Finset.mem_univ i))
      rw [Real.logb_div h1.ne' h2.ne', one_div, one_div, Real.logb_inv, Real.logb_inv]
      ring
  unfold exactInformation baseEntropy
  simp only [h, Finset.sum_sub_distrib]
  congr 1
  · rw [Finset.sum_comm]
    exact Finset.sum_congr rfl fun j _ => by rw [Finset.sum_mul]
  · exact Finset.sum_congr rfl fun i _ => by rw [Finset.mul_sum]

/-- `mutual_information` in double precision: for probabilities that are zero or at least `2⁻⁴⁹⁰` and sum to 1 within `2⁻²⁰` it does not raise, and the result is the mutual information of the given
numbers up to `10 (n + m + 16) (log_b(m) + 1/|log b| + 1) 2⁻⁵⁰`. -/
theorem C146_mutual_information {n m : Nat} {F : InfoLibm} (hF : F.Accurate) {dot : List (ℝ × ℝ) → Double} (hdot : ∀ l, DotOf l (dot l)) {gemv : Fin m → List (ℝ × ℝ) → Double}
    (hgemv : ∀ j l, DotOf l (gemv j l)) {sum : List Double → Double} (hsum : ∀ l, SumOf l (sum l)) (base : LogBase) (hb : validLogBase base = true)
    (r : Fin n → Double) (P : Fin n → Fin m → Double) (hn : n ≤ 2 ^ 20) (hm : m ≤ 2 ^ 20)
    (hr : ∀ i, (r i).val = 0 ∨ 1 / 2 ^ 490 ≤ (r i).val) (hP : ∀ i j, (P i j).val = 0 ∨ 1 / 2 ^ 490 ≤ (P i j).val)
    (hrs : |∑ i, (r i).val - 1| ≤ 1 / 2 ^ 20) (hPs : ∀ i, |∑ j, (P i j).val - 1| ≤ 1 / 2 ^ 20) :
    ∃ v : ℝ, mutualInformationD F dot gemv sum r P base = some v ∧
      |v - exactInformation (fun i => (r i).val) (fun i j => (P i j).val) base| ≤ 10 * (n + m + 16) * (logScale base * (Real.log m + 1) + 1) / 2 ^ 50 := by
  have hb0 := (base_facts hb).1
  have hb1 : base.val ≠ 1 := fun h => (base_facts hb).2 (by rw [h]; simp)
  have hr0 : ∀ i, 0 ≤ (r i).val := fun i => by rcases hr i with h | h <;> [rw [h]; exact le_trans (by positivity) h]
  have hP0 : ∀ i j, 0 ≤ (P i j).val := fun i j => by rcases hP i j with h | h <;> [rw [h]; exact le_trans (by positivity) h]
  have hrb := abs_le.mp hrs
  -- the alphabets are not empty
  have hn1 : 1 ≤ n := by
    rcases Nat.eq_zero_or_pos n with rfl | h
    · exfalso; have := hrb.1; simp at this; linarith
    · exact h
  have hm1 : 1 ≤ m := by
    rcases Nat.eq_zero_or_pos m with rfl | h
    · exfalso; have := (abs_le.mp (hPs ⟨0, hn1⟩)).1; simp at this; linarith
    · exact h
  have p490 : (1 : ℝ) / 2 ^ 1000 ≤ 1 / 2 ^ 490 := one_div_le_one_div_of_le (by positivity) (pow_le_pow_right₀ (by norm_num) (by norm_num))
  -- the output
  set q : Fin m → ℝ := fun j => ∑ i, (r i).val * (P i j).val with hq
  set q' : Fin m → Double := fun j => gemv j (List.ofFn fun i : Fin n => ((r i).val, (P i j).val)) with hq'
  have hout : ∀ j, (q j = 0 ∨ 1 / 2 ^ 980 ≤ q j) ∧ |(q' j).val - q j| ≤ n / 2 ^ 51 * q j := fun j =>
    output_near r (fun i => P i j) (hgemv j _) hn hr (fun i => hP i j)
  have hq0 : ∀ j, 0 ≤ q j := fun j => Finset.sum_nonneg fun i _ => mul_nonneg (hr0 i) (hP0 i j)
  have hnR : (n : ℝ) ≤ 2 ^ 20 := by exact_mod_cast hn
  have hnR1 : (1 : ℝ) ≤ n := by exact_mod_cast hn1
  have hmR1 : (1 : ℝ) ≤ m := by exact_mod_cast hm1
  have hδ : (n : ℝ) / 2 ^ 51 ≤ 1 / 2 ^ 31 := by rw [div_le_div_iff₀ (by positivity) (by positivity)]; linarith
  have hδ0 : (0 : ℝ) ≤ n / 2 ^ 51 := by positivity
  have hqs : |∑ j, q j - 1| ≤ 1 / 2 ^ 19 + 1 / 2 ^ 40 := by
    have e : ∑ j, q j = ∑ i, (r i).val * ∑ j, (P i j).val := by
      rw [hq, Finset.sum_comm]
      exact Finset.sum_congr rfl fun i _ => by rw [Finset.mul_sum]
    have e2 : ∑ j, q j - 1 = ∑ i, (r i).val * (∑ j, (P i j).val - 1) + (∑ i, (r i).val - 1) := by
      rw [e]
      simp only [mul_sub, mul_one, Finset.sum_sub_distrib]
      ring
    rw [e2]
    refine (abs_add_le _ _).trans ?_
    have h1 : |∑ i, (r i).val * (∑ j, (P i j).val - 1)| ≤ ∑ i, (r i).val * (1 / 2 ^ 20) := by
      refine (Finset.abs_sum_le_sum_abs _ _).trans (Finset.sum_le_sum fun i _ => ?_)
      rw [abs_mul, abs_of_nonneg (hr0 i)]
      exact mul_le_mul_of_nonneg_left (hPs i) (hr0 i)
    rw [← Finset.sum_mul] at h1
    have h2 : (∑ i, (r i).val) * (1 / 2 ^ 20) ≤ (1 + 1 / 2 ^ 20) * (1 / 2 ^ 20) := mul_le_mul_of_nonneg_right (by linarith [hrb.2]) (by positivity)
    linarith
  have hqb := abs_le.mp hqs
  have hq's : |∑ j, (q' j).val - ∑ j, q j| ≤ 1 / 2 ^ 30 := by
    rw [← Finset.sum_sub_distrib]
    refine (Finset.abs_sum_le_sum_abs _ _).trans ((Finset.sum_le_sum fun j _ => (hout j).2).trans ?_)
    rw [← Finset.mul_sum]
    have h2 : (∑ j, q j) ≤ 2 := by linarith [hqb.2]
    have := mul_le_mul hδ h2 (Finset.sum_nonneg fun j _ => hq0 j) (by positivity)
    linarith
  have hq's1 : |∑ j, (q' j).val - 1| ≤ 1 / 2 ^ 18 := by
    have := abs_sub_le (∑ j, (q' j).val) (∑ j, q j) 1
    linarith
  have hq'z : ∀ j, (q' j).val = 0 ∨ 1 / 2 ^ 1000 ≤ (q' j).val := by
    intro j
    obtain ⟨h1, h2⟩ := hout j
    rcases h1 with h | h
    · left
      rw [h, sub_zero, mul_zero] at h2
      exact abs_nonpos_iff.mp h2
    · right
      have e : (1 : ℝ) / 2 ^ 1000 ≤ 1 / 2 * (1 / 2 ^ 980) := by
        rw [div_mul_div_comm, one_mul, ← pow_succ']
        exact one_div_le_one_div_of_le (by positivity) (pow_le_pow_right₀ (by norm_num) (by norm_num))
      refine e.trans ((mul_le_mul_of_nonneg_left h (by norm_num)).trans ?_)
      have h3 := (abs_le.mp h2).1
      have h4 : (n : ℝ) / 2 ^ 51 * q j ≤ 1 / 2 * q j := mul_le_mul_of_nonneg_right (hδ.trans (by norm_num)) (hq0 j)
      linarith
  have hq'0 : ∀ j, 0 ≤ (q' j).val := fun j => by rcases hq'z j with h | h <;> [rw [h]; exact le_trans (by positivity) h]
  -- the entropies
  obtain ⟨⟨v, hv, hve⟩, hvb⟩ := entropy_fin hF hdot base hb0 hb1 q' hm1 hm hq'z (by linarith [(abs_le.mp hq's1).2])
  have hrow : ∀ i, (∃ v : ℝ, entropyD F dot (List.ofFn (P i)) base = (v : EReal) ∧
      |v - baseEntropy base fun j => (P i j).val| ≤ 4 * (m + 16) * (logScale base * (Real.log m + 1) + 1) / 2 ^ 50) ∧
      |baseEntropy base fun j => (P i j).val| ≤ 201 / 100 * (logScale base * (Real.log m + 1) + 1) := fun i =>
    entropy_fin hF hdot base hb0 hb1 (P i) hm1 hm (fun j => by rcases hP i j with h | h <;> [exact Or.inl h; exact Or.inr (p490.trans h)]) (by linarith [(abs_le.mp (hPs i)).2])
  choose w hw using fun i => (hrow i).1
  have hk : 0 ≤ logScale base := by unfold logScale; positivity
  have hL : 0 ≤ Real.log m := Real.log_nonneg hmR1
  -- it does not raise
  have hdef : mutualInformationD F dot gemv sum r P base = some (rnd (v - (dot (List.ofFn fun i : Fin n => ((r i).val, w i))).val)) := by
    unfold mutualInformationD
    dsimp only
    rw [if_pos ⟨valid_of_near hsum r hn hr0 (hrs.trans (by norm_num)), fun i => valid_of_near hsum (P i) hm (hP0 i) ((hPs i).trans (by norm_num)), valid_of_near hsum q' hm hq'0 hq's1⟩,
      if_pos]
    · rw [show (List.ofFn fun j : Fin m => gemv j (List.ofFn fun i : Fin n => ((r i).val, (P i j).val))) = List.ofFn q' from rfl, hv]
      simp only [(hw _).1, EReal.toReal_coe]
    · rw [hv]
      refine ⟨⟨EReal.coe_ne_top _, EReal.coe_ne_bot _⟩, fun i => ?_⟩
      rw [(hw i).1]
      exact ⟨EReal.coe_ne_top _, EReal.coe_ne_bot _⟩
  refine ⟨_, hdef, ?_⟩
  rw [exactInformation_eq _ _ _ hr0 hP0]
  change |_ - (baseEntropy base q - ∑ i, (r i).val * baseEntropy base fun j => (P i j).val)| ≤ _
  -- the output entropy
  have hpert := entropy_perturb base q (fun j => (q' j).val) hδ0 (hδ.trans (by norm_num)) hq0 (fun j => (hout j).2)
  have hS := (eta_total q hm1 hq0 (by linarith [hqb.2])).1
  have hB : 1 ≤ logScale base * (Real.log m + 1) + 1 := by have := mul_nonneg hk (by linarith : 0 ≤ Real.log m + 1); linarith
  have hkB : logScale base ≤ logScale base * (Real.log m + 1) + 1 := by have := mul_nonneg hk hL; linarith
  have hpert2 : |baseEntropy base (fun j => (q' j).val) - baseEntropy base q| ≤ 7 * n * (logScale base * (Real.log m + 1) + 1) / 2 ^ 51 := by
    refine hpert.trans ?_
    have h1 : logScale base * (∑ j, q j * |Real.log (1 / q j)| + 4 * ∑ j, q j) ≤ 7 * (logScale base * (Real.log m + 1) + 1) := by
      have h2 : ∑ j, q j * |Real.log (1 / q j)| + 4 * ∑ j, q j ≤ 7 * (Real.log m + 1) := by linarith [hqb.2]
      have := mul_le_mul_of_nonneg_left h2 hk
      linarith
    have h2 := mul_le_mul_of_nonneg_left h1 hδ0
    rw [mul_assoc]
    refine h2.trans (le_of_eq (by ring))
  -- the conditional entropy
  have hdoterr := (hdot (List.ofFn fun i : Fin n => ((r i).val, w i))).error_le (by rw [List.length_ofFn]; exact hn.trans (by norm_num))
  rw [List.length_ofFn] at hdoterr
  have e1 : pairSum (List.ofFn fun i : Fin n => ((r i).val, w i)) = ∑ i, (r i).val * w i := by rw [pairSum, List.map_ofFn, List.sum_ofFn]; rfl
  have e2 : pairAbs (List.ofFn fun i : Fin n => ((r i).val, w i)) = ∑ i, (r i).val * |w i| := by
    rw [pairAbs, List.map_ofFn, List.sum_ofFn]
    exact Finset.sum_congr rfl fun i _ => by
      change |(r i).val * w i| = _
      rw [abs_mul, abs_of_nonneg (hr0 i)]
  rw [e1, e2] at hdoterr
  have hmR : (m : ℝ) ≤ 2 ^ 20 := by exact_mod_cast hm
  have hrs2 : ∑ i, (r i).val ≤ 1 + 1 / 100 := by linarith [hrb.2]
  have hrs0 : 0 ≤ ∑ i, (r i).val := Finset.sum_nonneg fun i _ => hr0 i
  set B := logScale base * (Real.log m + 1) + 1 with hBdef
  have hmB : 4 * ((m : ℝ) + 16) * B / 2 ^ 50 ≤ 1 / 100 * B := by
    rw [div_le_iff₀ (by positivity)]
    have : 4 * ((m : ℝ) + 16) ≤ 1 / 100 * 2 ^ 50 := by linarith
    have := mul_le_mul_of_nonneg_right this (by linarith : 0 ≤ B)
    linarith
  have hwb : ∀ i, |w i| ≤ 203 / 100 * B := fun i => by
    have := abs_sub_abs_le_abs_sub (w i) (baseEntropy base fun j => (P i j).val)
    linarith [(hw i).2, (hrow i).2]
  have hA : ∑ i, (r i).val * |w i| ≤ 206 / 100 * B := by
    have h1 : ∑ i, (r i).val * |w i| ≤ ∑ i, (r i).val * (203 / 100 * B) := Finset.sum_le_sum fun i _ => mul_le_mul_of_nonneg_left (hwb i) (hr0 i)
    rw [← Finset.sum_mul] at h1
    have h2 := mul_le_mul_of_nonneg_right hrs2 (by linarith : 0 ≤ 203 / 100 * B)
    linarith
  have hcond : |∑ i, (r i).val * w i - ∑ i, (r i).val * baseEntropy base fun j => (P i j).val| ≤ 101 / 100 * (4 * ((m : ℝ) + 16) * B / 2 ^ 50) := by
    rw [← Finset.sum_sub_distrib]
    have h1 : |∑ i, ((r i).val * w i - (r i).val * baseEntropy base fun j => (P i j).val)| ≤ ∑ i, (r i).val * (4 * ((m : ℝ) + 16) * B / 2 ^ 50) := by
      refine (Finset.abs_sum_le_sum_abs _ _).trans (Finset.sum_le_sum fun i _ => ?_)
      rw [← mul_sub, abs_mul, abs_of_nonneg (hr0 i)]
      exact mul_le_mul_of_nonneg_left (hw i).2 (hr0 i)
    rw [← Finset.sum_mul] at h1
    have h2 := mul_le_mul_of_nonneg_right hrs2 (by positivity : 0 ≤ 4 * ((m : ℝ) + 16) * B / 2 ^ 50)
    linarith
  have hdot2 : |(dot (List.ofFn fun i : Fin n => ((r i).val, w i))).val - ∑ i, (r i).val * w i| ≤ 206 / 100 * (n * B) / 2 ^ 52 + 1 / 2 ^ 100 := by
    have h1 := mul_le_mul_of_nonneg_left hA (by positivity : (0 : ℝ) ≤ n / 2 ^ 52)
    have h2 : (n : ℝ) / 2 ^ 52 * (206 / 100 * B) = 206 / 100 * (n * B) / 2 ^ 52 := by ring
    linarith
  have hcondb : |∑ i, (r i).val * w i| ≤ 206 / 100 * B := by
    refine (Finset.abs_sum_le_sum_abs _ _).trans (le_trans (le_of_eq ?_) hA)
    exact Finset.sum_congr rfl fun i _ => by rw [abs_mul, abs_of_nonneg (hr0 i)]
  clear hdoterr hA hwb hw hrow hdef hv hpert hS hq'z hout e1 e2 p490
  generalize (dot (List.ofFn fun i : Fin n => ((r i).val, w i))).val = D at *
  generalize (∑ i, (r i).val * w i) = C at *
  generalize (∑ i, (r i).val * baseEntropy base fun j => (P i j).val) = C' at *
  generalize baseEntropy base (fun j => (q' j).val) = H' at *
  generalize baseEntropy base q = H at *
  clear_value B
  have nB : 1 ≤ n * B := by nlinarith
  have mB : 1 ≤ m * B := by nlinarith
  have nB2 : n * B ≤ 2 ^ 20 * B := mul_le_mul_of_nonneg_right hnR (by linarith)
  have hve' := abs_le.mp hve
  have hp' := abs_le.mp hpert2
  have hc' := abs_le.mp hcond
  have hd' := abs_le.mp hdot2
  have x1 : 4 * ((m : ℝ) + 16) * B / 2 ^ 50 = (4 * (m * B) + 64 * B) / 2 ^ 50 := by ring
  have x2 : 7 * (n : ℝ) * B / 2 ^ 51 = 7 / 2 * (n * B) / 2 ^ 50 := by ring
  have x3 : 10 * ((n : ℝ) + m + 16) * B / 2 ^ 50 = (10 * (n * B) + 10 * (m * B) + 160 * B) / 2 ^ 50 := by ring
  rw [x1] at hve' hc' hmB
  rw [x2] at hp'
  rw [x3]
  have hb' := abs_le.mp hvb
  have hcb' := abs_le.mp hcondb
  have k1 : |(v - D) - (H - C')| ≤ (9 * (n * B) + 9 * (m * B) + 140 * B) / 2 ^ 50 := by
    rw [abs_le]
    constructor <;> linarith [hve'.1, hve'.2, hp'.1, hp'.2, hc'.1, hc'.2, hd'.1, hd'.2]
  have k2 : |v - D| ≤ 5 * B := by
    rw [abs_le]
    constructor <;> linarith [hve'.1, hve'.2, hd'.1, hd'.2, hb'.1, hb'.2, hcb'.1, hcb'.2]
  have k3 := rnd_error (v - D)
  have ht : (2 : ℝ) ^ (-1075 : ℤ) ≤ 1 / 2 ^ 60 := small_t
  generalize (2 : ℝ) ^ (-1075 : ℤ) = t at *
  have k4 := abs_sub_le (rnd (v - D)) (v - D) (H - C')
  generalize (n : ℝ) * B = X at *
  generalize (m : ℝ) * B = Y at *
  linarith

/-- When the given doubles are exactly normalised, the mutual information of the channel. -/
theorem C146_exact {n m : Nat} (r : Fin n → ℝ) (P : Fin n → Fin m → ℝ) (hr : validPmf r = true) (hP : validChannelMatrix P = true) (base : LogBase) (hb : validLogBase base = true) :
    mutualInformation r P base = some (exactInformation r P base) := by
  have hr' := (Info.pmf_iff r).mp hr
  have hP' := (Info.channel_iff P).mp hP
  rw [Info.mutualInformation_eq r P base hr' hP' hb, exactInformation_eq r P base hr'.nn (fun i => (hP' i).nn)]
  have e : ∀ {k : Nat} (p : Fin k → ℝ), baseEntropy base p = Info.H p / Real.log base.val := by
    intro k p
    rw [baseEntropy, Info.H, Finset.sum_div]
    refine Finset.sum_congr rfl fun j _ => ?_
    rw [Real.logb, one_div, Real.log_inv, Real.negMulLog]
    ring
  congr 1
  rw [Info.I, e, sub_div, Finset.sum_div]
  congr 1
  exact Finset.sum_congr rfl fun i _ => by rw [e, mul_div_assoc]

/-! ### the hypotheses can be met -/

/-- Adding from the right. -/
noncomputable def plainSum : List Double → Double
  | [] => 0
  | [x] => x
  | x :: y :: l => x + plainSum (y :: l)

theorem plainSum_sumOf : ∀ l, SumOf l (plainSum l)
  | [] => SumOf.nil
  | [x] => SumOf.one x
  | x :: y :: l => SumOf.add (l := [x]) (SumOf.one x) (plainSum_sumOf (y :: l))

example : ∃ v : ℝ, mutualInformationD exactInfo fmaDot (fun _ => fmaDot) plainSum ![quarterD, threeQuartersD] ![![quarterD, threeQuartersD], ![threeQuartersD, quarterD]] (.num 2) = some v ∧
    |v - exactInformation ![1 / 4, 3 / 4] ![![1 / 4, 3 / 4], ![3 / 4, 1 / 4]] (.num 2)| ≤ 1 / 2 ^ 40 := by
  have h : (1 : ℝ) / 2 ^ 490 ≤ 1 / 4 := one_div_le_one_div_of_le (by positivity) (by
    refine le_trans (by norm_num : (4 : ℝ) ≤ 2 ^ 2) (pow_le_pow_right₀ (by norm_num) (by norm_num)))
  generalize hε : (1 : ℝ) / 2 ^ 490 = ε at h
  have a : ε ≤ quarterD.val := h
  have b : ε ≤ threeQuartersD.val := by change ε ≤ 3 / 4; linarith
  have sum1 : |quarterD.val + threeQuartersD.val - 1| ≤ 1 / 2 ^ 20 := by change |(1 / 4 : ℝ) + 3 / 4 - 1| ≤ _; norm_num
  have sum2 : |threeQuartersD.val + quarterD.val - 1| ≤ 1 / 2 ^ 20 := by rw [add_comm]; exact sum1
  obtain ⟨v, h1, h2⟩ := C146_mutual_information (n := 2) (m := 2) exactInfo_accurate fmaDot_dotOf (gemv := fun _ => fmaDot) (fun _ => fmaDot_dotOf) plainSum_sumOf (.num 2) (by norm_num [validLogBase])
    ![quarterD, threeQuartersD] ![![quarterD, threeQuartersD], ![threeQuartersD, quarterD]] (by norm_num) (by norm_num)
    (by rw [hε]; intro i; right; fin_cases i <;> assumption) (by rw [hε]; intro i j; right; fin_cases i <;> fin_cases j <;> assumption)
    (by rw [Fin.sum_univ_two]; exact sum1) (by intro i; rw [Fin.sum_univ_two]; fin_cases i <;> assumption)
  refine ⟨v, h1, ?_⟩
  have e1 : (fun i => ((![quarterD, threeQuartersD] : Fin 2 → Double) i).val) = ![1 / 4, 3 / 4] := by funext i; fin_cases i <;> rfl
  have e2 : (fun i j => ((![![quarterD, threeQuartersD], ![threeQuartersD, quarterD]] : Fin 2 → Fin 2 → Double) i j).val) = ![![1 / 4, 3 / 4], ![3 / 4, 1 / 4]] := by
    funext i j; fin_cases i <;> fin_cases j <;> rfl
  rw [e1, e2] at h2
  refine h2.trans ?_
  have l1 := Real.log_two_gt_d9
  have l2 := Real.log_two_lt_d9
  have hs : logScale (.num 2) ≤ 3 / 2 := by
    unfold logScale
    change 1 / |Real.log 2| ≤ _
    rw [abs_of_pos (by linarith), div_le_iff₀ (by linarith)]
    linarith
  have hs0 : 0 ≤ logScale (.num 2) := by unfold logScale; positivity
  have hB : logScale (.num 2) * (Real.log ((2 : Nat) : ℝ) + 1) + 1 ≤ 4 := by
    have : Real.log ((2 : Nat) : ℝ) = Real.log 2 := by norm_num
    rw [this]
    nlinarith
  rw [div_le_iff₀ (by positivity)]
  generalize logScale (.num 2) * (Real.log ((2 : Nat) : ℝ) + 1) + 1 = B at *
  push_cast
  linarith

end Komm
