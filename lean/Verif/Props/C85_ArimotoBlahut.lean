import Verif.Props.C78_Information
/-! C85: `DiscreteMemorylessChannel.capacity` (the Arimoto–Blahut algorithm); C86: `binary_entropy_inv`. -/
namespace Komm
open Real Info
variable {n m : Nat}

theorem arimoto_factor {r : Fin n → ℝ} {P : Fin n → Fin m → ℝ} (hr : Pmf r) (hP : ∀ i, Pmf (P i)) (i : Fin n) :
    (∏ j, (if (∑ k, r k * P k j) = 0 then 0 else r i * P i j / ∑ k, r k * P k j) ^ P i j) = r i * exp (D (P i) (outputPmf r P)) := by
  rcases (hr.nn i).eq_or_lt with h0 | h0
  · rw [← h0, zero_mul]
    obtain ⟨j, hj⟩ : ∃ j, 0 < P i j := by
      by_contra hc
      push Not at hc
      have : ∑ j, P i j ≤ 0 := Finset.sum_nonpos fun j _ => hc j
      rw [(hP i).sum] at this; linarith
    refine Finset.prod_eq_zero (Finset.mem_univ j) ?_
    simp [zero_rpow hj.ne']
  · have hfac : ∀ j, (if (∑ k, r k * P k j) = 0 then 0 else r i * P i j / ∑ k, r k * P k j) ^ P i j =
        exp (P i j * log (r i) + P i j * log (P i j / outputPmf r P j)) := by
      intro j
      rcases ((hP i).nn j).eq_or_lt with h1 | h1
      · simp [← h1]
      · have ho := out_pos hr hP h0 h1
        rw [show (∑ k, r k * P k j) = outputPmf r P j from rfl, if_neg ho.ne', rpow_def_of_pos (by positivity), mul_div_assoc,
          log_mul h0.ne' (by positivity)]
        congr 1; ring
    simp only [hfac]
    rw [← exp_sum, Finset.sum_add_distrib, ← Finset.sum_mul, (hP i).sum, one_mul, exp_add, exp_log h0, D]

/-- The normalising constant of one step. -/
noncomputable def Z (P : Fin n → Fin m → ℝ) (r : Fin n → ℝ) : ℝ := ∑ i, r i * exp (D (P i) (outputPmf r P))

theorem arimotoStep_eq {r : Fin n → ℝ} {P : Fin n → Fin m → ℝ} (hr : Pmf r) (hP : ∀ i, Pmf (P i)) (i : Fin n) :
    arimotoStep P r i = r i * exp (D (P i) (outputPmf r P)) / Z P r := by
  simp only [arimotoStep, arimoto_factor hr hP, Z]

theorem Z_pos {r : Fin n → ℝ} {P : Fin n → Fin m → ℝ} (hr : Pmf r) : 0 < Z P r := by
  obtain ⟨i, hi⟩ : ∃ i, 0 < r i := by
    by_contra hc
    push Not at hc
    have : ∑ j, r j ≤ 0 := Finset.sum_nonpos fun j _ => hc j
    rw [hr.sum] at this; linarith
  exact Finset.sum_pos' (fun k _ => mul_nonneg (hr.nn k) (exp_pos _).le) ⟨i, Finset.mem_univ i, mul_pos hi (exp_pos _)⟩

theorem step_pmf {r : Fin n → ℝ} {P : Fin n → Fin m → ℝ} (hr : Pmf r) (hP : ∀ i, Pmf (P i)) : Pmf (arimotoStep P r) := by
  refine ⟨fun i => ?_, ?_⟩
  · rw [arimotoStep_eq hr hP]; exact div_nonneg (mul_nonneg (hr.nn i) (exp_pos _).le) (Z_pos hr).le
  · simp only [arimotoStep_eq hr hP]
    rw [← Finset.sum_div, ← Z, div_self (Z_pos hr).ne']

theorem step_pos {r : Fin n → ℝ} {P : Fin n → Fin m → ℝ} (hr : Pmf r) (hP : ∀ i, Pmf (P i)) (i : Fin n) : 0 < arimotoStep P r i ↔ 0 < r i := by
  rw [arimotoStep_eq hr hP]
  have hz := Z_pos (P := P) hr
  constructor
  · intro h
    rcases (hr.nn i).eq_or_lt with h0 | h0
    · simp [← h0] at h
    · exact h0
  · intro h; exact div_pos (mul_pos h (exp_pos _)) hz

/-- For a distribution `s` inside the support of `r`: how the distance from `s` changes in one step. -/
theorem step_drop {r s : Fin n → ℝ} {P : Fin n → Fin m → ℝ} (hr : Pmf r) (hs : Pmf s) (hP : ∀ i, Pmf (P i)) (h : AC s r) :
    D s r - D s (arimotoStep P r) = ∑ i, s i * D (P i) (outputPmf r P) - log (Z P r) := by
  have hz := Z_pos (P := P) hr
  have : ∀ i, s i * log (s i / r i) - s i * log (s i / arimotoStep P r i) = s i * D (P i) (outputPmf r P) - s i * log (Z P r) := by
    intro i
    rcases (hs.nn i).eq_or_lt with h0 | h0
    · simp [← h0]
    · have hri := h i h0
      have hri' := (step_pos hr hP i).mpr hri
      rw [log_div h0.ne' hri.ne', log_div h0.ne' hri'.ne', arimotoStep_eq hr hP, log_div (by positivity) hz.ne', log_mul hri.ne' (exp_ne_zero _), log_exp]
      ring
  simp only [D] at this ⊢
  rw [← Finset.sum_sub_distrib, Finset.sum_congr rfl fun i _ => this i, Finset.sum_sub_distrib, ← Finset.sum_mul, hs.sum, one_mul]

theorem logZ_ge {r : Fin n → ℝ} {P : Fin n → Fin m → ℝ} (hr : Pmf r) (hP : ∀ i, Pmf (P i)) : I r P ≤ log (Z P r) := by
  have h1 := step_drop hr hr hP (AC_refl r)
  rw [(D_eq_zero_iff hr hr (AC_refl r)).mpr rfl, ← I_eq hr hP] at h1
  have h2 := D_nonneg hr (step_pmf hr hP) fun i hi => (step_pos hr hP i).mpr hi
  linarith

theorem logZ_le {r : Fin n → ℝ} {P : Fin n → Fin m → ℝ} (hr : Pmf r) (hP : ∀ i, Pmf (P i)) : log (Z P r) ≤ I (arimotoStep P r) P := by
  have hs := step_pmf hr hP
  have hac : AC (arimotoStep P r) r := fun i hi => (step_pos hr hP i).mp hi
  have h1 := step_drop hr hs hP hac
  rw [(D_eq_zero_iff hs hs (AC_refl _)).mpr rfl, sub_zero] at h1
  have hac' : AC (outputPmf (arimotoStep P r) P) (outputPmf r P) := fun j hj => by
    obtain ⟨i, h1, h2⟩ := (out_pos_iff hs hP).mp hj
    exact out_pos hr hP (hac i h1) h2
  have h2 := golden hs hP hac'
  have h3 := data_processing hr hs hP hac
  linarith

/-- The distribution after `k` steps from the uniform one. -/
noncomputable def iter (P : Fin n → Fin m → ℝ) (k : Nat) : Fin n → ℝ := (arimotoStep P)^[k] fun _ => 1 / n

theorem iter_succ (P : Fin n → Fin m → ℝ) (k : Nat) : iter P (k + 1) = arimotoStep P (iter P k) := Function.iterate_succ_apply' _ _ _

theorem iter_spec {P : Fin n → Fin m → ℝ} (hn : 0 < n) (hP : ∀ i, Pmf (P i)) (k : Nat) : Pmf (iter P k) ∧ ∀ i, 0 < iter P k i := by
  induction k with
  | zero =>
    refine ⟨uniform_pmf hn, fun i => ?_⟩
    have : (0 : ℝ) < n := by exact_mod_cast hn
    show 0 < 1 / (n : ℝ)
    positivity
  | succ k ih =>
    rw [iter_succ]
    exact ⟨step_pmf ih.1 hP, fun i => (step_pos ih.1 hP i).mpr (ih.2 i)⟩

theorem iter_mono {P : Fin n → Fin m → ℝ} (hn : 0 < n) (hP : ∀ i, Pmf (P i)) : Monotone fun k => I (iter P k) P :=
  monotone_nat_of_le_succ fun k => by
    have := (iter_spec hn hP k).1
    rw [iter_succ]
    exact (logZ_ge this hP).trans (logZ_le this hP)

theorem iter_gap {P : Fin n → Fin m → ℝ} (hn : 0 < n) (hP : ∀ i, Pmf (P i)) (s : Fin n → ℝ) (hs : Pmf s) (k : Nat) :
    k * (I s P - I (iter P k) P) ≤ log n := by
  have key : ∀ k : Nat, ∑ t ∈ Finset.range k, (I s P - log (Z P (iter P t))) ≤ D s (iter P 0) - D s (iter P k) := by
    intro k
    induction k with
    | zero => simp
    | succ k ih =>
      rw [Finset.sum_range_succ]
      obtain ⟨hr, hpos⟩ := iter_spec hn hP k
      have hac : AC s (iter P k) := fun i _ => hpos i
      have h1 := step_drop hr hs hP hac
      rw [← iter_succ] at h1
      have hac' : AC (outputPmf s P) (outputPmf (iter P k) P) := fun j hj => by
        obtain ⟨i, h1, h2⟩ := (out_pos_iff hs hP).mp hj
        exact out_pos hr hP (hpos i) h2
      have h2 := golden hs hP hac'
      have h3 := D_nonneg (out_pmf hs hP) (out_pmf hr hP) hac'
      linarith
  have h1 := key k
  have h2 : ∑ t ∈ Finset.range k, (I s P - I (iter P k) P) ≤ ∑ t ∈ Finset.range k, (I s P - log (Z P (iter P t))) := by
    refine Finset.sum_le_sum fun t ht => ?_
    have h3 := logZ_le (iter_spec hn hP t).1 hP
    rw [← iter_succ] at h3
    have h4 := iter_mono hn hP (show t + 1 ≤ k from Finset.mem_range.mp ht)
    simp only at h4
    linarith
  rw [Finset.sum_const, Finset.card_range, nsmul_eq_mul] at h2
  have h3 : D s (iter P 0) = log n - H s := D_uniform hs
  have h4 := H_nonneg hs
  obtain ⟨hr, hpos⟩ := iter_spec hn hP k
  have h5 := D_nonneg hs hr fun i _ => hpos i
  linarith

/-- The loop returns one of the iterates; it made `maxIter` passes unless two consecutive iterates differ by at most `tol`. -/
theorem loop_spec (P : Fin n → Fin m → ℝ) (tol : ℝ) (maxIter : Nat) : ∃ k ≤ maxIter,
    arimotoLoop P tol maxIter none (fun _ => 1 / n) = iter P k ∧
    (k = maxIter ∨ (1 ≤ k ∧ ∀ i, |iter P k i - iter P (k - 1) i| ≤ tol)) := by
  have H : ∀ fuel t, ∃ k, t + 1 ≤ k ∧ k ≤ t + 1 + fuel ∧ arimotoLoop P tol fuel (some (iter P t)) (iter P (t + 1)) = iter P k ∧
      (k = t + 1 + fuel ∨ ∀ i, |iter P k i - iter P (k - 1) i| ≤ tol) := by
    intro fuel
    induction fuel with
    | zero => intro t; exact ⟨t + 1, le_refl _, le_refl _, rfl, Or.inl rfl⟩
    | succ fuel ih =>
      intro t
      rw [arimotoLoop]
      split
      · obtain ⟨k, h1, h2, h3, h4⟩ := ih (t + 1)
        refine ⟨k, by omega, by omega, ?_, ?_⟩
        · rw [← iter_succ]; exact h3
        · rcases h4 with h4 | h4
          · left; omega
          · exact Or.inr h4
      · next h =>
        refine ⟨t + 1, le_refl _, by omega, rfl, Or.inr fun i => ?_⟩
        push Not at h
        exact h i
  cases maxIter with
  | zero => exact ⟨0, le_refl _, rfl, Or.inl rfl⟩
  | succ fuel =>
    rw [arimotoLoop]
    rw [if_pos trivial]
    obtain ⟨k, h1, h2, h3, h4⟩ := H fuel 0
    refine ⟨k, by omega, h3, ?_⟩
    rcases h4 with h4 | h4
    · left; omega
    · exact Or.inr ⟨by omega, h4⟩

/-- `capacity()` never exceeds the true capacity: it is the mutual information of some input distribution; and it is at least the mutual
information of the uniform input. -/
theorem C85_bounds (P : Fin n → Fin m → ℝ) (hP : validChannelMatrix P = true) (hn : 0 < n) (base : LogBase) (hb : 1 < base.val) (maxIter : Nat)
    (tol : ℝ) : ∃ c, dmcCapacity maxIter tol P base = some c ∧ c ∈ MutualInformationValues P base ∧
      ∀ u, mutualInformation (fun _ => 1 / n) P base = some u → u ≤ c := by
  have hP := (channel_iff P).mp hP
  have hl : 0 < log base.val := log_pos hb
  have hv := base_valid base hb
  obtain ⟨k, -, hk, -⟩ := loop_spec P tol maxIter
  obtain ⟨hr, -⟩ := iter_spec hn hP k
  refine ⟨I (iter P k) P / log base.val, by rw [dmcCapacity, hk, mutualInformation_eq _ P base hr hP hv],
    ⟨iter P k, (pmf_iff _).mpr hr, mutualInformation_eq _ P base hr hP hv⟩, fun u hu => ?_⟩
  rw [mutualInformation_eq _ P base (uniform_pmf hn) hP hv, Option.some.injEq] at hu
  have h0 : I (iter P 0) P ≤ I (iter P k) P := iter_mono hn hP (Nat.zero_le k)
  have e0 : iter P 0 = fun _ => 1 / (n : ℝ) := rfl
  rw [e0] at h0
  rw [← hu]
  exact (div_le_div_iff_of_pos_right hl).mpr h0

/-- The result is within `log n / k` of every mutual information, where `k` is the number of passes,
and `k = maxIter` unless the last two distributions agree within `tol` in every entry. -/
theorem C85_passes (P : Fin n → Fin m → ℝ) (hP : validChannelMatrix P = true) (hn : 0 < n) (base : LogBase) (hb : 1 < base.val)
    (maxIter : Nat) (hm : 0 < maxIter) (tol : ℝ) :
    ∃ (c : ℝ) (k : Nat) (last prev : Fin n → ℝ), dmcCapacity maxIter tol P base = some c ∧ 1 ≤ k ∧ k ≤ maxIter ∧
      (∀ x ∈ MutualInformationValues P base, x ≤ c + logb base.val n / k) ∧
      mutualInformation last P base = some c ∧ last = arimotoStep P prev ∧ (k = maxIter ∨ ∀ i, |last i - prev i| ≤ tol) := by
  have hP := (channel_iff P).mp hP
  have hl : 0 < log base.val := log_pos hb
  have hv := base_valid base hb
  obtain ⟨k, hkm, hk, hend⟩ := loop_spec P tol maxIter
  obtain ⟨hr, -⟩ := iter_spec hn hP k
  have hk1 : 1 ≤ k := by rcases hend with h | h <;> omega
  refine ⟨I (iter P k) P / log base.val, k, iter P k, iter P (k - 1), by rw [dmcCapacity, hk, mutualInformation_eq _ P base hr hP hv], hk1, hkm,
    ?_, mutualInformation_eq _ P base hr hP hv, by rw [← iter_succ, Nat.sub_add_cancel hk1], ?_⟩
  · rintro x ⟨s, hs, hx⟩
    have hs := (pmf_iff s).mp hs
    rw [mutualInformation_eq s P base hs hP hv, Option.some.injEq] at hx
    have hgap := iter_gap hn hP s hs k
    have hk0 : (0 : ℝ) < k := by exact_mod_cast hk1
    have : I s P ≤ I (iter P k) P + log n / k := by
      have : I s P - I (iter P k) P ≤ log n / k := by rw [le_div_iff₀ hk0]; linarith
      linarith
    rw [← hx, logb, div_right_comm, ← add_div]
    exact (div_le_div_iff_of_pos_right hl).mpr this
  · rcases hend with h | h
    · exact Or.inl h
    · exact Or.inr h.2

/-- A fixed point of the iteration with full support attains the capacity. -/
theorem C85_fixed_point (P : Fin n → Fin m → ℝ) (hP : validChannelMatrix P = true) (r : Fin n → ℝ) (hr : validPmf r = true)
    (hpos : ∀ i, 0 < r i) (hfix : arimotoStep P r = r) (base : LogBase) (hb : 1 < base.val) :
    ∃ c, mutualInformation r P base = some c ∧ IsGreatest (MutualInformationValues P base) c := by
  have hP := (channel_iff P).mp hP
  have hr := (pmf_iff r).mp hr
  refine ⟨_, mutualInformation_eq r P base hr hP (base_valid base hb), greatest_of_nats P hP base hb _ (fun s hs => ?_) r hr rfl⟩
  have hz := Z_pos (P := P) hr
  have hD : ∀ i, D (P i) (outputPmf r P) = log (Z P r) := by
    intro i
    have h := congrFun hfix i
    rw [arimotoStep_eq hr hP, div_eq_iff hz.ne'] at h
    have := mul_left_cancel₀ (hpos i).ne' h
    rw [← this, log_exp]
  refine I_le_of_kkt hs hP (out_pmf hr hP) (fun i j hj => out_pos hr hP (hpos i) hj) _ fun i => ?_
  rw [I_eq hr hP]
  simp only [hD, ← Finset.sum_mul, hr.sum, one_mul, le_refl]

/-- Non-vacuity: for the binary symmetric channel the uniform distribution is a fixed point with full support. -/
example : arimotoStep (bscMatrix (1/10 : ℝ)) (fun _ => 1 / 2) = fun _ => 1 / 2 := by
  have hr : Pmf (fun _ : Fin 2 => (1 : ℝ) / 2) := ⟨fun i => by norm_num, by simp⟩
  have hP := bsc_rows (1/10 : ℝ) (by norm_num) (by norm_num)
  have ho : outputPmf (fun _ => (1 : ℝ) / 2) (bscMatrix (1/10 : ℝ)) = fun _ => 1 / 2 := by
    funext j; fin_cases j <;> simp [outputPmf, Fin.sum_univ_two, bscMatrix] <;> norm_num
  have hD : ∀ i, D (bscMatrix (1/10 : ℝ) i) (fun _ => 1 / 2) = D (bscMatrix (1/10 : ℝ) 0) (fun _ => 1 / 2) := by
    intro i; fin_cases i
    · rfl
    · simp [D, Fin.sum_univ_two, bscMatrix]; ring
  funext i
  rw [arimotoStep_eq hr hP, Z, ho]
  simp only [hD, Fin.sum_univ_two]
  have := exp_pos (D (bscMatrix (1/10 : ℝ) 0) fun _ => 1 / 2)
  field_simp
  norm_num

/-! ### `binary_entropy_inv` -/

theorem binaryEntropy_getD (x : ℝ) (h0 : 0 ≤ x) (h1 : x ≤ 1) : (binaryEntropy x).getD 0 = binEntropy x / log 2 := by
  rw [binaryEntropy_eq x h0 h1]; rfl

theorem invLoop_spec (h tol x : ℝ) (hx : 0 ≤ x ∧ x ≤ 1 / 2) (hh : binEntropy x / log 2 = h) : ∀ (fuel : Nat) (low high : ℝ),
    0 ≤ low → high ≤ 1 / 2 → low ≤ x → x ≤ high →
    ∀ y, entropyInvLoop h tol fuel low high = some y → 0 ≤ y ∧ y ≤ 1 / 2 ∧ |y - x| ≤ tol / 2 := by
  have hl : 0 < log 2 := log_pos one_lt_two
  intro fuel
  induction fuel with
  | zero => simp [entropyInvLoop]
  | succ fuel ih =>
    intro low high h0 h1 h2 h3
    rw [entropyInvLoop]
    split
    · next hgt =>
      dsimp only
      set mid := (low + high) / 2 with hmid
      have hm0 : low ≤ mid := by rw [hmid]; linarith
      have hm1 : mid ≤ high := by rw [hmid]; linarith
      rw [binaryEntropy_getD mid (by linarith) (by linarith)]
      split
      · next hlt =>
        have : mid ≤ x := by
          by_contra hc
          push Not at hc
          have := (binEntropy_strictMonoOn.le_iff_le (a := x) (b := mid) ⟨by linarith, by norm_num; linarith⟩ ⟨by linarith, by norm_num; linarith⟩).mpr hc.le
          rw [← hh, div_lt_div_iff_of_pos_right hl] at hlt
          linarith
        exact ih mid high (by linarith) h1 this h3
      · next hlt =>
        have : x ≤ mid := by
          by_contra hc
          push Not at hc
          have := (binEntropy_strictMonoOn.lt_iff_lt (a := mid) (b := x) ⟨by linarith, by norm_num; linarith⟩ ⟨by linarith, by norm_num; linarith⟩).mpr hc
          rw [← hh, div_lt_div_iff_of_pos_right hl] at hlt
          linarith
        exact ih low mid h0 (by linarith) h2 this
    · next hle =>
      intro y hy
      simp only [Option.some.injEq] at hy
      rw [← hy]
      refine ⟨by linarith, by linarith, ?_⟩
      rw [abs_le]; constructor <;> linarith

theorem invLoop_total (h tol : ℝ) : ∀ (fuel : Nat) (low high : ℝ), high - low ≤ 2 ^ fuel * tol → (entropyInvLoop h tol (fuel + 1) low high).isSome := by
  intro fuel
  induction fuel with
  | zero =>
    intro low high hle
    rw [entropyInvLoop, if_neg (by simpa using hle)]; rfl
  | succ fuel ih =>
    intro low high hle
    rw [entropyInvLoop]
    split
    · dsimp only
      rw [pow_succ] at hle
      split
      · exact ih _ _ (by linarith)
      · exact ih _ _ (by linarith)
    · rfl

/-- The binary entropy (in bits) has exactly one preimage in `[0, 1/2]` for every `h` in `[0, 1]`. -/
theorem C86_inverse_exists_unique (h : ℝ) (hh : 0 ≤ h ∧ h ≤ 1) :
    ∃! x : ℝ, (0 ≤ x ∧ x ≤ 1 / 2) ∧ binaryEntropy x = some h := by
  have hl : 0 < log 2 := log_pos one_lt_two
  have hc : ContinuousOn binEntropy (Set.Icc 0 (1 / 2)) := binEntropy_continuous.continuousOn
  have hiv := intermediate_value_Icc (by norm_num : (0 : ℝ) ≤ 1 / 2) hc
  rw [binEntropy_zero, one_div, binEntropy_two_inv] at hiv
  obtain ⟨x, ⟨hx0, hx1⟩, hx⟩ := hiv ⟨mul_nonneg hh.1 hl.le, (mul_le_of_le_one_left hl.le hh.2 : h * log 2 ≤ log 2)⟩
  rw [← one_div] at hx1
  refine ⟨x, ⟨⟨hx0, hx1⟩, ?_⟩, ?_⟩
  · rw [binaryEntropy_eq x hx0 (by linarith), hx]
    congr 1; field_simp
  · rintro y ⟨⟨hy0, hy1⟩, hy⟩
    rw [binaryEntropy_eq y hy0 (by linarith), Option.some.injEq, div_eq_iff hl.ne'] at hy
    exact binEntropy_strictMonoOn.injOn ⟨hy0, by norm_num; linarith⟩ ⟨hx0, by norm_num; linarith⟩ (hy.trans hx.symm)

/-- `binary_entropy_inv(h, tol)` terminates for every positive tolerance and returns a number in `[0, 1/2]` within `tol / 2` of the exact
inverse; it raises exactly outside `[0, 1]`. -/
theorem C86_binary_entropy_inv (h tol : ℝ) (ht : 0 < tol) :
    ∃ N, ∀ fuel ≥ N,
      (¬ (0 ≤ h ∧ h ≤ 1) → binaryEntropyInv fuel h tol = some none) ∧
      (0 ≤ h ∧ h ≤ 1 → ∃ y x, binaryEntropyInv fuel h tol = some (some y) ∧ 0 ≤ y ∧ y ≤ 1 / 2 ∧
        0 ≤ x ∧ x ≤ 1 / 2 ∧ binaryEntropy x = some h ∧ |y - x| ≤ tol / 2) := by
  have hl : 0 < log 2 := log_pos one_lt_two
  obtain ⟨N, hN⟩ : ∃ N : Nat, 1 / 2 / tol ≤ 2 ^ N := by
    obtain ⟨N, hN⟩ := pow_unbounded_of_one_lt (1 / 2 / tol) (one_lt_two (α := ℝ))
    exact ⟨N, hN.le⟩
  rw [div_le_iff₀ ht] at hN
  refine ⟨N + 1, fun fuel hf => ⟨fun hh => by rw [binaryEntropyInv, if_pos hh], fun hh => ?_⟩⟩
  rw [binaryEntropyInv, if_neg (not_not.mpr hh)]
  split
  · next h01 =>
    rcases h01 with rfl | rfl
    · exact ⟨0, 0, by simp, le_refl _, by norm_num, le_refl _, by norm_num, by rw [binaryEntropy_eq 0 (le_refl _) zero_le_one]; simp, by simp; linarith⟩
    · refine ⟨1 / 2, 1 / 2, by simp, by norm_num, le_refl _, by norm_num, le_refl _, ?_, by simp; linarith⟩
      rw [binaryEntropy_eq _ (by norm_num) (by norm_num), one_div, binEntropy_two_inv, div_self hl.ne']
  · obtain ⟨x, ⟨⟨hx0, hx1⟩, hx⟩, -⟩ := C86_inverse_exists_unique h hh
    have hx' : binEntropy x / log 2 = h := by
      rw [binaryEntropy_eq x hx0 (by linarith), Option.some.injEq] at hx; exact hx
    obtain ⟨f, rfl⟩ : ∃ f, fuel = f + 1 := ⟨fuel - 1, by omega⟩
    have hsome := invLoop_total h tol f 0 (1 / 2) (by
      have : (2 : ℝ) ^ N ≤ 2 ^ f := pow_le_pow_right₀ one_le_two (by omega)
      nlinarith)
    obtain ⟨y, hy⟩ := Option.isSome_iff_exists.mp hsome
    obtain ⟨h1, h2, h3⟩ := invLoop_spec h tol x ⟨hx0, hx1⟩ hx' _ 0 (1 / 2) (le_refl _) (le_refl _) hx0 hx1 y hy
    exact ⟨y, x, by rw [hy]; rfl, h1, h2, hx0, hx1, hx, h3⟩

end Komm
