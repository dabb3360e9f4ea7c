import Verif.Model.DoubleDraws
import Verif.Props.C148_DoubleRates
import Verif.Props.C121_Trajectories

/-! C149: random draws in double precision. -/
namespace Komm
open MarkovChain

/-- The running sum of the first `j` doubles. -/
noncomputable def runD (p : List Double) (j : Nat) : Double := (p.take j).foldl (· + ·) 0

theorem runD_zero (p : List Double) : runD p 0 = 0 := rfl

theorem runD_succ (p : List Double) (j : Nat) (h : j < p.length) : runD p (j + 1) = runD p j + p[j] := by
  rw [runD, runD, List.take_succ_eq_append_getElem h, List.foldl_append]; rfl

theorem cumsumD_get (ps : List Double) : ∀ (acc : Double) (j : Nat), (cumsumD acc ps)[j]? = if j < ps.length then some ((ps.take (j + 1)).foldl (· + ·) acc) else none := by
  induction ps with
  | nil => intro acc j; simp [cumsumD]
  | cons p ps ih =>
    intro acc j
    cases j with
    | zero => simp [cumsumD]
    | succ j =>
      rw [cumsumD, List.getElem?_cons_succ, ih (acc + p) j]
      simp

theorem cumsumD_length (acc : Double) (ps : List Double) : (cumsumD acc ps).length = ps.length := by
  induction ps generalizing acc with
  | nil => rfl
  | cons p ps ih => simp [cumsumD, ih]

/-- The rounded cdf, with a 0 in front. -/
noncomputable def cdfAt (p : List Double) (j : Nat) : ℝ := rnd ((runD p j).val / (runD p p.length).val)

theorem cdfD_get (p : List Double) (j : Nat) (h : j < p.length) : (cdfD p).getD j 0 = cdfAt p (j + 1) := by
  have hl : (cumsumD 0 p).getLastD 0 = runD p p.length := by
    rw [List.getLastD_eq_getLast?, List.getLast?_eq_getElem?, cumsumD_length, cumsumD_get, if_pos (by omega), Nat.sub_add_cancel (by omega)]
    rfl
  rw [cdfD]
  simp only [hl]
  rw [List.getD_eq_getElem?_getD, List.getElem?_map, cumsumD_get, if_pos h]
  rfl

theorem cdfD_length (p : List Double) : (cdfD p).length = p.length := by simp [cdfD, cumsumD_length]

theorem runD_sumOf (p : List Double) : ∀ j, j ≤ p.length → SumOf (p.take j) (runD p j)
  | 0, _ => by rw [runD_zero]; exact .nil
  | j + 1, h => by
    rw [runD_succ p j h, List.take_succ_eq_append_getElem h]
    exact .add (runD_sumOf p j (by omega)) (.one _)

theorem runD_step (p : List Double) (hp : ∀ x ∈ p, 0 ≤ x.val) (j : Nat) (h : j < p.length) :
    (runD p j).val ≤ (runD p (j + 1)).val ∧ (p[j].val ≤ (runD p (j + 1)).val ∨ (runD p j).val < 0) ∧ (p[j].val = 0 → (runD p (j + 1)).val = (runD p j).val) := by
  have h0 := hp p[j] (List.getElem_mem h)
  rw [runD_succ p j h, Double.add_val]
  refine ⟨?_, ?_, ?_⟩
  · have := rnd_mono (by linarith : (runD p j).val ≤ (runD p j).val + p[j].val)
    rwa [rnd_of_isDouble (x := (runD p j).val) (runD p j).2] at this
  · by_cases hn : (runD p j).val < 0
    · exact Or.inr hn
    · left
      have := rnd_mono (by linarith : p[j].val ≤ (runD p j).val + p[j].val)
      rwa [rnd_of_isDouble (x := p[j].val) p[j].2] at this
  · intro hz
    rw [hz, add_zero, rnd_of_isDouble (x := (runD p j).val) (runD p j).2]

theorem runD_mono (p : List Double) (hp : ∀ x ∈ p, 0 ≤ x.val) {i j : Nat} (hij : i ≤ j) (hj : j ≤ p.length) : (runD p i).val ≤ (runD p j).val := by
  induction j, hij using Nat.le_induction with
  | base => exact le_rfl
  | succ j hij ih => exact (ih (by omega)).trans (runD_step p hp j (by omega)).1

theorem runD_nonneg (p : List Double) (hp : ∀ x ∈ p, 0 ≤ x.val) (j : Nat) (hj : j ≤ p.length) : 0 ≤ (runD p j).val := by
  have := runD_mono p hp (Nat.zero_le j) hj
  rwa [runD_zero, Double.val_zero] at this

theorem runD_pos (p : List Double) (hp : ∀ x ∈ p, 0 ≤ x.val) (hpos : ∃ x ∈ p, 0 < x.val) : 0 < (runD p p.length).val := by
  obtain ⟨x, hx, h0⟩ := hpos
  obtain ⟨j, hj, rfl⟩ := List.mem_iff_getElem.mp hx
  rcases (runD_step p hp j hj).2.1 with h | h
  · exact h0.trans_le (h.trans (runD_mono p hp hj le_rfl))
  · exact absurd (runD_nonneg p hp j (by omega)) (by linarith)

theorem cdfAt_zero (p : List Double) : cdfAt p 0 = 0 := by rw [cdfAt, runD_zero, Double.val_zero, zero_div, rnd_zero]

theorem rnd_one : rnd (1 : ℝ) = 1 := by
  have := rnd_of_isDouble (isDouble_int 1 (by norm_num)); simpa using this

theorem cdfAt_last (p : List Double) (hp : ∀ x ∈ p, 0 ≤ x.val) (hpos : ∃ x ∈ p, 0 < x.val) : cdfAt p p.length = 1 := by
  rw [cdfAt, div_self (runD_pos p hp hpos).ne', rnd_one]

theorem cdfAt_mono (p : List Double) (hp : ∀ x ∈ p, 0 ≤ x.val) {i j : Nat} (hij : i ≤ j) (hj : j ≤ p.length) : cdfAt p i ≤ cdfAt p j :=
  rnd_mono (div_le_div_of_nonneg_right (runD_mono p hp hij hj) (runD_nonneg p hp _ le_rfl))

theorem cdfAt_error (p : List Double) (hp : ∀ x ∈ p, 0 ≤ x.val) (hpos : ∃ x ∈ p, 0 < x.val) (hn : p.length ≤ 2 ^ 40) (j : Nat) (hj : j ≤ p.length) :
    |cdfAt p j - realSum (p.take j) / realSum p| ≤ (3 * p.length + 1) / 2 ^ 52 := by
  have habs : ∀ l : List Double, (∀ x ∈ l, 0 ≤ x.val) → absSum l = realSum l := by
    intro l hl
    unfold absSum realSum
    congr 1
    exact List.map_congr_left fun x hx => abs_of_nonneg (hl x hx)
  have hnn : ∀ l : List Double, (∀ x ∈ l, 0 ≤ x.val) → 0 ≤ realSum l := by
    intro l hl
    exact List.sum_nonneg (by intro y hy; obtain ⟨x, hx, rfl⟩ := List.mem_map.mp hy; exact hl x hx)
  have hS : 0 < realSum p := by
    obtain ⟨x, hx, h0⟩ := hpos
    refine h0.trans_le ?_
    exact List.single_le_sum (by intro y hy; obtain ⟨x, hx, rfl⟩ := List.mem_map.mp hy; exact hp x hx) _ (List.mem_map_of_mem hx)
  have hnR : (p.length : ℝ) ≤ 2 ^ 40 := by exact_mod_cast hn
  obtain ⟨γ, hγ⟩ : ∃ γ : ℝ, γ = p.length / 2 ^ 52 := ⟨_, rfl⟩
  have hγ0 : 0 ≤ γ := by rw [hγ]; positivity
  have hγ1 : γ ≤ 1 / 8 := by
    rw [hγ, div_le_iff₀ (by positivity)]
    have : (2 : ℝ) ^ 40 ≤ 1 / 8 * 2 ^ 52 := by norm_num
    linarith
  have key : ∀ i, i ≤ p.length → |(runD p i).val - realSum (p.take i)| ≤ γ * realSum (p.take i) := by
    intro i hi
    have hpt : ∀ x ∈ p.take i, 0 ≤ x.val := fun x hx => hp x (List.mem_of_mem_take hx)
    have := (runD_sumOf p i hi).error
    rw [habs _ hpt] at this
    refine this.trans (mul_le_mul_of_nonneg_right ?_ (hnn _ hpt))
    have hl : (p.take i).length ≤ p.length := by simp
    refine (growth _ (by have : (2:ℕ)^40 ≤ 2^52 := by norm_num
                         omega)).trans ?_
    rw [hγ]
    exact div_le_div_of_nonneg_right (by exact_mod_cast hl) (by positivity)
  have hle : realSum (p.take j) ≤ realSum p := by
    conv_rhs => rw [← List.take_append_drop j p]
    have : realSum (p.take j ++ p.drop j) = realSum (p.take j) + realSum (p.drop j) := by simp [realSum]
    rw [this]
    linarith [hnn (p.drop j) fun x hx => hp x (List.mem_of_mem_drop hx)]
  have ha := key j hj
  have hb := key p.length le_rfl
  rw [List.take_length] at hb
  have ht0 := hnn (p.take j) fun x hx => hp x (List.mem_of_mem_take hx)
  have hc0 := runD_pos p hp hpos
  have hcm := runD_mono p hp hj le_rfl
  have hcn := runD_nonneg p hp j hj
  rw [cdfAt]
  generalize (runD p j).val = a at *
  generalize (runD p p.length).val = b at *
  generalize realSum (p.take j) = s at *
  generalize realSum p = S at *
  have h1 : |a / b - s / S| ≤ 3 * γ := by
    rw [div_sub_div _ _ hc0.ne' hS.ne', abs_div, abs_of_pos (mul_pos hc0 hS), div_le_iff₀ (mul_pos hc0 hS)]
    have ha' := abs_le.mp ha
    have hb' := abs_le.mp hb
    have h2 : γ * s ≤ γ * S := mul_le_mul_of_nonneg_left hle hγ0
    have h3 : γ * S ≤ 1 / 8 * S := mul_le_mul_of_nonneg_right hγ1 hS.le
    have e : a * S - b * s = (a - s) * S - (b - S) * s := by ring
    rw [e]
    have h4 : |(a - s) * S| ≤ γ * S * S := by
      rw [abs_mul, abs_of_pos hS]; exact mul_le_mul_of_nonneg_right (ha.trans h2) hS.le
    have h5 : |(b - S) * s| ≤ γ * S * S := by
      rw [abs_mul, abs_of_nonneg ht0]; exact mul_le_mul hb hle ht0 (by positivity)
    have h6 : |(a - s) * S - (b - S) * s| ≤ γ * S * S + γ * S * S := (abs_sub _ _).trans (add_le_add h4 h5)
    refine h6.trans ?_
    have h7 : 2 / 3 * S ≤ b := by linarith [hb'.1]
    have h8 : γ * S * (2 / 3 * S) ≤ γ * S * b := mul_le_mul_of_nonneg_left h7 (by positivity)
    nlinarith
  have hq0 : 0 ≤ a / b := div_nonneg hcn hc0.le
  have hq1 : a / b ≤ 1 := (div_le_one hc0).mpr hcm
  have h2 := rnd_error (a / b)
  rw [abs_of_nonneg hq0] at h2
  have h3 : |rnd (a / b) - a / b| ≤ 1 / 2 ^ 52 := by
    refine h2.trans ?_
    have : (2 : ℝ) ^ (-1075 : ℤ) ≤ 2 ^ (-53 : ℤ) := zpow_le_zpow_right₀ (by norm_num) (by norm_num)
    have e : (2 : ℝ) ^ (-53 : ℤ) = 1 / 2 ^ 53 := by norm_num
    have h4 : a / b / 2 ^ 53 ≤ 1 / 2 ^ 53 := div_le_div_of_nonneg_right hq1 (by positivity)
    have h5 : (1 : ℝ) / 2 ^ 53 + 1 / 2 ^ 53 = 1 / 2 ^ 52 := by norm_num
    rw [e] at this
    linarith
  have e : (3 * (p.length : ℝ) + 1) / 2 ^ 52 = 3 * γ + 1 / 2 ^ 52 := by rw [hγ]; ring
  rw [e]
  have h4 := abs_le.mp h1
  have h5 := abs_le.mp h3
  exact abs_le.mpr ⟨by linarith [h4.1, h5.1], by linarith [h4.2, h5.2]⟩

/-- What the binary search finds in a non-decreasing array. -/
theorem bisectRight_spec (a : List ℝ) (key : ℝ) (hmono : ∀ i j, i ≤ j → j < a.length → a.getD i 0 ≤ a.getD j 0) : ∀ (d lo hi : Nat), hi - lo ≤ d → lo ≤ hi → hi ≤ a.length →
    (∀ j, j < lo → a.getD j 0 ≤ key) → (∀ j, hi ≤ j → j < a.length → key < a.getD j 0) →
    bisectRight a key lo hi ≤ a.length ∧ (∀ j, j < bisectRight a key lo hi → a.getD j 0 ≤ key) ∧ ∀ j, bisectRight a key lo hi ≤ j → j < a.length → key < a.getD j 0 := by
  intro d
  induction d with
  | zero =>
    intro lo hi h1 h2 h3 h4 h5
    have : lo = hi := by omega
    subst this
    rw [bisectRight, if_neg (by omega)]
    exact ⟨h3, h4, h5⟩
  | succ d ih =>
    intro lo hi h1 h2 h3 h4 h5
    by_cases h : lo < hi
    · rw [bisectRight, if_pos h]
      dsimp only
      split
      · rename_i hle
        refine ih _ hi (by omega) (by omega) h3 ?_ h5
        intro j hj
        exact (hmono j _ (by omega) (by omega)).trans hle
      · rename_i hle
        refine ih lo _ (by omega) (by omega) (by omega) h4 ?_
        intro j hj hj'
        exact (not_le.mp hle).trans_le (hmono _ j hj hj')
    · have : lo = hi := by omega
      subst this
      rw [bisectRight, if_neg h]
      exact ⟨h3, h4, h5⟩

section law
variable {n : Nat}

/-- The probabilities with which the symbols are drawn in double precision: multiples of `2^-53`. -/
noncomputable def drawLaw (p : Fin n → Double) (j : Fin n) : ℝ :=
  ((⌈cdfAt (List.ofFn p) (j.val + 1) * 2 ^ 53⌉ : ℝ) - ⌈cdfAt (List.ofFn p) j.val * 2 ^ 53⌉) / 2 ^ 53

theorem drawLaw_below (p : Fin n → Double) : ∀ (j : Nat) (h : j < n), below (drawLaw p) ⟨j, h⟩ = ⌈cdfAt (List.ofFn p) j * 2 ^ 53⌉ / 2 ^ 53
  | 0, h => by rw [below_zero _ h, cdfAt_zero]; simp
  | j + 1, h => by
    rw [below_succ (drawLaw p) ⟨j, by omega⟩ h, cumsum_eq, drawLaw_below p j (by omega), drawLaw]
    ring

theorem drawLaw_cumsum (p : Fin n → Double) (j : Fin n) : cumsum (drawLaw p) j = ⌈cdfAt (List.ofFn p) (j.val + 1) * 2 ^ 53⌉ / 2 ^ 53 := by
  rw [cumsum_eq, drawLaw_below p j.val j.2, drawLaw]
  ring

variable (p : Fin n → Double) (hp : ∀ i, 0 ≤ (p i).val) (hpos : ∃ i, 0 < (p i).val)
include hp hpos

theorem ofFn_nonneg : (∀ x ∈ List.ofFn p, 0 ≤ x.val) ∧ ∃ x ∈ List.ofFn p, 0 < x.val := by
  refine ⟨?_, ?_⟩
  · intro x hx
    obtain ⟨i, rfl⟩ := (List.mem_ofFn' p x).mp hx
    exact hp i
  · obtain ⟨i, hi⟩ := hpos
    exact ⟨p i, (List.mem_ofFn' p _).mpr ⟨i, rfl⟩, hi⟩

theorem drawLaw_valid : validPmf (drawLaw p) = true := by
  obtain ⟨h1, h2⟩ := ofFn_nonneg p hp hpos
  rw [validPmf_iff]
  have hn : 0 < n := by obtain ⟨i, -⟩ := hpos; exact i.pos
  refine ⟨fun j => ?_, ?_⟩
  · rw [drawLaw]
    refine div_nonneg ?_ (by positivity)
    have : cdfAt (List.ofFn p) j.val * 2 ^ 53 ≤ cdfAt (List.ofFn p) (j.val + 1) * 2 ^ 53 :=
      mul_le_mul_of_nonneg_right (cdfAt_mono _ h1 (by omega) (by rw [List.length_ofFn]; omega)) (by positivity)
    have := Int.ceil_le_ceil this
    have : ((⌈cdfAt (List.ofFn p) j.val * 2 ^ 53⌉ : ℤ) : ℝ) ≤ ⌈cdfAt (List.ofFn p) (j.val + 1) * 2 ^ 53⌉ := by exact_mod_cast this
    linarith
  · have hc := drawLaw_cumsum p ⟨n - 1, by omega⟩
    have e : cumsum (drawLaw p) ⟨n - 1, by omega⟩ = ∑ i, drawLaw p i := by
      rw [cumsum, Finset.filter_true_of_mem]
      intro i _
      rw [Fin.le_def]; simp only; omega
    rw [← e, hc]
    simp only
    rw [Nat.sub_add_cancel hn]
    have := cdfAt_last _ h1 h2
    rw [List.length_ofFn] at this
    rw [this, one_mul]
    have h53 : (⌈(2 : ℝ) ^ 53⌉ : ℝ) = 2 ^ 53 := by
      have e53 : (2 : ℝ) ^ 53 = ((9007199254740992 : ℤ) : ℝ) := by norm_num
      rw [e53, Int.ceil_intCast]
    rw [h53]
    exact div_self (pow_ne_zero _ two_ne_zero)

/-- Drawing in double precision from `p` is drawing exactly from `drawLaw p`. -/
theorem choiceD_eq (u : ℝ) : choiceD p (randomD u) = rngChoice (drawLaw p) u := by
  obtain ⟨h1, h2⟩ := ofFn_nonneg p hp hpos
  obtain ⟨-, hsum⟩ := (validPmf_iff _).mp (drawLaw_valid p hp hpos)
  have hlen : (List.ofFn p).length = n := List.length_ofFn
  have hget : ∀ j, j < n → (cdfD (List.ofFn p)).getD j 0 = cdfAt (List.ofFn p) (j + 1) := fun j hj => cdfD_get _ j (by omega)
  obtain ⟨b1, b2, b3⟩ := bisectRight_spec (cdfD (List.ofFn p)) (randomD u) (by
    intro i j hij hj
    rw [cdfD_length, hlen] at hj
    rw [hget i (by omega), hget j hj]
    exact cdfAt_mono _ h1 (by omega) (by omega)) _ 0 (cdfD (List.ofFn p)).length le_rfl (by omega) le_rfl (by intro j hj; omega) (by intro j h h'; omega)
  have hcard : (Finset.univ.filter fun j : Fin n => cumsum (drawLaw p) j / ∑ i, drawLaw p i ≤ u).card = bisectRight (cdfD (List.ofFn p)) (randomD u) 0 (cdfD (List.ofFn p)).length := by
    rw [hsum]
    have hiff : ∀ j : Fin n, cumsum (drawLaw p) j / 1 ≤ u ↔ j.val < bisectRight (cdfD (List.ofFn p)) (randomD u) 0 (cdfD (List.ofFn p)).length := by
      intro j
      have e : cumsum (drawLaw p) j / 1 ≤ u ↔ cdfAt (List.ofFn p) (j.val + 1) ≤ randomD u := by
        rw [drawLaw_cumsum, div_one, div_le_iff₀ (by positivity), randomD, le_div_iff₀ (by positivity)]
        rw [← Int.le_floor, Int.ceil_le]
      rw [e, ← hget j.val j.2]
      constructor
      · intro h
        by_contra hlt
        exact absurd (b3 j.val (by omega) (by rw [cdfD_length, hlen]; exact j.2)) (not_lt.mpr h)
      · intro h
        exact b2 _ h
    rw [Finset.filter_congr (fun j _ => hiff j)]
    rw [cdfD_length, hlen] at b1
    rw [Fin.card_filter_val_lt]
    rw [cdfD_length, hlen]
    omega
  rw [choiceD, rngChoice]
  simp only [hcard]

theorem drawLaw_support (j : Fin n) (h : 0 < drawLaw p j) : 0 < (p j).val := by
  obtain ⟨h1, h2⟩ := ofFn_nonneg p hp hpos
  refine lt_of_le_of_ne (hp j) fun hz => ?_
  have hlt : j.val < (List.ofFn p).length := by rw [List.length_ofFn]; exact j.2
  have := (runD_step (List.ofFn p) h1 j.val hlt).2.2 (by rw [List.getElem_ofFn]; exact hz.symm)
  rw [drawLaw, cdfAt, cdfAt, this, sub_self, zero_div] at h
  exact lt_irrefl _ h

/-- The probabilities of the draws are accurate. -/
theorem drawLaw_near (hn : n ≤ 2 ^ 40) (j : Fin n) : |drawLaw p j - (p j).val / ∑ i, (p i).val| ≤ (6 * n + 3) / 2 ^ 52 := by
  obtain ⟨h1, h2⟩ := ofFn_nonneg p hp hpos
  have hlen : (List.ofFn p).length = n := List.length_ofFn
  have hlt : j.val < (List.ofFn p).length := by rw [hlen]; exact j.2
  have ha := cdfAt_error _ h1 h2 (by rw [hlen]; exact hn) (j.val + 1) hlt
  have hb := cdfAt_error _ h1 h2 (by rw [hlen]; exact hn) j.val hlt.le
  rw [hlen] at ha hb
  have e1 : realSum ((List.ofFn p).take (j.val + 1)) = realSum ((List.ofFn p).take j.val) + (p j).val := by
    rw [List.take_succ_eq_append_getElem hlt, List.getElem_ofFn]; simp [realSum]
  have e2 : realSum (List.ofFn p) = ∑ i, (p i).val := by
    rw [realSum, List.map_ofFn, List.sum_ofFn]; rfl
  rw [e1, e2, add_div] at ha
  rw [e2] at hb
  rw [drawLaw]
  generalize cdfAt (List.ofFn p) (j.val + 1) = A at *
  generalize cdfAt (List.ofFn p) j.val = B at *
  generalize (p j).val / ∑ i, (p i).val = q at *
  generalize realSum ((List.ofFn p).take j.val) / ∑ i, (p i).val = s at *
  have c1 := Int.le_ceil (A * 2 ^ 53)
  have c2 := Int.ceil_lt_add_one (A * 2 ^ 53)
  have c3 := Int.le_ceil (B * 2 ^ 53)
  have c4 := Int.ceil_lt_add_one (B * 2 ^ 53)
  have e : (6 * (n : ℝ) + 3) / 2 ^ 52 = 2 * ((3 * n + 1) / 2 ^ 52) + 1 / 2 ^ 52 := by ring
  rw [e]
  generalize (3 * (n : ℝ) + 1) / 2 ^ 52 = δ at *
  have ha' := abs_le.mp ha
  have hb' := abs_le.mp hb
  have hd : |((⌈A * 2 ^ 53⌉ : ℝ) - ⌈B * 2 ^ 53⌉) / 2 ^ 53 - (A - B)| ≤ 1 / 2 ^ 52 := by
    have e3 : ((⌈A * 2 ^ 53⌉ : ℝ) - ⌈B * 2 ^ 53⌉) / 2 ^ 53 - (A - B) = (((⌈A * 2 ^ 53⌉ : ℝ) - A * 2 ^ 53) - (⌈B * 2 ^ 53⌉ - B * 2 ^ 53)) / 2 ^ 53 := by
      field_simp; ring
    rw [e3, abs_div, abs_of_pos (by positivity : (0 : ℝ) < 2 ^ 53), div_le_iff₀ (by positivity)]
    have e4 : (1 : ℝ) / 2 ^ 52 * 2 ^ 53 = 2 := by norm_num
    rw [e4]
    exact abs_le.mpr ⟨by linarith, by linarith⟩
  have hd' := abs_le.mp hd
  exact abs_le.mpr ⟨by linarith [ha'.1, hb'.2, hd'.1], by linarith [ha'.2, hb'.1, hd'.2]⟩

end law

open MeasureTheory in
/-- `Generator.choice` in double precision: it is the exact choice with probabilities `q` that are multiples of `2^-53`, differ from the normalised pmf by at most `(6n + 3) 2^-52` and vanish where
the pmf does; `q j` is the probability of drawing `j`. -/
theorem C149_choice {n : Nat} (p : Fin n → Double) (hp : ∀ i, 0 ≤ (p i).val) (hpos : ∃ i, 0 < (p i).val) (hn : n ≤ 2 ^ 40) :
    ∃ q : Fin n → ℝ, (∀ j, 0 ≤ q j) ∧ ∑ j, q j = 1 ∧ (∀ j, ∃ k : ℤ, q j = k / 2 ^ 53) ∧ (∀ j, |q j - (p j).val / ∑ i, (p i).val| ≤ (6 * n + 3) / 2 ^ 52) ∧ (∀ j, 0 < q j → 0 < (p j).val) ∧
      (∀ u, choiceD p (randomD u) = rngChoice q u) ∧ (∀ u, 0 ≤ u → u < 1 → ∃ j, choiceD p (randomD u) = some j ∧ 0 < (p j).val) ∧
      ∀ j, volume {u : ℝ | u ∈ Set.Ico (0 : ℝ) 1 ∧ choiceD p (randomD u) = some j} = ENNReal.ofReal (q j) := by
  have hv := drawLaw_valid p hp hpos
  obtain ⟨v0, v1⟩ := (validPmf_iff _).mp hv
  refine ⟨drawLaw p, v0, v1, fun j => ⟨⌈cdfAt (List.ofFn p) (j.val + 1) * 2 ^ 53⌉ - ⌈cdfAt (List.ofFn p) j.val * 2 ^ 53⌉, ?_⟩, drawLaw_near p hp hpos hn, drawLaw_support p hp hpos, choiceD_eq p hp hpos, ?_, ?_⟩
  · rw [drawLaw]; push_cast; ring
  · intro u h0 h1
    obtain ⟨j, h2, h3⟩ := C84_choice_positive (drawLaw p) hv u ⟨h0, h1⟩
    exact ⟨j, by rw [choiceD_eq p hp hpos, h2], drawLaw_support p hp hpos j h3⟩
  · intro j
    simp only [choiceD_eq p hp hpos]
    exact C84_choice_measure _ hv j

/-- `DiscreteMemorylessSource.emit` in double precision never raises and emits only symbols of positive probability. -/
theorem C149_emit {n : Nat} (p : Fin n → Double) (hp : ∀ i, 0 ≤ (p i).val) (hpos : ∃ i, 0 < (p i).val) (us : List ℝ) (hu : ∀ u ∈ us, 0 ≤ u ∧ u < 1) :
    ∃ out, dmsEmitD p (us.map randomD) = some out ∧ out.length = us.length ∧ ∀ s ∈ out, 0 < (p s).val := by
  obtain ⟨out, h1, h2, h3, -⟩ := C84_emit (drawLaw p) (drawLaw_valid p hp hpos) us hu
  refine ⟨out, ?_, h2, fun s hs => drawLaw_support p hp hpos s (h3 s hs)⟩
  rw [← h1, dmsEmitD, dmsEmit, List.mapM_map]
  congr 1
  funext u
  exact choiceD_eq p hp hpos u

/-- `DiscreteMemorylessChannel.transmit` in double precision never raises on symbols of the input alphabet and never makes an impossible transition. -/
theorem C149_transmit {m n : Nat} (P : Fin m → Fin n → Double) (hP : ∀ i j, 0 ≤ (P i j).val) (hpos : ∀ i, ∃ j, 0 < (P i j).val) (input : List (Fin m × ℝ)) (hu : ∀ xu ∈ input, 0 ≤ xu.2 ∧ xu.2 < 1) :
    ∃ out, dmcTransmitD P (input.map fun xu => (xu.1.val, randomD xu.2)) = some out ∧ out.length = input.length ∧
      ∀ t (h : t < input.length) (h' : t < out.length), 0 < (P input[t].1 out[t]).val := by
  induction input with
  | nil => exact ⟨[], rfl, rfl, by simp⟩
  | cons xu input ih =>
    obtain ⟨out, h1, h2, h3⟩ := ih fun y hy => hu y (List.mem_cons_of_mem _ hy)
    obtain ⟨a0, a1⟩ := hu xu (by simp)
    obtain ⟨j, h4, h5⟩ := C84_choice_positive (drawLaw (P xu.1)) (drawLaw_valid _ (hP _) (hpos _)) xu.2 ⟨a0, a1⟩
    refine ⟨j :: out, ?_, by simp [h2], ?_⟩
    · rw [dmcTransmitD] at h1 ⊢
      rw [List.map_cons, List.mapM_cons, h1, dif_pos xu.1.2, choiceD_eq _ (hP _) (hpos _), h4]
      rfl
    · intro t ht ht'
      cases t with
      | zero => exact drawLaw_support _ (hP _) (hpos _) j h5
      | succ t => exact h3 t (by simpa using ht) (by simpa using ht')

/-- The chain that the double-precision simulator follows. -/
noncomputable def drawChain {n : Nat} (P : Fin n → Fin n → Double) : TMat ℝ n := fun i => drawLaw (P i)

section chain
variable {n : Nat} (P : Fin n → Fin n → Double) (hP : ∀ i j, 0 ≤ (P i j).val) (hpos : ∀ i, ∃ j, 0 < (P i j).val)
include hP hpos

theorem drawChain_valid : validTransitionMatrix (drawChain P) = true :=
  (C72_accepts _).mpr ⟨fun i => ((validPmf_iff _).mp (drawLaw_valid _ (hP i) (hpos i))).1, fun i => ((validPmf_iff _).mp (drawLaw_valid _ (hP i) (hpos i))).2⟩

theorem simulateD_eq (us : List ℝ) : ∀ i, simulateD P i (us.map randomD) = simulate (drawChain P) i us := by
  induction us with
  | nil => intro i; rfl
  | cons u us ih =>
    intro i
    rw [List.map_cons, simulateD, simulate, choiceD_eq _ (hP i) (hpos i)]
    simp only [ih]
    rfl

/-- `simulate` in double precision is the exact simulation of a chain `Q` whose transition probabilities differ from the given ones (normalised) by at most `(6n + 3) 2^-52`: it never raises, every move
has positive probability, and the state at time `t` has the law `Q^t`. -/
theorem C149_simulate (hn : n ≤ 2 ^ 40) :
    ∃ Q : TMat ℝ n, validTransitionMatrix Q = true ∧ (∀ i j, |Q i j - (P i j).val / ∑ k, (P i k).val| ≤ (6 * n + 3) / 2 ^ 52) ∧ (∀ i j, 0 < Q i j → 0 < (P i j).val) ∧
      (∀ i (us : List ℝ), simulateD P i (us.map randomD) = simulate Q i us) ∧
      (∀ i (us : List ℝ), (∀ u ∈ us, 0 ≤ u ∧ u < 1) → ∃ out, simulateD P i (us.map randomD) = some out ∧ out.length = us.length ∧ ∀ t (h : t + 1 < out.length), 0 < (P out[t] out[t + 1]).val) ∧
      ∀ i j steps t, t < steps → (uniformDraws steps).real {u | ∃ out, simulateD P i ((List.ofFn u).map randomD) = some out ∧ out[t]? = some j} = (Matrix.of Q ^ t) i j := by
  have hv := drawChain_valid P hP hpos
  have hs : ∀ i j, 0 < drawChain P i j → 0 < (P i j).val := fun i j h => drawLaw_support _ (hP i) (hpos i) j h
  refine ⟨drawChain P, hv, fun i j => drawLaw_near _ (hP i) (hpos i) hn j, hs, fun i us => simulateD_eq P hP hpos us i, ?_, ?_⟩
  · intro i us hu
    obtain ⟨out, h1, h2, -, h4⟩ := C84_simulate (drawChain P) hv i us hu
    exact ⟨out, by rw [simulateD_eq P hP hpos, h1], h2, fun t h => hs _ _ (h4 t h)⟩
  · intro i j steps t ht
    simp only [simulateD_eq P hP hpos]
    exact C121_simulate_law _ hv i j steps t ht

/-- The law of the simulated state stays close to that of the given chain (rows normalised): after `t` steps the probabilities differ by at most `t n (6n + 3) 2^-52` altogether. -/
theorem C149_simulate_drift (hn : n ≤ 2 ^ 40) :
    ∀ i steps t, t < steps → ∑ j, |(uniformDraws steps).real {u | ∃ out, simulateD P i ((List.ofFn u).map randomD) = some out ∧ out[t]? = some j} - (Matrix.of (fun i j : Fin n => (P i j).val / ∑ k, (P i k).val) ^ t) i j| ≤
      t * (n * ((6 * n + 3) / 2 ^ 52)) := by
  intro i steps t ht
  have hv := drawChain_valid P hP hpos
  obtain ⟨N, hN⟩ : ∃ N : TMat ℝ n, N = fun i j => (P i j).val / ∑ k, (P i k).val := ⟨_, rfl⟩
  rw [← hN]
  have hS : ∀ i, 0 < ∑ k, (P i k).val := by
    intro i
    obtain ⟨k, hk⟩ := hpos i
    exact hk.trans_le (Finset.single_le_sum (f := fun k => (P i k).val) (fun k _ => hP i k) (Finset.mem_univ k))
  have hN0 : ∀ i j, 0 ≤ N i j := fun i j => by rw [hN]; exact div_nonneg (hP i j) (hS i).le
  have hrow : ∀ i, ∑ j, N i j = 1 := fun i => by rw [hN]; simp only [← Finset.sum_div]; exact div_self (hS i).ne'
  simp only [simulateD_eq P hP hpos, C121_simulate_law _ hv i _ steps t ht]
  clear ht
  obtain ⟨q0, q1⟩ := (C72_accepts _).mp hv
  have hnear : ∀ i j, |drawChain P i j - N i j| ≤ (6 * n + 3) / 2 ^ 52 := by
    intro i j
    have := drawLaw_near _ (hP i) (hpos i) hn j
    rw [hN]
    exact this
  have hr0 : ∀ t k j, 0 ≤ (Matrix.of N ^ t) k j := fun t => pow_nonneg_entries N hN0 t
  have hr1 : ∀ t k, ∑ j, (Matrix.of N ^ t) k j = 1 := fun t k => pow_rows N hrow t k
  induction t with
  | zero => simp
  | succ t ih =>
    have e : ∀ j, (Matrix.of (drawChain P) ^ (t + 1)) i j - (Matrix.of N ^ (t + 1)) i j =
        ∑ k, (((Matrix.of (drawChain P) ^ t) i k - (Matrix.of N ^ t) i k) * drawChain P k j + (Matrix.of N ^ t) i k * (drawChain P k j - N k j)) := by
      intro j
      rw [pow_succ, pow_succ, Matrix.mul_apply, Matrix.mul_apply, ← Finset.sum_sub_distrib]
      refine Finset.sum_congr rfl fun k _ => ?_
      rw [Matrix.of_apply, Matrix.of_apply]
      ring
    have hb : ∀ j, |(Matrix.of (drawChain P) ^ (t + 1)) i j - (Matrix.of N ^ (t + 1)) i j| ≤
        ∑ k, (|(Matrix.of (drawChain P) ^ t) i k - (Matrix.of N ^ t) i k| * drawChain P k j + (Matrix.of N ^ t) i k * ((6 * n + 3) / 2 ^ 52)) := by
      intro j
      rw [e]
      refine (Finset.abs_sum_le_sum_abs _ _).trans (Finset.sum_le_sum fun k _ => (abs_add_le _ _).trans (add_le_add ?_ ?_))
      · rw [abs_mul, abs_of_nonneg (q0 k j)]
      · rw [abs_mul, abs_of_nonneg (hr0 t i k)]
        exact mul_le_mul_of_nonneg_left (hnear k j) (hr0 t i k)
    refine (Finset.sum_le_sum fun j _ => hb j).trans ?_
    rw [Finset.sum_comm]
    simp only [Finset.sum_add_distrib, ← Finset.mul_sum, q1, mul_one, Finset.sum_const, Finset.card_univ, Fintype.card_fin, nsmul_eq_mul]
    rw [← Finset.sum_mul, hr1 t i]
    push_cast
    linarith

theorem drawChain_step (hn : n ≤ 2 ^ 40) (hbig : ∀ i j, (P i j).val = 0 ∨ (6 * n + 3) / 2 ^ 52 * ∑ k, (P i k).val < (P i j).val) (i j : Fin n) : 0 < drawChain P i j ↔ 0 < realMat P i j := by
  refine ⟨fun h => drawLaw_support _ (hP i) (hpos i) j h, fun h => ?_⟩
  have hb := (hbig i j).resolve_left (ne_of_gt h)
  have hS : 0 < ∑ k, (P i k).val := by
    obtain ⟨k, hk⟩ := hpos i
    exact hk.trans_le (Finset.single_le_sum (f := fun k => (P i k).val) (fun k _ => hP i k) (Finset.mem_univ k))
  have h1 := (abs_le.mp (drawLaw_near _ (hP i) (hpos i) hn j)).1
  have h2 : (6 * n + 3) / 2 ^ 52 < (P i j).val / ∑ k, (P i k).val := (lt_div_iff₀ hS).mpr hb
  show 0 < drawLaw (P i) j
  linarith

theorem drawChain_reach (hn : n ≤ 2 ^ 40) (hbig : ∀ i j, (P i j).val = 0 ∨ (6 * n + 3) / 2 ^ 52 * ∑ k, (P i k).val < (P i j).val) : reach (drawChain P) = reach (realMat P) := by
  have hstep : Step (drawChain P) = Step (realMat P) := by
    funext i j
    exact propext (drawChain_step P hP hpos hn hbig i j)
  funext i
  ext j
  rw [mem_reach, mem_reach, hstep]

/-- `simulate_until_absorption` in double precision, when no positive entry is as small as the rounding errors: it is the exact simulation of the chain `Q`; the trajectory it returns makes only possible
moves, and the probability that `m` draws do not suffice tends to zero. -/
theorem C149_until (hn : n ≤ 2 ^ 40) (hbig : ∀ i j, (P i j).val = 0 ∨ (6 * n + 3) / 2 ^ 52 * ∑ k, (P i k).val < (P i j).val)
    (hdiag : ∀ i j, (P i i).val = 1 → j ≠ i → (P i j).val = 0) (ha : isAbsorbing (realMat P) = true) :
    ∃ Q : TMat ℝ n, validTransitionMatrix Q = true ∧ isAbsorbing Q = true ∧ (∀ i j, |Q i j - (P i j).val / ∑ k, (P i k).val| ≤ (6 * n + 3) / 2 ^ 52) ∧ (∀ i j, 0 < Q i j ↔ 0 < (P i j).val) ∧
      (∀ i (us : List ℝ), simulateUntilAbsorptionD P i (us.map randomD) = simulateUntilAbsorption Q i us) ∧
      ∀ i, Filter.Tendsto (fun m => (uniformDraws m).real {u | simulateUntilAbsorptionD P i ((List.ofFn u).map randomD) = .running}) Filter.atTop (nhds 0) := by
  have hv := drawChain_valid P hP hpos
  have hr := drawChain_reach P hP hpos hn hbig
  have hst := drawChain_step P hP hpos hn hbig
  have htr : transientStates (drawChain P) = transientStates (realMat P) := by rw [transientStates, transientStates, hr]
  have hsub : absorbingStates (realMat P) ⊆ absorbingStates (drawChain P) := by
    intro i hi
    rw [absorbingStates, Finset.mem_filter] at hi ⊢
    refine ⟨Finset.mem_univ _, ?_⟩
    have hsum := ((C72_accepts _).mp hv).2 i
    rw [Finset.sum_eq_single i] at hsum
    · exact hsum
    · intro j _ hj
      have h0 : realMat P i j = 0 := hdiag i j hi.2 hj
      have h1 := ((C72_accepts _).mp hv).1 i j
      by_contra hne
      have := (hst i j).mp (lt_of_le_of_ne h1 (Ne.symm hne))
      linarith
    · intro h; exact absurd (Finset.mem_univ i) h
  have ha' : isAbsorbing (drawChain P) = true := by
    rw [isAbsorbing] at ha ⊢
    by_cases h : absorbingStates (realMat P) = ∅
    · rw [if_pos h] at ha; simp at ha
    · rw [if_neg h, decide_eq_true_eq] at ha
      have hne : absorbingStates (drawChain P) ≠ ∅ := fun h' => h (Finset.subset_empty.mp (h' ▸ hsub))
      rw [if_neg hne, decide_eq_true_eq]
      intro i hi hempty
      have hi' : i ∈ Finset.univ \ absorbingStates (realMat P) := by
        simp only [Finset.mem_sdiff, Finset.mem_univ, true_and] at hi ⊢
        exact fun hmem => hi (hsub hmem)
      refine ha i hi' ?_
      rw [hr] at hempty
      exact Finset.subset_empty.mp (hempty ▸ Finset.inter_subset_inter_right hsub)
  have hloop : ∀ us i, untilLoopD P i (us.map randomD) = untilLoop (drawChain P) i us := by
    intro us
    induction us with
    | nil => intro i; rw [List.map_nil, untilLoopD, untilLoop, htr]
    | cons u us ih =>
      intro i
      rw [List.map_cons, untilLoopD, untilLoop, htr, choiceD_eq _ (hP i) (hpos i)]
      simp only [ih]
      rfl
  have hsim : ∀ i (us : List ℝ), simulateUntilAbsorptionD P i (us.map randomD) = simulateUntilAbsorption (drawChain P) i us := by
    intro i us
    rw [simulateUntilAbsorptionD, simulateUntilAbsorption, if_neg (by simpa using ha), if_neg (by simpa using ha'), hloop]
    rfl
  refine ⟨drawChain P, hv, ha', fun i j => drawLaw_near _ (hP i) (hpos i) hn j, hst, hsim, ?_⟩
  intro i
  simp only [hsim]
  exact (C121_until_absorption _ hv ha').2.1 i

end chain

/-! ### the binary channels: a comparison with `random()` -/

/-- The crossover probability that `random() < p` realises. -/
noncomputable def drawnProbability (p : ℝ) : ℝ := ⌈p * 2 ^ 53⌉ / 2 ^ 53

theorem randomD_lt (p u : ℝ) : randomD u < p ↔ u < drawnProbability p := by
  rw [randomD, drawnProbability, div_lt_iff₀ (by positivity), lt_div_iff₀ (by positivity), ← Int.floor_lt, ← Int.lt_ceil]

theorem below_one {x : ℝ} (hx : IsDouble x) (h1 : x < 1) : x ≤ 1 - 1 / 2 ^ 53 := by
  obtain ⟨m, e, hm, -, rfl⟩ := hx
  by_contra hc
  rw [not_le] at hc
  have hp : (0 : ℝ) < 2 ^ e := two_zpow_pos e
  have hm0 : 0 < m := by
    by_contra h
    have : (m : ℝ) * 2 ^ e ≤ 0 := mul_nonpos_of_nonpos_of_nonneg (by exact_mod_cast not_lt.mp h) hp.le
    have h2 : (0 : ℝ) < 1 - 1 / 2 ^ 53 := by norm_num
    linarith
  have he : e < 0 := by
    by_contra h
    have h2 : (1 : ℝ) ≤ 2 ^ e := one_le_zpow₀ (by norm_num) (not_lt.mp h)
    have h3 : (1 : ℝ) ≤ m := by exact_mod_cast hm0
    nlinarith
  have he' : -53 ≤ e := by
    by_contra h
    have h2 : (2 : ℝ) ^ e ≤ 2 ^ (-54 : ℤ) := zpow_le_zpow_right₀ (by norm_num) (by omega)
    have h3 : (m : ℝ) ≤ 2 ^ 53 := by
      have : m ≤ 2 ^ 53 := (le_abs_self m).trans hm.le
      exact_mod_cast this
    have h4 : (m : ℝ) * 2 ^ e ≤ 2 ^ 53 * 2 ^ (-54 : ℤ) := mul_le_mul h3 h2 hp.le (by positivity)
    have h5 : (2 : ℝ) ^ 53 * 2 ^ (-54 : ℤ) = 1 / 2 := by norm_num
    have h6 : (1 : ℝ) / 2 < 1 - 1 / 2 ^ 53 := by norm_num
    rw [h5] at h4
    linarith
  obtain ⟨d, rfl⟩ : ∃ d : ℕ, e = d - 53 := ⟨(e + 53).toNat, by omega⟩
  have e1 : (2 : ℝ) ^ ((d : ℤ) - 53) = 2 ^ d / 2 ^ 53 := by
    rw [zpow_sub₀ (by norm_num), zpow_natCast]; norm_num
  rw [e1, ← mul_div_assoc] at h1 hc
  rw [div_lt_one (by positivity)] at h1
  rw [lt_div_iff₀ (by positivity)] at hc
  have e2 : (1 - 1 / 2 ^ 53 : ℝ) * 2 ^ 53 = 2 ^ 53 - 1 := by norm_num
  rw [e2] at hc
  have h7 : (m : ℤ) * 2 ^ d < 2 ^ 53 := by exact_mod_cast h1
  have h8 : (2 : ℤ) ^ 53 - 1 < m * 2 ^ d := by exact_mod_cast hc
  omega

theorem drawnProbability_facts (p : Double) (h0 : 0 ≤ p.val) (h1 : p.val ≤ 1) :
    p.val ≤ drawnProbability p.val ∧ drawnProbability p.val < p.val + 1 / 2 ^ 53 ∧ drawnProbability p.val ≤ 1 ∧ (drawnProbability p.val = 0 ↔ p.val = 0) ∧ (drawnProbability p.val = 1 ↔ p.val = 1) ∧
      ((∃ k : ℤ, p.val = k / 2 ^ 53) → drawnProbability p.val = p.val) := by
  have a1 : p.val ≤ drawnProbability p.val := by
    rw [drawnProbability, le_div_iff₀ (by positivity)]; exact Int.le_ceil _
  have a2 : drawnProbability p.val < p.val + 1 / 2 ^ 53 := by
    rw [drawnProbability, div_lt_iff₀ (by positivity), add_mul, one_div, inv_mul_cancel₀ (by positivity)]; exact Int.ceil_lt_add_one _
  have e53 : (2 : ℝ) ^ 53 = ((9007199254740992 : ℤ) : ℝ) := by norm_num
  have a3 : drawnProbability p.val ≤ 1 := by
    rw [drawnProbability, div_le_one (by positivity)]
    have : ⌈p.val * 2 ^ 53⌉ ≤ (9007199254740992 : ℤ) := by
      rw [Int.ceil_le, ← e53]
      exact mul_le_of_le_one_left (by positivity) h1
    rw [e53]; exact_mod_cast this
  have a4 : (∃ k : ℤ, p.val = k / 2 ^ 53) → drawnProbability p.val = p.val := by
    rintro ⟨k, hk⟩
    rw [drawnProbability, hk, div_mul_cancel₀ _ (by positivity), Int.ceil_intCast]
  refine ⟨a1, a2, a3, ⟨fun h => le_antisymm (h ▸ a1) h0, fun h => ?_⟩, ⟨fun h => ?_, fun h => le_antisymm a3 (h ▸ a1)⟩, a4⟩
  · rw [a4 ⟨0, by rw [h]; simp⟩, h]
  · by_contra hne
    have := below_one p.2 (lt_of_le_of_ne h1 hne)
    change p.val ≤ _ at this
    linarith

/-- The binary symmetric, erasure and Z channels in double precision are the exact channels with the probability rounded up to a multiple of `2^-53`: a channel with probability 0 never errs, one with
probability 1 always does, and every other one errs with a probability that exceeds the given one by less than `2^-53`. -/
theorem C149_binary_channels (p : Double) (h0 : 0 ≤ p.val) (h1 : p.val ≤ 1) :
    ∃ q : ℝ, p.val ≤ q ∧ q < p.val + 1 / 2 ^ 53 ∧ q ≤ 1 ∧ (q = 0 ↔ p.val = 0) ∧ (q = 1 ↔ p.val = 1) ∧ ((∃ k : ℤ, p.val = k / 2 ^ 53) → q = p.val) ∧
      ∀ input : List (Nat × ℝ), bscTransmit p.val (input.map fun xu : Nat × ℝ => (xu.1, randomD xu.2)) = bscTransmit q input ∧
        becTransmit p.val (input.map fun xu : Nat × ℝ => (xu.1, randomD xu.2)) = becTransmit q input ∧
        zTransmit p.val (input.map fun xu : Nat × ℝ => (xu.1, randomD xu.2)) = zTransmit q input := by
  obtain ⟨a1, a2, a3, a4, a5, a6⟩ := drawnProbability_facts p h0 h1
  refine ⟨drawnProbability p.val, a1, a2, a3, a4, a5, a6, fun input => ⟨?_, ?_, ?_⟩⟩
  · rw [bscTransmit, bscTransmit, List.map_map]
    refine List.map_congr_left fun xu _ => ?_
    simp only [Function.comp_apply, randomD_lt]
  · rw [becTransmit, becTransmit, List.map_map]
    refine List.map_congr_left fun xu _ => ?_
    simp only [Function.comp_apply, randomD_lt]
  · rw [zTransmit, zTransmit, List.map_map]
    refine List.map_congr_left fun xu _ => ?_
    simp only [Function.comp_apply, ge_iff_le, ← not_lt, randomD_lt]

open MeasureTheory in
/-- However small the positive crossover probability, at least one of the `2^53` values of `random()` is an error: the simulated error rate is never below `2^-53`. -/
theorem C149_floor (p : Double) (h0 : 0 < p.val) (x : Nat) (hx : x < 2) :
    ENNReal.ofReal (1 / 2 ^ 53) ≤ volume {u : ℝ | u ∈ Set.Ico (0 : ℝ) 1 ∧ bscTransmit p.val [(x, randomD u)] ≠ [x]} := by
  have hsub : Set.Ico (0 : ℝ) (1 / 2 ^ 53) ⊆ {u : ℝ | u ∈ Set.Ico (0 : ℝ) 1 ∧ bscTransmit p.val [(x, randomD u)] ≠ [x]} := by
    intro u hu
    obtain ⟨u0, u1⟩ := hu
    have hlt : (1 : ℝ) / 2 ^ 53 < 1 := by norm_num
    refine ⟨⟨u0, u1.trans hlt⟩, ?_⟩
    have hr : randomD u = 0 := by
      rw [randomD]
      have : ⌊u * 2 ^ 53⌋ = 0 := by
        rw [Int.floor_eq_zero_iff]
        exact ⟨by positivity, by rwa [lt_div_iff₀ (by positivity)] at u1⟩
      rw [this]; simp
    rw [hr]
    simp only [bscTransmit, List.map_cons, List.map_nil, if_pos h0]
    have : x = 0 ∨ x = 1 := by omega
    rcases this with rfl | rfl <;> simp
  refine le_trans ?_ (measure_mono hsub)
  rw [Real.volume_Ico, sub_zero]

/-! ### a chain on which `simulate_until_absorption` never returns -/

/-- `1/4 - 2^-55`. -/
noncomputable def almostQuarterD : Double := ⟨1 / 4 - 1 / 2 ^ 55, 2 ^ 53 - 1, -55, by norm_num, by norm_num, by norm_num⟩

/-- `2^-55`. -/
noncomputable def tinyD : Double := ⟨1 / 2 ^ 55, 1, -55, by norm_num, by norm_num, by norm_num⟩

/-- 1. -/
noncomputable def oneD : Double := ⟨1, 1, 0, by norm_num, by norm_num, by norm_num⟩

/-- Rows that add up to exactly 1; states 0 and 1 are transient, 2 is absorbing. -/
noncomputable def hangMatrix : Fin 3 → Fin 3 → Double := ![![threeQuartersD, almostQuarterD, tinyD], ![oneD, 0, 0], ![0, 0, oneD]]

theorem rnd_just_below : rnd (3 / 4 + (1 / 4 - 1 / 2 ^ 55) : ℝ) = 1 := by
  have hn := rnd_nearest (3 / 4 + (1 / 4 - 1 / 2 ^ 55) : ℝ) (d := 1) (by have := isDouble_int 1 (by norm_num); simpa using this)
  have hle : rnd (3 / 4 + (1 / 4 - 1 / 2 ^ 55) : ℝ) ≤ 1 := by
    have := rnd_mono (by norm_num : (3 / 4 + (1 / 4 - 1 / 2 ^ 55) : ℝ) ≤ 1)
    rwa [rnd_one] at this
  by_contra hne
  have hb := below_one (rnd_isDouble (3 / 4 + (1 / 4 - 1 / 2 ^ 55) : ℝ)) (lt_of_le_of_ne hle hne)
  generalize rnd (3 / 4 + (1 / 4 - 1 / 2 ^ 55) : ℝ) = r at *
  have e : |1 - (3 / 4 + (1 / 4 - 1 / 2 ^ 55) : ℝ)| = 1 / 2 ^ 55 := by rw [abs_of_nonneg (by norm_num)]; norm_num
  rw [e] at hn
  have := (abs_le.mp hn).1
  have h2 : (1 : ℝ) / 2 ^ 53 = 4 * (1 / 2 ^ 55) := by norm_num
  rw [h2] at hb
  have h3 : (0 : ℝ) < 1 / 2 ^ 55 := by positivity
  linarith

theorem rnd_just_above : rnd (1 + 1 / 2 ^ 55 : ℝ) = 1 := by
  have hn := rnd_nearest (1 + 1 / 2 ^ 55 : ℝ) (d := 1) (by have := isDouble_int 1 (by norm_num); simpa using this)
  have hle : 1 ≤ rnd (1 + 1 / 2 ^ 55 : ℝ) := by
    have := rnd_mono (by norm_num : (1 : ℝ) ≤ 1 + 1 / 2 ^ 55)
    rwa [rnd_one] at this
  by_contra hne
  have hb := gap_one (rnd_isDouble (1 + 1 / 2 ^ 55 : ℝ)) (lt_of_le_of_ne hle (Ne.symm hne))
  generalize rnd (1 + 1 / 2 ^ 55 : ℝ) = r at *
  have e : |1 - (1 + 1 / 2 ^ 55 : ℝ)| = 1 / 2 ^ 55 := by rw [abs_of_nonpos (by norm_num)]; norm_num
  rw [e] at hn
  have := (abs_le.mp hn).2
  have h2 : (1 : ℝ) / 2 ^ 52 = 8 * (1 / 2 ^ 55) := by norm_num
  rw [h2] at hb
  have h3 : (0 : ℝ) < 1 / 2 ^ 55 := by positivity
  linarith

theorem hangMatrix_real : realMat hangMatrix = ![![3 / 4, 1 / 4 - 1 / 2 ^ 55, 1 / 2 ^ 55], ![1, 0, 0], ![0, 0, 1]] := by
  funext i j
  fin_cases i <;> fin_cases j <;> rfl

theorem hangMatrix_drawn : drawLaw (hangMatrix 0) 2 = 0 := by
  have hl : List.ofFn (hangMatrix 0) = [threeQuartersD, almostQuarterD, tinyD] := by
    rw [hangMatrix]; rfl
  have z : (0 + threeQuartersD : Double).val = 3 / 4 := by
    rw [Double.add_val, Double.val_zero, zero_add, rnd_of_isDouble (x := threeQuartersD.val) threeQuartersD.2]; rfl
  have r2 : (runD [threeQuartersD, almostQuarterD, tinyD] 2).val = 1 := by
    show ((0 + threeQuartersD : Double) + almostQuarterD).val = 1
    rw [Double.add_val, z]; exact rnd_just_below
  have r3 : (runD [threeQuartersD, almostQuarterD, tinyD] 3).val = 1 := by
    rw [runD_succ _ 2 (by simp), Double.add_val, r2]; exact rnd_just_above
  rw [drawLaw, hl, cdfAt, cdfAt]
  show ((⌈rnd ((runD [threeQuartersD, almostQuarterD, tinyD] 3).val / _) * 2 ^ 53⌉ : ℝ) - ⌈rnd ((runD [threeQuartersD, almostQuarterD, tinyD] 2).val / _) * 2 ^ 53⌉) / 2 ^ 53 = 0
  rw [r2, r3, sub_self, zero_div]

/-- `simulate_until_absorption` on a chain that komm considers absorbing, with rows that add up to exactly 1, need not return: whatever the generator delivers, the loop is still running. -/
theorem C149_until_hangs : validTransitionMatrix (realMat hangMatrix) = true ∧ isAbsorbing (realMat hangMatrix) = true ∧
    ∀ us : List ℝ, (∀ u ∈ us, 0 ≤ u ∧ u < 1) → simulateUntilAbsorptionD hangMatrix 0 (us.map randomD) = .running := by
  have hP : validTransitionMatrix (realMat hangMatrix) = true := by
    rw [C72_accepts, hangMatrix_real]
    refine ⟨fun i j => ?_, fun i => ?_⟩
    · fin_cases i <;> fin_cases j <;> simp <;> norm_num
    · fin_cases i <;> simp [Fin.sum_univ_three] <;> norm_num
  have hA : ∀ i : Fin 3, i ∈ absorbingStates (realMat hangMatrix) ↔ i = 2 := by
    intro i
    rw [absorbingStates, Finset.mem_filter, hangMatrix_real]
    fin_cases i <;> simp <;> norm_num
  have ha : isAbsorbing (realMat hangMatrix) = true := by
    rw [(C72_absorbing _ hP).2 (by norm_num)]
    intro i
    fin_cases i
    · exact ⟨2, (hA 2).mpr rfl, 1, by rw [pow_one, Matrix.of_apply, hangMatrix_real]; simp⟩
    · refine ⟨2, (hA 2).mpr rfl, 2, ?_⟩
      rw [pow_two, Matrix.mul_apply, Fin.sum_univ_three]
      simp only [Matrix.of_apply]
      rw [hangMatrix_real]
      simp
    · exact ⟨2, (hA 2).mpr rfl, 0, by simp⟩
  refine ⟨hP, ha, ?_⟩
  have hnn : ∀ i j, 0 ≤ (hangMatrix i j).val := ((C72_accepts _).mp hP).1
  have hpos : ∀ i, ∃ j, 0 < (hangMatrix i j).val := by
    intro i
    by_contra h
    simp only [not_exists, not_lt] at h
    have := ((C72_accepts _).mp hP).2 i
    have h2 : ∑ j, realMat hangMatrix i j ≤ 0 := Finset.sum_nonpos fun j _ => h j
    linarith
  have hloop : ∀ us : List ℝ, (∀ u ∈ us, 0 ≤ u ∧ u < 1) → ∀ i : Fin 3, i ≠ 2 → untilLoopD hangMatrix i (us.map randomD) = none := by
    intro us
    induction us with
    | nil =>
      intro _ i hi
      rw [List.map_nil, untilLoopD, if_pos ((transient_iff _ hP ha i).mpr fun h => hi ((hA i).mp h))]
    | cons u us ih =>
      intro hu i hi
      rw [List.map_cons, untilLoopD, if_pos ((transient_iff _ hP ha i).mpr fun h => hi ((hA i).mp h)), choiceD_eq _ (hnn i) (hpos i)]
      obtain ⟨j, h1, h2⟩ := C84_choice_positive (drawLaw (hangMatrix i)) (drawLaw_valid _ (hnn i) (hpos i)) u (hu u (by simp))
      have hj : j ≠ 2 := by
        rintro rfl
        have hi' : i = 0 ∨ i = 1 := (by decide : ∀ i : Fin 3, i ≠ 2 → i = 0 ∨ i = 1) i hi
        rcases hi' with rfl | rfl
        · rw [hangMatrix_drawn] at h2; exact lt_irrefl _ h2
        · have := drawLaw_support _ (hnn 1) (hpos 1) 2 h2
          change 0 < realMat hangMatrix 1 2 at this
          rw [hangMatrix_real] at this
          simp at this
      rw [h1]
      simp only [Option.bind_eq_bind, Option.bind_some]
      rw [ih (fun v hv => hu v (List.mem_cons_of_mem _ hv)) j hj]
      rfl
  intro us hu
  rw [simulateUntilAbsorptionD, if_neg (by simpa using ha), hloop us hu 0 (by decide)]

/-! Non-vacuity: a chain with an absorbing state 0 and a transient state 1 meets the hypotheses of the theorems about chains, its row 1 those about pmfs. -/

/-- State 0 is absorbing; state 1 goes to 0 with probability 3/4. -/
noncomputable def smallMatrix : Fin 2 → Fin 2 → Double := ![![oneD, 0], ![threeQuartersD, quarterD]]

theorem smallMatrix_real : realMat smallMatrix = ![![1, 0], ![3 / 4, 1 / 4]] := by
  funext i j
  fin_cases i <;> fin_cases j <;> rfl

example : (∀ i j, 0 ≤ (smallMatrix i j).val) ∧ (∀ i, ∃ j, 0 < (smallMatrix i j).val) ∧
    (∀ i j, (smallMatrix i j).val = 0 ∨ (6 * (2 : ℕ) + 3) / 2 ^ 52 * ∑ k, (smallMatrix i k).val < (smallMatrix i j).val) ∧
    (∀ i j, (smallMatrix i i).val = 1 → j ≠ i → (smallMatrix i j).val = 0) ∧ isAbsorbing (realMat smallMatrix) = true ∧
    Filter.Tendsto (fun m => (uniformDraws m).real {u | simulateUntilAbsorptionD smallMatrix 1 ((List.ofFn u).map randomD) = .running}) Filter.atTop (nhds 0) := by
  have hv : ∀ i j, (smallMatrix i j).val = (![![1, 0], ![3 / 4, 1 / 4]] : TMat ℝ 2) i j := fun i j => congrFun (congrFun smallMatrix_real i) j
  have h1 : ∀ i j, 0 ≤ (smallMatrix i j).val := by
    intro i j; rw [hv]; fin_cases i <;> fin_cases j <;> simp; norm_num
  have h2 : ∀ i, ∃ j, 0 < (smallMatrix i j).val := by
    intro i; refine ⟨0, ?_⟩; rw [hv]; fin_cases i <;> simp
  have h3 : ∀ i j, (smallMatrix i j).val = 0 ∨ (6 * (2 : ℕ) + 3) / 2 ^ 52 * ∑ k, (smallMatrix i k).val < (smallMatrix i j).val := by
    intro i j
    simp only [hv]
    fin_cases i <;> fin_cases j <;> simp [Fin.sum_univ_two] <;> norm_num
  have h4 : ∀ i j, (smallMatrix i i).val = 1 → j ≠ i → (smallMatrix i j).val = 0 := by
    intro i j
    simp only [hv]
    fin_cases i <;> fin_cases j <;> simp
  have hP : validTransitionMatrix (realMat smallMatrix) = true := by
    rw [C72_accepts, smallMatrix_real]
    refine ⟨fun i j => ?_, fun i => ?_⟩
    · fin_cases i <;> fin_cases j <;> simp; norm_num
    · fin_cases i <;> simp [Fin.sum_univ_two]; norm_num
  have h5 : isAbsorbing (realMat smallMatrix) = true := by
    rw [(C72_absorbing _ hP).2 (by norm_num)]
    have h0 : (0 : Fin 2) ∈ absorbingStates (realMat smallMatrix) := by
      rw [absorbingStates, Finset.mem_filter, smallMatrix_real]; simp
    intro i
    fin_cases i
    · exact ⟨0, h0, 0, by simp⟩
    · exact ⟨0, h0, 1, by rw [pow_one, Matrix.of_apply, smallMatrix_real]; simp⟩
  refine ⟨h1, h2, h3, h4, h5, ?_⟩
  obtain ⟨Q, -, -, -, -, -, h⟩ := C149_until smallMatrix h1 h2 (by norm_num) h3 h4 h5
  exact h 1

end Komm
