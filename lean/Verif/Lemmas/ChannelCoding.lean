import Verif.Lemmas.Information
import Mathlib.Analysis.Convex.StdSimplex
import Mathlib.Topology.Algebra.Order.LiminfLimsup
/-! The coding theorem for a memoryless channel, as statements on finite sums (natural units). -/
namespace Komm.Info
open Real
variable {n m : Nat}

/-- The probability that the block `y` is received when the block `x` is sent over a memoryless channel. -/
def blockLaw (P : Fin n → Fin m → ℝ) {N : Nat} (x : Fin N → Fin n) (y : Fin N → Fin m) : ℝ := ∏ k, P (x k) (y k)

/-- Expectation of a product of functions of the single coordinates. -/
theorem sum_prod {N : Nat} (f : Fin N → Fin m → ℝ) : ∑ y : Fin N → Fin m, ∏ k, f k (y k) = ∏ k, ∑ j, f k j := by
  rw [Finset.prod_univ_sum]
  simp [Fintype.piFinset_univ]

theorem blockLaw_nonneg {P : Fin n → Fin m → ℝ} (hP : ∀ i, Pmf (P i)) {N : Nat} (x : Fin N → Fin n) (y : Fin N → Fin m) : 0 ≤ blockLaw P x y :=
  Finset.prod_nonneg fun k _ => (hP _).nn _

theorem blockLaw_sum {P : Fin n → Fin m → ℝ} (hP : ∀ i, Pmf (P i)) {N : Nat} (x : Fin N → Fin n) : ∑ y, blockLaw P x y = 1 := by
  simp only [blockLaw]
  rw [sum_prod fun k => P (x k)]
  exact Finset.prod_eq_one fun k _ => (hP _).sum

/-- Independence: the second moment of a sum of centred independent terms. -/
theorem second_moment {N : Nat} (p z : Fin N → Fin m → ℝ) (hp : ∀ k, Pmf (p k)) (hz : ∀ k, ∑ j, p k j * z k j = 0) :
    ∑ y : Fin N → Fin m, (∏ k, p k (y k)) * (∑ k, z k (y k)) ^ 2 = ∑ k, ∑ j, p k j * z k j ^ 2 := by
  have h1 : ∀ k l : Fin N, ∑ y : Fin N → Fin m, (∏ t, p t (y t)) * (z k (y k) * z l (y l)) = if k = l then ∑ j, p k j * z k j ^ 2 else 0 := by
    intro k l
    have h2 : ∀ y : Fin N → Fin m, (∏ t, p t (y t)) * (z k (y k) * z l (y l)) =
        ∏ t, p t (y t) * ((if t = k then z k (y t) else 1) * (if t = l then z l (y t) else 1)) := by
      intro y
      rw [Finset.prod_mul_distrib, Finset.prod_mul_distrib, Finset.prod_ite_eq' Finset.univ k (fun t => z k (y t)),
        Finset.prod_ite_eq' Finset.univ l (fun t => z l (y t))]
      simp
    simp only [h2]
    rw [sum_prod fun t j => p t j * ((if t = k then z k j else 1) * (if t = l then z l j else 1))]
    split
    · next h =>
      subst h
      rw [Finset.prod_eq_single k]
      · simp [pow_two]
      · intro t _ ht
        simp [ht, (hp t).sum]
      · simp
    · next h =>
      apply Finset.prod_eq_zero (Finset.mem_univ k)
      simp [h, hz]
  have h3 : ∀ y : Fin N → Fin m, (∏ k, p k (y k)) * (∑ k, z k (y k)) ^ 2 = ∑ k, ∑ l, (∏ t, p t (y t)) * (z k (y k) * z l (y l)) := by
    intro y
    rw [pow_two, Finset.sum_mul_sum, Finset.mul_sum]
    simp only [Finset.mul_sum]
  simp only [h3]
  rw [Finset.sum_comm]
  refine Finset.sum_congr rfl fun k _ => ?_
  rw [Finset.sum_comm]
  simp only [h1]
  simp

/-- Chebyshev's inequality for a memoryless block. -/
theorem chebyshev {N : Nat} (p z : Fin N → Fin m → ℝ) (hp : ∀ k, Pmf (p k)) (V : ℝ) (hV : ∀ k, ∑ j, p k j * z k j ^ 2 ≤ V) (t : ℝ) (ht : 0 < t) :
    ∑ y : Fin N → Fin m with t ≤ |∑ k, z k (y k) - ∑ k, ∑ j, p k j * z k j|, ∏ k, p k (y k) ≤ N * V / t ^ 2 := by
  have h1 := second_moment p (fun k j => z k j - ∑ j', p k j' * z k j') hp (fun k => by
    simp only [mul_sub, Finset.sum_sub_distrib, ← Finset.sum_mul, (hp k).sum, one_mul, sub_self])
  have h2 : ∀ k, ∑ j, p k j * (z k j - ∑ j', p k j' * z k j') ^ 2 ≤ V := by
    intro k
    refine le_trans ?_ (hV k)
    have e : ∑ j, p k j * (z k j - ∑ j', p k j' * z k j') ^ 2 = ∑ j, p k j * z k j ^ 2 - (∑ j', p k j' * z k j') ^ 2 := by
      obtain ⟨μ, hμ⟩ : ∃ μ, μ = ∑ j', p k j' * z k j' := ⟨_, rfl⟩
      rw [← hμ]
      have : ∀ j, p k j * (z k j - μ) ^ 2 = p k j * z k j ^ 2 - 2 * μ * (p k j * z k j) + μ ^ 2 * p k j := fun j => by ring
      simp only [this, Finset.sum_add_distrib, Finset.sum_sub_distrib, ← Finset.mul_sum, (hp k).sum, ← hμ]
      ring
    rw [e]
    nlinarith [sq_nonneg (∑ j', p k j' * z k j')]
  have h3 : ∑ k : Fin N, ∑ j, p k j * (z k j - ∑ j', p k j' * z k j') ^ 2 ≤ N * V := by
    refine (Finset.sum_le_sum fun k _ => h2 k).trans ?_
    simp
  rw [← h1] at h3
  rw [le_div_iff₀ (by positivity), Finset.sum_mul]
  refine le_trans ?_ h3
  rw [Finset.sum_filter]
  refine Finset.sum_le_sum fun y _ => ?_
  have hnn : 0 ≤ ∏ k, p k (y k) := Finset.prod_nonneg fun k _ => (hp k).nn _
  split
  · next h =>
    refine mul_le_mul_of_nonneg_left ?_ hnn
    rw [Finset.sum_sub_distrib, ← sq_abs (∑ k, z k (y k) - _)]
    exact pow_le_pow_left₀ ht.le h 2
  · positivity

/-- The information density is concentrated. -/
theorem density_cheb {P : Fin n → Fin m → ℝ} (hP : ∀ i, Pmf (P i)) (q : Fin m → ℝ) (V : ℝ) (hV : ∀ i, ∑ j, P i j * log (P i j / q j) ^ 2 ≤ V)
    {N : Nat} (hN : 0 < N) (x : Fin N → Fin n) (δ : ℝ) (hδ : 0 < δ) :
    ∑ y : Fin N → Fin m with N * δ ≤ |∑ k, log (P (x k) (y k) / q (y k)) - ∑ k, D (P (x k)) q|, blockLaw P x y ≤ V / (N * δ ^ 2) := by
  have hN' : (0 : ℝ) < N := by exact_mod_cast hN
  have := chebyshev (fun k => P (x k)) (fun k j => log (P (x k) j / q j)) (fun k => hP _) V (fun k => hV _) (N * δ) (by positivity)
  refine this.trans_eq ?_
  field_simp

/-- The density of a block with positive probability. -/
theorem density_log {P : Fin n → Fin m → ℝ} (q : Fin m → ℝ) {N : Nat} (x : Fin N → Fin n) (y : Fin N → Fin m)
    (hp : ∀ k, 0 < P (x k) (y k)) (hq : ∀ k, 0 < q (y k)) : log (blockLaw P x y / ∏ k, q (y k)) = ∑ k, log (P (x k) (y k) / q (y k)) := by
  rw [blockLaw, ← Finset.prod_div_distrib, log_prod fun k _ => (div_pos (hp k) (hq k)).ne']

theorem blockLaw_pos {P : Fin n → Fin m → ℝ} (hP : ∀ i, Pmf (P i)) {N : Nat} (x : Fin N → Fin n) (y : Fin N → Fin m) (h : blockLaw P x y ≠ 0) :
    ∀ k, 0 < P (x k) (y k) := fun k =>
  lt_of_le_of_ne ((hP _).nn _) fun h0 => h (Finset.prod_eq_zero (Finset.mem_univ k) h0.symm)

/-- The strong converse for a finite block length. -/
theorem converse {P : Fin n → Fin m → ℝ} (hP : ∀ i, Pmf (P i)) {q : Fin m → ℝ} (hq : Pmf q) (hac : ∀ i, AC (P i) q) (C : ℝ) (hC : ∀ i, D (P i) q ≤ C)
    (V : ℝ) (hV : ∀ i, ∑ j, P i j * log (P i j / q j) ^ 2 ≤ V) {N M : Nat} (hN : 0 < N) (x : Fin M → Fin N → Fin n) (g : (Fin N → Fin m) → Option (Fin M))
    (δ : ℝ) (hδ : 0 < δ) :
    ∑ w, ∑ y with g y = some w, blockLaw P (x w) y ≤ M * (V / (N * δ ^ 2)) + exp (N * (C + δ)) := by
  have h1 : ∀ w, ∑ y with g y = some w, blockLaw P (x w) y ≤ V / (N * δ ^ 2) + exp (N * (C + δ)) * ∑ y with g y = some w, ∏ k, q (y k) := by
    intro w
    rw [← Finset.sum_filter_add_sum_filter_not _ fun y => N * δ ≤ |∑ k, log (P (x w k) (y k) / q (y k)) - ∑ k, D (P (x w k)) q|]
    refine add_le_add ?_ ?_
    · refine le_trans ?_ (density_cheb hP q V hV hN (x w) δ hδ)
      refine Finset.sum_le_sum_of_subset_of_nonneg ?_ fun y _ _ => blockLaw_nonneg hP _ _
      intro y hy
      simp only [Finset.mem_filter, Finset.mem_univ, true_and] at hy ⊢
      exact hy.2
    · rw [Finset.mul_sum]
      refine le_trans (Finset.sum_le_sum (g := fun y => exp (N * (C + δ)) * ∏ k, q (y k)) fun y hy => ?_) ?_
      · simp only [Finset.mem_filter, Finset.mem_univ, true_and, not_le] at hy
        have hq0 : 0 ≤ ∏ k, q (y k) := Finset.prod_nonneg fun k _ => hq.nn _
        by_cases h0 : blockLaw P (x w) y = 0
        · rw [h0]; positivity
        · have hp := blockLaw_pos hP _ _ h0
          have hqp : ∀ k, 0 < q (y k) := fun k => hac _ _ (hp k)
          have hQ : 0 < ∏ k, q (y k) := Finset.prod_pos fun k _ => hqp k
          have hW : 0 < blockLaw P (x w) y := Finset.prod_pos fun k _ => hp k
          rw [← div_le_iff₀ hQ, ← log_le_iff_le_exp (div_pos hW hQ), density_log q _ _ hp hqp]
          have h2 := (abs_lt.mp hy.2).2
          have h3 : ∑ k, D (P (x w k)) q ≤ N * C := by
            refine (Finset.sum_le_sum fun k _ => hC _).trans ?_
            simp
          linarith
      · refine Finset.sum_le_sum_of_subset_of_nonneg (Finset.filter_subset _ _) fun y _ _ => ?_
        exact mul_nonneg (exp_pos _).le (Finset.prod_nonneg fun k _ => hq.nn _)
  refine (Finset.sum_le_sum fun w _ => h1 w).trans ?_
  rw [Finset.sum_add_distrib, Finset.sum_const, Finset.card_univ, Fintype.card_fin, nsmul_eq_mul, ← Finset.mul_sum]
  refine add_le_add (le_refl _) ?_
  have h4 : ∑ w : Fin M, ∑ y with g y = some w, ∏ k : Fin N, q (y k) ≤ 1 := by
    have h5 : ∑ y : Fin N → Fin m, ∏ k, q (y k) = 1 := by
      rw [sum_prod fun _ => q]
      exact Finset.prod_eq_one fun _ _ => hq.sum
    rw [← h5]
    simp only [Finset.sum_filter]
    rw [Finset.sum_comm]
    refine Finset.sum_le_sum fun y _ => ?_
    have hq0 : 0 ≤ ∏ k, q (y k) := Finset.prod_nonneg fun k _ => hq.nn _
    cases hg : g y with
    | none => simpa using hq0
    | some w => simp
  calc exp (N * (C + δ)) * _ ≤ exp (N * (C + δ)) * 1 := mul_le_mul_of_nonneg_left h4 (exp_pos _).le
    _ = _ := mul_one _

/-- Feinstein's lemma: a code of any size `M` below `γ (ε - P(density ≤ log γ))`, built word by word. -/
theorem feinstein {X Y : Type} [Fintype X] [Fintype Y] [DecidableEq Y] (r : X → ℝ) (hr0 : ∀ x, 0 ≤ r x) (hr1 : ∑ x, r x = 1) (W : X → Y → ℝ)
    (hW0 : ∀ x y, 0 ≤ W x y) (hW1 : ∀ x, ∑ y, W x y = 1) (γ : ℝ) (hγ : 0 < γ) (ε : ℝ) (b : ℝ)
    (hb : ∀ x, 0 < r x → ∑ y with W x y ≤ γ * ∑ x', r x' * W x' y, W x y ≤ b) :
    ∀ M : Nat, (M : ℝ) / γ + b < ε + 1 / γ → ∃ (x : Fin M → X) (A : Fin M → Finset Y), (∀ w w', w ≠ w' → Disjoint (A w) (A w')) ∧
      (∀ w, 1 - ε ≤ ∑ y ∈ A w, W (x w) y) ∧ ∀ w, ∀ y ∈ A w, γ * ∑ x', r x' * W x' y ≤ W (x w) y := by
  intro M
  induction M with
  | zero => intro _; exact ⟨Fin.elim0, Fin.elim0, fun w => w.elim0, fun w => w.elim0, fun w => w.elim0⟩
  | succ M ih =>
    intro hM
    have hg : 0 < 1 / γ := by positivity
    have hM' : (M : ℝ) / γ + b < ε := by
      have : ((M + 1 : Nat) : ℝ) / γ = M / γ + 1 / γ := by push_cast; ring
      linarith
    obtain ⟨x, A, h1, h2, h3⟩ := ih (by linarith)
    let B : Finset Y := Finset.univ.biUnion A
    -- the probability that the output falls in the regions already used
    have hQ : ∑ y ∈ B, ∑ x', r x' * W x' y ≤ M / γ := by
      have h4 : ∑ y ∈ B, ∑ x', r x' * W x' y = ∑ w, ∑ y ∈ A w, ∑ x', r x' * W x' y :=
        Finset.sum_biUnion fun w _ w' _ h => h1 w w' h
      rw [h4]
      have h5 : ∀ w ∈ Finset.univ, ∑ y ∈ A w, ∑ x', r x' * W x' y ≤ 1 / γ := by
        intro w _
        rw [le_div_iff₀ hγ, mul_comm, Finset.mul_sum]
        refine (Finset.sum_le_sum fun y hy => h3 w y hy).trans ?_
        rw [← hW1 (x w)]
        exact Finset.sum_le_sum_of_subset_of_nonneg (Finset.subset_univ _) fun y _ _ => hW0 _ _
      refine (Finset.sum_le_sum h5).trans ?_
      simp [div_eq_mul_inv]
    have hex : ∃ x0, 0 < r x0 ∧ 1 - ε ≤ ∑ y ∈ (Finset.univ.filter fun y => ¬ W x0 y ≤ γ * ∑ x', r x' * W x' y) \ B, W x0 y := by
      by_contra hc0
      have hc := fun x0 (h : 0 < r x0) => lt_of_not_ge fun h' => hc0 ⟨x0, h, h'⟩
      have h6 : ∀ x0 ∈ Finset.univ, r x0 ≤ r x0 * ((1 - ε) + b + ∑ y ∈ B, W x0 y) ∧ (0 < r x0 → r x0 < r x0 * ((1 - ε) + b + ∑ y ∈ B, W x0 y)) := by
        intro x0 _
        rcases (hr0 x0).eq_or_lt with h0 | h0
        · simp [← h0]
        · have h7 := hc x0 h0
          have h8 := hb x0 h0
          have h9 := Finset.sum_filter_add_sum_filter_not Finset.univ (fun y => W x0 y ≤ γ * ∑ x', r x' * W x' y) fun y => W x0 y
          rw [hW1] at h9
          have h10 : ∑ y with ¬ W x0 y ≤ γ * ∑ x', r x' * W x' y, W x0 y ≤
              ∑ y ∈ (Finset.univ.filter fun y => ¬ W x0 y ≤ γ * ∑ x', r x' * W x' y) \ B, W x0 y + ∑ y ∈ B, W x0 y := by
            rw [← Finset.sum_union Finset.sdiff_disjoint]
            refine Finset.sum_le_sum_of_subset_of_nonneg ?_ fun y _ _ => hW0 _ _
            rw [Finset.sdiff_union_self_eq_union]
            exact Finset.subset_union_left
          have h11 : 1 < (1 - ε) + b + ∑ y ∈ B, W x0 y := by linarith
          have : r x0 < r x0 * ((1 - ε) + b + ∑ y ∈ B, W x0 y) := by nlinarith
          exact ⟨this.le, fun _ => this⟩
      obtain ⟨x0, hx0⟩ : ∃ x0, 0 < r x0 := by
        by_contra hn
        push Not at hn
        have : ∑ x, r x ≤ 0 := Finset.sum_nonpos fun x _ => hn x
        linarith
      have h12 := Finset.sum_lt_sum (fun x hx => (h6 x hx).1) ⟨x0, Finset.mem_univ _, (h6 x0 (Finset.mem_univ _)).2 hx0⟩
      simp only [mul_add, Finset.sum_add_distrib, ← Finset.sum_mul, hr1, one_mul] at h12
      have h13 : ∑ x, r x * ∑ y ∈ B, W x y = ∑ y ∈ B, ∑ x', r x' * W x' y := by
        simp only [Finset.mul_sum]
        exact Finset.sum_comm
      rw [h13] at h12
      linarith
    obtain ⟨x0, hx0, h14⟩ := hex
    refine ⟨Fin.snoc x x0, Fin.snoc A ((Finset.univ.filter fun y => ¬ W x0 y ≤ γ * ∑ x', r x' * W x' y) \ B), ?_, ?_, ?_⟩
    · have hd : ∀ w, Disjoint (A w) ((Finset.univ.filter fun y => ¬ W x0 y ≤ γ * ∑ x', r x' * W x' y) \ B) := fun w =>
        Finset.disjoint_of_subset_left (Finset.subset_biUnion_of_mem A (Finset.mem_univ w)) Finset.disjoint_sdiff
      intro w w'
      refine Fin.lastCases ?_ (fun w => ?_) w <;> refine Fin.lastCases ?_ (fun w' => ?_) w'
      · simp
      · intro _
        simp only [Fin.snoc_last, Fin.snoc_castSucc]
        exact (hd w').symm
      · intro _
        simp only [Fin.snoc_last, Fin.snoc_castSucc]
        exact hd w
      · intro h
        simp only [Fin.snoc_castSucc]
        exact h1 w w' fun e => h (by rw [e])
    · intro w
      refine Fin.lastCases ?_ (fun w => ?_) w
      · simpa using h14
      · simpa using h2 w
    · intro w
      refine Fin.lastCases ?_ (fun w => ?_) w
      · intro y hy
        simp only [Fin.snoc_last, Finset.mem_sdiff, Finset.mem_filter, Finset.mem_univ, true_and, not_le] at hy ⊢
        exact hy.1.le
      · simpa using h3 w

/-- The Kuhn–Tucker conditions hold at a maximiser of the mutual information. -/
theorem kkt {r : Fin n → ℝ} {P : Fin n → Fin m → ℝ} (hr : Pmf r) (hP : ∀ i, Pmf (P i)) (hmax : ∀ s, Pmf s → I s P ≤ I r P) :
    (∀ i, AC (P i) (outputPmf r P)) ∧ (∀ i, D (P i) (outputPmf r P) ≤ I r P) ∧ ∀ i, 0 < r i → D (P i) (outputPmf r P) = I r P := by
  obtain ⟨q, hq⟩ : ∃ q, q = outputPmf r P := ⟨_, rfl⟩
  have hqp : Pmf q := hq ▸ out_pmf hr hP
  obtain ⟨C, hC⟩ : ∃ C, C = I r P := ⟨_, rfl⟩
  have hC0 : 0 ≤ C := hC ▸ I_nonneg hr hP
  rw [← hq, ← hC]
  -- moving a little towards the input symbol `i`
  have key : ∀ i t, 0 < t → t < 1 → D (P i) (fun j => (1 - t) * q j + t * P i j) ≤ C := by
    intro i t ht0 ht1
    let s : Fin n → ℝ := fun k => (1 - t) * r k + t * if k = i then 1 else 0
    have hs : Pmf s := by
      refine ⟨fun k => ?_, ?_⟩
      · have := hr.nn k
        show 0 ≤ (1 - t) * r k + t * if k = i then 1 else 0
        split
        · nlinarith
        · nlinarith
      · show ∑ k, ((1 - t) * r k + t * if k = i then 1 else 0) = 1
        rw [Finset.sum_add_distrib, ← Finset.mul_sum, ← Finset.mul_sum, hr.sum]
        simp
    have hout : outputPmf s P = fun j => (1 - t) * q j + t * P i j := by
      funext j
      rw [hq]
      show ∑ k, ((1 - t) * r k + t * if k = i then 1 else 0) * P k j = (1 - t) * ∑ k, r k * P k j + t * P i j
      simp only [add_mul, Finset.sum_add_distrib, Finset.mul_sum]
      simp [mul_assoc]
    have hac : AC q (fun j => (1 - t) * q j + t * P i j) := fun j hj => by
      have := (hP i).nn j
      have : 0 < (1 - t) * q j := mul_pos (by linarith) hj
      nlinarith [mul_nonneg ht0.le ((hP i).nn j)]
    have h1 := I_eq hs hP
    have h2 : ∑ k, s k * D (P k) (outputPmf s P) = (1 - t) * ∑ k, r k * D (P k) (outputPmf s P) + t * D (P i) (outputPmf s P) := by
      show ∑ k, ((1 - t) * r k + t * if k = i then 1 else 0) * D (P k) (outputPmf s P) = _
      simp only [add_mul, Finset.sum_add_distrib, Finset.mul_sum]
      simp [mul_assoc]
    rw [h2, hout] at h1
    have h3 := golden hr hP (q := fun j => (1 - t) * q j + t * P i j) (hq ▸ hac)
    have h4 : 0 ≤ D q (fun j => (1 - t) * q j + t * P i j) := D_nonneg hqp (hout ▸ out_pmf hs hP) hac
    rw [← hq, ← hC] at h3
    have h5 := hmax s hs
    rw [← hC] at h5
    have h6 : (1 - t) * C ≤ (1 - t) * ∑ k, r k * D (P k) (fun j => (1 - t) * q j + t * P i j) :=
      mul_le_mul_of_nonneg_left (by linarith) (by linarith)
    have h7 : t * D (P i) (fun j => (1 - t) * q j + t * P i j) ≤ t * C := by linarith
    exact le_of_mul_le_mul_left h7 ht0
  have hAC : ∀ i, AC (P i) q := by
    intro i j hj
    by_contra hn
    have hq0 : q j = 0 := le_antisymm (not_lt.mp hn) (hqp.nn j)
    -- the term of `j` is unbounded
    have hlow : ∀ t, 0 < t → t < 1 → P i j * log (1 / t) - 1 ≤ C := by
      intro t ht0 ht1
      refine le_trans ?_ (key i t ht0 ht1)
      rw [D, ← Finset.add_sum_erase _ _ (Finset.mem_univ j)]
      have e1 : P i j / ((1 - t) * q j + t * P i j) = 1 / t := by
        rw [hq0, mul_zero, zero_add]; field_simp
      rw [e1]
      have h8 := gibbs_gen (Finset.univ.erase j) (P i) (fun j => (1 - t) * q j + t * P i j) (fun j _ => (hP i).nn j)
        (fun j _ => add_nonneg (mul_nonneg (by linarith) (hqp.nn j)) (mul_nonneg ht0.le ((hP i).nn j)))
        (fun j _ h => by have := mul_nonneg (by linarith : 0 ≤ 1 - t) (hqp.nn j); have := mul_pos ht0 h; linarith)
      have h9 : 0 ≤ ∑ j ∈ Finset.univ.erase j, P i j := Finset.sum_nonneg fun j _ => (hP i).nn j
      have h10 : ∑ j ∈ Finset.univ.erase j, ((1 - t) * q j + t * P i j) ≤ 1 := by
        have : ∑ j, ((1 - t) * q j + t * P i j) = 1 := by
          rw [Finset.sum_add_distrib, ← Finset.mul_sum, ← Finset.mul_sum, hqp.sum, (hP i).sum]; ring
        refine le_trans ?_ this.le
        exact Finset.sum_le_sum_of_subset_of_nonneg (Finset.erase_subset _ _) fun j _ _ =>
          add_nonneg (mul_nonneg (by linarith) (hqp.nn j)) (mul_nonneg ht0.le ((hP i).nn j))
      linarith
    have h11 := hlow (exp (-((C + 2) / P i j))) (exp_pos _) (by
      rw [exp_lt_one_iff]
      have : 0 < (C + 2) / P i j := by positivity
      linarith)
    rw [one_div, ← exp_neg, log_exp, neg_neg] at h11
    have : P i j * ((C + 2) / P i j) = C + 2 := by field_simp
    linarith
  have hD : ∀ i, D (P i) q ≤ C := by
    intro i
    have hcont : ContinuousAt (fun t : ℝ => D (P i) (fun j => (1 - t) * q j + t * P i j)) 0 := by
      unfold D
      refine tendsto_finset_sum _ fun j _ => ?_
      show ContinuousAt (fun t : ℝ => P i j * log (P i j / ((1 - t) * q j + t * P i j))) 0
      rcases ((hP i).nn j).eq_or_lt with h0 | h0
      · rw [← h0]; simp; exact continuousAt_const
      · have hqj := hAC i j h0
        have hne : (1 - (0 : ℝ)) * q j + 0 * P i j ≠ 0 := by simp [hqj.ne']
        refine ContinuousAt.mul continuousAt_const (ContinuousAt.log (ContinuousAt.div continuousAt_const (by fun_prop) hne) ?_)
        exact div_ne_zero h0.ne' hne
    have hlim : Filter.Tendsto (fun t : ℝ => D (P i) (fun j => (1 - t) * q j + t * P i j)) (nhdsWithin 0 (Set.Ioi 0)) (nhds (D (P i) q)) := by
      have := hcont.tendsto.mono_left (nhdsWithin_le_nhds (s := Set.Ioi (0 : ℝ)))
      simpa using this
    refine le_of_tendsto hlim ?_
    filter_upwards [Ioo_mem_nhdsGT (zero_lt_one' ℝ)] with t ht
    exact key i t ht.1 ht.2
  refine ⟨hAC, hD, fun i hi => ?_⟩
  have h1 := I_eq hr hP
  rw [← hC, ← hq] at h1
  by_contra hne
  have hlt : D (P i) q < C := lt_of_le_of_ne (hD i) hne
  have h2 : ∑ k, r k * D (P k) q < ∑ k, r k * C :=
    Finset.sum_lt_sum (fun k _ => mul_le_mul_of_nonneg_left (hD k) (hr.nn k)) ⟨i, Finset.mem_univ _, mul_lt_mul_of_pos_left hlt hi⟩
  rw [← Finset.sum_mul, hr.sum, one_mul] at h2
  linarith

/-- The mutual information of a channel has a maximum. -/
theorem exists_max (P : Fin n → Fin m → ℝ) (hn : 0 < n) : ∃ r, Pmf r ∧ ∀ s, Pmf s → I s P ≤ I r P := by
  have hc : IsCompact {r : Fin n → ℝ | Pmf r} := by
    have : {r : Fin n → ℝ | Pmf r} = stdSimplex ℝ (Fin n) := by
      ext r
      exact ⟨fun h => ⟨h.nn, h.sum⟩, fun h => ⟨h.1, h.2⟩⟩
    rw [this]
    exact isCompact_stdSimplex _ _
  have hcont : Continuous fun r : Fin n → ℝ => I r P := by
    unfold I H outputPmf
    refine Continuous.sub (continuous_finset_sum _ fun j _ => continuous_negMulLog.comp ?_) (continuous_finset_sum _ fun i _ => ?_)
    · exact continuous_finset_sum _ fun i _ => by fun_prop
    · fun_prop
  obtain ⟨r, hr, hmax⟩ := hc.exists_isMaxOn ⟨_, uniform_pmf hn⟩ hcont.continuousOn
  exact ⟨r, hr, fun s hs => hmax hs⟩

/-- Achievability for a finite block length. -/
theorem achieve {r : Fin n → ℝ} {P : Fin n → Fin m → ℝ} (hr : Pmf r) (hP : ∀ i, Pmf (P i)) (hmax : ∀ s, Pmf s → I s P ≤ I r P)
    (V : ℝ) (hV : ∀ i, ∑ j, P i j * log (P i j / outputPmf r P j) ^ 2 ≤ V) {N M : Nat} (hN : 0 < N) (δ ε : ℝ) (hδ : 0 < δ)
    (hM : M / exp (N * (I r P - δ)) + V / (N * δ ^ 2) < ε) :
    ∃ (x : Fin M → Fin N → Fin n) (A : Fin M → Finset (Fin N → Fin m)), (∀ w w', w ≠ w' → Disjoint (A w) (A w')) ∧
      ∀ w, 1 - ε ≤ ∑ y ∈ A w, blockLaw P (x w) y := by
  obtain ⟨hac, -, hD⟩ := kkt hr hP hmax
  have hN' : (0 : ℝ) < N := by exact_mod_cast hN
  have hout : ∀ y : Fin N → Fin m, ∑ x' : Fin N → Fin n, (∏ k, r (x' k)) * blockLaw P x' y = ∏ k, outputPmf r P (y k) := by
    intro y
    simp only [blockLaw, ← Finset.prod_mul_distrib]
    rw [sum_prod fun k i => r i * P i (y k)]
    rfl
  have hb : ∀ x : Fin N → Fin n, 0 < ∏ k, r (x k) → ∑ y with blockLaw P x y ≤ exp (N * (I r P - δ)) * ∑ x' : Fin N → Fin n, (∏ k, r (x' k)) * blockLaw P x' y,
      blockLaw P x y ≤ V / (N * δ ^ 2) := by
    intro x hx
    have hpos : ∀ k, 0 < r (x k) := fun k => lt_of_le_of_ne (hr.nn _) fun h0 => hx.ne' (Finset.prod_eq_zero (Finset.mem_univ k) h0.symm)
    refine le_trans ?_ (density_cheb hP (outputPmf r P) V hV hN x δ hδ)
    simp only [hout]
    rw [Finset.sum_filter, Finset.sum_filter]
    refine Finset.sum_le_sum fun y _ => ?_
    have hnn := blockLaw_nonneg hP x y
    by_cases h0 : blockLaw P x y = 0
    · simp [h0]
    by_cases hle : blockLaw P x y ≤ exp (N * (I r P - δ)) * ∏ k, outputPmf r P (y k)
    · rw [if_pos hle, if_pos]
      have hp := blockLaw_pos hP _ _ h0
      have hqp : ∀ k, 0 < outputPmf r P (y k) := fun k => hac _ _ (hp k)
      have hQ : 0 < ∏ k, outputPmf r P (y k) := Finset.prod_pos fun k _ => hqp k
      have hW : 0 < blockLaw P x y := Finset.prod_pos fun k _ => hp k
      rw [← div_le_iff₀ hQ, ← log_le_iff_le_exp (div_pos hW hQ), density_log _ _ _ hp hqp] at hle
      have hs : ∑ k, D (P (x k)) (outputPmf r P) = N * I r P := by
        rw [Finset.sum_congr rfl fun k _ => hD _ (hpos k)]
        simp
      rw [hs, le_abs]
      right
      linarith
    · rw [if_neg hle]
      split <;> first | exact hnn | exact le_refl _
  have hM' : (M : ℝ) / exp (N * (I r P - δ)) + V / (N * δ ^ 2) < ε + 1 / exp (N * (I r P - δ)) := by
    have : 0 < 1 / exp (N * (I r P - δ)) := by positivity
    linarith
  obtain ⟨x, A, h1, h2, -⟩ := feinstein (fun x : Fin N → Fin n => ∏ k, r (x k)) (fun x => Finset.prod_nonneg fun k _ => hr.nn _)
    (by rw [sum_prod fun _ => r]; exact Finset.prod_eq_one fun _ _ => hr.sum) (fun x y => blockLaw P x y) (blockLaw_nonneg hP) (blockLaw_sum hP)
    (exp (N * (I r P - δ))) (exp_pos _) ε (V / (N * δ ^ 2)) hb M hM'
  exact ⟨x, A, h1, h2⟩

end Komm.Info
