import Verif.Lemmas.BCH2
/-! Berlekamp's algorithm: the loop and its result. -/
namespace Komm
open Polynomial Bifield
variable {F : Bifield}

theorem φ_foldl_add (hF : F.Valid) (f g : Nat → Nat) (a D : Nat) (ha : a < F.order) :
    (List.range D).foldl (fun acc i => F.add acc (F.mul (f i) (g i))) a < F.order ∧
    φ F ((List.range D).foldl (fun acc i => F.add acc (F.mul (f i) (g i))) a) =
      φ F a + ∑ i ∈ Finset.range D, φ F (f i) * φ F (g i) := by
  induction D with
  | zero => simpa using ha
  | succ D ih =>
    rw [List.range_succ, List.foldl_append, List.foldl_cons, List.foldl_nil, φ_add, φ_mul hF, ih.2, Finset.sum_range_succ]
    exact ⟨add_lt ih.1 (mul_lt hF _ _), by ring⟩

theorem getD_snoc_lt {α : Type} (l : List α) (a d : α) (i : Nat) (h : i < l.length) : (l ++ [a]).getD i d = l.getD i d :=
  List.getD_append _ _ _ _ h

theorem getD_snoc_eq {α : Type} (l : List α) (a d : α) (i : Nat) (h : i = l.length) : (l ++ [a]).getD i d = a := by
  subst h; simp

theorem bmStep_spec (hF : F.Valid) {delta : Nat} {S : List Nat} (hS : ∀ x ∈ S, x < F.order) {j : Nat}
    (hj : j < delta - 1) {hist : List BMEntry} (h : BMInv F (delta - 1) S j hist) :
    ∃ hist', bmStep F delta S hist j = some hist' ∧ BMInv F (delta - 1) S (j + 1) hist' ∧
      (∀ i ≤ j, hist'.getD (i + 1) default = hist.getD (i + 1) default) ∧
      ((hist'.getD (j + 2) default).deg = if (hist.getD (j + 1) default).disc = 0 then (hist.getD (j + 1) default).deg else
        max (hist.getD (j + 1) default).deg (j + 1 - (hist.getD (j + 1) default).deg)) := by
  obtain ⟨sigma, D, h1, h2, h3, h4, h5, h6, h7⟩ := bmUpdate_spec hF hj h
  have h0pos : 0 < F.order := by have := one_lt_order hF; omega
  unfold bmStep
  rw [h1]
  simp only [Option.map_some]
  generalize hdisc : (if j + 2 < delta then _ else 0) = disc
  have hold : ∀ i, i ≤ j + 1 → (hist ++ [(⟨sigma, disc, D⟩ : BMEntry)]).getD i default = hist.getD i default :=
    fun i hi => getD_snoc_lt _ _ _ _ (by rw [h.len]; omega)
  have hnew : (hist ++ [(⟨sigma, disc, D⟩ : BMEntry)]).getD (j + 2) default = ⟨sigma, disc, D⟩ :=
    getD_snoc_eq _ _ _ _ (by rw [h.len])
  have hdl : disc < F.order ∧ (j + 1 < delta - 1 → φ F disc = ∑ l ∈ Finset.range (D + 1),
      φ F (sigma.getD l 0) * synd F S (j + 2 - l)) := by
    rw [← hdisc]
    split
    · have := φ_foldl_add hF (fun i => sigma.getD (i + 1) 0) (fun i => S.getD (j - i) 0) (S.getD (j + 1) 0) D
        (getD_lt hS h0pos _)
      refine ⟨this.1, fun _ => ?_⟩
      rw [this.2, Finset.sum_range_succ', h4, φ_one, one_mul, add_comm]
      congr 1
      apply Finset.sum_congr rfl
      intro i hi
      have := Finset.mem_range.mp hi
      rw [synd, show j + 2 - (i + 1) - 1 = j - i by omega]
    · exact ⟨h0pos, fun hlt => by omega⟩
  have hg := h.good j le_rfl
  refine ⟨_, rfl, ⟨by simp [h.len], ?_, ?_, ?_, ?_⟩, fun i hi => hold _ (by omega), ?_⟩
  · rw [hold 0 (by omega)]; exact h.init
  · intro i hi
    rcases Nat.lt_or_ge i (j + 1) with hlt | hge
    · rw [hold _ (by omega)]; exact h.good i (by omega)
    · have : i = j + 1 := by omega
      subst this
      rw [hnew]
      exact ⟨h2, h3, h4, h5, hdl.1, h7, hdl.2⟩
  · intro i hi hd
    rw [hold i hi] at hd ⊢
    rw [hnew]
    show i ≤ _ + D
    rcases Nat.lt_or_ge i (j + 1) with hlt | hge
    · have := h.max_le i (by omega) hd
      rw [h6]; split <;> omega
    · have : i = j + 1 := by omega
      subst this
      rw [h6, if_neg hd]
      have := hg.le
      omega
  · rw [hnew]
    show ∃ i ≤ j + 1, _ ∧ i = _ + D
    by_cases hd : (hist.getD (j + 1) default).disc = 0
    · obtain ⟨i, hi, hd', he⟩ := h.max_eq
      refine ⟨i, by omega, ?_⟩
      rw [hold i (by omega), h6, if_pos hd]
      exact ⟨hd', he⟩
    · rw [if_neg hd] at h6
      by_cases hmax : (hist.getD (j + 1) default).deg ≤ j + 1 - (hist.getD (j + 1) default).deg
      · refine ⟨j + 1, le_rfl, ?_⟩
        rw [hold _ le_rfl]
        refine ⟨hd, ?_⟩
        have := hg.le
        omega
      · obtain ⟨i, hi, hd', he⟩ := h.max_eq
        refine ⟨i, by omega, ?_⟩
        rw [hold i (by omega)]
        exact ⟨hd', by omega⟩
  · rw [hnew]; exact h6

theorem bmInit (hF : F.Valid) {N : Nat} {S : List Nat} (hS : ∀ x ∈ S, x < F.order) :
    BMInv F N S 0 [⟨[1], 1, 0⟩, ⟨[1], S.getD 0 0, 0⟩] where
  len := rfl
  init := rfl
  good := by
    intro i hi
    have : i = 0 := by omega
    subst this
    have h0pos : 0 < F.order := by have := one_lt_order hF; omega
    refine ⟨rfl, ?_, rfl, le_rfl, getD_lt hS h0pos 0, ?_, ?_⟩
    · intro x hx; simp at hx; subst hx; exact one_lt_order hF
    · intro m h1 h2; simp at h1; omega
    · intro _
      simp [BMEntry.coef, synd, φ_one]
  max_le := by
    intro i hi _
    have : i = 0 := by omega
    subst this; simp
  max_eq := ⟨0, le_rfl, by simp, by simp⟩

/-- The loop never raises, and establishes the invariant. -/
theorem bmLoop_spec (hF : F.Valid) {delta : Nat} {S : List Nat} (hS : ∀ x ∈ S, x < F.order) (j : Nat)
    (hj : j ≤ delta - 1) :
    ∃ hist, (List.range j).foldlM (bmStep F delta S) [⟨[1], 1, 0⟩, ⟨[1], S.getD 0 0, 0⟩] = some hist ∧
      BMInv F (delta - 1) S j hist ∧
      (∀ i < j, (hist.getD (i + 2) default).deg = if (hist.getD (i + 1) default).disc = 0 then
        (hist.getD (i + 1) default).deg else
        max (hist.getD (i + 1) default).deg (i + 1 - (hist.getD (i + 1) default).deg)) := by
  induction j with
  | zero => exact ⟨_, rfl, bmInit hF hS, by simp⟩
  | succ j ih =>
    obtain ⟨hist, h1, h2, h3⟩ := ih (by omega)
    obtain ⟨hist', h4, h5, h6, h7⟩ := bmStep_spec hF hS (by omega) h2
    refine ⟨hist', ?_, h5, ?_⟩
    · rw [List.range_succ, List.foldlM_append, h1]
      show (List.foldlM (bmStep F delta S) hist [j]) = _
      rw [List.foldlM_cons, h4]; rfl
    · intro i hi
      rcases Nat.lt_or_ge i j with hlt | hge
      · have e1 := h6 (i + 1) (by omega)
        have e2 := h6 i (by omega)
        rw [show i + 1 + 1 = i + 2 by omega] at e1
        rw [e1, e2]
        exact h3 i hlt
      · have : i = j := by omega
        subst this
        rw [h6 i le_rfl]; exact h7

/-- The algorithm never raises; it returns a list starting with 1. -/
theorem berlekamp_total (hF : F.Valid) {delta : Nat} (hd : 2 ≤ delta) {S : List Nat} (hS : ∀ x ∈ S, x < F.order) :
    ∃ sigma, berlekampAlgorithm F delta S = some sigma ∧ (∀ x ∈ sigma, x < F.order) ∧ sigma.getD 0 0 = 1 := by
  obtain ⟨hist, h1, h2, h3⟩ := bmLoop_spec hF hS (delta - 1) le_rfl
  have hg := h2.good (delta - 1) le_rfl
  rw [show delta - 1 + 1 = delta by omega] at hg
  exact ⟨_, by rw [berlekampAlgorithm, h1]; rfl, hg.lt, hg.one⟩

/-- With at most `(delta - 1) / 2` locators, the roots of the result are exactly the inverse locators. -/
theorem berlekamp_roots (hF : F.Valid) {delta : Nat} (hd : 2 ≤ delta) {S : List Nat} (hS : ∀ x ∈ S, x < F.order)
    [DecidableEq (K F)] (L : Finset (K F)) (hL : ∀ β ∈ L, β ≠ 0) (hcard : 2 * L.card ≤ delta - 1)
    (hSL : ∀ m, 1 ≤ m → m ≤ delta - 1 → synd F S m = ∑ β ∈ L, β ^ m) :
    ∃ sigma, berlekampAlgorithm F delta S = some sigma ∧ (∀ x ∈ sigma, x < F.order) ∧ sigma.getD 0 0 = 1 ∧
      ∀ x : K F, (lpoly F sigma).eval x = 0 ↔ ∃ β ∈ L, x * β = 1 := by
  have _i : Fact (Irreducible (toPoly F.modulus)) := ⟨hF.2.2⟩
  obtain ⟨hist, h1, h2, h3⟩ := bmLoop_spec hF hS (delta - 1) le_rfl
  have hdeg : ∀ j, j ≤ delta - 1 → (hist.getD (j + 1) default).deg ≤ L.card := by
    intro j
    induction j with
    | zero =>
      intro _
      have := (h2.good 0 (by omega)).le; omega
    | succ j ih =>
      intro hj
      have ih := ih (by omega)
      rw [h3 j (by omega)]
      split
      · exact ih
      · rename_i hd0
        have hg := h2.good j (by omega)
        apply max_le ih
        by_contra hc
        apply hd0
        rw [← φ_eq_zero hF hg.disc_lt, hg.disc (by omega)]
        have hr := lfsr_roots L hL (delta - 1) (synd F S) _ hSL _ j (by omega) hg.recur (by omega)
        exact lfsr_next L (delta - 1) (synd F S) _ hSL _ j (by omega) hg.le hr
  have hD := hdeg (delta - 1) le_rfl
  have hg := h2.good (delta - 1) le_rfl
  rw [show delta - 1 + 1 = delta by omega] at hg hD
  refine ⟨_, by rw [berlekampAlgorithm, h1]; rfl, hg.lt, hg.one, ?_⟩
  generalize hist.getD delta default = e at hg hD
  have hr := lfsr_roots L hL (delta - 1) (synd F S) _ hSL _ (delta - 1) le_rfl hg.recur (by omega)
  have hcoef : ∀ l, (lpoly F e.sigma).coeff l = e.coef F l := fun l => lpoly_coeff _ _
  have hne : lpoly F e.sigma ≠ 0 := by
    intro h0
    have := hcoef 0
    rw [h0, BMEntry.coef, hg.one, φ_one] at this
    simp at this
  have hnd : (lpoly F e.sigma).natDegree ≤ e.deg := by
    have := lpoly_natDegree_lt _ hne
    rw [hg.len] at this; omega
  have heval : ∀ x, (lpoly F e.sigma).eval x = ∑ l ∈ Finset.range (e.deg + 1), e.coef F l * x ^ l := by
    intro x
    rw [eval_eq_sum_range' (n := e.deg + 1) (by omega)]
    simp_rw [hcoef]
  have hroot : ∀ β ∈ L, (lpoly F e.sigma).eval β⁻¹ = 0 := by
    intro β hβ
    have hb := hL β hβ
    have : (lpoly F e.sigma).eval β⁻¹ * β ^ e.deg = 0 := by
      rw [heval, Finset.sum_mul, ← hr β hβ]
      apply Finset.sum_congr rfl
      intro l hl
      have := Finset.mem_range.mp hl
      have e2 : β ^ e.deg = β ^ (e.deg - l) * β ^ l := by rw [← pow_add]; congr 1; omega
      rw [e2, mul_assoc, mul_comm (β ^ (e.deg - l)), ← mul_assoc (β⁻¹ ^ l), ← mul_pow, inv_mul_cancel₀ hb, one_pow,
        one_mul]
    exact (mul_eq_zero.mp this).resolve_right (pow_ne_zero _ hb)
  have hsub : L.image (fun β => β⁻¹) ⊆ (lpoly F e.sigma).roots.toFinset := by
    intro x hx
    obtain ⟨β, hβ, rfl⟩ := Finset.mem_image.mp hx
    rw [Multiset.mem_toFinset, mem_roots hne]
    exact hroot β hβ
  have heq := Finset.eq_of_subset_of_card_le hsub (by
    rw [Finset.card_image_of_injective _ inv_injective]
    exact ((Multiset.toFinset_card_le _).trans (card_roots' _)).trans (hnd.trans hD))
  intro x
  constructor
  · intro hx
    have : x ∈ (lpoly F e.sigma).roots.toFinset := by
      rw [Multiset.mem_toFinset, mem_roots hne]; exact hx
    rw [← heq] at this
    obtain ⟨β, hβ, rfl⟩ := Finset.mem_image.mp this
    exact ⟨β, hβ, inv_mul_cancel₀ (hL β hβ)⟩
  · rintro ⟨β, hβ, hx⟩
    have : x = β⁻¹ := eq_inv_of_mul_eq_one_left hx
    rw [this]; exact hroot β hβ

end Komm
