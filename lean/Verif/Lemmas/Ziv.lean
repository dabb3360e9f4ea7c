import Verif.Model.LempelZiv
import Mathlib.Analysis.SpecialFunctions.Log.Basic
import Mathlib.Analysis.SpecialFunctions.Pow.Real
import Mathlib.Algebra.BigOperators.Field
import Mathlib.Data.Nat.Log
import Mathlib.Algebra.BigOperators.Ring.Finset
import Mathlib.Data.Finset.Prod
/-! Ziv's inequality: the number of phrases of a parsing against the probability of the parsed word. -/
namespace Komm

/-- A finite-state source over the alphabet `{0, ..., q-1}`: from state `s`, symbol `a` is emitted with probability `prob s a` and the source moves to
`next s a`. -/
structure FSource (S : Type) (q : Nat) where
  next : S → Nat → S
  prob : S → Nat → ℝ
  nonneg : ∀ s a, 0 ≤ prob s a
  total : ∀ s, ∑ a ∈ Finset.range q, prob s a = 1

namespace FSource
variable {S : Type} {q : Nat} (F : FSource S q)

/-- The probability of emitting a word, starting in state `s`. -/
def wordProb : S → List Nat → ℝ
  | _, [] => 1
  | s, a :: w => F.prob s a * wordProb (F.next s a) w

/-- The state after emitting a word. -/
def run : S → List Nat → S
  | s, [] => s
  | s, a :: w => run (F.next s a) w

theorem wordProb_nonneg (s : S) (w : List Nat) : 0 ≤ F.wordProb s w := by
  induction w generalizing s with
  | nil => exact zero_le_one
  | cons a w ih => exact mul_nonneg (F.nonneg _ _) (ih _)

theorem wordProb_append (s : S) (u v : List Nat) : F.wordProb s (u ++ v) = F.wordProb s u * F.wordProb (F.run s u) v := by
  induction u generalizing s with
  | nil => simp [wordProb, run]
  | cons a u ih => simp [wordProb, run, ih, mul_assoc]

theorem prob_le_one (s : S) (a : Nat) (ha : a < q) : F.prob s a ≤ 1 := by
  rw [← F.total s]
  exact Finset.single_le_sum (fun b _ => F.nonneg s b) (Finset.mem_range.mpr ha)

theorem wordProb_le_one (s : S) (w : List Nat) (hw : ∀ a ∈ w, a < q) : F.wordProb s w ≤ 1 := by
  induction w generalizing s with
  | nil => exact le_rfl
  | cons a w ih =>
    exact mul_le_one₀ (F.prob_le_one s a (hw a (by simp))) (F.wordProb_nonneg _ _) (ih _ fun b hb => hw b (List.mem_cons_of_mem _ hb))

/-- The words over the alphabet of length at most `M`. -/
def wordsUpTo (q : Nat) : Nat → Finset (List Nat)
  | 0 => {[]}
  | M + 1 => insert [] ((Finset.range q ×ˢ wordsUpTo q M).image fun p : Nat × List Nat => p.1 :: p.2)

theorem mem_wordsUpTo (M : Nat) (w : List Nat) (hl : w.length ≤ M) (hw : ∀ a ∈ w, a < q) : w ∈ wordsUpTo q M := by
  induction M generalizing w with
  | zero => simp [wordsUpTo]; simpa using hl
  | succ M ih =>
    cases w with
    | nil => simp [wordsUpTo]
    | cons a w =>
      rw [wordsUpTo, Finset.mem_insert]
      right
      refine Finset.mem_image.mpr ⟨(a, w), ?_, rfl⟩
      refine Finset.mem_product.mpr ⟨Finset.mem_range.mpr (hw a (by simp)), ih w (by simpa using hl) fun b hb => hw b (List.mem_cons_of_mem _ hb)⟩

/-- With a geometric law on the lengths, all words together have mass at most one. -/
theorem stop_sum (θ : ℝ) (h0 : 0 ≤ θ) (h1 : θ ≤ 1) (M : Nat) (s : S) :
    ∑ w ∈ wordsUpTo q M, (1 - θ) * θ ^ w.length * F.wordProb s w ≤ 1 := by
  induction M generalizing s with
  | zero => simp [wordsUpTo, wordProb]; exact h0
  | succ M ih =>
    rw [wordsUpTo, Finset.sum_insert (by simp), Finset.sum_image (by
      rintro ⟨a, w⟩ _ ⟨b, v⟩ _ h; simpa using h), Finset.sum_product]
    have e : ∀ a, ∑ w ∈ wordsUpTo q M, (1 - θ) * θ ^ (a :: w).length * F.wordProb s (a :: w) =
        θ * F.prob s a * ∑ w ∈ wordsUpTo q M, (1 - θ) * θ ^ w.length * F.wordProb (F.next s a) w := by
      intro a
      rw [Finset.mul_sum]
      refine Finset.sum_congr rfl fun w _ => ?_
      rw [wordProb, List.length_cons, pow_succ]; ring
    simp only [e]
    have : ∑ a ∈ Finset.range q, θ * F.prob s a * ∑ w ∈ wordsUpTo q M, (1 - θ) * θ ^ w.length * F.wordProb (F.next s a) w ≤ ∑ a ∈ Finset.range q, θ * F.prob s a :=
      Finset.sum_le_sum fun a _ => by
        have h := ih (F.next s a)
        have hp := mul_nonneg h0 (F.nonneg s a)
        calc _ ≤ θ * F.prob s a * 1 := mul_le_mul_of_nonneg_left h hp
          _ = _ := mul_one _
    rw [← Finset.mul_sum, F.total, mul_one] at this
    simp only [wordProb, List.length_nil, pow_zero, mul_one]
    linarith

theorem length_le_flatten (ws : List (List Nat)) (hne : ∀ w ∈ ws, w ≠ []) : ws.length ≤ ws.flatten.length := by
  induction ws with
  | nil => simp
  | cons w ws ih =>
    have h1 : 1 ≤ w.length := List.length_pos_iff.mpr (hne w (by simp))
    have := ih (fun v hv => hne v (List.mem_cons_of_mem _ hv))
    simp only [List.length_cons, List.flatten_cons, List.length_append]
    omega

theorem sum_length_cast (ws : List (List Nat)) : (ws.map fun w => (w.length : ℝ)).sum = ws.flatten.length := by
  induction ws with
  | nil => simp
  | cons w ws ih => simp [ih]

theorem length_le_flatten_of_mem (ws : List (List Nat)) (w : List Nat) (h : w ∈ ws) : w.length ≤ ws.flatten.length := by
  induction ws with
  | nil => simp at h
  | cons v ws ih =>
    rw [List.flatten_cons, List.length_append]
    rcases List.mem_cons.mp h with rfl | h
    · omega
    · have := ih h; omega

/-- A sum over a list in which no word occurs more than `K` times. -/
theorem sum_le_of_count (ws : List (List Nat)) (K : Nat) (hK : ∀ w, ws.count w ≤ K) (R : List Nat → ℝ) (hR : ∀ w, 0 ≤ R w) :
    (ws.map R).sum ≤ K * ∑ w ∈ ws.toFinset, R w := by
  rw [Finset.sum_list_map_count, Finset.mul_sum]
  refine Finset.sum_le_sum fun w _ => ?_
  rw [nsmul_eq_mul]
  refine mul_le_mul_of_nonneg_right ?_ (hR w)
  have := hK w
  exact_mod_cast (by convert this)

/-- Ziv's inequality (in nats) for a family of words in which no word occurs more than `K` times, each emitted from a given state. -/
theorem ziv [Fintype S] (ps : List (S × List Nat)) (K : Nat) (hK : ∀ w, (ps.map Prod.snd).count w ≤ K)
    (hne : ∀ p ∈ ps, p.2 ≠ []) (hq : ∀ p ∈ ps, ∀ a ∈ p.2, a < q) (hpos : ∀ p ∈ ps, 0 < F.wordProb p.1 p.2) (c N : Nat)
    (hcdef : c = ps.length) (hN : N = (ps.map Prod.snd).flatten.length) :
    (c : ℝ) * Real.log c ≤ -(ps.map fun p => Real.log (F.wordProb p.1 p.2)).sum +
      c * (Real.log (Fintype.card S) + Real.log K + 1 + Real.log (1 + N / c)) := by
  classical
  rcases Nat.eq_zero_or_pos c with h0 | hc
  · have : ps = [] := List.length_eq_zero_iff.mp (hcdef ▸ h0)
    subst this
    simp [h0]
  have hcN : c ≤ N := by
    rw [hN, hcdef]
    have := length_le_flatten (ps.map Prod.snd) (by simpa using fun w s h => hne (s, w) h)
    simpa using this
  have hcr : (0 : ℝ) < c := by exact_mod_cast hc
  have hNr : (0 : ℝ) < N := by exact_mod_cast (lt_of_lt_of_le hc hcN)
  have hp0 : ∃ p, p ∈ ps := List.exists_mem_of_length_pos (hcdef ▸ hc)
  obtain ⟨p0, hp0⟩ := hp0
  haveI : Nonempty S := ⟨p0.1⟩
  have hs : (0 : ℝ) < Fintype.card S := by exact_mod_cast Fintype.card_pos
  have hK1 : 1 ≤ K := by
    have h1 : p0.2 ∈ ps.map Prod.snd := List.mem_map.mpr ⟨p0, hp0, rfl⟩
    exact (List.count_pos_iff.mpr h1).trans_le (hK _)
  have hKr : (0 : ℝ) < K := by exact_mod_cast hK1
  obtain ⟨θ, hθ⟩ : ∃ θ : ℝ, θ = N / (N + c) := ⟨_, rfl⟩
  have hθ0 : 0 < θ := by rw [hθ]; positivity
  have hθ1 : 1 - θ = c / (N + c) := by rw [hθ]; field_simp; ring
  have h1θ : 0 < 1 - θ := by rw [hθ1]; positivity
  have hθ2 : θ ≤ 1 := by linarith
  -- the mixture over the starting state
  obtain ⟨R, hR⟩ : ∃ R : List Nat → ℝ, R = fun w => (∑ s : S, (1 - θ) * θ ^ w.length * F.wordProb s w) / Fintype.card S := ⟨_, rfl⟩
  have hR0 : ∀ w, 0 ≤ R w := fun w => by
    rw [hR]
    exact div_nonneg (Finset.sum_nonneg fun s _ => mul_nonneg (mul_nonneg (by linarith) (by positivity)) (F.wordProb_nonneg _ _)) hs.le
  have hR1 : ∑ w ∈ (ps.map Prod.snd).toFinset, R w ≤ 1 := by
    have hsub : (ps.map Prod.snd).toFinset ⊆ wordsUpTo q N := by
      intro w hw
      have hw := List.mem_toFinset.mp hw
      obtain ⟨p, hp, rfl⟩ := List.mem_map.mp hw
      exact mem_wordsUpTo _ p.2 (hN ▸ length_le_flatten_of_mem _ _ hw) (hq p hp)
    refine (Finset.sum_le_sum_of_subset_of_nonneg hsub fun w _ _ => hR0 w).trans ?_
    simp only [hR]
    rw [← Finset.sum_div, div_le_one hs, Finset.sum_comm]
    refine (Finset.sum_le_sum fun s _ => F.stop_sum θ hθ0.le hθ2 N s).trans ?_
    simp
  have hsum : (ps.map fun p => R p.2).sum ≤ K := by
    have h := sum_le_of_count (ps.map Prod.snd) K hK R hR0
    rw [List.map_map] at h
    refine h.trans ?_
    calc (K : ℝ) * ∑ w ∈ (ps.map Prod.snd).toFinset, R w ≤ K * 1 := mul_le_mul_of_nonneg_left hR1 hKr.le
      _ = K := mul_one _
  have hRi : ∀ p ∈ ps, (1 - θ) * θ ^ p.2.length * F.wordProb p.1 p.2 / Fintype.card S ≤ R p.2 := fun p _ => by
    rw [hR]
    refine div_le_div_of_nonneg_right ?_ hs.le
    exact Finset.single_le_sum (f := fun s => (1 - θ) * θ ^ p.2.length * F.wordProb s p.2)
      (fun s _ => mul_nonneg (mul_nonneg (by linarith) (by positivity)) (F.wordProb_nonneg _ _)) (Finset.mem_univ p.1)
  -- Gibbs
  have key : ∀ p ∈ ps, Real.log (F.wordProb p.1 p.2) + ((p.2.length : ℝ) * Real.log θ + (Real.log (1 - θ) - Real.log (Fintype.card S) + Real.log c - Real.log K)) ≤
      R p.2 * (c / K) + (-1) := by
    intro p hp
    have hpp := hpos p hp
    have hA : 0 < (1 - θ) * θ ^ p.2.length * F.wordProb p.1 p.2 / Fintype.card S := by positivity
    have hl : Real.log ((1 - θ) * θ ^ p.2.length * F.wordProb p.1 p.2 / Fintype.card S * c / K) =
        Real.log (F.wordProb p.1 p.2) + ((p.2.length : ℝ) * Real.log θ + (Real.log (1 - θ) - Real.log (Fintype.card S) + Real.log c - Real.log K)) := by
      rw [Real.log_div (by positivity) hKr.ne', Real.log_mul hA.ne' hcr.ne', Real.log_div (by positivity) hs.ne', Real.log_mul (by positivity) hpp.ne',
        Real.log_mul h1θ.ne' (by positivity), Real.log_pow]
      ring
    rw [← hl]
    refine (Real.log_le_sub_one_of_pos (by positivity)).trans ?_
    have := hRi p hp
    have h2 : (1 - θ) * θ ^ p.2.length * F.wordProb p.1 p.2 / Fintype.card S * c / K ≤ R p.2 * c / K := by gcongr
    have h3 : R p.2 * c / K = R p.2 * (c / K) := mul_div_assoc _ _ _
    linarith
  have total := List.sum_le_sum key
  have hlen : (ps.map fun p => (p.2.length : ℝ)).sum = N := by
    rw [hN, ← sum_length_cast, List.map_map]; rfl
  simp only [List.sum_map_add, List.sum_map_mul_right, hlen, List.map_const', List.sum_replicate, nsmul_eq_mul, ← hcdef] at total
  have hrhs : (ps.map fun p => R p.2).sum * ((c : ℝ) / K) ≤ c := by
    rw [← mul_div_assoc, div_le_iff₀ hKr]
    nlinarith
  -- the logarithms of θ
  have l1 : -Real.log (1 - θ) = Real.log (1 + N / c) := by
    rw [hθ1, ← Real.log_inv, inv_div]
    congr 1
    field_simp
    ring
  have l2 : -((N : ℝ) * Real.log θ) ≤ c := by
    have : -Real.log θ ≤ c / N := by
      rw [hθ, ← Real.log_inv, inv_div]
      refine (Real.log_le_sub_one_of_pos (by positivity)).trans_eq ?_
      field_simp
      ring
    calc -((N : ℝ) * Real.log θ) = N * -Real.log θ := by ring
      _ ≤ N * (c / N) := mul_le_mul_of_nonneg_left this hNr.le
      _ = c := by field_simp
  have l1' : (c : ℝ) * Real.log (1 + N / c) = -(c * Real.log (1 - θ)) := by rw [← l1]; ring
  have e1 : (c : ℝ) * (Real.log (Fintype.card S) + Real.log K + 1 + Real.log (1 + N / c)) =
      c * Real.log (Fintype.card S) + c * Real.log K + c + -(c * Real.log (1 - θ)) := by rw [← l1']; ring
  have e2 : (c : ℝ) * (Real.log (1 - θ) - Real.log (Fintype.card S) + Real.log c - Real.log K) =
      c * Real.log (1 - θ) - c * Real.log (Fintype.card S) + c * Real.log c - c * Real.log K := by ring
  rw [e1]
  rw [e2] at total
  linarith

/-- `ln (1 + t) ≤ 2 sqrt t`. -/
theorem log_le_sqrt (t : ℝ) (ht : 0 ≤ t) : Real.log (1 + t) ≤ 2 * √t := by
  have h1 : √(1 + t) ≤ 1 + √t := by
    rw [Real.sqrt_le_left (by positivity)]
    nlinarith [Real.sq_sqrt ht, Real.sqrt_nonneg t]
  have h2 : Real.log (1 + t) = 2 * Real.log (√(1 + t)) := by
    rw [Real.log_sqrt (by linarith)]; ring
  rw [h2]
  have := Real.log_le_sub_one_of_pos (Real.sqrt_pos.mpr (by linarith : 0 < 1 + t))
  linarith

end FSource

/-- The memoryless uniform source. -/
noncomputable def uniformSource (q : Nat) (hq : 1 ≤ q) : FSource Unit q where
  next := fun _ _ => ()
  prob := fun _ _ => 1 / q
  nonneg := fun _ _ => by positivity
  total := fun _ => by
    rw [Finset.sum_const, Finset.card_range, nsmul_eq_mul]
    have : (q : ℝ) ≠ 0 := by positivity
    field_simp

theorem uniform_wordProb (q : Nat) (hq : 1 ≤ q) (s : Unit) (w : List Nat) : (uniformSource q hq).wordProb s w = (1 / q : ℝ) ^ w.length := by
  induction w generalizing s with
  | nil => rfl
  | cons a w ih => rw [FSource.wordProb, ih, List.length_cons, pow_succ']; rfl

/-- A bound on the proportion of phrases: `c ≤ n ε(n)`. -/
noncomputable def phraseRate (A : ℝ) (n : Nat) : ℝ := 1 / √n + 2 * A / Real.log n

/-- A word of length `n` parsed in words each repeated at most `K` times has few phrases. -/
theorem phrase_count {q : Nat} (hq : 1 ≤ q) (K : Nat) (hK : 1 ≤ K) (ws : List (List Nat)) (hcount : ∀ w, ws.count w ≤ K) (hne : ∀ w ∈ ws, w ≠ [])
    (hws : ∀ w ∈ ws, ∀ a ∈ w, a < q) (n : Nat) (hn : 2 ≤ n) (hlen : ws.flatten.length ≤ n) :
    (ws.length : ℝ) ≤ n * phraseRate (Real.log q + Real.log K + 3) n := by
  have hqr : (0 : ℝ) < q := by exact_mod_cast hq
  have hz := (uniformSource q hq).ziv (ws.map fun w => ((), w)) K (by simpa [List.map_map, Function.comp_def] using hcount)
    (by simpa using hne) (by simpa using hws) (by intro p _; rw [uniform_wordProb]; positivity) ws.length ws.flatten.length (by simp)
    (by simp [List.map_map, Function.comp_def])
  have hs1 : ((ws.map fun w => ((), w)).map fun p => Real.log ((uniformSource q hq).wordProb p.1 p.2)).sum = -(ws.flatten.length * Real.log q) := by
    simp only [uniform_wordProb, Real.log_pow, one_div, Real.log_inv, List.map_map, Function.comp_def, List.sum_map_mul_right]
    rw [FSource.sum_length_cast]; ring
  rw [hs1, neg_neg] at hz
  have hcN : ws.length ≤ ws.flatten.length := FSource.length_le_flatten ws hne
  set c := ws.length
  set N := ws.flatten.length
  have hnr : (0 : ℝ) < n := by positivity
  have hlogn : 0 < Real.log n := Real.log_pos (by exact_mod_cast (by omega : 1 < n))
  have hlogq : 0 ≤ Real.log q := Real.log_natCast_nonneg q
  have hlogK : 0 ≤ Real.log K := Real.log_natCast_nonneg K
  have hsn : 0 < √(n : ℝ) := Real.sqrt_pos.mpr hnr
  have hsplit : n * phraseRate (Real.log q + Real.log K + 3) n = √n + 2 * (Real.log q + Real.log K + 3) * n / Real.log n := by
    rw [phraseRate, mul_add]
    congr 1
    · rw [mul_one_div, Real.div_sqrt]
    · ring
  rw [hsplit]
  rcases Nat.eq_zero_or_pos c with h0 | hc
  · rw [h0, Nat.cast_zero]; positivity
  have hcr : (0 : ℝ) < c := by exact_mod_cast hc
  have hcNr : (c : ℝ) ≤ N := by exact_mod_cast hcN
  have hNn : (N : ℝ) ≤ n := by exact_mod_cast hlen
  have hlog : (c : ℝ) * Real.log (1 + N / c) ≤ 2 * n := by
    have h1 := FSource.log_le_sqrt (N / c) (by positivity)
    have h2 : (c : ℝ) * √(N / c) ≤ N := by
      rw [← Real.sqrt_sq hcr.le, ← Real.sqrt_mul (by positivity), Real.sqrt_sq hcr.le]
      rw [Real.sqrt_le_left (by positivity)]
      rw [show (c : ℝ) ^ 2 * (N / c) = c * N by field_simp]
      nlinarith
    nlinarith
  have hmain : (c : ℝ) * Real.log c ≤ (Real.log q + Real.log K + 3) * n := by
    simp only [Fintype.card_unit, Nat.cast_one, Real.log_one] at hz
    nlinarith [mul_le_mul_of_nonneg_right (hcNr.trans hNn) hlogK, mul_le_mul_of_nonneg_right hNn hlogq]
  by_cases hcs : (c : ℝ) ≤ √n
  · have : 0 ≤ 2 * (Real.log q + Real.log K + 3) * n / Real.log n := by positivity
    linarith
  · push Not at hcs
    have h1 : Real.log n / 2 ≤ Real.log c := by
      rw [← Real.log_sqrt hnr.le]
      exact Real.log_le_log hsn hcs.le
    have h2 : (c : ℝ) ≤ 2 * (Real.log q + Real.log K + 3) * n / Real.log n := by
      rw [le_div_iff₀ hlogn]
      nlinarith
    linarith

end Komm
