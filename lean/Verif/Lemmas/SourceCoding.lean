import Verif.Lemmas.WordTrees
import Verif.Lemmas.Information
import Verif.Lemmas.Canonical
import Verif.Model.LosslessRates
import Verif.Props.C79_Rate
/-! The source coding inequalities for the codes of the model. -/
namespace Komm
open WordTree Real

/-- The distribution as a function on all natural numbers. -/
noncomputable def symbolProb (pmf : List ℚ) (a : Nat) : ℝ := ((pmf.getD a 0 : ℚ) : ℝ)

/-- The distribution in the form taken by `entropy`. -/
noncomputable def pmfVec (pmf : List ℚ) (i : Fin pmf.length) : ℝ := ((pmf[i] : ℚ) : ℝ)

theorem sum_range_getD (pmf : List ℚ) : ∑ a ∈ Finset.range pmf.length, pmf.getD a 0 = pmf.sum := by
  rw [Finset.sum_range]
  conv_rhs => rw [← List.ofFn_getElem (xs := pmf), List.sum_ofFn]
  exact Finset.sum_congr rfl fun i _ => by simp

theorem sum_symbolProb (pmf : List ℚ) (h : pmf.sum = 1) : ∑ a ∈ Finset.range pmf.length, symbolProb pmf a = 1 := by
  simp only [symbolProb]
  rw [← Rat.cast_sum, sum_range_getD, h, Rat.cast_one]

theorem symbolProb_nonneg {pmf : List ℚ} (h : ∀ x ∈ pmf, 0 ≤ x) (a : Nat) : 0 ≤ symbolProb pmf a := by
  rw [symbolProb]
  have : 0 ≤ pmf.getD a 0 := by
    by_cases ha : a < pmf.length
    · rw [List.getD_eq_getElem _ _ ha]; exact h _ (List.getElem_mem ha)
    · rw [List.getD_eq_default _ _ (by omega)]
  exact_mod_cast this

theorem blockProb_eq (pmf : List ℚ) (w : Word) : blockProb pmf w = prob (fun a => pmf.getD a 0) w := rfl

theorem blockProb_cast (pmf : List ℚ) (w : Word) : ((blockProb pmf w : ℚ) : ℝ) = prob (symbolProb pmf) w := by
  rw [blockProb_eq]
  induction w with
  | nil => simp
  | cons a w ih => rw [prob_cons, prob_cons, Rat.cast_mul, ih]; rfl

theorem H_pmfVec (pmf : List ℚ) : Info.H (pmfVec pmf) = ∑ a ∈ Finset.range pmf.length, negMulLog (symbolProb pmf a) := by
  rw [Finset.sum_range, Info.H]
  exact Finset.sum_congr rfl fun i _ => by simp [pmfVec, symbolProb]

theorem pmf_pmfVec {pmf : List ℚ} (h0 : ∀ x ∈ pmf, 0 ≤ x) (h1 : pmf.sum = 1) : Info.Pmf (pmfVec pmf) := by
  constructor
  · intro i
    rw [pmfVec]
    exact_mod_cast h0 _ (List.getElem_mem i.2)
  · have := sum_symbolProb pmf h1
    rw [Finset.sum_range] at this
    rw [← this]
    exact Finset.sum_congr rfl fun i _ => by simp [pmfVec, symbolProb]

/-- `entropy(pmf, base)`. -/
theorem entropy_pmfVec {pmf : List ℚ} (h0 : ∀ x ∈ pmf, 0 ≤ x) (h1 : pmf.sum = 1) {b : ℝ} (hb : 1 < b) :
    entropy (pmfVec pmf) (.num b) =
      some ((∑ a ∈ Finset.range pmf.length, negMulLog (symbolProb pmf a)) / log b) := by
  rw [Info.entropy_eq _ _ (pmf_pmfVec h0 h1) (by
    simp only [validLogBase, Bool.not_eq_eq_eq_not, Bool.not_true, Bool.or_eq_false_iff, decide_eq_false_iff_not]
    constructor <;> linarith), H_pmfVec]
  rfl

/-- A prefix-free, fully covering list of non-empty words over the alphabet is a complete tree. -/
theorem complete_of_words {S : Nat} {W : List Word} (hpf : PrefixFree W) (hne : ∀ w ∈ W, w ≠ []) (hsym : ∀ w ∈ W, ∀ a ∈ w, a < S)
    (hcov : FullyCovering W S) : Complete S W.toFinset := by
  refine ⟨?_, fun w hw => hsym w (List.mem_toFinset.mp hw), ?_⟩
  · intro v hv w hw hp
    rw [List.mem_toFinset] at hv hw
    obtain ⟨i, hi, rfl⟩ := List.mem_iff_getElem.mp hv
    obtain ⟨j, hj, rfl⟩ := List.mem_iff_getElem.mp hw
    by_contra hij
    have hne' : i ≠ j := by rintro rfl; exact hij rfl
    exact hpf i j hi hj hne' (hne _ hv) (hne _ hw) hp
  · intro f hf
    obtain ⟨w, hw, _, he⟩ := hcov f hf
    exact ⟨w, List.mem_toFinset.mpr hw, he⟩

theorem complete_allWords (S k : Nat) : Complete S (allWords S k).toFinset := by
  have hmem : ∀ w, w ∈ (allWords S k).toFinset ↔ w.length = k ∧ ∀ a ∈ w, a < S := by
    intro w; rw [List.mem_toFinset]; exact mem_allWords S k w
  refine ⟨?_, fun w hw => ((hmem w).mp hw).2, ?_⟩
  · intro v hv w hw hp
    exact hp.eq_of_length (((hmem v).mp hv).1.trans ((hmem w).mp hw).1.symm)
  · intro f hf
    refine ⟨(List.range k).map f, (hmem _).mpr ⟨by simp, ?_⟩, by simp⟩
    intro a ha
    obtain ⟨i, _, rfl⟩ := List.mem_map.mp ha
    exact hf i

theorem sum_map_toFinset {M : Type} [AddCommMonoid M] (W : List Word) (hnd : W.Nodup) (g : Word → M) :
    (W.map g).sum = ∑ w ∈ W.toFinset, g w := (List.sum_toFinset g hnd).symm

/-- The converse for lists of pairs (block, codeword). -/
theorem fixed_to_variable_converse (enc : List (Word × Word)) {S k b : Nat} (p : Nat → ℝ) (hS : 0 < S) (hb : 2 ≤ b)
    (hp0 : ∀ a < S, 0 ≤ p a) (hp : ∑ a ∈ Finset.range S, p a = 1) (hkeys : (enc.map Prod.fst).Perm (allWords S k))
    (hkraft : (enc.map fun e => (1 : ℝ) / (b : ℝ) ^ e.2.length).sum ≤ 1) :
    k * ∑ a ∈ Finset.range S, negMulLog (p a) ≤ (enc.map fun e => prob p e.1 * e.2.length).sum * log b := by
  have hnd := allWords_nodup S k
  have htree := complete_allWords S k
  have hlist : ∀ g : Word → ℝ, (enc.map fun e => g e.1).sum = ∑ w ∈ (allWords S k).toFinset, g w := by
    intro g
    rw [← sum_map_toFinset _ hnd, ← (hkeys.map g).sum_eq, List.map_map]; rfl
  have hlen : ∑ w ∈ (allWords S k).toFinset, prob p w * (w.length : ℝ) = k := by
    have h1 := sum_prob p hS hp _ htree
    have : ∀ w ∈ (allWords S k).toFinset, prob p w * (w.length : ℝ) = prob p w * k := by
      intro w hw
      rw [((mem_allWords S k w).mp (List.mem_toFinset.mp hw)).1]
    rw [Finset.sum_congr rfl this, ← Finset.sum_mul, h1, one_mul]
  have hent := entropy_tree p hS hp _ htree
  rw [hlen] at hent
  have hsum1 := sum_prob p hS hp _ htree
  rw [← hlist] at hent hsum1
  have hb0 : (0 : ℝ) < b := by exact_mod_cast (by omega : 0 < b)
  have hg := Info.gibbs_gen (Finset.univ : Finset (Fin enc.length)) (fun i => prob p enc[i].1) (fun i => 1 / (b : ℝ) ^ enc[i].2.length)
    (fun i _ => prob_nonneg hp0 _ fun a ha => by
      have : enc[i].1 ∈ allWords S k := hkeys.subset (List.mem_map_of_mem (List.getElem_mem i.2))
      exact ((mem_allWords S k _).mp this).2 a ha)
    (fun i _ => by positivity) (fun i _ _ => by positivity)
  have hfin : ∀ g : Word × Word → ℝ, ∑ i : Fin enc.length, g enc[i] = (enc.map g).sum := by
    intro g
    conv_rhs => rw [← List.ofFn_getElem (xs := enc), List.map_ofFn, List.sum_ofFn]
    rfl
  have hterm : ∀ i : Fin enc.length, prob p enc[i].1 * log (prob p enc[i].1 / (1 / (b : ℝ) ^ enc[i].2.length)) =
      prob p enc[i].1 * enc[i].2.length * log b - negMulLog (prob p enc[i].1) := by
    intro i
    by_cases h0 : prob p enc[i].1 = 0
    · rw [h0]; simp only [zero_mul, negMulLog_zero, sub_zero]
    · rw [log_div h0 (by positivity), one_div, log_inv, log_pow, negMulLog]; ring
  simp only [hterm] at hg
  rw [hfin fun e => prob p e.1, hfin fun e => 1 / (b : ℝ) ^ e.2.length,
    hfin fun e => prob p e.1 * e.2.length * log b - negMulLog (prob p e.1)] at hg
  have hsub : (enc.map fun e => prob p e.1 * e.2.length * log b - negMulLog (prob p e.1)).sum =
      (enc.map fun e => prob p e.1 * e.2.length).sum * log b - (enc.map fun e => negMulLog (prob p e.1)).sum := by
    clear * -
    induction enc with
    | nil => simp
    | cons e l ih => simp only [List.map_cons, List.sum_cons, ih]; ring
  rw [hsub, hsum1, hent] at hg
  linarith

/-- The converse for trees of sourcewords: `M` words. -/
theorem variable_to_fixed_converse {S : Nat} (T : Finset Word) (p : Nat → ℝ) (hS : 0 < S)
    (hp0 : ∀ a < S, 0 ≤ p a) (hp : ∑ a ∈ Finset.range S, p a = 1) (hT : Complete S T) :
    (∑ w ∈ T, prob p w * w.length) * ∑ a ∈ Finset.range S, negMulLog (p a) ≤ log T.card := by
  have hne : T.Nonempty := by
    obtain ⟨w, hw, -⟩ := hT.cov (fun _ => 0) (fun _ => hS)
    exact ⟨w, hw⟩
  have hM : (0 : ℝ) < T.card := by exact_mod_cast hne.card_pos
  rw [← entropy_tree p hS hp T hT]
  have hg := Info.gibbs_gen T (fun w => prob p w) (fun _ => 1 / (T.card : ℝ))
    (fun w hw => prob_nonneg hp0 w (hT.sym w hw)) (fun _ _ => by positivity) (fun _ _ _ => by positivity)
  rw [sum_prob p hS hp T hT, Finset.sum_const, nsmul_eq_mul, mul_one_div_cancel hM.ne', sub_self] at hg
  have hterm : ∀ w ∈ T, prob p w * log (prob p w / (1 / (T.card : ℝ))) = prob p w * log T.card - negMulLog (prob p w) := by
    intro w _
    by_cases h0 : prob p w = 0
    · simp [h0]
    · rw [log_div h0 (by positivity), one_div, log_inv, negMulLog]; ring
  rw [Finset.sum_congr rfl hterm, Finset.sum_sub_distrib, ← Finset.sum_mul, sum_prob p hS hp T hT, one_mul] at hg
  linarith

/-- The expected length of a non-trivial tree is at least 1. -/
theorem one_le_expected {S : Nat} (T : Finset Word) (p : Nat → ℝ) (hS : 0 < S) (hp0 : ∀ a < S, 0 ≤ p a)
    (hp : ∑ a ∈ Finset.range S, p a = 1) (hT : Complete S T) (h0 : [] ∉ T) : 1 ≤ ∑ w ∈ T, prob p w * w.length := by
  rw [← sum_prob p hS hp T hT]
  refine Finset.sum_le_sum fun w hw => ?_
  have hn := prob_nonneg hp0 w (hT.sym w hw)
  have : (1 : ℝ) ≤ w.length := by
    have : w ≠ [] := fun h => h0 (h ▸ hw)
    exact_mod_cast List.length_pos_iff.mpr this
  nlinarith

/-- If no word is more than `1/c` times as probable as another, the words are nearly equally probable. -/
theorem near_uniform {S : Nat} (T : Finset Word) (p : Nat → ℝ) (hS : 0 < S)
    (hp0 : ∀ a < S, 0 ≤ p a) (hp : ∑ a ∈ Finset.range S, p a = 1) (hT : Complete S T) {c : ℝ} (hc : 0 < c)
    (hbal : ∀ v ∈ T, ∀ w ∈ T, c * prob p w ≤ prob p v) :
    log (c * T.card) ≤ (∑ w ∈ T, prob p w * w.length) * ∑ a ∈ Finset.range S, negMulLog (p a) := by
  have hne : T.Nonempty := by
    obtain ⟨w, hw, -⟩ := hT.cov (fun _ => 0) (fun _ => hS)
    exact ⟨w, hw⟩
  have hM : (0 : ℝ) < T.card := by exact_mod_cast hne.card_pos
  have h1 := sum_prob p hS hp T hT
  have hw : ∀ w ∈ T, c * T.card * prob p w ≤ 1 := by
    intro w hw
    have := Finset.card_nsmul_le_sum T (fun v => prob p v) (c * prob p w) fun v hv => hbal v hv w hw
    rw [h1, nsmul_eq_mul] at this
    linarith
  rw [← entropy_tree p hS hp T hT]
  calc log (c * T.card) = ∑ w ∈ T, prob p w * log (c * T.card) := by rw [← Finset.sum_mul, h1, one_mul]
    _ ≤ ∑ w ∈ T, negMulLog (prob p w) := by
      refine Finset.sum_le_sum fun w hwT => ?_
      have hn := prob_nonneg hp0 w (hT.sym w hwT)
      rcases hn.eq_or_lt with h0 | h0
      · rw [← h0]; simp
      · have : log (c * T.card) ≤ - log (prob p w) := by
          rw [← log_inv]
          apply log_le_log (by positivity)
          rw [← one_div, le_div_iff₀ h0]
          exact hw w hwT
        rw [negMulLog]
        nlinarith

end Komm
