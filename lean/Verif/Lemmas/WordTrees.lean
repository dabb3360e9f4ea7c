import Verif.Lemmas.Tunstall
import Mathlib.Analysis.SpecialFunctions.Log.NegMulLog
import Mathlib.Algebra.BigOperators.Ring.Finset
import Mathlib.Tactic.LinearCombination
/-! Complete prefix-free sets of words: probabilities, expected length, entropy, internal nodes. -/
namespace Komm
namespace WordTree

/-- A finite prefix-free set of words over `{0, …, S-1}` such that every infinite sequence starts with one of them. -/
structure Complete (S : Nat) (T : Finset Word) : Prop where
  pf : ∀ v ∈ T, ∀ w ∈ T, v <+: w → v = w
  sym : ∀ w ∈ T, ∀ a ∈ w, a < S
  cov : ∀ f : Nat → Nat, (∀ i, f i < S) → ∃ w ∈ T, w = (List.range w.length).map f

/-- The words that follow the first symbol `a`. -/
def sub (T : Finset Word) (a : Nat) : Finset Word := (T.filter fun w => w.head? = some a).image List.tail

theorem mem_sub {T : Finset Word} {a : Nat} {w : Word} : w ∈ sub T a ↔ a :: w ∈ T := by
  rw [sub, Finset.mem_image]
  constructor
  · rintro ⟨v, hv, rfl⟩
    rw [Finset.mem_filter] at hv
    cases v with
    | nil => simp at hv
    | cons b v =>
      have : b = a := by simpa using hv.2
      subst this
      exact hv.1
  · intro h
    exact ⟨a :: w, by simp [h], rfl⟩

theorem Complete.sub {S : Nat} {T : Finset Word} (h : Complete S T) (h0 : [] ∉ T) {a : Nat} (ha : a < S) :
    Complete S (sub T a) := by
  refine ⟨?_, ?_, ?_⟩
  · intro v hv w hw hp
    have := h.pf _ (mem_sub.mp hv) _ (mem_sub.mp hw) (List.cons_prefix_cons.mpr ⟨rfl, hp⟩)
    simpa using this
  · intro w hw b hb
    exact h.sym _ (mem_sub.mp hw) b (by simp [hb])
  · intro f hf
    obtain ⟨w, hw, he⟩ := h.cov (fun i => Nat.casesOn i a f) (by intro i; cases i <;> simp [ha, hf])
    cases w with
    | nil => exact absurd hw h0
    | cons b w =>
      rw [List.length_cons, List.range_succ_eq_map, List.map_cons, List.map_map] at he
      injection he with h1 h2
      have h1 : b = a := h1
      subst h1
      exact ⟨w, mem_sub.mpr hw, h2⟩

theorem Complete.leaf {S : Nat} {T : Finset Word} (h : Complete S T) (h0 : [] ∈ T) : T = {[]} := by
  ext w
  rw [Finset.mem_singleton]
  constructor
  · intro hw
    exact (h.pf [] h0 w hw List.nil_prefix).symm
  · rintro rfl; exact h0

/-- Induction over the tree. -/
theorem Complete.induct {S : Nat} (hS : 0 < S) {motive : Finset Word → Prop} (leaf : motive {[]})
    (node : ∀ T, Complete S T → [] ∉ T → (∀ a < S, motive (WordTree.sub T a)) → motive T) (T : Finset Word)
    (h : Complete S T) : motive T := by
  have key : ∀ (N : Nat) (T : Finset Word), Complete S T → (∀ w ∈ T, w.length ≤ N) → motive T := by
    intro N
    induction N with
    | zero =>
      intro T hT hN
      obtain ⟨w, hw, -⟩ := hT.cov (fun _ => 0) (fun _ => hS)
      have : w = [] := List.eq_nil_of_length_eq_zero (Nat.le_zero.mp (hN w hw))
      subst this
      rw [hT.leaf hw]; exact leaf
    | succ N ih =>
      intro T hT hN
      by_cases h0 : [] ∈ T
      · rw [hT.leaf h0]; exact leaf
      · refine node T hT h0 fun a ha => ih _ (hT.sub h0 ha) fun w hw => ?_
        have := hN _ (mem_sub.mp hw)
        simpa using this
  exact key (T.sup List.length) T h fun w hw => Finset.le_sup (f := List.length) hw

theorem sum_split {M : Type} [AddCommMonoid M] {S : Nat} {T : Finset Word} (h : Complete S T) (h0 : [] ∉ T) (g : Word → M) :
    ∑ w ∈ T, g w = ∑ a ∈ Finset.range S, ∑ w ∈ sub T a, g (a :: w) := by
  have hT : T = (Finset.range S).biUnion fun a => (sub T a).image (a :: ·) := by
    ext w
    simp only [Finset.mem_biUnion, Finset.mem_range, Finset.mem_image]
    constructor
    · intro hw
      cases w with
      | nil => exact absurd hw h0
      | cons a w => exact ⟨a, h.sym _ hw a (by simp), w, mem_sub.mpr hw, rfl⟩
    · rintro ⟨a, -, w, hw, rfl⟩
      exact mem_sub.mp hw
  conv_lhs => rw [hT]
  rw [Finset.sum_biUnion]
  · refine Finset.sum_congr rfl fun a _ => ?_
    rw [Finset.sum_image]
    intro x _ y _ hxy
    simpa using hxy
  · intro a _ b _ hab
    rw [Function.onFun, Finset.disjoint_left]
    intro w h1 h2
    rw [Finset.mem_image] at h1 h2
    obtain ⟨_, _, rfl⟩ := h1
    obtain ⟨_, _, he⟩ := h2
    injection he with h3 _
    exact hab h3.symm

/-- The probability of a word of independent symbols. -/
def prob {K : Type} [CommRing K] (p : Nat → K) (w : Word) : K := (w.map p).prod

@[simp] theorem prob_nil {K : Type} [CommRing K] (p : Nat → K) : prob p [] = 1 := rfl
@[simp] theorem prob_cons {K : Type} [CommRing K] (p : Nat → K) (a : Nat) (w : Word) : prob p (a :: w) = p a * prob p w := by
  simp [prob]
theorem prob_append {K : Type} [CommRing K] (p : Nat → K) (v w : Word) : prob p (v ++ w) = prob p v * prob p w := by
  simp [prob]

section
variable {K : Type} [CommRing K] {S : Nat} (p : Nat → K)

/-- The probabilities of the words of a complete tree sum to 1. -/
theorem sum_prob (hS : 0 < S) (hp : ∑ a ∈ Finset.range S, p a = 1) (T : Finset Word) (h : Complete S T) :
    ∑ w ∈ T, prob p w = 1 := by
  refine Complete.induct hS (motive := fun T => ∑ w ∈ T, prob p w = 1) (by simp) (fun T hT h0 ih => ?_) T h
  rw [sum_split hT h0, ← hp]
  refine Finset.sum_congr rfl fun a ha => ?_
  simp only [prob_cons, ← Finset.mul_sum, ih a (Finset.mem_range.mp ha), mul_one]

/-- Expected length: one symbol, then the expected length of the subtree. -/
theorem expected_split {T : Finset Word} (h : Complete S T) (h0 : [] ∉ T) (hS : 0 < S) (hp : ∑ a ∈ Finset.range S, p a = 1) :
    ∑ w ∈ T, prob p w * w.length = 1 + ∑ a ∈ Finset.range S, p a * ∑ w ∈ sub T a, prob p w * w.length := by
  rw [sum_split h h0, ← hp, ← Finset.sum_add_distrib]
  refine Finset.sum_congr rfl fun a ha => ?_
  have h1 := sum_prob p hS hp _ (h.sub h0 (Finset.mem_range.mp ha))
  have h2 : ∀ w ∈ sub T a, prob p (a :: w) * ((a :: w).length : K) = p a * prob p w + p a * (prob p w * w.length) := by
    intro w _
    rw [prob_cons, List.length_cons]; push_cast; ring
  rw [Finset.sum_congr rfl h2, Finset.sum_add_distrib, ← Finset.mul_sum, ← Finset.mul_sum, h1, mul_one]

/-- The proper prefixes of the words: the internal nodes of the tree. -/
def internal (T : Finset Word) : Finset Word := T.biUnion fun w => (Finset.range w.length).image fun i => w.take i

theorem mem_internal {T : Finset Word} {v : Word} : v ∈ internal T ↔ ∃ w ∈ T, v <+: w ∧ v ≠ w := by
  simp only [internal, Finset.mem_biUnion, Finset.mem_image, Finset.mem_range]
  constructor
  · rintro ⟨w, hw, i, hi, rfl⟩
    refine ⟨w, hw, List.take_prefix _ _, fun he => ?_⟩
    have := congrArg List.length he
    simp at this; omega
  · rintro ⟨w, hw, hp, hne⟩
    refine ⟨w, hw, v.length, ?_, (List.prefix_iff_eq_take.mp hp).symm⟩
    rcases Nat.lt_or_eq_of_le hp.length_le with h | h
    · exact h
    · exact absurd (hp.eq_of_length h) hne

theorem internal_leaf : internal {[]} = ∅ := rfl

theorem internal_node {T : Finset Word} (h : Complete S T) (h0 : [] ∉ T) (hS : 0 < S) :
    internal T = insert [] ((Finset.range S).biUnion fun a => (internal (sub T a)).image (a :: ·)) := by
  ext v
  simp only [Finset.mem_insert, Finset.mem_biUnion, Finset.mem_range, Finset.mem_image]
  constructor
  · intro hv
    obtain ⟨w, hw, hp, hne⟩ := mem_internal.mp hv
    cases v with
    | nil => exact Or.inl rfl
    | cons a v =>
      right
      cases w with
      | nil => exact absurd hw h0
      | cons b w =>
        obtain ⟨rfl, hp'⟩ := List.cons_prefix_cons.mp hp
        exact ⟨a, h.sym _ hw a (by simp), v, mem_internal.mpr ⟨w, mem_sub.mpr hw, hp', fun he => hne (by rw [he])⟩, rfl⟩
  · rintro (rfl | ⟨a, ha, v, hv, rfl⟩)
    · obtain ⟨w, hw, -⟩ := h.cov (fun _ => 0) (fun _ => hS)
      exact mem_internal.mpr ⟨w, hw, List.nil_prefix, fun he => h0 (he ▸ hw)⟩
    · obtain ⟨w, hw, hp, hne⟩ := mem_internal.mp hv
      exact mem_internal.mpr ⟨a :: w, mem_sub.mp hw, List.cons_prefix_cons.mpr ⟨rfl, hp⟩, fun he => hne (by simpa using he)⟩

theorem internal_sum {M : Type} [AddCommMonoid M] {T : Finset Word} (h : Complete S T) (h0 : [] ∉ T) (hS : 0 < S) (g : Word → M) :
    ∑ v ∈ internal T, g v = g [] + ∑ a ∈ Finset.range S, ∑ v ∈ internal (sub T a), g (a :: v) := by
  rw [internal_node h h0 hS, Finset.sum_insert, Finset.sum_biUnion]
  · congr 1
    refine Finset.sum_congr rfl fun a _ => ?_
    rw [Finset.sum_image]
    intro x _ y _ hxy
    simpa using hxy
  · intro a _ b _ hab
    rw [Function.onFun, Finset.disjoint_left]
    intro w h1 h2
    rw [Finset.mem_image] at h1 h2
    obtain ⟨_, _, rfl⟩ := h1
    obtain ⟨_, _, he⟩ := h2
    injection he with h3 _
    exact hab h3.symm
  · simp

/-- The expected length is the total probability of the internal nodes. -/
theorem expected_internal (hS : 0 < S) (hp : ∑ a ∈ Finset.range S, p a = 1) (T : Finset Word) (h : Complete S T) :
    ∑ w ∈ T, prob p w * w.length = ∑ v ∈ internal T, prob p v := by
  refine Complete.induct hS (motive := fun T => ∑ w ∈ T, prob p w * w.length = ∑ v ∈ internal T, prob p v) (by simp [internal_leaf])
    (fun T hT h0 ih => ?_) T h
  rw [expected_split p hT h0 hS hp, internal_sum hT h0 hS, prob_nil]
  congr 1
  refine Finset.sum_congr rfl fun a ha => ?_
  rw [ih a (Finset.mem_range.mp ha), Finset.mul_sum]
  exact Finset.sum_congr rfl fun v _ => (prob_cons p a v).symm

/-- Number of words and of internal nodes. -/
theorem card_internal (hS : 0 < S) (T : Finset Word) (h : Complete S T) : T.card = 1 + (internal T).card * (S - 1) := by
  refine Complete.induct hS (motive := fun T => T.card = 1 + (internal T).card * (S - 1)) (by simp [internal_leaf])
    (fun T hT h0 ih => ?_) T h
  have e1 := sum_split hT h0 (fun _ => (1 : Nat))
  have e2 := internal_sum hT h0 hS (fun _ => (1 : Nat))
  simp only [Finset.sum_const, smul_eq_mul, mul_one] at e1 e2
  have e3 : ∑ a ∈ Finset.range S, (sub T a).card = ∑ a ∈ Finset.range S, (1 + (internal (sub T a)).card * (S - 1)) :=
    Finset.sum_congr rfl fun a ha => ih a (Finset.mem_range.mp ha)
  rw [Finset.sum_add_distrib, ← Finset.sum_mul] at e3
  simp only [Finset.sum_const, smul_eq_mul, mul_one, Finset.card_range] at e3
  rw [e1, e3, e2, add_mul, one_mul]
  omega

/-- A word over the alphabet that is not an internal node extends a word of the tree. -/
theorem extends_of_not_internal {T : Finset Word} (h : Complete S T) (hS : 0 < S) {u : Word} (hu : ∀ a ∈ u, a < S)
    (hn : u ∉ internal T) : ∃ w ∈ T, w <+: u := by
  obtain ⟨w, hw, he⟩ := h.cov (fun i => u.getD i 0) (by
    intro i
    by_cases hi : i < u.length
    · rw [List.getD_eq_getElem _ _ hi]; exact hu _ (List.getElem_mem hi)
    · rw [List.getD_eq_default _ _ (by omega)]; exact hS)
  have hget : ∀ i (hi : i < w.length), w[i] = u.getD i 0 := by
    intro i hi
    have : w[i] = ((List.range w.length).map fun i => u.getD i 0)[i]'(by simpa using hi) := by
      congr 1
    rw [this]; simp
  by_cases hl : w.length ≤ u.length
  · refine ⟨w, hw, ?_⟩
    rw [List.prefix_iff_eq_take]
    apply List.ext_getElem
    · simp [hl]
    · intro i h1 h2
      rw [hget i h1, List.getElem_take, List.getD_eq_getElem _ _ (by omega)]
  · exfalso
    apply hn
    refine mem_internal.mpr ⟨w, hw, ?_, fun he => hl (by rw [he])⟩
    rw [List.prefix_iff_eq_take]
    apply List.ext_getElem
    · simp; omega
    · intro i h1 h2
      rw [List.getElem_take, hget i (by omega), List.getD_eq_getElem _ _ h1]

end

/-- The entropy of the words is the expected length times the entropy of a symbol. -/
theorem entropy_tree {S : Nat} (p : Nat → ℝ) (hS : 0 < S) (hp : ∑ a ∈ Finset.range S, p a = 1) (T : Finset Word) (h : Complete S T) :
    ∑ w ∈ T, Real.negMulLog (prob p w) =
      (∑ w ∈ T, prob p w * w.length) * ∑ a ∈ Finset.range S, Real.negMulLog (p a) := by
  refine Complete.induct hS (motive := fun T => ∑ w ∈ T, Real.negMulLog (prob p w) =
      (∑ w ∈ T, prob p w * w.length) * ∑ a ∈ Finset.range S, Real.negMulLog (p a)) (by simp) (fun T hT h0 ih => ?_) T h
  rw [expected_split p hT h0 hS hp, sum_split hT h0, add_mul, one_mul, Finset.sum_mul, ← Finset.sum_add_distrib]
  refine Finset.sum_congr rfl fun a ha => ?_
  have h1 := sum_prob p hS hp _ (hT.sub h0 (Finset.mem_range.mp ha))
  have h2 : ∀ w ∈ sub T a, Real.negMulLog (prob p (a :: w)) =
      prob p w * Real.negMulLog (p a) + p a * Real.negMulLog (prob p w) := by
    intro w _
    rw [prob_cons, Real.negMulLog_mul]
  rw [Finset.sum_congr rfl h2, Finset.sum_add_distrib, ← Finset.sum_mul, ← Finset.mul_sum, h1, one_mul,
    ih a (Finset.mem_range.mp ha), mul_assoc]

theorem prob_nonneg {p : Nat → ℝ} {S : Nat} (hp : ∀ a < S, 0 ≤ p a) (w : Word) (hw : ∀ a ∈ w, a < S) : 0 ≤ prob p w := by
  apply List.prod_nonneg
  intro x hx
  obtain ⟨a, ha, rfl⟩ := List.mem_map.mp hx
  exact hp a (hw a ha)

/-- Among the trees with at most as many words, a tree all of whose internal nodes are at least as probable as all of its words has the
greatest expected length. -/
theorem optimal_tree {K : Type} [Field K] [LinearOrder K] [IsStrictOrderedRing K] {S : Nat} (p : Nat → K) (hS : 2 ≤ S)
    (hp0 : ∀ a < S, 0 ≤ p a) (hp : ∑ a ∈ Finset.range S, p a = 1) (T : Finset Word) (h : Complete S T)
    (hgreedy : ∀ v ∈ internal T, ∀ w ∈ T, prob p w ≤ prob p v) (T' : Finset Word) (h' : Complete S T') (hc : T'.card ≤ T.card) :
    ∑ w ∈ T', prob p w * w.length ≤ ∑ w ∈ T, prob p w * w.length := by
  have hS0 : 0 < S := by omega
  rw [expected_internal p hS0 hp T h, expected_internal p hS0 hp T' h']
  have hcard : (internal T').card ≤ (internal T).card := by
    rw [card_internal hS0 T h, card_internal hS0 T' h'] at hc
    have hS1 : 0 < S - 1 := by omega
    exact Nat.le_of_mul_le_mul_right (Nat.le_of_add_le_add_left hc) hS1
  have hle1 : ∀ a < S, p a ≤ 1 := by
    intro a ha
    rw [← hp]
    exact Finset.single_le_sum (f := p) (fun b hb => hp0 b (Finset.mem_range.mp hb)) (Finset.mem_range.mpr ha)
  have hsymI : ∀ v ∈ internal T', ∀ a ∈ v, a < S := by
    intro v hv a ha
    obtain ⟨w, hw, hpre, -⟩ := mem_internal.mp hv
    exact h'.sym w hw a (hpre.subset ha)
  have hpn : ∀ w : Word, (∀ a ∈ w, a < S) → 0 ≤ prob p w ∧ prob p w ≤ 1 := by
    intro w
    induction w with
    | nil => intro _; simp
    | cons a w ih =>
      intro hw
      obtain ⟨i1, i2⟩ := ih fun b hb => hw b (by simp [hb])
      rw [prob_cons]
      have ha := hp0 a (hw a (by simp))
      exact ⟨mul_nonneg ha i1, mul_le_one₀ (hle1 a (hw a (by simp))) i1 i2⟩
  -- every node outside the tree is at most as probable as every internal node
  have hout : ∀ u ∈ internal T', u ∉ internal T → ∀ v ∈ internal T, prob p u ≤ prob p v := by
    intro u hu hun v hv
    obtain ⟨w, hw, t, rfl⟩ := extends_of_not_internal h hS0 (hsymI u hu) hun
    rw [prob_append]
    refine le_trans ?_ (hgreedy v hv w hw)
    exact mul_le_of_le_one_right (hpn w (h.sym w hw)).1 (hpn t fun a ha => hsymI _ hu a (by simp [ha])).2
  rw [← Finset.sum_sdiff_le_sum_sdiff]
  rcases (internal T \ internal T').eq_empty_or_nonempty with hE | ⟨v0, hv0⟩
  · have : internal T' \ internal T = ∅ := by
      rw [← Finset.card_eq_zero]
      have h1 := Finset.card_sdiff_add_card_inter (internal T') (internal T)
      have h2 := Finset.card_sdiff_add_card_inter (internal T) (internal T')
      rw [hE, Finset.inter_comm] at h2
      simp at h2
      omega
    rw [this, hE]
  · obtain ⟨v1, hv1, hmin⟩ := Finset.exists_min_image (internal T \ internal T') (prob p) ⟨v0, hv0⟩
    have hc' : (internal T' \ internal T).card ≤ (internal T \ internal T').card := by
      have h1 := Finset.card_sdiff_add_card_inter (internal T') (internal T)
      have h2 := Finset.card_sdiff_add_card_inter (internal T) (internal T')
      rw [Finset.inter_comm] at h2
      omega
    have hv1' := (Finset.mem_sdiff.mp hv1)
    have hv1n : 0 ≤ prob p v1 := by
      obtain ⟨w, hw, hpre, -⟩ := mem_internal.mp hv1'.1
      exact (hpn v1 fun a ha => h.sym w hw a (hpre.subset ha)).1
    calc ∑ u ∈ internal T' \ internal T, prob p u
        ≤ (internal T' \ internal T).card • prob p v1 := Finset.sum_le_card_nsmul _ _ _ fun u hu => by
          obtain ⟨h1, h2⟩ := Finset.mem_sdiff.mp hu
          exact hout u h1 h2 v1 hv1'.1
      _ ≤ (internal T \ internal T').card • prob p v1 := nsmul_le_nsmul_left hv1n hc'
      _ ≤ ∑ v ∈ internal T \ internal T', prob p v := Finset.card_nsmul_le_sum _ _ _ fun v hv => hmin v hv

end WordTree
end Komm
