import Verif.Model.IntegerCoding
import Mathlib.Data.Nat.Fib.Zeckendorf

namespace Komm

/-! ### Unary -/

theorem unaryScan_word (n : Nat) (rest : List Nat) : unaryScan (unaryWord n ++ rest) = some (unaryWord n, rest) := by
  induction n with
  | zero => simp [unaryWord, unaryScan]
  | succ n ih =>
    have : unaryWord (n + 1) = 1 :: unaryWord n := by simp [unaryWord, List.replicate_succ]
    rw [this, List.cons_append, unaryScan, if_pos rfl, ih]; rfl

theorem unaryWord_length (n : Nat) : (unaryWord n).length = n + 1 := by simp [unaryWord]

theorem unaryDecodeLoop_words (l : List Nat) : ∀ fuel, (l.flatMap unaryWord).length ≤ fuel →
    unaryDecodeLoop fuel (l.flatMap unaryWord) = some l := by
  induction l with
  | nil => intro fuel _; cases fuel <;> rfl
  | cons n l ih =>
    intro fuel hf
    rw [List.flatMap_cons] at hf ⊢
    rw [List.length_append, unaryWord_length] at hf
    obtain ⟨fuel, rfl⟩ : ∃ f, fuel = f + 1 := ⟨fuel - 1, by omega⟩
    obtain ⟨a, t, hat⟩ : ∃ a t, unaryWord n ++ l.flatMap unaryWord = a :: t := by
      cases h : unaryWord n ++ l.flatMap unaryWord with
      | nil => have := congrArg List.length h; simp [unaryWord_length] at this
      | cons a t => exact ⟨a, t, rfl⟩
    rw [hat, unaryDecodeLoop, ← hat, unaryScan_word]
    simp only [ih fuel (by omega), Option.map_some, unaryValue, unaryWord_length, Nat.add_sub_cancel]

theorem unaryScan_some {l w r : List Nat} (hl : ∀ b ∈ l, b < 2) (h : unaryScan l = some (w, r)) :
    l = w ++ r ∧ w = unaryWord (unaryValue w) := by
  induction l generalizing w with
  | nil => simp [unaryScan] at h
  | cons b l ih =>
    rw [unaryScan] at h
    split at h
    · rename_i hb
      obtain ⟨⟨w', r'⟩, h1, h2⟩ := Option.map_eq_some_iff.mp h
      simp only [Prod.mk.injEq] at h2
      obtain ⟨rfl, rfl⟩ := h2
      obtain ⟨i1, i2⟩ := ih (fun x hx => hl x (by simp [hx])) h1
      refine ⟨by rw [i1]; rfl, ?_⟩
      have hpos : 1 ≤ w'.length := by rw [i2, unaryWord_length]; omega
      have hv : unaryValue (b :: w') = unaryValue w' + 1 := by simp [unaryValue]; omega
      rw [hv, hb]
      conv_lhs => rw [i2]
      simp [unaryWord, List.replicate_succ]
    · rename_i hb
      simp only [Option.some.injEq, Prod.mk.injEq] at h
      obtain ⟨rfl, rfl⟩ := h
      have := hl b (by simp)
      have hb0 : b = 0 := by omega
      subst hb0
      simp [unaryValue, unaryWord]

theorem unaryDecodeLoop_some (fuel : Nat) : ∀ l out, (∀ b ∈ l, b < 2) → unaryDecodeLoop fuel l = some out →
    out.flatMap unaryWord = l := by
  induction fuel with
  | zero =>
    intro l out _ h
    cases l with
    | nil => simp [unaryDecodeLoop] at h; subst h; rfl
    | cons b l => simp [unaryDecodeLoop] at h
  | succ fuel ih =>
    intro l out hl h
    cases l with
    | nil => simp [unaryDecodeLoop] at h; subst h; rfl
    | cons b l =>
      rw [unaryDecodeLoop] at h
      cases hs : unaryScan (b :: l) with
      | none => rw [hs] at h; simp at h
      | some wr =>
        obtain ⟨w, r⟩ := wr
        rw [hs] at h
        obtain ⟨out', h1, rfl⟩ := Option.map_eq_some_iff.mp h
        obtain ⟨e1, e2⟩ := unaryScan_some hl hs
        rw [e1, List.flatMap_cons, ← e2, ih r out' (fun x hx => hl x (by rw [e1]; simp [hx])) h1]

/-- The decoder fails only on an incomplete last codeword: the input ends with a `1`. -/
theorem unaryScan_none {l : List Nat} (h : unaryScan l = none) : ∀ b ∈ l, b = 1 := by
  induction l with
  | nil => simp
  | cons b l ih =>
    rw [unaryScan] at h
    split at h
    · rename_i hb
      intro x hx
      rcases List.mem_cons.mp hx with rfl | hx
      · exact hb
      · exact ih (Option.map_eq_none_iff.mp h) x hx
    · simp at h

theorem unaryDecodeLoop_none (fuel : Nat) : ∀ l, (∀ b ∈ l, b < 2) → l.length ≤ fuel →
    unaryDecodeLoop fuel l = none → l.getLast? = some 1 := by
  induction fuel with
  | zero =>
    intro l _ hf h
    cases l with
    | nil => simp [unaryDecodeLoop] at h
    | cons b l => simp at hf
  | succ fuel ih =>
    intro l hl hf h
    cases l with
    | nil => simp [unaryDecodeLoop] at h
    | cons b l =>
      rw [unaryDecodeLoop] at h
      cases hs : unaryScan (b :: l) with
      | none =>
        have := unaryScan_none hs
        rw [List.getLast?_eq_some_getLast (by simp)]
        rw [this _ (List.getLast_mem (by simp))]
      | some wr =>
        obtain ⟨w, r⟩ := wr
        rw [hs] at h
        have h := Option.map_eq_none_iff.mp h
        obtain ⟨e1, e2⟩ := unaryScan_some hl hs
        have hw : 1 ≤ w.length := by rw [e2, unaryWord_length]; omega
        have hlen := congrArg List.length e1
        rw [List.length_append] at hlen
        have := ih r (fun x hx => hl x (by rw [e1]; simp [hx])) (by omega) h
        rw [e1, List.getLast?_append, this]; rfl

/-! ### Fibonacci -/

theorem fibonacci_eq : ∀ n, fibonacci n = Nat.fib n
  | 0 => rfl
  | 1 => rfl
  | n + 2 => by rw [fibonacci, Nat.fib_add_two, fibonacci_eq (n + 1), fibonacci_eq n, add_comm]

theorem fibonacciSearch_eq (n : Nat) : ∀ fuel i, i ≤ Nat.greatestFib n → Nat.greatestFib n < i + fuel →
    fibonacciSearch n fuel i = Nat.greatestFib n := by
  intro fuel
  induction fuel with
  | zero => intro i h1 h2; omega
  | succ fuel ih =>
    intro i h1 h2
    rw [fibonacciSearch, fibonacci_eq]
    by_cases h : Nat.fib (i + 1) ≤ n
    · rw [if_pos h]; exact ih (i + 1) (Nat.le_greatestFib.mpr h) (by omega)
    · rw [if_neg h]
      have := Nat.greatestFib_lt.mpr (not_le.mp h)
      omega

theorem greatestFib_le (n : Nat) : Nat.greatestFib n ≤ n + 1 := by
  have := Nat.le_fib_add_one (Nat.greatestFib n)
  have := Nat.fib_greatestFib_le n
  omega

theorem fibonacciPositions_eq : ∀ fuel n, n ≤ fuel →
    fibonacciPositions fuel n = (Nat.zeckendorf n).map (· - 2) := by
  intro fuel
  induction fuel with
  | zero => intro n h; obtain rfl : n = 0 := by omega
            simp [fibonacciPositions]
  | succ fuel ih =>
    intro n h
    rw [fibonacciPositions]
    by_cases hn : n > 0
    · rw [if_pos hn]
      simp only
      have hg := greatestFib_le n
      rw [fibonacciSearch_eq n (n + 2) 0 (by omega) (by omega), fibonacci_eq, Nat.zeckendorf_of_pos hn, List.map_cons]
      have : 0 < Nat.fib (Nat.greatestFib n) := Nat.fib_pos.mpr (Nat.greatestFib_pos.mpr hn)
      rw [ih _ (by omega)]
    · rw [if_neg hn]
      obtain rfl : n = 0 := by omega
      simp

/-- The word of a Zeckendorf representation. -/
def zWord (l : List Nat) : List Nat :=
  (List.range ((l.map (· - 2)).foldr max 0 + 1)).map fun i => if i + 2 ∈ l then 1 else 0

theorem IsZ.cons {a : Nat} {l : List Nat} : List.IsZeckendorfRep (a :: l) ↔
    2 ≤ a ∧ (∀ b ∈ l, b + 2 ≤ a) ∧ List.IsZeckendorfRep l := by
  have htr : ∀ l : List Nat, l.IsChain (fun a b => b + 2 ≤ a) ↔ l.Pairwise (fun a b => b + 2 ≤ a) := by
    intro l
    have : IsTrans ℕ fun a b ↦ b + 2 ≤ a := ⟨fun a b c h1 h2 => by omega⟩
    exact List.isChain_iff_pairwise
  unfold List.IsZeckendorfRep
  rw [List.cons_append, htr, List.pairwise_cons, htr]
  constructor
  · rintro ⟨h1, h2⟩
    exact ⟨h1 0 (by simp), fun b hb => h1 b (by simp [hb]), h2⟩
  · rintro ⟨h1, h2, h3⟩
    refine ⟨?_, h3⟩
    intro b hb
    rcases List.mem_append.mp hb with h | h
    · exact h2 b h
    · simp at h; omega

theorem IsZ.mem_ge {l : List Nat} (h : List.IsZeckendorfRep l) : ∀ a ∈ l, 2 ≤ a := by
  induction l with
  | nil => simp
  | cons b l ih =>
    obtain ⟨h1, h2, h3⟩ := IsZ.cons.mp h
    intro a ha
    rcases List.mem_cons.mp ha with rfl | ha
    · exact h1
    · exact ih h3 a ha

theorem IsZ.gap {l : List Nat} (h : List.IsZeckendorfRep l) : ∀ a ∈ l, ∀ b ∈ l, a + 1 ≠ b := by
  induction l with
  | nil => simp
  | cons c l ih =>
    obtain ⟨h1, h2, h3⟩ := IsZ.cons.mp h
    intro a ha b hb
    rcases List.mem_cons.mp ha with ha' | ha' <;> rcases List.mem_cons.mp hb with hb' | hb'
    · omega
    · have := h2 b hb'; omega
    · have := h2 a ha'; omega
    · exact ih h3 a ha' b hb'

theorem IsZ.foldr_max {a : Nat} {l : List Nat} (h : List.IsZeckendorfRep (a :: l)) :
    ((a :: l).map (· - 2)).foldr max 0 = a - 2 := by
  obtain ⟨h1, h2, h3⟩ := IsZ.cons.mp h
  have : ∀ l : List Nat, (∀ b ∈ l, b ≤ a - 2) → l.foldr max 0 ≤ a - 2 := by
    intro l
    induction l with
    | nil => simp
    | cons b l ih =>
      intro h
      simp only [List.foldr_cons]
      exact max_le (h b (by simp)) (ih fun c hc => h c (by simp [hc]))
  rw [List.map_cons, List.foldr_cons]
  refine max_eq_left (this _ ?_)
  intro b hb
  obtain ⟨c, hc, rfl⟩ := List.mem_map.mp hb
  have := h2 c hc
  omega

theorem fibonacciWord_eq {n : Nat} (hn : 0 < n) : ∃ a l, Nat.zeckendorf n = a :: l ∧
    List.IsZeckendorfRep (a :: l) ∧
    fibonacciWord n = ((List.range (a - 1)).map fun i => if i + 2 ∈ (a :: l) then 1 else 0) ++ [1] := by
  have hz := Nat.isZeckendorfRep_zeckendorf n
  obtain ⟨a, l, hal⟩ : ∃ a l, Nat.zeckendorf n = a :: l := ⟨_, _, Nat.zeckendorf_of_pos hn⟩
  rw [hal] at hz
  refine ⟨a, l, hal, hz, ?_⟩
  unfold fibonacciWord
  rw [fibonacciPositions_eq n n le_rfl, hal]
  dsimp only
  rw [IsZ.foldr_max hz]
  obtain ⟨h1, -, -⟩ := IsZ.cons.mp hz
  rw [show a - 2 + 1 = a - 1 by omega]
  congr 1
  apply List.map_congr_left
  intro i _
  congr 1
  rw [eq_iff_iff, List.mem_map]
  constructor
  · rintro ⟨b, hb, hbi⟩
    have := IsZ.mem_ge hz b hb
    rw [show i + 2 = b by omega]; exact hb
  · intro h; exact ⟨i + 2, h, by omega⟩

/-- No two adjacent ones. -/
def NoAdj (l : List Nat) : Prop := ∀ i, ¬ (l[i]? = some 1 ∧ l[i + 1]? = some 1)

theorem NoAdj.tail {a : Nat} {l : List Nat} (h : NoAdj (a :: l)) : NoAdj l := fun i hi => h (i + 1) (by simpa using hi)

theorem fibonacciScan_word (body : List Nat) (hne : body ≠ []) (hna : NoAdj body) (hlast : body.getLast? = some 1)
    (rest : List Nat) : fibonacciScan (body ++ 1 :: rest) = some (body ++ [1], rest) := by
  induction body with
  | nil => exact absurd rfl hne
  | cons a body ih =>
    cases body with
    | nil =>
      simp at hlast; subst hlast
      simp [fibonacciScan]
    | cons b body =>
      have h0 := hna 0
      simp at h0
      rw [List.cons_append, List.cons_append, fibonacciScan, if_neg (by rintro ⟨rfl, rfl⟩; exact h0 rfl rfl)]
      have := ih (by simp) hna.tail (by simpa using hlast)
      rw [List.cons_append] at this
      rw [this]; rfl

theorem fibonacciScan_some {l w r : List Nat} (h : fibonacciScan l = some (w, r)) :
    l = w ++ r ∧ ∃ body, w = body ++ [1] ∧ body ≠ [] ∧ NoAdj body ∧ body.getLast? = some 1 := by
  induction l generalizing w with
  | nil => simp [fibonacciScan] at h
  | cons a l ih =>
    cases l with
    | nil => simp [fibonacciScan] at h
    | cons b l =>
      rw [fibonacciScan] at h
      split at h
      · rename_i hab
        simp only [Option.some.injEq, Prod.mk.injEq] at h
        obtain ⟨rfl, rfl⟩ := h
        obtain ⟨rfl, rfl⟩ := hab
        refine ⟨rfl, [1], rfl, by simp, ?_, by simp⟩
        intro i hi; simp at hi
      · rename_i hab
        obtain ⟨⟨w', r'⟩, h1, h2⟩ := Option.map_eq_some_iff.mp h
        simp only [Prod.mk.injEq] at h2
        obtain ⟨rfl, rfl⟩ := h2
        obtain ⟨e, body, rfl, hne, hna, hl⟩ := ih h1
        refine ⟨by rw [e]; rfl, a :: body, by simp, by simp, ?_, ?_⟩
        · intro i hi
          cases i with
          | succ i => exact hna i (by simpa using hi)
          | zero =>
            cases body with
            | nil => exact hne rfl
            | cons c body =>
              simp at hi e
              exact hab ⟨by omega, by omega⟩
        · cases body with
          | nil => exact absurd rfl hne
          | cons c body => simpa using hl

/-- The ascending list of the (shifted) positions of the ones. -/
def onesFrom (k : Nat) : List Nat → List Nat
  | [] => []
  | b :: l => if b = 1 then k :: onesFrom (k + 1) l else onesFrom (k + 1) l

theorem mem_onesFrom {k : Nat} {l : List Nat} {x : Nat} : x ∈ onesFrom k l ↔ k ≤ x ∧ l[x - k]? = some 1 := by
  induction l generalizing k with
  | nil => simp [onesFrom]
  | cons b l ih =>
    rw [onesFrom]
    have key : (x ∈ onesFrom (k + 1) l ↔ k ≤ x ∧ x ≠ k ∧ (b :: l)[x - k]? = some 1) := by
      rw [ih]
      constructor
      · rintro ⟨h1, h2⟩
        refine ⟨by omega, by omega, ?_⟩
        rw [show x - k = (x - (k + 1)) + 1 by omega]; simpa using h2
      · rintro ⟨h1, h2, h3⟩
        rw [show x - k = (x - (k + 1)) + 1 by omega] at h3
        exact ⟨by omega, by simpa using h3⟩
    by_cases hb : b = 1
    · rw [if_pos hb, List.mem_cons, key]
      constructor
      · rintro (rfl | h)
        · simp [hb]
        · exact ⟨h.1, h.2.2⟩
      · rintro ⟨h1, h2⟩
        by_cases hx : x = k
        · exact Or.inl hx
        · exact Or.inr ⟨h1, hx, h2⟩
    · rw [if_neg hb, key]
      constructor
      · rintro ⟨h1, h2, h3⟩; exact ⟨h1, h3⟩
      · rintro ⟨h1, h2⟩
        refine ⟨h1, ?_, h2⟩
        rintro rfl
        simp at h2; exact hb h2

theorem value_eq_aux (l : List Nat) (hl : ∀ b ∈ l, b < 2) (k : Nat) :
    (l.mapIdx fun i bit => if bit ≠ 0 then fibonacci (i + k) else 0).sum = ((onesFrom k l).map Nat.fib).sum := by
  induction l generalizing k with
  | nil => rfl
  | cons b l ih =>
    rw [List.mapIdx_cons, List.sum_cons, onesFrom]
    have := ih (fun x hx => hl x (by simp [hx])) (k + 1)
    simp only [show ∀ i, i + 1 + k = i + (k + 1) by intro i; ring]
    rw [this]
    have hb := hl b (by simp)
    by_cases h : b = 1
    · rw [if_pos h, if_pos (by omega), fibonacci_eq, List.map_cons, List.sum_cons, Nat.zero_add]
    · rw [if_neg h, if_neg (by omega), Nat.zero_add]

theorem onesFrom_rep (l : List Nat) (hna : NoAdj l) : ∀ k, 2 ≤ k → List.IsZeckendorfRep (onesFrom k l).reverse := by
  -- reversed ascending list with gaps
  have htr : ∀ l : List Nat, l.IsChain (fun a b => b + 2 ≤ a) ↔ l.Pairwise (fun a b => b + 2 ≤ a) := by
    intro l
    have : IsTrans ℕ fun a b ↦ b + 2 ≤ a := ⟨fun a b c h1 h2 => by omega⟩
    exact List.isChain_iff_pairwise
  have asc : ∀ (l : List Nat) (k : Nat), NoAdj l → (onesFrom k l).Pairwise (fun a b => a + 2 ≤ b) := by
    intro l
    induction l with
    | nil => intro k _; simp [onesFrom]
    | cons b l ih =>
      intro k h
      rw [onesFrom]
      split
      · rename_i hb
        rw [List.pairwise_cons]
        refine ⟨?_, ih _ h.tail⟩
        intro x hx
        obtain ⟨h1, h2⟩ := mem_onesFrom.mp hx
        by_contra hc
        have hx : x = k + 1 := by omega
        subst hx
        exact h 0 ⟨by simp [hb], by simpa using h2⟩
      · exact ih _ h.tail
  intro k hk
  unfold List.IsZeckendorfRep
  rw [htr, List.pairwise_append]
  refine ⟨List.pairwise_reverse.mpr (asc l k hna), by simp, ?_⟩
  intro a ha b hb
  simp at hb ha
  have := (mem_onesFrom.mp ha).1
  omega

theorem fibonacciValue_eq (body : List Nat) (hb : ∀ b ∈ body, b < 2) :
    fibonacciValue (body ++ [1]) = ((onesFrom 2 body).reverse.map Nat.fib).sum := by
  unfold fibonacciValue
  rw [List.dropLast_concat, value_eq_aux body hb 2, List.map_reverse, List.sum_reverse]

/-- A word `body ++ [1]` with `body` ending in `1` and without adjacent ones is the codeword of its value. -/
theorem fibonacciWord_value (body : List Nat) (hb : ∀ b ∈ body, b < 2) (hna : NoAdj body)
    (hlast : body.getLast? = some 1) :
    0 < fibonacciValue (body ++ [1]) ∧ fibonacciWord (fibonacciValue (body ++ [1])) = body ++ [1] := by
  have hne : body ≠ [] := by rintro rfl; simp at hlast
  have hpos : 0 < body.length := List.length_pos_of_ne_nil hne
  have hrep := onesFrom_rep body hna 2 le_rfl
  have hz := Nat.zeckendorf_sum_fib hrep
  rw [← fibonacciValue_eq body hb] at hz
  have hmem : body.length + 1 ∈ onesFrom 2 body := by
    rw [mem_onesFrom]
    refine ⟨by omega, ?_⟩
    rw [List.getLast?_eq_getElem?] at hlast
    rw [show body.length + 1 - 2 = body.length - 1 by omega]; exact hlast
  have hval : 0 < fibonacciValue (body ++ [1]) := by
    rcases Nat.eq_zero_or_pos (fibonacciValue (body ++ [1])) with h | h
    · rw [h, Nat.zeckendorf_zero] at hz
      rw [← List.mem_reverse, ← hz] at hmem
      simp at hmem
    · exact h
  refine ⟨hval, ?_⟩
  obtain ⟨a, l, h1, h2, h3⟩ := fibonacciWord_eq hval
  rw [h3]
  congr 1
  rw [h1] at hz
  have hmem' : ∀ x, x ∈ a :: l ↔ x ∈ onesFrom 2 body := by intro x; rw [hz, List.mem_reverse]
  have ha : a = body.length + 1 := by
    have ha1 := (hmem' a).mp (by simp)
    obtain ⟨g1, g2⟩ := mem_onesFrom.mp ha1
    have : a - 2 < body.length := by
      by_contra hc
      rw [List.getElem?_eq_none (by omega)] at g2
      simp at g2
    rcases List.mem_cons.mp ((hmem' _).mpr hmem) with h | h
    · exact h.symm
    · have := (IsZ.cons.mp h2).2.1 _ h; omega
  subst ha
  apply List.ext_getElem (by simp)
  intro i i1 i2
  simp only [List.getElem_map, List.getElem_range]
  have : i + 2 ∈ ((body.length + 1) :: l) ↔ body[i] = 1 := by
    rw [hmem', mem_onesFrom]
    simp [i2]
  have hbi := hb body[i] (List.getElem_mem i2)
  by_cases h : body[i] = 1
  · rw [if_pos (this.mpr h), h]
  · rw [if_neg (fun hc => h (this.mp hc))]; omega

theorem fibonacciWord_form {n : Nat} (hn : 0 < n) : ∃ body, fibonacciWord n = body ++ [1] ∧ body ≠ [] ∧
    NoAdj body ∧ body.getLast? = some 1 ∧ (∀ b ∈ body, b < 2) ∧ fibonacciValue (body ++ [1]) = n := by
  obtain ⟨a, l, h1, h2, h3⟩ := fibonacciWord_eq hn
  have ha := (IsZ.cons.mp h2).1
  have hget : ∀ i, ((List.range (a - 1)).map fun i => if i + 2 ∈ (a :: l) then 1 else 0)[i]? = some 1 →
      i + 2 ∈ a :: l := by
    intro i hi
    rw [List.getElem?_map] at hi
    obtain ⟨j, h, h'⟩ := Option.map_eq_some_iff.mp hi
    have hj : j = i := by
      rcases Nat.lt_or_ge i (a - 1) with hlt | hge
      · rw [List.getElem?_range hlt] at h; exact (Option.some.inj h).symm
      · rw [List.getElem?_eq_none (by simpa using hge)] at h; simp at h
    subst hj
    by_contra hc
    rw [if_neg hc] at h'; simp at h'
  have hbits : ∀ b ∈ ((List.range (a - 1)).map fun i => if i + 2 ∈ (a :: l) then 1 else 0), b < 2 := by
    intro b hb
    obtain ⟨i, _, rfl⟩ := List.mem_map.mp hb
    split <;> omega
  have hna : NoAdj ((List.range (a - 1)).map fun i => if i + 2 ∈ (a :: l) then 1 else 0) := by
    rintro i ⟨x, y⟩
    exact IsZ.gap h2 _ (hget _ x) _ (hget _ y) (by omega)
  have hlast : ((List.range (a - 1)).map fun i => if i + 2 ∈ (a :: l) then 1 else 0).getLast? = some 1 := by
    rw [List.getLast?_eq_getElem?, List.getElem?_map]
    simp only [List.length_map, List.length_range]
    rw [List.getElem?_range (by omega), Option.map_some, if_pos]
    rw [show a - 1 - 1 + 2 = a by omega]; simp
  refine ⟨_, h3, ?_, hna, hlast, hbits, ?_⟩
  · intro h; rw [h] at hlast; simp at hlast
  · obtain ⟨v1, v2⟩ := fibonacciWord_value _ hbits hna hlast
    -- compare the Zeckendorf representations
    rw [← h3]
    have hz := Nat.zeckendorf_sum_fib (onesFrom_rep _ hna 2 le_rfl)
    rw [← fibonacciValue_eq _ hbits, ← h3] at hz
    have hsum := Nat.sum_zeckendorf_fib n
    rw [h1] at hsum
    rw [h3, fibonacciValue_eq _ hbits]
    have hperm : (onesFrom 2 ((List.range (a - 1)).map fun i => if i + 2 ∈ (a :: l) then 1 else 0)).reverse.Perm (a :: l) := by
      have nd : ∀ m : List Nat, List.IsZeckendorfRep m → m.Nodup := by
        intro m
        induction m with
        | nil => simp
        | cons c m ih =>
          intro h
          obtain ⟨_, k2, k3⟩ := IsZ.cons.mp h
          refine List.nodup_cons.mpr ⟨fun hc => by have := k2 c hc; omega, ih k3⟩
      rw [List.perm_ext_iff_of_nodup (nd _ (onesFrom_rep _ hna 2 le_rfl)) (nd _ h2)]
      intro x
      rw [List.mem_reverse, mem_onesFrom]
      constructor
      · rintro ⟨k1, k2⟩
        have := hget _ k2
        rwa [show x - 2 + 2 = x by omega] at this
      · intro hx
        have hx2 := IsZ.mem_ge h2 x hx
        refine ⟨hx2, ?_⟩
        have hle : x ≤ a := by
          rcases List.mem_cons.mp hx with rfl | hx'
          · exact le_rfl
          · have := (IsZ.cons.mp h2).2.1 x hx'; omega
        rw [List.getElem?_map, List.getElem?_range (by omega), Option.map_some, if_pos]
        rwa [show x - 2 + 2 = x by omega]
    rw [(hperm.map Nat.fib).sum_eq, hsum]

theorem fibonacciDecodeLoop_words (l : List Nat) (hl : ∀ n ∈ l, 0 < n) : ∀ fuel,
    (l.flatMap fibonacciWord).length ≤ fuel → fibonacciDecodeLoop fuel (l.flatMap fibonacciWord) = some l := by
  induction l with
  | nil => intro fuel _; cases fuel <;> rfl
  | cons n l ih =>
    intro fuel hf
    obtain ⟨body, h1, h2, h3, h4, h5, h6⟩ := fibonacciWord_form (hl n (by simp))
    rw [List.flatMap_cons] at hf ⊢
    rw [List.length_append, h1, List.length_append] at hf
    simp only [List.length_singleton] at hf
    obtain ⟨fuel, rfl⟩ : ∃ f, fuel = f + 1 := ⟨fuel - 1, by omega⟩
    obtain ⟨a, t, hat⟩ : ∃ a t, fibonacciWord n ++ l.flatMap fibonacciWord = a :: t := by
      cases h : fibonacciWord n ++ l.flatMap fibonacciWord with
      | nil => have := congrArg List.length h; simp [h1] at this
      | cons a t => exact ⟨a, t, rfl⟩
    rw [hat, fibonacciDecodeLoop, ← hat, h1, List.append_assoc, List.singleton_append,
      fibonacciScan_word body h2 h3 h4]
    simp only [ih (fun x hx => hl x (by simp [hx])) fuel (by omega), Option.map_some, h6]

theorem fibonacciDecodeLoop_some (fuel : Nat) : ∀ l out, (∀ b ∈ l, b < 2) → fibonacciDecodeLoop fuel l = some out →
    (∀ n ∈ out, 0 < n) ∧ out.flatMap fibonacciWord = l := by
  induction fuel with
  | zero =>
    intro l out _ h
    cases l with
    | nil => simp [fibonacciDecodeLoop] at h; subst h; simp
    | cons b l => simp [fibonacciDecodeLoop] at h
  | succ fuel ih =>
    intro l out hl h
    cases l with
    | nil => simp [fibonacciDecodeLoop] at h; subst h; simp
    | cons b l =>
      rw [fibonacciDecodeLoop] at h
      cases hs : fibonacciScan (b :: l) with
      | none => rw [hs] at h; simp at h
      | some wr =>
        obtain ⟨w, r⟩ := wr
        rw [hs] at h
        obtain ⟨out', h1, rfl⟩ := Option.map_eq_some_iff.mp h
        obtain ⟨e1, body, rfl, hne, hna, hlast⟩ := fibonacciScan_some hs
        obtain ⟨v1, v2⟩ := fibonacciWord_value body (fun x hx => hl x (by rw [e1]; simp [hx])) hna hlast
        obtain ⟨i1, i2⟩ := ih r out' (fun x hx => hl x (by rw [e1]; simp [hx])) h1
        refine ⟨?_, by rw [e1, List.flatMap_cons, v2, i2]⟩
        intro n hn
        rcases List.mem_cons.mp hn with rfl | hn
        · exact v1
        · exact i1 n hn

theorem fibonacciDecodeLoop_none (fuel : Nat) : ∀ l, (∀ b ∈ l, b < 2) → l.length ≤ fuel →
    fibonacciDecodeLoop fuel l = none → ∀ out : List Nat, (∀ n ∈ out, 0 < n) → out.flatMap fibonacciWord ≠ l := by
  intro l _ hf h out hout hc
  rw [← hc] at h hf
  rw [fibonacciDecodeLoop_words out hout fuel hf] at h
  simp at h

end Komm
