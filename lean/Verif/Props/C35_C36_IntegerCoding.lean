import Verif.Lemmas.IntegerCoding

/-! C35, C36: unary and Fibonacci codes. -/
namespace Komm

/-- Non-negative integers as Python integers. -/
def asInts (l : List Nat) : List Int := l.map fun n : Nat => (n : Int)

theorem toNat_asInts (l : List Nat) : (asInts l).map Int.toNat = l := by
  simp [asInts, List.map_map, Function.comp_def]

theorem flatMap_asInts {β : Type} (l : List Nat) (f : Nat → List β) :
    (asInts l).flatMap (fun n => f n.toNat) = l.flatMap f := by
  simp [asInts, List.flatMap_map]

/-! ### C35 -/

/-- `decode(encode(x)) == x` for every list of non-negative integers (the codeword of `n` is `n` ones and a
zero). -/
theorem C35_unary_roundtrip (input : List Nat) :
    ∃ bits, unaryEncode (asInts input) = some bits ∧
      bits = input.flatMap (fun n => List.replicate n 1 ++ [0]) ∧
      unaryDecode (asInts bits) = some input := by
  refine ⟨input.flatMap unaryWord, ?_, rfl, ?_⟩
  · unfold unaryEncode
    rw [if_neg, flatMap_asInts]
    rw [not_not]
    intro n hn
    obtain ⟨m, _, rfl⟩ := List.mem_map.mp hn
    omega
  · unfold unaryDecode
    rw [if_neg, toNat_asInts]
    · exact unaryDecodeLoop_words input _ (by simp [asInts])
    · rw [not_not]
      intro b hb
      obtain ⟨m, hm, rfl⟩ := List.mem_map.mp hb
      obtain ⟨n, _, hm⟩ := List.mem_flatMap.mp hm
      simp only [unaryWord, List.mem_append, List.mem_replicate, List.mem_singleton] at hm
      omega

/-- Negative integers are rejected. -/
theorem C35_unary_encode_rejects (input : List Int) (h : ∃ n ∈ input, n < 0) : unaryEncode input = none := by
  obtain ⟨n, hn, h⟩ := h
  unfold unaryEncode
  rw [if_pos]
  intro hall
  exact absurd (hall n hn) (by omega)

/-- Whatever `decode` accepts is the encoding of what it returns. -/
theorem C35_unary_encode_decode (bits : List Nat) (hb : ∀ b ∈ bits, b < 2) (output : List Nat)
    (h : unaryDecode (asInts bits) = some output) : unaryEncode (asInts output) = some bits := by
  unfold unaryDecode at h
  rw [if_neg, toNat_asInts] at h
  · have := unaryDecodeLoop_some _ bits output hb h
    unfold unaryEncode
    rw [if_neg, flatMap_asInts, this]
    rw [not_not]
    intro n hn
    obtain ⟨m, _, rfl⟩ := List.mem_map.mp hn
    omega
  · rw [not_not]
    intro b hb'
    obtain ⟨m, hm, rfl⟩ := List.mem_map.mp hb'
    have := hb m hm
    omega

/-- A sequence of bits is rejected exactly when it ends with a `1` (an incomplete last codeword). -/
theorem C35_unary_decode_rejects_iff (bits : List Nat) (hb : ∀ b ∈ bits, b < 2) :
    unaryDecode (asInts bits) = none ↔ bits.getLast? = some 1 := by
  have hg : ¬ ¬ (∀ b ∈ asInts bits, 0 ≤ b ∧ b < 2) := by
    rw [not_not]
    intro b hb'
    obtain ⟨m, hm, rfl⟩ := List.mem_map.mp hb'
    have := hb m hm
    omega
  constructor
  · intro h
    unfold unaryDecode at h
    rw [if_neg hg, toNat_asInts] at h
    exact unaryDecodeLoop_none _ bits hb (by simp [asInts]) h
  · intro h
    cases hd : unaryDecode (asInts bits) with
    | none => rfl
    | some output =>
      exfalso
      unfold unaryDecode at hd
      rw [if_neg hg, toNat_asInts] at hd
      have := unaryDecodeLoop_some _ bits output hb hd
      rw [← this] at h
      rcases List.eq_nil_or_concat output with rfl | ⟨t, n, rfl⟩
      · simp at h
      · rw [List.concat_eq_append, List.flatMap_append, List.flatMap_singleton, unaryWord, ← List.append_assoc,
          List.getLast?_concat] at h
        simp at h

/-- Non-vacuity (documented example of UnaryCode.py). -/
example : unaryEncode (asInts [4, 1, 3]) = some [1, 1, 1, 1, 0, 1, 0, 1, 1, 1, 0] ∧
    unaryDecode (asInts [1, 1, 1, 1, 0, 1, 0, 1, 1, 1, 0]) = some [4, 1, 3] ∧
    unaryDecode (asInts [1, 0, 1, 1]) = none := by decide +kernel

/-! ### C36 -/

/-- `decode(encode(x)) == x` for every list of positive integers. -/
theorem C36_fibonacci_roundtrip (input : List Nat) (hpos : ∀ n ∈ input, 1 ≤ n) :
    ∃ bits, fibonacciEncode (asInts input) = some bits ∧ fibonacciDecode (asInts bits) = some input := by
  refine ⟨input.flatMap fibonacciWord, ?_, ?_⟩
  · unfold fibonacciEncode
    rw [if_neg, flatMap_asInts]
    rw [not_not]
    intro n hn
    obtain ⟨m, hm, rfl⟩ := List.mem_map.mp hn
    have := hpos m hm
    omega
  · unfold fibonacciDecode
    rw [if_neg, toNat_asInts]
    · exact fibonacciDecodeLoop_words input hpos _ (by simp [asInts])
    · rw [not_not]
      intro b hb
      obtain ⟨m, hm, rfl⟩ := List.mem_map.mp hb
      obtain ⟨n, hn, hm⟩ := List.mem_flatMap.mp hm
      obtain ⟨body, h1, -, -, -, h5, -⟩ := fibonacciWord_form (hpos n hn)
      rw [h1, List.mem_append, List.mem_singleton] at hm
      rcases hm with h | h
      · have := h5 m h; omega
      · omega

/-- The codeword of `n ≥ 1`: the bits followed by a final `1`; the sum of the Fibonacci numbers
`F(i+2)` over the positions `i` of the ones before the final bit is `n`, the last of those bits is a `1`, and
no other two adjacent bits of the codeword are both `1`. -/
theorem C36_fibonacci_codeword (n : Nat) (hn : 1 ≤ n) :
    ∃ bits : List Nat, fibonacciEncode [(n : Int)] = some (bits ++ [1]) ∧
      (∀ b ∈ bits, b = 0 ∨ b = 1) ∧ bits.getLast? = some 1 ∧
      (∀ i, ¬ (bits[i]? = some 1 ∧ bits[i + 1]? = some 1)) ∧
      (bits.mapIdx fun i b => b * Nat.fib (i + 2)).sum = n := by
  obtain ⟨body, h1, -, h3, h4, h5, h6⟩ := fibonacciWord_form hn
  refine ⟨body, ?_, fun b hb => by have := h5 b hb; omega, h4, h3, ?_⟩
  · unfold fibonacciEncode
    rw [if_neg (by simp; omega)]
    simp [h1]
  · rw [← h6, fibonacciValue, List.dropLast_concat]
    congr 1
    apply List.ext_getElem (by simp)
    intro i i1 i2
    simp only [List.getElem_mapIdx, fibonacci_eq]
    simp only [List.length_mapIdx] at i1
    have := h5 body[i] (List.getElem_mem i1)
    rcases (by omega : body[i] = 0 ∨ body[i] = 1) with h | h <;> simp [h]

theorem C36_fibonacci_encode_rejects (input : List Int) (h : ∃ n ∈ input, n < 1) : fibonacciEncode input = none := by
  obtain ⟨n, hn, h⟩ := h
  unfold fibonacciEncode
  rw [if_pos]
  intro hall
  exact absurd (hall n hn) (by omega)

/-- `decode` accepts exactly the sequences of bits that are encodings, and returns what they encode. -/
theorem C36_fibonacci_decode_iff (bits : List Nat) (hb : ∀ b ∈ bits, b < 2) (output : List Nat) :
    fibonacciDecode (asInts bits) = some output ↔ fibonacciEncode (asInts output) = some bits := by
  constructor
  · intro h
    unfold fibonacciDecode at h
    rw [if_neg, toNat_asInts] at h
    · obtain ⟨h1, h2⟩ := fibonacciDecodeLoop_some _ bits output hb h
      unfold fibonacciEncode
      rw [if_neg, flatMap_asInts, h2]
      rw [not_not]
      intro n hn
      obtain ⟨m, hm, rfl⟩ := List.mem_map.mp hn
      have := h1 m hm
      omega
    · rw [not_not]
      intro b hb'
      obtain ⟨m, hm, rfl⟩ := List.mem_map.mp hb'
      have := hb m hm
      omega
  · intro h
    by_cases hp : ∀ n ∈ output, 1 ≤ n
    · obtain ⟨bits', h1, h2⟩ := C36_fibonacci_roundtrip output hp
      rw [h] at h1
      rw [Option.some.inj h1]; exact h2
    · push Not at hp
      obtain ⟨n, hn, hlt⟩ := hp
      rw [C36_fibonacci_encode_rejects (asInts output) ⟨(n : Int), List.mem_map.mpr ⟨n, hn, rfl⟩, by omega⟩] at h
      simp at h

/-- Non-vacuity (documented example of FibonacciCode.py). -/
example : fibonacciEncode (asInts [4, 1, 3]) = some [1, 0, 1, 1, 1, 1, 0, 0, 1, 1] ∧
    fibonacciDecode (asInts [1, 0, 1, 1, 1, 1, 0, 0, 1, 1]) = some [4, 1, 3] ∧
    fibonacciDecode (asInts [1, 0, 1, 1, 1]) = none := by decide +kernel

end Komm
