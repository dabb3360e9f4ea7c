import Verif.Model.PyObjects
import Verif.Props.C09_C12_Bifield
import Mathlib.Tactic.Linarith
/-
C140: equality, hashing, dictionaries, mixed fields and printing of the algebraic objects.
-/
namespace Komm.Py

/-- What equality means: the same object value, except that a Python integer equals the polynomial with that value. -/
def Same (x y : Obj) : Prop := x = y ∨ ∃ v, (x = .int v ∧ y = .poly v) ∨ (x = .poly v ∧ y = .int v)

/-- `==` compares values: same class and same attributes, or an integer and the polynomial of that value. -/
theorem C140_equal (x y : Obj) : pyEq x y = true ↔ Same x y := by
  have hB : ∀ F G : Bifield, F = G ↔ F.degree = G.degree ∧ F.modulus = G.modulus := fun F G => ⟨fun h => h ▸ ⟨rfl, rfl⟩, fun h => by cases F; cases G; cases h.1; cases h.2; rfl⟩
  cases x <;> cases y <;> simp [pyEq, eqMethod, Same, hB]
  · exact ⟨fun h => h.symm, fun h => h.symm⟩

/-- `==` is an equivalence relation. -/
theorem C140_equivalence : (∀ x, pyEq x x = true) ∧ (∀ x y, pyEq x y = pyEq y x) ∧ ∀ x y z, pyEq x y = true → pyEq y z = true → pyEq x z = true := by
  refine ⟨fun x => (C140_equal x x).mpr (Or.inl rfl), fun x y => ?_, fun x y z h1 h2 => ?_⟩
  · rw [Bool.eq_iff_iff, C140_equal, C140_equal]
    constructor
    · rintro (h | ⟨v, h | h⟩)
      · exact Or.inl h.symm
      · exact Or.inr ⟨v, Or.inr ⟨h.2, h.1⟩⟩
      · exact Or.inr ⟨v, Or.inl ⟨h.2, h.1⟩⟩
    · rintro (h | ⟨v, h | h⟩)
      · exact Or.inl h.symm
      · exact Or.inr ⟨v, Or.inr ⟨h.2, h.1⟩⟩
      · exact Or.inr ⟨v, Or.inl ⟨h.2, h.1⟩⟩
  · rw [C140_equal] at *
    rcases h1 with rfl | ⟨v, ⟨rfl, rfl⟩ | ⟨rfl, rfl⟩⟩
    · exact h2
    · rcases h2 with rfl | ⟨w, ⟨h, rfl⟩ | ⟨h, rfl⟩⟩
      · exact Or.inr ⟨v, Or.inl ⟨rfl, rfl⟩⟩
      · cases h
      · cases h; exact Or.inl rfl
    · rcases h2 with rfl | ⟨w, ⟨h, rfl⟩ | ⟨h, rfl⟩⟩
      · exact Or.inr ⟨v, Or.inr ⟨rfl, rfl⟩⟩
      · cases h; exact Or.inl rfl
      · cases h

theorem intHash_small {w : ℤ} (hw : |w| < 2305843009213693951) : intHash w = if w = -1 then -2 else w := by
  have h1 : Int.sign w * (|w| % hashModulus) = w := by
    rw [show hashModulus = 2305843009213693951 from rfl, Int.emod_eq_of_lt (abs_nonneg w) hw, Int.sign_mul_abs]
  simp only [intHash, h1]

theorem intHash_bound (w : ℤ) : |intHash w| < 2305843009213693951 ∧ intHash w ≠ -1 := by
  have h1 := Int.emod_nonneg |w| (show hashModulus ≠ 0 by decide)
  have h2 := Int.emod_lt_of_pos |w| (show 0 < hashModulus by decide)
  simp only [intHash]
  rw [show hashModulus = 2305843009213693951 from rfl] at *
  generalize |w| % 2305843009213693951 = m at *
  rw [abs_lt]
  rcases Int.sign_trichotomy w with h | h | h <;> rw [h] <;> split <;> omega

/-- An integer and the equal polynomial have the same hash exactly when the value is less than `2⁶¹ - 1` in magnitude or does not fit in 64 bits. -/
theorem C140_hash_mixed (v : ℤ) : pyHash (.int v) = pyHash (.poly v) ↔ |v| < 2 ^ 61 - 1 ∨ v < -2 ^ 63 ∨ 2 ^ 63 ≤ v := by
  rw [show (2 : ℤ) ^ 61 - 1 = 2305843009213693951 by norm_num, show (2 : ℤ) ^ 63 = 9223372036854775808 by norm_num]
  have hs : slotHash v = if (if -9223372036854775808 ≤ v ∧ v < 9223372036854775808 then v else intHash v) = -1 then -2
      else (if -9223372036854775808 ≤ v ∧ v < 9223372036854775808 then v else intHash v) := rfl
  obtain ⟨hb, hb1⟩ := intHash_bound v
  rw [pyHash, pyHash, Option.some.injEq, hs]
  constructor
  · intro h
    by_contra hc
    push Not at hc
    obtain ⟨c1, c2, c3⟩ := hc
    rw [if_pos (show -9223372036854775808 ≤ v ∧ v < 9223372036854775808 from ⟨c2, c3⟩)] at h
    have hv : v ≠ -1 := by rintro rfl; norm_num at c1
    rw [if_neg hv] at h
    rw [h] at hb
    linarith
  · rintro (h | h | h)
    · have hb := abs_lt.mp h
      rw [if_pos (show -9223372036854775808 ≤ v ∧ v < 9223372036854775808 from ⟨by linarith [hb.1], by linarith [hb.2]⟩), intHash_small h]
    · rw [if_neg (show ¬ (-9223372036854775808 ≤ v ∧ v < 9223372036854775808) by omega), if_neg hb1]
    · rw [if_neg (show ¬ (-9223372036854775808 ≤ v ∧ v < 9223372036854775808) by omega), if_neg hb1]

/-- The keys for which Python's contract holds: all hashable objects but the integers and polynomials with `2⁶¹ - 1 ≤ |v|` that fit in 64 bits. -/
def Regular (x : Obj) : Prop := (∃ v, (x = .int v ∨ x = .poly v) ∧ (|v| < 2 ^ 61 - 1 ∨ v < -2 ^ 63 ∨ 2 ^ 63 ≤ v)) ∨ ∃ F v, x = .elem F v

/-- Equal objects have equal hashes: always when they are of the same class, and for an integer and a polynomial that are regular. -/
theorem C140_hash {x y : Obj} (h : pyEq x y = true) (hx : Regular x ∨ (∃ v, x = .poly v ∧ ∃ w, y = .poly w)) : ∃ n, pyHash x = some n ∧ pyHash y = some n := by
  rw [C140_equal] at h
  rcases hx with (⟨v, hv | hv, hr⟩ | ⟨F, v, rfl⟩) | ⟨v, rfl, w, rfl⟩
  · subst hv
    rcases h with rfl | ⟨w, ⟨h1, rfl⟩ | ⟨h1, rfl⟩⟩
    · exact ⟨_, rfl, rfl⟩
    · cases h1
      exact ⟨_, rfl, ((C140_hash_mixed v).mpr hr).symm⟩
    · cases h1
  · subst hv
    rcases h with rfl | ⟨w, ⟨h1, rfl⟩ | ⟨h1, rfl⟩⟩
    · exact ⟨_, rfl, rfl⟩
    · cases h1
    · cases h1
      exact ⟨_, rfl, (C140_hash_mixed v).mpr hr⟩
  · rcases h with rfl | ⟨w, ⟨h1, rfl⟩ | ⟨h1, rfl⟩⟩
    · exact ⟨_, rfl, rfl⟩
    · cases h1
    · cases h1
  · rcases h with h | ⟨u, ⟨h1, h2⟩ | ⟨h1, h2⟩⟩
    · cases h; exact ⟨_, rfl, rfl⟩
    · cases h1
    · cases h2

/-- Hashing a field, a fraction, an `Integer` or an ambient ring raises. -/
theorem C140_unhashable (x : Obj) : pyHash x = none ↔ (∃ F, x = .field F) ∨ (∃ n d, x = .fraction n d) ∨ (∃ v, x = .integer v) ∨ x = .polynomials ∨ x = .fractions ∨ x = .integers := by
  cases x <;> simp [pyHash]

/-! ### dictionaries -/

/-- The specification of a dictionary: for every key, the value of the last statement on an equal key. -/
def written {β : Type} (f : Obj → Option β) : List (Stmt β) → Obj → Option β
  | [], k => f k
  | .set k' v :: p, k => written (fun q => if pyEq k' q then some v else f q) p k
  | .remove k' :: p, k => written (fun q => if pyEq k' q then none else f q) p k

/-- The key of a statement. -/
def Stmt.key {β : Type} : Stmt β → Obj
  | .set k _ => k
  | .remove k => k

/-- A dictionary whose keys are regular, stored with their hashes, no two equal. -/
structure Sound {β : Type} (d : Dict β) : Prop where
  keys : ∀ e ∈ d, Regular e.2.1 ∧ pyHash e.2.1 = some e.1
  distinct : d.Pairwise fun a b => pyEq a.2.1 b.2.1 = false

theorem hits_iff {β : Type} {e : ℤ × Obj × β} {h : ℤ} {k : Obj} (he : Regular e.2.1 ∧ pyHash e.2.1 = some e.1) (hk : pyHash k = some h) : hits h k e = pyEq e.2.1 k := by
  rw [hits]
  cases hp : pyEq e.2.1 k
  · rw [Bool.and_false]
  · obtain ⟨n, h1, h2⟩ := C140_hash hp (Or.inl he.1)
    rw [he.2] at h1
    rw [hk] at h2
    cases h1
    cases h2
    simp

theorem hash_of_regular {k : Obj} (h : Regular k) : ∃ n, pyHash k = some n := by
  obtain ⟨n, h1, -⟩ := C140_hash (C140_equivalence.1 k) (Or.inl h)
  exact ⟨n, h1⟩

theorem eq_congr {x y : Obj} (h : pyEq x y = true) (k : Obj) : pyEq x k = pyEq y k := by
  obtain ⟨-, hs, ht⟩ := C140_equivalence
  rw [Bool.eq_iff_iff]
  exact ⟨fun h1 => ht _ _ _ (by rw [hs]; exact h) h1, fun h1 => ht _ _ _ h h1⟩

theorem find_congr {β : Type} {d : Dict β} (hd : Sound d) {h : ℤ} {k : Obj} (hk : pyHash k = some h) : d.find? (hits h k) = d.find? fun e => pyEq e.2.1 k := by
  induction d with
  | nil => rfl
  | cons e d ih =>
    rw [List.find?_cons, List.find?_cons, hits_iff (hd.keys e List.mem_cons_self) hk, ih ⟨fun a ha => hd.keys a (List.mem_cons_of_mem _ ha), (List.pairwise_cons.mp hd.distinct).2⟩]

/-- What a dictionary holds. -/
def content {β : Type} (d : Dict β) (k : Obj) : Option β := (d.find? fun e => pyEq e.2.1 k).map fun e => e.2.2

theorem get_eq {β : Type} {d : Dict β} (hd : Sound d) {k : Obj} (hk : Regular k) : d.get k = some (content d k) := by
  obtain ⟨h, hh⟩ := hash_of_regular hk
  rw [Dict.get, hh, Option.map_some, find_congr hd hh, content]

theorem setEntry_spec {β : Type} (d : Dict β) (hd : Sound d) {h : ℤ} {k : Obj} (hr : Regular k) (hk : pyHash k = some h) (v : β) :
    Sound (setEntry h k v d) ∧ (∀ q, content (setEntry h k v d) q = if pyEq k q then some v else content d q) ∧
      ∀ x, (∀ e ∈ d, pyEq x e.2.1 = false) → pyEq x k = false → ∀ e ∈ setEntry h k v d, pyEq x e.2.1 = false := by
  induction d with
  | nil =>
    refine ⟨⟨?_, List.pairwise_singleton _ _⟩, fun q => ?_, ?_⟩
    · intro e he
      rw [setEntry, List.mem_singleton] at he
      subst he
      exact ⟨hr, hk⟩
    · simp only [setEntry, content, List.find?_cons, List.find?_nil]
      cases pyEq k q <;> rfl
    · intro x _ hx e he
      rw [setEntry, List.mem_singleton] at he
      subst he
      exact hx
  | cons e d ih =>
    have hd' : Sound d := ⟨fun a ha => hd.keys a (List.mem_cons_of_mem _ ha), (List.pairwise_cons.mp hd.distinct).2⟩
    obtain ⟨i1, i2, i3⟩ := ih hd'
    have hdist := (List.pairwise_cons.mp hd.distinct).1
    have hek := hd.keys e List.mem_cons_self
    rw [setEntry, hits_iff hek hk]
    cases hp : pyEq e.2.1 k
    · rw [if_neg (by decide)]
      refine ⟨⟨?_, List.pairwise_cons.mpr ⟨i3 _ hdist hp, i1.distinct⟩⟩, fun q => ?_, ?_⟩
      · intro a ha
        rcases List.mem_cons.mp ha with rfl | ha
        · exact hek
        · exact i1.keys a ha
      · have := i2 q
        simp only [content] at this ⊢
        rw [List.find?_cons, List.find?_cons]
        cases hq : pyEq e.2.1 q
        · exact this
        · have : pyEq k q = false := by
            by_contra hc
            rw [Bool.not_eq_false] at hc
            rw [C140_equivalence.2.1 k q] at hc
            have := C140_equivalence.2.2 _ _ _ hq hc
            rw [hp] at this
            exact absurd this (by decide)
          rw [this, if_neg (by decide)]
      · intro x hx hxk a ha
        rcases List.mem_cons.mp ha with rfl | ha
        · exact hx _ List.mem_cons_self
        · exact i3 x (fun b hb => hx b (List.mem_cons_of_mem _ hb)) hxk a ha
    · rw [if_pos rfl]
      refine ⟨⟨?_, List.pairwise_cons.mpr ⟨hdist, hd'.distinct⟩⟩, fun q => ?_, ?_⟩
      · intro a ha
        rcases List.mem_cons.mp ha with rfl | ha
        · exact hek
        · exact hd'.keys a ha
      · simp only [content]
        rw [List.find?_cons, List.find?_cons]
        rw [eq_congr hp q]
        cases pyEq k q <;> rfl
      · intro x hx hxk a ha
        rcases List.mem_cons.mp ha with rfl | ha
        · exact hx e List.mem_cons_self
        · exact hx a (List.mem_cons_of_mem _ ha)

theorem remove_spec {β : Type} (d : Dict β) (hd : Sound d) {h : ℤ} {k : Obj} (hk : pyHash k = some h) :
    Sound (d.eraseP (hits h k)) ∧ ∀ q, content (d.eraseP (hits h k)) q = if pyEq k q then none else content d q := by
  refine ⟨⟨fun e he => hd.keys e (List.mem_of_mem_eraseP he), hd.distinct.sublist List.eraseP_sublist⟩, fun q => ?_⟩
  induction d with
  | nil => simp [content]
  | cons e d ih =>
    have hd' : Sound d := ⟨fun a ha => hd.keys a (List.mem_cons_of_mem _ ha), (List.pairwise_cons.mp hd.distinct).2⟩
    have hdist := (List.pairwise_cons.mp hd.distinct).1
    have hek := hd.keys e List.mem_cons_self
    rw [List.eraseP_cons, hits_iff hek hk]
    cases hp : pyEq e.2.1 k
    · have := ih hd'
      simp only [content] at this ⊢
      rw [cond_false, List.find?_cons, List.find?_cons]
      cases hq : pyEq e.2.1 q
      · exact this
      · have : pyEq k q = false := by
          by_contra hc
          rw [Bool.not_eq_false, C140_equivalence.2.1 k q] at hc
          have := C140_equivalence.2.2 _ _ _ hq hc
          rw [hp] at this
          exact absurd this (by decide)
        rw [this, if_neg (by decide)]
    · rw [cond_true]
      simp only [content]
      rw [List.find?_cons, eq_congr hp q]
      cases hq : pyEq k q
      · rw [if_neg (by decide)]
      · rw [if_pos rfl]
        have : d.find? (fun e => pyEq e.2.1 q) = none := by
          rw [List.find?_eq_none]
          intro a ha hc
          have h1 := hdist a ha
          have h2 : pyEq e.2.1 q = true := by rw [eq_congr hp q]; exact hq
          rw [C140_equivalence.2.1] at hc
          rw [C140_equivalence.2.2 _ _ _ h2 hc] at h1
          exact absurd h1 (by decide)
        rw [this]; rfl

/-- After any sequence of assignments and removals with regular keys (polynomials, elements of any fields, integers, mixed), looking up any regular key gives the value of the last statement on
an equal key. -/
theorem C140_dict {β : Type} (p : List (Stmt β)) (hp : ∀ s ∈ p, Regular s.key) :
    ∃ d, run [] p = some d ∧ ∀ k, Regular k → d.get k = some (written (fun _ => none) p k) := by
  suffices h : ∀ (d : Dict β), Sound d → ∃ d', run d p = some d' ∧ Sound d' ∧ ∀ k, content d' k = written (content d) p k by
    obtain ⟨d', h1, h2, h3⟩ := h [] ⟨by simp, List.Pairwise.nil⟩
    refine ⟨d', h1, fun k hk => ?_⟩
    rw [get_eq h2 hk, h3]
    rfl
  induction p with
  | nil => exact fun d hd => ⟨d, rfl, hd, fun k => rfl⟩
  | cons s p ih =>
    intro d hd
    have hs := hp s List.mem_cons_self
    obtain ⟨h, hh⟩ := hash_of_regular hs
    have ih := ih fun s hs => hp s (List.mem_cons_of_mem _ hs)
    cases s with
    | set k v =>
      obtain ⟨s1, s2, -⟩ := setEntry_spec d hd hs hh v
      obtain ⟨d', r1, r2, r3⟩ := ih _ s1
      refine ⟨d', ?_, r2, fun q => ?_⟩
      · change (Option.map _ (pyHash k)).bind _ = _
        rw [show pyHash k = some h from hh]
        exact r1
      · rw [r3, written]
        congr 1
        funext q'
        exact s2 q'
    | remove k =>
      obtain ⟨s1, s2⟩ := remove_spec d hd (k := k) hh
      obtain ⟨d', r1, r2, r3⟩ := ih _ s1
      refine ⟨d', ?_, r2, fun q => ?_⟩
      · change (Option.map _ (pyHash k)).bind _ = _
        rw [show pyHash k = some h from hh]
        exact r1
      · rw [r3, written]
        congr 1
        funext q'
        exact s2 q'

/-- Outside the regular keys the contract fails: the polynomial `X⁶¹` equals the integer `2⁶¹`, but a dictionary that has one as a key does not find the other. -/
theorem C140_hash_broken : pyEq (.poly (2 ^ 61)) (.int (2 ^ 61)) = true ∧ pyHash (.poly (2 ^ 61)) ≠ pyHash (.int (2 ^ 61)) ∧
    (run [] [Stmt.set (.poly (2 ^ 61)) "a"]).bind (fun d => d.get (.int (2 ^ 61))) = some none := by
  decide +kernel

/-! ### elements of different fields -/

/-- Arithmetic between elements raises when they belong to different fields (different degree or modulus) and is the arithmetic of the field otherwise. -/
theorem C140_fields (x y : Elem) :
    (x.ambient ≠ y.ambient → x.add y = none ∧ x.mul y = none ∧ x.div y = none) ∧
    (x.ambient = y.ambient → x.add y = some ⟨x.ambient, x.ambient.add x.value y.value⟩ ∧ x.mul y = some ⟨x.ambient, x.ambient.mul x.value y.value⟩ ∧
      x.div y = (x.ambient.truediv x.value y.value).map fun v => ⟨x.ambient, v⟩) := by
  constructor
  · intro h
    have h1 : pyEq (.field x.ambient) (.field y.ambient) = false := by
      rw [Bool.eq_false_iff]
      intro hc
      rw [C140_equal] at hc
      rcases hc with hc | ⟨v, hc | hc⟩
      · exact h (Obj.field.inj hc)
      · exact absurd hc.1 (by simp)
      · exact absurd hc.1 (by simp)
    refine ⟨?_, ?_, ?_⟩ <;> simp [Elem.add, Elem.mul, Elem.div, Elem.checked, h1]
  · intro h
    have h1 : pyEq (.field x.ambient) (.field y.ambient) = true := by rw [h]; exact C140_equivalence.1 _
    refine ⟨?_, ?_, ?_⟩ <;> simp [Elem.add, Elem.mul, Elem.div, Elem.checked, h1]

/-! ### printing -/

/-- Evaluating the printed form of a field gives an equal field, for every field of degree at most 24; printing a field of larger degree raises. -/
theorem C140_repr_field {d : ℤ} {m : Option Nat} {F : Bifield} (hF : Bifield.create d m = some F) :
    (F.degree ≤ 24 → ∃ args, reprField F = some args ∧ Bifield.create args.1 args.2 = some F) ∧ (24 < F.degree → reprField F = none) := by
  obtain ⟨h1, h2, h3⟩ : 1 ≤ F.degree ∧ BP.degree F.modulus = F.degree ∧ BP.isIrreducible F.modulus = true := by
    rw [Bifield.create.eq_def] at hF
    split at hF
    · cases hF
    · rename_i hd
      split at hF
      · cases hF
      · rename_i _ m' _
        split at hF
        · cases hF
        · rename_i hdeg
          split at hF
          · cases hF
          · rename_i hirr
            cases hF
            refine ⟨by simp only; omega, ?_, by simpa using hirr⟩
            simp only
            push Not at hdeg
            omega
  have hc : ∀ o : Option Nat, (match o with | none => BP.defaultPrimitivePolynomial F.degree | some m => some m) = some F.modulus → Bifield.create F.degree o = some F := by
    intro o ho
    rw [Bifield.create.eq_def, if_neg (by omega)]
    have fin : (if BP.degree F.modulus ≠ (F.degree : ℤ) then none else if (!BP.isIrreducible F.modulus) = true then none else some (⟨(F.degree : ℤ).toNat, F.modulus⟩ : Bifield)) = some F := by
      rw [if_neg (by rw [h2]; simp), if_neg (by simp [h3]), Int.toNat_natCast]
    cases o with
    | none => simp only at ho ⊢; rw [ho]; exact fin
    | some m => simp only [Option.some.injEq] at ho ⊢; rw [ho]; exact fin
  constructor
  · intro hle
    obtain ⟨m0, hm0⟩ : ∃ m0, BP.defaultPrimitivePolynomial F.degree = some m0 := by
      rw [BP.defaultPrimitivePolynomial, if_pos (by omega)]
      have : ((F.degree : ℤ) - 1).toNat < BP.defaultTable.length := by
        rw [show BP.defaultTable.length = 24 from rfl]; omega
      exact ⟨_, List.getElem?_eq_getElem this⟩
    rw [reprField, hm0]
    simp only
    split
    · rename_i h
      have hm : F.modulus = m0 := by
        rw [C140_equal] at h
        rcases h with h | ⟨v, ⟨h4, h5⟩ | ⟨h4, h5⟩⟩
        · cases h
        · have e1 := Obj.int.inj h4
          have e2 := Obj.poly.inj h5
          omega
        · cases h4
      exact ⟨_, rfl, hc none (by rw [hm0, hm])⟩
    · exact ⟨_, rfl, hc (some F.modulus) rfl⟩
  · intro hgt
    rw [reprField, BP.defaultPrimitivePolynomial, if_neg (by omega)]

theorem readDigits_append (a : Nat) (l l' : List Char) : readDigits a (l ++ l') = (readDigits a l).bind fun b => readDigits b l' := by
  induction l generalizing a with
  | nil => rfl
  | cons c l ih =>
    by_cases h0 : c = '0'
    · subst h0; exact ih _
    · by_cases h1 : c = '1'
      · subst h1; exact ih _
      · have e : ∀ t, readDigits a (c :: t) = none := by
          intro t
          rw [readDigits.eq_def]
          split
          · rename_i h; cases h
          · rename_i h; cases h; exact absurd rfl h0
          · rename_i h; cases h; exact absurd rfl h1
          · rfl
        rw [List.cons_append, e, e]; rfl

theorem readDigits_bin (n : Nat) : readDigits 0 (binDigits n) = some n := by
  induction n using Nat.strong_induction_on with
  | _ n ih =>
    cases n with
    | zero => rw [binDigits]; rfl
    | succ n =>
      rw [binDigits, readDigits_append, ih _ (by omega), Option.bind_some]
      by_cases h : (n + 1) % 2 = 0
      · rw [if_pos h]
        change some (2 * ((n + 1) / 2)) = _
        congr 1; omega
      · rw [if_neg h]
        change some (2 * ((n + 1) / 2) + 1) = _
        congr 1; omega

theorem binDigits_ne {n : Nat} (h : n ≠ 0) : ∃ c l, binDigits n = c :: l := by
  cases n with
  | zero => exact absurd rfl h
  | succ n =>
    rw [binDigits]
    cases binDigits ((n + 1) / 2) with
    | nil => exact ⟨_, _, rfl⟩
    | cons c l => exact ⟨c, _, rfl⟩

/-- The printed value is a literal of that value (`str(p)`, `bin`). -/
theorem C140_literal (v : ℤ) : readLiteral (binRepr v) = some v := by
  rcases lt_trichotomy v 0 with h | rfl | h
  · obtain ⟨c, l, e⟩ := binDigits_ne (n := v.natAbs) (by omega)
    rw [binRepr, if_pos h, if_neg h.ne, e]
    change (readDigits 0 (c :: l)).map _ = _
    rw [← e, readDigits_bin, Option.map_some]
    congr 1
    change -((v.natAbs : ℕ) : ℤ) = v
    omega
  · rfl
  · obtain ⟨c, l, e⟩ := binDigits_ne (n := v.natAbs) (by omega)
    rw [binRepr, if_neg (by omega), if_neg h.ne', e]
    change (readDigits 0 (c :: l)).map _ = _
    rw [← e, readDigits_bin, Option.map_some]
    congr 1
    change ((v.natAbs : ℕ) : ℤ) = v
    omega

/-- Evaluating the printed form of a polynomial gives that polynomial. -/
theorem C140_repr_polynomial (v : ℤ) : evalPoly (reprPoly v) = some (.poly v) := by
  have h1 : polyName.isPrefixOf (reprPoly v) = true := by
    rw [List.isPrefixOf_iff_prefix, reprPoly, List.append_assoc]; exact List.prefix_append _ _
  have h2 : (reprPoly v).getLast? = some ')' := by rw [reprPoly, List.getLast?_append]; simp
  have h3 : ((reprPoly v).drop polyName.length).dropLast = binRepr v := by
    rw [reprPoly, List.append_assoc, List.drop_left, List.dropLast_concat]
  rw [evalPoly, if_pos ⟨h1, h2⟩, h3, C140_literal]
  rfl

/-! ### the hypotheses are met -/

/-- A dictionary keyed by a polynomial, an equal integer, and elements of two fields. -/
example : (run [] [Stmt.set (.poly 5) 1, .set (.int 5) 2, .set (.elem ⟨3, 11⟩ 5) 3, .set (.elem ⟨3, 13⟩ 5) 4, .remove (.elem ⟨3, 11⟩ 5)]).map
    (fun d => (d.get (.poly 5), d.get (.elem ⟨3, 11⟩ 5), d.get (.elem ⟨3, 13⟩ 5), d.length)) = some (some (some 2), some none, some (some 4), 2) := by decide +kernel

example : Regular (.poly 5) ∧ Regular (.elem ⟨3, 11⟩ 5) ∧ Regular (.int (2 ^ 70)) :=
  ⟨Or.inl ⟨5, Or.inr rfl, Or.inl (by norm_num)⟩, Or.inr ⟨_, _, rfl⟩, Or.inl ⟨2 ^ 70, Or.inl rfl, Or.inr (Or.inr (by norm_num))⟩⟩

/-- A field that is printed with its modulus and one that is printed without. -/
example : (Bifield.create 3 (some 13)).bind reprField = some (3, some 13) ∧ (Bifield.create 3 (some 11)).bind reprField = some (3, none) := by decide +kernel

example : String.ofList (reprPoly 26) = "BinaryPolynomial(0b11010)" := by decide +kernel

end Komm.Py
