import Verif.Model.CodeObject
import Verif.Props.C41_C48_BlockCodes
/-! Lemmas about the object model of block codes. -/
namespace Komm.Objects
variable {k m n : ℕ}

/-! ### matrices in memory -/

theorem toMat_ofMat (M : BMat k n) : toMat k n (ofMat M) = M := by
  funext i j
  have h1 : (ofMat M).getD i [] = ofVec (M i) := by
    rw [List.getD_eq_getElem?_getD, ofMat, List.getElem?_ofFn, dif_pos i.2]
    rfl
  have h2 : (ofVec (M i)).getD j 0 = (M i j).val := by
    rw [List.getD_eq_getElem?_getD, ofVec, List.getElem?_ofFn, dif_pos j.2]
    rfl
  rw [toMat, h1, h2]
  exact ZMod.natCast_zmod_val _

/-- The array at `a` has the given rows. -/
def Holds (h : Heap) (a : Addr) (rows : List (List ℕ)) : Prop := ∃ b, h[a]? = some ⟨b, rows⟩

theorem Holds.mono {h h' : Heap} (he : h <+: h') {a : Addr} {rows : List (List ℕ)} (hh : Holds h a rows) : Holds h' a rows := by
  obtain ⟨b, hb⟩ := hh
  obtain ⟨e, rfl⟩ := he
  exact ⟨b, by rw [List.getElem?_append_left (List.getElem?_eq_some_iff.mp hb).1]; exact hb⟩

theorem Holds.getD {h : Heap} {a : Addr} {rows : List (List ℕ)} (hh : Holds h a rows) : (h.getD a ⟨true, []⟩).rows = rows := by
  obtain ⟨b, hb⟩ := hh
  rw [List.getD_eq_getElem?_getD, hb]; rfl

theorem Holds.alloc (h : Heap) (c : Cell) : Holds (h ++ [c]) h.length c.rows := ⟨c.integer, by simp⟩

theorem bind_run {α β : Type} (p : Prog k m n α) (f : α → Prog k m n β) (s : Heap × Obj k m n) :
    (p >>= f) s = match p s with
      | (none, s') => (none, s')
      | (some a, s') => f a s' := rfl

theorem bind_some {α β : Type} {p : Prog k m n α} {f : α → Prog k m n β} {s s' : Heap × Obj k m n} {a : α} (h : p s = (some a, s')) : (p >>= f) s = f a s' := by
  rw [bind_run, h]

theorem bind_none {α β : Type} {p : Prog k m n α} {f : α → Prog k m n β} {s s' : Heap × Obj k m n} (h : p s = (none, s')) : (p >>= f) s = (none, s') := by
  rw [bind_run, h]

theorem pure_run {α : Type} (a : α) (s : Heap × Obj k m n) : (pure a : Prog k m n α) s = (some a, s) := rfl

theorem modify_append_length {α : Type} (h : List α) (c : α) (f : α → α) : (h ++ [c]).modify h.length f = h ++ [f c] := by
  induction h with
  | nil => rfl
  | cons x h ih => simp [ih]

theorem getD_append_length (h : Heap) (c d : Cell) : (h ++ [c]).getD h.length d = c := by
  rw [List.getD_eq_getElem?_getD]; simp

/-- `rref` of an integer array that was just created: in place, nothing else changes. -/
theorem rrefAt_fresh (r c : ℕ) (h : Heap) (o : Obj k m n) (rows : List (List ℕ)) :
    rrefAt r c h.length (h ++ [⟨true, rows⟩], o) = (some h.length, (h ++ [⟨true, ofMat (rref (toMat r c rows))⟩], o)) := by
  simp only [rrefAt, asarrayInt, read, write, bind_run, getD_append_length, if_true, pure_run, modify_append_length]

theorem asarrayInt_run {h : Heap} {o : Obj k m n} {a : Addr} {rows : List (List ℕ)} (hh : Holds h a rows) :
    ∃ e b, asarrayInt a (h, o) = (some b, (h ++ e, o)) ∧ Holds (h ++ e) b rows := by
  obtain ⟨b, hb⟩ := hh
  have hr : read (k := k) (m := m) (n := n) a (h, o) = (some ⟨b, rows⟩, (h, o)) := by
    rw [read, List.getD_eq_getElem?_getD, hb]; rfl
  cases b with
  | true =>
    refine ⟨[], a, ?_, ?_⟩
    · rw [asarrayInt, bind_some hr, if_pos rfl, pure_run, List.append_nil]
    · rw [List.append_nil]; exact ⟨true, hb⟩
  | false =>
    refine ⟨[⟨true, rows⟩], h.length, ?_, Holds.alloc h _⟩
    rw [asarrayInt, bind_some hr, if_neg (by simp)]
    rfl

theorem read_run {h : Heap} {o : Obj k m n} {a : Addr} {rows : List (List ℕ)} (hh : Holds h a rows) :
    ∃ b, read (k := k) (m := m) (n := n) a (h, o) = (some ⟨b, rows⟩, (h, o)) := by
  obtain ⟨b, hb⟩ := hh
  exact ⟨b, by rw [read, List.getD_eq_getElem?_getD, hb]; rfl⟩

theorem xrrefAt_run {r c : ℕ} {h : Heap} {o : Obj k m n} {a : Addr} {M : BMat r c} (hh : Holds h a (ofMat M)) :
    ∃ e, xrrefAt r c a (h, o) = (some (xrref M), (h ++ e, o)) := by
  obtain ⟨e, b, h1, h2⟩ := asarrayInt_run (o := o) hh
  obtain ⟨b', h3⟩ := read_run (o := o) h2
  refine ⟨e ++ [⟨true, ofMat (eye r)⟩] ++ [⟨true, ofMat (rref (augment M))⟩], ?_⟩
  rw [xrrefAt, bind_some h1, bind_some h3]
  have h4 := rrefAt_fresh (k := k) (m := m) (n := n) r (c + r) (h ++ e ++ [⟨true, ofMat (eye r)⟩]) o (ofMat (augment M))
  rw [show (h ++ (e ++ [⟨true, ofMat (eye r)⟩] ++ [⟨true, ofMat (rref (augment M))⟩] : Heap)) = (h ++ e ++ [⟨true, ofMat (eye r)⟩]) ++ [⟨true, ofMat (rref (augment M))⟩] by simp [List.append_assoc]]
  simp only [alloc, bind_run, toMat_ofMat, h4, read, getD_append_length, pure_run]
  rfl

theorem pseudoInverseAt_run {r c : ℕ} {h : Heap} {o : Obj k m n} {a : Addr} {M : BMat r c} (hh : Holds h a (ofMat M)) :
    ∃ e b, pseudoInverseAt r c a (h, o) = (some b, (h ++ e, o)) ∧ Holds (h ++ e) b (ofMat (pseudoInverse M)) ∧ h.length ≤ b := by
  obtain ⟨e, h1⟩ := xrrefAt_run (o := o) hh
  refine ⟨e ++ [⟨true, ofMat (pseudoInverse M)⟩], (h ++ e).length, ?_, ?_, by simp⟩
  · rw [pseudoInverseAt, bind_some h1, ← List.append_assoc]
    rfl
  · rw [← List.append_assoc]
    exact Holds.alloc _ _

theorem nullRows_eq {r c : ℕ} (M : BMat r c) : nullRows r c (xrref M).2.1 (xrref M).2.2 = (nullMatrix M).map ofMat := by
  unfold nullRows nullMatrix
  simp only
  split <;> rfl

theorem nullMatrixAt_run {r c : ℕ} {h : Heap} {o : Obj k m n} {a : Addr} {M : BMat r c} (hh : Holds h a (ofMat M)) {N : BMat (c - r) c} (hN : nullMatrix M = some N) :
    ∃ e, nullMatrixAt r c a (h, o) = (some (h ++ e).length, (h ++ e ++ [⟨true, ofMat N⟩], o)) := by
  obtain ⟨e, h1⟩ := xrrefAt_run (o := o) hh
  refine ⟨e, ?_⟩
  rw [nullMatrixAt, bind_some h1]
  have : nullRows r c (xrref M).2.1 (xrref M).2.2 = some (ofMat N) := by rw [nullRows_eq, hN]; rfl
  show ((ofOption (nullRows r c (xrref M).2.1 (xrref M).2.2) : Prog k m n _) >>= fun rows => alloc ⟨true, rows⟩) (h ++ e, o) = _
  rw [this]
  rfl

/-! ### the bits of a batch -/

theorem unpackBits_eq (k j : ℕ) (hk : k ≤ 64) : unpackBits k j = List.ofFn (natToVec k j) := by
  have h64 : ((List.range 8).flatMap fun byte => (List.range 8).map fun bit => ((j / 256 ^ byte % 256 / 2 ^ bit % 2 : ℕ) : ZMod 2)) =
      (List.range 64).map fun i => if j.testBit i then (1 : ZMod 2) else 0 := by
    have key : ∀ byte bit, bit < 8 → ((j / 256 ^ byte % 256 / 2 ^ bit % 2 : ℕ) : ZMod 2) = if j.testBit (8 * byte + bit) then (1 : ZMod 2) else 0 := by
      intro byte bit hb
      have e1 : (256 : ℕ) ^ byte = 2 ^ (8 * byte) := by rw [show (256 : ℕ) = 2 ^ 8 by norm_num, ← pow_mul]
      have e2 : (j / 256 ^ byte % 256 / 2 ^ bit % 2) = ((j / 256 ^ byte % 2 ^ 8).testBit bit).toNat := by
        rw [Nat.testBit_eq_decide_div_mod_eq, show (2 : ℕ) ^ 8 = 256 by norm_num]
        generalize j / 256 ^ byte % 256 / 2 ^ bit = x
        rcases Nat.mod_two_eq_zero_or_one x with h | h <;> rw [h] <;> rfl
      rw [e2, Nat.testBit_mod_two_pow, e1, Nat.testBit_div_two_pow]
      simp only [hb, decide_true, Bool.true_and]
      rw [show 8 * byte + bit = bit + 8 * byte by ring]
      cases j.testBit (bit + 8 * byte) <;> rfl
    have : (List.range 64) = (List.range 8).flatMap fun byte => (List.range 8).map fun bit => 8 * byte + bit := by decide
    rw [this, List.map_flatMap]
    congr 1
    funext byte
    rw [List.map_map]
    refine List.map_congr_left fun bit hb => ?_
    exact key byte bit (List.mem_range.mp hb)
  rw [unpackBits, h64, show k - 64 = 0 by omega, List.replicate_zero, List.append_nil, ← List.map_take, List.take_range, min_eq_left hk]
  apply List.ext_getElem
  · simp
  · intro i h1 h2
    simp [natToVec_apply]

theorem batches_aux (B total q : ℕ) :
    ((List.range q).flatMap fun b => List.range' (b * B) (min (b * B + B) total - b * B)) = List.range (min (q * B) total) := by
  induction q with
  | zero => simp
  | succ q ih =>
    rw [List.range_succ, List.flatMap_append, ih, List.flatMap_singleton, List.range_eq_range', List.range_eq_range', Nat.succ_mul]
    generalize q * B = x
    rcases le_total x total with h | h
    · rw [min_eq_left h]
      have e := List.range'_append (s := 0) (m := x) (n := min (x + B) total - x) (step := 1)
      rw [Nat.zero_add, Nat.one_mul] at e
      rw [e]
      congr 1
      omega
    · have : min (x + B) total - x = 0 := by omega
      rw [this, List.range'_zero, List.append_nil]
      congr 1
      omega

theorem batches_flat (total : ℕ) : ((batches total).flatMap fun b => List.range' b.1 (b.2 - b.1)) = List.range total := by
  rw [batches, List.flatMap_map]
  obtain ⟨q, hq⟩ : ∃ q, q = (total + 1023) / 1024 := ⟨_, rfl⟩
  have e : min (q * 1024) total = total := by omega
  obtain ⟨B, hB⟩ : ∃ B, B = 1024 := ⟨_, rfl⟩
  simp only [← hB] at *
  rw [hq] at e
  exact (batches_aux B total _).trans (by rw [e])

theorem leaderWeightDistribution_congr {k' : Nat} (c : LinCode k m n) (c' : LinCode k' m n) (hh : c.checkMatrix = c'.checkMatrix)
    (fuel : Nat) : c.leaderWeightDistribution fuel = c'.leaderWeightDistribution fuel := by
  have h1 : c.hCols = c'.hCols := by unfold LinCode.hCols; rw [hh]
  have hr : c.wRound = c'.wRound := by
    funext l b; unfold LinCode.wRound; rw [h1]
  have h2 : ∀ l b d, c.wLoop fuel l b d = c'.wLoop fuel l b d := by
    induction fuel with
    | zero => intro l b d; rfl
    | succ fuel ih =>
      intro l b d
      rw [LinCode.wLoop, LinCode.wLoop, hr]
      simp only [ih]
  unfold LinCode.leaderWeightDistribution
  rw [h2]

/-! ### what the object holds -/

/-- The code of an object: the matrices the constructor's argument determines, with the base-class methods. -/
structure CodeOf (fromGenerator : Bool) (c : LinCode k m n) : Prop where
  eq : c = LinCode.ofMatrices c.generator (pseudoInverse c.generator) c.checkMatrix
  lawful : c.Lawful
  one_le : 1 ≤ k
  le : k ≤ 64
  null : if fromGenerator then (nullMatrix c.generator).map ofMat = some (ofMat c.checkMatrix)
    else ∃ N, nullMatrix c.checkMatrix = some N ∧ ofMat (rref N) = ofMat c.generator

/-- The array at `a` has the given rows and is none of the arrays `F` that the user may still write to. -/
structure Owns (F : List Addr) (h : Heap) (a : Addr) (rows : List (List ℕ)) : Prop where
  holds : Holds h a rows
  fresh : a ∉ F

variable {F : List Addr}

theorem Owns.mono {h h' : Heap} (he : h <+: h') {a : Addr} {rows : List (List ℕ)} (hh : Owns F h a rows) : Owns F h' a rows := ⟨hh.1.mono he, hh.2⟩

theorem Owns.alloc {h0 h : Heap} (hle : ∀ a ∈ F, a < h0.length) (he : h0 <+: h) (c : Cell) : Owns F (h ++ [c]) h.length c.rows :=
  ⟨Holds.alloc h c, fun hm => absurd (hle _ hm) (Nat.not_lt.mpr he.length_le)⟩

/-- Everything the object has stored is right, and the user does not write to it. -/
structure Inv (F : List Addr) (c : LinCode k m n) (fuel : ℕ) (h : Heap) (o : Obj k m n) : Prop where
  bound : ∀ a ∈ F, a < h.length
  code : CodeOf o.fromGenerator c
  argument : Owns F h o.argument (if o.fromGenerator then ofMat c.generator else ofMat c.checkMatrix)
  generator : ∀ a, o.generator = some a → Owns F h a (ofMat c.generator)
  rightInverse : ∀ a, o.rightInverse = some a → Owns F h a (ofMat c.rightInverse)
  check : ∀ a, o.check = some a → Owns F h a (ofMat c.checkMatrix)
  codewords : ∀ a, o.codewords = some a → Owns F h a (c.codewords.map ofVec)
  weights : ∀ a, o.weights = some a → Owns F h a [c.weightDistribution]
  minimumDistance : ∀ d, o.minimumDistance = some d → c.minimumDistance = some d
  leaders : ∀ a, o.leaders = some a → ∃ T, c.cosetLeaders fuel = some T ∧ Owns F h a ((List.range (2 ^ m)).map fun s => ofVec (T s))
  leaderWeights : ∀ a, o.leaderWeights = some a → ∃ D, c.leaderWeightDistribution fuel = some D ∧ Owns F h a [D]
  packing : ∀ d, o.packing = some d → c.packingRadius = some d
  covering : ∀ d, o.covering = some d → c.coveringRadius fuel = some d
  flagLeaders : o.flagLeaders = true → ∃ T, c.cosetLeaders fuel = some T

theorem Inv.mono {c : LinCode k m n} {fuel : ℕ} {h h' : Heap} {o : Obj k m n} (hi : Inv F c fuel h o) (he : h <+: h') : Inv F c fuel h' o where
  bound a ha := (hi.bound a ha).trans_le he.length_le
  code := hi.code
  argument := hi.argument.mono he
  generator a ha := (hi.generator a ha).mono he
  rightInverse a ha := (hi.rightInverse a ha).mono he
  check a ha := (hi.check a ha).mono he
  codewords a ha := (hi.codewords a ha).mono he
  weights a ha := (hi.weights a ha).mono he
  minimumDistance := hi.minimumDistance
  leaders a ha := by obtain ⟨T, h1, h2⟩ := hi.leaders a ha; exact ⟨T, h1, h2.mono he⟩
  leaderWeights a ha := by obtain ⟨D, h1, h2⟩ := hi.leaderWeights a ha; exact ⟨D, h1, h2.mono he⟩
  packing := hi.packing
  covering := hi.covering
  flagLeaders := hi.flagLeaders

/-- Running `p` from a right object leaves a right object, only adds arrays, and the result satisfies `Q`. -/
def Does (F : List Addr) (c : LinCode k m n) (fuel : ℕ) {α : Type} (p : Prog k m n α) (s : Heap × Obj k m n) (Q : Heap → Option α → Prop) : Prop :=
  s.1 <+: (p s).2.1 ∧ Inv F c fuel (p s).2.1 (p s).2.2 ∧ Q (p s).2.1 (p s).1

theorem Does.bind {c : LinCode k m n} {fuel : ℕ} {α β : Type} {p : Prog k m n α} {f : α → Prog k m n β} {s : Heap × Obj k m n} {Q : Heap → Option α → Prop}
    {R : Heap → Option β → Prop} (hp : Does F c fuel p s Q) (hn : ∀ h, Q h none → R h none)
    (hf : ∀ a h o, s.1 <+: h → Inv F c fuel h o → Q h (some a) → Does F c fuel (f a) (h, o) R) : Does F c fuel (p >>= f) s R := by
  obtain ⟨h1, h2, h3⟩ := hp
  obtain ⟨r, h, o, e⟩ : ∃ r h o, p s = (r, (h, o)) := ⟨_, _, _, rfl⟩
  rw [e] at h1 h2 h3
  cases r with
  | none =>
    rw [Does, bind_none e]
    exact ⟨h1, h2, hn _ h3⟩
  | some a =>
    obtain ⟨g1, g2, g3⟩ := hf a h o h1 h2 h3
    rw [Does, bind_some e]
    exact ⟨h1.trans g1, g2, g3⟩

theorem Does.pure {c : LinCode k m n} {fuel : ℕ} {α : Type} {a : α} {h : Heap} {o : Obj k m n} {Q : Heap → Option α → Prop} (hi : Inv F c fuel h o) (hq : Q h (some a)) :
    Does F c fuel (pure a : Prog k m n α) (h, o) Q := ⟨List.prefix_refl _, hi, hq⟩

theorem Does.ofOption {c : LinCode k m n} {fuel : ℕ} {α : Type} {x : Option α} {h : Heap} {o : Obj k m n} {Q : Heap → Option α → Prop} (hi : Inv F c fuel h o) (hq : Q h x) :
    Does F c fuel (ofOption x : Prog k m n α) (h, o) Q := by
  cases x <;> exact ⟨List.prefix_refl _, hi, hq⟩

theorem Does.weaken {c : LinCode k m n} {fuel : ℕ} {α : Type} {p : Prog k m n α} {s : Heap × Obj k m n} {Q R : Heap → Option α → Prop} (hp : Does F c fuel p s Q)
    (h : ∀ h x, Q h x → R h x) : Does F c fuel p s R := ⟨hp.1, hp.2.1, h _ _ hp.2.2⟩

/-- Storing something. -/
theorem Does.modify {c : LinCode k m n} {fuel : ℕ} {β : Type} {f : Obj k m n → Obj k m n} {p : Prog k m n β} {h : Heap} {o : Obj k m n} {R : Heap → Option β → Prop}
    (hp : Does F c fuel p (h, f o) R) : Does F c fuel (Objects.modify f >>= fun _ => p) (h, o) R := hp

theorem Does.alloc {c : LinCode k m n} {fuel : ℕ} {β : Type} {x : Cell} {f : Addr → Prog k m n β} {h : Heap} {o : Obj k m n} {R : Heap → Option β → Prop}
    (hp : Does F c fuel (f h.length) (h ++ [x], o) R) : Does F c fuel (Objects.alloc x >>= f) (h, o) R :=
  ⟨(List.prefix_append h [x]).trans hp.1, hp.2⟩

theorem Does.read {c : LinCode k m n} {fuel : ℕ} {β : Type} {a : Addr} {rows : List (List ℕ)} {f : Cell → Prog k m n β} {h : Heap} {o : Obj k m n} {R : Heap → Option β → Prop}
    (hh : Owns F h a rows) (hp : ∀ b, Does F c fuel (f ⟨b, rows⟩) (h, o) R) : Does F c fuel (Objects.read a >>= f) (h, o) R := by
  obtain ⟨b, e⟩ := read_run (o := o) hh.1
  rw [Does, bind_some e]
  exact hp b

/-- Reading the stored object. -/
theorem Does.self {c : LinCode k m n} {fuel : ℕ} {β : Type} {f : Obj k m n → Prog k m n β} {h : Heap} {o : Obj k m n} {R : Heap → Option β → Prop}
    (hf : Does F c fuel (f o) (h, o) R) : Does F c fuel (Objects.self >>= f) (h, o) R := hf

/-- The result is an array with the given rows. -/
def IsArray (F : List Addr) (rows : List (List ℕ)) (h : Heap) (x : Option Addr) : Prop := ∃ a, x = some a ∧ Owns F h a rows

theorem pseudoInverseAt_does {c : LinCode k m n} {fuel : ℕ} {r s : ℕ} {h : Heap} {o : Obj k m n} {a : Addr} {M : BMat r s} (hi : Inv F c fuel h o) (hh : Owns F h a (ofMat M)) :
    Does F c fuel (pseudoInverseAt r s a) (h, o) (IsArray F (ofMat (pseudoInverse M))) := by
  obtain ⟨e, b, h1, h2, h3⟩ := pseudoInverseAt_run (o := o) hh.1
  rw [Does, h1]
  exact ⟨List.prefix_append _ _, hi.mono (List.prefix_append _ _), b, rfl, h2, fun hm => absurd (hi.bound _ hm) (Nat.not_lt.mpr h3)⟩

theorem nullMatrixAt_does {c : LinCode k m n} {fuel : ℕ} {r s : ℕ} {h : Heap} {o : Obj k m n} {a : Addr} {M : BMat r s} {N : BMat (s - r) s} (hi : Inv F c fuel h o)
    (hh : Owns F h a (ofMat M)) (hN : nullMatrix M = some N) : Does F c fuel (nullMatrixAt r s a) (h, o) (IsArray F (ofMat N)) := by
  obtain ⟨e, h1⟩ := nullMatrixAt_run (o := o) hh.1 hN
  rw [Does, h1]
  have : h <+: h ++ e ++ [⟨true, ofMat N⟩] := by rw [List.append_assoc]; exact List.prefix_append _ _
  exact ⟨this, hi.mono this, _, rfl, Owns.alloc hi.bound (List.prefix_append h e) _⟩

theorem rrefNull_does {c : LinCode k m n} {fuel : ℕ} {r s : ℕ} {h : Heap} {o : Obj k m n} {a : Addr} {M : BMat r s} {N : BMat (s - r) s} (hi : Inv F c fuel h o)
    (hh : Owns F h a (ofMat M)) (hN : nullMatrix M = some N) :
    Does F c fuel (nullMatrixAt r s a >>= fun b => rrefAt (s - r) s b) (h, o) (IsArray F (ofMat (rref N))) := by
  obtain ⟨e, h1⟩ := nullMatrixAt_run (o := o) hh.1 hN
  rw [Does, bind_some h1, rrefAt_fresh, toMat_ofMat]
  have : h <+: h ++ e ++ [⟨true, ofMat (rref N)⟩] := by rw [List.append_assoc]; exact List.prefix_append _ _
  exact ⟨this, hi.mono this, _, rfl, Owns.alloc hi.bound (List.prefix_append h e) _⟩

/-- A step that returns an array, then the rest. -/
theorem Does.thenArray {c : LinCode k m n} {fuel : ℕ} {β : Type} {p : Prog k m n Addr} {f : Addr → Prog k m n β} {h : Heap} {o : Obj k m n} {rows : List (List ℕ)}
    {R : Heap → Option β → Prop} (hp : Does F c fuel p (h, o) (IsArray F rows))
    (hf : ∀ a h' o', h <+: h' → Inv F c fuel h' o' → Owns F h' a rows → Does F c fuel (f a) (h', o') R) : Does F c fuel (p >>= f) (h, o) R := by
  refine Does.bind hp (by rintro h ⟨a, e, _⟩; cases e) ?_
  rintro a h1 o1 hle hi1 ⟨a', ⟨⟩, hh⟩
  exact hf a h1 o1 hle hi1 hh

/-! ### the attributes -/
section
variable {c : LinCode k m n} {fuel : ℕ} {h : Heap} {o : Obj k m n}

theorem computeGenerator_does (hi : Inv F c fuel h o) : Does F c fuel (computeGenerator o) (h, o) (IsArray F (ofMat c.generator)) := by
  unfold computeGenerator
  have ha := hi.argument
  have hn := hi.code.null
  by_cases hf : o.fromGenerator = true
  · rw [if_pos hf]
    rw [if_pos hf] at ha
    exact Does.pure hi ⟨_, rfl, ha⟩
  · rw [if_neg hf]
    rw [if_neg hf] at ha hn
    obtain ⟨N, hN, hr⟩ := hn
    refine Does.modify ?_
    have hi1 : Inv F c fuel h { o with check := some o.argument } := { hi with check := by rintro a ⟨⟩; exact ha }
    rw [← hr]
    exact rrefNull_does hi1 ha hN

theorem generatorMatrix_does (hi : Inv F c fuel h o) : Does F c fuel generatorMatrix (h, o) (IsArray F (ofMat c.generator)) := by
  unfold generatorMatrix
  refine Does.self ?_
  cases hg : o.generator with
  | some a => exact Does.pure hi ⟨a, rfl, hi.generator a hg⟩
  | none =>
    refine Does.thenArray (computeGenerator_does hi) fun a h1 o1 _ hi1 hh => Does.modify (Does.pure ?_ ⟨a, rfl, hh⟩)
    exact { hi1 with generator := by rintro a ⟨⟩; exact hh }

theorem rightInverse_eq (hi : Inv F c fuel h o) : c.rightInverse = pseudoInverse c.generator := by
  have := congrArg LinCode.rightInverse hi.code.eq
  exact this

theorem generatorMatrixRightInverse_does (hi : Inv F c fuel h o) : Does F c fuel generatorMatrixRightInverse (h, o) (IsArray F (ofMat c.rightInverse)) := by
  unfold generatorMatrixRightInverse
  refine Does.self ?_
  cases hg : o.rightInverse with
  | some a => exact Does.pure hi ⟨a, rfl, hi.rightInverse a hg⟩
  | none =>
    refine Does.thenArray (generatorMatrix_does hi) fun g h1 o1 _ hi1 hh => ?_
    refine Does.thenArray (pseudoInverseAt_does hi1 hh) fun a h2 o2 _ hi2 ha => Does.modify (Does.pure ?_ ⟨a, rfl, ?_⟩)
    · exact { hi2 with rightInverse := by rintro a ⟨⟩; rw [rightInverse_eq hi]; exact ha }
    · rw [rightInverse_eq hi]; exact ha

theorem computeCheck_does (hi : Inv F c fuel h o) : Does F c fuel (computeCheck o) (h, o) (IsArray F (ofMat c.checkMatrix)) := by
  unfold computeCheck
  have ha := hi.argument
  have hn := hi.code.null
  by_cases hf : o.fromGenerator = true
  · rw [if_pos hf]
    rw [if_pos hf] at hn
    obtain ⟨N, hN, hr⟩ := Option.map_eq_some_iff.mp hn
    refine Does.thenArray (generatorMatrix_does hi) fun g h1 o1 _ hi1 hh => ?_
    rw [← hr]
    exact nullMatrixAt_does hi1 hh hN
  · rw [if_neg hf]
    rw [if_neg hf] at ha
    exact Does.pure hi ⟨_, rfl, ha⟩

theorem checkMatrix_does (hi : Inv F c fuel h o) : Does F c fuel checkMatrix (h, o) (IsArray F (ofMat c.checkMatrix)) := by
  unfold checkMatrix
  refine Does.self ?_
  cases hg : o.check with
  | some a => exact Does.pure hi ⟨a, rfl, hi.check a hg⟩
  | none =>
    refine Does.thenArray (computeCheck_does hi) fun a h1 o1 _ hi1 hh => Does.modify (Does.pure ?_ ⟨a, rfl, hh⟩)
    exact { hi1 with check := by rintro a ⟨⟩; exact hh }

/-! ### the methods -/

theorem encode_does (hi : Inv F c fuel h o) (l : List (ZMod 2)) : Does F c fuel (encode l) (h, o) (fun _ x => x = c.encodeStream l) := by
  unfold encode
  refine Does.thenArray (generatorMatrix_does hi) fun g h1 o1 _ hi1 hh => Does.read hh fun b => Does.ofOption hi1 ?_
  simp only [toMat_ofMat]
  conv_rhs => rw [hi.code.eq]
  rfl

theorem projectWord_does (hi : Inv F c fuel h o) (l : List (ZMod 2)) : Does F c fuel (projectWord l) (h, o) (fun _ x => x = c.projectStream l) := by
  unfold projectWord
  refine Does.thenArray (generatorMatrixRightInverse_does hi) fun g h1 o1 _ hi1 hh => Does.read hh fun b => Does.ofOption hi1 ?_
  simp only [toMat_ofMat, rightInverse_eq hi]
  conv_rhs => rw [hi.code.eq]
  rfl

theorem checkWord_does (hi : Inv F c fuel h o) (l : List (ZMod 2)) : Does F c fuel (checkWord l) (h, o) (fun _ x => x = c.checkStream l) := by
  unfold checkWord
  refine Does.thenArray (checkMatrix_does hi) fun g h1 o1 _ hi1 hh => Does.read hh fun b => Does.ofOption hi1 ?_
  simp only [toMat_ofMat]
  conv_rhs => rw [hi.code.eq]
  rfl

theorem inverseEncode_does (hi : Inv F c fuel h o) (l : List (ZMod 2)) : Does F c fuel (inverseEncode l) (h, o) (fun _ x => x = c.inverseEncodeStream l) := by
  unfold inverseEncode
  refine Does.bind (checkWord_does hi l) ?_ ?_
  · intro h e
    rw [LinCode.inverseEncodeStream, ← e]
  · intro s h1 o1 _ hi1 e
    rw [LinCode.inverseEncodeStream, ← e]
    by_cases hs : ∃ b ∈ s, b ≠ 0
    · rw [if_pos hs]
      simp only [if_pos hs]
      exact ⟨List.prefix_refl _, hi1, rfl⟩
    · rw [if_neg hs]
      simp only [if_neg hs]
      exact projectWord_does hi1 l

theorem encodeStream_unpackBits (hi : Inv F c fuel h o) (j : ℕ) : c.encodeStream (unpackBits k j) = some (List.ofFn (c.encode (natToVec k j))) := by
  have := (C41_stream c hi.code.lawful hi.code.one_le [natToVec k j]).1
  simpa [unpackBits_eq k j hi.code.le] using this

theorem encodeRows_does (hi : Inv F c fuel h o) (js : List ℕ) :
    Does F c fuel (encodeRows js) (h, o) (fun _ x => x = some (js.map fun j => List.ofFn (c.encode (natToVec k j)))) := by
  induction js generalizing h o with
  | nil => exact Does.pure hi rfl
  | cons j js ih =>
    unfold encodeRows
    refine Does.bind (encode_does hi _) ?_ ?_
    · intro h e; rw [encodeStream_unpackBits hi] at e; cases e
    · intro v h1 o1 _ hi1 e
      rw [encodeStream_unpackBits hi] at e
      cases e
      refine Does.bind (ih hi1) (by intro h e; cases e) ?_
      rintro vs h2 o2 _ hi2 ⟨⟩
      exact Does.pure hi2 rfl

theorem codewordBatches_does (hi : Inv F c fuel h o) (bs : List (ℕ × ℕ)) :
    Does F c fuel (codewordBatches bs) (h, o) (fun _ x => x = some ((bs.flatMap fun b => List.range' b.1 (b.2 - b.1)).map fun j => List.ofFn (c.encode (natToVec k j)))) := by
  induction bs generalizing h o with
  | nil => exact Does.pure hi rfl
  | cons b bs ih =>
    unfold codewordBatches
    refine Does.bind (encodeRows_does hi _) (by intro h e; cases e) ?_
    rintro v h1 o1 _ hi1 ⟨⟩
    refine Does.bind (ih hi1) (by intro h e; cases e) ?_
    rintro vs h2 o2 _ hi2 ⟨⟩
    refine Does.pure hi2 ?_
    rw [List.flatMap_cons, List.map_append]

theorem codewords_does (hi : Inv F c fuel h o) : Does F c fuel codewords (h, o) (IsArray F (c.codewords.map ofVec)) := by
  unfold codewords
  refine Does.self ?_
  cases hg : o.codewords with
  | some a => exact Does.pure hi ⟨a, rfl, hi.codewords a hg⟩
  | none =>
    refine Does.bind (codewordBatches_does hi _) (by intro h e; cases e) ?_
    rintro vs h1 o1 _ hi1 e
    rw [batches_flat] at e
    refine Does.modify (Does.alloc (Does.modify ?_))
    have e2 : (vs.map fun v => v.map ZMod.val) = c.codewords.map ofVec := by
      cases e
      rw [LinCode.codewords, List.map_map, List.map_map]
      refine List.map_congr_left fun j _ => ?_
      simp only [Function.comp, ofVec, List.map_ofFn]
      rfl
    rw [e2]
    have hh := Owns.alloc hi1.bound (List.prefix_refl h1) ⟨true, c.codewords.map ofVec⟩
    have hi2 := hi1.mono (List.prefix_append h1 [⟨true, c.codewords.map ofVec⟩])
    refine Does.pure ?_ ⟨_, rfl, hh⟩
    exact { hi2 with codewords := by rintro a ⟨⟩; exact hh }

theorem sum_ofVec (v : BVec n) : (ofVec v).sum = vsum v := by
  rw [ofVec, List.sum_ofFn, vsum]

theorem bincount_add (a b : List ℕ) (size : ℕ) : List.zipWith (· + ·) (LinCode.bincount a size) (LinCode.bincount b size) = LinCode.bincount (a ++ b) size := by
  rw [LinCode.bincount, LinCode.bincount, LinCode.bincount, List.zipWith_map, List.zipWith_self]
  refine List.map_congr_left fun w _ => ?_
  rw [List.count_append]

theorem weightBatches_does (hi : Inv F c fuel h o) (bs : List (ℕ × ℕ)) (done : List ℕ) :
    Does F c fuel (weightBatches bs (LinCode.bincount done (n + 1))) (h, o)
      (fun _ x => x = some (LinCode.bincount (done ++ (bs.flatMap fun b => List.range' b.1 (b.2 - b.1)).map fun j => vsum (c.encode (natToVec k j))) (n + 1))) := by
  induction bs generalizing h o done with
  | nil => exact Does.pure hi (by simp)
  | cons b bs ih =>
    unfold weightBatches
    refine Does.bind (encodeRows_does hi _) (by intro h e; cases e) ?_
    rintro v h1 o1 _ hi1 ⟨⟩
    simp only [bincount_add]
    refine (ih hi1 _).weaken ?_
    rintro h x rfl
    rw [List.flatMap_cons, List.map_append, List.append_assoc, List.map_map]
    congr 4
    refine List.map_congr_left fun j _ => ?_
    rw [← sum_ofVec, ofVec]
    simp only [Function.comp, List.map_ofFn]
    rfl

theorem computeWeights_does (hi : Inv F c fuel h o) : Does F c fuel (computeWeights o) (h, o) (fun _ x => x = some c.weightDistribution) := by
  unfold computeWeights
  split
  · refine Does.thenArray (codewords_does hi) fun a h1 o1 _ hi1 hh => Does.read hh fun b => Does.pure hi1 ?_
    rw [List.map_map, LinCode.weightDistribution]
    congr 3
    funext v
    exact sum_ofVec v
  · have e : List.replicate (n + 1) 0 = LinCode.bincount [] (n + 1) := by
      rw [LinCode.bincount]
      simp
    rw [e]
    refine (weightBatches_does hi _ _).weaken ?_
    rintro h x rfl
    rw [batches_flat, List.nil_append, LinCode.weightDistribution, LinCode.codewords, List.map_map]
    rfl

theorem codewordWeightDistribution_does (hi : Inv F c fuel h o) : Does F c fuel codewordWeightDistribution (h, o) (IsArray F [c.weightDistribution]) := by
  unfold codewordWeightDistribution
  refine Does.self ?_
  cases hg : o.weights with
  | some a => exact Does.pure hi ⟨a, rfl, hi.weights a hg⟩
  | none =>
    refine Does.bind (computeWeights_does hi) (by intro h e; cases e) ?_
    rintro d h1 o1 _ hi1 ⟨⟩
    refine Does.alloc (Does.modify ?_)
    have hh := Owns.alloc hi1.bound (List.prefix_refl h1) ⟨true, [c.weightDistribution]⟩
    have hi2 := hi1.mono (List.prefix_append h1 [⟨true, [c.weightDistribution]⟩])
    refine Does.pure ?_ ⟨_, rfl, hh⟩
    exact { hi2 with weights := by rintro a ⟨⟩; exact hh }

theorem minimumDistance_does (hi : Inv F c fuel h o) : Does F c fuel minimumDistance (h, o) (fun _ x => x = c.minimumDistance) := by
  unfold minimumDistance
  refine Does.self ?_
  cases hg : o.minimumDistance with
  | some d => exact Does.pure hi (hi.minimumDistance d hg).symm
  | none =>
    refine Does.thenArray (codewordWeightDistribution_does hi) fun a h1 o1 _ hi1 hh => Does.read hh fun b => ?_
    refine Does.bind (Q := fun _ x => x = c.minimumDistance) (Does.ofOption hi1 (by simp [LinCode.minimumDistance])) (fun _ e => e) ?_
    intro d h2 o2 _ hi2 e
    refine Does.modify (Does.pure ?_ e)
    exact { hi2 with minimumDistance := by rintro d ⟨⟩; exact e.symm }

theorem packingRadius_does (hi : Inv F c fuel h o) : Does F c fuel packingRadius (h, o) (fun _ x => x = c.packingRadius) := by
  unfold packingRadius
  refine Does.self ?_
  cases hg : o.packing with
  | some d => exact Does.pure hi (hi.packing d hg).symm
  | none =>
    refine Does.bind (minimumDistance_does hi) (fun _ e => by rw [LinCode.packingRadius, ← e]; rfl) ?_
    intro d h2 o2 _ hi2 e
    have e' : c.packingRadius = some ((d - 1) / 2) := by rw [LinCode.packingRadius, ← e]; rfl
    refine Does.modify (Does.pure ?_ e'.symm)
    exact { hi2 with packing := by rintro d ⟨⟩; exact e' }

theorem cosetLeaders_does (hi : Inv F c fuel h o) :
    Does F c fuel (cosetLeaders fuel) (h, o) (fun h x => (c.cosetLeaders fuel = none ∧ x = none) ∨
      ∃ T, c.cosetLeaders fuel = some T ∧ IsArray F ((List.range (2 ^ m)).map fun s => ofVec (T s)) h x) := by
  unfold cosetLeaders
  refine Does.self ?_
  cases hg : o.leaders with
  | some a =>
    obtain ⟨T, h1, h2⟩ := hi.leaders a hg
    exact Does.pure hi (.inr ⟨T, h1, a, rfl, h2⟩)
  | none =>
    refine Does.thenArray (checkMatrix_does hi) fun a h1 o1 _ hi1 hh => Does.read hh fun b => ?_
    have e : (syndromeCode (k := k) (toMat m n (ofMat c.checkMatrix))).cosetLeaders fuel = c.cosetLeaders fuel :=
      cosetLeaders_congr _ _ (toMat_ofMat c.checkMatrix) fuel
    refine Does.bind (Q := fun _ x => x = c.cosetLeaders fuel) (Does.ofOption hi1 e) (fun _ e => .inl ⟨e.symm, rfl⟩) ?_
    intro T h2 o2 _ hi2 e
    refine Does.modify (Does.alloc (Does.modify ?_))
    have hh := Owns.alloc hi2.bound (List.prefix_refl h2) ⟨true, (List.range (2 ^ m)).map fun s => ofVec (T s)⟩
    have hi3 := hi2.mono (List.prefix_append h2 [⟨true, (List.range (2 ^ m)).map fun s => ofVec (T s)⟩])
    refine Does.pure ?_ (.inr ⟨T, e.symm, _, rfl, hh⟩)
    exact { hi3 with leaders := by rintro a ⟨⟩; exact ⟨T, e.symm, hh⟩, flagLeaders := fun _ => ⟨T, e.symm⟩ }

theorem computeLeaderWeights_does (hf : n ≤ fuel) (hi : Inv F c fuel h o) :
    Does F c fuel (computeLeaderWeights fuel o) (h, o) (fun _ x => x = c.leaderWeightDistribution fuel) := by
  unfold computeLeaderWeights
  split
  · rename_i hflag
    obtain ⟨T, hT⟩ := hi.flagLeaders hflag
    have hm : 1 ≤ m := by
      rcases Nat.eq_zero_or_pos m with hm | hm
      · subst hm
        rw [cosetLeaders_zero] at hT
        cases hT
      · exact hm
    obtain ⟨T', D, g1, g2, _, _, g3⟩ := C44_weight_distribution c hi.code.lawful hm fuel hf
    rw [hT] at g1
    cases g1
    refine Does.bind (cosetLeaders_does hi) (by rintro h (⟨e, -⟩ | ⟨T', -, a, e, -⟩); rw [hT] at e; cases e; cases e) ?_
    rintro a h1 o1 _ hi1 (⟨e, -⟩ | ⟨T', e, a', ⟨⟩, hh⟩)
    · rw [hT] at e; cases e
    · rw [hT] at e
      cases e
      refine Does.read hh fun b => Does.pure hi1 ?_
      rw [g2, ← g3, LinCode.leaderWeightDistributionCached, List.map_map]
      congr 3
      funext s
      exact sum_ofVec _
  · refine Does.thenArray (checkMatrix_does hi) fun a h1 o1 _ hi1 hh => Does.read hh fun b => ?_
    exact Does.ofOption hi1 (leaderWeightDistribution_congr _ _ (toMat_ofMat c.checkMatrix) fuel)

theorem cosetLeaderWeightDistribution_does (hf : n ≤ fuel) (hi : Inv F c fuel h o) :
    Does F c fuel (cosetLeaderWeightDistribution fuel) (h, o) (fun h x => (c.leaderWeightDistribution fuel = none ∧ x = none) ∨
      ∃ D, c.leaderWeightDistribution fuel = some D ∧ IsArray F [D] h x) := by
  unfold cosetLeaderWeightDistribution
  refine Does.self ?_
  cases hg : o.leaderWeights with
  | some a =>
    obtain ⟨D, h1, h2⟩ := hi.leaderWeights a hg
    exact Does.pure hi (.inr ⟨D, h1, a, rfl, h2⟩)
  | none =>
    refine Does.bind (computeLeaderWeights_does hf hi) (fun _ e => .inl ⟨e.symm, rfl⟩) ?_
    intro D h1 o1 _ hi1 e
    refine Does.alloc (Does.modify ?_)
    have hh := Owns.alloc hi1.bound (List.prefix_refl h1) ⟨true, [D]⟩
    have hi2 := hi1.mono (List.prefix_append h1 [⟨true, [D]⟩])
    refine Does.pure ?_ (.inr ⟨D, e.symm, _, rfl, hh⟩)
    exact { hi2 with leaderWeights := by rintro a ⟨⟩; exact ⟨D, e.symm, hh⟩ }

theorem coveringRadius_does (hf : n ≤ fuel) (hi : Inv F c fuel h o) : Does F c fuel (coveringRadius fuel) (h, o) (fun _ x => x = c.coveringRadius fuel) := by
  unfold coveringRadius
  refine Does.self ?_
  cases hg : o.covering with
  | some d => exact Does.pure hi (hi.covering d hg).symm
  | none =>
    refine Does.bind (cosetLeaderWeightDistribution_does hf hi) ?_ ?_
    · rintro h (⟨e, -⟩ | ⟨T', -, a, e, -⟩)
      · rw [LinCode.coveringRadius, e]
      · cases e
    · rintro a h1 o1 _ hi1 (⟨-, e⟩ | ⟨D, e, a', ⟨⟩, hh⟩)
      · cases e
      · refine Does.read hh fun b => ?_
        refine Does.bind (Q := fun _ x => x = c.coveringRadius fuel) (Does.ofOption hi1 (by simp [LinCode.coveringRadius, e])) (fun _ e => e) ?_
        intro d h2 o2 _ hi2 e
        refine Does.modify (Does.pure ?_ e)
        exact { hi2 with covering := by rintro d ⟨⟩; exact e.symm }

end

end Komm.Objects
