import Verif.Lemmas.CodeObject
/-! C132: sessions with `BlockCode` objects.  Arrays are shared by reference, `rref` works in place, attributes and methods are cached, two flags select between computations and
codewords are generated in batches; none of it can be observed: whatever was called before, on whichever objects, a call returns what the function of the matrices
(`blockCodeOfGenerator`, `blockCodeOfCheck`) says, provided the user does not write into an array after giving it to a constructor, nor into a returned one. -/
namespace Komm.Objects
variable {k m n : ℕ}

/-! ### specification -/

/-- What the user sees: the entries of an array, a number, or an array of bits. -/
inductive Content
  | rows (l : List (List ℕ)) | number (d : ℕ) | word (l : List (ZMod 2))
deriving DecidableEq

/-- What the user sees of a response when the memory is `h`. -/
def observe (h : Heap) : Response → Content
  | .array a => .rows (h.getD a ⟨true, []⟩).rows
  | .number d => .number d
  | .word l => .word l

/-- What the methods say as functions of the matrices of the code; `none` is an exception. -/
def expected (c : LinCode k m n) (fuel : ℕ) : Op → Option Content
  | .generatorMatrix => some (.rows (ofMat c.generator))
  | .generatorMatrixRightInverse => some (.rows (ofMat c.rightInverse))
  | .checkMatrix => some (.rows (ofMat c.checkMatrix))
  | .encode l => (c.encodeStream l).map .word
  | .projectWord l => (c.projectStream l).map .word
  | .inverseEncode l => (c.inverseEncodeStream l).map .word
  | .check l => (c.checkStream l).map .word
  | .codewords => some (.rows (c.codewords.map ofVec))
  | .codewordWeightDistribution => some (.rows [c.weightDistribution])
  | .minimumDistance => c.minimumDistance.map .number
  | .packingRadius => c.packingRadius.map .number
  | .cosetLeaders => (c.cosetLeaders fuel).map fun T => .rows ((List.range (2 ^ m)).map fun s => ofVec (T s))
  | .cosetLeaderWeightDistribution => (c.leaderWeightDistribution fuel).map fun D => .rows [D]
  | .coveringRadius => (c.coveringRadius fuel).map .number

/-- The arrays the user may write to: those created by the user and not given to a constructor. -/
def writable (F : List Addr) (w : World) : Stmt → List Addr
  | .array _ => w.heap.length :: F
  | .fromGenerator _ _ a => F.filter (· ≠ a)
  | .fromCheck _ _ a => F.filter (· ≠ a)
  | _ => F

/-- A statement of a disciplined session: writes go to writable arrays; constructors get matrices with linearly independent rows, dimension between 1 and 64 (`uint64` message indices)
and length at most `fuel`, the bound on the rounds of the loops over coset leaders. -/
def Allowed (fuel : ℕ) (F : List Addr) (w : World) : Stmt → Prop
  | .write a _ => a ∈ F
  | .fromGenerator k n a => 1 ≤ k ∧ k ≤ 64 ∧ n ≤ fuel ∧ ∃ G : BMat k n, LinearIndependent (ZMod 2) G ∧ Holds w.heap a (ofMat G)
  | .fromCheck m n a => 1 ≤ n - m ∧ n - m ≤ 64 ∧ n ≤ fuel ∧ ∃ H : BMat m n, LinearIndependent (ZMod 2) H ∧ Holds w.heap a (ofMat H)
  | _ => True

/-- A disciplined session from memory `w` with writable arrays `F`. -/
def Disciplined (fuel : ℕ) (F : List Addr) (w : World) : List Stmt → Prop
  | [] => True
  | s :: ss => Allowed fuel F w s ∧ Disciplined fuel (writable F w s) (exec fuel w s).1 ss

/-- The beginning of a session. -/
def World.empty : World := ⟨[], []⟩

/-! ### one call -/

theorem call_does {F : List Addr} {c : LinCode k m n} {fuel : ℕ} {h : Heap} {o : Obj k m n} (hf : n ≤ fuel) (hi : Inv F c fuel h o) (op : Op) :
    Does F c fuel (call fuel op) (h, o) (fun h x => x.map (observe h) = expected c fuel op ∧ ∀ a, x = some (.array a) → ∃ rows, Owns F h a rows) := by
  have arr : ∀ {p : Prog k m n Addr} {rows}, Does F c fuel p (h, o) (IsArray F rows) →
      Does F c fuel (p >>= fun a => pure (.array a)) (h, o) (fun h x => x.map (observe h) = some (.rows rows) ∧ ∀ a, x = some (.array a) → ∃ rows, Owns F h a rows) := by
    intro p rows hp
    refine Does.thenArray hp fun a h1 o1 _ hi1 hh => Does.pure hi1 ⟨?_, ?_⟩
    · simp only [Option.map_some, observe, hh.1.getD]
    · rintro _ ⟨⟩; exact ⟨_, hh⟩
  have arr? : ∀ {p : Prog k m n Addr} {α : Type} {x : Option α} {rows : α → List (List ℕ)},
      Does F c fuel p (h, o) (fun h r => (x = none ∧ r = none) ∨ ∃ T, x = some T ∧ IsArray F (rows T) h r) →
      Does F c fuel (p >>= fun a => pure (.array a)) (h, o) (fun h r => r.map (observe h) = x.map (fun T => Content.rows (rows T)) ∧ ∀ a, r = some (.array a) → ∃ rows, Owns F h a rows) := by
    intro p α x rows hp
    refine Does.bind hp ?_ ?_
    · rintro h1 (⟨rfl, -⟩ | ⟨T, -, a, e, -⟩)
      · exact ⟨rfl, by simp⟩
      · cases e
    · rintro a h1 o1 _ hi1 (⟨-, e⟩ | ⟨T, rfl, a', ⟨⟩, hh⟩)
      · cases e
      · refine Does.pure hi1 ⟨?_, ?_⟩
        · simp only [Option.map_some, observe, hh.1.getD]
        · rintro _ ⟨⟩; exact ⟨_, hh⟩
  have num : ∀ {p : Prog k m n ℕ} {x}, Does F c fuel p (h, o) (fun _ r => r = x) →
      Does F c fuel (p >>= fun d => pure (.number d)) (h, o) (fun h r => r.map (observe h) = x.map .number ∧ ∀ a, r = some (.array a) → ∃ rows, Owns F h a rows) := by
    intro p x hp
    refine Does.bind hp ?_ ?_
    · rintro h1 rfl; exact ⟨rfl, by simp⟩
    · rintro d h1 o1 _ hi1 rfl
      exact Does.pure hi1 ⟨rfl, by simp⟩
  have word : ∀ {p : Prog k m n (List (ZMod 2))} {x}, Does F c fuel p (h, o) (fun _ r => r = x) →
      Does F c fuel (p >>= fun d => pure (.word d)) (h, o) (fun h r => r.map (observe h) = x.map .word ∧ ∀ a, r = some (.array a) → ∃ rows, Owns F h a rows) := by
    intro p x hp
    refine Does.bind hp ?_ ?_
    · rintro h1 rfl; exact ⟨rfl, by simp⟩
    · rintro d h1 o1 _ hi1 rfl
      exact Does.pure hi1 ⟨rfl, by simp⟩
  cases op with
  | generatorMatrix => exact arr (generatorMatrix_does hi)
  | generatorMatrixRightInverse => exact arr (generatorMatrixRightInverse_does hi)
  | checkMatrix => exact arr (checkMatrix_does hi)
  | encode l => exact word (encode_does hi l)
  | projectWord l => exact word (projectWord_does hi l)
  | inverseEncode l => exact word (inverseEncode_does hi l)
  | check l => exact word (checkWord_does hi l)
  | codewords => exact arr (codewords_does hi)
  | codewordWeightDistribution => exact arr (codewordWeightDistribution_does hi)
  | minimumDistance => exact num (minimumDistance_does hi)
  | packingRadius => exact num (packingRadius_does hi)
  | cosetLeaders => exact arr? (cosetLeaders_does hi)
  | cosetLeaderWeightDistribution => exact arr? (cosetLeaderWeightDistribution_does hf hi)
  | coveringRadius => exact num (coveringRadius_does hf hi)

/-! ### whole sessions -/

/-- Other things happen to the memory. -/
theorem Inv.change {F F' : List Addr} {c : LinCode k m n} {fuel : ℕ} {h h' : Heap} {o : Obj k m n} (hi : Inv F c fuel h o) (hb : ∀ a ∈ F', a < h'.length)
    (hc : ∀ a rows, Owns F h a rows → Owns F' h' a rows) : Inv F' c fuel h' o where
  bound := hb
  code := hi.code
  argument := hc _ _ hi.argument
  generator a ha := hc _ _ (hi.generator a ha)
  rightInverse a ha := hc _ _ (hi.rightInverse a ha)
  check a ha := hc _ _ (hi.check a ha)
  codewords a ha := hc _ _ (hi.codewords a ha)
  weights a ha := hc _ _ (hi.weights a ha)
  minimumDistance := hi.minimumDistance
  leaders a ha := by obtain ⟨T, h1, h2⟩ := hi.leaders a ha; exact ⟨T, h1, hc _ _ h2⟩
  leaderWeights a ha := by obtain ⟨D, h1, h2⟩ := hi.leaderWeights a ha; exact ⟨D, h1, hc _ _ h2⟩
  packing := hi.packing
  covering := hi.covering
  flagLeaders := hi.flagLeaders

/-- Every object of the session is right. -/
structure Sound (fuel : ℕ) (F : List Addr) (w : World) : Prop where
  bound : ∀ a ∈ F, a < w.heap.length
  objects : ∀ (i k m n : ℕ) (o : Obj k m n), w.objects[i]? = some ⟨k, m, n, o⟩ → n ≤ fuel ∧ ∃ c, Inv F c fuel w.heap o

/-- Object `i` is right and its code is `c`. -/
def IsObject (fuel : ℕ) (F : List Addr) (w : World) (i : ℕ) (c : LinCode k m n) : Prop := ∃ o, w.objects[i]? = some ⟨k, m, n, o⟩ ∧ n ≤ fuel ∧ Inv F c fuel w.heap o

theorem codeOf_generator {k n : ℕ} (G : BMat k n) (hG : LinearIndependent (ZMod 2) G) (h1 : 1 ≤ k) (h2 : k ≤ 64) :
    ∃ c, blockCodeOfGenerator G = some c ∧ c.generator = G ∧ CodeOf true c := by
  obtain ⟨c, e, e2, hl⟩ := C41_generator G hG
  refine ⟨c, e, e2, ?_, hl, h1, h2, ?_⟩
  · obtain ⟨N, hN, rfl⟩ := Option.map_eq_some_iff.mp e
    rfl
  · rw [if_pos rfl]
    obtain ⟨N, hN, rfl⟩ := Option.map_eq_some_iff.mp e
    show (nullMatrix G).map ofMat = _
    rw [hN]; rfl

theorem codeOf_check {m n : ℕ} (H : BMat m n) (hH : LinearIndependent (ZMod 2) H) (h1 : 1 ≤ n - m) (h2 : n - m ≤ 64) :
    ∃ c, blockCodeOfCheck H = some c ∧ c.checkMatrix = H ∧ CodeOf false c := by
  obtain ⟨c, e, e2, -, hl, -⟩ := C41_check H hH
  refine ⟨c, e, e2, ?_, hl, h1, h2, ?_⟩
  · obtain ⟨N, hN, rfl⟩ := Option.map_eq_some_iff.mp e
    rfl
  · rw [if_neg (by simp)]
    obtain ⟨N, hN, rfl⟩ := Option.map_eq_some_iff.mp e
    exact ⟨N, hN, rfl⟩

/-- A new object. -/
theorem inv_new {F : List Addr} {c : LinCode k m n} {fuel : ℕ} {h : Heap} {b : Bool} {a : Addr} (hb : ∀ a ∈ F, a < h.length) (hc : CodeOf b c)
    (ha : Owns F h a (if b then ofMat c.generator else ofMat c.checkMatrix)) : Inv F c fuel h { fromGenerator := b, argument := a } where
  bound := hb
  code := hc
  argument := ha
  generator _ h := by cases h
  rightInverse _ h := by cases h
  check _ h := by cases h
  codewords _ h := by cases h
  weights _ h := by cases h
  minimumDistance _ h := by cases h
  leaders _ h := by cases h
  leaderWeights _ h := by cases h
  packing _ h := by cases h
  covering _ h := by cases h
  flagLeaders h := by cases h

theorem modify_holds {h : Heap} {a b : Addr} {rows : List (List ℕ)} {f : Cell → Cell} (hab : a ≠ b) (hh : Holds h a rows) : Holds (h.modify b f) a rows := by
  obtain ⟨x, hx⟩ := hh
  refine ⟨x, ?_⟩
  rw [List.getElem?_modify, hx]
  simp [Ne.symm hab]

/-- What survives a statement that is not a call. -/
theorem owns_step {fuel : ℕ} {F : List Addr} {w : World} {s : Stmt} (hs : ∀ i op, s ≠ .call i op) (ha : Allowed fuel F w s) (hb : ∀ a ∈ F, a < w.heap.length) :
    (∀ a ∈ writable F w s, a < (exec fuel w s).1.heap.length) ∧
    (∀ a rows, Owns F w.heap a rows → Owns (writable F w s) (exec fuel w s).1.heap a rows) := by
  cases s with
  | array c =>
    refine ⟨?_, ?_⟩
    · intro a ha
      have hl : (exec fuel w (.array c)).1.heap.length = w.heap.length + 1 := List.length_append
      rw [hl]
      rcases List.mem_cons.mp ha with rfl | ha
      · exact Nat.lt_succ_self _
      · exact (hb a ha).trans (Nat.lt_succ_self _)
    · intro a rows hh
      refine ⟨hh.1.mono (List.prefix_append _ _), ?_⟩
      intro hm
      rcases List.mem_cons.mp hm with rfl | hm
      · obtain ⟨b, hb⟩ := hh.1
        have := (List.getElem?_eq_some_iff.mp hb).1
        omega
      · exact hh.2 hm
  | write b rows' =>
    refine ⟨?_, ?_⟩
    · intro a ha
      simp only [exec, List.length_modify]
      exact hb a ha
    · intro a rows hh
      refine ⟨modify_holds ?_ hh.1, hh.2⟩
      rintro rfl
      exact hh.2 ha
  | fromGenerator k n b =>
    refine ⟨fun a ha => hb a (List.mem_of_mem_filter ha), fun a rows hh => ⟨hh.1, fun hm => hh.2 (List.mem_of_mem_filter hm)⟩⟩
  | fromCheck m n b =>
    refine ⟨fun a ha => hb a (List.mem_of_mem_filter ha), fun a rows hh => ⟨hh.1, fun hm => hh.2 (List.mem_of_mem_filter hm)⟩⟩
  | call i op => exact absurd rfl (hs i op)

/-- The memory after a call. -/
theorem exec_call {fuel : ℕ} {w : World} {i : ℕ} {op : Op} {o : Obj k m n} (h : w.objects[i]? = some ⟨k, m, n, o⟩) :
    exec fuel w (.call i op) = (⟨(call fuel op (w.heap, o)).2.1, w.objects.set i ⟨k, m, n, (call fuel op (w.heap, o)).2.2⟩⟩, (call fuel op (w.heap, o)).1) := by
  simp only [exec, h]

theorem exec_call_none {fuel : ℕ} {w : World} {i : ℕ} {op : Op} (h : w.objects[i]? = none) : exec fuel w (.call i op) = (w, none) := by
  simp only [exec, h]

/-- A call only adds arrays. -/
theorem call_prefix {fuel : ℕ} {F : List Addr} {w : World} (hw : Sound fuel F w) (i : ℕ) (op : Op) : w.heap <+: (exec fuel w (.call i op)).1.heap := by
  cases hi : w.objects[i]? with
  | none => rw [exec_call_none hi]
  | some x =>
    obtain ⟨k, m, n, o⟩ := x
    obtain ⟨hn, c, hc⟩ := hw.objects i k m n o hi
    rw [exec_call hi]
    exact (call_does hn hc op).1

/-- The code of an object never changes. -/
theorem isObject_step {fuel : ℕ} {F : List Addr} {w : World} {s : Stmt} (hw : Sound fuel F w) (ha : Allowed fuel F w s) {i : ℕ} {c : LinCode k m n} (hi : IsObject fuel F w i c) :
    IsObject fuel (writable F w s) (exec fuel w s).1 i c := by
  obtain ⟨o, h1, h2, h3⟩ := hi
  have hlt : i < w.objects.length := (List.getElem?_eq_some_iff.mp h1).1
  by_cases hs : ∀ j op, s ≠ .call j op
  · obtain ⟨g1, g2⟩ := owns_step hs ha hw.bound
    refine ⟨o, ?_, h2, h3.change g1 g2⟩
    cases s with
    | array c => exact h1
    | write b rows => exact h1
    | fromGenerator k n b => simp only [exec]; rw [List.getElem?_append_left hlt]; exact h1
    | fromCheck m n b => simp only [exec]; rw [List.getElem?_append_left hlt]; exact h1
    | call j op => exact absurd rfl (hs j op)
  · push Not at hs
    obtain ⟨j, op, rfl⟩ := hs
    have hp := call_prefix hw j op
    by_cases hij : j = i
    · subst hij
      have hd := call_does h2 h3 op
      rw [exec_call h1]
      exact ⟨_, by rw [List.getElem?_set_self hlt], h2, hd.2.1⟩
    · refine ⟨o, ?_, h2, h3.mono hp⟩
      cases hj : w.objects[j]? with
      | none => rw [exec_call_none hj]; exact h1
      | some x =>
        obtain ⟨k', m', n', o'⟩ := x
        rw [exec_call hj]
        simp only
        rw [List.getElem?_set_ne hij]
        exact h1

theorem sound_step {fuel : ℕ} {F : List Addr} {w : World} {s : Stmt} (hw : Sound fuel F w) (ha : Allowed fuel F w s) : Sound fuel (writable F w s) (exec fuel w s).1 := by
  refine ⟨?_, ?_⟩
  · by_cases hs : ∀ j op, s ≠ .call j op
    · exact (owns_step hs ha hw.bound).1
    · push Not at hs
      obtain ⟨j, op, rfl⟩ := hs
      exact fun a ha => (hw.bound a ha).trans_le (call_prefix hw j op).length_le
  · intro i k m n o ho
    by_cases hlt : i < w.objects.length
    · obtain ⟨k', m', n', o'⟩ : Σ k m n : ℕ, Obj k m n := w.objects[i]
      have hx : w.objects[i]? = some w.objects[i] := List.getElem?_eq_getElem hlt
      obtain ⟨h1, c, h2⟩ := hw.objects i _ _ _ _ (show w.objects[i]? = some ⟨w.objects[i].1, w.objects[i].2.1, w.objects[i].2.2.1, w.objects[i].2.2.2⟩ from hx)
      obtain ⟨o2, g1, g2, g3⟩ := isObject_step hw ha (i := i) (c := c) ⟨_, hx, h1, h2⟩
      rw [ho] at g1
      cases g1
      exact ⟨g2, c, g3⟩
    · cases s with
      | array c => exact absurd (List.getElem?_eq_some_iff.mp ho).1 hlt
      | write b rows => exact absurd (List.getElem?_eq_some_iff.mp ho).1 hlt
      | call j op =>
        refine absurd (List.getElem?_eq_some_iff.mp ho).1 ?_
        cases hj : w.objects[j]? with
        | none => rw [exec_call_none hj]; exact hlt
        | some x =>
          obtain ⟨k', m', n', o'⟩ := x
          rw [exec_call hj]
          simpa using hlt
      | fromGenerator k' n' b =>
        obtain ⟨h1, h2, h3, G, hG, hh⟩ := ha
        simp only [exec] at ho
        rw [List.getElem?_append_right (by omega)] at ho
        have : i - w.objects.length = 0 := by
          have := (List.getElem?_eq_some_iff.mp ho).1
          simpa using this
        rw [this] at ho
        cases ho
        obtain ⟨c, -, e, hc⟩ := codeOf_generator G hG h1 h2
        refine ⟨h3, c, inv_new (fun a ha => hw.bound a (List.mem_of_mem_filter ha)) hc ⟨?_, by simp [writable]⟩⟩
        rw [if_pos rfl, e]
        exact hh
      | fromCheck m' n' b =>
        obtain ⟨h1, h2, h3, H, hH, hh⟩ := ha
        simp only [exec] at ho
        rw [List.getElem?_append_right (by omega)] at ho
        have : i - w.objects.length = 0 := by
          have := (List.getElem?_eq_some_iff.mp ho).1
          simpa using this
        rw [this] at ho
        cases ho
        obtain ⟨c, -, e, hc⟩ := codeOf_check H hH h1 h2
        refine ⟨h3, c, inv_new (fun a ha => hw.bound a (List.mem_of_mem_filter ha)) hc ⟨?_, by simp [writable]⟩⟩
        rw [if_neg (by simp), e]
        exact hh

/-- The writable arrays at the end of a session. -/
def writableAfter (fuel : ℕ) (F : List Addr) (w : World) : List Stmt → List Addr
  | [] => F
  | s :: ss => writableAfter fuel (writable F w s) (exec fuel w s).1 ss

theorem disciplined_append {fuel : ℕ} {F : List Addr} {w : World} (s t : List Stmt) :
    Disciplined fuel F w (s ++ t) ↔ Disciplined fuel F w s ∧ Disciplined fuel (writableAfter fuel F w s) (run fuel w s).1 t := by
  induction s generalizing F w with
  | nil => simp [Disciplined, writableAfter, run]
  | cons s ss ih => simp only [List.cons_append, Disciplined, writableAfter, run, ih, and_assoc]

theorem run_append (fuel : ℕ) (w : World) (s t : List Stmt) : (run fuel w (s ++ t)).1 = (run fuel (run fuel w s).1 t).1 := by
  induction s generalizing w with
  | nil => rfl
  | cons s ss ih => simp only [List.cons_append, run, ih]

theorem sound_run {fuel : ℕ} {F : List Addr} {w : World} (hw : Sound fuel F w) {ss : List Stmt} (hd : Disciplined fuel F w ss) :
    Sound fuel (writableAfter fuel F w ss) (run fuel w ss).1 := by
  induction ss generalizing F w with
  | nil => exact hw
  | cons s ss ih => exact ih (sound_step hw hd.1) hd.2

theorem isObject_run {fuel : ℕ} {F : List Addr} {w : World} (hw : Sound fuel F w) {ss : List Stmt} (hd : Disciplined fuel F w ss) {i : ℕ} {c : LinCode k m n}
    (hi : IsObject fuel F w i c) : IsObject fuel (writableAfter fuel F w ss) (run fuel w ss).1 i c := by
  induction ss generalizing F w with
  | nil => exact hi
  | cons s ss ih => exact ih (sound_step hw hd.1) hd.2 (isObject_step hw hd.1 hi)

theorem sound_empty (fuel : ℕ) : Sound fuel [] World.empty := ⟨by simp, by simp [World.empty]⟩

theorem response_of_isObject {fuel : ℕ} {F : List Addr} {w : World} {i : ℕ} {c : LinCode k m n} (hi : IsObject fuel F w i c) (op : Op) :
    (exec fuel w (.call i op)).2.map (observe (exec fuel w (.call i op)).1.heap) = expected c fuel op := by
  obtain ⟨o, h1, h2, h3⟩ := hi
  rw [exec_call h1]
  exact (call_does h2 h3 op).2.2.1

theorem holds_inj {h : Heap} {a : Addr} {r s : List (List ℕ)} (h1 : Holds h a r) (h2 : Holds h a s) : r = s := by
  rw [← h1.getD, h2.getD]

theorem ofMat_inj {k n : ℕ} {M N : BMat k n} (h : ofMat M = ofMat N) : M = N := by
  rw [← toMat_ofMat M, h, toMat_ofMat]

/-! ### C132 -/

/-- **`BlockCode(generator_matrix=x)`**: in any session, with any statements before and after the construction (other objects, other calls, earlier calls on the same object, in any
order), a call on the object returns what the function of the matrix says that `x` held when the object was created. -/
theorem C132_generator {k n : ℕ} (fuel : ℕ) (before after : List Stmt) (x : Addr) (G : BMat k n) (op : Op)
    (hd : Disciplined fuel [] World.empty (before ++ [.fromGenerator k n x] ++ after))
    (hG : Holds (run fuel World.empty before).1.heap x (ofMat G)) :
    ∃ c, blockCodeOfGenerator G = some c ∧
      ∀ w, w = (run fuel World.empty (before ++ [.fromGenerator k n x] ++ after)).1 →
      ∀ i, i = (run fuel World.empty before).1.objects.length →
        (exec fuel w (.call i op)).2.map (observe (exec fuel w (.call i op)).1.heap) = expected c fuel op := by
  rw [disciplined_append, disciplined_append] at hd
  obtain ⟨⟨d1, d2, -⟩, d3⟩ := hd
  have s1 := sound_run (sound_empty fuel) d1
  obtain ⟨h1, h2, h3, G', hG', hh⟩ := id d2
  obtain rfl := ofMat_inj (holds_inj hG hh)
  obtain ⟨c, e, e2, hc⟩ := codeOf_generator G hG' h1 h2
  refine ⟨c, e, ?_⟩
  rintro w rfl i rfl
  refine response_of_isObject (F := writableAfter fuel (writableAfter fuel [] World.empty (before ++ [.fromGenerator k n x])) (run fuel World.empty (before ++ [.fromGenerator k n x])).1 after) ?_ op
  rw [run_append fuel World.empty (before ++ [Stmt.fromGenerator k n x]) after]
  have d12 : Disciplined fuel [] World.empty (before ++ [.fromGenerator k n x]) := (disciplined_append _ _).mpr ⟨d1, d2, trivial⟩
  refine isObject_run (sound_run (sound_empty fuel) d12) d3 ?_
  rw [run_append]
  refine ⟨_, ?_, h3, inv_new (a := x) ?_ hc ?_⟩
  · simp only [run, exec]
    exact List.getElem?_concat_length
  · have := (sound_run (sound_empty fuel) d12).bound
    rw [run_append] at this
    exact this
  · have : (run fuel (run fuel World.empty before).1 [.fromGenerator k n x]).1.heap = (run fuel World.empty before).1.heap := rfl
    rw [if_pos rfl, e2, this]
    refine ⟨hh, ?_⟩
    have hw : writableAfter fuel [] World.empty (before ++ [.fromGenerator k n x]) = (writableAfter fuel [] World.empty before).filter (· ≠ x) := by
      generalize World.empty = w
      generalize ([] : List Addr) = F
      clear * -
      induction before generalizing w F with
      | nil => rfl
      | cons s ss ih => exact ih _ _
    rw [hw]
    simp

/-- **`BlockCode(check_matrix=x)`**: the same. -/
theorem C132_check {m n : ℕ} (fuel : ℕ) (before after : List Stmt) (x : Addr) (H : BMat m n) (op : Op)
    (hd : Disciplined fuel [] World.empty (before ++ [.fromCheck m n x] ++ after))
    (hH : Holds (run fuel World.empty before).1.heap x (ofMat H)) :
    ∃ c, blockCodeOfCheck H = some c ∧
      ∀ w, w = (run fuel World.empty (before ++ [.fromCheck m n x] ++ after)).1 →
      ∀ i, i = (run fuel World.empty before).1.objects.length →
        (exec fuel w (.call i op)).2.map (observe (exec fuel w (.call i op)).1.heap) = expected c fuel op := by
  rw [disciplined_append, disciplined_append] at hd
  obtain ⟨⟨d1, d2, -⟩, d3⟩ := hd
  have s1 := sound_run (sound_empty fuel) d1
  obtain ⟨h1, h2, h3, H', hH', hh⟩ := id d2
  obtain rfl := ofMat_inj (holds_inj hH hh)
  obtain ⟨c, e, e2, hc⟩ := codeOf_check H hH' h1 h2
  refine ⟨c, e, ?_⟩
  rintro w rfl i rfl
  refine response_of_isObject (F := writableAfter fuel (writableAfter fuel [] World.empty (before ++ [.fromCheck m n x])) (run fuel World.empty (before ++ [.fromCheck m n x])).1 after) ?_ op
  rw [run_append fuel World.empty (before ++ [Stmt.fromCheck m n x]) after]
  have d12 : Disciplined fuel [] World.empty (before ++ [.fromCheck m n x]) := (disciplined_append _ _).mpr ⟨d1, d2, trivial⟩
  refine isObject_run (sound_run (sound_empty fuel) d12) d3 ?_
  rw [run_append]
  refine ⟨_, ?_, h3, inv_new (a := x) ?_ hc ?_⟩
  · simp only [run, exec]
    exact List.getElem?_concat_length
  · have := (sound_run (sound_empty fuel) d12).bound
    rw [run_append] at this
    exact this
  · have : (run fuel (run fuel World.empty before).1 [.fromCheck m n x]).1.heap = (run fuel World.empty before).1.heap := rfl
    rw [if_neg (by simp), e2, this]
    refine ⟨hh, ?_⟩
    have hw : writableAfter fuel [] World.empty (before ++ [.fromCheck m n x]) = (writableAfter fuel [] World.empty before).filter (· ≠ x) := by
      generalize World.empty = w
      generalize ([] : List Addr) = F
      clear * -
      induction before generalizing w F with
      | nil => rfl
      | cons s ss ih => exact ih _ _
    rw [hw]
    simp

theorem owns_run {fuel : ℕ} {F : List Addr} {w : World} (hw : Sound fuel F w) {ss : List Stmt} (hd : Disciplined fuel F w ss) {a : Addr} {rows : List (List ℕ)}
    (hh : Owns F w.heap a rows) : Owns (writableAfter fuel F w ss) (run fuel w ss).1.heap a rows := by
  induction ss generalizing F w with
  | nil => exact hh
  | cons s ss ih =>
    refine ih (sound_step hw hd.1) hd.2 ?_
    by_cases hs : ∀ j op, s ≠ .call j op
    · exact (owns_step hs hd.1 hw.bound).2 a rows hh
    · push Not at hs
      obtain ⟨j, op, rfl⟩ := hs
      exact hh.mono (call_prefix hw j op)

/-- **What a call returned stays**: an array returned by a call has the same entries at every later time of the session. -/
theorem C132_permanent (fuel : ℕ) (before after : List Stmt) (i : ℕ) (op : Op) (r : Response)
    (hd : Disciplined fuel [] World.empty (before ++ [.call i op] ++ after))
    (hr : (exec fuel (run fuel World.empty before).1 (.call i op)).2 = some r) :
    observe (run fuel World.empty (before ++ [.call i op] ++ after)).1.heap r = observe (run fuel World.empty (before ++ [.call i op])).1.heap r := by
  cases r with
  | number d => rfl
  | word l => rfl
  | array a =>
    rw [disciplined_append] at hd
    obtain ⟨d12, d3⟩ := hd
    have s12 := sound_run (sound_empty fuel) d12
    obtain ⟨d1, d2, -⟩ := (disciplined_append _ _).mp d12
    have s1 := sound_run (sound_empty fuel) d1
    have hw : writableAfter fuel [] World.empty (before ++ [.call i op]) = writableAfter fuel [] World.empty before := by
      generalize World.empty = w
      generalize ([] : List Addr) = F
      clear * -
      induction before generalizing w F with
      | nil => rfl
      | cons s ss ih => exact ih _ _
    have key : ∃ rows, Owns (writableAfter fuel [] World.empty before) (exec fuel (run fuel World.empty before).1 (.call i op)).1.heap a rows := by
      cases hi : (run fuel World.empty before).1.objects[i]? with
      | none => rw [exec_call_none hi] at hr; cases hr
      | some x =>
        obtain ⟨k, m, n, o⟩ := x
        obtain ⟨hn, c, hc⟩ := s1.objects i k m n o hi
        have hdo := (call_does hn hc op).2.2.2
        rw [exec_call hi] at hr ⊢
        exact hdo a hr
    obtain ⟨rows, hrows⟩ := key
    have h1 : Owns (writableAfter fuel [] World.empty (before ++ [.call i op])) (run fuel World.empty (before ++ [.call i op])).1.heap a rows := by
      rw [hw, run_append]
      exact hrows
    have h2 := owns_run s12 d3 h1
    rw [observe, observe, h1.1.getD, run_append, h2.1.getD]

/-! ### the discipline is needed -/

/-- `x = np.array([[1, 0, 1], [0, 1, 1]]); code = BlockCode(generator_matrix=x); code.check_matrix; x[...] = [[1, 1, 0], [0, 1, 0]]`. -/
def aliasing : List Stmt :=
  [.array ⟨true, [[1, 0, 1], [0, 1, 1]]⟩, .fromGenerator 2 3 0, .call 0 .checkMatrix, .write 0 [[1, 1, 0], [0, 1, 0]]]

/-- `code.codewords(); code.codewords()[...] = 0` (both calls return the same array). -/
def spoiling : List Stmt :=
  [.array ⟨true, [[1, 0, 1], [0, 1, 1]]⟩, .fromGenerator 2 3 0, .call 0 .codewords, .write 1 [[0, 0, 0], [0, 0, 0], [0, 0, 0], [0, 0, 0]]]

/-- Writing into an array after giving it to the constructor, or into a returned array, changes what later calls return: with the generator matrix overwritten the object encodes with the new
matrix and checks with the old one, so that `inverse_encode(encode(u))` raises; with the codewords overwritten `minimum_distance()` raises. -/
theorem C132_aliasing :
    (∃ w, w = (run 3 World.empty aliasing).1 ∧
      (exec 3 w (.call 0 (.encode [0, 1]))).2 = some (.word [0, 1, 0]) ∧
      (exec 3 w (.call 0 (.inverseEncode [0, 1, 0]))).2 = none) ∧
    (exec 3 (run 3 World.empty spoiling).1 (.call 0 .minimumDistance)).2 = none ∧
    (exec 3 (run 3 World.empty (spoiling.take 3)).1 (.call 0 .minimumDistance)).2 = some (.number 2) := by
  refine ⟨⟨_, rfl, ?_⟩, ?_⟩ <;> decide +kernel

/-! ### the hypotheses are met -/

/-- The array of the documented (6, 3) code, an object from it, its check matrix, a second object from the same array used as a check matrix (the dual code), an array that the user overwrites, calls
in between. -/
def session : List Stmt :=
  [.array ⟨true, ofMat exG⟩, .array ⟨true, [[1, 2], [3, 4]]⟩, .fromGenerator 3 6 0, .call 0 .codewords, .write 1 [[0, 0], [0, 0]], .fromCheck 3 6 0, .call 1 .coveringRadius,
   .call 0 .codewordWeightDistribution, .call 1 .generatorMatrix, .call 0 (.inverseEncode [1, 0, 0, 0, 1, 1])]

example : Disciplined 6 [] World.empty session := by
  have hG : LinearIndependent (ZMod 2) exG := by
    rw [linearIndependent_iff_card_eq_finrank_span, Fintype.card_fin, Set.finrank, ← rank_spec]; decide +kernel
  refine ⟨trivial, trivial, ⟨by decide, by decide, by decide, exG, hG, true, rfl⟩, trivial, ?_, ⟨by decide, by decide, by decide, exG, hG, true, ?_⟩, trivial, trivial, trivial, trivial, trivial⟩
  · simp [Allowed, writable, exec, World.empty]
  · decide +kernel

example : (run 6 World.empty session).2.map (Option.map (observe (run 6 World.empty session).1.heap)) =
    [some (.rows (ofMat exG)), some (.rows [[0, 0], [0, 0]]), none,
     some (.rows [[0, 0, 0, 0, 0, 0], [1, 0, 0, 0, 1, 1], [0, 1, 0, 1, 0, 1], [1, 1, 0, 1, 1, 0], [0, 0, 1, 1, 1, 0], [1, 0, 1, 1, 0, 1], [0, 1, 1, 0, 1, 1], [1, 1, 1, 0, 0, 0]]),
     none, none, some (.number 2), some (.rows [[1, 0, 0, 4, 3, 0, 0]]), some (.rows [[1, 0, 1, 0, 1, 0], [0, 1, 1, 0, 1, 1], [0, 0, 0, 1, 1, 1]]), some (.word [1, 0, 0])] := by decide +kernel

end Komm.Objects
