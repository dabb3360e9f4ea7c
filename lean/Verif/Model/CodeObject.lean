import Verif.Model.BlockCode
/-! Model of block-code objects of class `BlockCode` (BlockCode.py, base.py) as objects in memory: numpy arrays live in a heap and are passed by reference, `rref` works
in place, attributes are computed on first use (`@cached_property`), methods are memoised (`@cache`), the flags `_cached_codewords` and `_cached_coset_leaders` select
between two computations, and codewords are generated in batches of 1024.  The other files of the model treat the same methods as functions of the matrices. -/
namespace Komm.Objects

/-- Addresses of arrays. -/
abbrev Addr := ℕ

/-- A numpy array of rows of integers; `integer` says whether its `dtype` is `int` (then `np.asarray(x, dtype=int)` does not copy). -/
structure Cell where
  integer : Bool
  rows : List (List ℕ)
deriving DecidableEq, Repr

abbrev Heap := List Cell

/-- The entries of a 0/1 vector, as integers. -/
def ofVec {n : ℕ} (v : BVec n) : List ℕ := List.ofFn fun j => (v j).val

/-- The entries of a 0/1 matrix, as rows of integers. -/
def ofMat {k n : ℕ} (M : BMat k n) : List (List ℕ) := List.ofFn fun i => ofVec (M i)

/-- An array read as a `k × n` matrix modulo 2. -/
def toMat (k n : ℕ) (rows : List (List ℕ)) : BMat k n := fun i j => ((rows.getD i []).getD j 0 : ℕ)

/-- The object: the argument of the constructor (BlockCode.py:66-75), the attributes computed so far (`@cached_property`, BlockCode.py:136-172), the results of the memoised
methods (`@cache`, BlockCode.py:243-342) and the two flags (base.py:152, 221).  `none` is not computed yet. -/
structure Obj (k m n : ℕ) where
  /-- `true`: `generator_matrix=` was given, `false`: `check_matrix=`. -/
  fromGenerator : Bool
  argument : Addr
  generator : Option Addr := none
  rightInverse : Option Addr := none
  check : Option Addr := none
  codewords : Option Addr := none
  weights : Option Addr := none
  minimumDistance : Option ℕ := none
  leaders : Option Addr := none
  leaderWeights : Option Addr := none
  packing : Option ℕ := none
  covering : Option ℕ := none
  flagCodewords : Bool := false
  flagLeaders : Bool := false

section
variable {k m n : ℕ}

/-- Programs that use the heap and the object; `none` is an exception (or a loop that does not end), what was stored before it stays. -/
def Prog (k m n : ℕ) (α : Type) := Heap × Obj k m n → Option α × (Heap × Obj k m n)

/-- Sequencing of Python statements. -/
instance : Monad (Prog k m n) where
  pure a := fun s => (some a, s)
  bind x f := fun s =>
    match x s with
    | (none, s') => (none, s')
    | (some a, s') => f a s'

/-- `raise`. -/
def raise {α : Type} : Prog k m n α := fun s => (none, s)

/-- A value, or an exception. -/
def ofOption {α : Type} : Option α → Prog k m n α
  | none => raise
  | some a => pure a

def self : Prog k m n (Obj k m n) := fun s => (some s.2, s)
def modify (f : Obj k m n → Obj k m n) : Prog k m n Unit := fun s => (some (), (s.1, f s.2))

/-- A new array. -/
def alloc (c : Cell) : Prog k m n Addr := fun s => (some s.1.length, (s.1 ++ [c], s.2))
/-- The array at an address. -/
def read (a : Addr) : Prog k m n Cell := fun s => (some (s.1.getD a ⟨true, []⟩), s)
/-- `x[...] = rows`: in place. -/
def write (a : Addr) (rows : List (List ℕ)) : Prog k m n Unit := fun s => (some (), (s.1.modify a fun c => { c with rows := rows }, s.2))

/-- `np.asarray(x, dtype=int)`: the same array if it is an integer array already, a copy otherwise. -/
def asarrayInt (a : Addr) : Prog k m n Addr := do
  let c ← read a
  if c.integer then pure a else alloc ⟨true, c.rows⟩

/-- `rref(matrix)` (matrices.py:19-54) for an `r × c` array: in place if it is an integer array. -/
def rrefAt (r c : ℕ) (a : Addr) : Prog k m n Addr := do
  let b ← asarrayInt a
  let x ← read b
  write b (ofMat (rref (toMat r c x.rows)))
  pure b

/-- `xrref(matrix)` (matrices.py:57-101): the eye and the augmented matrix are new arrays, the reduction is in place in the latter; `row_transform` and `reduced` are views of it
(given here by their entries: the callers only read them). -/
def xrrefAt (r c : ℕ) (a : Addr) : Prog k m n (BMat r r × BMat r c × List (Fin c)) := do
  let b ← asarrayInt a
  let x ← read b
  let _ ← alloc ⟨true, ofMat (eye r)⟩
  let augmented ← alloc ⟨true, ofMat (augment (toMat r c x.rows))⟩
  let y ← rrefAt r (c + r) augmented
  let z ← read y
  let R := toMat r (c + r) z.rows
  let reduced : BMat r c := fun i j => R i (Fin.castAdd r j)
  let rowTransform : BMat r r := fun i j => R i (Fin.natAdd c j)
  pure (rowTransform, reduced, findPivots reduced)

/-- `pseudo_inverse(matrix)` (matrices.py:122-160): a new array. -/
def pseudoInverseAt (r c : ℕ) (a : Addr) : Prog k m n Addr := do
  let (rowTransform, _, pivots) ← xrrefAt r c a
  let reducedInverse : BMat c r := fun j t => if j ∈ pivots ∧ pivots.idxOf j = (t : ℕ) then 1 else 0
  alloc ⟨true, ofMat (matMul reducedInverse rowTransform)⟩

/-- The array `null` of `null_matrix` from the reduced matrix (matrices.py:168-172); `none` when the shapes do not match. -/
def nullRows (r c : ℕ) (reduced : BMat r c) (pivots : List (Fin c)) : Option (List (List ℕ)) :=
  let np := notPivots pivots
  if h : np.length = c - r ∧ pivots.length = r then
    some (ofMat (fun (t : Fin (c - r)) j =>
      if hj : j ∈ pivots then reduced ⟨pivots.idxOf j, h.2 ▸ List.idxOf_lt_length_of_mem hj⟩ (np.get (t.cast h.1.symm))
      else if j = np.get (t.cast h.1.symm) then 1 else 0))
  else none

/-- `null_matrix(matrix)` (matrices.py:163-173): a new array, or an exception. -/
def nullMatrixAt (r c : ℕ) (a : Addr) : Prog k m n Addr := do
  let (_, reduced, pivots) ← xrrefAt r c a
  let rows ← ofOption (nullRows r c reduced pivots)
  alloc ⟨true, rows⟩

/-- `check_matrix` when `check_matrix=` was given: the argument; this is all that `generator_matrix` needs (BlockCode.py:170-171). -/
def computeGenerator (o : Obj k m n) : Prog k m n Addr := do
  if o.fromGenerator then pure o.argument
  else
    modify fun o => { o with check := some o.argument }
    let a ← nullMatrixAt m n o.argument
    rrefAt (n - m) n a

/-- `generator_matrix` (BlockCode.py:136-151), a `@cached_property`. -/
def generatorMatrix : Prog k m n Addr := do
  let o ← self
  match o.generator with
  | some a => pure a
  | none =>
    let a ← computeGenerator o
    modify fun o => { o with generator := some a }
    pure a

/-- `generator_matrix_right_inverse` (BlockCode.py:153-155). -/
def generatorMatrixRightInverse : Prog k m n Addr := do
  let o ← self
  match o.rightInverse with
  | some a => pure a
  | none =>
    let g ← generatorMatrix
    let a ← pseudoInverseAt k n g
    modify fun o => { o with rightInverse := some a }
    pure a

/-- What `check_matrix` computes (BlockCode.py:170-172). -/
def computeCheck (o : Obj k m n) : Prog k m n Addr := do
  if o.fromGenerator then
    let g ← generatorMatrix
    nullMatrixAt k n g
  else pure o.argument

/-- `check_matrix` (BlockCode.py:157-172). -/
def checkMatrix : Prog k m n Addr := do
  let o ← self
  match o.check with
  | some a => pure a
  | none =>
    let a ← computeCheck o
    modify fun o => { o with check := some a }
    pure a

/-- `encode(input)` (base.py:79-84). -/
def encode (l : List (ZMod 2)) : Prog k m n (List (ZMod 2)) := do
  let g ← generatorMatrix
  let x ← read g
  ofOption (blockwise k (fun row => some (List.ofFn (vecMat (vecOfList k row) (toMat k n x.rows)))) l)

/-- `project_word(input)` (base.py:88-93). -/
def projectWord (l : List (ZMod 2)) : Prog k m n (List (ZMod 2)) := do
  let g ← generatorMatrixRightInverse
  let x ← read g
  ofOption (blockwise n (fun row => some (List.ofFn (vecMat (vecOfList n row) (toMat n k x.rows)))) l)

/-- `check(input)` (base.py:126-131). -/
def checkWord (l : List (ZMod 2)) : Prog k m n (List (ZMod 2)) := do
  let h ← checkMatrix
  let x ← read h
  ofOption (blockwise n (fun row => some (List.ofFn fun i : Fin m => ∑ j : Fin n, vecOfList n row j * toMat m n x.rows i j)) l)

/-- `inverse_encode(input)` (base.py:109-112). -/
def inverseEncode (l : List (ZMod 2)) : Prog k m n (List (ZMod 2)) := do
  let s ← checkWord l
  if ∃ b ∈ s, b ≠ 0 then raise else projectWord l

/-- `np.unpackbits(js.view(np.uint8), count=k, bitorder="little")` for one `uint64` (base.py:148-149, 173-174): the bits of its eight bytes, the least significant first, cut or filled with zeros
to `k` bits. -/
def unpackBits (k j : ℕ) : List (ZMod 2) :=
  ((((List.range 8).flatMap fun byte => (List.range 8).map fun bit => ((j / 256 ^ byte % 256 / 2 ^ bit % 2 : ℕ) : ZMod 2)) ++ List.replicate (k - 64) 0)).take k

/-- `range(0, total, 1024)` as the pairs `(i, batch_end)` (base.py:141-147, 166-172). -/
def batches (total : ℕ) : List (ℕ × ℕ) := (List.range ((total + 1023) / 1024)).map fun b => (b * 1024, min (b * 1024 + 1024) total)

/-- `self.encode(messages_batch)` (base.py:148-150): every row is one message. -/
def encodeRows (js : List ℕ) : Prog k m n (List (List (ZMod 2))) :=
  match js with
  | [] => pure []
  | j :: js => do
    let v ← encode (unpackBits k j)
    let vs ← encodeRows js
    pure (v :: vs)

/-- The loop of `codewords` over the batches (base.py:141-151). -/
def codewordBatches : List (ℕ × ℕ) → Prog k m n (List (List (ZMod 2)))
  | [] => pure []
  | (i, e) :: bs => do
    let vs ← encodeRows (List.range' i (e - i))
    let rest ← codewordBatches bs
    pure (vs ++ rest)

/-- `codewords()` (base.py:133-153, BlockCode.py:243-257). -/
def codewords : Prog k m n Addr := do
  let o ← self
  match o.codewords with
  | some a => pure a
  | none =>
    let vs ← codewordBatches (batches (2 ^ k))
    modify fun o => { o with flagCodewords := true }
    let a ← alloc ⟨true, vs.map fun v => v.map ZMod.val⟩
    modify fun o => { o with codewords := some a }
    pure a

/-- The loop of `codeword_weight_distribution` over the batches (base.py:166-177); `distribution` is the array so far. -/
def weightBatches : List (ℕ × ℕ) → List ℕ → Prog k m n (List ℕ)
  | [], distribution => pure distribution
  | (i, e) :: bs, distribution => do
    let vs ← encodeRows (List.range' i (e - i))
    let weights := vs.map fun v => (v.map ZMod.val).sum
    weightBatches bs (List.zipWith (· + ·) distribution (LinCode.bincount weights (n + 1)))

/-- What `codeword_weight_distribution` computes (base.py:161-178). -/
def computeWeights (o : Obj k m n) : Prog k m n (List ℕ) := do
  if o.flagCodewords then
    let a ← codewords
    let x ← read a
    pure (LinCode.bincount (x.rows.map List.sum) (n + 1))
  else weightBatches (batches (2 ^ k)) (List.replicate (n + 1) 0)

/-- `codeword_weight_distribution()` (base.py:155-178, BlockCode.py:259-270). -/
def codewordWeightDistribution : Prog k m n Addr := do
  let o ← self
  match o.weights with
  | some a => pure a
  | none =>
    let d ← computeWeights o
    let a ← alloc ⟨true, [d]⟩
    modify fun o => { o with weights := some a }
    pure a

/-- `minimum_distance()` (base.py:180-186). -/
def minimumDistance : Prog k m n ℕ := do
  let o ← self
  match o.minimumDistance with
  | some d => pure d
  | none =>
    let a ← codewordWeightDistribution
    let x ← read a
    let d ← ofOption (LinCode.flatnonzero x.rows.flatten)[1]?
    modify fun o => { o with minimumDistance := some d }
    pure d

/-- `packing_radius()` (base.py:267-273). -/
def packingRadius : Prog k m n ℕ := do
  let o ← self
  match o.packing with
  | some d => pure d
  | none =>
    let d ← minimumDistance
    modify fun o => { o with packing := some ((d - 1) / 2) }
    pure ((d - 1) / 2)

/-- The code with a given check matrix, for the loops over syndromes (base.py:194-224, 235-265), which use nothing else of the object. -/
def syndromeCode (H : BMat m n) : LinCode k m n := LinCode.ofMatrices (fun _ _ => 0) (fun _ _ => 0) H

/-- `coset_leaders()` (base.py:188-224, BlockCode.py:285-303); `fuel` bounds the rounds of the loop. -/
def cosetLeaders (fuel : ℕ) : Prog k m n Addr := do
  let o ← self
  match o.leaders with
  | some a => pure a
  | none =>
    let h ← checkMatrix
    let x ← read h
    let T ← ofOption ((syndromeCode (k := k) (toMat m n x.rows)).cosetLeaders fuel)
    modify fun o => { o with flagLeaders := true }
    let a ← alloc ⟨true, (List.range (2 ^ m)).map fun s => ofVec (T s)⟩
    modify fun o => { o with leaders := some a }
    pure a

/-- What `coset_leader_weight_distribution` computes (base.py:232-265). -/
def computeLeaderWeights (fuel : ℕ) (o : Obj k m n) : Prog k m n (List ℕ) := do
  if o.flagLeaders then
    let a ← cosetLeaders fuel
    let x ← read a
    pure (LinCode.bincount (x.rows.map List.sum) (n + 1))
  else
    let h ← checkMatrix
    let x ← read h
    ofOption ((syndromeCode (k := k) (toMat m n x.rows)).leaderWeightDistribution fuel)

/-- `coset_leader_weight_distribution()` (base.py:226-265, BlockCode.py:305-316). -/
def cosetLeaderWeightDistribution (fuel : ℕ) : Prog k m n Addr := do
  let o ← self
  match o.leaderWeights with
  | some a => pure a
  | none =>
    let d ← computeLeaderWeights fuel o
    let a ← alloc ⟨true, [d]⟩
    modify fun o => { o with leaderWeights := some a }
    pure a

/-- `covering_radius()` (base.py:275-281). -/
def coveringRadius (fuel : ℕ) : Prog k m n ℕ := do
  let o ← self
  match o.covering with
  | some d => pure d
  | none =>
    let a ← cosetLeaderWeightDistribution fuel
    let x ← read a
    let d ← ofOption (LinCode.flatnonzero x.rows.flatten).getLast?
    modify fun o => { o with covering := some d }
    pure d

/-- The methods and attributes a user can call. -/
inductive Op
  | generatorMatrix | generatorMatrixRightInverse | checkMatrix
  | encode (input : List (ZMod 2)) | projectWord (input : List (ZMod 2)) | inverseEncode (input : List (ZMod 2)) | check (input : List (ZMod 2))
  | codewords | codewordWeightDistribution | minimumDistance | packingRadius
  | cosetLeaders | cosetLeaderWeightDistribution | coveringRadius

/-- What a call returns: a reference to an array, a number, or a new array of bits that nobody else refers to. -/
inductive Response
  | array (a : Addr) | number (d : ℕ) | word (l : List (ZMod 2))
deriving DecidableEq, Repr

/-- One call. -/
def call (fuel : ℕ) : Op → Prog k m n Response
  | .generatorMatrix => do let a ← generatorMatrix; pure (.array a)
  | .generatorMatrixRightInverse => do let a ← generatorMatrixRightInverse; pure (.array a)
  | .checkMatrix => do let a ← checkMatrix; pure (.array a)
  | .encode l => do let w ← encode l; pure (.word w)
  | .projectWord l => do let w ← projectWord l; pure (.word w)
  | .inverseEncode l => do let w ← inverseEncode l; pure (.word w)
  | .check l => do let w ← checkWord l; pure (.word w)
  | .codewords => do let a ← codewords; pure (.array a)
  | .codewordWeightDistribution => do let a ← codewordWeightDistribution; pure (.array a)
  | .minimumDistance => do let d ← minimumDistance; pure (.number d)
  | .packingRadius => do let d ← packingRadius; pure (.number d)
  | .cosetLeaders => do let a ← cosetLeaders fuel; pure (.array a)
  | .cosetLeaderWeightDistribution => do let a ← cosetLeaderWeightDistribution fuel; pure (.array a)
  | .coveringRadius => do let d ← coveringRadius fuel; pure (.number d)

end

/-- The memory of a Python session: the heap, and the block-code objects created so far with their sizes. -/
structure World where
  heap : Heap
  objects : List (Σ k m n : ℕ, Obj k m n)

/-- A statement of a session: create an array, write into an array (`x[...] = rows`), create an object from an array (`BlockCode(generator_matrix=x)`, `BlockCode(check_matrix=x)`), call a
method of object `i`. -/
inductive Stmt
  | array (c : Cell)
  | write (a : Addr) (rows : List (List ℕ))
  | fromGenerator (k n : ℕ) (a : Addr)
  | fromCheck (m n : ℕ) (a : Addr)
  | call (i : ℕ) (op : Op)

/-- Execution of one statement; the second component is what a call returned (`none` for an exception). -/
def exec (fuel : ℕ) (w : World) : Stmt → World × Option Response
  | .array c => ({ w with heap := w.heap ++ [c] }, some (.array w.heap.length))
  | .write a rows => ({ w with heap := w.heap.modify a fun c => { c with rows := rows } }, none)
  | .fromGenerator k n a => ({ w with objects := w.objects ++ [⟨k, n - k, n, { fromGenerator := true, argument := a }⟩] }, none)
  | .fromCheck m n a => ({ w with objects := w.objects ++ [⟨n - m, m, n, { fromGenerator := false, argument := a }⟩] }, none)
  | .call i op =>
    match w.objects[i]? with
    | none => (w, none)
    | some ⟨_, _, _, o⟩ =>
      let r := call fuel op (w.heap, o)
      (⟨r.2.1, w.objects.set i ⟨_, _, _, r.2.2⟩⟩, r.1)

/-- Execution of a session: the final memory and all responses. -/
def run (fuel : ℕ) (w : World) : List Stmt → World × List (Option Response)
  | [] => (w, [])
  | s :: ss =>
    let r := exec fuel w s
    let t := run fuel r.1 ss
    (t.1, r.2 :: t.2)

end Komm.Objects
