import Verif.Model.CyclicCode
import Verif.Model.FiniteBifield
/-
Model of /repo/src/komm/_error_control_block/BCHCode.py and
/repo/src/komm/_error_control_decoders/BerlekampDecoder.py.  Field elements are natural numbers, as in
Model/FiniteBifield.lean; `none` is a raised exception.
-/
namespace Komm

/-- The set `{phi(i) for i in range(1, delta)}` (BCHCode.py:70-73), without repetitions; `alpha = field(0b10)`
(BCHCode.py:68).  Python's iteration order over the set is unspecified; only the product and membership are used. -/
def bchMinimalPolynomials (F : Bifield) (delta : Nat) : List Nat :=
  ((List.range (delta - 1)).map fun i => F.minimalPolynomial (F.npow 2 (i + 1))).dedup

/-- `BCHCode.__init__` (BCHCode.py:60-87): the field, the generator polynomial and the check polynomial. -/
def bchCreate (mu delta : Nat) : Option (Bifield × Nat × Nat) :=
  if ¬ 2 ≤ mu then none
  else if ¬ (2 ≤ delta ∧ delta ≤ 2 ^ mu - 1) then none
  else
    match Bifield.create mu none with
    | none => none
    | some F =>
      let lcmSet := bchMinimalPolynomials F delta
      if F.minimalPolynomial (F.npow 2 delta) ∈ lcmSet then none
      else
        match cyclicPolys (2 ^ mu - 1) (some (lcmSet.foldl BP.mul 1)) none with
        | none => none
        | some (g, h) => some (F, g, h)

/-- `BCHCode.bch_syndrome` (BCHCode.py:93-97). -/
def bchSyndrome (F : Bifield) (delta : Nat) (rPoly : Nat) : List Nat :=
  (List.range (delta - 1)).map fun i =>
    BP.binaryHorner 0 1 F.add F.mul (BP.coefficients rPoly) (F.npow 2 (i + 1))

/-- One key of the three dictionaries `sigma`, `discrepancy`, `degree` (BerlekampDecoder.py:65-67). -/
structure BMEntry where
  sigma : List Nat
  disc : Nat
  deg : Nat
deriving DecidableEq, Repr, Inhabited

/-- The search for `k` (BerlekampDecoder.py:75-78).  Dictionary key `i` is list position `i + 1`; the result is
(`k + 1`, `max_so_far`). -/
def bmChoose (hist : List BMEntry) (j : Nat) : Nat × Int :=
  (List.range (j + 1)).foldl (fun (acc : Nat × Int) (i : Nat) =>
    if (hist.getD i default).disc ≠ 0 ∧ ((i : Int) - 1) - ((hist.getD i default).deg : Int) > acc.2 then
      (i, ((i : Int) - 1) - ((hist.getD i default).deg : Int))
    else acc) (0, -1)

/-- Lines 71-88 of BerlekampDecoder.py: the pair `sigma[j+1]`, `degree[j+1]`.  The slice assignments are those of
Python lists. -/
def bmUpdate (F : Bifield) (hist : List BMEntry) (j : Nat) : Option (List Nat × Nat) :=
  let cur := hist.getD (j + 1) default
  if cur.disc = 0 then some (cur.sigma, cur.deg)
  else
    let k := (bmChoose hist j).1
    let ek := hist.getD k default
    let shift := j + 1 - k
    let D := max cur.deg (ek.deg + shift)
    let zeros := List.replicate (D + 1) 0
    let fst := cur.sigma ++ zeros.drop (cur.deg + 1)
    let snd := zeros.take shift ++ ek.sigma ++ zeros.drop (ek.deg + shift + 1)
    ((List.range (D + 1)).mapM fun i =>
      (F.truediv (F.mul (snd.getD i 0) cur.disc) ek.disc).map fun q => F.add (fst.getD i 0) q).map
      fun sigma => (sigma, D)

/-- One iteration of the loop (BerlekampDecoder.py:70-92).  In the last iteration `discrepancy[j+1]` is not computed; the
entry holds 0, which is never read.  `syndrome[j - i]` never has a negative index because `degree[j+1] ≤ j + 1`. -/
def bmStep (F : Bifield) (delta : Nat) (syndrome : List Nat) (hist : List BMEntry) (j : Nat) :
    Option (List BMEntry) :=
  (bmUpdate F hist j).map fun (sigma, D) =>
    let disc :=
      if j + 2 < delta then
        (List.range D).foldl (fun acc i =>
          F.add acc (F.mul (sigma.getD (i + 1) 0) (syndrome.getD (j - i) 0))) (syndrome.getD (j + 1) 0)
      else 0
    hist ++ [⟨sigma, disc, D⟩]

/-- `berlekamp_algorithm` (BerlekampDecoder.py:58-94). -/
def berlekampAlgorithm (F : Bifield) (delta : Nat) (syndrome : List Nat) : Option (List Nat) :=
  ((List.range (delta - 1)).foldlM (bmStep F delta syndrome)
    [⟨[1], 1, 0⟩, ⟨[1], syndrome.getD 0 0, 0⟩]).map fun hist => (hist.getD delta default).sigma

/-- `BerlekampDecoder.decode` on one block (BerlekampDecoder.py:42-53).  `bincount` is longer than the word when some
location is `≥ n`, and the addition then raises. -/
def berlekampDecode (F : Bifield) (delta : Nat) {k m n : Nat} (c : LinCode k m n) (r : BVec n) : Option (BVec k) :=
  let syndrome := bchSyndrome F delta (vecPoly r)
  if syndrome.all (· == 0) then some (c.project r)
  else
    (berlekampAlgorithm F delta syndrome).bind fun sigma =>
    ((F.findRoots sigma).mapM fun e => (F.inverse e).bind fun i => F.logarithm i 2).bind fun eLoc =>
    if eLoc.any (n ≤ ·) then none
    else some (c.project fun i => r i + ((eLoc.count (i : Nat) : Nat) : ZMod 2))

end Komm
