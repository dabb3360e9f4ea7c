import Verif.Props.C120_ChannelCoding
import Verif.Props.C103_GaussianChannel
import Verif.Props.C123_UnionBound
import Verif.Props.C90_BCJR
import Verif.Props.C56_Wagner
import Mathlib.MeasureTheory.Measure.Lebesgue.EqHaar
/-! C127: the soft-input decoders are optimal: with equally likely messages, no decision rule that looks at the output of the channel recovers
the message (Viterbi, exhaustive search, Wagner) or a bit of it (BCJR) more often. -/
namespace Komm
open MeasureTheory StateSpace GaussianChannel ProbabilityTheory

variable {k m n σ K N q : Nat}

/-! ### the quantities compared (specification) -/

/-- The log-likelihood ratio of the channel output `y`: what a user feeds to a soft decoder. -/
noncomputable def channelLlr (W : Fin 2 → Fin q → ℝ) (y : Nat) : ℝ := if h : y < q then Real.log (W 0 ⟨y, h⟩ / W 1 ⟨y, h⟩) else 0

/-- The word sent, with the generator values used by `transmit`. -/
def channelInput (v : BVec N) (ω : Fin N → ℝ) : List (Nat × ℝ) := List.ofFn fun j : Fin N => ((v j).val, ω j)

/-- The probability that a decoder recovers the message: the message is uniform, encoded by `v` and sent through `transmit`. -/
noncomputable def messageSuccess (T : List (Nat × ℝ) → Option (List Nat)) (v : BVec K → BVec N) (g : List Nat → Option (List (ZMod 2))) : ℝ :=
  ∑ u, 1 / 2 ^ K * (uniformDraws N).real {ω | (T (channelInput (v u) ω)).bind g = some (List.ofFn u)}

/-- The probability that a rule recovers bit `x` of the message. -/
noncomputable def bitSuccess (T : List (Nat × ℝ) → Option (List Nat)) (v : BVec K → BVec N) (x : Fin K) (g : List Nat → Option (ZMod 2)) : ℝ :=
  ∑ u, 1 / 2 ^ K * (uniformDraws N).real {ω | (T (channelInput (v u) ω)).bind g = some (u x)}

/-- The same two probabilities for the Gaussian channel, bit `b` being sent as `A (-1)^b`. -/
noncomputable def awgnMessageSuccess (A : ℝ) (P : ℝ) (v : BVec K → BVec N) (g : (Fin N → ℝ) → Option (List (ZMod 2))) : ℝ :=
  ∑ u, 1 / 2 ^ K * (stdNormals (Fin N)).real {z | g (transmitReal P (bipolar A (v u)) z) = some (List.ofFn u)}

noncomputable def awgnBitSuccess (A : ℝ) (P : ℝ) (v : BVec K → BVec N) (x : Fin K) (g : (Fin N → ℝ) → Option (ZMod 2)) : ℝ :=
  ∑ u, 1 / 2 ^ K * (stdNormals (Fin N)).real {z | g (transmitReal P (bipolar A (v u)) z) = some (u x)}

/-- A decoder that finds a message whose (bipolar) codeword has the greatest correlation with the input. -/
def MaxCorrelation (v : BVec K → BVec N) (dec : (Fin N → ℝ) → BVec K) : Prop :=
  ∀ r u', ∑ j, r j * (-1) ^ (v u' j).val ≤ ∑ j, r j * (-1) ^ (v (dec r) j).val

/-- No rule recovers the message more often than `D`: over every binary-input memoryless channel whose transition probabilities are positive, `D` being
given the log-likelihood ratios of the outputs; and over the Gaussian channel, `D` being given the received values (in any unit), if different
messages have different codewords. -/
def OptimalForMessages (v : BVec K → BVec N) (D : List ℝ → Option (List (ZMod 2))) : Prop :=
  (∀ (q : Nat) (W : Fin 2 → Fin q → ℝ), validChannelMatrix W = true → (∀ i j, 0 < W i j) → ∀ T, Realises W T → ∀ g,
    messageSuccess T v g ≤ messageSuccess T v fun ys => D (ys.map (channelLlr W))) ∧
  (Function.Injective v → ∀ A : ℝ, 0 < A → ∀ P : NNReal, P ≠ 0 → ∀ g, (∀ l, MeasurableSet {r | g r = some l}) → ∀ scale : ℝ, 0 < scale →
    awgnMessageSuccess A P v g ≤ awgnMessageSuccess A P v fun r => D (List.ofFn fun j => scale * r j))

/-- No rule recovers any bit of the message more often than `D`, given the log-likelihood ratios of the outputs (`2 A r / P` for the Gaussian channel). -/
def OptimalForBits (v : BVec K → BVec N) (D : List ℝ → Option (List (ZMod 2))) : Prop :=
  (∀ (q : Nat) (W : Fin 2 → Fin q → ℝ), validChannelMatrix W = true → (∀ i j, 0 < W i j) → ∀ T, Realises W T → ∀ x g,
    bitSuccess T v x g ≤ bitSuccess T v x fun ys => (D (ys.map (channelLlr W))).bind fun l => l[x.val]?) ∧
  (∀ (A : ℝ) (P : NNReal), P ≠ 0 → ∀ x g, (∀ c, MeasurableSet {r | g r = some c}) →
    awgnBitSuccess A P v x g ≤ awgnBitSuccess A P v x fun r => (D (List.ofFn fun j => 2 * A * r j / P)).bind fun l => l[x.val]?)

/-! ### discrete memoryless channels -/

theorem realised_event {a b : Nat} (P : Fin a → Fin b → ℝ) (hP : ∀ i, Info.Pmf (P i)) (T : List (Nat × ℝ) → Option (List Nat)) (hT : Realises P T)
    {γ : Type} [DecidableEq γ] (x : Fin N → Fin a) (g : List Nat → Option γ) (w : γ) :
    (uniformDraws N).real {u | (T (List.ofFn fun k : Fin N => ((x k).val, u k))).bind g = some w} =
      ∑ y : Fin N → Fin b with g (List.ofFn fun k : Fin N => (y k).val) = some w, Info.blockLaw P x y := by
  let E : (Fin N → Fin b) → Set (Fin N → ℝ) := fun y =>
    {u | T (List.ofFn fun k : Fin N => ((x k).val, u k)) = some (List.ofFn fun k : Fin N => (y k).val)}
  have hE : ∀ y, MeasurableSet (E y) ∧ (uniformDraws N).real (E y) = Info.blockLaw P x y := fun y => hT N x y
  have hdisj : ∀ y y', y ≠ y' → Disjoint (E y) (E y') := by
    intro y y' h
    rw [Set.disjoint_left]
    intro u hu hu'
    simp only [E, Set.mem_setOf_eq] at hu hu'
    rw [hu, Option.some.injEq, List.ofFn_inj] at hu'
    exact h (funext fun k => Fin.ext (congrFun hu' k))
  have hU : ∀ B : Finset (Fin N → Fin b), (uniformDraws N).real (⋃ y ∈ B, E y) = ∑ y ∈ B, Info.blockLaw P x y := by
    intro B
    rw [measureReal_biUnion_finset (fun y _ y' _ h => hdisj y y' h) fun y _ => (hE y).1]
    exact Finset.sum_congr rfl fun y _ => (hE y).2
  have hmU : MeasurableSet (⋃ y ∈ (Finset.univ : Finset (Fin N → Fin b)), E y) := Finset.measurableSet_biUnion _ fun y _ => (hE y).1
  have hfull := hU Finset.univ
  rw [Info.blockLaw_sum hP] at hfull
  have hnull : (uniformDraws N).real (⋃ y ∈ (Finset.univ : Finset (Fin N → Fin b)), E y)ᶜ = 0 := by
    rw [probReal_compl_eq_one_sub hmU, hfull, sub_self]
  obtain ⟨S, hS⟩ : ∃ S, S = {u : Fin N → ℝ | (T (List.ofFn fun k : Fin N => ((x k).val, u k))).bind g = some w} := ⟨_, rfl⟩
  rw [← hS, ← measureReal_inter_add_diff (s := S) hmU (measure_ne_top _ _)]
  have h1 : (uniformDraws N).real (S \ ⋃ y ∈ (Finset.univ : Finset (Fin N → Fin b)), E y) = 0 := by
    refine le_antisymm ?_ measureReal_nonneg
    rw [← hnull]
    exact measureReal_mono (fun u hu => hu.2) (measure_ne_top _ _)
  have h2 : S ∩ (⋃ y ∈ (Finset.univ : Finset (Fin N → Fin b)), E y) =
      ⋃ y ∈ (Finset.univ.filter fun y : Fin N → Fin b => g (List.ofFn fun k : Fin N => (y k).val) = some w), E y := by
    ext u
    simp only [Set.mem_inter_iff, Set.mem_iUnion, Finset.mem_univ, exists_prop, true_and, Finset.mem_filter]
    constructor
    · rintro ⟨h3, y, hy⟩
      refine ⟨y, ?_, hy⟩
      rw [hS] at h3
      simp only [E, Set.mem_setOf_eq] at h3 hy
      rw [hy] at h3
      exact h3
    · rintro ⟨y, h3, hy⟩
      refine ⟨?_, y, hy⟩
      rw [hS]
      simp only [E, Set.mem_setOf_eq] at hy ⊢
      rw [hy]
      exact h3
  rw [h1, h2, hU, add_zero]

theorem success_eq (W : Fin 2 → Fin q → ℝ) (hW : ∀ i, Info.Pmf (W i)) (T : List (Nat × ℝ) → Option (List Nat)) (hT : Realises W T)
    {γ : Type} [DecidableEq γ] (w : BVec N) (g : List Nat → Option γ) (c : γ) :
    (uniformDraws N).real {ω | (T (channelInput w ω)).bind g = some c} =
      ∑ y : Fin N → Fin q with g (List.ofFn fun j : Fin N => (y j).val) = some c, ∏ j, W (w j) (y j) :=
  realised_event W hW T hT (fun j => (w j : Fin 2)) g c

/-- A rule that always finds a most likely message is the best. -/
theorem sum_ml {U Y : Type} [Fintype U] [Fintype Y] (L : U → Y → ℝ) (h0 : ∀ u y, 0 ≤ L u y) {γ : Type} [DecidableEq γ]
    (e : U → γ) (he : Function.Injective e) (g d : Y → Option γ) (dec : Y → U) (hd : ∀ y, d y = some (e (dec y))) (hdec : ∀ y u, L u y ≤ L (dec y) y) :
    ∑ u, ∑ y with g y = some (e u), L u y ≤ ∑ u, ∑ y with d y = some (e u), L u y := by
  classical
  simp only [Finset.sum_filter]
  rw [Finset.sum_comm, Finset.sum_comm (s := Finset.univ) (t := Finset.univ) (f := fun u y => if d y = some (e u) then L u y else 0)]
  refine Finset.sum_le_sum fun y _ => ?_
  have h1 : ∑ u, (if d y = some (e u) then L u y else 0) = L (dec y) y := by
    rw [Finset.sum_eq_single (dec y)]
    · rw [if_pos (hd y)]
    · intro u _ hu
      rw [if_neg]
      rw [hd y, Option.some_inj]
      exact fun h => hu (he h).symm
    · simp
  rw [h1]
  by_cases hg : ∃ u, g y = some (e u)
  · obtain ⟨u, hu⟩ := hg
    rw [Finset.sum_eq_single u]
    · rw [if_pos hu]; exact hdec y u
    · intro u' _ hne
      rw [if_neg]
      rw [hu, Option.some_inj]
      exact fun h => hne (he h).symm
    · simp
  · push Not at hg
    rw [Finset.sum_eq_zero fun u _ => if_neg (hg u)]
    exact h0 _ _

/-- A rule that always finds a most likely value of the bit is the best. -/
theorem sum_bit {U Y : Type} [Fintype U] [Fintype Y] (L : U → Y → ℝ) (h0 : ∀ u y, 0 ≤ L u y) (x : U → ZMod 2)
    (g d : Y → Option (ZMod 2)) (b : Y → ZMod 2) (hd : ∀ y, d y = some (b y)) (hb : ∀ y, ∑ u with x u ≠ b y, L u y ≤ ∑ u with x u = b y, L u y) :
    ∑ u, ∑ y with g y = some (x u), L u y ≤ ∑ u, ∑ y with d y = some (x u), L u y := by
  classical
  simp only [Finset.sum_filter]
  rw [Finset.sum_comm, Finset.sum_comm (s := Finset.univ) (t := Finset.univ) (f := fun u y => if d y = some (x u) then L u y else 0)]
  refine Finset.sum_le_sum fun y _ => ?_
  have hb' := hb y
  simp only [Finset.sum_filter] at hb'
  have h1 : ∑ u, (if d y = some (x u) then L u y else 0) = ∑ u, if x u = b y then L u y else 0 := by
    refine Finset.sum_congr rfl fun u _ => if_congr ?_ rfl rfl
    rw [hd y, Option.some_inj, eq_comm]
  rw [h1]
  rcases hg : g y with _ | c
  · simp only [reduceCtorEq, if_false, Finset.sum_const_zero]
    exact Finset.sum_nonneg fun u _ => by split <;> simp [h0]
  · simp only [Option.some_inj]
    by_cases hc : c = b y
    · rw [hc]
      exact (Finset.sum_congr rfl fun u _ => if_congr eq_comm rfl rfl).le
    · refine le_trans (le_of_eq ?_) hb'
      refine Finset.sum_congr rfl fun u _ => if_congr ?_ rfl rfl
      have key : ∀ a b c : ZMod 2, c ≠ b → (c = a ↔ a ≠ b) := by decide
      exact key _ _ _ hc

/-- Maximal correlation with the log-likelihood ratios is maximum likelihood. -/
theorem MaxCorrelation.likelihood {v : BVec K → BVec N} {dec : (Fin N → ℝ) → BVec K} (h : MaxCorrelation v dec) (p : Fin N → ZMod 2 → ℝ)
    (hpos : ∀ i b, 0 < p i b) (u : BVec K) :
    ∏ i, p i (v u i) ≤ ∏ i, p i (v (dec fun i => Real.log (p i 0 / p i 1)) i) := by
  refine soft_likelihood p hpos _ _ ?_
  have key : ∀ (r : Fin N → ℝ) (w : BVec N), ∑ j, r j * (-1) ^ (w j).val = ∑ j, r j - 2 * ∑ j, ((w j).val : ℝ) * r j := by
    intro r w
    rw [Finset.mul_sum, ← Finset.sum_sub_distrib]
    refine Finset.sum_congr rfl fun j _ => ?_
    rcases zmod2_cases (w j) with e | e
    · rw [e, ZMod.val_zero]; simp
    · rw [e, show (1 : ZMod 2).val = 1 from rfl]; push_cast; ring
  have := h (fun i => Real.log (p i 0 / p i 1)) u
  rw [key, key] at this
  linarith

theorem channelLlr_ofFn (W : Fin 2 → Fin q → ℝ) (y : Fin N → Fin q) :
    (List.ofFn fun j : Fin N => (y j).val).map (channelLlr W) = List.ofFn fun j => Real.log (W 0 (y j) / W 1 (y j)) := by
  rw [List.map_ofFn]
  congr 1
  funext j
  simp only [Function.comp, channelLlr, (y j).isLt, dif_pos]

/-- Message decisions over a discrete memoryless channel: any decoder `D` (given as a function of the list of log-likelihood ratios) that maximises the
correlation beats every rule that sees the received word. -/
theorem message_optimal (W : Fin 2 → Fin q → ℝ) (hW : ∀ i, Info.Pmf (W i)) (hpos : ∀ i j, 0 < W i j) (T : List (Nat × ℝ) → Option (List Nat)) (hT : Realises W T)
    (v : BVec K → BVec N) (dec : (Fin N → ℝ) → BVec K) (hdec : MaxCorrelation v dec) (D : List ℝ → Option (List (ZMod 2)))
    (hD : ∀ r, D (List.ofFn r) = some (List.ofFn (dec r))) (g : List Nat → Option (List (ZMod 2))) :
    messageSuccess T v g ≤ messageSuccess T v fun ys => D (ys.map (channelLlr W)) := by
  simp only [messageSuccess, ← Finset.mul_sum]
  refine mul_le_mul_of_nonneg_left ?_ (by positivity)
  simp only [success_eq W hW T hT]
  refine sum_ml (fun (u : BVec K) (y : Fin N → Fin q) => ∏ j, W (v u j) (y j)) (fun u y => Finset.prod_nonneg fun j _ => (hpos _ _).le) (fun u : BVec K => List.ofFn u)
    List.ofFn_injective (fun y => g (List.ofFn fun j : Fin N => (y j).val)) _ (fun y => dec fun j => Real.log (W 0 (y j) / W 1 (y j))) ?_ ?_
  · intro y
    rw [channelLlr_ofFn, hD]
  · intro y u
    exact hdec.likelihood (fun j b => W b (y j)) (fun j b => hpos b (y j)) u

/-- Bit decisions. -/
theorem bit_optimal (W : Fin 2 → Fin q → ℝ) (hW : ∀ i, Info.Pmf (W i)) (hpos : ∀ i j, 0 < W i j) (T : List (Nat × ℝ) → Option (List Nat)) (hT : Realises W T)
    (v : BVec K → BVec N) (D : List ℝ → Option (List (ZMod 2)))
    (hD : ∀ p : Fin N → ZMod 2 → ℝ, (∀ j b, 0 < p j b) → ∃ b : BVec K, D (List.ofFn fun j => Real.log (p j 0 / p j 1)) = some (List.ofFn b) ∧
      ∀ x, ∑ u with u x ≠ b x, ∏ j, p j (v u j) ≤ ∑ u with u x = b x, ∏ j, p j (v u j)) (x : Fin K) (g : List Nat → Option (ZMod 2)) :
    bitSuccess T v x g ≤ bitSuccess T v x fun ys => (D (ys.map (channelLlr W))).bind fun l => l[x.val]? := by
  simp only [bitSuccess, ← Finset.mul_sum]
  refine mul_le_mul_of_nonneg_left ?_ (by positivity)
  simp only [success_eq W hW T hT]
  choose b hb1 hb2 using fun y : Fin N → Fin q => hD (fun j c => W c (y j)) fun j c => hpos c (y j)
  refine sum_bit (fun (u : BVec K) (y : Fin N → Fin q) => ∏ j, W (v u j) (y j)) (fun u y => Finset.prod_nonneg fun j _ => (hpos _ _).le) (fun u : BVec K => u x)
    (fun y => g (List.ofFn fun j : Fin N => (y j).val)) _ (fun y => b y x) ?_ ?_
  · intro y
    rw [channelLlr_ofFn]
    exact (congrArg (fun o : Option (List (ZMod 2)) => o.bind fun l => l[x.val]?) (hb1 y)).trans (by simp)
  · intro y
    exact hb2 y x

/-! ### the Gaussian channel -/

theorem likelihood_eq (A : ℝ) (P : NNReal) (v : BVec N) (r : Fin N → ℝ) :
    realLikelihood P (bipolar A v) r = (√(2 * Real.pi * P))⁻¹ ^ N * Real.exp (-(∑ j, (r j ^ 2 + A ^ 2)) / (2 * P)) *
      Real.exp (A * (∑ j, r j * (-1) ^ (v j).val) / P) := by
  simp only [realLikelihood, gaussianPDFReal, Finset.prod_mul_distrib, Finset.prod_const, Finset.card_univ, Fintype.card_fin, ← Real.exp_sum]
  rw [mul_assoc (_ ^ N), ← Real.exp_add]
  congr 2
  rw [Finset.mul_sum, Finset.sum_div, ← Finset.sum_neg_distrib, Finset.sum_div, ← Finset.sum_add_distrib]
  refine Finset.sum_congr rfl fun j _ => ?_
  have : (((-1 : ℝ) ^ (v j).val)) ^ 2 = 1 := by rw [← pow_mul, mul_comm, pow_mul]; simp
  have e : (r j - bipolar A v j) ^ 2 = r j ^ 2 + A ^ 2 - 2 * (A * (r j * (-1) ^ (v j).val)) := by
    rw [bipolar, sub_sq, mul_pow, this]; ring
  rw [e]
  by_cases hP : (P : ℝ) = 0
  · simp [hP]
  · field_simp
    ring

theorem likelihood_lt (A : ℝ) (hA : 0 < A) (P : NNReal) (hP : P ≠ 0) (v w : BVec N) (r : Fin N → ℝ) :
    realLikelihood P (bipolar A v) r < realLikelihood P (bipolar A w) r ↔ ∑ j, r j * (-1) ^ (v j).val < ∑ j, r j * (-1) ^ (w j).val := by
  have hP' : 0 < (P : ℝ) := by positivity
  rw [likelihood_eq, likelihood_eq, mul_lt_mul_iff_right₀ (by positivity), Real.exp_lt_exp, div_lt_div_iff_of_pos_right hP', mul_lt_mul_iff_right₀ hA]

theorem measurable_corr (v : BVec N) : Measurable fun r : Fin N → ℝ => ∑ j, r j * (-1) ^ (v j).val := by fun_prop

/-- Different codewords are equally correlated only on a null set. -/
theorem ties_null (v w : BVec N) (h : v ≠ w) : (volume : Measure (Fin N → ℝ)) {r | ∑ j, r j * (-1) ^ (v j).val = ∑ j, r j * (-1) ^ (w j).val} = 0 := by
  obtain ⟨f, hf⟩ : ∃ f : (Fin N → ℝ) →ₗ[ℝ] ℝ, ∀ r, f r = ∑ j, r j * (-1) ^ (v j).val - ∑ j, r j * (-1) ^ (w j).val :=
    ⟨∑ j, ((-1 : ℝ) ^ (v j).val - (-1) ^ (w j).val) • LinearMap.proj j, fun r => by
      rw [LinearMap.sum_apply, ← Finset.sum_sub_distrib]
      exact Finset.sum_congr rfl fun j _ => by simp; ring⟩
  have e : {r : Fin N → ℝ | ∑ j, r j * (-1) ^ (v j).val = ∑ j, r j * (-1) ^ (w j).val} = (LinearMap.ker f : Set (Fin N → ℝ)) := by
    ext r
    simp only [Set.mem_setOf_eq, SetLike.mem_coe, LinearMap.mem_ker, hf, sub_eq_zero]
  rw [e]
  refine Measure.addHaar_submodule _ _ fun htop => ?_
  obtain ⟨j, hj⟩ := Function.ne_iff.mp h
  have h1 : f (Pi.single j 1) = 0 := by
    rw [← LinearMap.mem_ker, htop]; trivial
  rw [hf] at h1
  simp only [Pi.single_apply, ite_mul, one_mul, zero_mul, Finset.sum_ite_eq', Finset.mem_univ, if_true] at h1
  have key : ∀ a b : ZMod 2, a ≠ b → (a = 0 ∧ b = 1) ∨ (a = 1 ∧ b = 0) := by decide
  rcases key _ _ hj with ⟨ha, hb⟩ | ⟨ha, hb⟩
  · rw [ha, hb, ZMod.val_zero, show (1 : ZMod 2).val = 1 from rfl] at h1; norm_num at h1
  · rw [ha, hb, ZMod.val_zero, show (1 : ZMod 2).val = 1 from rfl] at h1; norm_num at h1

theorem likelihood_measurable (P : NNReal) (s : Fin N → ℝ) : Measurable (realLikelihood P s) := by
  unfold realLikelihood
  exact Finset.measurable_prod _ fun j _ => (measurable_gaussianPDFReal _ _).comp (measurable_pi_apply j)

theorem likelihood_nonneg (P : NNReal) (s r : Fin N → ℝ) : 0 ≤ realLikelihood P s r := Finset.prod_nonneg fun j _ => gaussianPDFReal_nonneg _ _ _

theorem likelihood_pos (P : NNReal) (hP : P ≠ 0) (s r : Fin N → ℝ) : 0 < realLikelihood P s r := Finset.prod_pos fun j _ => gaussianPDFReal_pos _ _ _ hP

theorem likelihood_integrable (P : NNReal) (hP : P ≠ 0) (s : Fin N → ℝ) : Integrable (realLikelihood P s) volume := by
  have h := C103_real_density P hP s
  haveI : IsProbabilityMeasure ((stdNormals (Fin N)).map (transmitReal P s)) := Measure.isProbabilityMeasure_map (measurable_transmitReal _ _).aemeasurable
  exact density_integrable volume (M := 1) (fun _ => (stdNormals (Fin N)).map (transmitReal P s)) (fun _ => realLikelihood P s) 0
    (likelihood_measurable P s) (likelihood_nonneg P s) h

theorem awgn_event (P : NNReal) (hP : P ≠ 0) (s : Fin N → ℝ) (B : Set (Fin N → ℝ)) (hB : MeasurableSet B) :
    (stdNormals (Fin N)).real {z | transmitReal P s z ∈ B} = ∫ r, B.indicator (realLikelihood P s) r := by
  have h := C103_real_density P hP s
  haveI : IsProbabilityMeasure ((stdNormals (Fin N)).map (transmitReal P s)) := Measure.isProbabilityMeasure_map (measurable_transmitReal _ _).aemeasurable
  have h1 := density_real volume (M := 1) (fun _ => (stdNormals (Fin N)).map (transmitReal P s)) (fun _ => realLikelihood P s) 0
    (likelihood_measurable P s) (likelihood_nonneg P s) h B hB
  rw [map_measureReal_apply (measurable_transmitReal _ _) hB] at h1
  rw [integral_indicator hB, ← h1]
  rfl

/-- Message decisions over the Gaussian channel. -/
theorem awgn_message_optimal (A : ℝ) (hA : 0 < A) (P : NNReal) (hP : P ≠ 0) (v : BVec K → BVec N) (hv : Function.Injective v)
    (dec : (Fin N → ℝ) → BVec K) (hdec : MaxCorrelation v dec) (D : (Fin N → ℝ) → Option (List (ZMod 2))) (hD : ∀ r, D r = some (List.ofFn (dec r)))
    (g : (Fin N → ℝ) → Option (List (ZMod 2))) (hg : ∀ l, MeasurableSet {r | g r = some l}) :
    awgnMessageSuccess A P v g ≤ awgnMessageSuccess A P v D := by
  classical
  simp only [awgnMessageSuccess, ← Finset.mul_sum]
  refine mul_le_mul_of_nonneg_left ?_ (by positivity)
  obtain ⟨S, hS⟩ : ∃ S : BVec K → Set (Fin N → ℝ), S = fun u => {r | ∀ u', u' ≠ u → ∑ j, r j * (-1) ^ (v u' j).val < ∑ j, r j * (-1) ^ (v u j).val} := ⟨_, rfl⟩
  have hSm : ∀ u, MeasurableSet (S u) := by
    intro u
    have : S u = ⋂ u', ⋂ (_ : u' ≠ u), {r : Fin N → ℝ | ∑ j, r j * (-1) ^ (v u' j).val < ∑ j, r j * (-1) ^ (v u j).val} := by
      rw [hS]; ext r; simp
    rw [this]
    exact MeasurableSet.iInter fun u' => MeasurableSet.iInter fun _ => measurableSet_lt (measurable_corr _) (measurable_corr _)
  have hlow : ∀ u, (stdNormals (Fin N)).real {z | transmitReal P (bipolar A (v u)) z ∈ S u} ≤
      (stdNormals (Fin N)).real {z | D (transmitReal P (bipolar A (v u)) z) = some (List.ofFn u)} := by
    intro u
    refine measureReal_mono ?_ (measure_ne_top _ _)
    intro z hz
    rw [hS] at hz
    simp only [Set.mem_setOf_eq] at hz ⊢
    rw [hD, Option.some_inj, List.ofFn_inj]
    by_contra hne
    exact absurd (hdec _ u) (not_le.mpr (hz _ hne))
  refine le_trans ?_ (Finset.sum_le_sum fun u _ => hlow u)
  have hG : ∀ u : BVec K, (stdNormals (Fin N)).real {z | g (transmitReal P (bipolar A (v u)) z) = some (List.ofFn u)} =
      ∫ r, Set.indicator {r | g r = some (List.ofFn u)} (realLikelihood P (bipolar A (v u))) r := fun u =>
    awgn_event P hP _ _ (hg _)
  simp only [hG, awgn_event P hP _ _ (hSm _)]
  have hi1 : ∀ u : BVec K, Integrable (Set.indicator {r | g r = some (List.ofFn u)} (realLikelihood P (bipolar A (v u)))) volume := fun u =>
    (likelihood_integrable P hP _).indicator (hg _)
  have hi2 : ∀ u : BVec K, Integrable (Set.indicator (S u) (realLikelihood P (bipolar A (v u)))) volume := fun u =>
    (likelihood_integrable P hP _).indicator (hSm _)
  rw [← integral_finset_sum _ fun u _ => hi1 u, ← integral_finset_sum _ fun u _ => hi2 u]
  refine integral_mono_ae (integrable_finset_sum _ fun u _ => hi1 u) (integrable_finset_sum _ fun u _ => hi2 u) ?_
  have hties : ∀ᵐ r : Fin N → ℝ, ∀ u u' : BVec K, u ≠ u' → ∑ j, r j * (-1) ^ (v u j).val ≠ ∑ j, r j * (-1) ^ (v u' j).val := by
    rw [ae_all_iff]; intro u
    rw [ae_all_iff]; intro u'
    by_cases huu : u = u'
    · exact Filter.Eventually.of_forall fun r h => absurd huu h
    · have := ties_null (v u) (v u') (hv.ne huu)
      rw [ae_iff]
      refine measure_mono_null ?_ this
      intro r hr
      simp only [Set.mem_setOf_eq, not_forall, not_not] at hr
      exact hr.2
  filter_upwards [hties] with r hr
  have hmem : r ∈ S (dec r) := by
    rw [hS]
    intro u' hne
    exact lt_of_le_of_ne (hdec r u') (hr _ _ hne)
  have hle : ∀ u, realLikelihood P (bipolar A (v u)) r ≤ realLikelihood P (bipolar A (v (dec r))) r := by
    intro u
    rw [← not_lt, likelihood_lt A hA P hP, not_lt]
    exact hdec r u
  have h2 : realLikelihood P (bipolar A (v (dec r))) r ≤ ∑ u, Set.indicator (S u) (realLikelihood P (bipolar A (v u))) r := by
    refine le_trans (le_of_eq ?_) (Finset.single_le_sum (f := fun u => Set.indicator (S u) (realLikelihood P (bipolar A (v u))) r)
      (fun u _ => Set.indicator_nonneg (fun r _ => likelihood_nonneg _ _ r) r) (Finset.mem_univ (dec r)))
    rw [Set.indicator_of_mem hmem]
  refine le_trans ?_ h2
  by_cases hex : ∃ u : BVec K, g r = some (List.ofFn u)
  · obtain ⟨u, hu⟩ := hex
    rw [Finset.sum_eq_single u]
    · rw [Set.indicator_of_mem (show r ∈ {r | g r = some (List.ofFn u)} from hu)]; exact hle u
    · intro u' _ hne
      refine Set.indicator_of_notMem ?_ _
      intro hu'
      have : some (List.ofFn u) = some (List.ofFn u') := hu.symm.trans hu'
      rw [Option.some_inj, List.ofFn_inj] at this
      exact hne this.symm
    · simp
  · push Not at hex
    rw [Finset.sum_eq_zero fun u _ => Set.indicator_of_notMem (show r ∉ {r | g r = some (List.ofFn u)} from hex u) _]
    exact likelihood_nonneg _ _ _

/-- The log-likelihood ratio of a received value. -/
theorem awgn_llr (A : ℝ) (P : NNReal) (hP : P ≠ 0) (r : ℝ) : Real.log (gaussianPDFReal A P r / gaussianPDFReal (-A) P r) = 2 * A * r / P := by
  have hP' : 0 < (P : ℝ) := by positivity
  rw [gaussianPDFReal, gaussianPDFReal, mul_div_mul_left _ _ (by positivity), ← Real.exp_sub, Real.log_exp]
  field_simp
  ring

/-- Bit decisions over the Gaussian channel. -/
theorem awgn_bit_optimal (A : ℝ) (P : NNReal) (hP : P ≠ 0) (v : BVec K → BVec N) (D : List ℝ → Option (List (ZMod 2)))
    (hD : ∀ p : Fin N → ZMod 2 → ℝ, (∀ j b, 0 < p j b) → ∃ b : BVec K, D (List.ofFn fun j => Real.log (p j 0 / p j 1)) = some (List.ofFn b) ∧
      ∀ x, (b x = 1 ↔ ∑ u with u x = 0, ∏ j, p j (v u j) < ∑ u with u x = 1, ∏ j, p j (v u j)) ∧
        ∑ u with u x ≠ b x, ∏ j, p j (v u j) ≤ ∑ u with u x = b x, ∏ j, p j (v u j)) (x : Fin K)
    (g : (Fin N → ℝ) → Option (ZMod 2)) (hg : ∀ c, MeasurableSet {r | g r = some c}) :
    awgnBitSuccess A P v x g ≤ awgnBitSuccess A P v x fun r => (D (List.ofFn fun j => 2 * A * r j / P)).bind fun l => l[x.val]? := by
  classical
  simp only [awgnBitSuccess, ← Finset.mul_sum]
  refine mul_le_mul_of_nonneg_left ?_ (by positivity)
  have hlik : ∀ (r : Fin N → ℝ) (w : BVec N), ∏ j, gaussianPDFReal (A * (-1) ^ (w j).val) P (r j) = realLikelihood P (bipolar A w) r := fun r w => rfl
  have hin : ∀ r : Fin N → ℝ, (fun j => Real.log (gaussianPDFReal (A * (-1) ^ (0 : ZMod 2).val) P (r j) / gaussianPDFReal (A * (-1) ^ (1 : ZMod 2).val) P (r j))) =
      fun j => 2 * A * r j / P := by
    intro r
    funext j
    rw [ZMod.val_zero, show (1 : ZMod 2).val = 1 from rfl, pow_zero, pow_one, mul_one, mul_neg_one, awgn_llr A P hP]
  choose b hb1 hb2 using fun r : Fin N → ℝ => hD (fun j c => gaussianPDFReal (A * (-1) ^ c.val) P (r j)) fun j c => gaussianPDFReal_pos _ _ _ hP
  simp only [hin, hlik] at hb1 hb2
  have hb0 : ∀ r, (fun r : Fin N → ℝ => (D (List.ofFn fun j => 2 * A * r j / P)).bind fun l => l[x.val]?) r = some (b r x) := by
    intro r
    dsimp only
    rw [hb1]; simp
  have hm1 : MeasurableSet {r : Fin N → ℝ | b r x = 1} := by
    have : {r : Fin N → ℝ | b r x = 1} = {r | ∑ u : BVec K with u x = 0, realLikelihood P (bipolar A (v u)) r < ∑ u : BVec K with u x = 1, realLikelihood P (bipolar A (v u)) r} :=
      Set.ext fun r => (hb2 r x).1
    rw [this]
    exact measurableSet_lt (Finset.measurable_sum _ fun u _ => likelihood_measurable _ _) (Finset.measurable_sum _ fun u _ => likelihood_measurable _ _)
  have hm : ∀ c, MeasurableSet {r : Fin N → ℝ | b r x = c} := by
    intro c
    rcases zmod2_cases c with h | h
    · rw [h]
      have : {r : Fin N → ℝ | b r x = 0} = {r : Fin N → ℝ | b r x = 1}ᶜ := by
        ext r
        simp only [Set.mem_setOf_eq, Set.mem_compl_iff]
        exact (by decide : ∀ a : ZMod 2, a = 0 ↔ ¬ a = 1) _
      rw [this]; exact hm1.compl
    · rw [h]; exact hm1
  have hG : ∀ u : BVec K, (stdNormals (Fin N)).real {z | g (transmitReal P (bipolar A (v u)) z) = some (u x)} =
      ∫ r, Set.indicator {r | g r = some (u x)} (realLikelihood P (bipolar A (v u))) r := fun u => awgn_event P hP _ _ (hg _)
  have hB : ∀ u : BVec K, (stdNormals (Fin N)).real {z | ((D (List.ofFn fun j => 2 * A * transmitReal P (bipolar A (v u)) z j / P)).bind fun l => l[x.val]?) = some (u x)} =
      ∫ r, Set.indicator {r | b r x = u x} (realLikelihood P (bipolar A (v u))) r := by
    intro u
    rw [← awgn_event P hP _ _ (hm _)]
    congr 1
    ext z
    simp only [Set.mem_setOf_eq]
    rw [show ((D (List.ofFn fun j => 2 * A * transmitReal P (bipolar A (v u)) z j / P)).bind fun l => l[x.val]?) = some (b (transmitReal P (bipolar A (v u)) z) x) from hb0 _,
      Option.some_inj]
  simp only [hG, hB]
  have hi1 : ∀ u : BVec K, Integrable (Set.indicator {r | g r = some (u x)} (realLikelihood P (bipolar A (v u)))) volume := fun u =>
    (likelihood_integrable P hP _).indicator (hg _)
  have hi2 : ∀ u : BVec K, Integrable (Set.indicator {r | b r x = u x} (realLikelihood P (bipolar A (v u)))) volume := fun u =>
    (likelihood_integrable P hP _).indicator (hm _)
  rw [← integral_finset_sum _ fun u _ => hi1 u, ← integral_finset_sum _ fun u _ => hi2 u]
  refine integral_mono (integrable_finset_sum _ fun u _ => hi1 u) (integrable_finset_sum _ fun u _ => hi2 u) fun r => ?_
  dsimp only
  have e1 : ∀ u : BVec K, Set.indicator {r | g r = some (u x)} (realLikelihood P (bipolar A (v u))) r =
      ∑ y : Unit with (fun _ : Unit => g r) y = some (u x), (fun (u : BVec K) (_ : Unit) => realLikelihood P (bipolar A (v u)) r) u y := by
    intro u
    rw [Set.indicator_apply, Finset.sum_filter, Fintype.sum_unique]
    rfl
  have e2 : ∀ u : BVec K, Set.indicator {r | b r x = u x} (realLikelihood P (bipolar A (v u))) r =
      ∑ y : Unit with (fun _ : Unit => some (b r x)) y = some (u x), (fun (u : BVec K) (_ : Unit) => realLikelihood P (bipolar A (v u)) r) u y := by
    intro u
    rw [Set.indicator_apply, Finset.sum_filter, Fintype.sum_unique]
    simp only [Set.mem_setOf_eq, Option.some_inj]
  simp only [e1, e2]
  exact sum_bit (fun (u : BVec K) (_ : Unit) => realLikelihood P (bipolar A (v u)) r) (fun u _ => likelihood_nonneg _ _ _) (fun u : BVec K => u x) _ _
    (fun _ => b r x) (fun _ => rfl) fun _ => (hb2 r x).2

/-! ### the decoders -/

theorem optimal_messages {v : BVec K → BVec N} {D : List ℝ → Option (List (ZMod 2))} {dec : (Fin N → ℝ) → BVec K} (hdec : MaxCorrelation v dec)
    (hD : ∀ r, D (List.ofFn r) = some (List.ofFn (dec r))) : OptimalForMessages v D := by
  constructor
  · intro q W hW hpos T hT g
    exact message_optimal W ((Info.channel_iff W).mp hW) hpos T hT v dec hdec D hD g
  · intro hv A hA P hP g hg scale hs
    refine awgn_message_optimal A hA P hP v hv (fun r => dec fun j => scale * r j) (fun r u' => ?_) _ (fun r => hD _) g hg
    have := hdec (fun j => scale * r j) u'
    simp only [mul_assoc, ← Finset.mul_sum] at this
    exact le_of_mul_le_mul_left this hs

theorem optimal_bits {v : BVec K → BVec N} {D : List ℝ → Option (List (ZMod 2))}
    (hD : ∀ p : Fin N → ZMod 2 → ℝ, (∀ j b, 0 < p j b) → ∃ b : BVec K, D (List.ofFn fun j => Real.log (p j 0 / p j 1)) = some (List.ofFn b) ∧
      ∀ x, (b x = 1 ↔ ∑ u with u x = 0, ∏ j, p j (v u j) < ∑ u with u x = 1, ∏ j, p j (v u j)) ∧
        ∑ u with u x ≠ b x, ∏ j, p j (v u j) ≤ ∑ u with u x = b x, ∏ j, p j (v u j)) : OptimalForBits v D := by
  constructor
  · intro q W hW hpos T hT x g
    refine bit_optimal W ((Info.channel_iff W).mp hW) hpos T hT v D (fun p hp => ?_) x g
    obtain ⟨b, h1, h2⟩ := hD p hp
    exact ⟨b, h1, fun x => (h2 x).2⟩
  · intro A P hP x g hg
    exact awgn_bit_optimal A P hP v D hD x g hg

theorem getD_ofFn (r : Fin n → ℝ) : (fun j : Fin n => (List.ofFn r).getD j 0) = r := by
  funext j; rw [List.getD_eq_getElem _ _ (by simp)]; simp

/-- `ExhaustiveSearchDecoder(code, input_type="soft")`, every block code. -/
theorem C127_exhaustive (c : LinCode k m n) (h : c.Lawful) :
    OptimalForMessages c.encode fun l => (exhaustiveSoft c fun j : Fin n => l.getD j 0).map fun u => List.ofFn u := by
  choose dec h1 h2 using fun r : Fin n → ℝ => C47_soft c h r
  refine optimal_messages (dec := dec) (fun r u' => (h2 r u').1) fun r => ?_
  rw [getD_ofFn, h1]; rfl

/-- `WagnerDecoder`, every single parity-check code. -/
theorem C127_wagner : ∃ c, singleParityCheckCode (n + 1) = some c ∧
    OptimalForMessages c.encode fun l => some (List.ofFn (wagnerDecode c fun j : Fin (n + 1) => l.getD j 0)) := by
  obtain ⟨c, h1, h2⟩ := C56_wagner (K := ℝ) (n := n)
  refine ⟨c, h1, optimal_messages (dec := fun r => wagnerDecode c r) (fun r u' => h2 r u') fun r => ?_⟩
  rw [getD_ofFn]

theorem viterbi_optimal (t : Terminated k n σ) (v : BVec t.dimension → BVec t.length) (hv : ∀ u, t.encode u = some (List.ofFn (v u)))
    (hsoft : ∀ r : Fin t.length → ℝ, ∃ (u' : BVec t.dimension) (v' : BVec t.length),
      t.viterbiSoft (List.ofFn r) = some (List.ofFn u') ∧ t.encode u' = some (List.ofFn v') ∧
      ∀ (u : BVec t.dimension) (v : BVec t.length), t.encode u = some (List.ofFn v) → ∑ i, ((v' i).val : ℝ) * r i ≤ ∑ i, ((v i).val : ℝ) * r i) :
    OptimalForMessages v t.viterbiSoft := by
  choose dec v' h1 h2 h3 using hsoft
  refine optimal_messages (dec := dec) (fun r u' => ?_) h1
  have e : v' r = v (dec r) := List.ofFn_injective (Option.some_inj.mp ((h2 r).symm.trans (hv (dec r))))
  rw [← e]
  have key : ∀ w : BVec t.length, ∑ j, r j * (-1) ^ (w j).val = ∑ j, r j - 2 * ∑ j, ((w j).val : ℝ) * r j := by
    intro w
    rw [Finset.mul_sum, ← Finset.sum_sub_distrib]
    refine Finset.sum_congr rfl fun j _ => ?_
    rcases zmod2_cases (w j) with e | e
    · rw [e, ZMod.val_zero]; simp
    · rw [e, show (1 : ZMod 2).val = 1 from rfl]; push_cast; ring
  rw [key, key]
  have := h3 r u' _ (hv u')
  linarith

/-- `ViterbiDecoder(code, input_type="soft")`, direct truncation. -/
theorem C127_viterbi_direct (t : Terminated k n σ) (hmode : t.mode = .directTruncation) (hk : 0 < k) (hn : 0 < n)
    (hh : 0 < t.numBlocks) (hp : t.code.finiteStateMachine.NoParallel) (v : BVec t.dimension → BVec t.length)
    (hv : ∀ u, t.encode u = some (List.ofFn (v u))) : OptimalForMessages v t.viterbiSoft :=
  viterbi_optimal t v hv (C89_direct_soft t hmode hk hn hh hp)

/-- Zero termination of a `ConvolutionalCode` whose constraint lengths are all equal. -/
theorem C127_viterbi_zero (c : ConvCode k n) (hk : 0 < k) (hn : 0 < n) (hν : ∀ i, c.constraintLength i = c.memoryOrder)
    (hμ : 1 ≤ c.memoryOrder) (h : Nat) (hh : 1 ≤ h) (t : Terminated k n c.degree)
    (ht : t = ⟨c.stateSpace, c.memoryOrder, h, .zeroTermination⟩) (v : BVec t.dimension → BVec t.length)
    (hv : ∀ u, t.encode u = some (List.ofFn (v u))) : OptimalForMessages v t.viterbiSoft := by
  refine viterbi_optimal t v hv ?_
  subst ht
  exact zero_codeword_generic ⟨c.stateSpace, c.memoryOrder, h, .zeroTermination⟩ rfl hk hn hh hμ
    (c.fullTail hν) ((C89_no_parallel c).mpr fun i => by rw [hν i]; exact hμ) _ _ (softMetric_bitwise n)

/-- Zero termination of a `LowRateConvolutionalCode` with memory. -/
theorem C127_viterbi_zero_low_rate (c : LowRate n) (hn : 0 < n) (hμ : 1 ≤ c.degree) (h : Nat) (hh : 1 ≤ h)
    (t : Terminated 1 n c.degree) (ht : t = ⟨c.stateSpace, c.degree, h, .zeroTermination⟩) (v : BVec t.dimension → BVec t.length)
    (hv : ∀ u, t.encode u = some (List.ofFn (v u))) : OptimalForMessages v t.viterbiSoft := by
  refine viterbi_optimal t v hv ?_
  subst ht
  exact zero_codeword_generic ⟨c.stateSpace, c.degree, h, .zeroTermination⟩ rfl (by norm_num) hn hh hμ
    c.fullTail (C89_no_parallel_low_rate c hμ) _ _ (softMetric_bitwise n)

/-- `BCJRDecoder(code, output_type="hard")`, direct truncation, one input bit per block. -/
theorem C127_bcjr_direct (t : Terminated 1 n σ) (hmode : t.mode = .directTruncation) (hn : 0 < n)
    (hh : 0 < t.numBlocks) (hp : t.code.finiteStateMachine.NoParallel) (v : BVec t.dimension → BVec t.length)
    (hv : ∀ u, t.encode u = some (List.ofFn (v u))) : OptimalForBits v t.bcjrHard :=
  optimal_bits fun p hpos => C90_hard t v p hpos _ (C90_direct_rate_one t hmode hn hh hp v hv p hpos)

/-- Zero termination of a `ConvolutionalCode` with one input bit per block. -/
theorem C127_bcjr_zero (c : ConvCode 1 n) (hn : 0 < n) (hμ : 1 ≤ c.memoryOrder) (h : Nat) (hh : 1 ≤ h)
    (t : Terminated 1 n c.degree) (ht : t = ⟨c.stateSpace, c.memoryOrder, h, .zeroTermination⟩) (v : BVec t.dimension → BVec t.length)
    (hv : ∀ u, t.encode u = some (List.ofFn (v u))) : OptimalForBits v t.bcjrHard :=
  optimal_bits fun p hpos => C90_hard t v p hpos _ (C90_zero_rate_one c hn hμ h hh t ht v hv p hpos)

/-- Zero termination of a `LowRateConvolutionalCode` with memory. -/
theorem C127_bcjr_zero_low_rate (c : LowRate n) (hn : 0 < n) (hμ : 1 ≤ c.degree) (h : Nat) (hh : 1 ≤ h)
    (t : Terminated 1 n c.degree) (ht : t = ⟨c.stateSpace, c.degree, h, .zeroTermination⟩) (v : BVec t.dimension → BVec t.length)
    (hv : ∀ u, t.encode u = some (List.ofFn (v u))) : OptimalForBits v t.bcjrHard :=
  optimal_bits fun p hpos => C90_hard t v p hpos _ (C90_zero_low_rate c hn hμ h hh t ht v hv p hpos)

/-- Non-vacuity: `TerminatedConvolutionalCode(ConvolutionalCode([[0o7, 0o5]]), 3)` with both decoders, different messages having different codewords;
and the binary symmetric channel with crossover probability 1/10. -/
example : (∃ v : BVec 3 → BVec 10, (∀ u, exampleTerm75.encode u = some (List.ofFn (v u))) ∧ Function.Injective v ∧
      OptimalForMessages v exampleTerm75.viterbiSoft ∧ OptimalForBits v exampleTerm75.bcjrHard) ∧
    validChannelMatrix (bscMatrix (1 / 10 : ℝ)) = true ∧ (∀ i j, 0 < bscMatrix (1 / 10 : ℝ) i j) ∧
    Realises (bscMatrix (1 / 10)) (fun l => some (bscTransmit (1 / 10) l)) := by
  have hp : validProbability (1 / 10 : ℝ) = true := by rw [validProbability]; norm_num
  refine ⟨?_, (C77_row_stochastic (1 / 10 : ℝ) hp).1, ?_, bsc_realises _ hp⟩
  · have hlen : ∀ u : BVec 3, (exampleTerm75.encode u).map List.length = some 10 := by decide +kernel
    have hinj : ∀ u u' : BVec 3, exampleTerm75.encode u = exampleTerm75.encode u' → u = u' := by
      have : ∀ u : BVec 3, ∀ u' : BVec 3, (exampleTerm75.encode u).map (List.map ZMod.val) = (exampleTerm75.encode u').map (List.map ZMod.val) →
          u 0 = u' 0 ∧ u 1 = u' 1 ∧ u 2 = u' 2 := by decide +kernel
      intro u u' h
      obtain ⟨h0, h1, h2⟩ := this u u' (by rw [h])
      funext i
      fin_cases i
      exacts [h0, h1, h2]
    have hex : ∀ u : BVec 3, ∃ v : BVec 10, exampleTerm75.encode u = some (List.ofFn v) := by
      intro u
      have h := hlen u
      cases he : exampleTerm75.encode u with
      | none => rw [he] at h; cases h
      | some l =>
        rw [he, Option.map_some, Option.some.injEq] at h
        exact ⟨fun i => l[i], by
          congr 1
          apply List.ext_getElem
          · simp [h]
          · intro i h1 h2; rw [List.getElem_ofFn]; rfl⟩
    choose v hv using hex
    refine ⟨v, hv, fun a b hab => hinj a b (by rw [hv, hv, hab]), ?_, ?_⟩
    · exact C127_viterbi_zero exampleConv75 one_pos two_pos (by decide +kernel) (by decide +kernel) 3 (by norm_num) exampleTerm75 rfl v hv
    · exact C127_bcjr_zero exampleConv75 two_pos (by decide +kernel) 3 (by norm_num) exampleTerm75 rfl v hv
  · intro i j
    fin_cases i <;> fin_cases j <;> simp [bscMatrix] <;> norm_num

end Komm
