import Verif.Lemmas.TrellisDecoders
import Verif.Props.C65_ForwardBackward
import Mathlib.Data.EReal.Basic
import Mathlib.Algebra.BigOperators.Ring.Finset
namespace Komm
open StateSpace
open scoped BigOperators

theorem naturalMatrix_code {m : Nat} (v : BVec m) (i : Fin m) :
    naturalMatrix m (code v) i = (v i.rev).val := by
  have h := i.is_lt
  rw [naturalMatrix, intToBits, List.getD_eq_getElem?_getD, List.getElem?_eq_getElem (by simp)]
  simp only [List.getElem_map, List.getElem_range, Option.getD_some]
  have ht := vecToNat_testBit v (m - 1 - i)
  rw [vget, dif_pos (by omega), Nat.testBit, Nat.and_comm, Nat.and_one_is_mod] at ht
  have hr : (⟨m - 1 - i, by omega⟩ : Fin m) = i.rev := by apply Fin.ext; simp [Fin.rev]; omega
  rw [hr] at ht
  show (vecToNat v >>> (m - 1 - i)) % 2 = _
  rcases zmod2_cases (v i.rev) with e | e
  · rw [e] at ht ⊢
    simp at ht
    simpa using ht
  · rw [e] at ht ⊢
    simp at ht
    rw [ht]; rfl

theorem bcjrMetric_bitwise (n : Nat) :
    Bitwise n (bcjrMetric n) (fun (b : ZMod 2) (z : ℝ) => 0.5 * ((-1) ^ b.val * z)) := by
  intro v z hz
  rw [bcjrMetric, symbolBits_vecToNat]
  clear hz
  generalize List.ofFn v = a
  induction a generalizing z with
  | nil => simp
  | cons x a ih =>
    cases z with
    | nil => simp
    | cons y z =>
      rw [List.zipWith_cons_cons, List.sum_cons, List.zipWith_cons_cons, List.sum_cons, mul_add, ih z]

theorem logRatio_scale (a b Z : ℝ) (ha : 0 < a) (hb : 0 < b) (hZ : 0 < Z) :
    logRatio (a / Z) (b / Z) = some ((Real.log (a / b) : ℝ) : EReal) := by
  rw [logRatio, if_neg (div_pos ha hZ).ne', if_neg (div_pos hb hZ).ne', Real.log_div ha.ne' hZ.ne', Real.log_div hb.ne' hZ.ne',
    Real.log_div ha.ne' hb.ne']
  congr 2
  ring

namespace StateSpace
variable {k n σ : Nat} (c : StateSpace k n σ)

/-- Paths as functions of time, and the symbols that code them. -/
noncomputable def pathEquiv (T k : Nat) : (Fin T → BVec k) ≃ (Fin T → Fin (2 ^ k)) :=
  Equiv.arrowCongr (Equiv.refl _) (Equiv.ofBijective (fun v : BVec k => code v) ⟨fun _ _ h => code_inj h, code_surj⟩)

theorem pathEquiv_apply (T : Nat) (ws : Fin T → BVec k) (t : Fin T) : pathEquiv T k ws t = code (ws t) := rfl

theorem ofFn_pathEquiv (T : Nat) (ws : Fin T → BVec k) :
    List.ofFn (pathEquiv T k ws) = (List.ofFn ws).map fun u : BVec k => code u := by
  rw [List.map_ofFn]; rfl

/-- The weight of a path. -/
noncomputable def pathWeight (l : List ℝ) (final : Fin (2 ^ σ) → ℝ) {T : Nat} (ws : Fin T → BVec k) : ℝ :=
  Real.exp (List.zipWith (fun (b : ZMod 2) (z : ℝ) => 0.5 * ((-1) ^ b.val * z)) (flat (c.outs 0 (List.ofFn ws))) l).sum *
    final (code (c.run 0 (List.ofFn ws)))

/-- Row `t` of the posteriors, marginalised to bits. -/
theorem row_bits (hk : 0 < k) (hn : 0 < n) (hp : c.finiteStateMachine.NoParallel) (final : Fin (2 ^ σ) → ℝ) (hf : ∀ s, 0 ≤ final s)
    (T : Nat) (l : List ℝ) (hl : l.length = T * n) (t : Fin T)
    (hpos : ∀ (i : Fin k) (b : ZMod 2), ∃ ws : Fin T → BVec k, ws t i = b ∧ 0 < c.pathWeight l final ws) :
    ∃ p, (c.finiteStateMachine.forwardBackward (bcjrMetric n) (chunks n l) none
        (some fun s => if (s : Nat) = 0 then 1 else 0) (some final))[(t : Nat)]? = some (some p) ∧
      marginalizeRow (naturalMatrix k) p = List.ofFn fun i : Fin k =>
        some ((Real.log ((∑ ws with ws t i.rev = 0, c.pathWeight l final ws) /
          (∑ ws with ws t i.rev = 1, c.pathWeight l final ws)) : ℝ) : EReal) := by
  have hm : l.length % n = 0 := by rw [hl]; simp
  have hz := chunks_row_length n hn l hm
  have hT := chunks_length' n hn T l hl
  have hfl := flatten_chunks n hn l hm
  generalize hzs : chunks n l = zs at *
  subst hT
  set init : Fin (2 ^ σ) → ℝ := fun s => if (s : Nat) = 0 then 1 else 0 with hinit
  set w := c.finiteStateMachine.jointWeight (bcjrMetric n) zs (fun _ _ => 1 / ((2 ^ k : Nat) : ℝ)) init final with hw
  have hX : (0 : ℝ) < 1 / ((2 ^ k : Nat) : ℝ) := by positivity
  set κ : ℝ := ∏ _t : Fin zs.length, 1 / ((2 ^ k : Nat) : ℝ) with hκ
  have hκ0 : 0 < κ := Finset.prod_pos fun _ _ => hX
  have hw0 : ∀ ws : Fin zs.length → BVec k, w (code 0) (pathEquiv _ k ws) = κ * c.pathWeight l final ws := by
    intro ws
    rw [hw, Mealy.jointWeight, ofFn_pathEquiv, cost_eq c _ _ (bcjrMetric_bitwise n) _ _ zs hz (by simp), fsm_run, hinit]
    simp only
    rw [if_pos (by rw [code_zero]), one_mul, hfl, pathWeight, mul_assoc]
  have hws : ∀ s : Fin (2 ^ σ), s ≠ code 0 → ∀ xs, w s xs = 0 := by
    intro s hs xs
    have : (s : Nat) ≠ 0 := fun h0 => hs (by rw [code_zero]; exact Fin.ext h0)
    rw [hw, Mealy.jointWeight, hinit]
    simp only
    rw [if_neg this, zero_mul, zero_mul, zero_mul]
  have hpw : ∀ ws : Fin zs.length → BVec k, 0 ≤ c.pathWeight l final ws := by
    intro ws
    exact mul_nonneg (Real.exp_pos _).le (hf _)
  have hsum : ∀ g : (Fin zs.length → Fin (2 ^ k)) → Prop, ∀ _ : DecidablePred g,
      ∑ s, ∑ xs, (if g xs then w s xs else 0) = κ * ∑ ws with g (pathEquiv _ k ws), c.pathWeight l final ws := by
    intro g _
    rw [Finset.sum_eq_single (code (0 : BVec σ))]
    · rw [← Equiv.sum_comp (pathEquiv zs.length k), Finset.sum_filter, Finset.mul_sum]
      apply Finset.sum_congr rfl
      intro ws _
      split
      · exact hw0 ws
      · rw [mul_zero]
    · intro s _ hs
      apply Finset.sum_eq_zero
      intro xs _
      rw [hws s hs xs, ite_self]
    · simp
  have hZ : ∑ s, ∑ xs, w s xs = κ * ∑ ws : Fin zs.length → BVec k, c.pathWeight l final ws := by
    have := hsum (fun _ => True) (fun _ => instDecidableTrue)
    simpa using this
  have hZ0 : 0 < ∑ ws : Fin zs.length → BVec k, c.pathWeight l final ws := by
    obtain ⟨ws, _, hp⟩ := hpos ⟨0, hk⟩ 0
    exact Finset.sum_pos' (fun ws _ => hpw ws) ⟨ws, Finset.mem_univ _, hp⟩
  have hbit0 : ∀ (i : Fin k) (b : ZMod 2), 0 < ∑ ws with ws t i = b, c.pathWeight l final ws := by
    intro i b
    obtain ⟨ws, h1, h2⟩ := hpos i b
    exact Finset.sum_pos' (fun ws _ => hpw ws) ⟨ws, Finset.mem_filter.mpr ⟨Finset.mem_univ _, h1⟩, h2⟩
  obtain ⟨_, h2⟩ := C65_posterior c.finiteStateMachine hp (bcjrMetric n) zs none (some init) (some final) (by simp)
    (by
      intro p hp s
      rw [Option.some.injEq] at hp
      rw [← hp, hinit]
      simp only
      split <;> norm_num)
    (by
      intro p hp s
      rw [Option.some.injEq] at hp
      rw [← hp]; exact hf s) w (by rw [hw]; rfl) (by rw [hZ]; exact (mul_pos hκ0 hZ0).ne')
  refine ⟨_, h2 t, ?_⟩
  rw [marginalizeRow]
  congr 1
  funext i
  have hmass : ∀ b : ZMod 2, ∑ x : Fin (2 ^ k), (∑ s, ∑ xs : Fin zs.length → Fin (2 ^ k), if xs t = x then w s xs else 0) /
      (∑ s, ∑ xs, w s xs) * (if naturalMatrix k x i = b.val then 1 else 0) =
      (∑ ws with ws t i.rev = b, c.pathWeight l final ws) / ∑ ws : Fin zs.length → BVec k, c.pathWeight l final ws := by
    intro b
    rw [hZ]
    have e1 : ∀ x : Fin (2 ^ k), (∑ s, ∑ xs : Fin zs.length → Fin (2 ^ k), if xs t = x then w s xs else 0) =
        κ * ∑ ws with pathEquiv _ k ws t = x, c.pathWeight l final ws := fun x => hsum (fun xs => xs t = x) (fun _ => inferInstance)
    have e2 : ∀ x : Fin (2 ^ k), κ * (∑ ws with pathEquiv _ k ws t = x, c.pathWeight l final ws) /
        (κ * ∑ ws : Fin zs.length → BVec k, c.pathWeight l final ws) * (if naturalMatrix k x i = b.val then 1 else 0) =
        (∑ ws : Fin zs.length → BVec k, if pathEquiv _ k ws t = x then
          (if naturalMatrix k x i = b.val then c.pathWeight l final ws else 0) else 0) /
          ∑ ws : Fin zs.length → BVec k, c.pathWeight l final ws := by
      intro x
      rw [mul_div_mul_left _ _ hκ0.ne', Finset.sum_filter]
      split
      · rw [mul_one]
      · rw [mul_zero]; simp
    rw [Finset.sum_congr rfl fun x _ => by rw [e1 x, e2 x], ← Finset.sum_div, Finset.sum_comm]
    congr 1
    rw [Finset.sum_filter]
    apply Finset.sum_congr rfl
    intro ws _
    rw [Finset.sum_eq_single (pathEquiv _ k ws t) (fun x _ hx => if_neg (Ne.symm hx)) (by simp), if_pos rfl, pathEquiv_apply,
      naturalMatrix_code]
    by_cases hb : ws t i.rev = b
    · rw [if_pos hb, if_pos (by rw [hb])]
    · rw [if_neg hb, if_neg (fun h => hb (ZMod.val_injective 2 h))]
  have m0 := hmass 0
  have m1 := hmass 1
  rw [show (0 : ZMod 2).val = 0 from rfl] at m0
  rw [show (1 : ZMod 2).val = 1 from rfl] at m1
  rw [m0, m1]
  exact logRatio_scale _ _ _ (hbit0 _ _) (hbit0 _ _) hZ0

end StateSpace
end Komm
