import Verif.Model.DoubleBcjr
import Verif.Model.DoubleDecisions
/-
`Constellation.posteriors` (/repo/src/komm/_constellations/base.py:161-192; the subclasses only forward to it) and its composition with `Labeling.marginalize`
(/repo/src/komm/_labelings/base.py:104-116), the soft demapper, in double precision, for one block of `N` received values.  Points and received values are pairs (real part, imaginary part).
The checks of `_validate_priors` and `_validate_received` are those of the model in exact arithmetic and are not repeated.
-/
namespace Komm

/-- `priors` (base.py:38-48, 183): `np.ones(M) / M` if not given. -/
noncomputable def demapPriorsD (M : Nat) (priors : Option (Fin M → Double)) : Fin M → Double := priors.getD fun _ => ⟨rnd (1 / (M : ℝ)), rnd_isDouble _⟩

/-- `variance` (base.py:187). -/
noncomputable def demapVarianceD (complex : Bool) (noise : Double) : Double := if complex then noise else ⟨rnd (2 * noise.val), rnd_isDouble _⟩

/-- `-distances / variance + np.log(priors)` (base.py:188), one entry. -/
noncomputable def logpD (F : Libm) (d V prior : Double) : WithBot ℝ := addD ((rnd (-d.val / V.val) : ℝ) : WithBot ℝ) (npLogD F prior)

/-- `Constellation.posteriors` (base.py:182-192); lines 189-191 are those of `forward_backward`.  `none` is a row of `nan`s. -/
noncomputable def posteriorsD (F : Libm) (sum : List Double → Double) (h : ℝ → ℝ → ℝ) {M N : Nat} (complex : Bool) (m : Fin M → Fin N → ℝ × ℝ) (r : Fin N → ℝ × ℝ) (noise : Double)
    (priors : Option (Fin M → Double)) : Option (Fin M → Double) :=
  Mealy.normalizeRowD F sum fun i => logpD F (sqDistD sum h r (m i)) (demapVarianceD complex noise) (demapPriorsD M priors i)

/-- `labeling.marginalize(constellation.posteriors(received, noise_power, priors))`; `label i j` is bit `j` of the label of point `i`. -/
noncomputable def softDemapD (F : Libm) (sum : List Double → Double) (h : ℝ → ℝ → ℝ) {M N B : Nat} (complex : Bool) (m : Fin M → Fin N → ℝ × ℝ) (label : Fin M → Fin B → Nat) (r : Fin N → ℝ × ℝ)
    (noise : Double) (priors : Option (Fin M → Double)) : Option (List (Option EReal)) :=
  (posteriorsD F sum h complex m r noise priors).map (marginalizeRowD F sum label)

end Komm
