import Verif.Spec.Robust
import Mathlib.Analysis.Calculus.Deriv.Basic

/-
Motion of an ion in the combined potential (pseudopotential approximation).
-/
namespace Electrode.Spec
open Set

/-- Position `x` and velocity `v` of an ion during the time from 0 to `T`. The coordinates are in units of `l`, so that
`m l x'' = - (q / l) grad V`, that is `x'' = - κ grad V` with `κ = q / (m l^2)`. -/
structure IonPath (s : Sys) (κ T : ℝ) (x v : ℝ → Fin 3 → ℝ) : Prop where
  velocity : ∀ t ∈ Icc 0 T, HasDerivWithinAt x (v t) (Icc 0 T) t
  force : ∀ t ∈ Icc 0 T, HasDerivWithinAt v (fun a => -κ * slopeAt s (x t) a) (Icc 0 T) t

/-- energy of the ion divided by its mass and by `l^2` -/
noncomputable def energyAt (s : Sys) (κ : ℝ) (x v : Fin 3 → ℝ) : ℝ := vlen v ^ 2 / 2 + κ * valueAt s x

end Electrode.Spec
