import Verif.Spec.Drive
import Verif.Spec.Motion

/-
Motion of an ion in the oscillating field of the rf electrodes.
-/
namespace Electrode.Spec
open Set

/-- Position `x` and velocity `v` of an ion in the field that `time_potential` returns for the phase `Ω t` of the rf drive. The coordinates are
in units of `l`, and `κ = q / (m l^2)`. -/
structure DrivenPath (els : List Elec) (κ Ω T : ℝ) (x v : ℝ → Fin 3 → ℝ) : Prop where
  velocity : ∀ t ∈ Icc 0 T, HasDerivWithinAt x (v t) (Icc 0 T) t
  force : ∀ t ∈ Icc 0 T, HasDerivWithinAt v (fun a => -κ * timeAt els (Ω * t) [a] (toV3 (x t))) (Icc 0 T) t

/-- the trap with its rf voltages multiplied by `k` -/
def withRf (k : ℝ) (els : List Elec) : List Elec := els.map fun e => { e with rf := k * e.rf }

end Electrode.Spec
