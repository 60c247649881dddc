import Mathlib.Analysis.SpecialFunctions.Complex.Circle

/-
Motion of an ion in a mode of the driven trap.
-/
namespace Electrode.Spec
open Complex

/-- displacement of an ion that moves with the complex exponent `nu` and the amplitudes `c` of the multiples of the angular frequency `o`, times the
complex factor `A` -/
noncomputable def modeMotion (r : Nat) (o : ℝ) (nu : ℂ) (c : ℤ → Fin 3 → ℂ) (A : ℂ) (t : ℝ) (k : Fin 3) : ℝ :=
  (A * ∑ h ∈ Finset.Icc (-(r : ℤ)) r, c h k * exp ((nu + I * h) * (o * t))).re

/-- size of the highest harmonics of this motion at the time `t` -/
noncomputable def cutoffSize (r : Nat) (o : ℝ) (nu : ℂ) (c : ℤ → Fin 3 → ℂ) (A : ℂ) (t : ℝ) : ℝ :=
  ‖A‖ * Real.exp (nu.re * (o * t)) * ∑ j, (‖c r j‖ + ‖c (-r) j‖)

end Electrode.Spec
