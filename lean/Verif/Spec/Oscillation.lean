import Verif.Spec.Motion
import Verif.Spec.Averaging
import Mathlib.Analysis.SpecialFunctions.Trigonometric.Basic

/-
Harmonic motion along a direction.
-/
namespace Electrode.Spec

/-- the coordinate of a displacement along the direction `e` -/
def coordAlong (e y : Fin 3 → ℝ) : ℝ := ∑ a, e a * y a

/-- motion of a harmonic oscillator of the angular frequency `ω` that starts at `u0` with the velocity `w0` -/
noncomputable def swing (ω u0 w0 t : ℝ) : ℝ := u0 * Real.cos (ω * t) + w0 / ω * Real.sin (ω * t)

end Electrode.Spec
