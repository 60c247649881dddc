import Mathlib.Analysis.Complex.Basic
import Mathlib.Algebra.BigOperators.Fin

/-
Terms of C141.
-/
namespace Electrode
namespace Spec

/-- the length of a complex vector -/
noncomputable def clen (y : Fin 3 → ℂ) : ℝ := √(∑ i, ‖y i‖ ^ 2)

/-- A bound for the dimensionless strength of the field of curvature `B` at the drive frequency `o`, for an ion with the charge to mass ratio `κ`:
the parameters `a` and `q` of Mathieu's equation are of this size. -/
noncomputable def driveSize (κ o B : ℝ) : ℝ := 3 * κ * B / o ^ 2

end Spec
end Electrode
