import Verif.Props.Harmonics
import Verif.Spec.Calculus

/-
Real spherical and solid harmonics as in textbooks, and the terms of a Taylor series: the specification of C69.
-/
namespace Electrode
open Spec

/-- the normalisation of the real spherical harmonics -/
noncomputable def Spec.harmonicNorm (l mu : Nat) : ℝ :=
  √((2 * l + 1) / (4 * Real.pi) * (((l - mu).factorial : ℝ) / ((l + mu).factorial : ℝ)))

/-- real spherical harmonic of degree `l` and index `m`, with the phase of Condon and Shortley -/
noncomputable def Spec.realY (l : Nat) (m : Int) (theta phi : ℝ) : ℝ :=
  harmonicNorm l m.natAbs * assocLegendre m.natAbs l (Real.cos theta) *
    (if m = 0 then 1 else if 0 < m then √2 * Real.cos (m.natAbs * phi) else √2 * Real.sin (m.natAbs * phi))

/-- distance from the origin -/
noncomputable def Spec.radius (p : V3) : ℝ := √(p.x ^ 2 + p.y ^ 2 + p.z ^ 2)

/-- real solid harmonic `r^l Y_lm` at a position: polar angle from the z axis, azimuth from the x axis -/
noncomputable def Spec.solidY (l : Nat) (m : Int) (p : V3) : ℝ :=
  radius p ^ l * realY l m (Real.arccos (p.z / radius p)) (Complex.arg ⟨p.x, p.y⟩)

/-- the coordinates of a position -/
def Spec.coord (p : V3) : Fin 3 → ℝ
  | 0 => p.x
  | 1 => p.y
  | 2 => p.z

/-- the term of degree `n` of a Taylor series with derivatives `T` -/
noncomputable def Spec.taylorTerm (n : Nat) (T : List (Fin 3) → ℝ) (p : V3) : ℝ :=
  ((tuples n).map fun ks => T ks * (ks.map (coord p)).prod).sum / (n.factorial : ℝ)

end Electrode
