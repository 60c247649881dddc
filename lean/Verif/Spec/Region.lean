import Verif.Model.Electrode
import Mathlib.Analysis.SpecialFunctions.Trigonometric.Basic

/-
Which points of the electrode plane a polygon encloses, and the potential of an infinitesimal
surface element, independently of the formulas of the code.
-/
namespace Electrode.Spec
open Real

/-- How the directed edge from `a` to `b` crosses the ray that starts at `q` and runs in the
positive x direction: `1` if it crosses upwards, `-1` if downwards, `0` if not at all. -/
noncomputable def crossing (q : ℝ × ℝ) (a b : V2) : ℤ :=
  if a.y ≤ q.2 ∧ q.2 < b.y ∧ 0 < (b.x - a.x) * (q.2 - a.y) - (b.y - a.y) * (q.1 - a.x) then 1
  else if b.y ≤ q.2 ∧ q.2 < a.y ∧ (b.x - a.x) * (q.2 - a.y) - (b.y - a.y) * (q.1 - a.x) < 0 then -1
  else 0

/-- How often the closed polygon winds around `q` counter clockwise: the signed number of edges
that cross a ray from `q`. -/
noncomputable def winding (poly : List V2) (q : ℝ × ℝ) : ℤ :=
  (List.zipWith (crossing q) poly (poly.rotate 1)).sum

/-- How often the electrode covers the point `q` of its plane: windings of all its closed paths
together, so that a clockwise path cuts a hole. -/
noncomputable def covered (polys : List (List V2)) (q : ℝ × ℝ) : ℤ := (polys.map fun poly => winding poly q).sum

/-- `q` lies on the straight segment from `a` to `b`. -/
def onSegment (q : ℝ × ℝ) (a b : V2) : Prop :=
  ∃ t : ℝ, 0 ≤ t ∧ t ≤ 1 ∧ q.1 = a.x + t * (b.x - a.x) ∧ q.2 = a.y + t * (b.y - a.y)

/-- `q` lies on no edge of the closed polygon. -/
def offBoundary (poly : List V2) (q : ℝ × ℝ) : Prop :=
  ∀ e ∈ List.zip poly (poly.rotate 1), ¬ onSegment q e.1 e.2

/-- Potential at `p` of a surface element of unit area and unit voltage at `q` in an otherwise
grounded plane: `z / (2 π r³)`. -/
noncomputable def pixelAt (p : V3) (q : ℝ × ℝ) : ℝ :=
  p.z / (2 * π * √((p.x - q.1) ^ 2 + (p.y - q.2) ^ 2 + p.z ^ 2) ^ 3)

end Electrode.Spec
