import Verif.Spec.Region
import Verif.Model.System
import Mathlib.Data.Int.Interval
import Mathlib.Algebra.Order.BigOperators.Group.Finset

/-
Electrodes that differ a little in their corners.
-/
namespace Electrode.Spec
open Real

/-- the distance of two points of the plane -/
noncomputable def gapOf (a b : V2) : ℝ := √((a.x - b.x) ^ 2 + (a.y - b.y) ^ 2)

/-- the length of a closed path -/
noncomputable def perimeter (path : List V2) : ℝ := (List.zipWith gapOf path (path.rotate 1)).sum

/-- Paths with the same number of corners, each within the distance `δ` of its partner. -/
def nearPath (δ : ℝ) (a b : List V2) : Prop := List.Forall₂ (fun u w => gapOf u w ≤ δ) a b

/-- The size of the derivatives of order `d` of the potential of a surface element of unit area and voltage at the height `z`: no
component exceeds it, wherever the element is. -/
noncomputable def elementSize (d : Nat) (z : ℝ) : ℝ := [1, 4, 18, 150, 1620, 17100].getD d 0 / (2 * π * |z| ^ (d + 2))

/-- the same for all images in a cover at the height `h` -/
noncomputable def imagesSize (d n : Nat) (h z : ℝ) : ℝ := ∑ m ∈ Finset.Icc (-(n : ℤ)) n, elementSize d (z + 2 * m * h)

/-- Electrodes with the same voltages and covers whose corners differ by at most `δ`; electrodes other than polygons are equal. -/
def nearElec (δ : ℝ) (e e' : Elec) : Prop := e.dc = e'.dc ∧ e.rf = e'.rf ∧
  match e.shape, e'.shape with
  | .polygons a h n, .polygons b h' n' => h = h' ∧ n = n' ∧ List.Forall₂ (nearPath δ) a b
  | a, b => a = b

/-- The length of the sides of an electrode, times its images. -/
noncomputable def sides (d : Nat) (z : ℝ) : Shape → ℝ
  | .polygons a h n => (a.map perimeter).sum * imagesSize d n h z
  | _ => 0

end Electrode.Spec
