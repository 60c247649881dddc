import Verif.Spec.Tolerance
import Verif.Spec.System
import Mathlib.MeasureTheory.Integral.Bochner.Basic
import Mathlib.MeasureTheory.Measure.Lebesgue.Basic

/-
Electrodes and covers that are far away.
-/
namespace Electrode.Spec
open Real MeasureTheory

/-- The size of the derivatives of order `d` of surface elements of unit area and voltage, and of their images in the cover, whose
distance parallel to the plane is at least `ρ`. -/
noncomputable def farSize (d n : Nat) (h ρ z : ℝ) : ℝ :=
  ∑ m ∈ Finset.Icc (-(n : ℤ)) n, elementSize d √(ρ ^ 2 + (z + 2 * m * h) ^ 2)

/-- the area of an electrode, parts that are covered several times counted as often -/
noncomputable def extent : Shape → ℝ
  | .points ps as _ _ => ((ps.zip as).map fun q => |q.2|).sum
  | .polygons polys _ _ => ∫ q : ℝ × ℝ, |(covered polys q : ℝ)|
  | _ => 0

/-- A point or polygon electrode all parts of which are at least `ρ` away from the position, measured parallel to the plane. -/
def beyond (ρ : ℝ) (p : V3) : Shape → Prop
  | .points ps as h n => offPlanes h n p ∧ ∀ q ∈ ps.zip as, ρ ^ 2 ≤ (p.x - q.1.x) ^ 2 + (p.y - q.1.y) ^ 2
  | .polygons polys h n => offPlanes h n p ∧ ∀ q : ℝ × ℝ, covered polys q ≠ 0 → ρ ^ 2 ≤ (p.x - q.1) ^ 2 + (p.y - q.2) ^ 2
  | _ => False

/-- point and polygon electrodes -/
def inPlane : Shape → Prop
  | .points .. => True
  | .polygons .. => True
  | _ => False

/-- cover height and number of images of an electrode -/
def coverHeight : Shape → ℝ
  | .points _ _ h _ => h
  | .polygons _ h _ => h
  | _ => 0

/-- see `coverHeight` -/
def imageCount : Shape → Nat
  | .points _ _ _ n => n
  | .polygons _ _ n => n
  | _ => 0

/-- the same electrode with another cover height and number of images -/
def recover (h : ℝ) (n : Nat) : Shape → Shape
  | .points ps as _ _ => .points ps as h n
  | .polygons polys _ _ => .polygons polys h n
  | s => s

end Electrode.Spec
