import Verif.Spec.Region
import Verif.Model.System
import Mathlib.MeasureTheory.Measure.Lebesgue.Basic

/-
The voltages of polygon electrodes as a map of the plane.
-/
namespace Electrode.Spec

/-- all electrodes are polygons, with a cover at the same height `h` and the same number `n` of images (`n = 0`: no cover) -/
def polygonTrap (h : ℝ) (n : Nat) (els : List Elec) : Prop := ∀ e ∈ els, ∃ polys, e.shape = .polygons polys h n

/-- how often an electrode covers the point `q` of the plane -/
noncomputable def coverage (q : ℝ × ℝ) : Shape → ℤ
  | .polygons polys _ _ => covered polys q
  | _ => 0

/-- the voltage of the plane at the point `q` -/
noncomputable def voltageMap (els : List Elec) (typ : VTyp) (q : ℝ × ℝ) : ℝ :=
  (els.map fun e => (e.volt typ).getD 0 * (coverage q e.shape : ℝ)).sum

/-- electrodes do not overlap (except on their edges) -/
def separate (els : List Elec) : Prop := ∀ᵐ q : ℝ × ℝ, (els.map fun e => |coverage q e.shape|).sum ≤ 1

/-- the same electrode with another voltage, at most `δ` away -/
def nearVoltage (typ : VTyp) (δ : ℝ) (e e' : Elec) : Prop := e'.shape = e.shape ∧ |(e'.volt typ).getD 0 - (e.volt typ).getD 0| ≤ δ

end Electrode.Spec
