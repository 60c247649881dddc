import Verif.Spec.Limits

/-
Specification for C142: what the potential in a small region tells about the electrodes.
-/
namespace Electrode.Spec

/-- positions less than `r` away from `p` in each coordinate -/
def closeTo (p : V3) (r : ℝ) (q : V3) : Prop := |q.x - p.x| < r ∧ |q.y - p.y| < r ∧ |q.z - p.z| < r

/-- points of the plane on no edge of an electrode -/
def offEdges (els : List Elec) (q : ℝ × ℝ) : Prop :=
  ∀ e ∈ els, ∀ polys h n, e.shape = .polygons polys h n → ∀ poly ∈ polys, offBoundary poly q

/-- the electrode covers some area of the plane -/
def hasArea (e : Elec) : Prop := ¬ ∀ᵐ q : ℝ × ℝ, coverage q e.shape = 0

/-- the electrode at another dc (or rf) voltage -/
def atVolt (typ : VTyp) (v : ℝ) (e : Elec) : Elec :=
  match typ with
  | .dc => { e with dc := v }
  | .rf => { e with rf := v }
  | .other => e

/-- the electrodes at other voltages -/
def atVolts (typ : VTyp) (els : List Elec) (v : Fin els.length → ℝ) : List Elec := List.ofFn fun i => atVolt typ (v i) (els.get i)

end Electrode.Spec
