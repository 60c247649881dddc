import Verif.Model.Electrode
import Verif.Spec.Tensor
import Mathlib.Analysis.Calculus.Deriv.Basic

/-
What it means that one field is an iterated partial derivative of another, and the
component of a potential at a position, read off the result of a call.
-/
namespace Electrode.Spec

/-- Position moved by `t` along an axis. -/
def shift (p : V3) (a : Fin 3) (t : ℝ) : V3 :=
  match a with
  | 0 => ⟨p.x + t, p.y, p.z⟩
  | 1 => ⟨p.x, p.y + t, p.z⟩
  | 2 => ⟨p.x, p.y, p.z + t⟩

/-- `f` has the partial derivative `f'` along axis `a` at `p`. -/
def HasPartial (a : Fin 3) (f : V3 → ℝ) (f' : ℝ) (p : V3) : Prop :=
  HasDerivAt (fun t => f (shift p a t)) f' 0

/-- On the region `U` the function `f` can be differentiated along the axes in the list, one
after the other, and the result is `g`. -/
def IsIterated (U : V3 → Prop) : List (Fin 3) → (V3 → ℝ) → (V3 → ℝ) → Prop
  | [], f, g => ∀ p, U p → f p = g p
  | a :: l, f, g => ∃ f' : V3 → ℝ, (∀ p, U p → HasPartial a f (f' p) p) ∧ IsIterated U l f' g

/-- Component `i` of the derivative of order `d` of electrode `e` driven with `v`, at one
position (0 if the call fails). -/
noncomputable def compAt (e : Elec) (d i : Nat) (v : ℝ) (p : V3) : ℝ :=
  match e.potential [p] d v none with
  | .ok [row] => row.getD i 0
  | _ => 0

/-- Entry of the expanded tensor of electrode `e` driven with `v`, at one position; the order is
the length of the axis tuple. -/
noncomputable def tensorAt (e : Elec) (v : ℝ) (l : List (Fin 3)) (p : V3) : ℝ :=
  match e.potential [p] l.length v none with
  | .ok [row] =>
    match expandTensor row with
    | .ok t => entry t l
    | .error _ => 0
  | _ => 0

end Electrode.Spec
