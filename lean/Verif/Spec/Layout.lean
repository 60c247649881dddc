import Verif.Model.System
import Mathlib.Data.List.Rotate
import Mathlib.LinearAlgebra.Matrix.Notation

/-
Turning, mirroring and moving a layout of electrodes in its plane.
-/
namespace Electrode.Spec

/-- A congruence of the electrode plane: a turn with cosine `c` and sine `s`, preceded by the mirror image `y -> -y` if
`mirror`, followed by the translation `(dx, dy)`. -/
structure PlaneMotion where
  c : ℝ
  s : ℝ
  mirror : Bool
  dx : ℝ
  dy : ℝ
  unit : c ^ 2 + s ^ 2 = 1

namespace PlaneMotion
variable (M : PlaneMotion)

/-- -1 for mirror images, 1 otherwise -/
def sign : ℝ := if M.mirror then -1 else 1

/-- where a point of the plane goes -/
def on2 (q : V2) : V2 := ⟨M.c * q.x - M.s * (M.sign * q.y) + M.dx, M.s * q.x + M.c * (M.sign * q.y) + M.dy⟩

/-- where a position goes -/
def on3 (p : V3) : V3 := ⟨M.c * p.x - M.s * (M.sign * p.y) + M.dx, M.s * p.x + M.c * (M.sign * p.y) + M.dy, p.z⟩

/-- its matrix, without the translation -/
def matrix : Matrix (Fin 3) (Fin 3) ℝ := !![M.c, -(M.s * M.sign), 0; M.s, M.c * M.sign, 0; 0, 0, 1]

/-- The same electrode elsewhere.  A path runs around its area in the same sense as before, so its points are listed backwards in a
mirror image. -/
def shape : Shape → Shape
  | .points ps as h n => .points (ps.map M.on2) as h n
  | .polygons paths h n => .polygons (paths.map fun path => if M.mirror then (path.map M.on2).reverse else path.map M.on2) h n
  | .cover h => .cover h
  | .mesh ps es pg pots h n => .mesh (ps.map M.on2) es pg pots h n
  | .grid data origin spacing => .grid data origin spacing

/-- the electrode with its voltages -/
def elec (e : Elec) : Elec := { e with shape := M.shape e.shape }

end PlaneMotion

/-- The same areas, listed in another order or starting at other points of the paths. -/
def sameShape : Shape → Shape → Prop
  | .points ps as h n, .points ps' as' h' n' => h = h' ∧ n = n' ∧ (ps.zip as).Perm (ps'.zip as')
  | .polygons a h n, .polygons b h' n' => h = h' ∧ n = n' ∧ ∃ a', a.Perm a' ∧ List.Forall₂ (fun p q => ∃ k, q = p.rotate k) a' b
  | .cover h, .cover h' => h = h'
  | _, _ => False

/-- The same electrodes with the same voltages, in any order and with any names. -/
def sameLayout (s t : List Elec) : Prop :=
  ∃ u, s.Perm u ∧ List.Forall₂ (fun e e' => e.dc = e'.dc ∧ e.rf = e'.rf ∧ sameShape e.shape e'.shape) u t

end Electrode.Spec
