import Verif.Model.RoundedSystem
import Verif.Model.Dynamics

/-
`System.modes` in floating-point arithmetic.
-/
namespace Electrode

/-- system.py:578-604 `modes` with the computed second derivatives; `eigh` includes its own rounding errors -/
noncomputable def flModes (o : FloatOps) (dot : (Axis → ℝ) → (Axis → ℝ) → ℝ) (compiled : Bool) (eigh : Eigh) (argsort : Argsort) (s : Sys) (x : V3) (sorted : Bool) :
    Py (List ℝ × List (Fin 3 → ℝ)) :=
  match Sys.flPotential o dot compiled s [x] 2 .tot with
  | .error e => .error e
  | .ok p =>
    let w := eigh 3 (row0Matrix p)
    let cols := (List.finRange 3).map fun j i => w.2 i j
    if sorted then
      let i := argsort w.1
      .ok (takeIdx w.1 i, takeIdx cols i)
    else .ok (w.1, cols)

end Electrode
