import Verif.Model.System
import Verif.Spec.Calculus
import Verif.Props.Points
import Verif.Props.Polygons

/-
Values read off the results of the calls on a system, and where its potential is smooth.
-/
namespace Electrode.Spec

/-- entry `[n][i]` of an array -/
def at2 (a : List (List ℝ)) (n i : Nat) : ℝ := (a.getD n []).getD i 0

/-- an array of shape `(n, m)` -/
def hasShape (a : List (List ℝ)) (n m : Nat) : Prop := a.length = n ∧ ∀ row ∈ a, row.length = m

/-- value of a call, 0 if it fails -/
def entryOf (r : Py (List (List ℝ))) (l : List (Fin 3)) : ℝ :=
  match r with
  | .ok rows => entry (rows.getD 0 []) l
  | .error _ => 0

/-- entry `l` of `electrical_potential(p, len(l), typ, expand=True)` -/
noncomputable def electricalAt (s : List Elec) (typ : VTyp) (l : List (Fin 3)) (p : V3) : ℝ :=
  entryOf (electricalPotential s [p] l.length typ true) l

/-- entry `l` of `pseudo_potential(p, len(l))` -/
noncomputable def pseudoAt (s : Sys) (l : List (Fin 3)) (p : V3) : ℝ := entryOf (pseudoPotential s [p] l.length) l

/-- entry `l` of `potential(p, len(l))` -/
noncomputable def totalAt (s : Sys) (l : List (Fin 3)) (p : V3) : ℝ := entryOf (s.potential [p] l.length .tot) l

/-- Positions where the potential of a cover, point or polygon electrode is smooth. -/
def offElectrode (e : Elec) (p : V3) : Prop :=
  match e.shape with
  | .cover _ => True
  | .points ps _ h n => offPixels ps h n p
  | .polygons _ h n => offPlanes h n p
  | .mesh .. => False
  | .grid .. => False

/-- Positions off all electrodes of a system of cover, point and polygon electrodes. -/
def offSystem (s : List Elec) (p : V3) : Prop := ∀ e ∈ s, offElectrode e p

end Electrode.Spec
