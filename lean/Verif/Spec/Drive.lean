import Verif.Spec.System

/-
The potential during the rf cycle.
-/
namespace Electrode.Spec

/-- entry `l` of `time_potential(p, len(l), t, expand=True)` -/
noncomputable def timeAt (s : List Elec) (t : ℝ) (l : List (Fin 3)) (p : V3) : ℝ :=
  entryOf (timePotential s [p] l.length t true) l

end Electrode.Spec
