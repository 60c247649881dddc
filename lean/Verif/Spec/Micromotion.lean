import Verif.Spec.System
import Verif.Model.Analyze

/-
Words for the micromotion of an ion.
-/
namespace Electrode.Spec

/-- the gradient of the potential for dc or rf voltages, as `electrical_potential(x, typ, 1)` returns it -/
noncomputable def fieldGrad (els : List Elec) (typ : VTyp) (x : Fin 3 → ℝ) : Fin 3 → ℝ := fun a => electricalAt els typ [a] (toV3 x)

end Electrode.Spec
