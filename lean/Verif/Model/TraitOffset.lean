import Verif.Model.TraitCon
import Verif.Model.System

/-
Model of `OffsetPotentialConstraint` of `electrode/constraints.py`.
-/
namespace Electrode

/-- constraints.py:237-242: what the constraint needs of an object that stands for an electrode: the attribute `voltage_dc`, if it has one, and the method `electrical_potential` at
the reference position, for a voltage -/
structure OffsetElec where
  voltage : Option ℝ
  pot : ℝ → Py ℝ

/-- electrode.py:57: electrodes have the attributes `name`, `dc` and `rf` (and those of their shape), none of them is `voltage_dc` -/
def offsetElecOf (_ : Elec) : OffsetElec := ⟨none, fun _ => .error .attributeError⟩

/-- constraints.py:239-242: the potential of each electrode at one volt, and the electrodes afterwards: the voltage is set and set back -/
def offsetLoop : List OffsetElec → Py (List ℝ) × List OffsetElec
  | [] => (.ok [], [])
  | el :: els =>
    match el.voltage with
    | none => (.error .attributeError, el :: els)
    | some v0 =>
      match el.pot 1 with
      | .error e => (.error e, { el with voltage := some 1 } :: els)
      | .ok p =>
        let r := offsetLoop els
        (r.1.map (p :: ·), { el with voltage := some v0 } :: r.2)

/-- constraints.py:232-252 `OffsetPotentialConstraint.single_value`; `pref0` is `system.potential(self.reference)[0]`. Simplified: numpy also takes a single electrode for
several variables. -/
def offsetValue {m : Nat} (only : Bool) (pmin pmax : Option ℝ) (pref0 : Py ℝ) (els : List OffsetElec) (v : Fin m → ℝ) (s : Pots m) : Py (List CvxExpr × Pots m) :=
  match pref0 with
  | .error e => .error e
  | .ok r0 =>
    match (offsetLoop els).1 with
    | .error e => .error e
    | .ok pref =>
      if pref.length ≠ m then .error .valueError
      else
        let p0 := if only then s.p0 * 0 else s.p0
        let r0 := if only then r0 * 0 else r0
        let t := (r0 - p0) + ∑ e : Fin m, (pref.getD e 0 - s.p e) * v e
        .ok (optYield pmin (fun a => ⟨.affine, [a - t]⟩) ++ optYield pmax (fun b => ⟨.affine, [t - b]⟩), s)

end Electrode
