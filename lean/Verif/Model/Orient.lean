import Verif.Model.Electrode

/-
Model of the `orientations` methods of the electrode classes.
-/
namespace Electrode

/-- electrode.py:111-120 `Electrode.orientations` (an empty array, for the cover, mesh and grid
electrodes, which do not override it), 232-233 `PointPixelElectrode.orientations`
(`np.ones_like(self.areas)`), 284-285 `PolygonPixelElectrode.orientations`. -/
noncomputable def Elec.orientations (e : Elec) : List ℝ :=
  match e.shape with
  | .points _ areas _ _ => areas.map fun _ => 1
  | .polygons paths _ _ => Electrode.orientations paths
  | _ => []

end Electrode
