import Verif.Model.Electrode

/-
Model of `electrode/grid.py`.
-/
namespace Electrode

/-- grid.py:37: One dimension of a rectangular grid: entries of `center`, `step`, `shape`. -/
structure GridAxis where
  center : ℝ
  step : ℝ
  shape : Nat

/-- grid.py:30-37 `Grid`: `center`, `step`, `shape` are taken to have the same length, so that the grid is the list of its
dimensions. -/
abbrev Grid := List GridAxis

/-- grid.py:39-40 `get_origin` -/
noncomputable def Grid.getOrigin (g : Grid) : List ℝ := g.map fun a => a.center - ((a.shape : ℝ) - 1) / 2 * a.step

/-- grid.py:43-44: start and stop of a slice, the number of points -/
noncomputable def GridAxis.slice (a : GridAxis) : ℝ × ℝ × Nat :=
  (a.center - a.step * ((a.shape : ℝ) - 1) / 2, a.center + a.step * ((a.shape : ℝ) - 1) / 2, a.shape)

/-- grid.py:48: One entry of `np.mgrid` with a complex step: `h` points from start to stop, the start alone for one point. -/
noncomputable def mgridEntry (s : ℝ × ℝ × Nat) (i : Nat) : ℝ :=
  let step := if s.2.2 ≠ 1 then (s.2.1 - s.1) / ((s.2.2 : ℝ) - 1) else 1
  i * step + s.1

/-- grid.py:57: `np.linspace(start, stop, h)[i]` -/
noncomputable def linspaceEntry (s : ℝ × ℝ × Nat) (i : Nat) : ℝ :=
  if 1 < s.2.2 then i * ((s.2.1 - s.1) / ((s.2.2 : ℝ) - 1)) + s.1 else s.1

/-- grid.py:47-53: the index tuples of an array of a shape, last index fastest -/
def ndIndex : List Nat → List (List Nat)
  | [] => [[]]
  | h :: t => (List.range h).flatMap fun i => (ndIndex t).map (i :: ·)

/-- grid.py:47-48 `to_mgrid`, the entries at one index tuple: `to_mgrid()[:, i, j, k]` -/
noncomputable def Grid.mgridAt (g : Grid) (idx : List Nat) : List ℝ := List.zipWith (fun a i => mgridEntry a.slice i) g idx

/-- grid.py:50-53 `to_points`: the array folded to (dimensions, points) and transposed -/
noncomputable def Grid.toPoints (g : Grid) : List (List ℝ) := (ndIndex (g.map (·.shape))).map g.mgridAt

/-- grid.py:55-59 `to_xyz`; for different numbers of points per dimension numpy cannot make an array of it: `ValueError` -/
noncomputable def Grid.toXyz (g : Grid) : Py (List (List ℝ)) :=
  let l := g.map fun a => (List.range a.shape).map fun i => linspaceEntry a.slice i
  match g with
  | [] => .ok l
  | a :: _ => if g.all fun b => b.shape = a.shape then .ok l else .error .valueError

/-- grid.py:61-63 `indices_to_coordinates`, one index tuple -/
noncomputable def Grid.indicesToCoordinates (g : Grid) (idx : List ℝ) : List ℝ :=
  List.zipWith (fun a i => a.center + a.step * (i - ((a.shape : ℝ) - 1) / 2)) g idx

/-- grid.py:65-67 `coordinates_to_indices`, one position -/
noncomputable def Grid.coordinatesToIndices (g : Grid) (x : List ℝ) : List ℝ :=
  List.zipWith (fun a x => (x - a.center) / a.step + ((a.shape : ℝ) - 1) / 2) g x

/-- electrode.py:416-438 `GridElectrode.from_result`: `potential` is the array of the result over its grid of three
dimensions, `field` its field, if any, components first. -/
noncomputable def gridFromResult (gx gy gz : GridAxis) (potential : Nat → Nat → Nat → ℝ)
    (field : Option (Nat → Nat → Nat → Nat → ℝ)) (maxderiv : Nat) : Py Elec :=
  let o := Grid.getOrigin [gx, gy, gz]
  let d0 : Arr4 := ⟨gx.shape, gy.shape, gz.shape, 1, fun a b c _ => potential a b c⟩
  let data := match field with
    | none => [d0]
    | some f => [d0, ⟨gx.shape, gy.shape, gz.shape, 3, fun a b c i => f i a b c⟩]
  let spacing : V3 := ⟨gx.step, gy.step, gz.step⟩
  match gridGenerate data spacing maxderiv with
  | .error e => .error e
  | .ok data => .ok ⟨"", 0, 0, .grid data ⟨o.getD 0 0, o.getD 1 0, o.getD 2 0⟩ spacing⟩

end Electrode
