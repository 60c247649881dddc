import Verif.Model.System
import Verif.Model.Grid

/-
Model of `System.plot_contour` of `electrode/system.py` (lines 373-456): the arguments handed to matplotlib.
-/
namespace Electrode

/-- system.py:445-456: The call of `ax.contour` or `ax.contourf` and the returned pair.  The labels of the axes are without the unit `/l`. -/
structure Contour where
  filled : Bool
  x : List ℝ
  y : List ℝ
  z : List (List ℝ)
  levels : List ℝ
  vmin : ℝ
  xlabel : Char
  ylabel : Char
  maxp : ℝ
  minp : ℝ

/-- system.py:418-423: the default grid, from the first electrode, which must be a `GridElectrode` -/
noncomputable def contourGrid (s : Sys) : Py Grid :=
  match s.els with
  | [] => .error .indexError
  | e :: _ =>
    match e.shape with
    | .grid data origin spacing =>
      match data with
      | [] => .error .indexError
      | d :: _ => .ok [⟨origin.x + ((d.n : ℝ) - 1) * spacing.x / 2, spacing.x, d.n⟩,
          ⟨origin.y + ((d.m : ℝ) - 1) * spacing.y / 2, spacing.y, d.m⟩,
          ⟨origin.z + ((d.k : ℝ) - 1) * spacing.z / 2, spacing.z, d.k⟩]
    | _ => .error .attributeError

/-- system.py:418: `if grid == None` -/
noncomputable def contourGridArg (s : Sys) : Option Grid → Py Grid
  | some g => .ok g
  | none => contourGrid s

/-- system.py:428: `grid.to_xyz()`: numpy before 1.24 makes an array of arrays if the numbers of points differ (`old`), later versions raise -/
noncomputable def contourXyz (old : Bool) (g : Grid) : Py (List (List ℝ)) :=
  if old then .ok (g.map fun a => (List.range a.shape).map fun i => linspaceEntry a.slice i) else g.toXyz

/-- system.py:426-427 `sec` and `coord` -/
def contourSec : Char → Py ((Nat × Nat) × (Nat × Nat × Nat))
  | 'x' => .ok ((1, 2), (2, 0, 1))
  | 'y' => .ok ((0, 2), (0, 2, 1))
  | 'z' => .ok ((0, 1), (0, 1, 2))
  | _ => .error .keyError

/-- system.py:438 `axlb` -/
def contourLabels : Char → Char × Char
  | 'x' => ('y', 'z')
  | 'y' => ('x', 'z')
  | _ => ('x', 'y')

/-- system.py:432-433: `self.potential(np.array([e1,e2,e3])[axis], 0, typ)[0]` -/
noncomputable def contourValue (s : Sys) (typ : PTyp) (axis : Nat × Nat × Nat) (e1 e2 e3 : ℝ) : Py ℝ :=
  let a := [e1, e2, e3]
  match s.potential [⟨a.getD axis.1 0, a.getD axis.2.1 0, a.getD axis.2.2 0⟩] 0 typ with
  | .error e => .error e
  | .ok rows => .ok ((rows.getD 0 []).getD 0 0)

/-- system.py:440-442: lower and upper limit of the contour levels.  numpy divides by a zero `divide_max` to infinity or nan, which
is not modelled. -/
noncomputable def contourLimits (maxp minp divideMax : ℝ) : ℝ × ℝ :=
  open Classical in
  (minp, if maxp / divideMax ≤ minp then (maxp - minp) / 2 + minp else maxp / divideMax)

/-- system.py:374-456 `plot_contour`: `levels` and `vmin` are those of the keyword arguments.  `np.amax` of an empty array raises
`ValueError`. -/
noncomputable def plotContour (old : Bool) (s : Sys) (grid : Option Grid) (typ : PTyp) (slc : Char) (slcAt : ℝ) (fill : Bool)
    (divideMax : ℝ) (lineNum : Nat) (levels : Option (List ℝ)) (vmin : Option ℝ) : Py Contour :=
  match contourGridArg s grid with
  | .error e => .error e
  | .ok g =>
    match contourXyz old g with
    | .error e => .error e
    | .ok xyz =>
      match contourSec slc with
      | .error e => .error e
      | .ok (sec, axis) =>
        match pyGet xyz sec.1, pyGet xyz sec.2 with
        | .ok xs, .ok ys =>
          match pySeq (ys.map fun e2 => pySeq (xs.map fun e1 => contourValue s typ axis e1 e2 slcAt)) with
          | .error e => .error e
          | .ok pot =>
            match pot.flatten with
            | [] => .error .valueError
            | v :: t =>
              let maxp := t.foldl max v
              let minp := t.foldl min v
              let (mincl, maxcl) := contourLimits maxp minp divideMax
              let lb := contourLabels slc
              .ok ⟨fill, xs, ys, pot, levels.getD ((List.range lineNum).map fun i => linspaceEntry (mincl, maxcl, lineNum) i),
                vmin.getD (maxcl / 2), lb.1, lb.2, maxp, minp⟩
        | .error e, _ => .error e
        | _, .error e => .error e

end Electrode
