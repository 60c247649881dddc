import Verif.Model.Grid
import Verif.Model.Spherical

/-
Model of reading grids from VTK files in `electrode/electrode.py` and of the other grids in `electrode/grid.py`.
-/
namespace Electrode

/-! ### `GridElectrode.from_vtk` -/

/-- electrode.py:467-480: One array of point data of a VTK file as `tvtk` returns it: its name, `number_of_components`, and the content of `to_array()`,
flattened with the last index fastest. -/
structure VtkArray where
  name : String
  comps : Nat
  data : List ℝ

/-- electrode.py:463-466: what `tvtk.StructuredPointsReader` returns -/
structure VtkFile where
  nx : Nat
  ny : Nat
  nz : Nat
  spacing : V3
  origin : V3
  arrays : List VtkArray

/-- electrode.py:469: `"_pondpot" in name` -/
def hasPondpot (name : String) : Bool := name.toList.tails.any fun t => "_pondpot".toList.isPrefixOf t

/-- electrode.py:478-480: the array reshaped to `dimensions[::-1]+(dim,)` and transposed; numpy raises `ValueError` if the sizes
do not fit -/
noncomputable def vtkReshape (f : VtkFile) (a : VtkArray) : Py Arr4 :=
  if a.data.length = f.nz * f.ny * f.nx * a.comps then
    .ok ⟨f.nx, f.ny, f.nz, a.comps, fun i j k c => a.data.getD (((k * f.ny + j) * f.nx + i) * a.comps + c) 0⟩
  else .error .valueError

/-- electrode.py:467-480: the loop over the arrays of the file -/
noncomputable def vtkArrays (f : VtkFile) : List VtkArray → List Arr4 → Py (List Arr4)
  | [], pot => .ok pot
  | a :: t, pot =>
    if hasPondpot a.name then vtkArrays f t pot
    else if a.name ≠ "potential" ∧ a.name ≠ "field" then vtkArrays f t pot
    else match vtkReshape f a with
      | .error e => .error e
      | .ok d => vtkArrays f t (pot ++ [d])

/-- electrode.py:440-483 `GridElectrode.from_vtk`.  `isfile` and `read` stand for the file system and the reader of `tvtk`.  `origin`
and `spacing` are only bound within the loop. -/
noncomputable def fromVtk (isfile : String → Bool) (read : String → VtkFile) (fil : String) (maxderiv : Nat) : Py Elec :=
  if ¬ (isfile fil ∧ ".vtk".toList.isSuffixOf fil.toList) then .error .osError
  else
    match vtkArrays (read fil) (read fil).arrays [] with
    | .error e => .error e
    | .ok [] => .error .unboundLocalError
    | .ok pot =>
      match gridGenerate pot (read fil).spacing maxderiv with
      | .error e => .error e
      | .ok data => .ok ⟨"", 0, 0, .grid data (read fil).origin (read fil).spacing⟩

/-! ### `UnstructuredGrid` -/

/-- grid.py:70-77 `UnstructuredGrid`: the array of points as a list of its rows -/
structure UGrid where
  rows : List (List ℝ)
  shape : Nat

/-- grid.py:72-77 `__init__` for a two dimensional array (rows of the same length, otherwise numpy raises `ValueError`) -/
def UGrid.init (rows : List (List ℝ)) : Py UGrid :=
  if ¬ rows.all (fun r => r.length = (rows.headD []).length) then .error .valueError
  else if rows.length ≠ 3 then .error .assertionError
  else .ok ⟨rows, (rows.headD []).length⟩

/-- grid.py:79-80 `to_mgrid`: `NotImplemented` is not an exception, raising it is a `TypeError` -/
def UGrid.toMgrid (_ : UGrid) : Py (List (List ℝ)) := .error .typeError

/-- grid.py:82-83 `to_points`: the transpose -/
def UGrid.toPoints (g : UGrid) : List (List ℝ) := (List.range g.shape).map fun j => g.rows.map fun r => r.getD j 0

/-- grid.py:39-40 `get_origin` on an `UnstructuredGrid`, whose constructor does not set `center` and `step` -/
def UGrid.getOrigin (_ : UGrid) : Py (List ℝ) := .error .attributeError

/-! ### `SphericalGrid` -/

/-- grid.py:86-100 `SphericalGrid`; `x` are the roots of the Legendre polynomial that the harmonics use -/
structure SGrid where
  harmonics : SphHarm
  origins : List V3
  r : ℝ
  n : Nat
  x : Nat → ℝ

/-- grid.py:92-100 `__init__`; the parameters are those of `sphInit` -/
noncomputable def SGrid.init (oldNumpy : Bool) (x w : Nat → ℝ) (lpmn : Nat → Nat → ℝ → ℝ) (empty : Int × Int → Nat × Int)
    (origins : List V3) (r : ℝ) (n : Nat) : Py SGrid :=
  match sphInit oldNumpy n x w lpmn empty with
  | .error e => .error e
  | .ok s => .ok ⟨s, origins, r, n, x⟩

/-- spherical_harmonics.py:92, 95: the angles `theta[i, 0]` and `phi[0, k]` -/
noncomputable def SGrid.angles (g : SGrid) (i k : Nat) : ℝ × ℝ := (Real.arccos (g.x i), k * (Real.pi / g.n))

/-- grid.py:98-99, 102-103 `to_mgrid()[:, o, i, k]`; spherical_harmonics.py:112-113 `cartesian_grid` -/
noncomputable def SGrid.mgridAt (g : SGrid) (o : V3) (i k : Nat) : V3 :=
  let a := g.angles i k
  let c := sphericalToCartesian 1 a.1 a.2
  ⟨o.x + g.r * c.1, o.y + g.r * c.2.1, o.z + g.r * c.2.2⟩

/-- grid.py:50-53 `to_points` on a `SphericalGrid` -/
noncomputable def SGrid.toPoints (g : SGrid) : List V3 :=
  g.origins.flatMap fun o => (List.range g.n).flatMap fun i => (List.range (2 * g.n)).map fun k => g.mgridAt o i k

end Electrode
