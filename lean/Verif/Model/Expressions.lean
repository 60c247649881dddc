import Verif.Model.Py
import Verif.Model.ExprNum
import Mathlib.Analysis.SpecialFunctions.Trigonometric.Arctan
import Mathlib.Analysis.Real.Sqrt

/-
Model of `electrode/expressions.py`: the potentials of point pixels, polygons and
meshes.  Floating point numbers are real numbers.  `out` arrays are lists of rows.
-/
namespace Electrode
open Real

/-- expressions.py:97-100, 183-185: A position (row of an `(n, 3)` array). -/
@[ext] structure V3 where
  (x y z : ℝ)

/-- expressions.py:97-98, 183-184: A point in the electrode plane (row of an `(n, 2)` array). -/
@[ext] structure V2 where
  (x y : ℝ)

/-- expressions.py:37-172: `d[i] += t_i` for every entry of `t`, the update done by the `*_expr` functions on a row
`d` of `out`.  Entries of `t` beyond the row do not occur for rows of the documented
length `2*derivative+1`. -/
def addRow (row t : List ℝ) : List ℝ := row.mapIdx fun i o => o + t.getD i 0

/-- expressions.py:99, 182, 221: `range(-n, n+1)` -/
def coverRange (n : Nat) : List ℤ := (List.range (2 * n + 1)).map fun i : Nat => (i : ℤ) - (n : ℤ)

/-- expressions.py:37: Values of the variables `x y z r` of `point_potential_expr`. -/
def pointEnv (x y z r : ℝ) : Nat → ℝ
  | 0 => x | 1 => y | 2 => z | 3 => r | _ => 0

/-- expressions.py:37-85 the factor `n` for each derivative order. -/
noncomputable def pointNorm (derivative : Nat) (r a : ℝ) : ℝ :=
  match derivative with
  | 0 => a / (2 * π * r ^ 3)
  | 1 => a / (2 * π * r ^ 5)
  | 2 => a / (2 * π / 3 * r ^ 7)
  | 3 => a / (2 * π / 3 * r ^ 9)
  | 4 => a / (2 * π / 15 * r ^ 11)
  | 5 => a / (2 * π / 45 * r ^ 13)
  | _ => 0

/-- expressions.py:37-85: no branch matches for `derivative >= 6`, nothing is added. -/
def pointNum (derivative : Nat) : List PExpr :=
  match derivative with
  | 0 => pointNum0
  | 1 => pointNum1
  | 2 => pointNum2
  | 3 => pointNum3
  | 4 => pointNum4
  | 5 => pointNum5
  | _ => []

/-- expressions.py:37-85 `point_potential_expr`: the list of increments of `d`. -/
noncomputable def pointTerm (derivative : Nat) (x y z r a : ℝ) : List ℝ :=
  (pointNum derivative).map fun e => e.eval (pointEnv x y z r) * pointNorm derivative r a

/-- expressions.py:97-103, body of the innermost loop of `_point_potential` for pixel `q`
of area `area`, position `p` and image number `k`. -/
noncomputable def pointStep (derivative : Nat) (h : ℝ) (q : V2) (a0 : ℝ) (p : V3) (row : List ℝ) (k : ℤ) :
    List ℝ :=
  let x0 := p.x - q.x
  let y0 := p.y - q.y
  let z0 := p.z + 2 * k * h
  let r0 := √(x0 ^ 2 + y0 ^ 2 + z0 ^ 2)
  addRow row (pointTerm derivative x0 y0 z0 r0 a0)

/-- expressions.py:113, 204, 244: `np.zeros([nx, derivative*2+1])` -/
def zeroRows (nx derivative : Nat) : List (List ℝ) := List.replicate nx (List.replicate (derivative * 2 + 1) 0)

/-- expressions.py:88-117 `_point_potential` and `point_potential`.  Loop order is pixels,
positions, images.  `areas` has one entry per point (a shorter array would raise
`IndexError`; the model pairs them up).  The shape assertions hold by construction. -/
noncomputable def pointPotential (x : List V3) (points : List V2) (areas : List ℝ) (potential : ℝ)
    (derivative nmax : Nat) (h : ℝ) (out : Option (List (List ℝ))) : List (List ℝ) :=
  (points.zip areas).foldl (fun out q =>
    List.zipWith (fun p row => (coverRange nmax).foldl (pointStep derivative h q.1 (q.2 * potential) p) row) x out)
    (out.getD (zeroRows x.length derivative))

/-- expressions.py:120: Values of the variables of `edge_potential_expr`. -/
def edgeEnv (x1 x2 y1 y2 r1 r2 l2 z : ℝ) : Nat → ℝ
  | 0 => x1 | 1 => x2 | 2 => y1 | 3 => y2 | 4 => r1 | 5 => r2 | 6 => l2 | 7 => z | _ => 0

/-- expressions.py:129-161 the factor `n` for derivative orders 1 to 5. -/
noncomputable def edgeNorm (derivative : Nat) (r1 r2 l2 a : ℝ) : ℝ :=
  match derivative with
  | 1 => a * (r1 + r2) / (r1 * r2 * ((r1 + r2) ^ 2 - l2)) / π
  | 2 => a / (r1 * r2) ^ 3 / ((r1 + r2) ^ 2 - l2) ^ 2 / π
  | 3 => a / (r1 * r2) ^ 5 / ((r1 + r2) ^ 2 - l2) ^ 3 / π
  | 4 => a / (r1 * r2) ^ 7 / ((r1 + r2) ^ 2 - l2) ^ 4 / π
  | 5 => a / (r1 * r2) ^ 9 / ((r1 + r2) ^ 2 - l2) ^ 5 / π
  | _ => 0

/-- expressions.py:128-172, numerators of `edge_potential_expr` by the order of the derivative. -/
def edgeNum (derivative : Nat) : List PExpr :=
  match derivative with
  | 1 => edgeNum1
  | 2 => edgeNum2
  | 3 => edgeNum3
  | 4 => edgeNum4
  | 5 => edgeNum5
  | _ => []

/-- expressions.py:120-172 `edge_potential_expr`: the list of increments of `d`.  Order 0 is
the `atan` form of lines 121-128; `cexpressions.pyx:198` uses
`atan2(z*(x1*y2-y1*x2), zs*(…))`, the same number when the second argument is positive. -/
noncomputable def edgeTerm (derivative : Nat) (x1 x2 y1 y2 r1 r2 l2 z a : ℝ) : List ℝ :=
  match derivative with
  | 0 =>
    let zs := |z|
    [arctan (z * (x1 * y2 - y1 * x2) / (zs * (r1 * r2 + x1 * x2 + y1 * y2 + zs * (zs + r1 + r2)))) * (a / π)]
  | d => (edgeNum d).map fun e => e.eval (edgeEnv x1 x2 y1 y2 r1 r2 l2 z) * edgeNorm d r1 r2 l2 a

/-- expressions.py:183-196: loop state of the vertex loop: `x2, y2, r2` and the row being updated -/
structure EdgeState where
  (x2 y2 r2 : ℝ)
  row : List ℝ

/-- expressions.py:187-196, one pass of the vertex loop. -/
noncomputable def polyVertexStep (derivative : Nat) (potential z : ℝ) (p : V3) (st : EdgeState) (q : V2) :
    EdgeState :=
  let x1 := st.x2
  let y1 := st.y2
  let r1 := st.r2
  let x2 := p.x - q.x
  let y2 := p.y - q.y
  let r2 := √(x2 ^ 2 + y2 ^ 2 + z ^ 2)
  let l2 := (x1 - x2) ^ 2 + (y1 - y2) ^ 2
  ⟨x2, y2, r2, addRow st.row (edgeTerm derivative x1 x2 y1 y2 r1 r2 l2 z potential)⟩

/-- expressions.py:182-196, body of the image loop: starts from the last vertex
`polygon[no-1]`.  (An empty polygon raises `IndexError` in numpy; the model leaves the row
unchanged.) -/
noncomputable def polyImageStep (derivative : Nat) (potential h : ℝ) (polygon : List V2) (p : V3)
    (row : List ℝ) (m : ℤ) : List ℝ :=
  match polygon.getLast? with
  | none => row
  | some last =>
    let x2 := p.x - last.x
    let y2 := p.y - last.y
    let z := p.z + 2 * m * h
    let r2 := √(x2 ^ 2 + y2 ^ 2 + z ^ 2)
    (polygon.foldl (polyVertexStep derivative potential z p) ⟨x2, y2, r2, row⟩).row

/-- expressions.py:175-209 `_polygon_potential` and `polygon_potential`. -/
noncomputable def polygonPotential (x : List V3) (polygons : List (List V2)) (potential : ℝ)
    (derivative nmax : Nat) (h : ℝ) (out : Option (List (List ℝ))) : List (List ℝ) :=
  polygons.foldl (fun out polygon =>
    List.zipWith (fun p row => (coverRange nmax).foldl (polyImageStep derivative potential h polygon p) row) x out)
    (out.getD (zeroRows x.length derivative))

/-- expressions.py:222-232, one edge of a mesh for one position and image. -/
noncomputable def meshStep (derivative : Nat) (h : ℝ) (v1 v2 : V2) (potential : ℝ) (p : V3) (row : List ℝ)
    (k : ℤ) : List ℝ :=
  let z := p.z + 2 * k * h
  let x1 := p.x - v1.x
  let y1 := p.y - v1.y
  let r1 := √(x1 ^ 2 + y1 ^ 2 + z ^ 2)
  let x2 := p.x - v2.x
  let y2 := p.y - v2.y
  let r2 := √(x2 ^ 2 + y2 ^ 2 + z ^ 2)
  let l2 := (x1 - x2) ^ 2 + (y1 - y2) ^ 2
  addRow row (edgeTerm derivative x1 x2 y1 y2 r1 r2 l2 z potential)

/-- expressions.py:212-247 `_mesh_potential` and `mesh_potential`.  `edges` are pairs of
indexes into `points`, `polygons` gives for each edge the index into `potentials`.
Out-of-range indexes (undefined behaviour in the compiled code) read as zero. -/
noncomputable def meshPotential (x : List V3) (points : List V2) (edges : List (Nat × Nat)) (polygons : List Nat)
    (potentials : List ℝ) (derivative nmax : Nat) (h : ℝ) (out : Option (List (List ℝ))) : List (List ℝ) :=
  (edges.zip polygons).foldl (fun out e =>
    List.zipWith (fun p row => (coverRange nmax).foldl
      (meshStep derivative h (points.getD e.1.1 ⟨0, 0⟩) (points.getD e.1.2 ⟨0, 0⟩) (potentials.getD e.2 0) p) row) x out)
    (out.getD (zeroRows x.length derivative))

end Electrode
