import Verif.Model.Expressions
import Mathlib.Analysis.SpecialFunctions.Complex.Arg

/-
The two implementations of the field kernels that `electrode.py:28-35` chooses from: the compiled
one of `electrode/cexpressions.pyx` and the one of `electrode/expressions.py`, the latter with
divisions by zero made visible.
-/
namespace Electrode
open Real

/-- cexpressions.pyx:29, 198: `atan2(y, x)` of the C library; `atan2(0, 0) = 0`.  Signed zeros are not modelled. -/
noncomputable def catan2 (y x : ℝ) : ℝ := Complex.arg ⟨x, y⟩

/-- cexpressions.pyx:191-243 `edge_potential_expr`.  The lines for the orders 1 to 5 have the same text as
in expressions.py, order 0 calls `atan2`. -/
noncomputable def edgeTermC (derivative : Nat) (x1 x2 y1 y2 r1 r2 l2 z a : ℝ) : List ℝ :=
  match derivative with
  | 0 =>
    let zs := |z|
    [catan2 (z * (x1 * y2 - y1 * x2)) (zs * (r1 * r2 + x1 * x2 + y1 * y2 + zs * (zs + r1 + r2))) * (a / π)]
  | d => (edgeNum d).map fun e => e.eval (edgeEnv x1 x2 y1 y2 r1 r2 l2 z) * edgeNorm d r1 r2 l2 a

/-- cexpressions.pyx:89-96, one pass of the vertex loop. -/
noncomputable def polyVertexStepC (derivative : Nat) (potential z : ℝ) (p : V3) (st : EdgeState) (q : V2) :
    EdgeState :=
  let x1 := st.x2
  let y1 := st.y2
  let r1 := st.r2
  let x2 := p.x - q.x
  let y2 := p.y - q.y
  let r2 := √(x2 ^ 2 + y2 ^ 2 + z ^ 2)
  let l2 := (x1 - x2) ^ 2 + (y1 - y2) ^ 2
  ⟨x2, y2, r2, addRow st.row (edgeTermC derivative x1 x2 y1 y2 r1 r2 l2 z potential)⟩

/-- cexpressions.pyx:84-96, one image.  An empty polygon reads outside the array (`boundscheck=False`); the
model leaves the row unchanged. -/
noncomputable def polyImageStepC (derivative : Nat) (potential h : ℝ) (polygon : List V2) (p : V3)
    (row : List ℝ) (m : ℤ) : List ℝ :=
  match polygon.getLast? with
  | none => row
  | some last =>
    let x2 := p.x - last.x
    let y2 := p.y - last.y
    let z := p.z + 2 * m * h
    let r2 := √(x2 ^ 2 + y2 ^ 2 + z ^ 2)
    (polygon.foldl (polyVertexStepC derivative potential z p) ⟨x2, y2, r2, row⟩).row

/-- cexpressions.pyx:65-97 `polygon_potential`. -/
noncomputable def polygonPotentialC (x : List V3) (polygons : List (List V2)) (potential : ℝ)
    (derivative nmax : Nat) (h : ℝ) (out : Option (List (List ℝ))) : List (List ℝ) :=
  polygons.foldl (fun out polygon =>
    List.zipWith (fun p row => (coverRange nmax).foldl (polyImageStepC derivative potential h polygon p) row) x out)
    (out.getD (zeroRows x.length derivative))

/-- cexpressions.pyx:123-134, one edge, position and image of a mesh. -/
noncomputable def meshStepC (derivative : Nat) (h : ℝ) (v1 v2 : V2) (potential : ℝ) (p : V3) (row : List ℝ)
    (k : ℤ) : List ℝ :=
  let z := p.z + 2 * k * h
  let x1 := p.x - v1.x
  let y1 := p.y - v1.y
  let r1 := √(x1 ^ 2 + y1 ^ 2 + z ^ 2)
  let x2 := p.x - v2.x
  let y2 := p.y - v2.y
  let r2 := √(x2 ^ 2 + y2 ^ 2 + z ^ 2)
  let l2 := (x1 - x2) ^ 2 + (y1 - y2) ^ 2
  addRow row (edgeTermC derivative x1 x2 y1 y2 r1 r2 l2 z potential)

/-- cexpressions.pyx:100-135 `mesh_potential`. -/
noncomputable def meshPotentialC (x : List V3) (points : List V2) (edges : List (Nat × Nat)) (polygons : List Nat)
    (potentials : List ℝ) (derivative nmax : Nat) (h : ℝ) (out : Option (List (List ℝ))) : List (List ℝ) :=
  (edges.zip polygons).foldl (fun out e =>
    List.zipWith (fun p row => (coverRange nmax).foldl
      (meshStepC derivative h (points.getD e.1.1 ⟨0, 0⟩) (points.getD e.1.2 ⟨0, 0⟩) (potentials.getD e.2 0) p) row) x out)
    (out.getD (zeroRows x.length derivative))

/-- expressions.py:120-172 `edge_potential_expr` with its divisions by zero: `none` stands for a result that is not a
number (`ZeroDivisionError` if compiled by numba or between Python floats, `nan` between numpy floats).
Orders above 5 have no branch and add nothing. -/
noncomputable def edgeTermPy (derivative : Nat) (x1 x2 y1 y2 r1 r2 l2 z a : ℝ) : Option (List ℝ) :=
  match derivative with
  | 0 =>
    if |z| * (r1 * r2 + x1 * x2 + y1 * y2 + |z| * (|z| + r1 + r2)) = 0 then none
    else some (edgeTerm 0 x1 x2 y1 y2 r1 r2 l2 z a)
  | d =>
    if d ≤ 5 ∧ (r1 * r2 = 0 ∨ (r1 + r2) ^ 2 - l2 = 0) then none
    else some (edgeTerm d x1 x2 y1 y2 r1 r2 l2 z a)

/-- expressions.py:187-196, one pass of the vertex loop. -/
noncomputable def polyVertexStepPy (derivative : Nat) (potential z : ℝ) (p : V3) (st : EdgeState) (q : V2) :
    Option EdgeState :=
  let x1 := st.x2
  let y1 := st.y2
  let r1 := st.r2
  let x2 := p.x - q.x
  let y2 := p.y - q.y
  let r2 := √(x2 ^ 2 + y2 ^ 2 + z ^ 2)
  let l2 := (x1 - x2) ^ 2 + (y1 - y2) ^ 2
  (edgeTermPy derivative x1 x2 y1 y2 r1 r2 l2 z potential).map fun t => ⟨x2, y2, r2, addRow st.row t⟩

/-- expressions.py:182-196, one image.  An empty polygon raises `IndexError`. -/
noncomputable def polyImageStepPy (derivative : Nat) (potential h : ℝ) (polygon : List V2) (p : V3)
    (row : List ℝ) (m : ℤ) : Option (List ℝ) :=
  match polygon.getLast? with
  | none => none
  | some last =>
    let x2 := p.x - last.x
    let y2 := p.y - last.y
    let z := p.z + 2 * m * h
    let r2 := √(x2 ^ 2 + y2 ^ 2 + z ^ 2)
    (polygon.foldlM (polyVertexStepPy derivative potential z p) ⟨x2, y2, r2, row⟩).map (·.row)

/-- expressions.py:175-209 `_polygon_potential` and `polygon_potential`: all positions get a number, or `none`. -/
noncomputable def polygonPotentialPy (x : List V3) (polygons : List (List V2)) (potential : ℝ)
    (derivative nmax : Nat) (h : ℝ) (out : Option (List (List ℝ))) : Option (List (List ℝ)) :=
  polygons.foldlM (fun out polygon =>
    (x.zip out).mapM fun pr => (coverRange nmax).foldlM (polyImageStepPy derivative potential h polygon pr.1) pr.2)
    (out.getD (zeroRows x.length derivative))

end Electrode
