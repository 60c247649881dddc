import Verif.Model.System

/-
The potentials of points and polygons in floating-point arithmetic: the same loops as in `Model/Expressions.lean`, with every operation replaced by
the operation of the machine.  Numbers are the real numbers that the machine numbers stand for.  Integers are exact, a change of sign
and the absolute value are exact.  The order of the operations is that of the text.
-/
namespace Electrode

/-- expressions.py:37-247: The arithmetic of the machine and of its mathematical library. -/
structure FloatOps where
  add : ℝ → ℝ → ℝ
  sub : ℝ → ℝ → ℝ
  mul : ℝ → ℝ → ℝ
  div : ℝ → ℝ → ℝ
  /-- `x**n` -/
  pow : ℝ → Nat → ℝ
  sqrt : ℝ → ℝ
  atan : ℝ → ℝ
  atan2 : ℝ → ℝ → ℝ
  /-- `math.pi`, `M_PI` -/
  pi : ℝ

/-- expressions.py:37-172: Value of an expression of the source, evaluated from left to right. -/
def PExpr.flEval (o : FloatOps) (ρ : Nat → ℝ) : PExpr → ℝ
  | c n => (n : ℝ)
  | v i => ρ i
  | neg a => -flEval o ρ a
  | add a b => o.add (flEval o ρ a) (flEval o ρ b)
  | sub a b => o.sub (flEval o ρ a) (flEval o ρ b)
  | mul a b => o.mul (flEval o ρ a) (flEval o ρ b)
  | pow a n => o.pow (flEval o ρ a) n

/-- expressions.py:37-172: `d[i] += t_i` for every entry of `t` -/
def flAddRow (o : FloatOps) (row t : List ℝ) : List ℝ :=
  row.mapIdx fun i s => match t[i]? with
    | none => s
    | some y => o.add s y

/-- expressions.py:37-85, cexpressions.pyx:138-188 the factor `n` of `point_potential_expr`, e.g. `a/(2*pi/3*r**7)` -/
def flPointNorm (o : FloatOps) (derivative : Nat) (r a : ℝ) : ℝ :=
  match derivative with
  | 0 => o.div a (o.mul (o.mul 2 o.pi) (o.pow r 3))
  | 1 => o.div a (o.mul (o.mul 2 o.pi) (o.pow r 5))
  | 2 => o.div a (o.mul (o.div (o.mul 2 o.pi) 3) (o.pow r 7))
  | 3 => o.div a (o.mul (o.div (o.mul 2 o.pi) 3) (o.pow r 9))
  | 4 => o.div a (o.mul (o.div (o.mul 2 o.pi) 15) (o.pow r 11))
  | 5 => o.div a (o.mul (o.div (o.mul 2 o.pi) 45) (o.pow r 13))
  | _ => 0

/-- expressions.py:37-85 `point_potential_expr`: the increments -/
def flPointTerm (o : FloatOps) (derivative : Nat) (x y z r a : ℝ) : List ℝ :=
  (pointNum derivative).map fun e => o.mul (e.flEval o (pointEnv x y z r)) (flPointNorm o derivative r a)

/-- expressions.py:97-103, cexpressions.pyx:54-61: one pixel, one position, one image -/
def flPointStep (o : FloatOps) (derivative : Nat) (h : ℝ) (q : V2) (a0 : ℝ) (p : V3) (row : List ℝ) (k : ℤ) : List ℝ :=
  let x0 := o.sub p.x q.x
  let y0 := o.sub p.y q.y
  let z0 := o.add p.z (o.mul (2 * k) h)
  let r0 := o.sqrt (o.add (o.add (o.pow x0 2) (o.pow y0 2)) (o.pow z0 2))
  flAddRow o row (flPointTerm o derivative x0 y0 z0 r0 a0)

/-- expressions.py:88-117, cexpressions.pyx:35-62 `point_potential` -/
def flPointPotential (o : FloatOps) (x : List V3) (points : List V2) (areas : List ℝ) (potential : ℝ) (derivative nmax : Nat) (h : ℝ)
    (out : Option (List (List ℝ))) : List (List ℝ) :=
  (points.zip areas).foldl (fun out q =>
    List.zipWith (fun p row => (coverRange nmax).foldl (flPointStep o derivative h q.1 (o.mul q.2 potential) p) row) x out)
    (out.getD (zeroRows x.length derivative))

/-- expressions.py:129-161, cexpressions.pyx:199-232 the factor `n` of `edge_potential_expr`, e.g. `a/(r1*r2)**3/((r1+r2)**2-l2)**2/pi` -/
def flEdgeNorm (o : FloatOps) (derivative : Nat) (r1 r2 l2 a : ℝ) : ℝ :=
  let r := o.mul r1 r2
  let s := o.sub (o.pow (o.add r1 r2) 2) l2
  match derivative with
  | 1 => o.div (o.div (o.mul a (o.add r1 r2)) (o.mul r s)) o.pi
  | 2 => o.div (o.div (o.div a (o.pow r 3)) (o.pow s 2)) o.pi
  | 3 => o.div (o.div (o.div a (o.pow r 5)) (o.pow s 3)) o.pi
  | 4 => o.div (o.div (o.div a (o.pow r 7)) (o.pow s 4)) o.pi
  | 5 => o.div (o.div (o.div a (o.pow r 9)) (o.pow s 5)) o.pi
  | _ => 0

/-- expressions.py:120-172 `edge_potential_expr`: the increments.  If `compiled`, cexpressions.pyx:191-243, where `atan2(y, x)` is used
instead of `atan(y/x)`. -/
def flEdgeTerm (o : FloatOps) (compiled : Bool) (derivative : Nat) (x1 x2 y1 y2 r1 r2 l2 z a : ℝ) : List ℝ :=
  match derivative with
  | 0 =>
    let zs := |z|
    let num := o.mul z (o.sub (o.mul x1 y2) (o.mul y1 x2))
    let den := o.mul zs (o.add (o.add (o.add (o.mul r1 r2) (o.mul x1 x2)) (o.mul y1 y2)) (o.mul zs (o.add (o.add zs r1) r2)))
    [o.mul (if compiled then o.atan2 num den else o.atan (o.div num den)) (o.div a o.pi)]
  | d => (edgeNum d).map fun e => o.mul (e.flEval o (edgeEnv x1 x2 y1 y2 r1 r2 l2 z)) (flEdgeNorm o d r1 r2 l2 a)

/-- expressions.py:101, 186, 193: the distance as it is computed in the loops: `sqrt(x**2 + y**2 + z**2)` -/
def flDist (o : FloatOps) (x y z : ℝ) : ℝ := o.sqrt (o.add (o.add (o.pow x 2) (o.pow y 2)) (o.pow z 2))

/-- expressions.py:187-196, cexpressions.pyx:89-96: one vertex -/
def flVertexStep (o : FloatOps) (compiled : Bool) (derivative : Nat) (potential z : ℝ) (p : V3) (st : EdgeState) (q : V2) : EdgeState :=
  let x1 := st.x2
  let y1 := st.y2
  let r1 := st.r2
  let x2 := o.sub p.x q.x
  let y2 := o.sub p.y q.y
  let r2 := flDist o x2 y2 z
  let l2 := o.add (o.pow (o.sub x1 x2) 2) (o.pow (o.sub y1 y2) 2)
  ⟨x2, y2, r2, flAddRow o st.row (flEdgeTerm o compiled derivative x1 x2 y1 y2 r1 r2 l2 z potential)⟩

/-- expressions.py:182-196, cexpressions.pyx:84-96: one polygon, one position, one image -/
def flImageStep (o : FloatOps) (compiled : Bool) (derivative : Nat) (potential h : ℝ) (polygon : List V2) (p : V3) (row : List ℝ)
    (m : ℤ) : List ℝ :=
  match polygon.getLast? with
  | none => row
  | some last =>
    let x2 := o.sub p.x last.x
    let y2 := o.sub p.y last.y
    let z := o.add p.z (o.mul (2 * m) h)
    let r2 := flDist o x2 y2 z
    (polygon.foldl (flVertexStep o compiled derivative potential z p) ⟨x2, y2, r2, row⟩).row

/-- expressions.py:175-209, cexpressions.pyx:65-97 `polygon_potential` -/
def flPolygonPotential (o : FloatOps) (compiled : Bool) (x : List V3) (polygons : List (List V2)) (potential : ℝ)
    (derivative nmax : Nat) (h : ℝ) (out : Option (List (List ℝ))) : List (List ℝ) :=
  polygons.foldl (fun out polygon =>
    List.zipWith (fun p row => (coverRange nmax).foldl (flImageStep o compiled derivative potential h polygon p) row) x out)
    (out.getD (zeroRows x.length derivative))

/-- expressions.py:222-232, cexpressions.pyx:123-134: one edge of a mesh for one position and image -/
def flMeshStep (o : FloatOps) (compiled : Bool) (derivative : Nat) (h : ℝ) (v1 v2 : V2) (potential : ℝ) (p : V3) (row : List ℝ)
    (k : ℤ) : List ℝ :=
  let z := o.add p.z (o.mul (2 * k) h)
  let x1 := o.sub p.x v1.x
  let y1 := o.sub p.y v1.y
  let r1 := flDist o x1 y1 z
  let x2 := o.sub p.x v2.x
  let y2 := o.sub p.y v2.y
  let r2 := flDist o x2 y2 z
  let l2 := o.add (o.pow (o.sub x1 x2) 2) (o.pow (o.sub y1 y2) 2)
  flAddRow o row (flEdgeTerm o compiled derivative x1 x2 y1 y2 r1 r2 l2 z potential)

/-- expressions.py:212-247, cexpressions.pyx:100-135 `mesh_potential` -/
def flMeshPotential (o : FloatOps) (compiled : Bool) (x : List V3) (points : List V2) (edges : List (Nat × Nat)) (polygons : List Nat)
    (potentials : List ℝ) (derivative nmax : Nat) (h : ℝ) (out : Option (List (List ℝ))) : List (List ℝ) :=
  (edges.zip polygons).foldl (fun out e =>
    List.zipWith (fun p row => (coverRange nmax).foldl
      (flMeshStep o compiled derivative h (points.getD e.1.1 ⟨0, 0⟩) (points.getD e.1.2 ⟨0, 0⟩) (potentials.getD e.2 0) p) row) x out)
    (out.getD (zeroRows x.length derivative))

/-- electrode.py:156-165 `CoverElectrode.potential` -/
def flCoverPotential (o : FloatOps) (height : ℝ) (x : List V3) (derivative : Nat) (potential : ℝ) (out : Option (List (List ℝ))) :
    List (List ℝ) :=
  let out := out.getD (zeroRows x.length derivative)
  if derivative = 0 then
    List.zipWith (fun p row => row.modify 0 fun s => o.add s (o.div (o.mul potential p.z) height)) x out
  else if derivative = 1 then
    List.zipWith (fun _ row => row.modify 2 fun s => o.add s (o.div potential height)) x out
  else out

/-- The `potential` methods of the electrode classes: electrode.py:156-165, 256-258, 325-327, 383-386.  The interpolation of grid
electrodes is not modelled in floating-point arithmetic; its exact result stands for it. -/
noncomputable def Elec.flPotential (o : FloatOps) (compiled : Bool) (e : Elec) (x : List V3) (derivative : Nat) (potential : ℝ)
    (out : Option (List (List ℝ))) : Py (List (List ℝ)) :=
  match e.shape with
  | .cover height => .ok (flCoverPotential o height x derivative potential out)
  | .points ps as ch cn => .ok (flPointPotential o x ps as potential derivative cn ch out)
  | .polygons paths ch cn => .ok (flPolygonPotential o compiled x paths potential derivative cn ch out)
  | .mesh ps es pg pots ch cn =>
    .ok (flMeshPotential o compiled x ps es pg (pots.map (o.mul · potential)) derivative cn ch out)
  | .grid data origin spacing => gridPotential data origin spacing x derivative potential out

/-- system.py:213-216, body of the loop: `if vi: ei.potential(x, derivative, potential=vi, out=pot)` -/
noncomputable def flElectricalStep (o : FloatOps) (compiled : Bool) (x : List V3) (derivative : Nat) (typ : VTyp)
    (pot : List (List ℝ)) (e : Elec) : Py (List (List ℝ)) :=
  open Classical in
  match e.volt typ with
  | none => .ok pot
  | some v => if v = 0 then .ok pot else e.flPotential o compiled x derivative v (some pot)

/-- system.py:181-219 `electrical_potential` with `expand=False` -/
noncomputable def flElectricalPotential (o : FloatOps) (compiled : Bool) (s : List Elec) (x : List V3) (derivative : Nat) (typ : VTyp) :
    Py (List (List ℝ)) :=
  s.foldlM (flElectricalStep o compiled x derivative typ) (zeroRows x.length derivative)

end Electrode
