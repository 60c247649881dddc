import Verif.Model.Polygons
import Mathlib.Analysis.SpecialFunctions.Log.Base
import Mathlib.Algebra.Order.Round

/-
Model of `electrode/polygons.py`: `from_data`, `to_gds`, `from_gds`, and the methods that apply one operation of the geometry library to
every electrode.
-/
namespace Electrode

/-! ### `from_data` -/

/-- polygons.py:298-331: the operations of the geometry library that `from_data` uses; a path is a list of points -/
structure DataLib (G : Type) extends GeomLib G where
  /-- the polygon with these corners -/
  corners : List V2 → G
  /-- `MultiLineString(paths).buffer(buffer, 1)` -/
  strips : List (List V2) → ℝ → G
  /-- `ops.polygonize` of the union of two collections of paths -/
  enclosed : List (List V2) → List (List V2) → List G
  /-- `ops.polygonize([path])` -/
  polygonize : List V2 → List G
  /-- `geometry.polygon.orient(poly, 1)` -/
  orient : G → G
  /-- the polygons of a collection, or the polygon itself -/
  parts : G → List G
  /-- exterior and interiors of a polygon -/
  rings : G → GPoly
  /-- `geometry.Polygon(exterior, interiors)` -/
  polygon : GPoly → G
  /-- `Point(x, y).intersects(poly)` -/
  hit : V2 → G → Bool

/-- polygons.py:298-299: a square around the origin -/
noncomputable def squareCorners (edge : ℝ) : List V2 :=
  [⟨edge / 2, edge / 2⟩, ⟨-edge / 2, edge / 2⟩, ⟨-edge / 2, -edge / 2⟩, ⟨edge / 2, -edge / 2⟩]

/-- polygons.py:328 `int(-np.log10(buffer)-1)` -/
noncomputable def bufferDigits (buffer : ℝ) : Int := pyInt (-Real.logb 10 buffer - 1)

/-- polygons.py:328: `np.around(x, digits)`.  Ties are rounded up here; numpy rounds them to even. -/
noncomputable def npAround (digits : Int) (x : ℝ) : ℝ := round (x * 10 ^ digits) / 10 ^ digits

/-- polygons.py:328-330 rounding of all coordinates of a polygon -/
noncomputable def aroundPoly (digits : Int) (p : GPoly) : GPoly :=
  let f : V2 → V2 := fun q => ⟨npAround digits q.x, npAround digits q.y⟩
  ⟨p.ext.map f, p.ints.map fun r => r.map f⟩

/-- polygons.py:311-317: the loops over the polygons given: fragments, and what is left of the field.  The first polygon that is not
valid raises. -/
def cutPolys {G : Type} (L : DataLib G) (field0 : G) (field : G) : List (String × G) → Py (List (String × G) × G)
  | [] => .ok ([], field)
  | (name, poly) :: t =>
    if L.valid poly = false then .error .assertionError
    else
      let p := L.inter (L.orient poly) field0
      match cutPolys L field0 (L.diff field p) t with
      | .error e => .error e
      | .ok r => .ok ((name, p) :: r.1, r.2)

/-- polygons.py:258-337 `Polygons.from_data`, for a positive `buffer` (the logarithm) -/
noncomputable def fromData {G : Type} (L : DataLib G) (polys : List (String × List V2)) (gaps routes bridges : List (List V2))
    (names : List (String × V2)) (edge buffer : ℝ) : Py (List (String × G)) :=
  let field0 := L.corners (squareCorners edge)
  let field1 := if gaps = [] then field0 else L.diff field0 (L.strips gaps buffer)
  let field2 := if routes = [] ∨ bridges = [] then field1
    else (L.enclosed routes bridges).foldl (fun f p => L.union f (L.inter p field0)) field1
  match cutPolys L field0 field2 (polys.flatMap fun p => (L.polygonize p.2).map fun g => (p.1, g)) with
  | .error e => .error e
  | .ok (frags, field3) =>
    let field4 := if routes = [] then field3 else L.diff field3 (L.strips routes buffer)
    if L.valid field4 = false then .error .assertionError
    else
      let rest := if gaps = [] ∧ routes = [] then [] else L.parts field4
      let all := frags ++ rest.map fun p => ("", L.polygon (aroundPoly (bufferDigits buffer) (L.rings p)))
      .ok (nameFragments (fun i j => match names[i]?, all[j]? with | some n, some f => L.hit n.2 f.2 | _, _ => false)
        (names.map Prod.fst) all)

/-! ### GDS files -/

/-- polygons.py:230-254, 395-429: the elements of a GDS structure that are used, and others.  `prop` is the property with the number 951, where the name is kept. -/
inductive GdsElem
  | boundary (layer dataType : Int) (xy : List V2) (prop : Option String)
  | path (layer dataType : Int) (xy : List V2) (width : Int)
  | text (layer textType : Int) (xy : List V2) (string : String) (prop : Option String)
  | other

/-- polygons.py:220, 372-375: a GDS library: its unit and its structures -/
structure GdsLib where
  unit : ℝ
  structures : List (String × List GdsElem)

/-- polygons.py:339-345, 391-392: the arguments of `to_gds` that say where things go; `clip` is the intersection with the square of the given edge length, which
raises if the result is not a polygon -/
structure GdsArgs where
  scale : ℝ
  polyLayer : Option (Int × Int)
  gapLayer : Option (Int × Int)
  textLayer : Option (Int × Int)
  physUnit : ℝ
  name : String
  clip : Option (GPoly → Py GPoly)
  gapWidth : ℝ

/-- polygons.py:393-394, 423-424: coordinates in units of the file -/
noncomputable def gdsOut (A : GdsArgs) (xy : List V2) : List V2 := xy.map fun p => ⟨p.x * A.scale / A.physUnit, p.y * A.scale / A.physUnit⟩

/-- polygons.py:384, 398: `name.encode("ascii")`: `UnicodeEncodeError` is `user 1` -/
def encodeAscii (s : String) : Py String := if s.toList.all (fun c => c.toNat < 128) then .ok s else .error (.user 1)

/-- polygons.py:387-407: one polygon: elements, and paths for the gaps -/
noncomputable def polyToGds (valid empty : GPoly → Bool) (A : GdsArgs) (name : String) (poly : GPoly) : Py (List GdsElem × List (List V2)) :=
  if valid poly = false then .error .assertionError
  else if empty poly then .ok ([], [])
  else
    match (match A.clip with | some c => c poly | none => .ok poly) with
    | .error e => .error e
    | .ok poly =>
      let xy := gdsOut A poly.ext
      let prop := if name = "" then none else some name
      let texts := match A.textLayer with
        | some t => if name = "" then [] else [GdsElem.text t.1 t.2 (xy.take 1) name prop]
        | none => []
      let bounds := match A.polyLayer with
        | some t => [GdsElem.boundary t.1 t.2 xy prop]
        | none => []
      .ok (texts ++ bounds, poly.ext :: poly.ints)

/-- polygons.py:381-407: the loops over electrodes and polygons.  A name that is not empty is encoded once for each electrode. -/
noncomputable def polysToGds (valid empty : GPoly → Bool) (A : GdsArgs) : List (String × List GPoly) → Py (List GdsElem × List (List V2))
  | [] => .ok ([], [])
  | (name, polys) :: t =>
    match (if name = "" then .ok "" else encodeAscii name), pySeq (polys.map (polyToGds valid empty A name)) with
    | .error e, _ => .error e
    | .ok _, .error e => .error e
    | .ok _, .ok rs =>
      match polysToGds valid empty A t with
      | .error e => .error e
      | .ok r => .ok ((rs.map Prod.fst).flatten ++ r.1, (rs.map Prod.snd).flatten ++ r.2)

/-- polygons.py:339-430 `Polygons.to_gds`.  Every electrode is given by its list of polygons. -/
noncomputable def toGds (valid empty : GPoly → Bool) (A : GdsArgs) (ps : List (String × List GPoly)) : Py GdsLib :=
  match encodeAscii A.name, polysToGds valid empty A ps with
  | .error e, _ => .error e
  | .ok _, .error e => .error e
  | .ok n, .ok (elems, gaps) =>
    let paths := match A.gapLayer with
      | some g => gaps.map fun loop => GdsElem.path g.1 g.2 (gdsOut A loop) (pyInt (A.gapWidth * A.scale / A.physUnit))
      | none => []
    .ok ⟨A.physUnit, [(n, elems ++ paths)]⟩

/-- polygons.py:178-182: the arguments of `from_gds` that select things -/
structure GdsSelect where
  scale : ℝ
  name : Option String
  polyLayers : Option (List (Int × Int))
  gapLayers : Option (List (Int × Int))
  routeLayers : List (Int × Int)
  bridgeLayers : List (Int × Int)
  nameLayers : Option (List Int)

/-- polygons.py:221-225: what `from_gds` collects for `from_data` -/
structure GdsData where
  polys : List (String × List V2)
  gaps : List (List V2)
  routes : List (List V2)
  bridges : List (List V2)
  names : List (String × V2)

/-- polygons.py:231: coordinates in units of the scale -/
noncomputable def gdsIn (unit scale : ℝ) (xy : List V2) : List V2 := xy.map fun p => ⟨p.x * unit / scale, p.y * unit / scale⟩

/-- polygons.py:236, 242, 251: `None` selects everything -/
def selected {α : Type} [DecidableEq α] (l : Option (List α)) (a : α) : Bool :=
  match l with
  | none => true
  | some l => decide (a ∈ l)

/-- polygons.py:230-254: one element.  A text without position is an `IndexError`. -/
noncomputable def gdsElem (unit : ℝ) (S : GdsSelect) (d : GdsData) (e : GdsElem) : Py GdsData :=
  match e with
  | .boundary l t xy prop =>
    .ok (if selected S.polyLayers (l, t) then { d with polys := d.polys ++ [(prop.getD "", gdsIn unit S.scale xy)] } else d)
  | .path l t xy _ =>
    .ok (if xy.length < 2 then d
      else if selected S.gapLayers (l, t) then { d with gaps := d.gaps ++ [gdsIn unit S.scale xy] }
      else if (l, t) ∈ S.routeLayers then { d with routes := d.routes ++ [gdsIn unit S.scale xy] }
      else if (l, t) ∈ S.bridgeLayers then { d with bridges := d.bridges ++ [gdsIn unit S.scale xy] }
      else d)
  | .text l _ xy s _ =>
    if selected S.nameLayers l then
      match gdsIn unit S.scale xy with
      | [] => .error .indexError
      | p :: _ => .ok { d with names := d.names ++ [(s, p)] }
    else .ok d
  | .other => .ok d

/-- polygons.py:226-229: the loop that looks for the structure: it stops at the first that fits; if there is none, the last one stays -/
def findStructure (name : Option String) : List (String × List GdsElem) → Option (List GdsElem)
  | [] => none
  | (n, es) :: t =>
    if name = none ∨ name = some n then some es
    else
      match findStructure name t with
      | some r => some r
      | none => some es

/-- polygons.py:178-254 `Polygons.from_gds` up to the call of `from_data`.  Without any structure the name `stru` is unbound. -/
noncomputable def gdsRead (S : GdsSelect) (lib : GdsLib) : Py GdsData :=
  match findStructure S.name lib.structures with
  | none => .error .unboundLocalError
  | some es => es.foldlM (gdsElem lib.unit S) ⟨[], [], [], [], []⟩

/-- polygons.py:178-255 `Polygons.from_gds` -/
noncomputable def fromGds {G : Type} (L : DataLib G) (S : GdsSelect) (edge buffer : ℝ) (lib : GdsLib) : Py (List (String × G)) :=
  match gdsRead S lib with
  | .error e => .error e
  | .ok d => fromData L d.polys d.gaps d.routes d.bridges d.names edge buffer

/-! ### operations on every electrode -/

/-- polygons.py:432-443 `Polygons.validate` -/
def validatePolys {G : Type} (valid : G → Bool) (ps : List (String × G)) : Py Unit :=
  if ps.all (fun p => valid p.2) then .ok () else .error .valueError

/-- polygons.py:467-490 `Polygons.add_gaps`; `buffer g d` is `g.buffer(d, 1)` -/
noncomputable def addGaps {G : Type} (valid : G → Bool) (buffer : G → ℝ → G) (gapsize : ℝ) (ps : List (String × G)) : List (String × G) :=
  ps.map fun p => (p.1, if valid (buffer p.2 (-gapsize / 2)) then buffer p.2 (-gapsize / 2) else p.2)

/-- polygons.py:514-538 `Polygons.simplify`; `simp g d` is `g.simplify(d, preserve_topology=...)` -/
noncomputable def simplifyPolys {G : Type} (valid : G → Bool) (buffer simp : G → ℝ → G) (b : ℝ) (ps : List (String × G)) :
    List (String × G) :=
  open Classical in
  if b = 0 then addGaps valid buffer b ps else ps.map fun p => (p.1, simp p.2 b)

/-- polygons.py:499-512 `Polygons.unify`; `geoms` are the polygons of a collection, or the polygon itself -/
def unifyPolys {G : Type} (geoms : G → List G) (unaryUnion : List G → G) (ps : List (String × G)) : List (String × G) :=
  ps.map fun p => (p.1, unaryUnion (geoms p.2))

/-- polygons.py:674-684 `Polygons.restrict` -/
def restrictPolys {G : Type} (L : GeomLib G) (g : G) (ps : List (String × G)) : List (String × G) := ps.map fun p => (p.1, L.inter p.2 g)

/-- polygons.py:686-689 `Polygons.within` -/
noncomputable def withinPolys {G : Type} (L : GeomLib G) (corners : List V2 → G) (edge : ℝ) (ps : List (String × G)) : List (String × G) :=
  let e := edge / 2
  restrictPolys L (corners [⟨e, e⟩, ⟨-e, e⟩, ⟨-e, -e⟩, ⟨e, -e⟩]) ps

/-- polygons.py:651-672 `Polygons.gaps_union`: unions of the boundaries, in lines `B` -/
def gapsUnion {G B : Type} (geoms : G → List G) (boundary : G → B) (empty : B) (union : B → B → B) (ps : List (String × G)) : B :=
  ((ps.flatMap fun p => geoms p.2).map boundary).foldl union empty

end Electrode
