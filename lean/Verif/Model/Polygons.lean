import Verif.Model.Electrode
import Mathlib.Data.List.Sort
import Mathlib.Algebra.Order.Floor.Ring
import Mathlib.Analysis.Real.Sqrt

/-
Model of `electrode/polygons.py` (the parts that are not calls of the geometry library).
-/
namespace Electrode

/-! ### `assign_to_pad` -/

/-- polygons.py:640-645: the loop over the polygons that are left, for one pad; `hit i` stands for `p.intersects(self[i][1])`.
The first polygon that is hit is taken out of `polys` and the loop ends. -/
def padLoop (hit : Nat → Bool) (polys : List Nat) : Option Nat × List Nat :=
  match polys.find? hit with
  | some i => (some i, polys.erase i)
  | none => (none, polys)

/-- polygons.py:638-647: the loop over the pads, numbered from `pad`; `hit pad i` stands for the intersection test of pad
`pad` with polygon `i`. -/
def padsLoop (hit : Nat → Nat → Bool) (pad : Nat) : Nat → List Nat → List (Option Nat × Nat) × List Nat
  | 0, polys => ([], polys)
  | k + 1, polys =>
    match padLoop (hit pad) polys with
    | (some i, rest) =>
      if rest = [] then ([(some pad, i)], [])
      else
        let r := padsLoop hit (pad + 1) k rest
        ((some pad, i) :: r.1, r.2)
    | (none, rest) => if rest = [] then ([], []) else padsLoop hit (pad + 1) k rest

/-- polygons.py:623-649 `Polygons.assign_to_pad` for `npads` pads and `npolys` polygons: the list of what the iterator yields -/
def assignToPad (hit : Nat → Nat → Bool) (npads npolys : Nat) : List (Option Nat × Nat) :=
  let r := padsLoop hit 0 npads (List.range npolys)
  r.1 ++ r.2.map fun i => (none, i)

/-- polygons.py:332-337, end of `from_data`: fragments renamed by the pads that hit them (`names.get(i, fragments[j][0])`).
`frags` are the names of the fragments with the fragments, `names` the given names. -/
def nameFragments {G : Type*} (hit : Nat → Nat → Bool) (names : List String) (frags : List (String × G)) : List (String × G) :=
  if names = [] then frags
  else
    (assignToPad hit names.length frags.length).filterMap fun p =>
      (frags[p.2]?).map fun f => ((p.1.bind fun i => names[i]?).getD f.1, f.2)

/-! ### overlaps -/

/-- polygons.py:456-463: the operations of the geometry library that `remove_overlaps` uses -/
structure GeomLib (G : Type*) where
  /-- `geometry.Point()` -/
  empty : G
  inter : G → G → G
  union : G → G → G
  diff : G → G → G
  valid : G → Bool
  area : G → ℝ

/-- polygons.py:457: `np.finfo(np.float32).eps` -/
noncomputable def eps32 : ℝ := 1 / 2 ^ 23

/-- polygons.py:456-460: the polygon that is kept for `pi`, given the union `acc` of the preceding ones -/
noncomputable def overlapFree {G : Type*} (L : GeomLib G) (acc pi : G) : G :=
  open Classical in
  let pa := L.inter acc pi
  if L.valid pa ∧ eps32 < L.area pa then
    let pc := L.diff pi pa
    if L.valid pc then pc else pi
  else pi

/-- polygons.py:455-464: the loop of `remove_overlaps` -/
noncomputable def overlapLoop {G : Type*} (L : GeomLib G) : G → List (String × G) → List (String × G)
  | _, [] => []
  | acc, (n, pi) :: t =>
    let pi' := overlapFree L acc pi
    let acca := L.union acc pi'
    (n, pi') :: overlapLoop L (if L.valid acca then acca else acc) t

/-- polygons.py:445-465 `Polygons.remove_overlaps` -/
noncomputable def removeOverlaps {G : Type*} (L : GeomLib G) (ps : List (String × G)) : List (String × G) :=
  overlapLoop L L.empty ps

/-! ### systems -/

/-- polygons.py:132, 159-170: a shapely polygon: the closed coordinate lists of its exterior and of its interiors -/
structure GPoly where
  ext : List V2
  ints : List (List V2)

/-- polygons.py:142-143: what `unary_union` gives: a polygon or a collection -/
inductive Geom
  | polygon (p : GPoly)
  | multi (ps : List GPoly)

/-- polygons.py:108, 122-133, 142: the operations of the geometry library that the conversion uses -/
structure RingLib where
  /-- `Polygon(ext).contains(ring)` -/
  contains : List V2 → List V2 → Bool
  /-- `Polygon.is_valid` -/
  valid : GPoly → Bool
  /-- `Polygon.area` -/
  area : GPoly → ℝ
  unaryUnion : List GPoly → Geom
  /-- `LinearRing.is_ccw` -/
  ccw : List V2 → Bool

/-- polygons.py:108: `geometry.LinearRing(pi)`: the coordinates, closed if they are not; at least three are needed -/
noncomputable def linearRing (p : List V2) : Py (List V2) :=
  open Classical in
  if p.length < 3 then .error .valueError
  else if p.head? = p.getLast? then .ok p
  else .ok (p ++ p.take 1)

/-- polygons.py:103-112: exteriors and interiors of an electrode with their areas -/
noncomputable def splitRings : List (List V2) → Py (List (ℝ × List V2) × List (ℝ × List V2))
  | [] => .ok ([], [])
  | p :: t =>
    open Classical in
    match linearRing p with
    | .error e => .error e
    | .ok r =>
      match splitRings t with
      | .error e => .error e
      | .ok (exts, ints) =>
        let ei := (areaCentroid p).1
        if ei < 0 then .ok (exts, (|ei|, r) :: ints)
        else if 0 < ei then .ok ((|ei|, r) :: exts, ints)
        else .ok (exts, ints)

/-- polygons.py:115-116: `l.sort(key=operator.itemgetter(0))`: stable -/
noncomputable def sortByArea (l : List (ℝ × List V2)) : List (ℝ × List V2) :=
  open Classical in l.mergeSort fun a b => decide (a.1 ≤ b.1)

/-- polygons.py:123-131: the loop over the interiors for one exterior; `i` is the number of the next interior.  Gives the
interiors of this exterior and the new `done`. -/
noncomputable def claimInts (L : RingLib) (exta : ℝ) (ext : List V2) :
    Nat → List (ℝ × List V2) → List Nat → List (List V2) × List Nat
  | _, [], done => ([], done)
  | i, (inta, r) :: t, done =>
    open Classical in
    if i ∈ done then claimInts L exta ext (i + 1) t done
    else if exta ≤ inta then ([], done)
    else if L.contains ext r then
      let c := claimInts L exta ext (i + 1) t (i :: done)
      (r :: c.1, c.2)
    else claimInts L exta ext (i + 1) t done

/-- polygons.py:121-137: the loop over the exteriors -/
noncomputable def groupRings (L : RingLib) (ints : List (ℝ × List V2)) : List (ℝ × List V2) → List Nat → List GPoly
  | [], _ => []
  | (exta, ext) :: t, done =>
    open Classical in
    let c := claimInts L exta ext 0 ints done
    let pi : GPoly := ⟨ext, c.1⟩
    if L.valid pi ∧ 0 < L.area pi then pi :: groupRings L ints t c.2 else groupRings L ints t c.2

/-- polygons.py:99-143, body of the loop of `from_system`: `none` if the electrode is skipped -/
noncomputable def fromElec (L : RingLib) (e : Elec) : Py (Option (String × Geom)) :=
  match e.shape with
  | .polygons paths _ _ =>
    match splitRings paths with
    | .error err => .error err
    | .ok (exts, ints) =>
      if exts = [] then .ok none
      else .ok (some (e.name, L.unaryUnion (groupRings L (sortByArea ints) (sortByArea exts) [])))
  | _ => .ok none

/-- polygons.py:86-144 `Polygons.from_system` -/
noncomputable def fromSystem (L : RingLib) (s : List Elec) : Py (List (String × Geom)) :=
  match pySeq (s.map (fromElec L)) with
  | .error e => .error e
  | .ok l => .ok (l.filterMap id)

/-- `np.array(ring.coords)`, reversed unless its direction is the wanted one, without the last point:
polygons.py:162-165 (`ccw = true`), 166-170 (`ccw = false`) -/
def orientedPath (L : RingLib) (ccw : Bool) (r : List V2) : List V2 :=
  (if L.ccw r = ccw then r else r.reverse).dropLast

/-- polygons.py:159-170: the paths of one polygon -/
noncomputable def polyPaths (L : RingLib) (p : GPoly) : List (List V2) :=
  open Classical in
  if L.valid p = false ∨ L.area p = 0 then []
  else orientedPath L true p.ext :: p.ints.map (orientedPath L false)

/-- polygons.py:154-170, body of the loop of `to_system`; dc, rf and the cover are the defaults of the constructor -/
noncomputable def toElec (L : RingLib) (p : String × Geom) : Elec :=
  let ps := match p.2 with
    | .polygon q => [q]
    | .multi qs => qs
  ⟨p.1, 0, 0, .polygons (ps.flatMap (polyPaths L)) 50 0⟩

/-- polygons.py:146-171 `Polygons.to_system` -/
noncomputable def toSystem (L : RingLib) (ps : List (String × Geom)) : List Elec := ps.map (toElec L)

/-! ### filters and unions -/

/-- polygons.py:564-579 `Polygons.filter` with a test; `rings` says whether the test is applied to the boundaries (`deep`).
Every electrode is given by its list of polygons. -/
def filterPolys (testRing : String → List V2 → Bool) (testPoly : String → GPoly → Bool) (deep : Bool)
    (ps : List (String × List GPoly)) : List (String × List GPoly) :=
  ps.filterMap fun p =>
    let pe := if deep then
        p.2.filterMap fun q => if testRing p.1 q.ext then some (⟨q.ext, q.ints.filter (testRing p.1)⟩ : GPoly) else none
      else p.2.filter (testPoly p.1)
    if pe = [] then none else some (p.1, pe)

/-- polygons.py:560-579 `Polygons.filter`.  The test takes a boundary or a polygon; without a test and without `deep` the first polygon
raises.  `area` is the area of the polygon within a boundary. -/
noncomputable def polyFilter (area : List V2 → ℝ) (test : Option ((String → List V2 → Bool) × (String → GPoly → Bool))) (deep : Bool)
    (ps : List (String × List GPoly)) : Py (List (String × List GPoly)) :=
  open Classical in
  match test with
  | some t => .ok (filterPolys t.1 t.2 deep ps)
  | none =>
    if deep then .ok (filterPolys (fun _ r => decide (1 / 100 < |area r|)) (fun _ _ => true) true ps)
    else if ∀ p ∈ ps, p.2 = [] then .ok []
    else .error .typeError

/-- polygons.py:495-496: `d.setdefault(n, []).append(pi)` on an insertion-ordered dictionary -/
def setdefaultAppend {G : Type*} (d : List (String × List G)) (n : String) (g : G) : List (String × List G) :=
  match d with
  | [] => [(n, [g])]
  | (m, l) :: t => if m = n then (m, l ++ [g]) :: t else (m, l) :: setdefaultAppend t n g

/-- polygons.py:492-497 `Polygons.unify_by_name`; dictionaries keep the order of insertion -/
def unifyByName {G : Type*} (unaryUnion : List G → G) (ps : List (String × G)) : List (String × G) :=
  (ps.foldl (fun d p => setdefaultAppend d p.1 p.2) []).map fun p => (p.1, unaryUnion p.2)

/-! ### pads -/

/-- polygons.py:714: `int(x)` of a float: towards zero -/
noncomputable def pyInt (x : ℝ) : Int := open Classical in if 0 ≤ x then ⌊x⌋ else ⌈x⌉

/-- polygons.py:722: `l[s:] + l[:s]` for any integer `s` -/
def sliceRotate {α : Type*} (l : List α) (s : Int) : List α :=
  let k := if 0 ≤ s then s.toNat else (s + l.length).toNat
  l.drop k ++ l.take k

/-- polygons.py:692-724 `square_pads`.  `np.arange` of the half-integer bounds has the exact length. -/
noncomputable def squarePads (step edge : ℝ) (odd : Bool) (startCorner : Int) : Py (List V2) :=
  open Classical in
  if step = 0 then .error .zeroDivisionError
  else
    let n := pyInt (edge / step)
    let n := if odd then n + (n % 2 + 1) else n
    let p := (List.range n.toNat).map fun k : Nat => (-(n : ℝ) / 2 + 1 / 2 + k) * step
    if (p.length : Int) ≠ n then .error .assertionError
    else
      let q := edge / 2 - step / 2
      let edges : List (List V2) := [p.map fun t => ⟨-q, -t⟩, p.map fun t => ⟨t, -q⟩, p.map fun t => ⟨q, t⟩,
        p.map fun t => ⟨-t, q⟩]
      .ok (sliceRotate edges startCorner).flatten

end Electrode
