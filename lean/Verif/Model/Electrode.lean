import Verif.Model.Tensor
import Verif.Model.Expressions
import Mathlib.Data.List.Rotate

/-
Model of `electrode/electrode.py` (the electrode classes) and `utils.area_centroid`.
-/
namespace Electrode
open Real

/-- utils.py:528: `np.roll(l, -1, axis=0)` -/
def rollLeft {α : Type*} (l : List α) : List α := l.rotate 1

/-- electrode.py:377: `np.roll(l, 1, 0)` -/
def rollRight {α : Type*} (l : List α) : List α := l.rotate (l.length - 1)

/-- utils.py:511-532 `area_centroid`.  Division by a zero area gives `nan` in numpy and `0`
here. -/
noncomputable def areaCentroid (p1 : List V2) : ℝ × V2 :=
  let p2 := rollLeft p1
  let r := List.zipWith (fun p q : V2 => p.x * q.y - q.x * p.y) p1 p2
  let a := r.sum / 2
  let cx := (List.zipWith (fun s c => s * c) (List.zipWith (fun p q : V2 => p.x + q.x) p1 p2) r).sum / (6 * a)
  let cy := (List.zipWith (fun s c => s * c) (List.zipWith (fun p q : V2 => p.y + q.y) p1 p2) r).sum / (6 * a)
  (a, ⟨cx, cy⟩)

/-- electrode.py:532-534: A four-dimensional array of shape `(n, m, k, l)`; only entries within the shape are
ever read. -/
structure Arr4 where
  (n m k l : Nat)
  val : Nat → Nat → Nat → Nat → ℝ

/-- electrode.py:534-535: Clamping of a coordinate to `[0, n-1]`, `scipy.ndimage` `mode="nearest"`. -/
noncomputable def clampCoord (n : Nat) (c : ℝ) : ℝ := max 0 (min c ((n : ℝ) - 1))

/-- electrode.py:534-535: One-dimensional linear interpolation (`order=1`) with nearest-edge continuation of the
samples `f 0 .. f (n-1)` at coordinate `c`. -/
noncomputable def interp1 (n : Nat) (f : Nat → ℝ) (c : ℝ) : ℝ :=
  let c' := clampCoord n c
  let i := ⌊c'⌋₊
  (1 - (c' - i)) * f i + (c' - i) * f (min (i + 1) (n - 1))

/-- electrode.py:534-535: External: `scipy.ndimage.map_coordinates(dat[..., i], x.T, order=1, mode="nearest")` at one
coordinate triple, modelled as tensor-product linear interpolation. -/
noncomputable def mapCoordinates (d : Arr4) (i : Nat) (c : V3) : ℝ :=
  interp1 d.n (fun a => interp1 d.m (fun b => interp1 d.k (fun e => d.val a b e i) c.z) c.y) c.x

/-- The data specific to each electrode class: electrode.py:133-154 `CoverElectrode`,
197-230 `PointPixelElectrode`, 261-282 `PolygonPixelElectrode`, 330-364
`MeshPixelElectrode`, 389-414 `GridElectrode`. -/
inductive Shape
  | cover (height : ℝ)
  | points (points : List V2) (areas : List ℝ) (coverHeight : ℝ) (coverNmax : Nat)
  | polygons (paths : List (List V2)) (coverHeight : ℝ) (coverNmax : Nat)
  | mesh (points : List V2) (edges : List (Nat × Nat)) (polys : List Nat) (potentials : List ℝ)
      (coverHeight : ℝ) (coverNmax : Nat)
  | grid (data : List Arr4) (origin spacing : V3)

/-- electrode.py:39-62 `Electrode`: name, dc, rf and the class-specific data. -/
structure Elec where
  name : String
  dc : ℝ
  rf : ℝ
  shape : Shape

/-- electrode.py:156-165 `CoverElectrode.potential`. -/
noncomputable def coverPotential (height : ℝ) (x : List V3) (derivative : Nat) (potential : ℝ)
    (out : Option (List (List ℝ))) : List (List ℝ) :=
  let out := out.getD (zeroRows x.length derivative)
  if derivative = 0 then
    List.zipWith (fun p row => row.modify 0 fun o => o + potential * p.z / height) x out
  else if derivative = 1 then
    List.zipWith (fun _ row => row.modify 2 fun o => o + potential / height) x out
  else out

/-- electrode.py:528-536 `GridElectrode.potential`.  Missing data order: `IndexError`; too
few components in the last axis: `IndexError` from `dat[..., i]`. -/
noncomputable def gridPotential (data : List Arr4) (origin spacing : V3) (x : List V3) (derivative : Nat)
    (potential : ℝ) (out : Option (List (List ℝ))) : Py (List (List ℝ)) :=
  let x := x.map fun p => (⟨(p.x - origin.x) / spacing.x, (p.y - origin.y) / spacing.y,
    (p.z - origin.z) / spacing.z⟩ : V3)
  let out := out.getD (zeroRows x.length derivative)
  match pyGet data derivative with
  | .error e => .error e
  | .ok dat =>
    if dat.l < 2 * derivative + 1 then .error .indexError
    else .ok ((List.range (2 * derivative + 1)).foldl (fun out i =>
      List.zipWith (fun c row => row.modify i fun o => o + potential * mapCoordinates dat i c) x out) out)

/-- The `potential` methods of the electrode classes: electrode.py:156-165, 256-258, 325-327,
383-386, 528-536. -/
noncomputable def Elec.potential (e : Elec) (x : List V3) (derivative : Nat) (potential : ℝ)
    (out : Option (List (List ℝ))) : Py (List (List ℝ)) :=
  match e.shape with
  | .cover height => .ok (coverPotential height x derivative potential out)
  | .points ps as ch cn => .ok (pointPotential x ps as potential derivative cn ch out)
  | .polygons paths ch cn => .ok (polygonPotential x paths potential derivative cn ch out)
  | .mesh ps es pg pots ch cn =>
    .ok (meshPotential x ps es pg (pots.map (· * potential)) derivative cn ch out)
  | .grid data origin spacing => gridPotential data origin spacing x derivative potential out

/-- electrode.py:284-285 `PolygonPixelElectrode.orientations`, one entry per path. -/
noncomputable def orientations (paths : List (List V2)) : List ℝ :=
  paths.map fun p => (SignType.sign (areaCentroid p).1 : ℝ)

/-- electrode.py:307-323 `PolygonPixelElectrode.to_points`; not defined (`AttributeError`) on
the other classes. -/
noncomputable def Elec.toPoints (e : Elec) : Py Elec :=
  match e.shape with
  | .polygons paths ch cn =>
    let ac := paths.map areaCentroid
    .ok ⟨e.name, e.dc, e.rf, .points (ac.map (·.2)) (ac.map (·.1)) ch cn⟩
  | _ => .error .attributeError

/-- electrode.py:368-371: accumulator of `from_polygon_system` -/
structure MeshAcc where
  points : List V2
  edges : List (Nat × Nat)
  polygons : List Nat
  potentials : List ℝ

/-- electrode.py:374-378, body of the loop over the paths of an electrode -/
def MeshAcc.addPath (acc : MeshAcc) (path : List V2) : MeshAcc :=
  let ei := (List.range path.length).map (acc.points.length + ·)
  { acc with
    points := acc.points ++ path
    edges := acc.edges ++ (rollRight ei).zip ei
    polygons := acc.polygons ++ List.replicate ei.length acc.potentials.length }

/-- electrode.py:372-379, the loop over the electrodes of the system -/
def MeshAcc.addElec (acc : MeshAcc) (e : Elec) : Py MeshAcc :=
  match e.shape with
  | .polygons paths _ _ =>
    let acc := paths.foldl MeshAcc.addPath acc
    .ok { acc with potentials := acc.potentials ++ [e.dc] }
  | _ => .error .assertionError

/-- electrode.py:366-381 `MeshPixelElectrode.from_polygon_system`; cover parameters and name
are the constructor defaults (`cover_height=50., cover_nmax=0, name="", rf=0.`). -/
def fromPolygonSystem (s : List Elec) : Py Elec :=
  match s.foldlM MeshAcc.addElec ⟨[], [], [], []⟩ with
  | .error e => .error e
  | .ok acc => .ok ⟨"", 1, 0, .mesh acc.points acc.edges acc.polygons acc.potentials 50 0⟩

/-- electrode.py:524: `np.gradient` along one axis of length `n` with sample distance `h`: central differences
inside, one-sided first differences at both ends. -/
noncomputable def gradient1 (n : Nat) (h : ℝ) (f : Nat → ℝ) (i : Nat) : ℝ :=
  if i = 0 then (f 1 - f 0) / h
  else if i + 1 = n then (f i - f (i - 1)) / h
  else (f (i + 1) - f (i - 1)) / (2 * h)

/-- electrode.py:524: `np.gradient(odata[..., j], *self.spacing)[k]` at a grid index -/
noncomputable def gradient3 (d : Arr4) (spacing : V3) (j axis : Nat) (a b c : Nat) : ℝ :=
  match axis with
  | 0 => gradient1 d.n spacing.x (fun t => d.val t b c j) a
  | 1 => gradient1 d.m spacing.y (fun t => d.val a t c j) b
  | _ => gradient1 d.k spacing.z (fun t => d.val a b t j) c

/-- electrode.py:521-525, one pass of the loop of `derive`: the component and the axis to differentiate.
`np.gradient` raises `ValueError` if an axis has fewer than two samples. -/
def deriveSource (o : Arr4) (deriv i : Nat) : Py (Nat × Nat) :=
  match constructDerivative deriv i with
  | .error e => .error e
  | .ok ((_, j), k) =>
    if o.l ≤ j then .error .indexError
    else if o.n < 2 ∨ o.m < 2 ∨ o.k < 2 then .error .valueError
    else .ok (j, k)

/-- electrode.py:507-526 `GridElectrode.derive`.  `self.data[deriv-1]` with `deriv = 0` is
Python's `self.data[-1]`. -/
noncomputable def gridDerive (data : List Arr4) (spacing : V3) (deriv : Nat) : Py Arr4 :=
  match pyGetInt data ((deriv : Int) - 1) with
  | .error e => .error e
  | .ok o =>
    match pySeq ((List.range (2 * deriv + 1)).map (deriveSource o deriv)) with
    | .error e => .error e
    | .ok jk => .ok ⟨o.n, o.m, o.k, 2 * deriv + 1, fun a b c i =>
        gradient3 o spacing (jk.getD i (0, 0)).1 (jk.getD i (0, 0)).2 a b c⟩

/-- electrode.py:498-505, one pass of the loop of `generate`. -/
noncomputable def gridGenStep (spacing : V3) (data : List Arr4) (deriv : Nat) : Py (List Arr4) :=
  match (if data.length < deriv + 1 then
      match gridDerive data spacing deriv with
      | .error e => Except.error e
      | .ok d => Except.ok (data ++ [d])
    else Except.ok data) with
  | .error e => .error e
  | .ok data =>
    match data[deriv]? with
    | none => .error .indexError
    | some d =>
      if d.l ≠ 2 * deriv + 1 then .error .assertionError
      else if deriv = 0 then .ok data
      else match data[deriv - 1]? with
        | none => .error .indexError
        | some p => if (d.n, d.m, d.k) = (p.n, p.m, p.k) then .ok data else .error .assertionError

/-- electrode.py:485-505 `GridElectrode.generate`. -/
noncomputable def gridGenerate (data : List Arr4) (spacing : V3) (maxderiv : Nat) : Py (List Arr4) :=
  (List.range maxderiv).foldlM (gridGenStep spacing) data

end Electrode
