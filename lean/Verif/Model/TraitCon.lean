import Verif.Model.Py
import Mathlib.Data.Real.Basic
import Mathlib.Data.List.OfFn
import Mathlib.Algebra.BigOperators.Fin

/-
Model of `electrode/constraints.py`.  The variables of cvxopt are modelled by their values: `m` voltages for every point of the path.
An expression is its values and whether cvxopt knows it as affine, convex or concave; a constraint is a relation of an expression to
zero.  `OffsetPotentialConstraint` is in `Model/TraitOffset.lean`.
The base class `Constraint` has `weight`, `equal` and `only_variable`.
-/
namespace Electrode

/-- constraints.py:46-58: what cvxopt knows of an expression -/
inductive Curv
  | affine | convex | concave
  deriving DecidableEq

/-- constraints.py:57, 139: the expression multiplied by a number; zero is affine -/
noncomputable def Curv.scale (c : Curv) (x : ℝ) : Curv :=
  open Classical in
  if x = 0 then .affine
  else if 0 < x then c
  else match c with
    | .affine => .affine
    | .convex => .concave
    | .concave => .convex

/-- constraints.py:46-58, 93-139: a vector expression at some values of the variables -/
structure CvxExpr where
  curv : Curv
  val : List ℝ

/-- constraints.py:46-53: a constraint `v <= 0` or `v >= 0` of all entries, with the values of `v` -/
inductive CvxCtr
  | le (v : List ℝ)
  | ge (v : List ℝ)

/-- constraints.py:46-53: the constraint holds at these values -/
def CvxCtr.sat : CvxCtr → Prop
  | .le v => ∀ x ∈ v, x ≤ 0
  | .ge v => ∀ x ∈ v, 0 ≤ x

/-- constraints.py:53: cvxopt refuses `v <= 0` unless `v` is convex -/
def cvxLe (e : CvxExpr) : Py CvxCtr := if e.curv = .concave then .error .typeError else .ok (.le e.val)

/-- constraints.py:51: cvxopt refuses `v >= 0` unless `v` is concave -/
def cvxGe (e : CvxExpr) : Py CvxCtr := if e.curv = .convex then .error .typeError else .ok (.ge e.val)

/-- constraints.py:46-53 `Constraint.constraints`, given what `values` yields -/
noncomputable def traitConstraints (weight : ℝ) (equal : Bool) (values : Py (List CvxExpr)) : Py (List CvxCtr) :=
  open Classical in
  if weight = 0 then
    match values with
    | .error e => .error e
    | .ok vs => pySeq (vs.flatMap fun v => if equal then [cvxLe v, cvxGe v] else [cvxLe v])
  else .ok []

/-- constraints.py:55-58 `Constraint.objective`: the terms that are added -/
noncomputable def traitObjective (weight : ℝ) (values : Py (List CvxExpr)) : Py (List ℝ) :=
  open Classical in
  if 0 < weight then
    match values with
    | .error e => .error e
    | .ok vs => .ok (vs.map fun v => weight * v.val.sum)
  else .ok []

/-! ### voltages -/

/-- constraints.py:80: the norm across the electrodes -/
inductive TraitNorm
  | none | one | inf
  deriving DecidableEq

/-- constraints.py:79-91, the fields of a `VoltageConstraint`; `delta` is not negative, `elec` is `variable` -/
structure VoltCon where
  weight : ℝ := 1
  equal : Bool := false
  norm : TraitNorm := .none
  delta : Nat := 1
  order : Int := 0
  smooth : Bool := false
  factor : ℝ := 1
  range : Option ℝ := none
  elec : Option Int := none

/-- constraints.py:107, 116-124: Python `l[a:-b]`; `-0` is the start of the list -/
def sliceTo {α : Type} (l : List α) (a b : Nat) : List α := if b = 0 then [] else (l.take (l.length - b)).drop a

/-- constraints.py:134: `cvxopt.modeling.max` of the entries -/
noncomputable def maxL : List ℝ → ℝ
  | [] => 0
  | a :: l => l.foldl max a

/-- constraints.py:96-131: the vectors `obj`, and whether they are convex (absolute values) or affine -/
def voltObj {m : Nat} (order : Int) (delta : Nat) (smooth : Bool) (vars : List (Fin m → ℝ)) : Py (Curv × List (Fin m → ℝ)) :=
  if order = -1 then .ok (.affine, vars)
  else if order = 0 then .ok (.convex, vars.map fun v e => |v e|)
  else if order = 1 then
    .ok (.convex, List.zipWith (fun va vb e => |va e - vb e|) (vars.drop delta) (sliceTo vars 0 delta))
  else if order = 2 then
    let obj := List.zipWith (fun va (p : (Fin m → ℝ) × (Fin m → ℝ)) e => |va e - 2 * p.1 e + p.2 e|) (sliceTo vars 0 (2 * delta))
      (List.zip (sliceTo vars delta delta) (vars.drop (2 * delta)))
    if smooth then
      match pyGetInt vars 0, pyGetInt vars delta, pyGetInt vars (-1), pyGetInt vars (-delta - 1) with
      | .ok v0, .ok v1, .ok w0, .ok w1 =>
        .ok (.convex, obj ++ [fun e => |2 * v0 e - 2 * v1 e|, fun e => |2 * w0 e - 2 * w1 e|])
      | _, _, _, _ => .error .indexError
    else .ok (.convex, obj)
  else if order = 3 then
    .ok (.convex, List.zipWith (fun (p q : (Fin m → ℝ) × (Fin m → ℝ)) e => |p.1 e - 3 * p.2 e + 3 * q.1 e - q.2 e|)
      (List.zip (vars.drop (3 * delta)) (sliceTo vars (2 * delta) delta))
      (List.zip (sliceTo vars (1 * delta) (2 * delta)) (sliceTo vars 0 (3 * delta))))
  else if order = 4 then
    let obj := List.zipWith (fun (p : (Fin m → ℝ) × (Fin m → ℝ)) (q : (Fin m → ℝ) × (Fin m → ℝ) × (Fin m → ℝ)) e =>
        |p.1 e - 4 * p.2 e + 6 * q.1 e - 4 * q.2.1 e + q.2.2 e|)
      (List.zip (vars.drop (4 * delta)) (sliceTo vars (3 * delta) delta))
      (List.zip (sliceTo vars (2 * delta) (2 * delta)) (List.zip (sliceTo vars delta (3 * delta)) (sliceTo vars 0 (4 * delta))))
    if smooth then
      match pyGetInt vars 0, pyGetInt vars delta, pyGetInt vars (2 * delta), pyGetInt vars (-1), pyGetInt vars (-delta - 1),
        pyGetInt vars (-2 * delta - 1) with
      | .ok v0, .ok v1, .ok v2, .ok w0, .ok w1, .ok w2 =>
        .ok (.convex, obj ++ [fun e => |6 * v0 e - 8 * v1 e + 2 * v2 e|, fun e => |6 * w0 e - 8 * w1 e + 2 * w2 e|])
      | _, _, _, _, _, _ => .error .indexError
    else .ok (.convex, obj)
  else .error .unboundLocalError

/-- constraints.py:132-139: the norm, the offset and the factor for one vector -/
noncomputable def voltEntry {m : Nat} (c : VoltCon) (k : Curv) (v : Fin m → ℝ) : CvxExpr :=
  let w : Curv × List ℝ := match c.norm with
    | .none => (k, List.ofFn v)
    | .inf => (.convex, [maxL (List.ofFn v)])
    | .one => (k, [(List.ofFn v).sum])
  let u := match c.range with
    | some r => w.2.map (· - r)
    | none => w.2
  ⟨w.1.scale c.factor, u.map (· * c.factor)⟩

/-- constraints.py:93-139 `VoltageConstraint.values`, for the voltages of `m` electrodes at every point of the path -/
noncomputable def voltValues {m : Nat} (c : VoltCon) (vars : List (Fin m → ℝ)) : Py (List CvxExpr) :=
  match c.elec with
  | none =>
    match voltObj c.order c.delta c.smooth vars with
    | .error e => .error e
    | .ok (k, obj) => .ok (obj.map (voltEntry c k))
  | some j =>
    match pySeq (vars.map fun v => pyGetInt (List.ofFn v) j) with
    | .error e => .error e
    | .ok sel =>
      match voltObj c.order c.delta c.smooth (sel.map fun x (_ : Fin 1) => x) with
      | .error e => .error e
      | .ok (k, obj) => .ok (obj.map (voltEntry c k))

/-! ### symmetry, potentials, forces and curvatures at single points -/

/-- constraints.py:162, 183, 207: the arrays `pots` of one point: potential, force and curvature for the fixed voltages, and of each of the `m` electrodes at one
volt.  `arr0` is false if `p0` is a number of numpy and true if it is an array without axes. -/
structure Pots (m : Nat) where
  arr0 : Bool
  p0 : ℝ
  f0 : Fin 3 → ℝ
  c0 : Fin 3 → Fin 3 → ℝ
  p : Fin m → ℝ
  f : Fin 3 → Fin m → ℝ
  c : Fin 3 → Fin 3 → Fin m → ℝ

/-- constraints.py:147-151 `SymmetryConstraint.single_value` -/
def symmetryValue {m : Nat} (symmetry : List (Int × Int)) (v : Fin m → ℝ) : Py (List CvxExpr) :=
  pySeq (symmetry.map fun (ab : Int × Int) =>
    match (if 0 ≤ ab.1 then pyGetInt (List.ofFn v) ab.1 else .ok 0), (if 0 ≤ ab.2 then pyGetInt (List.ofFn v) ab.2 else .ok 0) with
    | .ok va, .ok vb => .ok ⟨.affine, [va - vb]⟩
    | .error e, _ => .error e
    | _, .error e => .error e)

/-- constraints.py:169-172, 219-222: `if lo/hi is not None: yield …` for the lower and upper bound, in the order of the code -/
def optYield {α : Type} (o : Option α) (f : α → CvxExpr) : List CvxExpr :=
  match o with
  | some a => [f a]
  | none => []

/-- constraints.py:160-172 `PotentialConstraint.single_value`; the second part is `pots` afterwards: `p0 *= 0` changes an array in
place. -/
def potentialValue {m : Nat} (only : Bool) (pmin pmax : Option ℝ) (v : Fin m → ℝ) (s : Pots m) : List CvxExpr × Pots m :=
  let p0 := if only then 0 else s.p0
  let t := p0 + ∑ e, s.p e * v e
  (optYield pmax (fun b => ⟨.affine, [t - b]⟩) ++ optYield pmin (fun a => ⟨.affine, [a - t]⟩),
    if only && s.arr0 then { s with p0 := 0 } else s)

/-- constraints.py:189-190: `np.dot(f, r)` for an array with `m` columns: shapes must fit -/
def dotCols {m : Nat} {A : Type} (f : A → Fin m → ℝ) (r : Fin 3 → Fin 3 → ℝ) : Py (A → Fin m → ℝ) :=
  if h : m = 3 then .ok fun a j => ∑ k : Fin m, f a k * r (k.cast h) (j.cast h) else .error .valueError

/-- constraints.py:181-195 `ForceConstraint.single_value`; `rotate_tensor(…, order=1)` multiplies the last axis (utils.py:107-110). -/
def forceValue {m : Nat} (only : Bool) (fmax : Option (Fin 3 → ℝ)) (coord : Option (Fin 3 → Fin 3 → ℝ)) (v : Fin m → ℝ)
    (s : Pots m) : Py (List CvxExpr × Pots m) :=
  let s' := if only then { s with f0 := fun _ => 0 } else s
  let out (f0 : Fin 3 → ℝ) (f : Fin 3 → Fin m → ℝ) : List CvxExpr × Pots m :=
    let t : Fin 3 → ℝ := fun i => f0 i + ∑ e, f i e * v e
    (match fmax with
      | some b => [⟨.convex, List.ofFn fun i => |t i| - b i⟩]
      | none => [⟨.affine, List.ofFn t⟩], s')
  match coord with
  | none => .ok (out s'.f0 s'.f)
  | some r =>
    match dotCols s'.f r with
    | .error e => .error e
    | .ok f => .ok (out (fun i => ∑ k, s'.f0 k * r k i) f)

/-- constraints.py:215: `np.triu_indices(3)` -/
def triu3 : List (Fin 3 × Fin 3) := [(0, 0), (0, 1), (0, 2), (1, 1), (1, 2), (2, 2)]

/-- constraints.py:205-222 `CurvatureConstraint.single_value`; `rotate_tensor(c, coord)` multiplies the last two axes, the second
axis of the curvature and that of the electrodes. -/
def curvatureValue {m : Nat} (only : Bool) (cmin cmax : Option (Fin 6 → ℝ)) (coord : Option (Fin 3 → Fin 3 → ℝ)) (v : Fin m → ℝ)
    (s : Pots m) : Py (List CvxExpr × Pots m) :=
  let s' := if only then { s with c0 := fun _ _ => 0 } else s
  let out (c0 : Fin 3 → Fin 3 → ℝ) (c : Fin 3 → Fin 3 → Fin m → ℝ) : List CvxExpr × Pots m :=
    let t : Fin 3 × Fin 3 → ℝ := fun ab => c0 ab.1 ab.2 + ∑ e, c ab.1 ab.2 e * v e
    (optYield cmin (fun a => ⟨.affine, List.zipWith (· - ·) (List.ofFn a) (triu3.map t)⟩) ++
      optYield cmax (fun b => ⟨.affine, List.zipWith (· - ·) (triu3.map t) (List.ofFn b)⟩), s')
  match coord with
  | none => .ok (out s'.c0 s'.c)
  | some r =>
    match dotCols (fun (ab : Fin 3 × Fin 3) => s'.c ab.1 ab.2) r with
    | .error e => .error e
    | .ok c => .ok (out (fun i j => ∑ k, ∑ l, s'.c0 k l * r k i * r l j) fun a j e => ∑ l, c (a, l) e * r l j)

/-- constraints.py:64-72 `SingleIndexConstraint.values`: the points that are visited, with `pots` changed by each visit -/
def singleValues {m : Nat} (index : Option (List Int)) (single : (Fin m → ℝ) → Pots m → Py (List CvxExpr × Pots m))
    (vars : List (Fin m → ℝ)) (pots : List (Pots m)) : Py (List CvxExpr × List (Pots m)) :=
  let idx := match index with
    | some l => l
    | none => (List.range vars.length).map Int.ofNat
  let rec go : List Int → List (Pots m) → Py (List CvxExpr × List (Pots m))
    | [], s => .ok ([], s)
    | i :: l, s =>
      match pyGetInt vars i, pyGetInt s i with
      | .ok v, .ok p =>
        match single v p with
        | .error e => .error e
        | .ok (out, p') =>
          match go l (s.set (if 0 ≤ i then i.toNat else (i + s.length).toNat) p') with
          | .error e => .error e
          | .ok (rest, s') => .ok (out ++ rest, s')
      | .error e, _ => .error e
      | _, .error e => .error e
  go idx pots

end Electrode
