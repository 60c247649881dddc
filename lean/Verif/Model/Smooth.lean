import Verif.Model.Polygons
import Verif.Model.Spherical
import Mathlib.Algebra.Order.Floor.Ring

/-
Model of the smoothing of polygons in `electrode/polygons.py`.
-/
namespace Electrode

/-- polygons.py:62-70: `scipy.interpolate.splprep` and `splev`: the call with `per=1, full_output=1`, the array of knots of the result, and the
evaluation at parameters.  `u` is `none` if it contains nan. -/
structure SplineLib (S : Type*) where
  /-- `splprep([x, y], w=w, u=u, s=s, k=k, per=1, nest=nest, full_output=1)`: the spline and `ier` -/
  fit : (x y w : List ℝ) → (u : Option (List ℝ)) → (s : ℝ) → (k nest : Nat) → Py (S × Int)
  /-- `tck[0]` -/
  knots : S → List ℝ
  /-- `splev(u, tck)` at one parameter -/
  eval : S → ℝ → V2

/-- polygons.py:49-50: `x - np.roll(x, 1)` -/
noncomputable def stepFrom (n : Nat) (x : Nat → ℝ) (i : Nat) : ℝ := x i - x ((i + n - 1) % n)

/-- polygons.py:51: `np.hypot(dx, dy)` -/
noncomputable def stepLen (n : Nat) (x y : Nat → ℝ) (i : Nat) : ℝ := √(stepFrom n x i ^ 2 + stepFrom n y i ^ 2)

/-- polygons.py:52: `np.cumsum(du) - du[0]` -/
noncomputable def arcLen (n : Nat) (x y : Nat → ℝ) (i : Nat) : ℝ :=
  ∑ j ∈ Finset.range (i + 1), stepLen n x y j - stepLen n x y 0

/-- polygons.py:53: `u /= u[-1]`; nan if the length is zero -/
noncomputable def curveParam (n : Nat) (x y : Nat → ℝ) : Option (List ℝ) :=
  open Classical in
  if arcLen n x y (n - 1) = 0 then none
  else some ((List.range n).map fun i => arcLen n x y i / arcLen n x y (n - 1))

/-- polygons.py:54: `np.arctan2(dy, dx)` -/
noncomputable def stepAngle (n : Nat) (x y : Nat → ℝ) (i : Nat) : ℝ := arctan2 (stepFrom n y i) (stepFrom n x i)

/-- polygons.py:55: the remainder of numpy floats by a positive divisor -/
noncomputable def floatMod (a b : ℝ) : ℝ := a - b * ⌊a / b⌋

/-- polygons.py:55: `np.fabs((np.roll(a, -1) - a) % (2*np.pi)) < straight_tol` -/
noncomputable def isStraight (n : Nat) (x y : Nat → ℝ) (tol : ℝ) (i : Nat) : Prop :=
  |floatMod (stepAngle n x y ((i + 1) % n) - stepAngle n x y i) (2 * Real.pi)| < tol

/-- polygons.py:60: `(np.roll(t, 1) | np.roll(t, -1)) & ~t` -/
noncomputable def isCorner (n : Nat) (x y : Nat → ℝ) (tol : ℝ) (i : Nat) : Prop :=
  (isStraight n x y tol ((i + n - 1) % n) ∨ isStraight n x y tol ((i + 1) % n)) ∧ ¬ isStraight n x y tol i

/-- polygons.py:56-60: the weight of one point -/
noncomputable def pointWeight (n : Nat) (x y : Nat → ℝ) (straight corner : Option ℝ) (tol : ℝ) (i : Nat) : ℝ :=
  open Classical in
  let w := 1
  let w := match straight with
    | none => w
    | some s => if isStraight n x y tol i then s else w
  match corner with
  | none => w
  | some c => if isCorner n x y tol i then c else w

/-- polygons.py:46-47: the keyword arguments of `smooth` -/
structure SmoothArgs where
  smoothing : ℝ := 1
  straight : Option ℝ := none
  corner : Option ℝ := none
  tol : ℝ := 1 / 10 ^ 6
  k : Nat := 1
  knots : Option Nat := none

/-- polygons.py:69: `np.linspace(0, 1, m)` -/
noncomputable def linspace01 (m : Nat) : List ℝ := (List.range m).map fun i : Nat => if m = 1 then 0 else (i : ℝ) / ((m : ℝ) - 1)

/-- polygons.py:67: `t[k:-k]`; for `k = 0` the end is the start -/
def innerSlice {α : Type*} (t : List α) (k : Nat) : List α := if k = 0 then [] else (t.take (t.length - k)).drop k

/-- polygons.py:46-71 `smooth` of a curve given by its points.  The `IndexError` is that of `x[0]`. -/
noncomputable def smoothCurve {S : Type*} (L : SplineLib S) (g : SmoothArgs) (p : List V2) : Py (List V2) :=
  open Classical in
  let n := p.length
  let x := fun i => (p.getD i ⟨0, 0⟩).x
  let y := fun i => (p.getD i ⟨0, 0⟩).y
  if n = 0 then .error .indexError
  else if x 0 = x (n - 1) ∧ y 0 = y (n - 1) then
    match L.fit (p.map V2.x) (p.map V2.y) ((List.range n).map (pointWeight n x y g.straight g.corner g.tol))
        (curveParam n x y) (n * g.smoothing) g.k (n + 2) with
    | .error e => .error e
    | .ok (tck, ier) =>
      if ier ≤ 0 then
        let u := match g.knots with
          | none => innerSlice (L.knots tck) g.k
          | some m => linspace01 m
        .ok (u.map (L.eval tck))
      else .error .assertionError
  else .error .assertionError

/-- polygons.py:604-619: one polygon: the boundaries in order, the exterior first; `none` if the exterior is left with less than three
points -/
noncomputable def smoothPoly {S : Type*} (L : SplineLib S) (g : SmoothArgs) (p : GPoly) : Py (Option GPoly) :=
  match (p.ext :: p.ints).mapM (smoothCurve L g) with
  | .error e => .error e
  | .ok loops =>
    let exterior := loops.headD []
    let interior := loops.tail
    if 3 ≤ exterior.length then .ok (some ⟨exterior, interior.filter fun l => 3 ≤ l.length⟩) else .ok none

/-- polygons.py:581-621 `Polygons.smooth`.  Every electrode is given by its list of polygons. -/
noncomputable def polySmooth {S : Type*} (L : SplineLib S) (g : SmoothArgs) (ps : List (String × List GPoly)) :
    Py (List (String × List GPoly)) :=
  ps.mapM fun p =>
    match p.2.mapM (smoothPoly L g) with
    | .error e => .error e
    | .ok r => .ok (p.1, r.filterMap id)

end Electrode
