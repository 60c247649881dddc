import Verif.Model.Rounded
import Verif.Lemmas.Expressions
import Mathlib.Algebra.Order.Round
import Mathlib.Data.Int.Log

/-
What it means that an arithmetic is accurate.
-/
namespace Electrode
namespace Spec

/-- Every operation has a relative error of at most `u`: the standard model of floating-point arithmetic, without overflow and
underflow. -/
structure Accurate (o : FloatOps) (u : ℝ) : Prop where
  nonneg : 0 ≤ u
  lt_one : u < 1
  add : ∀ x y, |o.add x y - (x + y)| ≤ u * |x + y|
  sub : ∀ x y, |o.sub x y - (x - y)| ≤ u * |x - y|
  mul : ∀ x y, |o.mul x y - x * y| ≤ u * |x * y|
  div : ∀ x y, y ≠ 0 → |o.div x y - x / y| ≤ u * |x / y|
  pow : ∀ x n, |o.pow x n - x ^ n| ≤ u * |x ^ n|
  sqrt : ∀ x, 0 ≤ x → |o.sqrt x - √x| ≤ u * √x
  atan : ∀ x, |o.atan x - Real.arctan x| ≤ u * |Real.arctan x|
  atan2 : ∀ y x, 0 < x → |o.atan2 y x - Real.arctan (y / x)| ≤ u * |Real.arctan (y / x)|
  pi : |o.pi - Real.pi| ≤ u * Real.pi

/-- distance of a point of the plane from an image of a position -/
noncomputable def imageDist (p : V3) (q : V2) (h : ℝ) (k : ℤ) : ℝ := √((p.x - q.x) ^ 2 + (p.y - q.y) ^ 2 + (p.z + 2 * k * h) ^ 2)

/-- The size of the derivatives of order `d` of the potential of a small patch, the product of its area and its voltage being `a`, at
the distance `r`: a number of the order that it has in directions where nothing cancels. -/
noncomputable def patchSize (d : Nat) (a r : ℝ) : ℝ := [1, 4, 18, 150, 1620, 17100].getD d 0 * |a| / (2 * Real.pi * r ^ (d + 2))

/-- The number nearest to `x` with `t` binary digits after the leading one; any exponent is possible.  Doubles have `t = 52`. -/
noncomputable def roundTo (t : Nat) (x : ℝ) : ℝ := round (x / 2 ^ (Int.log 2 |x| - t)) * 2 ^ (Int.log 2 |x| - t)

/-- an arithmetic that rounds every result to the nearest number -/
noncomputable def binary (t : Nat) : FloatOps where
  add x y := roundTo t (x + y)
  sub x y := roundTo t (x - y)
  mul x y := roundTo t (x * y)
  div x y := roundTo t (x / y)
  pow x n := roundTo t (x ^ n)
  sqrt x := roundTo t √x
  atan x := roundTo t (Real.arctan x)
  atan2 y x := roundTo t (if 0 < x then Real.arctan (y / x) else if x < 0 then Real.arctan (y / x) + (if 0 ≤ y then Real.pi else -Real.pi)
    else SignType.sign y * (Real.pi / 2))
  pi := roundTo t Real.pi

/-- What the derivatives of order `d` of the potential of one side of a polygon are made of.  `r1` and `r2` are the distances of the
position from the ends of the side and `l` is its length.  For the potential itself it is a bound for the angle that is added. -/
noncomputable def sideSize (d : Nat) (a r1 r2 l : ℝ) : ℝ :=
  if d = 0 then 2 * |a| / Real.pi
  else [0, 2, 80, 1976, 82212, 4257160].getD d 0 * |a| * (r1 + r2) ^ (5 * d - 2)
    / (Real.pi * (r1 * r2) ^ (2 * d - 1) * ((r1 + r2) ^ 2 - l ^ 2) ^ d)

/-- length of a side -/
noncomputable def sideLength (e : V2 × V2) : ℝ := √((e.1.x - e.2.x) ^ 2 + (e.1.y - e.2.y) ^ 2)

/-- how far an image of a position is from a side, without a unit: the sum of the distances from the ends is greater than the length -/
def ClearOf (κ : Nat) (p : V3) (h : ℝ) (k : ℤ) (e : V2 × V2) : Prop :=
  (imageDist p e.1 h k + imageDist p e.2 h k) ^ 2
    ≤ κ * ((imageDist p e.1 h k + imageDist p e.2 h k) ^ 2 - sideLength e ^ 2)

end Spec
open Spec

/-- Where the potential of an electrode can be computed accurately: below its cover, clear of its sides.  Grids are left out. -/
def Spec.WellPlaced (κ : Nat) (p : V3) : Shape → Prop
  | .cover height => height ≠ 0
  | .points _ _ h nmax => nmax ≠ 0 → |p.z| ≤ h
  | .polygons paths h nmax => (nmax ≠ 0 → |p.z| ≤ h) ∧ ∀ poly ∈ paths, ∀ k ∈ coverRange nmax, ∀ e ∈ boundaryEdges poly, ClearOf κ p h k e
  | .mesh ps edges polys _ h nmax => (nmax ≠ 0 → |p.z| ≤ h)
      ∧ ∀ e ∈ edges.zip polys, ∀ k ∈ coverRange nmax, ClearOf κ p h k (ps.getD e.1.1 ⟨0, 0⟩, ps.getD e.1.2 ⟨0, 0⟩)
  | .grid .. => False

/-- The size of what the potential of an electrode is made of: the sum over its parts and their images. -/
noncomputable def Shape.size (d : Nat) (v : ℝ) (p : V3) : Shape → ℝ
  | .cover height => if d = 0 then |v * p.z / height| else if d = 1 then |v / height| else 0
  | .points ps areas h nmax => ((ps.zip areas).map fun q =>
      ((coverRange nmax).map fun k => patchSize d (q.2 * v) (imageDist p q.1 h k)).sum).sum
  | .polygons paths h nmax => (paths.map fun poly => ((coverRange nmax).map fun k => ((boundaryEdges poly).map fun e =>
      sideSize d v (imageDist p e.1 h k) (imageDist p e.2 h k) (sideLength e)).sum).sum).sum
  | .mesh ps edges polys pots h nmax => ((edges.zip polys).map fun e => ((coverRange nmax).map fun k =>
      sideSize d (pots.getD e.2 0 * v) (imageDist p (ps.getD e.1.1 ⟨0, 0⟩) h k) (imageDist p (ps.getD e.1.2 ⟨0, 0⟩) h k)
        (sideLength (ps.getD e.1.1 ⟨0, 0⟩, ps.getD e.1.2 ⟨0, 0⟩))).sum).sum
  | .grid .. => 0

/-- how many numbers are added up -/
def Shape.roundings : Shape → Nat
  | .cover _ => 1
  | .points ps areas _ nmax => (ps.zip areas).length * (2 * nmax + 1)
  | .polygons paths _ nmax => (2 * nmax + 1) * (paths.map List.length).sum
  | .mesh _ edges polys _ _ nmax => (edges.zip polys).length * (2 * nmax + 1)
  | .grid .. => 0

/-- electrodes without voltage are left out -/
noncomputable def Elec.size (e : Elec) (d : Nat) (typ : VTyp) (p : V3) : ℝ :=
  open Classical in
  match e.volt typ with
  | none => 0
  | some v => if v = 0 then 0 else e.shape.size d v p

/-- electrodes without voltage are left out -/
noncomputable def Elec.roundings (e : Elec) (typ : VTyp) : Nat :=
  open Classical in
  match e.volt typ with
  | none => 0
  | some v => if v = 0 then 0 else e.shape.roundings

end Electrode
