import Verif.Model.Transform
import Mathlib.LinearAlgebra.Matrix.NonsingularInverse

/-
Model of `electrode/transformations.py`: projections, clipping, shears, cells and the composition of transformations.
-/
namespace Electrode

/-- transformations.py:500-520: a four by four matrix from its three by three part, its last column, its last row and its last entry -/
def block4 (R : Matrix (Fin 3) (Fin 3) ℝ) (t b : Fin 3 → ℝ) (w : ℝ) : Matrix (Fin 4) (Fin 4) ℝ :=
  fun i j => if h : i.val < 3 then (if h' : j.val < 3 then R ⟨i.val, h⟩ ⟨j.val, h'⟩ else t ⟨i.val, h⟩)
    else (if h' : j.val < 3 then b ⟨j.val, h'⟩ else w)

/-- transformations.py:505-519: `numpy.dot` of two vectors -/
def vdot {n : Nat} (u v : Fin n → ℝ) : ℝ := ∑ i, u i * v i

/-- transformations.py:461-520 `projection_matrix`.  The perspective point comes before the direction.  A division by zero
(direction orthogonal to the normal) gives inf and nan in numpy and zero here. -/
noncomputable def projectionMatrix (point normal : Fin 3 → ℝ) (direction perspective : Option (Fin 3 → ℝ)) (pseudo : Bool) :
    Matrix (Fin 4) (Fin 4) ℝ :=
  let n := unitVector normal
  match perspective with
  | some p =>
    let c := vdot (fun a => p a - point a) n
    let M : Matrix (Fin 3) (Fin 3) ℝ := fun a b => (if a = b then c else 0) - p a * n b
    if pseudo then block4 (fun a b => M a b - n a * n b) (fun a => vdot point n * (p a + n a)) (fun b => -n b) (vdot p n)
    else block4 M (fun a => vdot point n * p a) (fun b => -n b) (vdot p n)
  | none =>
    match direction with
    | some d =>
      let scale := vdot d n
      affine (fun a b => (1 : Matrix (Fin 3) (Fin 3) ℝ) a b - d a * n b / scale) fun a => d a * (vdot point n / scale)
    | none => affine (fun a b => (1 : Matrix (Fin 3) (Fin 3) ℝ) a b - n a * n b) fun a => vdot point n * n a

/-- transformations.py:596-645 `clip_matrix` -/
noncomputable def clipMatrix (left right bottom top near far : ℝ) (perspective : Bool) : Py (Matrix (Fin 4) (Fin 4) ℝ) :=
  open Classical in
  if right ≤ left ∨ top ≤ bottom ∨ far ≤ near then .error .valueError
  else if perspective then
    if near ≤ tEps then .error .valueError
    else
      let t := 2 * near
      .ok !![t / (left - right), 0, (right + left) / (right - left), 0;
        0, t / (bottom - top), (top + bottom) / (top - bottom), 0;
        0, 0, (far + near) / (near - far), t * far / (far - near);
        0, 0, -1, 0]
  else .ok !![2 / (right - left), 0, 0, (right + left) / (left - right);
    0, 2 / (top - bottom), 0, (top + bottom) / (bottom - top);
    0, 0, 2 / (far - near), (far + near) / (near - far);
    0, 0, 0, 1]

/-- transformations.py:648-676 `shear_matrix` -/
noncomputable def shearMatrix (angle : ℝ) (direction point normal : Fin 3 → ℝ) : Py (Matrix (Fin 4) (Fin 4) ℝ) :=
  open Classical in
  let n := unitVector normal
  let d := unitVector direction
  if 1 / 1000000 < |vdot n d| then .error .valueError
  else
    let t := Real.tan angle
    .ok (affine (fun a b => (1 : Matrix (Fin 3) (Fin 3) ℝ) a b + t * (d a * n b)) fun a => -t * vdot point n * d a)

/-- transformations.py:878: `numpy.radians` -/
noncomputable def radians (x : ℝ) : ℝ := x * (Real.pi / 180)

/-- transformations.py:862-886 `orthogonalization_matrix`.  `math.sqrt` raises ValueError for a negative argument.  A division by zero
gives inf or nan in numpy and zero here. -/
noncomputable def orthogonalizationMatrix (lengths angles : Fin 3 → ℝ) : Py (Matrix (Fin 4) (Fin 4) ℝ) :=
  open Classical in
  let a := lengths 0
  let b := lengths 1
  let c := lengths 2
  let sina := Real.sin (radians (angles 0))
  let sinb := Real.sin (radians (angles 1))
  let cosa := Real.cos (radians (angles 0))
  let cosb := Real.cos (radians (angles 1))
  let cosg := Real.cos (radians (angles 2))
  let co := (cosa * cosb - cosg) / (sina * sinb)
  if 1 - co * co < 0 then .error .valueError
  else .ok !![a * sinb * √(1 - co * co), 0, 0, 0;
    -a * sinb * co, b * sina, 0, 0;
    a * cosb, b * cosa, c, 0;
    0, 0, 0, 1]

/-- transformations.py:806: what `decompose_matrix` returns -/
structure Parts where
  scale : Fin 3 → ℝ
  shear : Fin 3 → ℝ
  angles : Fin 3 → ℝ
  translate : Fin 3 → ℝ
  perspective : Fin 4 → ℝ

/-- transformations.py:835-837: the unit matrix with the given last row -/
def perspRow (p : Fin 4 → ℝ) : Matrix (Fin 4) (Fin 4) ℝ := fun i j => if i = 3 then p j else (1 : Matrix (Fin 4) (Fin 4) ℝ) i j

/-- transformations.py:809-859 `compose_matrix` -/
noncomputable def composeMatrix (scale shear angles translate : Option (Fin 3 → ℝ)) (perspective : Option (Fin 4 → ℝ)) :
    Matrix (Fin 4) (Fin 4) ℝ :=
  let M : Matrix (Fin 4) (Fin 4) ℝ := 1
  let M := match perspective with
    | none => M
    | some p => M * perspRow p
  let M := match translate with
    | none => M
    | some t => M * affine 1 t
  let M := match angles with
    | none => M
    | some a => M * eulerMatrixT ⟨0, 0, 0, 0⟩ (a 0) (a 1) (a 2)
  let M := match shear with
    | none => M
    | some s => M * homog !![1, s 0, s 1; 0, 1, s 2; 0, 0, 1]
  let M := match scale with
    | none => M
    | some s => M * homog !![s 0, 0, 0; 0, s 1, 0; 0, 0, s 2]
  fun i j => M i j / M 3 3

/-- transformations.py:703, 793: `numpy.cross` of two vectors -/
def vcross (u v : Fin 3 → ℝ) : Fin 3 → ℝ := ![u 1 * v 2 - u 2 * v 1, u 2 * v 0 - u 0 * v 2, u 0 * v 1 - u 1 * v 0]

/-- transformations.py:777-791: the rows made orthonormal, the scales and the shears.  The input is `M[:3, :3]` of the transposed matrix. -/
noncomputable def orthoRows (M : Fin 3 → Fin 3 → ℝ) : (Fin 3 → Fin 3 → ℝ) × (Fin 3 → ℝ) × (Fin 3 → ℝ) :=
  let s0 := vectorNorm (M 0)
  let r0 : Fin 3 → ℝ := fun a => M 0 a / s0
  let h0 := vdot r0 (M 1)
  let r1 : Fin 3 → ℝ := fun a => M 1 a - r0 a * h0
  let s1 := vectorNorm r1
  let r1 : Fin 3 → ℝ := fun a => r1 a / s1
  let h0 := h0 / s1
  let h1 := vdot r0 (M 2)
  let r2 : Fin 3 → ℝ := fun a => M 2 a - r0 a * h1
  let h2 := vdot r1 r2
  let r2 : Fin 3 → ℝ := fun a => r2 a - r1 a * h2
  let s2 := vectorNorm r2
  let r2 : Fin 3 → ℝ := fun a => r2 a / s2
  (![r0, r1, r2], ![s0, s1, s2], ![h0, h1 / s2, h2 / s2])

/-- transformations.py:797-804: the angles of the rows -/
noncomputable def rowAngles (row : Fin 3 → Fin 3 → ℝ) : Fin 3 → ℝ :=
  open Classical in
  let a1 := Real.arcsin (-row 0 2)
  if Real.cos a1 ≠ 0 then ![atan2 (row 1 2) (row 2 2), a1, atan2 (row 0 1) (row 0 0)]
  else ![atan2 (-row 2 1) (row 1 1), a1, 0]

/-- transformations.py:724-806 `decompose_matrix`.  `A` is the matrix divided by its last entry; the code works with its transpose. -/
noncomputable def decomposeMatrix (matrix : Matrix (Fin 4) (Fin 4) ℝ) : Py Parts :=
  open Classical in
  if |matrix 3 3| < tEps then .error .valueError
  else
    let A : Matrix (Fin 4) (Fin 4) ℝ := fun i j => matrix i j / matrix 3 3
    let B : Matrix (Fin 4) (Fin 4) ℝ := fun i j => if i = 3 then (if j = 3 then 1 else 0) else A i j
    if B.transpose.det = 0 then .error .valueError
    else
      let perspective : Fin 4 → ℝ := if ∃ b : Fin 3, tEps < |A 3 b.castSucc| then fun j => ∑ k, A 3 k * B⁻¹ k j else ![0, 0, 0, 1]
      let translate : Fin 3 → ℝ := fun a => A a.castSucc 3
      let p := orthoRows fun i j => A j.castSucc i.castSucc
      let row := p.1
      let scale := p.2.1
      let neg : Bool := vdot (row 0) (vcross (row 1) (row 2)) < 0
      let row : Fin 3 → Fin 3 → ℝ := if neg then fun i j => -row i j else row
      let scale : Fin 3 → ℝ := if neg then fun i => -scale i else scale
      .ok { scale := scale, shear := p.2.2, angles := rowAngles row, translate := translate, perspective := perspective }

end Electrode
