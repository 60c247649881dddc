import Verif.Model.Project

/-
Model of `electrode/transformations.c`, the compiled versions of functions of `transformations.py`.  The last statement of
transformations.py (line 1925) puts every function of the compiled module in place of the Python function of the same name, so these
are what a user of an installed package calls.  `double` is ℝ.  A matrix is its sixteen numbers in the order of the C array.
Conversions of the arguments, reference counts and lack of memory are not modelled.
-/
namespace Electrode

/-- transformations.c:91 `ISZERO` -/
noncomputable def cIsZero (x : ℝ) : Bool := open Classical in decide (x < tEps ∧ -tEps < x)

/-- transformations.c:92 `NOTZERO` -/
noncomputable def cNotZero (x : ℝ) : Bool := open Classical in decide (tEps < x ∨ x < -tEps)

/-- transformations.c:1178, 1251, 1351: the length of a vector as the C code computes it -/
noncomputable def cNorm3 (v : Fin 3 → ℝ) : ℝ := √(v 0 * v 0 + v 1 * v 1 + v 2 * v 2)

/-- transformations.c:680, 2922, 2932: the length of a quaternion as the C code computes it -/
noncomputable def cNorm4 (q : Fin 4 → ℝ) : ℝ := √(q 0 * q 0 + q 1 * q 1 + q 2 * q 2 + q 3 * q 3)

/-- transformations.py:1883: `numpy.allclose` with its usual tolerances, for matrices without nan and inf -/
def allclose (A B : Matrix (Fin 4) (Fin 4) ℝ) : Prop := ∀ i j, |A i j - B i j| ≤ 1 / 10 ^ 8 + 1 / 10 ^ 5 * |B i j|

/-- transformations.py:1870-1883 `is_same_transform`.  A last entry of zero gives nan in numpy, and `False`. -/
noncomputable def isSameTransform (A B : Matrix (Fin 4) (Fin 4) ℝ) : Bool := open Classical in
  if A 3 3 = 0 ∨ B 3 3 = 0 then false else decide (allclose (fun i j => A i j / A 3 3) fun i j => B i j / B 3 3)

/-- transformations.c:1019-1063 `is_same_transform` -/
noncomputable def cIsSame (A B : Matrix (Fin 4) (Fin 4) ℝ) : Bool := open Classical in
  if cIsZero (A 3 3) || cIsZero (B 3 3) then false
  else !((List.finRange 4).any fun i => (List.finRange 4).any fun j =>
    let t := B i j / B 3 3
    decide (1 / 10 ^ 8 + 1 / 10 ^ 5 * |t| < |A i j / A 3 3 - t|))

/-- transformations.c:1151-1205 `reflection_matrix` -/
noncomputable def cReflection (p n : Fin 3 → ℝ) : Py (Matrix (Fin 4) (Fin 4) ℝ) := open Classical in
  let t := cNorm3 n
  if t < tEps then .error .valueError
  else
    let nx := n 0 / t
    let ny := n 1 / t
    let nz := n 2 / t
    let t := 2 * (p 0 * nx + p 1 * ny + p 2 * nz)
    .ok !![1 - 2 * nx * nx, -2 * nx * ny, -2 * nx * nz, nx * t;
      -2 * nx * ny, 1 - 2 * ny * ny, -2 * ny * nz, ny * t;
      -2 * nx * nz, -2 * ny * nz, 1 - 2 * nz * nz, nz * t;
      0, 0, 0, 1]

/-- transformations.c:1218-1300 `rotation_matrix` -/
noncomputable def cRotation (angle : ℝ) (d : Fin 3 → ℝ) (point : Option (Fin 3 → ℝ)) : Py (Matrix (Fin 4) (Fin 4) ℝ) := open Classical in
  let sa := Real.sin angle
  let ca := Real.cos angle
  let ca1 := 1 - ca
  let t := cNorm3 d
  if t < tEps then .error .valueError
  else
    let dx := d 0 / t
    let dy := d 1 / t
    let dz := d 2 / t
    let m0 := ca + dx * dx * ca1
    let m5 := ca + dy * dy * ca1
    let m10 := ca + dz * dz * ca1
    let m1 := dx * dy * ca1 - dz * sa
    let m4 := dx * dy * ca1 + dz * sa
    let m2 := dx * dz * ca1 + dy * sa
    let m8 := dx * dz * ca1 - dy * sa
    let m6 := dy * dz * ca1 - dx * sa
    let m9 := dy * dz * ca1 + dx * sa
    match point with
    | some p => .ok !![m0, m1, m2, p 0 - (m0 * p 0 + m1 * p 1 + m2 * p 2);
        m4, m5, m6, p 1 - (m4 * p 0 + m5 * p 1 + m6 * p 2);
        m8, m9, m10, p 2 - (m8 * p 0 + m9 * p 1 + m10 * p 2);
        0, 0, 0, 1]
    | none => .ok !![m0, m1, m2, 0; m4, m5, m6, 0; m8, m9, m10, 0; 0, 0, 0, 1]

/-- transformations.c:1310-1462 `projection_matrix` -/
noncomputable def cProjection (p n : Fin 3 → ℝ) (direction perspective : Option (Fin 3 → ℝ)) (pseudo : Bool) :
    Py (Matrix (Fin 4) (Fin 4) ℝ) := open Classical in
  let t := cNorm3 n
  if t < tEps then .error .valueError
  else
    let nx := n 0 / t
    let ny := n 1 / t
    let nz := n 2 / t
    match perspective with
    | some d =>
      let t := (d 0 - p 0) * nx + (d 1 - p 1) * ny + (d 2 - p 2) * nz
      let s := p 0 * nx + p 1 * ny + p 2 * nz
      if pseudo then
        .ok !![t - d 0 * nx - nx * nx, -d 0 * ny - nx * ny, -d 0 * nz - nx * nz, s * (d 0 + nx);
          -d 1 * nx - nx * ny, t - d 1 * ny - ny * ny, -d 1 * nz - ny * nz, s * (d 1 + ny);
          -d 2 * nx - nx * nz, -d 2 * ny - ny * nz, t - d 2 * nz - nz * nz, s * (d 2 + nz);
          -nx, -ny, -nz, d 0 * nx + d 1 * ny + d 2 * nz]
      else
        .ok !![t - d 0 * nx, -d 0 * ny, -d 0 * nz, s * d 0;
          -d 1 * nx, t - d 1 * ny, -d 1 * nz, s * d 1;
          -d 2 * nx, -d 2 * ny, t - d 2 * nz, s * d 2;
          -nx, -ny, -nz, d 0 * nx + d 1 * ny + d 2 * nz]
    | none =>
      match direction with
      | some d =>
        let scale := d 0 * nx + d 1 * ny + d 2 * nz
        if cIsZero scale then .error .valueError
        else
          let scale := -1 / scale
          let t := (p 0 * nx + p 1 * ny + p 2 * nz) * -scale
          .ok !![1 + scale * d 0 * nx, scale * d 0 * ny, scale * d 0 * nz, t * d 0;
            scale * d 1 * nx, 1 + scale * d 1 * ny, scale * d 1 * nz, t * d 1;
            scale * d 2 * nx, scale * d 2 * ny, 1 + scale * d 2 * nz, t * d 2;
            0, 0, 0, 1]
      | none =>
        let t := p 0 * nx + p 1 * ny + p 2 * nz
        .ok !![1 - nx * nx, -nx * ny, -nx * nz, t * nx;
          -nx * ny, 1 - ny * ny, -ny * nz, t * ny;
          -nx * nz, -ny * nz, 1 - nz * nz, t * nz;
          0, 0, 0, 1]

/-- transformations.c:1474-1537 `clip_matrix` -/
noncomputable def cClip (left right bottom top hither yon : ℝ) (perspective : Bool) : Py (Matrix (Fin 4) (Fin 4) ℝ) := open Classical in
  if right ≤ left ∨ top ≤ bottom ∨ yon ≤ hither then .error .valueError
  else if perspective then
    let t := 2 * hither
    if hither < tEps then .error .valueError
    else .ok !![t / (left - right), 0, (right + left) / (right - left), 0;
      0, t / (bottom - top), (top + bottom) / (top - bottom), 0;
      0, 0, (yon + hither) / (hither - yon), t * yon / (yon - hither);
      0, 0, -1, 0]
  else .ok !![2 / (right - left), 0, 0, (right + left) / (left - right);
    0, 2 / (top - bottom), 0, (top + bottom) / (bottom - top);
    0, 0, 2 / (yon - hither), (yon + hither) / (hither - yon);
    0, 0, 0, 1]

/-- transformations.c:1547-1613 `scale_matrix`: the direction is used as it is given -/
noncomputable def cScale (factor : ℝ) (origin direction : Option (Fin 3 → ℝ)) : Matrix (Fin 4) (Fin 4) ℝ :=
  match direction with
  | none =>
    let t : Fin 3 → ℝ := match origin with
      | some p => fun a => (1 - factor) * p a
      | none => fun _ => 0
    !![factor, 0, 0, t 0; 0, factor, 0, t 1; 0, 0, factor, t 2; 0, 0, 0, 1]
  | some d =>
    let f := 1 - factor
    let g := f * -1
    let t : Fin 3 → ℝ := match origin with
      | some p => fun a => g * -(p 0 * d 0 + p 1 * d 1 + p 2 * d 2) * d a
      | none => fun _ => 0
    !![1 - f * d 0 * d 0, g * d 0 * d 1, g * d 0 * d 2, t 0;
      g * d 0 * d 1, 1 - f * d 1 * d 1, g * d 1 * d 2, t 1;
      g * d 0 * d 2, g * d 1 * d 2, 1 - f * d 2 * d 2, t 2;
      0, 0, 0, 1]

/-- transformations.c:1627-1720 `shear_matrix` -/
noncomputable def cShear (angle : ℝ) (d p n : Fin 3 → ℝ) : Py (Matrix (Fin 4) (Fin 4) ℝ) := open Classical in
  let t := cNorm3 d
  if t < tEps then .error .valueError
  else
    let dx := d 0 / t
    let dy := d 1 / t
    let dz := d 2 / t
    let t := cNorm3 n
    if t < tEps then .error .valueError
    else
      let nx := n 0 / t
      let ny := n 1 / t
      let nz := n 2 / t
      if 1 / 1000000 < |nx * dx + ny * dy + nz * dz| then .error .valueError
      else
        let a := Real.tan angle
        let t := -a * (p 0 * nx + p 1 * ny + p 2 * nz)
        .ok !![1 + a * dx * nx, a * dx * ny, a * dx * nz, t * dx;
          a * dy * nx, 1 + a * dy * ny, a * dy * nz, t * dy;
          a * dz * nx, a * dz * ny, 1 + a * dz * nz, t * dz;
          0, 0, 0, 1]

/-- transformations.c:2048-2102 `orthogonalization_matrix`.  `none` is a matrix with nan in the first entry: C's `sqrt` of a negative
number is nan, with no error.  `DEG2RAD` is π/180. -/
noncomputable def cOrthogonalization (l a : Fin 3 → ℝ) : Py (Option (Matrix (Fin 4) (Fin 4) ℝ)) := open Classical in
  let sa := Real.sin (a 0 * (Real.pi / 180))
  let ca := Real.cos (a 0 * (Real.pi / 180))
  let sb := Real.sin (a 1 * (Real.pi / 180))
  let cb := Real.cos (a 1 * (Real.pi / 180))
  let cg := Real.cos (a 2 * (Real.pi / 180))
  let t := ca * cb - cg
  if |sa * sb| < tEps ∨ |t - sa * sb| < tEps then .error .valueError
  else
    let t := t / (sa * sb)
    if 1 - t * t < 0 then .ok none
    else .ok (some !![l 0 * sb * √(1 - t * t), 0, 0, 0;
      -l 0 * sb * t, l 1 * sa, 0, 0;
      l 0 * cb, l 1 * ca, l 2, 0;
      0, 0, 0, 1])

end Electrode
