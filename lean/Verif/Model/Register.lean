import Verif.Model.Transform
import Mathlib.LinearAlgebra.Matrix.NonsingularInverse

/-
Model of `electrode/transformations.py`: `affine_matrix_from_points` and `superimposition_matrix`, which find the matrix that takes one
set of points to another.  A set of `n` points in `d` dimensions is the array with `d` rows and `n` columns, here `Fin d → Fin n → ℝ`.
-/
namespace Electrode

/-- transformations.py:950, 959: what `numpy.linalg.svd` returns for a matrix with `m` rows and `n` columns: `u`, `s` and `vh`.  Only the first `min m n` values of `s` are used. -/
structure Svd (m n : Nat) where
  u : Matrix (Fin m) (Fin m) ℝ
  s : Nat → ℝ
  vh : Matrix (Fin n) (Fin n) ℝ

/-- transformations.py:950-980: the functions of numpy that the registration calls: `linalg.svd`, `linalg.pinv`, `linalg.eigh` and `argmax` -/
structure RegLib where
  svd : (m n : Nat) → Matrix (Fin m) (Fin n) ℝ → Svd m n
  pinv : (n : Nat) → Matrix (Fin n) (Fin n) ℝ → Matrix (Fin n) (Fin n) ℝ
  eigh : Matrix (Fin 4) (Fin 4) ℝ → (Fin 4 → ℝ) × Matrix (Fin 4) (Fin 4) ℝ
  argmax : (Fin 4 → ℝ) → Fin 4

/-- transformations.py:939-944, 967-968: the homogeneous matrix with the linear part `R` and the last column `t` -/
def homN {d : Nat} (R : Matrix (Fin d) (Fin d) ℝ) (t : Fin d → ℝ) : Matrix (Fin (d + 1)) (Fin (d + 1)) ℝ :=
  fun a b => Fin.lastCases (motive := fun _ => ℝ) (if b = Fin.last d then 1 else 0)
    (fun a => Fin.lastCases (motive := fun _ => ℝ) (t a) (fun b => R a b) b) a

/-- transformations.py:938, 942: `-numpy.mean(v, axis=1)` -/
noncomputable def negMean {d n : Nat} (v : Fin d → Fin n → ℝ) : Fin d → ℝ := fun a => -((∑ j, v a j) / n)

/-- transformations.py:941, 945: `v += t.reshape(ndims, 1)` -/
noncomputable def centred {d n : Nat} (v : Fin d → Fin n → ℝ) : Matrix (Fin d) (Fin n) ℝ := fun a j => v a j + negMean v a

/-- transformations.py:949-954: the linear part by the method of Hartley and Zissermann, from the points about their centroids -/
noncomputable def shearPart (lib : RegLib) {d n : Nat} (v0 v1 : Matrix (Fin d) (Fin n) ℝ) : Matrix (Fin d) (Fin d) ℝ :=
  let AT : Matrix (Fin n) (Fin (d + d)) ℝ := fun j => Fin.append (fun a => v0 a j) (fun a => v1 a j)
  let vh := (lib.svd n (d + d) AT).vh
  let B : Matrix (Fin d) (Fin d) ℝ := Matrix.of fun a b => vh (Fin.castAdd d b) (Fin.castAdd d a)
  let C : Matrix (Fin d) (Fin d) ℝ := Matrix.of fun a b => vh (Fin.castAdd d b) (Fin.natAdd d a)
  C * lib.pinv d B

/-- transformations.py:959-964: the rotation by the method of Kabsch.  `h` is what the check of the shape gives. -/
noncomputable def kabsch (lib : RegLib) {d n : Nat} (h : 0 < d) (v0 v1 : Matrix (Fin d) (Fin n) ℝ) : Matrix (Fin d) (Fin d) ℝ :=
  let r := lib.svd d d (v1 * v0.transpose)
  let R := r.u * r.vh
  let last : Fin d := ⟨d - 1, by omega⟩
  open Classical in
  if R.det < 0 then R - Matrix.of fun a b => r.u a last * (r.vh last b * 2) else R

/-- transformations.py:972-982: the unit quaternion by the method of Horn -/
noncomputable def hornQuat (lib : RegLib) {n : Nat} (v0 v1 : Matrix (Fin 3) (Fin n) ℝ) : Quat :=
  let xx := ∑ j, v0 0 j * v1 0 j
  let yy := ∑ j, v0 1 j * v1 1 j
  let zz := ∑ j, v0 2 j * v1 2 j
  let xy := ∑ j, v0 0 j * v1 1 j
  let yz := ∑ j, v0 1 j * v1 2 j
  let zx := ∑ j, v0 2 j * v1 0 j
  let xz := ∑ j, v0 0 j * v1 2 j
  let yx := ∑ j, v0 1 j * v1 0 j
  let zy := ∑ j, v0 2 j * v1 1 j
  let N : Matrix (Fin 4) (Fin 4) ℝ :=
    !![xx + yy + zz, 0, 0, 0;
      yz - zy, xx - yy - zz, 0, 0;
      zx - xz, xy + yx, yy - xx - zz, 0;
      xy - yx, zx + xz, yz + zy, zz - xx - yy]
  let r := lib.eigh N
  let q : Quat := fun a => r.2 a (lib.argmax r.1)
  fun a => q a / √(quatDot q)

/-- transformations.py:957-984: the linear part if `shear` is False.  The last row and column that `quaternion_matrix` gives are those
of the identity, as in the other branches. -/
noncomputable def rigidPart (lib : RegLib) {d n : Nat} (h : 0 < d) (usesvd : Bool) (v0 v1 : Matrix (Fin d) (Fin n) ℝ) :
    Matrix (Fin d) (Fin d) ℝ :=
  if h3 : usesvd = false ∧ d = 3 then
    Matrix.of fun a b => upper (quatMatrix (hornQuat lib (Matrix.of fun a j => v0 (a.cast h3.2.symm) j)
      (Matrix.of fun a j => v1 (a.cast h3.2.symm) j))) (a.cast h3.2) (b.cast h3.2)
  else kabsch lib h v0 v1

/-- transformations.py:993-994: `M = inv(M1) . (M . M0)`, `M /= M[ndims, ndims]` -/
noncomputable def moveBack {d n : Nat} (v0 v1 : Fin d → Fin n → ℝ) (M : Matrix (Fin (d + 1)) (Fin (d + 1)) ℝ) :
    Matrix (Fin (d + 1)) (Fin (d + 1)) ℝ :=
  let M0 := homN 1 (negMean v0)
  let M1 := homN 1 (negMean v1)
  let K := M1⁻¹ * (M * M0)
  fun a b => K a b / K (Fin.last d) (Fin.last d)

/-- transformations.py:889-995 `affine_matrix_from_points`.  `.ok none` is a matrix with nan or inf, the result of the division by zero of line 990. -/
noncomputable def affineFromPoints (lib : RegLib) {d d' n n' : Nat} (v0 : Fin d → Fin n → ℝ) (v1 : Fin d' → Fin n' → ℝ)
    (shear scale usesvd : Bool) : Py (Option (Matrix (Fin (d + 1)) (Fin (d + 1)) ℝ)) := open Classical in
  if h : d < 2 ∨ n < d ∨ ¬ (d = d' ∧ n = n') then .error .valueError
  else
    have hs : d = d' ∧ n = n' := by tauto
    let w1 : Fin d → Fin n → ℝ := fun a j => v1 (a.cast hs.1) (j.cast hs.2)
    let c0 := centred v0
    let c1 := centred w1
    if shear then .ok (some (moveBack v0 w1 (homN (shearPart lib c0 c1) 0)))
    else
      let R := rigidPart lib (by omega) usesvd c0 c1
      if scale then
        let s0 := ∑ a, ∑ j, c0 a j * c0 a j
        let s1 := ∑ a, ∑ j, c1 a j * c1 a j
        if s0 = 0 then .ok none else .ok (some (moveBack v0 w1 (homN (√(s1 / s0) • R) 0)))
      else .ok (some (moveBack v0 w1 (homN R 0)))

/-- transformations.py:998-1046 `superimposition_matrix`, for arrays with at least three rows: the rows after the third are dropped -/
noncomputable def superimposition (lib : RegLib) {e e' n n' : Nat} (v0 : Fin (3 + e) → Fin n → ℝ) (v1 : Fin (3 + e') → Fin n' → ℝ)
    (scale usesvd : Bool) : Py (Option (Matrix (Fin 4) (Fin 4) ℝ)) :=
  affineFromPoints lib (d := 3) (d' := 3) (fun a => v0 (Fin.castAdd e a)) (fun a => v1 (Fin.castAdd e' a)) false scale usesvd

end Electrode
