import Verif.Model.Project
import Mathlib.Data.Complex.Basic
import Mathlib.Analysis.SpecialFunctions.Trigonometric.Arctan

/-
Model of `electrode/transformations.py`: the functions that find the arguments of a transformation from its matrix.
-/
namespace Electrode

/-- transformations.py:287-297, 362-369: what `numpy.linalg.eig` returns: eigenvalues and eigenvectors, here in pairs -/
abbrev Eigen (n : Nat) := Fin n → ℂ × (Fin n → ℂ)

/-- transformations.py:287, 293, 362, 368: `numpy.linalg.eig` for the two sizes that are used -/
structure EigLib where
  eig3 : Matrix (Fin 3) (Fin 3) ℝ → Eigen 3
  eig4 : Matrix (Fin 4) (Fin 4) ℝ → Eigen 4

/-- transformations.py:288-291, 294-296: `numpy.where(P(numpy.real(w)))[0]` and the real parts of the columns of `V` with these indices -/
noncomputable def eigPick {n : Nat} (e : Eigen n) (P : ℝ → Prop) : List (Fin n → ℝ) := open Classical in
  ((List.finRange n).filter fun i => P (e i).1.re).map fun i k => ((e i).2 k).re

/-- transformations.py:288, 294, 363, 369: the tolerance of the functions below -/
noncomputable def eigTol : ℝ := 1 / 10 ^ 8

/-- transformations.py:298, 373: `point /= point[3]`, and `[:3]` of it, which is all that the other functions use.  `none` is a vector with nan or inf. -/
noncomputable def dehom (v : Fin 4 → ℝ) : Option (Fin 3 → ℝ) := open Classical in
  if v 3 = 0 then none else some fun a => v a.castSucc / v 3

/-- transformations.py:446, 712: `v /= vector_norm(v)` -/
noncomputable def byNorm (v : Fin 3 → ℝ) : Fin 3 → ℝ := fun a => v a / vectorNorm v

/-- transformations.py:273-299 `reflection_from_matrix`: the point and the normal.  `.ok none` here and below is a result with nan. -/
noncomputable def reflectionFrom (L : EigLib) (M : Matrix (Fin 4) (Fin 4) ℝ) : Py (Option ((Fin 3 → ℝ) × (Fin 3 → ℝ))) :=
  match (eigPick (L.eig3 (upper M)) fun w => |w + 1| < eigTol).head? with
  | none => .error .valueError
  | some n =>
    match (eigPick (L.eig4 M) fun w => |w - 1| < eigTol).getLast? with
    | none => .error .valueError
    | some v => .ok ((dehom v).map fun p => (p, n))

/-- transformations.py:374-382: the angle for a given direction.  A division by zero gives nan in numpy and zero here. -/
noncomputable def angleFrom (R : Matrix (Fin 4) (Fin 4) ℝ) (d : Fin 3 → ℝ) : ℝ := open Classical in
  let cosa := ((upper R).trace - 1) / 2
  let sina :=
    if eigTol < |d 2| then (R 1 0 + (cosa - 1) * d 0 * d 1) / d 2
    else if eigTol < |d 1| then (R 0 2 + (cosa - 1) * d 0 * d 2) / d 1
    else (R 2 1 + (cosa - 1) * d 1 * d 2) / d 0
  atan2 sina cosa

/-- transformations.py:346-383 `rotation_from_matrix`: the angle, the direction and the point -/
noncomputable def rotationFrom (L : EigLib) (R : Matrix (Fin 4) (Fin 4) ℝ) : Py (Option (ℝ × (Fin 3 → ℝ) × (Fin 3 → ℝ))) :=
  match (eigPick (L.eig3 (upper R).transpose) fun w => |w - 1| < eigTol).getLast? with
  | none => .error .valueError
  | some d =>
    match (eigPick (L.eig4 R) fun w => |w - 1| < eigTol).getLast? with
    | none => .error .valueError
    | some v => .ok ((dehom v).map fun p => (angleFrom R d, d, p))

/-- transformations.py:420-458 `scale_from_matrix`: the factor, the origin and the direction -/
noncomputable def scaleFrom (L : EigLib) (M : Matrix (Fin 4) (Fin 4) ℝ) : Py (Option (ℝ × (Fin 3 → ℝ) × Option (Fin 3 → ℝ))) :=
  let factor := (upper M).trace - 2
  let fd : ℝ × Option (Fin 3 → ℝ) :=
    match (eigPick (L.eig3 (upper M)) fun w => |w - factor| < eigTol).head? with
    | some d => (factor, some (byNorm d))
    | none => ((factor + 2) / 3, none)
  match (eigPick (L.eig4 M) fun w => |w - 1| < eigTol).getLast? with
  | none => .error .valueError
  | some v => .ok ((dehom v).map fun o => (fd.1, o, fd.2))

/-- transformations.py:523-593: what `projection_from_matrix` returns: the arguments of `projection_matrix` -/
structure ProjArgs where
  point : Fin 3 → ℝ
  normal : Fin 3 → ℝ
  direction : Option (Fin 3 → ℝ)
  perspective : Option (Fin 3 → ℝ)
  pseudo : Bool

/-- transformations.py:523-593 `projection_from_matrix` -/
noncomputable def projectionFrom (L : EigLib) (M : Matrix (Fin 4) (Fin 4) ℝ) (pseudo : Bool) : Py (Option ProjArgs) := open Classical in
  match (if pseudo then none else (eigPick (L.eig4 M) fun w => |w - 1| < eigTol).getLast?) with
  | some v =>
    match (eigPick (L.eig3 (upper M)) fun w => |w| < eigTol).head? with
    | none => .error .valueError
    | some d =>
      match (eigPick (L.eig3 (upper M).transpose) fun w => |w| < eigTol).head? with
      | some n => .ok ((dehom v).map fun p => ⟨p, byNorm n, some (byNorm d), none, false⟩)
      | none => .ok ((dehom v).map fun p => ⟨p, byNorm d, none, none, false⟩)
  | none =>
    match (eigPick (L.eig4 M) fun w => eigTol < |w|).getLast? with
    | none => .error .valueError
    | some v => .ok ((dehom v).bind fun p =>
        let n : Fin 3 → ℝ := fun a => -M 3 a.castSucc
        if vdot p n = 0 then none
        else some ⟨p, n, none, some fun a => M a.castSucc 3 / vdot p n - if pseudo then n a else 0, pseudo⟩)

/-- transformations.py:701-707: the longest cross product of two rows, the first one if there are several -/
noncomputable def bestNormal (V : List (Fin 3 → ℝ)) : (Fin 3 → ℝ) × ℝ := open Classical in
  [(0, 1), (0, 2), (1, 2)].foldl (fun (s : (Fin 3 → ℝ) × ℝ) (i : Nat × Nat) =>
    let n := vcross (V.getD i.1 0) (V.getD i.2 0)
    if s.2 < vectorNorm n then (n, vectorNorm n) else s) (0, -1)

/-- transformations.py:679-721 `shear_from_matrix`: the angle, the direction, the point and the normal.  With exactly two eigenvectors
the index 2 raises IndexError. -/
noncomputable def shearFrom (L : EigLib) (M : Matrix (Fin 4) (Fin 4) ℝ) : Py (Option (ℝ × (Fin 3 → ℝ) × (Fin 3 → ℝ) × (Fin 3 → ℝ))) :=
  open Classical in
  let V := eigPick (L.eig3 (upper M)) fun w => |w - 1| < 1 / 10 ^ 4
  if V.length < 2 then .error .valueError
  else if V.length < 3 then .error .indexError
  else
    let b := bestNormal V
    let normal : Fin 3 → ℝ := fun a => b.1 a / b.2
    let direction : Fin 3 → ℝ := (upper M - 1).mulVec normal
    let angle := vectorNorm direction
    match (eigPick (L.eig4 M) fun w => |w - 1| < eigTol).getLast? with
    | none => .error .valueError
    | some v =>
      if b.2 = 0 ∨ angle = 0 then .ok none
      else .ok ((dehom v).map fun p => (Real.arctan angle, fun a => direction a / angle, p, normal))

end Electrode
