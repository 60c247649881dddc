import Verif.Model.Py
import Mathlib.Analysis.SpecialFunctions.Sqrt
import Mathlib.Analysis.SpecialFunctions.Trigonometric.Basic

/-
Model of `cartesian_to_spherical_harmonics` of `electrode/utils.py` (lines 401-508), for one point: the array `c` of shape
`(m, n)` is treated column by column.
-/
namespace Electrode

/-- utils.py:426: the order of a row.  For an empty row Python gets `-1`, here it is 0; both give an empty result. -/
def sphOrder (c : List ℝ) : Nat := (c.length - 1) / 2

/-- utils.py:429: the factor `n` -/
noncomputable def sphFactor (l : Nat) : ℝ :=
  8 * √(Real.pi * (2 * l + 1)) * ((l + 1).factorial : ℝ) / ((2 * l + 2).factorial : ℝ)

/-- utils.py:432-438: order 1, before the factor -/
def sphRow1 : List ℝ → Py (List ℝ)
  | [x, y, z] => .ok [-y, z, -x]
  | _ => .error .valueError

/-- utils.py:439-448: order 2, before the factor -/
noncomputable def sphRow2 : List ℝ → Py (List ℝ)
  | [xx, xy, xz, yy, yz] =>
    let zz := -xx - yy
    .ok [2 * √3 * xy, -2 * √3 * yz, -xx - yy + 2 * zz, -2 * √3 * xz, √3 * (xx - yy)]
  | _ => .error .valueError

/-- utils.py:449-462: order 3, before the factor -/
noncomputable def sphRow3 : List ℝ → Py (List ℝ)
  | [xxy, xxz, yyz, xyy, xzz, yzz, xyz] =>
    let yyy := -xxy - yzz
    let xxx := -xyy - xzz
    let zzz := -xxz - yyz
    .ok [√10 * (-3 * xxy + yyy), 4 * √15 * xyz, √6 * (xxy + yyy - 4 * yzz), 2 * (-3 * xxz - 3 * yyz + 2 * zzz),
      √6 * (xxx + xyy - 4 * xzz), 2 * √15 * (xxz - yyz), √10 * (-xxx + 3 * xyy)]
  | _ => .error .valueError

/-- utils.py:463-481: order 4, before the factor -/
noncomputable def sphRow4 : List ℝ → Py (List ℝ)
  | [xxxy, xxxz, xxyy, xxzz, xyyy, xzzz, yyyz, yyzz, yzzz] =>
    let xxyz := -yyyz - yzzz
    let xyzz := -xyyy - xxxy
    let xxxx := -xxyy - xxzz
    let yyyy := -xxyy - yyzz
    let zzzz := -yyzz - xxzz
    let xyyz := -xxxz - xzzz
    .ok [4 * √35 * (xxxy - xyyy), 2 * √70 * (-3 * xxyz + yyyz), 4 * √5 * (-xxxy - xyyy + 6 * xyzz),
      2 * √10 * (3 * xxyz + 3 * yyyz - 4 * yzzz),
      3 * xxxx + 6 * xxyy - 24 * xxzz + 3 * yyyy - 24 * yyzz + 8 * zzzz,
      2 * √10 * (3 * xxxz + 3 * xyyz - 4 * xzzz), 2 * √5 * (-xxxx + 6 * xxzz + yyyy - 6 * yyzz),
      2 * √70 * (-xxxz + 3 * xyyz), √35 * (xxxx - 6 * xxyy + yyyy)]
  | _ => .error .valueError

/-- utils.py:482-507: order 5, before the factor -/
noncomputable def sphRow5 : List ℝ → Py (List ℝ)
  | [xxxyy, xxxyz, xxxzz, xxyyy, xxyyz, xxyzz, xxzzz, xyyyz, xyyzz, yyyzz, yyzzz] =>
    let xxxxy := -xxyyy - xxyzz
    let yyyyy := -xxyyy - yyyzz
    let xyzzz := -xxxyz - xyyyz
    let yzzzz := -xxyzz - yyyzz
    let xxxxz := -xxyyz - xxzzz
    let yyyyz := -xxyyz - yyzzz
    let zzzzz := -yyzzz - xxzzz
    let xxxxx := -xxxyy - xxxzz
    let xyyyy := -xxxyy - xyyzz
    let xzzzz := -xyyzz - xxxzz
    .ok [3 * √14 * (-5 * xxxxy + 10 * xxyyy - yyyyy), 24 * √35 * (xxxyz - xyyyz),
      √70 * (3 * xxxxy + 2 * xxyyy - 24 * xxyzz - yyyyy + 8 * yyyzz), 8 * √105 * (-xxxyz - xyyyz + 2 * xyzzz),
      2 * √15 * (-xxxxy - 2 * xxyyy + 12 * xxyzz - yyyyy + 12 * yyyzz - 8 * yzzzz),
      2 * (15 * xxxxz + 30 * xxyyz - 40 * xxzzz + 15 * yyyyz - 40 * yyzzz + 8 * zzzzz),
      2 * √15 * (-xxxxx - 2 * xxxyy + 12 * xxxzz - xyyyy + 12 * xyyzz - 8 * xzzzz),
      4 * √105 * (-xxxxz + 2 * xxzzz + yyyyz - 2 * yyzzz), √70 * (xxxxx - 2 * xxxyy - 8 * xxxzz - 3 * xyyyy + 24 * xyyzz),
      6 * √35 * (xxxxz - 6 * xxyyz + yyyyz), 3 * √14 * (-xxxxx + 10 * xxxyy - 5 * xyyyy)]
  | _ => .error .valueError

/-- utils.py:401-508 `cartesian_to_spherical_harmonics` of one column.  Unpacking a row of the wrong length raises `ValueError`;
orders above 5 fall through all branches and are only multiplied by the factor. -/
noncomputable def cartToSph (c : List ℝ) : Py (List ℝ) :=
  let l := sphOrder c
  let r := if l = 0 then .ok (c.map (· / 2)) else if l = 1 then sphRow1 c else if l = 2 then sphRow2 c else if l = 3 then sphRow3 c
    else if l = 4 then sphRow4 c else if l = 5 then sphRow5 c else .ok c
  match r with
  | .error e => .error e
  | .ok d => .ok (d.map fun x => sphFactor l * x)

end Electrode
