import Verif.Model.Py
import Verif.Model.Transform
import Verif.Model.QuatC

/-
Model of `electrode/transformations.c`: the largest eigenvalue of a symmetric four by four matrix and its eigenvector, and the functions
that use them, `superimposition_matrix` and `quaternion_from_matrix` without `isprecise`.
-/
namespace Electrode

/-- transformations.c:153-178, 296-375: the entries of a symmetric matrix that are used: `M[0]`, `M[1]`, `M[2]`, `M[3]`, `M[5]`, `M[6]`, `M[7]`, `M[10]`, `M[11]`, `M[15]` -/
structure Sym4 where
  m0 : ℝ
  m1 : ℝ
  m2 : ℝ
  m3 : ℝ
  m5 : ℝ
  m6 : ℝ
  m7 : ℝ
  m10 : ℝ
  m11 : ℝ
  m15 : ℝ

/-- transformations.c:203-209, 220-226: `diagonal` and `subdiagonal` -/
structure Tri4 where
  a0 : ℝ
  a1 : ℝ
  a2 : ℝ
  a3 : ℝ
  b0 : ℝ
  b1 : ℝ
  b2 : ℝ

/-- transformations.c:155-180, the first row of `tridiagonalize_symmetric_44` -/
noncomputable def triFirst (M : Sym4) : Sym4 := open Classical in
  let t := M.m2 * M.m2 + M.m3 * M.m3
  let n := √(M.m1 * M.m1 + t)
  if tEps < n then
    let n := if M.m1 < 0 then -n else n
    let u0 := M.m1 + n
    let u1 := M.m2
    let u2 := M.m3
    let h := (u0 * u0 + t) / 2
    let v0 := (M.m5 * u0 + M.m6 * u1 + M.m7 * u2) / h
    let v1 := (M.m6 * u0 + M.m10 * u1 + M.m11 * u2) / h
    let v2 := (M.m7 * u0 + M.m11 * u1 + M.m15 * u2) / h
    let g := (u0 * v0 + u1 * v1 + u2 * v2) / (2 * h)
    let v0 := v0 - g * u0
    let v1 := v1 - g * u1
    let v2 := v2 - g * u2
    { M with
      m5 := M.m5 - 2 * v0 * u0
      m10 := M.m10 - 2 * v1 * u1
      m15 := M.m15 - 2 * v2 * u2
      m6 := M.m6 - (v1 * u0 + v0 * u1)
      m7 := M.m7 - (v2 * u0 + v0 * u2)
      m11 := M.m11 - (v2 * u1 + v1 * u2)
      m1 := -n }
  else M

/-- transformations.c:182-201, the second row of `tridiagonalize_symmetric_44` -/
noncomputable def triSecond (M : Sym4) : Sym4 := open Classical in
  let t := M.m7 * M.m7
  let n := √(M.m6 * M.m6 + t)
  if tEps < n then
    let n := if M.m6 < 0 then -n else n
    let u0 := M.m6 + n
    let u1 := M.m7
    let h := (u0 * u0 + t) / 2
    let v0 := (M.m10 * u0 + M.m11 * u1) / h
    let v1 := (M.m11 * u0 + M.m15 * u1) / h
    let g := (u0 * v0 + u1 * v1) / (2 * h)
    let v0 := v0 - g * u0
    let v1 := v1 - g * u1
    { M with
      m10 := M.m10 - 2 * v0 * u0
      m15 := M.m15 - 2 * v1 * u1
      m11 := M.m11 - (v1 * u0 + v0 * u1)
      m6 := -n }
  else M

/-- transformations.c:146-212 `tridiagonalize_symmetric_44` -/
noncomputable def tridiagonalize (M : Sym4) : Tri4 :=
  let M := triSecond (triFirst M)
  ⟨M.m0, M.m5, M.m10, M.m15, M.m1, M.m6, M.m11⟩

/-- transformations.c:229-245: bounds of the eigenvalues by the theorem of Gerschgorin -/
noncomputable def gershLower (T : Tri4) : ℝ :=
  min (min (min (T.a0 - |T.b0|) (T.a1 - |T.b0| - |T.b1|)) (T.a2 - |T.b2| - |T.b1|)) (T.a3 - |T.b2|)

/-- transformations.c:229-245: bounds of the eigenvalues by the theorem of Gerschgorin -/
noncomputable def gershUpper (T : Tri4) : ℝ :=
  max (max (max (T.a0 + |T.b0|) (T.a1 + |T.b0| + |T.b1|)) (T.a2 + |T.b2| + |T.b1|)) (T.a3 + |T.b2|)

/-- transformations.c:249 `eps` -/
noncomputable def bisEps : ℝ := 1 / 10 ^ 18

/-- transformations.c:262-263, 267-268, 272-273: a small pivot is replaced -/
noncomputable def fixPivot (d : ℝ) : ℝ := open Classical in if |d| < bisEps then bisEps else d

/-- transformations.c:260-276: the number of pivots below zero -/
noncomputable def pivotCount (T : Tri4) (x : ℝ) : Nat := open Classical in
  let d0 := T.a0 - x
  let d1 := T.a1 - x - T.b0 * T.b0 / fixPivot d0
  let d2 := T.a2 - x - T.b1 * T.b1 / fixPivot d1
  let d3 := T.a3 - x - T.b2 * T.b2 / fixPivot d2
  (if d0 < 0 then 1 else 0) + (if d1 < 0 then 1 else 0) + (if d2 < 0 then 1 else 0) + if d3 < 0 then 1 else 0

/-- transformations.c:252-284: the loop of `max_eigenvalue_of_tridiag_44`, with at most `fuel` rounds -/
noncomputable def bisect (T : Tri4) : (fuel : Nat) → (lower upper : ℝ) → Option ℝ := open Classical in fun
  | 0, _, _ => none
  | fuel + 1, lower, upper =>
    if |upper - lower| > bisEps then
      let x := (upper + lower) / 2
      if x = upper ∨ x = lower then some x
      else if pivotCount T x < 4 then bisect T fuel x upper
      else bisect T fuel lower x
    else some ((upper + lower) / 2)

/-- transformations.c:219-285 `max_eigenvalue_of_tridiag_44` -/
noncomputable def maxEigen (fuel : Nat) (T : Tri4) : Option ℝ := bisect T fuel (gershLower T) (gershUpper T)

/-- transformations.c:306-327: the first candidate for the eigenvector, before it is normalized -/
def eigRow0 (M : Sym4) : Fin 4 → ℝ :=
  let t0 := M.m10 * M.m15
  let t1 := M.m11 * M.m11
  let t2 := M.m6 * M.m15
  let t3 := M.m11 * M.m7
  let t4 := M.m6 * M.m11
  let t5 := M.m10 * M.m7
  let t6 := M.m2 * M.m15
  let t7 := M.m11 * M.m3
  let t8 := M.m2 * M.m11
  let t9 := M.m10 * M.m3
  let t10 := M.m2 * M.m7
  let t11 := M.m6 * M.m3
  ![t1 * M.m1 + t6 * M.m6 + t9 * M.m7 - (t0 * M.m1 + t7 * M.m6 + t8 * M.m7),
    t2 * M.m1 + t7 * M.m5 + t10 * M.m7 - (t3 * M.m1 + t6 * M.m5 + t11 * M.m7),
    t5 * M.m1 + t8 * M.m5 + t11 * M.m6 - (t4 * M.m1 + t9 * M.m5 + t10 * M.m6),
    t0 * M.m5 + t3 * M.m6 + t4 * M.m7 - (t1 * M.m5 + t2 * M.m6 + t5 * M.m7)]

/-- transformations.c:329-339: the second candidate -/
def eigRow1 (M : Sym4) : Fin 4 → ℝ :=
  let t0 := M.m10 * M.m15
  let t1 := M.m11 * M.m11
  let t2 := M.m6 * M.m15
  let t3 := M.m11 * M.m7
  let t4 := M.m6 * M.m11
  let t5 := M.m10 * M.m7
  let t6 := M.m2 * M.m15
  let t7 := M.m11 * M.m3
  let t8 := M.m2 * M.m11
  let t9 := M.m10 * M.m3
  let t10 := M.m2 * M.m7
  let t11 := M.m6 * M.m3
  ![t0 * M.m0 + t7 * M.m2 + t8 * M.m3 - (t1 * M.m0 + t6 * M.m2 + t9 * M.m3),
    t3 * M.m0 + t6 * M.m1 + t11 * M.m3 - (t2 * M.m0 + t7 * M.m1 + t10 * M.m3),
    t4 * M.m0 + t9 * M.m1 + t10 * M.m2 - (t5 * M.m0 + t8 * M.m1 + t11 * M.m2),
    t1 * M.m1 + t2 * M.m2 + t5 * M.m3 - (t0 * M.m1 + t3 * M.m2 + t4 * M.m3)]

/-- transformations.c:341-364: the third candidate -/
def eigRow2 (M : Sym4) : Fin 4 → ℝ :=
  let t0 := M.m2 * M.m7
  let t1 := M.m3 * M.m6
  let t2 := M.m1 * M.m7
  let t3 := M.m3 * M.m5
  let t4 := M.m1 * M.m6
  let t5 := M.m2 * M.m5
  let t6 := M.m0 * M.m7
  let t7 := M.m3 * M.m1
  let t8 := M.m0 * M.m6
  let t9 := M.m2 * M.m1
  let t10 := M.m0 * M.m5
  let t11 := M.m1 * M.m1
  ![t1 * M.m3 + t6 * M.m11 + t9 * M.m15 - (t0 * M.m3 + t7 * M.m11 + t8 * M.m15),
    t2 * M.m3 + t7 * M.m7 + t10 * M.m15 - (t3 * M.m3 + t6 * M.m7 + t11 * M.m15),
    t5 * M.m3 + t8 * M.m7 + t11 * M.m11 - (t4 * M.m3 + t9 * M.m7 + t10 * M.m11),
    t0 * M.m7 + t3 * M.m11 + t4 * M.m15 - (t1 * M.m7 + t2 * M.m11 + t5 * M.m15)]

/-- transformations.c:366-376: the fourth candidate -/
def eigRow3 (M : Sym4) : Fin 4 → ℝ :=
  let t0 := M.m2 * M.m7
  let t1 := M.m3 * M.m6
  let t2 := M.m1 * M.m7
  let t3 := M.m3 * M.m5
  let t4 := M.m1 * M.m6
  let t5 := M.m2 * M.m5
  let t6 := M.m0 * M.m7
  let t7 := M.m3 * M.m1
  let t8 := M.m0 * M.m6
  let t9 := M.m2 * M.m1
  let t10 := M.m0 * M.m5
  let t11 := M.m1 * M.m1
  ![t8 * M.m11 + t0 * M.m2 + t7 * M.m10 - (t6 * M.m10 + t9 * M.m11 + t1 * M.m2),
    t6 * M.m6 + t11 * M.m11 + t3 * M.m2 - (t10 * M.m11 + t2 * M.m2 + t7 * M.m6),
    t10 * M.m10 + t4 * M.m2 + t9 * M.m6 - (t8 * M.m6 + t11 * M.m10 + t5 * M.m2),
    t2 * M.m10 + t5 * M.m11 + t1 * M.m6 - (t4 * M.m11 + t0 * M.m6 + t3 * M.m10)]

/-- transformations.c:301-304 `eps` -/
noncomputable def eigEps (M : Sym4) : ℝ :=
  let e := (M.m0 * M.m5 * M.m10 * M.m15 - M.m1 * M.m1 * M.m11 * M.m11) * (1 / 10 ^ 6)
  open Classical in if e * e < tEps then tEps else e * e

/-- transformations.c:290-388 `eigenvector_of_symmetric_44`; `none` if it fails -/
noncomputable def eigenvector (M : Sym4) : Option (Fin 4 → ℝ) := open Classical in
  let eps := eigEps M
  let v := eigRow0 M
  let v := if quatDot v < eps then eigRow1 M else v
  let v := if quatDot v < eps then eigRow2 M else v
  let v := if quatDot v < eps then eigRow3 M else v
  if quatDot v < eps then none else some fun i => v i / √(quatDot v)

/-- transformations.c:1929-1932, 2662-2665: `M[0] -= l`, `M[5] -= l`, `M[10] -= l`, `M[15] -= l` -/
noncomputable def Sym4.shift (M : Sym4) (l : ℝ) : Sym4 := { M with m0 := M.m0 - l, m5 := M.m5 - l, m10 := M.m10 - l, m15 := M.m15 - l }

/-- transformations.c:1918-1939, 2650-2672: the eigenvector for the largest eigenvalue; `none` if the loop has not ended, otherwise
the result of `eigenvector_of_symmetric_44` -/
noncomputable def topVector (fuel : Nat) (M : Sym4) : Option (Option (Fin 4 → ℝ)) :=
  (maxEigen fuel (tridiagonalize M)).map fun l => eigenvector (M.shift l)

/-- transformations.c:2634-2644: the matrix `K` -/
noncomputable def quatKC (M : Matrix (Fin 4) (Fin 4) ℝ) : Sym4 where
  m0 := (M 0 0 - M 1 1 - M 2 2) / 3
  m5 := (M 1 1 - M 0 0 - M 2 2) / 3
  m10 := (M 2 2 - M 0 0 - M 1 1) / 3
  m15 := (M 0 0 + M 1 1 + M 2 2) / 3
  m1 := (M 1 0 + M 0 1) / 3
  m2 := (M 2 0 + M 0 2) / 3
  m3 := (M 2 1 - M 1 2) / 3
  m6 := (M 2 1 + M 1 2) / 3
  m7 := (M 0 2 - M 2 0) / 3
  m11 := (M 1 0 - M 0 1) / 3

/-- transformations.c:2579-2689 `quaternion_from_matrix` without `isprecise` -/
noncomputable def cQuatFromMatrix (fuel : Nat) (M : Matrix (Fin 4) (Fin 4) ℝ) : Option (Py Quat) := open Classical in
  (topVector fuel (quatKC M)).map fun
    | none => .error .valueError
    | some v =>
      let q : Quat := ![v 2, v 3, v 0, v 1]
      .ok (if q 0 < 0 then fun a => -q a else q)

/-- transformations.c:1789-1835: the centroid -/
noncomputable def cMean {n : Nat} (v : Fin 3 → Fin n → ℝ) : Fin 3 → ℝ := fun a => (∑ j, v a j) / n

/-- transformations.c:1836-1909: the matrix `N`, from the points about their centroids -/
noncomputable def hornC {n : Nat} (v0 v1 : Fin 3 → Fin n → ℝ) : Sym4 :=
  let s : Fin 3 → Fin 3 → ℝ := fun a b => ∑ j, (v0 a j - cMean v0 a) * (v1 b j - cMean v1 b)
  let xx := s 0 0
  let yy := s 1 1
  let zz := s 2 2
  let xy := s 0 1
  let yz := s 1 2
  let zx := s 2 0
  let xz := s 0 2
  let yx := s 1 0
  let zy := s 2 1
  { m0 := xx + yy + zz
    m5 := xx - yy - zz
    m10 := -xx + yy - zz
    m15 := -xx - yy + zz
    m1 := yz - zy
    m2 := zx - xz
    m3 := xy - yx
    m6 := xy + yx
    m7 := zx + xz
    m11 := yz + zy }

/-- transformations.c:1789-2040, the body of `superimposition_matrix`, for the first three coordinates.  With `scaling` the code divides by
the square of the extent of the first points; if this is zero, so is `N`, and the function has failed before. -/
noncomputable def cSupCore (fuel : Nat) {n : Nat} (w0 w1 : Fin 3 → Fin n → ℝ) (scaling : Bool) : Option (Py (Matrix (Fin 4) (Fin 4) ℝ)) :=
  (topVector fuel (hornC w0 w1)).map fun
    | none => .error .valueError
    | some v =>
      let q : Quat := ![v 3, v 0, v 1, v 2]
      let R := upper (cQuatMatrix q).1
      let v0s := ∑ a, ∑ j, (w0 a j - cMean w0 a) * (w0 a j - cMean w0 a)
      let v1s := ∑ a, ∑ j, (w1 a j - cMean w1 a) * (w1 a j - cMean w1 a)
      let R : Matrix (Fin 3) (Fin 3) ℝ := if scaling then √(v1s / v0s) • R else R
      .ok (affine R fun a => cMean w1 a - R a 0 * cMean w0 0 - R a 1 * cMean w0 1 - R a 2 * cMean w0 2)

/-- transformations.c:1728-2040 `superimposition_matrix`, for arrays with two dimensions; `usesvd` is not used -/
noncomputable def cSuperimposition (fuel : Nat) {d d' n n' : Nat} (v0 : Fin d → Fin n → ℝ) (v1 : Fin d' → Fin n' → ℝ) (scaling _usesvd : Bool) :
    Option (Py (Matrix (Fin 4) (Fin 4) ℝ)) :=
  if h : ¬ (d = d' ∧ n = n') ∨ d < 3 then some (.error .valueError)
  else
    have hs : d = d' ∧ n = n' ∧ 3 ≤ d := by omega
    cSupCore fuel (fun a => v0 (a.castLE hs.2.2)) (fun a j => v1 ((a.castLE hs.2.2).cast hs.1) (j.cast hs.2.1)) scaling

end Electrode
