import Verif.Model.Py
import Mathlib.Analysis.SpecialFunctions.Complex.Arg
import Mathlib.LinearAlgebra.Matrix.Notation
import Mathlib.LinearAlgebra.Matrix.Determinant.Basic

/-
Model of `electrode/transformations.py`: matrices, Euler angles, quaternions.  Homogeneous matrices are 4 by 4.
-/
namespace Electrode

/-- transformations.py:1145-1160: `math.atan2(y, x)` -/
noncomputable def atan2 (y x : ℝ) : ℝ := Complex.arg ⟨x, y⟩

/-- transformations.py:1669 `_EPS`: four times the machine epsilon -/
noncomputable def tEps : ℝ := 4 / 2 ^ 52

/-- transformations.py:1675-1683: inner axis, parity, repetition, frame -/
structure AxTuple where
  first : Nat
  parity : Nat
  rep : Nat
  frame : Nat
  deriving DecidableEq

/-- transformations.py:1672 `_NEXT_AXIS` -/
def nextAxis : List (Fin 3) := [1, 2, 0, 1]

/-- transformations.py:1675-1683 `_AXES2TUPLE`; the keys as lists of characters -/
def axes2tuple : List (List Char × AxTuple) := [
  (['s', 'x', 'y', 'z'], ⟨0, 0, 0, 0⟩), (['s', 'x', 'y', 'x'], ⟨0, 0, 1, 0⟩), (['s', 'x', 'z', 'y'], ⟨0, 1, 0, 0⟩),
  (['s', 'x', 'z', 'x'], ⟨0, 1, 1, 0⟩), (['s', 'y', 'z', 'x'], ⟨1, 0, 0, 0⟩), (['s', 'y', 'z', 'y'], ⟨1, 0, 1, 0⟩),
  (['s', 'y', 'x', 'z'], ⟨1, 1, 0, 0⟩), (['s', 'y', 'x', 'y'], ⟨1, 1, 1, 0⟩), (['s', 'z', 'x', 'y'], ⟨2, 0, 0, 0⟩),
  (['s', 'z', 'x', 'z'], ⟨2, 0, 1, 0⟩), (['s', 'z', 'y', 'x'], ⟨2, 1, 0, 0⟩), (['s', 'z', 'y', 'z'], ⟨2, 1, 1, 0⟩),
  (['r', 'z', 'y', 'x'], ⟨0, 0, 0, 1⟩), (['r', 'x', 'y', 'x'], ⟨0, 0, 1, 1⟩), (['r', 'y', 'z', 'x'], ⟨0, 1, 0, 1⟩),
  (['r', 'x', 'z', 'x'], ⟨0, 1, 1, 1⟩), (['r', 'x', 'z', 'y'], ⟨1, 0, 0, 1⟩), (['r', 'y', 'z', 'y'], ⟨1, 0, 1, 1⟩),
  (['r', 'z', 'x', 'y'], ⟨1, 1, 0, 1⟩), (['r', 'y', 'x', 'y'], ⟨1, 1, 1, 1⟩), (['r', 'y', 'x', 'z'], ⟨2, 0, 0, 1⟩),
  (['r', 'z', 'x', 'z'], ⟨2, 0, 1, 1⟩), (['r', 'x', 'y', 'z'], ⟨2, 1, 0, 1⟩), (['r', 'z', 'y', 'z'], ⟨2, 1, 1, 1⟩)]

/-- transformations.py:1068-1072: the argument `axes`: a string or a tuple -/
inductive AxArg
  | str (s : List Char)
  | tup (t : AxTuple)

/-- transformations.py:1068-1072: the tuple of an argument.  A string is looked up; a tuple must be one of the values.  `lower` says
whether strings are made lower case first (lines 1132, 1193; not in `euler_matrix`). -/
def axTuple (lower : Bool) : AxArg → Py AxTuple
  | .str s =>
    match axes2tuple.lookup (if lower then s.map Char.toLower else s) with
    | some t => .ok t
    | none => .error .keyError
  | .tup t => if t ∈ axes2tuple.map Prod.snd then .ok t else .error .keyError

/-- transformations.py:1074-1076, 1137-1139: the three axes; an index of at most 3 is in range for all tuples of the table -/
def axIJK (t : AxTuple) : Fin 3 × Fin 3 × Fin 3 :=
  (Fin.ofNat 3 t.first, nextAxis.getD (t.first + t.parity) 0, nextAxis.getD (t.first + 1 - t.parity) 0)

/-- transformations.py:1089-1109: `M[i, j] = v` one after the other, on the three by three part of the identity matrix -/
def writeAll (ws : List ((Fin 3 × Fin 3) × ℝ)) : Matrix (Fin 3) (Fin 3) ℝ :=
  ws.foldl (fun M w a b => if a = w.1.1 ∧ b = w.1.2 then w.2 else M a b) 1

/-- transformations.py:1083-1109: the matrix for given axes after the changes of frame and parity -/
noncomputable def eulerCore (rep : Bool) (i j k : Fin 3) (ai aj ak : ℝ) : Matrix (Fin 3) (Fin 3) ℝ :=
  let si := Real.sin ai
  let sj := Real.sin aj
  let sk := Real.sin ak
  let ci := Real.cos ai
  let cj := Real.cos aj
  let ck := Real.cos ak
  let cc := ci * ck
  let cs := ci * sk
  let sc := si * ck
  let ss := si * sk
  if rep then
    writeAll [((i, i), cj), ((i, j), sj * si), ((i, k), sj * ci), ((j, i), sj * sk), ((j, j), -cj * ss + cc),
      ((j, k), -cj * cs - sc), ((k, i), -sj * ck), ((k, j), cj * sc + cs), ((k, k), cj * cc - ss)]
  else
    writeAll [((i, i), cj * ck), ((i, j), sj * sc - cs), ((i, k), sj * cc + ss), ((j, i), cj * sk), ((j, j), sj * ss + cc),
      ((j, k), sj * cs - sc), ((k, i), -sj), ((k, j), cj * si), ((k, k), cj * ci)]

/-- transformations.py:1088, 1274-1278: the homogeneous matrix with this three by three part and no translation -/
def homog (M : Matrix (Fin 3) (Fin 3) ℝ) : Matrix (Fin 4) (Fin 4) ℝ :=
  fun a b => if h : a.val < 3 ∧ b.val < 3 then M ⟨a.val, h.1⟩ ⟨b.val, h.2⟩ else if a = b then 1 else 0

/-- transformations.py:1141: `matrix[:3, :3]` -/
def upper (M : Matrix (Fin 4) (Fin 4) ℝ) : Matrix (Fin 3) (Fin 3) ℝ := fun a b => M (Fin.castSucc a) (Fin.castSucc b)

/-- transformations.py:1074-1109, `euler_matrix` for a valid tuple -/
noncomputable def eulerMatrixT (t : AxTuple) (ai aj ak : ℝ) : Matrix (Fin 4) (Fin 4) ℝ :=
  let p := axIJK t
  let (ai, ak) := if t.frame ≠ 0 then (ak, ai) else (ai, ak)
  let (ai, aj, ak) := if t.parity ≠ 0 then (-ai, -aj, -ak) else (ai, aj, ak)
  homog (eulerCore (t.rep ≠ 0) p.1 p.2.1 p.2.2 ai aj ak)

/-- transformations.py:1049-1109 `euler_matrix` -/
noncomputable def eulerMatrix (ai aj ak : ℝ) (axes : AxArg) : Py (Matrix (Fin 4) (Fin 4) ℝ) :=
  match axTuple false axes with
  | .error e => .error e
  | .ok t => .ok (eulerMatrixT t ai aj ak)

/-- transformations.py:1141-1161: the angles before the changes of parity and frame -/
noncomputable def eulerFromCore (rep : Bool) (i j k : Fin 3) (M : Matrix (Fin 3) (Fin 3) ℝ) : ℝ × ℝ × ℝ :=
  open Classical in
  if rep then
    let sy := √(M i j * M i j + M i k * M i k)
    if tEps < sy then (atan2 (M i j) (M i k), atan2 sy (M i i), atan2 (M j i) (-M k i))
    else (atan2 (-M j k) (M j j), atan2 sy (M i i), 0)
  else
    let cy := √(M i i * M i i + M j i * M j i)
    if tEps < cy then (atan2 (M k j) (M k k), atan2 (-M k i) cy, atan2 (M j i) (M i i))
    else (atan2 (-M j k) (M j j), atan2 (-M k i) cy, 0)

/-- transformations.py:1137-1167, `euler_from_matrix` for a valid tuple -/
noncomputable def eulerFromMatrixT (t : AxTuple) (M : Matrix (Fin 4) (Fin 4) ℝ) : ℝ × ℝ × ℝ :=
  let p := axIJK t
  let (ax, ay, az) := eulerFromCore (t.rep ≠ 0) p.1 p.2.1 p.2.2 (upper M)
  let (ax, ay, az) := if t.parity ≠ 0 then (-ax, -ay, -az) else (ax, ay, az)
  if t.frame ≠ 0 then (az, ay, ax) else (ax, ay, az)

/-- transformations.py:1112-1167 `euler_from_matrix` -/
noncomputable def eulerFromMatrix (M : Matrix (Fin 4) (Fin 4) ℝ) (axes : AxArg) : Py (ℝ × ℝ × ℝ) :=
  match axTuple true axes with
  | .error e => .error e
  | .ok t => .ok (eulerFromMatrixT t M)

/-! ### vectors and matrices -/

/-- transformations.py:1688-1725 `vector_norm` of a vector -/
noncomputable def vectorNorm {n : Nat} (v : Fin n → ℝ) : ℝ := √(∑ i, v i * v i)

/-- transformations.py:1727-1769 `unit_vector` of a vector.  For the zero vector numpy gives nan; here division by zero is zero. -/
noncomputable def unitVector {n : Nat} (v : Fin n → ℝ) : Fin n → ℝ := fun i => v i / √(∑ i, v i * v i)

/-- transformations.py:230-231, 336-342: a homogeneous matrix from its three by three part and its last column -/
def affine (M : Matrix (Fin 3) (Fin 3) ℝ) (t : Fin 3 → ℝ) : Matrix (Fin 4) (Fin 4) ℝ :=
  fun a b => if h : a.val < 3 then (if h' : b.val < 3 then M ⟨a.val, h⟩ ⟨b.val, h'⟩ else t ⟨a.val, h⟩) else if a = b then 1 else 0

/-- transformations.py:222-232 `translation_matrix` -/
def translationMatrix (d : Fin 3 → ℝ) : Matrix (Fin 4) (Fin 4) ℝ := affine 1 d

/-- transformations.py:235-244 `translation_from_matrix` -/
def translationFromMatrix (M : Matrix (Fin 4) (Fin 4) ℝ) : Fin 3 → ℝ := fun a => M (Fin.castSucc a) 3

/-- transformations.py:247-270 `reflection_matrix` -/
noncomputable def reflectionMatrix (point normal : Fin 3 → ℝ) : Matrix (Fin 4) (Fin 4) ℝ :=
  let n := unitVector normal
  affine (fun a b => (1 : Matrix (Fin 3) (Fin 3) ℝ) a b - 2 * (n a * n b)) fun a => (2 * ∑ i, point i * n i) * n a

/-- transformations.py:329-338: the three by three rotation matrix about a unit vector -/
noncomputable def rotationCore (angle : ℝ) (d : Fin 3 → ℝ) : Matrix (Fin 3) (Fin 3) ℝ :=
  let s := Real.sin angle
  let c := Real.cos angle
  fun a b => (if a = b then c else 0) + d a * d b * (1 - c)
    + (!![0, -(d 2 * s), d 1 * s; d 2 * s, 0, -(d 0 * s); -(d 1 * s), d 0 * s, 0] : Matrix (Fin 3) (Fin 3) ℝ) a b

/-- transformations.py:302-343 `rotation_matrix` -/
noncomputable def rotationMatrix (angle : ℝ) (direction : Fin 3 → ℝ) (point : Option (Fin 3 → ℝ)) : Matrix (Fin 4) (Fin 4) ℝ :=
  let R := rotationCore angle (unitVector direction)
  match point with
  | none => homog R
  | some p => affine R fun a => p a - ∑ i, R a i * p i

/-- transformations.py:386-417 `scale_matrix` -/
noncomputable def scaleMatrix (factor : ℝ) (origin direction : Option (Fin 3 → ℝ)) : Matrix (Fin 4) (Fin 4) ℝ :=
  match direction with
  | none => affine (fun a b => if a = b then factor else 0) fun a => match origin with
    | none => 0
    | some o => o a * (1 - factor)
  | some d =>
    let d := unitVector d
    let f := 1 - factor
    affine (fun a b => (1 : Matrix (Fin 3) (Fin 3) ℝ) a b - f * (d a * d b)) fun a => match origin with
      | none => 0
      | some o => (f * ∑ i, o i * d i) * d a

/-! ### quaternions -/

/-- transformations.py:1238-1251: a quaternion array `[w, x, y, z]` -/
abbrev Quat := Fin 4 → ℝ

/-- transformations.py:1366-1380 `quaternion_multiply(quaternion1, quaternion0)` -/
def quatMul (q1 q0 : Quat) : Quat :=
  ![-q1 1 * q0 1 - q1 2 * q0 2 - q1 3 * q0 3 + q1 0 * q0 0,
    q1 1 * q0 0 + q1 2 * q0 3 - q1 3 * q0 2 + q1 0 * q0 1,
    -q1 1 * q0 3 + q1 2 * q0 0 + q1 3 * q0 1 + q1 0 * q0 2,
    q1 1 * q0 2 - q1 2 * q0 1 + q1 3 * q0 0 + q1 0 * q0 3]

/-- transformations.py:1383-1394 `quaternion_conjugate` -/
def quatConj (q : Quat) : Quat := fun a => if a = 0 then q a else -q a

/-- transformations.py:1269: `numpy.dot(q, q)` -/
def quatDot (q : Quat) : ℝ := ∑ a, q a * q a

/-- transformations.py:1397-1408 `quaternion_inverse` -/
noncomputable def quatInv (q : Quat) : Quat := fun a => quatConj q a / quatDot (quatConj q)

/-- transformations.py:1269-1278: the three by three part of `quaternion_matrix` for the scaled quaternion -/
def quatCore (p : Quat) : Matrix (Fin 3) (Fin 3) ℝ :=
  let q : Fin 4 → Fin 4 → ℝ := fun a b => p a * p b
  !![1 - q 2 2 - q 3 3, q 1 2 - q 3 0, q 1 3 + q 2 0;
    q 1 2 + q 3 0, 1 - q 1 1 - q 3 3, q 2 3 - q 1 0;
    q 1 3 - q 2 0, q 2 3 + q 1 0, 1 - q 1 1 - q 2 2]

/-- transformations.py:1254-1278 `quaternion_matrix` -/
noncomputable def quatMatrix (q : Quat) : Matrix (Fin 4) (Fin 4) ℝ :=
  open Classical in
  let n := quatDot q
  if n < tEps then 1 else homog (quatCore fun a => q a * √(2 / n))

/-- transformations.py:1238-1251 `quaternion_about_axis` -/
noncomputable def quatAboutAxis (angle : ℝ) (axis : Fin 3 → ℝ) : Quat :=
  open Classical in
  let q : Quat := ![0, axis 0, axis 1, axis 2]
  let qlen := vectorNorm q
  let q : Quat := if tEps < qlen then fun a => q a * (Real.sin (angle / 2) / qlen) else q
  fun a => if a = 0 then Real.cos (angle / 2) else q a

/-- transformations.py:1198-1235, `quaternion_from_euler` for a valid tuple; `q[0]` is `w`, `q[i]` belongs to axis `i-1` -/
noncomputable def quatFromEulerT (t : AxTuple) (ai aj ak : ℝ) : Quat :=
  let p := axIJK t
  let (ai, ak) := if t.frame ≠ 0 then (ak, ai) else (ai, ak)
  let aj := if t.parity ≠ 0 then -aj else aj
  let ci := Real.cos (ai / 2)
  let si := Real.sin (ai / 2)
  let cj := Real.cos (aj / 2)
  let sj := Real.sin (aj / 2)
  let ck := Real.cos (ak / 2)
  let sk := Real.sin (ak / 2)
  let cc := ci * ck
  let cs := ci * sk
  let sc := si * ck
  let ss := si * sk
  let (w, x, y, z) := if t.rep ≠ 0 then (cj * (cc - ss), cj * (cs + sc), sj * (cc + ss), sj * (cs - sc))
    else (cj * cc + sj * ss, cj * sc - sj * cs, cj * ss + sj * cc, cj * cs - sj * sc)
  let y := if t.parity ≠ 0 then y * -1 else y
  fun a => if a = 0 then w else if a = p.1.succ then x else if a = p.2.1.succ then y else z

/-- transformations.py:1181-1235 `quaternion_from_euler` -/
noncomputable def quatFromEuler (ai aj ak : ℝ) (axes : AxArg) : Py Quat :=
  match axTuple true axes with
  | .error e => .error e
  | .ok t => .ok (quatFromEulerT t ai aj ak)

/-- transformations.py:1361-1362: the last step of `quaternion_from_matrix` -/
noncomputable def quatSign (q : Quat) : Quat := open Classical in if q 0 < 0 then fun a => -q a else q

/-- transformations.py:1320-1341, `quaternion_from_matrix` with `isprecise=True` -/
noncomputable def quatFromPrecise (M : Matrix (Fin 4) (Fin 4) ℝ) : Quat :=
  open Classical in
  let t := ∑ a, M a a
  if M 3 3 < t then
    let q : Quat := ![t, M 2 1 - M 1 2, M 0 2 - M 2 0, M 1 0 - M 0 1]
    quatSign fun a => q a * (1 / 2 / √(t * M 3 3))
  else
    let (i, j, k) : Fin 4 × Fin 4 × Fin 4 := if M 0 0 < M 1 1 then (1, 2, 0) else (0, 1, 2)
    let (i, j, k) : Fin 4 × Fin 4 × Fin 4 := if M i i < M 2 2 then (2, 0, 1) else (i, j, k)
    let t := M i i - (M j j + M k k) + M 3 3
    let q : Quat := fun a => if a = i then t else if a = j then M i j + M j i else if a = k then M k i + M i k else M k j - M j k
    let q : Quat := ![q 3, q 0, q 1, q 2]
    quatSign fun a => q a * (1 / 2 / √(t * M 3 3))

/-- transformations.py:1343-1357: the symmetric matrix whose eigenvectors are taken; `eigh` reads the lower triangle only -/
noncomputable def quatK (M : Matrix (Fin 4) (Fin 4) ℝ) : Matrix (Fin 4) (Fin 4) ℝ :=
  let K : Matrix (Fin 4) (Fin 4) ℝ := !![M 0 0 - M 1 1 - M 2 2, 0, 0, 0;
    M 0 1 + M 1 0, M 1 1 - M 0 0 - M 2 2, 0, 0;
    M 0 2 + M 2 0, M 1 2 + M 2 1, M 2 2 - M 0 0 - M 1 1, 0;
    M 2 1 - M 1 2, M 0 2 - M 2 0, M 1 0 - M 0 1, M 0 0 + M 1 1 + M 2 2]
  fun a b => K a b / 3

/-- transformations.py:1342-1362, `quaternion_from_matrix` with `isprecise=False`; `eigh` gives eigenvalues and, as columns,
eigenvectors -/
noncomputable def quatFromEigh (eigh : Matrix (Fin 4) (Fin 4) ℝ → (Fin 4 → ℝ) × Matrix (Fin 4) (Fin 4) ℝ) (argmax : (Fin 4 → ℝ) → Fin 4)
    (M : Matrix (Fin 4) (Fin 4) ℝ) : Quat :=
  let (w, V) := eigh (quatK M)
  let m := argmax w
  quatSign ![V 3 m, V 0 m, V 1 m, V 2 m]

/-- transformations.py:1431-1469 `quaternion_slerp` -/
noncomputable def quatSlerp (quat0 quat1 : Quat) (fraction spin : ℝ) (shortest : Bool) : Quat :=
  open Classical in
  let q0 := unitVector quat0
  let q1 := unitVector quat1
  if fraction = 0 then q0
  else if fraction = 1 then q1
  else
    let d := ∑ a, q0 a * q1 a
    if |(|d| - 1)| < tEps then q0
    else
      let (d, q1) : ℝ × Quat := if shortest ∧ d < 0 then (-d, fun a => -q1 a) else (d, q1)
      let angle := Real.arccos d + spin * Real.pi
      if |angle| < tEps then q0
      else
        let isin := 1 / Real.sin angle
        fun a => q0 a * (Real.sin ((1 - fraction) * angle) * isin) + q1 a * (Real.sin (fraction * angle) * isin)

end Electrode
