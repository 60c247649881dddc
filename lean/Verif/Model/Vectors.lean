import Verif.Model.Transform
import Verif.Model.TransformC
import Verif.Model.Project
import Verif.Model.Py

/-
Model of `electrode/transformations.py` lines 1472-1512 and 1771-1890: random rotations, products and angles of vectors, and
concatenated matrices.
-/
namespace Electrode

/-- transformations.py:1472-1497 `random_quaternion(rand)`, for three numbers that are not below 0 and not above 1 (others give nan).
Without `rand` the numbers come from `numpy.random`. -/
noncomputable def randomQuat (rand : Fin 3 → ℝ) : Quat :=
  let r1 := √(1 - rand 0)
  let r2 := √(rand 0)
  let pi2 := Real.pi * 2
  let t1 := pi2 * rand 1
  let t2 := pi2 * rand 2
  ![Real.cos t2 * r2, Real.sin t1 * r1, Real.cos t1 * r1, Real.sin t2 * r2]

/-- transformations.py:1500-1512 `random_rotation_matrix(rand)` -/
noncomputable def randomRotation (rand : Fin 3 → ℝ) : Matrix (Fin 4) (Fin 4) ℝ := quatMatrix (randomQuat rand)

/-! ### vectors -/

/-- transformations.py:1718, 1762: a vector of a two-dimensional array along an axis: a column for `axis=0`, a row for `axis=1` -/
def alongAxis {m n : Nat} (A : Fin m → Fin n → ℝ) : (axis : Fin 2) → (Fin (if axis = 0 then n else m)) → Fin (if axis = 0 then m else n) → ℝ
  | 0 => fun j i => A i j
  | 1 => fun i j => A i j

/-- transformations.py:1717-1720 `vector_norm(data, axis)` of a two-dimensional array (`vectorNorm` is the one-dimensional case); `out`
is not modelled. -/
noncomputable def vectorNormAxis {m n : Nat} (A : Fin m → Fin n → ℝ) (axis : Fin 2) : Fin (if axis = 0 then n else m) → ℝ :=
  fun k => √(∑ i, alongAxis A axis k i * alongAxis A axis k i)

/-- transformations.py:1717-1720 `vector_norm(data)` of a two-dimensional array: one number for all of it -/
noncomputable def vectorNormAll {m n : Nat} (A : Fin m → Fin n → ℝ) : ℝ := √(∑ i, ∑ j, A i j * A i j)

/-- transformations.py:1755-1757 `unit_vector(data)` of a vector, with `none` for an array of nan: a vector of length zero that has
components. -/
noncomputable def unitVectorNan {n : Nat} (v : Fin n → ℝ) : Option (Fin n → ℝ) := open Classical in
  if n ≠ 0 ∧ √(∑ i, v i * v i) = 0 then none else some fun i => v i / √(∑ i, v i * v i)

/-- transformations.py:1762-1768 `unit_vector(data, axis)` of a two-dimensional array: the entries are divided by the length along the
axis.  Division by zero is zero, as in `unitVector`. -/
noncomputable def unitVectorAxis {m n : Nat} (A : Fin m → Fin n → ℝ) (axis : Fin 2) : Fin m → Fin n → ℝ :=
  match axis with
  | 0 => fun i j => A i j / vectorNormAxis A 0 j
  | 1 => fun i j => A i j / vectorNormAxis A 1 i

/-- transformations.py:1835: `numpy.arccos`, with `none` for nan -/
noncomputable def npArccos (x : ℝ) : Option ℝ := open Classical in if -1 ≤ x ∧ x ≤ 1 then some (Real.arccos x) else none

/-- transformations.py:1831-1835 `angle_between_vectors` of two vectors, with `none` for nan -/
noncomputable def angleBetween {n : Nat} (v0 v1 : Fin n → ℝ) (directed : Bool) : Option ℝ := open Classical in
  let dot := ∑ i, v0 i * v1 i
  let len := vectorNorm v0 * vectorNorm v1
  if len = 0 then none else npArccos (if directed then dot / len else |dot / len|)

/-- transformations.py:1831-1833: column `j` of an array, or its only column -/
def broadcastCol {m n : Nat} (A : Fin m → Fin n → ℝ) (j : Nat) : Fin m → ℝ :=
  fun i => if h : j < n then A i ⟨j, h⟩ else if h : 0 < n then A i ⟨0, h⟩ else 0

/-- transformations.py:1831-1835 `angle_between_vectors(v0, v1, axis=0)` of two arrays with as many columns, or with one -/
noncomputable def angleColumns {m n n' : Nat} (A : Fin m → Fin n → ℝ) (B : Fin m → Fin n' → ℝ) (directed : Bool) : Py (List (Option ℝ)) :=
  if n = n' ∨ n = 1 ∨ n' = 1 then
    .ok ((List.range (if n = 1 then n' else n)).map fun j => angleBetween (broadcastCol A j) (broadcastCol B j) directed)
  else .error .valueError

/-- transformations.py:1786-1804 `vector_product` of two vectors -/
def vectorProduct (v0 v1 : Fin 3 → ℝ) : Fin 3 → ℝ := vcross v0 v1

/-- transformations.py:1854-1867 `concatenate_matrices` of four by four matrices -/
def concatMatrices (l : List (Matrix (Fin 4) (Fin 4) ℝ)) : Matrix (Fin 4) (Fin 4) ℝ := l.foldl (fun M i => M * i) 1

/-- transformations.py:1890: `numpy.allclose` of two vectors with its usual tolerances -/
def vecClose (a b : Quat) : Prop := ∀ i, |a i - b i| ≤ 1 / 10 ^ 8 + 1 / 10 ^ 5 * |b i|

/-- transformations.py:1886-1890 `is_same_quaternion` -/
noncomputable def isSameQuat (q0 q1 : Quat) : Bool := open Classical in
  decide (vecClose q0 q1) || decide (vecClose q0 fun i => -q1 i)

end Electrode
