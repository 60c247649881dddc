import Verif.Model.Helpers
import Verif.Model.Vectors

/-
Model of the functions of `electrode/transformations.c` for lengths, unit vectors and random rotations, and of the Python functions
they replace, for arrays with any number of dimensions and with the argument `out`.  The iterators of numpy visit the entries in
row-major order, whatever the strides are.  `data` and `out` are different arrays or the same one, and `out` has the type double.
-/
namespace Electrode

/-- transformations.c:3398-3743: What a call returns or does. -/
inductive VecRes
  | number (x : Option ℝ)                          -- a number; `none` is nan
  | array (shape : List Nat) (data : List (Option ℝ))  -- a new array
  | wrote (shape : List Nat) (data : List (Option ℝ))  -- `None`, and this is `out` afterwards
  | raised (e : PyErr)
  | overrun                                        -- memory beyond the end of `out` is overwritten

/-- transformations.c:3455-3560: number of entries of a step along the axis -/
def axisStep (shape : List Nat) (axis : Nat) : Nat := (shape.drop (axis + 1)).prod

/-- transformations.c:3455-3560: The entries along the axis of line number `k`: the lines are numbered in row-major order of the other indices
(`PyArray_IterAllButAxis`). -/
noncomputable def axisLine (a : NdArr) (axis k : Nat) : List ℝ :=
  (List.range (a.shape.getD axis 0)).map fun s : Nat =>
    a.data.getD ((k / axisStep a.shape axis * a.shape.getD axis 0 + s) * axisStep a.shape axis + k % axisStep a.shape axis) 0

/-- transformations.c:3443-3450: length of a list of numbers: `sqrt` of the sum of squares -/
noncomputable def lineLen (l : List ℝ) : ℝ := √(l.map fun t => t * t).sum

/-- transformations.c:3455-3560: the lengths of all lines -/
noncomputable def lineLens (a : NdArr) (axis : Nat) : List (Option ℝ) :=
  (List.range (a.shape.eraseIdx axis).prod).map fun k => some (lineLen (axisLine a axis k))

/-- transformations.c:3461-3467: `axis` counted from the end if negative; `none` if there is no such axis -/
def axisOf (n : Nat) (axis : Int) : Option Nat :=
  let ax := if axis < 0 then axis + n else axis
  if 0 ≤ ax ∧ ax < n then some ax.toNat else none

/-- transformations.c:3398-3561 `py_vector_norm`.  The test of the size of `out` (3478-3484) compares the dimensions of `data` with
themselves. -/
noncomputable def cVectorNorm (a : NdArr) (axis : Option Int) (out : Option NdArr) : VecRes :=
  match axis with
  | none => if out.isSome then .raised .valueError else .number (some (lineLen a.data))
  | some axis =>
    match axisOf a.shape.length axis with
    | none => .raised .valueError
    | some ax =>
      let news := lineLens a ax
      match out with
      | none => .array (a.shape.eraseIdx ax) news
      | some o =>
        if a.shape.length ≠ o.shape.length + 1 then .raised .valueError
        else if news.length ≤ o.data.length then .wrote o.shape (news ++ (o.data.drop news.length).map some)
        else .overrun

/-- transformations.py:1688-1724 `vector_norm`.  `numpy.sum` raises a ValueError for an axis that does not exist, except that an array
without dimensions has the axes 0 and -1, and for an `out` of another shape than the result. -/
noncomputable def pyVectorNorm (a : NdArr) (axis : Option Int) (out : Option NdArr) : VecRes :=
  match out with
  | none =>
    if a.shape.length = 1 then .number (some (lineLen a.data))
    else match axis with
      | none => .array [1] [some (lineLen a.data)]
      | some axis =>
        if a.shape.length = 0 then
          if axis = 0 ∨ axis = -1 then .array [1] [some (lineLen a.data)] else .raised .valueError
        else match axisOf a.shape.length axis with
          | none => .raised .valueError
          | some ax => .array (a.shape.eraseIdx ax) (lineLens a ax)
  | some o =>
    match axis with
    | none => if o.shape = [] then .wrote [] [some (lineLen a.data)] else .raised .valueError
    | some axis =>
      if a.shape.length = 0 then
        if (axis = 0 ∨ axis = -1) ∧ o.shape = [] then .wrote [] [some (lineLen a.data)] else .raised .valueError
      else match axisOf a.shape.length axis with
        | none => .raised .valueError
        | some ax => if o.shape = a.shape.eraseIdx ax then .wrote o.shape (lineLens a ax) else .raised .valueError

/-- transformations.c:3567-3743: `x / len`, or `x * (1 / len)` as in C; a line of length zero has zeros only, and they become nan -/
noncomputable def nanQuot (x len : ℝ) : Option ℝ := open Classical in if len = 0 then none else some (x / len)

/-- transformations.c:3567-3743: number of the line of the entry at position `i` -/
def lineOf (shape : List Nat) (axis i : Nat) : Nat :=
  i / (shape.getD axis 0 * axisStep shape axis) * axisStep shape axis + i % axisStep shape axis

/-- transformations.c:3567-3743: all entries, divided by the length of all of them -/
noncomputable def unitAll (a : NdArr) : List (Option ℝ) := a.data.map fun x => nanQuot x (lineLen a.data)

/-- transformations.c:3567-3743: all entries, divided by the length of the line they are in -/
noncomputable def unitLines (a : NdArr) (axis : Nat) : List (Option ℝ) :=
  (List.range a.data.length).map fun i => nanQuot (a.data.getD i 0) (lineLen (axisLine a axis (lineOf a.shape axis i)))

/-- transformations.c:3567-3743 `py_unit_vector` -/
noncomputable def cUnitVector (a : NdArr) (axis : Option Int) (out : Option NdArr) : VecRes :=
  if (∃ o ∈ out, o.shape ≠ a.shape) then .raised .valueError
  else
    let ret := fun d : List (Option ℝ) => if out.isSome then VecRes.wrote a.shape d else .array a.shape d
    match axis with
    | none => ret (unitAll a)
    | some axis =>
      match axisOf a.shape.length axis with
      | none => .raised .valueError
      | some ax => ret (unitLines a ax)

/-- transformations.py:1727-1768 `unit_vector`, for an `out` of the shape of `data`.  `atleast_1d` makes an array with one entry of the
length of a vector, and `expand_dims` one with two dimensions, by which a vector cannot be divided in place. -/
noncomputable def pyUnitVector (a : NdArr) (axis : Option Int) (out : Option NdArr) : VecRes :=
  if out.isNone ∧ a.shape.length = 1 then .array a.shape (unitAll a)
  else if a.shape.length = 0 then .raised (if out.isSome then .indexError else .valueError)
  else
    let ret := fun d : List (Option ℝ) => if out.isSome then VecRes.wrote a.shape d else .array a.shape d
    match axis with
    | none => ret (unitAll a)
    | some axis =>
      match axisOf a.shape.length axis with
      | none => .raised .valueError
      | some ax => if a.shape.length = 1 then .raised .valueError else ret (unitLines a ax)

/-- transformations.c:102-139 `random_doubles`, one number from two random words of 32 bits -/
noncomputable def randomDouble (p q : Fin (2 ^ 32)) : ℝ := (((p.val / 2 ^ 5 : Nat) : ℝ) * 67108864 + ((q.val / 2 ^ 6 : Nat) : ℝ)) / 9007199254740992

/-- transformations.c:3003-3031 `py_random_quaternion` with the numbers `rand`; C's `sqrt` of a negative number is nan -/
noncomputable def cRandomQuat (rand : List ℝ) : Py (Option Quat) :=
  if rand.length < 3 then .error .valueError
  else
    let r0 := rand.getD 0 0
    if 0 ≤ r0 ∧ r0 ≤ 1 then
      let t := 2 * Real.pi * rand.getD 1 0
      let r1 := √(1 - r0)
      let t' := 2 * Real.pi * rand.getD 2 0
      let r2 := √r0
      .ok (some ![Real.cos t' * r2, Real.sin t * r1, Real.cos t * r1, Real.sin t' * r2])
    else .ok none

/-- transformations.c:3068-3126 `py_random_rotation_matrix` with the numbers `rand` -/
noncomputable def cRandomRotation (rand : List ℝ) : Py (Option (Matrix (Fin 4) (Fin 4) ℝ)) :=
  match cRandomQuat rand with
  | .error e => .error e
  | .ok none => .ok none
  | .ok (some q) =>
    let x2 := q 1 + q 1
    let y2 := q 2 + q 2
    let z2 := q 3 + q 3
    .ok (some !![1 - q 2 * y2 - q 3 * z2, q 1 * y2 - q 0 * z2, q 1 * z2 + q 0 * y2, 0;
      q 1 * y2 + q 0 * z2, 1 - q 1 * x2 - q 3 * z2, q 2 * z2 - q 0 * x2, 0;
      q 1 * z2 - q 0 * y2, q 2 * z2 + q 0 * x2, 1 - q 1 * x2 - q 2 * y2, 0;
      0, 0, 0, 1])

end Electrode
