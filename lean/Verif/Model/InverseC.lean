import Verif.Model.TransformC

/-
Model of `electrode/transformations.c`: `inverse_matrix`.  The array `M[i*size + j]` is a function of the row and the column; only
indices below `size` are ever used.
-/
namespace Electrode

/-- transformations.c:393-618: an array of numbers with rows and columns -/
abbrev Arr := Nat → Nat → ℝ

/-- transformations.c:79 `PIVOT_TOLERANCE` -/
noncomputable def pivotTol : ℝ := 1 / 10 ^ 14

/-- transformations.c:552-561: the row of the largest coefficient of column `k` from row `k` on; the first one if there are several -/
noncomputable def luPivot (n k : Nat) (M : Arr) : Nat := open Classical in
  ((List.range' (k + 1) (n - (k + 1))).foldl (fun (s : Nat × ℝ) i => if s.2 < |M i k| then (i, |M i k|) else s) (k, |M k k|)).1

/-- transformations.c:562-573: the rows `k` and `p` change places -/
def swapRows {α : Type} (M : Nat → α) (k p : Nat) : Nat → α := fun i => if i = k then M p else if i = p then M k else M i

/-- transformations.c:579-591: elimination below row `k`.  The loops only read row `k` and, in each row, the entry they have divided
before, so all rows are written at once here. -/
noncomputable def luElim (n k : Nat) (M : Arr) : Arr := fun j i =>
  if k < j ∧ j < n then
    if i = k then M j k / M k k
    else if k < i ∧ i < n then M j i - M j k / M k k * M k i
    else M j i
  else M j i

/-- transformations.c:548-592: one pass of the first loop; `none` is the return value -1 -/
noncomputable def luStep (n k : Nat) (s : Arr × (Nat → Nat)) : Option (Arr × (Nat → Nat)) := open Classical in
  let p := luPivot n k s.1
  let M := if p ≠ k then swapRows s.1 k p else s.1
  let seq := if p ≠ k then swapRows s.2 k p else s.2
  if |M k k| < pivotTol then none else some (luElim n k M, seq)

/-- transformations.c:543-592: the first loops, for `k` below `m` -/
noncomputable def luLoop (n : Nat) (A : Arr) : Nat → Option (Arr × (Nat → Nat))
  | 0 => some (A, fun k => k)
  | m + 1 => match luLoop n A m with
    | none => none
    | some s => luStep n m s

/-- transformations.c:603-609: forward substitution in one column, rows 1 to `m` -/
noncomputable def luForward (M : Arr) (is : Nat) (b : Nat → ℝ) : Nat → Nat → ℝ
  | 0 => b
  | m + 1 =>
    let x := luForward M is b m
    let k := m + 1
    let temp := ∑ j ∈ Finset.Ico is k, M k j * x j
    Function.update x k (x k - temp)

/-- transformations.c:610-616: backward substitution in one column, the last `m` rows -/
noncomputable def luBackward (n : Nat) (M : Arr) (y : Nat → ℝ) : Nat → Nat → ℝ
  | 0 => y
  | m + 1 =>
    let x := luBackward n M y m
    let k := n - (m + 1)
    let temp := x k - ∑ j ∈ Finset.Ico (k + 1) n, M k j * x j
    Function.update x k (temp / M k k)

/-- transformations.c:598: `iseq[seq[i]] = i` for all `i` in turn -/
def luIseq (n : Nat) (seq : Nat → Nat) : Nat → Nat := (List.range n).foldl (fun s i => Function.update s (seq i) i) fun _ => 0

/-- transformations.c:531-618 `invert_matrix`.  `none` is the return value -1.  The last pivot is not tested: if it is zero the result
has entries inf or nan, which is `some none` here. -/
noncomputable def luInverse (n : Nat) (A : Arr) : Option (Option Arr) := open Classical in
  match luLoop n A (n - 1) with
  | none => none
  | some (M, seq) =>
    if M (n - 1) (n - 1) = 0 then some none
    else some (some fun k i =>
      let b : Nat → ℝ := fun r => if seq r = i then 1 else 0
      let y := luForward M (luIseq n seq i) b (n - 1)
      luBackward n M y n k)

/-- transformations.c:393-408 `invert_matrix22` -/
noncomputable def inverse22 (M : Arr) : Option (List (List ℝ)) :=
  let det := M 0 0 * M 1 1 - M 0 1 * M 1 0
  if cIsZero det then none else some [[M 1 1 / det, -M 0 1 / det], [-M 1 0 / det, M 0 0 / det]]

/-- transformations.c:413-440 `invert_matrix33`; `M i j` is `M[3*i+j]` -/
noncomputable def inverse33 (M : Arr) : Option (List (List ℝ)) :=
  let r0 := M 2 2 * M 1 1 - M 2 1 * M 1 2
  let r1 := M 2 1 * M 0 2 - M 2 2 * M 0 1
  let r2 := M 1 2 * M 0 1 - M 1 1 * M 0 2
  let r3 := M 2 0 * M 1 2 - M 2 2 * M 1 0
  let r4 := M 2 2 * M 0 0 - M 2 0 * M 0 2
  let r5 := M 1 0 * M 0 2 - M 1 2 * M 0 0
  let r6 := M 2 1 * M 1 0 - M 2 0 * M 1 1
  let r7 := M 2 0 * M 0 1 - M 2 1 * M 0 0
  let r8 := M 1 1 * M 0 0 - M 1 0 * M 0 1
  let det := M 0 0 * r0 + M 1 0 * r1 + M 2 0 * r2
  if cIsZero det then none
  else
    let d := 1 / det
    some [[r0 * d, r1 * d, r2 * d], [r3 * d, r4 * d, r5 * d], [r6 * d, r7 * d, r8 * d]]

/-- transformations.c:446-522 `invert_matrix44`; `M i j` is `M[4*i+j]`; `t` and `u` are the two contents of the array `t` -/
noncomputable def inverse44 (M : Arr) : Option (List (List ℝ)) :=
  let t0 := M 2 2 * M 3 3
  let t1 := M 3 2 * M 2 3
  let t2 := M 1 2 * M 3 3
  let t3 := M 3 2 * M 1 3
  let t4 := M 1 2 * M 2 3
  let t5 := M 2 2 * M 1 3
  let t6 := M 0 2 * M 3 3
  let t7 := M 3 2 * M 0 3
  let t8 := M 0 2 * M 2 3
  let t9 := M 2 2 * M 0 3
  let t10 := M 0 2 * M 1 3
  let t11 := M 1 2 * M 0 3
  let r0 := t0 * M 1 1 + t3 * M 2 1 + t4 * M 3 1 - (t1 * M 1 1 + t2 * M 2 1 + t5 * M 3 1)
  let r1 := t1 * M 0 1 + t6 * M 2 1 + t9 * M 3 1 - (t0 * M 0 1 + t7 * M 2 1 + t8 * M 3 1)
  let r2 := t2 * M 0 1 + t7 * M 1 1 + t10 * M 3 1 - (t3 * M 0 1 + t6 * M 1 1 + t11 * M 3 1)
  let r3 := t5 * M 0 1 + t8 * M 1 1 + t11 * M 2 1 - (t4 * M 0 1 + t9 * M 1 1 + t10 * M 2 1)
  let r4 := t1 * M 1 0 + t2 * M 2 0 + t5 * M 3 0 - (t0 * M 1 0 + t3 * M 2 0 + t4 * M 3 0)
  let r5 := t0 * M 0 0 + t7 * M 2 0 + t8 * M 3 0 - (t1 * M 0 0 + t6 * M 2 0 + t9 * M 3 0)
  let r6 := t3 * M 0 0 + t6 * M 1 0 + t11 * M 3 0 - (t2 * M 0 0 + t7 * M 1 0 + t10 * M 3 0)
  let r7 := t4 * M 0 0 + t9 * M 1 0 + t10 * M 2 0 - (t5 * M 0 0 + t8 * M 1 0 + t11 * M 2 0)
  let u0 := M 2 0 * M 3 1
  let u1 := M 3 0 * M 2 1
  let u2 := M 1 0 * M 3 1
  let u3 := M 3 0 * M 1 1
  let u4 := M 1 0 * M 2 1
  let u5 := M 2 0 * M 1 1
  let u6 := M 0 0 * M 3 1
  let u7 := M 3 0 * M 0 1
  let u8 := M 0 0 * M 2 1
  let u9 := M 2 0 * M 0 1
  let u10 := M 0 0 * M 1 1
  let u11 := M 1 0 * M 0 1
  let r8 := u0 * M 1 3 + u3 * M 2 3 + u4 * M 3 3 - (u1 * M 1 3 + u2 * M 2 3 + u5 * M 3 3)
  let r9 := u1 * M 0 3 + u6 * M 2 3 + u9 * M 3 3 - (u0 * M 0 3 + u7 * M 2 3 + u8 * M 3 3)
  let r10 := u2 * M 0 3 + u7 * M 1 3 + u10 * M 3 3 - (u3 * M 0 3 + u6 * M 1 3 + u11 * M 3 3)
  let r11 := u5 * M 0 3 + u8 * M 1 3 + u11 * M 2 3 - (u4 * M 0 3 + u9 * M 1 3 + u10 * M 2 3)
  let r12 := u2 * M 2 2 + u5 * M 3 2 + u1 * M 1 2 - (u4 * M 3 2 + u0 * M 1 2 + u3 * M 2 2)
  let r13 := u8 * M 3 2 + u0 * M 0 2 + u7 * M 2 2 - (u6 * M 2 2 + u9 * M 3 2 + u1 * M 0 2)
  let r14 := u6 * M 1 2 + u11 * M 3 2 + u3 * M 0 2 - (u10 * M 3 2 + u2 * M 0 2 + u7 * M 1 2)
  let r15 := u10 * M 2 2 + u4 * M 0 2 + u9 * M 1 2 - (u8 * M 1 2 + u11 * M 2 2 + u5 * M 0 2)
  let det := M 0 0 * r0 + M 1 0 * r1 + M 2 0 * r2 + M 3 0 * r3
  if cIsZero det then none
  else
    let d := 1 / det
    some [[r0 * d, r1 * d, r2 * d, r3 * d], [r4 * d, r5 * d, r6 * d, r7 * d], [r8 * d, r9 * d, r10 * d, r11 * d],
      [r12 * d, r13 * d, r14 * d, r15 * d]]

/-- transformations.c:393-618: a list of rows as an array -/
noncomputable def arrOf (l : List (List ℝ)) : Arr := fun i j => (l.getD i []).getD j 0

/-- transformations.c:3141-3225 `inverse_matrix` of a square array of the given size.  For sizes above four the code works on a copy.
`.ok none` is a result with inf or nan. -/
noncomputable def cInverse (n : Nat) (A : Arr) : Py (Option Arr) :=
  let small : Option (List (List ℝ)) → Py (Option Arr) := fun r => match r with
    | none => .error .valueError
    | some l => .ok (some (arrOf l))
  if n = 4 then small (inverse44 A)
  else if n = 3 then small (inverse33 A)
  else if n = 2 then small (inverse22 A)
  else if n = 1 then if cIsZero (A 0 0) then .error .valueError else .ok (some fun _ _ => 1 / A 0 0)
  else if n = 0 then .error .valueError
  else match luInverse n A with
    | none => .error .valueError
    | some r => .ok r

end Electrode
