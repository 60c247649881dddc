import Verif.Model.Py
import Mathlib.Data.List.Sort
import Mathlib.Data.Fin.Basic
import Mathlib.Algebra.Ring.Defs

/-
Model of the derivative-name tables and the tensor helpers of
`electrode/utils.py` (lines 80-398).

An axis tuple is a `List (Fin 3)` (0 = x, 1 = y, 2 = z); a derivative name is the
list of its characters.  An expanded tensor is the flat row-major list that
`expand_tensor` fills before its final `reshape`.
-/
namespace Electrode

/-- utils.py:149: the position of a letter in `"xyz"` -/
abbrev Axis := Fin 3
/-- utils.py:132-167: a tuple of axes -/
abbrev Idx := List Axis
/-- utils.py:115-121: the name of a derivative, as a list of letters -/
abbrev Name := List Char

/-- utils.py:115-121 `_derivative_names` (strings written as character lists). -/
def derivativeNames : List (List Name) :=
  [[[]],
   [['x'], ['y'], ['z']],
   [['x', 'x'], ['x', 'y'], ['x', 'z'], ['y', 'y'], ['y', 'z']],
   [['x', 'x', 'y'], ['x', 'x', 'z'], ['y', 'y', 'z'], ['x', 'y', 'y'], ['x', 'z', 'z'], ['y', 'z', 'z'], ['x', 'y', 'z']],
   [['x', 'x', 'x', 'y'], ['x', 'x', 'x', 'z'], ['x', 'x', 'y', 'y'], ['x', 'x', 'z', 'z'], ['x', 'y', 'y', 'y'], ['x', 'z', 'z', 'z'], ['y', 'y', 'y', 'z'], ['y', 'y', 'z', 'z'], ['y', 'z', 'z', 'z']],
   [['x', 'x', 'x', 'y', 'y'], ['x', 'x', 'x', 'y', 'z'], ['x', 'x', 'x', 'z', 'z'], ['x', 'x', 'y', 'y', 'y'], ['x', 'x', 'y', 'y', 'z'], ['x', 'x', 'y', 'z', 'z'], ['x', 'x', 'z', 'z', 'z'], ['x', 'y', 'y', 'y', 'z'], ['x', 'y', 'y', 'z', 'z'], ['y', 'y', 'y', 'z', 'z'], ['y', 'y', 'z', 'z', 'z']]]

/-- utils.py:149, 168: the string `"xyz"` used as the alphabet. -/
def xyz : List Char := ['x', 'y', 'z']

/-- utils.py:149, one letter: `"xyz".index(n)`, `ValueError` if absent. -/
def letterToAxis (c : Char) : Py Axis :=
  if c = 'x' then .ok 0 else if c = 'y' then .ok 1 else if c = 'z' then .ok 2
  else .error .valueError

/-- utils.py:132-149 `name_to_idx`. -/
def nameToIdx (s : Name) : Py Idx := pySeq (s.map letterToAxis)

/-- utils.py:168, one letter: `"xyz"[i]`. -/
def axisLetter : Axis → Char
  | 0 => 'x' | 1 => 'y' | 2 => 'z'

/-- utils.py:168, 224: Python `sorted` on axis tuples. -/
def sortIdx (l : Idx) : Idx := l.insertionSort (· ≤ ·)

/-- utils.py:151-168 `idx_to_name`. -/
def idxToName (l : Idx) : Name := (sortIdx l).map axisLetter

/-- utils.py:170-185 `idx_to_nidx`: `sum(j*3**(len(idx)-i-1) for i, j in enumerate(idx))`. -/
def idxToNidx (l : Idx) : Nat :=
  ((l.zipIdx).map fun p => p.1.val * 3 ^ (l.length - p.2 - 1)).sum

/-- utils.py:187-212 `find_laplace`.  The generator becomes the list of the pairs it
yields; the second `remove` in Python removes the next occurrence, which is the
second `erase` here. -/
def findLaplace (c : Idx) : List (Idx × Idx) :=
  let name := sortIdx c
  let letters : List Axis := [0, 1, 2]
  letters.flatMap fun i =>
    if 2 ≤ name.count i then
      let keep := (name.erase i).erase i
      match (letters.erase i) with
      | [j, k] => [(sortIdx (keep ++ [j, j]), sortIdx (keep ++ [k, k]))]
      | _ => []
    else []

/-- utils.py:234 `product(range(3), repeat=deriv)`: first axis varies slowest. -/
def productIdx : Nat → List Idx
  | 0 => [[]]
  | n + 1 => ([0, 1, 2] : List Axis).flatMap fun i => (productIdx n).map (i :: ·)

/-- One entry of `_expand_map`: either a single index or a Laplace pair
(utils.py:125-126). -/
inductive Sel
  | one (i : Nat)
  | lap (i j : Nat)
  deriving DecidableEq, Repr

/-- utils.py:234-243, the entries appended to `_expand_map[deriv]` for one `idx`. -/
def expandEntries (names : List Name) (idx : Idx) : List Sel :=
  let name := idxToName idx
  if name ∈ names then [.one (names.idxOf name)]
  else (findLaplace idx).flatMap fun p =>
    let a := idxToName p.1
    let b := idxToName p.2
    if a ∈ names ∧ b ∈ names then [.lap (names.idxOf a) (names.idxOf b)] else []

/-- utils.py:233-243 `_expand_map[deriv]` (list of entries in `product` order). -/
def expandMapOf (deriv : Nat) (names : List Name) : List Sel :=
  (productIdx deriv).flatMap (expandEntries names)

/-- utils.py:125, 214-244: `_expand_map`. -/
def expandMap : List (List Sel) :=
  derivativeNames.zipIdx.map fun p => expandMapOf p.2 p.1

/-- utils.py:231-232 `_select_map[deriv]`.  The names are known to be over `xyz`, so
the impossible `ValueError` is mapped to position 0. -/
def selectMapOf (names : List Name) : List Nat :=
  names.map fun n => match nameToIdx n with | .ok i => idxToNidx i | .error _ => 0

/-- utils.py:127, 231-232 `_select_map`. -/
def selectMap : List (List Nat) := derivativeNames.map selectMapOf

/-- utils.py:219 `_derivatives_map[name] = (deriv, idx)` and utils.py:249-267
`name_to_deriv`: dictionary lookup, `KeyError` for unknown names.  Names of
different order have different length, so searching by length is the same as the
dictionary. -/
def nameToDeriv (name : Name) : Py (Nat × Nat) :=
  match derivativeNames[name.length]? with
  | none => .error .keyError
  | some names => if name ∈ names then .ok (name.length, names.idxOf name) else .error .keyError

/-- utils.py:220 `_name_map[(deriv, idx)] = name` and utils.py:269-285 `deriv_to_name`. -/
def derivToName (deriv idx : Nat) : Py Name :=
  match derivativeNames[deriv]? with
  | none => .error .keyError
  | some names =>
    match names[idx]? with
    | none => .error .keyError
    | some n => .ok n

/-- utils.py:224 `"".join(sorted(n+m))` for the letters `xyz`, whose character order is
the axis order. -/
def sortName (n : Name) : Name := n.insertionSort (· ≤ ·)

/-- utils.py:223-226, inner loop with `break`: the first axis `j` with
`name == sorted(n + "xyz"[j])`. -/
def deriveInner (name n : Name) : Option Nat :=
  xyz.findIdx? fun m => name == sortName (n ++ [m])

/-- utils.py:221-226: the outer loop has no `break`, so the last matching lower name
overwrites earlier ones in `_derive_map`. -/
def deriveEntry (name : Name) (lower : List Name) : Option (Nat × Nat) :=
  lower.zipIdx.foldl (fun acc p =>
    match deriveInner name p.1 with
    | some j => some (p.2, j)
    | none => acc) none

/-- utils.py:287-305 `construct_derivative`: returns `((deriv-1, i), axis)`. -/
def constructDerivative (deriv idx : Nat) : Py ((Nat × Nat) × Nat) :=
  match deriv with
  | 0 => .error .keyError
  | d + 1 =>
    match derivativeNames[d + 1]?, derivativeNames[d]? with
    | some names, some lower =>
      match names[idx]? with
      | none => .error .keyError
      | some name =>
        match deriveEntry name lower with
        | none => .error .keyError
        | some p => .ok ((d, p.1), p.2)
    | _, _ => .error .keyError

variable {R : Type*} [Ring R]

/-- utils.py:336-340, one entry: `c[j]` or `-c[j0]-c[j1]`. -/
def selValue (c : List R) : Sel → Py R
  | .one j => pyGet c j
  | .lap i j =>
    match pyGet c i, pyGet c j with
    | .ok a, .ok b => .ok (-a - b)
    | .error e, _ => .error e
    | _, .error e => .error e

/-- utils.py:308-341 `expand_tensor` for one row `c` (the leading axes are processed
independently), flat row-major result.  `order = none` is the default. -/
def expandTensor (c : List R) (order : Option Nat := none) : Py (List R) :=
  let order := order.getD ((c.length - 1) / 2)
  if order = 0 then (pyGet c 0).map fun a => [a]
  else if order = 1 then .ok c
  else
    match expandMap[order]? with
    | none => .error .indexError
    | some m => pySeq (m.map (selValue c))

/-- utils.py:365-398 `select_tensor` for one flat row-major tensor of order `order`. -/
def selectTensor (c : List R) (order : Nat) : Py (List R) :=
  if order < 2 then .ok c
  else
    match selectMap[order]? with
    | none => .error .indexError
    | some m => pySeq (m.map (pyGet c))

/-- utils.py:344-362 `deriv_to_reduced_idx`. -/
def derivToReducedIdx (d : Name) : Py Sel :=
  match nameToIdx d with
  | .error e => .error e
  | .ok idx =>
    match expandMap[d.length]? with
    | none => .error .indexError
    | some m => pyGet m (idxToNidx idx)

end Electrode
