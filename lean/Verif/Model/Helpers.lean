import Verif.Model.System

/-
Model of small helpers: `shaped`, `shaper`, `norm` and `DummyPool` of `utils.py`, the substitute for
`scipy.optimize.minimize` in `system.py`, and `_import_module` of `transformations.py`.
-/
namespace Electrode
open Real

/-- utils.py:36-42: An array of numbers with any number of dimensions, its entries in row-major order. -/
structure NdArr where
  shape : List Nat
  data : List ℝ

/-- utils.py:36-42: as many entries as the shape says; all arrays of numpy are like this -/
def NdArr.Wf (a : NdArr) : Prop := a.data.length = a.shape.prod

/-- utils.py:38-41: position of an index in row-major order -/
def ndPlace : List Nat → List Nat → Nat
  | _ :: t, i :: is => i * t.prod + ndPlace t is
  | _, _ => 0

/-- utils.py:36-42, 63-76: `a[idx]` for an index with one entry for each dimension -/
noncomputable def NdArr.get (a : NdArr) (idx : List Nat) : ℝ := a.data.getD (ndPlace a.shape idx) 0

/-- utils.py:37: `np.atleast_2d` -/
def NdArr.atLeast2d (a : NdArr) : NdArr :=
  match a.shape with
  | [] => ⟨[1, 1], a.data⟩
  | [n] => ⟨[1, n], a.data⟩
  | _ => a

/-- utils.py:38, 41: `a.reshape(s)` -/
def NdArr.reshape (a : NdArr) (s : List Nat) : Py NdArr :=
  if a.data.length = s.prod then .ok ⟨s, a.data⟩ else .error .valueError

/-- utils.py:36-42 `shape_wrapper`; the further arguments are part of `func`.  `reshape(0, -1)` is an error of numpy.  The transposed
array is given as the list of its rows. -/
noncomputable def shaped (func : List (List ℝ) → Py NdArr) (xyz : NdArr) : Py NdArr :=
  let a := xyz.atLeast2d
  let n := a.shape.headD 0
  if n = 0 then .error .valueError
  else
    let l := a.data.length / n
    match func ((List.range l).map fun j => (List.range n).map fun i => a.data.getD (i * l + j) 0) with
    | .error e => .error e
    | .ok v => v.reshape (a.shape.tail ++ v.shape.tail)

/-- utils.py:46-51 `shaper` -/
noncomputable def shaper (func : List (List ℝ) → Py NdArr) (xyz : NdArr) : Py NdArr := shaped func xyz

/-- utils.py:63-77 `norm`: `einsum("...j,...j->...")`; the argument `axis` is not used.  `einsum` raises for an array without
dimensions. -/
noncomputable def ndNorm (a : NdArr) (_axis : Int := -1) : Py NdArr :=
  match a.shape with
  | [] => .error .valueError
  | s =>
    let k := s.getLastD 0
    .ok ⟨s.dropLast, (List.range s.dropLast.prod).map fun i : Nat =>
      √((List.range k).map fun j : Nat => a.data.getD (i * k + j) 0 * a.data.getD (i * k + j) 0).sum⟩

/-- utils.py:597-600: A call of a function with its arguments: it gives a result or raises, and changes the state of the program. -/
abbrev Task (σ α : Type) := σ → Py α × σ

/-- utils.py:597-601: What a program does with a pool: hand in a call, or ask for the result of the call handed in as number `k`. -/
inductive PoolOp (σ α : Type)
  | submit (t : Task σ α)
  | get (k : Nat)

/-- utils.py:592-601 `DummyPool.apply_async`: handing in makes an object that holds the call; `get` makes the call.  Asking for a call
that was not handed in does not occur (nothing happens here).  State: the objects made so far, the state of the program, and the
results of the `get`s. -/
def dummyPool {σ α : Type} : List (PoolOp σ α) → List (Task σ α) × σ × List (Py α) → List (Task σ α) × σ × List (Py α)
  | [], s => s
  | .submit t :: ops, (ts, w, rs) => dummyPool ops (ts ++ [t], w, rs)
  | .get k :: ops, (ts, w, rs) =>
    match ts[k]? with
    | none => dummyPool ops (ts, w, rs)
    | some t => dummyPool ops (ts, (t w).2, rs ++ [(t w).1])

/-- system.py:30-42 `minimize`, for versions of scipy without it.  `fmin_ncg` is a parameter: from the function, the start, the gradient
and the Hessian it finds a position and a flag. -/
noncomputable def minimizeFallback
    (fminNcg : (List ℝ → Py ℝ) → List ℝ → (List ℝ → Py (List ℝ)) → (List ℝ → Py (List (List ℝ))) → Py (List ℝ × Nat))
    (method : Option String) (f : List ℝ → Py ℝ) (g : List ℝ → Py (List ℝ)) (h : List ℝ → Py (List (List ℝ))) (x0 : List ℝ) :
    Py (Bool × List ℝ) :=
  if method.getD "Newton-CG" = "Newton-CG" then
    match fminNcg f x0 g h with
    | .error e => .error e
    | .ok (x, flag) => .ok (flag == 0, x)
  else .error .assertionError

/-- transformations.py:1917-1921: the global names of a module -/
abbrev Globals (V : Type) := String → Option V

/-- transformations.py:1918, 1921: `globals()[name] = v` -/
def Globals.set {V : Type} (g : Globals V) (name : String) (v : V) : Globals V := fun n => if n = name then some v else g n

/-- transformations.py:1914: `a.startswith(p)` -/
def strStarts (a p : String) : Bool := p.toList.isPrefixOf a.toList

/-- transformations.py:1913-1921, one round of the loop over the names of the imported module; the second component are the
warnings -/
def importAttr {V : Type} (warn : Bool) (pre ignore : String) (getattr : String → V) (s : Globals V × List String) (attr : String) :
    Globals V × List String :=
  if ignore ≠ "" ∧ strStarts attr ignore then s
  else
    let s' : Globals V × List String :=
      if pre ≠ "" then
        match s.1 attr with
        | some v => (s.1.set (pre ++ attr) v, s.2)
        | none => if warn then (s.1, s.2 ++ ["no Python implementation of " ++ attr]) else s
      else s
    (s'.1.set attr (getattr attr), s'.2)

/-- transformations.py:1893-1922 `_import_module`.  The module is `none` if its import fails, and otherwise its names (`dir`) with their
values.  The result is `some true` or Python's `None`. -/
def importModule {V : Type} (name : String) (module : Option (List String × (String → V))) (warn : Bool) (pre ignore : String)
    (g : Globals V) : Option Bool × Globals V × List String :=
  match module with
  | none => (none, g, if warn then ["failed to import module " ++ name] else [])
  | some (dir, getattr) => (some true, dir.foldl (importAttr warn pre ignore getattr) (g, []))

end Electrode
