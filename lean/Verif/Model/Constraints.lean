import Verif.Model.System
import Mathlib.Algebra.Module.Defs
import Mathlib.Order.ConditionallyCompleteLattice.Basic

/-
Model of `electrode/pattern_constraints.py` and of `System.optimize`, `shims` and `solve`
(`electrode/system.py`).  cvxopt expressions are modelled by what they mean: an affine function of the
variables is its list of coefficients, a constraint is a relation of such a function to a number, the
solver is a parameter.
-/
namespace Electrode

/-! ### linear constraints -/

/-- pattern_constraints.py:76-79, 120-124: `==`, `>=`, `<=` of cvxopt -/
inductive Rel
  | eq | ge | le
  deriving DecidableEq

/-- pattern_constraints.py:76-79, 120-124: `a rel b` -/
def Rel.holds : Rel → ℝ → ℝ → Prop
  | .eq, a, b => a = b
  | .ge, a, b => b ≤ a
  | .le, a, b => a ≤ b

/-- pattern_constraints.py:118: `cvxopt.modeling.dot(c, p)` at the pattern `p` -/
def dotL (c p : List ℝ) : ℝ := (List.zipWith (· * ·) c p).sum

/-- pattern_constraints.py:118-124: a linear constraint on the pattern: `dot(coef, p) rel bound` -/
structure LinCtr where
  coef : List ℝ
  rel : Rel
  bound : ℝ

/-- pattern_constraints.py:118-124: the pattern satisfies the constraint -/
def LinCtr.sat (c : LinCtr) (p : List ℝ) : Prop := c.rel.holds (dotL c.coef p) c.bound

/-- pattern_constraints.py:70-79: coefficients of `variables[j]` for `n` variables -/
def unitRow (n j : Nat) : List ℝ := (List.range n).map fun k => if k = j then 1 else 0

/-- pattern_constraints.py:70-73: the entries `variables[index]`, or all for `index = None`; a cvxopt variable takes negative indexes like
a list and raises `IndexError` outside. -/
def selectVars (n : Nat) : Option Int → Py (List Nat)
  | none => .ok (List.range n)
  | some i => (pyGetInt (List.range n) i).map fun j => [j]

/-- pattern_constraints.py:74-79: `variables rel bound`: one constraint per entry -/
def varsRel (n : Nat) (sel : List Nat) (rel : Rel) (bound : ℝ) : List LinCtr :=
  sel.map fun j => ⟨unitRow n j, rel, bound⟩

/-- pattern_constraints.py:69-79 `PatternRangeConstraint.constraints` on the `n` entries of one pattern -/
noncomputable def rangeConstraints (min max : Option ℝ) (index : Option Int) (n : Nat) : Py (List LinCtr) :=
  open Classical in
  match selectVars n index with
  | .error e => .error e
  | .ok sel =>
    .ok (match min, max with
      | none, none => []
      | some a, some b =>
        if a = b then varsRel n sel .eq a else varsRel n sel .ge a ++ varsRel n sel .le b
      | some a, none => varsRel n sel .ge a
      | none, some b => varsRel n sel .le b)

/-! ### single value constraints -/

/-- pattern_constraints.py:98-102, the attributes of `SingleValueConstraint` -/
structure SV where
  value : Option ℝ
  min : Option ℝ
  max : Option ℝ
  offset : Option ℝ

/-- pattern_constraints.py:127-191: `PotentialObjective` and `MultiPotentialObjective` -/
inductive SVC
  | pot (x : V3) (order : Nat) (reducedIdx : Sel) (rotation : Option (Matrix Axis Axis ℝ)) (sv : SV)
  | multi (components : List SVC) (sv : SV)

/-- pattern_constraints.py:82-102: the attributes inherited from `SingleValueConstraint` -/
def SVC.sv : SVC → SV
  | .pot _ _ _ _ sv => sv
  | .multi _ sv => sv

/-- pattern_constraints.py:146-153 `PotentialObjective.__init__` -/
def potentialObjective (x : V3) (derivative : Name) (rotation : Option (Matrix Axis Axis ℝ)) (sv : SV) : Py SVC :=
  match derivToReducedIdx derivative with
  | .error e => .error e
  | .ok r => .ok (.pot x derivative.length r rotation sv)

/-- pattern_constraints.py:157-159, one electrode: `select_tensor(rotate_tensor(expand_tensor(c), rotation, order))` -/
def rotateRow (order : Nat) (r : Matrix Axis Axis ℝ) (c : List ℝ) : Py (List ℝ) :=
  match expandTensor c with
  | .error e => .error e
  | .ok t => selectTensor (flatten order (rotateTensor order (toNArr t) r (some order))) order

/-- pattern_constraints.py:157-159, one electrode -/
def rowInFrame (order : Nat) (rotation : Option (Matrix Axis Axis ℝ)) (c : List ℝ) : Py (List ℝ) :=
  match rotation with
  | none => .ok c
  | some r => rotateRow order r c

/-- pattern_constraints.py:160-162, one electrode: `c[reduced_idx]`, or `-c.sum(1)` of the two entries -/
def reducedEntry (c : List ℝ) : Sel → Py ℝ
  | .one j => pyGet c j
  | .lap i j =>
    match pyGet c i, pyGet c j with
    | .ok a, .ok b => .ok (-(a + b))
    | .error e, _ => .error e
    | _, .error e => .error e

/-- pattern_constraints.py:155-163 `PotentialObjective.get`: one coefficient per electrode -/
noncomputable def potGet (s : List Elec) (x : V3) (order : Nat) (idx : Sel) (rotation : Option (Matrix Axis Axis ℝ)) :
    Py (List ℝ) :=
  match individualPotential s [x] order with
  | .error e => .error e
  | .ok c =>
    match pySeq (c.map fun rows => rowInFrame order rotation (rows.getD 0 [])) with
    | .error e => .error e
    | .ok c => pySeq (c.map fun row => reducedEntry row idx)

/-- pattern_constraints.py:187-190: `c + vi*ci`, where `none` is the float `0.` the sum starts with -/
def addCoef (c : Option (List ℝ)) (v : ℝ) (ci : Option (List ℝ)) : Option (List ℝ) :=
  match c, ci with
  | none, none => none
  | none, some l => some (l.map fun a => v * a)
  | some l, none => some l
  | some l, some l' => some (List.zipWith (fun a b => a + v * b) l l')

mutual
/-- `get`: pattern_constraints.py:155-163 and 186-191.  The float `0.` of a sum without terms is `none`. -/
noncomputable def SVC.get (s : List Elec) : SVC → Py (Option (List ℝ))
  | .pot x order idx rotation _ => (potGet s x order idx rotation).map some
  | .multi components _ => SVC.getAll s components none
/-- pattern_constraints.py:186-191: the loop over the components; `objective` (lines 109-112) yields only if
`value` is given -/
noncomputable def SVC.getAll (s : List Elec) : List SVC → Option (List ℝ) → Py (Option (List ℝ))
  | [], c => .ok c
  | oi :: l, c =>
    match oi.sv.value with
    | none => SVC.getAll s l c
    | some vi =>
      match SVC.get s oi with
      | .error e => .error e
      | .ok ci => SVC.getAll s l (addCoef c vi ci)
end

/-- pattern_constraints.py:107-110 `SingleValueConstraint.objective` -/
noncomputable def SVC.objective (s : List Elec) (o : SVC) : Py (List (Option (List ℝ) × ℝ)) :=
  match o.sv.value with
  | none => .ok []
  | some v => (o.get s).map fun c => [(c, v)]

/-- pattern_constraints.py:119-124: `yield dot(c, p) rel bound` if the bound is given -/
def boundCtr (c : List ℝ) (rel : Rel) : Option ℝ → List LinCtr
  | none => []
  | some b => [⟨c, rel, b⟩]

/-- pattern_constraints.py:112-124 `SingleValueConstraint.constraints`.  The coefficient `0.` of an empty
`MultiPotentialObjective` does not fit the variables (unless there is one): cvxopt raises; the class of that
exception is not modelled. -/
noncomputable def SVC.constraints (s : List Elec) (o : SVC) : Py (List LinCtr) :=
  let sv := o.sv
  if sv.offset.isSome ∨ sv.min.isSome ∨ sv.max.isSome then
    match o.get s with
    | .error e => .error e
    | .ok none => .error .typeError
    | .ok (some c) => .ok (boundCtr c .eq sv.offset ++ boundCtr c .ge sv.min ++ boundCtr c .le sv.max)
  else .ok []

/-! ### optimize -/

/-- pattern_constraints.py:42-191: the constraints that can be given to `optimize` (`VoltageDerivativeConstraint` is modelled for `solve`) -/
inductive Ctr
  | range (min max : Option ℝ) (index : Option Int)
  | single (o : SVC)

/-- pattern_constraints.py:43-45, 107-110: `ci.objective(self, p)`; lines 43-45 for `PatternRangeConstraint` -/
noncomputable def Ctr.objective (s : List Elec) : Ctr → Py (List (Option (List ℝ) × ℝ))
  | .range .. => .ok []
  | .single o => o.objective s

/-- pattern_constraints.py:69-79, 112-124: `ci.constraints(self, p)` -/
noncomputable def Ctr.constraints (s : List Elec) : Ctr → Py (List LinCtr)
  | .range a b i => rangeConstraints a b i s.length
  | .single o => o.constraints s

/-- system.py:785-789: the loop over the constraints -/
noncomputable def collect (s : List Elec) : List Ctr → Py (List (Option (List ℝ) × ℝ) × List LinCtr)
  | [] => .ok ([], [])
  | ci :: l =>
    match ci.objective s with
    | .error e => .error e
    | .ok o =>
      match ci.constraints s with
      | .error e => .error e
      | .ok c =>
        match collect s l with
        | .error e => .error e
        | .ok (os, cs) => .ok (o ++ os, c ++ cs)

/-- system.py:790 `B = np.array([i[0] for i in obj])`: no rows, or a row that is the float `0.`, end in a
`ValueError` (`LinAlgError` is one) here or in `pinv`. -/
def objRows (obj : List (Option (List ℝ) × ℝ)) : Py (List (List ℝ)) :=
  if obj.isEmpty then .error .valueError
  else pySeq (obj.map fun o => match o.1 with | some c => .ok c | none => .error .valueError)

/-- system.py:794: `np.dot(M, v)` -/
def matVec (M : List (List ℝ)) (v : List ℝ) : List ℝ := M.map fun r => dotL r v

/-- system.py:796, 799: the rows of `B - np.outer(b, g)/g2` -/
noncomputable def projRows (B : List (List ℝ)) (b g : List ℝ) : List (List ℝ) :=
  List.zipWith (fun r bi => List.zipWith (fun x gj => x - bi * gj / dotL g g) r g) B b

/-- system.py:793: `numpy.linalg.pinv` -/
abbrev Pinv := List (List ℝ) → List (List ℝ)

/-- `_run_cvxopt` (system.py:702-716): objective to maximise (the code hands over its negative to be minimised),
constraints, number of variables; `none` if the status is not `"optimal"`.  The keyword arguments and the log
output are not modelled. -/
abbrev Solver := List ℝ → List LinCtr → Nat → Option (List ℝ)

/-- system.py:761-807 `optimize`.  If `g2 = 0` the rows are `nan` in numpy and the solver cannot succeed, which
is modelled by its failure. -/
noncomputable def optimize (pinv : Pinv) (solver : Solver) (s : List Elec) (constraints : List Ctr) :
    Py (List ℝ × ℝ) :=
  open Classical in
  match collect s constraints with
  | .error e => .error e
  | .ok (obj, ctrs) =>
    match objRows obj with
    | .error e => .error e
    | .ok B =>
      let b := obj.map (·.2)
      let g := matVec (pinv B) b
      let g2 := dotL g g
      let B1 := (projRows B b g).dropLast
      if g2 = 0 then .error .valueError
      else match solver g (ctrs ++ B1.map fun r => ⟨r, .eq, 0⟩) s.length with
        | none => .error .valueError
        | some p => .ok (p, dotL p g / g2)

/-! ### shims -/

/-- system.py:695, 698: `objective.value = v` -/
def SVC.setValue (v : ℝ) : SVC → SVC
  | .pot x o i r sv => .pot x o i r { sv with value := some v }
  | .multi c sv => .multi c { sv with value := some v }

/-- system.py:695-699, one pass of the loop of `shims`: the objectives as changed, and the vector.  If
`optimize` raises, `value` stays 1.  `none`: division by `c = 0`, the entries are `nan` or infinite.  The objectives are taken to be distinct objects that do not occur in
`constraints`. -/
noncomputable def shimStep (pinv : Pinv) (solver : Solver) (s : List Elec) (constraints : List Ctr)
    (obj : List SVC) (i : Nat) : List SVC × Py (Option (List ℝ)) :=
  open Classical in
  let obj1 := obj.modify i (SVC.setValue 1)
  match optimize pinv solver s (constraints ++ obj1.map .single) with
  | .error e => (obj1, .error e)
  | .ok (p, c) => (obj1.modify i (SVC.setValue 0), .ok (if c = 0 then none else some (p.map fun v => v / c)))

/-- system.py:694-699: the loop, over the remaining indexes -/
noncomputable def shimLoop (pinv : Pinv) (solver : Solver) (s : List Elec) (constraints : List Ctr) :
    List SVC → List Nat → List SVC × Py (List (Option (List ℝ)))
  | obj, [] => (obj, .ok [])
  | obj, i :: l =>
    match shimStep pinv solver s constraints obj i with
    | (obj1, .error e) => (obj1, .error e)
    | (obj1, .ok v) =>
      match shimLoop pinv solver s constraints obj1 l with
      | (obj2, .error e) => (obj2, .error e)
      | (obj2, .ok vs) => (obj2, .ok (v :: vs))

/-- system.py:687-688: the objectives made from `x_coord_deriv` -/
def shimObjectives (xcd : List (V3 × Option (Matrix Axis Axis ℝ) × Name)) : Py (List SVC) :=
  pySeq (xcd.map fun q => potentialObjective q.1 q.2.2 q.2.1 ⟨some 0, none, none, none⟩)

/-- system.py:656-700 `shims`: the vectors, and the objectives of the caller as left behind -/
noncomputable def shims (pinv : Pinv) (solver : Solver) (s : List Elec)
    (xcd : List (V3 × Option (Matrix Axis Axis ℝ) × Name)) (objectives : List SVC)
    (constraints : Option (List Ctr)) : List SVC × Py (List (Option (List ℝ))) :=
  match shimObjectives xcd with
  | .error e => (objectives, .error e)
  | .ok o =>
    let obj := o ++ objectives
    let r := shimLoop pinv solver s (constraints.getD [.range (some (-1)) (some 1) none]) obj (List.range obj.length)
    (r.1.drop o.length, r.2)

/-! ### voltage derivatives and solve -/

section Diff
variable {M : Type*} [AddCommGroup M] [Module ℝ M]

/-- pattern_constraints.py:211-212: `[(obj[i + delta] - obj[i]) for i in range(len(obj) - delta)]` -/
def diffStep (delta : Nat) (obj : List M) : List M :=
  (List.range (obj.length - delta)).map fun i => obj.getD (i + delta) 0 - obj.getD i 0

/-- pattern_constraints.py:210: `obj[delta:0:-1] + obj + obj[-2:-2-delta:-1]` -/
def mirrorExt (delta : Nat) (obj : List M) : List M :=
  ((obj.drop 1).take delta).reverse ++ obj ++ ((obj.dropLast).reverse).take delta

/-- pattern_constraints.py:208-212: the loop of `get`, `k` passes starting with pass `i` -/
def diffLoop (smooth : Bool) (delta : Nat) : Nat → Nat → List M → List M
  | _, 0, obj => obj
  | i, k + 1, obj =>
    diffLoop smooth delta (i + 1) k (diffStep delta (if smooth ∧ i % 2 = 0 then mirrorExt delta obj else obj))

/-- pattern_constraints.py:206-213 `VoltageDerivativeConstraint.get` for a list of variables; `delta >= 1`
(`delta = 0` ends in a `ZeroDivisionError`). -/
noncomputable def voltDeriv (order : Nat) (smooth : Bool) (delta : Nat) (vars : List M) : List M :=
  (diffLoop smooth delta 0 order vars).map fun v => (1 / (delta : ℝ) ^ order) • v

end Diff

/-- pattern_constraints.py:219-224: the argument `norm` -/
inductive Norm
  | one | inf | other

/-- pattern_constraints.py:215-224 `coef` at given voltages, for one difference with at least one entry -/
noncomputable def coefOf {n : Nat} (abs : Bool) : Norm → (Fin n → ℝ) → Py ℝ
  | .one, v => .ok (∑ k, if abs then |v k| else v k)
  | .inf, v => .ok (⨆ k, if abs then |v k| else v k)
  | .other, _ => .error .valueError

/-- pattern_constraints.py:194-204: the attributes of `VoltageDerivativeConstraint` -/
structure VDC where
  order : Nat
  weight : ℝ
  max : Option ℝ
  min : Option ℝ
  smooth : Bool
  delta : Nat
  norm : Norm
  abs : Bool

/-- pattern_constraints.py:215-224: `coef(system, variables)` at given voltages -/
noncomputable def VDC.coef {n : Nat} (c : VDC) (u : List (Fin n → ℝ)) : Py (List ℝ) :=
  pySeq ((voltDeriv c.order c.smooth c.delta u).map (coefOf c.abs c.norm))

/-- system.py:747-753: A constraint handed to `solve`, by what it generates for given variables: terms `(coef, val)` of the
objective as functions of the voltages, and conditions on the voltages. -/
structure Gen (V : Type) where
  objective : List ((V → ℝ) × ℝ)
  constraints : List (V → Prop)

/-- system.py:749, 752: `sum(coef*val for coef, val in cj.objective(self, vi))` -/
def Gen.sum {V : Type} (g : Gen V) (v : V) : ℝ := (g.objective.map fun t => t.1 v * t.2).sum

/-- system.py:742-743, 758: a voltage table: one row per set of local constraints -/
abbrev Volts (n : Nat) := List (Fin n → ℝ)

/-- system.py:747-750: the objective after the loop over the local constraints: `obj = sum(..)` overwrites what was
there before.  `k` is the number of the row. -/
def localObj {n : Nat} : Nat → List (List (Gen (Fin n → ℝ))) → (Volts n → ℝ) → Volts n → ℝ
  | _, [], obj => obj
  | k, ci :: l, obj => localObj (k + 1) l (ci.foldl (fun _ cj u => cj.sum (u.getD k 0)) obj)

/-- system.py:747-750: the constraints collected from the local constraints -/
def localCtrs {n : Nat} (loc : List (List (Gen (Fin n → ℝ)))) : List (Volts n → Prop) :=
  loc.zipIdx.flatMap fun q => q.1.flatMap fun cj => cj.constraints.map fun c u => c (u.getD q.2 0)

/-- system.py:745-753: objective and constraints handed to the solver -/
def solveProblem {n : Nat} (loc : List (List (Gen (Fin n → ℝ)))) (glob : List (Gen (Volts n))) :
    (Volts n → ℝ) × List (Volts n → Prop) :=
  (glob.foldl (fun obj ci u => obj u + ci.sum u) (localObj 0 loc fun _ => 0),
    localCtrs loc ++ glob.flatMap (·.constraints))

/-- system.py:718-759 `solve`.  The solver (minimising) is a parameter; `none` stands for a status other than
`"optimal"`. -/
def solve {n : Nat} (solver : (Volts n → ℝ) → List (Volts n → Prop) → Nat → Option (Volts n))
    (loc : List (List (Gen (Fin n → ℝ)))) (glob : List (Gen (Volts n))) : Py (Volts n × ℝ) :=
  let p := solveProblem loc glob
  match solver p.1 p.2 loc.length with
  | none => .error .valueError
  | some u => .ok (u, p.1 u)

/-- pattern_constraints.py:226-237: `VoltageDerivativeConstraint` as a global constraint on `N` rows of voltages.
The names of unknown norms (`ValueError`) are excluded by `norm ≠ other`; the number of differences depends only
on `N`. -/
noncomputable def VDC.gen {n : Nat} (c : VDC) (N : Nat) : Gen (Volts n) :=
  let len := (voltDeriv c.order c.smooth c.delta (List.replicate N (0 : Fin n → ℝ))).length
  let f : Nat → Volts n → ℝ := fun i u => match c.coef u with | .ok l => l.getD i 0 | .error _ => 0
  { objective := open Classical in if c.weight = 0 then [] else (List.range len).map fun i => (f i, c.weight)
    constraints :=
      (match c.max with | none => [] | some m => (List.range len).map fun i u => f i u ≤ m) ++
      (match c.min with | none => [] | some m => (List.range len).map fun i u => m ≤ f i u) }

end Electrode
