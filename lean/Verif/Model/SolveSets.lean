import Verif.Model.Constraints

/-
`solve` with the constraints of `pattern_constraints` as its arguments.  (`Model.Constraints` has `solve` for constraints given by the terms and
conditions they generate.)
-/
namespace Electrode

/-- `coef*val` (system.py:749) is a numpy array if `coef` comes from `PotentialObjective.get` (pattern_constraints.py:155-163): these are the
coefficients, not a function of the variables.  The float `0.` of an empty `MultiPotentialObjective` is a number. -/
def hasArray (terms : List (Option (List ℝ) × ℝ)) : Bool := terms.any fun t => t.1.isSome

/-- system.py:748-750: the loop over one set of local constraints.  The flag says whether `obj` is a numpy array (line 749 overwrites it every time);
otherwise `obj` is the number 0. -/
noncomputable def localSet (s : List Elec) : List Ctr → Bool → Py (Bool × List (Gen (Fin s.length → ℝ)))
  | [], arr => .ok (arr, [])
  | cj :: l, _ =>
    match cj.objective s with
    | .error e => .error e
    | .ok terms =>
      match cj.constraints s with
      | .error e => .error e
      | .ok ctrs =>
        match localSet s l (hasArray terms) with
        | .error e => .error e
        | .ok (arr, gs) => .ok (arr, ⟨[], ctrs.map fun c v => c.sat (List.ofFn v)⟩ :: gs)

/-- system.py:747-750: the loop over the sets -/
noncomputable def localSets (s : List Elec) : List (List Ctr) → Bool → Py (Bool × List (List (Gen (Fin s.length → ℝ))))
  | [], arr => .ok (arr, [])
  | ci :: l, arr =>
    match localSet s ci arr with
    | .error e => .error e
    | .ok (arr', gs) =>
      match localSets s l arr' with
      | .error e => .error e
      | .ok (arr'', gss) => .ok (arr'', gs :: gss)

/-- pattern_constraints.py:215-237, system.py:751-753 and 703: what can go wrong with a `VoltageDerivativeConstraint` for `N` rows: an unknown norm is a
`ValueError`; cvxopt refuses to bound a convex function (absolute values, maxima) from below or to maximise it. -/
noncomputable def VDC.accepted (c : VDC) (N : Nat) : Py Unit :=
  open Classical in
  if (voltDeriv c.order c.smooth c.delta (List.replicate N (0 : ℝ))).length = 0 then .ok ()
  else match c.norm with
    | .other => if c.weight ≠ 0 ∨ c.max.isSome ∨ c.min.isSome then .error .valueError else .ok ()
    | .inf => if c.min.isSome ∨ c.weight < 0 then .error .typeError else .ok ()
    | .one => if c.abs ∧ (c.min.isSome ∨ c.weight < 0) then .error .typeError else .ok ()

/-- system.py:718-759 `solve` with local constraints `PatternRangeConstraint`, `PotentialObjective` and `MultiPotentialObjective`, and global constraints
`VoltageDerivativeConstraint`.  A numpy array as objective is refused (`TypeError`), already in line 752 or by `cvxopt.modeling.op`.  Simplified: if
several of these things go wrong, the class of the exception may be that of another one; the solver (`Model.Constraints`) assigns a value to every variable, also if it occurs nowhere in the problem. -/
noncomputable def solveSets (s : List Elec)
    (solver : (Volts s.length → ℝ) → List (Volts s.length → Prop) → Nat → Option (Volts s.length)) (loc : List (List Ctr)) (glob : List VDC) :
    Py (Volts s.length × ℝ) :=
  match localSets s loc false with
  | .error e => .error e
  | .ok (arr, gens) =>
    match pySeq (glob.map fun c => c.accepted loc.length) with
    | .error e => .error e
    | .ok _ => if arr then .error .typeError else solve solver gens (glob.map fun c => c.gen loc.length)

end Electrode
