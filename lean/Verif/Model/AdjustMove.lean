import Verif.Model.Adjust
import Verif.Model.Dynamics

/-
Model of the moves of `electrode/adjust.py`: `set_move_init`, `xm_freq_change`, `propose_move`.
-/
namespace Electrode

/-- adjust.py:40, 44, 47, 110, 123: the external functions the moves use: `scipy.optimize.minimize` with the name of the method, `numpy.linalg.eigh`,
`argsort` and `scipy.linalg.solve` -/
structure MoveLib where
  minimize : String → (List ℝ → Py ℝ) → (List ℝ → Py (List ℝ)) → (List ℝ → Py (List (List ℝ))) → List ℝ → Py (Bool × List ℝ)
  eigh : Eigh
  argsort : Argsort
  solve : List (List ℝ) → List ℝ → Py (List ℝ)

/-- adjust.py:31, 38-41: the argument `xm` of `set_move_init` -/
inductive XmArg
  | none
  /-- a list or tuple of three numbers -/
  | seq (p : V3)
  /-- an array of three numbers -/
  | array (p : V3)

/-- adjust.py:31, 45-48: the argument `axis_order` of `set_move_init` -/
inductive OrderArg
  | none
  | list (l : List Int)
  /-- a tuple of at least two integers -/
  | tuple (l : List Int)
  /-- an array of at least two integers -/
  | array (l : List Int)

/-- adjust.py:40, 123: `self.system.minimum(x0, method=m)`, with the default axes and coordinates -/
noncomputable def moveMin (lib : MoveLib) (method : String) (s : Sys) (x : V3) : Py V3 :=
  match minimum (lib.minimize method) s 1 .float ![x.x, x.y, x.z] [0, 1, 2] with
  | .error e => .error e
  | .ok p => .ok ⟨p 0, p 1, p 2⟩

/-- adjust.py:48, 127: `a[order]` for an integer list `order` -/
def takeInts {α : Type} (l : List α) (order : List Int) : Py (List α) := pySeq (order.map (pyGetInt l))

/-- adjust.py:48-49: a vector as a row of `self.basis` -/
def vecRow (v : Fin 3 → ℝ) : List ℝ := [v 0, v 1, v 2]

/-- adjust.py:47, 126: `evector[0].argsort()[::-1]`, from the columns of `evector` -/
def xOrder (argsort : Argsort) (cols : List (Fin 3 → ℝ)) : List Nat := (argsort (cols.map fun v => v 0)).reverse

/-- adjust.py:45-48, the curvatures and the rows of the basis in the order asked for.  `evalue[axis_order]` takes a tuple
for several indices of an array with one axis: `IndexError`. -/
def orderAxes (argsort : Argsort) (order : OrderArg) (ew : List ℝ) (cols : List (Fin 3 → ℝ)) : Py (List ℝ × List (List ℝ)) :=
  match order with
  | .array _ => .error .valueError
  | .tuple _ => .error .indexError
  | .none => .ok (takeIdx ew (xOrder argsort cols), (takeIdx cols (xOrder argsort cols)).map vecRow)
  | .list l =>
    match takeInts ew l, takeInts cols l with
    | .ok e, .ok c => .ok (e, c.map vecRow)
    | .error e, _ => .error e
    | .ok _, .error e => .error e

/-- adjust.py:31-55 `set_move_init`: the result, and the object afterwards.  `E_config` is given (`None`, the default, is
stored as it is and `len(None)` raises `TypeError` in `volt_change`).  The comparison `xm == None` of an array of three
numbers gives an array, which has no truth value: `ValueError`. -/
noncomputable def setMoveInit (lib : MoveLib) (config : List (List String)) (xm : XmArg) (order : OrderArg) (a : Adj) :
    Py (V3 × List (String × List ℝ)) × Adj :=
  match (match xm with
    | .none => moveMin lib "Newton-CG" a.sys ⟨0, 0, 0⟩
    | .seq p => .ok p
    | .array _ => .error .valueError) with
  | .error e => (.error e, a)
  | .ok p =>
    match modes lib.eigh lib.argsort a.sys p true with
    | .error e => (.error e, { a with xms := [p] })
    | .ok (ew, cols) =>
      match orderAxes lib.argsort order ew cols with
      | .error e => (.error e, { a with xms := [p] })
      | .ok (ew, rows) =>
        (.ok (p, ["axial", "radial1", "radial2"].zip rows), { a with xms := [p], curves := [ew], basis := rows, config := config })

/-- adjust.py:128: `np.sqrt` of one number; `none` is `nan` -/
noncomputable def sqrtNan (x : ℝ) : Option ℝ :=
  open Classical in
  if 0 ≤ x then some (√x) else none

/-- adjust.py:128 `np.sqrt(evalue)-np.sqrt(self.curves[0])`: arrays of equal length, or one value for all -/
noncomputable def freqChange (ew ew0 : List ℝ) : Py (List (Option ℝ)) :=
  let sub (x y : ℝ) : Option ℝ := (sqrtNan x).bind fun u => (sqrtNan y).map fun v => u - v
  if ew.length = ew0.length then .ok (List.zipWith sub ew ew0)
  else match ew0 with
    | [y] => .ok (ew.map fun x => sub x y)
    | _ => .error .valueError

/-- adjust.py:129 `evector-self.basis`: arrays of equal length, or one row for all -/
noncomputable def vecChange (rows basis : List (List ℝ)) : Py (List (List ℝ)) :=
  if rows.length = basis.length then .ok (List.zipWith (List.zipWith (· - ·)) rows basis)
  else match basis with
    | [b] => .ok (rows.map fun r => List.zipWith (· - ·) r b)
    | _ => .error .valueError

/-- adjust.py:130: what `xm_freq_change` returns -/
structure Moved where
  xm : V3
  offset : V3
  curves : List ℝ
  freq : List (Option ℝ)
  vec : List (List ℝ)

/-- adjust.py:122-129, after the voltages are set -/
noncomputable def moveResult (lib : MoveLib) (a : Adj) (old : V3) : Py Moved :=
  match moveMin lib "Nelder-Mead" a.sys ⟨old.x + 0.01, old.y + 0.01, old.z + 0.01⟩ with
  | .error e => .error e
  | .ok p =>
    match modes lib.eigh lib.argsort a.sys p true with
    | .error e => .error e
    | .ok (ew, cols) =>
      let o := xOrder lib.argsort cols
      match pyGet a.curves 0 with
      | .error e => .error e
      | .ok ew0 =>
        match freqChange (takeIdx ew o) ew0 with
        | .error e => .error e
        | .ok fr =>
          match vecChange ((takeIdx cols o).map vecRow) a.basis with
          | .error e => .error e
          | .ok vc => .ok ⟨p, ⟨p.x - old.x, p.y - old.y, p.z - old.z⟩, takeIdx ew o, fr, vc⟩

/-- adjust.py:117-130 `xm_freq_change`: the result, and the object afterwards -/
noncomputable def xmFreqChange (lib : MoveLib) (dV : List ℝ) (a : Adj) : Py Moved × Adj :=
  match a.xms.getLast? with
  | none => (.error .indexError, a)
  | some old =>
    match constructConfig a dV with
    | .error e => (.error e, a)
    | .ok c =>
      match setVolts c false a with
      | (some e, a) => (.error e, a)
      | (none, a) => (moveResult lib a old, a)

/-- adjust.py:132-138 `propose_move`: the voltage changes and the result of `xm_freq_change`, and the object afterwards -/
noncomputable def proposeMove (lib : MoveLib) (axis : Nat) (l dis : ℝ) (sameScale : Bool) (method : MoveMethod) (a : Adj) :
    Py (List ℝ × Moved) × Adj :=
  match voltChange lib.solve a axis l dis sameScale method with
  | .error e => (.error e, a)
  | .ok dV =>
    match xmFreqChange lib dV a with
    | (.error e, a) => (.error e, a)
    | (.ok m, a) => (.ok (dV, m), { a with propose := some (dV, m.xm, m.curves) })

end Electrode
