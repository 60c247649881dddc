import Verif.Model.Rounded

/-
The combined potential of a system in floating-point arithmetic. `dot` stands for the sums of three products that `numpy.einsum` computes: the order of its
operations is not specified.
-/
namespace Electrode

/-- utils.py:337-340: an entry that is copied, or one that follows from the Laplace equation: `-c[..., j[0]]-c[..., j[1]]` -/
def flSelValue (o : FloatOps) (c : List ℝ) : Sel → Py ℝ
  | .one j => pyGet c j
  | .lap i j =>
    match pyGet c i, pyGet c j with
    | .ok a, .ok b => .ok (o.sub (-a) b)
    | .error e, _ => .error e
    | _, .error e => .error e

/-- utils.py:308-341 `expand_tensor` for one row -/
def flExpandTensor (o : FloatOps) (c : List ℝ) : Py (List ℝ) :=
  let order := (c.length - 1) / 2
  if order = 0 then (pyGet c 0).map fun a => [a]
  else if order = 1 then .ok c
  else
    match expandMap[order]? with
    | none => .error .indexError
    | some m => pySeq (m.map (flSelValue o c))

/-- utils.py:308-341 `expand_tensor` on an array of rows -/
def flExpandRows (o : FloatOps) (derivative : Nat) (rows : List (List ℝ)) : Py (List (List ℝ)) :=
  if 2 ≤ derivative ∧ expandMap.length ≤ derivative then .error .indexError
  else pySeq (rows.map fun c => flExpandTensor o c)

/-- system.py:181-219 `electrical_potential` with `expand=True` -/
noncomputable def flExpanded (o : FloatOps) (compiled : Bool) (s : List Elec) (x : List V3) (derivative : Nat) (typ : VTyp) : Py (List (List ℝ)) :=
  match flElectricalPotential o compiled s x derivative typ with
  | .error e => .error e
  | .ok pot => flExpandRows o derivative pot

/-- system.py:299-324, the branches of `pseudo_potential` at one position: `p i` is the expanded rf derivative tensor of order `i + 1`, as in `pseudoRow` -/
def flPseudoRow (o : FloatOps) (dot : (Axis → ℝ) → (Axis → ℝ) → ℝ) (derivative : Nat) (p : Nat → NArr ℝ) : Option (List ℝ) :=
  match derivative with
  | 0 => some (flatten 0 fun _ => dot (fun j => p 0 [j]) fun j => p 0 [j])
  | 1 => some (flatten 1 fun i => o.mul 2 (dot (fun j => p 0 [j]) fun j => p 1 [j, ix i 0]))
  | 2 => some (flatten 2 fun i => o.mul 2 (o.add (dot (fun j => p 1 [j, ix i 0]) fun j => p 1 [j, ix i 1])
      (dot (fun j => p 0 [j]) fun j => p 2 [j, ix i 0, ix i 1])))
  | 3 =>
    let a : NArr ℝ := fun i => dot (fun j => p 0 [j]) fun j => p 3 [j, ix i 0, ix i 1, ix i 2]
    let b : NArr ℝ := fun i => dot (fun j => p 1 [j, ix i 0]) fun j => p 2 [j, ix i 1, ix i 2]
    some (flatten 3 fun i => o.mul 2 (o.add (o.add (o.add (a i) (b i)) (swapAxes 0 1 b i)) (swapAxes 0 2 b i)))
  | 4 =>
    let a : NArr ℝ := fun i => dot (fun j => p 0 [j]) fun j => p 4 [j, ix i 0, ix i 1, ix i 2, ix i 3]
    let b : NArr ℝ := fun i => dot (fun j => p 1 [j, ix i 0]) fun j => p 3 [j, ix i 1, ix i 2, ix i 3]
    let c : NArr ℝ := fun i => dot (fun j => p 2 [j, ix i 0, ix i 1]) fun j => p 2 [j, ix i 2, ix i 3]
    some (flatten 4 fun i => o.mul 2 (o.add (o.add (o.add (o.add (o.add (o.add (o.add (a i) (b i)) (swapAxes 0 3 b i)) (swapAxes 0 2 b i))
      (swapAxes 0 1 b i)) (c i)) (swapAxes 1 3 c i)) (swapAxes 1 2 c i)))
  | _ => none

/-- system.py:276-327 `pseudo_potential` -/
noncomputable def flPseudoPotential (o : FloatOps) (dot : (Axis → ℝ) → (Axis → ℝ) → ℝ) (compiled : Bool) (s : Sys) (x : List V3) (derivative : Nat) :
    Py (List (List ℝ)) :=
  match s.rfCoeff with
  | none => .error .attributeError
  | some c =>
    match pySeq ((List.range (derivative + 1)).map fun i =>
        (flExpanded o compiled s.els x (i + 1) .rf).map fun a => a.map fun r => r.map fun v => o.mul c v) with
    | .error e => .error e
    | .ok p =>
      if derivative ≤ 4 then
        .ok ((List.range x.length).map fun n => (flPseudoRow o dot derivative fun i => toNArr ((p.getD i []).getD n [])).getD [])
      else .error .valueError

/-- system.py:329-357 `potential` -/
noncomputable def Sys.flPotential (o : FloatOps) (dot : (Axis → ℝ) → (Axis → ℝ) → ℝ) (compiled : Bool) (s : Sys) (x : List V3) (derivative : Nat) (typ : PTyp) :
    Py (List (List ℝ)) :=
  match flExpanded o compiled s.els x derivative .dc with
  | .error e => .error e
  | .ok dc =>
    match flPseudoPotential o dot compiled s x derivative with
    | .error e => .error e
    | .ok rf =>
      match typ with
      | .tot => .ok (List.zipWith (fun r t => List.zipWith o.add r t) dc rf)
      | .dc => .ok dc
      | .rf => .ok rf
      | .other => .error .valueError

/-- system.py:249-274 `time_potential` with `expand=True`; `cosine` is the number that `numpy.cos` returns -/
noncomputable def flTimePotential (o : FloatOps) (cosine : ℝ → ℝ) (compiled : Bool) (s : List Elec) (x : List V3) (derivative : Nat) (t : ℝ) : Py (List (List ℝ)) :=
  match flExpanded o compiled s x derivative .dc with
  | .error e => .error e
  | .ok dc =>
    match flExpanded o compiled s x derivative .rf with
    | .error e => .error e
    | .ok rf => .ok (List.zipWith (fun r t => List.zipWith o.add r t) dc (rf.map fun r => r.map fun v => o.mul (cosine t) v))

end Electrode
