import Verif.Model.Electrode
import Verif.Model.Rotate
import Mathlib.Data.Matrix.Mul
import Mathlib.Analysis.SpecialFunctions.Trigonometric.Basic

/-
Model of `electrode/system.py`: the accessors of `System`, `with_voltages`, the potentials,
the functions handed to the optimisers and `group`.
-/
namespace Electrode
open Real

/-! ### potentials -/

/-- system.py:181, 214: The argument `typ` of `electrical_potential`; `other` is a string that is not an attribute
of the electrodes. -/
inductive VTyp
  | dc | rf | other
  deriving DecidableEq

/-- system.py:214 `getattr(ei, typ, None)` -/
def Elec.volt (e : Elec) : VTyp → Option ℝ
  | .dc => some e.dc
  | .rf => some e.rf
  | .other => none

/-- system.py:213-216, body of the loop: `if vi: ei.potential(x, derivative, potential=vi, out=pot)` -/
noncomputable def electricalStep (x : List V3) (derivative : Nat) (typ : VTyp) (pot : List (List ℝ)) (e : Elec) :
    Py (List (List ℝ)) :=
  open Classical in
  match e.volt typ with
  | none => .ok pot
  | some v => if v = 0 then .ok pot else e.potential x derivative v (some pot)

/-- utils.py:308-341 `expand_tensor` on an array of rows; unlike the row-wise model, a missing
order raises even for zero rows. -/
def expandRows (derivative : Nat) (rows : List (List ℝ)) : Py (List (List ℝ)) :=
  if 2 ≤ derivative ∧ expandMap.length ≤ derivative then .error .indexError
  else pySeq (rows.map fun c => expandTensor c)

/-- system.py:181-219 `electrical_potential`; the expanded form is flat row-major. -/
noncomputable def electricalPotential (s : List Elec) (x : List V3) (derivative : Nat) (typ : VTyp)
    (expand : Bool) : Py (List (List ℝ)) :=
  match s.foldlM (electricalStep x derivative typ) (zeroRows x.length derivative) with
  | .error e => .error e
  | .ok pot => if expand then expandRows derivative pot else .ok pot

/-- system.py:221-247 `individual_potential`: one array per electrode, at unit voltage. -/
noncomputable def individualPotential (s : List Elec) (x : List V3) (derivative : Nat) :
    Py (List (List (List ℝ))) :=
  pySeq (s.map fun e => e.potential x derivative 1 (some (zeroRows x.length derivative)))

/-- system.py:274, 351: entrywise sum of two arrays of equal shape -/
def addRows (a b : List (List ℝ)) : List (List ℝ) := List.zipWith (fun r t => List.zipWith (· + ·) r t) a b

/-- system.py:274, 293: product of a number and an array -/
def scaleRows (c : ℝ) (a : List (List ℝ)) : List (List ℝ) := a.map fun r => r.map fun v => c * v

/-- system.py:249-274 `time_potential` -/
noncomputable def timePotential (s : List Elec) (x : List V3) (derivative : Nat) (t : ℝ) (expand : Bool) :
    Py (List (List ℝ)) :=
  match electricalPotential s x derivative .dc expand with
  | .error e => .error e
  | .ok dc =>
    match electricalPotential s x derivative .rf expand with
    | .error e => .error e
    | .ok rf => .ok (addRows dc (scaleRows (cos t) rf))

/-- system.py:45-66, 950-972: A system: its electrodes and the attribute `rf_coeff`, absent until `rf_scale` is called. -/
structure Sys where
  els : List Elec
  rfCoeff : Option ℝ

/-- system.py:950-972 `rf_scale` -/
noncomputable def Sys.rfScale (s : Sys) (m q l o : ℝ) : Sys × ℝ :=
  let c := √(q / m) / (2 * l * o)
  ({ s with rfCoeff := some c }, c)

/-- system.py:218: one row of an expanded array, indexed by axis tuples -/
def toNArr (t : List ℝ) : NArr ℝ := fun idx => t.getD (idxToNidx idx) 0

/-- system.py:519, 523: the flat row-major form of a tensor of order `k` -/
def flatten (k : Nat) (t : NArr ℝ) : List ℝ := (productIdx k).map t

/-- system.py:300-323: index tuple `(k, l, ..)` at position `i` -/
abbrev ix (idx : Idx) (i : Nat) : Axis := idx.getD i 0

/-- system.py:299-324, the branches of `pseudo_potential` at one position: `p i` is the expanded
rf derivative tensor of order `i + 1`.  Axis numbers in `transpose` are one less than in the code,
where axis 0 runs over the positions. -/
def pseudoRow (derivative : Nat) (p : Nat → NArr ℝ) : Option (List ℝ) :=
  match derivative with
  | 0 => some (flatten 0 fun _ => ∑ j, p 0 [j] * p 0 [j])
  | 1 => some (flatten 1 fun i => 2 * ∑ j, p 0 [j] * p 1 [j, ix i 0])
  | 2 => some (flatten 2 fun i =>
      2 * ((∑ j, p 1 [j, ix i 0] * p 1 [j, ix i 1]) + ∑ j, p 0 [j] * p 2 [j, ix i 0, ix i 1]))
  | 3 =>
    let a : NArr ℝ := fun i => ∑ j, p 0 [j] * p 3 [j, ix i 0, ix i 1, ix i 2]
    let b : NArr ℝ := fun i => ∑ j, p 1 [j, ix i 0] * p 2 [j, ix i 1, ix i 2]
    some (flatten 3 fun i => 2 * (a i + b i + swapAxes 0 1 b i + swapAxes 0 2 b i))
  | 4 =>
    let a : NArr ℝ := fun i => ∑ j, p 0 [j] * p 4 [j, ix i 0, ix i 1, ix i 2, ix i 3]
    let b : NArr ℝ := fun i => ∑ j, p 1 [j, ix i 0] * p 3 [j, ix i 1, ix i 2, ix i 3]
    let c : NArr ℝ := fun i => ∑ j, p 2 [j, ix i 0, ix i 1] * p 2 [j, ix i 2, ix i 3]
    some (flatten 4 fun i => 2 * (a i + b i + swapAxes 0 3 b i + swapAxes 0 2 b i + swapAxes 0 1 b i
      + c i + swapAxes 1 3 c i + swapAxes 1 2 c i))
  | _ => none

/-- system.py:276-327 `pseudo_potential`.  The list of rf tensors is computed before the order is
checked. -/
noncomputable def pseudoPotential (s : Sys) (x : List V3) (derivative : Nat) : Py (List (List ℝ)) :=
  match s.rfCoeff with
  | none => .error .attributeError
  | some c =>
    match pySeq ((List.range (derivative + 1)).map fun i =>
        (electricalPotential s.els x (i + 1) .rf true).map (scaleRows c)) with
    | .error e => .error e
    | .ok p =>
      if derivative ≤ 4 then
        .ok ((List.range x.length).map fun n =>
          (pseudoRow derivative fun i => toNArr ((p.getD i []).getD n [])).getD [])
      else .error .valueError

/-- system.py:329, 346-357: The argument `typ` of `potential`. -/
inductive PTyp
  | tot | dc | rf | other
  deriving DecidableEq

/-- system.py:329-357 `potential` -/
noncomputable def Sys.potential (s : Sys) (x : List V3) (derivative : Nat) (typ : PTyp) : Py (List (List ℝ)) :=
  match electricalPotential s.els x derivative .dc true with
  | .error e => .error e
  | .ok dc =>
    match pseudoPotential s x derivative with
    | .error e => .error e
    | .ok rf =>
      match typ with
      | .tot => .ok (addRows dc rf)
      | .dc => .ok dc
      | .rf => .ok rf
      | .other => .error .valueError

/-! ### electrodes as objects -/

/-- system.py:45-66, 120-139: An electrode object; the list behind a `System` holds references, possibly several times the
same. -/
abbrev Ref := Nat

/-- system.py:89-118: The electrode objects that exist. -/
abbrev Heap := Ref → Elec

/-- system.py:89-118: The value assigned to `names`, `dcs` or `rfs`: something that cannot be iterated, or
something that yields items and then stops or raises. -/
inductive Iterable (α : Type)
  | notIterable
  | items (l : List α) (stop : Option PyErr)

/-- system.py:81-87 getter of `names` -/
def getNames (els : List Ref) (h : Heap) : List String := els.map fun r => (h r).name
/-- system.py:94-100 getter of `dcs` -/
def getDcs (els : List Ref) (h : Heap) : List ℝ := els.map fun r => (h r).dc
/-- system.py:107-113 getter of `rfs` -/
def getRfs (els : List Ref) (h : Heap) : List ℝ := els.map fun r => (h r).rf

/-- system.py:89-118: `for ei, vi in zip(self, items): ei.attr = vi` over the remaining electrodes.  `zip` (Python 3)
asks the electrode list first, so what follows the last needed item is not evaluated. -/
def assignLoop {α : Type} (upd : α → Elec → Elec) : List Ref → List α → Option PyErr → Heap → Heap × Option PyErr
  | [], _, _, h => (h, none)
  | _ :: _, [], stop, h => (h, stop)
  | r :: els, v :: l, stop, h => assignLoop upd els l stop (Function.update h r (upd v (h r)))

/-- system.py:89-118: the setters; `zip` raises `TypeError` for an argument that is not iterable -/
def assignAll {α : Type} (upd : α → Elec → Elec) (els : List Ref) (it : Iterable α) (h : Heap) : Heap × Option PyErr :=
  match it with
  | .notIterable => (h, some .typeError)
  | .items l stop => assignLoop upd els l stop h

/-- system.py:92: `ei.name = vi` -/
abbrev updName (v : String) (e : Elec) : Elec := { e with name := v }
/-- system.py:105: `ei.dc = vi` -/
abbrev updDc (v : ℝ) (e : Elec) : Elec := { e with dc := v }
/-- system.py:118: `ei.rf = vi` -/
abbrev updRf (v : ℝ) (e : Elec) : Elec := { e with rf := v }

/-- system.py:89-92 setter of `names` -/
def setNames := assignAll updName
/-- system.py:102-105 setter of `dcs` -/
def setDcs := assignAll updDc
/-- system.py:115-118 setter of `rfs` -/
def setRfs := assignAll updRf

/-- system.py:120-135: The argument of `system[..]`. -/
inductive Key
  | idx (i : Int)
  | name (s : String)

/-- system.py:120-139 `__getitem__`: `list.__getitem__` for integers (slices are not modelled),
otherwise the first electrode of that name or `None`. -/
def getItem (els : List Ref) (h : Heap) : Key → Py (Option Ref)
  | .idx i => (pyGetInt els i).map some
  | .name s => .ok (els.find? fun r => (h r).name == s)

/-- system.py:175-179, the `finally` clause of `with_voltages` with the current values of the
local variables. -/
def restoreVoltages (els : List Ref) (dcs rfs : Option (Iterable ℝ)) (h : Heap) : Heap × Option PyErr :=
  let r := match dcs with
    | none => (h, none)
    | some d => setDcs els d h
  match r.2 with
  | some e => (r.1, some e)
  | none =>
    match rfs with
    | none => (r.1, none)
    | some d => setRfs els d r.1

/-- system.py:169-179: leaving the `try` block with outcome `o`: an exception in `finally` replaces the outcome -/
def leave {α : Type} (o : Py α) (r : Heap × Option PyErr) : Heap × Py α :=
  match r.2 with
  | some e => (r.1, .error e)
  | none => (r.1, o)

/-- system.py:143-179 `with self.with_voltages(dcs, rfs): body`.  `body` may change the electrodes
and end normally or with an exception.  The tuple assignment `dcs, self.dcs = self.dcs, dcs` binds
the old values to the local variable before the setter runs. -/
def withVoltages {α : Type} (els : List Ref) (dcs rfs : Option (Iterable ℝ)) (body : Heap → Heap × Py α) (h : Heap) :
    Heap × Py α :=
  match dcs with
  | none =>
    match rfs with
    | none => leave (body h).2 (restoreVoltages els none none (body h).1)
    | some r =>
      let oldR := some (Iterable.items (getRfs els h) none)
      match setRfs els r h with
      | (h1, some e) => leave (.error e) (restoreVoltages els none oldR h1)
      | (h1, none) => leave (body h1).2 (restoreVoltages els none oldR (body h1).1)
  | some d =>
    let oldD := some (Iterable.items (getDcs els h) none)
    match setDcs els d h with
    | (h1, some e) => leave (.error e) (restoreVoltages els oldD rfs h1)
    | (h1, none) =>
      match rfs with
      | none => leave (body h1).2 (restoreVoltages els oldD none (body h1).1)
      | some r =>
        let oldR := some (Iterable.items (getRfs els h1) none)
        match setRfs els r h1 with
        | (h2, some e) => leave (.error e) (restoreVoltages els oldD oldR h2)
        | (h2, none) => leave (body h2).2 (restoreVoltages els oldD oldR (body h2).1)

/-! ### functions handed to the optimisers -/

/-- system.py:512, 560: Element type of the array made by `np.array(x0)`: an array of integers truncates what is
stored into it. -/
inductive Dtype
  | float | int
  deriving DecidableEq

/-- system.py:515, 563: storing a number into an array -/
noncomputable def Dtype.store : Dtype → ℝ → ℝ
  | .float, v => v
  | .int, v => if 0 ≤ v then (⌊v⌋ : ℝ) else (⌈v⌉ : ℝ)

/-- system.py:515, 533, 563: `x[axis] = xi`, entries in order -/
noncomputable def setAxes (dt : Dtype) (x : Fin 3 → ℝ) (axis : List (Fin 3)) (xi : List ℝ) : Fin 3 → ℝ :=
  (axis.zip xi).foldl (fun x p => Function.update x p.1 (dt.store p.2)) x

/-- system.py:516, 564: `np.dot(coord, x)` as a position -/
def coordPos (coord : Matrix (Fin 3) (Fin 3) ℝ) (x : Fin 3 → ℝ) : V3 :=
  ⟨coord.mulVec x 0, coord.mulVec x 1, coord.mulVec x 2⟩

/-- system.py:514-516, 562-564 `f` of `minimum` and `saddle` -/
noncomputable def optF (s : Sys) (coord : Matrix (Fin 3) (Fin 3) ℝ) (dt : Dtype) (x : Fin 3 → ℝ) (axis : List (Fin 3))
    (xi : List ℝ) : Py ℝ :=
  match s.potential [coordPos coord (setAxes dt x axis xi)] 0 .tot with
  | .error e => .error e
  | .ok rows => .ok ((rows.getD 0 []).getD 0 0)

/-- system.py:519-520, 567-568: `rotate_tensor(self.potential(np.dot(coord, x), d), r)[0]` -/
noncomputable def rotatedPotential (s : Sys) (coord r : Matrix (Fin 3) (Fin 3) ℝ) (d : Nat) (x : Fin 3 → ℝ) : Py (NArr ℝ) :=
  match s.potential [coordPos coord x] d .tot with
  | .error e => .error e
  | .ok rows => .ok (rotateTensor d (toNArr (rows.getD 0 [])) r none)

/-- system.py:517-520 (`r = coord`) and 565-568 (`r = coord.T`): `g` -/
noncomputable def optG (s : Sys) (coord r : Matrix (Fin 3) (Fin 3) ℝ) (dt : Dtype) (x : Fin 3 → ℝ) (axis : List (Fin 3))
    (xi : List ℝ) : Py (List ℝ) :=
  match rotatedPotential s coord r 1 (setAxes dt x axis xi) with
  | .error e => .error e
  | .ok t => .ok (axis.map fun a => t [a])

/-- system.py:521-524: `h` of `minimum` -/
noncomputable def optH (s : Sys) (coord r : Matrix (Fin 3) (Fin 3) ℝ) (dt : Dtype) (x : Fin 3 → ℝ) (axis : List (Fin 3))
    (xi : List ℝ) : Py (List (List ℝ)) :=
  match rotatedPotential s coord r 2 (setAxes dt x axis xi) with
  | .error e => .error e
  | .ok t => .ok (axis.map fun a => axis.map fun b => t [a, b])

/-- system.py:512-534: the functions `minimum` hands to `scipy.optimize.minimize` -/
noncomputable def minimumF := optF
/-- system.py:517-520 -/
noncomputable def minimumG (s : Sys) (coord : Matrix (Fin 3) (Fin 3) ℝ) := optG s coord coord
/-- system.py:521-524 -/
noncomputable def minimumH (s : Sys) (coord : Matrix (Fin 3) (Fin 3) ℝ) := optH s coord coord

/-- system.py:490-534 `minimum`. `scipy.optimize.minimize` is a parameter: it gets the three functions
and the start, and gives success and the position found (or lets an exception of the functions
through). Arrays `xi` of a length other than `len(axis)` do not occur. -/
noncomputable def minimum
    (minimize : (List ℝ → Py ℝ) → (List ℝ → Py (List ℝ)) → (List ℝ → Py (List (List ℝ))) → List ℝ → Py (Bool × List ℝ))
    (s : Sys) (coord : Matrix (Fin 3) (Fin 3) ℝ) (dt : Dtype) (x0 : Fin 3 → ℝ) (axis : List (Fin 3)) : Py (Fin 3 → ℝ) :=
  match minimize (minimumF s coord dt x0 axis) (minimumG s coord dt x0 axis) (minimumH s coord dt x0 axis)
      (axis.map x0) with
  | .error e => .error e
  | .ok (false, _) => .error .valueError
  | .ok (true, r) => .ok (setAxes dt x0 axis r)

/-- system.py:562-564 -/
noncomputable def saddleF := optF
/-- system.py:565-568 -/
noncomputable def saddleG (s : Sys) (coord : Matrix (Fin 3) (Fin 3) ℝ) := optG s coord coord.transpose
/-- system.py:569-570: the starting Hessian of `saddle`, at `x0` -/
noncomputable def saddleH (s : Sys) (coord : Matrix (Fin 3) (Fin 3) ℝ) (x : Fin 3 → ℝ) (axis : List (Fin 3)) :
    Py (List (List ℝ)) :=
  match rotatedPotential s coord coord.transpose 2 x with
  | .error e => .error e
  | .ok t => .ok (axis.map fun a => axis.map fun b => t [a, b])

/-! ### group -/

/-- system.py:850: `np.mean`; `nan` for an empty list in numpy, `0` here -/
noncomputable def mean (l : List ℝ) : ℝ := l.sum / l.length

/-- system.py:835-838: a bin edge of `group`: `none` stands for `-inf` on the left and `inf` on the right -/
def inBin (ta tb : Option ℝ) (v : ℝ) : Prop := (∀ a, ta = some a → a ≤ v) ∧ ∀ b, tb = some b → v < b

/-- system.py:838, 844 `good`, `np.argwhere(good)[:, 0]` -/
noncomputable def binIndices (voltages : List ℝ) (ta tb : Option ℝ) : List Nat :=
  open Classical in
  (List.range voltages.length).filter fun j => inBin ta tb (voltages.getD j 0)

/-- system.py:844-848, one electrode of a group.  `el.paths` raises `AttributeError` for other electrode
classes, `self[j]` raises `IndexError` if there are more voltages than electrodes. -/
def groupMember (s : List Elec) (j : Nat) : Py (List (List V2) × ℝ × ℝ) :=
  match pyGet s j with
  | .error e => .error e
  | .ok el =>
    match el.shape with
    | .polygons paths _ _ => .ok (paths, el.dc, el.rf)
    | _ => .error .attributeError

/-- system.py:838-850, one group.  Cover parameters and name are the defaults of
`PolygonPixelElectrode`.  The mean voltage of an empty group is `nan` in the code, 0 here; it has no boundaries,
so its voltage does not enter any potential. -/
noncomputable def groupBin (s : List Elec) (voltages : List ℝ) (bin : Option ℝ × Option ℝ) : Py Elec :=
  match pySeq ((binIndices voltages bin.1 bin.2).map (groupMember s)) with
  | .error e => .error e
  | .ok l => .ok ⟨"", mean (l.map (·.2.1)), mean (l.map (·.2.2)), .polygons (l.flatMap (·.1)) 50 0⟩

/-- system.py:835-837: the bins between `-inf`, the thresholds and `inf` -/
def groupBins (thresholds : List ℝ) : List (Option ℝ × Option ℝ) :=
  (none :: thresholds.map some).zip (thresholds.map some ++ [none])

/-- system.py:809-851 `group`.  `thresholds=None` ends in `list(None)`, a `TypeError`. -/
noncomputable def group (s : List Elec) (thresholds : Option (List ℝ)) (voltages : Option (List ℝ)) : Py (List Elec) :=
  let voltages := voltages.getD (s.map (·.dc))
  match thresholds with
  | none => .error .typeError
  | some ts => pySeq ((groupBins ts).map (groupBin s voltages))

end Electrode
