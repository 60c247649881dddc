import Verif.Model.System

/-
Model of `electrode/adjust.py`.
-/
namespace Electrode

/-- adjust.py:24-55: the attributes of an `Adjust` object after `set_move_init` -/
structure Adj where
  /-- `self.system` -/
  sys : Sys
  /-- `self.volts`: a dictionary, electrode name to list of voltages -/
  volts : List (String × List ℝ)
  /-- `self.E_config` -/
  config : List (List String)
  /-- `self.xms` -/
  xms : List V3
  /-- `self.curves` -/
  curves : List (List ℝ)
  /-- `self.basis`, row by row -/
  basis : List (List ℝ)
  /-- `self._propose`; `none` if there is no such attribute -/
  propose : Option (List ℝ × V3 × List ℝ)

/-- adjust.py:24-29 `__init__`: `volts[ele.name] = []` for every electrode; a second electrode of the same name changes
nothing.  The other attributes are set by `set_move_init`. -/
def initVolts (els : List Elec) : List (String × List ℝ) :=
  els.foldl (fun d e => if e.name ∈ d.map Prod.fst then d else d ++ [(e.name, [])]) []

/-- adjust.py:70-80: a sequence of steps on the object; the first exception ends it, and the changes made so far stay -/
def steps {β : Type*} (f : β → Adj → Option PyErr × Adj) : List β → Adj → Option PyErr × Adj
  | [], a => (none, a)
  | b :: l, a =>
    match f b a with
    | (some e, a') => (some e, a')
    | (none, a') => steps f l a'

/-- adjust.py:71: `self.system[name].dc = v`; a name that is not found gives `None`, which has no settable attribute -/
def setDcByName (name : String) (v : ℝ) : List Elec → Option (List Elec)
  | [] => none
  | e :: t => if e.name = name then some ({ e with dc := v } :: t) else (setDcByName name v t).map (e :: ·)

/-- adjust.py:70-71, body of the loop -/
def setOne (p : String × ℝ) (a : Adj) : Option PyErr × Adj :=
  match setDcByName p.1 p.2 a.sys.els with
  | none => (some .attributeError, a)
  | some els => (none, { a with sys := { a.sys with els := els } })

/-- adjust.py:77, 80: `self.volts[name].append(v)` where `v` is computed from the old list; `none` if there is no such key -/
def appendHist (name : String) (f : List ℝ → Py (List ℝ)) : List (String × List ℝ) → Py (List (String × List ℝ))
  | [] => .error .keyError
  | (n, h) :: t =>
    if n = name then
      match f h with
      | .error e => .error e
      | .ok h' => .ok ((n, h') :: t)
    else
      match appendHist name f t with
      | .error e => .error e
      | .ok t' => .ok ((n, h) :: t')

/-- adjust.py:76-80: a step that changes the histories -/
def histStep (name : String) (f : List ℝ → Py (List ℝ)) (a : Adj) : Option PyErr × Adj :=
  match appendHist name f a.volts with
  | .error e => (some e, a)
  | .ok v => (none, { a with volts := v })

/-- adjust.py:76-77, body of the loop -/
def saveOne (p : String × ℝ) (a : Adj) : Option PyErr × Adj := histStep p.1 (fun h => .ok (h ++ [p.2])) a

/-- adjust.py:79-80: `self.volts[ele].append(self.volts[ele][-1])` -/
def keepOne (name : String) (a : Adj) : Option PyErr × Adj :=
  histStep name (fun h => match h.getLast? with
    | none => .error .indexError
    | some v => .ok (h ++ [v])) a

/-- adjust.py:66-81 `set_volts`; the dictionary `config` as the list of its items.  The rf arguments are not used by the code. -/
def setVolts (config : List (String × ℝ)) (save : Bool) (a : Adj) : Option PyErr × Adj :=
  match steps setOne config a with
  | (some e, a) => (some e, a)
  | (none, a) =>
    if save then
      match steps saveOne config a with
      | (some e, a) => (some e, a)
      | (none, a) => steps keepOne ((a.volts.map Prod.fst).filter fun n => !decide (n ∈ config.map Prod.fst)) a
    else (none, a)

/-- adjust.py:63: `config[ele] = v` -/
def dictSet (d : List (String × ℝ)) (k : String) (v : ℝ) : List (String × ℝ) :=
  match d with
  | [] => [(k, v)]
  | (k', v') :: t => if k' = k then (k, v) :: t else (k', v') :: dictSet t k v

/-- adjust.py:62-63: `config[ele] = self.volts[ele][-1]+dV` -/
def configOne (volts : List (String × List ℝ)) (dV : ℝ) (c : Py (List (String × ℝ))) (ele : String) :
    Py (List (String × ℝ)) :=
  match c with
  | .error e => .error e
  | .ok c =>
    match volts.lookup ele with
    | none => .error .keyError
    | some h =>
      match h.getLast? with
      | none => .error .indexError
      | some v => .ok (dictSet c ele (v + dV))

/-- adjust.py:57-64 `construct_config` -/
def constructConfig (a : Adj) (deltaV : List ℝ) : Py (List (String × ℝ)) :=
  (a.config.zip deltaV).foldl (fun c p => p.1.foldl (configOne a.volts p.2) c) (.ok [])

/-- adjust.py:140-167 `next_step`.  `deltaV` is `None` or a list; for an array of more than one entry the test `deltaV == None`
raises `ValueError`, which is not modelled.  With a list of the user the local variable `userown` is never assigned; the
attribute `Volts` does not exist. -/
def nextStep (deltaV : Option (List ℝ)) (accept : Bool) (a : Adj) : Option PyErr × Adj :=
  if accept then
    match deltaV with
    | some dV =>
      match constructConfig a dV with
      | .error e => (some e, a)
      | .ok c =>
        match setVolts c true a with
        | (some e, a) => (some e, a)
        | (none, a) => (some .unboundLocalError, a)
    | none =>
      match a.propose with
      | none => (some .typeError, a)
      | some (dV, xm, ev) =>
        match constructConfig a dV with
        | .error e => (some e, a)
        | .ok c =>
          match setVolts c true a with
          | (some e, a) => (some e, a)
          | (none, a) => (none, { a with xms := a.xms ++ [xm], curves := a.curves ++ [ev], propose := none })
  else (some .attributeError, a)

/-- adjust.py:83, 90, 101, 104: the method of `volt_change` -/
inductive MoveMethod
  | force | position

/-- adjust.py:106, 109: the first row of a potential array -/
def firstRow (r : Py (List (List ℝ))) : Py (List ℝ) :=
  match r with
  | .error e => .error e
  | .ok rows => pyGet rows 0

/-- adjust.py:109-110: one column of `coef`, the sum over the electrodes of a group -/
noncomputable def coefColumn (els : List Elec) (x : V3) : List String → Py (List ℝ)
  | [] => .ok [0, 0, 0]
  | name :: t =>
    match els.find? fun e => e.name = name with
    | none => .error .attributeError
    | some e =>
      match firstRow (e.potential [x] 1 1 none) with
      | .error err => .error err
      | .ok g =>
        match coefColumn els x t with
        | .error err => .error err
        | .ok c => .ok (List.zipWith (· + ·) g c)

/-- adjust.py:83-113 `volt_change`: the columns of the matrix and the right hand side handed to `scipy.linalg.solve`.
The rows `self.curves[-1]` (or `[0]` with `same_scale`) and `self.basis` have an entry number `axis`. -/
noncomputable def voltChange (solve : List (List ℝ) → List ℝ → Py (List ℝ)) (a : Adj) (axis : Nat) (l dis : ℝ)
    (sameScale : Bool) (method : MoveMethod) : Py (List ℝ) :=
  match a.xms.getLast? with
  | none => .error .indexError
  | some xm =>
    match pyGet a.basis axis with
    | .error e => .error e
    | .ok b =>
      let rhs : Py (V3 × List ℝ) := match method with
        | .force =>
          match if sameScale then a.curves.head? else a.curves.getLast? with
          | none => .error .indexError
          | some c =>
            match pyGet c axis with
            | .error e => .error e
            | .ok k => .ok (xm, b.map fun y => k * dis / l * y)
        | .position =>
          let x : V3 := ⟨xm.x + dis / l * b.getD 0 0, xm.y + dis / l * b.getD 1 0, xm.z + dis / l * b.getD 2 0⟩
          match firstRow (a.sys.potential [x] 1 .tot) with
          | .error e => .error e
          | .ok g => .ok (x, g.map fun y => -y)
      match rhs with
      | .error e => .error e
      | .ok (x, nonhomo) =>
        match pySeq (a.config.map (coefColumn a.sys.els x)) with
        | .error e => .error e
        | .ok coef => solve coef nonhomo

end Electrode
