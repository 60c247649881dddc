import Mathlib.Analysis.Real.Sqrt
import Verif.Model.Py

/-
Model of `electrode/xic.py`.  A text is a list of lines, a line a list of characters.
-/
namespace Electrode

/-- xic.py:32, 34: `c.isspace()` for the characters of ASCII -/
def isWs (c : Char) : Bool :=
  c = ' ' || c = '\t' || c = '\n' || c = '\r' || c = '\x0b' || c = '\x0c' || c = '\x1c' || c = '\x1d' || c = '\x1e' || c = '\x1f'

/-- xic.py:32: `line.rstrip()` -/
def rstrip (l : List Char) : List Char := (l.reverse.dropWhile isWs).reverse

/-- xic.py:34, 37, 39: `line.split()`; `cur` holds the word under construction, reversed -/
def splitWsAux : List Char → List Char → List (List Char)
  | [], cur => if cur = [] then [] else [cur.reverse]
  | c :: t, cur =>
    if isWs c then (if cur = [] then splitWsAux t [] else cur.reverse :: splitWsAux t [])
    else splitWsAux t (c :: cur)

/-- xic.py:34, 37, 39: `line.split()`: the words between white space -/
def splitWs (l : List Char) : List (List Char) := splitWsAux l []

/-- xic.py:40: `float(w)`: `none` stands for `ValueError` -/
abbrev ToFloat := List Char → Option ℝ

/-- xic.py:40: `map(float, i)` for one row of words, evaluated -/
def floatRow (toFloat : ToFloat) (ws : List (List Char)) : Py (List ℝ) :=
  pySeq (ws.map fun w => match toFloat w with
    | some x => .ok x
    | none => .error .valueError)

/-- xic.py:40 `np.array([map(float, i) for i in p])*1e-8`.  With Python 3 (`py3`) `map` makes iterators, the array holds objects and
the product raises.  With Python 2 `map` makes lists; rows of different lengths give an array of lists, whose product raises too. -/
noncomputable def recordArray (py3 : Bool) (toFloat : ToFloat) (p : List (List (List Char))) : Py (List (List ℝ)) :=
  if py3 then .error .typeError
  else
    match pySeq (p.map (floatRow toFloat)) with
    | .error e => .error e
    | .ok rows =>
      if rows.all (fun r => r.length == (rows.headD []).length) then .ok (rows.map fun r => r.map (· * 1e-8)) else .error .typeError

/-- xic.py:31-44, body of the loop; the state is `p` (`none` while it is not bound) and `es`. -/
noncomputable def xicLine (py3 : Bool) (toFloat : ToFloat) (st : Option (List (List (List Char))) × List (List (List ℝ))) (line : List Char) :
    Py (Option (List (List (List Char))) × List (List (List ℝ))) :=
  match rstrip line with
  | [] => .error .indexError
  | c :: t =>
    if c = 'P' then .ok (some [(splitWs (c :: t)).drop 1], st.2)
    else if c = ' ' then
      match st.1 with
      | none => .error .unboundLocalError
      | some p =>
        if (c :: t).getLast? = some ';' then
          let p := p ++ [splitWs (c :: t).dropLast]
          match recordArray py3 toFloat p with
          | .error e => .error e
          | .ok a => .ok (some p, st.2 ++ [a])
        else .ok (some (p ++ [splitWs (c :: t)]), st.2)
    else .ok st

/-- xic.py:31-44, the loop -/
noncomputable def xicLoop (py3 : Bool) (toFloat : ToFloat) :
    List (List Char) → Option (List (List (List Char))) × List (List (List ℝ)) → Py (Option (List (List (List Char))) × List (List (List ℝ)))
  | [], st => .ok st
  | l :: t, st =>
    match xicLine py3 toFloat st l with
    | .error e => .error e
    | .ok st' => xicLoop py3 toFloat t st'

/-- xic.py:29-45 `xic_to_list` -/
noncomputable def xicToList (py3 : Bool) (toFloat : ToFloat) (xic : List (List Char)) : Py (List (List (List ℝ))) :=
  match xicLoop py3 toFloat xic (none, []) with
  | .error e => .error e
  | .ok st => .ok st.2

end Electrode
