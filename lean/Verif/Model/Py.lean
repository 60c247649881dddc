/-
Shared vocabulary for the model: Python exception classes as values and the few
list primitives whose Python behaviour (negative indexes, first match, `zip`
truncation) matters.
-/
namespace Electrode

/-- system.py:298, 326, 531: Exception classes that the modelled code can raise.  Messages are dropped. -/
inductive PyErr
  | indexError | keyError | valueError | typeError | attributeError
  | assertionError | notImplementedError | unboundLocalError | zeroDivisionError
  | nameError | osError
  | user (n : Nat)  -- any exception raised by caller-supplied code
  deriving DecidableEq, Repr

/-- system.py:120-139: Result of a Python call that may raise. -/
abbrev Py (α : Type _) := Except PyErr α

/-- Results can be compared if the values can: for theorems about calls like system.py:120-139. -/
instance {α : Type _} [DecidableEq α] : DecidableEq (Py α) := fun a b =>
  match a, b with
  | .ok x, .ok y => if h : x = y then isTrue (by rw [h]) else isFalse (by intro e; cases e; exact h rfl)
  | .error x, .error y => if h : x = y then isTrue (by rw [h]) else isFalse (by intro e; cases e; exact h rfl)
  | .ok _, .error _ => isFalse (by intro e; cases e)
  | .error _, .ok _ => isFalse (by intro e; cases e)

/-- system.py:120-139: `l[i]` for a non-negative Python index `i`. -/
def pyGet {α : Type _} (l : List α) (i : Nat) : Py α :=
  match l[i]? with
  | some a => .ok a
  | none => .error .indexError

/-- system.py:120-139: `l[i]` for a Python integer index: negative indexes count from the end. -/
def pyGetInt {α : Type _} (l : List α) (i : Int) : Py α :=
  if 0 ≤ i then pyGet l i.toNat
  else if 0 ≤ i + l.length then pyGet l (i + l.length).toNat
  else .error .indexError

/-- utils.py:149: `l.index(a)`: position of the first occurrence, `ValueError` if absent. -/
def pyIndex {α : Type _} [DecidableEq α] (l : List α) (a : α) : Py Nat :=
  if a ∈ l then .ok (l.idxOf a) else .error .valueError

/-- utils.py:149, 168: Left-to-right evaluation of a list of fallible computations
(a Python comprehension: the first exception wins). -/
def pySeq {α : Type _} : List (Py α) → Py (List α)
  | [] => .ok []
  | a :: l =>
    match a with
    | .error e => .error e
    | .ok x =>
      match pySeq l with
      | .error e => .error e
      | .ok xs => .ok (x :: xs)

end Electrode
