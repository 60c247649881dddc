import Verif.Model.System

/-
Model of `System.ions` (electrode/system.py:1058-1127): several ions in the potential of a system.
-/
namespace Electrode
open Real

section Ions
variable {n : Nat}

/-- system.py:1089, 1097, 1109: `numpy.ma` sum along an axis: masked entries (`none`) are left out; masked if all are. -/
noncomputable def maSum (l : List (Option ℝ)) : Option ℝ :=
  if l.all Option.isNone then none else some ((l.map fun e => e.getD 0).sum)

/-- system.py:1087, 1095, 1105: division by a masked array masks the entries with divisor zero -/
noncomputable def maDiv (a b : ℝ) : Option ℝ := if b = 0 then none else some (a / b)

/-- system.py:1084-1085: the positions `x0.reshape(-1, 3)` as argument of `potential` -/
def ionList (x : Fin n → Fin 3 → ℝ) : List V3 := List.ofFn fun i => ⟨x i 0, x i 1, x i 2⟩

/-- system.py:1086 and others: entry `[a][i, j]` of `(x0[None, :] - x0[:, None]).transpose(2, 0, 1)` -/
def ionDiff (x : Fin n → Fin 3 → ℝ) (i j : Fin n) (a : Fin 3) : ℝ := x j a - x i a

/-- system.py:1088, 1096, 1106: `(x**2+y**2+z**2)**(1/2.)`; the powers `3/2.` and `5/2.` are odd powers of it -/
noncomputable def ionDist (x : Fin n → Fin 3 → ℝ) (i j : Fin n) : ℝ :=
  √(ionDiff x i j 0 ^ 2 + ionDiff x i j 1 ^ 2 + ionDiff x i j 2 ^ 2)

/-- system.py:1083-1089 `f`.  `none`: the result is the constant `numpy.ma.masked`. -/
noncomputable def ionsF (s : Sys) (q : Fin n → ℝ) (x : Fin n → Fin 3 → ℝ) : Py (Option ℝ) :=
  match s.potential (ionList x) 0 .tot with
  | .error e => .error e
  | .ok p0 =>
    .ok (maSum (List.ofFn fun i : Fin n =>
      (maSum (List.ofFn fun j : Fin n => maDiv (1 / 2 * (q i * q j)) (ionDist x i j))).map
        fun pi => (p0.getD i []).getD 0 0 + pi))

/-- system.py:1091-1097 `g`, before `ravel`: entry `[i, a]` belongs to place `3*i+a`. -/
noncomputable def ionsG (s : Sys) (q : Fin n → ℝ) (x : Fin n → Fin 3 → ℝ) : Py (Fin n → Fin 3 → Option ℝ) :=
  match s.potential (ionList x) 1 .tot with
  | .error e => .error e
  | .ok p0 =>
    .ok fun i a =>
      (maSum (List.ofFn fun j : Fin n => maDiv (q i * q j * ionDiff x i j a) (ionDist x i j ^ 3))).map
        fun pi => (p0.getD i []).getD a 0 + pi

/-- system.py:1103-1106: the second derivatives of the interaction, entry `[j, i, a, b]` of the expanded
array.  `expand_tensor` copies the data below the mask, which are the numerators. -/
noncomputable def ionsP (q : Fin n → ℝ) (x : Fin n → Fin 3 → ℝ) (j i : Fin n) (a b : Fin 3) : ℝ :=
  let X := ionDiff x i j 0
  let Y := ionDiff x i j 1
  let Z := ionDiff x i j 2
  let c := [2 * X ^ 2 - Y ^ 2 - Z ^ 2, 3 * X * Y, 3 * X * Z, 2 * Y ^ 2 - X ^ 2 - Z ^ 2, 3 * Y * Z].map fun v =>
    (maDiv (-(q i * q j) * v) (ionDist x i j ^ 5)).getD (-(q i * q j) * v)
  (((expandTensor c none).toOption.getD []).getD (3 * a.val + b.val) 0)

/-- system.py:1087, 1095, 1104: shape of the result of an operation on two axes of lengths `a` and `b` -/
def bdim (a b : Nat) : Option Nat := if a = b then some a else if a = 1 then some b else if b = 1 then some a else none

/-- system.py:1087, 1095, 1104: index into an axis of length `n` after broadcasting -/
def bix (n i : Nat) : Nat := if n = 1 then 0 else i

/-- system.py:1107-1110: entry of an array with an `n` by `n` pair of axes, read with natural numbers -/
noncomputable def atFin (n : Nat) (f : Fin n → Fin n → ℝ) (i j : Nat) : ℝ :=
  if h : i < n ∧ j < n then f ⟨i, h.1⟩ ⟨j, h.2⟩ else 0

/-- system.py:1107 `p.transpose(2, 0, 3, 1)`, of shape `(3, n, 3, n)` -/
noncomputable def ionsT (q : Fin n → ℝ) (x : Fin n → Fin 3 → ℝ) (a j b i : Nat) : ℝ :=
  if h : a < 3 ∧ b < 3 then atFin n (fun j i => ionsP q x j i ⟨a, h.1⟩ ⟨b, h.2⟩) j i else 0

/-- system.py:1108-1110, one pass of the loop: `p[i, :, i, :] += p0i-pii`, where `p[i, :, i, :]` has shape `(n, n)`,
`p0i` has shape `(3, 3)` and `pii` has shape `(n, n)`. -/
def ionsStep (n : Nat) (p0 pii : Nat → Nat → Nat → ℝ) (p : Nat → Nat → Nat → Nat → ℝ) (i : Nat) :
    Py (Nat → Nat → Nat → Nat → ℝ) :=
  match bdim 3 n with
  | none => .error .valueError
  | some k =>
    if bdim n k = some n then
      .ok fun a j b l => if a = i ∧ b = i then p a j b l + (p0 i (bix 3 j) (bix 3 l) - pii i (bix n j) (bix n l)) else p a j b l
    else .error .valueError

/-- system.py:1099-1111 `h`, before the last `reshape`: entry `[a, j, b, l]` is in row `a*n+j` and column `b*n+l`
of the matrix.  `zip` stops after `min(n, 3)` passes. -/
noncomputable def ionsH (s : Sys) (q : Fin n → ℝ) (x : Fin n → Fin 3 → ℝ) : Py (Nat → Nat → Nat → Nat → ℝ) :=
  match s.potential (ionList x) 2 .tot with
  | .error e => .error e
  | .ok p0 =>
    (List.range (min n 3)).foldlM
      (ionsStep n (fun i a b => (p0.getD i []).getD (3 * b + a) 0)
        (fun a j l => ∑ b ∈ Finset.range 3, ionsT q x a j b l))
      (ionsT q x)

/-- system.py:1127: What `ions` returns: positions, eigenvalues and eigenvectors. -/
structure IonModes (n : Nat) where
  x : Fin n → Fin 3 → ℝ
  ew : List ℝ
  ev : List (List ℝ)

/-- system.py:1058-1127 `ions`.  `scipy.optimize.fmin_ncg` (with the functions, gradient and Hessian), `eigh` with
the following `argsort` and `reshape` are parameters. -/
noncomputable def ions
    (fminNcg : ((Fin n → Fin 3 → ℝ) → Py (Option ℝ)) → ((Fin n → Fin 3 → ℝ) → Py (Fin n → Fin 3 → Option ℝ)) →
      ((Fin n → Fin 3 → ℝ) → Py (Nat → Nat → Nat → Nat → ℝ)) → (Fin n → Fin 3 → ℝ) → Py (Fin n → Fin 3 → ℝ))
    (eigh : (Nat → Nat → Nat → Nat → ℝ) → Py (List ℝ × List (List ℝ)))
    (s : Sys) (x0 : Fin n → Fin 3 → ℝ) (q : Fin n → ℝ) : Py (IonModes n) :=
  match fminNcg (ionsF s q) (ionsG s q) (ionsH s q) x0 with
  | .error e => .error e
  | .ok x =>
    match ionsH s q x with
    | .error e => .error e
    | .ok c =>
      match eigh c with
      | .error e => .error e
      | .ok (ew, ev) => .ok ⟨x, ew, ev⟩

end Ions

end Electrode
