import Verif.Model.System
import Mathlib.Data.Complex.Basic
import Mathlib.Logic.Equiv.Fin.Basic
import Mathlib.Data.Matrix.Mul

/-
Model of the parts of `electrode/system.py` and `electrode/utils.py` about motion: `mathieu`, `modes`,
`trajectory` and of the search in `electrode/saddle.py`.
-/
namespace Electrode
open Complex (I)

/-! ### the Floquet matrix -/

section Floquet
variable {n : Nat}

/-- utils.py:571: index of a block of the array `m` of shape `(2*r+1, 2*r+1, 2, 2, n, n)`: two frequency components, two derivative
indexes -/
abbrev Blk := Nat × Nat × Fin 2 × Fin 2

/-- utils.py:573-583: assignments to blocks, in order -/
def applyWrites {K V : Type*} [DecidableEq K] (m : K → V) (ws : List (K × V)) : K → V :=
  ws.foldl (fun m w => Function.update m w.1 w.2) m

/-- utils.py:573-583: the assignments of the two loops, in order -/
noncomputable def floquetWrites (r : Nat) (a : List (Matrix (Fin n) (Fin n) ℂ)) : List (Blk × Matrix (Fin n) (Fin n) ℂ) :=
  (List.range (2 * r + 1)).flatMap fun (l : Nat) =>
    [(((l, l, 0, 0) : Blk), (2 * I * ((l : ℂ) - (r : ℂ))) • (1 : Matrix (Fin n) (Fin n) ℂ)),
      ((l, l, 1, 1), (2 * I * ((l : ℂ) - (r : ℂ))) • (1 : Matrix (Fin n) (Fin n) ℂ)), ((l, l, 0, 1), 1)] ++
    a.zipIdx.flatMap fun q =>
      if l + q.2 < 2 * r + 1 then [(((l, l + q.2, 1, 0) : Blk), -q.1), ((l + q.2, l, 1, 0), -q.1)] else []

/-- utils.py:572-583: the array `m` before folding -/
noncomputable def floquetBlocks (r : Nat) (a : List (Matrix (Fin n) (Fin n) ℂ)) : Blk → Matrix (Fin n) (Fin n) ℂ :=
  applyWrites (fun _ => 0) (floquetWrites r a)

/-- utils.py:586: position of (frequency component, derivative index, dimension) in the folded axis, row-major -/
def flatEquiv (r n : Nat) : Fin (2 * r + 1) × Fin 2 × Fin n ≃ Fin ((2 * r + 1) * 2 * n) :=
  ((Equiv.prodAssoc _ _ _).symm.trans (finProdFinEquiv.prodCongr (Equiv.refl _))).trans finProdFinEquiv

/-- utils.py:586: the folded matrix -/
noncomputable def floquetMatrix (r : Nat) (a : List (Matrix (Fin n) (Fin n) ℂ)) :
    Matrix (Fin ((2 * r + 1) * 2 * n)) (Fin ((2 * r + 1) * 2 * n)) ℂ :=
  fun i j =>
    let p := (flatEquiv r n).symm i
    let q := (flatEquiv r n).symm j
    floquetBlocks r a (p.1, q.1, p.2.1, q.2.1) p.2.2 q.2.2

/-- utils.py:587: `numpy.linalg.eig`: eigenvalues, and a matrix whose columns are the eigenvectors -/
abbrev Eig := (N : Nat) → Matrix (Fin N) (Fin N) ℂ → (Fin N → ℂ) × Matrix (Fin N) (Fin N) ℂ

/-- utils.py:535-589 `mathieu(r, *a)`.  `a[0]` of no arguments is an `IndexError`.  The line as written uses
`np.complex`, which numpy >= 1.24 no longer has; an older numpy is assumed. -/
noncomputable def mathieu (eig : Eig) (r : Nat) (a : List (Matrix (Fin n) (Fin n) ℂ)) :
    Py ((Fin ((2 * r + 1) * 2 * n) → ℂ) × Matrix (Fin ((2 * r + 1) * 2 * n)) (Fin ((2 * r + 1) * 2 * n)) ℂ) :=
  match a with
  | [] => .error .indexError
  | _ :: _ => .ok (eig _ (floquetMatrix r a))

end Floquet

/-- system.py:602, 884: `numpy.argsort` -/
abbrev Argsort := List ℝ → List Nat

/-- system.py:603, 885: `a[i]` for a list of indexes `i` -/
def takeIdx {α : Type} (l : List α) (i : List Nat) : List α := i.filterMap fun k => l[k]?

/-- system.py:600: the 3 by 3 matrix in the first row of an expanded array -/
def row0Matrix (rows : List (List ℝ)) : Matrix (Fin 3) (Fin 3) ℝ :=
  fun i j => toNArr (rows.getD 0 []) [i, j]

/-- system.py:881-885: selection and sorting of the eigenvalues with their columns -/
noncomputable def sortModes {V : Type} (argsort : Argsort) (sorted : Bool) (b : List (ℂ × V)) : List (ℂ × V) :=
  open Classical in
  if sorted then
    let b := b.filter fun q => 0 ≤ q.1.im
    takeIdx b (argsort (b.map fun q => q.1.im))
  else b

/-- system.py:853-886 `mathieu`: the returned exponents, each with its column of `b` -/
noncomputable def sysMathieu (eig : Eig) (argsort : Argsort) (s : List Elec) (x : V3) (scale : ℝ) (r : Nat) (sorted : Bool) :
    Py (List (ℂ × (Fin ((2 * r + 1) * 2 * 3) → ℂ))) :=
  match electricalPotential s [x] 2 .dc true with
  | .error e => .error e
  | .ok dc =>
    match electricalPotential s [x] 2 .rf true with
    | .error e => .error e
    | .ok rf =>
      let a : Matrix (Fin 3) (Fin 3) ℂ := fun i j => ((16 * scale ^ 2 * row0Matrix dc i j : ℝ) : ℂ)
      let q : Matrix (Fin 3) (Fin 3) ℂ := fun i j => ((8 * scale ^ 2 * row0Matrix rf i j : ℝ) : ℂ)
      match mathieu eig r [a, q] with
      | .error e => .error e
      | .ok (mu, b) =>
        .ok ((sortModes argsort sorted ((List.finRange _).map fun j => (mu j, fun i => b i j))).map fun q => (q.1 / 2, q.2))

/-- system.py:1023: `b[len(b)//2 - 3:len(b)//2, :3].real`, one column: three entries in the middle -/
def modeSlice {N : Nat} (col : Fin N → ℂ) : List ℝ :=
  (((List.ofFn col).drop (N / 2 - 3)).take (N / 2 - (N / 2 - 3))).map Complex.re

/-! ### modes -/

/-- system.py:600: `numpy.linalg.eigh`: eigenvalues, and a matrix whose columns are the eigenvectors -/
abbrev Eigh := (N : Nat) → Matrix (Fin N) (Fin N) ℝ → List ℝ × Matrix (Fin N) (Fin N) ℝ

/-- system.py:578-604 `modes`: the curvatures and the columns of `ev` -/
noncomputable def modes (eigh : Eigh) (argsort : Argsort) (s : Sys) (x : V3) (sorted : Bool) :
    Py (List ℝ × List (Fin 3 → ℝ)) :=
  match s.potential [x] 2 .tot with
  | .error e => .error e
  | .ok p =>
    let w := eigh 3 (row0Matrix p)
    let cols := (List.finRange 3).map fun j i => w.2 i j
    if sorted then
      let i := argsort w.1
      .ok (takeIdx w.1 i, takeIdx cols i)
    else .ok (w.1, cols)

/-! ### trajectory -/

/-- system.py:645-654: the arrays that exist; an array is known by its position in the list -/
abbrev Arrays := List (List ℝ)

/-- system.py:646-654: contents of an array -/
def Arrays.read (h : Arrays) (r : Nat) : List ℝ := h.getD r []

/-- system.py:646-647: a new array: the arrays, its position -/
def Arrays.new (h : Arrays) (v : List ℝ) : Arrays × Nat := (h ++ [v], h.length)

/-- system.py:646: `a[axis]`: a new array with the entries on the axes -/
def pickAxes (a : List ℝ) (axis : List (Fin 3)) : List ℝ := axis.map fun i => a.getD i 0

/-- system.py:649: `a[axis] = q` -/
def putAxes (a : List ℝ) (axis : List (Fin 3)) (q : List ℝ) : List ℝ := (axis.zip q).foldl (fun a p => a.set p.1 p.2) a

/-- system.py:648-650: `ddx`, what the integrator is given for the second derivative at time `t` and coordinates `q` on
the chosen axes; `x0` are the contents of the array it works on.  A `q` of another length does not fit (numpy would also
accept length 1). -/
noncomputable def trajectoryDdx (s : List Elec) (x0 : List ℝ) (axis : List (Fin 3)) (t : ℝ) (q : List ℝ) : Py (List ℝ) :=
  if q.length = axis.length then
    let x := putAxes x0 axis q
    match timePotential s [⟨x.getD 0 0, x.getD 1 0, x.getD 2 0⟩] 1 t true with
    | .error e => .error e
    | .ok f => .ok (axis.map fun a => toNArr (f.getD 0 []) [a])
  else .error .valueError

/-- system.py:652: What an integrator does, given the function for the second derivative, the number of steps, start time, `p`, `q` and
end time: the new contents of `p` and `q`, and the coordinates for which it called the function last, if it did. -/
abbrev Integ := (ℝ → List ℝ → Py (List ℝ)) → Nat → ℝ → List ℝ → List ℝ → ℝ → Py (List ℝ × List ℝ × Option (List ℝ))

/-- system.py:646-653: the variables of the generator: `t`, the arrays `p`, `q` and `x0` -/
structure TState where
  t : ℝ
  p : Nat
  q : Nat
  x0 : Nat

/-- system.py:648-652: what an integrator leaves: it writes into `p` and `q`, and `ddx` writes into `x0` -/
def integWrites (axis : List (Fin 3)) (h : Arrays) (st : TState) (p q : List ℝ) (last : Option (List ℝ)) : Arrays :=
  let h1 : Arrays := (h.set st.p p).set st.q q
  match last with
  | none => h1
  | some ql => h1.set st.x0 (putAxes (h1.read st.x0) axis ql)

/-- system.py:654: `q.copy()` and `p.copy()`: the arrays, the positions of the two copies -/
def yieldCopies (h : Arrays) (st : TState) : Arrays × Nat × Nat :=
  let c1 := h.new (h.read st.q)
  let c2 := c1.1.new (c1.1.read st.p)
  (c2.1, c1.2, c2.2)

/-- system.py:651-654: one pass of the loop, up to the `yield`: `none` when the generator is exhausted -/
noncomputable def trajectoryNext (integ : Integ) (s : List Elec) (axis : List (Fin 3)) (dt t1 : ℝ) (nsteps : Nat)
    (h : Arrays) (st : TState) : Option (Py (Arrays × TState × (ℝ × Nat × Nat))) :=
  open Classical in
  if st.t < t1 then
    some (match integ (trajectoryDdx s (h.read st.x0) axis) nsteps st.t (h.read st.p) (h.read st.q) (st.t + dt) with
      | .error e => .error e
      | .ok (p, q, last) =>
        let c := yieldCopies (integWrites axis h st p q last) st
        .ok (c.1, { st with t := st.t + dt }, (st.t + dt, c.2)))
  else none

/-- system.py:651-654: how a generator asked for some number of values ended: it can still be asked for more, it is exhausted, it raised -/
inductive GenEnd
  | more
  | exhausted
  | raised (e : PyErr)

/-- system.py:651-654: the first `k` values taken from the generator, the arrays afterwards, and how it ended -/
noncomputable def trajectoryTake (integ : Integ) (s : List Elec) (axis : List (Fin 3)) (dt t1 : ℝ) (nsteps : Nat) :
    Nat → Arrays → TState → List (ℝ × Nat × Nat) × Arrays × GenEnd
  | 0, h, _ => ([], h, .more)
  | k + 1, h, st =>
    match trajectoryNext integ s axis dt t1 nsteps h st with
    | none => ([], h, .exhausted)
    | some (.error e) => ([], h, .raised e)
    | some (.ok (h', st', y)) =>
      let r := trajectoryTake integ s axis dt t1 nsteps k h' st'
      (y :: r.1, r.2)

/-- system.py:606-654 `trajectory(x0, v0, axis, t0, dt, t1, nsteps, integ)`, asked for `k` values.  `x0` and `v0` are arrays of
three floats.  The integrator is any callable; an integrator that raises leaves what it wrote before: here it writes
nothing. -/
noncomputable def trajectory (integ : Integ) (s : List Elec) (h : Arrays) (x0 v0 : Nat) (axis : List (Fin 3)) (t0 dt t1 : ℝ)
    (nsteps : Nat) (k : Nat) : List (ℝ × Nat × Nat) × Arrays × GenEnd :=
  let p := h.new (pickAxes (h.read v0) axis)
  let q := p.1.new (pickAxes (p.1.read x0) axis)
  let x := q.1.new (q.1.read x0)
  trajectoryTake integ s axis dt t1 nsteps k x.1 ⟨t0, p.2, q.2, x.2⟩

/-! ### rfo -/

section Rfo
variable {n : Nat}

/-- saddle.py:39-102: the variables of `rfo` at the head of the loop.  `h = none`: some entry is `nan` or infinite. -/
structure RState (n : Nat) where
  it : Nat
  x : Fin n → ℝ
  f : ℝ
  g : Fin n → ℝ
  h : Option (Matrix (Fin n) (Fin n) ℝ)
  ret : Option String

/-- saddle.py:27-28: the arguments of `rfo` -/
structure RArgs (n : Nat) where
  fun' : (Fin n → ℝ) → ℝ
  grad : (Fin n → ℝ) → Fin n → ℝ
  xtol : ℝ
  ftol : ℝ
  maxiter : Int
  dxMax : ℝ

/-- saddle.py:78, 89-90: euclidean norm -/
noncomputable def norm2 (v : Fin n → ℝ) : ℝ := √(∑ i, v i ^ 2)

/-- saddle.py:71: `v[i]`: rows of a matrix taken at a list of indexes -/
def takeRows (v : Matrix (Fin n) (Fin n) ℝ) (i : List Nat) : Matrix (Fin n) (Fin n) ℝ :=
  fun k j => if h : i.getD k 0 < n then v ⟨i.getD k 0, h⟩ j else 0

/-- saddle.py:69-77: the modes of the approximate hessian, the mode coordinates of the gradient, the shifts and the
unscaled step.  `d` is -1 for the first mode and 1 otherwise; `0/0` is `nan` in numpy: `none`.  The sorting takes rows
of `v` along with the eigenvalues, although the eigenvectors are its columns. -/
noncomputable def rfoRaw (eigh : Eigh) (argsort : Argsort) (h : Matrix (Fin n) (Fin n) ℝ) (g : Fin n → ℝ) : Option (Fin n → ℝ) :=
  open Classical in
  let w := eigh n h
  let i := argsort w.1
  let l : Fin n → ℝ := fun j => (takeIdx w.1 i).getD j 0
  let v := takeRows w.2 i
  let gl : Fin n → ℝ := fun j => ∑ i, v i j * g i
  let lmg : Fin n → ℝ := fun j => (1 / 2) * (if j.val = 0 then -1 else 1) * (|l j| + √(l j ^ 2 + 4 * gl j ^ 2))
  if ∃ j, lmg j = 0 then none
  else some fun i => -∑ j, v i j * (gl j / lmg j)

/-- saddle.py:78: `dx /= max(1., norm(dx)/dx_max)` -/
noncomputable def rfoClip (dxMax : ℝ) (dx : Fin n → ℝ) : Fin n → ℝ := fun i => dx i / max 1 (norm2 dx / dxMax)

/-- saddle.py:82-85: inner product -/
def inner' (a b : Fin n → ℝ) : ℝ := ∑ i, a i * b i

/-- saddle.py:81-87: the Bofill update; a zero denominator gives `nan` in numpy: `none` -/
noncomputable def rfoUpdate (h : Matrix (Fin n) (Fin n) ℝ) (dx dg : Fin n → ℝ) : Option (Matrix (Fin n) (Fin n) ℝ) :=
  open Classical in
  let dp : Fin n → ℝ := fun i => dg i - ∑ j, h i j * dx j
  let xx := inner' dx dx
  let px := inner' dp dx
  let pp := inner' dp dp
  let powell : Matrix (Fin n) (Fin n) ℝ := fun i j =>
    (dp i * dx j + dx i * dp j) / xx - px * (dx i * dx j) / xx ^ 2
  let sr1 : Matrix (Fin n) (Fin n) ℝ := fun i j => dp i * dp j / px
  let phi := px ^ 2 / (pp * xx)
  if xx = 0 ∨ px = 0 ∨ pp = 0 then none
  else some fun i j => phi * sr1 i j + (1 - phi) * powell i j

/-- saddle.py:89-97: the reasons to stop, the last one that applies -/
noncomputable def rfoRet (A : RArgs n) (it : Nat) (ret : Option String) (x dx : Fin n → ℝ) (f df : ℝ) : Option String :=
  open Classical in
  let r1 := if 2 * norm2 dx ≤ A.xtol * (norm2 (fun i => x i + dx i) + norm2 x + 1e-20) then some "xtol" else ret
  let r2 := if 2 * |df| ≤ A.ftol * (|f + df| + |f| + 1e-20) then some "ftol" else r1
  if 0 < A.maxiter ∧ A.maxiter < it then some "iter" else r2

/-- saddle.py:66-67, 104: how a pass of the loop ends -/
inductive RNext (n : Nat)
  | stop (x : Fin n → ℝ) (f : ℝ) (ret : String)
  | nan
  | go (st : RState n)

/-- saddle.py:54-102: one pass of the loop.  `nan`: `eigh` gets, or the step has, an undefined entry; what follows then is
not modelled.  The callback `cb` only observes. -/
noncomputable def rfoStep (eigh : Eigh) (argsort : Argsort) (A : RArgs n) (st : RState n) : RNext n :=
  let it := st.it + 1
  match st.ret with
  | some r => .stop st.x st.f r
  | none =>
    match st.h with
    | none => .nan
    | some h =>
      match rfoRaw eigh argsort h st.g with
      | none => .nan
      | some dx0 =>
        let dx := rfoClip A.dxMax dx0
        let x' : Fin n → ℝ := fun i => st.x i + dx i
        let df := A.fun' x' - st.f
        let dg : Fin n → ℝ := fun i => A.grad x' i - st.g i
        let dh := rfoUpdate h dx dg
        .go ⟨it, x', st.f + df, fun i => st.g i + dg i, dh.map fun d i j => h i j + d i j,
          rfoRet A it st.ret st.x dx st.f df⟩

/-- saddle.py:39-52: the state before the loop -/
def rfoInit (A : RArgs n) (x0 : Fin n → ℝ) (h : Option (Matrix (Fin n) (Fin n) ℝ)) : RState n :=
  ⟨0, x0, A.fun' x0, A.grad x0, some (h.getD 1), none⟩

/-- saddle.py:54-102: `k` passes of the loop that did not leave it -/
inductive RReach (eigh : Eigh) (argsort : Argsort) (A : RArgs n) : RState n → Nat → RState n → Prop
  | zero (st : RState n) : RReach eigh argsort A st 0 st
  | succ {st st1 st2 : RState n} {k : Nat} (h : RReach eigh argsort A st k st1) (hs : rfoStep eigh argsort A st1 = .go st2) :
      RReach eigh argsort A st (k + 1) st2

/-- saddle.py:27-104 `rfo`: at most `fuel` passes; `none`: not finished -/
noncomputable def rfoRun (eigh : Eigh) (argsort : Argsort) (A : RArgs n) : Nat → RState n → Option (Option ((Fin n → ℝ) × ℝ × String))
  | 0, _ => none
  | k + 1, st =>
    match rfoStep eigh argsort A st with
    | .stop x f r => some (some (x, f, r))
    | .nan => some none
    | .go st' => rfoRun eigh argsort A k st'

end Rfo

end Electrode
