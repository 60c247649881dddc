import Verif.Model.Dynamics
import Mathlib.Analysis.SpecialFunctions.Trigonometric.Inverse
import Mathlib.LinearAlgebra.Matrix.Determinant.Basic

/-
Model of `electrode/mathieu.py`.
-/
namespace Electrode

/-- mathieu.py:119-123 `gn` -/
noncomputable def gn (a q nu : ℝ) (n : Int) : ℝ := (a - (nu + 2 * n) ^ 2) / q

/-- mathieu.py:190-199: `1/x` of numpy floats; a zero denominator gives an infinite value: `none` -/
noncomputable def recip (x : ℝ) : Option ℝ := open Classical in if x = 0 then none else some (1 / x)

/-- mathieu.py:190-192: the continued fraction from `G[ng+nc]` down to `G[nc]`, for `C[n]/C[n-1]` (`s = 1`) or for
`C[-n]/C[-n+1]` (`s = -1`).  The code computes both in one loop; they do not interact. -/
noncomputable def contFrac (a q nu : ℝ) (nc ng : Nat) (s : Int) : Option ℝ :=
  (List.range ng).foldl (fun f k => f.bind fun f => recip (gn a q nu (s * ((ng + nc - 1 - k : Nat) : Int)) - f))
    (recip (gn a q nu (s * ((ng + nc : Nat) : Int))))

/-- mathieu.py:193-199: the ratios, from the one nearest to `C[0]` outwards.  For `s = 1` this is `rp`; `rn` is the list for
`s = -1` in reverse order. -/
noncomputable def ratioSide (a q nu : ℝ) (nc ng : Nat) (s : Int) : Option (List ℝ) :=
  (List.range (nc - 1)).foldl (fun r k => r.bind fun r =>
      (recip (gn a q nu (s * ((nc - 1 - k : Nat) : Int)) - r.headD 0)).map (· :: r))
    ((contFrac a q nu nc ng s).map ([·]))

/-- mathieu.py:161-200 `coeff_ratio`; `nc` and `ng` are not negative -/
noncomputable def coeffRatio (a q nu : ℝ) (nc ng : Nat) : Option (List ℝ × List ℝ) :=
  match ratioSide a q nu nc ng (-1), ratioSide a q nu nc ng 1 with
  | some rn, some rp => some (rn.reverse, rp)
  | _, _ => none

/-- mathieu.py:219-221, one pass: `cnp.append(cnp[-1]*rp[n])`, `cnn.insert(0, cnn[0]*rn[-n-1])`; the indexes are in range -/
noncomputable def cnStep (rn rp : List ℝ) (c : List ℝ × List ℝ) (n : Nat) : List ℝ × List ℝ :=
  ((c.1.headD 0 * rn.getD (rn.length - 1 - n) 0) :: c.1, c.2 ++ [c.2.getLastD 0 * rp.getD n 0])

/-- mathieu.py:218-224: `cn` -/
noncomputable def cnList (rn rp : List ℝ) (nc : Nat) : List ℝ :=
  let c := (List.range nc).foldl (cnStep rn rp) ([1], [1])
  c.1.dropLast ++ c.2

/-- mathieu.py:202-228 `coeff_Cn`: `Ccn, Csn, cn`; `none` if some division is by zero -/
noncomputable def coeffCn (a q nu : ℝ) (nc ng : Nat) : Option (List ℝ × List ℝ × List ℝ) :=
  match coeffRatio a q nu nc ng with
  | none => none
  | some (rn, rp) =>
    let cn := cnList rn rp nc
    let vn := (List.range (2 * nc + 1)).map fun k : Nat => 2 * ((k : ℝ) - nc) + nu
    match recip cn.sum, recip (List.zipWith (· * ·) vn cn).sum with
    | some sc, some ss => some (cn.map (· * sc), cn.map (· * ss), cn)
    | _, _ => none

/-- mathieu.py:249-277: the attributes set by `init_sol`: `nu` and the two coefficient arrays -/
structure MathieuSol where
  nu : ℝ
  ccn : List ℝ
  csn : List ℝ

/-- mathieu.py:298-299: `['np.cos','np.sin','np.cos','np.sin'][deri%4]` and `[1,-1,-1,1][deri%4]` -/
noncomputable def triEven (deri : Nat) (x : ℝ) : ℝ :=
  match deri % 4 with
  | 0 => Real.cos x
  | 1 => -Real.sin x
  | 2 => -Real.cos x
  | _ => Real.sin x

/-- mathieu.py:324-325: `['np.sin','np.cos','np.sin','np.cos'][deri%4]` and `[1,1,-1,-1][deri%4]` -/
noncomputable def triOdd (deri : Nat) (x : ℝ) : ℝ :=
  match deri % 4 with
  | 0 => Real.sin x
  | 1 => Real.cos x
  | 2 => -Real.sin x
  | _ => -Real.cos x

/-- mathieu.py:300-302, 326-328: the sum over the coefficients -/
noncomputable def floquetSeries (tri : Nat → ℝ → ℝ) (nu : ℝ) (c : List ℝ) (deri : Nat) (t : ℝ) : ℝ :=
  (c.zipIdx.map fun p : ℝ × Nat =>
    let w := nu + 2 * ((p.2 : ℝ) - ((c.length : ℝ) - 1) / 2)
    p.1 * w ^ deri * tri deri (w * t)).sum

/-- mathieu.py:279-303 `sol_y1`; before `init_sol` there is no attribute `nu` -/
noncomputable def solY1 (m : Option MathieuSol) (t : ℝ) (deri : Nat) : Py ℝ :=
  match m with
  | none => .error .attributeError
  | some m => .ok (floquetSeries triEven m.nu m.ccn deri t)

/-- mathieu.py:305-329 `sol_y2` -/
noncomputable def solY2 (m : Option MathieuSol) (t : ℝ) (deri : Nat) : Py ℝ :=
  match m with
  | none => .error .attributeError
  | some m => .ok (floquetSeries triOdd m.nu m.csn deri t)

/-- mathieu.py:331-352 `init_value`.  For `t0 != 0` the code ends in `np.array(A,B)`: the float `B` is taken for the data type,
which is a `TypeError`. -/
noncomputable def initValue (m : Option MathieuSol) (y0 : ℝ × ℝ) (t0 : ℝ) : Py (ℝ × ℝ) :=
  open Classical in
  if t0 = 0 then .ok y0
  else
    match solY1 m t0 0, solY2 m t0 1 with
    | .ok _, .ok _ => .error .typeError
    | .error e, _ => .error e
    | _, .error e => .error e

/-- mathieu.py:249-277 `init_sol`.  The exponents of the three methods are given (`det` with the order at which `nu_tolerance`
stopped); `none` stands for arrays with infinite entries.  `nu_n` is unbound unless the mode is `'det'`. -/
noncomputable def initSol (a q : ℝ) (nc : Option Nat) (ng : Nat) (mode : String) (d0ap ivp : ℝ) (det : Py (ℝ × Nat)) :
    Py (Option MathieuSol) :=
  let sol := fun (nu : ℝ) (nc : Nat) => (coeffCn a q nu nc ng).map fun c => (⟨nu, c.1, c.2.1⟩ : MathieuSol)
  if mode = "d0ap" then
    match nc with
    | some nc => .ok (sol d0ap nc)
    | none => .error .unboundLocalError
  else if mode = "det" then
    match det with
    | .error e => .error e
    | .ok (nu, nuN) => .ok (sol nu (nc.getD nuN))
  else if mode = "ivp" then
    match nc with
    | some nc => .ok (sol ivp nc)
    | none => .error .unboundLocalError
  else .error .valueError

/-! ### the characteristic exponent -/

/-- mathieu.py:25-31: the assignments to `delta0`, in order.  The index `ntr-n-1` is never negative. -/
noncomputable def hillWrites (a q : ℝ) (ntr : Nat) : List ((Nat × Nat) × ℝ) :=
  ((List.range ntr).flatMap fun n : Nat =>
    let w := q / (4 * (n : ℝ) ^ 2 - a)
    [((n + ntr, n + ntr), (1 : ℝ)), ((n + ntr, n + ntr + 1), w), ((n + ntr, n + ntr - 1), w),
      ((ntr - n, ntr - n), 1), ((ntr - n, ntr - n + 1), w), ((ntr - n, ntr - n - 1), w)]) ++
  [((0, 0), 1), ((ntr + ntr, ntr + ntr), 1), ((0, 1), q / (4 * (ntr : ℝ) ^ 2 - a)),
    ((ntr + ntr, ntr + ntr - 1), q / (4 * (ntr : ℝ) ^ 2 - a))]

/-- mathieu.py:24-31: `delta0` -/
noncomputable def hillDelta (a q : ℝ) (ntr : Nat) : Matrix (Fin (2 * ntr + 1)) (Fin (2 * ntr + 1)) ℝ :=
  fun i j => applyWrites (fun _ : Nat × Nat => (0 : ℝ)) (hillWrites a q ntr) (i.val, j.val)

/-- mathieu.py:14-117: a characteristic exponent: real, or complex (of which only the determinant times the sine squared is kept), or nan -/
inductive Expo
  | bounded (nu : ℝ)
  | unbounded (rhs : ℝ)
  | nan

/-- mathieu.py:14-40 `nu_exp_det` for Python numbers `a` and `q`.  Lines 27, 29 and 31 divide by `4*n**2-a` for every `n` up to `ntr` (with
numpy numbers there is no error, but the determinant is then nan).  `ntr = 0`: the index 1 is out of bounds.  The root of a negative number
is nan, and then neither comparison of line 35 holds. -/
noncomputable def nuExpDet (a q : ℝ) (ntr : Nat) : Py Expo :=
  open Classical in
  if ∃ n : Nat, n ≤ ntr ∧ 4 * (n : ℝ) ^ 2 - a = 0 then .error .zeroDivisionError
  else if ntr = 0 then .error .indexError
  else if a < 0 then .ok .nan
  else
    let rhs := (hillDelta a q ntr).det * Real.sin (Real.pi / 2 * √a) ^ 2
    if rhs < 0 ∨ 1 < rhs then .ok (.unbounded rhs)
    else .ok (.bounded (2 / Real.pi * Real.arcsin √rhs))

/-- mathieu.py:60-89 `nu_exp_ivp`, given the last value `sol.y[0,-1]` that `solve_ivp` returns.  In the first case the value is kept
instead of the complex exponent (`np.complex` is no longer in numpy). -/
noncomputable def nuExpIvp (yEnd : ℝ) : Expo :=
  open Classical in
  if 1 < |yEnd| then .unbounded yEnd else .bounded (Real.arccos yEnd / Real.pi)

/-- mathieu.py:42-51 `nu_exp_d0ap`.  `none` is nan: the root of a negative number, a division by zero, or the arccosine of a number
that is not between -1 and 1. -/
noncomputable def nuExpD0ap (a q : ℝ) : Option ℝ :=
  open Classical in
  if a < 0 ∨ 4 * √a * (a - 1) = 0 then none
  else
    let cosnu := Real.cos (Real.pi * √a) + Real.pi * q ^ 2 / (4 * √a * (a - 1)) * Real.sin (Real.pi * √a) +
      q ^ 4 * (Real.pi ^ 4 / 96 - 25 * Real.pi ^ 2 / 256)
    if |cosnu| ≤ 1 then some (Real.arccos cosnu / Real.pi) else none

/-- mathieu.py:53-58 `nu_exp_bla`; `none` is nan -/
noncomputable def nuExpBla (a q : ℝ) : Option ℝ :=
  open Classical in
  if a + q ^ 2 / 2 < 0 then none else some √(a + q ^ 2 / 2)

/-- mathieu.py:107-117: the search over orders, given how the exponent of an order is computed (`close` is
`np.abs(nu_n-nu_2n) < tol`).  The test `type(nu_n) == complex` never holds for numpy numbers. -/
def nuTolLoop {E : Type} (nuDet : Nat → Py E) (close : E → E → Bool) (nstart : Nat) : List Nat → Py (E × Nat)
  | [] => .error .valueError
  | i :: is =>
    let n := nstart * (i + 1)
    match nuDet n, nuDet (n * 2) with
    | .error e, _ => .error e
    | _, .error e => .error e
    | .ok nu, .ok nu2 => if close nu nu2 then .ok (nu2, 2 * n) else nuTolLoop nuDet close nstart is

/-- mathieu.py:114 `np.abs(nu_n-nu_2n) < tol` for real exponents; a comparison with nan does not hold, and for complex exponents the result
is a parameter -/
noncomputable def nuClose (complexClose : Expo → Expo → Bool) (tol : ℝ) : Expo → Expo → Bool
  | .bounded nu, .bounded nu2 => open Classical in decide (|nu - nu2| < tol)
  | .nan, _ => false
  | _, .nan => false
  | e, e2 => complexClose e e2

/-- mathieu.py:91-117 `nu_tolerance`, 100 cycles -/
def nuTolerance {E : Type} (nuDet : Nat → Py E) (close : E → E → Bool) (nstart : Nat) : Py (E × Nat) :=
  nuTolLoop nuDet close nstart (List.range 100)

end Electrode
