import Verif.Model.Dynamics
import Verif.Model.Transform
import Verif.Model.Ions
import Mathlib.Analysis.SpecialFunctions.Pow.Real

/-
Model of `System.analyze_static` (electrode/system.py:888-948, 974-1056): a report in lines of text.
A line is modelled by what is printed in it, before the rounding done by the format.
-/
namespace Electrode
open Real

/-- system.py:986-987, 1044, 1047, 1051: the constants of `scipy.constants` that are used: `atomic_mass`, `elementary_charge`, `h`, `epsilon_0` -/
structure PhysConst where
  amu : ℝ
  qe : ℝ
  h : ℝ
  eps0 : ℝ

/-- system.py:1027-1029: which modes -/
inductive ModeKind
  | pseudo | mathieu
  deriving DecidableEq

/-- system.py:982-1056: The lines of the report, with the numbers printed; `none` is printed as `nan` or `inf`. -/
inductive Line
  | header (s : String)
  | parameters (fMHz mAmu qE lMicron scale : ℝ)
  | point (x : Fin 3 → ℝ)
  | pointMicron (x : Fin 3 → ℝ)
  | minimum (d : Fin 3 → ℝ)
  | minimumMicron (d : Fin 3 → ℝ)
  | dcPotential (v : ℝ)
  | rfPotential (v : ℝ)
  | saddle (d : Fin 3 → ℝ)
  | saddleMicron (d : Fin 3 → ℝ)
  | saddleHeight (v : ℝ)
  | saddleNotFound
  | dcForce (f : Fin 3 → ℝ)
  | dcForceM (f : Fin 3 → ℝ)
  | rfForce (f : Fin 3 → ℝ)
  | rfForceM (f : Fin 3 → ℝ)
  | curvatures (c : List ℝ)
  | bounded (b : Bool)
  | modesOf (k : ModeKind)
  | mode (k : ModeKind) (j : Nat) (fMHz : Option ℝ) (v : Fin 3 → ℝ)
  | euler (k : ModeKind) (deg : ℝ × ℝ × ℝ)
  | noiseLevel (nV : ℝ)
  | fieldNoise (s : Fin 3 → ℝ)
  | heating (j : Nat) (ndot : Option ℝ) (sEf : ℝ)
  | separation (r micron : ℝ) (harmonic : Option ℝ)

/-- system.py:974-1056: what a generator yielded until it was exhausted or raised an exception -/
abbrev Report := List Line × Option PyErr

/-- system.py:982-1056: `yield` of some lines, then the rest -/
def Report.say (ls : List Line) (r : Report) : Report := (ls ++ r.1, r.2)

/-- system.py:996-1056: a call that may raise, then the rest -/
def Report.run {α : Type} (r : Py α) (k : α → Report) : Report :=
  match r with
  | .error e => ([], some e)
  | .ok a => k a

/-- system.py:888-948, 974-981: the arguments of `analyze_static` after the position, and those passed on to `_analyze_static` -/
structure AnalyzeArgs where
  axis : List (Fin 3)
  m : ℝ
  q : ℝ
  l : ℝ
  o : ℝ
  ions : Nat
  minOff : Bool
  minOffset : Fin 3 → ℝ
  saddleOffset : Fin 3 → ℝ

/-- system.py:996, 1005, 1019, 1021, 1046, 1048: the library functions called: the minimiser, `eigh`, `argsort`, `eig`, `np.random.randn`, and the minimiser and `eigh` as called by
`ions`; and `saddle` of the same system, with its default arguments, which is modelled elsewhere (C72, C45) -/
structure AnalyzeLib where
  minimize : (List ℝ → Py ℝ) → (List ℝ → Py (List ℝ)) → (List ℝ → Py (List (List ℝ))) → List ℝ → Py (Bool × List ℝ)
  saddle : (Fin 3 → ℝ) → Py ((Fin 3 → ℝ) × ℝ)
  eigh : Eigh
  argsort : Argsort
  eig : Eig
  randn : (n : Nat) → Fin n → ℝ
  fminNcg : (n : Nat) → ((Fin n → Fin 3 → ℝ) → Py (Option ℝ)) → ((Fin n → Fin 3 → ℝ) → Py (Fin n → Fin 3 → Option ℝ)) →
      ((Fin n → Fin 3 → ℝ) → Py (Nat → Nat → Nat → Nat → ℝ)) → (Fin n → Fin 3 → ℝ) → Py (Fin n → Fin 3 → ℝ)
  eighIons : (Nat → Nat → Nat → Nat → ℝ) → Py (List ℝ × List (List ℝ))

/-- system.py:989-998: an array of three numbers as a position -/
def toV3 (x : Fin 3 → ℝ) : V3 := ⟨x 0, x 1, x 2⟩

/-- system.py:1012-1013: the first row of an array, as three numbers -/
def row3of (rows : List (List ℝ)) (a : Fin 3) : ℝ := (rows.getD 0 []).getD a 0

/-- system.py:1020 `np.sqrt(q*curves/m)/(2*np.pi*l)`, for one curvature; `nan` for negative arguments -/
noncomputable def freqPP (A : AnalyzeArgs) (c : ℝ) : Option ℝ :=
  open Classical in
  if 0 ≤ A.q * c / A.m then some (√(A.q * c / A.m) / (2 * π * A.l)) else none

/-- system.py:1033 `m4[:3, :3] = mj`: the columns of `mj` are given; one column is broadcast, other numbers do not fit -/
def assignCols (cols : List (Fin 3 → ℝ)) : Py (Matrix (Fin 3) (Fin 3) ℝ) :=
  match cols with
  | [u, v, w] => .ok fun i j => ![u i, v i, w i] j
  | [u] => .ok fun i _ => u i
  | _ => .error .valueError

/-- system.py:1027-1035, one pass of the loop: header, one line for each mode, Euler angles in degrees -/
noncomputable def modeReport (k : ModeKind) (freqs : List (Option ℝ)) (cols : List (Fin 3 → ℝ)) (rest : Report) : Report :=
  Report.say (.modesOf k ::
      (((List.range 3).zip (freqs.zip cols)).map fun p => .mode k p.1 (p.2.1.map (· / 1e6)) p.2.2)) <|
    Report.run (assignCols cols) fun mj =>
      Report.run (eulerFromMatrix (homog mj) (.str ['r', 'z', 'x', 'z'])) fun e =>
        Report.say [.euler k (e.1 * 180 / π, e.2.1 * 180 / π, e.2.2 * 180 / π)] rest

/-- system.py:1023 one column of `modes` -/
def modeCol {N : Nat} (col : Fin N → ℂ) : Fin 3 → ℝ := fun a => (modeSlice col).getD a 0

/-- system.py:1041: `(np.dot(se, modes)**2).sum(0)`, for one column -/
def noiseAlong (se : List (Fin 3 → ℝ)) (v : Fin 3 → ℝ) : ℝ := (se.map fun g => (∑ a, g a * v a) ^ 2).sum

/-- system.py:1042-1044: lines for the heating rates -/
noncomputable def heatingLines (k : PhysConst) (A : AnalyzeArgs) (freqs : List ℝ) (sem : List ℝ) : List Line :=
  open Classical in
  ((List.range 3).zip (freqs.zip sem)).map fun p =>
    .heating p.1 (if 4 * A.m * k.h * p.2.1 = 0 then none else some (p.2.2 * A.q ^ 2 / (4 * A.m * k.h * p.2.1))) (p.2.2 * p.2.1)

/-- system.py:1045-1056: more than one ion.  The format string in the loop has one placeholder more than there are
values: `TypeError` in the first pass. -/
noncomputable def ionReport (k : PhysConst) (lib : AnalyzeLib) (s : Sys) (x : Fin 3 → ℝ) (A : AnalyzeArgs) (curves : List ℝ) : Report :=
  open Classical in
  if h : 1 < A.ions then
    let xi : Fin A.ions → Fin 3 → ℝ := fun i a => x a + lib.randn A.ions i * 1e-3
    let qi : Fin A.ions → ℝ := fun _ => A.q / √(A.l * 4 * π * k.eps0)
    Report.run (ions (lib.fminNcg A.ions) lib.eighIons s xi qi) fun r =>
      let r2 := √(∑ a, (r.x ⟨1, h⟩ a - r.x ⟨0, by omega⟩ a) ^ 2)
      let arg := (A.q * A.l) ^ 2 / (2 * π * k.eps0 * A.q * curves.getD 0 0)
      let r2a : Option ℝ := if 2 * π * k.eps0 * A.q * curves.getD 0 0 = 0 ∨ arg < 0 then none else some (arg ^ (1 / 3 : ℝ))
      Report.say [.header "two ion modes:", .separation r2 (r2 * A.l / 1e-6) (r2a.map (· / 1e-6))]
        ([], if r.ew = [] then none else some .typeError)
  else ([], none)

/-- system.py:1037-1044 and the rest: heating -/
noncomputable def heatingReport (k : PhysConst) (lib : AnalyzeLib) (s : Sys) (x : Fin 3 → ℝ) (A : AnalyzeArgs) (curves : List ℝ)
    (freqs : List ℝ) (cols : List (Fin 3 → ℝ)) : Report :=
  let un : ℝ := 1e-9
  Report.run (individualPotential s.els [toV3 x] 1) fun ind =>
    let se : List (Fin 3 → ℝ) := ind.map fun rows a => un * row3of rows a / A.l
    Report.say ([.noiseLevel (un / 1e-9), .fieldNoise fun a => (se.map fun g => g a ^ 2).sum] ++
        heatingLines k A freqs (cols.map (noiseAlong se))) <|
      ionReport k lib s x A curves

/-- system.py:1018-1044: modes and heating.  `np.allclose(mu.real, 0)` compares with the tolerance `1e-8`. -/
noncomputable def modesReport (k : PhysConst) (lib : AnalyzeLib) (s : Sys) (scale : ℝ) (x : Fin 3 → ℝ) (A : AnalyzeArgs) : Report :=
  open Classical in
  Report.run (modes lib.eigh lib.argsort s (toV3 x) true) fun cm =>
    Report.run (sysMathieu lib.eig lib.argsort s.els (toV3 x) scale 4 true) fun mb =>
      let freqs : List ℝ := (mb.take 3).map fun p => p.1.im * A.o / (2 * π)
      let cols : List (Fin 3 → ℝ) := (mb.take 3).map fun p => modeCol p.2
      Report.say [.curvatures cm.1, .bounded (decide (∀ p ∈ mb, |p.1.re| ≤ 1e-8))] <|
        modeReport .pseudo (cm.1.map (freqPP A)) cm.2 <|
          modeReport .mathieu (freqs.map some) cols <|
            heatingReport k lib s x A cm.1 freqs cols

/-- system.py:1004-1010: the saddle point.  Every exception is caught. -/
noncomputable def saddleLines (lib : AnalyzeLib) (x : Fin 3 → ℝ) (A : AnalyzeArgs) (p : ℝ) : List Line :=
  match lib.saddle (fun a => x a + A.saddleOffset a) with
  | .ok (xs, xsp) => [.saddle fun a => xs a - x a, .saddleMicron fun a => (xs a - x a) * A.l / 1e-6, .saddleHeight (xsp - p)]
  | .error _ => [.saddleNotFound]

/-- system.py:974-1056 `_analyze_static`: the generator, run to its end.  `minimum` is called with its default axes and
coordinates: the argument `axis` is not used. -/
noncomputable def analyzeStatic (k : PhysConst) (lib : AnalyzeLib) (s : Sys) (x : Fin 3 → ℝ) (A : AnalyzeArgs) : Report :=
  match s.rfCoeff with
  | none => ([], some .attributeError)
  | some scale =>
    Report.say [.header "parameters:",
        .parameters (A.o / (2e6 * π)) (A.m / k.amu) (A.q / k.qe) (A.l / 1e-6) scale,
        .header "corrdinates:", .point x, .pointMicron fun a => x a * A.l / 1e-6] <|
      Report.run (if A.minOff then .ok x else minimum lib.minimize s 1 .float (fun a => x a + A.minOffset a) [0, 1, 2]) fun trap =>
        Report.say [.minimum fun a => trap a - x a, .minimumMicron fun a => (trap a - x a) * A.l / 1e-6] <|
          Report.run (electricalPotential s.els [toV3 x] 0 .dc false) fun pdc =>
            Report.run (pseudoPotential s [toV3 x] 0) fun prf =>
              Report.say ([.header "potential:", .dcPotential ((pdc.getD 0 []).getD 0 0), .rfPotential ((prf.getD 0 []).getD 0 0)] ++
                  saddleLines lib x A ((pdc.getD 0 []).getD 0 0 + (prf.getD 0 []).getD 0 0) ++ [.header "force:"]) <|
                Report.run (electricalPotential s.els [toV3 x] 1 .dc false) fun fdc =>
                  Report.run (pseudoPotential s [toV3 x] 1) fun frf =>
                    Report.say [.dcForce (row3of fdc), .dcForceM fun a => row3of fdc a / A.l, .rfForce (row3of frf),
                        .rfForceM fun a => row3of frf a / A.l, .header "modes:"] <|
                      modesReport k lib s scale x A

/-- system.py:1004-1010: is the generator inside of the `try` when it has yielded this line? -/
def Line.inTry : Line → Bool
  | .saddle _ | .saddleMicron _ | .saddleHeight _ => true
  | _ => false

/-- system.py:1004-1010: What `close` does to the generator after `n` lines were taken from it.  Python raises `GeneratorExit` in the generator at the
last `yield`; inside the `try` the bare `except` catches it and yields another line, upon which `close` raises
`RuntimeError` (`user 0` here).  Otherwise the generator just ends. -/
def analyzeClose (r : Report) (n : Nat) : Option PyErr :=
  match (r.1.take n).getLast? with
  | none => none
  | some line => if n ≤ r.1.length ∧ line.inTry then some (.user 0) else none

end Electrode
