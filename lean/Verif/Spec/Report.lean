import Verif.Model.Analyze
import Verif.Spec.System
import Verif.Props.Floquet
import Verif.Props.Euler

/-
What the lines of the report of `analyze_static` are to say.
-/
namespace Electrode.Spec
open Real

/-- The results of the calls of the public functions the report is about: the position of the minimum, position and potential of
the saddle point (if found), curvatures and modes in the pseudopotential, exponents and mode vectors of the motion with rf. -/
structure Findings where
  trap : Fin 3 → ℝ
  saddle : Option ((Fin 3 → ℝ) × ℝ)
  ew : List ℝ
  ev : List (Fin 3 → ℝ)
  mu : List (ℂ × (Fin 3 → ℝ))

/-- `F` are the results: of `minimum` (not called with `min_off`), `saddle`, `modes`, and `mathieu` with the scale factor of the
system and four harmonics, of which the mean position (zeroth harmonic, real part) is the mode vector -/
structure IsFound (lib : AnalyzeLib) (els : List Elec) (c : ℝ) (x : Fin 3 → ℝ) (A : AnalyzeArgs) (F : Findings) : Prop where
  trap : if A.minOff then F.trap = x
    else minimum lib.minimize ⟨els, some c⟩ 1 .float (fun a => x a + A.minOffset a) [0, 1, 2] = .ok F.trap
  saddle : match F.saddle with
    | some r => lib.saddle (fun a => x a + A.saddleOffset a) = .ok r
    | none => ∃ e, lib.saddle (fun a => x a + A.saddleOffset a) = .error e
  modes : modes lib.eigh lib.argsort ⟨els, some c⟩ (toV3 x) true = .ok (F.ew, F.ev)
  mathieu : ∃ M, sysMathieu lib.eig lib.argsort els (toV3 x) c 4 true = .ok M ∧
    F.mu = M.map fun p => (p.1, fun a => (component 4 3 p.2 0 0 a).re)

/-- square of the field along `v`, summed over the electrodes, each with `1e-9` volt, in volt per meter -/
noncomputable def fieldSq (els : List Elec) (x : Fin 3 → ℝ) (l : ℝ) (v : Fin 3 → ℝ) : ℝ :=
  (els.map fun e => (1e-9 / l * ∑ a, tensorAt e 1 [a] (toV3 x) * v a) ^ 2).sum

/-- unit vector -/
def unit3 (a : Fin 3) : Fin 3 → ℝ := fun b => if b = a then 1 else 0

/-- What the numbers in a line are to be. -/
def LineOk (k : PhysConst) (s : Sys) (x : Fin 3 → ℝ) (A : AnalyzeArgs) (F : Findings) : Line → Prop
  | .header _ => True
  | .parameters f m q l c => 2 * π * (f * 1e6) = A.o ∧ m * k.amu = A.m ∧ q * k.qe = A.q ∧ l * 1e-6 = A.l ∧ s.rfCoeff = some c
  | .point p => p = x
  | .pointMicron p => ∀ a, p a * 1e-6 = x a * A.l
  | .minimum d => ∀ a, x a + d a = F.trap a
  | .minimumMicron d => ∀ a, d a * 1e-6 = (F.trap a - x a) * A.l
  | .dcPotential v => v = electricalAt s.els .dc [] (toV3 x)
  | .rfPotential v => v = pseudoAt s [] (toV3 x)
  | .saddle d => ∃ p h, F.saddle = some (p, h) ∧ ∀ a, x a + d a = p a
  | .saddleMicron d => ∃ p h, F.saddle = some (p, h) ∧ ∀ a, d a * 1e-6 = (p a - x a) * A.l
  | .saddleHeight v => ∃ p h, F.saddle = some (p, h) ∧ totalAt s [] (toV3 x) + v = h
  | .saddleNotFound => F.saddle = none
  -- these are the gradients: the force on a positive ion is their negative
  | .dcForce f => ∀ a, f a = electricalAt s.els .dc [a] (toV3 x)
  | .dcForceM f => ∀ a, f a * A.l = electricalAt s.els .dc [a] (toV3 x)
  | .rfForce f => ∀ a, f a = pseudoAt s [a] (toV3 x)
  | .rfForceM f => ∀ a, f a * A.l = pseudoAt s [a] (toV3 x)
  | .curvatures c => c = F.ew
  | .bounded b => b = true ↔ ∀ p ∈ F.mu, |p.1.re| ≤ 1e-8
  | .modesOf _ => True
  -- a harmonic oscillator of mass `m` and spring constant `q c / l^2`
  | .mode .pseudo j f v => ∃ c, F.ew[j]? = some c ∧ F.ev[j]? = some v ∧
      (0 ≤ c → ∃ g, f = some g ∧ 0 ≤ g ∧ A.m * (2 * π * (g * 1e6)) ^ 2 = A.q * c / A.l ^ 2) ∧ (c < 0 → f = none)
  | .mode .mathieu j f v => ∃ nu, F.mu[j]? = some (nu, v) ∧ ∃ g, f = some g ∧ 2 * π * (g * 1e6) = nu.im * A.o
  -- if the vectors form a rotation matrix, the angles describe it
  | .euler kind deg => ∀ R : Matrix (Fin 3) (Fin 3) ℝ, IsRotation R →
      (match kind with | .pseudo => F.ev | .mathieu => (F.mu.map Prod.snd).take 3) = List.ofFn R.transpose →
      ∃ M' R', eulerMatrix (deg.1 / 180 * π) (deg.2.1 / 180 * π) (deg.2.2 / 180 * π) (.str ['r', 'z', 'x', 'z']) = .ok M' ∧
        Homog M' R' ∧ ∀ p q, |R' p q - R p q| ≤ 2 * tEps
  | .noiseLevel u => u = 1
  | .fieldNoise S => ∀ a, S a = fieldSq s.els x A.l (unit3 a)
  | .heating j ndot sEf => ∃ nu v, F.mu[j]? = some (nu, v) ∧
      let f := nu.im * A.o / (2 * π)
      sEf = fieldSq s.els x A.l v * f ∧ (f = 0 → ndot = none) ∧
        (f ≠ 0 → ∃ n, ndot = some n ∧ n * (4 * A.m * k.h * f) = fieldSq s.els x A.l v * A.q ^ 2)
  | .separation .. => 1 < A.ions

/-- what a line is about -/
def Line.kind : Line → String
  | .header s => s
  | .parameters .. => "parameters"
  | .point _ => "point"
  | .pointMicron _ => "point in micrometer"
  | .minimum _ => "minimum"
  | .minimumMicron _ => "minimum in micrometer"
  | .dcPotential _ => "dc potential"
  | .rfPotential _ => "rf potential"
  | .saddle _ => "saddle"
  | .saddleMicron _ => "saddle in micrometer"
  | .saddleHeight _ => "saddle height"
  | .saddleNotFound => "no saddle"
  | .dcForce _ => "dc force"
  | .dcForceM _ => "dc force per meter"
  | .rfForce _ => "rf force"
  | .rfForceM _ => "rf force per meter"
  | .curvatures _ => "curvatures"
  | .bounded _ => "bounded"
  | .modesOf .pseudo => "pseudopotential modes"
  | .modesOf .mathieu => "mathieu modes"
  | .mode _ j _ _ => ["a", "b", "c"].getD j ""
  | .euler .. => "euler"
  | .noiseLevel _ => "noise"
  | .fieldNoise _ => "field noise"
  | .heating j _ _ => ["heating a", "heating b", "heating c"].getD j ""
  | .separation .. => "separation"

/-- the lines of a complete report -/
def reportKinds (found : Bool) : List String :=
  ["parameters:", "parameters", "corrdinates:", "point", "point in micrometer", "minimum", "minimum in micrometer", "potential:",
    "dc potential", "rf potential"] ++
  (if found then ["saddle", "saddle in micrometer", "saddle height"] else ["no saddle"]) ++
  ["force:", "dc force", "dc force per meter", "rf force", "rf force per meter", "modes:", "curvatures", "bounded",
    "pseudopotential modes", "a", "b", "c", "euler", "mathieu modes", "a", "b", "c", "euler", "noise", "field noise",
    "heating a", "heating b", "heating c"]

end Electrode.Spec
