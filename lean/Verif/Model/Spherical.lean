import Verif.Model.Dynamics
import Mathlib.Analysis.SpecialFunctions.Complex.Arg
import Mathlib.Analysis.SpecialFunctions.Trigonometric.Basic
import Mathlib.Analysis.Real.Sqrt

/-
Model of `electrode/spherical_harmonics.py`.
-/
namespace Electrode

/-! ### coordinates -/

/-- spherical_harmonics.py:6-14 `spherical_to_cartesian` at one position; the real and imaginary parts of `exp(1j*t)` are the
cosine and the sine -/
noncomputable def sphericalToCartesian (r theta phi : ℝ) : ℝ × ℝ × ℝ :=
  (r * Real.sin theta * Real.cos phi, r * Real.sin theta * Real.sin phi, r * Real.cos theta)

/-- spherical_harmonics.py:24-25: `numpy.arctan2(y, x)`; signed zeros are left out -/
noncomputable def arctan2 (y x : ℝ) : ℝ := Complex.arg ⟨x, y⟩

/-- spherical_harmonics.py:17-26 `cartesian_to_spherical` at one position -/
noncomputable def cartesianToSpherical (x y z : ℝ) : ℝ × ℝ × ℝ :=
  let xy := x ^ 2 + y ^ 2
  (√(xy + z ^ 2), arctan2 √xy z, arctan2 y x)

/-- spherical_harmonics.py:39-46: the matrix `m`; unbound for another direction -/
noncomputable def sphericalMatrix (r theta phi : ℝ) (direction : String) : Py (List (List ℝ)) :=
  let ct := Real.cos theta
  let st := Real.sin theta
  let cp := Real.cos phi
  let sp := Real.sin phi
  if direction = "to_spherical" then
    .ok [[cp * st, sp * st, ct], [-sp / (r * st), cp / (r * st), 0], [cp * ct / r, sp * ct / r, -st / r]]
  else if direction = "to_cartesian" then
    .ok [[cp * st, -r * sp * st, r * cp * ct], [sp * st, r * cp * st, r * sp * ct], [ct, 0, -r * st]]
  else .error .unboundLocalError

/-- spherical_harmonics.py:29-48 `derivatives_spherical_cartesian` at one position, for three components -/
noncomputable def derivativesSphericalCartesian (d : ℝ × ℝ × ℝ) (r theta phi : ℝ) (direction : String) : Py (ℝ × ℝ × ℝ) :=
  match sphericalMatrix r theta phi direction with
  | .error e => .error e
  | .ok m =>
    let row := fun i => (List.zipWith (· * ·) (m.getD i []) [d.1, d.2.1, d.2.2]).sum
    .ok (row 0, row 1, row 2)

/-! ### harmonics -/

/-- spherical_harmonics.py:115-122 `indices`: `n, m, p, q` in order -/
def sphIndices (nmax : Nat) : List (Nat × Int × Int × Int) :=
  (List.range nmax).flatMap fun n =>
    ((List.range n).map fun k : Nat => (n, -(n : Int) + k, (nmax : Int) + (-(n : Int) + k), (nmax : Int) - n - 1)) ++
    ((List.range (n + 1)).map fun k : Nat => (n, (k : Int), (k : Int), (n : Int)))

/-- spherical_harmonics.py:96-98: the tables `self.n` and `self.m` at `(p, q)`, starting from uninitialised memory -/
def sphTable (nmax : Nat) (empty : Int × Int → Nat × Int) : Int × Int → Nat × Int :=
  applyWrites empty ((sphIndices nmax).map fun e => ((e.2.2.1, e.2.2.2), (e.1, e.2.1)))

/-- spherical_harmonics.py:88-107: what the constructor keeps; `ptmn` and `ptmnw` are indexed by theta sample, row, column -/
structure SphHarm where
  nmax : Nat
  n : Nat → Nat → Nat
  m : Nat → Nat → Int
  weight : Nat → ℝ
  ptmn : Nat → Nat → Nat → ℝ
  ptmnw : Nat → Nat → Nat → ℝ

/-- spherical_harmonics.py:88-107 `__init__`.  `x`, `w` are the nodes and weights `scipy.special.p_roots(nmax)`; `lpmn mu nu x`
are the associated Legendre functions `scipy.special.lpmn(nmax-1, nmax-1, x)[0][mu, nu]`; `empty` is the content of the
uninitialised tables.  numpy raises `ValueError` for an integer array to a negative integer power from version 1.12 on
(`oldNumpy = false`), which happens as soon as some `m` is negative. -/
noncomputable def sphInit (oldNumpy : Bool) (nmax : Nat) (x w : Nat → ℝ) (lpmn : Nat → Nat → ℝ → ℝ)
    (empty : Int × Int → Nat × Int) : Py SphHarm :=
  let n := fun p q : Nat => (sphTable nmax empty (p, q)).1
  let m := fun p q : Nat => (sphTable nmax empty (p, q)).2
  if oldNumpy = false ∧ ((List.range nmax).any fun p => (List.range nmax).any fun q => m p q < 0) then .error .valueError
  else
    let b := fun p q : Nat => (2 * (n p q : ℝ) + 1) / (4 * Real.pi) * ((n p q - (m p q).natAbs).factorial : ℝ) /
      ((n p q + (m p q).natAbs).factorial : ℝ)
    let c := fun p q : Nat => (-1 : ℝ) ^ (if m p q < 0 then m p q else 0)
    let ptmn := fun i p q : Nat => √(b p q) * c p q * lpmn (m p q).natAbs (n p q) (x i)
    .ok ⟨nmax, n, m, w, ptmn, fun i p q => ptmn i p q * (w i * Real.pi / nmax)⟩

/-- spherical_harmonics.py:149-190: a complex array with two axes -/
structure Arr2 where
  rows : Nat
  cols : Nat
  get : Nat → Nat → ℂ

/-- spherical_harmonics.py:158: `numpy.fft.fft` of one row of length `N` -/
noncomputable def dft (N : Nat) (f : Nat → ℂ) (k : Nat) : ℂ :=
  ∑ j ∈ Finset.range N, f j * Complex.exp (-(2 * Real.pi * Complex.I * (j * k / N)))

/-- spherical_harmonics.py:189: `numpy.fft.ifft` of one row of length `N` -/
noncomputable def idft (N : Nat) (f : Nat → ℂ) (j : Nat) : ℂ :=
  (1 / N) * ∑ k ∈ Finset.range N, f k * Complex.exp (2 * Real.pi * Complex.I * (j * k / N))

/-- spherical_harmonics.py:161: the column `ft[:, m]`; a negative `m` counts from the end -/
def freqColumn (nmax : Nat) (m : Int) : Nat := if m < 0 then (2 * (nmax : Int) + m).toNat else m.toNat

/-- spherical_harmonics.py:149-164 `analysis` of a two dimensional array -/
noncomputable def SphHarm.analysis (s : SphHarm) (f : Arr2) : Py Arr2 :=
  if f.rows = s.nmax ∧ f.cols = 2 * s.nmax then
    let ft := fun i => dft (2 * s.nmax) (f.get i)
    .ok ⟨s.nmax, s.nmax, fun j k => ∑ i ∈ Finset.range s.nmax, (s.ptmnw i j k : ℂ) * ft i (freqColumn s.nmax (s.m j k))⟩
  else .error .assertionError

/-- spherical_harmonics.py:185-188: the row `ft[i]`: sums over the upper triangle with diagonal, then over the lower triangle -/
noncomputable def SphHarm.synthRow (s : SphHarm) (a : Arr2) (i c : Nat) : ℂ :=
  let at' := fun p q => (s.ptmn i p q : ℂ) * a.get p q
  if c < s.nmax then ∑ q ∈ Finset.range s.nmax, if c ≤ q then at' c q else 0
  else ∑ q ∈ Finset.range s.nmax, if q < c - s.nmax then at' (c - s.nmax) q else 0

/-- spherical_harmonics.py:166-190 `synthesis` of a two dimensional array -/
noncomputable def SphHarm.synthesis (s : SphHarm) (a : Arr2) : Py Arr2 :=
  if a.rows = s.nmax ∧ a.cols = s.nmax then
    .ok ⟨s.nmax, 2 * s.nmax, fun i k => idft (2 * s.nmax) (s.synthRow a i) k * s.nmax * 2⟩
  else .error .assertionError

end Electrode
