import Verif.Model.Spherical
import Verif.Model.Mathieu

/-
Model of the self-checks of `electrode/spherical_harmonics.py` and `electrode/mathieu.py`.
-/
namespace Electrode

/-- spherical_harmonics.py:95: `self.phi`.  In exact arithmetic `arange(0, 2*pi, pi/nmax)` has `2*nmax` entries. -/
noncomputable def sphPhi (nmax k : Nat) : ℝ := 0 + k * (Real.pi / nmax)

/-- spherical_harmonics.py:92, 109-110 `spherical_grid`: the polar angles `arccos(x)` down the columns and the azimuths along the rows -/
noncomputable def sphericalGrid (nmax : Nat) (x : Nat → ℝ) : (Nat → Nat → ℝ) × (Nat → Nat → ℝ) :=
  (fun i _ => Real.arccos (x i), fun _ k => sphPhi nmax k)

/-- spherical_harmonics.py:112-113 `cartesian_grid`: entry by entry -/
noncomputable def cartesianGrid (nmax : Nat) (x : Nat → ℝ) (r : ℝ) (i k : Nat) : ℝ × ℝ × ℝ :=
  sphericalToCartesian r (Real.arccos (x i)) (sphPhi nmax k)

/-- spherical_harmonics.py:126, 130, 139: `t[:, p, q][:, None] * np.exp(1j * m * self.phi)`, for the table `t = self.ptmn` or
`self.ptmnw` -/
noncomputable def SphHarm.sampled (s : SphHarm) (t : Nat → Nat → Nat → ℝ) (m p q : Int) : Arr2 :=
  ⟨s.nmax, 2 * s.nmax, fun i k => (t i p.toNat q.toNat : ℂ) * Complex.exp (Complex.I * m * (sphPhi s.nmax k : ℂ))⟩

/-- spherical_harmonics.py:131: `f.sum()` of a complex array with two axes -/
noncomputable def Arr2.sum (f : Arr2) : ℂ := ∑ i ∈ Finset.range f.rows, ∑ k ∈ Finset.range f.cols, f.get i k

/-- spherical_harmonics.py:140, 142, 145: `np.absolute(f).sum()` -/
noncomputable def Arr2.absSum (f : Arr2) : ℝ := ∑ i ∈ Finset.range f.rows, ∑ k ∈ Finset.range f.cols, ‖f.get i k‖

/-- spherical_harmonics.py:142-147: `np.allclose(x, y)` of two numbers -/
def close (x y : ℂ) : Prop := ‖x - y‖ ≤ 1 / 10 ^ 8 + 1 / 10 ^ 5 * ‖y‖

/-- spherical_harmonics.py:133, 135, 142-147: a Python `assert` -/
noncomputable def pyAssert (b : Prop) : Py Unit := open Classical in if b then .ok () else .error .assertionError

/-- spherical_harmonics.py:124-135 `check_orthogonality` -/
noncomputable def SphHarm.checkOrthogonality (s : SphHarm) : Py Unit :=
  (sphIndices s.nmax).forM fun (n1, m1, p1, q1) =>
    let y1 := s.sampled s.ptmnw m1 p1 q1
    (sphIndices s.nmax).forM fun (n2, m2, p2, q2) =>
      if n2 > n1 ∨ (n2 = n1 ∧ m2 > m1) then .ok ()
      else
        let y2 := s.sampled s.ptmn m2 p2 q2
        let y12 := ‖(Arr2.sum ⟨y1.rows, y1.cols, fun i k => y1.get i k * (starRingEnd ℂ) (y2.get i k)⟩)‖
        if n1 = n2 ∧ m1 = m2 then pyAssert (|y12 - 1| < 1 / 10 ^ 6) else pyAssert (y12 < 1 / 10 ^ 6)

/-- spherical_harmonics.py:137-147 `check_identity` -/
noncomputable def SphHarm.checkIdentity (s : SphHarm) : Py Unit :=
  (sphIndices s.nmax).forM fun (_, m, p, q) => do
    let y := s.sampled s.ptmn m p q
    let ys := y.absSum
    let a ← s.analysis y
    pyAssert (close a.absSum 1)
    pyAssert (close (a.get p.toNat q.toNat) 1)
    let y1 ← s.synthesis a
    let y1s := y1.absSum
    pyAssert (close ys y1s)
    pyAssert (∀ i < y.rows, ∀ k < y.cols, close (y1.get i k) (y.get i k))

/-- mathieu.py:230-247 `sum_c`: the six sums that are returned and the two numbers that are printed.  `none` if `coeff_Cn` divides by
zero or if `Csn[nc]` is zero. -/
noncomputable def sumC (a q nu : ℝ) (nc ng : Nat) : Option ((ℝ × ℝ × ℝ × ℝ × ℝ × ℝ) × ℝ × ℝ) :=
  match coeffCn a q nu nc ng with
  | none => none
  | some (ccn, csn, _) =>
    let add := fun (t : ℝ × ℝ × ℝ × ℝ × ℝ × ℝ) (k : Nat) =>
      let n : Int := (k : Int) - nc
      (t.1 + n * ccn.getD k 0, t.2.1 + (nu + 2 * n) * ccn.getD k 0, t.2.2.1 + gn a q nu n * ccn.getD k 0,
        t.2.2.2.1 + gn a q nu n * n * ccn.getD k 0, t.2.2.2.2.1 + csn.getD k 0, t.2.2.2.2.2 + (nu + 2 * n) * csn.getD k 0)
    let t := (List.range (2 * nc + 1)).foldl add (0, 0, 0, 0, 0, 0)
    (recip (csn.getD nc 0)).map fun r =>
      (t, t.2.2.2.1 - 2 * t.1, (t.2.2.2.2.2 * ccn.getD nc 0 * r - nu) / 2 - t.1)

end Electrode
