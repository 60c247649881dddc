import Verif.Lemmas.PointDeriv

/-
C11 and the point pixel part of C14: the closed forms are the derivatives of the potential.
-/
namespace Electrode
open Spec

namespace Spec
/-- Positions that are not on a pixel, nor on an image of a pixel in the cover expansion. -/
def offPixels (points : List V2) (h : ℝ) (nmax : Nat) (p : V3) : Prop :=
  ∀ q ∈ points, ∀ m : ℤ, -(nmax : ℤ) ≤ m → m ≤ nmax → ¬ (p.x = q.x ∧ p.y = q.y ∧ p.z + 2 * m * h = 0)
end Spec

theorem mem_coverRange {n : Nat} {m : ℤ} : m ∈ coverRange n ↔ -(n : ℤ) ≤ m ∧ m ≤ n := by
  simp only [coverRange, List.mem_map, List.mem_range]
  constructor
  · rintro ⟨i, hi, rfl⟩; omega
  · intro h; exact ⟨(m + n).toNat, by omega, by omega⟩

theorem point_step (ps : List V2) (as : List ℝ) (h : ℝ) (n : Nat) (k : Nat) (hk : k < 5) (i : Nat) (hi : i < 2 * k + 1)
    (a : Axis) (p : V3) (hp : offPixels ps h n p) :
    HasPartial a (fun p => pointContrib k n h ps as p i)
      (tens (fun k i p => pointContrib k n h ps as p i) (k + 1) (nameIdx k i ++ [a]) p) p := by
  unfold pointContrib
  rw [tens_sum]
  apply HasPartial.list_sum
  intro q hq
  have hq' : q.1 ∈ ps := (List.of_mem_zip (a := q.1) (b := q.2) hq).1
  simp only [images, List.map_map, Function.comp_def]
  rw [tens_sum]
  apply HasPartial.list_sum
  intro m hm
  rw [mem_coverRange] at hm
  have hoff : OffPixel q.1 (p.lift (2 * m * h)) := hp q.1 hq' m hm.1 hm.2
  have h1 := ((pixel_step k hk i hi q.1 _ hoff a).lift (2 * m * h)).const_mul q.2
  rw [tens_smul]
  exact h1

/-- C11: every entry of the expanded tensor of order up to 5 of a point pixel electrode is the
iterated partial derivative of its potential, off the pixels and their images. -/
theorem c11_point_tensor (name : String) (dc rf : ℝ) (ps : List V2) (as : List ℝ) (h : ℝ) (n : Nat) (v : ℝ)
    (l : Idx) (hl : l.length ≤ 5) :
    IsIterated (offPixels ps h n) l (compAt ⟨name, dc, rf, .points ps as h n⟩ 0 0 v)
      (tensorAt ⟨name, dc, rf, .points ps as h n⟩ v l) :=
  elec_iterated _ ⟨name, dc, rf, .points ps as h n⟩ (fun _ => trivial) (fun k hk i hi a p hp => point_step ps as h n k hk i hi a p hp) v l hl

/-- C11: the component with derivative name `s` is the iterated partial derivative named by `s`. -/
theorem c11_point_component (name : String) (dc rf : ℝ) (ps : List V2) (as : List ℝ) (h : ℝ) (n : Nat) (v : ℝ)
    (k i : Nat) (s : Name) (l : Idx) (hs : derivToName k i = .ok s) (hl : nameToIdx s = .ok l) :
    IsIterated (offPixels ps h n) l (compAt ⟨name, dc, rf, .points ps as h n⟩ 0 0 v)
      (compAt ⟨name, dc, rf, .points ps as h n⟩ k i v) :=
  elec_component _ ⟨name, dc, rf, .points ps as h n⟩ (fun _ => trivial) v (c11_point_tensor name dc rf ps as h n v) k i s l hs hl

/-- C11: the expanded tensor of order `k+1` is the gradient of the one of order `k`. -/
theorem c11_point_gradient (name : String) (dc rf : ℝ) (ps : List V2) (as : List ℝ) (h : ℝ) (n : Nat) (v : ℝ)
    (l : Idx) (a : Axis) (hl : l.length ≤ 4) (p : V3) (hp : offPixels ps h n p) :
    HasPartial a (tensorAt ⟨name, dc, rf, .points ps as h n⟩ v l)
      (tensorAt ⟨name, dc, rf, .points ps as h n⟩ v (l ++ [a]) p) p :=
  elec_gradient (offPixels ps h n) ⟨name, dc, rf, .points ps as h n⟩ (fun _ => trivial)
    (fun k hk i hi a p hp => point_step ps as h n k hk i hi a p hp) v l a hl p hp

/-- C14 (point pixels): the three second derivatives exist off the pixels and add up to zero. -/
theorem c14_point_laplace (name : String) (dc rf : ℝ) (ps : List V2) (as : List ℝ) (h : ℝ) (n : Nat) (v : ℝ) :
    ∃ g : Axis → V3 → ℝ,
      (∀ a, IsIterated (offPixels ps h n) [a, a] (compAt ⟨name, dc, rf, .points ps as h n⟩ 0 0 v) (g a)) ∧
      ∀ p, offPixels ps h n p → g 0 p + g 1 p + g 2 p = 0 := by
  refine ⟨fun a => tensorAt ⟨name, dc, rf, .points ps as h n⟩ v [a, a], fun a => c11_point_tensor _ _ _ _ _ _ _ _ _ (by simp), ?_⟩
  intro p _
  have := elec_laplace ⟨name, dc, rf, .points ps as h n⟩ (fun _ => trivial) v p
  rwa [Fin.sum_univ_three] at this

/-- The position (0, 0, 1) is off a pixel at the origin, with a cover at height 5 and one image
on either side. -/
example : offPixels [⟨0, 0⟩] 5 1 ⟨0, 0, 1⟩ := by
  intro q _ m h1 h2 h3
  have : m = -1 ∨ m = 0 ∨ m = 1 := by omega
  rcases this with rfl | rfl | rfl <;> norm_num at h3

/-- The potential of a unit pixel above its centre is `1/(2 π z²)`: the potential in C11 is not
trivial. -/
example : compAt ⟨"", 0, 0, .points [⟨0, 0⟩] [1] 5 0⟩ 0 0 1 ⟨0, 0, 1⟩ = 1 / (2 * Real.pi) := by
  rw [compAt_eq ⟨"", 0, 0, .points [⟨0, 0⟩] [1] 5 0⟩ _ _ _ _ trivial (by norm_num)]
  simp [Shape.contrib, pointContrib, images, coverRange, pixelComp, V3.lift, pointTerm, pointNum, pointNum0, PExpr.eval,
    pointEnv, pointNorm]

example : derivToName 3 6 = .ok ['x', 'y', 'z'] ∧ nameToIdx ['x', 'y', 'z'] = .ok [0, 1, 2] := by decide +kernel

end Electrode
