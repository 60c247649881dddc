import Verif.Lemmas.PolySmooth
import Verif.Props.Points

/-
C12, C13 and the polygon part of C14: the closed forms of order 1 to 5 are derivatives of the
polygon potential.
-/
namespace Electrode
open Spec

namespace Spec
/-- Positions off the electrode plane and off its images in the cover expansion. -/
def offPlanes (h : ℝ) (nmax : Nat) (p : V3) : Prop :=
  ∀ m : ℤ, -(nmax : ℤ) ≤ m → m ≤ nmax → p.z + 2 * m * h ≠ 0
end Spec

theorem poly_step (polys : List (List V2)) (h : ℝ) (n : Nat) (k : Nat) (hk : k < 5) (i : Nat) (hi : i < 2 * k + 1)
    (a : Axis) (p : V3) (hp : offPlanes h n p) :
    HasPartial a (fun p => polyContrib k n h polys p i)
      (tens (fun k i p => polyContrib k n h polys p i) (k + 1) (nameIdx k i ++ [a]) p) p := by
  unfold polyContrib
  rw [tens_sum]
  apply HasPartial.list_sum
  intro poly _
  simp only [images, List.map_map, Function.comp_def]
  rw [tens_sum]
  apply HasPartial.list_sum
  intro m hm
  rw [mem_coverRange] at hm
  exact (poly_first poly k hk i hi a (p.lift (2 * m * h)) (hp m hm.1 hm.2)).lift (2 * m * h)

/-- C13: every entry of the expanded tensor of order up to 5 of a polygon electrode is the iterated
partial derivative of its potential, off the electrode plane and its images. -/
theorem c13_polygon_tensor (name : String) (dc rf : ℝ) (polys : List (List V2)) (h : ℝ) (n : Nat) (v : ℝ)
    (l : Idx) (hl : l.length ≤ 5) :
    IsIterated (offPlanes h n) l (compAt ⟨name, dc, rf, .polygons polys h n⟩ 0 0 v)
      (tensorAt ⟨name, dc, rf, .polygons polys h n⟩ v l) :=
  elec_iterated _ ⟨name, dc, rf, .polygons polys h n⟩ (fun _ => trivial)
    (fun k hk i hi a p hp => poly_step polys h n k hk i hi a p hp) v l hl

/-- C13: the component with derivative name `s` is the iterated partial derivative named by `s`. -/
theorem c13_polygon_component (name : String) (dc rf : ℝ) (polys : List (List V2)) (h : ℝ) (n : Nat) (v : ℝ)
    (k i : Nat) (s : Name) (l : Idx) (hs : derivToName k i = .ok s) (hl : nameToIdx s = .ok l) :
    IsIterated (offPlanes h n) l (compAt ⟨name, dc, rf, .polygons polys h n⟩ 0 0 v)
      (compAt ⟨name, dc, rf, .polygons polys h n⟩ k i v) :=
  elec_component _ ⟨name, dc, rf, .polygons polys h n⟩ (fun _ => trivial) v
    (c13_polygon_tensor name dc rf polys h n v) k i s l hs hl

/-- C13: the expanded tensor of order `k+1` is the gradient of the one of order `k`. -/
theorem c13_polygon_gradient (name : String) (dc rf : ℝ) (polys : List (List V2)) (h : ℝ) (n : Nat) (v : ℝ)
    (l : Idx) (a : Axis) (hl : l.length ≤ 4) (p : V3) (hp : offPlanes h n p) :
    HasPartial a (tensorAt ⟨name, dc, rf, .polygons polys h n⟩ v l)
      (tensorAt ⟨name, dc, rf, .polygons polys h n⟩ v (l ++ [a]) p) p :=
  elec_gradient (offPlanes h n) ⟨name, dc, rf, .polygons polys h n⟩ (fun _ => trivial)
    (fun k hk i hi a p hp => poly_step polys h n k hk i hi a p hp) v l a hl p hp

/-- C12: the three components of order 1 are the partial derivatives of the potential, for any closed
boundaries, off the electrode plane and its images. -/
theorem c12_polygon_field (name : String) (dc rf : ℝ) (polys : List (List V2)) (h : ℝ) (n : Nat) (v : ℝ)
    (p : V3) (hp : offPlanes h n p) :
    HasPartial 0 (compAt ⟨name, dc, rf, .polygons polys h n⟩ 0 0 v) (compAt ⟨name, dc, rf, .polygons polys h n⟩ 1 0 v p) p ∧
    HasPartial 1 (compAt ⟨name, dc, rf, .polygons polys h n⟩ 0 0 v) (compAt ⟨name, dc, rf, .polygons polys h n⟩ 1 1 v p) p ∧
    HasPartial 2 (compAt ⟨name, dc, rf, .polygons polys h n⟩ 0 0 v) (compAt ⟨name, dc, rf, .polygons polys h n⟩ 1 2 v p) p := by
  have key : ∀ a : Axis, HasPartial a (compAt ⟨name, dc, rf, .polygons polys h n⟩ 0 0 v)
      (compAt ⟨name, dc, rf, .polygons polys h n⟩ 1 a.val v p) p := by
    intro a
    have h1 : derivToName 1 a.val = .ok [("xyz".toList.getD a.val ' ')] := by revert a; decide
    have h2 : nameToIdx [("xyz".toList.getD a.val ' ')] = .ok [a] := by revert a; decide
    obtain ⟨f', hf, hg⟩ := c13_polygon_component name dc rf polys h n v 1 a.val _ _ h1 h2
    have := hf p hp
    rw [hg p hp] at this
    exact this
  exact ⟨key 0, key 1, key 2⟩

/-- C14 (polygons): the three second derivatives exist off the planes and add up to zero. -/
theorem c14_polygon_laplace (name : String) (dc rf : ℝ) (polys : List (List V2)) (h : ℝ) (n : Nat) (v : ℝ) :
    ∃ g : Axis → V3 → ℝ,
      (∀ a, IsIterated (offPlanes h n) [a, a] (compAt ⟨name, dc, rf, .polygons polys h n⟩ 0 0 v) (g a)) ∧
      ∀ p, offPlanes h n p → g 0 p + g 1 p + g 2 p = 0 := by
  refine ⟨fun a => tensorAt ⟨name, dc, rf, .polygons polys h n⟩ v [a, a],
    fun a => c13_polygon_tensor _ _ _ _ _ _ _ _ (by simp), ?_⟩
  intro p _
  have := elec_laplace ⟨name, dc, rf, .polygons polys h n⟩ (fun _ => trivial) v p
  rwa [Fin.sum_univ_three] at this

/-- Half way up to the cover every position is off the planes. -/
example : offPlanes 5 3 ⟨0, 0, 5 / 2⟩ := by
  intro m _ _ h
  have h1 : (5 / 2 : ℝ) + 2 * m * 5 = 0 := h
  have h2 : ((1 + 4 * m : ℤ) : ℝ) = 0 := by push_cast; linarith
  have : (1 + 4 * m : ℤ) = 0 := by exact_mod_cast h2
  omega

/-- The potential of a square above its centre is positive: the potential in C12 to C14 is not
trivial. -/
example : 0 < compAt ⟨"", 0, 0, .polygons [[⟨1, 1⟩, ⟨-1, 1⟩, ⟨-1, -1⟩, ⟨1, -1⟩]] 50 0⟩ 0 0 1 ⟨0, 0, 1⟩ := by
  rw [compAt_eq ⟨"", 0, 0, .polygons [[⟨1, 1⟩, ⟨-1, 1⟩, ⟨-1, -1⟩, ⟨1, -1⟩]] 50 0⟩ _ _ _ _ trivial (by norm_num)]
  have h3 : (0 : ℝ) < √3 := by positivity
  have ha : 0 < Real.arctan (2 / (√3 * √3 + (1 + √3 + √3))) := Real.arctan_pos.2 (by positivity)
  have hpi := Real.pi_pos
  simp [Shape.contrib, polyContrib, polyComp, boundaryEdges, edgesFrom, segComp, edgeTerm, images, coverRange, V3.lift]
  norm_num
  norm_num at ha
  positivity

end Electrode
