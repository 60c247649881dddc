import Verif.Model.Electrode
import Verif.Lemmas.Cyclic
import Mathlib.Tactic.FieldSimp
import Mathlib.Tactic.LinearCombination
import Mathlib.Tactic.NormNum

/-
C10: `area_centroid` is a proper signed area and centroid.
-/
namespace Electrode

namespace Spec
/-- point moved by `t` -/
def move (t p : V2) : V2 := ⟨p.x + t.x, p.y + t.y⟩
/-- point scaled by `s` -/
def dilate (s : ℝ) (p : V2) : V2 := ⟨s * p.x, s * p.y⟩
end Spec
open Spec

section lemmas

/-- twice the signed area of the triangle with the origin -/
def crossE (p q : V2) : ℝ := p.x * q.y - q.x * p.y
def momX (p q : V2) : ℝ := (p.x + q.x) * crossE p q
def momY (p q : V2) : ℝ := (p.y + q.y) * crossE p q

theorem zipWith_zip3 {α β γ δ : Type*} (f : α → β → γ) (g : α → β → γ) (h : γ → γ → δ) (l : List α) (m : List β) :
    List.zipWith h (List.zipWith f l m) (List.zipWith g l m) = List.zipWith (fun a b => h (f a b) (g a b)) l m := by
  induction l generalizing m with
  | nil => simp
  | cons a l ih => cases m <;> simp [ih]

theorem area_eq (p : List V2) : (areaCentroid p).1 = cycSum crossE p / 2 := by
  simp only [areaCentroid]
  rw [sum_zipWith_roll (fun p q : V2 => p.x * q.y - q.x * p.y)]; rfl

theorem centroid_x_eq (p : List V2) : (areaCentroid p).2.x = cycSum momX p / (6 * (areaCentroid p).1) := by
  rw [area_eq]
  simp only [areaCentroid]
  rw [sum_zipWith_roll (fun p q : V2 => p.x * q.y - q.x * p.y), zipWith_zip3, sum_zipWith_roll]; rfl

theorem centroid_y_eq (p : List V2) : (areaCentroid p).2.y = cycSum momY p / (6 * (areaCentroid p).1) := by
  rw [area_eq]
  simp only [areaCentroid]
  rw [sum_zipWith_roll (fun p q : V2 => p.x * q.y - q.x * p.y), zipWith_zip3, sum_zipWith_roll]; rfl

theorem cycSum_congr' {f g : V2 → V2 → ℝ} (h : ∀ a b, f a b = g a b) (l : List V2) : cycSum f l = cycSum g l := by
  have : f = g := funext fun a => funext fun b => h a b
  rw [this]

theorem cycSum_smul (c : ℝ) (f : V2 → V2 → ℝ) (l : List V2) : cycSum (fun a b => c * f a b) l = c * cycSum f l :=
  cycSum_hom (AddMonoidHom.mulLeft c) f l

theorem cross_move (t : V2) (l : List V2) : cycSum crossE (l.map (move t)) = cycSum crossE l := by
  rw [cycSum_map, cycSum_congr' (g := fun a b => crossE a b + ((t.x * b.y - b.x * t.y) - (t.x * a.y - a.x * t.y)))]
  · rw [cycSum_add, cycSum_tele (fun a : V2 => t.x * a.y - a.x * t.y), add_zero]
  · intro a b; simp only [crossE, move]; ring

theorem momX_move (t : V2) (l : List V2) :
    cycSum momX (l.map (move t)) = cycSum momX l + 3 * t.x * cycSum crossE l := by
  rw [cycSum_map, cycSum_congr' (g := fun a b => (momX a b + 3 * t.x * crossE a b) +
    ((t.x * b.x * b.y - t.y * b.x ^ 2 + 2 * t.x * (t.x * b.y - b.x * t.y))
      - (t.x * a.x * a.y - t.y * a.x ^ 2 + 2 * t.x * (t.x * a.y - a.x * t.y))))]
  · rw [cycSum_add, cycSum_tele (fun b : V2 => t.x * b.x * b.y - t.y * b.x ^ 2 + 2 * t.x * (t.x * b.y - b.x * t.y)),
      add_zero, cycSum_add, cycSum_smul]
  · intro a b; simp only [momX, crossE, move]; ring

theorem momY_move (t : V2) (l : List V2) :
    cycSum momY (l.map (move t)) = cycSum momY l + 3 * t.y * cycSum crossE l := by
  rw [cycSum_map, cycSum_congr' (g := fun a b => (momY a b + 3 * t.y * crossE a b) +
    ((-(t.y * b.x * b.y) + t.x * b.y ^ 2 + 2 * t.y * (t.x * b.y - b.x * t.y))
      - (-(t.y * a.x * a.y) + t.x * a.y ^ 2 + 2 * t.y * (t.x * a.y - a.x * t.y))))]
  · rw [cycSum_add, cycSum_tele (fun b : V2 => -(t.y * b.x * b.y) + t.x * b.y ^ 2 + 2 * t.y * (t.x * b.y - b.x * t.y)),
      add_zero, cycSum_add, cycSum_smul]
  · intro a b; simp only [momY, crossE, move]; ring

end lemmas

/-- C10: the area does not change when the polygon is moved. -/
theorem c10_area_translate (t : V2) (p : List V2) :
    (areaCentroid (p.map (move t))).1 = (areaCentroid p).1 := by
  rw [area_eq, area_eq, cross_move]

/-- C10: the centroid moves with the polygon. -/
theorem c10_centroid_translate (t : V2) (p : List V2) (h : (areaCentroid p).1 ≠ 0) :
    (areaCentroid (p.map (move t))).2 = move t (areaCentroid p).2 := by
  ext
  · rw [centroid_x_eq, c10_area_translate, momX_move]
    simp only [move]
    rw [centroid_x_eq, area_eq]
    have h' : cycSum crossE p ≠ 0 := by intro h0; rw [area_eq, h0] at h; simp at h
    field_simp
    ring
  · rw [centroid_y_eq, c10_area_translate, momY_move]
    simp only [move]
    rw [centroid_y_eq, area_eq]
    have h' : cycSum crossE p ≠ 0 := by intro h0; rw [area_eq, h0] at h; simp at h
    field_simp
    ring

/-- C10: the choice of the first vertex is irrelevant for area and centroid. -/
theorem c10_first_vertex (n : Nat) (p : List V2) : areaCentroid (p.rotate n) = areaCentroid p := by
  have h1 : (areaCentroid (p.rotate n)).1 = (areaCentroid p).1 := by rw [area_eq, area_eq, cycSum_rotate]
  refine Prod.ext h1 ?_
  ext
  · rw [centroid_x_eq, centroid_x_eq, h1, cycSum_rotate]
  · rw [centroid_y_eq, centroid_y_eq, h1, cycSum_rotate]

/-- C10: reversing the boundary flips the sign of the area. -/
theorem c10_area_reverse (p : List V2) : (areaCentroid p.reverse).1 = -(areaCentroid p).1 := by
  rw [area_eq, area_eq, cycSum_reverse crossE (by intro a b; simp only [crossE]; ring)]
  ring

/-- C10: reversing the boundary keeps the centroid. -/
theorem c10_centroid_reverse (p : List V2) : (areaCentroid p.reverse).2 = (areaCentroid p).2 := by
  ext
  · rw [centroid_x_eq, centroid_x_eq, c10_area_reverse,
      cycSum_reverse momX (by intro a b; simp only [momX, crossE]; ring), mul_neg, neg_div_neg_eq]
  · rw [centroid_y_eq, centroid_y_eq, c10_area_reverse,
      cycSum_reverse momY (by intro a b; simp only [momY, crossE]; ring), mul_neg, neg_div_neg_eq]

/-- C10: a dilation by `s` multiplies the area by `s²`. -/
theorem c10_area_scale (s : ℝ) (p : List V2) :
    (areaCentroid (p.map (dilate s))).1 = s ^ 2 * (areaCentroid p).1 := by
  rw [area_eq, area_eq, cycSum_map, cycSum_congr' (g := fun a b => s ^ 2 * crossE a b), cycSum_smul]
  · ring
  · intro a b; simp only [crossE, dilate]; ring

/-- C10: a dilation scales the centroid. -/
theorem c10_centroid_scale (s : ℝ) (hs : s ≠ 0) (p : List V2) (h : (areaCentroid p).1 ≠ 0) :
    (areaCentroid (p.map (dilate s))).2 = dilate s (areaCentroid p).2 := by
  ext
  · rw [centroid_x_eq, c10_area_scale]
    simp only [dilate]
    rw [centroid_x_eq, cycSum_map, cycSum_congr' (g := fun a b => s ^ 3 * momX a b), cycSum_smul]
    · field_simp
    · intro a b; simp only [momX, crossE, dilate]; ring
  · rw [centroid_y_eq, c10_area_scale]
    simp only [dilate]
    rw [centroid_y_eq, cycSum_map, cycSum_congr' (g := fun a b => s ^ 3 * momY a b), cycSum_smul]
    · field_simp
    · intro a b; simp only [momY, crossE, dilate]; ring

/-- C10: cutting a polygon along the chord between two of its vertices `u` and `w`: the areas
of the parts add up. -/
theorem c10_area_cut (u w : V2) (l m : List V2) :
    (areaCentroid (u :: l ++ w :: m)).1 = (areaCentroid (u :: l ++ [w])).1 + (areaCentroid (w :: m ++ [u])).1 := by
  simp only [area_eq]
  rw [cycSum_cut crossE (by intro a b; simp only [crossE]; ring)]
  ring

/-- C10: … and the centroid of the whole is the area-weighted mean of the centroids of the
parts. -/
theorem c10_centroid_cut (u w : V2) (l m : List V2) (h : (areaCentroid (u :: l ++ w :: m)).1 ≠ 0)
    (h1 : (areaCentroid (u :: l ++ [w])).1 ≠ 0) (h2 : (areaCentroid (w :: m ++ [u])).1 ≠ 0) :
    (areaCentroid (u :: l ++ w :: m)).1 * (areaCentroid (u :: l ++ w :: m)).2.x
      = (areaCentroid (u :: l ++ [w])).1 * (areaCentroid (u :: l ++ [w])).2.x
        + (areaCentroid (w :: m ++ [u])).1 * (areaCentroid (w :: m ++ [u])).2.x
    ∧ (areaCentroid (u :: l ++ w :: m)).1 * (areaCentroid (u :: l ++ w :: m)).2.y
      = (areaCentroid (u :: l ++ [w])).1 * (areaCentroid (u :: l ++ [w])).2.y
        + (areaCentroid (w :: m ++ [u])).1 * (areaCentroid (w :: m ++ [u])).2.y := by
  constructor
  · simp only [centroid_x_eq]
    rw [cycSum_cut momX (by intro a b; simp only [momX, crossE]; ring)]
    field_simp
  · simp only [centroid_y_eq]
    rw [cycSum_cut momY (by intro a b; simp only [momY, crossE]; ring)]
    field_simp

/-- C10: a triangle has the usual signed area, and its vertex mean as centroid.  With the cut
theorems this fixes the values for every polygon. -/
theorem c10_triangle (a b c : V2) :
    (areaCentroid [a, b, c]).1 = ((b.x - a.x) * (c.y - a.y) - (c.x - a.x) * (b.y - a.y)) / 2
    ∧ ((areaCentroid [a, b, c]).1 ≠ 0 →
      (areaCentroid [a, b, c]).2 = ⟨(a.x + b.x + c.x) / 3, (a.y + b.y + c.y) / 3⟩) := by
  have h : (areaCentroid [a, b, c]).1 = ((b.x - a.x) * (c.y - a.y) - (c.x - a.x) * (b.y - a.y)) / 2 := by
    rw [area_eq]; simp only [cycSum, chain, List.cons_append, List.nil_append, crossE]; ring
  refine ⟨h, fun h0 => ?_⟩
  have h0' := h0
  rw [h] at h0'
  ext
  · rw [centroid_x_eq, div_eq_iff (by simpa using h0), h]
    simp only [cycSum, chain, List.cons_append, List.nil_append, momX, crossE]; ring
  · rw [centroid_y_eq, div_eq_iff (by simpa using h0), h]
    simp only [cycSum, chain, List.cons_append, List.nil_append, momY, crossE]; ring

/-- C10: fewer than three vertices enclose no area. -/
theorem c10_degenerate (p : List V2) (h : p.length < 3) : (areaCentroid p).1 = 0 := by
  rw [area_eq]
  match p, h with
  | [], _ => simp [cycSum]
  | [a], _ => simp [cycSum, chain, crossE]
  | [a, b], _ => simp only [cycSum, chain, List.cons_append, List.nil_append, crossE]; ring

/-- The hypotheses are met by the unit square: area 1, centroid in the middle. -/
example : areaCentroid [⟨0, 0⟩, ⟨1, 0⟩, ⟨1, 1⟩, ⟨0, 1⟩] = (1, ⟨1 / 2, 1 / 2⟩) := by
  have h : (areaCentroid [⟨0, 0⟩, ⟨1, 0⟩, ⟨1, 1⟩, ⟨0, 1⟩]).1 = 1 := by
    rw [area_eq]; norm_num [cycSum, chain, crossE]
  refine Prod.ext h ?_
  ext
  · rw [centroid_x_eq, h]; norm_num [cycSum, chain, momX, crossE]
  · rw [centroid_y_eq, h]; norm_num [cycSum, chain, momY, crossE]

/-- Both parts of the unit square cut along its diagonal have nonzero area (`c10_centroid_cut`). -/
example : (areaCentroid ((⟨0, 0⟩ : V2) :: [⟨1, 0⟩] ++ [⟨1, 1⟩])).1 = 1 / 2
    ∧ (areaCentroid ((⟨1, 1⟩ : V2) :: [⟨0, 1⟩] ++ [⟨0, 0⟩])).1 = 1 / 2 := by
  constructor <;> rw [area_eq] <;> norm_num [cycSum, chain, crossE]

end Electrode
