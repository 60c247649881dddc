import Verif.Model.Grid
import Mathlib.Tactic.Ring
import Mathlib.Tactic.FieldSimp
import Mathlib.Tactic.Linarith
import Mathlib.Algebra.BigOperators.Group.List.Basic

/-
C51: the coordinates of a rectangular grid.
-/
namespace Electrode

namespace Spec
/-- the index tuple is within the shape of the grid -/
def InShape (g : Grid) (idx : List Nat) : Prop := List.Forall₂ (fun a i => i < a.shape) g idx

/-- position of an index tuple in a flattened array: the last index counts ones, the one before the length of the last
dimension, and so on -/
def flatPlace : List Nat → List Nat → Nat
  | _ :: t, i :: is => i * t.prod + flatPlace t is
  | _, _ => 0
end Spec
open Spec

/-- the origin is the position of the index 0 -/
theorem c51_origin (g : Grid) : g.getOrigin = g.indicesToCoordinates (List.replicate g.length 0) := by
  unfold Grid.getOrigin Grid.indicesToCoordinates
  induction g with
  | nil => rfl
  | cons a g ih =>
    rw [List.length_cons, List.replicate_succ, List.zipWith_cons_cons, ← ih, List.map_cons]
    congr 1
    ring

/-- the center is the position half way between the first and the last index -/
theorem c51_center (g : Grid) :
    g.indicesToCoordinates (g.map fun a => ((a.shape : ℝ) - 1) / 2) = g.map (·.center) := by
  unfold Grid.indicesToCoordinates
  induction g with
  | nil => rfl
  | cons a g ih =>
    rw [List.map_cons, List.zipWith_cons_cons, ih, List.map_cons]
    congr 1
    ring

/-- **C51.** From indexes to coordinates and back. -/
theorem c51_inverse_indices (g : Grid) (hs : ∀ a ∈ g, a.step ≠ 0) (idx : List ℝ) (hl : idx.length = g.length) :
    g.coordinatesToIndices (g.indicesToCoordinates idx) = idx := by
  unfold Grid.indicesToCoordinates Grid.coordinatesToIndices
  induction g generalizing idx with
  | nil => simpa using hl
  | cons a g ih =>
    cases idx with
    | nil => simp at hl
    | cons i idx =>
      simp only [List.zipWith_cons_cons]
      rw [ih (fun a h => hs a (List.mem_cons_of_mem _ h)) idx (by simpa using hl)]
      have := hs a (List.mem_cons_self ..)
      congr 1
      field_simp
      ring

/-- **C51.** From coordinates to indexes and back. -/
theorem c51_inverse_coordinates (g : Grid) (hs : ∀ a ∈ g, a.step ≠ 0) (x : List ℝ) (hl : x.length = g.length) :
    g.indicesToCoordinates (g.coordinatesToIndices x) = x := by
  unfold Grid.indicesToCoordinates Grid.coordinatesToIndices
  induction g generalizing x with
  | nil => simpa using hl
  | cons a g ih =>
    cases x with
    | nil => simp at hl
    | cons i x =>
      simp only [List.zipWith_cons_cons]
      rw [ih (fun a h => hs a (List.mem_cons_of_mem _ h)) x (by simpa using hl)]
      have := hs a (List.mem_cons_self ..)
      congr 1
      field_simp
      ring

/-- one more in one index moves the position by the step along that dimension -/
theorem c51_spacing (g : Grid) (idx : List ℝ) (hl : idx.length = g.length) (k : Nat) (hk : k < g.length) (j : Nat)
    (hj : j < g.length) :
    (g.indicesToCoordinates (idx.modify k (· + 1))).getD j 0 =
      (g.indicesToCoordinates idx).getD j 0 + if j = k then g[k].step else 0 := by
  unfold Grid.indicesToCoordinates
  simp only [List.getD_eq_getElem?_getD, List.getElem?_zipWith, List.getElem?_modify]
  rw [List.getElem?_eq_getElem hj, List.getElem?_eq_getElem (by omega : j < idx.length)]
  by_cases h : k = j
  · subst h; simp; ring
  · have h' : ¬ j = k := fun e => h e.symm
    simp [h, h']

theorem mgridEntry_slice (a : GridAxis) (i : Nat) (hi : i < a.shape) :
    mgridEntry a.slice i = a.center + a.step * ((i : ℝ) - ((a.shape : ℝ) - 1) / 2) := by
  unfold mgridEntry GridAxis.slice
  simp only
  split
  · rename_i h
    have h1 : (1 : ℝ) < a.shape := by exact_mod_cast (by omega : 1 < a.shape)
    have h2 : (a.shape : ℝ) - 1 ≠ 0 := by linarith
    field_simp
    ring
  · rename_i h
    have h1 : a.shape = 1 := by simpa using h
    have h0 : i = 0 := by omega
    simp [h1, h0]

/-- **C51.** The grid of positions has at each index tuple the position of that index tuple. -/
theorem c51_mgrid (g : Grid) (idx : List Nat) (h : InShape g idx) :
    g.mgridAt idx = g.indicesToCoordinates (idx.map fun i : Nat => (i : ℝ)) := by
  unfold Grid.mgridAt Grid.indicesToCoordinates
  induction h with
  | nil => rfl
  | cons hi _ ih => rw [List.zipWith_cons_cons, List.map_cons, List.zipWith_cons_cons, ih, mgridEntry_slice _ _ hi]

theorem ndIndex_length (s : List Nat) : (ndIndex s).length = s.prod := by
  induction s with
  | nil => rfl
  | cons h t ih =>
    unfold ndIndex
    simp [List.length_flatMap, ih]

theorem flatMap_get {α β : Type} (l : List α) (f : α → List β) (n : Nat) (hf : ∀ a ∈ l, (f a).length = n) (i j : Nat) (hj : j < n)
    (a : α) (ha : l[i]? = some a) : (l.flatMap f)[i * n + j]? = (f a)[j]? := by
  induction l generalizing i with
  | nil => simp at ha
  | cons b l ih =>
    rw [List.flatMap_cons]
    have hb := hf b (List.mem_cons_self ..)
    cases i with
    | zero =>
      simp only [List.getElem?_cons_zero, Option.some.injEq] at ha
      subst ha
      rw [List.getElem?_append_left (by rw [hb]; omega), Nat.zero_mul, Nat.zero_add]
    | succ i =>
      rw [List.getElem?_append_right (by rw [hb, Nat.succ_mul]; omega), hb,
        ← ih (fun a h => hf a (List.mem_cons_of_mem _ h)) i (by simpa using ha)]
      congr 1
      rw [Nat.succ_mul]; omega

theorem ndIndex_get (s : List Nat) (idx : List Nat) (h : List.Forall₂ (fun h i => i < h) s idx) :
    flatPlace s idx < s.prod ∧ (ndIndex s)[flatPlace s idx]? = some idx := by
  induction h with
  | nil => exact ⟨by simp [flatPlace], rfl⟩
  | @cons h i t is hi _ ih =>
    obtain ⟨ih1, ih2⟩ := ih
    constructor
    · unfold flatPlace
      rw [List.prod_cons]
      calc i * t.prod + flatPlace t is < i * t.prod + t.prod := by omega
        _ = (i + 1) * t.prod := by ring
        _ ≤ h * t.prod := Nat.mul_le_mul_right _ hi
    · unfold ndIndex flatPlace
      rw [flatMap_get _ _ t.prod (by simp [ndIndex_length]) i _ ih1 i (by simp [hi]), List.getElem?_map, ih2]
      rfl

/-- **C51.** The list of points has the position of every index tuple at its row-major place, -/
theorem c51_points (g : Grid) (idx : List Nat) (h : InShape g idx) :
    g.toPoints[flatPlace (g.map (·.shape)) idx]? = some (g.indicesToCoordinates (idx.map fun i : Nat => (i : ℝ))) := by
  unfold Grid.toPoints
  rw [List.getElem?_map, (ndIndex_get _ idx (List.forall₂_map_left_iff.2 h)).2, Option.map_some, c51_mgrid g idx h]

theorem mem_ndIndex (s idx : List Nat) (h : idx ∈ ndIndex s) : List.Forall₂ (fun h i => i < h) s idx := by
  induction s generalizing idx with
  | nil => simp [ndIndex] at h; subst h; exact .nil
  | cons n t ih =>
    unfold ndIndex at h
    simp only [List.mem_flatMap, List.mem_range, List.mem_map] at h
    obtain ⟨i, hi, is, his, rfl⟩ := h
    exact .cons hi (ih is his)

/-- and nothing else: as many points as index tuples, -/
theorem c51_points_all (g : Grid) :
    g.toPoints.length = (g.map (·.shape)).prod ∧
      ∀ x ∈ g.toPoints, ∃ idx, InShape g idx ∧ x = g.indicesToCoordinates (idx.map fun i : Nat => (i : ℝ)) := by
  unfold Grid.toPoints
  refine ⟨by rw [List.length_map, ndIndex_length], fun x hx => ?_⟩
  obtain ⟨idx, h1, rfl⟩ := List.mem_map.1 hx
  have h2 := List.forall₂_map_left_iff.1 (mem_ndIndex _ _ h1)
  exact ⟨idx, h2, c51_mgrid g idx h2⟩

theorem ndIndex_nodup (s : List Nat) : (ndIndex s).Nodup := by
  induction s with
  | nil => simp [ndIndex]
  | cons n t ih =>
    unfold ndIndex
    rw [List.nodup_flatMap]
    refine ⟨fun i _ => ih.map fun a b h => by simpa using h, ?_⟩
    refine (List.nodup_range (n := n)).imp fun {i j} hij => ?_
    rw [Function.onFun, List.disjoint_left]
    intro a ha hb
    simp only [List.mem_map] at ha hb
    obtain ⟨_, _, rfl⟩ := ha
    obtain ⟨_, _, h⟩ := hb
    injection h with h1 _
    exact hij h1.symm

/-- and, if the steps are not zero, no point twice. -/
theorem c51_points_distinct (g : Grid) (hs : ∀ a ∈ g, a.step ≠ 0) : g.toPoints.Nodup := by
  unfold Grid.toPoints
  refine List.Nodup.map_on ?_ (ndIndex_nodup _)
  intro a ha b hb hab
  have h1 := List.forall₂_map_left_iff.1 (mem_ndIndex _ _ ha)
  have h2 := List.forall₂_map_left_iff.1 (mem_ndIndex _ _ hb)
  rw [c51_mgrid g a h1, c51_mgrid g b h2] at hab
  have h3 := congrArg g.coordinatesToIndices hab
  rw [c51_inverse_indices g hs _ (by simpa using h1.length_eq.symm),
    c51_inverse_indices g hs _ (by simpa using h2.length_eq.symm)] at h3
  exact List.map_injective_iff.2 Nat.cast_injective h3

/-- **C51.** `to_xyz` lists the positions of the points along each dimension; it needs the same number of points in all. -/
theorem c51_xyz (g : Grid) (xyz : List (List ℝ)) (h : g.toXyz = .ok xyz) :
    (∀ a ∈ g, ∀ b ∈ g, a.shape = b.shape) ∧
      xyz = g.map fun a => (List.range a.shape).map fun i : Nat => a.center + a.step * ((i : ℝ) - ((a.shape : ℝ) - 1) / 2) := by
  have key : (g.map fun a => (List.range a.shape).map fun i : Nat => linspaceEntry a.slice i) =
      g.map fun a => (List.range a.shape).map fun i : Nat => a.center + a.step * ((i : ℝ) - ((a.shape : ℝ) - 1) / 2) := by
    refine List.map_congr_left fun a _ => List.map_congr_left fun i hi => ?_
    rw [← mgridEntry_slice a i (List.mem_range.1 hi)]
    unfold linspaceEntry mgridEntry
    have : i < a.shape := List.mem_range.1 hi
    simp only [GridAxis.slice]
    by_cases h1 : 1 < a.shape
    · have h2 : a.shape ≠ 1 := by omega
      simp [h1, h2]
    · have h2 : a.shape = 1 := by omega
      have h3 : i = 0 := by omega
      simp [h2, h3]
  unfold Grid.toXyz at h
  cases g with
  | nil => exact ⟨by simp, by injection h with h; exact h.symm⟩
  | cons a g =>
    simp only at h
    split at h
    · rename_i hall
      injection h with h
      rw [List.all_eq_true] at hall
      refine ⟨fun b hb c hc => ?_, by rw [← h, key]⟩
      rw [of_decide_eq_true (hall b hb), of_decide_eq_true (hall c hc)]
    · cases h

/-- `to_xyz` fails for a grid with different numbers of points -/
theorem c51_xyz_fails (g : Grid) (a b : GridAxis) (ha : a ∈ g) (hb : b ∈ g) (h : a.shape ≠ b.shape) :
    g.toXyz = .error .valueError := by
  cases hx : g.toXyz with
  | ok xyz => exact absurd ((c51_xyz g xyz hx).1 a ha b hb) h
  | error e =>
    unfold Grid.toXyz at hx
    cases g with
    | nil => simp at ha
    | cons c g => simp only at hx; split at hx <;> simp_all

example : InShape [⟨0, 1, 3⟩, ⟨5, 2, 4⟩] [2, 3] ∧ flatPlace [3, 4] [2, 3] = 11 ∧
    Grid.indicesToCoordinates [⟨0, 1, 3⟩, ⟨5, 2, 4⟩] [2, 3] = [1, 8] := by
  refine ⟨.cons (by decide) (.cons (by decide) .nil), by decide, ?_⟩
  unfold Grid.indicesToCoordinates
  norm_num

end Electrode
