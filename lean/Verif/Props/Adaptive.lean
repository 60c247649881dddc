import Verif.Model.Adaptive
import Verif.Props.Area
import Mathlib.Data.List.GetD

/-
C65: `paths_to_mesh`.  C80: `transformed_copy`.  C81: `adapt_mesh`.
-/
namespace Electrode

namespace Spec
/-- number of points before path `i` -/
def offset (paths : List (List V2)) (i : Nat) : Nat := ((paths.take i).map List.length).sum
end Spec
open Spec

theorem meshLoop_lengths (paths : List (List V2)) : ∀ n i, (meshLoop n i paths).1.map List.length = paths.map List.length ∧
    (meshLoop n i paths).2.map List.length = paths.map List.length := by
  induction paths with
  | nil => intro n i; exact ⟨rfl, rfl⟩
  | cons p t ih =>
    intro n i
    obtain ⟨h1, h2⟩ := ih (n + p.length) (i + 1)
    simp [meshLoop, h1, h2, meshPath, rollRight]

theorem flatten_at {α : Type*} (L : List (List α)) (i j : Nat) (l : List α) (hi : L[i]? = some l) (hj : j < l.length) :
    L.flatten[((L.take i).map List.length).sum + j]? = l[j]? := by
  induction L generalizing i with
  | nil => simp at hi
  | cons a t ih =>
    cases i with
    | zero =>
      simp only [List.getElem?_cons_zero, Option.some.injEq] at hi
      subst hi
      simp [List.getElem?_append_left hj]
    | succ i =>
      simp only [List.getElem?_cons_succ] at hi
      simp only [List.take_succ_cons, List.map_cons, List.sum_cons, List.flatten_cons]
      rw [List.getElem?_append_right (by omega), ← ih i hi]
      congr 1
      omega

theorem rollRight_getElem? (n len j : Nat) (hj : j < len) :
    (rollRight ((List.range len).map (n + ·)))[j]? = some (n + (j + (len - 1)) % len) := by
  unfold rollRight
  rw [List.getElem?_rotate (by simpa using hj)]
  simp only [List.length_map, List.length_range, List.getElem?_map]
  rw [List.getElem?_range (Nat.mod_lt _ (by omega))]
  rfl

theorem meshPath_getElem? (n i len j : Nat) (hj : j < len) :
    (meshPath n i len).1[j]? = some (n + (j + (len - 1)) % len, n + j) ∧ (meshPath n i len).2[j]? = some (i + 2) := by
  refine ⟨?_, by simp [meshPath, hj]⟩
  simp only [meshPath]
  rw [List.getElem?_zip_eq_some]
  refine ⟨rollRight_getElem? n len j hj, by simp [hj]⟩

theorem meshLoop_getElem? (paths : List (List V2)) : ∀ (n i k : Nat) (p : List V2), paths[k]? = some p →
    (meshLoop n i paths).1[k]? = some (meshPath (n + offset paths k) (i + k) p.length).1 ∧
    (meshLoop n i paths).2[k]? = some (meshPath (n + offset paths k) (i + k) p.length).2 := by
  induction paths with
  | nil => intro n i k p h; simp at h
  | cons q t ih =>
    intro n i k p h
    cases k with
    | zero =>
      simp only [List.getElem?_cons_zero, Option.some.injEq] at h
      subst h
      simp [meshLoop, offset]
    | succ k =>
      simp only [List.getElem?_cons_succ] at h
      obtain ⟨h1, h2⟩ := ih (n + q.length) (i + 1) k p h
      have e1 : n + q.length + offset t k = n + offset (q :: t) (k + 1) := by simp [offset]; omega
      have e2 : i + 1 + k = i + (k + 1) := by omega
      rw [e1, e2] at h1 h2
      simp only [meshLoop, List.getElem?_cons_succ]
      exact ⟨h1, h2⟩

/-- C65: the points are numbered consecutively through the paths; for each point there is one segment, from the point before it
on the same path (the last point for the first one), and its marker is the number of the path plus 2. -/
theorem c65_mesh (paths : List (List V2)) (hne : paths ≠ []) :
    ∃ pts segs marks, pathsToMesh paths = .ok (pts, segs, marks) ∧ segs.length = pts.length ∧ marks.length = pts.length ∧
      pts.length = (paths.map List.length).sum ∧
      ∀ i p j, paths[i]? = some p → j < p.length →
        pts[offset paths i + j]? = p[j]? ∧
        segs[offset paths i + j]? = some (offset paths i + (if j = 0 then p.length - 1 else j - 1), offset paths i + j) ∧
        marks[offset paths i + j]? = some (i + 2) := by
  obtain ⟨l1, l2⟩ := meshLoop_lengths paths 0 0
  refine ⟨_, _, _, if_neg hne, ?_, ?_, ?_, ?_⟩
  · rw [List.length_flatten, List.length_flatten, l1]
  · rw [List.length_flatten, List.length_flatten, l2]
  · rw [List.length_flatten]
  · intro i p j hi hj
    obtain ⟨h1, h2⟩ := meshLoop_getElem? paths 0 0 i p hi
    rw [Nat.zero_add, Nat.zero_add] at h1 h2
    obtain ⟨m1, m2⟩ := meshPath_getElem? (offset paths i) i p.length j hj
    have e1 : ((((meshLoop 0 0 paths).1).take i).map List.length).sum = offset paths i := by
      rw [List.map_take, l1, ← List.map_take]; rfl
    have e2 : ((((meshLoop 0 0 paths).2).take i).map List.length).sum = offset paths i := by
      rw [List.map_take, l2, ← List.map_take]; rfl
    refine ⟨flatten_at paths i j p hi hj, ?_, ?_⟩
    · have := flatten_at _ i j _ h1 (by simp [meshPath, rollRight]; exact hj)
      rw [e1, m1] at this
      rw [this]
      congr 3
      split
      · rename_i h; subst h; rw [Nat.zero_add, Nat.mod_eq_of_lt (by omega)]
      · have : j + (p.length - 1) = (j - 1) + p.length := by omega
        rw [this, Nat.add_mod_right, Nat.mod_eq_of_lt (by omega)]
    · have := flatten_at _ i j _ h2 (by simp [meshPath]; exact hj)
      rw [e2, m2] at this
      exact this

/-- C65: no segment joins two different paths: both ends are points of the path the marker names. -/
theorem c65_separate (paths : List (List V2)) (pts : List V2) (segs : List (Nat × Nat)) (marks : List Nat)
    (h : pathsToMesh paths = .ok (pts, segs, marks)) (k : Nat) (hk : k < segs.length) :
    ∃ i p a b, paths[i]? = some p ∧ a < p.length ∧ b < p.length ∧ segs[k]? = some (offset paths i + a, offset paths i + b) ∧
      marks[k]? = some (i + 2) := by
  have hne : paths ≠ [] := by rintro rfl; simp [pathsToMesh] at h
  obtain ⟨pts', segs', marks', h', hl, -, hs, hall⟩ := c65_mesh paths hne
  rw [h] at h'
  obtain ⟨rfl, rfl, rfl⟩ : pts = pts' ∧ segs = segs' ∧ marks = marks' := by simpa using h'
  rw [hl, hs] at hk
  have find : ∀ (P : List (List V2)) (k : Nat), k < (P.map List.length).sum →
      ∃ i p j, P[i]? = some p ∧ j < p.length ∧ k = offset P i + j := by
    intro P
    induction P with
    | nil => intro k hk; simp at hk
    | cons q t ih =>
      intro k hk
      by_cases hq : k < q.length
      · exact ⟨0, q, k, rfl, hq, by simp [offset]⟩
      · obtain ⟨i, p, j, h1, h2, h3⟩ := ih (k - q.length) (by simp at hk; omega)
        refine ⟨i + 1, p, j, h1, h2, ?_⟩
        have e : offset (q :: t) (i + 1) = q.length + offset t i := by simp [offset]
        omega
  obtain ⟨i, p, j, h1, h2, rfl⟩ := find paths k hk
  obtain ⟨-, e2, e3⟩ := hall i p j h1 h2
  exact ⟨i, p, _, j, h1, by split <;> omega, h2, e2, e3⟩

/-- C65: without paths `paths_to_mesh` raises `ValueError`. -/
theorem c65_empty : pathsToMesh [] = .error .valueError := rfl

/-- a square and a triangle -/
example : ∃ pts, pathsToMesh [[⟨0, 0⟩, ⟨1, 0⟩, ⟨1, 1⟩, ⟨0, 1⟩], [⟨3, 0⟩, ⟨4, 0⟩, ⟨3, 1⟩]]
    = .ok (pts, [(3, 0), (0, 1), (1, 2), (2, 3), (6, 4), (4, 5), (5, 6)], [2, 2, 2, 2, 3, 3, 3]) := ⟨_, rfl⟩

/-! ### transformed copies -/

theorem stride_one {α : Type*} (l : List α) : pyStride l 1 = .ok l ∧ pyStride l (-1) = .ok l.reverse := by
  have h : ∀ m : List α, (m.zipIdx.filter fun p => decide (p.2 % 1 = 0)).map Prod.fst = m := by
    intro m
    rw [List.filter_eq_self.2 (by intro p _; simp [Nat.mod_one])]
    simp
  constructor
  · simp only [pyStride, one_ne_zero, if_false, zero_lt_one, if_true, Int.natAbs_one]
    rw [h]
  · have e : ¬ ((-1 : Int) = 0) := by decide
    have e2 : ¬ ((0 : Int) < -1) := by decide
    simp only [pyStride, if_neg e, if_neg e2, Int.natAbs_neg, Int.natAbs_one]
    rw [h]

/-- C80: each copy is the image of the path under the upper part of its matrix; with sign `-1` it is walked backwards. -/
theorem c80_points (ts : List ((Fin 4 → Fin 4 → ℝ) × Int)) (hs : ∀ t ∈ ts, t.2 = 1 ∨ t.2 = -1) (path : List V2) :
    ∃ r, transformedCopy ts path = .ok r ∧ List.Forall₂ (fun t q =>
      let im := path.map fun p => (⟨t.1 0 0 * p.x + t.1 0 1 * p.y + t.1 0 3, t.1 1 0 * p.x + t.1 1 1 * p.y + t.1 1 3⟩ : V2)
      (t.2 = 1 → q = im) ∧ (t.2 = -1 → q = im.reverse)) ts r := by
  unfold transformedCopy
  induction ts with
  | nil => exact ⟨[], rfl, List.Forall₂.nil⟩
  | cons t ts ih =>
    obtain ⟨r, hr, hf⟩ := ih fun t ht => hs t (List.mem_cons_of_mem _ ht)
    have e : ∃ q, transformPath t.1 t.2 path = .ok q ∧
        (let im := path.map fun p => (⟨t.1 0 0 * p.x + t.1 0 1 * p.y + t.1 0 3, t.1 1 0 * p.x + t.1 1 1 * p.y + t.1 1 3⟩ : V2)
        (t.2 = 1 → q = im) ∧ (t.2 = -1 → q = im.reverse)) := by
      unfold transformPath
      simp only [mul_zero, add_zero, mul_one]
      rcases hs t List.mem_cons_self with h | h
      · rw [h, (stride_one _).1]
        exact ⟨_, rfl, fun _ => rfl, fun h => absurd h (by decide)⟩
      · rw [h, (stride_one _).2]
        exact ⟨_, rfl, fun h => absurd h (by decide), fun _ => rfl⟩
    obtain ⟨q, hq, hq2⟩ := e
    rw [List.map_cons]
    exact ⟨q :: r, by simp only [pySeq, hq, hr], List.Forall₂.cons hq2 hf⟩

/-- C80: the signed area of a copy is the sign times the determinant of the transformation of the plane times that of the path; so a
copy has the orientation of the path exactly if the sign is that of the determinant. -/
theorem c80_area (t : Fin 4 → Fin 4 → ℝ) (sign : Int) (hs : sign = 1 ∨ sign = -1) (path q : List V2)
    (h : transformedCopy [(t, sign)] path = .ok [q]) :
    (areaCentroid q).1 = sign * (t 0 0 * t 1 1 - t 0 1 * t 1 0) * (areaCentroid path).1 := by
  obtain ⟨r, hr, hf⟩ := c80_points [(t, sign)] (by simpa using hs) path
  rw [h] at hr
  obtain rfl := Except.ok.inj hr
  obtain ⟨⟨h1, h2⟩, -⟩ := List.forall₂_cons.1 hf
  have area : (areaCentroid (path.map fun p => (⟨t 0 0 * p.x + t 0 1 * p.y + t 0 3, t 1 0 * p.x + t 1 1 * p.y + t 1 3⟩ : V2))).1
      = (t 0 0 * t 1 1 - t 0 1 * t 1 0) * (areaCentroid path).1 := by
    have split : (path.map fun p => (⟨t 0 0 * p.x + t 0 1 * p.y + t 0 3, t 1 0 * p.x + t 1 1 * p.y + t 1 3⟩ : V2))
        = (path.map fun p => (⟨t 0 0 * p.x + t 0 1 * p.y, t 1 0 * p.x + t 1 1 * p.y⟩ : V2)).map (move ⟨t 0 3, t 1 3⟩) := by
      rw [List.map_map]
      apply List.map_congr_left
      intro p _
      simp only [Function.comp_apply, move]
    rw [split, c10_area_translate, area_eq, area_eq, cycSum_map,
      cycSum_congr' (g := fun a b => (t 0 0 * t 1 1 - t 0 1 * t 1 0) * crossE a b), cycSum_smul]
    · ring
    · intro a b; simp only [crossE]; ring
  rcases hs with rfl | rfl
  · rw [h1 rfl, area]; push_cast; ring
  · rw [h2 rfl, c10_area_reverse, area]; push_cast; ring

/-- the mirror image at the y axis of a triangle, walked backwards, has the area of the triangle -/
example : ∃ q, transformedCopy [(fun i j => if i = j then (if i = 0 then -1 else 1) else 0, -1)] [⟨0, 0⟩, ⟨2, 0⟩, ⟨0, 2⟩] = .ok [q] ∧
    (areaCentroid q).1 = 2 := by
  obtain ⟨r, hr, hf⟩ := c80_points [(fun i j => if i = j then (if i = 0 then -1 else 1) else 0, -1)] (by simp) [⟨0, 0⟩, ⟨2, 0⟩, ⟨0, 2⟩]
  cases hf with
  | cons a b =>
    cases b
    refine ⟨_, hr, ?_⟩
    rw [c80_area _ (-1) (Or.inr rfl) _ _ hr, (c10_triangle _ _ _).1]
    norm_num

/-! ### adaptive refinement -/

section adapt
variable {A : Type} (tri : A → Option (List ℝ) → TriOut A) (opt : List Elec → Py (List ℝ × ℝ)) (mk : List V2 → Py Elec)
  (fixed : List Elec) (threshold : ℝ) (nmax : Nat) (up down : ℝ)

namespace Spec
/-- `s, v, c` belong together: `s` holds the fixed electrodes and one electrode for each triangle of some triangulation with at
most `nmax` triangles, and `v, c` is what `optimize` gives for it -/
def Consistent (s : List Elec) (v : List ℝ) (c : ℝ) : Prop :=
  opt s = .ok (v, c) ∧ ∃ args areas es, List.Forall₂ (fun p e => mk p = .ok e) (tri args areas).paths es ∧ s = fixed ++ es ∧
    (tri args areas).paths.length ≤ nmax
end Spec

theorem pySeq_forall₂ {α β : Type*} (f : α → Py β) (l : List α) (r : List β) (h : pySeq (l.map f) = .ok r) :
    List.Forall₂ (fun a b => f a = .ok b) l r := by
  induction l generalizing r with
  | nil => simp only [List.map_nil, pySeq, Except.ok.injEq] at h; subst h; exact List.Forall₂.nil
  | cons a t ih =>
    rw [List.map_cons] at h
    simp only [pySeq] at h
    cases ha : f a with
    | error e => rw [ha] at h; cases h
    | ok b =>
      rw [ha] at h
      simp only at h
      cases ht : pySeq (t.map f) with
      | error e => rw [ht] at h; cases h
      | ok bs =>
        rw [ht] at h
        simp only [Except.ok.injEq] at h
        subst h
        exact List.Forall₂.cons ha (ih bs ht)

theorem adaptRound_consistent (args : A) (areas : Option (List ℝ)) (hn : (tri args areas).paths.length ≤ nmax) (s : List Elec)
    (v : List ℝ) (c : ℝ) (new : List ℝ) (h : adaptRound opt mk fixed threshold up down (tri args areas) = .ok ((s, v, c), new)) :
    Consistent tri opt mk fixed nmax s v c := by
  unfold adaptRound at h
  split at h
  · cases h
  · rename_i es hes
    split at h
    · cases h
    · rename_i v' c' hopt
      simp only at h
      split at h
      · cases h
      · simp only [Except.ok.injEq, Prod.mk.injEq] at h
        obtain ⟨⟨rfl, rfl, rfl⟩, -⟩ := h
        exact ⟨hopt, args, areas, es, pySeq_forall₂ mk _ _ hes, rfl, hn⟩

theorem adaptLoop_result (fuel : Nat) : ∀ (args : A) (areas : Option (List ℝ)) (res r : Option (List Elec × List ℝ × ℝ)),
    (∀ s v c, res = some (s, v, c) → Consistent tri opt mk fixed nmax s v c) →
    adaptLoop tri opt mk fixed threshold nmax up down fuel args areas res = some (.ok r) →
    (∀ s v c, r = some (s, v, c) → Consistent tri opt mk fixed nmax s v c) ∧
      ∃ args' areas', nmax < (tri args' areas').paths.length := by
  induction fuel with
  | zero => intro args areas res r _ h; cases h
  | succ fuel ih =>
    intro args areas res r hres h
    unfold adaptLoop at h
    simp only at h
    split at h
    · rename_i hn
      simp only [Option.some.injEq, Except.ok.injEq] at h
      subst h
      exact ⟨hres, args, areas, hn⟩
    · rename_i hn
      split at h
      · cases h
      · rename_i r' new hround
        refine ih _ _ _ r ?_ h
        intro s v c hr
        obtain rfl := Option.some.inj hr
        exact adaptRound_consistent tri opt mk fixed threshold nmax up down args areas (by omega) s v c new hround

/-- C81: whatever the triangulator and the optimiser do, the three values returned belong together, the system has at most `nmax`
triangles besides the fixed electrodes, and the refinement stopped because a triangulation had more than `nmax`. -/
theorem c81_result (fuel : Nat) (args : A) (s : List Elec) (v : List ℝ) (c : ℝ)
    (h : adaptMesh tri opt mk fixed threshold nmax up down fuel args = some (.ok (some (s, v, c)))) :
    Consistent tri opt mk fixed nmax s v c ∧ s.length ≤ fixed.length + nmax ∧
      ∃ args' areas', nmax < (tri args' areas').paths.length := by
  obtain ⟨h1, h2⟩ := adaptLoop_result tri opt mk fixed threshold nmax up down fuel args none none _ (by simp) h
  have hc := h1 s v c rfl
  refine ⟨hc, ?_, h2⟩
  obtain ⟨-, a, b, es, hf, rfl, hle⟩ := hc
  rw [List.length_append, ← hf.length_eq]
  omega

/-- C81: the result is `None` three times exactly if the first triangulation already exceeds `nmax`. -/
theorem c81_none (fuel : Nat) (args : A) :
    adaptMesh tri opt mk fixed threshold nmax up down (fuel + 1) args = some (.ok none) ↔ nmax < (tri args none).paths.length := by
  have key : ∀ (fuel : Nat) (args : A) (areas : Option (List ℝ)) (res : List Elec × List ℝ × ℝ),
      adaptLoop tri opt mk fixed threshold nmax up down fuel args areas (some res) ≠ some (.ok none) := by
    intro fuel
    induction fuel with
    | zero => intro args areas res h; cases h
    | succ fuel ih =>
      intro args areas res h
      unfold adaptLoop at h
      simp only at h
      split at h
      · simp at h
      · split at h
        · cases h
        · exact ih _ _ _ h
  unfold adaptMesh adaptLoop
  simp only
  split
  · rename_i h; simp [h]
  · rename_i h
    simp only [h, iff_false]
    split
    · simp
    · exact key _ _ _ _

/-- C81: a triangle all of whose neighbours exist gets a smaller area exactly if its voltage differs from that of a neighbour by
more than the threshold, and a larger one otherwise. -/
theorem c81_refine (pot : List ℝ) (ns : List Nat) (hne : ns ≠ []) (hns : ∀ k ∈ ns, k < pot.length) (v area : ℝ) :
    ∃ b, refineOne pot threshold (ns.map Int.ofNat) v = .ok b ∧
      ((∃ k ∈ ns, threshold < |pot.getD k 0 - v|) → newArea up down area b = area / down) ∧
      ((∀ k ∈ ns, |pot.getD k 0 - v| ≤ threshold) → newArea up down area b = area * up) := by
  classical
  have hseq : pySeq ((ns.map Int.ofNat).map (pyGetInt pot)) = .ok (ns.map fun k => pot.getD k 0) := by
    clear hne
    induction ns with
    | nil => rfl
    | cons k t ih =>
      have hk := hns k List.mem_cons_self
      have e : pyGetInt pot (Int.ofNat k) = .ok (pot.getD k 0) := by
        simp [pyGetInt, pyGet, hk]
      simp only [List.map_cons, pySeq, e, ih fun k hk => hns k (List.mem_cons_of_mem _ hk)]
  refine ⟨_, by rw [refineOne, hseq]; simp only; rw [if_neg (by simpa using hne)], ?_, ?_⟩
  · rintro ⟨k, hk, h⟩
    unfold newArea
    rw [if_pos]
    rw [List.any_eq_true]
    exact ⟨_, List.mem_map.2 ⟨k, hk, rfl⟩, by simpa using h⟩
  · intro h
    unfold newArea
    rw [if_neg]
    rw [List.any_eq_true]
    rintro ⟨w, hw, hlt⟩
    obtain ⟨k, hk, rfl⟩ := List.mem_map.1 hw
    have := of_decide_eq_true hlt
    exact absurd this (not_lt.2 (h k hk))

namespace Spec
/-- One round of the refinement on the triangulation `o`: the system `r.1` with the result `r.2` of `optimize`, and the areas `new`
wanted for the next triangulation.  A triangle with three real neighbours is to be divided by `down` if the voltage of one of
them differs from its own by more than the threshold, and is to be multiplied by `up` otherwise. -/
def Round (o : TriOut A) (r : List Elec × List ℝ × ℝ) (new : List ℝ) : Prop :=
  opt r.1 = .ok r.2 ∧ (∃ es, List.Forall₂ (fun p e => mk p = .ok e) o.paths es ∧ r.1 = fixed ++ es) ∧
  ∀ (i : Nat) (p : List V2) (ns : List Nat) (v : ℝ), o.paths[i]? = some p → o.neighbors[i]? = some (ns.map Int.ofNat) →
    ns ≠ [] → r.2.1[fixed.length + i]? = some v → (∀ k ∈ ns, fixed.length + k < r.2.1.length) →
    ((∃ k ∈ ns, threshold < |r.2.1.getD (fixed.length + k) 0 - v|) → new[i]? = some ((areaCentroid p).1 / down)) ∧
    ((∀ k ∈ ns, |r.2.1.getD (fixed.length + k) 0 - v| ≤ threshold) → new[i]? = some ((areaCentroid p).1 * up))

/-- Rounds on one triangulation after the other, the first made from `args` and `areas`, each later one from what the one before
left and from the areas it wanted; the last one with at most `nmax` triangles gives `r`, the next has more. -/
inductive Rounds : A → Option (List ℝ) → List Elec × List ℝ × ℝ → Prop
  | last (args : A) (areas : Option (List ℝ)) (r : List Elec × List ℝ × ℝ) (new : List ℝ) :
    (tri args areas).paths.length ≤ nmax → Round opt mk fixed threshold up down (tri args areas) r new →
    nmax < (tri (tri args areas).args (some new)).paths.length → Rounds args areas r
  | more (args : A) (areas : Option (List ℝ)) (r' r : List Elec × List ℝ × ℝ) (new : List ℝ) :
    (tri args areas).paths.length ≤ nmax → Round opt mk fixed threshold up down (tri args areas) r' new →
    Rounds (tri args areas).args (some new) r → Rounds args areas r
end Spec

theorem adaptRound_spec (o : TriOut A) (r : List Elec × List ℝ × ℝ) (new : List ℝ)
    (h : adaptRound opt mk fixed threshold up down o = .ok (r, new)) : Round opt mk fixed threshold up down o r new := by
  unfold adaptRound at h
  split at h
  · cases h
  rename_i es hes
  split at h
  · cases h
  rename_i v' c' hopt
  simp only at h
  split at h
  · cases h
  rename_i refine hrefine
  simp only [Except.ok.injEq, Prod.mk.injEq] at h
  obtain ⟨rfl, rfl⟩ := h
  refine ⟨hopt, ⟨es, pySeq_forall₂ mk _ _ hes, rfl⟩, ?_⟩
  intro i p ns v hp hn hne hv hk
  simp only at hv hk ⊢
  have hget : ∀ k, (v'.drop fixed.length).getD k 0 = v'.getD (fixed.length + k) 0 := by
    intro k; simp [List.getD_eq_getElem?_getD]
  obtain ⟨b, hb, h1, h2⟩ := c81_refine threshold up down (v'.drop fixed.length) ns hne
    (fun k hm => by have := hk k hm; simp only [List.length_drop]; omega) v (areaCentroid p).1
  simp only [hget] at h1 h2
  have hz : (List.zipWith (refineOne (v'.drop fixed.length) threshold) o.neighbors (v'.drop fixed.length))[i]? = some (.ok b) := by
    rw [List.getElem?_zipWith, hn, List.getElem?_drop, hv]
    simp only [Option.some.injEq]
    exact hb
  have hr : refine[i]? = some b := by
    have := pySeq_forall₂ id _ _ (by simpa using hrefine)
    have h3 := List.forall₂_iff_get.1 this
    obtain ⟨hi, he⟩ := List.getElem?_eq_some_iff.1 hz
    have h4 := h3.2 i hi (h3.1 ▸ hi)
    simp only [List.get_eq_getElem, id] at h4
    rw [he] at h4
    rw [List.getElem?_eq_getElem (h3.1 ▸ hi)]
    exact congrArg some (Except.ok.inj h4).symm
  have hnew : (List.zipWith (newArea up down) (o.paths.map fun p => (areaCentroid p).1) refine)[i]?
      = some (newArea up down (areaCentroid p).1 b) := by
    rw [List.getElem?_zipWith, List.getElem?_map, hp, hr]
    rfl
  rw [hnew]
  exact ⟨fun h => congrArg some (h1 h), fun h => congrArg some (h2 h)⟩

theorem adaptLoop_rounds (fuel : Nat) : ∀ (args : A) (areas : Option (List ℝ)) (res : Option (List Elec × List ℝ × ℝ))
    (r : List Elec × List ℝ × ℝ), adaptLoop tri opt mk fixed threshold nmax up down fuel args areas res = some (.ok (some r)) →
    (nmax < (tri args areas).paths.length ∧ res = some r) ∨ Rounds tri opt mk fixed threshold nmax up down args areas r := by
  induction fuel with
  | zero => intro args areas res r h; cases h
  | succ fuel ih =>
    intro args areas res r h
    unfold adaptLoop at h
    simp only at h
    split at h
    · rename_i hn
      simp only [Option.some.injEq, Except.ok.injEq] at h
      exact Or.inl ⟨hn, h⟩
    · rename_i hn
      split at h
      · cases h
      · rename_i r' new hround
        right
        have hs := adaptRound_spec opt mk fixed threshold up down _ _ _ hround
        rcases ih _ _ _ r h with ⟨h1, h2⟩ | h1
        · obtain rfl := Option.some.inj h2
          exact .last args areas _ new (by omega) hs h1
        · exact .more args areas r' r new (by omega) hs h1

/-- C81: the refinement triangulates again and again, each time from the mesh of the round before and with the areas that follow
from the voltages of that round, until a mesh has more than `nmax` triangles; the result is that of the last mesh before. -/
theorem c81_rounds (fuel : Nat) (args : A) (r : List Elec × List ℝ × ℝ)
    (h : adaptMesh tri opt mk fixed threshold nmax up down fuel args = some (.ok (some r))) :
    Rounds tri opt mk fixed threshold nmax up down args none r := by
  rcases adaptLoop_rounds tri opt mk fixed threshold nmax up down fuel args none none r h with ⟨-, h⟩ | h
  · cases h
  · exact h

/-- C81 fails at the outer boundary: a missing neighbour has the number `-1`, which reads the voltage of the last triangle.  A
triangle without any neighbour is refined if its voltage differs from that one's. -/
theorem c81_boundary (pot : List ℝ) (last v : ℝ) (hl : pot.getLast? = some last) :
    ∃ b, refineOne pot threshold [-1, -1, -1] v = .ok b ∧ (b = true ↔ threshold < |last - v|) := by
  classical
  have hpos : 0 < pot.length := by
    cases pot with
    | nil => simp at hl
    | cons a t => simp
  have e : pyGetInt pot (-1) = .ok last := by
    rw [List.getLast?_eq_getElem?] at hl
    have h1 : ¬ (0 : Int) ≤ -1 := by decide
    have h2 : (0 : Int) ≤ -1 + (pot.length : Int) := by omega
    have h3 : (-1 + (pot.length : Int)).toNat = pot.length - 1 := by omega
    simp only [pyGetInt, if_neg h1, if_pos h2, h3, pyGet, hl]
  refine ⟨_, by simp only [refineOne, List.map_cons, List.map_nil, pySeq, e]; rw [if_neg (by simp)], ?_⟩
  simp

end adapt

/-- the first two triangulations have one triangle, the third has three; two rounds are made -/
noncomputable def exTri (n : Nat) (_ : Option (List ℝ)) : TriOut Nat where
  paths := List.replicate (if n < 2 then 1 else 3) [⟨0, 0⟩, ⟨1, 0⟩, ⟨0, 1⟩]
  neighbors := List.replicate (if n < 2 then 1 else 3) [-1, -1, -1]
  args := n + 1

example : ∃ s v c, adaptMesh exTri (fun s => .ok (s.map fun _ => 1, 5)) (fun p => .ok ⟨"", 0, 0, .polygons [p] 50 0⟩) [] (1 / 2) 2 16 4 3 0
    = some (.ok (some (s, v, c))) ∧ s.length = 1 ∧ v = [1] ∧ c = 5 := by
  have hround : ∀ n < 2, ∀ ar, adaptRound (fun s => .ok (s.map fun _ => 1, 5)) (fun p => .ok ⟨"", 0, 0, .polygons [p] 50 0⟩) [] (1 / 2) 16 4
      (exTri n ar) = .ok (([⟨"", 0, 0, .polygons [[⟨0, 0⟩, ⟨1, 0⟩, ⟨0, 1⟩]] 50 0⟩], [1], 5), [(areaCentroid [⟨0, 0⟩, ⟨1, 0⟩, ⟨0, 1⟩]).1 * 16]) := by
    intro n hn ar
    have e : pyGetInt [(1 : ℝ)] (-1) = .ok 1 := rfl
    have h2 : ¬ (1 / 2 : ℝ) < 0 := by norm_num
    simp [adaptRound, exTri, hn, pySeq, refineOne, e, newArea]
  have h0 : ∀ n < 2, ∀ ar, ¬ 2 < (exTri n ar).paths.length := by
    intro n hn ar; simp [exTri, hn]
  refine ⟨[⟨"", 0, 0, .polygons [[⟨0, 0⟩, ⟨1, 0⟩, ⟨0, 1⟩]] 50 0⟩], [1], 5, ?_, rfl, rfl, rfl⟩
  unfold adaptMesh
  rw [adaptLoop]
  simp only [if_neg (h0 0 (by decide) _), hround 0 (by decide) _]
  rw [adaptLoop]
  simp only [show (exTri 0 none).args = 1 from rfl, if_neg (h0 1 (by decide) _), hround 1 (by decide) _]
  rw [adaptLoop]
  have : ∀ ar, 2 < (exTri (exTri 1 ar).args (some [(areaCentroid [⟨0, 0⟩, ⟨1, 0⟩, ⟨0, 1⟩]).1 * 16])).paths.length := by
    intro ar; simp [exTri]
  simp only [if_pos (this _)]

end Electrode
