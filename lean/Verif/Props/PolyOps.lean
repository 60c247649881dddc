import Verif.Props.PolyData
import Mathlib.Analysis.Normed.Affine.AddTorsor

/-
C92: the methods of `Polygons` that apply an operation of the geometry library to every electrode: `add_gaps`, `simplify`, `unify`,
`restrict`, `within`, `validate`, `gaps_union`.
-/
namespace Electrode
open MeasureTheory

namespace Spec

/-- Shrinking by `d` in the geometry library: keeps all points at least `d` away from the outside, and no points that are less than
`c * d` away.  (`c` is less than one because the library replaces arcs by chords, with one chord for each right angle here.) -/
structure Shrinks {G E : Type} [PseudoMetricSpace E] (pts : G → Set E) (buffer : G → ℝ → G) (c : ℝ) : Prop where
  pos : 0 < c
  le_one : c ≤ 1
  keeps : ∀ g d, 0 ≤ d → ∀ x, Metric.closedBall x d ⊆ pts g → x ∈ pts (buffer g (-d))
  drops : ∀ g d, 0 ≤ d → ∀ x ∈ pts (buffer g (-d)), Metric.closedBall x (c * d) ⊆ pts g

/-- two electrodes that may touch but do not overlap -/
def Touching {E : Type} [TopologicalSpace E] (s t : Set E) : Prop := interior s ∩ interior t = ∅

end Spec
open Spec

variable {G E : Type} [NormedAddCommGroup E] [NormedSpace ℝ E] {pts : G → Set E} {buffer : G → ℝ → G} {c : ℝ} {valid : G → Bool}

/-- C92: names, number and order of the electrodes stay. -/
theorem c92_names (valid : G → Bool) (buffer simp : G → ℝ → G) (gapsize b : ℝ) (ps : List (String × G)) (geoms : G → List G)
    (unary : List G → G) (L : GeomLib G) (corners : List V2 → G) (g : G) (edge : ℝ) :
    (addGaps valid buffer gapsize ps).map Prod.fst = ps.map Prod.fst ∧
    (simplifyPolys valid buffer simp b ps).map Prod.fst = ps.map Prod.fst ∧
    (unifyPolys geoms unary ps).map Prod.fst = ps.map Prod.fst ∧
    (restrictPolys L g ps).map Prod.fst = ps.map Prod.fst ∧
    (withinPolys L corners edge ps).map Prod.fst = ps.map Prod.fst := by
  refine ⟨by simp [addGaps], ?_, by simp [unifyPolys], by simp [restrictPolys], by simp [withinPolys, restrictPolys]⟩
  unfold simplifyPolys
  split
  · simp [addGaps]
  · simp

/-- **C92.** `add_gaps`: electrodes that did not overlap before are at least `gapsize` apart afterwards (up to the factor `c` for rounded
corners), if both could be shrunk. -/
theorem c92_gap (hb : Shrinks pts buffer c) (gapsize : ℝ) (hg : 0 ≤ gapsize) (ps : List (String × G)) (i j : Nat) (p q p' q' : String × G)
    (hp : ps[i]? = some p) (hq : ps[j]? = some q) (ht : Touching (pts p.2) (pts q.2))
    (hvp : valid (buffer p.2 (-gapsize / 2)) = true) (hvq : valid (buffer q.2 (-gapsize / 2)) = true)
    (hp' : (addGaps valid buffer gapsize ps)[i]? = some p') (hq' : (addGaps valid buffer gapsize ps)[j]? = some q') :
    ∀ x ∈ pts p'.2, ∀ y ∈ pts q'.2, c * gapsize ≤ dist x y := by
  simp only [addGaps, List.getElem?_map, hp, hq, Option.map_some, Option.some.injEq, hvp, hvq, if_true] at hp' hq'
  subst hp' hq'
  intro x hx y hy
  rw [neg_div] at hx hy
  by_contra hd
  push Not at hd
  have h1 := hb.drops _ _ (by linarith) x hx
  have h2 := hb.drops _ _ (by linarith) y hy
  have hm1 : midpoint ℝ x y ∈ Metric.ball x (c * (gapsize / 2)) := by
    rw [Metric.mem_ball, dist_midpoint_left, Real.norm_of_nonneg (by norm_num)]
    linarith
  have hm2 : midpoint ℝ x y ∈ Metric.ball y (c * (gapsize / 2)) := by
    rw [Metric.mem_ball, dist_midpoint_right, Real.norm_of_nonneg (by norm_num)]
    linarith
  have : midpoint ℝ x y ∈ interior (pts p.2) ∩ interior (pts q.2) :=
    ⟨interior_maximal (Metric.ball_subset_closedBall.trans h1) Metric.isOpen_ball hm1,
      interior_maximal (Metric.ball_subset_closedBall.trans h2) Metric.isOpen_ball hm2⟩
  rw [ht] at this
  exact this

/-- **C92** (negation): an electrode that cannot be shrunk stays as it is, without notice, -/
theorem c92_invalid (gapsize : ℝ) (ps : List (String × G)) (i : Nat) (p : String × G) (hp : ps[i]? = some p)
    (hv : valid (buffer p.2 (-gapsize / 2)) = false) : (addGaps valid buffer gapsize ps)[i]? = some p := by
  simp [addGaps, List.getElem?_map, hp, hv]

/-- C92: ... and then half of the gap remains. -/
theorem c92_half (hb : Shrinks pts buffer c) (gapsize : ℝ) (hg : 0 ≤ gapsize) (ps : List (String × G)) (i j : Nat) (p q p' q' : String × G)
    (hp : ps[i]? = some p) (hq : ps[j]? = some q) (ht : Touching (pts p.2) (pts q.2)) (hreg : pts q.2 ⊆ closure (interior (pts q.2)))
    (hvp : valid (buffer p.2 (-gapsize / 2)) = true) (hvq : valid (buffer q.2 (-gapsize / 2)) = false)
    (hp' : (addGaps valid buffer gapsize ps)[i]? = some p') (hq' : (addGaps valid buffer gapsize ps)[j]? = some q') :
    ∀ x ∈ pts p'.2, ∀ y ∈ pts q'.2, c * (gapsize / 2) ≤ dist x y := by
  simp only [addGaps, List.getElem?_map, hp, hq, Option.map_some, Option.some.injEq, hvp, hvq, if_true, Bool.false_eq_true, if_false] at hp' hq'
  subst hp' hq'
  intro x hx y hy
  rw [neg_div] at hx
  by_contra hd
  push Not at hd
  have h1 := hb.drops _ _ (by linarith) x hx
  have hy1 : y ∈ interior (pts p.2) :=
    interior_maximal (Metric.ball_subset_closedBall.trans h1) Metric.isOpen_ball (by rwa [Metric.mem_ball, dist_comm])
  obtain ⟨z, hz1, hz2⟩ := mem_closure_iff.1 (hreg hy) _ isOpen_interior hy1
  have : z ∈ interior (pts p.2) ∩ interior (pts q.2) := ⟨hz1, hz2⟩
  rw [ht] at this
  exact this

/-- C92: electrodes only shrink, and what is at least `gapsize / 2` inside of an electrode stays. -/
theorem c92_kept (hb : Shrinks pts buffer c) (gapsize : ℝ) (hg : 0 ≤ gapsize) (ps : List (String × G)) (i : Nat) (p p' : String × G)
    (hp : ps[i]? = some p) (hp' : (addGaps valid buffer gapsize ps)[i]? = some p') :
    pts p'.2 ⊆ pts p.2 ∧ ∀ x, Metric.closedBall x (gapsize / 2) ⊆ pts p.2 → x ∈ pts p'.2 := by
  simp only [addGaps, List.getElem?_map, hp, Option.map_some, Option.some.injEq] at hp'
  subst hp'
  simp only
  split
  · rw [neg_div]
    refine ⟨fun x hx => hb.drops _ _ (by linarith) x hx (Metric.mem_closedBall_self ?_), fun x hx => hb.keeps _ _ (by linarith) x hx⟩
    exact mul_nonneg hb.pos.le (by linarith)
  · exact ⟨subset_rfl, fun x hx => hx (Metric.mem_closedBall_self (by linarith))⟩

/-- C92: an electrode that holds no disc of radius `c * gapsize / 2` does not raise: it stays in the list, without any area. -/
theorem c92_vanish (hb : Shrinks pts buffer c) (gapsize : ℝ) (hg : 0 ≤ gapsize) (ps : List (String × G)) (i : Nat) (p : String × G)
    (hp : ps[i]? = some p) (hv : valid (buffer p.2 (-gapsize / 2)) = true) (hsmall : ∀ x, ¬ Metric.closedBall x (c * (gapsize / 2)) ⊆ pts p.2) :
    ∃ p', (addGaps valid buffer gapsize ps)[i]? = some p' ∧ p'.1 = p.1 ∧ pts p'.2 = ∅ := by
  refine ⟨(p.1, buffer p.2 (-gapsize / 2)), by simp [addGaps, List.getElem?_map, hp, hv], rfl, ?_⟩
  rw [neg_div]
  ext x
  simp only [Set.mem_empty_iff_false, iff_false]
  exact fun hx => hsmall x (hb.drops _ _ (by linarith) x hx)

/-- C92: `simplify()` with the default tolerance zero, like `add_gaps()` with the default gap zero, does not change the region of any
electrode. -/
theorem c92_zero (hb : Shrinks pts buffer c) (simp : G → ℝ → G) (ps : List (String × G)) :
    simplifyPolys valid buffer simp 0 ps = addGaps valid buffer 0 ps ∧
    ∀ (i : Nat) (p p' : String × G), ps[i]? = some p → (addGaps valid buffer 0 ps)[i]? = some p' → pts p'.2 = pts p.2 := by
  refine ⟨by simp [simplifyPolys], fun i p p' hp hp' => ?_⟩
  obtain ⟨h1, h2⟩ := c92_kept hb 0 le_rfl ps i p p' hp hp'
  refine Set.Subset.antisymm h1 fun x hx => h2 x ?_
  simpa using hx

/-- C92: `simplify` with a tolerance moves no point of an electrode further than the tolerance, if the geometry library does so. -/
theorem c92_simplify (simp : G → ℝ → G) (b : ℝ) (hb : b ≠ 0) (hs : ∀ g, ∀ x ∈ pts (simp g b), ∃ y ∈ pts g, dist x y ≤ b) (ps : List (String × G))
    (i : Nat) (p p' : String × G) (hp : ps[i]? = some p) (hp' : (simplifyPolys valid buffer simp b ps)[i]? = some p') :
    ∀ x ∈ pts p'.2, ∃ y ∈ pts p.2, dist x y ≤ b := by
  simp only [simplifyPolys, if_neg hb, List.getElem?_map, hp, Option.map_some, Option.some.injEq] at hp'
  subst hp'
  exact hs p.2

/-- C92: `unify` does not change the region of any electrode. -/
theorem c92_unify (geoms : G → List G) (unary : List G → G) (hgeo : ∀ g, {x | ∃ h ∈ geoms g, x ∈ pts h} = pts g)
    (hun : ∀ l, pts (unary l) = {x | ∃ h ∈ l, x ∈ pts h}) (ps : List (String × G)) (i : Nat) (p p' : String × G)
    (hp : ps[i]? = some p) (hp' : (unifyPolys geoms unary ps)[i]? = some p') : pts p'.2 = pts p.2 := by
  simp only [unifyPolys, List.getElem?_map, hp, Option.map_some, Option.some.injEq] at hp'
  subst hp'
  rw [hun, hgeo]

/-- C92: `validate` raises `ValueError` exactly if some electrode is not valid. -/
theorem c92_validate (valid : G → Bool) (ps : List (String × G)) :
    (validatePolys valid ps = .error .valueError ↔ ∃ p ∈ ps, valid p.2 = false) ∧
    (validatePolys valid ps = .ok () ↔ ∀ p ∈ ps, valid p.2 = true) := by
  unfold validatePolys
  by_cases h : ps.all (fun p => valid p.2) = true
  · rw [if_pos h]
    rw [List.all_eq_true] at h
    refine ⟨⟨fun x => (by cases x), ?_⟩, fun _ => h, fun _ => rfl⟩
    rintro ⟨p, hp, hv⟩
    rw [h p hp] at hv
    cases hv
  · rw [if_neg h]
    rw [List.all_eq_true] at h
    push Not at h
    obtain ⟨p, hp, hv⟩ := h
    have hv' : valid p.2 = false := by simpa using hv
    refine ⟨⟨fun _ => ⟨p, hp, hv'⟩, fun _ => rfl⟩, fun x => (by cases x), fun hall => absurd (hall p hp) hv⟩

/-- C92: `restrict` cuts every electrode with the region given, -/
theorem c92_restrict {pts : G → Set (ℝ × ℝ)} {L : GeomLib G} (hL : Faithful volume pts L) (g : G) (ps : List (String × G)) (i : Nat)
    (p p' : String × G) (hp : ps[i]? = some p) (hp' : (restrictPolys L g ps)[i]? = some p') :
    pts p'.2 =ᵐ[volume] (pts p.2 ∩ pts g : Set (ℝ × ℝ)) := by
  simp only [restrictPolys, List.getElem?_map, hp, Option.map_some, Option.some.injEq] at hp'
  subst hp'
  exact hL.inter _ _

/-- C92: ... `within` with the square around the origin. -/
theorem c92_within {pts : G → Set (ℝ × ℝ)} {L : DataLib G} (hL : FaithfulData pts L) (edge : ℝ) (he : 0 ≤ edge) (ps : List (String × G))
    (i : Nat) (p p' : String × G) (hp : ps[i]? = some p) (hp' : (withinPolys L.toGeomLib L.corners edge ps)[i]? = some p') :
    pts p'.2 =ᵐ[volume] (pts p.2 ∩ squareSet edge : Set (ℝ × ℝ)) := by
  have h := c92_restrict hL.toFaithful _ ps i p p' hp hp'
  refine h.trans ((ae_eq_refl _).inter ?_)
  simp only [← neg_div]
  exact hL.square edge he

/-- C92: `gaps_union` is the union of the boundaries of all polygons of all electrodes. -/
theorem c92_gaps_union {B : Type} (line : B → Set E) (geoms : G → List G) (boundary : G → B) (empty : B) (union : B → B → B)
    (hempty : line empty = ∅) (hunion : ∀ a b, line (union a b) = line a ∪ line b) (hb : ∀ g, line (boundary g) = frontier (pts g))
    (ps : List (String × G)) :
    line (gapsUnion geoms boundary empty union ps) = {x | ∃ p ∈ ps, ∃ g ∈ geoms p.2, x ∈ frontier (pts g)} := by
  have key : ∀ (l : List B) (a : B), line (l.foldl union a) = line a ∪ {x | ∃ b ∈ l, x ∈ line b} := by
    intro l
    induction l with
    | nil => intro a; simp
    | cons b t ih =>
      intro a
      rw [List.foldl_cons, ih, hunion]
      ext x
      simp only [Set.mem_union, Set.mem_ofPred_eq, List.mem_cons, exists_eq_or_imp]
      tauto
  unfold gapsUnion
  rw [key, hempty, Set.empty_union]
  ext x
  simp only [Set.mem_ofPred_eq, List.mem_map, List.mem_flatMap]
  constructor
  · rintro ⟨b, ⟨g, ⟨p, hp, hg⟩, rfl⟩, hx⟩
    exact ⟨p, hp, g, hg, by rwa [hb] at hx⟩
  · rintro ⟨p, hp, g, hg, hx⟩
    exact ⟨_, ⟨g, ⟨p, hp, hg⟩, rfl⟩, by rwa [hb]⟩

/-- a geometry library that shrinks exactly; two intervals that touch are shrunk -/
example : Shrinks (fun s : Set ℝ => s) (fun s d => {x | Metric.closedBall x (-d) ⊆ s}) 1 ∧ Touching (Set.Icc (0 : ℝ) 1) (Set.Icc 1 2) ∧
    (addGaps (fun _ => true) (fun s d => {x : ℝ | Metric.closedBall x (-d) ⊆ s}) 1 [("a", Set.Icc 0 1), ("b", Set.Icc 1 2)]).length = 2 := by
  refine ⟨⟨one_pos, le_rfl, fun g d _ x hx => by simpa using hx, fun g d _ x hx => by simpa using hx⟩, ?_, by simp [addGaps]⟩
  unfold Touching
  rw [interior_Icc, interior_Icc]
  ext x
  simp only [Set.mem_inter_iff, Set.mem_Ioo, Set.mem_empty_iff_false, iff_false]
  rintro ⟨⟨_, h1⟩, h2, _⟩
  linarith

end Electrode
