import Verif.Model.Polygons
import Mathlib.MeasureTheory.Measure.Lebesgue.Basic
import Mathlib.MeasureTheory.Measure.Real
import Mathlib.MeasureTheory.Measure.Prod
import Mathlib.Tactic.NormNum
import Mathlib.Tactic.Linarith

/-
C61: `remove_overlaps` leaves electrodes that overlap at most by rounding, covers the same area and lets earlier electrodes win.
-/
namespace Electrode
open MeasureTheory

namespace Spec

/-- The geometry library computes with plane regions: `pts` are the points of a geometry, intersection, union and difference are
those of sets up to sets of area zero (boundaries), and `area` is the area. -/
structure Faithful {G X : Type*} [MeasurableSpace X] (μ : Measure X) (pts : G → Set X) (L : GeomLib G) : Prop where
  empty : pts L.empty =ᵐ[μ] (∅ : Set X)
  inter : ∀ a b, pts (L.inter a b) =ᵐ[μ] (pts a ∩ pts b : Set X)
  union : ∀ a b, pts (L.union a b) =ᵐ[μ] (pts a ∪ pts b : Set X)
  diff : ∀ a b, pts (L.diff a b) =ᵐ[μ] (pts a \ pts b : Set X)
  area : ∀ a, L.area a = μ.real (pts a)
  finite : ∀ a, μ (pts a) ≠ ⊤
  valid : ∀ a, L.valid a = true

/-- the points of a list of named geometries -/
def region {G X : Type*} (pts : G → Set X) (l : List (String × G)) : Set X := {x | ∃ g ∈ l, x ∈ pts g.2}

end Spec
open Spec

section lemmas

variable {G X : Type*} [MeasurableSpace X] {μ : Measure X} {pts : G → Set X} {L : GeomLib G}

theorem region_cons (g : String × G) (l : List (String × G)) : region pts (g :: l) = pts g.2 ∪ region pts l := by
  ext x; simp [region]

theorem region_nil : region pts ([] : List (String × G)) = ∅ := by
  ext x; simp [region]

theorem real_congr {s t : Set X} (h : s =ᵐ[μ] t) : μ.real s = μ.real t := by
  simp only [Measure.real, measure_congr h]

/-- what is kept of one polygon -/
theorem overlapFree_spec (hL : Faithful μ pts L) (acc pi : G) (A : Set X) (hA : pts acc =ᵐ[μ] A) :
    (μ.real (A ∩ pts pi) ≤ eps32 ∧ overlapFree L acc pi = pi) ∨
    (eps32 < μ.real (A ∩ pts pi) ∧ pts (overlapFree L acc pi) =ᵐ[μ] (pts pi \ A : Set X)) := by
  have hi : pts (L.inter acc pi) =ᵐ[μ] (A ∩ pts pi : Set X) := (hL.inter acc pi).trans (hA.inter (ae_eq_refl _))
  have ha : L.area (L.inter acc pi) = μ.real (A ∩ pts pi) := by rw [hL.area, real_congr hi]
  by_cases h : eps32 < μ.real (A ∩ pts pi)
  · right
    refine ⟨h, ?_⟩
    simp only [overlapFree, hL.valid, ha, h, and_self, if_true]
    refine (hL.diff _ _).trans ?_
    have := (ae_eq_refl (pts pi)).diff hi
    rwa [Set.inter_comm, show pts pi \ (pts pi ∩ A) = pts pi \ A from by ext x; simp] at this
  · left
    refine ⟨not_lt.1 h, ?_⟩
    simp only [overlapFree, ha, h, and_false, if_false]

theorem overlapFree_union (hL : Faithful μ pts L) (acc pi : G) (A : Set X) (hA : pts acc =ᵐ[μ] A) :
    (A ∪ pts (overlapFree L acc pi) : Set X) =ᵐ[μ] (A ∪ pts pi : Set X) := by
  rcases overlapFree_spec hL acc pi A hA with ⟨-, h⟩ | ⟨-, h⟩
  · rw [h]; exact ae_eq_refl _
  · have := (ae_eq_refl A).union h
    rwa [Set.union_sdiff_self] at this

theorem overlap_acc (hL : Faithful μ pts L) (acc pi : G) (A : Set X) (hA : pts acc =ᵐ[μ] A) :
    pts (L.union acc (overlapFree L acc pi)) =ᵐ[μ] (A ∪ pts pi : Set X) :=
  ((hL.union _ _).trans (hA.union (ae_eq_refl _))).trans (overlapFree_union hL acc pi A hA)

theorem overlapLoop_spec (hL : Faithful μ pts L) (l : List (String × G)) : ∀ (acc : G) (A : Set X), pts acc =ᵐ[μ] A →
    ∀ j (hj : j < l.length) (hj' : j < (overlapLoop L acc l).length),
    (overlapLoop L acc l)[j].1 = l[j].1 ∧
    ((μ.real ((A ∪ region pts (l.take j)) ∩ pts l[j].2) ≤ eps32 ∧ (overlapLoop L acc l)[j].2 = l[j].2) ∨
     (eps32 < μ.real ((A ∪ region pts (l.take j)) ∩ pts l[j].2) ∧
      pts (overlapLoop L acc l)[j].2 =ᵐ[μ] (pts l[j].2 \ (A ∪ region pts (l.take j)) : Set X))) := by
  induction l with
  | nil => intro _ _ _ j hj; simp at hj
  | cons g t ih =>
    intro acc A hA j hj hj'
    obtain ⟨n, pi⟩ := g
    simp only [overlapLoop, hL.valid, if_true]
    cases j with
    | zero =>
      simp only [List.getElem_cons_zero, List.take_zero, region_nil, Set.union_empty, true_and]
      exact overlapFree_spec hL acc pi A hA
    | succ j =>
      simp only [List.getElem_cons_succ, List.take_succ_cons, region_cons, ← Set.union_assoc]
      simp only [overlapLoop, hL.valid, if_true, List.length_cons] at hj'
      exact ih _ _ (overlap_acc hL acc pi A hA) j (by simpa using hj) (by omega)

theorem overlapLoop_length (l : List (String × G)) : ∀ acc, (overlapLoop L acc l).length = l.length := by
  induction l with
  | nil => intro acc; rfl
  | cons g t ih => intro acc; obtain ⟨n, pi⟩ := g; simp [overlapLoop, ih]

theorem overlapLoop_region (hL : Faithful μ pts L) (l : List (String × G)) : ∀ (acc : G) (A : Set X) (j : Nat), pts acc =ᵐ[μ] A →
    (A ∪ region pts ((overlapLoop L acc l).take j) : Set X) =ᵐ[μ] (A ∪ region pts (l.take j) : Set X) := by
  induction l with
  | nil => intro acc A j _; simp only [overlapLoop]; exact ae_eq_refl _
  | cons g t ih =>
    intro acc A j hA
    obtain ⟨n, pi⟩ := g
    cases j with
    | zero => simp only [List.take_zero]; exact ae_eq_refl _
    | succ j =>
      simp only [overlapLoop, hL.valid, if_true, List.take_succ_cons, region_cons, ← Set.union_assoc]
      refine ((overlapFree_union hL acc pi A hA).union (ae_eq_refl _)).trans ?_
      exact ih _ _ j (overlap_acc hL acc pi A hA)

end lemmas

variable {G X : Type*} [MeasurableSpace X] {μ : Measure X} {pts : G → Set X} {L : GeomLib G}

/-- C61: the names and their order are kept. -/
theorem c61_names (L : GeomLib G) (l : List (String × G)) : (removeOverlaps L l).map Prod.fst = l.map Prod.fst := by
  unfold removeOverlaps
  generalize L.empty = acc
  induction l generalizing acc with
  | nil => rfl
  | cons g t ih => obtain ⟨n, pi⟩ := g; simp [overlapLoop, ih]

/-- C61: the same area is covered, by the whole and by the first `j` electrodes. -/
theorem c61_union (hL : Faithful μ pts L) (l : List (String × G)) (j : Nat) :
    region pts ((removeOverlaps L l).take j) =ᵐ[μ] region pts (l.take j) := by
  have := overlapLoop_region hL l L.empty ∅ j hL.empty
  simpa [removeOverlaps] using this

/-- C61: earlier electrodes win.  An electrode loses exactly what the preceding ones cover, if that has more than the area
`eps32`; otherwise it stays as it is. -/
theorem c61_earlier_wins (hL : Faithful μ pts L) (l : List (String × G)) (j : Nat) (a b : String × G)
    (ha : l[j]? = some a) (hb : (removeOverlaps L l)[j]? = some b) :
    (eps32 < μ.real (region pts (l.take j) ∩ pts a.2) → pts b.2 =ᵐ[μ] (pts a.2 \ region pts (l.take j) : Set X)) ∧
    (μ.real (region pts (l.take j) ∩ pts a.2) ≤ eps32 → b.2 = a.2) := by
  obtain ⟨hj, rfl⟩ := List.getElem?_eq_some_iff.1 ha
  obtain ⟨hj', rfl⟩ := List.getElem?_eq_some_iff.1 hb
  have := (overlapLoop_spec hL l L.empty ∅ hL.empty j hj hj').2
  simp only [Set.empty_union] at this
  rcases this with ⟨h1, h2⟩ | ⟨h1, h2⟩
  · exact ⟨fun h => absurd h (not_lt.2 h1), fun _ => h2⟩
  · exact ⟨fun _ => h2, fun h => absurd h1 (not_lt.2 h)⟩

/-- C61: no electrode grows. -/
theorem c61_shrinks (hL : Faithful μ pts L) (l : List (String × G)) (j : Nat) (a b : String × G)
    (ha : l[j]? = some a) (hb : (removeOverlaps L l)[j]? = some b) : pts b.2 ≤ᵐ[μ] pts a.2 := by
  obtain ⟨h1, h2⟩ := c61_earlier_wins hL l j a b ha hb
  rcases lt_or_ge eps32 (μ.real (region pts (l.take j) ∩ pts a.2)) with h | h
  · exact (h1 h).le.trans (Filter.Eventually.of_forall fun x hx => hx.1)
  · rw [h2 h]; exact (ae_eq_refl _).le

/-- C61, what is proved of disjointness: after the call an electrode overlaps all the preceding ones together by at most the area
`eps32`.  Missing: that the overlap is zero, which fails (`c61_tiny_overlap`). -/
theorem c61_overlap_partial (hL : Faithful μ pts L) (l : List (String × G)) (j : Nat) (b : String × G)
    (hb : (removeOverlaps L l)[j]? = some b) :
    μ.real (region pts ((removeOverlaps L l).take j) ∩ pts b.2) ≤ eps32 := by
  obtain ⟨hj', -⟩ := List.getElem?_eq_some_iff.1 hb
  have hj : j < l.length := by rwa [removeOverlaps, overlapLoop_length] at hj'
  obtain ⟨h1, h2⟩ := c61_earlier_wins hL l j l[j] b (List.getElem?_eq_getElem hj) hb
  rw [real_congr ((c61_union hL l j).inter (ae_eq_refl (pts b.2)))]
  rcases lt_or_ge eps32 (μ.real (region pts (l.take j) ∩ pts l[j].2)) with h | h
  · have e : (region pts (l.take j) ∩ pts b.2 : Set X) =ᵐ[μ] (∅ : Set X) := by
      have := (ae_eq_refl (μ := μ) (region pts (l.take j))).inter (l := ae μ) (h1 h)
      rwa [Set.inter_sdiff_self] at this
    rw [real_congr e]
    simp [eps32]
  · rwa [h2 h]

/-- C61: if no electrode overlaps the preceding ones by a positive area of at most `eps32`, the electrodes are disjoint
after the call, up to sets of area zero. -/
theorem c61_disjoint (hL : Faithful μ pts L) (l : List (String × G))
    (hl : ∀ j a, l[j]? = some a →
      μ.real (region pts (l.take j) ∩ pts a.2) = 0 ∨ eps32 < μ.real (region pts (l.take j) ∩ pts a.2))
    (i j : Nat) (hij : i < j) (b c : String × G) (hb : (removeOverlaps L l)[i]? = some b)
    (hc : (removeOverlaps L l)[j]? = some c) : μ (pts b.2 ∩ pts c.2) = 0 := by
  obtain ⟨hj', -⟩ := List.getElem?_eq_some_iff.1 hc
  have hj : j < l.length := by rwa [removeOverlaps, overlapLoop_length] at hj'
  obtain ⟨h1, h2⟩ := c61_earlier_wins hL l j l[j] c (List.getElem?_eq_getElem hj) hc
  have key : μ.real (region pts ((removeOverlaps L l).take j) ∩ pts c.2) = 0 := by
    rw [real_congr ((c61_union hL l j).inter (ae_eq_refl (pts c.2)))]
    rcases hl j l[j] (List.getElem?_eq_getElem hj) with h | h
    · rw [h2 (by rw [h]; simp [eps32])]; exact h
    · have e : (region pts (l.take j) ∩ pts c.2 : Set X) =ᵐ[μ] (∅ : Set X) := by
        have := (ae_eq_refl (μ := μ) (region pts (l.take j))).inter (l := ae μ) (h1 h)
        rwa [Set.inter_sdiff_self] at this
      rw [real_congr e]; simp
  have hfin : μ (region pts ((removeOverlaps L l).take j) ∩ pts c.2) ≠ ⊤ :=
    measure_ne_top_of_subset Set.inter_subset_right (hL.finite _)
  have hz : μ (region pts ((removeOverlaps L l).take j) ∩ pts c.2) = 0 :=
    (measureReal_eq_zero_iff hfin).1 key
  refine measure_mono_null (Set.inter_subset_inter_left _ ?_) hz
  intro x hx
  refine ⟨b, ?_, hx⟩
  have hbt : ((removeOverlaps L l).take j)[i]? = some b := by rw [List.getElem?_take, if_pos hij]; exact hb
  exact List.mem_of_getElem? hbt

/-- C61 fails: electrodes that overlap by a positive area of at most `eps32` are left as they are. -/
theorem c61_tiny_overlap (hL : Faithful μ pts L) (a b : String × G) (h0 : 0 < μ.real (pts a.2 ∩ pts b.2))
    (h1 : μ.real (pts a.2 ∩ pts b.2) ≤ eps32) :
    removeOverlaps L [a, b] = [a, b] ∧ ¬ μ (pts a.2 ∩ pts b.2) = 0 := by
  have hne : ¬ μ (pts a.2 ∩ pts b.2) = 0 := fun e => by rw [Measure.real, e] at h0; simp at h0
  refine ⟨?_, hne⟩
  have e1 : region pts ([] : List (String × G)) = ∅ := region_nil
  have e2 : region pts [a] = pts a.2 := by rw [region_cons, region_nil, Set.union_empty]
  have hlen : (removeOverlaps L [a, b]).length = 2 := by rw [removeOverlaps, overlapLoop_length]; rfl
  have hn := c61_names L [a, b]
  obtain ⟨c, d, hcd⟩ : ∃ c d, removeOverlaps L [a, b] = [c, d] := by
    match h : removeOverlaps L [a, b], hlen with
    | [c, d], _ => exact ⟨c, d, rfl⟩
  have hc := (c61_earlier_wins hL [a, b] 0 a c rfl (by rw [hcd]; rfl)).2 (by simp [region_nil, eps32])
  have hd := (c61_earlier_wins hL [a, b] 1 b d rfl (by rw [hcd]; rfl)).2 (by simpa [e2] using h1)
  rw [hcd] at hn ⊢
  simp only [List.map_cons, List.map_nil, List.cons.injEq, and_true] at hn
  rw [show c = a from Prod.ext hn.1 hc, show d = b from Prod.ext hn.2 hd]

/-- Sets of finite area with the operations of sets are a geometry library in this sense. -/
noncomputable def setLib : GeomLib {s : Set (ℝ × ℝ) // volume s ≠ ⊤} where
  empty := ⟨∅, by simp⟩
  inter a b := ⟨a ∩ b, measure_ne_top_of_subset Set.inter_subset_left a.2⟩
  union a b := ⟨a ∪ b, measure_union_ne_top a.2 b.2⟩
  diff a b := ⟨a.1 \ b.1, measure_ne_top_of_subset Set.sdiff_subset a.2⟩
  valid _ := true
  area a := volume.real a.1

example : Faithful volume (fun s : {s : Set (ℝ × ℝ) // volume s ≠ ⊤} => s.1) setLib :=
  ⟨ae_eq_refl _, fun _ _ => ae_eq_refl _, fun _ _ => ae_eq_refl _, fun _ _ => ae_eq_refl _, fun _ => rfl, fun a => a.2,
    fun _ => rfl⟩

/-- Two squares whose overlap is large meet the hypotheses of `c61_disjoint`, two that hardly overlap those of `c61_tiny_overlap`. -/
example : eps32 < volume.real (Set.Icc (0 : ℝ) 2 ×ˢ Set.Icc (0 : ℝ) 1 ∩ Set.Icc (1 : ℝ) 3 ×ˢ Set.Icc (0 : ℝ) 1) := by
  rw [Set.prod_inter_prod, Set.Icc_inter_Icc, Set.Icc_inter_Icc, Measure.real, Measure.volume_eq_prod, Measure.prod_prod,
    Real.volume_Icc, Real.volume_Icc]
  norm_num [eps32]

example : 0 < volume.real (Set.Icc (0 : ℝ) (1 + 1 / 10 ^ 8) ×ˢ Set.Icc (0 : ℝ) 1 ∩ Set.Icc (1 : ℝ) 3 ×ˢ Set.Icc (0 : ℝ) 1) ∧
    volume.real (Set.Icc (0 : ℝ) (1 + 1 / 10 ^ 8) ×ˢ Set.Icc (0 : ℝ) 1 ∩ Set.Icc (1 : ℝ) 3 ×ˢ Set.Icc (0 : ℝ) 1) ≤ eps32 := by
  rw [Set.prod_inter_prod, Set.Icc_inter_Icc, Set.Icc_inter_Icc, Measure.real, Measure.volume_eq_prod, Measure.prod_prod,
    Real.volume_Icc, Real.volume_Icc]
  norm_num [eps32]

end Electrode
