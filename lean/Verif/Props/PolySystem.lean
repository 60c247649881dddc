import Verif.Model.Polygons
import Verif.Props.Area
import Verif.Props.Surface
import Mathlib.Data.List.Rotate

/-
C62: a system of polygon electrodes survives the conversion to `Polygons` and back.
-/
namespace Electrode

namespace Spec

/-- the signed area of a path: positive for counter clockwise -/
noncomputable def sarea (p : List V2) : ℝ := (areaCentroid p).1

/-- the coordinates of the closed ring along a path -/
def close (p : List V2) : List V2 := p ++ p.take 1

/-- the same closed boundary, from another vertex or in the other direction -/
def sameBoundary (p q : List V2) : Prop := q ~r p ∨ q ~r p.reverse

/-- the rings of a list of polygons, marked as exterior (`true`) or interior -/
def ringsOf (ps : List GPoly) : List (Bool × List V2) := ps.flatMap fun q => (true, q.ext) :: q.ints.map fun r => (false, r)

/-- the polygons of a geometry -/
def polysOf : Geom → List GPoly
  | .polygon p => [p]
  | .multi ps => ps

/-- the hole `h` belongs to the exterior `e`: the smallest of the paths around it -/
def Owns (L : RingLib) (paths : List (List V2)) (e h : List V2) : Prop :=
  e ∈ paths ∧ 0 < sarea e ∧ h ∈ paths ∧ sarea h < 0 ∧ |sarea h| < sarea e ∧ L.contains (close e) (close h) = true ∧
    ∀ e' ∈ paths, 0 < sarea e' → |sarea h| < sarea e' → L.contains (close e') (close h) = true → sarea e ≤ sarea e'

/-- Paths of an electrode with correctly nested holes, as seen by the geometry library. -/
structure WellNested (L : RingLib) (paths : List (List V2)) : Prop where
  long : ∀ p ∈ paths, 3 ≤ p.length
  notClosed : ∀ p ∈ paths, p.head? ≠ p.getLast?
  area : ∀ p ∈ paths, sarea p ≠ 0
  outer : ∃ p ∈ paths, 0 < sarea p
  /-- every hole lies inside an exterior -/
  hole : ∀ h ∈ paths, sarea h < 0 → ∃ e ∈ paths, 0 < sarea e ∧ |sarea h| < sarea e ∧ L.contains (close e) (close h) = true
  /-- an exterior with some of its own holes is a valid polygon -/
  valid : ∀ e ∈ paths, 0 < sarea e → ∀ gs : List (List V2), gs.Subperm paths → (∀ h ∈ gs, Owns L paths e h) →
    L.valid ⟨close e, gs.map close⟩ = true ∧ 0 < L.area ⟨close e, gs.map close⟩
  /-- the polygons do not touch each other: their union has the same rings, apart from order, first vertex and direction -/
  apart : ∀ qs : List GPoly,
    (∀ q ∈ qs, ∃ e ∈ paths, q.ext = close e ∧ ∀ r ∈ q.ints, ∃ h, r = close h ∧ Owns L paths e h) →
    (ringsOf qs).Perm ((paths.filter fun p => 0 < sarea p).map (fun p => (true, close p)) ++
      (paths.filter fun p => sarea p < 0).map (fun p => (false, close p))) →
    (∃ l, l.Perm (ringsOf (polysOf (L.unaryUnion qs))) ∧ List.Forall₂ (fun a b => a.1 = b.1 ∧ ∀ p, a.2 = close p →
      ∃ q, b.2 = close q ∧ sameBoundary p q) (ringsOf qs) l) ∧
    ∀ q ∈ polysOf (L.unaryUnion qs), L.valid q = true ∧ L.area q ≠ 0
  /-- the library knows the direction of these rings -/
  ccw : ∀ p ∈ paths, ∀ q, sameBoundary p q → (L.ccw (close q) = true ↔ 0 < sarea q)

end Spec
open Spec

section lemmas

variable {L : RingLib}

theorem close_dropLast (p : List V2) (h : p ≠ []) : (close p).dropLast = p := by
  cases p with
  | nil => exact absurd rfl h
  | cons a t => simp only [close, List.take_succ_cons, List.take_zero, List.dropLast_concat]

theorem close_inj {p q : List V2} (hp : p ≠ []) (hq : q ≠ []) (h : close p = close q) : p = q := by
  rw [← close_dropLast p hp, h, close_dropLast q hq]

theorem sarea_rotated {p q : List V2} (h : q ~r p) : sarea q = sarea p := by
  obtain ⟨n, rfl⟩ := h
  simp only [sarea, c10_first_vertex]

theorem sarea_reverse (p : List V2) : sarea p.reverse = -sarea p := c10_area_reverse p

/-- the path written for a ring is the original one, from another vertex -/
theorem oriented_spec (b : Bool) (p q : List V2) (hp : p ≠ []) (hs : sameBoundary p q)
    (ha : if b then 0 < sarea p else sarea p < 0) (hccw : L.ccw (close q) = true ↔ 0 < sarea q) :
    orientedPath L b (close q) ~r p := by
  have hq : q ≠ [] := by
    rintro rfl
    rcases hs with h | h
    · exact hp (List.isRotated_nil_iff'.1 h).symm
    · exact hp (by simpa using (List.isRotated_nil_iff'.1 h).symm)
  have hrev : ((close q).reverse).dropLast ~r q.reverse := by
    cases q with
    | nil => exact absurd rfl hq
    | cons a t =>
      have : (close (a :: t)).reverse.dropLast = a :: t.reverse := by
        simp only [close, List.take_succ_cons, List.take_zero, List.cons_append, List.reverse_cons, List.reverse_append,
          List.reverse_nil, List.nil_append]
        rw [← List.cons_append, List.dropLast_concat]
      rw [this, List.reverse_cons]
      exact ⟨1, by simp⟩
  unfold orientedPath
  rcases hs with h | h
  · have hsq := sarea_rotated h
    have : L.ccw (close q) = b := by
      cases b with
      | true => exact hccw.2 (by rw [hsq]; simpa using ha)
      | false =>
        by_contra hne
        have h1 := hccw.1 (by simpa using hne)
        simp only [Bool.false_eq_true, if_false] at ha
        rw [hsq] at h1; linarith
    rw [if_pos this, close_dropLast q hq]
    exact h
  · have hsq := sarea_rotated h
    rw [sarea_reverse] at hsq
    have : ¬ L.ccw (close q) = b := by
      intro he
      cases b with
      | true =>
        have h1 := hccw.1 he
        simp only [if_true] at ha
        linarith
      | false =>
        simp only [Bool.false_eq_true, if_false] at ha
        have := hccw.2 (by linarith)
        rw [he] at this; cases this
    rw [if_neg this]
    refine hrev.trans ?_
    have := h.reverse
    rwa [List.reverse_reverse] at this

/-- interiors that are still free -/
def remInts : Nat → List (ℝ × List V2) → List Nat → List (ℝ × List V2)
  | _, [], _ => []
  | i, x :: t, done => if i ∈ done then remInts (i + 1) t done else x :: remInts (i + 1) t done

theorem remInts_cons_lt (t : List (ℝ × List V2)) (done : List Nat) (k : Nat) : ∀ i, k < i →
    remInts i t (k :: done) = remInts i t done := by
  induction t with
  | nil => intros; rfl
  | cons x t ih =>
    intro i hk
    have : (i ∈ k :: done) = (i ∈ done) := by
      apply propext
      rw [List.mem_cons]
      constructor
      · rintro (h | h)
        · omega
        · exact h
      · exact Or.inr
    simp only [remInts, this, ih (i + 1) (by omega)]

theorem remInts_nil_done (t : List (ℝ × List V2)) : ∀ i, remInts i t [] = t := by
  induction t with
  | nil => intros; rfl
  | cons x t ih => intro i; simp [remInts, ih]

theorem claim_done (exta : ℝ) (ext : List V2) (t : List (ℝ × List V2)) : ∀ i done,
    (∀ k ∈ done, k ∈ (claimInts L exta ext i t done).2) ∧
    (∀ k ∈ (claimInts L exta ext i t done).2, k ∈ done ∨ i ≤ k) := by
  induction t with
  | nil => intro i done; exact ⟨fun k h => h, fun k h => Or.inl h⟩
  | cons x t ih =>
    intro i done
    obtain ⟨inta, r⟩ := x
    simp only [claimInts]
    split_ifs with h1 h2 h3
    · refine ⟨(ih (i + 1) done).1, fun k hk => ?_⟩
      rcases (ih (i + 1) done).2 k hk with h | h
      · exact Or.inl h
      · exact Or.inr (by omega)
    · exact ⟨fun k h => h, fun k h => Or.inl h⟩
    · refine ⟨fun k hk => (ih (i + 1) (i :: done)).1 k (List.mem_cons_of_mem _ hk), fun k hk => ?_⟩
      rcases (ih (i + 1) (i :: done)).2 k hk with h | h
      · rcases List.mem_cons.1 h with rfl | h
        · exact Or.inr le_rfl
        · exact Or.inl h
      · exact Or.inr (by omega)
    · refine ⟨(ih (i + 1) done).1, fun k hk => ?_⟩
      rcases (ih (i + 1) done).2 k hk with h | h
      · exact Or.inl h
      · exact Or.inr (by omega)

/-- the interiors of one exterior, with their areas -/
theorem claim_spec (exta : ℝ) (ext : List V2) (t : List (ℝ × List V2)) (hs : t.Pairwise fun a b => a.1 ≤ b.1) : ∀ i done,
    ∃ l : List (ℝ × List V2), (claimInts L exta ext i t done).1 = l.map Prod.snd ∧
      (l ++ remInts i t (claimInts L exta ext i t done).2).Perm (remInts i t done) ∧
      (∀ x ∈ l, x.1 < exta ∧ L.contains ext x.2 = true) ∧
      (∀ x ∈ remInts i t (claimInts L exta ext i t done).2, ¬ (x.1 < exta ∧ L.contains ext x.2 = true)) := by
  induction t with
  | nil => intro i done; exact ⟨[], rfl, by simp [remInts], by simp, by simp [remInts]⟩
  | cons x t ih =>
    intro i done
    obtain ⟨inta, r⟩ := x
    have ih' := ih (List.pairwise_cons.1 hs).2
    simp only [claimInts]
    split_ifs with h1 h2 h3
    · obtain ⟨l, g1, g2, g3, g4⟩ := ih' (i + 1) done
      have hm : i ∈ (claimInts L exta ext (i + 1) t done).2 := (claim_done exta ext t _ _).1 i h1
      refine ⟨l, g1, ?_, g3, ?_⟩
      · simpa only [remInts, hm, h1, if_true] using g2
      · simpa only [remInts, hm, if_true] using g4
    · refine ⟨[], rfl, by simp, by simp, ?_⟩
      intro y hy hh
      have hle : exta ≤ y.1 := by
        have hsub : ∀ (t : List (ℝ × List V2)) (i : Nat), ∀ y ∈ remInts i t done, y ∈ t := by
          intro t
          induction t with
          | nil => intro i y hy; simp [remInts] at hy
          | cons z t ih2 =>
            intro i y hy
            simp only [remInts] at hy
            split_ifs at hy
            · exact List.mem_cons_of_mem _ (ih2 _ _ hy)
            · rcases List.mem_cons.1 hy with rfl | hy
              · exact List.mem_cons_self
              · exact List.mem_cons_of_mem _ (ih2 _ _ hy)
        rcases List.mem_cons.1 (hsub _ _ _ hy) with rfl | hy
        · exact h2
        · exact h2.trans ((List.pairwise_cons.1 hs).1 y hy)
      linarith [hh.1]
    · obtain ⟨l, g1, g2, g3, g4⟩ := ih' (i + 1) (i :: done)
      have hm : i ∈ (claimInts L exta ext (i + 1) t (i :: done)).2 := (claim_done exta ext t _ _).1 i List.mem_cons_self
      refine ⟨(inta, r) :: l, by simp [g1], ?_, ?_, ?_⟩
      · simp only [remInts, hm, h1, if_true, if_false, List.cons_append]
        rw [remInts_cons_lt t done i (i + 1) (by omega)] at g2
        exact g2.cons _
      · intro y hy
        rcases List.mem_cons.1 hy with rfl | hy
        · exact ⟨not_le.1 h2, h3⟩
        · exact g3 y hy
      · simpa only [remInts, hm, if_true] using g4
    · obtain ⟨l, g1, g2, g3, g4⟩ := ih' (i + 1) done
      have hm : i ∉ (claimInts L exta ext (i + 1) t done).2 := fun hm => by
        rcases (claim_done exta ext t _ _).2 i hm with h | h
        · exact h1 h
        · omega
      refine ⟨l, g1, ?_, g3, ?_⟩
      · simp only [remInts, hm, h1, if_false]
        exact List.perm_middle.trans (g2.cons _)
      · intro y hy
        simp only [remInts, hm, if_false] at hy
        rcases List.mem_cons.1 hy with rfl | hy
        · exact fun hh => h3 hh.2
        · exact g4 y hy

/-- the groups: every exterior once, and of the interiors those that lie in some exterior, each in the smallest -/
theorem group_spec (ints : List (ℝ × List V2)) (hs : ints.Pairwise fun a b => a.1 ≤ b.1)
    (V : ℝ × List V2 → List (ℝ × List V2) → Prop)
    (hV : ∀ e l, V e l → L.valid ⟨e.2, l.map Prod.snd⟩ = true ∧ 0 < L.area ⟨e.2, l.map Prod.snd⟩)
    (exts : List (ℝ × List V2)) : ∀ (pre : List (ℝ × List V2)) (done : List Nat),
    (pre ++ exts).Pairwise (fun a b => a.1 ≤ b.1) →
    (∀ x ∈ remInts 0 ints done, ∀ e ∈ pre, ¬ (x.1 < e.1 ∧ L.contains e.2 x.2 = true)) →
    (remInts 0 ints done).Subperm ints →
    (∀ e ∈ exts, ∀ l : List (ℝ × List V2), l.Subperm ints → (∀ x ∈ l, x.1 < e.1 ∧ L.contains e.2 x.2 = true ∧
      ∀ e' ∈ pre ++ exts, x.1 < e'.1 → L.contains e'.2 x.2 = true → e.1 ≤ e'.1) → V e l) →
    ∃ gs : List ((ℝ × List V2) × List (ℝ × List V2)),
      groupRings L ints exts done = gs.map (fun g => ⟨g.1.2, g.2.map Prod.snd⟩) ∧ gs.map Prod.fst = exts ∧
      (∀ g ∈ gs, V g.1 g.2) ∧
      ∃ rest : List (ℝ × List V2), (gs.flatMap Prod.snd ++ rest).Perm (remInts 0 ints done) ∧
        ∀ x ∈ rest, ∀ e ∈ pre ++ exts, ¬ (x.1 < e.1 ∧ L.contains e.2 x.2 = true) := by
  induction exts with
  | nil =>
    intro pre done _ hpre _ _
    exact ⟨[], rfl, rfl, by simp, remInts 0 ints done, by simp, by simpa using hpre⟩
  | cons e t ih =>
    intro pre done hsort hpre hsub hval
    obtain ⟨exta, ext⟩ := e
    obtain ⟨l, g1, g2, g3, g4⟩ := claim_spec (L := L) exta ext ints hs 0 done
    have hmem : ∀ x ∈ l, x ∈ remInts 0 ints done := fun x hx => g2.subset (List.mem_append_left _ hx)
    have hmem' : ∀ x ∈ remInts 0 ints (claimInts L exta ext 0 ints done).2, x ∈ remInts 0 ints done :=
      fun x hx => g2.subset (List.mem_append_right _ hx)
    have hVl : V (exta, ext) l := by
      refine hval (exta, ext) List.mem_cons_self l ?_ ?_
      · exact ((List.sublist_append_left _ _).subperm.trans g2.subperm).trans hsub
      · intro x hx
        refine ⟨(g3 x hx).1, (g3 x hx).2, fun e' he' h1 h2 => ?_⟩
        rcases List.mem_append.1 he' with he' | he'
        · exact absurd ⟨h1, h2⟩ (hpre x (hmem x hx) e' he')
        · rcases List.mem_cons.1 he' with rfl | he'
          · exact le_rfl
          · exact (List.pairwise_cons.1 (List.pairwise_append.1 hsort).2.1).1 e' he'
    have happ : pre ++ (exta, ext) :: t = (pre ++ [(exta, ext)]) ++ t := by simp
    obtain ⟨gs, k1, k2, k3, rest, k4, k5⟩ := ih (pre ++ [(exta, ext)]) (claimInts L exta ext 0 ints done).2
      (by rw [← happ]; exact hsort)
      (by
        intro x hx e he
        rcases List.mem_append.1 he with he | he
        · exact hpre x (hmem' x hx) e he
        · rw [List.mem_singleton.1 he]; exact g4 x hx)
      (((List.sublist_append_right _ _).subperm.trans g2.subperm).trans hsub)
      (by
        intro e he l hl hx
        rw [← happ] at hx
        exact hval e (List.mem_cons_of_mem _ he) l hl hx)
    have hval' := hV _ _ hVl
    refine ⟨((exta, ext), l) :: gs, ?_, by simp [k2], ?_, rest, ?_, by rw [happ]; exact k5⟩
    · simp only [groupRings, g1, hval', true_and, and_self, if_true, List.map_cons, k1]
    · intro g hg
      rcases List.mem_cons.1 hg with rfl | hg
      · exact hVl
      · exact k3 g hg
    · rw [List.flatMap_cons, List.append_assoc]
      exact (k4.append_left l).trans g2

theorem splitRings_spec (paths : List (List V2)) (h1 : ∀ p ∈ paths, 3 ≤ p.length) (h2 : ∀ p ∈ paths, p.head? ≠ p.getLast?) :
    splitRings paths = .ok ((paths.filter fun p => 0 < sarea p).map (fun p => (|sarea p|, close p)),
      (paths.filter fun p => sarea p < 0).map (fun p => (|sarea p|, close p))) := by
  induction paths with
  | nil => rfl
  | cons p t ih =>
    have e : linearRing p = .ok (close p) := by
      have a1 := h1 p List.mem_cons_self
      have a2 := h2 p List.mem_cons_self
      simp only [linearRing, not_lt.2 a1, if_false, a2, close]
    rw [splitRings, e, ih (fun p hp => h1 p (List.mem_cons_of_mem _ hp)) fun p hp => h2 p (List.mem_cons_of_mem _ hp)]
    rcases lt_trichotomy (sarea p) 0 with h | h | h
    · simp [List.filter_cons, h, not_lt.2 h.le, show (areaCentroid p).1 < 0 from h]
      rfl
    · simp [List.filter_cons, h, show (areaCentroid p).1 = 0 from h]
    · simp [List.filter_cons, h, not_lt.2 h.le, show 0 < (areaCentroid p).1 from h,
        not_lt.2 (show 0 < (areaCentroid p).1 from h).le]
      rfl

theorem sortByArea_perm (l : List (ℝ × List V2)) : (sortByArea l).Perm l := List.mergeSort_perm _ _

theorem sortByArea_sorted (l : List (ℝ × List V2)) : (sortByArea l).Pairwise fun a b => a.1 ≤ b.1 := by
  have := List.pairwise_mergeSort (le := fun a b : ℝ × List V2 => open Classical in decide (a.1 ≤ b.1))
    (by intro a b c h1 h2; simp only [decide_eq_true_eq] at *; exact h1.trans h2)
    (by intro a b; simp only [Bool.or_eq_true, decide_eq_true_eq]; exact le_total _ _) l
  exact this.imp fun h => by simpa using h

theorem subperm_map {α β : Type*} (f : α → β) {l m : List α} (h : l.Subperm m) : (l.map f).Subperm (m.map f) := by
  obtain ⟨k, hk, hs⟩ := h
  exact ⟨k.map f, hk.map f, hs.map f⟩

theorem ringsOf_perm (gs : List ((ℝ × List V2) × List (ℝ × List V2))) :
    (ringsOf (gs.map fun g => (⟨g.1.2, g.2.map Prod.snd⟩ : GPoly))).Perm
      ((gs.map Prod.fst).map (fun e => (true, e.2)) ++ (gs.flatMap Prod.snd).map fun x => (false, x.2)) := by
  induction gs with
  | nil => simp [ringsOf]
  | cons g t ih =>
    simp only [ringsOf, List.map_cons, List.flatMap_cons, List.map_append, List.cons_append, List.map_map] at ih ⊢
    refine List.Perm.cons _ ?_
    refine (ih.append_left _).trans ?_
    simp only [← List.append_assoc, Function.comp_def]
    exact (List.perm_append_comm).append_right _

/-- the paths of one electrode after the conversion to `Polygons` and back are the original paths in another order and from
other vertices -/
theorem elec_paths (paths : List (List V2)) (hw : WellNested L paths) :
    ∃ exts ints, splitRings paths = .ok (exts, ints) ∧ exts ≠ [] ∧
      ∃ l l' : List (List V2), l.Perm paths ∧ List.Forall₂ (fun a b => b ~r a) l l' ∧
        l'.Perm ((polysOf (L.unaryUnion (groupRings L (sortByArea ints) (sortByArea exts) []))).flatMap (polyPaths L)) := by
  have hsp := splitRings_spec paths hw.long hw.notClosed
  set E := paths.filter fun p => 0 < sarea p with hE
  set H := paths.filter fun p => sarea p < 0 with hH
  have hne : ∀ p ∈ paths, p ≠ [] := fun p hp e => by have := hw.long p hp; rw [e] at this; simp at this
  have memE : ∀ p, p ∈ E ↔ p ∈ paths ∧ 0 < sarea p := fun p => by simp [hE]
  have memH : ∀ p, p ∈ H ↔ p ∈ paths ∧ sarea p < 0 := fun p => by simp [hH]
  refine ⟨_, _, hsp, ?_, ?_⟩
  · obtain ⟨p, hp, ha⟩ := hw.outer
    intro e
    have := (memE p).2 ⟨hp, ha⟩
    rw [List.map_eq_nil_iff.1 e] at this
    simp at this
  set exts := E.map fun p => (|sarea p|, close p)
  set ints := H.map fun p => (|sarea p|, close p)
  have pE := sortByArea_perm exts
  have pI := sortByArea_perm ints
  have memexts : ∀ e ∈ sortByArea exts, ∃ p ∈ paths, 0 < sarea p ∧ e = (sarea p, close p) := by
    intro e he
    obtain ⟨p, hp, rfl⟩ := List.mem_map.1 (pE.subset he)
    exact ⟨p, ((memE p).1 hp).1, ((memE p).1 hp).2, by rw [abs_of_pos ((memE p).1 hp).2]⟩
  have memexts' : ∀ p ∈ paths, 0 < sarea p → (sarea p, close p) ∈ sortByArea exts := by
    intro p hp ha
    refine pE.symm.subset (List.mem_map.2 ⟨p, (memE p).2 ⟨hp, ha⟩, by rw [abs_of_pos ha]⟩)
  have memints : ∀ x ∈ sortByArea ints, ∃ p ∈ paths, sarea p < 0 ∧ x = (|sarea p|, close p) := by
    intro e he
    obtain ⟨p, hp, rfl⟩ := List.mem_map.1 (pI.subset he)
    exact ⟨p, ((memH p).1 hp).1, ((memH p).1 hp).2, rfl⟩
  -- the groups
  obtain ⟨gs, k1, k2, k3, rest, k4, k5⟩ := group_spec (L := L) (sortByArea ints) (sortByArea_sorted ints)
    (fun e l => (∃ p ∈ paths, 0 < sarea p ∧ e = (sarea p, close p) ∧
      (∀ x ∈ l, ∃ h, x.2 = close h ∧ Owns L paths p h)) ∧
      L.valid ⟨e.2, l.map Prod.snd⟩ = true ∧ 0 < L.area ⟨e.2, l.map Prod.snd⟩) (fun e l h => h.2)
    (sortByArea exts) [] [] (by simpa using sortByArea_sorted exts) (by simp)
    (by rw [remInts_nil_done]) (by
      intro e he l hl hx
      obtain ⟨p, hp, ha, rfl⟩ := memexts e he
      have own : ∀ x ∈ l, ∃ h, x.2 = close h ∧ Owns L paths p h := by
        intro x hxl
        obtain ⟨h, hh, hah, rfl⟩ := memints x (hl.subset hxl)
        obtain ⟨a1, a2, a3⟩ := hx _ hxl
        exact ⟨h, rfl, hp, ha, hh, hah, a1, a2, fun e' he' hae' b1 b2 =>
          a3 (sarea e', close e') (by simpa using memexts' e' he' hae') b1 b2⟩
      refine ⟨⟨p, hp, ha, rfl, own⟩, ?_⟩
      have hgs : (l.map fun x => x.2.dropLast).Subperm paths := by
        have h1 := subperm_map (fun x : ℝ × List V2 => x.2.dropLast) (hl.trans pI.subperm)
        have h2 : ints.map (fun x => x.2.dropLast) = H := by
          simp only [ints, List.map_map, Function.comp_def]
          conv_rhs => rw [← List.map_id H]
          refine List.map_congr_left fun q hq => ?_
          simp [close_dropLast q (hne q ((memH q).1 hq).1)]
        rw [h2] at h1
        exact h1.trans (List.filter_sublist).subperm
      have hmap : (l.map fun x => x.2.dropLast).map close = l.map Prod.snd := by
        rw [List.map_map]
        refine List.map_congr_left fun x hxl => ?_
        obtain ⟨h, e1, e2⟩ := own x hxl
        simp only [Function.comp, e1, close_dropLast h (hne h e2.2.2.1)]
      have := hw.valid p hp ha _ hgs (by
        intro h hh
        obtain ⟨x, hxl, rfl⟩ := List.mem_map.1 hh
        obtain ⟨h, e1, e2⟩ := own x hxl
        rw [e1, close_dropLast h (hne h e2.2.2.1)]; exact e2)
      rw [hmap] at this
      exact this)
  -- all the holes are taken
  have hrest : rest = [] := by
    rcases rest with _ | ⟨x, t⟩
    · rfl
    · exfalso
      have hx : x ∈ sortByArea ints := by
        rw [remInts_nil_done] at k4
        exact k4.subset (List.mem_append_right _ List.mem_cons_self)
      obtain ⟨h, hh, hah, rfl⟩ := memints x hx
      obtain ⟨e, he, hae, b1, b2⟩ := hw.hole h hh hah
      exact k5 _ List.mem_cons_self (sarea e, close e) (by simpa using memexts' e he hae) ⟨b1, b2⟩
  rw [hrest, List.append_nil, remInts_nil_done] at k4
  -- the rings of the groups
  have hrings : (ringsOf (gs.map fun g => (⟨g.1.2, g.2.map Prod.snd⟩ : GPoly))).Perm
      (E.map (fun p => (true, close p)) ++ H.map (fun p => (false, close p))) := by
    refine (ringsOf_perm gs).trans (List.Perm.append ?_ ?_)
    · rw [k2]
      refine (pE.map _).trans (List.Perm.of_eq ?_)
      simp [exts, Function.comp_def]
    · refine ((k4.trans pI).map _).trans (List.Perm.of_eq ?_)
      simp [ints, Function.comp_def]
  have hqs : ∀ q ∈ (gs.map fun g => (⟨g.1.2, g.2.map Prod.snd⟩ : GPoly)), ∃ e ∈ paths, q.ext = close e ∧
      ∀ r ∈ q.ints, ∃ h, r = close h ∧ Owns L paths e h := by
    intro q hq
    obtain ⟨g, hg, rfl⟩ := List.mem_map.1 hq
    obtain ⟨⟨p, hp, _, e1, own⟩, -⟩ := k3 g hg
    refine ⟨p, hp, by simp [e1], fun r hr => ?_⟩
    obtain ⟨x, hx, rfl⟩ := List.mem_map.1 hr
    exact own x hx
  obtain ⟨⟨l, hl1, hl2⟩, hval⟩ := hw.apart _ hqs hrings
  rw [← k1] at hl1 hl2 hval hrings
  set R := polysOf (L.unaryUnion (groupRings L (sortByArea ints) (sortByArea exts) []))
  -- the paths of the result
  have hpaths : R.flatMap (polyPaths L) = (ringsOf R).map fun a => orientedPath L a.1 a.2 := by
    clear_value R
    clear hl1
    induction R with
    | nil => rfl
    | cons q t ih =>
      have hq := hval q List.mem_cons_self
      rw [List.flatMap_cons, ih fun q' hq' => hval q' (List.mem_cons_of_mem _ hq')]
      simp [ringsOf, polyPaths, hq.1, hq.2, Function.comp_def]
  rw [hpaths]
  refine ⟨(ringsOf (groupRings L (sortByArea ints) (sortByArea exts) [])).map fun a => a.2.dropLast,
    l.map fun a => orientedPath L a.1 a.2, ?_, ?_, hl1.map _⟩
  · refine (hrings.map _).trans ?_
    have e1 : (E.map (fun p => (true, close p)) ++ H.map (fun p => (false, close p))).map (fun a => a.2.dropLast) = E ++ H := by
      simp only [List.map_append, List.map_map, Function.comp_def]
      congr 1
      · conv_rhs => rw [← List.map_id E]
        exact List.map_congr_left fun q hq => by simp [close_dropLast q (hne q ((memE q).1 hq).1)]
      · conv_rhs => rw [← List.map_id H]
        exact List.map_congr_left fun q hq => by simp [close_dropLast q (hne q ((memH q).1 hq).1)]
    rw [e1]
    have e2 : H = paths.filter fun p => !decide (0 < sarea p) := by
      refine List.filter_congr fun p hp => ?_
      rcases lt_or_gt_of_ne (hw.area p hp) with h | h
      · simp [h, not_lt.2 h.le, h.le]
      · simp [h, not_lt.2 h.le]
    rw [e2, hE]
    exact List.filter_append_perm _ _
  · rw [List.forall₂_map_left_iff, List.forall₂_map_right_iff]
    have hmem : ∀ a ∈ ringsOf (groupRings L (sortByArea ints) (sortByArea exts) []),
        ∃ p ∈ paths, a.2 = close p ∧ if a.1 then 0 < sarea p else sarea p < 0 := by
      intro a ha
      rcases List.mem_append.1 (hrings.subset ha) with h | h
      · obtain ⟨p, hp, rfl⟩ := List.mem_map.1 h
        exact ⟨p, ((memE p).1 hp).1, rfl, by simpa using ((memE p).1 hp).2⟩
      · obtain ⟨p, hp, rfl⟩ := List.mem_map.1 h
        exact ⟨p, ((memH p).1 hp).1, rfl, by simpa using ((memH p).1 hp).2⟩
    clear_value R
    clear hl1 hrings k1
    generalize ringsOf (groupRings L (sortByArea ints) (sortByArea exts) []) = Q at hl2 hmem
    induction hl2 with
    | nil => exact List.Forall₂.nil
    | @cons a b l1 l2 hab _ ih =>
      refine List.Forall₂.cons ?_ (ih fun a ha => hmem a (List.mem_cons_of_mem _ ha))
      obtain ⟨p, hp, ea, hs⟩ := hmem a List.mem_cons_self
      obtain ⟨q, eb, hb⟩ := hab.2 p ea
      rw [ea, eb, close_dropLast p (hne p hp), ← hab.1]
      exact oriented_spec a.1 p q (hne p hp) hb hs (hw.ccw p hp q hb)

end lemmas

/-- the potential does not depend on the order of the paths, nor, without a cover plane, on the height of the cover -/
theorem polygons_perm (name name' : String) (dc rf dc' rf' h h' : ℝ) (paths l l' paths' : List (List V2)) (h1 : l.Perm paths)
    (h2 : List.Forall₂ (fun a b => b ~r a) l l') (h3 : l'.Perm paths') (x : List V3) (d : Nat) (v : ℝ) :
    Elec.potential ⟨name', dc', rf', .polygons paths' h' 0⟩ x d v none
      = Elec.potential ⟨name, dc, rf, .polygons paths h 0⟩ x d v none := by
  refine potential_same _ _ x d v trivial trivial ?_
  intro p _ i _
  have e0 : ∀ h : ℝ, images 0 h p = images 0 0 p := by intro h; simp [images, coverRange]
  show polyContrib d 0 h' paths' p i = polyContrib d 0 h paths p i
  unfold polyContrib
  rw [e0 h', e0 h]
  rw [← (h3.map _).sum_eq, ← (h1.map _).sum_eq]
  refine (forall₂_sum h2 ?_).symm
  rintro a b hab
  obtain ⟨k, hk⟩ := hab.symm
  simp only [← hk, poly_rotate]

/-- C62: converting polygon electrodes with correctly nested holes to `Polygons` and back keeps names, order and number of the
electrodes, and the potential and all its derivatives everywhere (for electrodes without cover). -/
theorem c62_roundtrip (L : RingLib) (s : List Elec)
    (hs : ∀ e ∈ s, ∃ paths h, e.shape = .polygons paths h 0 ∧ WellNested L paths) :
    ∃ t, fromSystem L s = .ok t ∧ List.Forall₂ (fun e e' => e'.name = e.name ∧
      ∀ x d v, e'.potential x d v none = e.potential x d v none) s (toSystem L t) := by
  have key : ∀ s : List Elec, (∀ e ∈ s, ∃ paths h, e.shape = .polygons paths h 0 ∧ WellNested L paths) →
      ∃ t : List (String × Geom), pySeq (s.map (fromElec L)) = .ok (t.map some) ∧ List.Forall₂ (fun e e' => e'.name = e.name ∧
      ∀ x d v, e'.potential x d v none = e.potential x d v none) s (toSystem L t) := by
    intro s
    induction s with
    | nil => intro _; exact ⟨[], rfl, List.Forall₂.nil⟩
    | cons e s ih =>
      intro hs
      obtain ⟨t, ht, hf⟩ := ih fun e he => hs e (List.mem_cons_of_mem _ he)
      obtain ⟨paths, h, hsh, hw⟩ := hs e List.mem_cons_self
      obtain ⟨exts, ints, k1, k2, l, l', k3, k4, k5⟩ := elec_paths paths hw
      refine ⟨(e.name, L.unaryUnion (groupRings L (sortByArea ints) (sortByArea exts) [])) :: t, ?_, ?_⟩
      · have : fromElec L e = .ok (some (e.name, L.unaryUnion (groupRings L (sortByArea ints) (sortByArea exts) []))) := by
          simp only [fromElec, hsh, k1, k2, if_false]
        simp only [List.map_cons, pySeq, this, ht]
      · refine List.Forall₂.cons ⟨rfl, fun x d v => ?_⟩ hf
        obtain ⟨name, dc, rf, shape⟩ := e
        simp only at hsh
        subst hsh
        have e2 : toElec L (name, L.unaryUnion (groupRings L (sortByArea ints) (sortByArea exts) [])) =
            ⟨name, 0, 0, .polygons ((polysOf (L.unaryUnion (groupRings L (sortByArea ints) (sortByArea exts) []))).flatMap
              (polyPaths L)) 50 0⟩ := by
          simp only [toElec]
          generalize L.unaryUnion _ = g
          cases g <;> rfl
        rw [e2]
        exact polygons_perm _ _ _ _ _ _ _ _ paths l l' _ k3 k4 k5 x d v
  obtain ⟨t, ht, hf⟩ := key s hs
  refine ⟨t, ?_, hf⟩
  simp only [fromSystem, ht, List.filterMap_map]
  congr 1
  induction t with
  | nil => rfl
  | cons a t ih => simp

/-- C62: voltages and cover are not kept, they are the defaults. -/
theorem c62_defaults (L : RingLib) (t : List (String × Geom)) (e : Elec) (he : e ∈ toSystem L t) :
    e.dc = 0 ∧ e.rf = 0 ∧ ∃ paths, e.shape = .polygons paths 50 0 := by
  obtain ⟨p, -, rfl⟩ := List.mem_map.1 he
  exact ⟨rfl, rfl, _, rfl⟩

/-- C62 needs an exterior: an electrode without a counter clockwise path disappears, and all later ones move up. -/
theorem c62_no_exterior (L : RingLib) (name : String) (dc rf h : ℝ) (n : Nat) (paths : List (List V2)) (s : List Elec)
    (h1 : ∀ p ∈ paths, 3 ≤ p.length) (h2 : ∀ p ∈ paths, p.head? ≠ p.getLast?) (h3 : ∀ p ∈ paths, sarea p ≤ 0) :
    fromSystem L (⟨name, dc, rf, .polygons paths h n⟩ :: s) = fromSystem L s := by
  have e : paths.filter (fun p => 0 < sarea p) = [] := by
    rw [List.filter_eq_nil_iff]; intro p hp; simpa using h3 p hp
  have : fromElec L ⟨name, dc, rf, .polygons paths h n⟩ = .ok none := by
    simp only [fromElec, splitRings_spec paths h1 h2, e, List.map_nil, if_true]
  simp only [fromSystem, List.map_cons, pySeq, this]
  cases pySeq (s.map (fromElec L)) <;> rfl

/-- C62 needs the nesting: a hole that lies in no exterior is lost without a message, as if it had not been there. -/
theorem c62_free_hole (L : RingLib) (name : String) (dc rf h : ℝ) (n : Nat) (e f : List V2)
    (he : 3 ≤ e.length) (hf : 3 ≤ f.length) (ce : e.head? ≠ e.getLast?) (cf : f.head? ≠ f.getLast?) (ae : 0 < sarea e)
    (af : sarea f < 0) (hc : L.contains (close e) (close f) = false) :
    fromElec L ⟨name, dc, rf, .polygons [e, f] h n⟩ = fromElec L ⟨name, dc, rf, .polygons [e] h n⟩ := by
  have s1 := splitRings_spec [e, f] (by simp [he, hf]) (by simp [ce, cf])
  have s2 := splitRings_spec [e] (by simp [he]) (by simp [ce])
  have f1 : [e, f].filter (fun p => 0 < sarea p) = [e] := by simp [List.filter_cons, ae, not_lt.2 af.le]
  have f2 : [e, f].filter (fun p => sarea p < 0) = [f] := by simp [List.filter_cons, af, not_lt.2 ae.le]
  have f3 : [e].filter (fun p => 0 < sarea p) = [e] := by simp [ae]
  have f4 : [e].filter (fun p => sarea p < 0) = [] := by simp [not_lt.2 ae.le]
  rw [f1, f2] at s1
  rw [f3, f4] at s2
  have s0 : sortByArea [] = [] := (sortByArea_perm []).eq_nil
  have s3 : ∀ x, sortByArea [x] = [x] := fun x => List.perm_singleton.1 (sortByArea_perm [x])
  have key : groupRings L [(|sarea f|, close f)] [(|sarea e|, close e)] [] = groupRings L [] [(|sarea e|, close e)] [] := by
    have : claimInts L |sarea e| (close e) 0 [(|sarea f|, close f)] [] = ([], []) := by
      simp [claimInts, hc]
    have this' : claimInts L |sarea e| (close e) 0 [] [] = ([], []) := rfl
    simp only [groupRings, this, this']
  simp only [fromElec, s1, s2, List.map_cons, List.map_nil, s0, s3, key]

/-- C62: of the counter clockwise paths of an electrode without holes exactly those are joined that are valid and have an area;
the others are left out, and the paths after them are not. -/
theorem c62_invalid (L : RingLib) (name : String) (dc rf h : ℝ) (n : Nat) (paths : List (List V2)) (h0 : paths ≠ [])
    (h1 : ∀ p ∈ paths, 3 ≤ p.length) (h2 : ∀ p ∈ paths, p.head? ≠ p.getLast?) (h3 : ∀ p ∈ paths, 0 < sarea p) :
    ∃ ps : List (List V2), ps.Perm paths ∧ ps.Pairwise (fun p q => sarea p ≤ sarea q) ∧
      open Classical in fromElec L ⟨name, dc, rf, .polygons paths h n⟩ = .ok (some (name, L.unaryUnion
        ((ps.map fun p => (⟨close p, []⟩ : GPoly)).filter fun q => L.valid q = true ∧ 0 < L.area q))) := by
  classical
  have f1 : paths.filter (fun p => 0 < sarea p) = paths := by
    rw [List.filter_eq_self]; intro p hp; simpa using h3 p hp
  have f2 : paths.filter (fun p => sarea p < 0) = [] := by
    rw [List.filter_eq_nil_iff]; intro p hp; simpa using (h3 p hp).le
  have hs := splitRings_spec paths h1 h2
  rw [f1, f2, List.map_nil] at hs
  have s0 : sortByArea [] = [] := (sortByArea_perm []).eq_nil
  have hg : ∀ (l : List (ℝ × List V2)), groupRings L [] l [] =
      (l.map fun p => (⟨p.2, []⟩ : GPoly)).filter fun q => L.valid q = true ∧ 0 < L.area q := by
    intro l
    induction l with
    | nil => rfl
    | cons p t ih =>
      simp only [groupRings, claimInts, ih, List.map_cons, List.filter_cons, decide_eq_true_eq]
  have back : ∀ l : List (ℝ × List V2), (∀ x ∈ l, x ∈ paths.map fun p => (|sarea p|, close p)) →
      ∃ ps : List (List V2), (∀ p ∈ ps, p ∈ paths) ∧ l = ps.map fun p => (|sarea p|, close p) := by
    intro l
    induction l with
    | nil => intro _; exact ⟨[], by simp, rfl⟩
    | cons x l ih =>
      intro hx
      obtain ⟨ps, hps, rfl⟩ := ih fun y hy => hx y (List.mem_cons_of_mem _ hy)
      obtain ⟨p, hp, rfl⟩ := List.mem_map.1 (hx x List.mem_cons_self)
      exact ⟨p :: ps, by simpa [hp] using hps, rfl⟩
  have hperm := sortByArea_perm (paths.map fun p => (|sarea p|, close p))
  obtain ⟨ps, hps, he⟩ := back _ fun x hx => hperm.mem_iff.1 hx
  have hsort := sortByArea_sorted (paths.map fun p => (|sarea p|, close p))
  rw [he] at hsort hperm
  refine ⟨ps, ?_, ?_, ?_⟩
  · have hcl : ∀ q : List V2, (close q).dropLast = if q = [] then [] else q := by
      intro q
      by_cases hq : q = []
      · subst hq; rfl
      · rw [if_neg hq, close_dropLast q hq]
    have := hperm.map fun x => x.2.dropLast
    rw [List.map_map, List.map_map] at this
    have hid : ∀ l : List (List V2), (∀ p ∈ l, p ∈ paths) →
        l.map ((fun x : ℝ × List V2 => x.2.dropLast) ∘ fun p => (|sarea p|, close p)) = l := by
      intro l hl
      conv_rhs => rw [← List.map_id l]
      apply List.map_congr_left
      intro p hp
      have hne : p ≠ [] := by
        rintro rfl
        have := h1 _ (hl _ hp)
        simp at this
      simp only [Function.comp, id, hcl, if_neg hne]
    rwa [hid ps hps, hid paths fun p hp => hp] at this
  · rw [List.pairwise_map] at hsort
    refine hsort.imp_of_mem ?_
    intro a b ha hb hab
    simpa only [abs_of_pos (h3 a (hps a ha)), abs_of_pos (h3 b (hps b hb))] using hab
  · have hne : paths.map (fun p => (|sarea p|, close p)) ≠ [] := by simpa using h0
    simp only [fromElec, hs, if_neg hne, s0, he, hg, List.map_map]
    rfl

/-- a library that takes every path to lie in every other -/
noncomputable def exRings : RingLib where
  contains _ _ := true
  valid _ := true
  area _ := 1
  unaryUnion := .multi
  ccw r := open Classical in decide (0 < sarea r.dropLast)

/-- A square with a square hole meets the hypotheses. -/
example : WellNested exRings [[⟨0, 0⟩, ⟨4, 0⟩, ⟨4, 4⟩, ⟨0, 4⟩], [⟨1, 1⟩, ⟨1, 2⟩, ⟨2, 2⟩, ⟨2, 1⟩]] := by
  have a1 : sarea [⟨0, 0⟩, ⟨4, 0⟩, ⟨4, 4⟩, ⟨0, 4⟩] = 16 := by
    simp [sarea, areaCentroid, rollLeft]; norm_num
  have a2 : sarea [⟨1, 1⟩, ⟨1, 2⟩, ⟨2, 2⟩, ⟨2, 1⟩] = -1 := by
    simp [sarea, areaCentroid, rollLeft]; norm_num
  refine ⟨by simp, by simp, by simp [a1, a2], ⟨_, List.mem_cons_self, by rw [a1]; norm_num⟩, ?_, ?_, ?_, ?_⟩
  · intro h hh hneg
    refine ⟨_, List.mem_cons_self, by rw [a1]; norm_num, ?_, rfl⟩
    rcases List.mem_cons.1 hh with rfl | hh
    · rw [a1] at hneg; norm_num at hneg
    · rw [List.mem_singleton.1 hh, a1, a2]; norm_num
  · intro e _ _ gs _ _
    exact ⟨rfl, one_pos⟩
  · intro qs _ _
    refine ⟨⟨ringsOf qs, List.Perm.refl _, ?_⟩, fun q _ => ⟨rfl, one_ne_zero⟩⟩
    exact List.forall₂_same.2 fun a _ => ⟨rfl, fun p hp => ⟨p, hp, Or.inl (List.IsRotated.refl _)⟩⟩
  · intro p hp q hq
    have hne : q ≠ [] := by
      rintro rfl
      have : p = [] := by
        rcases hq with h | h
        · exact (List.isRotated_nil_iff'.1 h).symm
        · simpa using (List.isRotated_nil_iff'.1 h).symm
      subst this
      simp at hp
    simp [exRings, close_dropLast q hne]

end Electrode
