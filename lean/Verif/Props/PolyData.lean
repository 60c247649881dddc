import Verif.Model.PolyData
import Verif.Props.Overlaps
import Verif.Props.Pads

/-
C90: `from_data` cuts the square into the given polygons and the rest.
-/
namespace Electrode
open MeasureTheory

namespace Spec

/-- a square around the origin -/
def squareSet (edge : ℝ) : Set (ℝ × ℝ) := {p | |p.1| ≤ edge / 2 ∧ |p.2| ≤ edge / 2}

/-- The geometry library computes with plane regions: as for `Faithful`; the polygon with the corners of a square is the square, the
orientation of boundaries does not matter, and the parts of a region make up the region without overlapping. -/
structure FaithfulData {G : Type} (pts : G → Set (ℝ × ℝ)) (L : DataLib G) : Prop extends Faithful volume pts L.toGeomLib where
  square : ∀ edge, 0 ≤ edge → pts (L.corners [⟨edge / 2, edge / 2⟩, ⟨-edge / 2, edge / 2⟩, ⟨-edge / 2, -edge / 2⟩, ⟨edge / 2, -edge / 2⟩])
    =ᵐ[volume] squareSet edge
  orient : ∀ g, pts (L.orient g) =ᵐ[volume] pts g
  parts : ∀ g, {x | ∃ p ∈ L.parts g, x ∈ pts p} =ᵐ[volume] pts g
  apart : ∀ g, (L.parts g).Pairwise fun p q => (pts p ∩ pts q : Set (ℝ × ℝ)) =ᵐ[volume] (∅ : Set (ℝ × ℝ))

/-- the strips along some paths -/
def stripSet {G : Type} (pts : G → Set (ℝ × ℝ)) (L : DataLib G) (paths : List (List V2)) (buffer : ℝ) : Set (ℝ × ℝ) :=
  {x | paths ≠ [] ∧ x ∈ pts (L.strips paths buffer)}

/-- what routes and bridges enclose together -/
def enclosedSet {G : Type} (pts : G → Set (ℝ × ℝ)) (L : DataLib G) (routes bridges : List (List V2)) : Set (ℝ × ℝ) :=
  {x | routes ≠ [] ∧ bridges ≠ [] ∧ ∃ p ∈ L.enclosed routes bridges, x ∈ pts p}

/-- the polygons given, by name: a path may enclose no polygon, or several -/
def givenPolys {G : Type} (L : DataLib G) (polys : List (String × List V2)) : List (String × G) :=
  polys.flatMap fun p => (L.polygonize p.2).map fun g => (p.1, g)

end Spec
open Spec

namespace PolyData
variable {G : Type} {pts : G → Set (ℝ × ℝ)} {L : DataLib G}

theorem ae_of_eq {s t : Set (ℝ × ℝ)} (h : s = t) : s =ᵐ[volume] t := h ▸ ae_eq_refl s

theorem cutPolys_spec (hL : FaithfulData pts L) (field0 : G) (S : Set (ℝ × ℝ)) (hS : pts field0 =ᵐ[volume] S) (l : List (String × G)) :
    ∀ (field : G) (F : Set (ℝ × ℝ)), pts field =ᵐ[volume] F →
    ∃ frags rest, cutPolys L field0 field l = .ok (frags, rest) ∧
      List.Forall₂ (fun f g : String × G => f.1 = g.1 ∧ pts f.2 =ᵐ[volume] (pts g.2 ∩ S : Set (ℝ × ℝ))) frags l ∧
      pts rest =ᵐ[volume] (F \ (region pts l ∩ S) : Set (ℝ × ℝ)) := by
  induction l with
  | nil =>
    intro field F hF
    refine ⟨[], field, rfl, List.Forall₂.nil, hF.trans ?_⟩
    rw [region_nil, Set.empty_inter, Set.sdiff_empty]
    exact ae_eq_refl _
  | cons g t ih =>
    intro field F hF
    obtain ⟨n, g⟩ := g
    have hp : pts (L.inter (L.orient g) field0) =ᵐ[volume] (pts g ∩ S : Set (ℝ × ℝ)) :=
      (hL.inter _ _).trans ((hL.orient g).inter hS)
    obtain ⟨frags, rest, h1, h2, h3⟩ := ih (L.diff field (L.inter (L.orient g) field0)) (F \ (pts g ∩ S)) ((hL.diff _ _).trans (hF.diff hp))
    refine ⟨(n, L.inter (L.orient g) field0) :: frags, rest, ?_, List.Forall₂.cons ⟨rfl, hp⟩ h2, h3.trans ?_⟩
    · unfold cutPolys
      simp only [hL.valid, Bool.true_eq_false, if_false, h1]
    · rw [region_cons]
      refine ae_of_eq ?_
      ext x
      simp only [Set.mem_sdiff, Set.mem_inter_iff, Set.mem_union]
      tauto

theorem fold_union (hL : FaithfulData pts L) (field0 : G) (S : Set (ℝ × ℝ)) (hS : pts field0 =ᵐ[volume] S) (l : List G) :
    ∀ (f : G) (F : Set (ℝ × ℝ)), pts f =ᵐ[volume] F →
      pts (l.foldl (fun f p => L.union f (L.inter p field0)) f) =ᵐ[volume] (F ∪ ({x | ∃ p ∈ l, x ∈ pts p} ∩ S) : Set (ℝ × ℝ)) := by
  induction l with
  | nil => intro f F hF; simpa using hF
  | cons g t ih =>
    intro f F hF
    refine (ih _ _ ((hL.union _ _).trans (hF.union ((hL.inter _ _).trans ((ae_eq_refl _).inter hS))))).trans (ae_of_eq ?_)
    ext x
    simp only [List.mem_cons, Set.mem_union, Set.mem_inter_iff, Set.mem_ofPred_eq, exists_eq_or_imp]
    tauto

end PolyData
open PolyData

variable {G : Type} {pts : G → Set (ℝ × ℝ)} {L : DataLib G}

/-- **C90.** `from_data` without names: first the given polygons in their order, each with its name and cut off at the square; then,
without names, the rest.  If there are gaps or routes, the rest is all of the square that is in none of the polygons, except for the
strips along gaps (unless enclosed by routes and bridges) and routes.  The pieces of the rest overlap neither each other nor the
polygons (before their coordinates are rounded, see `c90_rounding`). -/
theorem c90_pieces (hL : FaithfulData pts L) (polys : List (String × List V2)) (gaps routes bridges : List (List V2)) (edge buffer : ℝ)
    (he : 0 ≤ edge) :
    ∃ (frags : List (String × G)) (rest : List G),
      fromData L polys gaps routes bridges [] edge buffer
        = .ok (frags ++ rest.map fun p => ("", L.polygon (aroundPoly (bufferDigits buffer) (L.rings p)))) ∧
      List.Forall₂ (fun f g => f.1 = g.1 ∧ pts f.2 =ᵐ[volume] (pts g.2 ∩ squareSet edge : Set (ℝ × ℝ))) frags (givenPolys L polys) ∧
      rest.Pairwise (fun p q => (pts p ∩ pts q : Set (ℝ × ℝ)) =ᵐ[volume] (∅ : Set (ℝ × ℝ))) ∧
      (gaps = [] → routes = [] → rest = []) ∧
      (gaps ≠ [] ∨ routes ≠ [] → {x | ∃ p ∈ rest, x ∈ pts p} =ᵐ[volume]
        (squareSet edge \ (region pts (givenPolys L polys) ∪ stripSet pts L routes buffer ∪
          (stripSet pts L gaps buffer \ enclosedSet pts L routes bridges)) : Set (ℝ × ℝ))) := by
  have hsq : pts (L.corners (squareCorners edge)) =ᵐ[volume] squareSet edge := hL.square edge he
  set field0 := L.corners (squareCorners edge) with hf0
  set S := squareSet edge
  set field1 := if gaps = [] then field0 else L.diff field0 (L.strips gaps buffer) with hf1
  have h1 : pts field1 =ᵐ[volume] (S \ stripSet pts L gaps buffer : Set (ℝ × ℝ)) := by
    rw [hf1]
    split
    · rename_i h
      refine hsq.trans (ae_of_eq ?_)
      ext x; simp [stripSet, h]
    · rename_i h
      refine ((hL.diff _ _).trans (hsq.diff (ae_eq_refl _))).trans (ae_of_eq ?_)
      ext x; simp [stripSet, h]
  set field2 := if routes = [] ∨ bridges = [] then field1
    else (L.enclosed routes bridges).foldl (fun f p => L.union f (L.inter p field0)) field1 with hf2
  have h2 : pts field2 =ᵐ[volume] (S \ stripSet pts L gaps buffer ∪ (enclosedSet pts L routes bridges ∩ S) : Set (ℝ × ℝ)) := by
    rw [hf2]
    split
    · rename_i h
      refine h1.trans (ae_of_eq ?_)
      ext x
      simp only [enclosedSet, Set.mem_union, Set.mem_inter_iff, Set.mem_ofPred_eq]
      tauto
    · rename_i h
      push Not at h
      refine (fold_union hL field0 S hsq _ _ _ h1).trans (ae_of_eq ?_)
      ext x
      simp [enclosedSet, h.1, h.2]
  obtain ⟨frags, field3, hc, hfr, h3⟩ := cutPolys_spec hL field0 S hsq (givenPolys L polys) field2 _ h2
  set field4 := if routes = [] then field3 else L.diff field3 (L.strips routes buffer) with hf4
  have h4 : pts field4 =ᵐ[volume] (((S \ stripSet pts L gaps buffer ∪ (enclosedSet pts L routes bridges ∩ S)) \
      (region pts (givenPolys L polys) ∩ S)) \ stripSet pts L routes buffer : Set (ℝ × ℝ)) := by
    rw [hf4]
    split
    · rename_i h
      refine h3.trans (ae_of_eq ?_)
      ext x; simp [stripSet, h]
    · rename_i h
      refine ((hL.diff _ _).trans (h3.diff (ae_eq_refl _))).trans (ae_of_eq ?_)
      ext x; simp [stripSet, h]
  refine ⟨frags, if gaps = [] ∧ routes = [] then [] else L.parts field4, ?_, hfr, ?_, fun a b => if_pos ⟨a, b⟩, fun hne => ?_⟩
  · unfold fromData
    simp only
    change (match cutPolys L field0 field2 (givenPolys L polys) with | .error e => _ | .ok (frags, field3) => _) = _
    rw [hc]
    simp only [← hf4, hL.valid, Bool.true_eq_false, if_false]
    simp [nameFragments]
  · split
    · exact List.Pairwise.nil
    · exact hL.apart _
  · rw [if_neg (by tauto)]
    refine ((hL.parts field4).trans h4).trans (ae_of_eq ?_)
    ext x
    simp only [Set.mem_sdiff, Set.mem_union, Set.mem_inter_iff]
    tauto

/-- C90: nothing is outside of the square, and (with gaps or routes) everything inside is in a polygon given or in a piece of the rest,
but for the strips along gaps and routes. -/
theorem c90_area (hL : FaithfulData pts L) (polys : List (String × List V2)) (gaps routes bridges : List (List V2)) (edge buffer : ℝ)
    (he : 0 ≤ edge) :
    ∃ (frags : List (String × G)) (rest : List G),
      fromData L polys gaps routes bridges [] edge buffer
        = .ok (frags ++ rest.map fun p => ("", L.polygon (aroundPoly (bufferDigits buffer) (L.rings p)))) ∧
      (∀ᵐ x : ℝ × ℝ, (∃ f ∈ frags, x ∈ pts f.2) ∨ (∃ p ∈ rest, x ∈ pts p) → |x.1| ≤ edge / 2 ∧ |x.2| ≤ edge / 2) ∧
      (gaps ≠ [] ∨ routes ≠ [] → ∀ᵐ x : ℝ × ℝ, |x.1| ≤ edge / 2 ∧ |x.2| ≤ edge / 2 →
        (∃ f ∈ frags, x ∈ pts f.2) ∨ (∃ p ∈ rest, x ∈ pts p) ∨
          x ∈ stripSet pts L gaps buffer ∨ x ∈ stripSet pts L routes buffer) := by
  obtain ⟨frags, rest, h1, h2, -, h4, h5⟩ := c90_pieces hL polys gaps routes bridges edge buffer he
  have hfr : ∀ᵐ x : ℝ × ℝ, ((∃ f ∈ frags, x ∈ pts f.2) ↔ x ∈ region pts (givenPolys L polys) ∧ x ∈ squareSet edge) := by
    clear h1 h4 h5
    generalize givenPolys L polys = l at h2
    induction h2 with
    | nil => exact Filter.Eventually.of_forall fun x => by simp [region]
    | cons h _ ih =>
      filter_upwards [ih, h.2.mem_iff] with x ha hb
      simp only [List.mem_cons, exists_eq_or_imp, region_cons, Set.mem_union, ha, hb, Set.mem_inter_iff]
      tauto
  refine ⟨frags, rest, h1, ?_, fun hne => ?_⟩
  · by_cases hne : gaps ≠ [] ∨ routes ≠ []
    · filter_upwards [hfr, (h5 hne).mem_iff] with x ha hb hx
      rw [ha] at hx
      have hb' : (∃ p ∈ rest, x ∈ pts p) ↔ _ := hb
      rw [hb'] at hx
      rcases hx with hx | hx
      · exact hx.2
      · exact hx.1
    · push Not at hne
      rw [h4 hne.1 hne.2]
      filter_upwards [hfr] with x ha hx
      rw [ha] at hx
      rcases hx with hx | ⟨p, hp, -⟩
      · exact hx.2
      · cases hp
  · filter_upwards [hfr, (h5 hne).mem_iff] with x ha hb hx
    have hb' : (∃ p ∈ rest, x ∈ pts p) ↔ _ := hb
    have hx' : x ∈ squareSet edge := hx
    rw [ha, hb']
    simp only [Set.mem_sdiff, Set.mem_union]
    tauto

/-- C90: names given with positions are distributed as by `assign_to_pad` (C60); the pieces stay the same. -/
theorem c90_names (polys : List (String × List V2)) (gaps routes bridges : List (List V2)) (names : List (String × V2)) (edge buffer : ℝ)
    (frags : List (String × G)) (h : fromData L polys gaps routes bridges names edge buffer = .ok frags) :
    ∃ frags0, fromData L polys gaps routes bridges [] edge buffer = .ok frags0 ∧
      frags = nameFragments (fun i j => match names[i]?, frags0[j]? with | some n, some f => L.hit n.2 f.2 | _, _ => false)
        (names.map Prod.fst) frags0 ∧ (frags.map Prod.snd).Perm (frags0.map Prod.snd) := by
  unfold fromData at h ⊢
  simp only at h ⊢
  split at h
  · cases h
  · rename_i fr f3 heq
    generalize (if routes = [] then f3 else L.diff f3 (L.strips routes buffer)) = f4 at h ⊢
    by_cases hv : L.valid f4 = false
    · rw [if_pos hv] at h; cases h
    · rw [if_neg hv] at h
      rw [if_neg hv]
      have hnil : ∀ hit (l : List (String × G)), nameFragments hit (List.map Prod.fst ([] : List (String × V2))) l = l :=
        fun _ _ => by simp [nameFragments]
      rw [hnil]
      refine ⟨_, rfl, (Except.ok.inj h).symm, ?_⟩
      rw [← Except.ok.inj h]
      exact c60_names _ _ _

/-- **C90** (negation): without gaps and routes only the polygons given are output, not the rest of the square. -/
theorem c90_no_gaps (hL : FaithfulData pts L) (polys : List (String × List V2)) (bridges : List (List V2)) (edge buffer : ℝ) (he : 0 ≤ edge) :
    ∃ frags, fromData L polys [] [] bridges [] edge buffer = .ok frags ∧
      region pts frags =ᵐ[volume] (region pts (givenPolys L polys) ∩ squareSet edge : Set (ℝ × ℝ)) := by
  obtain ⟨frags, rest, h1, h2, -, h4, -⟩ := c90_pieces hL polys [] [] bridges edge buffer he
  rw [h4 rfl rfl] at h1
  refine ⟨frags, by simpa using h1, ?_⟩
  clear h1 h4
  generalize givenPolys L polys = l at h2
  induction h2 with
  | nil => exact ae_of_eq (by simp [region])
  | cons h _ ih =>
    rw [region_cons, region_cons]
    refine (h.2.union ih).trans (ae_of_eq ?_)
    ext x
    simp only [Set.mem_union, Set.mem_inter_iff]
    tauto

/-- C90: bridges without routes, and routes without bridges, enclose nothing. -/
theorem c90_bridges (polys : List (String × List V2)) (gaps bridges : List (List V2)) (names : List (String × V2)) (edge buffer : ℝ) :
    fromData L polys gaps [] bridges names edge buffer = fromData L polys gaps [] [] names edge buffer := by
  unfold fromData
  simp

/-- C90: for buffers that are not too large the coordinates of the rest are rounded to between 10 and 100 times the buffer, so that no
coordinate changes by more than 50 times the buffer.  (The comment in the code says 10 times.) -/
theorem c90_rounding (buffer : ℝ) (h0 : 0 < buffer) (h1 : buffer ≤ 1 / 10) :
    ∃ n : Nat, bufferDigits buffer = n ∧ 10 * buffer ≤ 1 / 10 ^ n ∧ (1 : ℝ) / 10 ^ n < 100 * buffer ∧
      (∀ x, |npAround (bufferDigits buffer) x - x| ≤ 50 * buffer) ∧
      ∀ x, ∃ k : ℤ, npAround (bufferDigits buffer) x = k * (1 / 10 ^ n) := by
  have hlog : Real.logb 10 buffer ≤ -1 := by
    rw [Real.logb_le_iff_le_rpow (by norm_num) h0, Real.rpow_neg (by norm_num), Real.rpow_one]
    linarith
  have hnn : 0 ≤ -Real.logb 10 buffer - 1 := by linarith
  obtain ⟨n, hn⟩ := Int.eq_ofNat_of_zero_le (Int.floor_nonneg.2 hnn)
  have hd : bufferDigits buffer = n := by
    unfold bufferDigits pyInt
    rw [if_pos hnn, hn]
  have hle : (n : ℝ) ≤ -Real.logb 10 buffer - 1 := by
    have := Int.floor_le (-Real.logb 10 buffer - 1)
    rw [hn] at this
    exact_mod_cast this
  have hlt : -Real.logb 10 buffer - 1 < n + 1 := by
    have := Int.lt_floor_add_one (-Real.logb 10 buffer - 1)
    rw [hn] at this
    exact_mod_cast this
  have e : ∀ y : ℝ, y ≤ -Real.logb 10 buffer → buffer ≤ (10 : ℝ) ^ (-y) := fun y hy =>
    (Real.logb_le_iff_le_rpow (by norm_num) h0).1 (by linarith)
  have e' : ∀ y : ℝ, -Real.logb 10 buffer < y → (10 : ℝ) ^ (-y) < buffer := fun y hy =>
    (Real.lt_logb_iff_rpow_lt (by norm_num) h0).1 (by linarith)
  have a1 := e (n + 1) (by linarith)
  have a2 := e' (n + 2) (by linarith)
  have p1 : (10 : ℝ) ^ (-((n : ℝ) + 1)) = 1 / 10 ^ n / 10 := by
    rw [Real.rpow_neg (by norm_num), Real.rpow_add (by norm_num), Real.rpow_natCast, Real.rpow_one]
    field_simp
  have p2 : (10 : ℝ) ^ (-((n : ℝ) + 2)) = 1 / 10 ^ n / 100 := by
    rw [Real.rpow_neg (by norm_num), Real.rpow_add (by norm_num), Real.rpow_natCast, show (2 : ℝ) = ((2 : ℕ) : ℝ) by norm_num,
      Real.rpow_natCast]
    field_simp
    norm_num
  rw [p1] at a1
  rw [p2] at a2
  have hpos : (0 : ℝ) < 10 ^ n := by positivity
  refine ⟨n, hd, by linarith, by linarith, fun x => ?_, fun x => ?_⟩
  · unfold npAround
    rw [hd, zpow_natCast]
    have hr := abs_sub_round (x * 10 ^ n)
    rw [show (round (x * 10 ^ n) : ℝ) / 10 ^ n - x = -((x * 10 ^ n - round (x * 10 ^ n)) * (1 / 10 ^ n)) by field_simp; ring, abs_neg, abs_mul,
      abs_of_pos (by positivity : (0 : ℝ) < 1 / 10 ^ n)]
    have : (1 : ℝ) / 10 ^ n ≤ 100 * buffer := by linarith
    have h0' : (0 : ℝ) < 1 / 10 ^ n := by positivity
    nlinarith [abs_nonneg (x * 10 ^ n - round (x * 10 ^ n))]
  · unfold npAround
    rw [hd, zpow_natCast]
    exact ⟨round (x * 10 ^ n), by field_simp⟩

namespace Spec
/-- corner `b` is corner `a` moved by at most `δ` in each coordinate, to a multiple of `grid` -/
def Snapped (δ grid : ℝ) (a b : V2) : Prop := |b.x - a.x| ≤ δ ∧ |b.y - a.y| ≤ δ ∧ (∃ k : ℤ, b.x = k * grid) ∧ ∃ k : ℤ, b.y = k * grid
end Spec

/-- C90: what is done to the rest before it is returned: corner by corner the exteriors and the holes are moved, by at most 50 times the buffer, to a grid that is at
least 10 and less than 100 times as wide as the buffer. -/
theorem c90_corners (hL : FaithfulData pts L) (polys : List (String × List V2)) (gaps routes bridges : List (List V2)) (edge buffer : ℝ)
    (he : 0 ≤ edge) (h0 : 0 < buffer) (h1 : buffer ≤ 1 / 10) :
    ∃ (frags : List (String × G)) (rest : List G) (moved : List GPoly) (grid : ℝ),
      fromData L polys gaps routes bridges [] edge buffer = .ok (frags ++ moved.map fun g => ("", L.polygon g)) ∧
      10 * buffer ≤ grid ∧ grid < 100 * buffer ∧
      List.Forall₂ (fun p g => List.Forall₂ (Snapped (50 * buffer) grid) (L.rings p).ext g.ext ∧
        List.Forall₂ (List.Forall₂ (Snapped (50 * buffer) grid)) (L.rings p).ints g.ints) rest moved ∧
      (gaps ≠ [] ∨ routes ≠ [] → {x | ∃ p ∈ rest, x ∈ pts p} =ᵐ[volume]
        (squareSet edge \ (region pts (givenPolys L polys) ∪ stripSet pts L routes buffer ∪
          (stripSet pts L gaps buffer \ enclosedSet pts L routes bridges)) : Set (ℝ × ℝ))) := by
  obtain ⟨frags, rest, g1, -, -, -, g5⟩ := c90_pieces hL polys gaps routes bridges edge buffer he
  obtain ⟨n, -, k2, k3, k4, k5⟩ := c90_rounding buffer h0 h1
  refine ⟨frags, rest, rest.map fun p => aroundPoly (bufferDigits buffer) (L.rings p), 1 / 10 ^ n, by rw [g1, List.map_map]; rfl, k2, k3, ?_, g5⟩
  have key : ∀ r : List V2, List.Forall₂ (Snapped (50 * buffer) (1 / 10 ^ n)) r
      (r.map fun q => (⟨npAround (bufferDigits buffer) q.x, npAround (bufferDigits buffer) q.y⟩ : V2)) := fun r => by
    rw [List.forall₂_map_right_iff, List.forall₂_same]
    exact fun q _ => ⟨k4 _, k4 _, k5 _, k5 _⟩
  rw [List.forall₂_map_right_iff, List.forall₂_same]
  refine fun p _ => ⟨key _, ?_⟩
  unfold aroundPoly
  rw [List.forall₂_map_right_iff, List.forall₂_same]
  exact fun r _ => key r

/-- C90 (example): the default buffer keeps nine digits. -/
theorem c90_digits : bufferDigits (1 / 10 ^ 10) = 9 := by
  unfold bufferDigits
  have : Real.logb 10 (1 / 10 ^ 10) = -10 := by
    rw [one_div, Real.logb_inv, show ((10 : ℝ) ^ 10) = (10 : ℝ) ^ (10 : ℝ) by norm_num [← Real.rpow_natCast], Real.logb_rpow (by norm_num) (by norm_num)]
  rw [this]
  norm_num [pyInt]

open Classical in
/-- a library that computes with sets -/
noncomputable def setDataLib : DataLib {s : Set (ℝ × ℝ) // volume s ≠ ⊤} :=
  { setLib with
    corners := fun l => ⟨squareSet ((l.map V2.x).headD 0 * 2), by
      refine ne_top_of_le_ne_top (b := volume (Set.Icc (-((l.map V2.x).headD 0)) ((l.map V2.x).headD 0) ×ˢ
        Set.Icc (-((l.map V2.x).headD 0)) ((l.map V2.x).headD 0))) ?_ (measure_mono ?_)
      · rw [Measure.volume_eq_prod, Measure.prod_prod, Real.volume_Icc]
        exact ENNReal.mul_ne_top ENNReal.ofReal_ne_top ENNReal.ofReal_ne_top
      · rintro ⟨x, y⟩ ⟨h1, h2⟩
        rw [mul_div_cancel_right₀ _ (two_ne_zero), abs_le] at h1 h2
        exact ⟨h1, h2⟩⟩
    strips := fun _ _ => ⟨∅, by simp⟩
    enclosed := fun _ _ => []
    polygonize := fun _ => [⟨Set.Icc 0 1 ×ˢ Set.Icc 0 1, by
      rw [Measure.volume_eq_prod, Measure.prod_prod, Real.volume_Icc]
      exact ENNReal.mul_ne_top ENNReal.ofReal_ne_top ENNReal.ofReal_ne_top⟩]
    orient := id
    parts := fun g => [g]
    rings := fun _ => ⟨[], []⟩
    polygon := fun _ => ⟨∅, by simp⟩
    hit := fun p g => decide ((p.x, p.y) ∈ g.1) }

/-- the hypotheses are met -/
example : FaithfulData (fun s : {s : Set (ℝ × ℝ) // volume s ≠ ⊤} => s.1) setDataLib where
  empty := ae_eq_refl _
  inter := fun _ _ => ae_eq_refl _
  union := fun _ _ => ae_eq_refl _
  diff := fun _ _ => ae_eq_refl _
  area := fun _ => rfl
  finite := fun a => a.2
  valid := fun _ => rfl
  square := fun edge _ => ae_of_eq (by simp [setDataLib])
  orient := fun _ => ae_eq_refl _
  parts := fun g => ae_of_eq (by ext; simp [setDataLib])
  apart := fun g => List.pairwise_singleton _ _

end Electrode
