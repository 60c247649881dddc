import Verif.Spec.Surface
import Verif.Lemmas.Surface
import Verif.Props.Polygons

/-
C17 to C21: symmetries of the surface electrode potentials.
-/
namespace Electrode
open Spec

/-- two electrodes with proportional contributions -/
theorem potential_scale (e e' : Elec) (x : List V3) (d : Nat) (v c : ℝ) (ha : e.shape.Avail d) (ha' : e'.shape.Avail d)
    (h : ∀ p ∈ x, ∀ i < 2 * d + 1, e'.shape.contrib d p i = c * e.shape.contrib d p i) :
    e'.potential x d v none = e.potential x d (c * v) none := by
  rw [Elec.potential_new _ _ _ _ ha, Elec.potential_new _ _ _ _ ha']
  congr 1
  apply List.map_congr_left
  intro p hp
  apply List.map_congr_left
  intro i hi
  rw [h p hp i (List.mem_range.1 hi)]; ring

theorem potential_same (e e' : Elec) (x : List V3) (d : Nat) (v : ℝ) (ha : e.shape.Avail d) (ha' : e'.shape.Avail d)
    (h : ∀ p ∈ x, ∀ i < 2 * d + 1, e'.shape.contrib d p i = e.shape.contrib d p i) :
    e'.potential x d v none = e.potential x d v none := by
  have := potential_scale e e' x d v 1 ha ha' (by simpa using h)
  rwa [one_mul] at this

theorem forall₂_sum {α : Type*} {R : α → α → Prop} {f : α → ℝ} {l m : List α} (h : List.Forall₂ R l m)
    (hf : ∀ a b, R a b → f a = f b) : (l.map f).sum = (m.map f).sum := by
  induction h with
  | nil => rfl
  | cons hab _ ih => simp only [List.map_cons, List.sum_cons, hf _ _ hab, ih]

theorem mem_images {n : Nat} {h : ℝ} {p q : V3} (hp : offPlanes h n p) (hq : q ∈ images n h p) : OffPlane q := by
  simp only [images, List.mem_map] at hq
  obtain ⟨m, hm, rfl⟩ := hq
  rw [mem_coverRange] at hm
  exact hp m hm.1 hm.2

/-! ### C17 -/

theorem poly_rotate (d i : Nat) (poly : List V2) (n : Nat) (p : V3) :
    polyComp d i (poly.rotate n) p = polyComp d i poly p := by
  rw [EdgeId.polyComp_cyc, EdgeId.polyComp_cyc, cycSum_rotate]

/-- C17: starting each vertex list at another vertex changes nothing, at any position and order. -/
theorem c17_rotate (name : String) (dc rf : ℝ) (polys polys' : List (List V2)) (h : ℝ) (n : Nat) (x : List V3) (d : Nat)
    (v : ℝ) (hr : List.Forall₂ (fun a b => ∃ k, b = a.rotate k) polys polys') :
    Elec.potential ⟨name, dc, rf, .polygons polys' h n⟩ x d v none
      = Elec.potential ⟨name, dc, rf, .polygons polys h n⟩ x d v none := by
  refine potential_same _ _ x d v trivial trivial ?_
  intro p _ i _
  refine (forall₂_sum hr ?_).symm
  rintro a _ ⟨k, rfl⟩
  simp only [poly_rotate]

/-- C17: reversing the vertex lists flips the sign of every component: it is the same as
reversing the voltage. -/
theorem c17_reverse (name : String) (dc rf : ℝ) (polys : List (List V2)) (h : ℝ) (n : Nat) (x : List V3) (d : Nat)
    (v : ℝ) (hx : ∀ p ∈ x, offPlanes h n p) :
    Elec.potential ⟨name, dc, rf, .polygons (polys.map List.reverse) h n⟩ x d v none
      = Elec.potential ⟨name, dc, rf, .polygons polys h n⟩ x d (-v) none := by
  have := potential_scale ⟨name, dc, rf, .polygons polys h n⟩ ⟨name, dc, rf, .polygons (polys.map List.reverse) h n⟩
    x d v (-1) trivial trivial ?_
  · rwa [neg_one_mul] at this
  intro p hp i hi
  simp only [Shape.contrib, polyContrib, List.map_map, ← List.sum_map_mul_left]
  congr 1
  apply List.map_congr_left
  intro poly _
  simp only [Function.comp_def]
  congr 1
  apply List.map_congr_left
  intro q hq
  rw [EdgeId.polyComp_cyc, EdgeId.polyComp_cyc,
    cycSum_reverse _ fun a b => seg_swap d i hi q (mem_images (hx p hp) hq) a b]
  ring

/-- C17, in components: reversing flips the sign. -/
theorem c17_reverse_component (name : String) (dc rf : ℝ) (polys : List (List V2)) (h : ℝ) (n : Nat) (d i : Nat)
    (v : ℝ) (p : V3) (hp : offPlanes h n p) (hi : i < 2 * d + 1) :
    compAt ⟨name, dc, rf, .polygons (polys.map List.reverse) h n⟩ d i v p
      = -compAt ⟨name, dc, rf, .polygons polys h n⟩ d i v p := by
  unfold compAt
  rw [c17_reverse name dc rf polys h n [p] d v (by simpa using hp)]
  have h1 := compAt_eq ⟨name, dc, rf, .polygons polys h n⟩ d i (-v) p trivial hi
  have h2 := compAt_eq ⟨name, dc, rf, .polygons polys h n⟩ d i v p trivial hi
  unfold compAt at h1 h2
  rw [h1, h2]; ring

theorem cycSum_repeat_mid {α β : Type*} [AddCommGroup β] (f : α → α → β) (a : α) (hf : f a a = 0) (l m : List α) :
    cycSum f (l ++ a :: a :: m) = cycSum f (l ++ a :: m) := by
  have h1 : (l ++ a :: a :: m).rotate l.length = a :: a :: (m ++ l) := by
    rw [List.rotate_append_length_eq]; simp
  have h2 : (l ++ a :: m).rotate l.length = a :: (m ++ l) := by
    rw [List.rotate_append_length_eq]; simp
  rw [← cycSum_rotate f _ l.length, h1, ← cycSum_rotate f (l ++ a :: m) l.length, h2, cycSum_repeat f a hf]

/-- C17: a repeated vertex contributes nothing. -/
theorem c17_repeat (name : String) (dc rf : ℝ) (polys polys' : List (List V2)) (l m : List V2) (u : V2) (h : ℝ) (n : Nat)
    (x : List V3) (d : Nat) (v : ℝ) (hx : ∀ p ∈ x, offPlanes h n p) :
    Elec.potential ⟨name, dc, rf, .polygons (polys ++ (l ++ u :: u :: m) :: polys') h n⟩ x d v none
      = Elec.potential ⟨name, dc, rf, .polygons (polys ++ (l ++ u :: m) :: polys') h n⟩ x d v none := by
  refine potential_same _ _ x d v trivial trivial ?_
  intro p hp i hi
  simp only [Shape.contrib, polyContrib, List.map_append, List.map_cons, List.sum_append, List.sum_cons]
  congr 2
  congr 1
  apply List.map_congr_left
  intro q hq
  rw [EdgeId.polyComp_cyc, EdgeId.polyComp_cyc,
    cycSum_repeat_mid _ u (seg_degenerate d i hi q (mem_images (hx p hp) hq) u)]

/-! ### C18 -/

theorem cycSum_chord {α β : Type*} [AddCommGroup β] (f : α → α → β) (hf : ∀ a b, f b a = -f a b) (u w : α)
    (l1 l2 l3 : List α) :
    cycSum f (l1 ++ u :: (l2 ++ w :: l3)) = cycSum f (u :: (l2 ++ [w])) + cycSum f (l1 ++ u :: w :: l3) := by
  have h1 : (l1 ++ u :: (l2 ++ w :: l3)).rotate l1.length = u :: l2 ++ w :: (l3 ++ l1) := by
    rw [List.rotate_append_length_eq]; simp
  have h2 : (l1 ++ u :: w :: l3).rotate (l1.length + 1) = w :: (l3 ++ l1) ++ [u] := by
    rw [← List.rotate_rotate, List.rotate_append_length_eq]; simp
  rw [← cycSum_rotate f _ l1.length, h1, cycSum_cut f hf, ← cycSum_rotate f (l1 ++ u :: w :: l3) (l1.length + 1), h2]
  simp

/-- C18: cutting one polygon of the electrode along the chord between any two of its vertices `u` and
`w` leaves the potential and every derivative unchanged. -/
theorem c18_cut (name : String) (dc rf : ℝ) (polys polys' : List (List V2)) (l1 l2 l3 : List V2) (u w : V2) (h : ℝ)
    (n : Nat) (x : List V3) (d : Nat) (v : ℝ) (hx : ∀ p ∈ x, offPlanes h n p) :
    Elec.potential ⟨name, dc, rf, .polygons (polys ++ [u :: (l2 ++ [w]), l1 ++ u :: w :: l3] ++ polys') h n⟩ x d v none
      = Elec.potential ⟨name, dc, rf, .polygons (polys ++ [l1 ++ u :: (l2 ++ w :: l3)] ++ polys') h n⟩ x d v none := by
  refine potential_same _ _ x d v trivial trivial ?_
  intro p hp i hi
  simp only [Shape.contrib, polyContrib, List.map_append, List.map_cons, List.map_nil, List.sum_append, List.sum_cons,
    List.sum_nil, add_zero]
  congr 2
  rw [← List.sum_map_add]
  congr 1
  apply List.map_congr_left
  intro q hq
  rw [EdgeId.polyComp_cyc, EdgeId.polyComp_cyc, EdgeId.polyComp_cyc,
    cycSum_chord _ fun a b => seg_swap d i hi q (mem_images (hx p hp) hq) a b]

/-! ### C19 -/

theorem images_move (n : Nat) (h : ℝ) (d : V2) (p : V3) : images n h (move3 d p) = (images n h p).map (move3 d) := by
  simp only [images, List.map_map]
  rfl

theorem boundary_map (f : V2 → V2) (poly : List V2) :
    boundaryEdges (poly.map f) = (boundaryEdges poly).map fun e => (f e.1, f e.2) := by
  have h : ∀ (l : List V2) (a : V2), edgesFrom (f a) (l.map f) = (edgesFrom a l).map fun e => (f e.1, f e.2) := by
    intro l
    induction l with
    | nil => intro a; rfl
    | cons b l ih => intro a; simp only [List.map_cons, edgesFrom, ih]
  unfold boundaryEdges
  rw [List.getLast?_map]
  cases poly.getLast? with
  | none => rfl
  | some last => exact h poly last

theorem poly_move (k i : Nat) (d : V2) (poly : List V2) (p : V3) :
    polyComp k i (poly.map (move2 d)) (move3 d p) = polyComp k i poly p := by
  unfold polyComp
  rw [boundary_map, List.map_map]
  congr 1
  apply List.map_congr_left
  intro e _
  exact seg_move k i p e.1 e.2 d

theorem move_avail (d : V2) (s : Shape) (k : Nat) : (moveShape d s).Avail k ↔ s.Avail k := by
  cases s <;> rfl

theorem zip_map_fst {α β γ : Type*} (f : α → γ) (l : List α) (m : List β) :
    (l.map f).zip m = (l.zip m).map fun q => (f q.1, q.2) := by
  rw [List.zip_map_left]; rfl

/-- index in range of a mesh -/
theorem getD_map_lt {α β : Type*} (f : α → β) (l : List α) (i : Nat) (a : α) (b : β) (h : i < l.length) :
    (l.map f).getD i b = f (l.getD i a) := by
  simp [List.getD_eq_getElem?_getD, h]

namespace Spec
/-- the edges of a mesh refer to existing points -/
def meshOk : Shape → Prop
  | .mesh ps es _ _ _ _ => ∀ e ∈ es, e.1 < ps.length ∧ e.2 < ps.length
  | _ => True
end Spec

/-- C19: moving electrode and positions together sideways changes nothing, for every electrode
class. -/
theorem c19_translate (name : String) (dc rf : ℝ) (s : Shape) (d : V2) (x : List V3) (k : Nat) (v : ℝ) (hok : meshOk s) :
    Elec.potential ⟨name, dc, rf, moveShape d s⟩ (x.map (move3 d)) k v none
      = Elec.potential ⟨name, dc, rf, s⟩ x k v none := by
  by_cases ha : s.Avail k
  · rw [Elec.potential_new ⟨name, dc, rf, s⟩ _ _ _ ha, Elec.potential_new ⟨name, dc, rf, moveShape d s⟩ _ _ _
      ((move_avail d s k).2 ha), List.map_map]
    congr 1
    apply List.map_congr_left
    intro p _
    simp only [Function.comp_def]
    apply List.map_congr_left
    intro i _
    congr 1
    cases s with
    | cover h => rfl
    | points ps as h n =>
      simp only [moveShape, Shape.contrib, pointContrib, zip_map_fst, List.map_map, images_move, Function.comp_def]
      congr 1
      apply List.map_congr_left
      intro q _
      congr 1
      apply List.map_congr_left
      intro p' _
      congr 1
      exact pixel_move k i p' q.1 d
    | polygons polys h n =>
      simp only [moveShape, Shape.contrib, polyContrib, List.map_map, images_move, Function.comp_def, poly_move]
    | mesh ps es pg pots h n =>
      simp only [moveShape, Shape.contrib, meshContrib, List.map_map, images_move, Function.comp_def]
      congr 1
      apply List.map_congr_left
      intro e he
      have hmem : e.1 ∈ es := (List.of_mem_zip (a := e.1) (b := e.2) he).1
      have h12 := hok _ hmem
      congr 1
      apply List.map_congr_left
      intro p' _
      rw [getD_map_lt _ ps _ ⟨0, 0⟩ _ h12.1, getD_map_lt _ ps _ ⟨0, 0⟩ _ h12.2]
      congr 1
      exact seg_move k i p' _ _ d
    | grid data origin spacing =>
      simp only [moveShape, Shape.contrib, gridCoord, move3, add_sub_add_right_eq_sub]
  · rw [Elec.potential_err ⟨name, dc, rf, s⟩ _ _ _ _ ha,
      Elec.potential_err ⟨name, dc, rf, moveShape d s⟩ _ _ _ _ (fun h => ha ((move_avail d s k).1 h))]

theorem lift_scale (s c : ℝ) (p : V3) : (scale3 s p).lift (s * c) = scale3 s (p.lift c) := by
  simp [V3.lift, scale3, mul_add]

theorem images_scale (n : Nat) (h s : ℝ) (p : V3) :
    images n (s * h) (scale3 s p) = (images n h p).map (scale3 s) := by
  simp only [images, List.map_map]
  apply List.map_congr_left
  intro m _
  simp only [Function.comp_def]
  rw [← lift_scale]; congr 1; ring

/-- C19: scaling polygons, cover height and position by `s > 0` scales the components of order `k`
by `s**-k`. -/
theorem c19_scale (name : String) (dc rf : ℝ) (polys : List (List V2)) (h : ℝ) (n : Nat) (v s : ℝ) (hs : 0 < s)
    (k i : Nat) (hi : i < 2 * k + 1) (p : V3) :
    compAt ⟨name, dc, rf, .polygons (polys.map (List.map (scale2 s))) (s * h) n⟩ k i v (scale3 s p)
      = (s ^ k)⁻¹ * compAt ⟨name, dc, rf, .polygons polys h n⟩ k i v p := by
  rw [compAt_eq ⟨name, dc, rf, .polygons polys h n⟩ _ _ _ _ trivial hi,
    compAt_eq ⟨name, dc, rf, .polygons (polys.map (List.map (scale2 s))) (s * h) n⟩ _ _ _ _ trivial hi]
  have key : polyContrib k n (s * h) (polys.map (List.map (scale2 s))) (scale3 s p) i
      = s⁻¹ ^ k * polyContrib k n h polys p i := by
    simp only [polyContrib, List.map_map, images_scale, Function.comp_def, ← List.sum_map_mul_left]
    congr 1
    apply List.map_congr_left
    intro poly _
    congr 1
    apply List.map_congr_left
    intro q _
    unfold polyComp
    rw [boundary_map, List.map_map, ← List.sum_map_mul_left]
    congr 1
    apply List.map_congr_left
    intro e _
    exact seg_scale hs k i hi q e.1 e.2
  simp only [Shape.contrib, key, inv_pow]; ring

/-- C19 (beyond the property): the same holds for point pixels when the areas are scaled by `s**2`. -/
theorem c19_scale_points (name : String) (dc rf : ℝ) (ps : List V2) (as : List ℝ) (h : ℝ) (n : Nat) (v s : ℝ) (hs : 0 < s)
    (k i : Nat) (hi : i < 2 * k + 1) (p : V3) :
    compAt ⟨name, dc, rf, .points (ps.map (scale2 s)) (as.map (s ^ 2 * ·)) (s * h) n⟩ k i v (scale3 s p)
      = (s ^ k)⁻¹ * compAt ⟨name, dc, rf, .points ps as h n⟩ k i v p := by
  rw [compAt_eq ⟨name, dc, rf, .points ps as h n⟩ _ _ _ _ trivial hi,
    compAt_eq ⟨name, dc, rf, .points (ps.map (scale2 s)) (as.map (s ^ 2 * ·)) (s * h) n⟩ _ _ _ _ trivial hi]
  have key : pointContrib k n (s * h) (ps.map (scale2 s)) (as.map (s ^ 2 * ·)) (scale3 s p) i
      = s⁻¹ ^ k * pointContrib k n h ps as p i := by
    simp only [pointContrib, List.zip_map, List.map_map, images_scale, Function.comp_def, ← List.sum_map_mul_left]
    congr 1
    apply List.map_congr_left
    intro q _
    congr 1
    apply List.map_congr_left
    intro p' _
    have := pixel_scale hs k i hi q.1 p'
    simp only [Prod.map]
    calc s ^ 2 * q.2 * pixelComp k i (scale2 s q.1) (scale3 s p')
        = q.2 * (s ^ 2 * pixelComp k i (q.1.scale s) (p'.scale s)) := by
          rw [show scale2 s q.1 = q.1.scale s from rfl, show scale3 s p' = p'.scale s from rfl]; ring
      _ = _ := by rw [this]; ring
  simp only [Shape.contrib, key, inv_pow]; ring

/-! ### C20 -/

theorem coverRange_neg (n : Nat) : (coverRange n).map (fun m : ℤ => -m) = (coverRange n).reverse := by
  apply List.ext_getElem
  · simp [coverRange]
  · intro i h1 h2
    simp only [coverRange, List.length_map, List.length_range] at h1
    simp [coverRange]
    omega

theorem sum_images_neg (n : Nat) (g : ℤ → ℝ) : ((coverRange n).map fun m : ℤ => g (-m)).sum = ((coverRange n).map g).sum := by
  have : ((coverRange n).map fun m : ℤ => g (-m)) = ((coverRange n).map fun m : ℤ => -m).map g := by
    rw [List.map_map]; rfl
  rw [this, coverRange_neg, List.map_reverse, List.sum_reverse]

/-- parity under reflection carries over to the sum over the images -/
theorem images_mirror (n : Nat) (h : ℝ) (p : V3) (f : V3 → ℝ) (s : ℝ) (hf : ∀ q, f (reflect q) = s * f q) :
    ((images n h (reflect p)).map f).sum = s * ((images n h p).map f).sum := by
  simp only [images, List.map_map, Function.comp_def]
  rw [← sum_images_neg, ← List.sum_map_mul_left]
  congr 1
  apply List.map_congr_left
  intro m _
  rw [← hf]
  congr 1
  simp [V3.lift, reflect]; ring

theorem contrib_mirror (s : Shape) (hs : isAnalytic s) (k i : Nat) (hi : i < 2 * k + 1) (p : V3) :
    s.contrib k (reflect p) i = PExpr.sgn (compOdd k i) * s.contrib k p i := by
  cases s with
  | cover h =>
    simp only [Shape.contrib, coverContrib]
    by_cases h0 : k = 0
    · subst h0
      have : i = 0 := by omega
      subst this
      have : compOdd 0 0 = true := by decide
      simp [this, PExpr.sgn, reflect, neg_div]
    · by_cases h1 : k = 1
      · subst h1
        by_cases h2 : i = 2
        · subst h2
          have : compOdd 1 2 = false := by decide
          simp [this, PExpr.sgn]
        · simp [h2]
      · simp [h0, h1]
  | points ps as h n =>
    simp only [Shape.contrib, pointContrib, ← List.sum_map_mul_left]
    congr 1
    apply List.map_congr_left
    intro q _
    rw [images_mirror n h p (fun p' => q.2 * pixelComp k i q.1 p') (PExpr.sgn (compOdd k i)), ← List.sum_map_mul_left]
    intro p'
    have := pixel_mirror k i hi q.1 p'
    rw [show reflect p' = p'.mirror from rfl, this]; ring
  | polygons polys h n =>
    simp only [Shape.contrib, polyContrib, ← List.sum_map_mul_left]
    congr 1
    apply List.map_congr_left
    intro poly _
    rw [images_mirror n h p (fun p' => polyComp k i poly p') (PExpr.sgn (compOdd k i)), ← List.sum_map_mul_left]
    intro p'
    exact EdgeId.poly_mirror k i hi poly p'
  | mesh ps es pg pots h n =>
    simp only [Shape.contrib, meshContrib, ← List.sum_map_mul_left]
    congr 1
    apply List.map_congr_left
    intro e _
    rw [images_mirror n h p (fun p' => pots.getD e.2 0 * segComp k i p' (ps.getD e.1.1 ⟨0, 0⟩) (ps.getD e.1.2 ⟨0, 0⟩))
      (PExpr.sgn (compOdd k i)), ← List.sum_map_mul_left]
    intro p'
    have := seg_mirror k i hi (ps.getD e.1.1 ⟨0, 0⟩) (ps.getD e.1.2 ⟨0, 0⟩) p'
    rw [show reflect p' = p'.mirror from rfl, this]; ring
  | grid => exact hs.elim

/-- the parity of a component from its name -/
theorem name_parity : ∀ k < 6, ∀ i < 2 * k + 1, ∀ s, derivToName k i = .ok s →
    compOdd k i = (s.count 'z' % 2 == 0) := by
  have h : ∀ k < 6, ∀ i < 2 * k + 1, (match derivToName k i with
    | .ok s => compOdd k i == (s.count 'z' % 2 == 0)
    | .error _ => true) = true := by decide +kernel
  intro k hk i hi s hs
  have := h k hk i hi
  rw [hs] at this
  simpa using this

/-- C20: reflecting the position in the electrode plane flips the sign of the potential and of every
component with an even number of `z` in its name; the other components do not change.  For all
electrode classes except sampled grids, with and without cover. -/
theorem c20_mirror (name : String) (dc rf : ℝ) (sh : Shape) (hs : isAnalytic sh) (k i : Nat) (v : ℝ) (p : V3) (s : Name)
    (hn : derivToName k i = .ok s) :
    compAt ⟨name, dc, rf, sh⟩ k i v (reflect p)
      = (if s.count 'z' % 2 = 0 then -1 else 1) * compAt ⟨name, dc, rf, sh⟩ k i v p := by
  have hav : sh.Avail k := by cases sh <;> trivial
  have hk : k < 6 := by
    unfold derivToName at hn
    by_contra h
    have : derivativeNames[k]? = none := List.getElem?_eq_none (by
      have : derivativeNames.length = 6 := by decide
      omega)
    simp [this] at hn
  have hi : i < 2 * k + 1 := by
    unfold derivToName at hn
    cases hd : derivativeNames[k]? with
    | none => simp [hd] at hn
    | some names =>
      have hlen := table_names_length k hk
      have hnames : derivativeNames.getD k [] = names := by simp [List.getD_eq_getElem?_getD, hd]
      rw [hnames] at hlen
      cases hi : names[i]? with
      | none => simp [hd, hi] at hn
      | some s' => have := (List.getElem?_eq_some_iff.1 hi).1; omega
  rw [compAt_eq ⟨name, dc, rf, sh⟩ _ _ _ _ hav hi, compAt_eq ⟨name, dc, rf, sh⟩ _ _ _ _ hav hi,
    contrib_mirror sh hs k i hi, name_parity k hk i hi s hn]
  by_cases h : s.count 'z' % 2 = 0
  · simp [h, PExpr.sgn]
  · simp [h, PExpr.sgn]

/-- the potential itself is odd -/
theorem c20_potential_odd (name : String) (dc rf : ℝ) (sh : Shape) (hs : isAnalytic sh) (v : ℝ) (p : V3) :
    compAt ⟨name, dc, rf, sh⟩ 0 0 v (reflect p) = -compAt ⟨name, dc, rf, sh⟩ 0 0 v p := by
  have := c20_mirror name dc rf sh hs 0 0 v p [] (by decide)
  simpa using this

example : derivToName 3 1 = .ok ['z', 'x', 'x'] ∨ ∃ s, derivToName 3 1 = .ok s ∧ s.count 'z' = 1 := by
  right; exact ⟨_, rfl, by decide⟩

/-! ### C21 -/

theorem coverRange_succ_sum (n : Nat) (g : ℤ → ℝ) :
    ((coverRange (n + 1)).map g).sum = ((coverRange n).map g).sum + g (n + 1) + g (-(n : ℤ) - 1) := by
  have h : coverRange (n + 1) = (-(n : ℤ) - 1) :: (coverRange n ++ [(n : ℤ) + 1]) := by
    apply List.ext_getElem
    · simp [coverRange]; omega
    · intro i h1 h2
      simp only [coverRange, List.length_map, List.length_range] at h1
      simp only [coverRange, List.getElem_map, List.getElem_range]
      rcases i with _ | i
      · simp; omega
      · rw [List.getElem_cons_succ]
        by_cases hi : i < 2 * n + 1
        · rw [List.getElem_append_left (by simpa using hi)]
          simp
        · have : i = 2 * n + 1 := by omega
          subst this
          rw [List.getElem_append_right (by simp)]
          simp; omega
  rw [h]
  simp only [List.map_cons, List.map_append, List.map_nil, List.sum_cons, List.sum_append, List.sum_nil, add_zero]
  ring

/-- on the cover plane all images of an odd function cancel, except the outermost one -/
theorem images_cancel (n : Nat) (h : ℝ) (x y : ℝ) (f : V3 → ℝ) (hf : ∀ q, f (reflect q) = -f q) :
    ((images n h ⟨x, y, h⟩).map f).sum = f ⟨x, y, (2 * n + 1) * h⟩ := by
  simp only [images, List.map_map, Function.comp_def]
  induction n with
  | zero => simp [coverRange, V3.lift]
  | succ n ih =>
    rw [coverRange_succ_sum, ih]
    have : (V3.lift ⟨x, y, h⟩ (2 * ((-(n : ℤ) - 1 : ℤ) : ℝ) * h)) = reflect ⟨x, y, (2 * n + 1) * h⟩ := by
      simp [V3.lift, reflect]; ring
    rw [this, hf]
    have h2 : V3.lift ⟨x, y, h⟩ (2 * (((n : ℤ) + 1 : ℤ) : ℝ) * h) = ⟨x, y, (2 * ((n + 1 : ℕ) : ℝ) + 1) * h⟩ := by
      simp [V3.lift]; ring
    rw [h2]; ring

namespace Spec
/-- a surface electrode with its cover parameters replaced -/
def withCover (h : ℝ) (n : Nat) : Shape → Shape
  | .points ps as _ _ => .points ps as h n
  | .polygons polys _ _ => .polygons polys h n
  | .mesh ps es pg pots _ _ => .mesh ps es pg pots h n
  | s => s

/-- surface electrodes: the classes with a cover expansion -/
def isSurface : Shape → Prop
  | .points .. | .polygons .. | .mesh .. => True
  | _ => False
end Spec

theorem contrib_cover (s : Shape) (hs : isSurface s) (h h' : ℝ) (n k i : Nat) (hi : i < 2 * k + 1)
    (ho : compOdd k i = true) (x y : ℝ) :
    (withCover h n s).contrib k ⟨x, y, h⟩ i = (withCover h' 0 s).contrib k ⟨x, y, (2 * n + 1) * h⟩ i := by
  have h0 : ∀ (p : V3) (f : V3 → ℝ), ((images 0 h' p).map f).sum = f p := by
    intro p f; simp [images, coverRange, V3.lift]
  cases s with
  | points ps as _ _ =>
    simp only [withCover, Shape.contrib, pointContrib]
    congr 1
    apply List.map_congr_left
    intro q _
    rw [images_cancel, h0]
    intro p'
    have := pixel_mirror k i hi q.1 p'
    rw [show reflect p' = p'.mirror from rfl, this, ho]; simp [PExpr.sgn]
  | polygons polys _ _ =>
    simp only [withCover, Shape.contrib, polyContrib]
    congr 1
    apply List.map_congr_left
    intro poly _
    rw [images_cancel, h0]
    intro p'
    have := EdgeId.poly_mirror k i hi poly p'
    rw [show reflect p' = p'.mirror from rfl, this, ho]; simp [PExpr.sgn]
  | mesh ps es pg pots _ _ =>
    simp only [withCover, Shape.contrib, meshContrib]
    congr 1
    apply List.map_congr_left
    intro e _
    rw [images_cancel, h0]
    intro p'
    have := seg_mirror k i hi (ps.getD e.1.1 ⟨0, 0⟩) (ps.getD e.1.2 ⟨0, 0⟩) p'
    rw [show reflect p' = p'.mirror from rfl, this, ho]; simp [PExpr.sgn]
  | cover => exact hs.elim
  | grid => exact hs.elim

theorem surface_avail (s : Shape) (hs : isSurface s) (h : ℝ) (n k : Nat) : (withCover h n s).Avail k := by
  cases s <;> trivial

/-- C21: on the cover plane all images cancel except one at distance `(2n+1)*cover_height`. -/
theorem c21_at_cover (name : String) (dc rf : ℝ) (s : Shape) (hs : isSurface s) (h h' : ℝ) (n : Nat) (v x y : ℝ) :
    compAt ⟨name, dc, rf, withCover h n s⟩ 0 0 v ⟨x, y, h⟩
      = compAt ⟨name, dc, rf, withCover h' 0 s⟩ 0 0 v ⟨x, y, (2 * n + 1) * h⟩ := by
  rw [compAt_eq ⟨name, dc, rf, withCover h n s⟩ _ _ _ _ (surface_avail s hs h n 0) (by norm_num),
    compAt_eq ⟨name, dc, rf, withCover h' 0 s⟩ _ _ _ _ (surface_avail s hs h' 0 0) (by norm_num)]
  simp only
  rw [contrib_cover s hs h h' n 0 0 (by norm_num) (by decide)]

/-- C21: the potential is exactly zero on the electrode plane (away from the pixels, where the code
divides by zero). -/
theorem c21_ground_points (name : String) (dc rf : ℝ) (ps : List V2) (as : List ℝ) (h : ℝ) (n : Nat) (v x y : ℝ)
    (_hp : offPixels ps h n ⟨x, y, 0⟩) :
    compAt ⟨name, dc, rf, .points ps as h n⟩ 0 0 v ⟨x, y, 0⟩ = 0 := by
  have := c20_potential_odd name dc rf (.points ps as h n) trivial v ⟨x, y, 0⟩
  have e : reflect ⟨x, y, 0⟩ = ⟨x, y, 0⟩ := by simp [reflect]
  rw [e] at this
  linarith

/-- C21: for polygons and meshes too, in the compiled version, where `atan2(0, 0)` is `0`; the
pure Python version divides by zero there. -/
theorem c21_ground_surface (name : String) (dc rf : ℝ) (s : Shape) (hs : isSurface s) (v x y : ℝ) :
    compAt ⟨name, dc, rf, s⟩ 0 0 v ⟨x, y, 0⟩ = 0 := by
  have := c20_potential_odd name dc rf s (by cases s <;> trivial) v ⟨x, y, 0⟩
  have e : reflect ⟨x, y, 0⟩ = ⟨x, y, 0⟩ := by simp [reflect]
  rw [e] at this
  linarith

open Filter Topology in
theorem pixel_far (q : V2) (x y h : ℝ) (hh : h ≠ 0) :
    Tendsto (fun n : ℕ => pixelComp 0 0 q ⟨x, y, (2 * n + 1) * h⟩) atTop (𝓝 0) := by
  have hb : ∀ n : ℕ, |pixelComp 0 0 q ⟨x, y, (2 * n + 1) * h⟩| ≤ 1 / h ^ 2 * (1 / ((n : ℝ) + 1)) := by
    intro n
    have e : pixelComp 0 0 q ⟨x, y, (2 * n + 1) * h⟩
        = (2 * n + 1) * h * (1 / (2 * Real.pi * relR q ⟨x, y, (2 * n + 1) * h⟩ ^ 3)) := by
      simp [pixelComp, pointTerm, pointNum, pointNum0, PExpr.eval, pointEnv, pointNorm, relR]
    have hr : |(2 * n + 1) * h| ≤ relR q ⟨x, y, (2 * n + 1) * h⟩ := by
      unfold relR
      apply Real.abs_le_sqrt
      simp only
      nlinarith [sq_nonneg (x - q.x), sq_nonneg (y - q.y)]
    have hpos : 0 < |(2 * n + 1) * h| := abs_pos.2 (mul_ne_zero (by positivity) hh)
    have hrp : 0 < relR q ⟨x, y, (2 * n + 1) * h⟩ := hpos.trans_le hr
    rw [e, abs_mul, abs_of_pos (show 0 < 1 / (2 * Real.pi * relR q ⟨x, y, (2 * n + 1) * h⟩ ^ 3) by
      have := Real.pi_pos; positivity)]
    set r := relR q ⟨x, y, (2 * n + 1) * h⟩
    set z := |(2 * n + 1) * h| with hz
    have h1 : z * (1 / (2 * Real.pi * r ^ 3)) ≤ 1 / z ^ 2 := by
      have hpi : 1 ≤ 2 * Real.pi := by have := Real.two_le_pi; linarith
      rw [mul_one_div, div_le_div_iff₀ (by positivity) (by positivity)]
      have h3 : z ^ 3 ≤ r ^ 3 := pow_le_pow_left₀ hpos.le hr 3
      have h4 : r ^ 3 ≤ 2 * Real.pi * r ^ 3 := by
        have : 0 < r ^ 3 := by positivity
        nlinarith
      nlinarith
    refine h1.trans ?_
    have hz2 : z ^ 2 = (2 * n + 1) ^ 2 * h ^ 2 := by rw [hz, sq_abs]; ring
    rw [hz2, ← one_div_mul_one_div, mul_comm]
    have hh2 : 0 < h ^ 2 := by positivity
    refine mul_le_mul_of_nonneg_left ?_ (by positivity)
    apply one_div_le_one_div_of_le (by positivity)
    have : (0 : ℝ) ≤ n := Nat.cast_nonneg n
    nlinarith
  refine squeeze_zero_norm hb ?_
  have := (tendsto_one_div_add_atTop_nhds_zero_nat (𝕜 := ℝ)).const_mul (1 / h ^ 2)
  rwa [mul_zero] at this

open Filter Topology in
theorem seg_far (v1 v2 : V2) (x y h : ℝ) (hh : h ≠ 0) :
    Tendsto (fun n : ℕ => segComp 0 0 ⟨x, y, (2 * n + 1) * h⟩ v1 v2) atTop (𝓝 0) := by
  have e : ∀ n : ℕ, segComp 0 0 ⟨x, y, (2 * n + 1) * h⟩ v1 v2
      = Real.arctan ((2 * n + 1) * h * ((x - v1.x) * (y - v2.y) - (y - v1.y) * (x - v2.x))
        / (|(2 * n + 1) * h| * (relR v1 ⟨x, y, (2 * n + 1) * h⟩ * relR v2 ⟨x, y, (2 * n + 1) * h⟩
          + (x - v1.x) * (x - v2.x) + (y - v1.y) * (y - v2.y)
          + |(2 * n + 1) * h| * (|(2 * n + 1) * h| + relR v1 ⟨x, y, (2 * n + 1) * h⟩ + relR v2 ⟨x, y, (2 * n + 1) * h⟩))))
        * (1 / Real.pi) := by
    intro n; simp [segComp, edgeTerm, relR]
  simp only [e]
  set N := (x - v1.x) * (y - v2.y) - (y - v1.y) * (x - v2.x) with hN
  have key : Tendsto (fun n : ℕ => (2 * n + 1) * h * N
        / (|(2 * n + 1) * h| * (relR v1 ⟨x, y, (2 * n + 1) * h⟩ * relR v2 ⟨x, y, (2 * n + 1) * h⟩
          + (x - v1.x) * (x - v2.x) + (y - v1.y) * (y - v2.y)
          + |(2 * n + 1) * h| * (|(2 * n + 1) * h| + relR v1 ⟨x, y, (2 * n + 1) * h⟩ + relR v2 ⟨x, y, (2 * n + 1) * h⟩))))
      atTop (𝓝 0) := by
    have hb : ∀ n : ℕ, ‖(2 * n + 1) * h * N
        / (|(2 * n + 1) * h| * (relR v1 ⟨x, y, (2 * n + 1) * h⟩ * relR v2 ⟨x, y, (2 * n + 1) * h⟩
          + (x - v1.x) * (x - v2.x) + (y - v1.y) * (y - v2.y)
          + |(2 * n + 1) * h| * (|(2 * n + 1) * h| + relR v1 ⟨x, y, (2 * n + 1) * h⟩ + relR v2 ⟨x, y, (2 * n + 1) * h⟩)))‖
        ≤ |N| / h ^ 2 * (1 / ((n : ℝ) + 1)) := by
      intro n
      have hpos : 0 < |(2 * n + 1) * h| := abs_pos.2 (mul_ne_zero (by positivity) hh)
      have hE := EdgeId.eE_pos (p := ⟨x, y, (2 * n + 1) * h⟩) (mul_ne_zero (by positivity) hh) v1 v2
      rw [EdgeId.eE_eq] at hE
      simp only at hE
      have r1 : 0 ≤ relR v1 ⟨x, y, (2 * n + 1) * h⟩ := Real.sqrt_nonneg _
      have r2 : 0 ≤ relR v2 ⟨x, y, (2 * n + 1) * h⟩ := Real.sqrt_nonneg _
      have hc := (abs_mul_abs_self ((2 * n + 1) * h)).symm
      have hz2 : |(2 * n + 1) * h| ^ 2 = (2 * n + 1) ^ 2 * h ^ 2 := by rw [sq_abs]; ring
      -- Cauchy-Schwarz
      have hcs : 0 ≤ relR v1 ⟨x, y, (2 * n + 1) * h⟩ * relR v2 ⟨x, y, (2 * n + 1) * h⟩
          + (x - v1.x) * (x - v2.x) + (y - v1.y) * (y - v2.y) := by
        have hs : |(x - v1.x) * (x - v2.x) + (y - v1.y) * (y - v2.y)|
            ≤ relR v1 ⟨x, y, (2 * n + 1) * h⟩ * relR v2 ⟨x, y, (2 * n + 1) * h⟩ := by
          unfold relR
          rw [← Real.sqrt_mul (by positivity)]
          apply Real.abs_le_sqrt
          simp only
          nlinarith [sq_nonneg ((x - v1.x) * (y - v2.y) - (y - v1.y) * (x - v2.x)),
            mul_nonneg (sq_nonneg ((2 * n + 1) * h)) (sq_nonneg (x - v1.x)),
            mul_nonneg (sq_nonneg ((2 * n + 1) * h)) (sq_nonneg (x - v2.x)),
            mul_nonneg (sq_nonneg ((2 * n + 1) * h)) (sq_nonneg (y - v1.y)),
            mul_nonneg (sq_nonneg ((2 * n + 1) * h)) (sq_nonneg (y - v2.y)),
            mul_nonneg (sq_nonneg ((2 * n + 1) * h)) (sq_nonneg ((2 * n + 1) * h))]
        have := neg_abs_le ((x - v1.x) * (x - v2.x) + (y - v1.y) * (y - v2.y))
        linarith
      set z := |(2 * n + 1) * h| with hz
      set D := relR v1 ⟨x, y, (2 * n + 1) * h⟩ * relR v2 ⟨x, y, (2 * n + 1) * h⟩
          + (x - v1.x) * (x - v2.x) + (y - v1.y) * (y - v2.y)
          + z * (z + relR v1 ⟨x, y, (2 * n + 1) * h⟩ + relR v2 ⟨x, y, (2 * n + 1) * h⟩) with hD
      have hDz : z ^ 2 ≤ D := by rw [hD]; nlinarith [mul_nonneg hpos.le r1, mul_nonneg hpos.le r2]
      have hDp : 0 < D := lt_of_lt_of_le (by positivity) hDz
      rw [Real.norm_eq_abs, abs_div, abs_mul, ← hz, abs_mul z D, abs_of_pos hpos, abs_of_pos hDp,
        mul_div_mul_left _ _ hpos.ne', div_mul_eq_mul_div, mul_one_div]
      rw [div_div]
      have hh2 : 0 < h ^ 2 := by positivity
      have hn : (0 : ℝ) ≤ n := Nat.cast_nonneg n
      apply div_le_div_of_nonneg_left (abs_nonneg N) (by positivity)
      calc (↑n + 1) * h ^ 2 ≤ (2 * n + 1) ^ 2 * h ^ 2 := by
            apply mul_le_mul_of_nonneg_right _ hh2.le; nlinarith
        _ = z ^ 2 := hz2.symm
        _ ≤ D := hDz
    refine squeeze_zero_norm hb ?_
    have := (tendsto_one_div_add_atTop_nhds_zero_nat (𝕜 := ℝ)).const_mul (|N| / h ^ 2)
    rwa [mul_zero] at this
  have := ((Real.continuous_arctan.tendsto 0).comp key).mul_const (1 / Real.pi)
  simpa using this

open Filter Topology in
theorem tendsto_list_sum {ι : Type*} (L : List ι) (f : ι → ℕ → ℝ) (h : ∀ a ∈ L, Tendsto (f a) atTop (𝓝 0)) :
    Tendsto (fun n => (L.map fun a => f a n).sum) atTop (𝓝 0) := by
  induction L with
  | nil => simp
  | cons a L ih =>
    simp only [List.map_cons, List.sum_cons]
    simpa using (h a (by simp)).add (ih fun b hb => h b (by simp [hb]))

open Filter Topology in
/-- C21: on the cover plane the potential tends to zero as the number of images grows. -/
theorem c21_limit (name : String) (dc rf : ℝ) (s : Shape) (hs : isSurface s) (h : ℝ) (hh : h ≠ 0) (v x y : ℝ) :
    Tendsto (fun n => compAt ⟨name, dc, rf, withCover h n s⟩ 0 0 v ⟨x, y, h⟩) atTop (𝓝 0) := by
  have h0 : ∀ (p : V3) (f : V3 → ℝ), ((images 0 h p).map f).sum = f p := by
    intro p f; simp [images, coverRange, V3.lift]
  have key : Tendsto (fun n : ℕ => (withCover h 0 s).contrib 0 ⟨x, y, (2 * n + 1) * h⟩ 0) atTop (𝓝 0) := by
    cases s with
    | points ps as _ _ =>
      simp only [withCover, Shape.contrib, pointContrib, h0]
      apply tendsto_list_sum _ (fun (q : V2 × ℝ) (n : ℕ) => q.2 * pixelComp 0 0 q.1 ⟨x, y, (2 * n + 1) * h⟩)
      intro q _
      simpa using (pixel_far q.1 x y h hh).const_mul q.2
    | polygons polys _ _ =>
      simp only [withCover, Shape.contrib, polyContrib, h0]
      apply tendsto_list_sum _ (fun (poly : List V2) (n : ℕ) => polyComp 0 0 poly ⟨x, y, (2 * n + 1) * h⟩)
      intro poly _
      apply tendsto_list_sum _ (fun (e : V2 × V2) (n : ℕ) => segComp 0 0 ⟨x, y, (2 * n + 1) * h⟩ e.1 e.2)
      intro e _
      exact seg_far e.1 e.2 x y h hh
    | mesh ps es pg pots _ _ =>
      simp only [withCover, Shape.contrib, meshContrib, h0]
      apply tendsto_list_sum _ (fun (e : (Nat × Nat) × Nat) (n : ℕ) =>
        pots.getD e.2 0 * segComp 0 0 ⟨x, y, (2 * n + 1) * h⟩ (ps.getD e.1.1 ⟨0, 0⟩) (ps.getD e.1.2 ⟨0, 0⟩))
      intro e _
      simpa using (seg_far (ps.getD e.1.1 ⟨0, 0⟩) (ps.getD e.1.2 ⟨0, 0⟩) x y h hh).const_mul (pots.getD e.2 0)
    | cover => exact hs.elim
    | grid => exact hs.elim
  have e : ∀ n, compAt ⟨name, dc, rf, withCover h n s⟩ 0 0 v ⟨x, y, h⟩
      = v * (withCover h 0 s).contrib 0 ⟨x, y, (2 * n + 1) * h⟩ 0 := by
    intro n
    rw [compAt_eq ⟨name, dc, rf, withCover h n s⟩ _ _ _ _ (surface_avail s hs h n 0) (by norm_num)]
    simp only
    rw [contrib_cover s hs h h n 0 0 (by norm_num) (by decide)]
  simp only [e]
  simpa using key.const_mul v

/-- A polygon electrode is a surface electrode. -/
example : isSurface (.polygons [[⟨0, 0⟩, ⟨1, 0⟩, ⟨0, 1⟩]] 50 3) := trivial

end Electrode
