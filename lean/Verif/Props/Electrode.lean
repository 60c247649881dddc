import Verif.Lemmas.Calculus
import Verif.Lemmas.Cyclic
import Mathlib.Analysis.Calculus.IteratedDeriv.Defs
import Mathlib.Analysis.Calculus.Deriv.ZPow
import Mathlib.Analysis.Calculus.IteratedDeriv.Lemmas

/-
C15, C16, C22, C24, C25: what every electrode class guarantees about `potential`.
-/
namespace Electrode
open Spec Real

/-! ### C15 -/

theorem addFn_eq_zipWith (row : List ℝ) (f : Nat → ℝ) (n : Nat) (h : row.length = n) :
    addFn row f = List.zipWith (fun o t => o + t) row ((List.range n).map f) := by
  apply List.ext_getElem
  · simp [addFn_length, h]
  · intro i h1 h2
    rw [addFn_getElem]
    simp

/-- C15: `potential(x, d, v, out)` adds `v` times `potential(x, d, 1)` to `out`, entry by entry. -/
theorem c15_linear (e : Elec) (x : List V3) (d : Nat) (v : ℝ) (out : List (List ℝ))
    (h1 : out.length = x.length) (h2 : ∀ row ∈ out, row.length = 2 * d + 1) (u : List (List ℝ))
    (hu : e.potential x d 1 none = .ok u) :
    e.potential x d v (some out)
      = .ok (List.zipWith (fun row urow => List.zipWith (fun o t => o + v * t) row urow) out u) := by
  have ha : e.shape.Avail d := by
    by_contra h
    rw [Elec.potential_err e x d 1 none h] at hu
    cases hu
  rw [Elec.potential_new e x d 1 ha] at hu
  injection hu with hu
  rw [Elec.potential_eq e x d v out h1.symm ha, ← hu]
  congr 1
  apply List.ext_getElem
  · simp [h1]
  · intro j hj1 hj2
    have hj : j < out.length := by simp at hj1; omega
    simp only [List.getElem_zipWith, List.getElem_map]
    rw [addFn_eq_zipWith _ _ (2 * d + 1) (h2 _ (List.getElem_mem hj)), List.zipWith_map_right,
      List.zipWith_map_right]
    simp

/-- C15: `out` and the scaling do not influence whether the call fails. -/
theorem c15_error (e : Elec) (x : List V3) (d : Nat) (v : ℝ) (out : Option (List (List ℝ))) (err : PyErr)
    (hu : e.potential x d 1 none = .error err) : e.potential x d v out = .error err := by
  have ha : ¬ e.shape.Avail d := by
    intro h
    rw [Elec.potential_new e x d 1 h] at hu
    cases hu
  rw [Elec.potential_err e x d 1 none ha] at hu
  rw [Elec.potential_err e x d v out ha, ← hu]

/-- C15: without `out` the result starts from zeros. -/
theorem c15_none_is_zeros (e : Elec) (x : List V3) (d : Nat) (v : ℝ) :
    e.potential x d v none = e.potential x d v (some (List.replicate x.length (List.replicate (2 * d + 1) 0))) :=
  Elec.potential_none e x d v

/-- C15: the result has one row of `2 d + 1` numbers for each position. -/
theorem c15_shape (e : Elec) (x : List V3) (d : Nat) (v : ℝ) (u : List (List ℝ)) (hu : e.potential x d v none = .ok u) :
    u.length = x.length ∧ ∀ row ∈ u, row.length = 2 * d + 1 := by
  have ha : e.shape.Avail d := by
    by_contra h
    rw [Elec.potential_err e x d v none h] at hu
    cases hu
  rw [Elec.potential_new e x d v ha] at hu
  injection hu with hu
  subst hu
  simp

/-- the hypotheses of `c15_linear` are met by a cover electrode at one position -/
example : ∃ u, (⟨"cover", 0, 0, .cover 50⟩ : Elec).potential [⟨0, 0, 1⟩] 0 1 none = .ok u ∧
    (1 : ℕ) = [(⟨0, 0, 1⟩ : V3)].length ∧ ∀ row ∈ [[(3 : ℝ)]], row.length = 2 * 0 + 1 :=
  ⟨_, Elec.potential_new ⟨"cover", 0, 0, .cover 50⟩ _ _ _ trivial, rfl, by simp⟩

/-! ### C16 -/

/-- C16: row `j` of the result is what evaluating position `j` alone gives. -/
theorem c16_pointwise (e : Elec) (x : List V3) (d : Nat) (v : ℝ) (u : List (List ℝ))
    (hu : e.potential x d v none = .ok u) (j : Nat) (p : V3) (hp : x[j]? = some p) :
    ∃ row, u[j]? = some row ∧ e.potential [p] d v none = .ok [row] := by
  have ha : e.shape.Avail d := by
    by_contra h
    rw [Elec.potential_err e x d v none h] at hu
    cases hu
  rw [Elec.potential_new e x d v ha] at hu
  injection hu with hu
  subst hu
  refine ⟨_, ?_, Elec.potential_new e [p] d v ha⟩
  simp [hp]

/-- C16: evaluation of two batches is the concatenation of the two evaluations. -/
theorem c16_append (e : Elec) (x y : List V3) (d : Nat) (v : ℝ) (u w : List (List ℝ))
    (hu : e.potential x d v none = .ok u) (hw : e.potential y d v none = .ok w) :
    e.potential (x ++ y) d v none = .ok (u ++ w) := by
  have ha : e.shape.Avail d := by
    by_contra h
    rw [Elec.potential_err e x d v none h] at hu
    cases hu
  rw [Elec.potential_new e _ d v ha] at hu hw ⊢
  injection hu with hu
  injection hw with hw
  rw [← hu, ← hw, List.map_append]

example : ∃ u, (⟨"cover", 0, 0, .cover 50⟩ : Elec).potential [⟨0, 0, 1⟩, ⟨0, 0, 2⟩] 0 1 none = .ok u ∧
    [(⟨0, 0, 1⟩ : V3), ⟨0, 0, 2⟩][1]? = some ⟨0, 0, 2⟩ :=
  ⟨_, Elec.potential_new ⟨"cover", 0, 0, .cover 50⟩ _ _ _ trivial, rfl⟩

/-! ### C22 -/

theorem cover_comp (name : String) (dc rf height : ℝ) (d i : Nat) (hi : i < 2 * d + 1) (v : ℝ) (p : V3) :
    compAt ⟨name, dc, rf, .cover height⟩ d i v p = v * coverContrib height d p i :=
  compAt_eq ⟨name, dc, rf, .cover height⟩ d i v p trivial hi

/-- C22: the cover electrode has potential 0 on the electrode plane. -/
theorem c22_plane (name : String) (dc rf height v x y : ℝ) :
    compAt ⟨name, dc, rf, .cover height⟩ 0 0 v ⟨x, y, 0⟩ = 0 := by
  rw [cover_comp _ _ _ _ _ _ (by norm_num)]; simp [coverContrib]

/-- C22: … and the applied voltage on the cover. -/
theorem c22_cover (name : String) (dc rf height v x y : ℝ) (h : height ≠ 0) :
    compAt ⟨name, dc, rf, .cover height⟩ 0 0 v ⟨x, y, height⟩ = v := by
  rw [cover_comp _ _ _ _ _ _ (by norm_num)]; simp [coverContrib, h]

/-- C22: order 1 is the gradient of order 0. -/
theorem c22_gradient (name : String) (dc rf height v : ℝ) (p : V3) (a : Axis) :
    HasPartial a (compAt ⟨name, dc, rf, .cover height⟩ 0 0 v)
      (compAt ⟨name, dc, rf, .cover height⟩ 1 a.val v p) p := by
  rw [cover_comp _ _ _ _ _ _ (by have := a.isLt; omega)]
  refine HasPartial.congr (f := fun p => v * (p.z / height)) ?_ ?_
  · apply HasPartial.const_mul
    unfold HasPartial
    fin_cases a
    · simpa [shift, coverContrib] using hasDerivAt_const (0 : ℝ) (p.z / height)
    · simpa [shift, coverContrib] using hasDerivAt_const (0 : ℝ) (p.z / height)
    · have := ((hasDerivAt_id (0 : ℝ)).const_add p.z).div_const height
      simpa [shift, coverContrib] using this
  · intro q
    rw [cover_comp _ _ _ _ _ _ (by norm_num)]; simp [coverContrib]

/-- C22: all higher orders vanish. -/
theorem c22_higher (name : String) (dc rf height v : ℝ) (d : Nat) (hd : 2 ≤ d) (x : List V3) :
    (⟨name, dc, rf, .cover height⟩ : Elec).potential x d v none
      = .ok (List.replicate x.length (List.replicate (2 * d + 1) 0)) := by
  rw [Elec.potential_new ⟨name, dc, rf, .cover height⟩ x d v trivial]
  have h0 : d ≠ 0 := by omega
  have h1 : d ≠ 1 := by omega
  congr 1
  apply List.ext_getElem
  · simp
  · intro j _ _
    simp only [List.getElem_map, List.getElem_replicate, Shape.contrib, coverContrib, h0, h1, if_false, mul_zero]
    simp

/-! ### C24 -/

/-- C24: `to_points` keeps name, voltages and cover parameters, and has one pixel per path, in
order, at the centroid of the path with its signed area. -/
theorem c24_to_points (e : Elec) (paths : List (List V2)) (h : ℝ) (n : Nat) (hs : e.shape = .polygons paths h n) :
    ∃ e' points areas, e.toPoints = .ok e' ∧ e'.name = e.name ∧ e'.dc = e.dc ∧ e'.rf = e.rf ∧
      e'.shape = .points points areas h n ∧
      points.length = paths.length ∧ areas.length = paths.length ∧
      ∀ (j : Nat) (path : List V2), paths[j]? = some path →
        areas[j]? = some (areaCentroid path).1 ∧ points[j]? = some (areaCentroid path).2 := by
  unfold Elec.toPoints
  rw [hs]
  refine ⟨_, _, _, rfl, rfl, rfl, rfl, rfl, by simp, by simp, ?_⟩
  intro j path hj
  simp [hj]

example : (⟨"a", 1, 2, .polygons [[⟨0, 0⟩, ⟨1, 0⟩, ⟨0, 1⟩]] 50 0⟩ : Elec).shape
    = .polygons [[⟨0, 0⟩, ⟨1, 0⟩, ⟨0, 1⟩]] 50 0 := rfl

/-! ### C25 -/

theorem pixelComp_high (d i : Nat) (hd : 6 ≤ d) (q : V2) (p : V3) : pixelComp d i q p = 0 := by
  unfold pixelComp pointTerm
  have : pointNum d = [] := by
    match d, hd with
    | n + 6, _ => rfl
  rw [this]; rfl

theorem segComp_high (d i : Nat) (hd : 6 ≤ d) (p : V3) (v1 v2 : V2) : segComp d i p v1 v2 = 0 := by
  unfold segComp edgeTerm
  have : edgeNum d = [] := by
    match d, hd with
    | n + 6, _ => rfl
  match d, hd with
  | n + 6, _ => simp only [this]; rfl

/-- Order 6 and above of a point or polygon electrode: the call succeeds and all components are
zero. -/
theorem c25_high_orders_zero (e : Elec) (ps : List V2) (as : List ℝ) (paths : List (List V2)) (h : ℝ) (n : Nat)
    (hs : e.shape = .points ps as h n ∨ e.shape = .polygons paths h n) (d : Nat) (hd : 6 ≤ d) (v : ℝ) (x : List V3) :
    e.potential x d v none = .ok (List.replicate x.length (List.replicate (2 * d + 1) 0)) := by
  have ha : e.shape.Avail d := by rcases hs with hs | hs <;> rw [hs] <;> trivial
  rw [Elec.potential_new e x d v ha]
  have hc : ∀ p i, e.shape.contrib d p i = 0 := by
    intro p i
    rcases hs with hs | hs
    · rw [hs]; simp [Shape.contrib, pointContrib, pixelComp_high d i hd]
    · rw [hs]; simp [Shape.contrib, polyContrib, polyComp, segComp_high d i hd]
  simp only [hc, mul_zero]
  congr 1
  apply List.ext_getElem <;> simp

theorem point_axis (z : ℝ) (hz : 0 < z) :
    compAt ⟨"", 0, 0, .points [⟨0, 0⟩] [1] 50 0⟩ 0 0 1 ⟨0, 0, z⟩ = 1 / (2 * π) * z ^ (-2 : ℤ) := by
  rw [compAt_eq ⟨"", 0, 0, .points [⟨0, 0⟩] [1] 50 0⟩ _ _ _ _ trivial (by norm_num)]
  simp only [Shape.contrib, pointContrib, images, coverRange, pixelComp, V3.lift, pointTerm, pointNum, pointNum0,
    pointNorm]
  have hpi : π ≠ 0 := pi_ne_zero
  have : √(z ^ 2) = z := sqrt_sq hz.le
  have hv : PExpr.eval (pointEnv 0 0 z z) PointVars.z = z := rfl
  simp [this, hv]
  field_simp

/-- C25 fails: the potential of one pixel of unit area above its centre has a sixth derivative
along z that is not zero, but asking for order 6 returns 13 zeros without any error. -/
theorem c25_silently_wrong :
    (⟨"", 0, 0, .points [⟨0, 0⟩] [1] 50 0⟩ : Elec).potential [⟨0, 0, 1⟩] 6 1 none
      = .ok [List.replicate 13 0] ∧
    iteratedDeriv 6 (fun z => compAt ⟨"", 0, 0, .points [⟨0, 0⟩] [1] 50 0⟩ 0 0 1 ⟨0, 0, z⟩) 1 ≠ 0 := by
  constructor
  · rw [c25_high_orders_zero _ [⟨0, 0⟩] [1] [] 50 0 (Or.inl rfl) 6 le_rfl]; rfl
  · have hev : (fun z => compAt ⟨"", 0, 0, .points [⟨0, 0⟩] [1] 50 0⟩ 0 0 1 ⟨0, 0, z⟩)
        =ᶠ[nhds 1] fun z => 1 / (2 * π) * z ^ (-2 : ℤ) := by
      filter_upwards [lt_mem_nhds (show (0 : ℝ) < 1 by norm_num)] with z hz
      exact point_axis z hz
    have h6 := hev.iteratedDeriv_eq 6
    rw [h6, iteratedDeriv_eq_iterate]
    have hd : ∀ (c : ℝ) (m : ℤ), deriv (fun z : ℝ => c * z ^ m) = fun z => c * m * z ^ (m - 1) := by
      intro c m
      funext z
      rw [deriv_const_mul_field, deriv_zpow]; ring
    simp only [Function.iterate_succ, Function.iterate_zero, Function.comp_apply, id, hd]
    norm_num

/-- The part of C25 that holds: electrodes from grid data raise `IndexError` for an order they do
not have. -/
theorem c25_grid_error_partial (e : Elec) (data : List Arr4) (o s : V3) (hs : e.shape = .grid data o s) (d : Nat)
    (hd : data.length ≤ d) (v : ℝ) (x : List V3) (out : Option (List (List ℝ))) :
    e.potential x d v out = .error .indexError := by
  apply Elec.potential_err
  rw [hs]
  rintro ⟨dat, h1, _⟩
  have := (List.getElem?_eq_some_iff.1 h1).1
  omega

example : ([] : List Arr4).length ≤ 6 := by simp

end Electrode
