import Verif.Model.Kernels
import Verif.Props.Polygons

/-
C87: the compiled and the Python kernels give the same fields.
-/
namespace Electrode
open Real Spec

theorem kern_den (x1 x2 y1 y2 z : ℝ) (hz : z ≠ 0) :
    0 < |z| * (√(x1 ^ 2 + y1 ^ 2 + z ^ 2) * √(x2 ^ 2 + y2 ^ 2 + z ^ 2) + x1 * x2 + y1 * y2
      + |z| * (|z| + √(x1 ^ 2 + y1 ^ 2 + z ^ 2) + √(x2 ^ 2 + y2 ^ 2 + z ^ 2))) := by
  have h0 : 0 < |z| := abs_pos.mpr hz
  have h1 := sqrt_nonneg (x1 ^ 2 + y1 ^ 2 + z ^ 2)
  have h2 := sqrt_nonneg (x2 ^ 2 + y2 ^ 2 + z ^ 2)
  have s1 := sq_sqrt (show 0 ≤ x1 ^ 2 + y1 ^ 2 + z ^ 2 by positivity)
  have s2 := sq_sqrt (show 0 ≤ x2 ^ 2 + y2 ^ 2 + z ^ 2 by positivity)
  generalize √(x1 ^ 2 + y1 ^ 2 + z ^ 2) = r1 at *
  generalize √(x2 ^ 2 + y2 ^ 2 + z ^ 2) = r2 at *
  have h3 : 0 ≤ r1 * r2 + (x1 * x2 + y1 * y2) := by
    have : (x1 * x2 + y1 * y2) ^ 2 ≤ (r1 * r2) ^ 2 := by
      rw [mul_pow, s1, s2]
      nlinarith [sq_nonneg (x1 * y2 - y1 * x2), sq_nonneg (z * x1), sq_nonneg (z * x2), sq_nonneg (z * y1),
        sq_nonneg (z * y2), sq_nonneg (z * z)]
    have := abs_le_of_sq_le_sq' this (mul_nonneg h1 h2)
    linarith [this.1]
  have h4 : 0 < |z| * (|z| + r1 + r2) := mul_pos h0 (by linarith)
  exact mul_pos h0 (by linarith)

theorem kern_den' (x1 x2 y1 y2 z : ℝ) (hz : z ≠ 0) :
    √(x1 ^ 2 + y1 ^ 2 + z ^ 2) * √(x2 ^ 2 + y2 ^ 2 + z ^ 2) ≠ 0 ∧
    (√(x1 ^ 2 + y1 ^ 2 + z ^ 2) + √(x2 ^ 2 + y2 ^ 2 + z ^ 2)) ^ 2 - ((x1 - x2) ^ 2 + (y1 - y2) ^ 2) ≠ 0 := by
  have h0 : 0 < z ^ 2 := by positivity
  have h1 : 0 < √(x1 ^ 2 + y1 ^ 2 + z ^ 2) := sqrt_pos.mpr (by positivity)
  have h2 : 0 < √(x2 ^ 2 + y2 ^ 2 + z ^ 2) := sqrt_pos.mpr (by positivity)
  have s1 := sq_sqrt (show 0 ≤ x1 ^ 2 + y1 ^ 2 + z ^ 2 by positivity)
  have s2 := sq_sqrt (show 0 ≤ x2 ^ 2 + y2 ^ 2 + z ^ 2 by positivity)
  generalize √(x1 ^ 2 + y1 ^ 2 + z ^ 2) = r1 at *
  generalize √(x2 ^ 2 + y2 ^ 2 + z ^ 2) = r2 at *
  refine ⟨(mul_pos h1 h2).ne', ?_⟩
  have h3 : 0 ≤ r1 * r2 + (x1 * x2 + y1 * y2) := by
    have : (x1 * x2 + y1 * y2) ^ 2 ≤ (r1 * r2) ^ 2 := by
      rw [mul_pow, s1, s2]
      nlinarith [sq_nonneg (x1 * y2 - y1 * x2), sq_nonneg (z * x1), sq_nonneg (z * x2), sq_nonneg (z * y1),
        sq_nonneg (z * y2), sq_nonneg (z * z)]
    have := abs_le_of_sq_le_sq' this (mul_pos h1 h2).le
    linarith [this.1]
  nlinarith

theorem catan2_eq (y : ℝ) {x : ℝ} (hx : 0 < x) : catan2 y x = arctan (y / x) := by
  have h1 := Complex.abs_arg_lt_pi_div_two_iff.mpr (Or.inl (show 0 < (⟨x, y⟩ : ℂ).re from hx))
  rw [abs_lt] at h1
  rw [catan2, ← Real.arctan_tan h1.1 h1.2, Complex.tan_arg]

theorem edgeTermC_eq (d : Nat) (x1 x2 y1 y2 l2 z a : ℝ) :
    edgeTermC d x1 x2 y1 y2 (√(x1 ^ 2 + y1 ^ 2 + z ^ 2)) (√(x2 ^ 2 + y2 ^ 2 + z ^ 2)) l2 z a
      = edgeTerm d x1 x2 y1 y2 (√(x1 ^ 2 + y1 ^ 2 + z ^ 2)) (√(x2 ^ 2 + y2 ^ 2 + z ^ 2)) l2 z a := by
  cases d with
  | succ d => rfl
  | zero =>
    simp only [edgeTermC, edgeTerm]
    by_cases hz : z = 0
    · subst hz
      simp only [zero_mul, abs_zero, zero_div, arctan_zero]
      rw [catan2, show (⟨0, 0⟩ : ℂ) = 0 from rfl, Complex.arg_zero, zero_mul]
    · rw [catan2_eq _ (kern_den x1 x2 y1 y2 z hz)]

theorem polyVertexStepC_fold (d : Nat) (v z : ℝ) (p : V3) (poly : List V2) (prev : V2) (row : List ℝ) :
    poly.foldl (polyVertexStepC d v z p)
      ⟨p.x - prev.x, p.y - prev.y, √((p.x - prev.x) ^ 2 + (p.y - prev.y) ^ 2 + z ^ 2), row⟩
    = poly.foldl (polyVertexStep d v z p)
      ⟨p.x - prev.x, p.y - prev.y, √((p.x - prev.x) ^ 2 + (p.y - prev.y) ^ 2 + z ^ 2), row⟩ := by
  induction poly generalizing prev row with
  | nil => rfl
  | cons q poly ih =>
    simp only [List.foldl_cons]
    have : polyVertexStepC d v z p ⟨p.x - prev.x, p.y - prev.y, √((p.x - prev.x) ^ 2 + (p.y - prev.y) ^ 2 + z ^ 2), row⟩ q
        = polyVertexStep d v z p ⟨p.x - prev.x, p.y - prev.y, √((p.x - prev.x) ^ 2 + (p.y - prev.y) ^ 2 + z ^ 2), row⟩ q := by
      simp only [polyVertexStepC, polyVertexStep, edgeTermC_eq]
    rw [this]
    exact ih q _

theorem polyImageStepC_eq (d : Nat) (v h : ℝ) (poly : List V2) (p : V3) (row : List ℝ) (m : ℤ) :
    polyImageStepC d v h poly p row m = polyImageStep d v h poly p row m := by
  unfold polyImageStepC polyImageStep
  cases poly.getLast? with
  | none => rfl
  | some last => exact congrArg EdgeState.row (polyVertexStepC_fold d v (p.z + 2 * m * h) p poly last row)

theorem polygonPotentialC_eq (x : List V3) (polys : List (List V2)) (v : ℝ) (d n : Nat) (h : ℝ)
    (out : Option (List (List ℝ))) : polygonPotentialC x polys v d n h out = polygonPotential x polys v d n h out := by
  unfold polygonPotentialC polygonPotential
  have : ∀ poly p, polyImageStepC d v h poly p = polyImageStep d v h poly p := fun poly p => by
    funext row m; exact polyImageStepC_eq ..
  simp only [this]

/-- C87: for meshes the compiled kernel returns the same array as the Python one; with
polygons see `c87_polygon`. -/
theorem c87_mesh (x : List V3) (points : List V2) (edges : List (Nat × Nat)) (polygons : List Nat) (potentials : List ℝ)
    (d n : Nat) (h : ℝ) (out : Option (List (List ℝ))) :
    meshPotentialC x points edges polygons potentials d n h out = meshPotential x points edges polygons potentials d n h out := by
  unfold meshPotentialC meshPotential
  have : ∀ v1 v2 pot p, meshStepC d h v1 v2 pot p = meshStep d h v1 v2 pot p := fun v1 v2 pot p => by
    funext row k
    simp only [meshStepC, meshStep, edgeTermC_eq]
  simp only [this]

theorem edgeTermPy_some (d : Nat) (x1 x2 y1 y2 z a : ℝ) (hz : z ≠ 0) :
    edgeTermPy d x1 x2 y1 y2 (√(x1 ^ 2 + y1 ^ 2 + z ^ 2)) (√(x2 ^ 2 + y2 ^ 2 + z ^ 2)) ((x1 - x2) ^ 2 + (y1 - y2) ^ 2) z a
      = some (edgeTerm d x1 x2 y1 y2 (√(x1 ^ 2 + y1 ^ 2 + z ^ 2)) (√(x2 ^ 2 + y2 ^ 2 + z ^ 2))
          ((x1 - x2) ^ 2 + (y1 - y2) ^ 2) z a) := by
  cases d with
  | zero => exact if_neg (kern_den x1 x2 y1 y2 z hz).ne'
  | succ d =>
    obtain ⟨h1, h2⟩ := kern_den' x1 x2 y1 y2 z hz
    exact if_neg fun h => h.2.elim h1 h2

theorem polyVertexStepPy_fold (d : Nat) (v z : ℝ) (hz : z ≠ 0) (p : V3) (poly : List V2) (prev : V2) (row : List ℝ) :
    poly.foldlM (polyVertexStepPy d v z p)
      ⟨p.x - prev.x, p.y - prev.y, √((p.x - prev.x) ^ 2 + (p.y - prev.y) ^ 2 + z ^ 2), row⟩
    = some (poly.foldl (polyVertexStep d v z p)
      ⟨p.x - prev.x, p.y - prev.y, √((p.x - prev.x) ^ 2 + (p.y - prev.y) ^ 2 + z ^ 2), row⟩) := by
  induction poly generalizing prev row with
  | nil => rfl
  | cons q poly ih =>
    rw [List.foldlM_cons, List.foldl_cons]
    have : polyVertexStepPy d v z p ⟨p.x - prev.x, p.y - prev.y, √((p.x - prev.x) ^ 2 + (p.y - prev.y) ^ 2 + z ^ 2), row⟩ q
        = some (polyVertexStep d v z p ⟨p.x - prev.x, p.y - prev.y, √((p.x - prev.x) ^ 2 + (p.y - prev.y) ^ 2 + z ^ 2), row⟩ q) := by
      simp only [polyVertexStepPy, polyVertexStep, edgeTermPy_some _ _ _ _ _ _ _ hz, Option.map_some]
    rw [this]
    exact ih q _

theorem polyImageStepPy_some (d : Nat) (v h : ℝ) (poly : List V2) (hp : poly ≠ []) (p : V3) (row : List ℝ) (m : ℤ)
    (hz : p.z + 2 * m * h ≠ 0) :
    polyImageStepPy d v h poly p row m = some (polyImageStep d v h poly p row m) := by
  unfold polyImageStepPy polyImageStep
  rw [List.getLast?_eq_getLast_of_ne_nil hp]
  simp only
  rw [polyVertexStepPy_fold d v _ hz p poly]
  rfl

theorem foldlM_some {α β : Type} (f : β → α → Option β) (g : β → α → β) (l : List α) (b : β)
    (h : ∀ a ∈ l, ∀ b, f b a = some (g b a)) : l.foldlM f b = some (l.foldl g b) := by
  induction l generalizing b with
  | nil => rfl
  | cons a l ih =>
    rw [List.foldlM_cons, List.foldl_cons, h a (by simp)]
    exact ih _ fun a' ha => h a' (by simp [ha])

theorem mapM_zip_some {α β γ : Type} (f : α × β → Option γ) (g : α → β → γ) (x : List α) (y : List β)
    (h : ∀ a ∈ x, ∀ b, f (a, b) = some (g a b)) : (x.zip y).mapM f = some (List.zipWith g x y) := by
  induction x generalizing y with
  | nil => rfl
  | cons a x ih =>
    cases y with
    | nil => rfl
    | cons b y =>
      rw [List.zip_cons_cons, List.mapM_cons, h a (by simp), ih y fun a' ha => h a' (by simp [ha])]
      rfl

/-- C87: for polygons and all positions off the image planes the Python kernel returns numbers, and
the compiled kernel returns the same numbers; for every derivative order, cover and array to add to. -/
theorem c87_polygon (x : List V3) (polys : List (List V2)) (v : ℝ) (d n : Nat) (h : ℝ) (out : Option (List (List ℝ)))
    (hx : ∀ p ∈ x, offPlanes h n p) (hp : ∀ poly ∈ polys, poly ≠ []) :
    polygonPotentialPy x polys v d n h out = some (polygonPotentialC x polys v d n h out) := by
  rw [polygonPotentialC_eq]
  unfold polygonPotentialPy polygonPotential
  refine foldlM_some _ _ _ _ fun poly hpoly out => ?_
  refine mapM_zip_some _ _ _ _ fun p hpx row => ?_
  refine foldlM_some _ _ _ _ fun m hm row => ?_
  rw [mem_coverRange] at hm
  exact polyImageStepPy_some d v h poly (hp poly hpoly) p row m (hx p hpx m hm.1 hm.2)

theorem polyImageStepPy_plane (v h : ℝ) (poly : List V2) (p : V3) (row : List ℝ) (m : ℤ)
    (hz : p.z + 2 * m * h = 0) : polyImageStepPy 0 v h poly p row m = none := by
  unfold polyImageStepPy
  cases poly with
  | nil => rfl
  | cons a t =>
    rw [List.getLast?_eq_getLast_of_ne_nil (by simp)]
    simp only [hz]
    rw [List.foldlM_cons]
    simp [polyVertexStepPy, edgeTermPy]

theorem foldlM_none {α β : Type} (f : β → α → Option β) (l : List α) (b : β) (a : α) (ha : a ∈ l)
    (h : ∀ b, f b a = none) : l.foldlM f b = none := by
  induction l generalizing b with
  | nil => simp at ha
  | cons c l ih =>
    rw [List.foldlM_cons]
    rcases List.mem_cons.mp ha with rfl | ha
    · rw [h]; rfl
    · cases f b c with
      | none => rfl
      | some b' => exact ih b' ha

theorem mapM_none {α β : Type} (f : α → Option β) (l : List α) (a : α) (ha : a ∈ l) (h : f a = none) : l.mapM f = none := by
  induction l with
  | nil => simp at ha
  | cons c l ih =>
    rw [List.mapM_cons]
    rcases List.mem_cons.mp ha with rfl | ha
    · rw [h]; rfl
    · rw [ih ha]
      cases f c <;> rfl

theorem mem_zip_replicate {α β : Type} (x : List α) (b : β) (a : α) (ha : a ∈ x) :
    (a, b) ∈ x.zip (List.replicate x.length b) := by
  induction x with
  | nil => simp at ha
  | cons c x ih =>
    rw [List.length_cons, List.replicate_succ, List.zip_cons_cons, List.mem_cons]
    rcases List.mem_cons.mp ha with rfl | ha
    · exact Or.inl rfl
    · exact Or.inr (ih ha)

/-- C87: the condition on the positions is needed: if one of them lies in an image plane, the Python
kernel yields no number for the potential (all rows fail together if it is an exception). -/
theorem c87_plane (x : List V3) (polys : List (List V2)) (v : ℝ) (n : Nat) (h : ℝ) (hp : polys ≠ [])
    (p : V3) (hx : p ∈ x) (hz : ¬ offPlanes h n p) : polygonPotentialPy x polys v 0 n h none = none := by
  unfold offPlanes at hz
  push_neg at hz
  obtain ⟨m, h1, h2, h3⟩ := hz
  cases polys with
  | nil => exact absurd rfl hp
  | cons poly polys =>
    unfold polygonPotentialPy
    rw [List.foldlM_cons, Option.getD_none]
    unfold zeroRows
    rw [mapM_none _ _ (p, List.replicate (0 * 2 + 1) 0) (mem_zip_replicate x _ p hx)]
    · rfl
    · exact foldlM_none _ _ _ m (mem_coverRange.mpr ⟨h1, h2⟩) fun row => polyImageStepPy_plane v h poly p row m h3

/-- C87: there the compiled kernel returns zero, on the electrode as well as beside it: the limit from above
(C86) is the voltage. -/
theorem c87_plane_compiled (x y : ℝ) (polys : List (List V2)) (v h : ℝ) :
    polygonPotentialC [⟨x, y, 0⟩] polys v 0 0 h none = [[0]] := by
  rw [polygonPotentialC_eq]
  have hz : zeroRows [(⟨x, y, 0⟩ : V3)].length 0 = [[0]] := rfl
  have e : polygonPotential [⟨x, y, 0⟩] polys v 0 0 h none = polygonPotential [⟨x, y, 0⟩] polys v 0 0 h (some [[0]]) := by
    unfold polygonPotential
    rw [Option.getD_none, hz, Option.getD_some]
  rw [e, polygonPotential_eq _ _ _ _ _ _ _ rfl]
  have : polyContrib 0 0 h polys ⟨x, y, 0⟩ 0 = 0 := by
    simp [polyContrib, images, coverRange, V3.lift, polyComp, segComp, edgeTerm]
  simp [addFn, this]

/-- the hypotheses of `c87_polygon` and `c87_plane` are met -/
example : polygonPotentialPy [⟨0, 0, 1⟩, ⟨3, 1, -2⟩] [[⟨0, 0⟩, ⟨1, 0⟩, ⟨0, 1⟩]] 2 1 0 50 none
    = some (polygonPotentialC [⟨0, 0, 1⟩, ⟨3, 1, -2⟩] [[⟨0, 0⟩, ⟨1, 0⟩, ⟨0, 1⟩]] 2 1 0 50 none) :=
  c87_polygon _ _ _ _ _ _ _ (by
    intro p hp m h1 h2
    have : m = 0 := by simp at h1 h2; omega
    subst this
    simp at hp
    rcases hp with rfl | rfl <;> norm_num) (by simp)
example : polygonPotentialPy [⟨0, 0, 1⟩, ⟨3, 1, 0⟩] [[⟨0, 0⟩, ⟨1, 0⟩, ⟨0, 1⟩]] 2 0 0 50 none = none :=
  c87_plane _ _ _ _ _ (by simp) ⟨3, 1, 0⟩ (by simp) (by
    unfold offPlanes
    push_neg
    exact ⟨0, by simp, by simp, by norm_num⟩)

end Electrode
