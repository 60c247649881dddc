import Verif.Model.Project
import Verif.Props.Affine

/-! C97: projection matrices.  C98: clip matrices.  C99: shear matrices. -/

namespace Electrode

open Matrix Spec

namespace Spec

/-- the matrix takes the point `x` to the point `y`, with the homogeneous coordinate `w` (after division by which `y` is seen) -/
def TakesTo (M : Matrix (Fin 4) (Fin 4) ℝ) (x y : Fin 3 → ℝ) (w : ℝ) : Prop :=
  w ≠ 0 ∧ M *ᵥ ![x 0, x 1, x 2, 1] = w • ![y 0, y 1, y 2, 1]

/-- the point lies on the plane through `p` with normal `n` -/
def OnPlane (p n x : Fin 3 → ℝ) : Prop := dot3 (x - p) n = 0

end Spec

theorem vdot_three (u v : Fin 3 → ℝ) : vdot u v = dot3 u v := by
  rw [vdot, Fin.sum_univ_three]; rfl

theorem block4_apply (R : Fin 3 → Fin 3 → ℝ) (t b : Fin 3 → ℝ) (w : ℝ) : block4 R t b w =
    !![R 0 0, R 0 1, R 0 2, t 0; R 1 0, R 1 1, R 1 2, t 1; R 2 0, R 2 1, R 2 2, t 2; b 0, b 1, b 2, w] := by
  ext i j
  fin_cases i <;> fin_cases j <;> simp [block4]

theorem affine_apply (R : Fin 3 → Fin 3 → ℝ) (t : Fin 3 → ℝ) : affine R t =
    !![R 0 0, R 0 1, R 0 2, t 0; R 1 0, R 1 1, R 1 2, t 1; R 2 0, R 2 1, R 2 2, t 2; 0, 0, 0, 1] := by
  ext i j
  fin_cases i <;> fin_cases j <;> simp [affine]

/-- an affine matrix takes points where `moveBy` says -/
theorem takesTo_of_affine {M : Matrix (Fin 4) (Fin 4) ℝ} (h : IsAffine M) (x : Fin 3 → ℝ) : TakesTo M x (moveBy M x) 1 := by
  refine ⟨one_ne_zero, ?_⟩
  have h0 : M 3 0 = 0 := h.1 0
  have h1 : M 3 1 = 0 := h.1 1
  have h2 : M 3 2 = 0 := h.1 2
  ext a
  refine Fin.lastCases ?_ (fun b => ?_) a
  · have e : Fin.last 3 = (3 : Fin 4) := rfl
    rw [e]
    simp [Matrix.mulVec, dotProduct, Fin.sum_univ_four, h0, h1, h2, h.2]
  · fin_cases b <;> simp [Matrix.mulVec, dotProduct, Fin.sum_univ_four, Fin.sum_univ_three, moveBy] <;> rfl

/-- C97: without direction and perspective point, `projection_matrix` drops every point onto the plane along the normal. -/
theorem c97_orthogonal (p n : Fin 3 → ℝ) (hn : n ≠ 0) (pseudo : Bool) (x : Fin 3 → ℝ) (hx : OnPlane p n x) (t : ℝ) :
    TakesTo (projectionMatrix p n none none pseudo) (x + t • n) x 1 := by
  obtain ⟨hu, r, hr, hv⟩ := unit_dot hn
  have hd : n = r • unitVector n := funext hv
  simp only [projectionMatrix, vdot_three]
  rw [affine_apply]
  simp only [OnPlane] at hx
  generalize unitVector n = u at *
  subst hd
  refine ⟨one_ne_zero, ?_⟩
  have hx' : dot3 (x - p) u = 0 := by
    have : r * dot3 (x - p) u = 0 := by rw [← hx]; simp only [dot3, Pi.smul_apply, smul_eq_mul]; ring
    exact (mul_eq_zero.1 this).resolve_left hr.ne'
  simp only [dot3, Pi.sub_apply] at hu hx'
  ext a
  fin_cases a <;> simp [Matrix.mulVec, dotProduct, Fin.sum_univ_four, dot3, Matrix.one_apply]
  · linear_combination (-u 0) * hx' - t * r * u 0 * hu
  · linear_combination (-u 1) * hx' - t * r * u 1 * hu
  · linear_combination (-u 2) * hx' - t * r * u 2 * hu

/-- C97: with a direction that is not parallel to the plane, every point moves along that direction onto the plane. -/
theorem c97_parallel (p n d : Fin 3 → ℝ) (hnd : dot3 d n ≠ 0) (pseudo : Bool) (x : Fin 3 → ℝ) (hx : OnPlane p n x) (t : ℝ) :
    TakesTo (projectionMatrix p n (some d) none pseudo) (x + t • d) x 1 := by
  have hn : n ≠ 0 := by rintro rfl; exact hnd (by simp [dot3])
  obtain ⟨hu, r, hr, hv⟩ := unit_dot hn
  have hd : n = r • unitVector n := funext hv
  simp only [projectionMatrix, vdot_three]
  rw [affine_apply]
  simp only [OnPlane] at hx
  generalize unitVector n = u at *
  subst hd
  refine ⟨one_ne_zero, ?_⟩
  have hx' : dot3 (x - p) u = 0 := by
    have : r * dot3 (x - p) u = 0 := by rw [← hx]; simp only [dot3, Pi.smul_apply, smul_eq_mul]; ring
    exact (mul_eq_zero.1 this).resolve_left hr.ne'
  have hs : dot3 d u ≠ 0 := by
    intro h0; apply hnd
    have : dot3 d (r • u) = r * dot3 d u := by simp only [dot3, Pi.smul_apply, smul_eq_mul]; ring
    rw [this, h0, mul_zero]
  have key : ∀ c : ℝ, (c : ℝ) * (dot3 p u / dot3 d u) = c * ((dot3 x u) / dot3 d u) := by
    intro c
    have : dot3 p u = dot3 x u := by
      have := hx'; simp only [dot3, Pi.sub_apply] at this ⊢; linarith
    rw [this]
  ext a
  have hsum : ∀ c : ℝ, c * u 0 / dot3 d u * (x 0 + t * d 0) + c * u 1 / dot3 d u * (x 1 + t * d 1) + c * u 2 / dot3 d u * (x 2 + t * d 2)
      = c * (dot3 x u / dot3 d u) + t * c := by
    intro c
    field_simp
    simp only [dot3]; ring
  fin_cases a <;> simp [Matrix.mulVec, dotProduct, Fin.sum_univ_four, Matrix.one_apply]
  · linear_combination key (d 0) - hsum (d 0)
  · linear_combination key (d 1) - hsum (d 1)
  · linear_combination key (d 2) - hsum (d 2)

/-- C97: with a perspective point outside the plane, every point on the line through the perspective point and a point of the plane (other than
the perspective point itself) is taken to that point of the plane. -/
theorem c97_perspective (p n q : Fin 3 → ℝ) (hq : ¬ OnPlane p n q) (d : Option (Fin 3 → ℝ)) (x : Fin 3 → ℝ) (hx : OnPlane p n x) (t : ℝ)
    (ht : t ≠ 0) : ∃ w, TakesTo (projectionMatrix p n d (some q) false) (q + t • (x - q)) x w := by
  have hn : n ≠ 0 := by rintro rfl; exact hq (by simp [OnPlane, dot3])
  obtain ⟨hu, r, hr, hv⟩ := unit_dot hn
  have hd : n = r • unitVector n := funext hv
  simp only [projectionMatrix, block4_apply, vdot_three]
  simp only [OnPlane] at hx hq
  generalize unitVector n = u at *
  subst hd
  have hx' : dot3 (x - p) u = 0 := by
    have : r * dot3 (x - p) u = 0 := by rw [← hx]; simp only [dot3, Pi.smul_apply, smul_eq_mul]; ring
    exact (mul_eq_zero.1 this).resolve_left hr.ne'
  have hc : dot3 (q - p) u ≠ 0 := by
    intro h0; apply hq
    have : dot3 (q - p) (r • u) = r * dot3 (q - p) u := by simp only [dot3, Pi.smul_apply, smul_eq_mul]; ring
    rw [this, h0, mul_zero]
  refine ⟨t * dot3 (q - p) u, mul_ne_zero ht hc, ?_⟩
  simp only [dot3, Pi.sub_apply] at hx'
  ext a
  fin_cases a <;> simp [Matrix.mulVec, dotProduct, Fin.sum_univ_four, dot3]
  · linear_combination (-t * q 0) * hx'
  · linear_combination (-t * q 1) * hx'
  · linear_combination (-t * q 2) * hx'
  · linear_combination (-t) * hx'

/-- C97: the perspective projection is the orthogonal projection after the pseudo perspective one, as the docstring says. -/
theorem c97_pseudo (p n q : Fin 3 → ℝ) (hn : n ≠ 0) (d d' : Option (Fin 3 → ℝ)) (pseudo : Bool) :
    projectionMatrix p n d (some q) false = projectionMatrix p n none none pseudo * projectionMatrix p n d' (some q) true := by
  obtain ⟨hu, -⟩ := unit_dot hn
  simp only [projectionMatrix, vdot_three]
  simp only [Bool.false_eq_true, if_false, if_true]
  rw [affine_apply, block4_apply, block4_apply]
  generalize unitVector n = u at *
  simp only [dot3] at hu
  ext i j
  fin_cases i <;> fin_cases j <;> simp [Matrix.mul_apply, Fin.sum_univ_four, dot3]
  · linear_combination (-u 0 * u 0) * hu
  · linear_combination (-u 0 * u 1) * hu
  · linear_combination (-u 0 * u 2) * hu
  · linear_combination ((p 0 * u 0 + p 1 * u 1 + p 2 * u 2) * u 0) * hu
  · linear_combination (-u 1 * u 0) * hu
  · linear_combination (-u 1 * u 1) * hu
  · linear_combination (-u 1 * u 2) * hu
  · linear_combination ((p 0 * u 0 + p 1 * u 1 + p 2 * u 2) * u 1) * hu
  · linear_combination (-u 2 * u 0) * hu
  · linear_combination (-u 2 * u 1) * hu
  · linear_combination (-u 2 * u 2) * hu
  · linear_combination ((p 0 * u 0 + p 1 * u 1 + p 2 * u 2) * u 2) * hu

/-- how far the eye at `q` is from the plane through `x` that is parallel to the projection plane (times the length of the normal, with a sign) -/
def Spec.eyeDepth (q n x : Fin 3 → ℝ) : ℝ := dot3 (q - x) n

theorem pseudo_depth {p n q : Fin 3 → ℝ} (hn : n ≠ 0) {d : Option (Fin 3 → ℝ)} {x y : Fin 3 → ℝ} {w : ℝ}
    (h : TakesTo (projectionMatrix p n d (some q) true) x y w) : w = eyeDepth q (unitVector n) x ∧
      w * dot3 y (unitVector n) = dot3 p (unitVector n) * w + w - eyeDepth q (unitVector n) p := by
  obtain ⟨hu, -⟩ := unit_dot hn
  simp only [projectionMatrix, vdot_three, if_true] at h
  rw [block4_apply] at h
  generalize unitVector n = u at *
  obtain ⟨-, h⟩ := h
  have h0 := congrFun h 0
  have h1 := congrFun h 1
  have h2 := congrFun h 2
  have h3 := congrFun h 3
  simp [Matrix.mulVec, dotProduct, Fin.sum_univ_four, dot3] at h0 h1 h2 h3
  simp only [dot3] at hu
  have hw : w = eyeDepth q u x := by simp only [eyeDepth, dot3, Pi.sub_apply]; linarith
  refine ⟨hw, ?_⟩
  rw [hw] at h0 h1 h2 ⊢
  simp only [eyeDepth, dot3, Pi.sub_apply] at h0 h1 h2 ⊢
  linear_combination (-u 0) * h0 - u 1 * h1 - u 2 * h2 + (p 0 * u 0 + p 1 * u 1 + p 2 * u 2 - (x 0 * u 0 + x 1 * u 1 + x 2 * u 2)) * hu

/-- C97: the pseudo perspective projection keeps the order of depths: among the points on that side of the eye where the plane is, a point lies
further from the eye exactly when its image lies further along the normal. -/
theorem c97_depth (p n q : Fin 3 → ℝ) (d : Option (Fin 3 → ℝ)) (x x' y y' : Fin 3 → ℝ) (w w' : ℝ)
    (h : TakesTo (projectionMatrix p n d (some q) true) x y w) (h' : TakesTo (projectionMatrix p n d (some q) true) x' y' w')
    (s : 0 < eyeDepth q n x * eyeDepth q n p) (s' : 0 < eyeDepth q n x' * eyeDepth q n p) :
    dot3 y n < dot3 y' n ↔ |eyeDepth q n x| < |eyeDepth q n x'| := by
  have hn : n ≠ 0 := by rintro rfl; simp [eyeDepth, dot3] at s
  obtain ⟨hu, r, hr, hv⟩ := unit_dot hn
  have hd : n = r • unitVector n := funext hv
  obtain ⟨k1, k2⟩ := pseudo_depth hn h
  obtain ⟨k1', k2'⟩ := pseudo_depth hn h'
  generalize unitVector n = u at *
  subst hd
  have sc : ∀ z, eyeDepth q (r • u) z = r * eyeDepth q u z := by
    intro z; simp only [eyeDepth, dot3, Pi.smul_apply, smul_eq_mul]; ring
  have sd : ∀ z, dot3 z (r • u) = r * dot3 z u := by
    intro z; simp only [dot3, Pi.smul_apply, smul_eq_mul]; ring
  simp only [sc, sd] at s s' ⊢
  rw [← k1] at s ⊢
  rw [← k1'] at s' ⊢
  generalize dot3 y u = a at *
  generalize dot3 y' u = a' at *
  generalize eyeDepth q u p = c at *
  have s1 : 0 < w * c := by
    have : r * w * (r * c) = (r * r) * (w * c) := by ring
    rw [this] at s
    exact (mul_pos_iff_of_pos_left (by positivity)).1 s
  have s2 : 0 < w' * c := by
    have : r * w' * (r * c) = (r * r) * (w' * c) := by ring
    rw [this] at s'
    exact (mul_pos_iff_of_pos_left (by positivity)).1 s'
  rw [mul_lt_mul_iff_right₀ hr, abs_mul, abs_mul, abs_of_pos hr, mul_lt_mul_iff_right₀ hr]
  have e : w * w' * (a' - a) = (w' - w) * c := by linear_combination w * k2' - w' * k2
  rcases lt_trichotomy c 0 with hc | hc | hc
  · have w1 : w < 0 := by nlinarith
    have w2 : w' < 0 := by nlinarith
    have w3 : 0 < w * w' := mul_pos_of_neg_of_neg w1 w2
    rw [abs_of_neg w1, abs_of_neg w2]
    constructor <;> intro hh <;> nlinarith
  · subst hc; simp at s1
  · have w1 : 0 < w := by nlinarith
    have w2 : 0 < w' := by nlinarith
    have w3 : 0 < w * w' := mul_pos w1 w2
    rw [abs_of_pos w1, abs_of_pos w2]
    constructor <;> intro hh <;> nlinarith

/-- a point whose homogeneous coordinate does not vanish has an image -/
theorem takesTo_of_weight (M : Matrix (Fin 4) (Fin 4) ℝ) (x : Fin 3 → ℝ) (h : (M *ᵥ ![x 0, x 1, x 2, 1]) 3 ≠ 0) :
    ∃ y, TakesTo M x y ((M *ᵥ ![x 0, x 1, x 2, 1]) 3) := by
  generalize hv : M *ᵥ ![x 0, x 1, x 2, 1] = v at *
  refine ⟨![v 0 / v 3, v 1 / v 3, v 2 / v 3], h, ?_⟩
  rw [hv]
  ext i
  fin_cases i <;> simp [mul_div_cancel₀, h]

/-- C97: every point off the eye's plane has an image under the pseudo perspective projection. -/
theorem c97_pseudo_defined (p n q : Fin 3 → ℝ) (d : Option (Fin 3 → ℝ)) (x : Fin 3 → ℝ) (hx : eyeDepth q n x ≠ 0) :
    ∃ y w, TakesTo (projectionMatrix p n d (some q) true) x y w := by
  have hn : n ≠ 0 := by rintro rfl; simp [eyeDepth, dot3] at hx
  obtain ⟨hu, r, hr, hv⟩ := unit_dot hn
  have hd : n = r • unitVector n := funext hv
  refine ⟨_, _, (takesTo_of_weight _ _ ?_).choose_spec⟩
  simp only [projectionMatrix, vdot_three, if_true]
  rw [block4_apply]
  generalize unitVector n = u at *
  subst hd
  intro h0
  apply hx
  simp [Matrix.mulVec, dotProduct, Fin.sum_univ_four, dot3] at h0
  simp only [eyeDepth, dot3, Pi.smul_apply, smul_eq_mul, Pi.sub_apply]
  linear_combination r * h0

-- the eye above the plane z = 0, two points below each other
example : ¬ OnPlane ![0, 0, 0] ![0, 0, 2] ![0, 0, 1] ∧ OnPlane ![0, 0, 0] ![0, 0, 2] ![3, 1, 0] ∧ dot3 ![1, 0, 1] ![0, 0, 2] ≠ (0 : ℝ) ∧
    0 < eyeDepth ![0, 0, 1] ![0, 0, 2] ![5, 0, -1] * eyeDepth ![0, 0, 1] ![0, 0, 2] ![0, 0, 0] := by
  simp [OnPlane, dot3, eyeDepth]

/-- C98: without perspective, `clip_matrix` takes exactly the box to the cube from -1 to 1, left, bottom and near to -1. -/
theorem c98_box {l r b t n f : ℝ} {M : Matrix (Fin 4) (Fin 4) ℝ} (h : clipMatrix l r b t n f false = .ok M) (x : Fin 3 → ℝ) :
    ∃ y, TakesTo M x y 1 ∧ y = ![2 * (x 0 - l) / (r - l) - 1, 2 * (x 1 - b) / (t - b) - 1, 2 * (x 2 - n) / (f - n) - 1] ∧
      ((∀ i, -1 ≤ y i ∧ y i ≤ 1) ↔ (l ≤ x 0 ∧ x 0 ≤ r) ∧ (b ≤ x 1 ∧ x 1 ≤ t) ∧ n ≤ x 2 ∧ x 2 ≤ f) := by
  simp only [clipMatrix, Bool.false_eq_true, if_false] at h
  split at h
  · cases h
  rename_i hh
  push Not at hh
  obtain ⟨h1, h2, h3⟩ := hh
  obtain rfl := Except.ok.inj h
  have d1 : 0 < r - l := by linarith
  have d2 : 0 < t - b := by linarith
  have d3 : 0 < f - n := by linarith
  refine ⟨_, ⟨one_ne_zero, ?_⟩, rfl, ?_⟩
  · have e1 : (r + l) / (l - r) = -((r + l) / (r - l)) := by rw [← neg_sub r l, div_neg]
    have e2 : (t + b) / (b - t) = -((t + b) / (t - b)) := by rw [← neg_sub t b, div_neg]
    have e3 : (f + n) / (n - f) = -((f + n) / (f - n)) := by rw [← neg_sub f n, div_neg]
    rw [e1, e2, e3]
    ext i
    fin_cases i <;> simp [Matrix.mulVec, dotProduct, Fin.sum_univ_four] <;> field_simp <;> ring
  · have key : ∀ {a b c : ℝ}, 0 < b - a → ((-1 ≤ 2 * (c - a) / (b - a) - 1 ∧ 2 * (c - a) / (b - a) - 1 ≤ 1) ↔ a ≤ c ∧ c ≤ b) := by
      intro a b c hab
      rw [show (-1 ≤ 2 * (c - a) / (b - a) - 1) ↔ 0 ≤ 2 * (c - a) / (b - a) from ⟨fun h => by linarith, fun h => by linarith⟩,
        show (2 * (c - a) / (b - a) - 1 ≤ 1) ↔ 2 * (c - a) / (b - a) ≤ 2 from ⟨fun h => by linarith, fun h => by linarith⟩,
        le_div_iff₀ hab, div_le_iff₀ hab]
      constructor <;> rintro ⟨h, h'⟩ <;> constructor <;> linarith
    rw [Fin.forall_fin_succ, Fin.forall_fin_succ, Fin.forall_fin_succ]
    simp only [Matrix.cons_val_zero, Matrix.cons_val_succ, key d1, key d2, key d3]
    simp

/-- C98: with perspective, `clip_matrix` takes exactly the frustum to the cube from -1 to 1: the rays from the origin through the rectangle
`left, right, bottom, top` at depth `near`, cut at the depths `near` and `far`. -/
theorem c98_frustum {l r b t n f : ℝ} {M : Matrix (Fin 4) (Fin 4) ℝ} (h : clipMatrix l r b t n f true = .ok M) (x : Fin 3 → ℝ) (hx : x 2 ≠ 0) :
    ∃ y w, TakesTo M x y w ∧ y 0 = 2 * (x 0 * n / x 2 - l) / (r - l) - 1 ∧ y 1 = 2 * (x 1 * n / x 2 - b) / (t - b) - 1 ∧
      (y 2 = -1 ↔ x 2 = n) ∧ (y 2 = 1 ↔ x 2 = f) ∧
      ((∀ i, -1 ≤ y i ∧ y i ≤ 1) ↔ (l ≤ x 0 * n / x 2 ∧ x 0 * n / x 2 ≤ r) ∧ (b ≤ x 1 * n / x 2 ∧ x 1 * n / x 2 ≤ t) ∧ n ≤ x 2 ∧ x 2 ≤ f) := by
  simp only [clipMatrix, if_true] at h
  split at h
  · cases h
  rename_i hh
  split at h
  · cases h
  rename_i hn
  push Not at hh hn
  obtain ⟨h1, h2, h3⟩ := hh
  obtain rfl := Except.ok.inj h
  have n0 : 0 < n := lt_trans tEps_pos hn
  have d1 : 0 < r - l := by linarith
  have d2 : 0 < t - b := by linarith
  have d3 : 0 < f - n := by linarith
  have key : ∀ {a b c : ℝ}, 0 < b - a → ((-1 ≤ 2 * (c - a) / (b - a) - 1 ∧ 2 * (c - a) / (b - a) - 1 ≤ 1) ↔ a ≤ c ∧ c ≤ b) := by
    intro a b c hab
    rw [show (-1 ≤ 2 * (c - a) / (b - a) - 1) ↔ 0 ≤ 2 * (c - a) / (b - a) from ⟨fun h => by linarith, fun h => by linarith⟩,
      show (2 * (c - a) / (b - a) - 1 ≤ 1) ↔ 2 * (c - a) / (b - a) ≤ 2 from ⟨fun h => by linarith, fun h => by linarith⟩,
      le_div_iff₀ hab, div_le_iff₀ hab]
    constructor <;> rintro ⟨h, h'⟩ <;> constructor <;> linarith
  have e1 : 2 * n / (l - r) = -(2 * n / (r - l)) := by rw [← neg_sub r l, div_neg]
  have e2 : 2 * n / (b - t) = -(2 * n / (t - b)) := by rw [← neg_sub t b, div_neg]
  have e3 : (f + n) / (n - f) = -((f + n) / (f - n)) := by rw [← neg_sub f n, div_neg]
  have z1 : (f + n) / (f - n) - 2 * n * f / ((f - n) * x 2) + 1 = 2 * f * (x 2 - n) / ((f - n) * x 2) := by field_simp; ring
  have z2 : 1 - ((f + n) / (f - n) - 2 * n * f / ((f - n) * x 2)) = 2 * n * (f - x 2) / ((f - n) * x 2) := by field_simp; ring
  refine ⟨![2 * (x 0 * n / x 2 - l) / (r - l) - 1, 2 * (x 1 * n / x 2 - b) / (t - b) - 1, (f + n) / (f - n) - 2 * n * f / ((f - n) * x 2)], -x 2,
    ⟨neg_ne_zero.2 hx, ?_⟩, rfl, rfl, ?_, ?_, ?_⟩
  · rw [e1, e2, e3]
    ext i
    fin_cases i <;> simp [Matrix.mulVec, dotProduct, Fin.sum_univ_four] <;> field_simp <;> ring
  · have hd : (f - n) * x 2 ≠ 0 := mul_ne_zero d3.ne' hx
    have f0 : 2 * f ≠ 0 := by linarith
    constructor
    · intro hy
      have hy' : (f + n) / (f - n) - 2 * n * f / ((f - n) * x 2) = -1 := hy
      rw [hy', neg_add_cancel, eq_comm, div_eq_zero_iff, or_iff_left hd, mul_eq_zero, or_iff_right f0] at z1
      linarith
    · intro hy
      rw [hy, sub_self, mul_zero, zero_div] at z1
      show (f + n) / (f - n) - 2 * n * f / ((f - n) * x 2) = -1
      rw [hy]; linarith
  · have hd : (f - n) * x 2 ≠ 0 := mul_ne_zero d3.ne' hx
    have f0 : 2 * n ≠ 0 := by linarith
    constructor
    · intro hy
      have hy' : (f + n) / (f - n) - 2 * n * f / ((f - n) * x 2) = 1 := hy
      rw [hy', sub_self, eq_comm, div_eq_zero_iff, or_iff_left hd, mul_eq_zero, or_iff_right f0] at z2
      linarith
    · intro hy
      rw [hy, sub_self, mul_zero, zero_div] at z2
      show (f + n) / (f - n) - 2 * n * f / ((f - n) * x 2) = 1
      rw [hy]; linarith
  · rw [Fin.forall_fin_succ, Fin.forall_fin_succ, Fin.forall_fin_succ]
    simp only [Matrix.cons_val_zero, Matrix.cons_val_succ, key d1, key d2]
    have f0 : 0 < f := by linarith
    have k3 : (-1 ≤ (f + n) / (f - n) - 2 * n * f / ((f - n) * x 2) ∧ (f + n) / (f - n) - 2 * n * f / ((f - n) * x 2) ≤ 1) ↔ n ≤ x 2 ∧ x 2 ≤ f := by
      rw [show (-1 ≤ (f + n) / (f - n) - 2 * n * f / ((f - n) * x 2)) ↔ 0 ≤ 2 * f * (x 2 - n) / ((f - n) * x 2) from
          ⟨fun h => by linarith, fun h => by linarith⟩,
        show ((f + n) / (f - n) - 2 * n * f / ((f - n) * x 2) ≤ 1) ↔ 0 ≤ 2 * n * (f - x 2) / ((f - n) * x 2) from
          ⟨fun h => by linarith, fun h => by linarith⟩]
      rcases lt_or_gt_of_ne hx with hz | hz
      · have hd : (f - n) * x 2 < 0 := mul_neg_of_pos_of_neg d3 hz
        constructor
        · rintro ⟨-, h⟩
          exfalso
          have : 2 * n * (f - x 2) / ((f - n) * x 2) < 0 := div_neg_of_pos_of_neg (by apply mul_pos <;> linarith) hd
          linarith
        · rintro ⟨h, -⟩; linarith
      · have hd : 0 < (f - n) * x 2 := mul_pos d3 hz
        rw [le_div_iff₀ hd, le_div_iff₀ hd, zero_mul, mul_nonneg_iff_of_pos_left (by linarith),
          mul_nonneg_iff_of_pos_left (by linarith), sub_nonneg, sub_nonneg]
    exact ⟨fun h => ⟨h.1, h.2.1, k3.1 h.2.2.1⟩, fun h => ⟨h.1, h.2.1, k3.2 h.2.2, fun i => i.elim0⟩⟩

/-- C98: `clip_matrix` raises ValueError exactly if an upper limit is not above its lower limit, or, with perspective, the near plane is within
`_EPS` of the origin or behind it. -/
theorem c98_error (l r b t n f : ℝ) (p : Bool) : (clipMatrix l r b t n f p = .error .valueError ↔ r ≤ l ∨ t ≤ b ∨ f ≤ n ∨ (p = true ∧ n ≤ tEps)) ∧
    ((∃ M, clipMatrix l r b t n f p = .ok M) ↔ ¬ (r ≤ l ∨ t ≤ b ∨ f ≤ n ∨ (p = true ∧ n ≤ tEps))) := by
  simp only [clipMatrix]
  by_cases h : r ≤ l ∨ t ≤ b ∨ f ≤ n
  · have h' : r ≤ l ∨ t ≤ b ∨ f ≤ n ∨ (p = true ∧ n ≤ tEps) := by tauto
    simp [h, h']
  · have h' : (r ≤ l ∨ t ≤ b ∨ f ≤ n ∨ (p = true ∧ n ≤ tEps)) ↔ (p = true ∧ n ≤ tEps) := by tauto
    rw [if_neg h, h']
    cases p <;> simp
    by_cases hn : n ≤ tEps
    · simp [hn]
    · simp [hn, not_le.1 hn]

example : ∃ M, clipMatrix (-1) 2 (-1) 1 (1/2) 3 true = .ok M := by
  rw [(c98_error _ _ _ _ _ _ _).2]
  norm_num [tEps]

/-- C99: a shear matrix moves the points parallel to the direction: the points of the plane stay, and a point at the height `s` above the plane moves
by `s` times the tangent of the angle. -/
theorem c99_shear {angle : ℝ} {d p n : Fin 3 → ℝ} {M : Matrix (Fin 4) (Fin 4) ℝ} (h : shearMatrix angle d p n = .ok M) (hn : n ≠ 0)
    (_hd : d ≠ 0) (x : Fin 3 → ℝ) (hx : OnPlane p n x) (s : ℝ) :
    TakesTo M (x + s • unitVector n) (x + s • unitVector n + (s * Real.tan angle) • unitVector d) 1 := by
  obtain ⟨hu, r, hr, hv⟩ := unit_dot hn
  have hd : n = r • unitVector n := funext hv
  simp only [shearMatrix, vdot_three] at h
  split at h
  · cases h
  obtain rfl := Except.ok.inj h
  simp only [OnPlane] at hx
  rw [affine_apply]
  generalize unitVector n = u at *
  generalize unitVector d = e at *
  subst hd
  have hx' : dot3 (x - p) u = 0 := by
    have : r * dot3 (x - p) u = 0 := by rw [← hx]; simp only [dot3, Pi.smul_apply, smul_eq_mul]; ring
    exact (mul_eq_zero.1 this).resolve_left hr.ne'
  refine ⟨one_ne_zero, ?_⟩
  simp only [dot3, Pi.sub_apply] at hu hx'
  ext a
  fin_cases a <;> simp [Matrix.mulVec, dotProduct, Fin.sum_univ_four, dot3, Matrix.one_apply]
  · linear_combination (Real.tan angle * e 0) * hx' + s * Real.tan angle * e 0 * hu
  · linear_combination (Real.tan angle * e 1) * hx' + s * Real.tan angle * e 1 * hu
  · linear_combination (Real.tan angle * e 2) * hx' + s * Real.tan angle * e 2 * hu

/-- C99: a shear keeps volumes up to the error that the direction may have (1e-6 times the tangent); exactly, if the direction lies in the plane. -/
theorem c99_volume {angle : ℝ} {d p n : Fin 3 → ℝ} {M : Matrix (Fin 4) (Fin 4) ℝ} (h : shearMatrix angle d p n = .ok M) :
    M.det = 1 + Real.tan angle * dot3 (unitVector d) (unitVector n) ∧ |dot3 (unitVector d) (unitVector n)| ≤ 1 / 1000000 := by
  simp only [shearMatrix, vdot_three] at h
  split at h
  · cases h
  rename_i hh
  obtain rfl := Except.ok.inj h
  rw [affine_apply]
  push Not at hh
  generalize unitVector n = u at *
  generalize unitVector d = e at *
  refine ⟨?_, by rw [show dot3 e u = dot3 u e by simp only [dot3]; ring]; exact hh⟩
  simp [Matrix.det_succ_row_zero, Fin.sum_univ_succ, dot3, Matrix.one_apply]
  simp [Fin.succAbove, Fin.lt_def]
  ring

/-- C99: the shear by the opposite angle undoes the shear, if the direction lies in the plane. -/
theorem c99_inverse {angle : ℝ} {d p n : Fin 3 → ℝ} {M N : Matrix (Fin 4) (Fin 4) ℝ} (h : shearMatrix angle d p n = .ok M)
    (h' : shearMatrix (-angle) d p n = .ok N) (hdn : dot3 d n = 0) : N * M = 1 := by
  have hun : dot3 (unitVector d) (unitVector n) = 0 := by
    simp only [dot3, unitVector] at hdn ⊢
    rw [← mul_div_mul_comm, ← mul_div_mul_comm, ← mul_div_mul_comm, ← add_div, ← add_div, hdn, zero_div]
  simp only [shearMatrix, vdot_three] at h h'
  split at h
  · cases h
  obtain rfl := Except.ok.inj h
  split at h'
  · cases h'
  obtain rfl := Except.ok.inj h'
  rw [Real.tan_neg]
  rw [affine_apply, affine_apply]
  generalize unitVector n = u at *
  generalize unitVector d = e at *
  generalize Real.tan angle = t at *
  simp only [dot3] at hun
  ext i j
  fin_cases i <;> fin_cases j <;> simp [Matrix.mul_apply, Fin.sum_univ_four, dot3]
  · linear_combination (-t ^ 2 * e 0 * u 0) * hun
  · linear_combination (-t ^ 2 * e 0 * u 1) * hun
  · linear_combination (-t ^ 2 * e 0 * u 2) * hun
  · linear_combination (t ^ 2 * e 0 * (p 0 * u 0 + p 1 * u 1 + p 2 * u 2)) * hun
  · linear_combination (-t ^ 2 * e 1 * u 0) * hun
  · linear_combination (-t ^ 2 * e 1 * u 1) * hun
  · linear_combination (-t ^ 2 * e 1 * u 2) * hun
  · linear_combination (t ^ 2 * e 1 * (p 0 * u 0 + p 1 * u 1 + p 2 * u 2)) * hun
  · linear_combination (-t ^ 2 * e 2 * u 0) * hun
  · linear_combination (-t ^ 2 * e 2 * u 1) * hun
  · linear_combination (-t ^ 2 * e 2 * u 2) * hun
  · linear_combination (t ^ 2 * e 2 * (p 0 * u 0 + p 1 * u 1 + p 2 * u 2)) * hun

/-- C99: `shear_matrix` raises ValueError exactly if the cosine of the angle between direction and normal exceeds 1e-6. -/
theorem c99_error (angle : ℝ) (d p n : Fin 3 → ℝ) : shearMatrix angle d p n = .error .valueError ↔
    1 / 1000000 < |dot3 (unitVector n) (unitVector d)| := by
  simp only [shearMatrix, vdot_three]
  split
  · rename_i h
    exact ⟨fun _ => h, fun _ => rfl⟩
  · rename_i h
    exact ⟨fun h' => (nomatch h'), fun h' => absurd h' h⟩

-- a shear along x, by height above the plane z = 1
example : ∃ M, shearMatrix 1 ![2, 0, 0] ![0, 0, 1] ![0, 0, 3] = .ok M := by
  cases h : shearMatrix 1 ![2, 0, 0] ![0, 0, 1] ![0, 0, 3] with
  | ok M => exact ⟨M, rfl⟩
  | error e =>
    exfalso
    simp [shearMatrix, vdot_three, dot3, unitVector, Fin.sum_univ_three] at h
    rw [if_neg (by norm_num)] at h
    cases h

end Electrode
