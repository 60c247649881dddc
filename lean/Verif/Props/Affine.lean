import Verif.Props.Quaternion

/-! C85: translation, reflection, rotation and scale matrices. -/

namespace Electrode

open Matrix Spec

namespace Spec

/-- the point to which a homogeneous matrix takes a point -/
def moveBy (M : Matrix (Fin 4) (Fin 4) ℝ) (x : Fin 3 → ℝ) : Fin 3 → ℝ := fun a => (∑ b : Fin 3, M a.castSucc b.castSucc * x b) + M a.castSucc 3

/-- the last row of an affine map -/
def IsAffine (M : Matrix (Fin 4) (Fin 4) ℝ) : Prop := (∀ b : Fin 3, M 3 b.castSucc = 0) ∧ M 3 3 = 1

def dot3 (u v : Fin 3 → ℝ) : ℝ := u 0 * v 0 + u 1 * v 1 + u 2 * v 2

/-- cross product -/
def cross3 (u v : Fin 3 → ℝ) : Fin 3 → ℝ := ![u 1 * v 2 - u 2 * v 1, u 2 * v 0 - u 0 * v 2, u 0 * v 1 - u 1 * v 0]

end Spec

theorem affine_move (R : Matrix (Fin 3) (Fin 3) ℝ) (t x : Fin 3 → ℝ) : moveBy (affine R t) x = fun a => (∑ b, R a b * x b) + t a := by
  ext a
  fin_cases a <;> simp [moveBy, affine, Fin.sum_univ_three]

theorem affine_isAffine (R : Matrix (Fin 3) (Fin 3) ℝ) (t : Fin 3 → ℝ) : IsAffine (affine R t) := by
  refine ⟨fun b => ?_, by simp [affine]⟩
  fin_cases b <;> simp [affine]

theorem homog_affine (R : Matrix (Fin 3) (Fin 3) ℝ) : homog R = affine R 0 := by
  ext a b
  fin_cases a <;> fin_cases b <;> simp [homog, affine]

/-- affine matrices that move all points alike are equal -/
theorem isAffine_ext {M N : Matrix (Fin 4) (Fin 4) ℝ} (hM : IsAffine M) (hN : IsAffine N) (h : ∀ x, moveBy M x = moveBy N x) : M = N := by
  have h0 : ∀ a : Fin 3, M a.castSucc 3 = N a.castSucc 3 := by
    intro a
    have := congrFun (h 0) a
    simpa [moveBy] using this
  have h1 : ∀ a b : Fin 3, M a.castSucc b.castSucc = N a.castSucc b.castSucc := by
    intro a b
    have := congrFun (h (Pi.single b 1)) a
    simpa [moveBy, h0, Pi.single_apply] using this
  ext a b
  refine Fin.lastCases ?_ (fun a => ?_) a <;> refine Fin.lastCases ?_ (fun b => ?_) b
  · exact hM.2.trans hN.2.symm
  · exact (hM.1 b).trans (hN.1 b).symm
  · exact h0 a
  · exact h1 a b

/-- the product of affine matrices applies one after the other -/
theorem move_mul {M N : Matrix (Fin 4) (Fin 4) ℝ} (hM : IsAffine M) (hN : IsAffine N) :
    IsAffine (M * N) ∧ ∀ x, moveBy (M * N) x = moveBy M (moveBy N x) := by
  obtain ⟨m1, m2⟩ := hM
  obtain ⟨n1, n2⟩ := hN
  have m10 : M 3 0 = 0 := m1 0
  have m11 : M 3 1 = 0 := m1 1
  have m12 : M 3 2 = 0 := m1 2
  have n10 : N 3 0 = 0 := n1 0
  have n11 : N 3 1 = 0 := n1 1
  have n12 : N 3 2 = 0 := n1 2
  refine ⟨⟨fun b => ?_, ?_⟩, fun x => ?_⟩
  · fin_cases b <;> simp [Matrix.mul_apply, Fin.sum_univ_four, m10, m11, m12, m2, n10, n11, n12, n2]
  · simp [Matrix.mul_apply, Fin.sum_univ_four, m10, m11, m12, m2, n10, n11, n12, n2]
  · ext a
    simp only [moveBy, Matrix.mul_apply, Fin.sum_univ_four, Fin.sum_univ_three]
    have c0 : (0 : Fin 3).castSucc = 0 := rfl
    have c1 : (1 : Fin 3).castSucc = 1 := rfl
    have c2 : (2 : Fin 3).castSucc = 2 := rfl
    simp only [c0, c1, c2, n10, n11, n12, n2]
    ring

theorem unit_dot {v : Fin 3 → ℝ} (h : v ≠ 0) : dot3 (unitVector v) (unitVector v) = 1 ∧
    ∃ r : ℝ, 0 < r ∧ ∀ a, v a = r * unitVector v a := by
  have hpos : 0 < ∑ i, v i * v i := by
    apply lt_of_le_of_ne (Finset.sum_nonneg fun _ _ => mul_self_nonneg _)
    intro h0
    apply h
    ext a
    have := (Finset.sum_eq_zero_iff_of_nonneg fun i _ => mul_self_nonneg (v i)).1 h0.symm a (Finset.mem_univ _)
    exact mul_self_eq_zero.1 this
  have hs : 0 < √(∑ i, v i * v i) := Real.sqrt_pos.2 hpos
  have hss := Real.mul_self_sqrt hpos.le
  have hu : ∀ a, unitVector v a = v a / √(∑ i, v i * v i) := fun a => rfl
  refine ⟨?_, _, hs, fun a => ?_⟩
  · simp only [dot3, hu]
    rw [Fin.sum_univ_three] at *
    set s := √(v 0 * v 0 + v 1 * v 1 + v 2 * v 2)
    field_simp
    nlinarith
  · rw [hu, mul_div_cancel₀ _ hs.ne']

/-- C85: `translation_matrix` moves every point by the vector, and `translation_from_matrix` gives the vector back. -/
theorem c85_translation (d x : Fin 3 → ℝ) : IsAffine (translationMatrix d) ∧ moveBy (translationMatrix d) x = x + d ∧
    translationFromMatrix (translationMatrix d) = d := by
  refine ⟨affine_isAffine _ _, ?_, ?_⟩
  · rw [translationMatrix, affine_move]
    ext a
    simp [Matrix.one_apply]
  · ext a
    fin_cases a <;> simp [translationFromMatrix, translationMatrix, affine]

/-- C85: `reflection_matrix` keeps the points of the plane through the point with the normal, takes a point on one side of the plane to
the one on the other side, and is its own inverse. -/
theorem c85_reflection (p n : Fin 3 → ℝ) (hn : n ≠ 0) : IsAffine (reflectionMatrix p n) ∧
    (∀ x, dot3 (x - p) n = 0 → ∀ t : ℝ, moveBy (reflectionMatrix p n) (x + t • n) = x - t • n) ∧
    reflectionMatrix p n * reflectionMatrix p n = 1 := by
  obtain ⟨hu, r, hr, hv⟩ := unit_dot hn
  have haff : IsAffine (reflectionMatrix p n) := by unfold reflectionMatrix; apply affine_isAffine
  have hmove : ∀ x, moveBy (reflectionMatrix p n) x = fun a => x a - 2 * dot3 (x - p) (unitVector n) * unitVector n a := by
    intro x
    unfold reflectionMatrix
    refine (affine_move _ _ _).trans ?_
    ext a
    fin_cases a <;> simp [Fin.sum_univ_three, Matrix.one_apply, dot3] <;> ring
  refine ⟨haff, ?_, ?_⟩
  · intro x hx t
    rw [hmove]
    have hx' : dot3 (x - p) (unitVector n) = 0 := by
      have : r * dot3 (x - p) (unitVector n) = 0 := by
        rw [← hx]
        simp only [dot3, hv]
        ring
      exact (mul_eq_zero.1 this).resolve_left hr.ne'
    have hd : dot3 (x + t • n - p) (unitVector n) = t * r := by
      have : dot3 (x + t • n - p) (unitVector n) = dot3 (x - p) (unitVector n) + t * r * dot3 (unitVector n) (unitVector n) := by
        simp only [dot3, Pi.add_apply, Pi.sub_apply, Pi.smul_apply, smul_eq_mul, hv]
        ring
      rw [this, hx', hu]; ring
    ext a
    simp only [hd, Pi.add_apply, Pi.sub_apply, Pi.smul_apply, smul_eq_mul]
    rw [hv a]
    ring
  · have hone : IsAffine (1 : Matrix (Fin 4) (Fin 4) ℝ) := ⟨fun b => by fin_cases b <;> rfl, rfl⟩
    obtain ⟨h1, h2⟩ := move_mul haff haff
    refine isAffine_ext h1 hone fun x => ?_
    rw [h2, hmove, hmove]
    have m1 : moveBy (1 : Matrix (Fin 4) (Fin 4) ℝ) x = x := by
      ext a
      fin_cases a <;> simp [moveBy, Matrix.one_apply, Fin.sum_univ_three]
    rw [m1]
    have hd : dot3 ((fun a => x a - 2 * dot3 (x - p) (unitVector n) * unitVector n a) - p) (unitVector n)
        = dot3 (x - p) (unitVector n) - 2 * dot3 (x - p) (unitVector n) * dot3 (unitVector n) (unitVector n) := by
      simp only [dot3, Pi.sub_apply]
      ring
    ext a
    simp only [hd, hu]
    ring

theorem rotation_move (angle : ℝ) (d : Fin 3 → ℝ) (p : Option (Fin 3 → ℝ)) (x : Fin 3 → ℝ) :
    moveBy (rotationMatrix angle d p) x = fun a => p.getD 0 a + Real.cos angle * (x - p.getD 0) a
      + (1 - Real.cos angle) * dot3 (unitVector d) (x - p.getD 0) * unitVector d a
      + Real.sin angle * cross3 (unitVector d) (x - p.getD 0) a := by
  cases p with
  | none =>
    simp only [rotationMatrix, homog_affine, affine_move, Option.getD_none]
    ext a
    fin_cases a <;> simp [rotationCore, Fin.sum_univ_three, dot3, cross3] <;> ring
  | some p =>
    simp only [rotationMatrix, affine_move, Option.getD_some]
    ext a
    fin_cases a <;> simp [rotationCore, Fin.sum_univ_three, dot3, cross3] <;> ring

theorem rotation_isAffine (angle : ℝ) (d : Fin 3 → ℝ) (p : Option (Fin 3 → ℝ)) : IsAffine (rotationMatrix angle d p) := by
  cases p with
  | none => simp only [rotationMatrix, homog_affine]; exact affine_isAffine _ _
  | some p => simp only [rotationMatrix]; apply affine_isAffine

/-- C85: `rotation_matrix` keeps every point of the axis through the point (the origin by default), and turns a vector orthogonal to
the axis counter clockwise by the angle in the plane of the vector and its cross product with the axis. -/
theorem c85_rotation (angle : ℝ) (d : Fin 3 → ℝ) (hd : d ≠ 0) (p : Option (Fin 3 → ℝ)) : IsAffine (rotationMatrix angle d p) ∧
    ∃ (u : Fin 3 → ℝ) (r : ℝ), dot3 u u = 1 ∧ 0 < r ∧ d = r • u ∧
    (∀ t : ℝ, ∀ v, dot3 u v = 0 → moveBy (rotationMatrix angle d p) (p.getD 0 + t • d + v)
      = p.getD 0 + t • d + (Real.cos angle • v + Real.sin angle • cross3 u v)) := by
  obtain ⟨hu, r, hr, hv⟩ := unit_dot hd
  refine ⟨rotation_isAffine angle d p, unitVector d, r, hu, hr, funext hv, ?_⟩
  intro t v hv0
  rw [rotation_move]
  generalize p.getD 0 = o
  have e : o + t • d + v - o = t • d + v := by ext a; simp only [Pi.sub_apply, Pi.add_apply]; ring
  rw [e]
  have hdot : dot3 (unitVector d) (t • d + v) = t * r := by
    have : dot3 (unitVector d) (t • d + v) = t * r * dot3 (unitVector d) (unitVector d) + dot3 (unitVector d) v := by
      simp only [dot3, Pi.add_apply, Pi.smul_apply, smul_eq_mul, hv]
      ring
    rw [this, hu, hv0]; ring
  have hcr : cross3 (unitVector d) (t • d + v) = cross3 (unitVector d) v := by
    ext a
    fin_cases a <;> simp [cross3, hv] <;> ring
  ext a
  simp only [hdot, hcr, Pi.add_apply, Pi.smul_apply, smul_eq_mul]
  rw [hv a]
  ring

/-- C85: rotations about the same axis add their angles, and by the angle 0 nothing moves. -/
theorem c85_rotation_add (a b : ℝ) (d : Fin 3 → ℝ) (hd : d ≠ 0) (p : Option (Fin 3 → ℝ)) :
    rotationMatrix a d p * rotationMatrix b d p = rotationMatrix (a + b) d p ∧ rotationMatrix 0 d p = 1 := by
  obtain ⟨hu, -⟩ := unit_dot hd
  have hone : IsAffine (1 : Matrix (Fin 4) (Fin 4) ℝ) := ⟨fun b => by fin_cases b <;> rfl, rfl⟩
  constructor
  · obtain ⟨h1, h2⟩ := move_mul (rotation_isAffine a d p) (rotation_isAffine b d p)
    refine isAffine_ext h1 (rotation_isAffine _ d p) fun x => ?_
    rw [h2, rotation_move, rotation_move, rotation_move]
    generalize p.getD 0 = o
    generalize unitVector d = u at hu
    have hsb := Real.sin_sq_add_cos_sq b
    rw [Real.cos_add, Real.sin_add]
    generalize Real.cos a = ca
    generalize Real.sin a = sa
    generalize Real.cos b = cb at hsb
    generalize Real.sin b = sb at hsb
    have hx : ∀ c, ∃ y, x c = o c + y := fun c => ⟨x c - o c, by ring⟩
    obtain ⟨y, hy⟩ : ∃ y : Fin 3 → ℝ, x = o + y := ⟨x - o, by simp⟩
    subst hy
    simp only [dot3] at hu
    have hu0 : u 0 * u 0 = 1 - u 1 * u 1 - u 2 * u 2 := by linarith
    ext c
    fin_cases c <;> simp [dot3, cross3]
    · linear_combination ((1 - ca) * (1 - cb) * (u 0 * y 0 + u 1 * y 1 + u 2 * y 2) * u 0 + sa * sb * 0) * hu
        - sa * sb * y 0 * hu
    · linear_combination ((1 - ca) * (1 - cb) * (u 0 * y 0 + u 1 * y 1 + u 2 * y 2) * u 1) * hu - sa * sb * y 1 * hu
    · linear_combination ((1 - ca) * (1 - cb) * (u 0 * y 0 + u 1 * y 1 + u 2 * y 2) * u 2) * hu - sa * sb * y 2 * hu
  · refine isAffine_ext (rotation_isAffine _ d p) hone fun x => ?_
    rw [rotation_move]
    ext c
    rw [Real.cos_zero, Real.sin_zero]
    fin_cases c <;> simp [moveBy, Matrix.one_apply, Fin.sum_univ_three]

/-- C85: `scale_matrix` multiplies the distance from the origin point by the factor; with a direction only the part along it. -/
theorem c85_scale (f : ℝ) (o : Option (Fin 3 → ℝ)) : (IsAffine (scaleMatrix f o none) ∧
    ∀ v, moveBy (scaleMatrix f o none) (o.getD 0 + v) = o.getD 0 + f • v) ∧
    ∀ d, d ≠ 0 → IsAffine (scaleMatrix f o (some d)) ∧
    ∀ t : ℝ, ∀ v, dot3 d v = 0 → moveBy (scaleMatrix f o (some d)) (o.getD 0 + t • d + v) = o.getD 0 + (f * t) • d + v := by
  refine ⟨⟨by simp only [scaleMatrix]; apply affine_isAffine, fun v => ?_⟩,
    fun d hd => ⟨by simp only [scaleMatrix]; apply affine_isAffine, fun t v hv0 => ?_⟩⟩
  · simp only [scaleMatrix]
    refine (affine_move _ _ _).trans ?_
    ext a
    cases o <;> fin_cases a <;> simp [Fin.sum_univ_three] <;> ring
  · obtain ⟨hu, r, hr, hv⟩ := unit_dot hd
    have hv0' : dot3 (unitVector d) v = 0 := by
      have : r * dot3 (unitVector d) v = 0 := by
        rw [← hv0]
        simp only [dot3, hv]
        ring
      exact (mul_eq_zero.1 this).resolve_left hr.ne'
    simp only [scaleMatrix]
    refine (affine_move _ _ _).trans ?_
    have hd' : d = r • unitVector d := funext hv
    generalize unitVector d = u at hu hv0' hd'
    subst hd'
    simp only [dot3] at hu hv0'
    ext a
    cases o <;> fin_cases a <;> simp [Fin.sum_univ_three, Matrix.one_apply]
    · linear_combination (-(1 - f) * t * r * u 0) * hu - (1 - f) * u 0 * hv0'
    · linear_combination (-(1 - f) * t * r * u 1) * hu - (1 - f) * u 1 * hv0'
    · linear_combination (-(1 - f) * t * r * u 2) * hu - (1 - f) * u 2 * hv0'
    · linear_combination (-(1 - f) * t * r * u 0) * hu - (1 - f) * u 0 * hv0'
    · linear_combination (-(1 - f) * t * r * u 1) * hu - (1 - f) * u 1 * hv0'
    · linear_combination (-(1 - f) * t * r * u 2) * hu - (1 - f) * u 2 * hv0'

/-- The rotation of the documentation: a quarter turn about the vertical axis through (1, 0, 0) takes the origin to (1, -1, 0). -/
example : moveBy (rotationMatrix (Real.pi / 2) ![0, 0, 1] (some ![1, 0, 0])) 0 = ![1, -1, 0] := by
  rw [rotation_move]
  ext a
  fin_cases a <;> simp [dot3, cross3, unitVector, Fin.sum_univ_three]

end Electrode
