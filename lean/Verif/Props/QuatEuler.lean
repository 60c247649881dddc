import Verif.Props.Quaternion

/-! C82: `quaternion_from_euler` gives the quaternion of the same rotation as `euler_matrix`. -/

namespace Electrode

open Matrix Spec

/-- the quaternion of a rotation about a coordinate axis -/
noncomputable def axisQuat (a : Fin 3) (θ : ℝ) : Quat :=
  fun b => if b = 0 then Real.cos (θ / 2) else if b = a.succ then Real.sin (θ / 2) else 0

theorem axisQuat_dot (a : Fin 3) (θ : ℝ) : quatDot (axisQuat a θ) = 1 := by
  have h := Real.sin_sq_add_cos_sq (θ / 2)
  rw [quatDot_eq]
  fin_cases a <;> simp [axisQuat] <;> linarith

theorem axisQuat_mat (a : Fin 3) (θ : ℝ) : homMat (axisQuat a θ) = axisRot a θ := by
  have h := Real.sin_sq_add_cos_sq (θ / 2)
  have hc : Real.cos θ = Real.cos (θ / 2) ^ 2 - Real.sin (θ / 2) ^ 2 := by
    rw [← Real.cos_two_mul', mul_div_cancel₀ θ two_ne_zero]
  have hs : Real.sin θ = 2 * Real.sin (θ / 2) * Real.cos (θ / 2) := by
    rw [← Real.sin_two_mul, mul_div_cancel₀ θ two_ne_zero]
  ext p q
  fin_cases a <;> fin_cases p <;> fin_cases q <;> simp [axisQuat, homMat, axisRot, hc, hs] <;> linarith

theorem quatFromEulerT_product : ∀ (static : Bool) (a b c : Fin 3), a ≠ b → b ≠ c → ∀ x y z : ℝ,
    quatFromEulerT (tupleOf static a b c) x y z =
      if static then quatMul (axisQuat c z) (quatMul (axisQuat b y) (axisQuat a x))
      else quatMul (axisQuat a x) (quatMul (axisQuat b y) (axisQuat c z)) := by
  intro static a b c hab hbc x y z
  have hn : Real.cos (-y / 2) = Real.cos (y / 2) := by rw [neg_div, Real.cos_neg]
  have hn' : Real.sin (-y / 2) = -Real.sin (y / 2) := by rw [neg_div, Real.sin_neg]
  have hI : (axIJK (tupleOf static a b c)).1 = if static then a else c := (perm_letters static a b c hab hbc).2.1
  have hJ : (axIJK (tupleOf static a b c)).2.1 = b := (perm_letters static a b c hab hbc).1
  simp only [quatFromEulerT, hI, hJ]
  clear hI hJ
  cases static <;> fin_cases a <;> fin_cases b <;> first | exact absurd rfl hab | skip
  all_goals fin_cases c <;> first | exact absurd rfl hbc | skip
  all_goals
    ext k
    fin_cases k <;> simp [tupleOf, quatMul, axisQuat, hn, hn'] <;> ring

/-- C82: for each of the 24 sequences `quaternion_from_euler` gives a unit quaternion whose matrix is that of `euler_matrix`. -/
theorem c82_from_euler (static : Bool) (a b c : Fin 3) (hab : a ≠ b) (hbc : b ≠ c) (x y z : ℝ) :
    ∃ q M, quatFromEuler x y z (.str (axesName static a b c)) = .ok q ∧ eulerMatrix x y z (.str (axesName static a b c)) = .ok M ∧
      quatDot q = 1 ∧ quatMatrix q = M ∧ Homog M (threeRot static a b c x y z) := by
  obtain ⟨M, hM, -, hH⟩ := c67_product static a b c hab hbc x y z
  refine ⟨quatFromEulerT (tupleOf static a b c) x y z, M, ?_, hM, ?_, ?_, hH⟩
  · simp only [quatFromEuler, axTuple_name true static a b c hab hbc]
  · rw [quatFromEulerT_product static a b c hab hbc]
    split_ifs <;> simp [quatDot_mul, axisQuat_dot]
  · have hd : quatDot (quatFromEulerT (tupleOf static a b c) x y z) = 1 := by
      rw [quatFromEulerT_product static a b c hab hbc]
      split_ifs <;> simp [quatDot_mul, axisQuat_dot]
    rw [quatMatrix_big _ (by rw [hd]; unfold tEps; norm_num), hd, inv_one, one_smul]
    refine Homog.unique (homog_spec _) ?_
    rw [quatFromEulerT_product static a b c hab hbc]
    have : homMat (if static then quatMul (axisQuat c z) (quatMul (axisQuat b y) (axisQuat a x))
      else quatMul (axisQuat a x) (quatMul (axisQuat b y) (axisQuat c z))) = threeRot static a b c x y z := by
      unfold threeRot
      split_ifs <;> simp only [homMat_mul, axisQuat_mat, Matrix.mul_assoc]
    rw [this]
    exact hH

/-- C82: going to Euler angles and back through the matrix of a unit quaternion keeps the rotation up to twice `_EPS` per entry. -/
theorem c82_from_quaternion (static : Bool) (a b c : Fin 3) (hab : a ≠ b) (hbc : b ≠ c) (q : Quat) :
    ∃ x y z M' R R', eulerFromMatrix (quatMatrix q) (.str (axesName static a b c)) = .ok (x, y, z) ∧
      eulerMatrix x y z (.str (axesName static a b c)) = .ok M' ∧ Homog (quatMatrix q) R ∧ Homog M' R' ∧
      ∀ i j, |R' i j - R i j| ≤ 2 * tEps := by
  obtain ⟨R, hR, hrot⟩ := c68_rotation q
  obtain ⟨x, y, z, M', R', h1, h2, h3, h4⟩ := c67_roundtrip_close static a b c hab hbc (quatMatrix q) R hR hrot
  exact ⟨x, y, z, M', R, R', h1, h2, hR, h3, h4⟩

/-- The sequence `ryxz` of the documentation, with a half turn about the first axis. -/
example : ∃ q, quatFromEuler Real.pi 0 0 (.str ['r', 'y', 'x', 'z']) = .ok q ∧ q = ![0, 0, 1, 0] := by
  refine ⟨quatFromEulerT (tupleOf false 1 0 2) Real.pi 0 0, ?_, ?_⟩
  · show quatFromEuler Real.pi 0 0 (.str (axesName false 1 0 2)) = _
    simp only [quatFromEuler, axTuple_name true false 1 0 2 (by decide) (by decide)]
  · rw [quatFromEulerT_product false 1 0 2 (by decide) (by decide)]
    ext k
    fin_cases k <;> simp [quatMul, axisQuat]

end Electrode
