import Verif.Props.Euler
import Mathlib.Algebra.Quaternion
import Mathlib.Analysis.Quaternion

/-! C68: quaternion products, inverses and matrices of `transformations.py`. -/

namespace Electrode

open Matrix Spec

namespace Spec

/-- the quaternion of mathematics with the given components `[w, x, y, z]` -/
def toH (q : Fin 4 → ℝ) : Quaternion ℝ := ⟨q 0, q 1, q 2, q 3⟩

/-- a vector as pure quaternion -/
def pureH (v : Fin 3 → ℝ) : Quaternion ℝ := ⟨0, v 0, v 1, v 2⟩

end Spec

theorem toH_comp (q : Quat) : (toH q).re = q 0 ∧ (toH q).imI = q 1 ∧ (toH q).imJ = q 2 ∧ (toH q).imK = q 3 := ⟨rfl, rfl, rfl, rfl⟩

theorem pureH_comp (v : Fin 3 → ℝ) : (pureH v).re = 0 ∧ (pureH v).imI = v 0 ∧ (pureH v).imJ = v 1 ∧ (pureH v).imK = v 2 :=
  ⟨rfl, rfl, rfl, rfl⟩

theorem toH_injective : Function.Injective toH := by
  intro p q h
  have h0 := congrArg QuaternionAlgebra.re h
  have h1 := congrArg QuaternionAlgebra.imI h
  have h2 := congrArg QuaternionAlgebra.imJ h
  have h3 := congrArg QuaternionAlgebra.imK h
  ext a
  fin_cases a
  · exact h0
  · exact h1
  · exact h2
  · exact h3

theorem quatDot_eq (q : Quat) : quatDot q = q 0 * q 0 + q 1 * q 1 + q 2 * q 2 + q 3 * q 3 := by
  rw [quatDot, Fin.sum_univ_four]

theorem quatDot_nonneg (q : Quat) : 0 ≤ quatDot q := Finset.sum_nonneg fun _ _ => mul_self_nonneg _

theorem quatDot_normSq (q : Quat) : quatDot q = Quaternion.normSq (toH q) := by
  rw [quatDot_eq, Quaternion.normSq_def']
  simp only [toH]
  ring

theorem quatDot_pos {q : Quat} (h : q ≠ 0) : 0 < quatDot q := by
  rw [quatDot_normSq]
  apply lt_of_le_of_ne (Quaternion.normSq_nonneg)
  intro h0
  apply h
  apply toH_injective
  rw [Quaternion.normSq_eq_zero.1 h0.symm]
  rfl

theorem quatDot_conj (q : Quat) : quatDot (quatConj q) = quatDot q := by
  simp [quatDot_eq, quatConj]

theorem quatConj_eq (q : Quat) : quatConj q = ![q 0, -q 1, -q 2, -q 3] := by
  ext a
  fin_cases a <;> simp [quatConj]

/-- C68: `quaternion_multiply` is the product of quaternions. -/
theorem c68_multiply (q1 q0 : Quat) : toH (quatMul q1 q0) = toH q1 * toH q0 := by
  ext <;> simp [toH_comp, quatMul] <;> ring

/-- C68: `quaternion_conjugate` is the conjugate. -/
theorem c68_conjugate (q : Quat) : toH (quatConj q) = star (toH q) := by
  ext <;> simp [toH_comp, quatConj]

/-- C68: `quaternion_inverse` is the inverse, on both sides. -/
theorem c68_inverse (q : Quat) (h : q ≠ 0) : toH (quatInv q) = (toH q)⁻¹ ∧ quatMul q (quatInv q) = ![1, 0, 0, 0] ∧
    quatMul (quatInv q) q = ![1, 0, 0, 0] := by
  have hp := quatDot_pos h
  have hq : toH q ≠ 0 := by
    intro h0
    apply h
    apply toH_injective
    rw [h0]; rfl
  have h1 : toH (quatInv q) = (toH q)⁻¹ := by
    rw [Quaternion.instInv] 
    show toH (quatInv q) = (Quaternion.normSq (toH q))⁻¹ • star (toH q)
    rw [← quatDot_normSq, ← c68_conjugate]
    ext <;> simp [toH_comp, quatInv, quatDot_conj] <;> ring
  have one : toH ![1, 0, 0, 0] = 1 := rfl
  refine ⟨h1, toH_injective ?_, toH_injective ?_⟩
  · rw [c68_multiply, h1, one, mul_inv_cancel₀ hq]
  · rw [c68_multiply, h1, one, inv_mul_cancel₀ hq]

/-- the rotation matrix of a quaternion, times its norm squared -/
def homMat (q : Quat) : Matrix (Fin 3) (Fin 3) ℝ :=
  !![q 0 * q 0 + q 1 * q 1 - q 2 * q 2 - q 3 * q 3, 2 * (q 1 * q 2 - q 3 * q 0), 2 * (q 1 * q 3 + q 2 * q 0);
    2 * (q 1 * q 2 + q 3 * q 0), q 0 * q 0 - q 1 * q 1 + q 2 * q 2 - q 3 * q 3, 2 * (q 2 * q 3 - q 1 * q 0);
    2 * (q 1 * q 3 - q 2 * q 0), 2 * (q 2 * q 3 + q 1 * q 0), q 0 * q 0 - q 1 * q 1 - q 2 * q 2 + q 3 * q 3]

theorem quatCore_scaled (q : Quat) (h : 0 < quatDot q) :
    quatCore (fun a => q a * √(2 / quatDot q)) = (quatDot q)⁻¹ • homMat q := by
  have hs : √(2 / quatDot q) * √(2 / quatDot q) = 2 / quatDot q := Real.mul_self_sqrt (by positivity)
  have hm : ∀ a b, q a * √(2 / quatDot q) * (q b * √(2 / quatDot q)) = q a * q b * (2 / quatDot q) := by
    intro a b; rw [mul_mul_mul_comm, hs]
  have h1 : (1 : ℝ) = (quatDot q)⁻¹ * (q 0 * q 0 + q 1 * q 1 + q 2 * q 2 + q 3 * q 3) := by
    rw [← quatDot_eq, inv_mul_cancel₀ h.ne']
  simp only [quatCore, hm, homMat]
  ext a b
  fin_cases a <;> fin_cases b <;>
    simp only [Fin.zero_eta, Fin.mk_one, Fin.reduceFinMk, Matrix.smul_apply, Matrix.of_apply, Matrix.cons_val', Matrix.cons_val_zero,
      Matrix.cons_val_one, Matrix.cons_val, Matrix.cons_val_fin_one, smul_eq_mul, div_eq_mul_inv]
  · conv_lhs => rw [h1]
    ring
  · ring
  · ring
  · ring
  · conv_lhs => rw [h1]
    ring
  · ring
  · ring
  · ring
  · conv_lhs => rw [h1]
    ring

theorem homMat_mul (p q : Quat) : homMat (quatMul p q) = homMat p * homMat q := by
  ext a b
  fin_cases a <;> fin_cases b <;> simp [homMat, quatMul, Matrix.mul_apply, Fin.sum_univ_three] <;> ring

theorem homMat_conj (q : Quat) : homMat (quatConj q) = (homMat q)ᵀ := by
  rw [quatConj_eq]
  ext a b
  fin_cases a <;> fin_cases b <;> simp [homMat, Matrix.transpose] <;> ring

theorem homMat_orth (q : Quat) : homMat q * (homMat q)ᵀ = (quatDot q * quatDot q) • (1 : Matrix (Fin 3) (Fin 3) ℝ) := by
  rw [quatDot_eq]
  ext a b
  fin_cases a <;> fin_cases b <;> simp [homMat, Matrix.mul_apply, Fin.sum_univ_three, Matrix.transpose] <;> ring

theorem homMat_det (q : Quat) : (homMat q).det = quatDot q ^ 3 := by
  rw [Matrix.det_fin_three, quatDot_eq]
  simp [homMat]
  ring

theorem homMat_rotation (q : Quat) (h : 0 < quatDot q) : IsRotation ((quatDot q)⁻¹ • homMat q) := by
  constructor
  · rw [Matrix.transpose_smul, Matrix.smul_mul, Matrix.mul_smul, homMat_orth, smul_smul, smul_smul]
    rw [show (quatDot q)⁻¹ * (quatDot q)⁻¹ * (quatDot q * quatDot q) = 1 by field_simp, one_smul]
  · rw [Matrix.det_smul, homMat_det]
    simp only [Fintype.card_fin]
    field_simp

theorem tEps_pos : 0 < tEps := by unfold tEps; positivity

theorem homog_one : homog (1 : Matrix (Fin 3) (Fin 3) ℝ) = 1 :=
  Homog.unique (homog_spec _) ⟨fun p q => by simp [Matrix.one_apply, Fin.ext_iff], fun p => by fin_cases p <;> exact ⟨rfl, rfl⟩, rfl⟩

theorem quatMatrix_big (q : Quat) (h : tEps ≤ quatDot q) : quatMatrix q = homog ((quatDot q)⁻¹ • homMat q) := by
  unfold quatMatrix
  simp only [if_neg (not_lt.2 h)]
  rw [quatCore_scaled q (tEps_pos.trans_le h)]

/-- C68: `quaternion_matrix` is a proper rotation for every quaternion. -/
theorem c68_rotation (q : Quat) : ∃ R, Homog (quatMatrix q) R ∧ IsRotation R := by
  rcases lt_or_ge (quatDot q) tEps with h | h
  · refine ⟨1, ?_, by simp [IsRotation]⟩
    unfold quatMatrix
    simp only [if_pos h]
    rw [← homog_one]
    exact homog_spec _
  · rw [quatMatrix_big q h]
    exact ⟨_, homog_spec _, homMat_rotation q (tEps_pos.trans_le h)⟩

/-- C68: the rotation of a quaternion is the conjugation of vectors with it; `n ≥ EPS` is the length squared that the code asks for. -/
theorem c68_action (q : Quat) (h : tEps ≤ quatDot q) (R : Matrix (Fin 3) (Fin 3) ℝ) (hR : Homog (quatMatrix q) R) (v : Fin 3 → ℝ) :
    pureH (R *ᵥ v) = toH q * pureH v * (toH q)⁻¹ := by
  have hpos := tEps_pos.trans_le h
  have hq : q ≠ 0 := by rintro rfl; simp [quatDot] at hpos
  rw [quatMatrix_big q h] at hR
  have e : R = (quatDot q)⁻¹ • homMat q := by
    ext a b
    rw [← hR.1 a b, (homog_spec _).1 a b]
  rw [← (c68_inverse q hq).1, e]
  have hd := quatDot_eq q
  ext <;> simp [pureH_comp, toH_comp, quatInv, quatDot_conj, quatConj, homMat, Matrix.mulVec, dotProduct, Fin.sum_univ_three] <;> ring

theorem homog_mul (A B : Matrix (Fin 3) (Fin 3) ℝ) : homog A * homog B = homog (A * B) := by
  refine Homog.unique (R := A * B) ⟨?_, ?_, ?_⟩ (homog_spec _)
  · intro p q
    fin_cases p <;> fin_cases q <;> simp [homog, Matrix.mul_apply, Fin.sum_univ_three, Fin.sum_univ_four]
  · intro p
    fin_cases p <;> simp [homog, Matrix.mul_apply, Fin.sum_univ_four]
  · simp [homog, Matrix.mul_apply, Fin.sum_univ_four]

theorem quatDot_mul (p q : Quat) : quatDot (quatMul p q) = quatDot p * quatDot q := by
  rw [quatDot_normSq, c68_multiply, map_mul, ← quatDot_normSq, ← quatDot_normSq]

/-- C68: the matrix of a product is the product of the matrices, for quaternions that are not too short. -/
theorem c68_compose (q1 q0 : Quat) (h1 : tEps ≤ quatDot q1) (h0 : tEps ≤ quatDot q0) (h : tEps ≤ quatDot (quatMul q1 q0)) :
    quatMatrix (quatMul q1 q0) = quatMatrix q1 * quatMatrix q0 := by
  rw [quatMatrix_big _ h, quatMatrix_big _ h1, quatMatrix_big _ h0, homog_mul, homMat_mul, quatDot_mul, Matrix.smul_mul, Matrix.mul_smul,
    smul_smul, mul_inv]

/-- C68: in particular for unit quaternions. -/
theorem c68_compose_unit (q1 q0 : Quat) (h1 : quatDot q1 = 1) (h0 : quatDot q0 = 1) :
    quatMatrix (quatMul q1 q0) = quatMatrix q1 * quatMatrix q0 ∧ quatDot (quatMul q1 q0) = 1 := by
  have e : tEps ≤ 1 := by unfold tEps; norm_num
  refine ⟨c68_compose q1 q0 (by rw [h1]; exact e) (by rw [h0]; exact e) ?_, ?_⟩ <;> rw [quatDot_mul, h1, h0, one_mul]
  exact e

/-- the product of two quaternions that are long enough may be too short; then the composition is lost. -/
theorem c68_short : ∃ q1 q0 : Quat, tEps ≤ quatDot q1 ∧ tEps ≤ quatDot q0 ∧ quatMatrix (quatMul q1 q0) ≠ quatMatrix q1 * quatMatrix q0 := by
  refine ⟨![0, 0, 0, 1 / 2 ^ 24], ![1 / 2 ^ 24, 0, 0, 0], ?_, ?_, ?_⟩
  · rw [quatDot_eq]; simp [tEps]; norm_num
  · rw [quatDot_eq]; simp [tEps]; norm_num
  · have a1 : quatDot ![0, 0, 0, 1 / 2 ^ 24] = 1 / 2 ^ 48 := by rw [quatDot_eq]; simp; norm_num
    have a0 : quatDot ![1 / 2 ^ 24, 0, 0, 0] = 1 / 2 ^ 48 := by rw [quatDot_eq]; simp; norm_num
    have b : (tEps : ℝ) ≤ 1 / 2 ^ 48 := by unfold tEps; norm_num
    rw [quatMatrix_big _ (b.trans_eq a1.symm), quatMatrix_big _ (b.trans_eq a0.symm), homog_mul]
    have hs : quatMatrix (quatMul ![0, 0, 0, 1 / 2 ^ 24] ![1 / 2 ^ 24, 0, 0, 0]) = 1 := by
      unfold quatMatrix
      have : quatDot (quatMul ![0, 0, 0, 1 / 2 ^ 24] ![1 / 2 ^ 24, 0, 0, 0]) < tEps := by
        rw [quatDot_mul, a1, a0]; unfold tEps; norm_num
      simp only [if_pos this]
    rw [hs, a1, a0]
    intro hc
    have := congrFun (congrFun hc 0) 0
    simp [homog, homMat, Matrix.mul_apply, Fin.sum_univ_three] at this
    norm_num at this

/-- C68: the conjugate gives the transposed, that is the inverse, rotation. -/
theorem c68_conjugate_matrix (q : Quat) : quatMatrix (quatConj q) = (quatMatrix q)ᵀ ∧ quatMatrix q * quatMatrix (quatConj q) = 1 := by
  rcases lt_or_ge (quatDot q) tEps with h | h
  · have h1 : quatMatrix q = 1 := by unfold quatMatrix; simp only [if_pos h]
    have h2 : quatMatrix (quatConj q) = 1 := by unfold quatMatrix; rw [quatDot_conj]; simp only [if_pos h]
    rw [h1, h2]; simp
  · have h' : tEps ≤ quatDot (quatConj q) := by rwa [quatDot_conj]
    have hr := homMat_rotation q (tEps_pos.trans_le h)
    rw [quatMatrix_big q h, quatMatrix_big _ h', quatDot_conj, homMat_conj]
    constructor
    · refine Homog.unique (homog_spec _) ⟨?_, ?_, ?_⟩
      · intro a b
        rw [Matrix.transpose_apply, (homog_spec _).1 b a]; rfl
      · intro a
        rw [Matrix.transpose_apply, Matrix.transpose_apply]
        exact ⟨((homog_spec _).2.1 a).2, ((homog_spec _).2.1 a).1⟩
      · rfl
    · rw [homog_mul, ← Matrix.transpose_smul, hr.1, homog_one]

theorem rank_one {n : Nat} (p q : Fin n → ℝ) (h : ∀ a b, p a * p b = q a * q b) : p = q ∨ p = -q := by
  by_cases hp : p = 0
  · left
    ext a
    have := h a a
    rw [hp, Pi.zero_apply, mul_zero] at this
    rw [hp, Pi.zero_apply, mul_self_eq_zero.1 this.symm]
  · obtain ⟨c, hc⟩ := Function.ne_iff.1 hp
    rw [Pi.zero_apply] at hc
    rcases mul_self_eq_mul_self_iff.1 (h c c) with e | e
    · left
      ext a
      have := h a c
      rw [← e] at this
      exact mul_right_cancel₀ hc this
    · right
      ext a
      have := h a c
      rw [show q c = -p c by rw [e, neg_neg]] at this
      rw [Pi.neg_apply]
      exact mul_right_cancel₀ hc (by rw [this]; ring)

/-- C68: two unit quaternions give the same rotation exactly if they are equal up to sign. -/
theorem c68_sign (p q : Quat) (hp : quatDot p = 1) (hq : quatDot q = 1) : quatMatrix p = quatMatrix q ↔ (p = q ∨ p = -q) := by
  have e : tEps ≤ 1 := by unfold tEps; norm_num
  rw [quatMatrix_big p (by rw [hp]; exact e), quatMatrix_big q (by rw [hq]; exact e), hp, hq, inv_one, one_smul, one_smul]
  constructor
  · intro h
    have hm : homMat p = homMat q := by
      ext a b
      rw [← (homog_spec (homMat p)).1 a b, h, (homog_spec (homMat q)).1 a b]
    have ent : ∀ a b, homMat p a b = homMat q a b := fun a b => by rw [hm]
    have e00 := ent 0 0
    have e11 := ent 1 1
    have e22 := ent 2 2
    have e01 := ent 0 1
    have e10 := ent 1 0
    have e02 := ent 0 2
    have e20 := ent 2 0
    have e12 := ent 1 2
    have e21 := ent 2 1
    simp only [homMat, Matrix.of_apply, Matrix.cons_val', Matrix.cons_val_zero, Matrix.cons_val_one, Matrix.cons_val, Matrix.cons_val_fin_one] at e00 e11 e22 e01 e10 e02 e20 e12 e21
    rw [quatDot_eq] at hp hq
    -- the products of the components agree
    have s0 : p 0 * p 0 = q 0 * q 0 := by linarith
    have s1 : p 1 * p 1 = q 1 * q 1 := by linarith
    have s2 : p 2 * p 2 = q 2 * q 2 := by linarith
    have s3 : p 3 * p 3 = q 3 * q 3 := by linarith
    have t01 : p 1 * p 0 = q 1 * q 0 := by linarith
    have t02 : p 2 * p 0 = q 2 * q 0 := by linarith
    have t03 : p 3 * p 0 = q 3 * q 0 := by linarith
    have t12 : p 1 * p 2 = q 1 * q 2 := by linarith
    have t13 : p 1 * p 3 = q 1 * q 3 := by linarith
    have t23 : p 2 * p 3 = q 2 * q 3 := by linarith
    apply rank_one
    intro a b
    fin_cases a <;> fin_cases b <;> first | assumption | (simp only [Fin.zero_eta, Fin.mk_one, Fin.reduceFinMk]; linarith)
  · rintro (rfl | rfl)
    · rfl
    · have : homMat (-q) = homMat q := by
        ext a b
        fin_cases a <;> fin_cases b <;> simp [homMat]
      rw [this]

/-- C68: `quaternion_about_axis` is a unit quaternion, and its matrix that of `rotation_matrix` for the same angle and axis. -/
theorem c68_about_axis (angle : ℝ) (axis : Fin 3 → ℝ) (h : tEps < vectorNorm axis) :
    quatDot (quatAboutAxis angle axis) = 1 ∧ quatMatrix (quatAboutAxis angle axis) = rotationMatrix angle axis none := by
  have hn : vectorNorm (![0, axis 0, axis 1, axis 2] : Fin 4 → ℝ) = vectorNorm axis := by
    simp [vectorNorm, Fin.sum_univ_four, Fin.sum_univ_three]
  set L := vectorNorm axis with hL
  have hpos : 0 < L := tEps_pos.trans h
  have hL2 : axis 0 * axis 0 + axis 1 * axis 1 + axis 2 * axis 2 = L * L := by
    rw [hL, vectorNorm, Real.mul_self_sqrt (Finset.sum_nonneg fun _ _ => mul_self_nonneg _), Fin.sum_univ_three]
  have hu : ∀ a, unitVector axis a = axis a / L := fun a => rfl
  have hq : quatAboutAxis angle axis = ![Real.cos (angle / 2), unitVector axis 0 * Real.sin (angle / 2),
      unitVector axis 1 * Real.sin (angle / 2), unitVector axis 2 * Real.sin (angle / 2)] := by
    unfold quatAboutAxis
    simp only [hn, if_pos h, hu]
    ext a
    fin_cases a <;> simp <;> ring
  have hu2 : unitVector axis 0 * unitVector axis 0 + unitVector axis 1 * unitVector axis 1 + unitVector axis 2 * unitVector axis 2 = 1 := by
    rw [hu, hu, hu]
    field_simp
    nlinarith [hL2]
  have hcs := Real.sin_sq_add_cos_sq (angle / 2)
  have hdot : quatDot (quatAboutAxis angle axis) = 1 := by
    rw [hq, quatDot_eq]
    simp only [Matrix.cons_val_zero, Matrix.cons_val_one, Matrix.cons_val]
    linear_combination hcs + Real.sin (angle / 2) ^ 2 * hu2
  refine ⟨hdot, ?_⟩
  rw [quatMatrix_big _ (by rw [hdot]; unfold tEps; norm_num), hdot, inv_one, one_smul, rotationMatrix]
  congr 1
  have hc : Real.cos angle = 1 - 2 * Real.sin (angle / 2) ^ 2 := by
    have := Real.cos_two_mul' (angle / 2)
    rw [mul_div_cancel₀ angle two_ne_zero] at this
    linarith
  have hs : Real.sin angle = 2 * Real.sin (angle / 2) * Real.cos (angle / 2) := by
    rw [← Real.sin_two_mul]; ring_nf
  rw [hq]
  generalize unitVector axis = u at hu2
  generalize Real.sin (angle / 2) = s at hcs hc hs
  generalize Real.cos (angle / 2) = c at hcs hs
  unfold rotationCore
  rw [hc, hs]
  ext a b
  fin_cases a <;> fin_cases b <;> simp [homMat]
  · linear_combination hcs - s ^ 2 * hu2
  · ring
  · ring
  · ring
  · linear_combination hcs - s ^ 2 * hu2
  · ring
  · ring
  · ring
  · linear_combination hcs - s ^ 2 * hu2

/-- C68 needs the axis to be longer than `_EPS`: the half turn about a shorter one is the identity. -/
theorem c68_short_axis : ∃ axis : Fin 3 → ℝ, axis ≠ 0 ∧ quatMatrix (quatAboutAxis Real.pi axis) = 1 ∧
    rotationMatrix Real.pi axis none ≠ 1 := by
  refine ⟨![tEps, 0, 0], ?_, ?_, ?_⟩
  · intro h
    have := congrFun h 0
    simp at this
    exact tEps_pos.ne' this
  · have hn : ¬ tEps < vectorNorm (![0, (![tEps, 0, 0] : Fin 3 → ℝ) 0, (![tEps, 0, 0] : Fin 3 → ℝ) 1, (![tEps, 0, 0] : Fin 3 → ℝ) 2] : Fin 4 → ℝ) := by
      simp [vectorNorm, Fin.sum_univ_four, Real.sqrt_mul_self tEps_pos.le]
    have hd : quatDot (quatAboutAxis Real.pi ![tEps, 0, 0]) < tEps := by
      unfold quatAboutAxis
      simp only [if_neg hn]
      rw [quatDot_eq]
      simp
      unfold tEps; norm_num
    unfold quatMatrix
    simp only [if_pos hd]
  · intro h
    have := congrFun (congrFun h 1) 1
    simp [rotationMatrix, homog, rotationCore, unitVector, Fin.sum_univ_three] at this
    norm_num at this

/-- The quaternions of the documentation: a rotation by 0.123 about x is a unit quaternion up to rounding; a quarter turn about z. -/
example : tEps < vectorNorm (![0, 0, 1] : Fin 3 → ℝ) ∧ quatDot (![1, 1, 1, 1] : Quat) = 4 ∧ tEps ≤ quatDot (![1, 1, 1, 1] : Quat) := by
  have h4 : quatDot (![1, 1, 1, 1] : Quat) = 4 := by rw [quatDot_eq]; simp; norm_num
  refine ⟨by simp [vectorNorm, Fin.sum_univ_three, tEps]; norm_num, h4, ?_⟩
  rw [h4]; unfold tEps; norm_num

end Electrode
