import Verif.Props.Quaternion
import Mathlib.Analysis.Matrix.Spectrum

/-! C83: `quaternion_from_matrix` inverts `quaternion_matrix`. -/

namespace Electrode

open Matrix Spec

namespace Spec

/-- the symmetric matrix that `numpy.linalg.eigh` reads: only the lower triangle counts -/
def symLower (K : Matrix (Fin 4) (Fin 4) ℝ) : Matrix (Fin 4) (Fin 4) ℝ := fun a b => if b ≤ a then K a b else K b a

/-- what `numpy.linalg.eigh` promises: `V` is orthogonal and its columns are eigenvectors -/
def IsEigh4 (eigh : Matrix (Fin 4) (Fin 4) ℝ → (Fin 4 → ℝ) × Matrix (Fin 4) (Fin 4) ℝ) : Prop :=
  ∀ K, (eigh K).2ᵀ * (eigh K).2 = 1 ∧ symLower K * (eigh K).2 = (eigh K).2 * Matrix.diagonal (eigh K).1

/-- what `numpy.argmax` promises -/
def IsArgmax (argmax : (Fin 4 → ℝ) → Fin 4) : Prop := ∀ (w : Fin 4 → ℝ) (a : Fin 4), w a ≤ w (argmax w)

end Spec

/-- four times the products of the components of the quaternion of a rotation -/
def rotP (R : Matrix (Fin 3) (Fin 3) ℝ) : Matrix (Fin 4) (Fin 4) ℝ :=
  !![1 + R 0 0 + R 1 1 + R 2 2, R 2 1 - R 1 2, R 0 2 - R 2 0, R 1 0 - R 0 1;
    R 2 1 - R 1 2, 1 + R 0 0 - R 1 1 - R 2 2, R 0 1 + R 1 0, R 0 2 + R 2 0;
    R 0 2 - R 2 0, R 0 1 + R 1 0, 1 - R 0 0 + R 1 1 - R 2 2, R 1 2 + R 2 1;
    R 1 0 - R 0 1, R 0 2 + R 2 0, R 1 2 + R 2 1, 1 - R 0 0 - R 1 1 + R 2 2]

set_option maxHeartbeats 4000000 in
theorem rotP_minors {R : Matrix (Fin 3) (Fin 3) ℝ} (h : IsRotation R) (i a b : Fin 4) :
    rotP R i a * rotP R i b = rotP R i i * rotP R a b := by
  obtain ⟨⟨c1, c2, c3⟩, ⟨c4, c5, c6⟩, c7, c8, c9⟩ := rot_cofactors h
  have r00 := rot_rows h 0 0
  have r11 := rot_rows h 1 1
  have r22 := rot_rows h 2 2
  have r01 := rot_rows h 0 1
  have r02 := rot_rows h 0 2
  have r12 := rot_rows h 1 2
  have k00 := rot_cols h 0 0
  have k11 := rot_cols h 1 1
  have k22 := rot_cols h 2 2
  have k01 := rot_cols h 0 1
  have k02 := rot_cols h 0 2
  have k12 := rot_cols h 1 2
  simp only [if_true, show (0 : Fin 3) ≠ 1 by decide, show (0 : Fin 3) ≠ 2 by decide, show (1 : Fin 3) ≠ 2 by decide, if_false]
    at r00 r11 r22 r01 r02 r12 k00 k11 k22 k01 k02 k12
  fin_cases i <;> fin_cases a <;> fin_cases b <;>
    simp only [rotP, Fin.zero_eta, Fin.mk_one, Fin.reduceFinMk, Matrix.of_apply, Matrix.cons_val', Matrix.cons_val_zero,
      Matrix.cons_val_one, Matrix.cons_val, Matrix.cons_val_fin_one] <;>
    generalize R 0 0 = m00 at * <;> generalize R 0 1 = m01 at * <;> generalize R 0 2 = m02 at * <;>
    generalize R 1 0 = m10 at * <;> generalize R 1 1 = m11 at * <;> generalize R 1 2 = m12 at * <;>
    generalize R 2 0 = m20 at * <;> generalize R 2 1 = m21 at * <;> generalize R 2 2 = m22 at * <;>
    first | ring1 | linarith

theorem of_products (q : Quat) (R : Matrix (Fin 3) (Fin 3) ℝ) (h : ∀ a b, 4 * (q a * q b) = rotP R a b) :
    quatDot q = 1 ∧ homMat q = R := by
  have e : ∀ a b, q a * q b = rotP R a b / 4 := fun a b => by rw [← h]; ring
  constructor
  · rw [quatDot_eq, e, e, e, e]
    simp [rotP]
    ring
  · ext a b
    fin_cases a <;> fin_cases b <;> simp [homMat, e, rotP] <;> ring

theorem row_products {R : Matrix (Fin 3) (Fin 3) ℝ} (hR : IsRotation R) (i : Fin 4) (hi : 0 < rotP R i i) (a b : Fin 4) :
    4 * (rotP R i a * (1 / 2 / √(rotP R i i * 1)) * (rotP R i b * (1 / 2 / √(rotP R i i * 1)))) = rotP R a b := by
  have hs : √(rotP R i i) * √(rotP R i i) = rotP R i i := Real.mul_self_sqrt hi.le
  have hp : 0 < √(rotP R i i) := Real.sqrt_pos.2 hi
  rw [mul_one]
  have : 4 * (rotP R i a * (1 / 2 / √(rotP R i i)) * (rotP R i b * (1 / 2 / √(rotP R i i))))
      = rotP R i a * rotP R i b / (√(rotP R i i) * √(rotP R i i)) := by
    field_simp
    ring
  rw [this, hs, rotP_minors hR]
  field_simp

theorem quatSign_cases (q : Quat) : (quatSign q = q ∨ quatSign q = -q) ∧ 0 ≤ quatSign q 0 := by
  unfold quatSign
  split_ifs with h
  · refine ⟨Or.inr rfl, by linarith⟩
  · exact ⟨Or.inl rfl, by linarith⟩

theorem quatSign_products (q : Quat) (a b : Fin 4) : quatSign q a * quatSign q b = q a * q b := by
  rcases (quatSign_cases q).1 with h | h <;> rw [h]
  simp

set_option maxHeartbeats 2000000 in
/-- the precise version takes one row of the table of products, and that row is not zero -/
theorem precise_row {M : Matrix (Fin 4) (Fin 4) ℝ} {R : Matrix (Fin 3) (Fin 3) ℝ} (hM : ∀ a b : Fin 3, M a.castSucc b.castSucc = R a b)
    (h33 : M 3 3 = 1) : ∃ i, 0 < rotP R i i ∧
      quatFromPrecise M = quatSign fun a => rotP R i a * (1 / 2 / √(rotP R i i * 1)) := by
  have m00 : M 0 0 = R 0 0 := hM 0 0
  have m01 : M 0 1 = R 0 1 := hM 0 1
  have m02 : M 0 2 = R 0 2 := hM 0 2
  have m10 : M 1 0 = R 1 0 := hM 1 0
  have m11 : M 1 1 = R 1 1 := hM 1 1
  have m12 : M 1 2 = R 1 2 := hM 1 2
  have m20 : M 2 0 = R 2 0 := hM 2 0
  have m21 : M 2 1 = R 2 1 := hM 2 1
  have m22 : M 2 2 = R 2 2 := hM 2 2
  have ht : ∑ a, M a a = rotP R 0 0 := by
    rw [Fin.sum_univ_four, m00, m11, m22, h33]
    simp [rotP]
    ring
  have p00 : rotP R 0 0 = 1 + R 0 0 + R 1 1 + R 2 2 := rfl
  have p11 : rotP R 1 1 = 1 + R 0 0 - R 1 1 - R 2 2 := rfl
  have p22 : rotP R 2 2 = 1 - R 0 0 + R 1 1 - R 2 2 := rfl
  have p33 : rotP R 3 3 = 1 - R 0 0 - R 1 1 + R 2 2 := rfl
  unfold quatFromPrecise
  simp only [ht, h33]
  by_cases h0 : 1 < rotP R 0 0
  · simp only [if_pos h0]
    refine ⟨0, by linarith, ?_⟩
    congr 1
    ext a
    fin_cases a <;> simp [rotP, m01, m02, m10, m12, m20, m21]
  simp only [if_neg h0]
  by_cases h1 : M 0 0 < M 1 1
  · simp only [if_pos h1]
    by_cases h2 : M 1 1 < M 2 2
    · simp only [if_pos h2]
      refine ⟨3, by simp only [m00, m11, m22] at h1 h2; linarith, ?_⟩
      have t3 : M 2 2 - (M 0 0 + M 1 1) + 1 = rotP R 3 3 := by rw [m00, m11, m22, p33]; ring
      simp only [t3]
      congr 1
      funext a
      congr 1
      fin_cases a
      · show M 1 0 - M 0 1 = rotP R 3 0
        simp [rotP, m01, m02, m10, m12, m20, m21]
      all_goals simp [rotP, m01, m02, m10, m12, m20, m21, add_comm]
    · simp only [if_neg h2]
      refine ⟨2, by simp only [m00, m11, m22] at h1 h2; linarith, ?_⟩
      have t3 : M 1 1 - (M 2 2 + M 0 0) + 1 = rotP R 2 2 := by rw [m00, m11, m22, p22]; ring
      simp only [t3]
      congr 1
      funext a
      congr 1
      fin_cases a
      · show M 0 2 - M 2 0 = rotP R 2 0
        simp [rotP, m01, m02, m10, m12, m20, m21]
      all_goals simp [rotP, m01, m02, m10, m12, m20, m21, add_comm]
  · simp only [if_neg h1]
    by_cases h2 : M 0 0 < M 2 2
    · simp only [if_pos h2]
      refine ⟨3, by simp only [m00, m11, m22] at h1 h2; linarith, ?_⟩
      have t3 : M 2 2 - (M 0 0 + M 1 1) + 1 = rotP R 3 3 := by rw [m00, m11, m22, p33]; ring
      simp only [t3]
      congr 1
      funext a
      congr 1
      fin_cases a
      · show M 1 0 - M 0 1 = rotP R 3 0
        simp [rotP, m01, m02, m10, m12, m20, m21]
      all_goals simp [rotP, m01, m02, m10, m12, m20, m21, add_comm]
    · simp only [if_neg h2]
      refine ⟨1, by simp only [m00, m11, m22] at h1 h2; linarith, ?_⟩
      have t3 : M 0 0 - (M 1 1 + M 2 2) + 1 = rotP R 1 1 := by rw [m00, m11, m22, p11]; ring
      simp only [t3]
      congr 1
      funext a
      congr 1
      fin_cases a
      · show M 2 1 - M 1 2 = rotP R 1 0
        simp [rotP, m01, m02, m10, m12, m20, m21]
      all_goals simp [rotP, m01, m02, m10, m12, m20, m21, add_comm]

theorem precise_products {M : Matrix (Fin 4) (Fin 4) ℝ} {R : Matrix (Fin 3) (Fin 3) ℝ} (hR : IsRotation R)
    (hM : ∀ a b : Fin 3, M a.castSucc b.castSucc = R a b) (h33 : M 3 3 = 1) (a b : Fin 4) :
    4 * (quatFromPrecise M a * quatFromPrecise M b) = rotP R a b := by
  obtain ⟨i, hi, e⟩ := precise_row hM h33
  rw [e, quatSign_products, row_products hR i hi]

theorem quatMatrix_unit (q : Quat) (h : quatDot q = 1) : quatMatrix q = homog (homMat q) := by
  rw [quatMatrix_big _ (by rw [h]; unfold tEps; norm_num), h, inv_one, one_smul]

/-- C83: with `isprecise=True`, `quaternion_from_matrix` gives for every rotation matrix a unit quaternion with nonnegative real part
whose matrix it is. -/
theorem c83_precise (M : Matrix (Fin 4) (Fin 4) ℝ) (R : Matrix (Fin 3) (Fin 3) ℝ) (hM : Homog M R) (hR : IsRotation R) :
    quatDot (quatFromPrecise M) = 1 ∧ quatMatrix (quatFromPrecise M) = M ∧ 0 ≤ quatFromPrecise M 0 := by
  obtain ⟨h1, h2⟩ := of_products _ R (precise_products hR hM.1 hM.2.2)
  refine ⟨h1, ?_, ?_⟩
  · rw [quatMatrix_unit _ h1, h2]
    exact Homog.unique (homog_spec _) hM
  · obtain ⟨i, -, e⟩ := precise_row hM.1 hM.2.2
    rw [e]
    exact (quatSign_cases _).2

/-- the eigenvector of the largest eigenvalue is the quaternion -/
theorem eigh_products {eigh : Matrix (Fin 4) (Fin 4) ℝ → (Fin 4 → ℝ) × Matrix (Fin 4) (Fin 4) ℝ} {argmax : (Fin 4 → ℝ) → Fin 4}
    (he : IsEigh4 eigh) (ha : IsArgmax argmax) {M : Matrix (Fin 4) (Fin 4) ℝ} {R : Matrix (Fin 3) (Fin 3) ℝ} (hR : IsRotation R)
    (hM : Homog M R) (a b : Fin 4) :
    4 * (quatFromEigh eigh argmax M a * quatFromEigh eigh argmax M b) = rotP R a b := by
  obtain ⟨h1, h2⟩ := he (quatK M)
  unfold quatFromEigh
  simp only
  set w := (eigh (quatK M)).1
  set V := (eigh (quatK M)).2
  set m := argmax w
  rw [quatSign_products]
  set p := quatFromPrecise M with hp
  have hpp := precise_products hR hM.1 hM.2.2
  rw [← hp] at hpp
  have hp1 : p 0 * p 0 + p 1 * p 1 + p 2 * p 2 + p 3 * p 3 = 1 := by
    rw [← quatDot_eq]; exact (of_products p R hpp).1
  set Q : Fin 4 → Quat := fun j => ![V 3 j, V 0 j, V 1 j, V 2 j] with hQ
  have m00 : M 0 0 = R 0 0 := hM.1 0 0
  have m01 : M 0 1 = R 0 1 := hM.1 0 1
  have m02 : M 0 2 = R 0 2 := hM.1 0 2
  have m10 : M 1 0 = R 1 0 := hM.1 1 0
  have m11 : M 1 1 = R 1 1 := hM.1 1 1
  have m12 : M 1 2 = R 1 2 := hM.1 1 2
  have m20 : M 2 0 = R 2 0 := hM.1 2 0
  have m21 : M 2 1 = R 2 1 := hM.1 2 1
  have m22 : M 2 2 = R 2 2 := hM.1 2 2
  have eig : ∀ j a, rotP R a 0 * Q j 0 + rotP R a 1 * Q j 1 + rotP R a 2 * Q j 2 + rotP R a 3 * Q j 3 = (3 * w j + 1) * Q j a := by
    intro j
    have k : ∀ c, _ := fun c => congrFun (congrFun h2 c) j
    have k0 := k 0
    have k1 := k 1
    have k2 := k 2
    have k3 := k 3
    rw [Matrix.mul_diagonal, Matrix.mul_apply, Fin.sum_univ_four] at k0 k1 k2 k3
    simp [symLower, quatK, m00, m01, m02, m10, m11, m12, m20, m21, m22] at k0 k1 k2 k3
    intro a
    fin_cases a <;> simp [hQ, rotP] <;> linarith
  set d : Fin 4 → ℝ := fun j => p 0 * Q j 0 + p 1 * Q j 1 + p 2 * Q j 2 + p 3 * Q j 3 with hd
  have eig' : ∀ j a, 4 * d j * p a = (3 * w j + 1) * Q j a := by
    intro j a
    rw [← eig j a, ← hpp, ← hpp, ← hpp, ← hpp, hd]
    ring
  have eigd : ∀ j, 4 * d j = (3 * w j + 1) * d j := by
    intro j
    have : 4 * d j = p 0 * (4 * d j * p 0) + p 1 * (4 * d j * p 1) + p 2 * (4 * d j * p 2) + p 3 * (4 * d j * p 3) := by
      linear_combination (-4 * d j) * hp1
    rw [this, eig', eig', eig', eig', hd]
    ring
  have unit : ∀ j, Q j 0 * Q j 0 + Q j 1 * Q j 1 + Q j 2 * Q j 2 + Q j 3 * Q j 3 = 1 := by
    intro j
    have := congrFun (congrFun h1 j) j
    simp [Matrix.mul_apply, Fin.sum_univ_four] at this
    simp only [hQ, Matrix.cons_val_zero, Matrix.cons_val_one, Matrix.cons_val]
    linarith
  -- some column is not orthogonal to the quaternion
  have ex : ∃ j, d j ≠ 0 := by
    by_contra hcon
    push Not at hcon
    have h1' : V * Vᵀ = 1 := mul_eq_one_comm.1 h1
    let r : Fin 4 → ℝ := ![p 1, p 2, p 3, p 0]
    have hv : Vᵀ *ᵥ r = 0 := by
      ext j
      have := hcon j
      simp only [hd, hQ, Matrix.cons_val_zero, Matrix.cons_val_one, Matrix.cons_val] at this
      simp [Matrix.mulVec, dotProduct, Fin.sum_univ_four, r]
      linarith
    have : r = 0 := by
      rw [← Matrix.one_mulVec r, ← h1', ← Matrix.mulVec_mulVec, hv, Matrix.mulVec_zero]
    have q0 : p 1 = 0 := congrFun this 0
    have q1 : p 2 = 0 := congrFun this 1
    have q2 : p 3 = 0 := congrFun this 2
    have q3 : p 0 = 0 := congrFun this 3
    rw [q0, q1, q2, q3] at hp1
    norm_num at hp1
  obtain ⟨j, hj⟩ := ex
  have wj : 3 * w j + 1 = 4 := (mul_right_cancel₀ hj (eigd j)).symm
  have wm : 4 ≤ 3 * w m + 1 := by
    have := ha w j
    show 4 ≤ 3 * w (argmax w) + 1
    linarith
  -- so the chosen column is a multiple of the quaternion
  set l := 3 * w m + 1
  have hl : l ≠ 0 := by linarith
  have hQm : ∀ a, Q m a = 4 * d m / l * p a := by
    intro a
    have := eig' m a
    field_simp
    linarith
  have hc : (4 * d m / l) * (4 * d m / l) = 1 := by
    have := unit m
    rw [hQm, hQm, hQm, hQm] at this
    linear_combination this - (4 * d m / l) * (4 * d m / l) * hp1
  rw [← hpp]
  show 4 * (Q m a * Q m b) = _
  rw [hQm, hQm]
  linear_combination 4 * p a * p b * hc

/-- C83: with `isprecise=False` the same, for every `eigh` and `argmax` that do what numpy promises. -/
theorem c83_eigh (eigh : Matrix (Fin 4) (Fin 4) ℝ → (Fin 4 → ℝ) × Matrix (Fin 4) (Fin 4) ℝ) (argmax : (Fin 4 → ℝ) → Fin 4)
    (he : IsEigh4 eigh) (ha : IsArgmax argmax) (M : Matrix (Fin 4) (Fin 4) ℝ) (R : Matrix (Fin 3) (Fin 3) ℝ) (hM : Homog M R)
    (hR : IsRotation R) : quatDot (quatFromEigh eigh argmax M) = 1 ∧ quatMatrix (quatFromEigh eigh argmax M) = M ∧
      0 ≤ quatFromEigh eigh argmax M 0 := by
  obtain ⟨h1, h2⟩ := of_products _ R (eigh_products he ha hR hM)
  refine ⟨h1, ?_, (quatSign_cases _).2⟩
  rw [quatMatrix_unit _ h1, h2]
  exact Homog.unique (homog_spec _) hM

/-- C83: the two versions agree up to sign, and exactly unless the rotation is by half a turn. -/
theorem c83_agree (eigh : Matrix (Fin 4) (Fin 4) ℝ → (Fin 4 → ℝ) × Matrix (Fin 4) (Fin 4) ℝ) (argmax : (Fin 4 → ℝ) → Fin 4)
    (he : IsEigh4 eigh) (ha : IsArgmax argmax) (M : Matrix (Fin 4) (Fin 4) ℝ) (R : Matrix (Fin 3) (Fin 3) ℝ) (hM : Homog M R)
    (hR : IsRotation R) : (quatFromEigh eigh argmax M = quatFromPrecise M ∨ quatFromEigh eigh argmax M = -quatFromPrecise M) ∧
      (R 0 0 + R 1 1 + R 2 2 ≠ -1 → quatFromEigh eigh argmax M = quatFromPrecise M) := by
  obtain ⟨a1, a2, a3⟩ := c83_precise M R hM hR
  obtain ⟨b1, b2, b3⟩ := c83_eigh eigh argmax he ha M R hM hR
  have hs := (c68_sign _ _ b1 a1).1 (b2.trans a2.symm)
  refine ⟨hs, fun ht => ?_⟩
  rcases hs with h | h
  · exact h
  · exfalso
    apply ht
    have hz : quatFromPrecise M 0 = 0 := by
      rw [h, Pi.neg_apply] at b3
      linarith
    have := precise_products hR hM.1 hM.2.2 0 0
    rw [hz] at this
    simp [rotP] at this
    linarith

/-- C83: a unit quaternion comes back from its matrix up to sign, and exactly if its real part is positive. -/
theorem c83_inverse (q : Quat) (hq : quatDot q = 1) : (quatFromPrecise (quatMatrix q) = q ∨ quatFromPrecise (quatMatrix q) = -q) ∧
    (0 < q 0 → quatFromPrecise (quatMatrix q) = q) := by
  obtain ⟨R, hM, hR⟩ := c68_rotation q
  obtain ⟨a1, a2, a3⟩ := c83_precise _ R hM hR
  have hs := (c68_sign _ _ a1 hq).1 a2
  refine ⟨hs, fun h0 => ?_⟩
  rcases hs with h | h
  · exact h
  · rw [h, Pi.neg_apply] at a3
    linarith

/-- `eigh` and `argmax` exist. -/
example : (∃ eigh, IsEigh4 eigh) ∧ ∃ argmax, IsArgmax argmax := by
  constructor
  · have ex : ∀ K : Matrix (Fin 4) (Fin 4) ℝ, ∃ wV : (Fin 4 → ℝ) × Matrix (Fin 4) (Fin 4) ℝ,
        wV.2ᵀ * wV.2 = 1 ∧ symLower K * wV.2 = wV.2 * Matrix.diagonal wV.1 := by
      intro K
      have hH : (symLower K).IsHermitian := by
        ext a b
        simp only [Matrix.conjTranspose_apply, symLower, star_trivial]
        rcases lt_trichotomy a b with h | h | h
        · simp [h.le, not_le.2 h]
        · subst h; rfl
        · simp [h.le, not_le.2 h]
      have hu := (hH.eigenvectorUnitary).2
      have hu1 := (Matrix.mem_unitaryGroup_iff'.1 hu)
      refine ⟨(hH.eigenvalues, (hH.eigenvectorUnitary : Matrix (Fin 4) (Fin 4) ℝ)), hu1, ?_⟩
      ext a j
      have := congrFun (hH.mulVec_eigenvectorBasis j) a
      rw [Matrix.mul_diagonal]
      simp only [Matrix.mulVec, dotProduct, Pi.smul_apply, smul_eq_mul] at this
      rw [Matrix.mul_apply]
      simp only [Matrix.IsHermitian.eigenvectorUnitary_apply]
      rw [this, mul_comm]
    choose e he using ex
    exact ⟨e, he⟩
  · have ex : ∀ w : Fin 4 → ℝ, ∃ i, ∀ a, w a ≤ w i := fun w => Finite.exists_max w
    choose e he using ex
    exact ⟨e, he⟩

end Electrode
