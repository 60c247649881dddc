import Verif.Props.EigenC2

/-! C112, continued: the eigenvector. -/

namespace Electrode

open Matrix Spec

namespace Spec

/-- the vector with the last component first -/
def lastFirst (v : Fin 4 → ℝ) : Fin 4 → ℝ := ![v 3, v 0, v 1, v 2]

end Spec

theorem eigRow0_adj (M : Sym4) : lastFirst (eigRow0 M) = fun j => (symMat M).adjugate j 0 := by
  ext j
  fin_cases j <;>
    simp [lastFirst, eigRow0, symMat, adjugate_fin_succ_eq_det_submatrix, det_fin_three, Fin.succAbove] <;> ring

theorem eigRow1_adj (M : Sym4) : lastFirst (eigRow1 M) = fun j => (symMat M).adjugate j 1 := by
  ext j
  fin_cases j <;>
    simp [lastFirst, eigRow1, symMat, adjugate_fin_succ_eq_det_submatrix, det_fin_three, Fin.succAbove] <;> ring

theorem eigRow2_adj (M : Sym4) : lastFirst (eigRow2 M) = fun j => (symMat M).adjugate j 2 := by
  ext j
  fin_cases j <;>
    simp [lastFirst, eigRow2, symMat, adjugate_fin_succ_eq_det_submatrix, det_fin_three, Fin.succAbove] <;> ring

theorem eigRow3_adj (M : Sym4) : lastFirst (eigRow3 M) = fun j => (symMat M).adjugate j 3 := by
  ext j
  fin_cases j <;>
    simp [lastFirst, eigRow3, symMat, adjugate_fin_succ_eq_det_submatrix, det_fin_three, Fin.succAbove] <;> ring

theorem quatDot_lastFirst (v : Fin 4 → ℝ) : quatDot v = lastFirst v ⬝ᵥ lastFirst v := by
  simp [quatDot, lastFirst, dotProduct, Fin.sum_univ_four]
  ring

/-- column `i` of the adjugate -/
def adjCol (A : Matrix (Fin 4) (Fin 4) ℝ) (i : Fin 4) : Fin 4 → ℝ := fun j => A.adjugate j i

theorem eigEps_ge (M : Sym4) : tEps ≤ eigEps M := by
  unfold eigEps
  simp only
  split_ifs with h
  · exact le_rfl
  · exact not_lt.1 h

theorem eigenvector_cases (M : Sym4) :
    (eigenvector M = none ∧ ∀ i, adjCol (symMat M) i ⬝ᵥ adjCol (symMat M) i < eigEps M) ∨
      ∃ v i, eigenvector M = some v ∧ eigEps M ≤ adjCol (symMat M) i ⬝ᵥ adjCol (symMat M) i ∧
        lastFirst v = (√(adjCol (symMat M) i ⬝ᵥ adjCol (symMat M) i))⁻¹ • adjCol (symMat M) i := by
  have d0 : quatDot (eigRow0 M) = adjCol (symMat M) 0 ⬝ᵥ adjCol (symMat M) 0 := by rw [quatDot_lastFirst, eigRow0_adj]; rfl
  have d1 : quatDot (eigRow1 M) = adjCol (symMat M) 1 ⬝ᵥ adjCol (symMat M) 1 := by rw [quatDot_lastFirst, eigRow1_adj]; rfl
  have d2 : quatDot (eigRow2 M) = adjCol (symMat M) 2 ⬝ᵥ adjCol (symMat M) 2 := by rw [quatDot_lastFirst, eigRow2_adj]; rfl
  have d3 : quatDot (eigRow3 M) = adjCol (symMat M) 3 ⬝ᵥ adjCol (symMat M) 3 := by rw [quatDot_lastFirst, eigRow3_adj]; rfl
  have key : ∀ (r : Fin 4 → ℝ) (i : Fin 4), (lastFirst r = fun j => (symMat M).adjugate j i) →
      quatDot r = adjCol (symMat M) i ⬝ᵥ adjCol (symMat M) i →
      lastFirst (fun k => r k / √(quatDot r)) = (√(adjCol (symMat M) i ⬝ᵥ adjCol (symMat M) i))⁻¹ • adjCol (symMat M) i := by
    intro r i hr hd
    rw [hd]
    have : adjCol (symMat M) i = lastFirst r := hr.symm
    rw [this]
    ext j
    fin_cases j <;> simp [lastFirst, div_eq_inv_mul]
  unfold eigenvector
  simp only
  by_cases h0 : quatDot (eigRow0 M) < eigEps M
  · rw [if_pos h0]
    by_cases h1 : quatDot (eigRow1 M) < eigEps M
    · rw [if_pos h1]
      by_cases h2 : quatDot (eigRow2 M) < eigEps M
      · rw [if_pos h2]
        by_cases h3 : quatDot (eigRow3 M) < eigEps M
        · rw [if_pos h3]
          refine .inl ⟨rfl, fun i => ?_⟩
          rw [d0] at h0
          rw [d1] at h1
          rw [d2] at h2
          rw [d3] at h3
          fin_cases i <;> assumption
        · rw [if_neg h3]
          exact .inr ⟨_, 3, rfl, d3 ▸ not_lt.1 h3, key _ 3 (eigRow3_adj M) d3⟩
      · rw [if_neg h2, if_neg h2]
        exact .inr ⟨_, 2, rfl, d2 ▸ not_lt.1 h2, key _ 2 (eigRow2_adj M) d2⟩
    · rw [if_neg h1, if_neg h1, if_neg h1]
      exact .inr ⟨_, 1, rfl, d1 ▸ not_lt.1 h1, key _ 1 (eigRow1_adj M) d1⟩
  · rw [if_neg h0, if_neg h0, if_neg h0, if_neg h0]
    exact .inr ⟨_, 0, rfl, d0 ▸ not_lt.1 h0, key _ 0 (eigRow0_adj M) d0⟩

theorem mul_adjCol (A : Matrix (Fin 4) (Fin 4) ℝ) (i : Fin 4) : A *ᵥ adjCol A i = Pi.single i A.det := by
  ext j
  have := congrFun (congrFun (mul_adjugate A) j) i
  rw [Matrix.mul_apply, Matrix.smul_apply, one_apply, smul_eq_mul] at this
  simp only [mulVec, dotProduct, adjCol]
  rw [this]
  by_cases h : j = i
  · subst h; simp
  · simp [h]

theorem sqrt_tEps : √tEps = 1 / 2 ^ 25 := by
  rw [show tEps = (1 / 2 ^ 25) ^ 2 by unfold tEps; norm_num, Real.sqrt_sq (by positivity)]

/-- **C112**: the vector for a symmetric matrix has length one and is taken to a multiple of a unit vector, by the determinant divided by
at least `2^-25`. -/
theorem c112_vector (M : Sym4) (v : Fin 4 → ℝ) (h : eigenvector M = some v) :
    lastFirst v ⬝ᵥ lastFirst v = 1 ∧ ∃ (i : Fin 4) (c : ℝ), symMat M *ᵥ lastFirst v = Pi.single i c ∧ |c| ≤ 2 ^ 25 * |(symMat M).det| := by
  rcases eigenvector_cases M with ⟨h', -⟩ | ⟨v', i, h', h1, h2⟩
  · simp [h'] at h
  · obtain rfl : v' = v := Option.some.inj (h'.symm.trans h)
    have hp : 0 < adjCol (symMat M) i ⬝ᵥ adjCol (symMat M) i := tEps_pos.trans_le ((eigEps_ge M).trans h1)
    have hs := Real.sqrt_pos.2 hp
    refine ⟨?_, i, (√(adjCol (symMat M) i ⬝ᵥ adjCol (symMat M) i))⁻¹ * (symMat M).det, ?_, ?_⟩
    · rw [h2, smul_dotProduct, dotProduct_smul, smul_smul, smul_eq_mul, ← mul_inv, Real.mul_self_sqrt hp.le, inv_mul_cancel₀ hp.ne']
    · rw [h2, mulVec_smul, mul_adjCol]
      ext j
      by_cases hj : j = i
      · subst hj; simp
      · simp [hj]
    · rw [abs_mul, abs_of_pos (inv_pos.2 hs)]
      refine mul_le_mul_of_nonneg_right ?_ (abs_nonneg _)
      have : √tEps ≤ √(adjCol (symMat M) i ⬝ᵥ adjCol (symMat M) i) := Real.sqrt_le_sqrt ((eigEps_ge M).trans h1)
      rw [sqrt_tEps] at this
      rw [inv_le_comm₀ hs (by positivity), ← one_div]
      exact this

/-- **C112**: for a singular matrix it is an eigenvector for the eigenvalue zero. -/
theorem c112_vector_kernel (M : Sym4) (hM : (symMat M).det = 0) (v : Fin 4 → ℝ) (h : eigenvector M = some v) :
    lastFirst v ≠ 0 ∧ symMat M *ᵥ lastFirst v = 0 := by
  obtain ⟨h1, i, c, h2, h3⟩ := c112_vector M v h
  constructor
  · intro h0
    rw [h0] at h1
    simp at h1
  · rw [hM, abs_zero, mul_zero] at h3
    rw [h2, abs_nonpos_iff.1 h3, Pi.single_zero]

/-- **C112**: there is no result if the eigenvalue zero has two independent eigenvectors. -/
theorem c112_vector_double (M : Sym4) (x y : Fin 4 → ℝ) (hx : symMat M *ᵥ x = 0) (hy : symMat M *ᵥ y = 0)
    (hxy : ∀ a b : ℝ, a • x + b • y = 0 → a = 0 ∧ b = 0) : eigenvector M = none := by
  have key : ∀ i j, (symMat M).adjugate i j = 0 := by
    intro i j
    obtain ⟨z, hz, hzi, hzM⟩ : ∃ z : Fin 4 → ℝ, z ≠ 0 ∧ z i = 0 ∧ symMat M *ᵥ z = 0 := by
      by_cases h : x i = 0
      · refine ⟨x, fun h0 => ?_, h, hx⟩
        have := hxy 1 0 (by rw [h0]; simp)
        simp at this
      · refine ⟨(-y i) • x + x i • y, fun h0 => h (hxy _ _ h0).2, ?_, ?_⟩
        · simp; ring
        · rw [mulVec_add, mulVec_smul, mulVec_smul, hx, hy]; simp
    rw [adjugate_apply]
    refine exists_mulVec_eq_zero_iff.1 ⟨z, hz, ?_⟩
    ext k
    by_cases hk : k = j
    · subst hk
      simp [mulVec, hzi]
    · have := congrFun hzM k
      simp only [mulVec, updateRow_ne hk] at this ⊢
      exact this
  rcases eigenvector_cases M with ⟨h', -⟩ | ⟨v', i, h', h1, h2⟩
  · exact h'
  · exfalso
    have e : adjCol (symMat M) i ⬝ᵥ adjCol (symMat M) i = 0 := by
      simp [adjCol, key, dotProduct]
    linarith [eigEps_ge M, tEps_pos]

/-- the diagonal matrix 0, -2, -3, -4 has the first unit vector as the result -/
example : eigenvector ⟨0, 0, 0, 0, -2, 0, 0, -3, 0, -4⟩ = some ![0, 0, 0, -1] := by
  have h0 : quatDot (eigRow0 ⟨0, 0, 0, 0, -2, 0, 0, -3, 0, -4⟩) = 24 ^ 2 := by
    simp [quatDot, Fin.sum_univ_four, eigRow0]; norm_num
  have he : eigEps ⟨0, 0, 0, 0, -2, 0, 0, -3, 0, -4⟩ = tEps := by
    simp only [eigEps]
    rw [if_pos]
    norm_num [tEps]
  unfold eigenvector
  simp only [he]
  have h1 : ¬ quatDot (eigRow0 ⟨0, 0, 0, 0, -2, 0, 0, -3, 0, -4⟩) < tEps := by rw [h0]; norm_num [tEps]
  rw [if_neg h1, if_neg h1, if_neg h1, if_neg h1, h0, Real.sqrt_sq (by norm_num)]
  congr 1
  ext i
  fin_cases i <;> norm_num [eigRow0]

/-- the zero matrix has no result -/
example : eigenvector ⟨0, 0, 0, 0, 0, 0, 0, 0, 0, 0⟩ = none := by
  have e : symMat ⟨0, 0, 0, 0, 0, 0, 0, 0, 0, 0⟩ = 0 := by ext i j; fin_cases i <;> fin_cases j <;> rfl
  refine c112_vector_double _ ![1, 0, 0, 0] ![0, 1, 0, 0] (by rw [e, zero_mulVec]) (by rw [e, zero_mulVec]) fun a b h => ?_
  exact ⟨by simpa using congrFun h 0, by simpa using congrFun h 1⟩

/-! ### determinants and eigenvalues -/

/-- the determinant of `A - l` -/
theorem det_shift {A V : Matrix (Fin 4) (Fin 4) ℝ} {w : Fin 4 → ℝ} (hV : Vᵀ * V = 1) (h : A * V = V * diagonal w) (l : ℝ) :
    (A - l • (1 : Matrix (Fin 4) (Fin 4) ℝ)).det = ∏ i, (w i - l) := by
  have hV' : V * Vᵀ = 1 := mul_eq_one_comm.1 hV
  have e : A - l • (1 : Matrix (Fin 4) (Fin 4) ℝ) = V * diagonal (fun i => w i - l) * Vᵀ := by
    have h1 : A = V * diagonal w * Vᵀ := by rw [← h, Matrix.mul_assoc, hV', Matrix.mul_one]
    have h2 : diagonal (fun i => w i - l) = diagonal w - l • (1 : Matrix (Fin 4) (Fin 4) ℝ) := by
      ext i j
      by_cases hij : i = j
      · subst hij; simp
      · simp [hij]
    rw [h2, Matrix.mul_sub, Matrix.sub_mul, ← h1, Matrix.mul_smul, Matrix.mul_one, Matrix.smul_mul, hV']
  rw [e, det_mul, det_mul, det_diagonal, mul_comm, ← mul_assoc, ← det_mul, hV, det_one, one_mul]

theorem symMat_shift (M : Sym4) (l : ℝ) : symMat (M.shift l) = symMat M - l • (1 : Matrix (Fin 4) (Fin 4) ℝ) := by
  ext i j
  fin_cases i <;> fin_cases j <;> simp [symMat, Sym4.shift]

/-- the largest eigenvalue of the tridiagonal matrix is close to that of the given one -/
theorem tri_top {M : Sym4} {l t : ℝ} (hl : IsTop (symMat M) l) (ht : IsTop (triMat (tridiagonalize M)) t) : |t - l| ≤ 2 * tEps := by
  obtain ⟨Q, hQ, h⟩ := c112_tridiag M
  have hQ' : Qᵀ * Q = 1 := mul_eq_one_comm.1 hQ
  have iso : ∀ v, (Q *ᵥ v) ⬝ᵥ (Q *ᵥ v) = v ⬝ᵥ v := fun v => by rw [dotProduct_mulVec, vecMul_mulVec, hQ', vecMul_one]
  rw [abs_le]
  constructor
  · obtain ⟨v, hv, he⟩ := hl.1
    have hp := dot_self_pos hv
    have e0 : Q *ᵥ (Qᵀ *ᵥ v) = v := by rw [mulVec_mulVec, hQ, one_mulVec]
    have e1 : (Qᵀ *ᵥ v) ⬝ᵥ (Qᵀ *ᵥ v) = v ⬝ᵥ v := by rw [← iso, e0]
    have e2 : qform (symMat M) v = l * (v ⬝ᵥ v) := by rw [qform, he, dotProduct_smul, smul_eq_mul]
    have h1 := h (Qᵀ *ᵥ v)
    have h2 := top_form (triMat_symm _) ht (Qᵀ *ᵥ v)
    rw [e0, e2, e1] at h1
    rw [e1] at h2
    have h3 := (abs_le.1 h1).2
    nlinarith
  · obtain ⟨v, hv, he⟩ := ht.1
    have hp := dot_self_pos hv
    have e2 : qform (triMat (tridiagonalize M)) v = t * (v ⬝ᵥ v) := by rw [qform, he, dotProduct_smul, smul_eq_mul]
    have h1 := h v
    have h2 := top_form (symMat_symm M) hl (Q *ᵥ v)
    rw [e2] at h1
    rw [iso] at h2
    have h3 := (abs_le.1 h1).1
    nlinarith

end Electrode
