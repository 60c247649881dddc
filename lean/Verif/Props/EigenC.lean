import Verif.Model.EigenC
import Verif.Props.Register2

/-! C112: the compiled eigenvalues and eigenvectors of symmetric four by four matrices, and what uses them. -/

namespace Electrode

open Matrix Spec

namespace Spec

/-- the symmetric matrix -/
def symMat (M : Sym4) : Matrix (Fin 4) (Fin 4) ℝ :=
  !![M.m0, M.m1, M.m2, M.m3; M.m1, M.m5, M.m6, M.m7; M.m2, M.m6, M.m10, M.m11; M.m3, M.m7, M.m11, M.m15]

/-- the tridiagonal matrix -/
def triMat (T : Tri4) : Matrix (Fin 4) (Fin 4) ℝ :=
  !![T.a0, T.b0, 0, 0; T.b0, T.a1, T.b1, 0; 0, T.b1, T.a2, T.b2; 0, 0, T.b2, T.a3]

/-- the value of the quadratic form -/
def qform (A : Matrix (Fin 4) (Fin 4) ℝ) (v : Fin 4 → ℝ) : ℝ := v ⬝ᵥ (A *ᵥ v)

/-- `l` is the largest eigenvalue of `A` -/
def IsTop (A : Matrix (Fin 4) (Fin 4) ℝ) (l : ℝ) : Prop :=
  (∃ v, v ≠ 0 ∧ A *ᵥ v = l • v) ∧ ∀ (m : ℝ) (v : Fin 4 → ℝ), v ≠ 0 → A *ᵥ v = m • v → m ≤ l

end Spec

/-! ### tridiagonal form -/

theorem symMat_symm (M : Sym4) : (symMat M)ᵀ = symMat M := by
  ext i j
  fin_cases i <;> fin_cases j <;> rfl

theorem qform_ext {A B : Matrix (Fin 4) (Fin 4) ℝ} (hA : Aᵀ = A) (hB : Bᵀ = B) (h : ∀ v, qform A v = qform B v) : A = B := by
  have e : ∀ C : Matrix (Fin 4) (Fin 4) ℝ, Cᵀ = C → ∀ i j, C i j = (qform C (Pi.single i 1 + Pi.single j 1) - qform C (Pi.single i 1) - qform C (Pi.single j 1)) / 2 := by
    intro C hC i j
    have hs : C j i = C i j := by conv_rhs => rw [← hC, transpose_apply]
    simp only [qform, mulVec_add, add_dotProduct, dotProduct_add, mulVec_single_one, single_one_dotProduct, col_apply]
    rw [hs]
    ring
  ext i j
  rw [e A hA, e B hB, h, h, h]

/-- the reflection with the vector `u` -/
def hholder (u : Fin 4 → ℝ) (k : ℝ) : Matrix (Fin 4) (Fin 4) ℝ := 1 - k • vecMulVec u u

theorem hholder_orth {u : Fin 4 → ℝ} {k : ℝ} (h : k * (u ⬝ᵥ u) = 2) : hholder u k * (hholder u k)ᵀ = 1 := by
  have ht : (hholder u k)ᵀ = hholder u k := by
    ext i j
    simp [hholder, Matrix.one_apply, eq_comm, vecMulVec_apply, mul_comm]
  rw [ht]
  have e : vecMulVec u u * vecMulVec u u = (u ⬝ᵥ u) • vecMulVec u u := by
    ext i j
    simp only [Matrix.mul_apply, vecMulVec_apply, Matrix.smul_apply, smul_eq_mul, dotProduct, Finset.sum_mul]
    refine Finset.sum_congr rfl fun k _ => by ring
  have e2 : k • vecMulVec u u * k • vecMulVec u u = (2 * k) • vecMulVec u u := by
    rw [Matrix.smul_mul, Matrix.mul_smul, e, smul_smul, smul_smul]
    congr 1
    linear_combination k * h
  unfold hholder
  rw [Matrix.sub_mul, Matrix.mul_sub, Matrix.mul_sub, e2, Matrix.one_mul, Matrix.mul_one, Matrix.one_mul, two_mul, add_smul]
  abel

theorem qform_hholder (A : Matrix (Fin 4) (Fin 4) ℝ) (u : Fin 4 → ℝ) (k : ℝ) (v : Fin 4 → ℝ) :
    hholder u k *ᵥ v = fun i => v i - k * (u ⬝ᵥ v) * u i := by
  ext i
  simp only [hholder, sub_mulVec, one_mulVec, Pi.sub_apply, smul_mulVec, vecMulVec_mulVec, Pi.smul_apply, smul_eq_mul]
  simp
  ring

theorem hh_sign {a t n : ℝ} (hn : n = √(a * a + t)) (h0 : tEps < n) :
    ∃ m, (if a < 0 then -n else n) = m ∧ m * m = a * a + t ∧ 0 < m * m + m * a := by
  have hp : 0 < a * a + t := by
    by_contra h
    rw [Real.sqrt_eq_zero_of_nonpos (not_lt.1 h)] at hn
    linarith [tEps_pos]
  have hs : n * n = a * a + t := by rw [hn, Real.mul_self_sqrt hp.le]
  have hpos : 0 < n := tEps_pos.trans h0
  split_ifs with ha
  · exact ⟨-n, rfl, by linarith, by nlinarith⟩
  · exact ⟨n, rfl, hs, by nlinarith [not_lt.1 ha]⟩

theorem small_cross {c x y z s : ℝ} (hs : s ≤ tEps) (hs0 : 0 ≤ s) (h : c * c ≤ s * s * (y * y + z * z)) : |2 * x * c| ≤ tEps * (x * x + (y * y + z * z)) := by
  have hn : 0 ≤ x * x + (y * y + z * z) := add_nonneg (mul_self_nonneg _) (add_nonneg (mul_self_nonneg _) (mul_self_nonneg _))
  have h1 : |2 * x * c| ≤ s * (x * x + (y * y + z * z)) := by
    refine abs_le_of_sq_le_sq ?_ (mul_nonneg hs0 hn)
    nlinarith [mul_le_mul_of_nonneg_left h (mul_self_nonneg x), sq_nonneg (x * x - (y * y + z * z)), mul_self_nonneg (s * (x * x - (y * y + z * z)))]
  exact h1.trans (mul_le_mul_of_nonneg_right hs hn)

theorem dot_self_nonneg (v : Fin 4 → ℝ) : 0 ≤ v ⬝ᵥ v := Finset.sum_nonneg fun i _ => mul_self_nonneg (v i)

/-- the first row is cleared -/
theorem triFirst_spec (M : Sym4) :
    ∃ Q : Matrix (Fin 4) (Fin 4) ℝ, Q * Qᵀ = 1 ∧
      (∀ v, |qform (symMat M) (Q *ᵥ v) - qform (symMat { triFirst M with m2 := 0, m3 := 0 }) v| ≤ tEps * (v ⬝ᵥ v)) ∧
      (tEps < √(M.m1 * M.m1 + (M.m2 * M.m2 + M.m3 * M.m3)) → ∀ v, qform (symMat M) (Q *ᵥ v) = qform (symMat { triFirst M with m2 := 0, m3 := 0 }) v) := by
  by_cases h : tEps < √(M.m1 * M.m1 + (M.m2 * M.m2 + M.m3 * M.m3))
  · obtain ⟨n, hn, hn2, hpos⟩ := hh_sign rfl h
    obtain ⟨u, hu⟩ : ∃ u : Fin 4 → ℝ, u = ![0, M.m1 + n, M.m2, M.m3] := ⟨_, rfl⟩
    obtain ⟨k, hk⟩ : ∃ k : ℝ, k = (n * n + n * M.m1)⁻¹ := ⟨_, rfl⟩
    have hh : ((M.m1 + n) * (M.m1 + n) + (M.m2 * M.m2 + M.m3 * M.m3)) / 2 = n * n + n * M.m1 := by linarith
    have hkh : k * (n * n + n * M.m1) = 1 := by rw [hk, inv_mul_cancel₀ hpos.ne']
    have huu : k * (u ⬝ᵥ u) = 2 := by
      rw [hu]
      simp [dotProduct, Fin.sum_univ_four]
      linear_combination 2 * hkh - k * hn2
    have key : ∀ v, qform (symMat M) (hholder u k *ᵥ v) = qform (symMat { triFirst M with m2 := 0, m3 := 0 }) v := by
      intro v
      have e : triFirst M = { M with
          m5 := M.m5 - 2 * (k * (M.m5 * u 1 + M.m6 * u 2 + M.m7 * u 3) - k * k / 2 * (u 1 * (M.m5 * u 1 + M.m6 * u 2 + M.m7 * u 3) + u 2 * (M.m6 * u 1 + M.m10 * u 2 + M.m11 * u 3) + u 3 * (M.m7 * u 1 + M.m11 * u 2 + M.m15 * u 3)) * u 1) * u 1
          m10 := M.m10 - 2 * (k * (M.m6 * u 1 + M.m10 * u 2 + M.m11 * u 3) - k * k / 2 * (u 1 * (M.m5 * u 1 + M.m6 * u 2 + M.m7 * u 3) + u 2 * (M.m6 * u 1 + M.m10 * u 2 + M.m11 * u 3) + u 3 * (M.m7 * u 1 + M.m11 * u 2 + M.m15 * u 3)) * u 2) * u 2
          m15 := M.m15 - 2 * (k * (M.m7 * u 1 + M.m11 * u 2 + M.m15 * u 3) - k * k / 2 * (u 1 * (M.m5 * u 1 + M.m6 * u 2 + M.m7 * u 3) + u 2 * (M.m6 * u 1 + M.m10 * u 2 + M.m11 * u 3) + u 3 * (M.m7 * u 1 + M.m11 * u 2 + M.m15 * u 3)) * u 3) * u 3
          m6 := M.m6 - ((k * (M.m6 * u 1 + M.m10 * u 2 + M.m11 * u 3) - k * k / 2 * (u 1 * (M.m5 * u 1 + M.m6 * u 2 + M.m7 * u 3) + u 2 * (M.m6 * u 1 + M.m10 * u 2 + M.m11 * u 3) + u 3 * (M.m7 * u 1 + M.m11 * u 2 + M.m15 * u 3)) * u 2) * u 1 + (k * (M.m5 * u 1 + M.m6 * u 2 + M.m7 * u 3) - k * k / 2 * (u 1 * (M.m5 * u 1 + M.m6 * u 2 + M.m7 * u 3) + u 2 * (M.m6 * u 1 + M.m10 * u 2 + M.m11 * u 3) + u 3 * (M.m7 * u 1 + M.m11 * u 2 + M.m15 * u 3)) * u 1) * u 2)
          m7 := M.m7 - ((k * (M.m7 * u 1 + M.m11 * u 2 + M.m15 * u 3) - k * k / 2 * (u 1 * (M.m5 * u 1 + M.m6 * u 2 + M.m7 * u 3) + u 2 * (M.m6 * u 1 + M.m10 * u 2 + M.m11 * u 3) + u 3 * (M.m7 * u 1 + M.m11 * u 2 + M.m15 * u 3)) * u 3) * u 1 + (k * (M.m5 * u 1 + M.m6 * u 2 + M.m7 * u 3) - k * k / 2 * (u 1 * (M.m5 * u 1 + M.m6 * u 2 + M.m7 * u 3) + u 2 * (M.m6 * u 1 + M.m10 * u 2 + M.m11 * u 3) + u 3 * (M.m7 * u 1 + M.m11 * u 2 + M.m15 * u 3)) * u 1) * u 3)
          m11 := M.m11 - ((k * (M.m7 * u 1 + M.m11 * u 2 + M.m15 * u 3) - k * k / 2 * (u 1 * (M.m5 * u 1 + M.m6 * u 2 + M.m7 * u 3) + u 2 * (M.m6 * u 1 + M.m10 * u 2 + M.m11 * u 3) + u 3 * (M.m7 * u 1 + M.m11 * u 2 + M.m15 * u 3)) * u 3) * u 2 + (k * (M.m6 * u 1 + M.m10 * u 2 + M.m11 * u 3) - k * k / 2 * (u 1 * (M.m5 * u 1 + M.m6 * u 2 + M.m7 * u 3) + u 2 * (M.m6 * u 1 + M.m10 * u 2 + M.m11 * u 3) + u 3 * (M.m7 * u 1 + M.m11 * u 2 + M.m15 * u 3)) * u 2) * u 3)
          m1 := -n } := by
        unfold triFirst
        simp only [if_pos h, hn, hh, hu, div_eq_mul_inv, mul_inv, ← hk, cons_val_zero, cons_val_one, cons_val]
        congr 1 <;> ring
      rw [e, qform_hholder (symMat M)]
      have hu0 : u 0 = 0 := by rw [hu]; rfl
      have hu1 : u 1 = M.m1 + n := by rw [hu]; rfl
      have hu2 : u 2 = M.m2 := by rw [hu]; rfl
      have hu3 : u 3 = M.m3 := by rw [hu]; rfl
      simp only [qform, symMat, dotProduct, mulVec, Fin.sum_univ_four, of_apply, cons_val_zero, cons_val_one, cons_val, hu0]
      have hmu : k * (M.m1 * u 1 + M.m2 * u 2 + M.m3 * u 3) = 1 := by
        rw [hu1, hu2, hu3]
        linear_combination hkh - k * hn2
      linear_combination (-2 * v 0 * (u 1 * v 1 + u 2 * v 2 + u 3 * v 3)) * hmu - 2 * v 0 * v 1 * hu1 - 2 * v 0 * v 2 * hu2 - 2 * v 0 * v 3 * hu3
    exact ⟨hholder u k, hholder_orth huu, fun v => by rw [key, sub_self, abs_zero]; exact mul_nonneg tEps_pos.le (dot_self_nonneg v), fun _ => key⟩
  · refine ⟨1, by simp, fun v => ?_, fun h' => absurd h' h⟩
    have hs : √(M.m2 * M.m2 + M.m3 * M.m3) ≤ tEps :=
      (Real.sqrt_le_sqrt (by linarith [mul_self_nonneg M.m1])).trans (not_lt.1 h)
    have e : triFirst M = M := by unfold triFirst; simp only [if_neg h]
    have hp : 0 ≤ M.m2 * M.m2 + M.m3 * M.m3 := add_nonneg (mul_self_nonneg _) (mul_self_nonneg _)
    have hc := small_cross (x := v 0) (y := v 2) (z := v 3) (c := M.m2 * v 2 + M.m3 * v 3) hs (Real.sqrt_nonneg _) (by
      rw [Real.mul_self_sqrt hp]
      linarith [mul_self_nonneg (M.m2 * v 3 - M.m3 * v 2)])
    rw [e, one_mulVec]
    have e2 : qform (symMat M) v - qform (symMat { M with m2 := 0, m3 := 0 }) v = 2 * v 0 * (M.m2 * v 2 + M.m3 * v 3) := by
      simp only [qform, symMat, dotProduct, mulVec, Fin.sum_univ_four, of_apply, cons_val_zero, cons_val_one, cons_val]
      ring
    rw [e2]
    refine hc.trans (mul_le_mul_of_nonneg_left ?_ tEps_pos.le)
    simp only [dotProduct, Fin.sum_univ_four]
    linarith [mul_self_nonneg (v 1)]

/-- the second row is cleared -/
theorem triSecond_spec (M : Sym4) (h2 : M.m2 = 0) (h3 : M.m3 = 0) :
    ∃ Q : Matrix (Fin 4) (Fin 4) ℝ, Q * Qᵀ = 1 ∧
      (∀ v, |qform (symMat M) (Q *ᵥ v) - qform (symMat { triSecond M with m7 := 0 }) v| ≤ tEps * (v ⬝ᵥ v)) ∧
      (tEps < √(M.m6 * M.m6 + M.m7 * M.m7) → ∀ v, qform (symMat M) (Q *ᵥ v) = qform (symMat { triSecond M with m7 := 0 }) v) := by
  by_cases h : tEps < √(M.m6 * M.m6 + M.m7 * M.m7)
  · obtain ⟨n, hn, hn2, hpos⟩ := hh_sign rfl h
    obtain ⟨u, hu⟩ : ∃ u : Fin 4 → ℝ, u = ![0, 0, M.m6 + n, M.m7] := ⟨_, rfl⟩
    obtain ⟨k, hk⟩ : ∃ k : ℝ, k = (n * n + n * M.m6)⁻¹ := ⟨_, rfl⟩
    have hh : ((M.m6 + n) * (M.m6 + n) + M.m7 * M.m7) / 2 = n * n + n * M.m6 := by linarith
    have hkh : k * (n * n + n * M.m6) = 1 := by rw [hk, inv_mul_cancel₀ hpos.ne']
    have huu : k * (u ⬝ᵥ u) = 2 := by
      rw [hu]
      simp [dotProduct, Fin.sum_univ_four]
      linear_combination 2 * hkh - k * hn2
    have key : ∀ v, qform (symMat M) (hholder u k *ᵥ v) = qform (symMat { triSecond M with m7 := 0 }) v := by
      intro v
      have e : triSecond M = { M with
          m10 := M.m10 - 2 * (k * (M.m10 * u 2 + M.m11 * u 3) - k * k / 2 * (u 2 * (M.m10 * u 2 + M.m11 * u 3) + u 3 * (M.m11 * u 2 + M.m15 * u 3)) * u 2) * u 2
          m15 := M.m15 - 2 * (k * (M.m11 * u 2 + M.m15 * u 3) - k * k / 2 * (u 2 * (M.m10 * u 2 + M.m11 * u 3) + u 3 * (M.m11 * u 2 + M.m15 * u 3)) * u 3) * u 3
          m11 := M.m11 - ((k * (M.m11 * u 2 + M.m15 * u 3) - k * k / 2 * (u 2 * (M.m10 * u 2 + M.m11 * u 3) + u 3 * (M.m11 * u 2 + M.m15 * u 3)) * u 3) * u 2 + (k * (M.m10 * u 2 + M.m11 * u 3) - k * k / 2 * (u 2 * (M.m10 * u 2 + M.m11 * u 3) + u 3 * (M.m11 * u 2 + M.m15 * u 3)) * u 2) * u 3)
          m6 := -n } := by
        unfold triSecond
        simp only [if_pos h, hn, hh, hu, div_eq_mul_inv, mul_inv, ← hk, cons_val_zero, cons_val_one, cons_val]
        congr 1 <;> ring
      rw [e, qform_hholder (symMat M)]
      have hu0 : u 0 = 0 := by rw [hu]; rfl
      have hu1 : u 1 = 0 := by rw [hu]; rfl
      have hu2 : u 2 = M.m6 + n := by rw [hu]; rfl
      have hu3 : u 3 = M.m7 := by rw [hu]; rfl
      simp only [qform, symMat, dotProduct, mulVec, Fin.sum_univ_four, of_apply, cons_val_zero, cons_val_one, cons_val, hu0, hu1, h2, h3]
      have hmu : k * (M.m6 * u 2 + M.m7 * u 3) = 1 := by
        rw [hu2, hu3]
        linear_combination hkh - k * hn2
      linear_combination (-2 * v 1 * (u 2 * v 2 + u 3 * v 3)) * hmu - 2 * v 1 * v 2 * hu2 - 2 * v 1 * v 3 * hu3
    exact ⟨hholder u k, hholder_orth huu, fun v => by rw [key, sub_self, abs_zero]; exact mul_nonneg tEps_pos.le (dot_self_nonneg v), fun _ => key⟩
  · refine ⟨1, by simp, fun v => ?_, fun h' => absurd h' h⟩
    have hs : √(M.m7 * M.m7) ≤ tEps :=
      (Real.sqrt_le_sqrt (by linarith [mul_self_nonneg M.m6])).trans (not_lt.1 h)
    have e : triSecond M = M := by unfold triSecond; simp only [if_neg h]
    have hc := small_cross (x := v 1) (y := 0) (z := v 3) (c := M.m7 * v 3) hs (Real.sqrt_nonneg _) (by
      rw [Real.mul_self_sqrt (mul_self_nonneg _)]
      linarith)
    rw [e, one_mulVec]
    have e2 : qform (symMat M) v - qform (symMat { M with m7 := 0 }) v = 2 * v 1 * (M.m7 * v 3) := by
      simp only [qform, symMat, dotProduct, mulVec, Fin.sum_univ_four, of_apply, cons_val_zero, cons_val_one, cons_val]
      ring
    rw [e2]
    refine hc.trans (mul_le_mul_of_nonneg_left ?_ tEps_pos.le)
    simp only [dotProduct, Fin.sum_univ_four]
    linarith [mul_self_nonneg (v 0), mul_self_nonneg (v 2)]

theorem triMat_eq (M : Sym4) :
    triMat (tridiagonalize M) = symMat { triSecond { triFirst M with m2 := 0, m3 := 0 } with m7 := 0 } := by
  unfold tridiagonalize triSecond triMat symMat
  simp only
  split_ifs <;> rfl

theorem triFirst_b (M : Sym4) : √((triFirst M).m6 * (triFirst M).m6 + (triFirst M).m7 * (triFirst M).m7) =
    √(({ triFirst M with m2 := 0, m3 := 0 } : Sym4).m6 * ({ triFirst M with m2 := 0, m3 := 0 } : Sym4).m6 +
      ({ triFirst M with m2 := 0, m3 := 0 } : Sym4).m7 * ({ triFirst M with m2 := 0, m3 := 0 } : Sym4).m7) := rfl

/-- **C112**: the tridiagonal matrix is the given matrix in another orthonormal basis, up to twice the threshold of the code. -/
theorem c112_tridiag (M : Sym4) :
    ∃ Q : Matrix (Fin 4) (Fin 4) ℝ, Q * Qᵀ = 1 ∧
      ∀ v, |qform (symMat M) (Q *ᵥ v) - qform (triMat (tridiagonalize M)) v| ≤ 2 * tEps * (v ⬝ᵥ v) := by
  obtain ⟨Q, hQ, h, -⟩ := triFirst_spec M
  obtain ⟨P, hP, g, -⟩ := triSecond_spec { triFirst M with m2 := 0, m3 := 0 } rfl rfl
  refine ⟨Q * P, ?_, fun v => ?_⟩
  · rw [transpose_mul, Matrix.mul_assoc, ← Matrix.mul_assoc P, hP, Matrix.one_mul, hQ]
  · rw [← mulVec_mulVec, triMat_eq]
    have h1 := h (P *ᵥ v)
    have h2 := g v
    have e : (P *ᵥ v) ⬝ᵥ (P *ᵥ v) = v ⬝ᵥ v := by
      rw [dotProduct_mulVec, vecMul_mulVec, mul_eq_one_comm.1 hP, vecMul_one]
    rw [e] at h1
    calc _ = |(qform (symMat M) (Q *ᵥ P *ᵥ v) - qform (symMat { triFirst M with m2 := 0, m3 := 0 }) (P *ᵥ v)) +
          (qform (symMat { triFirst M with m2 := 0, m3 := 0 }) (P *ᵥ v) - qform (symMat { triSecond { triFirst M with m2 := 0, m3 := 0 } with m7 := 0 }) v)| := by
          congr 1; ring
      _ ≤ _ := by
          refine (abs_add_le _ _).trans ?_
          linarith

/-- **C112**: it is exactly the given matrix in another orthonormal basis if neither of the two steps is left out. -/
theorem c112_tridiag_exact (M : Sym4) (h1 : tEps < √(M.m1 ^ 2 + M.m2 ^ 2 + M.m3 ^ 2))
    (h2 : tEps < √((triFirst M).m6 ^ 2 + (triFirst M).m7 ^ 2)) :
    ∃ Q : Matrix (Fin 4) (Fin 4) ℝ, Q * Qᵀ = 1 ∧ Qᵀ * symMat M * Q = triMat (tridiagonalize M) := by
  obtain ⟨Q, hQ, -, h⟩ := triFirst_spec M
  obtain ⟨P, hP, -, g⟩ := triSecond_spec { triFirst M with m2 := 0, m3 := 0 } rfl rfl
  have hQP : Q * P * (Q * P)ᵀ = 1 := by rw [transpose_mul, Matrix.mul_assoc, ← Matrix.mul_assoc P, hP, Matrix.one_mul, hQ]
  refine ⟨Q * P, hQP, ?_⟩
  have key : ∀ v, qform ((Q * P)ᵀ * symMat M * (Q * P)) v = qform (triMat (tridiagonalize M)) v := by
    intro v
    rw [triMat_eq, ← g (by convert h2 using 2; ring) v, ← h (by convert h1 using 2; ring) (P *ᵥ v), mulVec_mulVec]
    unfold qform
    rw [Matrix.mul_assoc, ← mulVec_mulVec, dotProduct_mulVec, vecMul_transpose, ← mulVec_mulVec, ← mulVec_mulVec, ← mulVec_mulVec]
  refine qform_ext ?_ ?_ key
  · rw [transpose_mul (_ * _) (Q * P), transpose_mul _ (symMat M), transpose_transpose, symMat_symm, Matrix.mul_assoc]
  · ext i j
    fin_cases i <;> fin_cases j <;> rfl

end Electrode
