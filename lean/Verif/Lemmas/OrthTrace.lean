import Mathlib.LinearAlgebra.Matrix.NonsingularInverse
import Mathlib.LinearAlgebra.Matrix.ToLinearEquiv
import Mathlib.LinearAlgebra.Matrix.Trace
import Mathlib.Data.Real.Basic
import Mathlib.Tactic.Linarith
import Mathlib.Tactic.FieldSimp
import Mathlib.Tactic.NormNum
import Mathlib.Algebra.Order.BigOperators.Group.Finset

/-! Traces of orthogonal matrices. -/
namespace Electrode
open Matrix

variable {d : Nat}

theorem orth_entry_le {Q : Matrix (Fin d) (Fin d) ℝ} (h : Qᵀ * Q = 1) (i k : Fin d) : Q i k ≤ 1 := by
  have e := congrFun (congrFun h k) k
  simp only [Matrix.mul_apply, transpose_apply, one_apply_eq] at e
  have : Q i k * Q i k ≤ ∑ j, Q j k * Q j k :=
    Finset.single_le_sum (f := fun j => Q j k * Q j k) (fun j _ => mul_self_nonneg _) (Finset.mem_univ i)
  nlinarith

theorem orth_trace_le {Q : Matrix (Fin d) (Fin d) ℝ} (h : Qᵀ * Q = 1) : Q.trace ≤ d := by
  have : Q.trace ≤ ∑ _i : Fin d, (1 : ℝ) := Finset.sum_le_sum fun i _ => orth_entry_le h i i
  simpa using this

/-- an orthogonal matrix with determinant -1 reverses some direction -/
theorem orth_reverses {Q : Matrix (Fin d) (Fin d) ℝ} (h : Qᵀ * Q = 1) (hd : Q.det = -1) : ∃ x, x ≠ 0 ∧ Q *ᵥ x = -x := by
  have e : (Q + 1).det = 0 := by
    have h1 : Qᵀ * (Q + 1) = (Q + 1)ᵀ := by rw [mul_add, h, mul_one, transpose_add, transpose_one, add_comm]
    have h2 := congrArg Matrix.det h1
    rw [det_mul, det_transpose, det_transpose, hd] at h2
    linarith
  obtain ⟨x, hx, hQ⟩ := Matrix.exists_mulVec_eq_zero_iff.2 e
  refine ⟨x, hx, ?_⟩
  rw [add_mulVec, one_mulVec] at hQ
  exact eq_neg_of_add_eq_zero_left hQ

theorem orth_trace_neg {Q : Matrix (Fin d) (Fin d) ℝ} (h : Qᵀ * Q = 1) (hd : Q.det = -1) : Q.trace ≤ d - 2 := by
  obtain ⟨x, hx, hQ⟩ := orth_reverses h hd
  have hp : 0 < x ⬝ᵥ x := by
    rcases lt_or_eq_of_le (Finset.sum_nonneg fun i (_ : i ∈ Finset.univ) => mul_self_nonneg (x i)) with h | h
    · exact h
    · exfalso; apply hx; ext i
      have := (Finset.sum_eq_zero_iff_of_nonneg fun i (_ : i ∈ Finset.univ) => mul_self_nonneg (x i)).1 h.symm i (Finset.mem_univ i)
      simpa using this
  obtain ⟨p, hpe⟩ : ∃ p, p = x ⬝ᵥ x := ⟨_, rfl⟩
  rw [← hpe] at hp
  set V := vecMulVec x x with hV
  have hVt : Vᵀ = V := by rw [hV, transpose_vecMulVec]
  have hVV : V * V = p • V := by rw [hV, vecMulVec_mul_vecMulVec, ← hpe, vecMulVec_smul]
  set H : Matrix (Fin d) (Fin d) ℝ := 1 - (2 / p) • V with hH
  have hHt : Hᵀ = H := by rw [hH, transpose_sub, transpose_one, transpose_smul, hVt]
  have hHH : H * H = 1 := by
    rw [hH, sub_mul, mul_sub, mul_sub, one_mul, one_mul, mul_one, smul_mul_smul_comm, hVV, smul_smul]
    have : 2 / p * (2 / p) * p = 2 / p + 2 / p := by field_simp; norm_num
    rw [this, add_smul]; abel
  have hQH : (Q * H)ᵀ * (Q * H) = 1 := by
    rw [transpose_mul, hHt, Matrix.mul_assoc, ← Matrix.mul_assoc Qᵀ, h, one_mul, hHH]
  have ht := orth_trace_le hQH
  have : (Q * H).trace = Q.trace + 2 := by
    rw [hH, mul_sub, mul_one, trace_sub, Matrix.mul_smul, trace_smul, hV, mul_vecMulVec, hQ, trace_vecMulVec, neg_dotProduct, ← hpe]
    simp only [smul_eq_mul]; field_simp; ring
  linarith

theorem orth_weighted_le {Q : Matrix (Fin d) (Fin d) ℝ} (h : Qᵀ * Q = 1) (s : Fin d → ℝ) (hs : ∀ i, 0 ≤ s i) :
    ∑ i, s i * Q i i ≤ ∑ i, s i := by
  refine Finset.sum_le_sum fun i _ => ?_
  have := mul_le_mul_of_nonneg_left (orth_entry_le h i i) (hs i)
  linarith

theorem orth_weighted_neg {Q : Matrix (Fin d) (Fin d) ℝ} (h : Qᵀ * Q = 1) (hd : Q.det = -1) (s : Fin d → ℝ) (k : Fin d)
    (h0 : 0 ≤ s k) (hk : ∀ i, s k ≤ s i) : ∑ i, s i * Q i i ≤ ∑ i, s i - 2 * s k := by
  have h1 : ∑ i, (s i - s k) * Q i i ≤ ∑ i, (s i - s k) := orth_weighted_le h _ fun i => sub_nonneg.2 (hk i)
  have h2 := mul_le_mul_of_nonneg_left (orth_trace_neg h hd) h0
  simp only [sub_mul, Finset.sum_sub_distrib, ← Finset.mul_sum, Finset.sum_const, Finset.card_univ, Fintype.card_fin, nsmul_eq_mul] at h1
  change s k * ∑ i, Q i i ≤ _ at h2
  linarith

end Electrode
