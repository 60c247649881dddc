import Verif.Model.Transform
import Mathlib.LinearAlgebra.Matrix.Adjugate
import Mathlib.LinearAlgebra.Matrix.NonsingularInverse
import Mathlib.Tactic.FinCases
import Mathlib.Tactic.LinearCombination

/-
Rotation matrices: relations between the nine entries, relabelling of the axes, and `atan2`.
-/
namespace Electrode

namespace Spec
/-- a proper rotation -/
def IsRotation (R : Matrix (Fin 3) (Fin 3) ℝ) : Prop := R * R.transpose = 1 ∧ R.det = 1
end Spec
open Spec

/-- each entry of a rotation matrix is its cofactor -/
theorem rot_adjugate {R : Matrix (Fin 3) (Fin 3) ℝ} (h : IsRotation R) : R.adjugate = R.transpose := by
  have h1 : R.adjugate * R = 1 := by rw [Matrix.adjugate_mul, h.2, one_smul]
  calc R.adjugate = R.adjugate * (R * R.transpose) := by rw [h.1, mul_one]
    _ = R.transpose := by rw [← mul_assoc, h1, one_mul]

theorem rot_cofactors {R : Matrix (Fin 3) (Fin 3) ℝ} (h : IsRotation R) :
    (R 0 0 = R 1 1 * R 2 2 - R 1 2 * R 2 1 ∧ R 0 1 = R 1 2 * R 2 0 - R 1 0 * R 2 2 ∧ R 0 2 = R 1 0 * R 2 1 - R 1 1 * R 2 0) ∧
    (R 1 0 = R 0 2 * R 2 1 - R 0 1 * R 2 2 ∧ R 1 1 = R 0 0 * R 2 2 - R 0 2 * R 2 0 ∧ R 1 2 = R 0 1 * R 2 0 - R 0 0 * R 2 1) ∧
    (R 2 0 = R 0 1 * R 1 2 - R 0 2 * R 1 1 ∧ R 2 1 = R 0 2 * R 1 0 - R 0 0 * R 1 2 ∧ R 2 2 = R 0 0 * R 1 1 - R 0 1 * R 1 0) := by
  have e := rot_adjugate h
  rw [Matrix.adjugate_fin_three] at e
  have g : ∀ a b, _ := fun a b => congrFun (congrFun e a) b
  have h00 := g 0 0
  have h01 := g 0 1
  have h02 := g 0 2
  have h10 := g 1 0
  have h11 := g 1 1
  have h12 := g 1 2
  have h20 := g 2 0
  have h21 := g 2 1
  have h22 := g 2 2
  simp [Matrix.transpose_apply] at h00 h01 h02 h10 h11 h12 h20 h21 h22
  refine ⟨⟨?_, ?_, ?_⟩, ⟨?_, ?_, ?_⟩, ?_, ?_, ?_⟩ <;> linarith

theorem rot_rows {R : Matrix (Fin 3) (Fin 3) ℝ} (h : IsRotation R) (a b : Fin 3) :
    R a 0 * R b 0 + R a 1 * R b 1 + R a 2 * R b 2 = if a = b then 1 else 0 := by
  have := congrFun (congrFun h.1 a) b
  rw [Matrix.mul_apply, Fin.sum_univ_three, Matrix.one_apply] at this
  simpa [Matrix.transpose_apply] using this

theorem rot_cols {R : Matrix (Fin 3) (Fin 3) ℝ} (h : IsRotation R) (a b : Fin 3) :
    R 0 a * R 0 b + R 1 a * R 1 b + R 2 a * R 2 b = if a = b then 1 else 0 := by
  have h' : R.transpose * R = 1 := mul_eq_one_comm.1 h.1
  have := congrFun (congrFun h' a) b
  rw [Matrix.mul_apply, Fin.sum_univ_three, Matrix.one_apply] at this
  simpa [Matrix.transpose_apply] using this

theorem isRotation_mul {R S : Matrix (Fin 3) (Fin 3) ℝ} (hR : IsRotation R) (hS : IsRotation S) : IsRotation (R * S) := by
  constructor
  · rw [Matrix.transpose_mul, mul_assoc, ← mul_assoc S, hS.1, one_mul, hR.1]
  · rw [Matrix.det_mul, hR.2, hS.2, one_mul]

theorem isRotation_relabel {R : Matrix (Fin 3) (Fin 3) ℝ} (h : IsRotation R) (σ : Fin 3 ≃ Fin 3) : IsRotation (R.submatrix σ σ) := by
  constructor
  · rw [Matrix.transpose_submatrix, Matrix.submatrix_mul_equiv, h.1, Matrix.submatrix_one_equiv]
  · rw [Matrix.det_submatrix_equiv_self, h.2]

/-! ### atan2 -/

theorem cos_atan2 (y x : ℝ) (h : 0 < √(x ^ 2 + y ^ 2)) : Real.cos (atan2 y x) = x / √(x ^ 2 + y ^ 2) := by
  unfold atan2
  have hne : (⟨x, y⟩ : ℂ) ≠ 0 := by
    intro e
    have h1 := congrArg Complex.re e
    have h2 := congrArg Complex.im e
    simp only [Complex.zero_re, Complex.zero_im] at h1 h2
    rw [h1, h2] at h
    simp at h
  rw [Complex.cos_arg hne]
  simp only [Complex.norm_def, Complex.normSq_mk, pow_two]

theorem sin_atan2 (y x : ℝ) : Real.sin (atan2 y x) = y / √(x ^ 2 + y ^ 2) := by
  unfold atan2
  rw [Complex.sin_arg]
  simp only [Complex.norm_def, Complex.normSq_mk, pow_two]

end Electrode
