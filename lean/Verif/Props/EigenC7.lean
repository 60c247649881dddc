import Verif.Props.EigenC2

/-
C112: the interval in which the search for the largest eigenvalue starts.
-/
namespace Electrode
open Spec Matrix

/-- **C112**: the interval in which the search starts contains all eigenvalues, not only the largest. -/
theorem c112_interval (T : Tri4) (l : ℝ) (v : Fin 4 → ℝ) (hv : v ≠ 0) (he : triMat T *ᵥ v = l • v) : gershLower T ≤ l ∧ l ≤ gershUpper T := by
  have hp := dot_self_pos hv
  have e : qform (triMat T) v = l * (v ⬝ᵥ v) := by rw [qform, he, dotProduct_smul, smul_eq_mul]
  constructor
  · have u0 : gershLower T ≤ T.a0 - |T.b0| := (min_le_left _ _).trans ((min_le_left _ _).trans (min_le_left _ _))
    have u1 : gershLower T ≤ T.a1 - |T.b0| - |T.b1| := (min_le_left _ _).trans ((min_le_left _ _).trans (min_le_right _ _))
    have u2 : gershLower T ≤ T.a2 - |T.b2| - |T.b1| := (min_le_left _ _).trans (min_le_right _ _)
    have u3 : gershLower T ≤ T.a3 - |T.b2| := min_le_right _ _
    have hq : gershLower T * (v ⬝ᵥ v) ≤ qform (triMat T) v := by
      have c0 := cross_le (-T.b0) (v 0) (v 1)
      have c1 := cross_le (-T.b1) (v 1) (v 2)
      have c2 := cross_le (-T.b2) (v 2) (v 3)
      rw [abs_neg] at c0 c1 c2
      rw [qform_tri, dot_four]
      nlinarith [mul_le_mul_of_nonneg_right u0 (sq_nonneg (v 0)), mul_le_mul_of_nonneg_right u1 (sq_nonneg (v 1)),
        mul_le_mul_of_nonneg_right u2 (sq_nonneg (v 2)), mul_le_mul_of_nonneg_right u3 (sq_nonneg (v 3))]
    rw [e] at hq
    exact le_of_mul_le_mul_right hq hp
  · obtain ⟨m, hm⟩ := exists_top (triMat_symm T)
    exact (hm.2 l v hv he).trans (gersh_top hm).2

/-- **C112**: the interval is no larger than needed: for diagonal matrices its ends are eigenvalues. -/
theorem c112_interval_sharp (a b c d : ℝ) :
    (∃ v : Fin 4 → ℝ, v ≠ 0 ∧ triMat ⟨a, b, c, d, 0, 0, 0⟩ *ᵥ v = gershLower ⟨a, b, c, d, 0, 0, 0⟩ • v) ∧
    ∃ v : Fin 4 → ℝ, v ≠ 0 ∧ triMat ⟨a, b, c, d, 0, 0, 0⟩ *ᵥ v = gershUpper ⟨a, b, c, d, 0, 0, 0⟩ • v := by
  have key : ∀ m : ℝ, m = a ∨ m = b ∨ m = c ∨ m = d → ∃ v : Fin 4 → ℝ, v ≠ 0 ∧ triMat ⟨a, b, c, d, 0, 0, 0⟩ *ᵥ v = m • v := by
    rintro m (rfl | rfl | rfl | rfl)
    · exact ⟨![1, 0, 0, 0], fun h => by simpa using congrFun h 0, by ext i; fin_cases i <;> simp [triMat, mulVec, dotProduct, Fin.sum_univ_four]⟩
    · exact ⟨![0, 1, 0, 0], fun h => by simpa using congrFun h 1, by ext i; fin_cases i <;> simp [triMat, mulVec, dotProduct, Fin.sum_univ_four]⟩
    · exact ⟨![0, 0, 1, 0], fun h => by simpa using congrFun h 2, by ext i; fin_cases i <;> simp [triMat, mulVec, dotProduct, Fin.sum_univ_four]⟩
    · exact ⟨![0, 0, 0, 1], fun h => by simpa using congrFun h 3, by ext i; fin_cases i <;> simp [triMat, mulVec, dotProduct, Fin.sum_univ_four]⟩
  constructor
  · refine key _ ?_
    simp only [gershLower, abs_zero, sub_zero]
    rcases min_choice (min (min a b) c) d with h | h <;> rw [h]
    · rcases min_choice (min a b) c with h | h <;> rw [h]
      · rcases min_choice a b with h | h <;> rw [h] <;> simp
      · simp
    · simp
  · refine key _ ?_
    simp only [gershUpper, abs_zero, add_zero]
    rcases max_choice (max (max a b) c) d with h | h <;> rw [h]
    · rcases max_choice (max a b) c with h | h <;> rw [h]
      · rcases max_choice a b with h | h <;> rw [h] <;> simp
      · simp
    · simp

/-- a matrix with an eigenvalue below its diagonal: `-1` -/
example : gershLower ⟨0, 0, 0, 0, 0, 0, 1⟩ ≤ -1 :=
  (c112_interval ⟨0, 0, 0, 0, 0, 0, 1⟩ (-1) ![0, 0, 1, -1] (fun h => by simpa using congrFun h 2)
    (by ext i; fin_cases i <;> simp [triMat, mulVec, dotProduct, Fin.sum_univ_four])).1

end Electrode
