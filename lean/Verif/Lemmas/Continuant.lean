import Mathlib.Analysis.Complex.LocallyUniformLimit
import Mathlib.Analysis.SpecialFunctions.Exp
import Mathlib.LinearAlgebra.Matrix.Determinant.Basic
import Mathlib.Tactic.LinearCombination

/-!
Continuants: the determinants of tridiagonal matrices with a diagonal of ones, and their limit for infinite matrices.
Used for the determinant of `Mathieu.nu_exp_det`.
-/

open Filter Topology

namespace Electrode

section ring

variable {R : Type*} [CommRing R]

/-- the determinant of the first `n` rows and columns of a tridiagonal matrix with ones on the diagonal, where `b j` is the product of the
two entries next to the diagonal in the rows `j` and `j + 1` -/
def contP (b : ℕ → R) : ℕ → R
  | 0 => 1
  | 1 => 1
  | n + 2 => contP b (n + 1) - b n * contP b n

/-- a sequence without its first members -/
def shiftS (k : ℕ) (b : ℕ → R) : ℕ → R := fun j => b (k + j)

theorem contP_congr {b c : ℕ → R} : ∀ n, (∀ j, j + 2 ≤ n → b j = c j) → contP b n = contP c n := by
  intro n
  induction n using Nat.twoStepInduction with
  | zero => intro _; rfl
  | one => intro _; rfl
  | more n h1 h2 =>
    intro h
    rw [contP, contP, h1 fun j hj => h j (by omega), h2 fun j hj => h j (by omega), h n le_rfl]

theorem contP_front (b : ℕ → R) (n : ℕ) : contP b (n + 2) = contP (shiftS 1 b) (n + 1) - b 0 * contP (shiftS 2 b) n := by
  induction n using Nat.twoStepInduction with
  | zero => simp [contP]
  | one => simp [contP, shiftS]; ring
  | more n h1 h2 =>
    have a1 : contP (shiftS 1 b) (n + 2 + 1) = contP (shiftS 1 b) (n + 1 + 1) - shiftS 1 b (n + 1) * contP (shiftS 1 b) (n + 1) := rfl
    have a2 : contP (shiftS 2 b) (n + 2) = contP (shiftS 2 b) (n + 1) - shiftS 2 b n * contP (shiftS 2 b) n := rfl
    have a3 : shiftS 1 b (n + 1) = b (n + 2) := congrArg b (by ring)
    have a4 : shiftS 2 b n = b (n + 2) := congrArg b (by ring)
    have a5 : contP b (n + 2 + 2) = contP b (n + 1 + 2) - b (n + 2) * contP b (n + 2) := rfl
    rw [a5, h2, h1, a1, a2, a3, a4]
    ring

theorem contP_split (b : ℕ → R) (m N : ℕ) :
    contP b (m + 1 + (N + 1)) = contP b (m + 1) * contP (shiftS (m + 1) b) (N + 1) - b m * contP b m * contP (shiftS (m + 2) b) N := by
  induction N using Nat.twoStepInduction with
  | zero => simp [contP]
  | one =>
    simp [contP, shiftS]
    ring
  | more n h1 h2 =>
    have a1 : contP (shiftS (m + 1) b) (n + 2 + 1) =
      contP (shiftS (m + 1) b) (n + 1 + 1) - shiftS (m + 1) b (n + 1) * contP (shiftS (m + 1) b) (n + 1) := rfl
    have a2 : contP (shiftS (m + 2) b) (n + 2) = contP (shiftS (m + 2) b) (n + 1) - shiftS (m + 2) b n * contP (shiftS (m + 2) b) n := rfl
    have a3 : shiftS (m + 1) b (n + 1) = b (m + 2 + n) := congrArg b (by ring)
    have a4 : shiftS (m + 2) b n = b (m + 2 + n) := rfl
    have a5 : contP b (m + 1 + (n + 2 + 1)) = contP b (m + 1 + (n + 1 + 1)) - b (m + 2 + n) * contP b (m + 1 + (n + 1)) := by
      rw [show m + 2 + n = m + 1 + (n + 1) by ring]
      rfl
    rw [a5, h2, h1, a1, a2, a3, a4]
    ring

theorem contP_rev : ∀ (n : ℕ) (b c : ℕ → R), (∀ i j, i + j + 2 = n → b i = c j) → contP b n = contP c n := by
  intro n
  induction n using Nat.twoStepInduction with
  | zero => intros; rfl
  | one => intros; rfl
  | more n h1 h2 =>
    intro b c h
    rw [contP_front c, contP, h n 0 (by omega), h2 b (shiftS 1 c) fun i j hij => h i (1 + j) (by omega),
      h1 b (shiftS 2 c) fun i j hij => h i (2 + j) (by omega)]

/-- a tridiagonal matrix with ones on the diagonal -/
def triMat (l u : ℕ → R) (n : ℕ) : Matrix (Fin n) (Fin n) R := fun i j =>
  if i.val = j.val then 1 else if j.val = i.val + 1 then u i.val else if i.val = j.val + 1 then l j.val else 0

theorem triMat_det (l u : ℕ → R) (n : ℕ) : (triMat l u n).det = contP (fun j => u j * l j) n := by
  induction n using Nat.twoStepInduction generalizing l u with
  | zero => simp [contP]
  | one => simp [contP, triMat]
  | more n h1 h2 =>
    rw [contP_front, Matrix.det_succ_row_zero, Fin.sum_univ_succ, Fin.sum_univ_succ]
    have e0 : (triMat l u (n + 2)).submatrix Fin.succ (Fin.succAbove 0) = triMat (shiftS 1 l) (shiftS 1 u) (n + 1) := by
      ext i j
      simp only [triMat, shiftS, Matrix.submatrix_apply, Fin.succAbove_zero, Fin.val_succ, add_left_inj, add_comm 1]
    have e1 : ((triMat l u (n + 2)).submatrix Fin.succ (Fin.succAbove (Fin.succ 0))).det = l 0 * (triMat (shiftS 2 l) (shiftS 2 u) n).det := by
      rw [Matrix.det_succ_column_zero, Fin.sum_univ_succ]
      have : ((triMat l u (n + 2)).submatrix Fin.succ (Fin.succAbove (Fin.succ 0))).submatrix (Fin.succAbove 0) Fin.succ =
          triMat (shiftS 2 l) (shiftS 2 u) n := by
        ext i j
        have hj : ((Fin.succAbove (Fin.succ 0) (Fin.succ j) : Fin (n + 2)) : ℕ) = j.val + 2 := by
          rw [Fin.succ_succAbove_succ, Fin.succAbove_zero]
          rfl
        simp only [triMat, shiftS, Matrix.submatrix_apply, Fin.succAbove_zero, Fin.val_succ, hj, add_comm 2, add_assoc, Nat.reduceAdd, add_left_inj]
      rw [this]
      simp [triMat, Fin.succAbove]
    rw [e0, e1, h1, h2]
    have a1 : (fun j => shiftS 1 u j * shiftS 1 l j) = shiftS 1 fun j => u j * l j := rfl
    have a2 : (fun j => shiftS 2 u j * shiftS 2 l j) = shiftS 2 fun j => u j * l j := rfl
    rw [a1, a2]
    simp [triMat]
    ring

end ring

theorem shiftS_summable {b : ℕ → ℂ} (h : Summable fun j => ‖b j‖) (k : ℕ) : Summable fun j => ‖shiftS k b j‖ :=
  ((summable_nat_add_iff k).2 h).congr fun j => by rw [shiftS, add_comm]

theorem contP_bound (b : ℕ → ℂ) (n : ℕ) : ‖contP b n‖ ≤ Real.exp (∑ j ∈ Finset.range n, ‖b j‖) ∧
    ‖contP b (n + 1)‖ ≤ Real.exp (∑ j ∈ Finset.range n, ‖b j‖) := by
  induction n with
  | zero => simp [contP]
  | succ n ih =>
    obtain ⟨h1, h2⟩ := ih
    have h0 := norm_nonneg (b n)
    have h3 := Real.add_one_le_exp ‖b n‖
    have hE := Real.exp_pos (∑ j ∈ Finset.range n, ‖b j‖)
    rw [Finset.sum_range_succ, Real.exp_add]
    refine ⟨?_, ?_⟩
    · nlinarith
    · rw [contP]
      refine (norm_sub_le _ _).trans ?_
      rw [norm_mul]
      nlinarith [norm_nonneg (contP b n)]

theorem contP_le {b : ℕ → ℂ} {u : ℕ → ℝ} (hu : Summable u) (h : ∀ j, ‖b j‖ ≤ u j) (n : ℕ) : ‖contP b n‖ ≤ Real.exp (∑' j, u j) :=
  (contP_bound b n).1.trans (Real.exp_le_exp.2 ((Finset.sum_le_sum fun j _ => h j).trans
    (hu.sum_le_tsum _ fun j _ => (norm_nonneg _).trans (h j))))

/-- the determinant of an infinite tridiagonal matrix -/
noncomputable def contL (b : ℕ → ℂ) : ℂ := 1 + ∑' j, -(b j * contP b j)

theorem contP_sum (b : ℕ → ℂ) (n : ℕ) : 1 + ∑ j ∈ Finset.range n, -(b j * contP b j) = contP b (n + 1) := by
  induction n with
  | zero => simp [contP]
  | succ n ih => rw [Finset.sum_range_succ, ← add_assoc, ih, contP]; ring

theorem contP_term {b : ℕ → ℂ} {u : ℕ → ℝ} (hu : Summable u) (h : ∀ j, ‖b j‖ ≤ u j) (j : ℕ) :
    ‖-(b j * contP b j)‖ ≤ u j * Real.exp (∑' j, u j) := by
  rw [norm_neg, norm_mul]
  exact mul_le_mul (h j) (contP_le hu h j) (norm_nonneg _) ((norm_nonneg _).trans (h j))

theorem contL_tendsto {b : ℕ → ℂ} (h : Summable fun j => ‖b j‖) : Tendsto (contP b) atTop (𝓝 (contL b)) := by
  rw [← tendsto_add_atTop_iff_nat 1]
  have hs : Summable fun j => -(b j * contP b j) :=
    Summable.of_norm_bounded (h.mul_right _) (contP_term h fun j => le_rfl)
  refine (hs.hasSum.tendsto_sum_nat.const_add 1).congr fun n => contP_sum b n

theorem contL_front {b : ℕ → ℂ} (h : Summable fun j => ‖b j‖) : contL b = contL (shiftS 1 b) - b 0 * contL (shiftS 2 b) := by
  have h1 := ((tendsto_add_atTop_iff_nat 2).2 (contL_tendsto h)).congr (contP_front b)
  have h2 := ((tendsto_add_atTop_iff_nat 1).2 (contL_tendsto (shiftS_summable h 1))).sub
    ((contL_tendsto (shiftS_summable h 2)).const_mul (b 0))
  exact tendsto_nhds_unique h1 h2

theorem contL_near {b : ℕ → ℂ} {u : ℕ → ℝ} (hu : Summable u) (h : ∀ j, ‖b j‖ ≤ u j) :
    ‖contL b - 1‖ ≤ (∑' j, u j) * Real.exp (∑' j, u j) := by
  rw [contL, add_sub_cancel_left, ← tsum_mul_right]
  exact tsum_of_norm_bounded (hu.mul_right _).hasSum (contP_term hu h)

theorem contP_differentiable {U : Set ℂ} {b : ℂ → ℕ → ℂ} (hb : ∀ j, DifferentiableOn ℂ (fun w => b w j) U) (n : ℕ) :
    DifferentiableOn ℂ (fun w => contP (b w) n) U := by
  induction n using Nat.twoStepInduction with
  | zero => exact differentiableOn_const _
  | one => exact differentiableOn_const _
  | more n h1 h2 => exact h2.sub ((hb n).mul h1)

theorem contL_differentiable {U : Set ℂ} (hU : IsOpen U) {b : ℂ → ℕ → ℂ} (hb : ∀ j, DifferentiableOn ℂ (fun w => b w j) U) {u : ℕ → ℝ}
    (hu : Summable u) (h : ∀ w ∈ U, ∀ j, ‖b w j‖ ≤ u j) : DifferentiableOn ℂ (fun w => contL (b w)) U :=
  (differentiableOn_const _).add (Complex.differentiableOn_tsum_of_summable_norm (hu.mul_right (Real.exp (∑' j, u j)))
    (fun j => ((hb j).mul (contP_differentiable hb j)).neg) hU fun j w hw => contP_term hu (h w hw) j)

theorem contP_continuous {U : Set ℝ} {b : ℝ → ℕ → ℂ} (hb : ∀ j, ContinuousOn (fun w => b w j) U) (n : ℕ) :
    ContinuousOn (fun w => contP (b w) n) U := by
  induction n using Nat.twoStepInduction with
  | zero => exact continuousOn_const
  | one => exact continuousOn_const
  | more n h1 h2 => exact h2.sub ((hb n).mul h1)

theorem contL_continuous {U : Set ℝ} {b : ℝ → ℕ → ℂ} (hb : ∀ j, ContinuousOn (fun w => b w j) U) {u : ℕ → ℝ}
    (hu : Summable u) (h : ∀ w ∈ U, ∀ j, ‖b w j‖ ≤ u j) : ContinuousOn (fun w => contL (b w)) U :=
  continuousOn_const.add (continuousOn_tsum (fun j => ((hb j).mul (contP_continuous hb j)).neg)
    (hu.mul_right (Real.exp (∑' j, u j))) fun j w hw => contP_term hu (h w hw) j)

end Electrode
