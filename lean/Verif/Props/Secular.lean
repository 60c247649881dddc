import Verif.Props.FloquetMotion
import Verif.Props.ModeShift
import Verif.Spec.Secular
import Mathlib.Analysis.InnerProductSpace.PiL2
import Mathlib.Tactic.Module

/-
C141: for weak drives the modes of `mathieu` are those of the pseudopotential.
-/
namespace Electrode
open Spec Set

namespace Secul

section
variable {E : Type*} [NormedAddCommGroup E] [NormedSpace ℂ E] {G0 G1 : E →ₗ[ℂ] E} {α ε : ℝ} {r : Nat} {ν : ℂ} {c : ℤ → E}

/-- a solution of the truncated recurrence -/
structure Sol (G0 G1 : E →ₗ[ℂ] E) (α ε : ℝ) (r : Nat) (ν : ℂ) (c : ℤ → E) : Prop where
  g0 : ∀ y, ‖G0 y‖ ≤ α * ‖y‖
  g1 : ∀ y, ‖G1 y‖ ≤ ε / 2 * ‖y‖
  α0 : 0 ≤ α
  ε0 : 0 ≤ ε
  α1 : α ≤ 1 / 16
  ε1 : ε ≤ 1 / 16
  out : ∀ h : ℤ, (r : ℤ) < |h| → c h = 0
  step : ∀ h : ℤ, |h| ≤ r → (ν + Complex.I * h) ^ 2 • c h + G0 (c h) + G1 (c (h + 1) + c (h - 1)) = 0
  r1 : 1 ≤ r
  ne : ∃ h, c h ≠ 0
  ν1 : ‖ν‖ ≤ 1 / 2

theorem Sol.size (s : Sol G0 G1 α ε r ν c) (h : ℤ) (hh : |h| ≤ r) :
    (|(h : ℝ)| - ‖ν‖) * |(|(h : ℝ)| - ‖ν‖)| * ‖c h‖ ≤ α * ‖c h‖ + ε / 2 * (‖c (h + 1)‖ + ‖c (h - 1)‖) := by
  have h1 : |(h : ℝ)| - ‖ν‖ ≤ ‖ν + Complex.I * h‖ := by
    have := norm_sub_norm_le (Complex.I * h) (-ν)
    rwa [norm_neg, norm_mul, Complex.norm_I, one_mul, Complex.norm_intCast, sub_neg_eq_add, add_comm (Complex.I * _)] at this
  have h2 : (|(h : ℝ)| - ‖ν‖) * |(|(h : ℝ)| - ‖ν‖)| ≤ ‖ν + Complex.I * h‖ ^ 2 := by
    rcases le_total 0 (|(h : ℝ)| - ‖ν‖) with h3 | h3
    · rw [abs_of_nonneg h3]; nlinarith
    · nlinarith [mul_nonneg_of_nonpos_of_nonpos h3 (neg_nonpos.2 (abs_nonneg (|(h : ℝ)| - ‖ν‖))), sq_nonneg ‖ν + Complex.I * h‖]
  have h3 : (ν + Complex.I * h) ^ 2 • c h = -(G0 (c h) + G1 (c (h + 1) + c (h - 1))) := by
    have := s.step h hh
    rw [add_assoc] at this
    exact eq_neg_of_add_eq_zero_left this
  calc (|(h : ℝ)| - ‖ν‖) * |(|(h : ℝ)| - ‖ν‖)| * ‖c h‖ ≤ ‖ν + Complex.I * h‖ ^ 2 * ‖c h‖ := mul_le_mul_of_nonneg_right h2 (norm_nonneg _)
    _ = ‖(ν + Complex.I * h) ^ 2 • c h‖ := by rw [norm_smul, norm_pow]
    _ ≤ ‖G0 (c h)‖ + ‖G1 (c (h + 1) + c (h - 1))‖ := by rw [h3, norm_neg]; exact norm_add_le _ _
    _ ≤ _ := add_le_add (s.g0 _) ((s.g1 _).trans (mul_le_mul_of_nonneg_left (norm_add_le _ _) (by linarith [s.ε0])))

/-- the other harmonics are small -/
theorem Sol.away (s : Sol G0 G1 α ε r ν c) : (∀ h : ℤ, h ≠ 0 → ‖c h‖ ≤ 4 * ε * ‖c 0‖) ∧ 0 < ‖c 0‖ := by
  have hr := s.r1
  have hα := s.α1
  have hε := s.ε1
  have hε0 := s.ε0
  have hν := s.ν1
  obtain ⟨k, hk, hmax⟩ := Finset.exists_max_image ((Finset.Icc (-(r : ℤ)) r).erase 0) (fun h => ‖c h‖) ⟨1, by
    rw [Finset.mem_erase, Finset.mem_Icc]; omega⟩
  rw [Finset.mem_erase, Finset.mem_Icc] at hk
  have hall : ∀ h : ℤ, h ≠ 0 → ‖c h‖ ≤ ‖c k‖ := fun h hh => by
    by_cases hr : |h| ≤ r
    · exact hmax h (by rw [Finset.mem_erase, Finset.mem_Icc]; exact ⟨hh, abs_le.1 hr⟩)
    · rw [s.out h (not_le.1 hr), norm_zero]; exact norm_nonneg _
  have h1 := s.size k (abs_le.2 hk.2)
  have hk1 : (1 : ℝ) ≤ |(k : ℝ)| := by
    have := Int.one_le_abs hk.1
    exact_mod_cast this
  rw [abs_of_nonneg (by linarith : 0 ≤ |(k : ℝ)| - ‖ν‖)] at h1
  have h2 : ‖c (k + 1)‖ + ‖c (k - 1)‖ ≤ 2 * ‖c k‖ + ‖c 0‖ := by
    by_cases h : k + 1 = 0
    · rw [h]
      linarith [hall (k - 1) (by omega), norm_nonneg (c k)]
    · by_cases h' : k - 1 = 0
      · rw [h']
        linarith [hall (k + 1) h, norm_nonneg (c k)]
      · linarith [hall (k + 1) h, hall (k - 1) h', norm_nonneg (c 0)]
  have h3 : 1 / 4 * ‖c k‖ ≤ α * ‖c k‖ + ε / 2 * (2 * ‖c k‖ + ‖c 0‖) := by
    have e1 : 1 / 4 * ‖c k‖ ≤ (|(k : ℝ)| - ‖ν‖) * (|(k : ℝ)| - ‖ν‖) * ‖c k‖ := mul_le_mul_of_nonneg_right (by nlinarith) (norm_nonneg _)
    have e2 := mul_le_mul_of_nonneg_left h2 (by linarith : 0 ≤ ε / 2)
    linarith
  have h4 : ‖c k‖ ≤ 4 * ε * ‖c 0‖ := by nlinarith [norm_nonneg (c k)]
  refine ⟨fun h hh => (hall h hh).trans h4, ?_⟩
  by_contra h0
  have h0 : ‖c 0‖ = 0 := le_antisymm (not_lt.1 h0) (norm_nonneg _)
  rw [h0, mul_zero] at h4
  obtain ⟨h, hne⟩ := s.ne
  refine hne ?_
  rw [← norm_eq_zero]
  by_cases hh : h = 0
  · rw [hh, h0]
  · exact le_antisymm ((hall h hh).trans h4) (norm_nonneg _)

/-- the second harmonics -/
theorem Sol.second (s : Sol G0 G1 α ε r ν c) (h : ℤ) (hh : |h| = 2) : ‖c h‖ ≤ 2 * ε ^ 2 * ‖c 0‖ := by
  have hα := s.α1
  have hε0 := s.ε0
  have hν := s.ν1
  obtain ⟨hM, h0⟩ := s.away
  by_cases hr : |h| ≤ r
  · have h1 := s.size h hr
    have e : |(h : ℝ)| = 2 := by exact_mod_cast hh
    rw [e, abs_of_nonneg (by linarith : 0 ≤ 2 - ‖ν‖)] at h1
    have hne : h + 1 ≠ 0 ∧ h - 1 ≠ 0 := by
      rcases (abs_eq (by norm_num)).1 hh with rfl | rfl <;> norm_num
    have h2 := hM _ hne.1
    have h3 := hM _ hne.2
    have e1 : 9 / 4 * ‖c h‖ ≤ (2 - ‖ν‖) * (2 - ‖ν‖) * ‖c h‖ := mul_le_mul_of_nonneg_right (by nlinarith) (norm_nonneg _)
    have e2 := mul_le_mul_of_nonneg_left (add_le_add h2 h3) (by linarith : 0 ≤ ε / 2)
    have e3 : α * ‖c h‖ ≤ 1 / 16 * ‖c h‖ := mul_le_mul_of_nonneg_right hα (norm_nonneg _)
    nlinarith [norm_nonneg (c h)]
  · rw [s.out h (not_le.1 hr), norm_zero]
    positivity

/-- the exponent -/
theorem Sol.slow (s : Sol G0 G1 α ε r ν c) : ‖ν‖ ^ 2 ≤ α + 4 * ε ^ 2 := by
  obtain ⟨hM, h0⟩ := s.away
  have hε0 := s.ε0
  have h1 := s.step 0 (by simp)
  have h2 : ν ^ 2 • c 0 = -(G0 (c 0) + G1 (c (0 + 1) + c (0 - 1))) := by
    rw [add_assoc] at h1
    simpa using eq_neg_of_add_eq_zero_left h1
  have h3 : ‖ν‖ ^ 2 * ‖c 0‖ ≤ α * ‖c 0‖ + ε / 2 * (4 * ε * ‖c 0‖ + 4 * ε * ‖c 0‖) := by
    rw [← norm_pow, ← norm_smul, h2, norm_neg]
    refine (norm_add_le _ _).trans (add_le_add (s.g0 _) ((s.g1 _).trans (mul_le_mul_of_nonneg_left ((norm_add_le _ _).trans ?_) (by linarith))))
    exact add_le_add (hM _ (by norm_num)) (hM _ (by norm_num))
  have h4 : ‖ν‖ ^ 2 * ‖c 0‖ ≤ (α + 4 * ε ^ 2) * ‖c 0‖ := by linarith
  exact le_of_mul_le_mul_right h4 h0

theorem Sol.plus (s : Sol G0 G1 α ε r ν c) : c 1 = G1 (c 0) + (ν ^ 2 + 2 * Complex.I * ν) • c 1 + G0 (c 1) + G1 (c 2) := by
  have h1 := s.step 1 (by simpa using s.r1)
  rw [show (ν + Complex.I * ((1 : ℤ) : ℂ)) ^ 2 = ν ^ 2 + 2 * Complex.I * ν - 1 by push_cast; linear_combination Complex.I_sq, show (1 : ℤ) + 1 = 2 from rfl,
    show (1 : ℤ) - 1 = 0 from rfl, map_add, sub_smul, one_smul] at h1
  linear_combination (norm := module) -h1

theorem Sol.minus (s : Sol G0 G1 α ε r ν c) : c (-1) = G1 (c 0) + (ν ^ 2 - 2 * Complex.I * ν) • c (-1) + G0 (c (-1)) + G1 (c (-2)) := by
  have h1 := s.step (-1) (by simpa using s.r1)
  rw [show (ν + Complex.I * ((-1 : ℤ) : ℂ)) ^ 2 = ν ^ 2 - 2 * Complex.I * ν - 1 by push_cast; linear_combination Complex.I_sq, show (-1 : ℤ) + 1 = 0 from rfl,
    show (-1 : ℤ) - 1 = -2 from rfl, map_add, sub_smul, one_smul] at h1
  linear_combination (norm := module) -h1

/-- the first harmonics are the micromotion -/
theorem Sol.micro (s : Sol G0 G1 α ε r ν c) (h : ℤ) (hh : |h| = 1) : ‖c h - G1 (c 0)‖ ≤ 4 * ε * (3 * ‖ν‖ + α + ε ^ 2) * ‖c 0‖ := by
  obtain ⟨hM, h0⟩ := s.away
  have hε0 := s.ε0
  have hν := s.ν1
  have hα0 := s.α0
  have key : ∀ (z : ℂ) (x y : E), ‖z‖ ≤ 3 * ‖ν‖ → ‖x‖ ≤ 4 * ε * ‖c 0‖ → ‖y‖ ≤ 2 * ε ^ 2 * ‖c 0‖ → ‖z • x + G0 x + G1 y‖ ≤ 4 * ε * (3 * ‖ν‖ + α + ε ^ 2) * ‖c 0‖ :=
    fun z x y hz hx hy => by
      have e1 : ‖z • x‖ ≤ 3 * ‖ν‖ * (4 * ε * ‖c 0‖) := by rw [norm_smul]; exact mul_le_mul hz hx (norm_nonneg _) (by positivity)
      have e2 := (s.g0 x).trans (mul_le_mul_of_nonneg_left hx hα0)
      have e3 := (s.g1 y).trans (mul_le_mul_of_nonneg_left hy (by linarith : 0 ≤ ε / 2))
      have e4 : 0 ≤ ε ^ 3 * ‖c 0‖ := by positivity
      refine (norm_add₃_le).trans ?_
      nlinarith
  have hz : ∀ z : ℂ, ‖z‖ = 2 * ‖ν‖ → ‖ν ^ 2 + z‖ ≤ 3 * ‖ν‖ := fun z hz => by
    refine (norm_add_le _ _).trans ?_
    rw [norm_pow, hz]
    nlinarith [norm_nonneg ν]
  have hI : ‖2 * Complex.I * ν‖ = 2 * ‖ν‖ := by rw [norm_mul, norm_mul, Complex.norm_I]; norm_num
  rcases (abs_eq (by norm_num)).1 hh with rfl | rfl
  · have e : c 1 - G1 (c 0) = (ν ^ 2 + 2 * Complex.I * ν) • c 1 + G0 (c 1) + G1 (c 2) := by
      nth_rewrite 1 [s.plus]
      abel
    rw [e]
    exact key _ _ _ (hz _ hI) (hM _ (by norm_num)) (s.second _ (by norm_num))
  · have e : c (-1) - G1 (c 0) = (ν ^ 2 - 2 * Complex.I * ν) • c (-1) + G0 (c (-1)) + G1 (c (-2)) := by
      nth_rewrite 1 [s.minus]
      abel
    rw [e, sub_eq_add_neg (ν ^ 2)]
    exact key _ _ _ (hz _ (by rw [norm_neg, hI])) (hM _ (by norm_num)) (s.second _ (by norm_num))

/-- the zeroth harmonic is a mode of the pseudopotential -/
theorem Sol.slowMode (s : Sol G0 G1 α ε r ν c) : ‖ν ^ 2 • c 0 + G0 (c 0) + (2 : ℂ) • G1 (G1 (c 0))‖ ≤ 100 * ε ^ 2 * (α + ε ^ 2) * ‖c 0‖ := by
  obtain ⟨hM, h0⟩ := s.away
  have hε0 := s.ε0
  have hν := s.ν1
  have hα0 := s.α0
  have hsl := s.slow
  set P := c 1 + c (-1) with hP
  set Q := c 1 - c (-1) with hQ
  set S := ‖c 0‖ with hS
  have b1 := hM 1 (by norm_num)
  have bm := hM (-1) (by norm_num)
  have b2 := s.second 2 (by norm_num)
  have bm2 := s.second (-2) (by norm_num)
  have hPn : ‖P‖ ≤ 8 * ε * S := (norm_add_le _ _).trans (by linarith)
  have hQn : ‖Q‖ ≤ 8 * ε * S := (norm_sub_le _ _).trans (by linarith)
  have hp := s.plus
  have hm := s.minus
  have eQ : Q = ν ^ 2 • Q + (2 * Complex.I * ν) • P + G0 Q + G1 (c 2 - c (-2)) := by
    rw [hP, hQ]
    simp only [map_add, map_sub]
    linear_combination (norm := module) hp - hm
  have eP : P - (2 : ℂ) • G1 (c 0) = ν ^ 2 • P + (2 * Complex.I * ν) • Q + G0 P + G1 (c 2 + c (-2)) := by
    rw [hP, hQ]
    simp only [map_add]
    linear_combination (norm := module) hp + hm
  have hI : ‖2 * Complex.I * ν‖ = 2 * ‖ν‖ := by rw [norm_mul, norm_mul, Complex.norm_I]; norm_num
  have four : ∀ a b d e : E, ‖a + b + d + e‖ ≤ ‖a‖ + ‖b‖ + ‖d‖ + ‖e‖ := fun a b d e =>
    (norm_add_le _ _).trans (add_le_add_left norm_add₃_le _)
  have n0 := norm_nonneg ν
  have g2 : ∀ y, ‖y‖ ≤ 4 * ε ^ 2 * S → ‖G1 y‖ ≤ 2 * ε ^ 3 * S := fun y hy => by
    refine (s.g1 y).trans ((mul_le_mul_of_nonneg_left hy (by linarith : 0 ≤ ε / 2)).trans (le_of_eq (by ring)))
  have hQ2 : ‖Q‖ ≤ (16 * ‖ν‖ * ε + 8 * ε * (‖ν‖ ^ 2 + α) + 2 * ε ^ 3) * S := by
    rw [eQ]
    refine (four _ _ _ _).trans ?_
    rw [norm_smul, norm_smul, norm_pow, hI]
    have e1 := mul_le_mul_of_nonneg_left hQn (sq_nonneg ‖ν‖)
    have e2 := mul_le_mul_of_nonneg_left hPn (by linarith : 0 ≤ 2 * ‖ν‖)
    have e3 := (s.g0 Q).trans (mul_le_mul_of_nonneg_left hQn hα0)
    have e4 := g2 (c 2 - c (-2)) ((norm_sub_le _ _).trans (by linarith))
    linarith
  have hP2 : ‖P - (2 : ℂ) • G1 (c 0)‖ ≤ (64 * α * ε + 196 * ε ^ 3) * S := by
    rw [eP]
    refine (four _ _ _ _).trans ?_
    rw [norm_smul, norm_smul, norm_pow, hI]
    have e1 := mul_le_mul_of_nonneg_left hPn (sq_nonneg ‖ν‖)
    have e2 := mul_le_mul_of_nonneg_left hQ2 (by linarith : 0 ≤ 2 * ‖ν‖)
    have e3 := (s.g0 P).trans (mul_le_mul_of_nonneg_left hPn hα0)
    have e4 := g2 (c 2 + c (-2)) ((norm_add_le _ _).trans (by linarith))
    have hS0 : 0 ≤ S := h0.le
    have f1 : 2 * ‖ν‖ * ((16 * ‖ν‖ * ε + 8 * ε * (‖ν‖ ^ 2 + α) + 2 * ε ^ 3) * S) ≤ (32 * ‖ν‖ ^ 2 * ε + (8 * ε * (‖ν‖ ^ 2 + α) + 2 * ε ^ 3)) * S := by
      have : 2 * ‖ν‖ * ((8 * ε * (‖ν‖ ^ 2 + α) + 2 * ε ^ 3) * S) ≤ 1 * ((8 * ε * (‖ν‖ ^ 2 + α) + 2 * ε ^ 3) * S) :=
        mul_le_mul_of_nonneg_right (by linarith) (by positivity)
      linarith
    have f2 : 48 * ‖ν‖ ^ 2 * (ε * S) ≤ 48 * (α + 4 * ε ^ 2) * (ε * S) := mul_le_mul_of_nonneg_right (by linarith) (by positivity)
    linarith
  have h1 := s.step 0 (by simp)
  have e0 : ν ^ 2 • c 0 + G0 (c 0) + (2 : ℂ) • G1 (G1 (c 0)) = -G1 (P - (2 : ℂ) • G1 (c 0)) := by
    rw [show (0 : ℤ) + 1 = 1 from rfl, show (0 : ℤ) - 1 = -1 from rfl, Int.cast_zero, mul_zero, add_zero] at h1
    rw [map_sub, map_smul]
    linear_combination (norm := module) h1
  rw [e0, norm_neg]
  refine (s.g1 _).trans ((mul_le_mul_of_nonneg_left hP2 (by linarith : 0 ≤ ε / 2)).trans ?_)
  have : 0 ≤ ε ^ 2 * α * S := by positivity
  have : 0 ≤ ε ^ 4 * S := by positivity
  linarith

end

/-- complex vectors with their length -/
abbrev V := EuclideanSpace ℂ (Fin 3)

/-- `g` times a real matrix -/
noncomputable def lin (g : ℝ) (A : Fin 3 → Fin 3 → ℝ) : V →ₗ[ℂ] V where
  toFun y := WithLp.toLp 2 fun i => ∑ j, ((g * A i j : ℝ) : ℂ) * y j
  map_add' x y := by
    ext i
    simp only [PiLp.add_apply, mul_add, Finset.sum_add_distrib]
  map_smul' a x := by
    ext i
    simp only [PiLp.smul_apply, smul_eq_mul, RingHom.id_apply, Finset.mul_sum]
    exact Finset.sum_congr rfl fun j _ => by ring

theorem lin_apply (g : ℝ) (A : Fin 3 → Fin 3 → ℝ) (y : V) (i : Fin 3) : lin g A y i = ∑ j, ((g * A i j : ℝ) : ℂ) * y j := rfl

theorem clen_eq (y : V) : ‖y‖ = clen fun i => y i := by rw [EuclideanSpace.norm_eq]; rfl

theorem norm_lin {g : ℝ} (hg : 0 ≤ g) {A : Fin 3 → Fin 3 → ℝ} {B : ℝ} (hB : ∀ i j, |A i j| ≤ B) (y : V) : ‖lin g A y‖ ≤ 3 * g * B * ‖y‖ := by
  have hB0 : 0 ≤ B := (abs_nonneg _).trans (hB 0 0)
  have h1 : ∀ i, ‖lin g A y i‖ ≤ g * B * (‖y 0‖ + ‖y 1‖ + ‖y 2‖) := fun i => by
    rw [lin_apply]
    refine (norm_sum_le _ _).trans ?_
    rw [mul_add, mul_add, ← Fin.sum_univ_three fun j => g * B * ‖y j‖]
    refine Finset.sum_le_sum fun j _ => ?_
    rw [norm_mul, Complex.norm_real, Real.norm_eq_abs, abs_mul, abs_of_nonneg hg]
    exact mul_le_mul_of_nonneg_right (mul_le_mul_of_nonneg_left (hB i j) hg) (norm_nonneg _)
  refine abs_le_of_sq_le_sq' ?_ (by positivity) |>.2
  rw [mul_pow, EuclideanSpace.norm_sq_eq, EuclideanSpace.norm_sq_eq, Fin.sum_univ_three, Fin.sum_univ_three]
  have h2 : ∀ i, ‖lin g A y i‖ ^ 2 ≤ (g * B) ^ 2 * (3 * (‖y 0‖ ^ 2 + ‖y 1‖ ^ 2 + ‖y 2‖ ^ 2)) := fun i => by
    refine (pow_le_pow_left₀ (norm_nonneg _) (h1 i) 2).trans ?_
    rw [mul_pow]
    refine mul_le_mul_of_nonneg_left ?_ (sq_nonneg _)
    nlinarith [sq_nonneg (‖y 0‖ - ‖y 1‖), sq_nonneg (‖y 1‖ - ‖y 2‖), sq_nonneg (‖y 2‖ - ‖y 0‖)]
  have := h2 0
  have := h2 1
  have := h2 2
  nlinarith

open ModeShift in
/-- the component of a complex vector along an eigenvector -/
theorem along_eig {A : Fin 3 → Fin 3 → ℝ} {w : Fin 3 → ℝ} {e : Fin 3 → Fin 3 → ℝ} (h : Eigs A w e) (hA : ∀ i k, A i k = A k i) (z : ℂ) (κ : ℝ) (y : Fin 3 → ℂ) (j : Fin 3) :
    ∑ i, (e j i : ℂ) * (z * y i + κ * ∑ k, (A i k : ℂ) * y k) = (z + κ * w j) * ∑ i, (e j i : ℂ) * y i := by
  have hv : ∀ k, ∑ i, (e j i : ℂ) * (A i k : ℂ) = (w j : ℂ) * e j k := fun k => by
    have := h.vec j k
    simp only [hA k] at this
    rw [← Complex.ofReal_mul, ← this]
    push_cast
    exact Finset.sum_congr rfl fun i _ => mul_comm _ _
  have h0 := hv 0
  have h1 := hv 1
  have h2 := hv 2
  simp only [Fin.sum_univ_three] at h0 h1 h2 ⊢
  linear_combination κ * y 0 * h0 + κ * y 1 * h1 + κ * y 2 * h2

open ModeShift in
theorem parseval {A : Fin 3 → Fin 3 → ℝ} {w : Fin 3 → ℝ} {e : Fin 3 → Fin 3 → ℝ} (h : Eigs A w e) (y : Fin 3 → ℂ) :
    ∑ j, ‖∑ i, (e j i : ℂ) * y i‖ ^ 2 = clen y ^ 2 := by
  have e1 : ∀ z : ℂ, ‖z‖ ^ 2 = z.re * z.re + z.im * z.im := fun z => by rw [Complex.sq_norm, Complex.normSq_apply]
  have e2 : ∀ j, (∑ i, (e j i : ℂ) * y i).re = ip (e j) fun i => (y i).re := fun j => by
    rw [Complex.re_sum]; exact Finset.sum_congr rfl fun i _ => by simp
  have e3 : ∀ j, (∑ i, (e j i : ℂ) * y i).im = ip (e j) fun i => (y i).im := fun j => by
    rw [Complex.im_sum]; exact Finset.sum_congr rfl fun i _ => by simp
  have h1 := h.norm fun i => (y i).re
  have h2 := h.norm fun i => (y i).im
  unfold clen
  rw [Real.sq_sqrt (Finset.sum_nonneg fun _ _ => sq_nonneg _)]
  simp only [e1, e2, e3, Finset.sum_add_distrib, ← sq (ip _ _)]
  rw [← h1, ← h2]
  rfl

open ModeShift in
theorem along_le {A : Fin 3 → Fin 3 → ℝ} {w : Fin 3 → ℝ} {e : Fin 3 → Fin 3 → ℝ} (h : Eigs A w e) (y : Fin 3 → ℂ) (j : Fin 3) : ‖∑ i, (e j i : ℂ) * y i‖ ≤ clen y := by
  have hc : 0 ≤ clen y := Real.sqrt_nonneg _
  refine abs_le_of_sq_le_sq' ?_ hc |>.2
  rw [← parseval h y]
  exact Finset.single_le_sum (f := fun j => ‖∑ i, (e j i : ℂ) * y i‖ ^ 2) (fun _ _ => sq_nonneg _) (Finset.mem_univ j)

open ModeShift in
/-- an approximate eigenvalue is close to an eigenvalue -/
theorem near_eig {A : Fin 3 → Fin 3 → ℝ} {w : Fin 3 → ℝ} {e : Fin 3 → Fin 3 → ℝ} (h : Eigs A w e) (hA : ∀ i k, A i k = A k i) (z : ℂ) (κ δ : ℝ) (hδ : 0 ≤ δ) (y : Fin 3 → ℂ)
    (hy : 0 < clen y) (hres : clen (fun i => z * y i + κ * ∑ k, (A i k : ℂ) * y k) ≤ δ * clen y) : ∃ j, ‖z + κ * w j‖ ≤ δ := by
  by_contra hn
  push Not at hn
  have h1 := parseval h fun i => z * y i + κ * ∑ k, (A i k : ℂ) * y k
  simp only [along_eig h hA, norm_mul, mul_pow] at h1
  have h2 := parseval h y
  have h3 : clen (fun i => z * y i + κ * ∑ k, (A i k : ℂ) * y k) ^ 2 ≤ (δ * clen y) ^ 2 := pow_le_pow_left₀ (Real.sqrt_nonneg _) hres 2
  obtain ⟨k, -, hk⟩ : ∃ k ∈ Finset.univ, (0 : ℝ) < ‖∑ i, (e k i : ℂ) * y i‖ ^ 2 := by
    refine Finset.exists_lt_of_sum_lt (s := Finset.univ) (f := fun _ => (0 : ℝ)) ?_
    rw [h2, Finset.sum_const_zero]
    positivity
  have h4 : ∑ j, δ ^ 2 * ‖∑ i, (e j i : ℂ) * y i‖ ^ 2 < ∑ j, ‖z + κ * w j‖ ^ 2 * ‖∑ i, (e j i : ℂ) * y i‖ ^ 2 :=
    Finset.sum_lt_sum (fun j _ => mul_le_mul_of_nonneg_right (pow_le_pow_left₀ hδ (hn j).le 2) (sq_nonneg _))
      ⟨k, Finset.mem_univ k, mul_lt_mul_of_pos_right (pow_lt_pow_left₀ (hn k) hδ two_ne_zero) hk⟩
  rw [← Finset.mul_sum, h2, h1] at h4
  rw [mul_pow] at h3
  linarith

/-- the modes of `mathieu` solve the recurrence -/
theorem sol {eig : Eig} (heig : IsEig eig) {argsort : Argsort} {els : List Elec} {m q l o : ℝ} (hm : 0 < m) (hq : 0 < q) (hl : 0 < l) (ho : 0 < o) {x : V3}
    {r : Nat} (hr : 1 ≤ r) {sorted : Bool} {L} (h : sysMathieu eig argsort els x (Sys.rfScale ⟨els, none⟩ m q l o).2 r sorted = .ok L) {nu : ℂ} {w} (hw : (nu, w) ∈ L)
    (hnu : ‖nu‖ ≤ 1 / 2) {A B : ℝ} (hA : ∀ a b, |electricalAt els .dc [a, b] x| ≤ A) (hB : ∀ a b, |electricalAt els .rf [a, b] x| ≤ B)
    (hα : driveSize (q / (m * l ^ 2)) o A ≤ 1 / 16) (hε : driveSize (q / (m * l ^ 2)) o B ≤ 1 / 16) :
    Sol (lin (q / (m * l ^ 2) / o ^ 2) fun i j => electricalAt els .dc [i, j] x) (lin (q / (m * l ^ 2) / (2 * o ^ 2)) fun i j => electricalAt els .rf [i, j] x)
      (driveSize (q / (m * l ^ 2)) o A) (driveSize (q / (m * l ^ 2)) o B) r nu fun h => WithLp.toLp 2 (component r 3 w 0 h) := by
  obtain ⟨mu, b, hmu, rfl⟩ := sysMathieu_inv eig argsort els x _ r sorted L h
  obtain ⟨⟨nu2, w'⟩, hq', he⟩ := List.mem_map.1 hw
  obtain ⟨j, -, hj⟩ := List.mem_map.1 (mem_sortModes hq')
  simp only [Prod.mk.injEq] at hj he
  obtain ⟨rfl, rfl⟩ := hj
  obtain ⟨rfl, rfl⟩ := he
  have hκ : 0 < q / (m * l ^ 2) := by positivity
  have hA0 : 0 ≤ A := (abs_nonneg _).trans (hA 0 0)
  have hB0 : 0 ≤ B := (abs_nonneg _).trans (hB 0 0)
  have hs : (Sys.rfScale ⟨els, none⟩ m q l o).2 ^ 2 = q / (m * l ^ 2) / (4 * o ^ 2) := by
    show (√(q / m) / (2 * l * o)) ^ 2 = _
    rw [div_pow, Real.sq_sqrt (div_nonneg hq.le hm.le)]
    field_simp
    ring
  rw [hs] at hmu
  set κ := q / (m * l ^ 2) with hκdef
  obtain ⟨a, ha⟩ : ∃ a : List (Matrix (Fin 3) (Fin 3) ℂ), a = [fun i j => ((16 * (κ / (4 * o ^ 2)) * electricalAt els .dc [i, j] x : ℝ) : ℂ),
      fun i j => ((8 * (κ / (4 * o ^ 2)) * electricalAt els .rf [i, j] x : ℝ) : ℂ)] := ⟨_, rfl⟩
  have hmu : mathieu eig r a = .ok (mu, b) := by rw [ha]; exact hmu
  obtain ⟨hrec, -, hn, hk, hne⟩ := c41_recurrence eig heig r a hmu j
  have hIcc : Finset.Icc 1 (a.length - 1) = {1} := by rw [ha]; rfl
  refine ⟨fun y => (norm_lin (by positivity) hA y).trans (le_of_eq ?_), fun y => (norm_lin (by positivity) hB y).trans (le_of_eq ?_), ?_, ?_, hα, hε, fun h hh => ?_,
    fun n hn => ?_, hr, ⟨hn, fun e => hne ?_⟩, hnu⟩
  · unfold driveSize; ring
  · unfold driveSize; field_simp
  · unfold driveSize; positivity
  · unfold driveSize; positivity
  · ext k
    exact component_out r (fun i => b i j) 0 h hh k
  · ext k
    have h1 : (mu j + 2 * Complex.I * n) ^ 2 * component r 3 (fun i => b i j) 0 n k
        + ∑ i, ((16 * (κ / (4 * o ^ 2)) * electricalAt els .dc [k, i] x : ℝ) : ℂ) * component r 3 (fun i => b i j) 0 n i
        + ∑ i, ((8 * (κ / (4 * o ^ 2)) * electricalAt els .rf [k, i] x : ℝ) : ℂ) * (component r 3 (fun i => b i j) 0 (n + 1) i + component r 3 (fun i => b i j) 0 (n - 1) i) = 0 := by
      have h0 := hrec n hn k
      rw [hIcc, Finset.sum_singleton, ha] at h0
      exact h0
    show (mu j / 2 + Complex.I * n) ^ 2 * component r 3 (fun i => b i j) 0 n k
        + ∑ i, ((κ / o ^ 2 * electricalAt els .dc [k, i] x : ℝ) : ℂ) * component r 3 (fun i => b i j) 0 n i
        + ∑ i, ((κ / (2 * o ^ 2) * electricalAt els .rf [k, i] x : ℝ) : ℂ) * (component r 3 (fun i => b i j) 0 (n + 1) i + component r 3 (fun i => b i j) 0 (n - 1) i) = 0
    have e1 : ∀ f : ℝ, ((κ / o ^ 2 * f : ℝ) : ℂ) = 1 / 4 * ((16 * (κ / (4 * o ^ 2)) * f : ℝ) : ℂ) := fun f => by
      rw [show (1 / 4 : ℂ) = ((1 / 4 : ℝ) : ℂ) by push_cast; rfl, ← Complex.ofReal_mul]
      congr 1
      field_simp
      ring
    have e2 : ∀ f : ℝ, ((κ / (2 * o ^ 2) * f : ℝ) : ℂ) = 1 / 4 * ((8 * (κ / (4 * o ^ 2)) * f : ℝ) : ℂ) := fun f => by
      rw [show (1 / 4 : ℂ) = ((1 / 4 : ℝ) : ℂ) by push_cast; rfl, ← Complex.ofReal_mul]
      congr 1
      field_simp
      ring
    simp only [e1, e2, mul_assoc, ← Finset.mul_sum]
    simp only [mul_assoc] at h1
    linear_combination h1 / 4
  · have := congrArg (fun y : V => y hk) e
    exact this

end Secul
open Secul

section
variable (eig : Eig) (heig : IsEig eig) (argsort : Argsort) (els : List Elec) (m q l o : ℝ) (hm : 0 < m) (hq : 0 < q) (hl : 0 < l) (ho : 0 < o) (x : V3)
  (r : Nat) (hr : 1 ≤ r) (sorted : Bool) (L) (h : sysMathieu eig argsort els x (Sys.rfScale ⟨els, none⟩ m q l o).2 r sorted = .ok L) (nu : ℂ) (w) (hw : (nu, w) ∈ L)
  (hnu : ‖nu‖ ≤ 1 / 2) (A B : ℝ) (hA : ∀ a b, |electricalAt els .dc [a, b] x| ≤ A) (hB : ∀ a b, |electricalAt els .rf [a, b] x| ≤ B)
  (hα : driveSize (q / (m * l ^ 2)) o A ≤ 1 / 16) (hε : driveSize (q / (m * l ^ 2)) o B ≤ 1 / 16)
include heig hm hq hl ho hr h hw hnu hA hB hα hε

/-- **C141.** A mode of `mathieu` with an exponent in the first zone is slow, and moves mostly with this exponent alone: the other harmonics are at most of the size of the
drive. -/
theorem c141_slow : let c := component r 3 w 0
    ‖nu‖ ^ 2 ≤ driveSize (q / (m * l ^ 2)) o A + 4 * driveSize (q / (m * l ^ 2)) o B ^ 2 ∧ 0 < clen (c 0) ∧
      ∀ n : ℤ, n ≠ 0 → clen (c n) ≤ 4 * driveSize (q / (m * l ^ 2)) o B * clen (c 0) := by
  have s := sol heig hm hq hl ho hr h hw hnu hA hB hα hε
  obtain ⟨h1, h2⟩ := s.away
  refine ⟨s.slow, ?_, fun n hn => ?_⟩
  · rwa [clen_eq] at h2
  · have := h1 n hn
    rwa [clen_eq, clen_eq] at this

/-- **C141.** Its first harmonics are the micromotion: the displacement in the oscillating field at the position of the slow motion. -/
theorem c141_micromotion (n : ℤ) (hn : |n| = 1) : let c := component r 3 w 0
    clen (fun i => c n i - ∑ j, ((q / (m * l ^ 2) / (2 * o ^ 2) * electricalAt els .rf [i, j] x : ℝ) : ℂ) * c 0 j)
      ≤ 4 * driveSize (q / (m * l ^ 2)) o B * (3 * ‖nu‖ + driveSize (q / (m * l ^ 2)) o A + driveSize (q / (m * l ^ 2)) o B ^ 2) * clen (c 0) := by
  have s := sol heig hm hq hl ho hr h hw hnu hA hB hα hε
  have := s.micro n hn
  rwa [clen_eq, clen_eq] at this

variable (hoff : offSystem els x) (hz : ∀ a, electricalAt els .rf [a] x = 0)
  (eigh : Eigh) (heigh : IsEigh eigh) (argsort' : Argsort) (hsort : IsArgsort argsort') (ew : List ℝ) (ev : List (Fin 3 → ℝ))
  (hmod : modes eigh argsort' (Sys.rfScale ⟨els, none⟩ m q l o).1 x true = .ok (ew, ev))
include hoff hz heigh hsort hmod

/-- the residual of the zeroth harmonic in the equation of the modes of the pseudopotential -/
theorem Secul.residual : let c := component r 3 w 0
    clen (fun i => ((o : ℂ) * nu) ^ 2 * c 0 i + ((q / (m * l ^ 2) : ℝ) : ℂ) * ∑ k, (totalAt (Sys.rfScale ⟨els, none⟩ m q l o).1 [i, k] x : ℂ) * c 0 k)
      ≤ 100 * o ^ 2 * driveSize (q / (m * l ^ 2)) o B ^ 2 * (driveSize (q / (m * l ^ 2)) o A + driveSize (q / (m * l ^ 2)) o B ^ 2) * clen (c 0) := by
  intro c
  have s := sol heig hm hq hl ho hr h hw hnu hA hB hα hε
  have h1 := s.slowMode
  set κ := q / (m * l ^ 2) with hκ
  have hs : (√(q / m) / (2 * l * o)) ^ 2 = κ / (4 * o ^ 2) := by
    rw [div_pow, Real.sq_sqrt (div_nonneg hq.le hm.le), hκ]
    field_simp
    ring
  have e0 : ∀ typ a b, electricalAt els typ [a, b] x = sysTens els typ [a, b] x := fun typ a b => electricalAt_eq _ _ _ (by simp) _ (avail_of_off hoff _ _)
  have ez : ∀ a, sysTens els .rf [a] x = 0 := fun a => by rw [← hz a, electricalAt_eq _ _ _ (by simp) _ (avail_of_off hoff _ _)]
  have ht : ∀ i k, totalAt (Sys.rfScale ⟨els, none⟩ m q l o).1 [i, k] x
      = electricalAt els .dc [i, k] x + κ / (2 * o ^ 2) * ∑ j, electricalAt els .rf [i, j] x * electricalAt els .rf [j, k] x := fun i k => by
    show totalAt ⟨els, some (√(q / m) / (2 * l * o))⟩ [i, k] x = _
    rw [total_split els _ [i, k] (by simp) _ fun d typ => avail_of_off hoff d typ]
    simp only [psT, ez, mul_zero, zero_mul, Finset.sum_const_zero, add_zero, e0]
    rw [Finset.mul_sum, Finset.mul_sum]
    congr 1
    refine Finset.sum_congr rfl fun j _ => ?_
    rw [sysTens_perm els .rf (List.Perm.swap i j []) x]
    linear_combination 2 * sysTens els .rf [i, j] x * sysTens els .rf [j, k] x * hs
  have hv : ∀ y : V, ‖((o : ℂ) ^ 2) • y‖ = o ^ 2 * ‖y‖ := fun y => by rw [norm_smul, norm_pow, Complex.norm_real, Real.norm_eq_abs, abs_of_pos ho]
  have h2 := mul_le_mul_of_nonneg_left h1 (sq_nonneg o)
  rw [← hv, clen_eq, clen_eq] at h2
  refine (le_of_eq ?_).trans (h2.trans (le_of_eq (by ring)))
  congr 1
  funext i
  show _ = (o : ℂ) ^ 2 * (nu ^ 2 * c 0 i + ∑ j, ((κ / o ^ 2 * electricalAt els .dc [i, j] x : ℝ) : ℂ) * c 0 j
    + 2 * ∑ j, ((κ / (2 * o ^ 2) * electricalAt els .rf [i, j] x : ℝ) : ℂ) * ∑ k, ((κ / (2 * o ^ 2) * electricalAt els .rf [j, k] x : ℝ) : ℂ) * c 0 k)
  simp only [ht, Fin.sum_univ_three]
  have hoc : (o : ℂ) ≠ 0 := by exact_mod_cast ho.ne'
  push_cast
  field_simp
  ring

/-- **C141.** For weak drives, the modes of `mathieu` are those of the pseudopotential: the zeroth harmonic of a mode has components only along those modes of the
pseudopotential that have its frequency, up to an error of higher order in the drive. -/
theorem c141_modes (j : Nat) (hj : j < 3) : let c := component r 3 w 0
    ‖((o : ℂ) * nu) ^ 2 + ((q / (m * l ^ 2) : ℝ) : ℂ) * (ew.getD j 0 : ℝ)‖ * ‖∑ i, ((ev.getD j 0 i : ℝ) : ℂ) * c 0 i‖
      ≤ 100 * o ^ 2 * driveSize (q / (m * l ^ 2)) o B ^ 2 * (driveSize (q / (m * l ^ 2)) o A + driveSize (q / (m * l ^ 2)) o B ^ 2) * clen (c 0) := by
  intro c
  have hres := residual eig heig argsort els m q l o hm hq hl ho x r hr sorted L h nu w hw hnu A B hA hB hα hε hoff hz eigh heigh argsort' hsort ew ev hmod
  have hE := ModeShift.eigs heigh hsort hmod
  have hsym : ∀ i k, totalAt (Sys.rfScale ⟨els, none⟩ m q l o).1 [i, k] x = totalAt (Sys.rfScale ⟨els, none⟩ m q l o).1 [k, i] x :=
    fun i k => total_symm2 els _ x hoff i k
  have h2 := (along_le hE _ ⟨j, hj⟩).trans hres
  rw [along_eig hE hsym, norm_mul] at h2
  exact h2

/-- **C141.** For weak drives, the frequencies of `mathieu` are those of the pseudopotential: the square of each exponent is minus the square of the frequency of one of its
modes, up to an error of higher order in the drive. -/
theorem c141_frequencies : ∃ j < 3, ‖((o : ℂ) * nu) ^ 2 + ((q / (m * l ^ 2) : ℝ) : ℂ) * (ew.getD j 0 : ℝ)‖
    ≤ 100 * o ^ 2 * driveSize (q / (m * l ^ 2)) o B ^ 2 * (driveSize (q / (m * l ^ 2)) o A + driveSize (q / (m * l ^ 2)) o B ^ 2) := by
  have hres := residual eig heig argsort els m q l o hm hq hl ho x r hr sorted L h nu w hw hnu A B hA hB hα hε hoff hz eigh heigh argsort' hsort ew ev hmod
  have hE := ModeShift.eigs heigh hsort hmod
  have hA0 : 0 ≤ A := (abs_nonneg _).trans (hA 0 0)
  have hd : 0 ≤ driveSize (q / (m * l ^ 2)) o A := by unfold driveSize; positivity
  have hsym : ∀ i k, totalAt (Sys.rfScale ⟨els, none⟩ m q l o).1 [i, k] x = totalAt (Sys.rfScale ⟨els, none⟩ m q l o).1 [k, i] x :=
    fun i k => total_symm2 els _ x hoff i k
  have hpos := (c141_slow eig heig argsort els m q l o hm hq hl ho x r hr sorted L h nu w hw hnu A B hA hB hα hε).2.1
  have hδ : 0 ≤ 100 * o ^ 2 * driveSize (q / (m * l ^ 2)) o B ^ 2 * (driveSize (q / (m * l ^ 2)) o A + driveSize (q / (m * l ^ 2)) o B ^ 2) :=
    mul_nonneg (mul_nonneg (mul_nonneg (by norm_num) (sq_nonneg _)) (sq_nonneg _)) (add_nonneg hd (sq_nonneg _))
  obtain ⟨j, hj⟩ := near_eig hE hsym (((o : ℂ) * nu) ^ 2) (q / (m * l ^ 2)) _ hδ (component r 3 w 0 0) hpos hres
  refine ⟨j.1, j.2, ?_⟩
  have hj : ‖((o : ℂ) * nu) ^ 2 + ((q / (m * l ^ 2) : ℝ) : ℂ) * (ew.getD j.1 0 : ℝ)‖ ≤ _ := hj
  exact hj

end

/-- The hypotheses are met: the radial mode of the ring trap, found with the cutoff 1, for a drive of the frequency 13. -/
example : ∃ (eig : Eig) (eigh : Eigh) (argsort : Argsort) (L : _) (nu : ℂ) (w : _) (ew : List ℝ) (ev : List (Fin 3 → ℝ)), IsEig eig ∧ IsEigh eigh ∧ IsArgsort argsort ∧
    sysMathieu eig argsort Ring.trap ⟨0, 0, 7⟩ (Sys.rfScale ⟨Ring.trap, none⟩ 1 1 1 13).2 1 false = .ok L ∧ (nu, w) ∈ L ∧ nu ≠ 0 ∧ ‖nu‖ ≤ 1 / 2 ∧
    modes eigh argsort (Sys.rfScale ⟨Ring.trap, none⟩ 1 1 1 13).1 ⟨0, 0, 7⟩ true = .ok (ew, ev) ∧ driveSize 1 13 0 ≤ 1 / 16 ∧ driveSize 1 13 (2 * Ring.kap) ≤ 1 / 16 ∧
    ∃ j < 3, ‖((13 : ℂ) * nu) ^ 2 + (ew.getD j 0 : ℝ)‖ ≤ 100 * 13 ^ 2 * driveSize 1 13 (2 * Ring.kap) ^ 4 := by
  obtain ⟨eig, heig, hL⟩ := Flo.ring_mode 13 (by norm_num)
  obtain ⟨eigh, argsort, ew, ev, heigh, hsort, hmod, -⟩ := Ring.trap_modes (√(1 / 1) / (2 * 1 * 13)) (by norm_num)
  obtain ⟨L, hL, nu, w, hw, hne, hnu, -⟩ := hL argsort
  have hk := Ring.kap_pos
  have hk2 : Ring.kap < 8 / 5 := by
    unfold Ring.kap
    rw [div_lt_iff₀ (by positivity)]
    nlinarith [Real.pi_gt_three]
  have h0 : driveSize 1 13 0 ≤ 1 / 16 := by unfold driveSize; norm_num
  have h1 : driveSize 1 13 (2 * Ring.kap) ≤ 1 / 16 := by unfold driveSize; linarith
  have hdc : ∀ a b, |electricalAt Ring.trap .dc [a, b] ⟨0, 0, 7⟩| ≤ 0 := fun a b => by
    rw [electricalAt_eq _ _ _ (by simp) _ (avail_of_off Ring.trap_off7 _ _), Ring.trap_dc, abs_zero]
  have hrf : ∀ a b, |electricalAt Ring.trap .rf [a, b] ⟨0, 0, 7⟩| ≤ 2 * Ring.kap := fun a b => by
    rw [electricalAt_eq _ _ _ (by simp) _ (avail_of_off Ring.trap_off7 _ _), Ring.trap_tens2]
    fin_cases a <;> fin_cases b <;> simp [abs_of_pos hk] <;> linarith
  refine ⟨eig, eigh, argsort, L, nu, w, ew, ev, heig, heigh, hsort, hL, hw, hne, hnu, hmod, h0, h1, ?_⟩
  have e : (1 : ℝ) / (1 * 1 ^ 2) = 1 := by norm_num
  obtain ⟨j, hj, hb⟩ := c141_frequencies eig heig argsort Ring.trap 1 1 1 13 one_pos one_pos one_pos (by norm_num) ⟨0, 0, 7⟩ 1 le_rfl false L hL nu w hw hnu 0 (2 * Ring.kap)
    hdc hrf (by rw [e]; exact h0) (by rw [e]; exact h1) Ring.trap_off7
    (fun a => by rw [electricalAt_eq _ _ _ (by simp) _ (avail_of_off Ring.trap_off7 _ _)]; exact Ring.trap_tens1 a) eigh heigh argsort hsort ew ev hmod
  refine ⟨j, hj, ?_⟩
  rw [e] at hb
  have hd : driveSize 1 13 0 = 0 := by simp [driveSize]
  rw [hd, zero_add] at hb
  push_cast at hb
  rw [one_mul] at hb
  exact hb.trans (le_of_eq (by ring))

end Electrode
