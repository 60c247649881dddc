import Verif.Lemmas.HillFloquet
import Verif.Lemmas.HillFormula
import Verif.Props.MathieuIvp

/-!
The series of a decaying solution of the recurrence solves Mathieu's equation.
-/

namespace Electrode

open Filter Topology Complex Spec
open scoped Real

/-- the periodic part -/
noncomputable def hlP (c : ℤ → ℂ) (t : ℝ) : ℂ := ∑' n : ℤ, c n * exp (2 * n * t * I)

theorem hasSum_of_eq {f g : ℤ → ℂ} {a : ℂ} (h : ∀ n, f n = g n) (hf : HasSum f a) : HasSum g a := (funext h : f = g) ▸ hf

theorem norm_e (n : ℤ) (t : ℝ) : ‖exp (2 * n * t * I)‖ = 1 := by
  have := Complex.norm_exp_ofReal_mul_I (2 * n * t)
  push_cast at this
  exact this

theorem hlP_summable {c : ℤ → ℂ} (hc : Summable fun n => ‖c n‖) (t : ℝ) : Summable fun n : ℤ => c n * exp (2 * n * t * I) := by
  refine Summable.of_norm (hc.congr fun n => ?_)
  rw [norm_mul, norm_e, mul_one]

theorem hlP_deriv {c : ℤ → ℂ} (hc : Summable fun n => ‖c n‖) (hc1 : Summable fun n : ℤ => ‖2 * n * I * c n‖) (t : ℝ) :
    HasDerivAt (hlP c) (hlP (fun n => 2 * n * I * c n) t) t := by
  refine hasDerivAt_tsum hc1 (g' := fun (n : ℤ) (t : ℝ) => 2 * n * I * c n * exp (2 * n * t * I)) (y₀ := 0) (fun n t => ?_) (fun n t => ?_) (hlP_summable hc 0) t
  · have h1 : HasDerivAt (fun t : ℝ => 2 * n * (t : ℂ) * I) (2 * n * I) t := by
      have := ((hasDerivAt_id t).ofReal_comp.const_mul (2 * (n : ℂ))).mul_const I
      simpa using this
    exact (h1.cexp.const_mul (c n)).congr_deriv (by ring)
  · rw [norm_mul, norm_e, mul_one]

theorem hlP_shift (c : ℤ → ℂ) (t : ℝ) : hlP c (t + π) = hlP c t := by
  unfold hlP
  congr 1
  funext n
  have : (2 * n * ((t + π : ℝ) : ℂ) * I) = 2 * n * t * I + n * (2 * π * I) := by push_cast; ring
  rw [this, exp_add, Complex.exp_int_mul_two_pi_mul_I, mul_one]

theorem hlP_coeff {c : ℤ → ℂ} (hc : Summable fun n => ‖c n‖) (h0 : ∀ t, hlP c t = 0) (m : ℤ) : c m = 0 := by
  have hs : HasSum (fun n : ℤ => ∫ t in (0 : ℝ)..π, c n * exp (2 * n * t * I) * exp (-(2 * m * t * I))) (∫ t in (0 : ℝ)..π, (0 : ℂ)) := by
    refine intervalIntegral.hasSum_integral_of_dominated_convergence (fun n _ => ‖c n‖) (fun n => ?_) (fun n => ?_) ?_ ?_ ?_
    · exact (Continuous.aestronglyMeasurable (by fun_prop))
    · refine Eventually.of_forall fun t _ => ?_
      have := norm_e (-m) t
      push_cast at this
      rw [norm_mul, norm_mul, norm_e, mul_one, show -(2 * m * t * I) = 2 * -(m : ℂ) * t * I by ring, this, mul_one]
    · exact Eventually.of_forall fun t _ => hc
    · exact intervalIntegrable_const
    · refine Eventually.of_forall fun t _ => ?_
      have := (hlP_summable hc t).hasSum.mul_right (exp (-(2 * m * t * I)))
      have h1 : (∑' n : ℤ, c n * exp (2 * n * t * I)) = 0 := h0 t
      rwa [h1, zero_mul] at this
  have hi : ∀ n : ℤ, (∫ t in (0 : ℝ)..π, c n * exp (2 * n * t * I) * exp (-(2 * m * t * I))) = if n = m then c m * π else 0 := by
    intro n
    have e : ∀ t : ℝ, c n * exp (2 * n * t * I) * exp (-(2 * m * t * I)) = c n * exp ((2 * ((n : ℂ) - m) * I) * t) := by
      intro t
      rw [mul_assoc, ← exp_add]
      congr 2
      ring
    simp only [e]
    split_ifs with hnm
    · subst hnm
      simp
      ring
    · have hz : 2 * ((n : ℂ) - m) * I ≠ 0 := by
        refine mul_ne_zero (mul_ne_zero two_ne_zero ?_) I_ne_zero
        rw [sub_ne_zero]
        exact_mod_cast hnm
      rw [intervalIntegral.integral_const_mul, integral_exp_mul_complex hz]
      have h1 : exp (2 * ((n : ℂ) - m) * I * π) = 1 := by
        have := Complex.exp_int_mul_two_pi_mul_I (n - m)
        rw [← this]
        push_cast
        congr 1
        ring
      rw [h1]
      simp
  simp only [hi, intervalIntegral.integral_zero] at hs
  have := hs.unique (hasSum_ite_eq m (c m * π))
  have hpi : (π : ℂ) ≠ 0 := by exact_mod_cast Real.pi_ne_zero
  exact (mul_eq_zero.1 this.symm).resolve_right hpi

/-- the recurrence is the equation -/
theorem hlP_eqn {k q : ℝ} {v : ℂ} {c : ℤ → ℂ} (hr : ∀ n, hlD k n v * c n + q * (c (n - 1) + c (n + 1)) = 0)
    (hc : Summable fun n => ‖c n‖) (hc1 : Summable fun n : ℤ => ‖2 * n * I * c n‖) (hc2 : Summable fun n : ℤ => ‖2 * n * I * (2 * n * I * c n)‖) (t : ℝ) :
    -v ^ 2 * hlP c t + 2 * v * I * hlP (fun n => 2 * n * I * c n) t + hlP (fun n => 2 * n * I * (2 * n * I * c n)) t =
      -((k : ℂ) ^ 2 - 2 * q * cos (2 * t)) * hlP c t := by
  have s0 := (hlP_summable hc t).hasSum
  have s1 := (hlP_summable hc1 t).hasSum
  have s2 := (hlP_summable hc2 t).hasSum
  have sp : HasSum (fun n : ℤ => c (n - 1) * exp (2 * n * t * I)) (exp (2 * t * I) * hlP c t) := by
    have := (Equiv.addRight (-1 : ℤ)).hasSum_iff.2 s0
    refine hasSum_of_eq (fun n => ?_) (this.mul_left (exp (2 * t * I)))
    simp only [Function.comp, Equiv.coe_addRight, ← sub_eq_add_neg]
    rw [mul_left_comm, ← exp_add]
    congr 2
    push_cast
    ring
  have sm : HasSum (fun n : ℤ => c (n + 1) * exp (2 * n * t * I)) (exp (-(2 * t * I)) * hlP c t) := by
    have := (Equiv.addRight (1 : ℤ)).hasSum_iff.2 s0
    refine hasSum_of_eq (fun n => ?_) (this.mul_left (exp (-(2 * t * I))))
    simp only [Function.comp, Equiv.coe_addRight]
    rw [mul_left_comm, ← exp_add]
    congr 2
    push_cast
    ring
  have hl := ((s0.mul_left (-v ^ 2)).add (s1.mul_left (2 * v * I))).add s2
  have hrr := (s0.mul_left (-(k : ℂ) ^ 2)).add ((sp.add sm).mul_left (q : ℂ))
  have := hl.unique (hasSum_of_eq (fun n => ?_) hrr)
  · rw [show hlP c t = ∑' n : ℤ, c n * exp (2 * n * t * I) from rfl] at *
    have hcos : 2 * cos (2 * (t : ℂ)) = exp (2 * t * I) + exp (-(2 * t * I)) := by
      rw [two_cos]
      congr 2
      ring
    unfold hlP
    rw [this]
    linear_combination (-(q : ℂ) * ∑' n : ℤ, c n * exp (2 * n * t * I)) * hcos
  · have := hr n
    unfold hlD at this
    push_cast at this
    linear_combination exp (2 * n * t * I) * this - (4 * n * v + 4 * n ^ 2) * c n * exp (2 * n * t * I) * I_sq

theorem hill_cos {k q : ℝ} {v : ℂ} {c : ℤ → ℂ} (hr : ∀ n, hlD k n v * c n + q * (c (n - 1) + c (n + 1)) = 0) (hn : ∃ m, c m ≠ 0)
    (hs : Summable fun n : ℤ => ‖c n‖ * (|(n : ℝ)| + 1) ^ 2) {y1 y1' : ℝ → ℝ} (h1 : SolvesMathieu (k ^ 2) q y1 y1') (h10 : y1 0 = 1) (h10' : y1' 0 = 0) :
    cos (π * v) = y1 π := by
  have hc : Summable fun n => ‖c n‖ := by
    refine Summable.of_nonneg_of_le (fun _ => norm_nonneg _) (fun n => ?_) hs
    have h0 := abs_nonneg (n : ℝ)
    have : 1 ≤ (|(n : ℝ)| + 1) ^ 2 := by nlinarith
    nlinarith [norm_nonneg (c n)]
  have hc1 : Summable fun n : ℤ => ‖2 * n * I * c n‖ := by
    refine Summable.of_nonneg_of_le (fun _ => norm_nonneg _) (fun n => ?_) hs
    have h0 := abs_nonneg (n : ℝ)
    rw [norm_mul, norm_mul, norm_mul, Complex.norm_I, Complex.norm_intCast, Complex.norm_ofNat]
    have : 2 * |(n : ℝ)| ≤ (|(n : ℝ)| + 1) ^ 2 := by nlinarith
    nlinarith [norm_nonneg (c n)]
  have hc2 : Summable fun n : ℤ => ‖2 * n * I * (2 * n * I * c n)‖ := by
    refine Summable.of_nonneg_of_le (fun _ => norm_nonneg _) (fun n => ?_) (hs.mul_left 4)
    have h0 := abs_nonneg (n : ℝ)
    rw [norm_mul, norm_mul, norm_mul, norm_mul, norm_mul, norm_mul, Complex.norm_I, Complex.norm_intCast, Complex.norm_ofNat]
    have : 2 * |(n : ℝ)| * 1 * (2 * |(n : ℝ)| * 1) ≤ 4 * (|(n : ℝ)| + 1) ^ 2 := by nlinarith
    calc _ = 2 * |(n : ℝ)| * 1 * (2 * |(n : ℝ)| * 1) * ‖c n‖ := by ring
      _ ≤ 4 * (|(n : ℝ)| + 1) ^ 2 * ‖c n‖ := mul_le_mul_of_nonneg_right this (norm_nonneg _)
      _ = _ := by ring
  obtain ⟨p, hp⟩ : ∃ p, p = hlP c := ⟨_, rfl⟩
  obtain ⟨p1, hp1⟩ : ∃ p1, p1 = hlP (fun n => 2 * n * I * c n) := ⟨_, rfl⟩
  obtain ⟨p2, hp2⟩ : ∃ p2, p2 = hlP (fun n => 2 * n * I * (2 * n * I * c n)) := ⟨_, rfl⟩
  have d0 : ∀ t, HasDerivAt p (p1 t) t := fun t => by rw [hp, hp1]; exact hlP_deriv hc hc1 t
  have d1 : ∀ t, HasDerivAt p1 (p2 t) t := fun t => by rw [hp1, hp2]; exact hlP_deriv hc1 hc2 t
  have eqn : ∀ t : ℝ, -v ^ 2 * p t + 2 * v * I * p1 t + p2 t = -((k : ℂ) ^ 2 - 2 * q * cos (2 * t)) * p t := fun t => by
    rw [hp, hp1, hp2]
    exact hlP_eqn hr hc hc1 hc2 t
  have de : ∀ t : ℝ, HasDerivAt (fun t : ℝ => exp (v * t * I)) (v * I * exp (v * t * I)) t := fun t => by
    have h : HasDerivAt (fun t : ℝ => v * (t : ℂ) * I) (v * I) t := by
      have := ((hasDerivAt_id t).ofReal_comp.const_mul v).mul_const I
      simpa using this
    exact h.cexp.congr_deriv (by ring)
  obtain ⟨y, hy⟩ : ∃ y : ℝ → ℂ, y = fun t : ℝ => exp (v * t * I) * p t := ⟨_, rfl⟩
  obtain ⟨y', hy'⟩ : ∃ y' : ℝ → ℂ, y' = fun t : ℝ => exp (v * t * I) * (v * I * p t + p1 t) := ⟨_, rfl⟩
  have dy : ∀ t, HasDerivAt y (y' t) t := fun t => by
    rw [hy, hy']
    exact ((de t).mul (d0 t)).congr_deriv (by ring)
  have dy' : ∀ t, HasDerivAt y' (((-(k ^ 2 - 2 * q * Real.cos (2 * t)) : ℝ) : ℂ) * y t) t := fun t => by
    rw [hy, hy']
    refine ((de t).mul (((d0 t).const_mul (v * I)).add (d1 t))).congr_deriv ?_
    push_cast
    simp only [Pi.add_apply]
    linear_combination exp (v * t * I) * eqn t + v ^ 2 * exp (v * t * I) * p t * I_sq
  have hre : SolvesMathieu (k ^ 2) q (fun t => (y t).re) (fun t => (y' t).re) := fun t => by
    refine ⟨Complex.reCLM.hasFDerivAt.comp_hasDerivAt t (dy t), ?_⟩
    have := Complex.reCLM.hasFDerivAt.comp_hasDerivAt t (dy' t)
    rw [Complex.reCLM_apply, Complex.re_ofReal_mul] at this
    exact this
  have him : SolvesMathieu (k ^ 2) q (fun t => (y t).im) (fun t => (y' t).im) := fun t => by
    refine ⟨Complex.imCLM.hasFDerivAt.comp_hasDerivAt t (dy t), ?_⟩
    have := Complex.imCLM.hasFDerivAt.comp_hasDerivAt t (dy' t)
    rw [Complex.imCLM_apply, Complex.im_ofReal_mul] at this
    exact this
  have h3 : ∀ t, y (t + π) + y (t - π) = 2 * y1 π * y t := fun t => by
    have e1 := three_term h1 h10 h10' hre t
    have e2 := three_term h1 h10 h10' him t
    have e : (2 * (y1 π : ℂ) * y t) = ((2 * y1 π : ℝ) : ℂ) * y t := by push_cast; ring
    rw [e]
    apply Complex.ext
    · rw [Complex.re_ofReal_mul, ← e1, add_re]
    · rw [Complex.im_ofReal_mul, ← e2, add_im]
  obtain ⟨t, ht⟩ : ∃ t, p t ≠ 0 := by
    by_contra h
    push Not at h
    obtain ⟨m, hm⟩ := hn
    rw [hp] at h
    exact hm (hlP_coeff hc h m)
  have hyt : y t ≠ 0 := by
    rw [hy]
    exact mul_ne_zero (exp_ne_zero _) ht
  have hp' : p (t - π) = p t := by
    have := hlP_shift c (t - π)
    rw [sub_add_cancel] at this
    rw [hp, this]
  have e1 : y (t + π) = exp (π * v * I) * y t := by
    rw [hy]
    simp only
    rw [hp, hlP_shift, ← mul_assoc, ← exp_add]
    congr 2
    push_cast
    ring
  have e2 : y (t - π) = exp (-(π * v) * I) * y t := by
    rw [hy]
    simp only
    rw [hp', ← mul_assoc, ← exp_add]
    congr 2
    push_cast
    ring
  have h := h3 t
  rw [e1, e2, ← add_mul, ← two_cos] at h
  have := mul_right_cancel₀ hyt h
  exact mul_left_cancel₀ two_ne_zero this

/-- the value of the infinite determinant -/
theorem hill_value {k q : ℝ} (hk : ∀ n : ℤ, k ≠ n) (hq : q ≠ 0) {y1 y1' : ℝ → ℝ} (h1 : SolvesMathieu (k ^ 2) q y1 y1') (h10 : y1 0 = 1) (h10' : y1' 0 = 0) :
    hlDelta k q 0 * (1 - cos (π * k)) = 1 - y1 π := by
  have hpi : (π : ℂ) ≠ 0 := by exact_mod_cast Real.pi_ne_zero
  have hK : y1 π = cos (π * k) - hlK k q := by
    obtain ⟨w, hw⟩ := Complex.cos_surjective (cos (π * k) - hlK k q)
    by_cases hS : hlS k (w / π) = 0
    · have hK0 : hlK k q = 0 := by
        unfold hlS at hS
        rw [mul_div_cancel₀ _ hpi, hw] at hS
        linear_combination -hS
      have hG : hlG k q k = 0 := by
        have hk0 : (k : ℂ) ≠ 0 := by
          have : k ≠ 0 := fun h => hk 0 (by simpa using h)
          exact_mod_cast this
        have hsin : Complex.sin (π * k) ≠ 0 := by
          rw [Ne, Complex.sin_eq_zero_iff]
          rintro ⟨n, hn⟩
          rw [mul_comm] at hn
          have h' : (k : ℂ) = ((n : ℝ) : ℂ) := by push_cast; exact mul_right_cancel₀ hpi hn
          exact hk n (by exact_mod_cast h')
        unfold hlK at hK0
        rw [div_eq_zero_iff, mul_eq_zero, neg_eq_zero, mul_eq_zero] at hK0
        rcases hK0 with (h | h | h) | h
        · exact h
        · exact absurd h hpi
        · exact absurd h hsin
        · exact absurd h (mul_ne_zero two_ne_zero hk0)
      obtain ⟨c, hn, hr, hs⟩ := hill_kernel hq (v := k) (fun n hn => by
        rcases lt_or_gt_of_ne hn with h | h
        · rw [show n = -(-n) by ring, ← hlD_neg]
          exact (hlD_at hk (by omega)).2
        · exact (hlD_at hk (by omega)).1) hG
      rw [← hill_cos hr hn hs h1 h10 h10', hK0, sub_zero]
    · have hf := hill_formula (q := q) hk hS
      have hD : hlDelta k q (w / π) = 0 := by
        have : hlDelta k q (w / π) * hlS k (w / π) = 0 := by
          rw [hf]
          unfold hlS
          rw [mul_div_cancel₀ _ hpi, hw]
          ring
        exact (mul_eq_zero.1 this).resolve_right hS
      have hG : hlG k q (w / π) = 0 := by
        rw [hlG_eq (hlD_ne hS 0), div_eq_zero_iff] at hD
        exact hD.resolve_right (hlD_ne hS 0)
      obtain ⟨c, hn, hr, hs⟩ := hill_kernel hq (v := w / π) (fun n _ => hlD_ne hS n) hG
      rw [← hill_cos hr hn hs h1 h10 h10', mul_div_cancel₀ _ hpi, hw]
  have hS0 : hlS k 0 ≠ 0 := by
    intro h
    obtain ⟨n, h | h⟩ := hlS_zero.1 h
    · exact hk (-2 * n) (by
        have h' : (k : ℂ) = ((-2 * n : ℤ) : ℝ) := by push_cast; linear_combination -h
        exact_mod_cast h')
    · exact hk (2 * n) (by
        have h' : (k : ℂ) = ((2 * n : ℤ) : ℝ) := by push_cast; linear_combination h
        exact_mod_cast h')
  have := hill_formula (q := q) hk hS0
  unfold hlS at this
  rw [mul_zero, cos_zero] at this
  rw [this, hK]
  ring

end Electrode
