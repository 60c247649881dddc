import Verif.Props.MathieuIvp
import Mathlib.Analysis.ODE.Gronwall
import Mathlib.Analysis.SpecialFunctions.Trigonometric.Bounds
import Mathlib.Analysis.SpecialFunctions.Trigonometric.InverseDeriv
import Mathlib.Analysis.Real.Pi.Bounds

/-! C113: how good the approximations of the characteristic exponent are. -/

namespace Electrode

open Real Spec

/-- a function that solves the equation up to a small term stays close to the solution -/
theorem mathieu_stable {a q A Q ε : ℝ} {y y' z z' e : ℝ → ℝ} (hy : SolvesMathieu a q y y')
    (hz : ∀ t, HasDerivAt z (z' t) t ∧ HasDerivAt z' (-(a - 2 * q * cos (2 * t)) * z t + e t) t) (h0 : y 0 = z 0) (h0' : y' 0 = z' 0)
    (he : ∀ t ∈ Set.Icc 0 π, |e t| ≤ ε) (ha : |a| ≤ A) (hq : |q| ≤ Q) :
    |y π - z π| ≤ ε * exp ((1 + 2 * Q + A) * π) := by
  have hQ : 0 ≤ Q := (abs_nonneg q).trans hq
  have hA : 0 ≤ A := (abs_nonneg a).trans ha
  have hε : 0 ≤ ε := (abs_nonneg _).trans (he 0 ⟨le_rfl, pi_pos.le⟩)
  obtain ⟨K, hKe⟩ : ∃ K : NNReal, (K : ℝ) = 1 + 2 * Q + A := ⟨(1 + 2 * Q + A).toNNReal, coe_toNNReal _ (by linarith)⟩
  have hK : 1 + ‖a‖₊ + 2 * ‖q‖₊ ≤ K := by
    rw [← NNReal.coe_le_coe, hKe]
    push_cast
    simp only [Real.norm_eq_abs]
    linarith
  have hd : ∀ t, HasDerivAt (fun s => (z s, z' s)) (z' t, -(a - 2 * q * cos (2 * t)) * z t + e t) t := fun t => (hz t).1.prodMk (hz t).2
  have hc : ∀ {f : ℝ → ℝ × ℝ} {f' : ℝ → ℝ × ℝ}, (∀ t, HasDerivAt f (f' t) t) → ContinuousOn f (Set.Icc 0 π) := fun h =>
    (continuous_iff_continuousAt.2 fun t => (h t).continuousAt).continuousOn
  have := dist_le_of_approx_trajectories_ODE (v := mField a q) (K := K) (fun t => (mField_lip a q t).weaken hK)
    (f := fun s => (y s, y' s)) (f' := fun t => mField a q t (y t, y' t)) (g := fun s => (z s, z' s))
    (g' := fun t => (z' t, -(a - 2 * q * cos (2 * t)) * z t + e t)) (a := 0) (b := π) (εf := 0) (εg := ε) (δ := 0)
    (hc (solves_field hy)) (fun t _ => (solves_field hy t).hasDerivWithinAt) (fun t _ => by rw [dist_self]) (hc hd)
    (fun t _ => (hd t).hasDerivWithinAt) (fun t ht => by
      rw [Prod.dist_eq]
      refine max_le ?_ ?_
      · simp only [mField, dist_self]
        exact hε
      · simp only [mField, Real.dist_eq, add_sub_cancel_left]
        exact he t ⟨ht.1, ht.2.le⟩) (by rw [h0, h0', dist_self]) π ⟨pi_pos.le, le_rfl⟩
  rw [zero_add, sub_zero, hKe, gronwallBound_of_K_ne_0 (by positivity)] at this
  simp only [zero_mul, zero_add] at this
  change dist (y π, y' π) (z π, z' π) ≤ ε / (1 + 2 * Q + A) * (exp ((1 + 2 * Q + A) * π) - 1) at this
  have h1 : |y π - z π| ≤ dist (y π, y' π) (z π, z' π) := by rw [Prod.dist_eq, ← Real.dist_eq]; exact le_max_left _ _
  refine h1.trans (this.trans ?_)
  have h2 : ε / (1 + 2 * Q + A) ≤ ε := div_le_self hε (by linarith)
  have h3 : 0 ≤ exp ((1 + 2 * Q + A) * π) - 1 := by
    have : 1 ≤ exp ((1 + 2 * Q + A) * π) := one_le_exp (by have := pi_pos; positivity)
    linarith
  calc ε / (1 + 2 * Q + A) * (exp ((1 + 2 * Q + A) * π) - 1) ≤ ε * (exp ((1 + 2 * Q + A) * π) - 1) := mul_le_mul_of_nonneg_right h2 h3
    _ ≤ _ := by nlinarith

theorem mathieu_near {a q A ε : ℝ} {y y' z z' e : ℝ → ℝ} (hy : SolvesMathieu a q y y')
    (hz : ∀ t, HasDerivAt z (z' t) t ∧ HasDerivAt z' (-(a - 2 * q * cos (2 * t)) * z t + e t) t) (h0 : y 0 = z 0) (h0' : y' 0 = z' 0)
    (he : ∀ t ∈ Set.Icc 0 π, |e t| ≤ ε) (ha : |a| ≤ A) (hq : |q| ≤ 1) : |y π - z π| ≤ ε * exp ((3 + A) * π) := by
  have := mathieu_stable hy hz h0 h0' he ha hq
  rwa [show (1 : ℝ) + 2 * 1 + A = 3 + A by ring] at this

/-- the terms of the expansion in `q` -/
theorem mathieu_second {a : ℝ} {y0 y0' y1 y1' y2 y2' : ℝ → ℝ} (h0 : ∀ t, HasDerivAt y0 (y0' t) t ∧ HasDerivAt y0' (-a * y0 t) t)
    (h1 : ∀ t, HasDerivAt y1 (y1' t) t ∧ HasDerivAt y1' (-a * y1 t + 2 * cos (2 * t) * y0 t) t)
    (h2 : ∀ t, HasDerivAt y2 (y2' t) t ∧ HasDerivAt y2' (-a * y2 t + 2 * cos (2 * t) * y1 t) t)
    (i0 : y0 0 = 1 ∧ y0' 0 = 0) (i1 : y1 0 = 0 ∧ y1' 0 = 0) (i2 : y2 0 = 0 ∧ y2' 0 = 0) :
    ∃ C, 0 ≤ C ∧ ∀ q, |q| ≤ 1 → ∀ y y', SolvesMathieu a q y y' → y 0 = 1 → y' 0 = 0 →
      |y π - (y0 π + q * y1 π + q ^ 2 * y2 π)| ≤ C * |q| ^ 3 := by
  have hcont : ContinuousOn y2 (Set.Icc 0 π) := (continuous_iff_continuousAt.2 fun t => (h2 t).1.continuousAt).continuousOn
  obtain ⟨B, hB⟩ := isCompact_Icc.exists_bound_of_continuousOn hcont
  have hB0 : 0 ≤ B := (norm_nonneg _).trans (hB 0 ⟨le_rfl, pi_pos.le⟩)
  refine ⟨2 * B * exp ((3 + |a|) * π), by positivity, fun q hq y y' hy hi hi' => ?_⟩
  have := mathieu_near (A := |a|) (ε := 2 * B * |q| ^ 3) (z := fun t => y0 t + q * y1 t + q ^ 2 * y2 t)
    (z' := fun t => y0' t + q * y1' t + q ^ 2 * y2' t) (e := fun t => -(2 * q ^ 3 * cos (2 * t) * y2 t)) hy (fun t => ⟨?_, ?_⟩) ?_ ?_ ?_ le_rfl hq
  · calc _ ≤ _ := this
      _ = _ := by ring
  · exact ((h0 t).1.add ((h1 t).1.const_mul q)).add ((h2 t).1.const_mul (q ^ 2))
  · exact (((h0 t).2.add ((h1 t).2.const_mul q)).add ((h2 t).2.const_mul (q ^ 2))).congr_deriv (by ring)
  · simp only [hi, i0.1, i1.1, i2.1]; ring
  · simp only [hi', i0.2, i1.2, i2.2]; ring
  · intro t ht
    have hb := hB t ht
    rw [Real.norm_eq_abs] at hb
    rw [abs_neg, abs_mul, abs_mul, abs_mul, abs_two, abs_pow]
    have hc := abs_cos_le_one (2 * t)
    have hq3 : 0 ≤ |q| ^ 3 := by positivity
    calc 2 * |q| ^ 3 * |cos (2 * t)| * |y2 t| ≤ 2 * |q| ^ 3 * 1 * B :=
          mul_le_mul (mul_le_mul_of_nonneg_left hc (by positivity)) hb (abs_nonneg _) (by positivity)
      _ = _ := by ring

/-- a force of frequency `m` on a spring of frequency `k` -/
def Forced (k m : ℝ) (w w' : ℝ → ℝ) : Prop :=
  w 0 = 0 ∧ w' 0 = 0 ∧ ∀ t, HasDerivAt w (w' t) t ∧ HasDerivAt w' (-k ^ 2 * w t + cos (m * t)) t

theorem deriv_cos_mul (m t : ℝ) : HasDerivAt (fun t => cos (m * t)) (-(m * sin (m * t))) t :=
  ((hasDerivAt_id' t).const_mul m).cos.congr_deriv (by ring)

theorem deriv_sin_mul (m t : ℝ) : HasDerivAt (fun t => sin (m * t)) (m * cos (m * t)) t :=
  ((hasDerivAt_id' t).const_mul m).sin.congr_deriv (by ring)

/-- off resonance -/
theorem forced_off {k m : ℝ} (h : m ^ 2 ≠ k ^ 2) :
    Forced k m (fun t => (cos (m * t) - cos (k * t)) / (k ^ 2 - m ^ 2)) fun t => (k * sin (k * t) - m * sin (m * t)) / (k ^ 2 - m ^ 2) := by
  have hd : k ^ 2 - m ^ 2 ≠ 0 := sub_ne_zero.2 fun e => h e.symm
  refine ⟨by simp, by simp, fun t => ⟨?_, ?_⟩⟩
  · exact (((deriv_cos_mul m t).sub (deriv_cos_mul k t)).div_const _).congr_deriv (by ring)
  · refine ((((deriv_sin_mul k t).const_mul k).sub ((deriv_sin_mul m t).const_mul m)).div_const _).congr_deriv ?_
    field_simp
    ring

/-- on resonance -/
theorem forced_on {k m : ℝ} (hk : k ≠ 0) (h : m ^ 2 = k ^ 2) :
    Forced k m (fun t => t * sin (k * t) / (2 * k)) fun t => (sin (k * t) + t * (k * cos (k * t))) / (2 * k) := by
  have hm : ∀ t, cos (m * t) = cos (k * t) := by
    intro t
    rcases sq_eq_sq_iff_eq_or_eq_neg.1 h with rfl | rfl
    · rfl
    · rw [neg_mul, cos_neg]
  refine ⟨by simp, by simp, fun t => ⟨?_, ?_⟩⟩
  · exact (((hasDerivAt_id' t).mul (deriv_sin_mul k t)).div_const _).congr_deriv (by ring)
  · rw [hm]
    refine (((deriv_sin_mul k t).add ((hasDerivAt_id' t).mul ((deriv_cos_mul k t).const_mul k))).div_const _).congr_deriv ?_
    field_simp
    ring

/-- forces whose frequency differs by an even number have no effect after `π` -/
theorem forced_even {k : ℝ} (hk : k ≠ 0) {m : ℝ} {n : ℤ} (hn : n ≠ 0) (h : m = k + 2 * n) : ∃ w w', Forced k m w w' ∧ w π = 0 := by
  by_cases he : m ^ 2 = k ^ 2
  · refine ⟨_, _, forced_on hk he, ?_⟩
    rcases sq_eq_sq_iff_eq_or_eq_neg.1 he with h1 | h1
    · exfalso
      rw [h1] at h
      have : (n : ℝ) = 0 := by linarith
      exact hn (by exact_mod_cast this)
    · have : k = (-n : ℤ) := by push_cast; linarith
      rw [this, sin_int_mul_pi]
      simp
  · refine ⟨_, _, forced_off he, ?_⟩
    have : cos (m * π) = cos (k * π) := by
      rw [h, add_mul, show (2 * (n : ℝ)) * π = n * (2 * π) by ring, cos_add_int_mul_two_pi]
    simp [this]

theorem two_cos_mul (k t : ℝ) : 2 * cos (2 * t) * cos (k * t) = cos ((k + 2) * t) + cos ((k - 2) * t) := by
  rw [add_mul, sub_mul, cos_add, cos_sub]
  ring

/-- the value after a period to second order -/
theorem value_second {k : ℝ} (hk : 0 < k) (hk1 : k ≠ 1) : ∃ C, 0 ≤ C ∧ ∀ q, |q| ≤ 1 → ∀ y y', SolvesMathieu (k ^ 2) q y y' → y 0 = 1 → y' 0 = 0 →
    |y π - (cos (π * k) + π * q ^ 2 / (4 * k * (k ^ 2 - 1)) * sin (π * k))| ≤ C * |q| ^ 3 := by
  have hk0 : k ≠ 0 := hk.ne'
  have hp : (k + 2) ^ 2 ≠ k ^ 2 := by nlinarith
  have hm : (k - 2) ^ 2 ≠ k ^ 2 := by
    intro h
    apply hk1
    nlinarith
  obtain ⟨w4, w4', f4, e4⟩ := forced_even hk0 (m := k + 4) (n := 2) (by norm_num) (by push_cast; ring)
  obtain ⟨v4, v4', g4, d4⟩ := forced_even hk0 (m := k - 4) (n := -2) (by norm_num) (by push_cast; ring)
  have f2 := forced_off hp
  have g2 := forced_off hm
  have f0 := forced_on hk0 (rfl : k ^ 2 = k ^ 2)
  have hA : k ^ 2 - (k + 2) ^ 2 ≠ 0 := sub_ne_zero.2 fun e => hp e.symm
  have hB : k ^ 2 - (k - 2) ^ 2 ≠ 0 := sub_ne_zero.2 fun e => hm e.symm
  obtain ⟨A, hAe⟩ : ∃ A, A = 1 / (k ^ 2 - (k + 2) ^ 2) := ⟨_, rfl⟩
  obtain ⟨B, hBe⟩ : ∃ B, B = 1 / (k ^ 2 - (k - 2) ^ 2) := ⟨_, rfl⟩
  obtain ⟨w2, hw2⟩ : ∃ w : ℝ → ℝ, w = fun t => (cos ((k + 2) * t) - cos (k * t)) / (k ^ 2 - (k + 2) ^ 2) := ⟨_, rfl⟩
  obtain ⟨v2, hv2⟩ : ∃ w : ℝ → ℝ, w = fun t => (cos ((k - 2) * t) - cos (k * t)) / (k ^ 2 - (k - 2) ^ 2) := ⟨_, rfl⟩
  have ew : ∀ t, w2 t = A * (cos ((k + 2) * t) - cos (k * t)) := fun t => by rw [hw2, hAe]; ring
  have ev : ∀ t, v2 t = B * (cos ((k - 2) * t) - cos (k * t)) := fun t => by rw [hv2, hBe]; ring
  rw [← hw2] at f2
  rw [← hv2] at g2
  generalize (fun t => (k * sin (k * t) - (k + 2) * sin ((k + 2) * t)) / (k ^ 2 - (k + 2) ^ 2)) = w2' at f2
  generalize (fun t => (k * sin (k * t) - (k - 2) * sin ((k - 2) * t)) / (k ^ 2 - (k - 2) ^ 2)) = v2' at g2
  obtain ⟨u, hu⟩ : ∃ w : ℝ → ℝ, w = fun t => t * sin (k * t) / (2 * k) := ⟨_, rfl⟩
  have eu : u π = π * sin (k * π) / (2 * k) := by rw [hu]
  rw [← hu] at f0
  generalize (fun t => (sin (k * t) + t * (k * cos (k * t))) / (2 * k)) = u' at f0
  obtain ⟨C, hC, h⟩ := mathieu_second (a := k ^ 2) (y0 := fun t => cos (k * t)) (y0' := fun t => -(k * sin (k * t)))
    (y1 := fun t => w2 t + v2 t) (y1' := fun t => w2' t + v2' t)
    (y2 := fun t => A * w4 t + B * v4 t + (-A - B) * (w2 t + v2 t) + (A + B) * u t)
    (y2' := fun t => A * w4' t + B * v4' t + (-A - B) * (w2' t + v2' t) + (A + B) * u' t)
    (fun t => ⟨deriv_cos_mul k t, ((deriv_sin_mul k t).const_mul k).neg.congr_deriv (by ring)⟩)
    (fun t => ⟨(f2.2.2 t).1.add (g2.2.2 t).1, ((f2.2.2 t).2.add (g2.2.2 t).2).congr_deriv (by rw [two_cos_mul]; ring)⟩)
    (fun t => ⟨((((f4.2.2 t).1.const_mul A).add ((g4.2.2 t).1.const_mul B)).add (((f2.2.2 t).1.add (g2.2.2 t).1).const_mul (-A - B))).add
        ((f0.2.2 t).1.const_mul (A + B)),
      (((((f4.2.2 t).2.const_mul A).add ((g4.2.2 t).2.const_mul B)).add (((f2.2.2 t).2.add (g2.2.2 t).2).const_mul (-A - B))).add
        ((f0.2.2 t).2.const_mul (A + B))).congr_deriv (by
          have a1 := two_cos_mul k t
          have a2 := two_cos_mul (k + 2) t
          have a3 := two_cos_mul (k - 2) t
          rw [show k + 2 + 2 = k + 4 by ring, show k + 2 - 2 = k by ring] at a2
          rw [show k - 2 + 2 = k by ring, show k - 2 - 2 = k - 4 by ring] at a3
          have e1 : 2 * cos (2 * t) * (w2 t + v2 t) = A * (2 * cos (2 * t) * cos ((k + 2) * t)) + B * (2 * cos (2 * t) * cos ((k - 2) * t)) +
              (-A - B) * (2 * cos (2 * t) * cos (k * t)) := by rw [ew, ev]; ring
          rw [e1, a1, a2, a3]
          ring)⟩)
    ⟨by simp, by simp⟩ ⟨by simp [f2.1, g2.1], by simp [f2.2.1, g2.2.1]⟩
    ⟨by simp [f2.1, g2.1, f4.1, g4.1, f0.1], by simp [f2.2.1, g2.2.1, f4.2.1, g4.2.1, f0.2.1]⟩
  refine ⟨C, hC, fun q hq y y' hy hi hi' => ?_⟩
  have := h q hq y y' hy hi hi'
  have c2 : cos ((k + 2) * π) = cos (k * π) := by rw [add_mul, cos_add_two_pi]
  have c3 : cos ((k - 2) * π) = cos (k * π) := by rw [sub_mul, cos_sub_two_pi]
  have z2 : w2 π = 0 := by rw [ew, c2]; ring
  have z3 : v2 π = 0 := by rw [ev, c3]; ring
  simp only [z2, z3, e4, d4, eu] at this
  have hAB : A + B = 1 / (2 * (k ^ 2 - 1)) := by
    have h1 : k ^ 2 - 1 ≠ 0 := by
      intro h'
      have : (k - 1) * (k + 1) = 0 := by linarith
      rcases mul_eq_zero.1 this with h' | h'
      · exact hk1 (by linarith)
      · linarith
    rw [hAe, hBe]
    field_simp
    ring
  rw [hAB] at this
  convert this using 3
  rw [mul_comm π k]
  rw [← div_div, ← div_div, ← div_div]
  ring

theorem abs_mul_sq_le {x y q : ℝ} {d : ℝ} (h : |x| ≤ d) (hy : |y| ≤ q) : |x * y| ≤ d * q := by
  rw [abs_mul]
  exact mul_le_mul h hy (abs_nonneg _) ((abs_nonneg _).trans h)

/-- **C113**: for every `a > 0` that is not the square of a whole number, and small `q`, `nu_exp_d0ap` gives a number, the motion is
bounded, and the number differs from the characteristic exponent only by a term of third order in `q`. -/
theorem c113_d0ap {a : ℝ} (ha : 0 < a) (hn : ∀ n : ℕ, a ≠ n ^ 2) : ∃ C δ : ℝ, 0 < δ ∧ ∀ q, |q| < δ → ∀ y y', SolvesMathieu a q y y' →
    y 0 = 1 → y' 0 = 0 → ∃ nu nu', nuExpD0ap a q = some nu ∧ nuExpIvp (y π) = .bounded nu' ∧ |nu - nu'| ≤ C * |q| ^ 3 := by
  obtain ⟨k, hk, rfl⟩ : ∃ k : ℝ, 0 < k ∧ a = k ^ 2 := ⟨√a, sqrt_pos.2 ha, (sq_sqrt ha.le).symm⟩
  have hk1 : k ≠ 1 := fun h => hn 1 (by rw [h]; norm_num)
  have hsq : √(k ^ 2) = k := sqrt_sq hk.le
  have hd : k ^ 2 - 1 ≠ 0 := sub_ne_zero.2 fun h => hn 1 (by rw [h]; norm_num)
  have hs : sin (π * k) ≠ 0 := by
    intro h
    obtain ⟨n, h⟩ := sin_eq_zero_iff.1 h
    have h1 : (n : ℝ) = k := by
      have : π * ((n : ℝ) - k) = 0 := by linarith
      rcases mul_eq_zero.1 this with h2 | h2
      · exact absurd h2 pi_ne_zero
      · linarith
    have h2 : (0 : ℤ) ≤ n := by
      have : (0 : ℝ) < n := h1 ▸ hk
      exact_mod_cast this.le
    lift n to ℕ using h2
    exact hn n (by rw [← h1]; push_cast; rfl)
  have hc1 : cos (π * k) ^ 2 < 1 := by
    have := sin_sq_add_cos_sq (π * k)
    have h2 : 0 < sin (π * k) ^ 2 := by positivity
    linarith
  have hcl : |cos (π * k)| < 1 := (sq_lt_one_iff_abs_lt_one _).1 hc1
  obtain ⟨hcl1, hcl2⟩ := abs_lt.1 hcl
  obtain ⟨K, s, hsn, hL⟩ := (hasStrictDerivAt_arccos hcl1.ne' hcl2.ne).hasStrictFDerivAt.exists_lipschitzOnWith
  obtain ⟨r, hr, hrs⟩ := Metric.mem_nhds_iff.1 (Filter.inter_mem hsn (Ioo_mem_nhds hcl1 hcl2))
  obtain ⟨C, hC, hv⟩ := value_second hk hk1
  obtain ⟨P, hP⟩ : ∃ P, P = π / (4 * k * (k ^ 2 - 1)) * sin (π * k) := ⟨_, rfl⟩
  obtain ⟨D, hD⟩ : ∃ D, D = π ^ 4 / 96 - 25 * π ^ 2 / 256 := ⟨_, rfl⟩
  have hS : 0 < |P| + |D| + C + 1 := by positivity
  refine ⟨K * (C + |D|) / π, min 1 (r / (|P| + |D| + C + 1)), lt_min one_pos (by positivity), fun q hq y y' hy hi hi' => ?_⟩
  obtain ⟨hq1, hq2⟩ := lt_min_iff.1 hq
  rw [lt_div_iff₀ hS] at hq2
  have hv := hv q hq1.le y y' hy hi hi'
  rw [show π * q ^ 2 / (4 * k * (k ^ 2 - 1)) * sin (π * k) = P * q ^ 2 by rw [hP]; ring] at hv
  have q0 := abs_nonneg q
  have e2 : |q ^ 2| ≤ |q| := by rw [abs_pow]; nlinarith
  have e3 : |q| ^ 3 ≤ |q| := by
    have : |q| ^ 2 ≤ 1 := by nlinarith
    nlinarith
  have e4 : |q ^ 4| ≤ |q| ^ 3 := by
    rw [abs_pow]
    exact pow_le_pow_of_le_one q0 hq1.le (by norm_num)
  have b1 : |P * q ^ 2| ≤ |P| * |q| := abs_mul_sq_le le_rfl e2
  have b2 : |q ^ 4 * D| ≤ |D| * |q| ^ 3 := by rw [mul_comm]; exact abs_mul_sq_le le_rfl e4
  have b3 : |D| * |q| ^ 3 ≤ |D| * |q| := mul_le_mul_of_nonneg_left e3 (abs_nonneg D)
  have b4 : C * |q| ^ 3 ≤ C * |q| := mul_le_mul_of_nonneg_left e3 hC
  obtain ⟨F, hF⟩ : ∃ F, F = cos (π * k) + P * q ^ 2 + q ^ 4 * D := ⟨_, rfl⟩
  have hFs : F ∈ s ∩ Set.Ioo (-1) 1 := by
    apply hrs
    rw [Metric.mem_ball, Real.dist_eq, hF, add_assoc, add_sub_cancel_left]
    have := abs_add_le (P * q ^ 2) (q ^ 4 * D)
    nlinarith
  have hys : y π ∈ s ∩ Set.Ioo (-1) 1 := by
    apply hrs
    rw [Metric.mem_ball, Real.dist_eq]
    have := abs_add_le (y π - (cos (π * k) + P * q ^ 2)) (P * q ^ 2)
    rw [show y π - (cos (π * k) + P * q ^ 2) + P * q ^ 2 = y π - cos (π * k) by ring] at this
    nlinarith [abs_nonneg D]
  refine ⟨arccos F / π, arccos (y π) / π, ?_, ?_, ?_⟩
  · unfold nuExpD0ap
    rw [hsq]
    have : ¬ (k ^ 2 < 0 ∨ 4 * k * (k ^ 2 - 1) = 0) := by
      rintro (h | h)
      · linarith
      · exact mul_ne_zero (by positivity) hd h
    rw [if_neg this]
    have e : cos (π * k) + π * q ^ 2 / (4 * k * (k ^ 2 - 1)) * sin (π * k) + q ^ 4 * (π ^ 4 / 96 - 25 * π ^ 2 / 256) = F := by
      rw [hF, hP, hD]
      ring
    simp only [e]
    rw [if_pos (abs_le.2 ⟨hFs.2.1.le, hFs.2.2.le⟩)]
  · unfold nuExpIvp
    rw [if_neg (not_lt.2 (abs_le.2 ⟨hys.2.1.le, hys.2.2.le⟩))]
  · rw [← sub_div, abs_div, abs_of_pos pi_pos, div_mul_eq_mul_div]
    refine div_le_div_of_nonneg_right ?_ pi_pos.le
    have h1 := hL.dist_le_mul F hFs.1 (y π) hys.1
    rw [Real.dist_eq, Real.dist_eq] at h1
    have h2 : |F - y π| ≤ (C + |D|) * |q| ^ 3 := by
      have := abs_add_le (-(y π - (cos (π * k) + P * q ^ 2))) (q ^ 4 * D)
      rw [abs_neg, show -(y π - (cos (π * k) + P * q ^ 2)) + q ^ 4 * D = F - y π by rw [hF]; ring] at this
      linarith
    calc _ ≤ _ := h1
      _ ≤ K * ((C + |D|) * |q| ^ 3) := mul_le_mul_of_nonneg_left h2 K.2
      _ = _ := by ring

/-- a half is not a square of a whole number -/
example : (0 : ℝ) < 1 / 2 ∧ ∀ n : ℕ, (1 / 2 : ℝ) ≠ n ^ 2 := by
  refine ⟨by norm_num, fun n h => ?_⟩
  have h2 : (1 : ℝ) = 2 * n ^ 2 := by linarith
  have h3 : 1 = 2 * n ^ 2 := by exact_mod_cast h2
  omega

/-- the value after a period if `a` and `q` are small -/
theorem value_small {a q : ℝ} (ha : |a| ≤ q ^ 2) (hq : |q| ≤ 1) {y y' : ℝ → ℝ} (hy : SolvesMathieu a q y y') (hi : y 0 = 1) (hi' : y' 0 = 0) :
    |y π - (1 - π ^ 2 * (a + q ^ 2 / 2) / 2)| ≤ 28 * exp (4 * π) * |q| ^ 3 := by
  have q0 := abs_nonneg q
  have hq2 : q ^ 2 ≤ 1 := by rw [← sq_abs]; nlinarith
  have ha1 : |a| ≤ 1 := ha.trans hq2
  obtain ⟨w, hw⟩ : ∃ w : ℝ → ℝ, w = fun t => (1 - cos (2 * t)) / 4 - t ^ 2 / 4 + (cos (4 * t) - 1) / 32 := ⟨_, rfl⟩
  have hd : ∀ t, HasDerivAt w (sin (2 * t) / 2 - t / 2 - sin (4 * t) / 8) t := by
    intro t
    rw [hw]
    exact ((((deriv_cos_mul 2 t).const_sub 1).div_const 4).sub ((hasDerivAt_pow 2 t).div_const 4)).add
      (((deriv_cos_mul 4 t).sub_const 1).div_const 32) |>.congr_deriv (by norm_num; ring)
  have hd' : ∀ t, HasDerivAt (fun t => sin (2 * t) / 2 - t / 2 - sin (4 * t) / 8) (cos (2 * t) - 1 / 2 - cos (4 * t) / 2) t := by
    intro t
    exact ((((deriv_sin_mul 2 t).div_const 2).sub ((hasDerivAt_id' t).div_const 2)).sub ((deriv_sin_mul 4 t).div_const 8)).congr_deriv (by ring)
  have hc4 : ∀ t, cos (4 * t) = 2 * cos (2 * t) ^ 2 - 1 := by
    intro t
    rw [show 4 * t = 2 * (2 * t) by ring, cos_two_mul]
  have := mathieu_near (A := 1) (ε := 28 * |q| ^ 3) (z := fun t => 1 + q * ((1 - cos (2 * t)) / 2) + q ^ 2 * w t - a * t ^ 2 / 2)
    (z' := fun t => q * sin (2 * t) + q ^ 2 * (sin (2 * t) / 2 - t / 2 - sin (4 * t) / 8) - a * t)
    (e := fun t => a * (q * ((1 - cos (2 * t)) / 2) + q ^ 2 * w t - a * t ^ 2 / 2) - 2 * q * cos (2 * t) * (q ^ 2 * w t - a * t ^ 2 / 2)) hy
    (fun t => ⟨?_, ?_⟩) (by simp [hi, hw]) (by simp [hi']) ?_ ha1 hq
  · have e : (1 + q * ((1 - cos (2 * π)) / 2) + q ^ 2 * w π - a * π ^ 2 / 2) = 1 - π ^ 2 * (a + q ^ 2 / 2) / 2 := by
      rw [hw]
      simp only [hc4, cos_two_pi]
      ring
    rw [← e]
    calc _ ≤ _ := this
      _ = _ := by norm_num; ring
  · exact ((((((deriv_cos_mul 2 t).const_sub 1).div_const 2).const_mul q).const_add 1).add ((hd t).const_mul (q ^ 2))).sub
      (((hasDerivAt_pow 2 t).const_mul a).div_const 2) |>.congr_deriv (by norm_num; ring)
  · exact (((deriv_sin_mul 2 t).const_mul q).add ((hd' t).const_mul (q ^ 2))).sub ((hasDerivAt_id' t).const_mul a) |>.congr_deriv (by
      rw [hc4]; ring)
  · intro t ht
    have hc := abs_le.1 (abs_cos_le_one (2 * t))
    have hc' := abs_le.1 (abs_cos_le_one (4 * t))
    have ht2 : 0 ≤ t ^ 2 ∧ t ^ 2 ≤ 10 := by
      refine ⟨sq_nonneg t, ?_⟩
      have := pi_lt_d2
      nlinarith [ht.1, ht.2]
    have hη : |(1 - cos (2 * t)) / 2| ≤ 1 := by rw [abs_le]; constructor <;> linarith
    have hwb : |w t| ≤ 4 := by
      rw [hw, abs_le]
      constructor <;> simp only <;> linarith [ht2.1, ht2.2]
    have qq : |q ^ 2| = |q| ^ 2 := abs_pow q 2
    have ha' : |a| ≤ |q| ^ 2 := by rwa [sq_abs]
    have t1 : |q * ((1 - cos (2 * t)) / 2)| ≤ |q| * 1 := abs_mul_sq_le le_rfl hη
    have t2 : |q ^ 2 * w t| ≤ |q| ^ 2 * 4 := abs_mul_sq_le qq.le hwb
    have t3 : |a * t ^ 2 / 2| ≤ |q| ^ 2 * 5 := by
      rw [mul_div_assoc]
      refine abs_mul_sq_le ha' ?_
      rw [abs_of_nonneg (by linarith [ht2.1])]
      linarith [ht2.2]
    have t4 : |q ^ 2 * w t - a * t ^ 2 / 2| ≤ |q| ^ 2 * 9 := (abs_sub _ _).trans (by linarith)
    have t5 : |q * ((1 - cos (2 * t)) / 2) + q ^ 2 * w t - a * t ^ 2 / 2| ≤ |q| * 10 := by
      rw [add_sub_assoc]
      refine (abs_add_le _ _).trans ?_
      nlinarith
    have t6 : |2 * q * cos (2 * t)| ≤ 2 * |q| * 1 := by
      refine abs_mul_sq_le ?_ (abs_cos_le_one _)
      rw [abs_mul, abs_two]
    have t7 := abs_mul_sq_le ha' t5
    have t8 := abs_mul_sq_le t6 t4
    refine (abs_sub _ _).trans ?_
    calc _ ≤ |q| ^ 2 * (|q| * 10) + 2 * |q| * 1 * (|q| ^ 2 * 9) := add_le_add t7 t8
      _ = _ := by ring

theorem cos_sub_ge {x z : ℝ} (hx : 0 ≤ x) (hx1 : x ≤ π / 2) (hz : 0 ≤ z) (hz1 : z ≤ π / 2) : 2 / π ^ 2 * |x ^ 2 - z ^ 2| ≤ |cos x - cos z| := by
  have hp := pi_pos
  rw [cos_sub_cos, show -2 * sin ((x + z) / 2) * sin ((x - z) / 2) = -(2 * sin ((x + z) / 2) * sin ((x - z) / 2)) by ring, abs_neg, abs_mul, abs_mul, abs_two]
  have h1 : 2 / π * ((x + z) / 2) ≤ |sin ((x + z) / 2)| := (mul_le_sin (by linarith) (by linarith)).trans (le_abs_self _)
  have h2 : 2 / π * |(x - z) / 2| ≤ |sin ((x - z) / 2)| := by
    refine mul_abs_le_abs_sin ?_
    rw [abs_le]
    constructor <;> linarith
  have h3 := mul_le_mul h1 h2 (by positivity) (abs_nonneg _)
  have e : 2 / π ^ 2 * |x ^ 2 - z ^ 2| = 2 * (2 / π * ((x + z) / 2) * (2 / π * |(x - z) / 2|)) := by
    rw [show x ^ 2 - z ^ 2 = (x + z) * (x - z) by ring, abs_mul, abs_of_nonneg (by linarith : 0 ≤ x + z), abs_div, abs_two]
    field_simp
  rw [e, mul_assoc 2]
  linarith

/-- **C113**: for `|a| ≤ q²` and small `q` the square of the number from `nu_exp_bla` differs from that of the characteristic exponent only
by a term of third order in `q`, and the motion is bounded where the number under the root is positive, unbounded where it is negative, up to such a term. -/
theorem c113_bla : ∃ C δ : ℝ, 0 < δ ∧ ∀ a q, |a| ≤ q ^ 2 → |q| < δ → ∀ y y', SolvesMathieu a q y y' → y 0 = 1 → y' 0 = 0 →
    (0 ≤ a + q ^ 2 / 2 → ∃ nu, nuExpBla a q = some nu ∧ ∀ nu', nuExpIvp (y π) = .bounded nu' → |nu ^ 2 - nu' ^ 2| ≤ C * |q| ^ 3) ∧
    (C * |q| ^ 3 < a + q ^ 2 / 2 → ∃ nu', nuExpIvp (y π) = .bounded nu') ∧
    (a + q ^ 2 / 2 < -(C * |q| ^ 3) → nuExpBla a q = none ∧ ∃ x, nuExpIvp (y π) = .unbounded x) := by
  obtain ⟨B, hB⟩ : ∃ B, B = 28 * exp (4 * π) := ⟨_, rfl⟩
  have hB0 : 0 < B := by rw [hB]; positivity
  refine ⟨B + 12, 1 / (B + 30), by positivity, fun a q ha hq y y' hy hi hi' => ?_⟩
  have q0 := abs_nonneg q
  rw [lt_div_iff₀ (by positivity)] at hq
  have hq3 : |q| < 1 / 30 := by
    rw [lt_div_iff₀ (by norm_num)]
    nlinarith
  have hv := value_small ha (by linarith) hy hi hi'
  rw [← hB] at hv
  have hpi := pi_pos
  have hpi3 := pi_gt_three
  have hpi4 := pi_lt_d2
  have hpp : 9 < π ^ 2 ∧ π ^ 2 < 10 := ⟨by nlinarith, by nlinarith⟩
  obtain ⟨X, hX⟩ : ∃ X, X = a + q ^ 2 / 2 := ⟨_, rfl⟩
  rw [← hX] at hv ⊢
  have hXq : |X| ≤ 3 / 2 * |q| ^ 2 := by
    have h1 := abs_le.1 ha
    rw [hX, sq_abs, abs_le]
    constructor <;> linarith [sq_nonneg q]
  have hqs : |q| ^ 2 ≤ |q| / 30 := by nlinarith
  have hcube : |q| ^ 3 ≤ |q| / 900 := by
    have : |q| ^ 3 = |q| * |q| ^ 2 := by ring
    nlinarith
  have hX1 := abs_le.1 hXq
  have hv1 := abs_le.1 hv
  have hBc : B * |q| ^ 3 ≤ 1 / 900 := by
    have : B * |q| ^ 3 ≤ B * (|q| / 900) := mul_le_mul_of_nonneg_left hcube hB0.le
    have h2 : B * |q| ≤ 1 := by nlinarith
    linarith
  have hXp : |π ^ 2 * X / 2| ≤ 1 / 4 := by
    rw [abs_div, abs_mul, abs_of_pos (by positivity : (0:ℝ) < π ^ 2), abs_two]
    have : π ^ 2 * |X| ≤ 10 * (3 / 2 * |q| ^ 2) := mul_le_mul hpp.2.le hXq (abs_nonneg _) (by norm_num)
    nlinarith
  have hXp1 := abs_le.1 hXp
  have hy0 : 0 ≤ y π := by linarith [hv1.1]
  refine ⟨fun hX0 => ?_, fun hXC => ?_, fun hXC => ?_⟩
  · refine ⟨√X, ?_, fun nu' hnu => ?_⟩
    · unfold nuExpBla
      rw [← hX, if_neg (not_lt.2 hX0)]
    · unfold nuExpIvp at hnu
      split_ifs at hnu with hlt
      have hnu' : nu' = arccos (y π) / π := by cases hnu; rfl
      have hyl := abs_le.1 (not_lt.1 hlt)
      obtain ⟨z, hz⟩ : ∃ z, z = arccos (y π) := ⟨_, rfl⟩
      have hz0 : 0 ≤ z := hz ▸ arccos_nonneg _
      have hz1 : z ≤ π / 2 := hz ▸ arccos_le_pi_div_two.2 hy0
      have hcz : cos z = y π := by rw [hz, cos_arccos hyl.1 hyl.2]
      have hs : (π * √X) ^ 2 = π ^ 2 * X := by rw [mul_pow, sq_sqrt hX0]
      have hx0 : 0 ≤ π * √X := by positivity
      have hx1 : π * √X ≤ 1 := by
        have : (π * √X) ^ 2 ≤ 1 := by rw [hs]; linarith
        exact (sq_le_one_iff₀ hx0).1 this
      have hcb := cos_bound (x := π * √X) (by rwa [abs_of_nonneg hx0])
      rw [hs, abs_of_nonneg hx0, show (π * √X) ^ 4 = (π ^ 2 * X) ^ 2 by rw [← hs]; ring] at hcb
      have h4 : (π ^ 2 * X) ^ 2 ≤ 225 * |q| ^ 3 := by
        have h5 : π ^ 2 * X ≤ 15 * |q| ^ 2 := by
          have : π ^ 2 * X ≤ 10 * (3 / 2 * |q| ^ 2) := mul_le_mul hpp.2.le hX1.2 hX0 (by norm_num)
          linarith
        have h6 : (π ^ 2 * X) ^ 2 ≤ (15 * |q| ^ 2) ^ 2 := pow_le_pow_left₀ (by positivity) h5 2
        have h7 : |q| ^ 4 ≤ |q| ^ 3 := pow_le_pow_of_le_one q0 (by linarith) (by norm_num)
        calc _ ≤ _ := h6
          _ = 225 * |q| ^ 4 := by ring
          _ ≤ _ := by linarith
      have hdist : |cos (π * √X) - cos z| ≤ (B + 12) * |q| ^ 3 := by
        rw [hcz]
        have := abs_add_le (cos (π * √X) - (1 - π ^ 2 * X / 2)) (-(y π - (1 - π ^ 2 * X / 2)))
        rw [abs_neg, show cos (π * √X) - (1 - π ^ 2 * X / 2) + -(y π - (1 - π ^ 2 * X / 2)) = cos (π * √X) - y π by ring] at this
        have h8 : 0 ≤ |q| ^ 3 := by positivity
        linarith
      have hge := cos_sub_ge hx0 (by linarith) hz0 hz1
      rw [hnu', ← hz]
      have e : |√X ^ 2 - (z / π) ^ 2| = |(π * √X) ^ 2 - z ^ 2| / π ^ 2 := by
        rw [← abs_of_pos (by positivity : (0:ℝ) < π ^ 2), ← abs_div]
        congr 1
        field_simp
      rw [e]
      have h9 : 0 ≤ |(π * √X) ^ 2 - z ^ 2| / π ^ 2 := by positivity
      have h10 : 2 / π ^ 2 * |(π * √X) ^ 2 - z ^ 2| = 2 * (|(π * √X) ^ 2 - z ^ 2| / π ^ 2) := by ring
      linarith
  · have h8 : 0 ≤ |q| ^ 3 := by positivity
    refine ⟨_, if_neg (not_lt.2 (abs_le.2 ⟨by linarith, ?_⟩))⟩
    have : B * |q| ^ 3 ≤ π ^ 2 * X / 2 := by
      have h9 : B * |q| ^ 3 ≤ X := by linarith
      have hX0 : 0 ≤ X := by
        have : 0 ≤ (B + 12) * |q| ^ 3 := by positivity
        linarith
      have h10 : 9 * X ≤ π ^ 2 * X := mul_le_mul_of_nonneg_right hpp.1.le hX0
      linarith
    linarith [hv1.2]
  · have h8 : 0 ≤ |q| ^ 3 := by positivity
    have hXn : X < 0 := by
      have : 0 ≤ (B + 12) * |q| ^ 3 := by positivity
      linarith
    refine ⟨by unfold nuExpBla; rw [← hX, if_pos hXn], y π, if_pos (lt_of_lt_of_le ?_ (le_abs_self _))⟩
    have : B * |q| ^ 3 < -(π ^ 2 * X / 2) := by
      have h9 : B * |q| ^ 3 ≤ -X := by linarith
      have h10 : 9 * -X ≤ π ^ 2 * -X := mul_le_mul_of_nonneg_right hpp.1.le (by linarith)
      linarith
    linarith [hv1.1]

/-- the case `a = 0` -/
example (q : ℝ) : |(0 : ℝ)| ≤ q ^ 2 := by rw [abs_zero]; positivity

end Electrode
