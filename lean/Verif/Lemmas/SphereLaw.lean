import Mathlib.Analysis.SpecialFunctions.PolarCoord
import Mathlib.MeasureTheory.Function.JacobianOneDim
import Mathlib.MeasureTheory.Integral.IntervalIntegral.Periodic
import Mathlib.Analysis.SpecialFunctions.Integrals.Basic
import Mathlib.MeasureTheory.Measure.Lebesgue.EqHaar

/-
Integrals over the plane and over pairs of planes in polar coordinates, for the distribution of random quaternions.
-/
namespace Electrode

open MeasureTheory Set Real
open scoped ENNReal

/-- polar coordinates as two integrals -/
theorem lint_polar {g : ℝ × ℝ → ℝ≥0∞} (hg : Measurable g) :
    ∫⁻ p, g p = ∫⁻ r in Ioi (0 : ℝ), ENNReal.ofReal r * ∫⁻ θ in Ioo (-π) π, g (r * cos θ, r * sin θ) := by
  rw [← lintegral_comp_polarCoord_symm, polarCoord_target, Measure.volume_eq_prod, ← Measure.prod_restrict, lintegral_prod]
  · refine lintegral_congr fun r => ?_
    rw [← lintegral_const_mul]
    · rfl
    · fun_prop
  · refine Measurable.aemeasurable ?_
    simp only [polarCoord_symm_apply, smul_eq_mul]
    fun_prop

/-- all angles, from a number between zero and one -/
theorem lint_angle (h : ℝ × ℝ → ℝ≥0∞) :
    ∫⁻ θ in Ioo (-π) π, h (cos θ, sin θ) = ENNReal.ofReal (2 * π) * ∫⁻ v in Ico (0 : ℝ) 1, h (cos (2 * π * v), sin (2 * π * v)) := by
  have h2 : (0 : ℝ) < 2 * π := by positivity
  have hd := (isAddFundamentalDomain_Ioc h2 (-π)).setLIntegral_eq (isAddFundamentalDomain_Ioc h2 0) (fun θ => h (cos θ, sin θ)) (by
    rintro ⟨g, hg⟩ x
    obtain ⟨n, rfl⟩ := AddSubgroup.mem_zmultiples_iff.1 hg
    simp [AddSubgroup.vadd_def, add_comm _ x, cos_add_int_mul_two_pi, sin_add_int_mul_two_pi])
  rw [show -π + 2 * π = π by ring, zero_add] at hd
  rw [setLIntegral_congr Ioo_ae_eq_Ioc, hd]
  have himg : (fun v => 2 * π * v) '' Ioc (0 : ℝ) 1 = Ioc 0 (2 * π) := by
    ext x
    constructor
    · rintro ⟨v, ⟨h0, h1⟩, rfl⟩
      exact ⟨by positivity, by nlinarith⟩
    · rintro ⟨h0, h1⟩
      exact ⟨x / (2 * π), ⟨by positivity, by rw [div_le_one h2]; exact h1⟩, by field_simp⟩
  have hder : ∀ x ∈ Ioc (0 : ℝ) 1, HasDerivWithinAt (fun v => 2 * π * v) (2 * π) (Ioc 0 1) x := by
    intro x _
    simpa using ((hasDerivAt_id x).const_mul (2 * π)).hasDerivWithinAt
  rw [← himg, lintegral_image_eq_lintegral_abs_deriv_mul measurableSet_Ioc hder (fun a _ b _ e => mul_left_cancel₀ h2.ne' e)]
  rw [lintegral_const_mul']
  · rw [abs_of_pos h2, setLIntegral_congr (Ioo_ae_eq_Ioc (a := (0 : ℝ)) (b := 1)).symm, setLIntegral_congr Ioo_ae_eq_Ico]
  · exact ENNReal.ofReal_ne_top

/-- a quarter of the plane inside the unit circle: the direction has a squared cosine that is evenly distributed for this weight -/
theorem lint_quadrant {H : ℝ × ℝ → ℝ≥0∞} (hH : Measurable H) :
    ∫⁻ r in Ioi (0 : ℝ), ∫⁻ t in Ioi (0 : ℝ), ENNReal.ofReal r * (ENNReal.ofReal t * (if r ^ 2 + t ^ 2 < 1 then
      H (r / √(r ^ 2 + t ^ 2), t / √(r ^ 2 + t ^ 2)) else 0)) =
    ENNReal.ofReal (1 / 8) * ∫⁻ u in Ico (0 : ℝ) 1, H (√u, √(1 - u)) := by
  obtain ⟨K, hK⟩ : ∃ K : ℝ × ℝ → ℝ≥0∞, K = (Ioi (0 : ℝ) ×ˢ Ioi (0 : ℝ)).indicator fun p => ENNReal.ofReal p.1 * (ENNReal.ofReal p.2 *
    (if p.1 ^ 2 + p.2 ^ 2 < 1 then H (p.1 / √(p.1 ^ 2 + p.2 ^ 2), p.2 / √(p.1 ^ 2 + p.2 ^ 2)) else 0)) := ⟨_, rfl⟩
  have hm : Measurable fun p : ℝ × ℝ => ENNReal.ofReal p.1 * (ENNReal.ofReal p.2 *
      (if p.1 ^ 2 + p.2 ^ 2 < 1 then H (p.1 / √(p.1 ^ 2 + p.2 ^ 2), p.2 / √(p.1 ^ 2 + p.2 ^ 2)) else 0)) := by
    refine Measurable.mul (by fun_prop) (Measurable.mul (by fun_prop) (Measurable.ite ?_ ?_ measurable_const))
    · exact measurableSet_lt (by fun_prop) measurable_const
    · exact hH.comp (by fun_prop)
  have hKm : Measurable K := by
    rw [hK]
    exact hm.indicator (measurableSet_Ioi.prod measurableSet_Ioi)
  have h1 : ∫⁻ r in Ioi (0 : ℝ), ∫⁻ t in Ioi (0 : ℝ), ENNReal.ofReal r * (ENNReal.ofReal t * (if r ^ 2 + t ^ 2 < 1 then
      H (r / √(r ^ 2 + t ^ 2), t / √(r ^ 2 + t ^ 2)) else 0)) = ∫⁻ p, K p := by
    rw [hK, lintegral_indicator (measurableSet_Ioi.prod measurableSet_Ioi), Measure.volume_eq_prod, ← Measure.prod_restrict,
      lintegral_prod _ hm.aemeasurable]
  rw [h1, lint_polar hKm]
  have hK2 : ∀ s ∈ Ioi (0 : ℝ), ENNReal.ofReal s * ∫⁻ α in Ioo (-π) π, K (s * cos α, s * sin α) =
      (Ioo (0 : ℝ) 1).indicator (fun s => ENNReal.ofReal (s ^ 3)) s * ∫⁻ α in Ioo 0 (π / 2), ENNReal.ofReal (cos α * sin α) * H (cos α, sin α) := by
    intro s hs
    have hs : 0 < s := hs
    have e : ∀ α ∈ Ioo (-π) π, K (s * cos α, s * sin α) = (Ioo 0 (π / 2)).indicator (fun α => (Ioo (0 : ℝ) 1).indicator
        (fun s => ENNReal.ofReal (s ^ 2)) s * (ENNReal.ofReal (cos α * sin α) * H (cos α, sin α))) α := by
      intro α hα
      rw [hK]
      by_cases ha : α ∈ Ioo 0 (π / 2)
      · have hc : 0 < cos α := cos_pos_of_mem_Ioo ⟨by linarith [ha.1, pi_pos], ha.2⟩
        have hsn : 0 < sin α := sin_pos_of_pos_of_lt_pi ha.1 (by linarith [ha.2, pi_pos])
        rw [indicator_of_mem (show (s * cos α, s * sin α) ∈ Ioi (0 : ℝ) ×ˢ Ioi (0 : ℝ) from ⟨mul_pos hs hc, mul_pos hs hsn⟩),
          indicator_of_mem ha]
        have e1 : (s * cos α) ^ 2 + (s * sin α) ^ 2 = s ^ 2 := by
          have := sin_sq_add_cos_sq α
          linear_combination s ^ 2 * this
        simp only [e1]
        rw [sqrt_sq hs.le, mul_div_cancel_left₀ _ hs.ne', mul_div_cancel_left₀ _ hs.ne']
        by_cases h1 : s < 1
        · rw [if_pos (by nlinarith), indicator_of_mem (show s ∈ Ioo (0 : ℝ) 1 from ⟨hs, h1⟩), ← mul_assoc, ← mul_assoc,
            ← ENNReal.ofReal_mul (by positivity), ← ENNReal.ofReal_mul (by positivity)]
          congr 2
          ring
        · rw [if_neg (by nlinarith), indicator_of_notMem (show s ∉ Ioo (0 : ℝ) 1 from fun h => h1 h.2)]
          simp
      · rw [indicator_of_notMem ha, indicator_of_notMem]
        rintro ⟨hx, hy⟩
        have hx : 0 < s * cos α := hx
        have hy : 0 < s * sin α := hy
        apply ha
        have hc : 0 < cos α := pos_of_mul_pos_right hx hs.le
        have hsn : 0 < sin α := pos_of_mul_pos_right hy hs.le
        constructor
        · by_contra hneg
          have := sin_nonpos_of_nonpos_of_neg_pi_le (not_lt.1 hneg) hα.1.le
          linarith
        · by_contra hge
          have := cos_nonpos_of_pi_div_two_le_of_le (not_lt.1 hge) (by linarith [hα.2, pi_pos])
          linarith
    rw [setLIntegral_congr_fun measurableSet_Ioo e, lintegral_indicator measurableSet_Ioo, Measure.restrict_restrict measurableSet_Ioo,
      inter_eq_left.2 (Ioo_subset_Ioo (by linarith [pi_pos]) (by linarith [pi_pos])), lintegral_const_mul' _ _ (by
        by_cases h1 : s ∈ Ioo (0 : ℝ) 1
        · rw [indicator_of_mem h1]; simp
        · rw [indicator_of_notMem h1]; simp), ← mul_assoc]
    congr 1
    by_cases h1 : s ∈ Ioo (0 : ℝ) 1
    · rw [indicator_of_mem h1, indicator_of_mem h1, ← ENNReal.ofReal_mul hs.le]
      congr 1
      ring
    · rw [indicator_of_notMem h1, indicator_of_notMem h1, mul_zero]
  rw [setLIntegral_congr_fun measurableSet_Ioi hK2, lintegral_mul_const _ (by
    exact Measurable.indicator (by fun_prop) measurableSet_Ioo), lintegral_indicator measurableSet_Ioo,
    Measure.restrict_restrict measurableSet_Ioo, inter_eq_left.2 (fun x hx => hx.1)]
  have h3 : ∫⁻ s in Ioo (0 : ℝ) 1, ENNReal.ofReal (s ^ 3) = ENNReal.ofReal (1 / 4) := by
    rw [← ofReal_integral_eq_lintegral_ofReal]
    · rw [← integral_Ioc_eq_integral_Ioo, ← intervalIntegral.integral_of_le zero_le_one, integral_pow]
      norm_num
    · exact (Continuous.integrableOn_Icc (by fun_prop)).mono_set Ioo_subset_Icc_self
    · filter_upwards [ae_restrict_mem measurableSet_Ioo] with s hs
      exact pow_nonneg hs.1.le 3
  have himg : (fun α => cos α ^ 2) '' Ioo 0 (π / 2) = Ioo (0 : ℝ) 1 := by
    ext u
    constructor
    · rintro ⟨α, ha, rfl⟩
      have hc : 0 < cos α := cos_pos_of_mem_Ioo ⟨by linarith [ha.1, pi_pos], ha.2⟩
      have hsn : 0 < sin α := sin_pos_of_pos_of_lt_pi ha.1 (by linarith [ha.2, pi_pos])
      exact ⟨by positivity, by nlinarith [sin_sq_add_cos_sq α]⟩
    · rintro ⟨h0, h1⟩
      have hq0 : 0 < √u := sqrt_pos.2 h0
      have hq1 : √u < 1 := by rw [sqrt_lt' one_pos]; simpa using h1
      refine ⟨arccos √u, ⟨arccos_pos.2 hq1, by rw [arccos_lt_pi_div_two]; exact hq0⟩, ?_⟩
      simp only
      rw [cos_arccos (by linarith) hq1.le, sq_sqrt h0.le]
  have hinj : InjOn (fun α => cos α ^ 2) (Ioo 0 (π / 2)) := by
    intro a ha b hb e
    have hca : 0 < cos a := cos_pos_of_mem_Ioo ⟨by linarith [ha.1, pi_pos], ha.2⟩
    have hcb : 0 < cos b := cos_pos_of_mem_Ioo ⟨by linarith [hb.1, pi_pos], hb.2⟩
    have := (sq_eq_sq₀ hca.le hcb.le).1 e
    exact injOn_cos ⟨ha.1.le, by linarith [ha.2, pi_pos]⟩ ⟨hb.1.le, by linarith [hb.2, pi_pos]⟩ this
  have hder : ∀ x ∈ Ioo 0 (π / 2), HasDerivWithinAt (fun α => cos α ^ 2) (-(2 * cos x * sin x)) (Ioo 0 (π / 2)) x := by
    intro x _
    refine HasDerivAt.hasDerivWithinAt ?_
    exact ((hasDerivAt_cos x).pow 2).congr_deriv (by norm_num)
  have h4 : ∫⁻ u in Ico (0 : ℝ) 1, H (√u, √(1 - u)) =
      ENNReal.ofReal 2 * ∫⁻ α in Ioo 0 (π / 2), ENNReal.ofReal (cos α * sin α) * H (cos α, sin α) := by
    rw [setLIntegral_congr (Ioo_ae_eq_Ico (a := (0 : ℝ)) (b := 1)).symm, ← himg,
      lintegral_image_eq_lintegral_abs_deriv_mul measurableSet_Ioo
        hder hinj, ← lintegral_const_mul' _ _ (by simp)]
    refine setLIntegral_congr_fun measurableSet_Ioo fun α ha => ?_
    have hc : 0 < cos α := cos_pos_of_mem_Ioo ⟨by linarith [ha.1, pi_pos], ha.2⟩
    have hsn : 0 < sin α := sin_pos_of_pos_of_lt_pi ha.1 (by linarith [ha.2, pi_pos])
    have e1 : 1 - cos α ^ 2 = sin α ^ 2 := by linarith [sin_sq_add_cos_sq α]
    simp only [e1, sqrt_sq hc.le, sqrt_sq hsn.le]
    rw [← mul_assoc, ← ENNReal.ofReal_mul two_pos.le]
    congr 2
    rw [abs_neg, abs_of_pos (by positivity)]
    ring
  rw [h3, h4, ← mul_assoc, ← ENNReal.ofReal_mul (by norm_num)]
  norm_num

/-- two planes, both in polar coordinates -/
theorem lint_biplane {F : (ℝ × ℝ) × (ℝ × ℝ) → ℝ≥0∞} (hF : Measurable F) :
    ∫⁻ p, F p = ENNReal.ofReal (2 * π) * (ENNReal.ofReal (2 * π) * ∫⁻ r in Ioi (0 : ℝ), ∫⁻ t in Ioi (0 : ℝ), ENNReal.ofReal r * (ENNReal.ofReal t *
      ∫⁻ w in Ico (0 : ℝ) 1, ∫⁻ v in Ico (0 : ℝ) 1,
        F ((r * cos (2 * π * w), r * sin (2 * π * w)), (t * cos (2 * π * v), t * sin (2 * π * v))))) := by
  have htop : ENNReal.ofReal (2 * π) ≠ ⊤ := ENNReal.ofReal_ne_top
  rw [Measure.volume_eq_prod, lintegral_prod _ hF.aemeasurable]
  have h1 : ∀ p1 : ℝ × ℝ, ∫⁻ p2, F (p1, p2) = ENNReal.ofReal (2 * π) * ∫⁻ t in Ioi (0 : ℝ), ENNReal.ofReal t *
      ∫⁻ v in Ico (0 : ℝ) 1, F (p1, (t * cos (2 * π * v), t * sin (2 * π * v))) := by
    intro p1
    rw [lint_polar (g := fun p2 => F (p1, p2)) (by fun_prop), ← lintegral_const_mul' _ _ htop]
    refine lintegral_congr fun t => ?_
    rw [lint_angle fun q => F (p1, (t * q.1, t * q.2))]
    ring
  simp only [h1]
  have m1 : Measurable fun p : (ℝ × ℝ) × ℝ => ENNReal.ofReal p.2 *
      ∫⁻ v in Ico (0 : ℝ) 1, F (p.1, (p.2 * cos (2 * π * v), p.2 * sin (2 * π * v))) := by
    refine Measurable.mul (by fun_prop) ?_
    exact Measurable.lintegral_prod_right' (f := fun x : ((ℝ × ℝ) × ℝ) × ℝ => F (x.1.1, (x.1.2 * cos (2 * π * x.2), x.1.2 * sin (2 * π * x.2))))
      (by fun_prop)
  have m2 : Measurable fun p1 : ℝ × ℝ => ∫⁻ t in Ioi (0 : ℝ), ENNReal.ofReal t *
      ∫⁻ v in Ico (0 : ℝ) 1, F (p1, (t * cos (2 * π * v), t * sin (2 * π * v))) := m1.lintegral_prod_right'
  rw [lintegral_const_mul' _ _ htop, lint_polar m2]
  congr 1
  rw [← lintegral_const_mul' _ _ htop]
  refine lintegral_congr fun r => ?_
  rw [lint_angle fun q => ∫⁻ t in Ioi (0 : ℝ), ENNReal.ofReal t *
      ∫⁻ v in Ico (0 : ℝ) 1, F ((r * q.1, r * q.2), (t * cos (2 * π * v), t * sin (2 * π * v)))]
  rw [lintegral_const_mul' _ _ ENNReal.ofReal_ne_top, ← mul_assoc, ← mul_assoc, mul_comm (ENNReal.ofReal r)]
  congr 1
  rw [lintegral_lintegral_swap]
  · refine lintegral_congr fun t => ?_
    rw [lintegral_const_mul' _ _ ENNReal.ofReal_ne_top]
  · refine Measurable.aemeasurable ?_
    exact m1.comp (g := fun p : (ℝ × ℝ) × ℝ => _) (f := fun x : ℝ × ℝ => ((r * cos (2 * π * x.1), r * sin (2 * π * x.1)), x.2)) (by fun_prop)

/-- the integral over directions in four dimensions, as an integral over the unit ball -/
theorem lint_ball {G : (ℝ × ℝ) × (ℝ × ℝ) → ℝ≥0∞} (hG : Measurable G) :
    ∫⁻ p : (ℝ × ℝ) × (ℝ × ℝ), (if p.1.1 ^ 2 + p.1.2 ^ 2 + (p.2.1 ^ 2 + p.2.2 ^ 2) < 1 then
      G ((√(p.1.1 ^ 2 + p.1.2 ^ 2 + (p.2.1 ^ 2 + p.2.2 ^ 2)))⁻¹ • p) else 0) =
    ENNReal.ofReal (π ^ 2 / 2) * ∫⁻ u in Ico (0 : ℝ) 1, ∫⁻ w in Ico (0 : ℝ) 1, ∫⁻ v in Ico (0 : ℝ) 1,
      G ((√u * cos (2 * π * w), √u * sin (2 * π * w)), (√(1 - u) * cos (2 * π * v), √(1 - u) * sin (2 * π * v))) := by
  rw [lint_biplane]
  · have hn : ∀ r t w v : ℝ, (r * cos w) ^ 2 + (r * sin w) ^ 2 + ((t * cos v) ^ 2 + (t * sin v) ^ 2) = r ^ 2 + t ^ 2 := by
      intro r t w v
      linear_combination r ^ 2 * sin_sq_add_cos_sq w + t ^ 2 * sin_sq_add_cos_sq v
    simp only [hn]
    obtain ⟨H, hH⟩ : ∃ H : ℝ × ℝ → ℝ≥0∞, H = fun x => ∫⁻ w in Ico (0 : ℝ) 1, ∫⁻ v in Ico (0 : ℝ) 1,
      G ((x.1 * cos (2 * π * w), x.1 * sin (2 * π * w)), (x.2 * cos (2 * π * v), x.2 * sin (2 * π * v))) := ⟨_, rfl⟩
    have hm : Measurable H := by
      rw [hH]
      refine Measurable.lintegral_prod_right' (f := fun y : (ℝ × ℝ) × ℝ => ∫⁻ v in Ico (0 : ℝ) 1,
        G ((y.1.1 * cos (2 * π * y.2), y.1.1 * sin (2 * π * y.2)), (y.1.2 * cos (2 * π * v), y.1.2 * sin (2 * π * v)))) ?_
      exact Measurable.lintegral_prod_right' (f := fun y : ((ℝ × ℝ) × ℝ) × ℝ =>
        G ((y.1.1.1 * cos (2 * π * y.1.2), y.1.1.1 * sin (2 * π * y.1.2)), (y.1.1.2 * cos (2 * π * y.2), y.1.1.2 * sin (2 * π * y.2))))
        (by fun_prop)
    have e : ∀ r t : ℝ, (∫⁻ w in Ico (0 : ℝ) 1, ∫⁻ v in Ico (0 : ℝ) 1, if r ^ 2 + t ^ 2 < 1 then
        G ((√(r ^ 2 + t ^ 2))⁻¹ • ((r * cos (2 * π * w), r * sin (2 * π * w)), (t * cos (2 * π * v), t * sin (2 * π * v)))) else 0) =
        if r ^ 2 + t ^ 2 < 1 then H (r / √(r ^ 2 + t ^ 2), t / √(r ^ 2 + t ^ 2)) else 0 := by
      intro r t
      by_cases h : r ^ 2 + t ^ 2 < 1
      · simp only [if_pos h, hH]
        refine lintegral_congr fun w => lintegral_congr fun v => ?_
        congr 1
        simp only [Prod.smul_mk, smul_eq_mul]
        congr 2 <;> ring
      · simp [if_neg h]
    simp only [e]
    rw [lint_quadrant hm, hH, ← mul_assoc, ← mul_assoc, ← ENNReal.ofReal_mul (by positivity), ← ENNReal.ofReal_mul (by positivity)]
    congr 2
    ring
  · refine Measurable.ite (measurableSet_lt (by fun_prop) measurable_const) ?_ measurable_const
    exact hG.comp (by fun_prop)

end Electrode
