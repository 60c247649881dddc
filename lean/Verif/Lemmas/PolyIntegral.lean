import Verif.Lemmas.EdgeArctan
import Verif.Spec.Region
import Mathlib.Analysis.SpecialFunctions.ImproperIntegrals
import Mathlib.Analysis.SpecialFunctions.Sqrt
import Mathlib.MeasureTheory.Integral.Prod
import Mathlib.MeasureTheory.Integral.IntegralEqImproper
import Mathlib.MeasureTheory.Integral.IntervalIntegral.FundThmCalculus

/-
The order 0 edge term as an integral of the pixel density over the strip to the left of the
edge, up to a term that telescopes around a closed boundary.
-/
namespace Electrode
open Spec Real MeasureTheory Set Filter Topology
namespace PolyInt

/-! ### The line integral of the pixel density -/

theorem cube_deriv (m c : ℝ) (hm : 0 < m) (x : ℝ) :
    HasDerivAt (fun x => (x - c) / (m * √((x - c) ^ 2 + m))) (1 / √((x - c) ^ 2 + m) ^ 3) x := by
  have hp : 0 < (x - c) ^ 2 + m := by positivity
  have hs : 0 < √((x - c) ^ 2 + m) := Real.sqrt_pos.mpr hp
  have h1 : HasDerivAt (fun x : ℝ => x - c) 1 x := (hasDerivAt_id x).sub_const c
  have h2 := ((h1.fun_pow 2).add_const m).sqrt hp.ne'
  have h3 := h1.fun_div (h2.const_mul m) (mul_pos hm hs).ne'
  refine h3.congr_deriv ?_
  have hq : √((x - c) ^ 2 + m) ^ 2 = (x - c) ^ 2 + m := Real.sq_sqrt hp.le
  generalize √((x - c) ^ 2 + m) = r at *
  generalize x - c = t at *
  simp only [Nat.cast_ofNat, Nat.add_one_sub_one, pow_one]
  field_simp
  linear_combination hq

theorem inv_integrable (m c : ℝ) (hm : 0 < m) : Integrable fun x : ℝ => ((x - c) ^ 2 + m)⁻¹ := by
  have h1 : Integrable fun x : ℝ => m⁻¹ * (1 + ((x - c) / √m) ^ 2)⁻¹ :=
    (((integrable_inv_one_add_sq).comp_div (Real.sqrt_pos.mpr hm).ne').comp_sub_right c).const_mul m⁻¹
  refine h1.congr (Eventually.of_forall fun x => ?_)
  simp only
  rw [div_pow, Real.sq_sqrt hm.le, ← mul_inv]
  congr 1
  field_simp
  ring

theorem cube_le (m c : ℝ) (hm : 0 < m) (x : ℝ) :
    1 / √((x - c) ^ 2 + m) ^ 3 ≤ (√m)⁻¹ * ((x - c) ^ 2 + m)⁻¹ := by
  have hp : 0 < (x - c) ^ 2 + m := by positivity
  have h1 : √m ≤ √((x - c) ^ 2 + m) := Real.sqrt_le_sqrt (by nlinarith [sq_nonneg (x - c)])
  have h2 : √((x - c) ^ 2 + m) ^ 3 = √((x - c) ^ 2 + m) * ((x - c) ^ 2 + m) := by
    rw [pow_succ, Real.sq_sqrt hp.le]; ring
  rw [h2, ← mul_inv, one_div]
  have hs := Real.sqrt_pos.mpr hm
  gcongr

theorem cube_integrable (m c : ℝ) (hm : 0 < m) : Integrable fun x : ℝ => 1 / √((x - c) ^ 2 + m) ^ 3 := by
  have hpos : ∀ x : ℝ, 0 < √((x - c) ^ 2 + m) := fun x => Real.sqrt_pos.mpr (by positivity)
  refine ((inv_integrable m c hm).const_mul (√m)⁻¹).mono' ?_ (Eventually.of_forall fun x => ?_)
  · apply Continuous.aestronglyMeasurable
    refine continuous_const.div (by fun_prop) fun x => (pow_pos (hpos x) 3).ne'
  · rw [Real.norm_of_nonneg (by have := hpos x; positivity)]
    exact cube_le m c hm x

theorem div_sqrt_atTop (m : ℝ) (hm : 0 < m) : Tendsto (fun x : ℝ => x / √(x ^ 2 + m)) atTop (𝓝 1) := by
  have h1 : Tendsto (fun x : ℝ => √(1 + m / x ^ 2)) atTop (𝓝 (√(1 + 0))) := by
    refine (Real.continuous_sqrt.tendsto _).comp (tendsto_const_nhds.add ?_)
    exact tendsto_const_nhds.div_atTop (tendsto_pow_atTop (by norm_num))
  rw [add_zero, Real.sqrt_one] at h1
  have h2 := h1.inv₀ one_ne_zero
  rw [inv_one] at h2
  refine h2.congr' ?_
  filter_upwards [eventually_gt_atTop 0] with x hx
  have : 1 + m / x ^ 2 = (x ^ 2 + m) / x ^ 2 := by field_simp
  rw [this, Real.sqrt_div (by positivity), Real.sqrt_sq hx.le, inv_div]

theorem div_sqrt_atBot (m : ℝ) (hm : 0 < m) : Tendsto (fun x : ℝ => x / √(x ^ 2 + m)) atBot (𝓝 (-1)) := by
  have h := (div_sqrt_atTop m hm).comp tendsto_neg_atBot_atTop
  refine (h.neg).congr fun x => ?_
  simp only [Function.comp_apply, neg_sq, neg_div, neg_neg]

theorem cube_prim_atBot (m c : ℝ) (hm : 0 < m) :
    Tendsto (fun x : ℝ => (x - c) / (m * √((x - c) ^ 2 + m))) atBot (𝓝 (-1 / m)) := by
  have h := ((div_sqrt_atBot m hm).comp (tendsto_atBot_add_const_right atBot (-c) tendsto_id)).div_const m
  refine h.congr fun x => ?_
  simp only [Function.comp_apply, id, ← sub_eq_add_neg]
  rw [div_div, mul_comm]

theorem cube_prim_atTop (m c : ℝ) (hm : 0 < m) :
    Tendsto (fun x : ℝ => (x - c) / (m * √((x - c) ^ 2 + m))) atTop (𝓝 (1 / m)) := by
  have h := ((div_sqrt_atTop m hm).comp (tendsto_atTop_add_const_right atTop (-c) tendsto_id)).div_const m
  refine h.congr fun x => ?_
  simp only [Function.comp_apply, id, ← sub_eq_add_neg]
  rw [div_div, mul_comm]

theorem cube_Iic (m c X : ℝ) (hm : 0 < m) :
    ∫ x in Iic X, 1 / √((x - c) ^ 2 + m) ^ 3 = 1 / m * (1 + (X - c) / √((X - c) ^ 2 + m)) := by
  rw [integral_Iic_of_hasDerivAt_of_tendsto' (fun x _ => cube_deriv m c hm x) (cube_integrable m c hm).integrableOn
    (cube_prim_atBot m c hm)]
  have : √((X - c) ^ 2 + m) ≠ 0 := (Real.sqrt_pos.mpr (by positivity)).ne'
  field_simp
  ring

theorem cube_total (m c : ℝ) (hm : 0 < m) : ∫ x : ℝ, 1 / √((x - c) ^ 2 + m) ^ 3 = 2 / m := by
  rw [integral_of_hasDerivAt_of_tendsto (fun x => cube_deriv m c hm x) (cube_integrable m c hm)
    (cube_prim_atBot m c hm) (cube_prim_atTop m c hm)]
  ring

/-! ### The pixel density -/

theorem pixel_eq (p : V3) (x y : ℝ) :
    Spec.pixelAt p (x, y) = p.z / (2 * π) * (1 / √((x - p.x) ^ 2 + ((y - p.y) ^ 2 + p.z ^ 2)) ^ 3) := by
  simp only [Spec.pixelAt]
  rw [show (p.x - x) ^ 2 + (p.y - y) ^ 2 + p.z ^ 2 = (x - p.x) ^ 2 + ((y - p.y) ^ 2 + p.z ^ 2) by ring]
  rw [div_mul_div_comm, mul_one]

theorem pixel_pos {p : V3} (hz : 0 < p.z) (q : ℝ × ℝ) : 0 < Spec.pixelAt p q := by
  simp only [Spec.pixelAt]
  have : 0 < √((p.x - q.1) ^ 2 + (p.y - q.2) ^ 2 + p.z ^ 2) := Real.sqrt_pos.mpr (by positivity)
  positivity

theorem pixel_continuous {p : V3} (hz : 0 < p.z) : Continuous (Spec.pixelAt p) := by
  unfold Spec.pixelAt
  refine continuous_const.div (by fun_prop) fun q => ?_
  have : 0 < √((p.x - q.1) ^ 2 + (p.y - q.2) ^ 2 + p.z ^ 2) := Real.sqrt_pos.mpr (by positivity)
  positivity

theorem pixel_line {p : V3} (hz : 0 < p.z) (y : ℝ) :
    ∫ x : ℝ, Spec.pixelAt p (x, y) = p.z / π * ((y - p.y) ^ 2 + p.z ^ 2)⁻¹ := by
  simp only [pixel_eq]
  rw [integral_const_mul, cube_total _ _ (by positivity)]
  have := Real.pi_pos
  field_simp

theorem pixel_line_integrable {p : V3} (hz : 0 < p.z) (y : ℝ) : Integrable fun x : ℝ => Spec.pixelAt p (x, y) := by
  simp only [pixel_eq]
  exact (cube_integrable _ _ (by positivity)).const_mul _

theorem pixel_half {p : V3} (hz : 0 < p.z) (X y : ℝ) :
    ∫ x in Iio X, Spec.pixelAt p (x, y)
      = p.z / (2 * π) * (1 / ((y - p.y) ^ 2 + p.z ^ 2)
        * (1 + (X - p.x) / √((X - p.x) ^ 2 + ((y - p.y) ^ 2 + p.z ^ 2)))) := by
  simp only [pixel_eq]
  rw [← integral_Iic_eq_integral_Iio, integral_const_mul, cube_Iic _ _ _ (by positivity)]

theorem pixel_integrable {p : V3} (hz : 0 < p.z) : Integrable (Spec.pixelAt p) := by
  rw [Measure.volume_eq_prod, integrable_prod_iff' (pixel_continuous hz).aestronglyMeasurable]
  refine ⟨Eventually.of_forall fun y => pixel_line_integrable hz y, ?_⟩
  have : (fun y : ℝ => ∫ x : ℝ, ‖Spec.pixelAt p (x, y)‖) = fun y => p.z / π * ((y - p.y) ^ 2 + p.z ^ 2)⁻¹ := by
    funext y
    rw [← pixel_line hz y]
    congr 1
    funext x
    exact Real.norm_of_nonneg (pixel_pos hz _).le
  rw [this]
  exact (inv_integrable _ _ (by positivity)).const_mul _

theorem inv_total (m c : ℝ) (hm : 0 < m) : ∫ x : ℝ, ((x - c) ^ 2 + m ^ 2)⁻¹ = π / m := by
  have h1 : (fun x : ℝ => ((x - c) ^ 2 + m ^ 2)⁻¹) = fun x => (m ^ 2)⁻¹ * (1 + ((x - c) / m) ^ 2)⁻¹ := by
    funext x
    rw [div_pow, ← mul_inv]
    congr 1
    field_simp
    ring
  rw [h1, integral_const_mul, integral_sub_right_eq_self (fun x : ℝ => (1 + (x / m) ^ 2)⁻¹) c,
    Measure.integral_comp_div (fun x : ℝ => (1 + x ^ 2)⁻¹) m, integral_univ_inv_one_add_sq, smul_eq_mul, abs_of_pos hm]
  field_simp

theorem pixel_total {p : V3} (hz : 0 < p.z) : ∫ q, Spec.pixelAt p q = 1 := by
  rw [Measure.volume_eq_prod, integral_prod_symm _ (by rw [← Measure.volume_eq_prod]; exact pixel_integrable hz)]
  simp only [pixel_line hz]
  rw [integral_const_mul, inv_total _ _ hz]
  have := Real.pi_pos
  field_simp

/-! ### One edge -/

/-- the edge term for `z > 0`, in coordinates relative to the position -/
noncomputable def edgeE (z ax ay bx by' : ℝ) : ℝ :=
  1 / π * arctan ((ax * by' - ay * bx) / (√(ax ^ 2 + ay ^ 2 + z ^ 2) * √(bx ^ 2 + by' ^ 2 + z ^ 2) + ax * bx + ay * by'
    + z * (z + √(ax ^ 2 + ay ^ 2 + z ^ 2) + √(bx ^ 2 + by' ^ 2 + z ^ 2))))

/-- the telescoping term -/
noncomputable def edgeG (z x y : ℝ) : ℝ := 1 / π * arctan (y / (√(x ^ 2 + y ^ 2 + z ^ 2) - x + z))

theorem abs_le_r (x y z : ℝ) : |x| ≤ √(x ^ 2 + y ^ 2 + z ^ 2) := by
  rw [← Real.sqrt_sq_eq_abs]
  exact Real.sqrt_le_sqrt (by nlinarith [sq_nonneg y, sq_nonneg z])

theorem z_le_r (x y z : ℝ) : |z| ≤ √(x ^ 2 + y ^ 2 + z ^ 2) := by
  rw [← Real.sqrt_sq_eq_abs]
  exact Real.sqrt_le_sqrt (by nlinarith [sq_nonneg y, sq_nonneg x])

theorem edge_den_pos (z ax ay bx b : ℝ) (hz : 0 < z) :
    0 < √(ax ^ 2 + ay ^ 2 + z ^ 2) * √(bx ^ 2 + b ^ 2 + z ^ 2) + ax * bx + ay * b
      + z * (z + √(ax ^ 2 + ay ^ 2 + z ^ 2) + √(bx ^ 2 + b ^ 2 + z ^ 2)) := by
  have h1 : 0 < √(ax ^ 2 + ay ^ 2 + z ^ 2) := Real.sqrt_pos.mpr (by positivity)
  have h2 : 0 < √(bx ^ 2 + b ^ 2 + z ^ 2) := Real.sqrt_pos.mpr (by positivity)
  have q1 := Real.sq_sqrt (show 0 ≤ ax ^ 2 + ay ^ 2 + z ^ 2 by positivity)
  have q2 := Real.sq_sqrt (show 0 ≤ bx ^ 2 + b ^ 2 + z ^ 2 by positivity)
  generalize √(ax ^ 2 + ay ^ 2 + z ^ 2) = r1 at *
  generalize √(bx ^ 2 + b ^ 2 + z ^ 2) = r2 at *
  have h3 : |ax * bx + ay * b| ≤ r1 * r2 := by
    apply abs_le_of_sq_le_sq _ (by positivity)
    rw [mul_pow, q1, q2]
    nlinarith [sq_nonneg (ax * b - ay * bx), sq_nonneg (z * ax), sq_nonneg (z * ay), sq_nonneg (z * bx), sq_nonneg (z * b),
      sq_nonneg (z * z)]
  have := neg_abs_le (ax * bx + ay * b)
  have : 0 < z * (z + r1 + r2) := by positivity
  linarith

theorem atan_alg (n d n' d' T : ℝ) (hd : d ≠ 0) (h : n' * d - n * d' = T * (n ^ 2 + d ^ 2)) :
    1 / (1 + (n / d) ^ 2) * ((n' * d - n * d') / d ^ 2) = T := by
  have h1 : 1 + (n / d) ^ 2 = (n ^ 2 + d ^ 2) / d ^ 2 := by field_simp; ring
  have h2 : n ^ 2 + d ^ 2 ≠ 0 := by positivity
  rw [h, h1]
  field_simp

theorem edge_alg (z ax ay dx dy s r1 r r' : ℝ) (hr : 0 < r) (hrz : 0 < r + z) (q1 : r1 ^ 2 = ax ^ 2 + ay ^ 2 + z ^ 2)
    (q2 : r ^ 2 = (ax + s * dx) ^ 2 + (ay + s * dy) ^ 2 + z ^ 2)
    (hr' : r * r' = (ax + s * dx) * dx + (ay + s * dy) * dy) :
    (ax * dy - ay * dx) * (r1 * r + ax * (ax + s * dx) + ay * (ay + s * dy) + z * (z + r1 + r))
      - (ax * (ay + s * dy) - ay * (ax + s * dx)) * (r1 * r' + ax * dx + ay * dy + z * r')
    = (ax * dy - ay * dx) / (2 * r * (r + z))
      * ((ax * (ay + s * dy) - ay * (ax + s * dx)) ^ 2
        + (r1 * r + ax * (ax + s * dx) + ay * (ay + s * dy) + z * (z + r1 + r)) ^ 2) := by
  have hA : (ax * (ay + s * dy) - ay * (ax + s * dx)) ^ 2
        + (r1 * r + ax * (ax + s * dx) + ay * (ay + s * dy) + z * (z + r1 + r)) ^ 2
      = 2 * (r1 + z) * (r + z) * (r1 * r + z ^ 2 + (ax * (ax + s * dx) + ay * (ay + s * dy))) := by
    linear_combination (-(r ^ 2 - z ^ 2)) * q1 - (ax ^ 2 + ay ^ 2) * q2
  have hB : r * ((r1 * r + ax * (ax + s * dx) + ay * (ay + s * dy) + z * (z + r1 + r))
        - s * (r1 * r' + ax * dx + ay * dy + z * r'))
      = (r1 + z) * (r1 * r + z ^ 2 + (ax * (ax + s * dx) + ay * (ay + s * dy))) := by
    linear_combination (r1 + z) * q2 - r * q1 - (r1 + z) * s * hr'
  rw [hA]
  field_simp
  linear_combination (ax * dy - ay * dx) * hB

/-- the edge term along the edge -/
theorem edge_deriv (z ax ay dx dy : ℝ) (hz : 0 < z) (s : ℝ) :
    HasDerivAt (fun s => edgeE z ax ay (ax + s * dx) (ay + s * dy))
      (1 / π * ((ax * dy - ay * dx) / (2 * √((ax + s * dx) ^ 2 + (ay + s * dy) ^ 2 + z ^ 2)
        * (√((ax + s * dx) ^ 2 + (ay + s * dy) ^ 2 + z ^ 2) + z)))) s := by
  have hpos : 0 < (ax + s * dx) ^ 2 + (ay + s * dy) ^ 2 + z ^ 2 := by positivity
  have hx : HasDerivAt (fun s : ℝ => ax + s * dx) dx s := by
    simpa using ((hasDerivAt_id s).mul_const dx).const_add ax
  have hy : HasDerivAt (fun s : ℝ => ay + s * dy) dy s := by
    simpa using ((hasDerivAt_id s).mul_const dy).const_add ay
  have hr := ((((hx.fun_pow 2).fun_add (hy.fun_pow 2)).add_const (z ^ 2)).sqrt hpos.ne')
  have hn := (hy.const_mul ax).fun_sub (hx.const_mul ay)
  have hd := (((hr.const_mul (√(ax ^ 2 + ay ^ 2 + z ^ 2))).fun_add (hx.const_mul ax)).fun_add (hy.const_mul ay)).fun_add
    ((hr.const_add (z + √(ax ^ 2 + ay ^ 2 + z ^ 2))).const_mul z)
  have hden := edge_den_pos z ax ay (ax + s * dx) (ay + s * dy) hz
  have h := ((hn.fun_div hd hden.ne').arctan).const_mul (1 / π)
  refine h.congr_deriv ?_
  congr 1
  have h1 : 0 < √(ax ^ 2 + ay ^ 2 + z ^ 2) := Real.sqrt_pos.mpr (by positivity)
  have h2 : 0 < √((ax + s * dx) ^ 2 + (ay + s * dy) ^ 2 + z ^ 2) := Real.sqrt_pos.mpr hpos
  have q1 := Real.sq_sqrt (show 0 ≤ ax ^ 2 + ay ^ 2 + z ^ 2 by positivity)
  have q2 := Real.sq_sqrt hpos.le
  generalize √(ax ^ 2 + ay ^ 2 + z ^ 2) = r1 at *
  generalize √((ax + s * dx) ^ 2 + (ay + s * dy) ^ 2 + z ^ 2) = r at *
  refine atan_alg _ _ _ _ _ hden.ne' ?_
  have ha := edge_alg z ax ay dx dy s r1 r (((ax + s * dx) * dx + (ay + s * dy) * dy) / r) h2 (by linarith) q1 q2
    (by field_simp)
  convert ha using 3
  · simp only [Nat.cast_ofNat, Nat.add_one_sub_one, pow_one]
    field_simp

theorem edgeG_deriv (z ax ay dx dy : ℝ) (hz : 0 < z) (s : ℝ) :
    HasDerivAt (fun s => edgeG z (ax + s * dx) (ay + s * dy))
      (1 / π * (((ay + s * dy) * dx - (ax + s * dx) * dy) / (2 * √((ax + s * dx) ^ 2 + (ay + s * dy) ^ 2 + z ^ 2)
        * (√((ax + s * dx) ^ 2 + (ay + s * dy) ^ 2 + z ^ 2) + z))
        + z * dy / (2 * ((ay + s * dy) ^ 2 + z ^ 2))
          * (1 + (ax + s * dx) / √((ax + s * dx) ^ 2 + (ay + s * dy) ^ 2 + z ^ 2)))) s := by
  have hpos : 0 < (ax + s * dx) ^ 2 + (ay + s * dy) ^ 2 + z ^ 2 := by positivity
  have hx : HasDerivAt (fun s : ℝ => ax + s * dx) dx s := by
    simpa using ((hasDerivAt_id s).mul_const dx).const_add ax
  have hy : HasDerivAt (fun s : ℝ => ay + s * dy) dy s := by
    simpa using ((hasDerivAt_id s).mul_const dy).const_add ay
  have hr := ((((hx.fun_pow 2).fun_add (hy.fun_pow 2)).add_const (z ^ 2)).sqrt hpos.ne')
  have hab := abs_le_r (ax + s * dx) (ay + s * dy) z
  have hle := (abs_le.mp hab).2
  have hd := (hr.fun_sub hx).add_const z
  have hden : √((ax + s * dx) ^ 2 + (ay + s * dy) ^ 2 + z ^ 2) - (ax + s * dx) + z ≠ 0 := by linarith
  have h := ((hy.fun_div hd hden).arctan).const_mul (1 / π)
  refine h.congr_deriv ?_
  congr 1
  have h2 : 0 < √((ax + s * dx) ^ 2 + (ay + s * dy) ^ 2 + z ^ 2) := Real.sqrt_pos.mpr hpos
  have q2 := Real.sq_sqrt hpos.le
  generalize √((ax + s * dx) ^ 2 + (ay + s * dy) ^ 2 + z ^ 2) = r at *
  generalize ax + s * dx = x at *
  generalize ay + s * dy = y at *
  refine atan_alg _ _ _ _ _ hden ?_
  have hyz : 0 < y ^ 2 + z ^ 2 := by positivity
  have hA : y ^ 2 + (r - x + z) ^ 2 = 2 * (r - x) * (r + z) := by linear_combination (-1 : ℝ) * q2
  have hB : (r - x) * (1 + x / r) = (y ^ 2 + z ^ 2) / r := by
    field_simp
    linear_combination q2
  have hC : z * dy / (2 * (y ^ 2 + z ^ 2)) * (1 + x / r) * (2 * (r - x) * (r + z)) = z * dy * (r + z) / r := by
    have : z * dy / (2 * (y ^ 2 + z ^ 2)) * (1 + x / r) * (2 * (r - x) * (r + z))
        = z * dy / (y ^ 2 + z ^ 2) * ((r - x) * (1 + x / r)) * (r + z) := by field_simp
    rw [this, hB]
    field_simp
  rw [hA, add_mul, hC]
  simp only [Nat.cast_ofNat, Nat.add_one_sub_one, pow_one]
  field_simp
  linear_combination dy * q2

/-- the strip to the left of an edge, as an integral along the edge -/
theorem edge_line (z ax ay dx dy : ℝ) (hz : 0 < z) :
    ∫ s in (0 : ℝ)..1, 1 / π * (z * dy / (2 * ((ay + s * dy) ^ 2 + z ^ 2))
          * (1 + (ax + s * dx) / √((ax + s * dx) ^ 2 + (ay + s * dy) ^ 2 + z ^ 2)))
      = edgeE z ax ay (ax + dx) (ay + dy) + edgeG z (ax + dx) (ay + dy) - edgeG z ax ay := by
  have hder : ∀ s : ℝ, HasDerivAt
      (fun s => edgeE z ax ay (ax + s * dx) (ay + s * dy) + edgeG z (ax + s * dx) (ay + s * dy))
      (1 / π * (z * dy / (2 * ((ay + s * dy) ^ 2 + z ^ 2))
          * (1 + (ax + s * dx) / √((ax + s * dx) ^ 2 + (ay + s * dy) ^ 2 + z ^ 2)))) s := by
    intro s
    refine ((edge_deriv z ax ay dx dy hz s).fun_add (edgeG_deriv z ax ay dx dy hz s)).congr_deriv ?_
    rw [← mul_add, ← add_assoc, ← add_div]
    rw [show ax * dy - ay * dx + ((ay + s * dy) * dx - (ax + s * dx) * dy) = 0 by ring, zero_div, zero_add]
  have hpos : ∀ s : ℝ, 0 < √((ax + s * dx) ^ 2 + (ay + s * dy) ^ 2 + z ^ 2) := fun s => Real.sqrt_pos.mpr (by positivity)
  have hc : Continuous fun s : ℝ => 1 / π * (z * dy / (2 * ((ay + s * dy) ^ 2 + z ^ 2))
          * (1 + (ax + s * dx) / √((ax + s * dx) ^ 2 + (ay + s * dy) ^ 2 + z ^ 2))) := by
    refine continuous_const.mul ((continuous_const.div (by fun_prop) fun s => by positivity).mul
      (continuous_const.add (Continuous.div (by fun_prop) (by fun_prop) fun s => (hpos s).ne')))
  rw [intervalIntegral.integral_eq_sub_of_hasDerivAt (fun s _ => hder s) (hc.intervalIntegrable _ _)]
  simp only [one_mul, zero_mul, add_zero]
  have : edgeE z ax ay ax ay = 0 := by
    simp only [edgeE]
    rw [show ax * ay - ay * ax = 0 by ring, zero_div, arctan_zero, mul_zero]
  rw [this, zero_add]

/-- the strip to the left of an edge, as an integral over the height -/
theorem edge_height (z ax ay dx dy : ℝ) (hz : 0 < z) (hdy : dy ≠ 0) :
    ∫ y in ay..(ay + dy), z / (2 * π) * (1 / (y ^ 2 + z ^ 2)
        * (1 + (ax + (y - ay) / dy * dx) / √((ax + (y - ay) / dy * dx) ^ 2 + (y ^ 2 + z ^ 2))))
      = edgeE z ax ay (ax + dx) (ay + dy) + edgeG z (ax + dx) (ay + dy) - edgeG z ax ay := by
  rw [← edge_line z ax ay dx dy hz]
  have h := intervalIntegral.mul_integral_comp_add_mul (a := 0) (b := 1)
    (f := fun y => z / (2 * π) * (1 / (y ^ 2 + z ^ 2)
        * (1 + (ax + (y - ay) / dy * dx) / √((ax + (y - ay) / dy * dx) ^ 2 + (y ^ 2 + z ^ 2))))) (c := dy) (d := ay)
  rw [mul_zero, mul_one, add_zero] at h
  rw [← h, ← intervalIntegral.integral_const_mul]
  congr 1
  funext s
  rw [show (ay + dy * s - ay) / dy = s by field_simp; ring]
  rw [show ay + dy * s = ay + s * dy by ring, ← add_assoc]
  have := Real.pi_pos
  field_simp

theorem edge_flat (z ax ay dx : ℝ) (hz : 0 < z) :
    edgeE z ax ay (ax + dx) ay + edgeG z (ax + dx) ay - edgeG z ax ay = 0 := by
  have := edge_line z ax ay dx 0 hz
  simpa using this.symm

theorem crossing_swap (q : ℝ × ℝ) (a b : V2) : Spec.crossing q b a = -Spec.crossing q a b := by
  unfold Spec.crossing
  have h1 : (a.x - b.x) * (q.2 - b.y) - (a.y - b.y) * (q.1 - b.x)
      = -((b.x - a.x) * (q.2 - a.y) - (b.y - a.y) * (q.1 - a.x)) := by ring
  rw [h1]
  simp only [Left.neg_pos_iff, Left.neg_neg_iff]
  by_cases c1 : b.y ≤ q.2 ∧ q.2 < a.y ∧ (b.x - a.x) * (q.2 - a.y) - (b.y - a.y) * (q.1 - a.x) < 0
  · have c2 : ¬ (a.y ≤ q.2 ∧ q.2 < b.y ∧ 0 < (b.x - a.x) * (q.2 - a.y) - (b.y - a.y) * (q.1 - a.x)) :=
      fun h => absurd h.1 (not_le.mpr c1.2.1)
    rw [if_pos c1, if_neg c2, if_pos c1]; rfl
  · rw [if_neg c1, if_neg c1]
    split_ifs <;> rfl

theorem crossing_measurable (a b : V2) : Measurable fun q : ℝ × ℝ => (Spec.crossing q a b : ℝ) := by
  have hm : Measurable fun q : ℝ × ℝ => (b.x - a.x) * (q.2 - a.y) - (b.y - a.y) * (q.1 - a.x) := by fun_prop
  unfold Spec.crossing
  refine (measurable_of_countable (fun n : ℤ => (n : ℝ))).comp ?_
  refine Measurable.ite ?_ measurable_const (Measurable.ite ?_ measurable_const measurable_const)
  · exact (measurableSet_le measurable_const measurable_snd).inter
      ((measurableSet_lt measurable_snd measurable_const).inter (measurableSet_lt measurable_const hm))
  · exact (measurableSet_le measurable_const measurable_snd).inter
      ((measurableSet_lt measurable_snd measurable_const).inter (measurableSet_lt hm measurable_const))

theorem crossing_abs (q : ℝ × ℝ) (a b : V2) : |(Spec.crossing q a b : ℝ)| ≤ 1 := by
  unfold Spec.crossing
  split_ifs <;> simp

theorem crossing_integrable {p : V3} (hz : 0 < p.z) (a b : V2) :
    Integrable fun q : ℝ × ℝ => (Spec.crossing q a b : ℝ) * Spec.pixelAt p q := by
  refine (pixel_integrable hz).bdd_mul (c := 1) (crossing_measurable a b).aestronglyMeasurable
    (Eventually.of_forall fun q => ?_)
  rw [Real.norm_eq_abs]
  exact crossing_abs q a b

theorem crossing_up (a b : V2) (h : a.y < b.y) (x y : ℝ) :
    Spec.crossing (x, y) a b
      = if y ∈ Ico a.y b.y then (if x ∈ Iio (a.x + (y - a.y) / (b.y - a.y) * (b.x - a.x)) then 1 else 0) else 0 := by
  unfold Spec.crossing
  have hd : 0 < b.y - a.y := by linarith
  have hn : ¬ (b.y ≤ y ∧ y < a.y ∧ (b.x - a.x) * (y - a.y) - (b.y - a.y) * (x - a.x) < 0) := fun hc => by
    linarith [hc.1, hc.2.1]
  simp only [if_neg hn, mem_Ico, mem_Iio]
  have hx : 0 < (b.x - a.x) * (y - a.y) - (b.y - a.y) * (x - a.x) ↔ x < a.x + (y - a.y) / (b.y - a.y) * (b.x - a.x) := by
    rw [← sub_lt_iff_lt_add', div_mul_eq_mul_div, lt_div_iff₀ hd]
    constructor <;> intro h <;> nlinarith
  simp only [hx]
  by_cases c1 : a.y ≤ y <;> by_cases c2 : y < b.y <;> simp [c1, c2]

/-- relative to the position -/
noncomputable def relE (p : V3) (a b : V2) : ℝ := edgeE p.z (a.x - p.x) (a.y - p.y) (b.x - p.x) (b.y - p.y)
noncomputable def relG (p : V3) (a : V2) : ℝ := edgeG p.z (a.x - p.x) (a.y - p.y)

theorem crossing_int_up {p : V3} (hz : 0 < p.z) (a b : V2) (h : a.y < b.y) :
    ∫ q : ℝ × ℝ, (Spec.crossing q a b : ℝ) * Spec.pixelAt p q = relE p a b + (relG p b - relG p a) := by
  have hi := crossing_integrable hz a b
  rw [Measure.volume_eq_prod] at hi ⊢
  rw [integral_prod_symm _ hi]
  have hd : b.y - a.y ≠ 0 := by linarith
  have h1 : ∀ y : ℝ, ∫ x : ℝ, (Spec.crossing (x, y) a b : ℝ) * Spec.pixelAt p (x, y)
      = (Ico a.y b.y).indicator (fun y => p.z / (2 * π) * (1 / ((y - p.y) ^ 2 + p.z ^ 2)
        * (1 + (a.x + (y - a.y) / (b.y - a.y) * (b.x - a.x) - p.x)
          / √((a.x + (y - a.y) / (b.y - a.y) * (b.x - a.x) - p.x) ^ 2 + ((y - p.y) ^ 2 + p.z ^ 2))))) y := by
    intro y
    simp only [crossing_up a b h]
    by_cases hy : y ∈ Ico a.y b.y
    · rw [indicator_of_mem hy]
      simp only [if_pos hy]
      rw [← pixel_half hz, ← integral_indicator measurableSet_Iio]
      congr 1
      funext x
      by_cases hx : x ∈ Iio (a.x + (y - a.y) / (b.y - a.y) * (b.x - a.x))
      · rw [if_pos hx, indicator_of_mem hx]; simp
      · rw [if_neg hx, indicator_of_notMem hx]; simp
    · rw [indicator_of_notMem hy]
      simp only [if_neg hy, Int.cast_zero, zero_mul, integral_zero]
  simp only [h1]
  rw [integral_indicator measurableSet_Ico, integral_Ico_eq_integral_Ioc,
    ← intervalIntegral.integral_of_le h.le]
  have h2 := edge_height p.z (a.x - p.x) (a.y - p.y) (b.x - a.x) (b.y - a.y) hz hd
  rw [show a.y - p.y + (b.y - a.y) = b.y - p.y by ring, show a.x - p.x + (b.x - a.x) = b.x - p.x by ring] at h2
  rw [relE, relG, relG, ← add_sub_assoc, ← h2]
  rw [← intervalIntegral.integral_comp_sub_right (fun y => p.z / (2 * π) * (1 / (y ^ 2 + p.z ^ 2)
        * (1 + (a.x - p.x + (y - (a.y - p.y)) / (b.y - a.y) * (b.x - a.x))
        / √((a.x - p.x + (y - (a.y - p.y)) / (b.y - a.y) * (b.x - a.x)) ^ 2 + (y ^ 2 + p.z ^ 2))))) p.y]
  congr 1
  funext y
  rw [show y - p.y - (a.y - p.y) = y - a.y by ring]
  rw [show a.x + (y - a.y) / (b.y - a.y) * (b.x - a.x) - p.x = a.x - p.x + (y - a.y) / (b.y - a.y) * (b.x - a.x) by ring]

theorem relE_swap (p : V3) (a b : V2) : relE p b a = -relE p a b := by
  simp only [relE, edgeE]
  rw [← mul_neg, ← arctan_neg, ← neg_div]
  congr 3 <;> ring

theorem crossing_int {p : V3} (hz : 0 < p.z) (a b : V2) :
    ∫ q : ℝ × ℝ, (Spec.crossing q a b : ℝ) * Spec.pixelAt p q = relE p a b + (relG p b - relG p a) := by
  rcases lt_trichotomy a.y b.y with h | h | h
  · exact crossing_int_up hz a b h
  · have h1 : ∀ q : ℝ × ℝ, Spec.crossing q a b = 0 := by
      intro q
      unfold Spec.crossing
      rw [if_neg, if_neg]
      · rintro ⟨h2, h3, _⟩; linarith
      · rintro ⟨h2, h3, _⟩; linarith
    simp only [h1, Int.cast_zero, zero_mul, integral_zero]
    have := edge_flat p.z (a.x - p.x) (a.y - p.y) (b.x - a.x) hz
    rw [show a.x - p.x + (b.x - a.x) = b.x - p.x by ring] at this
    rw [relE, relG, relG, ← h, ← add_sub_assoc]
    exact this.symm
  · have h1 := crossing_int_up hz b a h
    have h2 : ∀ q : ℝ × ℝ, (Spec.crossing q a b : ℝ) * Spec.pixelAt p q
        = -((Spec.crossing q b a : ℝ) * Spec.pixelAt p q) := by
      intro q
      rw [crossing_swap q a b]; push_cast; ring
    simp only [h2]
    rw [integral_neg, h1, relE_swap]
    ring

/-! ### The whole polygon -/

theorem seg_relE {p : V3} (hz : 0 < p.z) (a b : V2) : segComp 0 0 p a b = relE p a b := by
  rw [EdgeId.seg0_pos hz]
  simp only [relE, edgeE, EdgeId.nE, EdgeId.dE, PExpr.eval, EdgeId.env, edgeEnv, relR]
  rw [mul_comm]
  congr 2
  rw [show (p.x - a.x) ^ 2 + (p.y - a.y) ^ 2 + p.z ^ 2 = (a.x - p.x) ^ 2 + (a.y - p.y) ^ 2 + p.z ^ 2 by ring]
  rw [show (p.x - b.x) ^ 2 + (p.y - b.y) ^ 2 + p.z ^ 2 = (b.x - p.x) ^ 2 + (b.y - p.y) ^ 2 + p.z ^ 2 by ring]
  congr 1 <;> ring

theorem winding_cyc (poly : List V2) (q : ℝ × ℝ) : Spec.winding poly q = cycSum (Spec.crossing q) poly :=
  sum_zipWith_roll (Spec.crossing q) poly

theorem chain_integral {p : V3} (hz : 0 < p.z) (a : V2) (l : List V2) :
    Integrable (fun q : ℝ × ℝ => ((chain (Spec.crossing q) a l : ℤ) : ℝ) * Spec.pixelAt p q) ∧
    ∫ q : ℝ × ℝ, ((chain (Spec.crossing q) a l : ℤ) : ℝ) * Spec.pixelAt p q
      = chain (fun a b => relE p a b + (relG p b - relG p a)) a l := by
  induction l generalizing a with
  | nil => simp [chain]
  | cons b l ih =>
    simp only [chain, Int.cast_add, add_mul]
    obtain ⟨h1, h2⟩ := ih b
    have h3 := crossing_integrable hz a b
    exact ⟨h3.add h1, by rw [integral_add h3 h1, h2, crossing_int hz a b]⟩

theorem winding_integral {p : V3} (hz : 0 < p.z) (poly : List V2) :
    Integrable (fun q : ℝ × ℝ => (Spec.winding poly q : ℝ) * Spec.pixelAt p q) ∧
    ∫ q : ℝ × ℝ, (Spec.winding poly q : ℝ) * Spec.pixelAt p q = polyComp 0 0 poly p := by
  simp only [winding_cyc]
  have h1 : polyComp 0 0 poly p = cycSum (fun a b => relE p a b + (relG p b - relG p a)) poly := by
    rw [EdgeId.polyComp_cyc, cycSum_add (fun a b => relE p a b) (fun a b => relG p b - relG p a),
      cycSum_tele, add_zero]
    simp only [seg_relE hz]
  rw [h1]
  cases poly with
  | nil => simp [cycSum]
  | cons a t => exact chain_integral hz a _

end PolyInt
end Electrode
