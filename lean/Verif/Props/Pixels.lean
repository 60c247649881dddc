import Verif.Props.Dirichlet
import Verif.Props.AreaRegion
import Mathlib.Analysis.Calculus.MeanValue
import Mathlib.Analysis.Calculus.Deriv.MeanValue

/-
C93: replacing the polygons of an electrode by points (`to_points`) is right to second order.
-/
namespace Electrode
open Spec Real MeasureTheory Set Filter Topology

namespace Pixels

/-- second order Taylor bound on the unit interval -/
theorem taylor2 (g g' g'' : ℝ → ℝ) (M : ℝ) (h1 : ∀ t, HasDerivAt g (g' t) t) (h2 : ∀ t, HasDerivAt g' (g'' t) t)
    (hM : ∀ t, |g'' t| ≤ M) : |g 1 - g 0 - g' 0| ≤ M / 2 := by
  have hg' : ∀ t ∈ Icc (0 : ℝ) 1, |g' t - g' 0| ≤ M * t := by
    intro t ht
    have := (convex_Icc (0 : ℝ) 1).norm_image_sub_le_of_norm_hasDerivWithin_le (f := g') (f' := g'') (C := M)
      (fun x _ => (h2 x).hasDerivWithinAt) (fun x _ => by rw [Real.norm_eq_abs]; exact hM x)
      (left_mem_Icc.2 zero_le_one) ht
    rwa [Real.norm_eq_abs, Real.norm_eq_abs, sub_zero, abs_of_nonneg ht.1] at this
  have key : ∀ s : ℝ, (s = 1 ∨ s = -1) → s * (g 1 - g 0 - g' 0) ≤ M / 2 := by
    intro s hs
    set F : ℝ → ℝ := fun t => M * t ^ 2 / 2 - s * (g t - g 0 - g' 0 * t) with hF
    have hd : ∀ t, HasDerivAt F (M * t - s * (g' t - g' 0)) t := by
      intro t
      have e1 : HasDerivAt (fun t : ℝ => M * t ^ 2 / 2) (M * t) t := by
        have := ((hasDerivAt_id' t).fun_pow 2).const_mul (M / 2)
        refine (this.congr_deriv ?_).congr_of_eventuallyEq (Eventually.of_forall fun u => ?_)
        · simp; ring
        · simp; ring
      have e2 := (((h1 t).sub_const (g 0)).fun_sub ((hasDerivAt_id' t).const_mul (g' 0))).const_mul s
      refine (e1.fun_sub e2).congr_deriv ?_
      ring
    have hm : MonotoneOn F (Icc 0 1) := by
      refine monotoneOn_of_deriv_nonneg (convex_Icc 0 1) (fun t _ => (hd t).continuousAt.continuousWithinAt)
        (fun t _ => (hd t).differentiableAt.differentiableWithinAt) fun t ht => ?_
      rw [interior_Icc] at ht
      rw [(hd t).deriv]
      have := hg' t ⟨ht.1.le, ht.2.le⟩
      rw [abs_le] at this
      rcases hs with rfl | rfl <;> linarith [this.1, this.2]
    have := hm (left_mem_Icc.2 zero_le_one) (right_mem_Icc.2 zero_le_one) zero_le_one
    simp only [hF] at this
    nlinarith
  rw [abs_le]
  constructor <;> nlinarith [key 1 (Or.inl rfl), key (-1) (Or.inr rfl)]

/-- the bound of the second derivative -/
theorem bound_alg (z r n m : ℝ) (hn : 0 ≤ n) (hza : 0 < |z|) (hzr : |z| ≤ r) (hr : 0 < r) (hnum : |m| ≤ 12 * n * r ^ 2) :
    |z| / (2 * π) * (|m| / r ^ 7) ≤ 6 / (π * z ^ 4) * n := by
  have h7 : |m| / r ^ 7 ≤ 12 * n / |z| ^ 5 := by
    rw [div_le_div_iff₀ (pow_pos hr 7) (pow_pos hza 5)]
    have h5 : |z| ^ 5 ≤ r ^ 5 := pow_le_pow_left₀ hza.le hzr 5
    calc |m| * |z| ^ 5 ≤ (12 * n * r ^ 2) * r ^ 5 := mul_le_mul hnum h5 (by positivity) (by positivity)
      _ = 12 * n * r ^ 7 := by ring
  have e4 : z ^ 4 = |z| ^ 4 := (Even.pow_abs (by decide) z).symm
  rw [e4]
  calc |z| / (2 * π) * (|m| / r ^ 7) ≤ |z| / (2 * π) * (12 * n / |z| ^ 5) := mul_le_mul_of_nonneg_left h7 (by positivity)
    _ = 6 / (π * |z| ^ 4) * n := by
        have := hza.ne'
        have := Real.pi_ne_zero
        field_simp
        ring

/-- the potential of a surface element along a line -/
theorem line_taylor (X Y u w z : ℝ) (hz : z ≠ 0) :
    |z / (2 * π) * (1 / √((X - 1 * u) ^ 2 + (Y - 1 * w) ^ 2 + z ^ 2) ^ 3) - z / (2 * π) * (1 / √((X - 0 * u) ^ 2 + (Y - 0 * w) ^ 2 + z ^ 2) ^ 3)
      - z / (2 * π) * (3 * (u * (X - 0 * u) + w * (Y - 0 * w)) / √((X - 0 * u) ^ 2 + (Y - 0 * w) ^ 2 + z ^ 2) ^ 5)|
      ≤ 6 / (π * z ^ 4) * (u ^ 2 + w ^ 2) / 2 := by
  set r : ℝ → ℝ := fun t => √((X - t * u) ^ 2 + (Y - t * w) ^ 2 + z ^ 2) with hr
  have hz2 : 0 < z ^ 2 := by positivity
  have hs : ∀ t, 0 < (X - t * u) ^ 2 + (Y - t * w) ^ 2 + z ^ 2 := fun t => by positivity
  have hrp : ∀ t, 0 < r t := fun t => Real.sqrt_pos.2 (hs t)
  have hr2 : ∀ t, r t ^ 2 = (X - t * u) ^ 2 + (Y - t * w) ^ 2 + z ^ 2 := fun t => Real.sq_sqrt (hs t).le
  set b : ℝ → ℝ := fun t => u * (X - t * u) + w * (Y - t * w) with hb
  have hbd : ∀ t, HasDerivAt b (-(u ^ 2 + w ^ 2)) t := by
    intro t
    have i := hasDerivAt_id' t
    have := (((i.mul_const u).const_sub X).const_mul u).fun_add (((i.mul_const w).const_sub Y).const_mul w)
    refine this.congr_deriv ?_
    ring
  have hrd : ∀ t, HasDerivAt r (-b t / r t) t := by
    intro t
    have i := hasDerivAt_id' t
    have h1 := ((((i.mul_const u).const_sub X).fun_pow 2).fun_add (((i.mul_const w).const_sub Y).fun_pow 2)).add_const (z ^ 2)
    have h2 := h1.sqrt (hs t).ne'
    refine h2.congr_deriv ?_
    have : √((X - t * u) ^ 2 + (Y - t * w) ^ 2 + z ^ 2) = r t := rfl
    rw [this]
    have := (hrp t).ne'
    simp only [hb, Nat.cast_ofNat, Nat.add_one_sub_one, pow_one, one_mul]
    field_simp
    ring
  have hg1 : ∀ t, HasDerivAt (fun t => z / (2 * π) * (1 / r t ^ 3)) (z / (2 * π) * (3 * b t / r t ^ 5)) t := by
    intro t
    have h := (((hrd t).fun_pow 3).fun_inv (pow_ne_zero 3 (hrp t).ne')).const_mul (z / (2 * π))
    refine (h.congr_deriv ?_).congr_of_eventuallyEq (Eventually.of_forall fun s => ?_)
    · have := (hrp t).ne'
      simp only [Nat.cast_ofNat, Nat.add_one_sub_one]
      field_simp
    · simp only [one_div]
  have hg2 : ∀ t, HasDerivAt (fun t => z / (2 * π) * (3 * b t / r t ^ 5))
      (z / (2 * π) * ((15 * b t ^ 2 - 3 * r t ^ 2 * (u ^ 2 + w ^ 2)) / r t ^ 7)) t := by
    intro t
    have h := (((hbd t).const_mul 3).fun_div ((hrd t).fun_pow 5) (pow_ne_zero 5 (hrp t).ne')).const_mul (z / (2 * π))
    refine h.congr_deriv ?_
    have := (hrp t).ne'
    simp only [Nat.cast_ofNat, Nat.add_one_sub_one]
    field_simp
    ring
  have hbound : ∀ t, |z / (2 * π) * ((15 * b t ^ 2 - 3 * r t ^ 2 * (u ^ 2 + w ^ 2)) / r t ^ 7)| ≤ 6 / (π * z ^ 4) * (u ^ 2 + w ^ 2) := by
    intro t
    have hn : 0 ≤ u ^ 2 + w ^ 2 := by positivity
    have hcs : b t ^ 2 ≤ (u ^ 2 + w ^ 2) * r t ^ 2 := by
      rw [hr2]
      simp only [hb]
      nlinarith [sq_nonneg (u * (Y - t * w) - w * (X - t * u)), mul_nonneg hn hz2.le]
    have hnum : |15 * b t ^ 2 - 3 * r t ^ 2 * (u ^ 2 + w ^ 2)| ≤ 12 * (u ^ 2 + w ^ 2) * r t ^ 2 := by
      rw [abs_le]
      have := sq_nonneg (b t)
      constructor <;> nlinarith [mul_nonneg hn (sq_nonneg (r t))]
    have hzr : |z| ≤ r t := by
      rw [← Real.sqrt_sq_eq_abs]
      exact Real.sqrt_le_sqrt (by nlinarith [sq_nonneg (X - t * u), sq_nonneg (Y - t * w)])
    have hza : 0 < |z| := abs_pos.2 hz
    rw [abs_mul, abs_div, abs_div, abs_of_pos (show (0 : ℝ) < 2 * π by positivity), abs_of_pos (pow_pos (hrp t) 7)]
    exact bound_alg z (r t) (u ^ 2 + w ^ 2) _ hn hza hzr (hrp t) hnum
  exact taylor2 _ _ _ _ hg1 hg2 hbound

/-- the potential of a surface element near another one -/
theorem pixel_taylor (p : V3) (hz : p.z ≠ 0) (c : V2) (q : ℝ × ℝ) :
    |pixelAt p q - pixelAt p (c.x, c.y) - p.z / (2 * π) * (3 * ((q.1 - c.x) * (p.x - c.x) + (q.2 - c.y) * (p.y - c.y)) /
        √((p.x - c.x) ^ 2 + (p.y - c.y) ^ 2 + p.z ^ 2) ^ 5)|
      ≤ 3 / (π * p.z ^ 4) * ((q.1 - c.x) ^ 2 + (q.2 - c.y) ^ 2) := by
  have h := line_taylor (p.x - c.x) (p.y - c.y) (q.1 - c.x) (q.2 - c.y) p.z hz
  rw [show p.x - c.x - 1 * (q.1 - c.x) = p.x - q.1 by ring, show p.y - c.y - 1 * (q.2 - c.y) = p.y - q.2 by ring] at h
  simp only [zero_mul, sub_zero] at h
  rw [div_mul_div_comm, mul_one, div_mul_div_comm, mul_one] at h
  exact h.trans (le_of_eq (by ring))

/-- outside of the bounding box nothing is enclosed -/
theorem winding_box (poly : List V2) (x0 x1 y0 y1 : ℝ) (h : ∀ v ∈ poly, (x0 ≤ v.x ∧ v.x ≤ x1) ∧ y0 ≤ v.y ∧ v.y ≤ y1) (q : ℝ × ℝ)
    (hq : winding poly q ≠ 0) : (x0 ≤ q.1 ∧ q.1 ≤ x1) ∧ y0 ≤ q.2 ∧ q.2 ≤ y1 := by
  have hzero : (∀ a ∈ poly, ∀ b ∈ poly, crossing q a b = 0) → winding poly q = 0 := by
    intro hc
    unfold winding
    apply List.sum_eq_zero
    intro x hx
    rw [List.mem_iff_getElem] at hx
    obtain ⟨i, hi, rfl⟩ := hx
    rw [List.getElem_zipWith]
    refine hc _ (List.getElem_mem _) _ ?_
    exact (List.mem_rotate.1 (List.getElem_mem _))
  by_contra hn
  rw [not_and_or, not_and_or, not_and_or] at hn
  push Not at hn
  rcases hn with (h1 | h1) | (h1 | h1)
  · exact hq (AreaReg.winding_left poly q fun v hv => h1.trans_le (h v hv).1.1)
  · refine hq (hzero fun a ha b hb => ?_)
    have hax := (h a ha).1.2.trans_lt h1
    have hbx := (h b hb).1.2.trans_lt h1
    have e : (b.x - a.x) * (q.2 - a.y) - (b.y - a.y) * (q.1 - a.x) = (q.2 - a.y) * (b.x - q.1) + (b.y - q.2) * (a.x - q.1) := by ring
    unfold crossing
    rw [if_neg, if_neg]
    · rintro ⟨h2, h3, h4⟩
      rw [e] at h4
      nlinarith [mul_nonneg (sub_nonneg.2 h3.le) (sub_nonneg.2 hbx.le), mul_nonneg (sub_nonneg.2 h2) (sub_nonneg.2 hax.le)]
    · rintro ⟨h2, h3, h4⟩
      rw [e] at h4
      nlinarith [mul_nonneg (sub_nonneg.2 h2) (sub_nonneg.2 hbx.le), mul_nonneg (sub_nonneg.2 h3.le) (sub_nonneg.2 hax.le)]
  · refine hq (hzero fun a ha b hb => ?_)
    have ha' := h1.trans_le (h a ha).2.1
    have hb' := h1.trans_le (h b hb).2.1
    unfold crossing
    rw [if_neg (fun h => absurd h.1 (not_le.2 ha')), if_neg (fun h => absurd h.1 (not_le.2 hb'))]
  · refine hq (hzero fun a ha b hb => ?_)
    have ha' := (h a ha).2.2.trans_lt h1
    have hb' := (h b hb).2.2.trans_lt h1
    unfold crossing
    rw [if_neg (fun h => absurd h.2.1 (not_lt.2 hb'.le)), if_neg (fun h => absurd h.2.1 (not_lt.2 ha'.le))]

end Pixels
open Pixels

/-- C93: one closed path and one image: the potential of the region it encloses differs from that of the whole area put at the centroid
by at most `3 D² / (π z⁴)` times the area, where `D` bounds the distance of the enclosed points from the centroid. -/
theorem c93_path (path : List V2) (hA : (areaCentroid path).1 ≠ 0) (p : V3) (hz : p.z ≠ 0) (D : ℝ)
    (hD : ∀ q : ℝ × ℝ, winding path q ≠ 0 → (q.1 - (areaCentroid path).2.x) ^ 2 + (q.2 - (areaCentroid path).2.y) ^ 2 ≤ D ^ 2) :
    |(∫ q : ℝ × ℝ, (winding path q : ℝ) * pixelAt p q) - (areaCentroid path).1 * pixelAt p ((areaCentroid path).2.x, (areaCentroid path).2.y)|
      ≤ 3 * D ^ 2 / (π * p.z ^ 4) * ∫ q : ℝ × ℝ, |(winding path q : ℝ)| := by
  obtain ⟨hi0, hA0⟩ := c10_area_region path
  obtain ⟨hcx, hcy⟩ := c10_centroid_region path hA
  rw [← hA0] at hcx hcy
  have hix := AreaReg.winding_aff path 0 1 0
  have hiy := AreaReg.winding_aff path 0 0 1
  simp only [AreaReg.aff, zero_mul, add_zero, zero_add, one_mul] at hix hiy
  have hk := (winding_integral' hz path).1
  set c := (areaCentroid path).2 with hc
  set A := (areaCentroid path).1 with hAA
  have hmx : ∫ q : ℝ × ℝ, (winding path q : ℝ) * q.1 = A * c.x := by rw [hcx]; field_simp
  have hmy : ∫ q : ℝ × ℝ, (winding path q : ℝ) * q.2 = A * c.y := by rw [hcy]; field_simp
  set R := √((p.x - c.x) ^ 2 + (p.y - c.y) ^ 2 + p.z ^ 2) with hR
  set β := p.z / (2 * π) * (3 * (p.x - c.x) / R ^ 5) with hβ
  set γ := p.z / (2 * π) * (3 * (p.y - c.y) / R ^ 5) with hγ
  -- the linear part integrates to zero
  have hlin : Integrable (fun q : ℝ × ℝ => (winding path q : ℝ) * (pixelAt p (c.x, c.y) + (β * (q.1 - c.x) + γ * (q.2 - c.y)))) ∧
      ∫ q : ℝ × ℝ, (winding path q : ℝ) * (pixelAt p (c.x, c.y) + (β * (q.1 - c.x) + γ * (q.2 - c.y))) = A * pixelAt p (c.x, c.y) := by
    have e : (fun q : ℝ × ℝ => (winding path q : ℝ) * (pixelAt p (c.x, c.y) + (β * (q.1 - c.x) + γ * (q.2 - c.y))))
        = fun q => (pixelAt p (c.x, c.y) - β * c.x - γ * c.y) * (winding path q : ℝ) + (β * ((winding path q : ℝ) * q.1) +
          γ * ((winding path q : ℝ) * q.2)) := by
      funext q; ring
    rw [e]
    have j0 := hi0.const_mul (pixelAt p (c.x, c.y) - β * c.x - γ * c.y)
    have j1 := hix.1.const_mul β
    have j2 := hiy.1.const_mul γ
    have j3 : Integrable fun q : ℝ × ℝ => β * ((winding path q : ℝ) * q.1) + γ * ((winding path q : ℝ) * q.2) := j1.add j2
    refine ⟨j0.add j3, ?_⟩
    rw [integral_add j0 j3, integral_add j1 j2, integral_const_mul, integral_const_mul, integral_const_mul, hmx, hmy, ← hA0]
    ring
  rw [← hlin.2, ← integral_sub hk hlin.1, ← integral_const_mul]
  rw [← Real.norm_eq_abs]
  refine (norm_integral_le_integral_norm _).trans ?_
  refine integral_mono (hk.sub hlin.1).norm (hi0.norm.const_mul _) fun q => ?_
  simp only [Real.norm_eq_abs]
  rw [← mul_sub, abs_mul, mul_comm]
  by_cases hq : winding path q = 0
  · simp [hq]
  · refine mul_le_mul_of_nonneg_right ?_ (abs_nonneg _)
    have ht := pixel_taylor p hz c q
    have e2 : pixelAt p q - (pixelAt p (c.x, c.y) + (β * (q.1 - c.x) + γ * (q.2 - c.y)))
        = pixelAt p q - pixelAt p (c.x, c.y) - p.z / (2 * π) * (3 * ((q.1 - c.x) * (p.x - c.x) + (q.2 - c.y) * (p.y - c.y)) / R ^ 5) := by
      simp only [hβ, hγ]; ring
    rw [e2]
    refine ht.trans ?_
    rw [show 3 * D ^ 2 / (π * p.z ^ 4) = 3 / (π * p.z ^ 4) * D ^ 2 by ring]
    exact mul_le_mul_of_nonneg_left (hD q hq) (by positivity)

/-- C93: the centroid of a path that runs around its region in one sense lies in the bounding box of the path. -/
theorem c93_centroid (path : List V2) (hA : (areaCentroid path).1 ≠ 0) (s : ℤ) (hs : s = 1 ∨ s = -1) (hw : ∀ q, 0 ≤ s * winding path q)
    (x0 x1 y0 y1 : ℝ) (h : ∀ v ∈ path, (x0 ≤ v.x ∧ v.x ≤ x1) ∧ y0 ≤ v.y ∧ v.y ≤ y1) :
    (x0 ≤ (areaCentroid path).2.x ∧ (areaCentroid path).2.x ≤ x1) ∧ y0 ≤ (areaCentroid path).2.y ∧ (areaCentroid path).2.y ≤ y1 := by
  obtain ⟨hi0, hA0⟩ := c10_area_region path
  obtain ⟨hcx, hcy⟩ := c10_centroid_region path hA
  rw [← hA0] at hcx hcy
  have hix := AreaReg.winding_aff path 0 1 0
  have hiy := AreaReg.winding_aff path 0 0 1
  simp only [AreaReg.aff, zero_mul, add_zero, zero_add, one_mul] at hix hiy
  have hs2 : (s : ℝ) * s = 1 := by rcases hs with rfl | rfl <;> norm_num
  have hwr : ∀ q, 0 ≤ (s : ℝ) * (winding path q : ℝ) := fun q => by exact_mod_cast hw q
  have hsA : 0 < (s : ℝ) * (areaCentroid path).1 := by
    refine lt_of_le_of_ne ?_ ?_
    · rw [hA0, ← integral_const_mul]; exact integral_nonneg hwr
    · intro h0
      have : (areaCentroid path).1 = s * (s * (areaCentroid path).1) := by rw [← mul_assoc, hs2, one_mul]
      rw [← h0, mul_zero] at this
      exact hA this
  -- weighted means
  have low : ∀ (f : ℝ × ℝ → ℝ) (a : ℝ), Integrable (fun q : ℝ × ℝ => (winding path q : ℝ) * f q) → (∀ q, winding path q ≠ 0 → a ≤ f q) →
      a ≤ (∫ q : ℝ × ℝ, (winding path q : ℝ) * f q) / (areaCentroid path).1 := by
    intro f a hf ha
    have e : (∫ q : ℝ × ℝ, (winding path q : ℝ) * f q) / (areaCentroid path).1
        = (∫ q : ℝ × ℝ, (s : ℝ) * ((winding path q : ℝ) * f q)) / (s * (areaCentroid path).1) := by
      rw [integral_const_mul, mul_div_mul_left]
      intro h0; rw [h0] at hs2; norm_num at hs2
    rw [e, le_div_iff₀ hsA, hA0, ← integral_const_mul (s : ℝ), ← integral_const_mul a]
    refine integral_mono ((hi0.const_mul (s : ℝ)).const_mul a) (hf.const_mul _) fun q => ?_
    simp only
    rw [← mul_assoc, ← mul_assoc, show a * (s : ℝ) * (winding path q : ℝ) = s * winding path q * a by ring]
    by_cases hq : winding path q = 0
    · simp [hq]
    · exact mul_le_mul_of_nonneg_left (ha q hq) (hwr q)
  have high : ∀ (f : ℝ × ℝ → ℝ) (a : ℝ), Integrable (fun q : ℝ × ℝ => (winding path q : ℝ) * f q) → (∀ q, winding path q ≠ 0 → f q ≤ a) →
      (∫ q : ℝ × ℝ, (winding path q : ℝ) * f q) / (areaCentroid path).1 ≤ a := by
    intro f a hf ha
    have := low (fun q => -f q) (-a) (by simpa using hf.neg) (fun q hq => neg_le_neg (ha q hq))
    simp only [mul_neg, integral_neg, neg_div] at this
    linarith
  have hb := winding_box path x0 x1 y0 y1 h
  rw [hcx, hcy]
  exact ⟨⟨low (fun q => q.1) x0 hix.1 fun q hq => (hb q hq).1.1, high (fun q => q.1) x1 hix.1 fun q hq => (hb q hq).1.2⟩,
    low (fun q => q.2) y0 hiy.1 fun q hq => (hb q hq).2.1, high (fun q => q.2) y1 hiy.1 fun q hq => (hb q hq).2.2⟩

namespace Pixels

theorem sum_abs_le {α : Type*} (l : List α) (f g : α → ℝ) (h : ∀ a ∈ l, |f a| ≤ g a) : |(l.map f).sum| ≤ (l.map g).sum := by
  induction l with
  | nil => simp
  | cons a t ih =>
    simp only [List.map_cons, List.sum_cons]
    exact (abs_add_le _ _).trans (add_le_add (h a (by simp)) (ih fun b hb => h b (by simp [hb])))

theorem sum_map_sub_list {α : Type*} (l : List α) (f g : α → ℝ) : (l.map fun a => f a - g a).sum = (l.map f).sum - (l.map g).sum := by
  induction l with
  | nil => simp
  | cons a t ih => simp only [List.map_cons, List.sum_cons, ih]; ring

theorem sum_map_finset {α ι : Type*} (l : List α) (t : Finset ι) (f : ι → α → ℝ) :
    ∑ m ∈ t, (l.map (f m)).sum = (l.map fun a => ∑ m ∈ t, f m a).sum := by
  induction l with
  | nil => simp
  | cons a l ih => simp only [List.map_cons, List.sum_cons, Finset.sum_add_distrib, ih]

end Pixels

/-- C93: replacing the polygons of an electrode by points.  If every path runs around its region in one sense (`s` is its sense) and fits
into a rectangle with a diagonal of at most `D`, the potential of the electrode returned by `to_points` differs from that of the
polygons by at most `3 D² / (π z⁴)` per unit of voltage and area, at height `z`, for every image of the point in a cover plane. -/
theorem c93_to_points (e : Elec) (paths : List (List V2)) (h : ℝ) (n : Nat) (he : e.shape = .polygons paths h n) (D : ℝ)
    (hp : ∀ path ∈ paths, (areaCentroid path).1 ≠ 0 ∧ (∃ s : ℤ, (s = 1 ∨ s = -1) ∧ ∀ q, 0 ≤ s * winding path q) ∧
      ∃ x0 x1 y0 y1 : ℝ, (x1 - x0) ^ 2 + (y1 - y0) ^ 2 ≤ D ^ 2 ∧ ∀ v ∈ path, (x0 ≤ v.x ∧ v.x ≤ x1) ∧ y0 ≤ v.y ∧ v.y ≤ y1)
    (v : ℝ) (p : V3) (hz : offPlanes h n p) :
    ∃ e', e.toPoints = .ok e' ∧
      |compAt e 0 0 v p - compAt e' 0 0 v p|
        ≤ |v| * (∑ m ∈ Finset.Icc (-(n : ℤ)) n, 3 * D ^ 2 / (π * (p.z + 2 * m * h) ^ 4)) * (paths.map fun path => |(areaCentroid path).1|).sum := by
  obtain ⟨name, dc, rf, shape⟩ := e
  simp only at he
  subst he
  refine ⟨_, rfl, ?_⟩
  have hz' : ∀ m ∈ Finset.Icc (-(n : ℤ)) n, p.z + 2 * m * h ≠ 0 := fun m hm => by
    rw [Finset.mem_Icc] at hm
    exact hz m hm.1 hm.2
  rw [c86_point, compAt_polygons _ _ _ _ _ _ _ _ _ (by norm_num), polyContrib_swap, coverRange_Icc, ← mul_sub, abs_mul, mul_assoc]
  refine mul_le_mul_of_nonneg_left ?_ (abs_nonneg v)
  have e1 : ((paths.map areaCentroid).map (·.2)).zip ((paths.map areaCentroid).map (·.1)) = paths.map fun path => ((areaCentroid path).2, (areaCentroid path).1) := by
    induction paths with
    | nil => rfl
    | cons a t ih =>
      simp only [List.map_cons, List.zip_cons_cons]
      rw [ih (fun path hm => hp path (by simp [hm]))]
  rw [e1, List.map_map]
  simp only [Function.comp_def]
  rw [← sum_map_finset paths (Finset.Icc (-(n : ℤ)) n) fun m path => (areaCentroid path).1 *
    pixelAt ⟨p.x, p.y, p.z + 2 * m * h⟩ ((areaCentroid path).2.x, (areaCentroid path).2.y), ← Finset.sum_sub_distrib, Finset.sum_mul]
  refine (Finset.abs_sum_le_sum_abs _ _).trans (Finset.sum_le_sum fun m hm => ?_)
  rw [← sum_map_sub_list, ← List.sum_map_mul_left]
  refine sum_abs_le paths _ _ fun path hpath => ?_
  obtain ⟨hA, ⟨s, hs, hw⟩, x0, x1, y0, y1, hd, hbox⟩ := hp path hpath
  have hpz : (⟨p.x, p.y, p.z + 2 * m * h⟩ : V3).z ≠ 0 := hz' m hm
  have hc := c93_centroid path hA s hs hw x0 x1 y0 y1 hbox
  have hmain := c93_path path hA ⟨p.x, p.y, p.z + 2 * m * h⟩ hpz D fun q hq => by
    have hb := winding_box path x0 x1 y0 y1 hbox q hq
    have d1 : (q.1 - (areaCentroid path).2.x) ^ 2 ≤ (x1 - x0) ^ 2 := by
      rw [sq_le_sq, abs_of_nonneg (by linarith [hb.1.1, hb.1.2] : (0 : ℝ) ≤ x1 - x0), abs_le]
      constructor <;> linarith [hb.1.1, hb.1.2, hc.1.1, hc.1.2]
    have d2 : (q.2 - (areaCentroid path).2.y) ^ 2 ≤ (y1 - y0) ^ 2 := by
      rw [sq_le_sq, abs_of_nonneg (by linarith [hb.2.1, hb.2.2] : (0 : ℝ) ≤ y1 - y0), abs_le]
      constructor <;> linarith [hb.2.1, hb.2.2, hc.2.1, hc.2.2]
    linarith
  have habs : ∫ q : ℝ × ℝ, |(winding path q : ℝ)| = |(areaCentroid path).1| := by
    have hsr : |(s : ℝ)| = 1 := by rcases hs with rfl | rfl <;> norm_num
    have e2 : (fun q : ℝ × ℝ => |(winding path q : ℝ)|) = fun q => (s : ℝ) * (winding path q : ℝ) := by
      funext q
      have : (0 : ℝ) ≤ (s : ℝ) * (winding path q : ℝ) := by exact_mod_cast hw q
      rw [← abs_of_nonneg this, abs_mul, hsr, one_mul]
    have e3 : (s : ℝ) * (areaCentroid path).1 = ∫ q : ℝ × ℝ, |(winding path q : ℝ)| := by
      rw [e2, integral_const_mul, (c10_area_region path).2]
    have h0 : 0 ≤ (s : ℝ) * (areaCentroid path).1 := by
      rw [e3]; exact integral_nonneg fun q => abs_nonneg _
    rw [← e3, ← abs_of_nonneg h0, abs_mul, hsr, one_mul]
  rw [habs, (winding_integral' hpz path).2] at hmain
  exact hmain

/-- the unit square meets the hypotheses: seen from `z` away its potential is that of a point up to `6 |v| / (π z⁴)` -/
example (v : ℝ) (p : V3) (hz : p.z ≠ 0) :
    ∃ e', Elec.toPoints ⟨"", 0, 0, .polygons [unitSquare] 50 0⟩ = .ok e' ∧
      |compAt ⟨"", 0, 0, .polygons [unitSquare] 50 0⟩ 0 0 v p - compAt e' 0 0 v p| ≤ |v| * (6 / (π * p.z ^ 4)) := by
  have hA : (areaCentroid unitSquare).1 = 1 := by
    simp [unitSquare, areaCentroid, rollLeft]
  obtain ⟨e', h1, h2⟩ := c93_to_points ⟨"", 0, 0, .polygons [unitSquare] 50 0⟩ [unitSquare] 50 0 rfl (√2) (fun path hp => by
    rw [List.mem_singleton] at hp
    subst hp
    refine ⟨by rw [hA]; norm_num, ⟨1, Or.inl rfl, fun q => ?_⟩, 0, 1, 0, 1, ?_, ?_⟩
    · have := covered_square q
      simp only [covered, List.map_cons, List.map_nil, List.sum_cons, List.sum_nil, add_zero] at this
      rw [this, one_mul]
      split <;> norm_num
    · rw [Real.sq_sqrt (by norm_num)]; norm_num
    · intro v hv
      simp only [unitSquare, List.mem_cons, List.not_mem_nil, or_false] at hv
      rcases hv with rfl | rfl | rfl | rfl <;> norm_num) v p (fun m h1 h2 => by
    have : m = 0 := by simp at h1 h2; omega
    subst this; simpa using hz)
  refine ⟨e', h1, h2.trans (le_of_eq ?_)⟩
  simp [hA]
  left
  norm_num

/-- C86: an electrode that covers more of the plane has a larger potential everywhere above it. -/
theorem c86_monotone (name name' : String) (dc rf dc' rf' : ℝ) (polys polys' : List (List V2)) (h h' v : ℝ) (hv : 0 ≤ v) (p : V3)
    (hz : 0 < p.z) (hw : ∀ᵐ q : ℝ × ℝ, covered polys q ≤ covered polys' q) :
    compAt ⟨name, dc, rf, .polygons polys h 0⟩ 0 0 v p ≤ compAt ⟨name', dc', rf', .polygons polys' h' 0⟩ 0 0 v p := by
  have hp : ∀ h, offPlanes h 0 p := fun h m h1 h2 => by
    have : m = 0 := by simp at h1 h2; omega
    subst this; simpa using hz.ne'
  obtain ⟨i1, e1⟩ := c86_integral name dc rf polys h 0 v p (hp h)
  obtain ⟨i2, e2⟩ := c86_integral name' dc' rf' polys' h' 0 v p (hp h')
  have j1 := i1 0 (by simp)
  have j2 := i2 0 (by simp)
  rw [e1, e2]
  simp only [Nat.cast_zero, neg_zero, Finset.Icc_self, Finset.sum_singleton, Int.cast_zero, mul_zero, zero_mul, add_zero] at j1 j2 ⊢
  refine mul_le_mul_of_nonneg_left (integral_mono_ae j1 j2 ?_) hv
  filter_upwards [hw] with q hq
  refine mul_le_mul_of_nonneg_right (by exact_mod_cast hq) ?_
  unfold pixelAt
  have := hz
  positivity

/-- the unit square covers more than nothing and less than the square twice as wide -/
example (p : V3) (hz : 0 < p.z) : compAt ⟨"", 0, 0, .polygons [unitSquare] 50 0⟩ 0 0 1 p
    ≤ compAt ⟨"", 0, 0, .polygons [[⟨0, 0⟩, ⟨2, 0⟩, ⟨2, 1⟩, ⟨0, 1⟩]] 50 0⟩ 0 0 1 p := by
  refine c86_monotone _ _ _ _ _ _ _ _ _ _ _ (by norm_num) p hz (Eventually.of_forall fun q => ?_)
  rw [covered_square]
  simp only [covered, List.map_cons, List.map_nil, List.sum_cons, List.sum_nil, add_zero]
  rw [winding_rect q 0 2 0 1 (by norm_num) (by norm_num)]
  split
  · next h => rw [if_pos ⟨h.1, by linarith [h.2.1], h.2.2⟩]
  · split <;> norm_num

end Electrode
