import Verif.Lemmas.PolyIntegral
import Verif.Props.Area
import Mathlib.Analysis.SpecialFunctions.Integrals.Basic

/-
C10: the area and the centroid of `area_centroid` are those of the enclosed region, every point
counted with the number of times the boundary winds around it.
-/
namespace Electrode
open Spec MeasureTheory Set Filter
namespace AreaReg

/-- crossing, restricted to `-L < x` -/
noncomputable def cutCross (L : ℝ) (a b : V2) (q : ℝ × ℝ) : ℝ := if -L < q.1 then (crossing q a b : ℝ) else 0

/-- an affine weight -/
def aff (α β γ : ℝ) (q : ℝ × ℝ) : ℝ := α + β * q.1 + γ * q.2

theorem cutCross_swap (L : ℝ) (a b : V2) (q : ℝ × ℝ) : cutCross L b a q = -cutCross L a b q := by
  simp only [cutCross]
  split_ifs
  · rw [PolyInt.crossing_swap q a b]; push_cast; ring
  · simp

theorem cutCross_measurable (L : ℝ) (a b : V2) : Measurable (cutCross L a b) :=
  Measurable.ite (measurableSet_lt measurable_const measurable_fst) (PolyInt.crossing_measurable a b) measurable_const

theorem cutCross_abs (L : ℝ) (a b : V2) (q : ℝ × ℝ) : |cutCross L a b q| ≤ 1 := by
  simp only [cutCross]
  split_ifs
  · exact PolyInt.crossing_abs q a b
  · simp

theorem cutCross_up (L : ℝ) (a b : V2) (h : a.y < b.y) (x y : ℝ) :
    cutCross L a b (x, y) = if y ∈ Ico a.y b.y then
      (if x ∈ Ioo (-L) (a.x + (y - a.y) / (b.y - a.y) * (b.x - a.x)) then 1 else 0) else 0 := by
  simp only [cutCross, PolyInt.crossing_up a b h, mem_Ioo, mem_Iio]
  by_cases h1 : -L < x <;> by_cases h2 : y ∈ Ico a.y b.y <;> simp only [h1, h2, if_true, if_false, true_and, false_and] <;>
    (try split_ifs) <;> simp

theorem line_le (a b : V2) (h : a.y < b.y) (y : ℝ) (hy : y ∈ Icc a.y b.y) :
    a.x + (y - a.y) / (b.y - a.y) * (b.x - a.x) ≤ max a.x b.x ∧ min a.x b.x ≤ a.x + (y - a.y) / (b.y - a.y) * (b.x - a.x) := by
  have hd : 0 < b.y - a.y := by linarith
  have h0 : 0 ≤ (y - a.y) / (b.y - a.y) := div_nonneg (by linarith [hy.1]) hd.le
  have h1 : (y - a.y) / (b.y - a.y) ≤ 1 := by rw [div_le_one hd]; linarith [hy.2]
  generalize (y - a.y) / (b.y - a.y) = t at *
  constructor
  · have := le_max_left a.x b.x
    have := le_max_right a.x b.x
    nlinarith
  · have := min_le_left a.x b.x
    have := min_le_right a.x b.x
    nlinarith

theorem cut_integrable_up (L α β γ : ℝ) (a b : V2) (h : a.y < b.y) :
    Integrable fun q : ℝ × ℝ => cutCross L a b q * aff α β γ q := by
  have hs : Function.support (fun q : ℝ × ℝ => cutCross L a b q * aff α β γ q)
      ⊆ Icc (-L) (max a.x b.x) ×ˢ Icc a.y b.y := by
    rintro ⟨x, y⟩ hq
    rw [Function.mem_support] at hq
    rw [cutCross_up L a b h] at hq
    split_ifs at hq with h1 h2
    · exact ⟨⟨h2.1.le, h2.2.le.trans (line_le a b h y ⟨h1.1, h1.2.le⟩).1⟩, ⟨h1.1, h1.2.le⟩⟩
    · simp at hq
    · simp at hq
  rw [← integrableOn_iff_integrable_of_support_subset hs]
  have hc : IntegrableOn (aff α β γ) (Icc (-L) (max a.x b.x) ×ˢ Icc a.y b.y) :=
    ContinuousOn.integrableOn_compact (isCompact_Icc.prod isCompact_Icc)
      (Continuous.continuousOn (by unfold aff; fun_prop))
  refine hc.bdd_mul (c := 1) (cutCross_measurable L a b).aestronglyMeasurable (Eventually.of_forall fun q => ?_)
  rw [Real.norm_eq_abs]
  exact cutCross_abs L a b q

/-- contribution of an edge: target plus a difference -/
noncomputable def tgt (α β γ : ℝ) (a b : V2) : ℝ :=
  α * (crossE a b / 2) + β * (momX a b / 6) + γ * (momY a b / 6)
noncomputable def rest (α β γ L : ℝ) (a : V2) : ℝ :=
  α * (a.x * a.y / 2 + L * a.y) + β * (a.x ^ 2 * a.y / 6 - L ^ 2 / 2 * a.y) + γ * (a.x * a.y ^ 2 / 3 + L * a.y ^ 2 / 2)

theorem inner_int (L X α β γ y : ℝ) (hX : -L ≤ X) :
    ∫ x in Ioo (-L) X, aff α β γ (x, y)
      = (α + γ * y) * (X + L) + β * ((X ^ 2 - L ^ 2) / 2) := by
  rw [← integral_Ioc_eq_integral_Ioo, ← intervalIntegral.integral_of_le hX]
  have e : (fun x : ℝ => aff α β γ (x, y)) = fun x => (α + γ * y) + β * x := by funext x; simp only [aff]; ring
  rw [e, intervalIntegral.integral_add (by simp) (Continuous.intervalIntegrable (by fun_prop) _ _),
    intervalIntegral.integral_const, intervalIntegral.integral_const_mul, integral_id, smul_eq_mul]
  ring

theorem cut_int_up (L α β γ : ℝ) (a b : V2) (h : a.y < b.y) (ha : -L < a.x) (hb : -L < b.x) :
    ∫ q : ℝ × ℝ, cutCross L a b q * aff α β γ q = tgt α β γ a b + (rest α β γ L b - rest α β γ L a) := by
  have hi := cut_integrable_up L α β γ a b h
  rw [Measure.volume_eq_prod] at hi ⊢
  rw [integral_prod_symm _ hi]
  have hd : b.y - a.y ≠ 0 := by linarith
  have h1 : ∀ y : ℝ, ∫ x : ℝ, cutCross L a b (x, y) * aff α β γ (x, y)
      = (Ico a.y b.y).indicator (fun y => (α + γ * y) * ((a.x + (y - a.y) / (b.y - a.y) * (b.x - a.x)) + L)
        + β * (((a.x + (y - a.y) / (b.y - a.y) * (b.x - a.x)) ^ 2 - L ^ 2) / 2)) y := by
    intro y
    simp only [cutCross_up L a b h]
    by_cases hy : y ∈ Ico a.y b.y
    · rw [indicator_of_mem hy]
      simp only [if_pos hy]
      rw [← inner_int L _ α β γ y ((lt_min ha hb).le.trans (line_le a b h y ⟨hy.1, hy.2.le⟩).2),
        ← integral_indicator measurableSet_Ioo]
      congr 1
      funext x
      by_cases hx : x ∈ Ioo (-L) (a.x + (y - a.y) / (b.y - a.y) * (b.x - a.x))
      · rw [if_pos hx, indicator_of_mem hx, one_mul]
      · rw [if_neg hx, indicator_of_notMem hx, zero_mul]
    · rw [indicator_of_notMem hy]
      simp only [if_neg hy, zero_mul, integral_zero]
  simp only [h1]
  rw [integral_indicator measurableSet_Ico, integral_Ico_eq_integral_Ioc, ← intervalIntegral.integral_of_le h.le]
  -- substitute the height along the edge
  have hsub := intervalIntegral.mul_integral_comp_add_mul (a := 0) (b := 1)
    (f := fun y => (α + γ * y) * ((a.x + (y - a.y) / (b.y - a.y) * (b.x - a.x)) + L)
        + β * (((a.x + (y - a.y) / (b.y - a.y) * (b.x - a.x)) ^ 2 - L ^ 2) / 2)) (c := b.y - a.y) (d := a.y)
  rw [mul_zero, mul_one, add_zero, add_sub_cancel] at hsub
  rw [← hsub, ← intervalIntegral.integral_const_mul]
  have e : ∀ s : ℝ, (b.y - a.y) * ((α + γ * (a.y + (b.y - a.y) * s))
        * ((a.x + (a.y + (b.y - a.y) * s - a.y) / (b.y - a.y) * (b.x - a.x)) + L)
        + β * (((a.x + (a.y + (b.y - a.y) * s - a.y) / (b.y - a.y) * (b.x - a.x)) ^ 2 - L ^ 2) / 2))
      = (b.y - a.y) * ((α + γ * (a.y + (b.y - a.y) * s)) * ((a.x + s * (b.x - a.x)) + L)
        + β * (((a.x + s * (b.x - a.x)) ^ 2 - L ^ 2) / 2)) := by
    intro s
    rw [show (a.y + (b.y - a.y) * s - a.y) / (b.y - a.y) = s by field_simp; ring]
  simp only [e]
  have hder : ∀ s : ℝ, HasDerivAt (fun s : ℝ => (b.y - a.y) * (
        α * ((a.x + L) * s + (b.x - a.x) * s ^ 2 / 2)
        + γ * (a.y * (a.x + L) * s + (a.y * (b.x - a.x) + (b.y - a.y) * (a.x + L)) * s ^ 2 / 2
            + (b.y - a.y) * (b.x - a.x) * s ^ 3 / 3)
        + β * (((a.x ^ 2 - L ^ 2) * s + a.x * (b.x - a.x) * s ^ 2 + (b.x - a.x) ^ 2 * s ^ 3 / 3) / 2)))
      ((b.y - a.y) * ((α + γ * (a.y + (b.y - a.y) * s)) * ((a.x + s * (b.x - a.x)) + L)
        + β * (((a.x + s * (b.x - a.x)) ^ 2 - L ^ 2) / 2))) s := by
    intro s
    have i1 := hasDerivAt_id' s
    have i2 := i1.fun_pow 2
    have i3 := i1.fun_pow 3
    have k1 := ((i1.const_mul (a.x + L)).fun_add ((i2.const_mul (b.x - a.x)).div_const 2)).const_mul α
    have k2 := (((i1.const_mul (a.y * (a.x + L))).fun_add
      ((i2.const_mul (a.y * (b.x - a.x) + (b.y - a.y) * (a.x + L))).div_const 2)).fun_add
      ((i3.const_mul ((b.y - a.y) * (b.x - a.x))).div_const 3)).const_mul γ
    have k3 := ((((i1.const_mul (a.x ^ 2 - L ^ 2)).fun_add (i2.const_mul (a.x * (b.x - a.x)))).fun_add
      ((i3.const_mul ((b.x - a.x) ^ 2)).div_const 3)).div_const 2).const_mul β
    refine (((k1.fun_add k2).fun_add k3).const_mul (b.y - a.y)).congr_deriv ?_
    simp only [Nat.cast_ofNat, Nat.add_one_sub_one, pow_one, mul_one]
    ring_nf
  rw [intervalIntegral.integral_eq_sub_of_hasDerivAt (fun s _ => hder s)
    (Continuous.intervalIntegrable (by fun_prop) _ _)]
  simp only [tgt, rest, crossE, momX, momY]
  ring

theorem cut_flat (L : ℝ) (a b : V2) (h : a.y = b.y) (q : ℝ × ℝ) : cutCross L a b q = 0 := by
  simp only [cutCross]
  split_ifs
  · unfold crossing
    rw [if_neg, if_neg]
    · simp
    · rintro ⟨h2, h3, _⟩; linarith
    · rintro ⟨h2, h3, _⟩; linarith
  · rfl

theorem cut_int (L α β γ : ℝ) (a b : V2) (ha : -L < a.x) (hb : -L < b.x) :
    Integrable (fun q : ℝ × ℝ => cutCross L a b q * aff α β γ q) ∧
    ∫ q : ℝ × ℝ, cutCross L a b q * aff α β γ q = tgt α β γ a b + (rest α β γ L b - rest α β γ L a) := by
  rcases lt_trichotomy a.y b.y with h | h | h
  · exact ⟨cut_integrable_up L α β γ a b h, cut_int_up L α β γ a b h ha hb⟩
  · simp only [cut_flat L a b h, zero_mul, integral_zero]
    refine ⟨integrable_zero _ _ _, ?_⟩
    simp only [tgt, rest, crossE, momX, momY, h]
    ring
  · have e : (fun q : ℝ × ℝ => cutCross L a b q * aff α β γ q)
        = fun q => -(cutCross L b a q * aff α β γ q) := by
      funext q; rw [cutCross_swap L b a]; ring
    rw [e, integral_neg, cut_int_up L α β γ b a h hb ha]
    refine ⟨(cut_integrable_up L α β γ b a h).neg, ?_⟩
    simp only [tgt, crossE, momX, momY]
    ring

theorem cut_chain (L α β γ : ℝ) (a : V2) (l : List V2) (ha : -L < a.x) (hl : ∀ v ∈ l, -L < v.x) :
    Integrable (fun q : ℝ × ℝ => (if -L < q.1 then ((chain (crossing q) a l : ℤ) : ℝ) else 0) * aff α β γ q) ∧
    ∫ q : ℝ × ℝ, (if -L < q.1 then ((chain (crossing q) a l : ℤ) : ℝ) else 0) * aff α β γ q
      = chain (fun a b => tgt α β γ a b + (rest α β γ L b - rest α β γ L a)) a l := by
  induction l generalizing a with
  | nil => simp [chain]
  | cons b l ih =>
    have e : ∀ q : ℝ × ℝ, (if -L < q.1 then ((chain (crossing q) a (b :: l) : ℤ) : ℝ) else 0) * aff α β γ q
        = cutCross L a b q * aff α β γ q + (if -L < q.1 then ((chain (crossing q) b l : ℤ) : ℝ) else 0) * aff α β γ q := by
      intro q
      simp only [chain, cutCross]
      split_ifs
      · push_cast; ring
      · ring
    have hb := hl b (by simp)
    obtain ⟨h1, h2⟩ := ih b hb fun v hv => hl v (by simp [hv])
    obtain ⟨h3, h4⟩ := cut_int L α β γ a b ha hb
    simp only [e]
    exact ⟨h3.add h1, by rw [integral_add h3 h1, h2, h4]; rfl⟩

/-- to the left of all vertices nothing is enclosed -/
theorem crossing_left (q : ℝ × ℝ) (a b : V2) (ha : q.1 < a.x) (hb : q.1 < b.x) :
    crossing q a b = (if b.y ≤ q.2 then -1 else 0) - (if a.y ≤ q.2 then -1 else 0) := by
  unfold crossing
  have h1 : (b.x - a.x) * (q.2 - a.y) - (b.y - a.y) * (q.1 - a.x) = (q.2 - a.y) * (b.x - q.1) + (b.y - q.2) * (a.x - q.1) := by
    ring
  by_cases c1 : a.y ≤ q.2 <;> by_cases c2 : b.y ≤ q.2
  · rw [if_neg (fun h => absurd c2 (not_le.mpr h.2.1)), if_neg (fun h => absurd c1 (not_le.mpr h.2.1)), if_pos c2, if_pos c1]
    ring
  · have h2 : 0 < (b.x - a.x) * (q.2 - a.y) - (b.y - a.y) * (q.1 - a.x) := by
      rw [h1]
      have := mul_nonneg (sub_nonneg.mpr c1) (sub_nonneg.mpr hb.le)
      have := mul_pos (sub_pos.mpr (not_le.mp c2)) (sub_pos.mpr ha)
      linarith
    rw [if_pos ⟨c1, not_le.mp c2, h2⟩, if_neg c2, if_pos c1]
    ring
  · have h2 : (b.x - a.x) * (q.2 - a.y) - (b.y - a.y) * (q.1 - a.x) < 0 := by
      rw [h1]
      have := mul_pos (sub_pos.mpr (not_le.mp c1)) (sub_pos.mpr hb)
      have := mul_nonneg (sub_nonneg.mpr c2) (sub_nonneg.mpr ha.le)
      nlinarith
    rw [if_neg (fun h => c1 h.1), if_pos ⟨c2, not_le.mp c1, h2⟩, if_pos c2, if_neg c1]
    ring
  · rw [if_neg (fun h => c1 h.1), if_neg (fun h => c2 h.1), if_neg c2, if_neg c1]
    ring

theorem chain_congr {f g : V2 → V2 → ℤ} (P : V2 → Prop) (h : ∀ a b, P a → P b → f a b = g a b) (a : V2) (l : List V2)
    (ha : P a) (hl : ∀ v ∈ l, P v) : chain f a l = chain g a l := by
  induction l generalizing a with
  | nil => rfl
  | cons b l ih =>
    simp only [chain]
    rw [h a b ha (hl b (by simp)), ih b (hl b (by simp)) fun v hv => hl v (by simp [hv])]

theorem winding_left (poly : List V2) (q : ℝ × ℝ) (h : ∀ v ∈ poly, q.1 < v.x) : winding poly q = 0 := by
  rw [PolyInt.winding_cyc, ← cycSum_tele (fun a : V2 => if a.y ≤ q.2 then (-1 : ℤ) else 0) poly]
  cases poly with
  | nil => rfl
  | cons a t =>
    simp only [cycSum]
    refine chain_congr (fun v => q.1 < v.x) (fun a b ha hb => crossing_left q a b ha hb) a _ (h a (by simp)) ?_
    intro v hv
    exact h v (by simp at hv ⊢; tauto)

theorem exists_left (poly : List V2) : ∃ L : ℝ, ∀ v ∈ poly, -L < v.x := by
  induction poly with
  | nil => exact ⟨0, by simp⟩
  | cons a l ih =>
    obtain ⟨L, hL⟩ := ih
    refine ⟨max L (-a.x + 1), fun v hv => ?_⟩
    have h1 := le_max_left L (-a.x + 1)
    have h2 := le_max_right L (-a.x + 1)
    rcases List.mem_cons.mp hv with rfl | hv
    · linarith
    · linarith [hL v hv]

theorem winding_aff (poly : List V2) (α β γ : ℝ) :
    Integrable (fun q : ℝ × ℝ => (winding poly q : ℝ) * aff α β γ q) ∧
    ∫ q : ℝ × ℝ, (winding poly q : ℝ) * aff α β γ q
      = α * (cycSum crossE poly / 2) + β * (cycSum momX poly / 6) + γ * (cycSum momY poly / 6) := by
  obtain ⟨L, hL⟩ := exists_left poly
  have e : (fun q : ℝ × ℝ => (winding poly q : ℝ) * aff α β γ q)
      = fun q => (if -L < q.1 then ((cycSum (crossing q) poly : ℤ) : ℝ) else 0) * aff α β γ q := by
    funext q
    by_cases h : -L < q.1
    · rw [if_pos h, PolyInt.winding_cyc]
    · rw [if_neg h, winding_left poly q fun v hv => (not_lt.mp h).trans_lt (hL v hv)]; simp
  have t : cycSum (fun a b => tgt α β γ a b + (rest α β γ L b - rest α β γ L a)) poly
      = α * (cycSum crossE poly / 2) + β * (cycSum momX poly / 6) + γ * (cycSum momY poly / 6) := by
    rw [cycSum_add (tgt α β γ) (fun a b => rest α β γ L b - rest α β γ L a), cycSum_tele, add_zero]
    have : (tgt α β γ) = fun a b => (α / 2 * crossE a b + β / 6 * momX a b) + γ / 6 * momY a b := by
      funext a b; simp only [tgt]; ring
    rw [this, cycSum_add (fun a b => α / 2 * crossE a b + β / 6 * momX a b) (fun a b => γ / 6 * momY a b),
      cycSum_add (fun a b => α / 2 * crossE a b) (fun a b => β / 6 * momX a b), cycSum_smul, cycSum_smul, cycSum_smul]
    ring
  rw [e, ← t]
  cases poly with
  | nil => simp [cycSum]
  | cons a l =>
    exact cut_chain L α β γ a _ (hL a (by simp)) fun v hv => hL v (by simp at hv ⊢; tauto)

end AreaReg
open AreaReg

/-- C10: the area is the integral over the plane of the number of times the boundary winds around
each point: the area of the enclosed region, positive if the boundary runs counter clockwise. -/
theorem c10_area_region (poly : List V2) :
    Integrable (fun q : ℝ × ℝ => (winding poly q : ℝ)) ∧
    (areaCentroid poly).1 = ∫ q : ℝ × ℝ, (winding poly q : ℝ) := by
  have h := winding_aff poly 1 0 0
  simp only [aff, zero_mul, add_zero, mul_one, one_mul] at h
  exact ⟨h.1, by rw [h.2, area_eq]⟩

/-- C10: the centroid is the mean position of the enclosed region. -/
theorem c10_centroid_region (poly : List V2) (h0 : (areaCentroid poly).1 ≠ 0) :
    (areaCentroid poly).2.x = (∫ q : ℝ × ℝ, (winding poly q : ℝ) * q.1) / ∫ q : ℝ × ℝ, (winding poly q : ℝ) ∧
    (areaCentroid poly).2.y = (∫ q : ℝ × ℝ, (winding poly q : ℝ) * q.2) / ∫ q : ℝ × ℝ, (winding poly q : ℝ) := by
  have hx := (winding_aff poly 0 1 0).2
  have hy := (winding_aff poly 0 0 1).2
  simp only [aff, zero_mul, add_zero, zero_add, one_mul] at hx hy
  rw [← (c10_area_region poly).2, hx, hy, centroid_x_eq, centroid_y_eq]
  constructor <;> field_simp

/-- the hypothesis is met, for example by a triangle -/
example : (areaCentroid [⟨0, 0⟩, ⟨1, 0⟩, ⟨0, 1⟩]).1 ≠ 0 := by
  rw [(c10_triangle _ _ _).1]; norm_num

end Electrode
