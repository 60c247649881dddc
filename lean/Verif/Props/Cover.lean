import Verif.Props.CoverSum

/-
C121: what a cover plane does to the potential.
-/
namespace Electrode
open Real MeasureTheory Set Filter Topology Spec

namespace Cover

theorem pixel_odd (x y z : ℝ) (q : ℝ × ℝ) : pixelAt ⟨x, y, -z⟩ q = -pixelAt ⟨x, y, z⟩ q := by
  unfold pixelAt
  simp only
  rw [neg_sq, neg_div]

theorem pixel_deriv (x y : ℝ) {z : ℝ} (hz : 0 < z) (q : ℝ × ℝ) :
    HasDerivAt (fun z => pixelAt ⟨x, y, z⟩ q) ((lat x y q - 2 * z ^ 2) / (2 * π * √(lat x y q + z ^ 2) ^ 5)) z := by
  have hc := lat_nonneg x y q
  have hr : 0 < lat x y q + z ^ 2 := by positivity
  have hs : 0 < √(lat x y q + z ^ 2) := Real.sqrt_pos.2 hr
  have h1 : HasDerivAt (fun z : ℝ => lat x y q + z ^ 2) (2 * z) z := by simpa using (hasDerivAt_pow 2 z).const_add (lat x y q)
  have h2 := ((h1.sqrt hr.ne').pow 3).const_mul (2 * π)
  have h3 := (hasDerivAt_id z).div h2 (by have := pi_pos; simp only [Pi.pow_apply]; positivity)
  refine (h3.congr_of_eventuallyEq (Eventually.of_forall fun z => ?_)).congr_deriv ?_
  · rfl
  · have e := Real.sq_sqrt hr.le
    have hpi := pi_pos
    simp only [id, Pi.pow_apply]
    rw [show lat x y q = √(lat x y q + z ^ 2) ^ 2 - z ^ 2 by rw [e]; ring]
    rw [show √(lat x y q + z ^ 2) ^ 2 - z ^ 2 + z ^ 2 = √(lat x y q + z ^ 2) ^ 2 by ring, Real.sqrt_sq hs.le]
    generalize √(lat x y q + z ^ 2) = r at *
    push_cast
    field_simp
    ring

theorem pixel_lipschitz (x y : ℝ) (q : ℝ × ℝ) {a b : ℝ} (ha : 0 < a) (hab : a ≤ b) :
    |pixelAt ⟨x, y, b⟩ q - pixelAt ⟨x, y, a⟩ q| ≤ 2 / π * (b - a) / (2 * a ^ 3) := by
  have hpi := pi_pos
  have key := Convex.norm_image_sub_le_of_norm_hasDerivWithin_le (f := fun z => pixelAt ⟨x, y, z⟩ q)
    (f' := fun z => (lat x y q - 2 * z ^ 2) / (2 * π * √(lat x y q + z ^ 2) ^ 5)) (s := Icc a b) (C := 1 / (π * a ^ 3)) (x := a) (y := b)
    (fun z hz => (pixel_deriv x y (ha.trans_le hz.1) q).hasDerivWithinAt) (fun z hz => ?_) (convex_Icc a b) ⟨le_rfl, hab⟩ ⟨hab, le_rfl⟩
  · rw [Real.norm_eq_abs, Real.norm_eq_abs, abs_of_nonneg (sub_nonneg.2 hab)] at key
    refine key.trans_eq ?_
    field_simp
  · have hz0 : 0 < z := ha.trans_le hz.1
    have hc := lat_nonneg x y q
    have hr : 0 < lat x y q + z ^ 2 := by positivity
    have hs : 0 < √(lat x y q + z ^ 2) := Real.sqrt_pos.2 hr
    have e := Real.sq_sqrt hr.le
    have haz : a ≤ √(lat x y q + z ^ 2) := Real.le_sqrt_of_sq_le (by nlinarith [hz.1])
    rw [Real.norm_eq_abs, abs_div, abs_of_pos (show 0 < 2 * π * √(lat x y q + z ^ 2) ^ 5 by positivity)]
    have h1 : |lat x y q - 2 * z ^ 2| ≤ 2 * √(lat x y q + z ^ 2) ^ 2 := by
      rw [e, abs_le]
      constructor <;> nlinarith [sq_nonneg z]
    calc _ ≤ 2 * √(lat x y q + z ^ 2) ^ 2 / (2 * π * √(lat x y q + z ^ 2) ^ 5) := by gcongr
      _ = 1 / (π * √(lat x y q + z ^ 2) ^ 3) := by field_simp
      _ ≤ _ := by gcongr

theorem pixel_le (x y : ℝ) {z : ℝ} (hz : z ≠ 0) (q : ℝ × ℝ) : |pixelAt ⟨x, y, z⟩ q| ≤ 1 / (2 * π * z ^ 2) := by
  have hpi := pi_pos
  have hz' : 0 < |z| := abs_pos.2 hz
  have hc := lat_nonneg x y q
  have hle : |z| ≤ √(lat x y q + z ^ 2) := Real.le_sqrt_of_sq_le (by rw [sq_abs]; linarith)
  unfold pixelAt
  simp only
  rw [show (x - q.1) ^ 2 + (y - q.2) ^ 2 + z ^ 2 = lat x y q + z ^ 2 from rfl, abs_div,
    abs_of_pos (show 0 < 2 * π * √(lat x y q + z ^ 2) ^ 3 by have := hz'.trans_le hle; positivity)]
  calc _ ≤ |z| / (2 * π * |z| ^ 3) := by gcongr
    _ = 1 / (2 * π * |z| ^ 2) := by field_simp
    _ = _ := by rw [sq_abs]

theorem small_far {f : ℝ → ℝ} {C : ℝ} (h : ∀ z, z ≠ 0 → |f z| ≤ C * (1 / (2 * π * z ^ 2))) : Tendsto f atTop (𝓝 0) := by
  have h1 : Tendsto (fun z : ℝ => C * (1 / (2 * π * z ^ 2))) atTop (𝓝 (C * 0)) := by
    refine Tendsto.const_mul _ (tendsto_const_nhds.div_atTop (Tendsto.const_mul_atTop (by have := pi_pos; positivity) ?_))
    exact tendsto_pow_atTop (by norm_num)
  rw [mul_zero] at h1
  exact squeeze_zero_norm' (eventually_atTop.2 ⟨1, fun z hz => h z (by linarith)⟩) h1

theorem pixel_screened (x y : ℝ) (q : ℝ × ℝ) : Screened (fun z => pixelAt ⟨x, y, z⟩ q) (2 / π) where
  odd z := pixel_odd x y z q
  floor h z hz hzh := ⟨_, floor_pos hz hzh q, fun n => pixel_images hz hzh q n⟩
  bound a b ha hab := pixel_lipschitz x y q ha hab
  far := small_far (C := 1) fun z hz => by rw [one_mul]; exact pixel_le x y hz q

theorem Screened.smul {f : ℝ → ℝ} {B a : ℝ} (ha : 0 < a) (hf : Screened f B) : Screened (fun z => a * f z) (a * B) where
  odd z := by rw [hf.odd, mul_neg]
  floor h z hz hzh := by
    obtain ⟨c, hc, hfl⟩ := hf.floor h z hz hzh
    refine ⟨a * c, mul_pos ha hc, fun n => ?_⟩
    rw [← Finset.mul_sum]
    exact mul_le_mul_of_nonneg_left (hfl n) ha.le
  bound b c hb hbc := by
    rw [← mul_sub, abs_mul, abs_of_pos ha]
    refine (mul_le_mul_of_nonneg_left (hf.bound b c hb hbc) ha.le).trans_eq ?_
    ring
  far := by simpa using hf.far.const_mul a

theorem Screened.add {f g : ℝ → ℝ} {B C : ℝ} (hf : Screened f B) (hg : Screened g C) : Screened (fun z => f z + g z) (B + C) where
  odd z := by rw [hf.odd, hg.odd]; ring
  floor h z hz hzh := by
    obtain ⟨c, hc, hfl⟩ := hf.floor h z hz hzh
    obtain ⟨d, hd, hgl⟩ := hg.floor h z hz hzh
    refine ⟨c + d, add_pos hc hd, fun n => ?_⟩
    rw [Finset.sum_add_distrib]
    exact add_le_add (hfl n) (hgl n)
  bound a b ha hab := by
    rw [show f b + g b - (f a + g a) = (f b - f a) + (g b - g a) by ring]
    refine (abs_add_le _ _).trans ((add_le_add (hf.bound a b ha hab) (hg.bound a b ha hab)).trans_eq ?_)
    ring
  far := by simpa using hf.far.add hg.far

theorem points_screened (x y : ℝ) (l : List (V2 × ℝ)) (hne : l ≠ []) (ha : ∀ q ∈ l, 0 < q.2) :
    Screened (fun z => (l.map fun q => q.2 * pixelAt ⟨x, y, z⟩ (q.1.x, q.1.y)).sum) ((l.map (·.2)).sum * (2 / π)) := by
  induction l with
  | nil => exact absurd rfl hne
  | cons q l ih =>
    have h1 := (pixel_screened x y (q.1.x, q.1.y)).smul (ha q (by simp))
    rcases l with _ | ⟨q', l⟩
    · simpa using h1
    · have h2 := h1.add (ih (by simp) fun r hr => ha r (List.mem_cons_of_mem _ hr))
      simp only [List.map_cons, List.sum_cons] at h2 ⊢
      rw [add_mul]
      exact h2

theorem pixel_measurable (p : V3) : Measurable (pixelAt p) := by
  unfold pixelAt
  fun_prop

theorem weight_integrable {w : ℝ × ℝ → ℝ} (hw : Integrable w) (x y : ℝ) {z : ℝ} (hz : z ≠ 0) :
    Integrable fun q => w q * pixelAt ⟨x, y, z⟩ q :=
  hw.mul_bdd (c := 1 / (2 * π * z ^ 2)) (pixel_measurable _).aestronglyMeasurable (Eventually.of_forall fun q => pixel_le x y hz q)

theorem pixel_zero (x y : ℝ) (q : ℝ × ℝ) : pixelAt ⟨x, y, 0⟩ q = 0 := by simp [pixelAt]

theorem weight_integrable' {w : ℝ × ℝ → ℝ} (hw : Integrable w) (x y z : ℝ) : Integrable fun q => w q * pixelAt ⟨x, y, z⟩ q := by
  by_cases hz : z = 0
  · subst hz
    simp only [pixel_zero, mul_zero]
    exact integrable_zero _ _ _
  · exact weight_integrable hw x y hz

/-- a surface with nonnegative weights that do not vanish -/
theorem weight_screened {w : ℝ × ℝ → ℝ} (hw : Integrable w) (h0 : ∀ᵐ q, 0 ≤ w q) (hpos : 0 < ∫ q, w q) (x y : ℝ) :
    Screened (fun z => ∫ q, w q * pixelAt ⟨x, y, z⟩ q) ((∫ q, w q) * (2 / π)) where
  odd z := by
    simp only [pixel_odd, mul_neg]
    rw [integral_neg]
  floor h z hz hzh := by
    set s : ℕ → ℝ × ℝ → ℝ := fun n q => ∑ m ∈ Finset.Icc (-(n : ℤ)) n, pixelAt ⟨x, y, z + 2 * m * h⟩ q with hs
    have sm : ∀ n, Measurable (s n) := fun n => Finset.measurable_fun_sum _ fun m _ => pixel_measurable _
    have bdd : ∀ q, BddBelow (range fun n => s n q) := fun q => ⟨pixelFloor h x y z q, by
      rintro _ ⟨n, rfl⟩
      exact pixel_images hz hzh q n⟩
    have ipos : ∀ q, 0 < ⨅ n, s n q := fun q => (floor_pos hz hzh q).trans_le (le_ciInf fun n => pixel_images hz hzh q n)
    have ile : ∀ n q, ⨅ n, s n q ≤ s n q := fun n q => ciInf_le (bdd q) n
    have imeas : Measurable fun q => ⨅ n, s n q := Measurable.iInf sm
    have iint : Integrable fun q => w q * ⨅ n, s n q := by
      refine hw.mul_bdd (c := 1 / (2 * π * z ^ 2)) imeas.aestronglyMeasurable (Eventually.of_forall fun q => ?_)
      rw [Real.norm_eq_abs, abs_of_pos (ipos q)]
      refine (ile 0 q).trans ?_
      simp only [hs]
      rw [images_zero (fun z => pixelAt ⟨x, y, z⟩ q)]
      exact (le_abs_self _).trans (pixel_le x y hz.ne' q)
    refine ⟨∫ q, w q * ⨅ n, s n q, ?_, fun n => ?_⟩
    · rw [integral_pos_iff_support_of_nonneg_ae h0 hw] at hpos
      rw [gt_iff_lt, integral_pos_iff_support_of_nonneg_ae (h0.mono fun q hq => mul_nonneg hq (ipos q).le) iint]
      have : (Function.support fun q => w q * ⨅ n, s n q) = Function.support w := by
        ext q
        simp [(ipos q).ne']
      rwa [this]
    · rw [← integral_finsetSum _ fun m _ => weight_integrable' hw x y _]
      refine integral_mono_ae iint (integrable_finsetSum _ fun m _ => weight_integrable' hw x y _) (h0.mono fun q hq => ?_)
      simp only
      rw [← Finset.mul_sum]
      exact mul_le_mul_of_nonneg_left (ile n q) hq
  bound a b ha hab := by
    have hb : 0 < b := ha.trans_le hab
    rw [← integral_sub (weight_integrable hw x y hb.ne') (weight_integrable hw x y ha.ne')]
    have h1 : ∀ᵐ q, ‖w q * pixelAt ⟨x, y, b⟩ q - w q * pixelAt ⟨x, y, a⟩ q‖ ≤ w q * (2 / π * (b - a) / (2 * a ^ 3)) := by
      filter_upwards [h0] with q hq
      rw [← mul_sub, norm_mul, Real.norm_eq_abs, Real.norm_eq_abs, abs_of_nonneg hq]
      exact mul_le_mul_of_nonneg_left (pixel_lipschitz x y q ha hab) hq
    have h2 := norm_integral_le_of_norm_le (hw.mul_const _) h1
    rw [integral_mul_const, Real.norm_eq_abs] at h2
    refine h2.trans_eq ?_
    ring
  far := by
    refine small_far (C := ∫ q, w q) fun z hz => ?_
    have h1 : ∀ᵐ q, ‖w q * pixelAt ⟨x, y, z⟩ q‖ ≤ w q * (1 / (2 * π * z ^ 2)) := by
      filter_upwards [h0] with q hq
      rw [norm_mul, Real.norm_eq_abs, Real.norm_eq_abs, abs_of_nonneg hq]
      exact mul_le_mul_of_nonneg_left (pixel_le x y hz q) hq
    have h2 := norm_integral_le_of_norm_le (hw.mul_const _) h1
    rwa [integral_mul_const] at h2

theorem covered_integrable' (polys : List (List V2)) : Integrable fun q : ℝ × ℝ => (covered polys q : ℝ) := by
  induction polys with
  | nil => simp [covered]
  | cons a l ih =>
    have e : (fun q : ℝ × ℝ => (covered (a :: l) q : ℝ)) = fun q => (winding a q : ℝ) + (covered l q : ℝ) := by
      funext q
      simp [covered]
    rw [e]
    exact (c10_area_region a).1.add ih

theorem below {h : ℝ} {p : V3} (hz : 0 < p.z) (hzh : p.z < h) (n : ℕ) : offPlanes h n p := fun m _ _ => image_ne hz hzh m

/-- the potential is the sum of the images -/
theorem poly_images (name : String) (dc rf : ℝ) (polys : List (List V2)) (h v : ℝ) (p : V3) (hz : 0 < p.z) (hzh : p.z < h) (n : ℕ) :
    compAt ⟨name, dc, rf, .polygons polys h n⟩ 0 0 v p
      = v * ∑ m ∈ Finset.Icc (-(n : ℤ)) n, ∫ q : ℝ × ℝ, (covered polys q : ℝ) * pixelAt ⟨p.x, p.y, p.z + 2 * m * h⟩ q :=
  (c86_integral name dc rf polys h n v p (below hz hzh n)).2

theorem point_images (name : String) (dc rf : ℝ) (ps : List V2) (as : List ℝ) (h v : ℝ) (p : V3) (n : ℕ) :
    compAt ⟨name, dc, rf, .points ps as h n⟩ 0 0 v p
      = v * ∑ m ∈ Finset.Icc (-(n : ℤ)) n, ((ps.zip as).map fun q => q.2 * pixelAt ⟨p.x, p.y, p.z + 2 * m * h⟩ (q.1.x, q.1.y)).sum := by
  rw [c86_point]
  congr 1
  induction ps.zip as with
  | nil => simp
  | cons q l ih => simp [Finset.sum_add_distrib, ih]

/-- the consequences for the electrode -/
theorem consequences {f : ℝ → ℝ} {B : ℝ} (hf : Screened f B) {h z : ℝ} (hz : 0 < z) (hzh : z < h) (v : ℝ) (φ : ℕ → ℝ)
    (hφ : ∀ n : ℕ, φ n = v * ∑ m ∈ Finset.Icc (-(n : ℤ)) n, f (z + 2 * m * h)) :
    (∀ n, SignType.sign (φ n) = SignType.sign v) ∧
    ∃ L, Tendsto φ atTop (𝓝 (v * L)) ∧ 0 < L ∧ L < f z ∧ ∀ n : ℕ, 1 ≤ n → |φ n - v * L| ≤ |v| * (B * z / (16 * h ^ 3 * n ^ 2)) := by
  constructor
  · intro n
    obtain ⟨c, hc, hfl⟩ := hf.floor h z hz hzh
    rw [hφ, sign_mul, sign_pos (hc.trans_le (hfl n)), mul_one]
  · obtain ⟨L, h1, h2, -⟩ := hf.limit hz hzh.le
    obtain ⟨h3, h4⟩ := hf.between hz hzh h1
    refine ⟨L, ?_, h3, h4, fun n hn => ?_⟩
    · rw [show φ = fun n : ℕ => v * ∑ m ∈ Finset.Icc (-(n : ℤ)) n, f (z + 2 * m * h) from funext hφ]
      exact h1.const_mul v
    · rw [hφ, ← mul_sub, abs_mul]
      exact mul_le_mul_of_nonneg_left (h2 n hn) (abs_nonneg v)

end Cover
open Cover

/-- C121: between the plane and the cover, a polygon electrode that covers a positive area and no point negatively has, with any number of
images, a potential of the sign of its voltage.  With more and more images the potential tends to `v * L`, which is smaller than without
cover but not zero, and with `n` images the error is at most `|v| * area * z / (8 π h³ n²)`. -/
theorem c121_polygons (name : String) (dc rf : ℝ) (polys : List (List V2)) (hc : ∀ᵐ q : ℝ × ℝ, 0 ≤ covered polys q)
    (ha : 0 < ∫ q : ℝ × ℝ, (covered polys q : ℝ)) (h v : ℝ) (p : V3) (hz : 0 < p.z) (hzh : p.z < h) :
    (∀ n, SignType.sign (compAt ⟨name, dc, rf, .polygons polys h n⟩ 0 0 v p) = SignType.sign v) ∧
    ∃ L, Tendsto (fun n => compAt ⟨name, dc, rf, .polygons polys h n⟩ 0 0 v p) atTop (𝓝 (v * L)) ∧
      0 < L ∧ L < compAt ⟨name, dc, rf, .polygons polys h 0⟩ 0 0 1 p ∧
      ∀ n : ℕ, 1 ≤ n → |compAt ⟨name, dc, rf, .polygons polys h n⟩ 0 0 v p - v * L|
        ≤ |v| * (∫ q : ℝ × ℝ, (covered polys q : ℝ)) * p.z / (8 * π * h ^ 3 * n ^ 2) := by
  have hf := weight_screened (covered_integrable' polys) (hc.mono fun q hq => by exact_mod_cast hq) ha p.x p.y
  obtain ⟨h1, L, h2, h3, h4, h5⟩ := consequences hf hz hzh v _ fun n => poly_images name dc rf polys h v p hz hzh n
  refine ⟨h1, L, h2, h3, ?_, fun n hn => (h5 n hn).trans_eq ?_⟩
  · rw [poly_images name dc rf polys h 1 p hz hzh, one_mul, images_zero (fun z => ∫ q, (covered polys q : ℝ) * pixelAt ⟨p.x, p.y, z⟩ q)]
    exact h4
  · have := pi_pos
    have : (1 : ℝ) ≤ n := by exact_mod_cast hn
    have : 0 < h := hz.trans hzh
    field_simp
    ring

/-- C121: the same for points of positive areas. -/
theorem c121_points (name : String) (dc rf : ℝ) (ps : List V2) (as : List ℝ) (hl : ps.length = as.length) (hne : as ≠ []) (ha : ∀ a ∈ as, 0 < a)
    (h v : ℝ) (p : V3) (hz : 0 < p.z) (hzh : p.z < h) :
    (∀ n, SignType.sign (compAt ⟨name, dc, rf, .points ps as h n⟩ 0 0 v p) = SignType.sign v) ∧
    ∃ L, Tendsto (fun n => compAt ⟨name, dc, rf, .points ps as h n⟩ 0 0 v p) atTop (𝓝 (v * L)) ∧
      0 < L ∧ L < compAt ⟨name, dc, rf, .points ps as h 0⟩ 0 0 1 p ∧
      ∀ n : ℕ, 1 ≤ n → |compAt ⟨name, dc, rf, .points ps as h n⟩ 0 0 v p - v * L| ≤ |v| * as.sum * p.z / (8 * π * h ^ 3 * n ^ 2) := by
  have hz0 : ps.zip as ≠ [] := by
    intro h0
    have h1 := congrArg List.length h0
    rw [List.length_zip, hl, min_self, List.length_nil] at h1
    exact hne (List.length_eq_zero_iff.1 h1)
  have hf := points_screened p.x p.y (ps.zip as) hz0 fun q hq => ha _ (List.of_mem_zip hq).2
  rw [List.map_snd_zip hl.ge] at hf
  obtain ⟨h1, L, h2, h3, h4, h5⟩ := consequences hf hz hzh v _ fun n => point_images name dc rf ps as h v p n
  refine ⟨h1, L, h2, h3, ?_, fun n hn => (h5 n hn).trans_eq ?_⟩
  · rw [point_images, one_mul, images_zero (fun z => ((ps.zip as).map fun q => q.2 * pixelAt ⟨p.x, p.y, z⟩ (q.1.x, q.1.y)).sum)]
    exact h4
  · have := pi_pos
    have : (1 : ℝ) ≤ n := by exact_mod_cast hn
    have : 0 < h := hz.trans hzh
    field_simp
    ring

/-- the unit square under a cover at height 2 -/
example (v : ℝ) (n : ℕ) : SignType.sign (compAt ⟨"", 0, 0, .polygons [unitSquare] 2 n⟩ 0 0 v ⟨5, 0, 1⟩) = SignType.sign v := by
  have hA : (areaCentroid unitSquare).1 = 1 := by simp [unitSquare, areaCentroid, rollLeft]
  refine (c121_polygons "" 0 0 [unitSquare] (Eventually.of_forall fun q => ?_) ?_ 2 v ⟨5, 0, 1⟩ (by norm_num) (by norm_num)).1 n
  · rw [covered_square q]
    split <;> norm_num
  · have e : (fun q : ℝ × ℝ => (covered [unitSquare] q : ℝ)) = fun q => (winding unitSquare q : ℝ) := by
      funext q
      simp [covered]
    rw [e, ← (c10_area_region unitSquare).2, hA]
    norm_num

/-- one point under a cover -/
example (v : ℝ) (n : ℕ) : SignType.sign (compAt ⟨"", 0, 0, .points [⟨0, 0⟩] [3] 2 n⟩ 0 0 v ⟨5, 0, 1⟩) = SignType.sign v :=
  (c121_points "" 0 0 [⟨0, 0⟩] [3] rfl (by simp) (by simp) 2 v ⟨5, 0, 1⟩ (by norm_num) (by norm_num)).1 n

/-- C121: below the cover, orientations tell the signs of the potentials of the paths, with any number of images (C118 without cover). -/
theorem c121_orientations (name : String) (dc rf h : ℝ) (paths : List (List V2))
    (hp : ∀ path ∈ paths, ∃ s : ℤ, (s = 1 ∨ s = -1) ∧ ∀ q, 0 ≤ s * winding path q) (n : ℕ) (v : ℝ) (p : V3) (hz : 0 < p.z) (hzh : p.z < h) :
    compAt ⟨name, dc, rf, .polygons paths h n⟩ 0 0 v p
      = (paths.map fun path => compAt ⟨name, dc, rf, .polygons [path] h n⟩ 0 0 v p).sum ∧
    List.Forall₂ (fun o path => (SignType.sign (compAt ⟨name, dc, rf, .polygons [path] h n⟩ 0 0 v p) : ℝ) = SignType.sign v * o)
      (Elec.orientations ⟨name, dc, rf, .polygons paths h n⟩) paths := by
  constructor
  · simp only [poly_images _ _ _ _ _ _ _ hz hzh]
    rw [List.sum_map_mul_left]
    congr 1
    induction paths with
    | nil => simp [covered]
    | cons a l ih =>
      rw [List.map_cons, List.sum_cons, ← ih fun path h => hp path (List.mem_cons_of_mem _ h), ← Finset.sum_add_distrib]
      refine Finset.sum_congr rfl fun m _ => ?_
      rw [← integral_add (weight_integrable' (covered_integrable' [a]) _ _ _) (weight_integrable' (covered_integrable' l) _ _ _)]
      congr 1
      funext q
      simp only [covered, List.map_cons, List.sum_cons, List.map_nil, List.sum_nil]
      push_cast
      ring
  · simp only [Elec.orientations, Electrode.orientations, List.forall₂_map_left_iff, List.forall₂_same]
    intro path hpath
    obtain ⟨s, hs, hw⟩ := hp path hpath
    have i1 := covered_integrable' [path]
    have e1 : ∫ q : ℝ × ℝ, (covered [path] q : ℝ) = (areaCentroid path).1 := by
      rw [(c10_area_region path).2]
      congr 1
      funext q
      simp [covered]
    have hs2 : (s : ℝ) * s = 1 := by rcases hs with rfl | rfl <;> norm_num
    have h0 : ∀ q : ℝ × ℝ, 0 ≤ (s : ℝ) * (covered [path] q : ℝ) := fun q => by
      have := hw q
      simp only [covered, List.map_cons, List.map_nil, List.sum_cons, List.sum_nil, add_zero]
      exact_mod_cast this
    have hI : ∫ q : ℝ × ℝ, (s : ℝ) * (covered [path] q : ℝ) = s * (areaCentroid path).1 := by rw [integral_const_mul, e1]
    have scale : ∀ z, ∫ q : ℝ × ℝ, ((s : ℝ) * (covered [path] q : ℝ)) * pixelAt ⟨p.x, p.y, z⟩ q
        = s * ∫ q : ℝ × ℝ, (covered [path] q : ℝ) * pixelAt ⟨p.x, p.y, z⟩ q := fun z => by
      rw [← integral_const_mul]
      simp only [mul_assoc]
    rw [poly_images _ _ _ _ _ _ _ hz hzh, sign_mul]
    suffices SignType.sign (∑ m ∈ Finset.Icc (-(n : ℤ)) n, ∫ q : ℝ × ℝ, (covered [path] q : ℝ) * pixelAt ⟨p.x, p.y, p.z + 2 * m * h⟩ q)
        = SignType.sign (areaCentroid path).1 by
      rw [this]
      push_cast
      ring
    have hn : 0 ≤ s * (areaCentroid path).1 := by rw [← hI]; exact integral_nonneg h0
    rcases hn.eq_or_lt with hz0 | hpos
    · have hA : (areaCentroid path).1 = 0 := by
        have : (s : ℝ) ≠ 0 := fun h => by rw [h] at hs2; norm_num at hs2
        rcases mul_eq_zero.1 hz0.symm with h | h
        · exact absurd h this
        · exact h
      have hae : (fun q : ℝ × ℝ => (s : ℝ) * (covered [path] q : ℝ)) =ᵐ[volume] 0 :=
        (integral_eq_zero_iff_of_nonneg h0 (i1.const_mul _)).1 (by rw [hI, ← hz0])
      rw [hA, sign_zero]
      have : ∀ z, ∫ q : ℝ × ℝ, (covered [path] q : ℝ) * pixelAt ⟨p.x, p.y, z⟩ q = 0 := fun z => by
        have h1 : (s : ℝ) * ∫ q : ℝ × ℝ, (covered [path] q : ℝ) * pixelAt ⟨p.x, p.y, z⟩ q = 0 := by
          rw [← scale]
          refine integral_eq_zero_of_ae (hae.mono fun q hq => ?_)
          simp only [Pi.zero_apply] at hq ⊢
          rw [hq, zero_mul]
        linear_combination (s : ℝ) * h1 - (∫ q : ℝ × ℝ, (covered [path] q : ℝ) * pixelAt ⟨p.x, p.y, z⟩ q) * hs2
      simp [this]
    · have hf := weight_screened (i1.const_mul (s : ℝ)) (Eventually.of_forall h0) (by rw [hI]; exact hpos) p.x p.y
      obtain ⟨c, hc, hfl⟩ := hf.floor h p.z hz hzh
      have h1 := hc.trans_le (hfl n)
      simp only [scale] at h1
      rw [← Finset.mul_sum] at h1
      rcases hs with rfl | rfl
      · simp only [Int.cast_one, one_mul] at h1 hpos
        rw [sign_pos h1, sign_pos hpos]
      · simp only [Int.cast_neg, Int.cast_one, neg_mul, one_mul, neg_pos] at h1 hpos
        rw [sign_neg h1, sign_neg hpos]

namespace Cover

/-- other pairs of images -/
theorem images_pairs {f : ℝ → ℝ} (hf : ∀ x, f (-x) = -f x) (h z : ℝ) (n : ℕ) :
    ∑ m ∈ Finset.Icc (-(n : ℤ)) n, f (z + 2 * m * h)
      = ∑ j ∈ Finset.range n, (f (2 * j * h + z) - f (2 * (j + 1) * h - z)) + f (2 * n * h + z) := by
  induction n with
  | zero => simp
  | succ n ih =>
    rw [images_succ hf, ih, Finset.sum_range_succ]
    unfold pair
    push_cast
    ring

/-- near the cover the potential with all images is small -/
theorem Screened.near_cover {f : ℝ → ℝ} {B : ℝ} (hf : Screened f B) {h z L : ℝ} (hz : h / 2 ≤ z) (hzh : z < h) (hh : 0 < h)
    (hL : Tendsto (fun n : ℕ => ∑ m ∈ Finset.Icc (-(n : ℤ)) n, f (z + 2 * m * h)) atTop (𝓝 L)) : |L| ≤ 24 * B / h ^ 3 * (h - z) := by
  have hB := hf.nonneg
  have hz0 : 0 < z := by linarith
  have hb : ∀ n : ℕ, |∑ j ∈ Finset.range n, (f (2 * j * h + z) - f (2 * (j + 1) * h - z))|
      ≤ 8 * B / h ^ 3 * (h - z) * (3 - 2 / ((n : ℝ) + 1)) := by
    intro n
    induction n with
    | zero =>
      simp only [Finset.range_zero, Finset.sum_empty, abs_zero]
      have : 0 ≤ h - z := by linarith
      norm_num
      positivity
    | succ n ih =>
      rw [Finset.sum_range_succ]
      refine (abs_add_le _ _).trans ?_
      have h1 := hf.bound (2 * n * h + z) (2 * (n + 1) * h - z) (by positivity) (by nlinarith)
      rw [abs_sub_comm] at h1
      have h2 : B * (2 * (n + 1) * h - z - (2 * n * h + z)) / (2 * (2 * n * h + z) ^ 3)
          ≤ 8 * B / h ^ 3 * (h - z) * (2 / ((n : ℝ) + 1) - 2 / ((n : ℝ) + 1 + 1)) := by
        have e1 : B * (2 * (n + 1) * h - z - (2 * n * h + z)) / (2 * (2 * n * h + z) ^ 3) = B * (h - z) / (2 * n * h + z) ^ 3 := by
          rw [show B * (2 * (n + 1) * h - z - (2 * n * h + z)) = 2 * (B * (h - z)) by ring, mul_div_mul_left _ _ two_ne_zero]
        have e2 : h / 2 * (4 * n + 1) ≤ 2 * n * h + z := by linarith
        have e3 : 0 ≤ h - z := by linarith
        rw [e1]
        calc _ ≤ B * (h - z) / (h / 2 * (4 * n + 1)) ^ 3 := by gcongr
          _ = 8 * B / h ^ 3 * (h - z) * (1 / (4 * n + 1) ^ 3) := by field_simp; norm_num
          _ ≤ _ := by
            refine mul_le_mul_of_nonneg_left ?_ (by positivity)
            rw [div_sub_div _ _ (by positivity) (by positivity), div_le_div_iff₀ (by positivity) (by positivity)]
            have : (0 : ℝ) ≤ n := Nat.cast_nonneg n
            nlinarith [mul_nonneg this this, mul_nonneg (mul_nonneg this this) this]
      have h3 := add_le_add ih (h1.trans h2)
      refine h3.trans_eq ?_
      push_cast
      ring
  have lim : Tendsto (fun n : ℕ => f (2 * n * h + z)) atTop (𝓝 0) :=
    hf.far.comp (tendsto_atTop_add_const_right _ _ ((tendsto_natCast_atTop_atTop.const_mul_atTop two_pos).atTop_mul_const hh))
  have h4 := (hL.sub lim).abs
  rw [sub_zero] at h4
  refine le_of_tendsto h4 (Eventually.of_forall fun n => ?_)
  rw [images_pairs hf.odd, add_sub_cancel_right]
  refine (hb n).trans ?_
  rw [show 24 * B / h ^ 3 * (h - z) = 8 * B / h ^ 3 * (h - z) * 3 by ring]
  have e3 : 0 ≤ h - z := by linarith
  refine mul_le_mul_of_nonneg_left ?_ (by positivity)
  have : 0 ≤ 2 / ((n : ℝ) + 1) := by positivity
  linarith

end Cover

/-- C121: with all images, the potential tends to the voltage of the electrode at the plane (times how often it is covered there), and to
zero at the cover. -/
theorem c121_boundary (name : String) (dc rf : ℝ) (polys : List (List V2)) (hc : ∀ᵐ q : ℝ × ℝ, 0 ≤ covered polys q)
    (ha : 0 < ∫ q : ℝ × ℝ, (covered polys q : ℝ)) (h v : ℝ) (hh : 0 < h) (q : ℝ × ℝ) (hq : ∀ poly ∈ polys, offBoundary poly q) :
    ∃ Φ : ℝ → ℝ, (∀ z, 0 < z → z < h → Tendsto (fun n => compAt ⟨name, dc, rf, .polygons polys h n⟩ 0 0 v ⟨q.1, q.2, z⟩) atTop (𝓝 (Φ z))) ∧
      Tendsto Φ (𝓝[>] 0) (𝓝 (v * covered polys q)) ∧ Tendsto Φ (𝓝[<] h) (𝓝 0) := by
  have hf := weight_screened (covered_integrable' polys) (hc.mono fun q hq => by exact_mod_cast hq) ha q.1 q.2
  have ex : ∀ z, ∃ L, 0 < z → z < h → Tendsto (fun n : ℕ => ∑ m ∈ Finset.Icc (-(n : ℤ)) n,
      ∫ r : ℝ × ℝ, (covered polys r : ℝ) * pixelAt ⟨q.1, q.2, z + 2 * m * h⟩ r) atTop (𝓝 L) := fun z => by
    by_cases hz : 0 < z ∧ z < h
    · obtain ⟨L, hL, -⟩ := hf.limit hz.1 hz.2.le
      exact ⟨L, fun _ _ => hL⟩
    · exact ⟨0, fun h1 h2 => absurd ⟨h1, h2⟩ hz⟩
  choose L hL using ex
  have near0 : ∀ᶠ z in 𝓝[>] (0 : ℝ), 0 < z ∧ z < h := by
    filter_upwards [self_mem_nhdsWithin, nhdsWithin_le_nhds (Iio_mem_nhds hh)] with z h1 h2 using ⟨h1, h2⟩
  refine ⟨fun z => v * L z, fun z h1 h2 => ?_, ?_, ?_⟩
  · have := (hL z h1 h2).const_mul v
    refine this.congr fun n => ?_
    rw [poly_images name dc rf polys h v ⟨q.1, q.2, z⟩ h1 h2]
  · have h1 := c86_boundary name dc rf polys h 0 (Or.inr rfl) 1 q hq
    have h2 : Tendsto L (𝓝[>] 0) (𝓝 (1 * (covered polys q : ℝ))) := by
      have h3 : Tendsto (fun z => compAt ⟨name, dc, rf, .polygons polys h 0⟩ 0 0 1 ⟨q.1, q.2, z⟩ - L z) (𝓝[>] 0) (𝓝 0) := by
        have h4 : Tendsto (fun z : ℝ => 17 * (((∫ q : ℝ × ℝ, (covered polys q : ℝ)) * (2 / π)) * z) / (16 * h ^ 3)) (𝓝[>] 0) (𝓝 0) := by
          have : Continuous fun z : ℝ => 17 * (((∫ q : ℝ × ℝ, (covered polys q : ℝ)) * (2 / π)) * z) / (16 * h ^ 3) := by fun_prop
          simpa using (this.tendsto 0).mono_left nhdsWithin_le_nhds
        refine squeeze_zero_norm' (near0.mono fun z hz => ?_) h4
        obtain ⟨M, hM, -, h5⟩ := hf.limit hz.1 hz.2.le
        rw [tendsto_nhds_unique (hL z hz.1 hz.2) hM, poly_images name dc rf polys h 1 ⟨q.1, q.2, z⟩ hz.1 hz.2, one_mul,
          images_zero (fun z => ∫ r : ℝ × ℝ, (covered polys r : ℝ) * pixelAt ⟨q.1, q.2, z⟩ r)]
        exact h5
      have := h1.sub h3
      simpa using this
    simpa using h2.const_mul v
  · have h2 : Tendsto L (𝓝[<] h) (𝓝 0) := by
      have h4 : Tendsto (fun z : ℝ => 24 * ((∫ q : ℝ × ℝ, (covered polys q : ℝ)) * (2 / π)) / h ^ 3 * (h - z)) (𝓝[<] h) (𝓝 0) := by
        have : Continuous fun z : ℝ => 24 * ((∫ q : ℝ × ℝ, (covered polys q : ℝ)) * (2 / π)) / h ^ 3 * (h - z) := by fun_prop
        simpa using (this.tendsto h).mono_left nhdsWithin_le_nhds
      refine squeeze_zero_norm' ?_ h4
      filter_upwards [self_mem_nhdsWithin, nhdsWithin_le_nhds (Ioi_mem_nhds (show h / 2 < h by linarith))] with z h5 h6
      have h7 : h / 2 < z := h6
      exact hf.near_cover h7.le h5 hh (hL z (by linarith) h5)
    simpa using h2.const_mul v

/-- C121, what is missing: with finitely many images the cover makes the potential larger instead of smaller far from the electrode. -/
theorem c121_far_counterexample (name : String) (dc rf a h v : ℝ) (q : V2) (ha : 0 < a) (hv : 0 < v) (n : ℕ) (hn : 1 ≤ n) (p : V3)
    (hz : 0 < p.z) (hzh : p.z < h) (hfar : 2 * ((2 * n + 1) * h) ^ 2 ≤ (p.x - q.x) ^ 2 + (p.y - q.y) ^ 2) :
    compAt ⟨name, dc, rf, .points [q] [a] h 0⟩ 0 0 v p < compAt ⟨name, dc, rf, .points [q] [a] h n⟩ 0 0 v p := by
  have hh : 0 < h := hz.trans hzh
  have hpi := pi_pos
  set c := lat p.x p.y (q.x, q.y) with hc
  have hcp : 2 * ((2 * n + 1) * h) ^ 2 ≤ c := hfar
  have inc : ∀ x y : ℝ, 0 < x → x < y → y ≤ (2 * n + 1) * h → pixelAt ⟨p.x, p.y, x⟩ (q.x, q.y) < pixelAt ⟨p.x, p.y, y⟩ (q.x, q.y) := by
    intro x y hx hxy hy
    have hy0 : 0 < y := hx.trans hxy
    unfold pixelAt
    simp only
    rw [show (p.x - q.x) ^ 2 + (p.y - q.y) ^ 2 = c from rfl]
    have hyc : 2 * y ^ 2 ≤ c := le_trans (by gcongr) hcp
    have hxc : 2 * x ^ 2 < c := lt_of_lt_of_le (by gcongr) hyc
    have hc0 : 0 < c := by nlinarith [sq_nonneg x]
    have sx := Real.sq_sqrt (show 0 ≤ c + x ^ 2 by positivity)
    have sy := Real.sq_sqrt (show 0 ≤ c + y ^ 2 by positivity)
    have px : 0 < √(c + x ^ 2) := Real.sqrt_pos.2 (by positivity)
    have py : 0 < √(c + y ^ 2) := Real.sqrt_pos.2 (by positivity)
    have key : x * √(c + y ^ 2) ^ 3 < y * √(c + x ^ 2) ^ 3 := by
      refine lt_of_pow_lt_pow_left₀ 2 (by positivity) ?_
      rw [mul_pow, mul_pow, ← pow_mul, ← pow_mul, mul_comm 3 2, pow_mul, pow_mul, sx, sy]
      have h1 : x ^ 2 < y ^ 2 := by gcongr
      have hX : 0 < x ^ 2 := by positivity
      generalize x ^ 2 = X at *
      generalize y ^ 2 = Y at *
      have e : Y * (c + X) ^ 3 - X * (c + Y) ^ 3 = (Y - X) * (c ^ 3 - 3 * c * (X * Y) - X * Y * (X + Y)) := by ring
      have b1 : X * Y < c / 2 * (c / 2) :=
        lt_of_le_of_lt (mul_le_mul_of_nonneg_left (show Y ≤ c / 2 by linarith) hX.le)
          (mul_lt_mul_of_pos_right (show X < c / 2 by linarith) (by linarith))
      have b2 : X * Y * (X + Y) ≤ c / 2 * (c / 2) * c := by
        refine mul_le_mul b1.le (by linarith) (by linarith) (by positivity)
      have b3 : c * (X * Y) < c * (c / 2 * (c / 2)) := mul_lt_mul_of_pos_left b1 hc0
      have b4 : 0 < c ^ 3 - 3 * c * (X * Y) - X * Y * (X + Y) := by nlinarith
      have b5 := mul_pos (sub_pos.2 h1) b4
      linarith
    rw [div_lt_div_iff₀ (by positivity) (by positivity)]
    nlinarith
  have mono : ∀ k : ℕ, k ≤ n → pixelAt p (q.x, q.y) ≤ ∑ m ∈ Finset.Icc (-(k : ℤ)) k, pixelAt ⟨p.x, p.y, p.z + 2 * m * h⟩ (q.x, q.y) ∧
      (1 ≤ k → pixelAt p (q.x, q.y) < ∑ m ∈ Finset.Icc (-(k : ℤ)) k, pixelAt ⟨p.x, p.y, p.z + 2 * m * h⟩ (q.x, q.y)) := by
    intro k
    induction k with
    | zero => intro _; simp
    | succ k ih =>
      intro hk
      rw [images_succ (f := fun z => pixelAt ⟨p.x, p.y, z⟩ (q.x, q.y)) (fun z => pixel_odd _ _ _ _)]
      have h1 := (ih (by omega)).1
      have hk' : ((k + 1 : ℕ) : ℝ) ≤ n := by exact_mod_cast hk
      have hk0 : (1 : ℝ) ≤ ((k + 1 : ℕ) : ℝ) := by exact_mod_cast (by omega : 1 ≤ k + 1)
      have h2 := inc (2 * ((k + 1 : ℕ) : ℝ) * h - p.z) (2 * ((k + 1 : ℕ) : ℝ) * h + p.z) (by nlinarith) (by linarith) (by nlinarith)
      have h3 : 0 < pair (fun z => pixelAt ⟨p.x, p.y, z⟩ (q.x, q.y)) h p.z (k + 1) := sub_pos.2 h2
      exact ⟨by linarith, fun _ => by linarith⟩
  rw [point_images, point_images]
  refine mul_lt_mul_of_pos_left ?_ hv
  simp only [List.zip_cons_cons, List.zip_nil_left, List.map_cons, List.map_nil, List.sum_cons, List.sum_nil, add_zero]
  rw [← Finset.mul_sum, ← Finset.mul_sum]
  refine mul_lt_mul_of_pos_left ?_ ha
  rw [images_zero (fun z => pixelAt ⟨p.x, p.y, z⟩ (q.x, q.y))]
  exact (mono n le_rfl).2 hn

/-- met by one point of area one, height one and one image, at a distance of ten -/
example : 2 * ((2 * (1 : ℕ) + 1) * (1 : ℝ)) ^ 2 ≤ ((10 : ℝ) - 0) ^ 2 + (0 - 0) ^ 2 := by norm_num

end Electrode
