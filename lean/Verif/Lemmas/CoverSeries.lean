import Verif.Lemmas.Problem
import Mathlib.Analysis.Calculus.ParametricIntegral
import Mathlib.Analysis.Calculus.SmoothSeries
import Mathlib.Analysis.Normed.Group.Tannery
import Mathlib.Analysis.PSeries

/-
The series of all images of polygons between the plane and the cover: it can be differentiated
term by term.
-/
namespace Electrode.Field
open Spec Real Filter Topology Set PolyInt MaxP MeasureTheory

/-! ### Derivatives of a surface element -/

/-- distance of a position and a point of the plane -/
noncomputable def dst (q : ℝ × ℝ) (p : V3) : ℝ := √((p.x - q.1) ^ 2 + (p.y - q.2) ^ 2 + p.z ^ 2)
/-- component of the difference -/
def dif (a : Fin 3) (q : ℝ × ℝ) (p : V3) : ℝ := match a with | 0 => p.x - q.1 | 1 => p.y - q.2 | 2 => p.z

theorem dst_pos (q : ℝ × ℝ) {p : V3} (hp : p.z ≠ 0) : 0 < dst q p := by unfold dst; positivity

theorem dif1 (a : Fin 3) (q : ℝ × ℝ) (p : V3) : HasPartial a (dif a q) 1 p := by
  have h : ∀ c : ℝ, HasDerivAt (fun t : ℝ => c + t) 1 0 := fun c => by simpa using (hasDerivAt_id (0 : ℝ)).const_add c
  unfold HasPartial
  fin_cases a
  · simpa [dif, shift] using (h p.x).sub_const q.1
  · simpa [dif, shift] using (h p.y).sub_const q.2
  · exact h p.z

theorem z1 (a : Fin 3) (p : V3) : HasPartial a (fun p => p.z) (ez a) p := by
  unfold HasPartial
  simp only [z_shift]
  simpa using ((hasDerivAt_id (0 : ℝ)).mul_const (ez a)).const_add p.z

theorem sh0 (p : V3) (a : Fin 3) : shift p a 0 = p := by fin_cases a <;> simp [shift]

theorem dst1 (a : Fin 3) (q : ℝ × ℝ) {p : V3} (hp : p.z ≠ 0) : HasPartial a (dst q) (dif a q p / dst q p) p := by
  have h : ∀ c : ℝ, HasDerivAt (fun t : ℝ => (c + t) ^ 2) (2 * c) 0 := fun c => by
    refine (((hasDerivAt_id (0 : ℝ)).const_add c).pow 2).congr_deriv ?_
    simp
  have h0 : (p.x - q.1) ^ 2 + (p.y - q.2) ^ 2 + p.z ^ 2 ≠ 0 := by positivity
  have hr : HasDerivAt (fun t => ((shift p a t).x - q.1) ^ 2 + ((shift p a t).y - q.2) ^ 2 + (shift p a t).z ^ 2) (2 * dif a q p) 0 := by
    fin_cases a
    · refine HasDerivAt.congr_of_eventuallyEq (((h (p.x - q.1)).add_const ((p.y - q.2) ^ 2)).add_const (p.z ^ 2))
        (Eventually.of_forall fun t => ?_)
      simp only [shift]; ring
    · refine HasDerivAt.congr_of_eventuallyEq (((h (p.y - q.2)).const_add ((p.x - q.1) ^ 2)).add_const (p.z ^ 2))
        (Eventually.of_forall fun t => ?_)
      simp only [shift]; ring
    · exact (h p.z).const_add ((p.x - q.1) ^ 2 + (p.y - q.2) ^ 2)
  have := hr.sqrt (by rw [sh0]; exact h0)
  rw [sh0] at this
  unfold HasPartial dst
  refine this.congr_deriv ?_
  field_simp

noncomputable def K1 (a : Fin 3) (p : V3) (q : ℝ × ℝ) : ℝ :=
  1 / (2 * π) * (ez a / dst q p ^ 3 - 3 * p.z * dif a q p / dst q p ^ 5)
noncomputable def K2 (a : Fin 3) (p : V3) (q : ℝ × ℝ) : ℝ :=
  1 / (2 * π) * (-3 * (2 * ez a * dif a q p + p.z) / dst q p ^ 5 + 15 * p.z * dif a q p ^ 2 / dst q p ^ 7)

theorem pixel1 (a : Fin 3) (q : ℝ × ℝ) {p : V3} (hp : p.z ≠ 0) : HasPartial a (fun p => pixelAt p q) (K1 a p q) p := by
  have hs := (dst_pos q hp).ne'
  have hpi := pi_pos
  have h1 : HasDerivAt (fun t => (shift p a t).z) (ez a) 0 := z1 a p
  have h2 : HasDerivAt (fun t => dst q (shift p a t)) (dif a q p / dst q p) 0 := dst1 a q hp
  have h3 := h1.div ((h2.pow 3).const_mul (2 * π)) (by rw [Pi.pow_apply, sh0]; positivity)
  unfold HasPartial
  refine h3.congr_deriv ?_
  simp only [Pi.pow_apply, sh0, K1]
  field_simp
  ring

theorem pixel2 (a : Fin 3) (q : ℝ × ℝ) {p : V3} (hp : p.z ≠ 0) : HasPartial a (fun p => K1 a p q) (K2 a p q) p := by
  have hs := (dst_pos q hp).ne'
  have hpi := pi_pos
  have h1 : HasDerivAt (fun t => (shift p a t).z) (ez a) 0 := z1 a p
  have h2 : HasDerivAt (fun t => dst q (shift p a t)) (dif a q p / dst q p) 0 := dst1 a q hp
  have h4 : HasDerivAt (fun t => dif a q (shift p a t)) 1 0 := dif1 a q p
  have h3 := (((hasDerivAt_const (0 : ℝ) (ez a)).div (h2.pow 3) (by rw [Pi.pow_apply, sh0]; positivity)).sub
    (((h1.const_mul 3).mul h4).div (h2.pow 5) (by rw [Pi.pow_apply, sh0]; positivity))).const_mul (1 / (2 * π))
  unfold HasPartial
  refine h3.congr_deriv ?_
  simp only [Pi.pow_apply, Pi.mul_apply, sh0, K2]
  field_simp
  ring

theorem dif_le (a : Fin 3) (q : ℝ × ℝ) (p : V3) : |dif a q p| ≤ dst q p := by
  unfold dst
  refine Real.abs_le_sqrt ?_
  fin_cases a <;> simp only [dif] <;> nlinarith [sq_nonneg (p.x - q.1), sq_nonneg (p.y - q.2), sq_nonneg p.z]

theorem ez_le (a : Fin 3) : |ez a| ≤ 1 := by fin_cases a <;> simp [ez]

theorem z_le_dst (q : ℝ × ℝ) (p : V3) : |p.z| ≤ dst q p := dif_le 2 q p

theorem K1_le (a : Fin 3) (q : ℝ × ℝ) {p : V3} (hp : p.z ≠ 0) : |K1 a p q| ≤ 1 / |p.z| ^ 3 := by
  have hs := dst_pos q hp
  have hz : 0 < |p.z| := abs_pos.mpr hp
  have h1 : |ez a / dst q p ^ 3 - 3 * p.z * dif a q p / dst q p ^ 5| ≤ 4 / dst q p ^ 3 := by
    refine (abs_sub _ _).trans ?_
    rw [abs_div, abs_div, abs_of_pos (pow_pos hs 3), abs_of_pos (pow_pos hs 5)]
    have e1 : |ez a| / dst q p ^ 3 ≤ 1 / dst q p ^ 3 := by gcongr; exact ez_le a
    have e2 : |3 * p.z * dif a q p| / dst q p ^ 5 ≤ 3 * dst q p * dst q p / dst q p ^ 5 := by
      rw [abs_mul, abs_mul, abs_of_pos (by norm_num : (0 : ℝ) < 3)]
      gcongr
      · exact z_le_dst q p
      · exact dif_le a q p
    have e3 : 3 * dst q p * dst q p / dst q p ^ 5 = 3 / dst q p ^ 3 := by field_simp
    rw [e3] at e2
    calc _ ≤ 1 / dst q p ^ 3 + 3 / dst q p ^ 3 := add_le_add e1 e2
      _ = _ := by ring
  have h2 : 4 / dst q p ^ 3 ≤ 4 / |p.z| ^ 3 := by
    gcongr
    exact z_le_dst q p
  unfold K1
  rw [abs_mul, abs_of_pos (by positivity : 0 < 1 / (2 * π))]
  have h3 : 1 / (2 * π) ≤ 1 / 4 := by
    gcongr
    linarith [Real.pi_gt_three]
  calc _ ≤ 1 / 4 * (4 / |p.z| ^ 3) := mul_le_mul h3 (h1.trans h2) (abs_nonneg _) (by norm_num)
    _ = _ := by ring

theorem K2_le (a : Fin 3) (q : ℝ × ℝ) {p : V3} (hp : p.z ≠ 0) : |K2 a p q| ≤ 6 / |p.z| ^ 4 := by
  have hs := dst_pos q hp
  have hz : 0 < |p.z| := abs_pos.mpr hp
  have h1 : |-3 * (2 * ez a * dif a q p + p.z) / dst q p ^ 5 + 15 * p.z * dif a q p ^ 2 / dst q p ^ 7| ≤ 24 / dst q p ^ 4 := by
    refine (abs_add_le _ _).trans ?_
    rw [abs_div, abs_div, abs_of_pos (pow_pos hs 7), abs_of_pos (pow_pos hs 5)]
    have e0 : |2 * ez a * dif a q p + p.z| ≤ 3 * dst q p := by
      refine (abs_add_le _ _).trans ?_
      rw [abs_mul, abs_mul, abs_of_pos (by norm_num : (0 : ℝ) < 2)]
      have := mul_le_mul (ez_le a) (dif_le a q p) (abs_nonneg _) zero_le_one
      linarith [z_le_dst q p]
    have e1 : |-3 * (2 * ez a * dif a q p + p.z)| / dst q p ^ 5 ≤ 3 * (3 * dst q p) / dst q p ^ 5 := by
      rw [abs_mul, show |(-3 : ℝ)| = 3 by norm_num]
      gcongr
    have e2 : |15 * p.z * dif a q p ^ 2| / dst q p ^ 7 ≤ 15 * dst q p * dst q p ^ 2 / dst q p ^ 7 := by
      rw [abs_mul, abs_mul, abs_of_pos (by norm_num : (0 : ℝ) < 15), abs_pow]
      gcongr
      · exact z_le_dst q p
      · exact dif_le a q p
    have e3 : 15 * dst q p * dst q p ^ 2 / dst q p ^ 7 = 15 / dst q p ^ 4 := by field_simp
    have e4 : 3 * (3 * dst q p) / dst q p ^ 5 = 9 / dst q p ^ 4 := by field_simp; norm_num
    rw [e3] at e2
    rw [e4] at e1
    calc _ ≤ 9 / dst q p ^ 4 + 15 / dst q p ^ 4 := add_le_add e1 e2
      _ = _ := by ring
  have h2 : 24 / dst q p ^ 4 ≤ 24 / |p.z| ^ 4 := by
    gcongr
    exact z_le_dst q p
  unfold K2
  rw [abs_mul, abs_of_pos (by positivity : 0 < 1 / (2 * π))]
  have h3 : 1 / (2 * π) ≤ 1 / 4 := by
    gcongr
    linarith [Real.pi_gt_three]
  calc _ ≤ 1 / 4 * (24 / |p.z| ^ 4) := mul_le_mul h3 (h1.trans h2) (abs_nonneg _) (by norm_num)
    _ = _ := by ring

theorem dif_measurable (a : Fin 3) (p : V3) : Measurable fun q => dif a q p := by
  fin_cases a <;> simp only [dif] <;> fun_prop
theorem dst_measurable (p : V3) : Measurable fun q => dst q p := by unfold dst; fun_prop
theorem K1_measurable (a : Fin 3) (p : V3) : Measurable (K1 a p) := by
  have h1 := dif_measurable a p
  have h2 := dst_measurable p
  unfold K1
  fun_prop
theorem K2_measurable (a : Fin 3) (p : V3) : Measurable (K2 a p) := by
  have h1 := dif_measurable a p
  have h2 := dst_measurable p
  unfold K2
  fun_prop

/-! ### Derivatives of the polygons -/

section
variable (polys : List (List V2))

noncomputable def D1 (a : Fin 3) (p : V3) : ℝ := ∫ q : ℝ × ℝ, (covered polys q : ℝ) * K1 a p q
noncomputable def D2 (a : Fin 3) (p : V3) : ℝ := ∫ q : ℝ × ℝ, (covered polys q : ℝ) * K2 a p q

/-- a weight times a bounded kernel -/
theorem bdd_int {k : ℝ × ℝ → ℝ} (hk : Measurable k) {c : ℝ} (hc : ∀ q, |k q| ≤ c) : Integrable fun q => (covered polys q : ℝ) * k q :=
  (Cover.covered_integrable' polys).mul_bdd (c := c) hk.aestronglyMeasurable (Eventually.of_forall hc)

theorem int_le {k : ℝ × ℝ → ℝ} {c : ℝ} (hc : ∀ q, |k q| ≤ c) :
    |∫ q : ℝ × ℝ, (covered polys q : ℝ) * k q| ≤ (∫ q : ℝ × ℝ, |(covered polys q : ℝ)|) * c := by
  rw [← Real.norm_eq_abs]
  have h2 : ∀ q : ℝ × ℝ, ‖(covered polys q : ℝ) * k q‖ ≤ |(covered polys q : ℝ)| * c := fun q => by
    rw [norm_mul, Real.norm_eq_abs, Real.norm_eq_abs]
    exact mul_le_mul_of_nonneg_left (hc q) (abs_nonneg _)
  have h3 := norm_integral_le_of_norm_le ((Cover.covered_integrable' polys).abs.mul_const _) (Eventually.of_forall h2)
  rwa [integral_mul_const] at h3

/-- differentiation under the integral -/
theorem under {k k' : V3 → ℝ × ℝ → ℝ} {a : Fin 3} (hm : ∀ p, Measurable (k p)) (hm' : ∀ p, Measurable (k' p))
    (hd : ∀ p q, p.z ≠ 0 → HasPartial a (fun p => k p q) (k' p q) p) {c c' : ℝ → ℝ}
    (hk : ∀ p q, p.z ≠ 0 → |k p q| ≤ c |p.z|) (hk' : ∀ p q, p.z ≠ 0 → |k' p q| ≤ c' |p.z|)
    (hc : ∀ x y, 0 < x → x ≤ y → c' y ≤ c' x) {p : V3} (hp : p.z ≠ 0) :
    HasPartial a (fun p => ∫ q : ℝ × ℝ, (covered polys q : ℝ) * k p q) (∫ q : ℝ × ℝ, (covered polys q : ℝ) * k' p q) p := by
  have hz : 0 < |p.z| := abs_pos.mpr hp
  have hb : ∀ t ∈ Metric.ball (0 : ℝ) (|p.z| / 2), |p.z| / 2 ≤ |(shift p a t).z| := by
    intro t ht
    rw [Metric.mem_ball, dist_zero_right, Real.norm_eq_abs] at ht
    rw [z_shift]
    have h1 : |t * ez a| ≤ |p.z| / 2 := by
      rw [abs_mul]
      calc |t| * |ez a| ≤ |t| * 1 := mul_le_mul_of_nonneg_left (ez_le a) (abs_nonneg _)
        _ ≤ _ := by linarith
    have h2 := abs_sub_abs_le_abs_sub p.z (-(t * ez a))
    rw [abs_neg, sub_neg_eq_add] at h2
    linarith
  have hne : ∀ t ∈ Metric.ball (0 : ℝ) (|p.z| / 2), (shift p a t).z ≠ 0 := fun t ht h0 => by
    have := hb t ht
    rw [h0, abs_zero] at this
    linarith
  have e : shift p a 0 = p := sh0 p a
  have key := hasDerivAt_integral_of_dominated_loc_of_deriv_le (μ := volume) (F := fun t q => (covered polys q : ℝ) * k (shift p a t) q)
    (F' := fun t q => (covered polys q : ℝ) * k' (shift p a t) q) (x₀ := (0 : ℝ))
    (bound := fun q => |(covered polys q : ℝ)| * c' (|p.z| / 2)) (s := Metric.ball (0 : ℝ) (|p.z| / 2))
    (Metric.ball_mem_nhds 0 (by positivity))
    (Eventually.of_forall fun t => (Cover.covered_integrable' polys).aestronglyMeasurable.mul (hm _).aestronglyMeasurable)
    (by rw [e]; exact bdd_int polys (hm p) fun q => hk p q hp)
    ((Cover.covered_integrable' polys).aestronglyMeasurable.mul (hm' _).aestronglyMeasurable)
    (Eventually.of_forall fun q t ht => by
      rw [norm_mul, Real.norm_eq_abs, Real.norm_eq_abs]
      refine mul_le_mul_of_nonneg_left ?_ (abs_nonneg _)
      exact (hk' _ q (hne t ht)).trans (hc _ _ (by positivity) (hb t ht)))
    ((Cover.covered_integrable' polys).abs.mul_const _)
    (Eventually.of_forall fun q t ht => (partial_at (hd _ q (hne t ht))).const_mul _)
  have h2 := key.2
  rw [e] at h2
  exact h2

theorem polysField_int {p : V3} (hp : p.z ≠ 0) : polysField polys p = ∫ q : ℝ × ℝ, (covered polys q : ℝ) * pixelAt p q :=
  (covered_integral hp polys).2.symm

theorem field1 (a : Fin 3) {p : V3} (hp : p.z ≠ 0) : HasPartial a (polysField polys) (D1 polys a p) p := by
  have h := under polys (a := a) (k := pixelAt) (k' := K1 a) (fun p => Cover.pixel_measurable p) (K1_measurable a)
    (fun p q hp => pixel1 a q hp) (c := fun z => 1 / (2 * π * z ^ 2)) (c' := fun z => 1 / z ^ 3)
    (fun p q hp => by rw [sq_abs]; exact Cover.pixel_le p.x p.y hp q) (fun p q hp => K1_le a q hp)
    (fun x y hx hxy => by gcongr) hp
  unfold HasPartial at h ⊢
  refine h.congr_of_eventuallyEq ?_
  have : ∀ᶠ t in 𝓝 (0 : ℝ), (shift p a t).z ≠ 0 :=
    (EdgeId.shift_z_continuous p a).continuousAt.eventually_ne (by rw [sh0]; exact hp)
  filter_upwards [this] with t ht
  exact polysField_int polys ht

theorem field2 (a : Fin 3) {p : V3} (hp : p.z ≠ 0) : HasPartial a (D1 polys a) (D2 polys a p) p :=
  under polys (a := a) (k := K1 a) (k' := K2 a) (K1_measurable a) (K2_measurable a)
    (fun p q hp => pixel2 a q hp) (c := fun z => 1 / z ^ 3) (c' := fun z => 6 / z ^ 4)
    (fun p q hp => K1_le a q hp) (fun p q hp => K2_le a q hp)
    (fun x y hx hxy => by gcongr) hp

theorem D1_le (a : Fin 3) {p : V3} (hp : p.z ≠ 0) : |D1 polys a p| ≤ (∫ q : ℝ × ℝ, |(covered polys q : ℝ)|) * (1 / |p.z| ^ 3) :=
  int_le polys fun q => K1_le a q hp
theorem D2_le (a : Fin 3) {p : V3} (hp : p.z ≠ 0) : |D2 polys a p| ≤ (∫ q : ℝ × ℝ, |(covered polys q : ℝ)|) * (6 / |p.z| ^ 4) :=
  int_le polys fun q => K2_le a q hp

theorem lap2 {p : V3} (hp : p.z ≠ 0) : D2 polys 0 p + D2 polys 1 p + D2 polys 2 p = 0 := by
  have i0 := bdd_int polys (K2_measurable 0 p) fun q => K2_le 0 q hp
  have i1 := bdd_int polys (K2_measurable 1 p) fun q => K2_le 1 q hp
  have i2 := bdd_int polys (K2_measurable 2 p) fun q => K2_le 2 q hp
  have i01 : Integrable fun q : ℝ × ℝ => (covered polys q : ℝ) * K2 0 p q + (covered polys q : ℝ) * K2 1 p q := i0.add i1
  unfold D2
  rw [← integral_add i0 i1, ← integral_add i01 i2, ← integral_zero (ℝ × ℝ) ℝ]
  congr 1
  funext q
  have hs := (dst_pos q hp).ne'
  have hsq : dst q p ^ 2 = (p.x - q.1) ^ 2 + (p.y - q.2) ^ 2 + p.z ^ 2 := Real.sq_sqrt (by positivity)
  have : K2 0 p q + K2 1 p q + K2 2 p q = 0 := by
    simp only [K2, ez, dif]
    have hpi := pi_pos
    field_simp
    linear_combination (-15 * p.z) * hsq
  linear_combination (covered polys q : ℝ) * this

/-! ### The series -/

/-- the images number `k + 1` above and below -/
noncomputable def pair (h : ℝ) (f : V3 → ℝ) (k : ℕ) (p : V3) : ℝ :=
  f (p.lift (2 * ((k : ℝ) + 1) * h)) + f (p.lift (-(2 * ((k : ℝ) + 1) * h)))
/-- all images -/
noncomputable def series (h : ℝ) (f : V3 → ℝ) (p : V3) : ℝ := f p + ∑' k, pair h f k p

theorem heights {h z : ℝ} (hz : 0 ≤ z) (hzh : z ≤ h) (hh : 0 < h) (k : ℕ) :
    ((k : ℝ) + 1) * h ≤ |z + 2 * ((k : ℝ) + 1) * h| ∧ ((k : ℝ) + 1) * h ≤ |z + -(2 * ((k : ℝ) + 1) * h)| := by
  have hk : (0 : ℝ) ≤ k := Nat.cast_nonneg k
  have h1 : 0 ≤ (k : ℝ) * h := by positivity
  constructor
  · rw [abs_of_pos (by positivity)]; nlinarith
  · rw [abs_of_neg (by nlinarith)]; nlinarith

theorem pair_le {h : ℝ} (hh : 0 < h) {f : V3 → ℝ} {C : ℝ} (hC : 0 ≤ C) {i : ℕ} (hf : ∀ p : V3, p.z ≠ 0 → |f p| ≤ C / |p.z| ^ i) (k : ℕ) {p : V3}
    (hz : 0 ≤ p.z) (hzh : p.z ≤ h) : |pair h f k p| ≤ 2 * C / h ^ i * (1 / ((k + 1 : ℕ) : ℝ) ^ i) := by
  obtain ⟨h1, h2⟩ := heights hz hzh hh k
  have hk : 0 < ((k : ℝ) + 1) * h := by positivity
  have key : ∀ c : ℝ, ((k : ℝ) + 1) * h ≤ |p.z + c| → |f (p.lift c)| ≤ C / (((k : ℝ) + 1) * h) ^ i := by
    intro c hc
    have h3 : (p.lift c).z ≠ 0 := fun h0 => by
      have : p.z + c = 0 := h0
      rw [this, abs_zero] at hc
      linarith
    refine (hf _ h3).trans ?_
    have h4 : ((k : ℝ) + 1) * h ≤ |(p.lift c).z| := hc
    gcongr
  calc |pair h f k p| ≤ C / (((k : ℝ) + 1) * h) ^ i + C / (((k : ℝ) + 1) * h) ^ i :=
        (abs_add_le _ _).trans (add_le_add (key _ h1) (key _ h2))
    _ = _ := by
      push_cast
      rw [mul_pow]
      field_simp
      ring

theorem pair_summable (C h : ℝ) {i : ℕ} (hi : 2 ≤ i) : Summable fun k : ℕ => 2 * C / h ^ i * (1 / ((k + 1 : ℕ) : ℝ) ^ i) :=
  ((summable_nat_add_iff 1).mpr (Real.summable_one_div_nat_pow.mpr (by omega))).mul_left _

theorem lift_shift (p : V3) (c : ℝ) (a : Fin 3) (t : ℝ) : shift (p.lift c) a t = (shift p a t).lift c := by
  fin_cases a <;> simp [shift, V3.lift]
  ring

theorem pair_partial {h : ℝ} {f f' : V3 → ℝ} {a : Fin 3} (hd : ∀ p : V3, p.z ≠ 0 → HasPartial a f (f' p) p) (k : ℕ) {p : V3}
    (hz : 0 < p.z) (hzh : p.z < h) : HasPartial a (pair h f k) (pair h f' k p) p := by
  have hh : 0 < h := hz.trans hzh
  obtain ⟨h1, h2⟩ := heights hz.le hzh.le hh k
  have hk : 0 < ((k : ℝ) + 1) * h := by positivity
  have key : ∀ c : ℝ, ((k : ℝ) + 1) * h ≤ |p.z + c| → HasDerivAt (fun t => f ((shift p a t).lift c)) (f' (p.lift c)) 0 := by
    intro c hc
    have h3 : (p.lift c).z ≠ 0 := fun h0 => by
      have : p.z + c = 0 := h0
      rw [this, abs_zero] at hc
      linarith
    have := hd _ h3
    unfold HasPartial at this
    simpa only [lift_shift] using this
  exact HasDerivAt.add (key _ h1) (key _ h2)

theorem series_partial {h : ℝ} {f f' : V3 → ℝ} {a : Fin 3} (hd : ∀ p : V3, p.z ≠ 0 → HasPartial a f (f' p) p)
    {C C' : ℝ} (hC : 0 ≤ C) (hC' : 0 ≤ C') {i j : ℕ} (hi : 2 ≤ i) (hj : 2 ≤ j)
    (hf : ∀ p : V3, p.z ≠ 0 → |f p| ≤ C / |p.z| ^ i) (hf' : ∀ p : V3, p.z ≠ 0 → |f' p| ≤ C' / |p.z| ^ j) {p : V3}
    (hz : 0 < p.z) (hzh : p.z < h) : HasPartial a (series h f) (series h f' p) p := by
  have hh : 0 < h := hz.trans hzh
  refine HasDerivAt.add (hd p hz.ne') ?_
  have hε : 0 < min p.z (h - p.z) := lt_min hz (by linarith)
  have hin : ∀ t ∈ Metric.ball (0 : ℝ) (min p.z (h - p.z)), 0 < (shift p a t).z ∧ (shift p a t).z < h := by
    intro t ht
    rw [Metric.mem_ball, dist_zero_right, Real.norm_eq_abs] at ht
    have h1 : |t * ez a| < min p.z (h - p.z) := by
      rw [abs_mul]
      calc |t| * |ez a| ≤ |t| * 1 := mul_le_mul_of_nonneg_left (ez_le a) (abs_nonneg _)
        _ < _ := by linarith
    rw [z_shift]
    have h2 := abs_lt.mp h1
    constructor
    · linarith [min_le_left p.z (h - p.z)]
    · linarith [min_le_right p.z (h - p.z)]
  have key := hasDerivAt_tsum_of_isPreconnected (𝕜 := ℝ) (F := ℝ) (pair_summable C' h hj) (g := fun k t => pair h f k (shift p a t))
    (g' := fun k t => pair h f' k (shift p a t)) (t := Metric.ball (0 : ℝ) (min p.z (h - p.z))) Metric.isOpen_ball
    (convex_ball (0 : ℝ) _).isPreconnected
    (fun k t ht => partial_at (pair_partial hd k (hin t ht).1 (hin t ht).2))
    (fun k t ht => pair_le hh hC' hf' k (hin t ht).1.le (hin t ht).2.le) (y₀ := 0) (y := 0) (Metric.mem_ball_self hε)
    (by
      simp only [sh0]
      exact Summable.of_norm_bounded (pair_summable C h hi) fun k => pair_le hh hC hf k hz.le hzh.le)
    (Metric.mem_ball_self hε)
  simp only [sh0] at key
  exact key

theorem area_nonneg : 0 ≤ ∫ q : ℝ × ℝ, |(covered polys q : ℝ)| := integral_nonneg fun q => abs_nonneg _

theorem field_le {p : V3} (hp : p.z ≠ 0) : |polysField polys p| ≤ (∫ q : ℝ × ℝ, |(covered polys q : ℝ)|) / |p.z| ^ 2 := by
  refine (polysField_small polys hp p.x p.y).trans ?_
  have h1 : 0 < p.z ^ 2 := by positivity
  rw [sq_abs]
  have := area_nonneg polys
  gcongr
  nlinarith [Real.pi_gt_three]

theorem series_lap {h : ℝ} {p : V3} (hz : 0 < p.z) (hzh : p.z < h) :
    series h (D2 polys 0) p + series h (D2 polys 1) p + series h (D2 polys 2) p = 0 := by
  have hh : 0 < h := hz.trans hzh
  have hA := area_nonneg polys
  have hs : ∀ a, Summable fun k => pair h (D2 polys a) k p := fun a =>
    Summable.of_norm_bounded (pair_summable ((∫ q : ℝ × ℝ, |(covered polys q : ℝ)|) * 6) h (by norm_num : 2 ≤ 4)) fun k =>
      pair_le hh (by positivity) (fun p hp => (D2_le polys a hp).trans_eq (by ring)) k hz.le hzh.le
  have hp : ∀ k, pair h (D2 polys 0) k p + pair h (D2 polys 1) k p + pair h (D2 polys 2) k p = 0 := by
    intro k
    obtain ⟨h1, h2⟩ := heights hz.le hzh.le hh k
    have hk : 0 < ((k : ℝ) + 1) * h := by positivity
    have key : ∀ c : ℝ, ((k : ℝ) + 1) * h ≤ |p.z + c| → (p.lift c).z ≠ 0 := by
      intro c hc h0
      have : p.z + c = 0 := h0
      rw [this, abs_zero] at hc
      linarith
    have e1 := lap2 polys (key _ h1)
    have e2 := lap2 polys (key _ h2)
    unfold pair
    linear_combination e1 + e2
  have e := lap2 polys hz.ne'
  have : (∑' k, pair h (D2 polys 0) k p) + (∑' k, pair h (D2 polys 1) k p) + (∑' k, pair h (D2 polys 2) k p) = 0 := by
    rw [← (hs 0).tsum_add (hs 1), ← ((hs 0).add (hs 1)).tsum_add (hs 2)]
    simp only [hp, tsum_zero]
  unfold series
  linear_combination e + this

/-- limits go through the series -/
theorem series_tendsto {h : ℝ} (hh : 0 < h) {F : Filter (ℝ × ℝ × ℝ)} (hF : ∀ᶠ t in F, t ∈ slab h) {g : ℕ → ℝ} {c : ℝ}
    (h0 : Tendsto (fun t => polysField polys (at3 t)) F (𝓝 c))
    (hk : ∀ k, Tendsto (fun t => pair h (polysField polys) k (at3 t)) F (𝓝 (g k))) :
    Tendsto (fun t => series h (polysField polys) (at3 t)) F (𝓝 (c + ∑' k, g k)) := by
  refine h0.add ?_
  refine tendsto_tsum_of_dominated_convergence (pair_summable (∫ q : ℝ × ℝ, |(covered polys q : ℝ)|) h le_rfl) hk ?_
  filter_upwards [hF] with t ht k
  exact pair_le hh (area_nonneg polys) (fun p hp => field_le polys hp) k ht.1.le ht.2.le

theorem pair_cont {h : ℝ} (hh : 0 < h) (k : ℕ) {t : ℝ × ℝ × ℝ} (hz : 0 ≤ t.2.2) (hzh : t.2.2 ≤ h) :
    Tendsto (fun t => pair h (polysField polys) k (at3 t)) (𝓝 t) (𝓝 (pair h (polysField polys) k (at3 t))) := by
  obtain ⟨h1, h2⟩ := heights hz hzh hh k
  have hk : 0 < ((k : ℝ) + 1) * h := by positivity
  have key : ∀ c : ℝ, ((k : ℝ) + 1) * h ≤ |t.2.2 + c| →
      Tendsto (fun t => polysField polys ((at3 t).lift c)) (𝓝 t) (𝓝 (polysField polys ((at3 t).lift c))) := by
    intro c hc
    have h3 : (up c t).2.2 ≠ 0 := fun h0 => by
      have : t.2.2 + c = 0 := h0
      rw [this, abs_zero] at hc
      linarith
    exact (ContinuousAt.comp' (f := up c) (polysField_cont polys h3) (up_cont _).continuousAt).tendsto
  exact (key _ h1).add (key _ h2)

theorem pair_far {h : ℝ} (hh : 0 < h) (k : ℕ) :
    Tendsto (fun t => pair h (polysField polys) k (at3 t)) (cocompact (ℝ × ℝ × ℝ) ⊓ 𝓟 (slab h)) (𝓝 0) := by
  have hk : 0 < ((k : ℝ) + 1) * h := by positivity
  have key : ∀ c : ℝ, (∀ t ∈ slab h, ((k : ℝ) + 1) * h ≤ |t.2.2 + c|) →
      Tendsto (fun t => polysField polys ((at3 t).lift c)) (cocompact (ℝ × ℝ × ℝ) ⊓ 𝓟 (slab h)) (𝓝 0) := by
    intro c hc
    have hu : Tendsto (up c) (cocompact (ℝ × ℝ × ℝ) ⊓ 𝓟 (slab h)) (cocompact (ℝ × ℝ × ℝ) ⊓ 𝓟 {t | t.2.2 ≠ 0}) := by
      refine tendsto_inf.mpr ⟨(up_cocompact c).mono_left inf_le_left, ?_⟩
      refine tendsto_principal.mpr ?_
      rw [eventually_inf_principal]
      refine Eventually.of_forall fun t ht h0 => ?_
      have h1 := hc t ht
      have : t.2.2 + c = 0 := h0
      rw [this, abs_zero] at h1
      linarith
    have h1 := (polysField_far polys).comp hu
    simpa only [Function.comp_def, ← lift_at3] using h1
  have := (key (2 * ((k : ℝ) + 1) * h) fun t ht => (heights ht.1.le ht.2.le hh k).1).add
    (key (-(2 * ((k : ℝ) + 1) * h)) fun t ht => (heights ht.1.le ht.2.le hh k).2)
  simpa [pair] using this

theorem pair_plane (h : ℝ) (k : ℕ) (x y : ℝ) : pair h (polysField polys) k ⟨x, y, 0⟩ = 0 := by
  have e : (⟨x, y, 0⟩ : V3).lift (-(2 * ((k : ℝ) + 1) * h)) = ((⟨x, y, 0⟩ : V3).lift (2 * ((k : ℝ) + 1) * h)).mirror := by
    simp [V3.lift, V3.mirror]
  rw [pair, e, polysField_mirror, add_neg_cancel]

theorem cover_sum (h : ℝ) (x y : ℝ) (n : ℕ) : polysField polys ⟨x, y, h⟩ + ∑ k ∈ Finset.range n, pair h (polysField polys) k ⟨x, y, h⟩
    = polysField polys ⟨x, y, (2 * n + 1) * h⟩ := by
  induction n with
  | zero => simp
  | succ n ih =>
    rw [Finset.sum_range_succ, ← add_assoc, ih]
    have e : (⟨x, y, h⟩ : V3).lift (-(2 * ((n : ℝ) + 1) * h)) = (⟨x, y, (2 * n + 1) * h⟩ : V3).mirror := by
      simp only [V3.lift, V3.mirror]
      congr 1
      ring
    have e' : (⟨x, y, h⟩ : V3).lift (2 * ((n : ℝ) + 1) * h) = ⟨x, y, (2 * ((n + 1 : ℕ) : ℝ) + 1) * h⟩ := by
      simp only [V3.lift]
      congr 1
      push_cast
      ring
    rw [pair, e, e', polysField_mirror]
    ring

theorem cover_series {h : ℝ} (hh : 0 < h) (x y : ℝ) : polysField polys ⟨x, y, h⟩ + ∑' k, pair h (polysField polys) k ⟨x, y, h⟩ = 0 := by
  have hs : Summable fun k => pair h (polysField polys) k ⟨x, y, h⟩ :=
    Summable.of_norm_bounded (pair_summable (∫ q : ℝ × ℝ, |(covered polys q : ℝ)|) h le_rfl) fun k =>
      pair_le hh (area_nonneg polys) (fun p hp => field_le polys hp) k (p := ⟨x, y, h⟩) hh.le le_rfl
  have h1 := hs.hasSum.tendsto_sum_nat.const_add (polysField polys ⟨x, y, h⟩)
  simp only [cover_sum] at h1
  refine tendsto_nhds_unique h1 ?_
  have h2 : Tendsto (fun n : ℕ => (2 * (n : ℝ) + 1) * h) atTop atTop :=
    ((tendsto_atTop_add_const_right _ 1 (tendsto_natCast_atTop_atTop.const_mul_atTop (by norm_num : (0 : ℝ) < 2))).atTop_mul_const hh)
  have h3 : Tendsto (fun n : ℕ => (∫ q : ℝ × ℝ, |(covered polys q : ℝ)|) / ((2 * (n : ℝ) + 1) * h) ^ 2) atTop (𝓝 0) :=
    tendsto_const_nhds.div_atTop ((tendsto_pow_atTop (by norm_num)).comp h2)
  refine squeeze_zero_norm (fun n => ?_) h3
  have h4 : 0 < (2 * (n : ℝ) + 1) * h := by positivity
  have := field_le polys (p := ⟨x, y, (2 * (n : ℝ) + 1) * h⟩) h4.ne'
  rwa [sq_abs] at this

theorem images_pairs (h : ℝ) (n : ℕ) (p : V3) : ((coverRange n).map fun m : ℤ => polysField polys (p.lift (2 * (m : ℝ) * h))).sum
    = polysField polys p + ∑ k ∈ Finset.range n, pair h (polysField polys) k p := by
  induction n with
  | zero => simp [coverRange, V3.lift]
  | succ n ih =>
    rw [coverRange_succ_sum, ih, Finset.sum_range_succ, pair]
    push_cast
    rw [show 2 * (-(n : ℝ) - 1) * h = -(2 * ((n : ℝ) + 1) * h) by ring]
    ring

end
end Electrode.Field
