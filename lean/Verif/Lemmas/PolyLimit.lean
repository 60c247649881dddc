import Verif.Lemmas.PolyIntegral
import Mathlib.Analysis.SpecialFunctions.Complex.Arg
import Mathlib.Analysis.SpecialFunctions.Complex.Arctan

/-
The order 0 potential of a polygon close to the electrode plane.
-/
namespace Electrode
open Spec Real Set Filter Topology
namespace PolyInt

/-- a point of the plane as a complex number, relative to `q` -/
noncomputable def relC (q : ℝ × ℝ) (a : V2) : ℂ := ⟨a.x - q.1, a.y - q.2⟩

theorem crossing_rel (q : ℝ × ℝ) (a b : V2) :
    Spec.crossing q a b = if (relC q a).im ≤ 0 ∧ 0 < (relC q b).im
        ∧ 0 < (relC q a).re * (relC q b).im - (relC q a).im * (relC q b).re then 1
      else if (relC q b).im ≤ 0 ∧ 0 < (relC q a).im
        ∧ (relC q a).re * (relC q b).im - (relC q a).im * (relC q b).re < 0 then -1 else 0 := by
  unfold Spec.crossing
  simp only [relC]
  have h1 : (b.x - a.x) * (q.2 - a.y) - (b.y - a.y) * (q.1 - a.x)
      = (a.x - q.1) * (b.y - q.2) - (a.y - q.2) * (b.x - q.1) := by ring
  simp only [h1, sub_nonpos, sub_pos]

theorem arg_half (w : ℂ) (hw : w ≠ 0) (ha : w.arg ≠ π) : arctan (w.im / (‖w‖ + w.re)) = w.arg / 2 := by
  have h1 := Complex.neg_pi_lt_arg w
  have h2 := lt_of_le_of_ne (Complex.arg_le_pi w) ha
  rw [← Real.arctan_tan (x := w.arg / 2) (by linarith) (by linarith)]
  congr 1
  have hn : 0 < ‖w‖ := norm_pos_iff.mpr hw
  have hc : 0 < cos (w.arg / 2) := cos_pos_of_mem_Ioo ⟨by linarith, by linarith⟩
  have hre : w.re = ‖w‖ * cos w.arg := by rw [Complex.cos_arg hw]; field_simp
  have him : w.im = ‖w‖ * sin w.arg := by rw [Complex.sin_arg]; field_simp
  have e1 : cos w.arg = 2 * cos (w.arg / 2) ^ 2 - 1 := by rw [← cos_two_mul]; congr 1; ring
  have e2 : sin w.arg = 2 * sin (w.arg / 2) * cos (w.arg / 2) := by rw [← sin_two_mul]; congr 1; ring
  rw [him, hre, e1, e2, tan_eq_sin_div_cos]
  generalize cos (w.arg / 2) = c at *
  generalize sin (w.arg / 2) = s at *
  field_simp
  rw [show 1 + (2 * c ^ 2 - 1) = 2 * c * c by ring]
  field_simp

theorem arg_crossing (a b : ℂ) (ha : a ≠ 0) (hb : b ≠ 0) (hs : (b / a).arg ≠ π) :
    (b / a).arg = (-b).arg - (-a).arg + 2 * π * ((if a.im ≤ 0 ∧ 0 < b.im ∧ 0 < a.re * b.im - a.im * b.re then 1
      else if b.im ≤ 0 ∧ 0 < a.im ∧ a.re * b.im - a.im * b.re < 0 then -1 else 0 : ℤ) : ℝ) := by
  have hpi := Real.pi_pos
  obtain ⟨k, hk⟩ : ∃ k : ℤ, (b / a).arg = (-b).arg - (-a).arg + 2 * π * k := by
    have h1 : b / a = (-b) / (-a) := by rw [neg_div_neg_eq]
    have h2 := Complex.arg_div_coe_angle (neg_ne_zero.mpr hb) (neg_ne_zero.mpr ha)
    rw [← h1, ← Real.Angle.coe_sub, Real.Angle.angle_eq_iff_two_pi_dvd_sub] at h2
    obtain ⟨k, hk⟩ := h2
    exact ⟨k, by linarith⟩
  have d1 := Complex.neg_pi_lt_arg (b / a)
  have d2 := lt_of_le_of_ne (Complex.arg_le_pi (b / a)) hs
  have a1 := Complex.neg_pi_lt_arg (-a)
  have a2 := Complex.arg_le_pi (-a)
  have b1 := Complex.neg_pi_lt_arg (-b)
  have b2 := Complex.arg_le_pi (-b)
  have haq : 0 < Complex.normSq a := Complex.normSq_pos.mpr ha
  have him : (b / a).im = (a.re * b.im - a.im * b.re) / Complex.normSq a := by
    rw [Complex.div_im]; ring
  have ca : a.im ≤ 0 ↔ 0 ≤ (-a).arg := by rw [Complex.arg_nonneg_iff]; simp
  have cb : b.im ≤ 0 ↔ 0 ≤ (-b).arg := by rw [Complex.arg_nonneg_iff]; simp
  have cn : a.re * b.im - a.im * b.re < 0 ↔ (b / a).arg < 0 := by
    rw [Complex.arg_neg_iff, him, div_neg_iff]
    constructor
    · intro h; exact Or.inr ⟨h, haq⟩
    · rintro (⟨_, h⟩ | ⟨h, _⟩)
      · linarith
      · exact h
  have cp : 0 < (b / a).arg → 0 < a.re * b.im - a.im * b.re := by
    intro h
    have h1 : 0 ≤ a.re * b.im - a.im * b.re := by
      by_contra hc
      linarith [cn.mp (not_le.mp hc)]
    refine lt_of_le_of_ne h1 fun h0 => ?_
    have h2 : (b / a).im = 0 := by rw [him, ← h0, zero_div]
    rcases le_or_gt 0 (b / a).re with h3 | h3
    · rw [Complex.arg_eq_zero_iff.mpr ⟨h3, h2⟩] at h; exact lt_irrefl _ h
    · exact hs (Complex.arg_eq_pi_iff.mpr ⟨h3, h2⟩)
  have kle : ∀ n : ℤ, (k : ℝ) < n + 1 → k ≤ n := fun n h => by
    have : k < n + 1 := by exact_mod_cast h
    omega
  have kge : ∀ n : ℤ, (n : ℝ) - 1 < k → n ≤ k := fun n h => by
    have : n - 1 < k := by exact_mod_cast h
    omega
  have key : ∀ n : ℤ, (b / a).arg - ((-b).arg - (-a).arg) < 2 * π * (n + 1) →
      2 * π * (n - 1) < (b / a).arg - ((-b).arg - (-a).arg) → k = n := by
    intro n h1 h2
    have h3 : (b / a).arg - ((-b).arg - (-a).arg) = 2 * π * k := by linarith
    rw [h3] at h1 h2
    have := kle n (lt_of_mul_lt_mul_left h1 (by positivity))
    have := kge n (lt_of_mul_lt_mul_left h2 (by positivity))
    omega
  rw [hk]
  congr 2
  rw [Int.cast_inj]
  by_cases hA : 0 ≤ (-a).arg <;> by_cases hB : 0 ≤ (-b).arg
  · rw [if_neg (fun h => absurd (cb.mpr hB) (not_le.mpr h.2.1)), if_neg (fun h => absurd (ca.mpr hA) (not_le.mpr h.2.1))]
    exact key 0 (by push_cast; linarith) (by push_cast; linarith)
  · have hB' := not_le.mp hB
    have hbi : 0 < b.im := not_le.mp fun h => hB (cb.mp h)
    rw [if_neg (c := b.im ≤ 0 ∧ _) (fun h => absurd h.1 (not_le.mpr hbi))]
    by_cases hC : 0 < (b / a).arg
    · rw [if_pos ⟨ca.mpr hA, hbi, cp hC⟩]
      exact key 1 (by push_cast; linarith) (by push_cast; linarith)
    · have h0 : ¬ 0 < a.re * b.im - a.im * b.re := by
        intro h
        have h1 : 0 ≤ (b / a).arg := by
          rw [Complex.arg_nonneg_iff, him]; positivity
        have h2 : (b / a).arg = 0 := le_antisymm (not_lt.mp hC) h1
        rw [Complex.arg_eq_zero_iff, him] at h2
        have := h2.2
        rw [div_eq_zero_iff] at this
        rcases this with h | h <;> linarith
      rw [if_neg fun h => h0 h.2.2]
      exact key 0 (by push_cast; linarith) (by push_cast; linarith)
  · have hA' := not_le.mp hA
    have hai : 0 < a.im := not_le.mp fun h => hA (ca.mp h)
    rw [if_neg (c := a.im ≤ 0 ∧ _) (fun h => absurd h.1 (not_le.mpr hai))]
    by_cases hC : (b / a).arg < 0
    · rw [if_pos ⟨cb.mpr hB, hai, cn.mpr hC⟩]
      exact key (-1) (by push_cast; linarith) (by push_cast; linarith)
    · rw [if_neg fun h => hC (cn.mp h.2.2)]
      exact key 0 (by push_cast; linarith) (by push_cast; linarith)
  · have hA' := not_le.mp hA
    have hB' := not_le.mp hB
    rw [if_neg (fun h => hA (ca.mp h.1)), if_neg (fun h => hB (cb.mp h.1))]
    exact key 0 (by push_cast; linarith) (by push_cast; linarith)

theorem off_segment {q : ℝ × ℝ} {a b : V2} (h : ¬ Spec.onSegment q a b) :
    relC q a ≠ 0 ∧ relC q b ≠ 0 ∧ (relC q b / relC q a).arg ≠ π := by
  have ha : relC q a ≠ 0 := by
    intro h0
    rw [Complex.ext_iff] at h0
    simp only [relC, Complex.zero_re, Complex.zero_im] at h0
    exact h ⟨0, le_rfl, zero_le_one, by linarith [h0.1], by linarith [h0.2]⟩
  have hb : relC q b ≠ 0 := by
    intro h0
    rw [Complex.ext_iff] at h0
    simp only [relC, Complex.zero_re, Complex.zero_im] at h0
    exact h ⟨1, zero_le_one, le_rfl, by linarith [h0.1], by linarith [h0.2]⟩
  refine ⟨ha, hb, fun hp => ?_⟩
  obtain ⟨h1, h2⟩ := Complex.arg_eq_pi_iff.mp hp
  -- `b = -s a` with `s > 0`
  set s := -(relC q b / relC q a).re with hs
  have hs0 : 0 < s := by rw [hs]; linarith
  have e : relC q b = -(s : ℂ) * relC q a := by
    have : relC q b / relC q a = -(s : ℂ) := by
      apply Complex.ext
      · simp [hs]
      · simpa using h2
    rw [← this]; field_simp
  rw [Complex.ext_iff] at e
  simp only [relC, Complex.mul_re, Complex.mul_im, Complex.neg_re, Complex.neg_im, Complex.ofReal_re, Complex.ofReal_im,
    neg_zero, zero_mul, sub_zero, add_zero] at e
  refine h ⟨1 / (1 + s), by positivity, ?_, ?_, ?_⟩
  · rw [div_le_one (by positivity)]; linarith
  · have := e.1
    field_simp
    nlinarith
  · have := e.2
    field_simp
    nlinarith

/-- angle under which an edge is seen, up to a term that telescopes, is `2 π` times the crossing -/
theorem relE_zero {q : ℝ × ℝ} {a b : V2} (h : ¬ Spec.onSegment q a b) :
    relE ⟨q.1, q.2, 0⟩ a b
      = (Spec.crossing q a b : ℝ) + ((-relC q b).arg / (2 * π) - (-relC q a).arg / (2 * π))
    ∧ 0 < √((a.x - q.1) ^ 2 + (a.y - q.2) ^ 2) * √((b.x - q.1) ^ 2 + (b.y - q.2) ^ 2)
        + (a.x - q.1) * (b.x - q.1) + (a.y - q.2) * (b.y - q.2) := by
  obtain ⟨ha, hb, hp⟩ := off_segment h
  have hpi := Real.pi_pos
  have h1 := arg_half (relC q b / relC q a) (div_ne_zero hb ha) hp
  have na : √((a.x - q.1) ^ 2 + (a.y - q.2) ^ 2) = ‖relC q a‖ := by
    rw [Complex.norm_def, Complex.normSq_apply]; simp only [relC]; congr 1; ring
  have nb : √((b.x - q.1) ^ 2 + (b.y - q.2) ^ 2) = ‖relC q b‖ := by
    rw [Complex.norm_def, Complex.normSq_apply]; simp only [relC]; congr 1; ring
  have hna : 0 < ‖relC q a‖ := norm_pos_iff.mpr ha
  have hre : (relC q b / relC q a).re
      = ((a.x - q.1) * (b.x - q.1) + (a.y - q.2) * (b.y - q.2)) / ‖relC q a‖ ^ 2 := by
    rw [Complex.div_re, ← Complex.normSq_eq_norm_sq]; simp only [relC]; ring
  have him : (relC q b / relC q a).im
      = ((a.x - q.1) * (b.y - q.2) - (a.y - q.2) * (b.x - q.1)) / ‖relC q a‖ ^ 2 := by
    rw [Complex.div_im, ← Complex.normSq_eq_norm_sq]; simp only [relC]; ring
  have hnorm : ‖relC q b / relC q a‖ = ‖relC q a‖ * ‖relC q b‖ / ‖relC q a‖ ^ 2 := by
    rw [norm_div]; field_simp
  have hden : 0 < ‖relC q a‖ * ‖relC q b‖ + (a.x - q.1) * (b.x - q.1) + (a.y - q.2) * (b.y - q.2) := by
    have h2 : 0 < ‖relC q b / relC q a‖ + (relC q b / relC q a).re := by
      have h3 := Complex.abs_re_le_norm (relC q b / relC q a)
      have h4 := neg_abs_le (relC q b / relC q a).re
      refine lt_of_le_of_ne (by linarith) fun h0 => hp ?_
      rw [Complex.arg_eq_pi_iff]
      have hw : relC q b / relC q a ≠ 0 := div_ne_zero hb ha
      have hn : 0 < ‖relC q b / relC q a‖ := norm_pos_iff.mpr hw
      refine ⟨by linarith, ?_⟩
      have h5 := Complex.sq_norm (relC q b / relC q a)
      rw [Complex.normSq_apply] at h5
      have h6 : ‖relC q b / relC q a‖ = -(relC q b / relC q a).re := by linarith
      rw [h6] at h5
      nlinarith
    rw [hre, hnorm, ← add_div] at h2
    have := (div_pos_iff_of_pos_right (by positivity)).mp h2
    linarith
  refine ⟨?_, by rw [na, nb]; exact hden⟩
  have h7 : relE ⟨q.1, q.2, 0⟩ a b = 1 / π * ((relC q b / relC q a).arg / 2) := by
    rw [← h1, him, hre, hnorm, ← add_div, div_div_div_cancel_right₀ (by positivity)]
    simp only [relE, edgeE, ne_eq, OfNat.ofNat_ne_zero, not_false_eq_true, zero_pow, add_zero, zero_mul]
    rw [na, nb]
    congr 3
    ring
  rw [h7, arg_crossing _ _ ha hb hp, ← crossing_rel]
  field_simp
  ring

theorem relE_tendsto {q : ℝ × ℝ} {a b : V2} (h : ¬ Spec.onSegment q a b) :
    Tendsto (fun z => relE ⟨q.1, q.2, z⟩ a b) (𝓝[>] 0) (𝓝 (relE ⟨q.1, q.2, 0⟩ a b)) := by
  refine Tendsto.mono_left (ContinuousAt.tendsto ?_) nhdsWithin_le_nhds
  simp only [relE, edgeE]
  have hd := (relE_zero h).2
  refine continuousAt_const.mul (Real.continuous_arctan.continuousAt.comp' ?_)
  refine ContinuousAt.div continuousAt_const (Continuous.continuousAt (by fun_prop)) ?_
  simp only [ne_eq, OfNat.ofNat_ne_zero, not_false_eq_true, zero_pow, add_zero, zero_mul]
  exact hd.ne'

theorem zip_pairs (f : V2 → V2 → ℝ) (l : List V2) : cycSum f l = ((List.zip l (l.rotate 1)).map fun e => f e.1 e.2).sum := by
  rw [← sum_zipWith_roll]
  rw [List.zip, List.map_zipWith]
  rfl

theorem tendsto_map_sum {ι : Type*} {F : Filter ℝ} (L : List ι) (f : ι → ℝ → ℝ) (g : ι → ℝ)
    (h : ∀ a ∈ L, Tendsto (f a) F (𝓝 (g a))) :
    Tendsto (fun t => (L.map fun a => f a t).sum) F (𝓝 ((L.map g).sum)) := by
  induction L with
  | nil => exact tendsto_const_nhds
  | cons a L ih =>
    simp only [List.map_cons, List.sum_cons]
    exact (h a (by simp)).add (ih fun b hb => h b (by simp [hb]))

theorem poly_relE (poly : List V2) (q : ℝ × ℝ) (z : ℝ) (hz : 0 < z) :
    ((List.zip poly (poly.rotate 1)).map fun e => relE ⟨q.1, q.2, z⟩ e.1 e.2).sum
      = polyComp 0 0 poly ⟨q.1, q.2, z⟩ := by
  rw [EdgeId.polyComp_cyc, ← zip_pairs (fun a b => relE ⟨q.1, q.2, z⟩ a b)]
  have : (fun a b => relE ⟨q.1, q.2, z⟩ a b) = fun a b => segComp 0 0 ⟨q.1, q.2, z⟩ a b := by
    funext a b
    exact (seg_relE (p := ⟨q.1, q.2, z⟩) hz a b).symm
  rw [this]

theorem winding_relE (poly : List V2) (q : ℝ × ℝ) (h : Spec.offBoundary poly q) :
    (Spec.winding poly q : ℝ)
      = ((List.zip poly (poly.rotate 1)).map fun e => relE ⟨q.1, q.2, 0⟩ e.1 e.2).sum := by
  have e1 : ((List.zip poly (poly.rotate 1)).map fun e => relE ⟨q.1, q.2, 0⟩ e.1 e.2)
      = (List.zip poly (poly.rotate 1)).map fun e => (Spec.crossing q e.1 e.2 : ℝ)
        + ((-relC q e.2).arg / (2 * π) - (-relC q e.1).arg / (2 * π)) :=
    List.map_congr_left fun e he => (relE_zero (h e he)).1
  rw [e1, ← zip_pairs (fun a b => (Spec.crossing q a b : ℝ) + ((-relC q b).arg / (2 * π) - (-relC q a).arg / (2 * π))),
    cycSum_add (fun a b => (Spec.crossing q a b : ℝ)) (fun a b => (-relC q b).arg / (2 * π) - (-relC q a).arg / (2 * π)),
    cycSum_tele (fun a => (-relC q a).arg / (2 * π)), add_zero, winding_cyc]
  exact (cycSum_hom (Int.castAddHom ℝ) (Spec.crossing q) poly).symm

/-- close to the electrode plane the potential is the winding number -/
theorem poly_tendsto (poly : List V2) (q : ℝ × ℝ) (h : Spec.offBoundary poly q) :
    Tendsto (fun z => polyComp 0 0 poly ⟨q.1, q.2, z⟩) (𝓝[>] 0) (𝓝 (Spec.winding poly q : ℝ)) := by
  rw [winding_relE poly q h]
  have h1 := tendsto_map_sum (F := 𝓝[>] 0) (List.zip poly (poly.rotate 1)) (fun e z => relE ⟨q.1, q.2, z⟩ e.1 e.2)
    (fun e => relE ⟨q.1, q.2, 0⟩ e.1 e.2) fun e he => relE_tendsto (h e he)
  refine h1.congr' ?_
  filter_upwards [self_mem_nhdsWithin] with z hz
  exact poly_relE poly q z hz

end PolyInt
end Electrode
