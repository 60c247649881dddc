import Verif.Spec.Robust
import Verif.Props.Minimum
import Verif.Props.Earnshaw
import Verif.Props.Layout
import Mathlib.Analysis.Calculus.MeanValue
import Mathlib.Analysis.Calculus.LocalExtr.Basic
import Mathlib.Analysis.InnerProductSpace.PiL2

/-
C130: where the potential curves upwards, small errors move the minimum only a little.
-/
namespace Electrode
open Spec Set

namespace Rob

theorem vlen_nonneg (x : Fin 3 → ℝ) : 0 ≤ vlen x := Real.sqrt_nonneg _

theorem vlen_sq (x : Fin 3 → ℝ) : vlen x ^ 2 = ∑ a, x a ^ 2 := Real.sq_sqrt (Finset.sum_nonneg fun _ _ => sq_nonneg _)

theorem cs (x y : Fin 3 → ℝ) : ∑ a, x a * y a ≤ vlen x * vlen y := Real.sum_mul_le_sqrt_mul_sqrt _ _ _

theorem vlen_neg (x : Fin 3 → ℝ) : vlen (-x) = vlen x := by simp [vlen]

theorem cs' (x y : Fin 3 → ℝ) : -(vlen x * vlen y) ≤ ∑ a, x a * y a := by
  have := cs (-x) y
  rw [vlen_neg] at this
  simp only [Pi.neg_apply, neg_mul, Finset.sum_neg_distrib] at this
  linarith

theorem vlen_zero_iff (x : Fin 3 → ℝ) : vlen x = 0 ↔ x = 0 := by
  constructor
  · intro h
    have h2 := vlen_sq x
    rw [h, Fin.sum_univ_three] at h2
    funext a
    fin_cases a <;> simp <;> nlinarith [sq_nonneg (x 0), sq_nonneg (x 1), sq_nonneg (x 2)]
  · rintro rfl
    simp [vlen]

theorem vlen_eq (x : Fin 3 → ℝ) : vlen x = ‖(WithLp.toLp 2 x : EuclideanSpace ℝ (Fin 3))‖ := by
  rw [EuclideanSpace.norm_eq]
  simp [vlen]

theorem vlen_add (x y : Fin 3 → ℝ) : vlen (x + y) ≤ vlen x + vlen y := by
  rw [vlen_eq, vlen_eq, vlen_eq]
  exact norm_add_le _ _

theorem vlen_smul (t : ℝ) (x : Fin 3 → ℝ) : vlen (t • x) = |t| * vlen x := by
  rw [vlen_eq, vlen_eq, WithLp.toLp_smul, norm_smul, Real.norm_eq_abs]

theorem vlen_continuous : Continuous vlen := by unfold vlen; fun_prop

theorem rball_convex (x : Fin 3 → ℝ) (R : ℝ) : Convex ℝ (rball x R) := by
  intro y hy z hz a b ha hb hab
  have e : a • y + b • z - x = a • (y - x) + b • (z - x) := by
    have : x = a • x + b • x := by rw [← add_smul, hab, one_smul]
    conv_lhs => rw [this]
    rw [smul_sub, smul_sub]
    abel
  show vlen _ ≤ R
  rw [e]
  refine (vlen_add _ _).trans ?_
  rw [vlen_smul, vlen_smul, abs_of_nonneg ha, abs_of_nonneg hb]
  have h1 := mul_le_mul_of_nonneg_left hy ha
  have h2 := mul_le_mul_of_nonneg_left hz hb
  have : a * R + b * R = R := by rw [← add_mul, hab, one_mul]
  linarith

theorem rball_compact (x : Fin 3 → ℝ) (R : ℝ) : IsCompact (rball x R) := by
  refine Metric.isCompact_of_isClosed_isBounded (isClosed_le (vlen_continuous.comp (continuous_id.sub continuous_const)) continuous_const) ?_
  rw [isBounded_iff_forall_norm_le]
  refine ⟨R + ‖x‖, fun y hy => ?_⟩
  have h0 : (0 : ℝ) ≤ R := (vlen_nonneg _).trans hy
  have : ‖y - x‖ ≤ R := by
    rw [pi_norm_le_iff_of_nonneg h0]
    intro a
    refine le_trans ?_ hy
    rw [Real.norm_eq_abs]
    refine Real.abs_le_sqrt ?_
    exact Finset.single_le_sum (f := fun a => (y - x) a ^ 2) (fun _ _ => sq_nonneg _) (Finset.mem_univ a)
  calc ‖y‖ = ‖(y - x) + x‖ := by rw [sub_add_cancel]
    _ ≤ _ := (norm_add_le _ _).trans (by linarith)

variable {els : List Elec} {c : ℝ}

/-- along a line -/
theorem line (x d : Fin 3 → ℝ) (t : ℝ) (l : Idx) (hl : l.length ≤ 3) (h : offSystem els (toV3 (x + t • d))) :
    HasDerivAt (fun t : ℝ => totalAt ⟨els, some c⟩ l (toV3 (x + t • d))) (∑ a, d a * totalAt ⟨els, some c⟩ (l ++ [a]) (toV3 (x + t • d))) t :=
  line_deriv (total_smooth els c l (by omega)) (fun a => totalAt ⟨els, some c⟩ (l ++ [a]) (toV3 (x + t • d))) (x + t • d) h
    (fun a => total_step els c l a hl _ h) d (fun t => x + t • d) t (by
      have h := ((hasDerivAt_id t).smul_const d).const_add x
      rwa [one_smul] at h) rfl

theorem seg {K : Set (Fin 3 → ℝ)} (hK : Convex ℝ K) {x y : Fin 3 → ℝ} (hx : x ∈ K) (hy : y ∈ K) {t : ℝ} (h0 : 0 ≤ t) (h1 : t ≤ 1) :
    x + t • (y - x) ∈ K := hK.add_smul_sub_mem hx hy ⟨h0, h1⟩

/-- the gradient is monotone -/
theorem mono {K : Set (Fin 3 → ℝ)} (hK : Convex ℝ K) (hc : clearOf ⟨els, some c⟩ K) {lam : ℝ} (hs : Stiff ⟨els, some c⟩ lam K)
    {x y : Fin 3 → ℝ} (hx : x ∈ K) (hy : y ∈ K) :
    lam * vlen (y - x) ^ 2 ≤ ∑ a, (slopeAt ⟨els, some c⟩ y a - slopeAt ⟨els, some c⟩ x a) * (y - x) a := by
  set d := y - x with hd
  have hder : ∀ t ∈ Icc (0:ℝ) 1, HasDerivAt (fun t : ℝ => ∑ a, totalAt ⟨els, some c⟩ [a] (toV3 (x + t • d)) * d a)
      (∑ a, (∑ b, d b * totalAt ⟨els, some c⟩ [a, b] (toV3 (x + t • d))) * d a) t := fun t ht =>
    HasDerivAt.fun_sum fun a _ => (line x d t [a] (by simp) (hc _ (seg hK hx hy ht.1 ht.2))).mul_const _
  obtain ⟨t, ht, he⟩ := exists_hasDerivAt_eq_slope _ _ zero_lt_one (fun t ht => (hder t ht).continuousAt.continuousWithinAt)
    fun t ht => hder t (Ioo_subset_Icc_self ht)
  have h := hs _ (seg hK hx hy ht.1.le ht.2.le) d
  rw [vlen_sq]
  refine h.trans ?_
  have e1 : x + (1:ℝ) • d = y := by simp [hd]
  have e0 : x + (0:ℝ) • d = x := by simp
  simp only [sub_zero, div_one, e1, e0] at he
  rw [show (∑ a, (slopeAt ⟨els, some c⟩ y a - slopeAt ⟨els, some c⟩ x a) * d a)
    = (∑ a, totalAt ⟨els, some c⟩ [a] (toV3 y) * d a) - ∑ a, totalAt ⟨els, some c⟩ [a] (toV3 x) * d a from by
      simp only [slopeAt, sub_mul, Finset.sum_sub_distrib], ← he]
  refine le_of_eq (Finset.sum_congr rfl fun a _ => ?_)
  rw [Finset.sum_mul]
  exact Finset.sum_congr rfl fun b _ => by ring

/-- the potential grows at least as a parabola -/
theorem growth {K : Set (Fin 3 → ℝ)} (hK : Convex ℝ K) (hc : clearOf ⟨els, some c⟩ K) {lam : ℝ} (hs : Stiff ⟨els, some c⟩ lam K)
    {x y : Fin 3 → ℝ} (hx : x ∈ K) (hy : y ∈ K) :
    valueAt ⟨els, some c⟩ x + (∑ a, slopeAt ⟨els, some c⟩ x a * (y - x) a) + lam / 2 * vlen (y - x) ^ 2 ≤ valueAt ⟨els, some c⟩ y := by
  set d := y - x with hd
  set A := ∑ a, slopeAt ⟨els, some c⟩ x a * d a with hA
  have hder : ∀ t ∈ Icc (0:ℝ) 1, HasDerivAt (fun t : ℝ => totalAt ⟨els, some c⟩ [] (toV3 (x + t • d)) - t * A - lam / 2 * vlen d ^ 2 * t ^ 2)
      ((∑ a, d a * totalAt ⟨els, some c⟩ [a] (toV3 (x + t • d))) - 1 * A - lam / 2 * vlen d ^ 2 * (2 * t)) t := fun t ht => by
    have h2 : HasDerivAt (fun t : ℝ => t ^ 2) (2 * t) t := by simpa using hasDerivAt_pow 2 t
    exact ((line x d t [] (by simp) (hc _ (seg hK hx hy ht.1 ht.2))).sub ((hasDerivAt_id t).mul_const A)).sub (h2.const_mul _)
  obtain ⟨t, ht, he⟩ := exists_hasDerivAt_eq_slope _ _ zero_lt_one (fun t ht => (hder t ht).continuousAt.continuousWithinAt)
    fun t ht => hder t (Ioo_subset_Icc_self ht)
  have h := mono hK hc hs hx (seg hK hx hy ht.1.le ht.2.le)
  rw [add_sub_cancel_left, vlen_smul, abs_of_pos ht.1] at h
  have e1 : x + (1:ℝ) • d = y := by simp [hd]
  have e0 : x + (0:ℝ) • d = x := by simp
  simp only [sub_zero, div_one, e1, e0] at he
  have h3 : lam * (t * vlen d) ^ 2 ≤ t * ((∑ a, d a * totalAt ⟨els, some c⟩ [a] (toV3 (x + t • d))) - A) := by
    refine h.trans (le_of_eq ?_)
    rw [hA, ← Finset.sum_sub_distrib, Finset.mul_sum]
    refine Finset.sum_congr rfl fun a _ => ?_
    simp only [slopeAt, Pi.smul_apply, smul_eq_mul]
    ring
  have h4 : lam * t * vlen d ^ 2 ≤ (∑ a, d a * totalAt ⟨els, some c⟩ [a] (toV3 (x + t • d))) - A := by
    have : t * (lam * t * vlen d ^ 2) ≤ t * ((∑ a, d a * totalAt ⟨els, some c⟩ [a] (toV3 (x + t • d))) - A) := by nlinarith
    exact le_of_mul_le_mul_left this ht.1
  simp only [valueAt]
  nlinarith

end Rob
open Rob

/-- **C130.** In a convex region where the potential curves upwards a point without force is the only one, and the potential grows from
there at least as a parabola. -/
theorem c130_unique (els : List Elec) (c : ℝ) (K : Set (Fin 3 → ℝ)) (hK : Convex ℝ K) (hc : clearOf ⟨els, some c⟩ K) (lam : ℝ) (hl : 0 < lam)
    (hs : Stiff ⟨els, some c⟩ lam K) (x0 : Fin 3 → ℝ) (h0 : x0 ∈ K) (hg : slopeAt ⟨els, some c⟩ x0 = 0) :
    (∀ y ∈ K, valueAt ⟨els, some c⟩ x0 + lam / 2 * vlen (y - x0) ^ 2 ≤ valueAt ⟨els, some c⟩ y) ∧
      ∀ y ∈ K, slopeAt ⟨els, some c⟩ y = 0 → y = x0 := by
  refine ⟨fun y hy => ?_, fun y hy hgy => ?_⟩
  · have := growth hK hc hs h0 hy
    simpa [hg] using this
  · have h := mono hK hc hs h0 hy
    simp only [hg, hgy, sub_self, Pi.zero_apply, zero_mul, Finset.sum_const_zero] at h
    have h2 := vlen_nonneg (y - x0)
    have : vlen (y - x0) = 0 := by
      by_contra hne
      have : 0 < vlen (y - x0) := lt_of_le_of_ne h2 (Ne.symm hne)
      have : 0 < lam * vlen (y - x0) ^ 2 := by positivity
      linarith
    rw [vlen_zero_iff] at this
    exact sub_eq_zero.1 this

/-- **C130.** The distance of a point from the minimum is at most the length of the gradient there divided by the curvature; the potential
differs from the minimum by at most the square of that length divided by twice the curvature. The height above the minimum bounds the
distance as well. -/
theorem c130_distance (els : List Elec) (c : ℝ) (K : Set (Fin 3 → ℝ)) (hK : Convex ℝ K) (hc : clearOf ⟨els, some c⟩ K) (lam : ℝ) (hl : 0 < lam)
    (hs : Stiff ⟨els, some c⟩ lam K) (x0 : Fin 3 → ℝ) (h0 : x0 ∈ K) (hg : slopeAt ⟨els, some c⟩ x0 = 0) (x : Fin 3 → ℝ) (hx : x ∈ K) :
    vlen (x - x0) ≤ vlen (slopeAt ⟨els, some c⟩ x) / lam ∧
      valueAt ⟨els, some c⟩ x - valueAt ⟨els, some c⟩ x0 ≤ vlen (slopeAt ⟨els, some c⟩ x) ^ 2 / (2 * lam) ∧
      vlen (x - x0) ^ 2 ≤ 2 * (valueAt ⟨els, some c⟩ x - valueAt ⟨els, some c⟩ x0) / lam := by
  refine ⟨?_, ?_, ?_⟩
  · have h := mono hK hc hs h0 hx
    simp only [hg, Pi.zero_apply, sub_zero] at h
    have h2 := cs (slopeAt ⟨els, some c⟩ x) (x - x0)
    have h3 := vlen_nonneg (x - x0)
    rw [le_div_iff₀ hl]
    rcases h3.eq_or_lt with h4 | h4
    · rw [← h4, zero_mul]
      exact vlen_nonneg _
    · refine le_of_mul_le_mul_right ?_ h4
      nlinarith
  · have h := growth hK hc hs hx h0
    have h2 := cs' (slopeAt ⟨els, some c⟩ x) (x0 - x)
    rw [le_div_iff₀ (by positivity)]
    have h3 : valueAt ⟨els, some c⟩ x - valueAt ⟨els, some c⟩ x0
        ≤ vlen (slopeAt ⟨els, some c⟩ x) * vlen (x0 - x) - lam / 2 * vlen (x0 - x) ^ 2 := by linarith
    have h4 := mul_le_mul_of_nonneg_right h3 (by positivity : (0:ℝ) ≤ 2 * lam)
    nlinarith [sq_nonneg (vlen (slopeAt ⟨els, some c⟩ x) - lam * vlen (x0 - x))]
  · have := (c130_unique els c K hK hc lam hl hs x0 h0 hg).1 x hx
    rw [le_div_iff₀ hl]
    linarith

/-- **C130.** If two systems differ, for example in voltages, stray fields, shapes or covers, their minima in the region are no further
apart than the difference of the forces at the second one divided by the curvature of the first one. -/
theorem c130_shift (els els' : List Elec) (c c' : ℝ) (K : Set (Fin 3 → ℝ)) (hK : Convex ℝ K) (hc : clearOf ⟨els, some c⟩ K) (lam : ℝ) (hl : 0 < lam)
    (hs : Stiff ⟨els, some c⟩ lam K) (x0 x1 : Fin 3 → ℝ) (h0 : x0 ∈ K) (h1 : x1 ∈ K) (hg : slopeAt ⟨els, some c⟩ x0 = 0)
    (hg' : slopeAt ⟨els', some c'⟩ x1 = 0) :
    vlen (x1 - x0) ≤ vlen (slopeAt ⟨els, some c⟩ x1 - slopeAt ⟨els', some c'⟩ x1) / lam := by
  rw [hg', sub_zero]
  exact (c130_distance els c K hK hc lam hl hs x0 h0 hg x1 h1).1

namespace Rob

theorem center_mem (x0 : Fin 3 → ℝ) {R : ℝ} (hR : 0 < R) : x0 ∈ rball x0 R := by
  show vlen (x0 - x0) ≤ R
  rw [sub_self, (vlen_zero_iff 0).2 rfl]
  exact hR.le

/-- a minimum in a ball, if the potential grows outwards everywhere on its surface -/
theorem min_inside (els : List Elec) (c : ℝ) (x0 : Fin 3 → ℝ) (R : ℝ) (hR : 0 < R) (hc : clearOf ⟨els, some c⟩ (rball x0 R))
    (hout : ∀ x, vlen (x - x0) = R → 0 < ∑ a, (x - x0) a * slopeAt ⟨els, some c⟩ x a) :
    ∃ x1 ∈ rball x0 R, slopeAt ⟨els, some c⟩ x1 = 0 ∧ ∀ y ∈ rball x0 R, valueAt ⟨els, some c⟩ x1 ≤ valueAt ⟨els, some c⟩ y := by
  have h00 := center_mem x0 hR
  have hcont : ContinuousOn (valueAt ⟨els, some c⟩) (rball x0 R) := fun x hx =>
    (((total_smooth els c [] (by simp)) x (hc x hx)).continuousAt.continuousWithinAt)
  obtain ⟨x1, hx1, hmin⟩ := (rball_compact x0 R).exists_isMinOn ⟨x0, h00⟩ hcont
  refine ⟨x1, hx1, ?_, fun y hy => hmin hy⟩
  have hlt : vlen (x1 - x0) < R := by
    refine lt_of_le_of_ne hx1 fun heq => ?_
    have h4 := hout x1 heq
    set d := x1 - x0 with hd
    have e1 : x0 + (1:ℝ) • d = x1 := by simp [hd]
    have hder := line (els := els) (c := c) x0 d 1 [] (by simp) (by rw [e1]; exact hc _ hx1)
    rw [e1] at hder
    have hpos : 0 < ∑ a, d a * totalAt ⟨els, some c⟩ ([] ++ [a]) (toV3 x1) := h4
    have hev := (hasDerivAt_iff_tendsto_slope.1 hder).eventually (lt_mem_nhds hpos)
    rw [eventually_nhdsWithin_iff, Metric.eventually_nhds_iff] at hev
    obtain ⟨δ, hδ, hev⟩ := hev
    set t := 1 - min (δ / 2) (1 / 2) with ht
    have m0 : 0 < min (δ / 2) (1 / 2) := by positivity
    have m1 : min (δ / 2) (1 / 2) ≤ δ / 2 := min_le_left _ _
    have m2 : min (δ / 2) (1 / 2) ≤ 1 / 2 := min_le_right _ _
    have hsl := hev (y := t) (by rw [Real.dist_eq, ht, abs_sub_comm, sub_sub_cancel, abs_of_pos m0]; linarith) (by
      simp only [mem_compl_iff, mem_singleton_iff, ht]
      intro h; linarith)
    have hmem : x0 + t • d ∈ rball x0 R := seg (rball_convex x0 R) h00 hx1 (by rw [ht]; linarith) (by rw [ht]; linarith)
    have hle : valueAt ⟨els, some c⟩ x1 ≤ valueAt ⟨els, some c⟩ (x0 + t • d) := hmin hmem
    rw [slope_def_field, e1] at hsl
    have hneg : t - 1 < 0 := by rw [ht]; linarith
    have : (totalAt ⟨els, some c⟩ [] (toV3 (x0 + t • d)) - totalAt ⟨els, some c⟩ [] (toV3 x1)) / (t - 1) ≤ 0 :=
      div_nonpos_of_nonneg_of_nonpos (sub_nonneg.2 hle) hneg.le
    linarith
  funext a
  have hnb : rball x0 R ∈ nhds x1 := by
    have : {y | vlen (y - x0) < R} ∈ nhds x1 :=
      (isOpen_lt (vlen_continuous.comp (continuous_id.sub continuous_const)) continuous_const).mem_nhds hlt
    exact Filter.mem_of_superset this fun y (hy : vlen (y - x0) < R) => show vlen (y - x0) ≤ R from hy.le
  have hloc : IsLocalMin (valueAt ⟨els, some c⟩) x1 := by
    filter_upwards [hnb] with y hy using hmin hy
  have hder := line (els := els) (c := c) x1 (Pi.single a 1) 0 [] (by simp) (by simpa using hc _ hx1)
  have hloc2 : IsLocalMin (fun t : ℝ => totalAt ⟨els, some c⟩ [] (toV3 (x1 + t • Pi.single a 1))) 0 := by
    have hcon : ContinuousAt (fun t : ℝ => x1 + t • (Pi.single a (1:ℝ) : Fin 3 → ℝ)) 0 := by fun_prop
    have h2 : IsLocalMin (valueAt ⟨els, some c⟩) ((fun t : ℝ => x1 + t • (Pi.single a (1:ℝ) : Fin 3 → ℝ)) 0) := by simpa using hloc
    exact hcon.eventually h2
  have := hloc2.hasDerivAt_eq_zero hder
  simpa [Pi.single_apply, slopeAt] using this


end Rob

/-- **C130.** There is a minimum in a ball around a point if the gradient at that point is shorter than the curvature times the radius; its
distance from the point is at most the length of the gradient divided by the curvature. -/
theorem c130_exists (els : List Elec) (c : ℝ) (x : Fin 3 → ℝ) (R : ℝ) (hR : 0 < R) (hc : clearOf ⟨els, some c⟩ (rball x R)) (lam : ℝ) (hl : 0 < lam)
    (hs : Stiff ⟨els, some c⟩ lam (rball x R)) (hg : vlen (slopeAt ⟨els, some c⟩ x) < lam * R) :
    ∃ x1 ∈ rball x R, slopeAt ⟨els, some c⟩ x1 = 0 ∧ (∀ y ∈ rball x R, valueAt ⟨els, some c⟩ x1 ≤ valueAt ⟨els, some c⟩ y) ∧
      vlen (x - x1) ≤ vlen (slopeAt ⟨els, some c⟩ x) / lam := by
  obtain ⟨x1, h1, h2, h3⟩ := min_inside els c x R hR hc fun y hy => by
    have hm := mono (rball_convex x R) hc hs (center_mem x hR) (show y ∈ rball x R from hy.le)
    have h2 := cs' (slopeAt ⟨els, some c⟩ x) (y - x)
    rw [hy] at hm h2
    have e : (∑ a, (slopeAt ⟨els, some c⟩ y a - slopeAt ⟨els, some c⟩ x a) * (y - x) a)
        = (∑ a, (y - x) a * slopeAt ⟨els, some c⟩ y a) - ∑ a, slopeAt ⟨els, some c⟩ x a * (y - x) a := by
      rw [← Finset.sum_sub_distrib]
      exact Finset.sum_congr rfl fun a _ => by ring
    rw [e] at hm
    nlinarith
  exact ⟨x1, h1, h2, h3, (c130_distance els c _ (rball_convex x R) hc lam hl hs x1 h1 h2 x (center_mem x hR)).1⟩

/-- **C130.** A changed system still has a minimum in a ball around the minimum of the first one if in the ball the forces differ by less than
the curvature times the radius. -/
theorem c130_survives (els els' : List Elec) (c c' : ℝ) (x0 : Fin 3 → ℝ) (R : ℝ) (hR : 0 < R) (hc : clearOf ⟨els, some c⟩ (rball x0 R))
    (hc' : clearOf ⟨els', some c'⟩ (rball x0 R)) (lam : ℝ) (hs : Stiff ⟨els, some c⟩ lam (rball x0 R))
    (hg : slopeAt ⟨els, some c⟩ x0 = 0) (ε : ℝ) (he : ∀ x ∈ rball x0 R, vlen (slopeAt ⟨els, some c⟩ x - slopeAt ⟨els', some c'⟩ x) ≤ ε)
    (hε : ε < lam * R) :
    ∃ x1 ∈ rball x0 R, slopeAt ⟨els', some c'⟩ x1 = 0 ∧ ∀ y ∈ rball x0 R, valueAt ⟨els', some c'⟩ x1 ≤ valueAt ⟨els', some c'⟩ y := by
  refine min_inside els' c' x0 R hR hc' fun x1 heq => ?_
  have hx1 : x1 ∈ rball x0 R := heq.le
  set d := x1 - x0 with hd
  have hm := mono (rball_convex x0 R) hc hs (center_mem x0 hR) hx1
  simp only [hg, Pi.zero_apply, sub_zero] at hm
  rw [← hd, heq] at hm
  have h2 := cs (slopeAt ⟨els, some c⟩ x1 - slopeAt ⟨els', some c'⟩ x1) d
  rw [heq] at h2
  have h3 := mul_le_mul_of_nonneg_right (he x1 hx1) hR.le
  have e : (∑ a, (slopeAt ⟨els, some c⟩ x1 - slopeAt ⟨els', some c'⟩ x1) a * d a)
      = (∑ a, slopeAt ⟨els, some c⟩ x1 a * d a) - ∑ a, d a * slopeAt ⟨els', some c'⟩ x1 a := by
    rw [← Finset.sum_sub_distrib]
    exact Finset.sum_congr rfl fun a _ => by simp only [Pi.sub_apply]; ring
  rw [e] at h2
  nlinarith

/-- **C130.** What `minimum` returns is near the true minimum if the minimiser stops only where the gradient is short. -/
theorem c130_minimum (minimize) (ε : ℝ) (hm : StopsBelow minimize ε) (els : List Elec) (c : ℝ) (K : Set (Fin 3 → ℝ)) (hK : Convex ℝ K)
    (hc : clearOf ⟨els, some c⟩ K) (lam : ℝ) (hl : 0 < lam) (hs : Stiff ⟨els, some c⟩ lam K) (x0 : Fin 3 → ℝ) (h0 : x0 ∈ K)
    (hg : slopeAt ⟨els, some c⟩ x0 = 0) (start p : Fin 3 → ℝ) (h : minimum minimize ⟨els, some c⟩ 1 .float start [0, 1, 2] = .ok p) (hp : p ∈ K) :
    vlen (p - x0) ≤ ε / lam ∧ valueAt ⟨els, some c⟩ p - valueAt ⟨els, some c⟩ x0 ≤ ε ^ 2 / (2 * lam) := by
  have key : vlen (slopeAt ⟨els, some c⟩ p) ≤ ε := by
    unfold minimum at h
    split at h
    · cases h
    · cases h
    · next r hr =>
      obtain ⟨hlen, gr, hgr, hle⟩ := hm _ _ _ _ _ hr
      injection h with h
      have e : coordPos 1 p = toV3 p := by simp [coordPos, toV3]
      unfold minimumG optG at hgr
      rw [h] at hgr
      obtain ⟨t, ht, hv⟩ := rotated_eq els c 1 1 1 le_rfl (by norm_num) p (by rw [e]; exact hc p hp)
      rw [ht] at hgr
      injection hgr with hgr
      have ha : ∀ a : Fin 3, t [a] = slopeAt ⟨els, some c⟩ p a := fun a => by
        rw [hv [a] rfl, contractRec_1, e, slopeAt]
        simp [Matrix.one_apply]
      rw [← hgr] at hle
      simp only [List.map_cons, List.map_nil, List.sum_cons, List.sum_nil, ha, add_zero] at hle
      unfold vlen
      rwa [Fin.sum_univ_three, add_assoc]
  have hd := c130_distance els c K hK hc lam hl hs x0 h0 hg p hp
  refine ⟨hd.1.trans (by gcongr), hd.2.1.trans ?_⟩
  have := vlen_nonneg (slopeAt ⟨els, some c⟩ p)
  gcongr

/-- **C130.** The smallest curvature `modes` returns and a bound of the third derivatives tell how much the potential curves upwards in a
ball. -/
theorem c130_modes (eigh : Eigh) (heigh : IsEigh eigh) (argsort : Argsort) (hsort : IsArgsort argsort) (els : List Elec) (c : ℝ) (x : Fin 3 → ℝ)
    (R : ℝ) (hR : 0 < R) (hc : clearOf ⟨els, some c⟩ (rball x R)) (ew : List ℝ) (ev : List (Fin 3 → ℝ))
    (h : modes eigh argsort ⟨els, some c⟩ (toV3 x) true = .ok (ew, ev)) (M : ℝ)
    (hM : ∀ y ∈ rball x R, ∀ a b d : Fin 3, |totalAt ⟨els, some c⟩ [a, b, d] (toV3 y)| ≤ M) :
    Stiff ⟨els, some c⟩ (ew.getD 0 0 - 3 * √3 * M * R) (rball x R) := by
  have habs : ∀ v : Fin 3 → ℝ, (∑ a, |v a|) ^ 2 ≤ 3 * ∑ a, v a ^ 2 := fun v => by
    rw [Fin.sum_univ_three, Fin.sum_univ_three, ← sq_abs (v 0), ← sq_abs (v 1), ← sq_abs (v 2)]
    nlinarith [sq_nonneg (|v 0| - |v 1|), sq_nonneg (|v 0| - |v 2|), sq_nonneg (|v 1| - |v 2|)]
  have hM0 : 0 ≤ M := (abs_nonneg _).trans (hM x (center_mem x hR) 0 0 0)
  -- at the centre
  have hcen : ∀ v : Fin 3 → ℝ, ew.getD 0 0 * ∑ a, v a ^ 2 ≤ ∑ a, ∑ b, v a * totalAt ⟨els, some c⟩ [a, b] (toV3 x) * v b := by
    intro v
    obtain ⟨l1, l2, sorted, he, ho⟩ := c43_modes eigh heigh argsort hsort _ _ ew ev h
    let P : Matrix (Fin 3) (Fin 3) ℝ := fun i j => ev.getD j 0 i
    have hP : P.transpose * P = 1 := by
      ext i j
      rw [Matrix.mul_apply, Matrix.one_apply]
      refine (ho i j i.2 j.2).trans ?_
      simp [Fin.ext_iff]
    have hP' : P * P.transpose = 1 := mul_eq_one_comm.1 hP
    have hv : ∀ a, v a = ∑ j, P a j * ∑ b, P b j * v b := fun a => by
      have := congrFun (congrArg (fun Q : Matrix (Fin 3) (Fin 3) ℝ => Q.mulVec v) hP') a
      simp only [Matrix.one_mulVec] at this
      rw [← this, ← Matrix.mulVec_mulVec]
      rfl
    set w : Fin 3 → ℝ := fun j => ∑ b, P b j * v b with hw
    have e1 : ∑ a, v a ^ 2 = ∑ j, w j ^ 2 := by
      have : ∀ a, v a ^ 2 = ∑ j, P a j * v a * w j := fun a => by
        rw [sq]
        nth_rewrite 2 [hv a]
        rw [Finset.mul_sum]
        exact Finset.sum_congr rfl fun j _ => by ring
      simp only [this]
      rw [Finset.sum_comm]
      refine Finset.sum_congr rfl fun j _ => ?_
      rw [← Finset.sum_mul, sq]
    have e2 : ∑ a, ∑ b, v a * totalAt ⟨els, some c⟩ [a, b] (toV3 x) * v b = ∑ j : Fin 3, ew.getD j 0 * w j ^ 2 := by
      have : ∀ a, ∑ b, v a * totalAt ⟨els, some c⟩ [a, b] (toV3 x) * v b = ∑ j : Fin 3, ew.getD j 0 * w j * (P a j * v a) := fun a => by
        have h3 : ∀ b, v a * totalAt ⟨els, some c⟩ [a, b] (toV3 x) * v b = ∑ j, v a * w j * (totalAt ⟨els, some c⟩ [a, b] (toV3 x) * P b j) := fun b => by
          conv_lhs => rw [hv b]
          rw [Finset.mul_sum]
          exact Finset.sum_congr rfl fun j _ => by ring
        simp only [h3]
        rw [Finset.sum_comm]
        refine Finset.sum_congr rfl fun j _ => ?_
        rw [← Finset.mul_sum, show (∑ b, totalAt ⟨els, some c⟩ [a, b] (toV3 x) * P b j) = ew.getD j 0 * P a j from he j a j.2]
        ring
      simp only [this]
      rw [Finset.sum_comm]
      refine Finset.sum_congr rfl fun j _ => ?_
      rw [← Finset.mul_sum]
      ring
    rw [e1, e2, Finset.mul_sum]
    refine Finset.sum_le_sum fun j _ => mul_le_mul_of_nonneg_right ?_ (sq_nonneg _)
    obtain ⟨p, q, r, rfl⟩ := List.length_eq_three.1 l1
    simp only [List.pairwise_cons, List.mem_cons, List.not_mem_nil, or_false] at sorted
    fin_cases j
    · exact le_rfl
    · exact sorted.1 q (Or.inl rfl)
    · exact sorted.1 r (Or.inr rfl)
  intro y hy v
  set d := y - x with hd
  have hder : ∀ t ∈ Icc (0:ℝ) 1, HasDerivAt (fun t : ℝ => ∑ a, ∑ b, v a * totalAt ⟨els, some c⟩ [a, b] (toV3 (x + t • d)) * v b)
      (∑ a, ∑ b, v a * (∑ e, d e * totalAt ⟨els, some c⟩ [a, b, e] (toV3 (x + t • d))) * v b) t := fun t ht =>
    HasDerivAt.fun_sum fun a _ => HasDerivAt.fun_sum fun b _ =>
      ((line x d t [a, b] (by simp) (hc _ (seg (rball_convex x R) (center_mem x hR) hy ht.1 ht.2))).const_mul _).mul_const _
  obtain ⟨t, ht, he⟩ := exists_hasDerivAt_eq_slope _ _ zero_lt_one (fun t ht => (hder t ht).continuousAt.continuousWithinAt)
    fun t ht => hder t (Ioo_subset_Icc_self ht)
  have e1 : x + (1:ℝ) • d = y := by simp [hd]
  have e0 : x + (0:ℝ) • d = x := by simp
  simp only [sub_zero, div_one, e1, e0] at he
  have hin := seg (rball_convex x R) (center_mem x hR) hy ht.1.le ht.2.le
  have hbound : |∑ a, ∑ b, v a * (∑ e, d e * totalAt ⟨els, some c⟩ [a, b, e] (toV3 (x + t • d))) * v b| ≤ M * (∑ a, |v a|) ^ 2 * ∑ e, |d e| := by
    have h1 : ∀ a b, |v a * (∑ e, d e * totalAt ⟨els, some c⟩ [a, b, e] (toV3 (x + t • d))) * v b| ≤ |v a| * (M * ∑ e, |d e|) * |v b| := fun a b => by
      rw [abs_mul, abs_mul]
      gcongr
      refine (Finset.abs_sum_le_sum_abs _ _).trans ?_
      rw [Finset.mul_sum]
      refine Finset.sum_le_sum fun e _ => ?_
      rw [abs_mul, mul_comm]
      exact mul_le_mul_of_nonneg_right (hM _ hin a b e) (abs_nonneg _)
    refine (Finset.abs_sum_le_sum_abs _ _).trans ?_
    refine (Finset.sum_le_sum fun a _ => (Finset.abs_sum_le_sum_abs _ _).trans (Finset.sum_le_sum fun b _ => h1 a b)).trans (le_of_eq ?_)
    simp only [Fin.sum_univ_three]
    ring
  have hd1 : ∑ e, |d e| ≤ √3 * R := by
    have h1 := habs d
    have h2 : ∑ e, d e ^ 2 ≤ R ^ 2 := by
      rw [← vlen_sq]
      have : vlen d ≤ R := hy
      have := vlen_nonneg d
      gcongr
    refine le_of_sq_le_sq ?_ (by positivity)
    rw [mul_pow, Real.sq_sqrt (by norm_num)]
    linarith
  have hv2 := habs v
  have hS : 0 ≤ ∑ a, v a ^ 2 := Finset.sum_nonneg fun _ _ => sq_nonneg _
  have hfin : M * (∑ a, |v a|) ^ 2 * ∑ e, |d e| ≤ M * (3 * ∑ a, v a ^ 2) * (√3 * R) := by
    have : 0 ≤ ∑ e, |d e| := Finset.sum_nonneg fun _ _ => abs_nonneg _
    gcongr
  have h3 := (abs_le.1 hbound).1
  have h4 := hcen v
  rw [he] at h3
  nlinarith

/-- **C130.** Around every point off the electrodes where all curvatures are positive there is a ball in which the potential curves upwards:
the theorems above apply there. -/
theorem c130_near (eigh : Eigh) (heigh : IsEigh eigh) (argsort : Argsort) (hsort : IsArgsort argsort) (els : List Elec) (c : ℝ) (x : Fin 3 → ℝ)
    (hx : offSystem els (toV3 x)) (ew : List ℝ) (ev : List (Fin 3 → ℝ))
    (h : modes eigh argsort ⟨els, some c⟩ (toV3 x) true = .ok (ew, ev)) (hw : ∀ w ∈ ew, 0 < w) :
    ∃ R lam, 0 < R ∧ 0 < lam ∧ clearOf ⟨els, some c⟩ (rball x R) ∧ Stiff ⟨els, some c⟩ lam (rball x R) := by
  have hopen : IsOpen {w : Fin 3 → ℝ | offSystem els (toV3 w)} := offSystem_open els
  obtain ⟨δ, hδ, hball⟩ := Metric.isOpen_iff.1 hopen x hx
  have hsub : ∀ R, R < δ → clearOf ⟨els, some c⟩ (rball x R) := fun R hR y hy => by
    apply hball
    have h0 : (0 : ℝ) ≤ R := (vlen_nonneg _).trans hy
    rw [Metric.mem_ball, dist_eq_norm]
    refine lt_of_le_of_lt ?_ hR
    rw [pi_norm_le_iff_of_nonneg h0]
    intro a
    refine le_trans ?_ hy
    rw [Real.norm_eq_abs]
    exact Real.abs_le_sqrt (Finset.single_le_sum (f := fun a => (y - x) a ^ 2) (fun _ _ => sq_nonneg _) (Finset.mem_univ a))
  have hb : ∀ l : Idx, l.length = 3 → ∃ M, ∀ y ∈ rball x (δ / 2), |totalAt ⟨els, some c⟩ l (toV3 y)| ≤ M := fun l hl => by
    have hcont : ContinuousOn (fun y => totalAt ⟨els, some c⟩ l (toV3 y)) (rball x (δ / 2)) := fun y hy =>
      ((total_smooth els c l (by omega)) y (hsub _ (by linarith) y hy)).continuousAt.continuousWithinAt
    obtain ⟨M, hM⟩ := (rball_compact x (δ / 2)).exists_bound_of_continuousOn hcont
    exact ⟨M, fun y hy => hM y hy⟩
  choose M hM using hb
  set B := ∑ a : Fin 3, ∑ b : Fin 3, ∑ d : Fin 3, |M [a, b, d] rfl| with hB
  have hB0 : 0 ≤ B := by positivity
  have hBle : ∀ y ∈ rball x (δ / 2), ∀ a b d : Fin 3, |totalAt ⟨els, some c⟩ [a, b, d] (toV3 y)| ≤ B := fun y hy a b d => by
    refine (hM [a, b, d] rfl y hy).trans ((le_abs_self _).trans ?_)
    rw [hB]
    refine le_trans ?_ (Finset.single_le_sum (f := fun a => ∑ b : Fin 3, ∑ d : Fin 3, |M [a, b, d] rfl|) (fun _ _ => by positivity) (Finset.mem_univ a))
    refine le_trans ?_ (Finset.single_le_sum (f := fun b => ∑ d : Fin 3, |M [a, b, d] rfl|) (fun _ _ => by positivity) (Finset.mem_univ b))
    exact Finset.single_le_sum (f := fun d => |M [a, b, d] rfl|) (fun _ _ => by positivity) (Finset.mem_univ d)
  obtain ⟨l1, -⟩ := c43_modes eigh heigh argsort hsort _ _ ew ev h
  have hw0 : 0 < ew.getD 0 0 := by
    obtain ⟨p, q, r, rfl⟩ := List.length_eq_three.1 l1
    exact hw p (by simp)
  set R := min (δ / 2) (ew.getD 0 0 / (2 * (3 * √3 * B + 1))) with hRd
  have h3 : 0 ≤ 3 * √3 * B := by positivity
  have hR : 0 < R := by positivity
  have hRle : R ≤ δ / 2 := min_le_left _ _
  have hR2 : 3 * √3 * B * R ≤ ew.getD 0 0 / 2 := by
    have h4 : R ≤ ew.getD 0 0 / (2 * (3 * √3 * B + 1)) := min_le_right _ _
    rw [le_div_iff₀ (by positivity)] at h4
    nlinarith
  refine ⟨R, ew.getD 0 0 - 3 * √3 * B * R, hR, by linarith, hsub R (by linarith), ?_⟩
  exact c130_modes eigh heigh argsort hsort els c x R hR (hsub R (by linarith)) ew ev h B fun y hy => hBle y (show vlen _ ≤ _ from le_trans hy hRle)

/-- a minimiser that reports success only where the gradient is short -/
theorem exists_stopsBelow (ε : ℝ) : ∃ minimize, StopsBelow minimize ε := by
  classical
  refine ⟨fun _ g _ x => .ok (decide (∃ gr, g x = .ok gr ∧ √((gr.map (· ^ 2)).sum) ≤ ε), x), fun f g h x r hr => ?_⟩
  simp only [Except.ok.injEq, Prod.mk.injEq, decide_eq_true_eq] at hr
  obtain ⟨h1, rfl⟩ := hr
  exact ⟨rfl, h1⟩

/-- Two pixels driven with rf: the hypotheses can be met around the point where the rf field vanishes. -/
theorem twoPixels_well : ∃ R lam, 0 < R ∧ 0 < lam ∧ clearOf ⟨twoPixels, some 1⟩ (rball ![0, 0, 1] R) ∧ Stiff ⟨twoPixels, some 1⟩ lam (rball ![0, 0, 1] R) ∧
    slopeAt ⟨twoPixels, some 1⟩ ![0, 0, 1] = 0 := by
  obtain ⟨eigh, argsort, ew, ev, h1, h2, h3, h4⟩ := twoPixels_modes
  have hoff : offSystem twoPixels (toV3 ![0, 0, 1]) := by
    intro e he
    simp only [twoPixels, List.mem_singleton] at he
    subst he
    intro q hq m h1 h2 h3
    have : m = 0 := by omega
    subst this
    simp [toV3] at h3
  obtain ⟨R, lam, a, b, d, e⟩ := c130_near eigh h1 argsort h2 twoPixels 1 ![0, 0, 1] hoff ew ev h3 h4
  refine ⟨R, lam, a, b, d, e, ?_⟩
  funext i
  rw [slopeAt, total_split twoPixels 1 [i] (by simp) _ fun d typ => avail_of_off hoff d typ, twoPixels_dc]
  have : toV3 ![0, 0, 1] = ⟨0, 0, 1⟩ := by simp [toV3]
  simp [psT, this, twoPixels_tens1]

end Electrode
