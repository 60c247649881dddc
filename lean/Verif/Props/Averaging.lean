import Verif.Spec.Averaging
import Verif.Lemmas.Averaging
import Verif.Props.Motion

/-
C132: the pseudopotential describes the motion in the oscillating field, the better the higher the frequency of the drive.
-/
namespace Electrode
open Spec Set Real ContDiff
open Rob Mot Aver

namespace Drive

variable {els : List Elec}

theorem off_withRf (k : ℝ) (p : V3) : offSystem (withRf k els) p ↔ offSystem els p := by
  simp only [offSystem, withRf, List.mem_map, forall_exists_index, and_imp, forall_apply_eq_imp_iff₂]
  rfl

theorem dc_withRf (k : ℝ) (l : Idx) (p : V3) : sysTens (withRf k els) .dc l p = sysTens els .dc l p := by
  rw [sysTens_eq, sysTens_eq, withRf, List.map_map]
  rfl

theorem rf_withRf (k : ℝ) (l : Idx) (p : V3) : sysTens (withRf k els) .rf l p = k * sysTens els .rf l p := by
  rw [sysTens_eq, sysTens_eq, withRf, List.map_map, ← List.sum_map_mul_left]
  congr 1
  refine List.map_congr_left fun e _ => ?_
  simp only [Function.comp_apply, Elec.voltD, Elec.volt, Option.getD_some]
  ring

/-- acceleration by the static field -/
noncomputable def gf (els : List Elec) (κ : ℝ) (x : Fin 3 → ℝ) : Fin 3 → ℝ := fun a => κ * sysTens els .dc [a] (toV3 x)

/-- amplitude of the velocity of the micromotion -/
noncomputable def wf (els : List Elec) (κ : ℝ) (x : Fin 3 → ℝ) : Fin 3 → ℝ := fun a => κ * sysTens els .rf [a] (toV3 x)

theorem gf_smooth (κ : ℝ) {x : Fin 3 → ℝ} (hx : offSystem els (toV3 x)) : ContDiffAt ℝ ∞ (gf els κ) x :=
  contDiffAt_pi.2 fun a => contDiffAt_const.mul ((sysTens_smooth els .dc [a] (by simp)) x hx)

theorem wf_smooth (κ : ℝ) {x : Fin 3 → ℝ} (hx : offSystem els (toV3 x)) : ContDiffAt ℝ ∞ (wf els κ) x :=
  contDiffAt_pi.2 fun a => contDiffAt_const.mul ((sysTens_smooth els .rf [a] (by simp)) x hx)

theorem wf_fderiv (κ : ℝ) {x : Fin 3 → ℝ} (hx : offSystem els (toV3 x)) (v : Fin 3 → ℝ) (a : Fin 3) :
    fderiv ℝ (wf els κ) x v a = κ * ∑ b, v b * sysTens els .rf [a, b] (toV3 x) := by
  have h1 : HasFDerivAt (wf els κ) (fderiv ℝ (wf els κ) x) x := ((wf_smooth κ hx).differentiableAt (by simp)).hasFDerivAt
  have e0 : x + (0:ℝ) • v = x := by simp
  have h3 : HasDerivAt (fun t : ℝ => x + t • v) v 0 := by
    have h := ((hasDerivAt_id (0:ℝ)).smul_const v).const_add x
    rwa [one_smul] at h
  have h2 := line_deriv (sysTens_smooth els .rf [a] (by simp)) (fun b => sysTens els .rf [a, b] (toV3 x)) x hx
    (fun b => sys_step els .rf [a] b (by simp) _ hx) v (fun t => x + t • v) 0 h3 e0
  have h4 : HasDerivAt (fun t : ℝ => wf els κ (x + t • v)) (fderiv ℝ (wf els κ) x v) 0 := by
    have h5 : HasFDerivAt (wf els κ) (fderiv ℝ (wf els κ) x) ((fun t : ℝ => x + t • v) 0) := by
      simp only [e0]; exact h1
    exact h5.comp_hasDerivAt 0 h3
  exact ((hasDerivAt_pi.1 h4) a).unique (h2.const_mul κ)

/-- `κ = q / (m l^2)` -/
theorem coeff_sq {m q l : ℝ} (hm : 0 < m) (hq : 0 < q) (hl : 0 < l) : q / (m * l ^ 2) * (2 * (√(q / m) / (2 * l * 1)) ^ 2) = (q / (m * l ^ 2)) ^ 2 / 2 := by
  rw [div_pow, sq_sqrt (by positivity)]
  field_simp

theorem slope_eq {m q l : ℝ} (hm : 0 < m) (hq : 0 < q) (hl : 0 < l) {x : Fin 3 → ℝ} (hx : offSystem els (toV3 x)) (a : Fin 3) :
    q / (m * l ^ 2) * slopeAt (Sys.rfScale ⟨els, none⟩ m q l 1).1 x a
      = gf els (q / (m * l ^ 2)) x a + 1 / 2 * fderiv ℝ (wf els (q / (m * l ^ 2))) x (wf els (q / (m * l ^ 2)) x) a := by
  have hc := coeff_sq hm hq hl
  rw [wf_fderiv _ hx]
  simp only [slopeAt, Sys.rfScale]
  rw [total_split els _ [a] (by simp) _ fun d typ => avail_of_off hx d typ]
  simp only [psT, gf, wf]
  have hs : ∀ j, sysTens els .rf [j, a] (toV3 x) = sysTens els .rf [a, j] (toV3 x) := fun j => by
    unfold sysTens
    exact tens_perm _ _ (List.Perm.swap _ _ _) _
  simp only [hs]
  generalize √(q / m) / (2 * l * 1) = c at hc ⊢
  generalize q / (m * l ^ 2) = κ at hc ⊢
  simp only [Fin.sum_univ_three]
  linear_combination (sysTens els .rf [0] (toV3 x) * sysTens els .rf [a, 0] (toV3 x) + sysTens els .rf [1] (toV3 x) * sysTens els .rf [a, 1] (toV3 x)
    + sysTens els .rf [2] (toV3 x) * sysTens els .rf [a, 2] (toV3 x)) * hc

theorem force_eq (κ Ω t : ℝ) {x : Fin 3 → ℝ} (hx : offSystem els (toV3 x)) :
    (fun a => -κ * timeAt (withRf Ω els) (Ω * t) [a] (toV3 x)) = -gf els κ x - (Ω * cos (Ω * t)) • wf els κ x := by
  funext a
  rw [timeAt_all _ _ _ (by simp) _ ((off_withRf Ω _).2 hx)]
  simp only [dcRf, dc_withRf, rf_withRf, gf, wf, Pi.sub_apply, Pi.neg_apply, Pi.smul_apply, smul_eq_mul]
  ring

theorem norm_le_vlen (x : Fin 3 → ℝ) : ‖x‖ ≤ vlen x := by
  refine (pi_norm_le_iff_of_nonneg (vlen_nonneg x)).2 fun a => ?_
  rw [norm_eq_abs]
  refine abs_le_of_sq_le_sq ?_ (vlen_nonneg x)
  rw [vlen_sq]
  exact Finset.single_le_sum (f := fun a => x a ^ 2) (fun _ _ => sq_nonneg _) (Finset.mem_univ a)

theorem vlen_le_norm (x : Fin 3 → ℝ) : vlen x ≤ 2 * ‖x‖ := by
  refine (sq_le_sq₀ (vlen_nonneg x) (by positivity)).1 ?_
  rw [vlen_sq, Fin.sum_univ_three]
  have h : ∀ a, x a ^ 2 ≤ ‖x‖ ^ 2 := fun a => by
    rw [← sq_abs, ← norm_eq_abs]
    gcongr
    exact norm_le_pi_norm x a
  nlinarith [h 0, h 1, h 2]

theorem drivenPath_mono {κ Ω T T' : ℝ} {x v : ℝ → Fin 3 → ℝ} (hm : DrivenPath els κ Ω T x v) (h : T' ≤ T) : DrivenPath els κ Ω T' x v :=
  ⟨fun t ht => (hm.velocity t ⟨ht.1, ht.2.trans h⟩).mono (Icc_subset_Icc_right h),
    fun t ht => (hm.force t ⟨ht.1, ht.2.trans h⟩).mono (Icc_subset_Icc_right h)⟩

/-- velocity without the micromotion -/
noncomputable def slow (els : List Elec) (κ Ω : ℝ) (x v : ℝ → Fin 3 → ℝ) (t : ℝ) : Fin 3 → ℝ := v t + sin (Ω * t) • wf els κ (x t)

theorem slow_deriv {κ Ω T : ℝ} {x v : ℝ → Fin 3 → ℝ} (hp : DrivenPath (withRf Ω els) κ Ω T x v) (hx : ∀ t ∈ Icc 0 T, offSystem els (toV3 (x t))) :
    ∀ t ∈ Icc 0 T, HasDerivWithinAt (slow els κ Ω x v)
      (-gf els κ (x t) + sin (Ω * t) • fderiv ℝ (wf els κ) (x t) (slow els κ Ω x v t - sin (Ω * t) • wf els κ (x t))) (Icc 0 T) t := by
  intro t ht
  have h1 : HasDerivAt (fun t : ℝ => sin (Ω * t)) (cos (Ω * t) * Ω) t := by
    have h : HasDerivAt (fun t : ℝ => Ω * t) Ω t := by simpa using (hasDerivAt_id t).const_mul Ω
    exact h.sin
  have h2 := ((wf_smooth (els := els) κ (hx t ht)).differentiableAt (by simp)).hasFDerivAt.comp_hasDerivWithinAt t (hp.velocity t ht)
  have h3 := hp.force t ht
  rw [force_eq κ Ω t (hx t ht)] at h3
  have h4 := h3.add (h1.hasDerivWithinAt.smul h2)
  refine h4.congr_deriv ?_
  have e : slow els κ Ω x v t - sin (Ω * t) • wf els κ (x t) = v t := by simp [slow]
  rw [e]
  simp only [Function.comp_apply]
  module

end Drive
open Drive

/-- **C132.** The pseudopotential depends on the rf voltages divided by the frequency only: with both multiplied by `Ω` it is the same. -/
theorem c132_scale (els : List Elec) (m q l Ω : ℝ) (hΩ : Ω ≠ 0) (idx : Idx) (hl : idx.length ≤ 4) (p : V3) (hp : offSystem els p) :
    totalAt (Sys.rfScale ⟨withRf Ω els, none⟩ m q l Ω).1 idx p = totalAt (Sys.rfScale ⟨els, none⟩ m q l 1).1 idx p := by
  simp only [Sys.rfScale]
  rw [total_split _ _ idx hl _ fun d typ => avail_of_off ((off_withRf Ω _).2 hp) d typ, total_split _ _ idx hl _ fun d typ => avail_of_off hp d typ, dc_withRf]
  simp only [rf_withRf]
  have e : ∀ t : ℝ, √(q / m) / (2 * l * Ω) * (Ω * t) = √(q / m) / (2 * l * 1) * t := fun t => by
    by_cases h : l = 0
    · simp [h]
    · field_simp
  simp only [e]

namespace Drive

theorem ionPath_scale {els : List Elec} {m q l Ω κ T : ℝ} (hΩ : Ω ≠ 0) {X U : ℝ → Fin 3 → ℝ} (hX : ∀ t ∈ Icc 0 T, offSystem els (toV3 (X t))) :
    IonPath (Sys.rfScale ⟨withRf Ω els, none⟩ m q l Ω).1 κ T X U ↔ IonPath (Sys.rfScale ⟨els, none⟩ m q l 1).1 κ T X U := by
  have e : ∀ t ∈ Icc 0 T, slopeAt (Sys.rfScale ⟨withRf Ω els, none⟩ m q l Ω).1 (X t) = slopeAt (Sys.rfScale ⟨els, none⟩ m q l 1).1 (X t) := fun t ht =>
    funext fun a => c132_scale els m q l Ω hΩ [a] (by simp) _ (hX t ht)
  constructor
  · exact fun h => ⟨h.velocity, fun t ht => by rw [← e t ht]; exact h.force t ht⟩
  · exact fun h => ⟨h.velocity, fun t ht => by rw [e t ht]; exact h.force t ht⟩

theorem close {els : List Elec} {m q l : ℝ} (hm : 0 < m) (hq : 0 < q) (hl : 0 < l) {K : Set (Fin 3 → ℝ)} (hc : ∀ x ∈ K, offSystem els (toV3 x)) {M : ℝ}
    (hM : Bounds K (gf els (q / (m * l ^ 2))) (wf els (q / (m * l ^ 2))) (fun x => fderiv ℝ (wf els (q / (m * l ^ 2))) x (wf els (q / (m * l ^ 2)) x))
      (fderiv ℝ (wf els (q / (m * l ^ 2)))) (fderiv ℝ (fderiv ℝ (wf els (q / (m * l ^ 2)))))
      (fderiv ℝ fun x => fderiv ℝ (wf els (q / (m * l ^ 2))) x (wf els (q / (m * l ^ 2)) x)) M)
    {Ω T T' n : ℝ} (hΩ : 0 < Ω) (hT : T ≤ T') {x v X U : ℝ → Fin 3 → ℝ} (hx : ∀ t ∈ Icc 0 T, x t ∈ K) (hX : ∀ t ∈ Icc 0 T, X t ∈ K)
    (hp : DrivenPath (withRf Ω els) (q / (m * l ^ 2)) Ω T x v) (hP : IonPath (Sys.rfScale ⟨els, none⟩ m q l 1).1 (q / (m * l ^ 2)) T X U)
    (h0 : x 0 = X 0) (h0' : v 0 = U 0) (hn : ‖v 0‖ ≤ n) :
    (∀ t ∈ Icc 0 T, ‖x t - X t‖ ≤ drift M T' n / Ω ∧ ‖slow els (q / (m * l ^ 2)) Ω x v t - U t‖ ≤ drift M T' n / Ω) ∧ ∀ t ∈ Icc 0 T, ‖v t‖ ≤ speed M T' n + M := by
  set κ := q / (m * l ^ 2) with hκ
  have hy0 : slow els κ Ω x v 0 = v 0 := by simp [slow]
  have hd := slow_deriv hp fun t ht => hc _ (hx t ht)
  constructor
  · refine Aver.average hM hΩ hT (n := n) (y := slow els κ Ω x v) (Y := U) hx hX (fun t ht => ?_) hd hP.velocity (fun t ht => ?_) h0 (by rw [hy0, h0'])
      (by rw [hy0]; exact hn)
    · have e : slow els κ Ω x v t - sin (Ω * t) • wf els κ (x t) = v t := by simp [slow]
      rw [e]
      exact hp.velocity t ht
    · refine (hP.force t ht).congr_deriv ?_
      funext a
      have := slope_eq hm hq hl (hc _ (hX t ht)) a
      rw [← hκ] at this
      simp only [Pi.sub_apply, Pi.neg_apply, Pi.smul_apply, smul_eq_mul]
      linarith
  · intro t ht
    have h1 := Aver.speed_bound hM hT hx (n := n) (y := slow els κ Ω x v) (by rw [hy0]; exact hn) hd t ht
    have e : v t = slow els κ Ω x v t - sin (Ω * t) • wf els κ (x t) := by simp [slow]
    rw [e]
    refine (norm_sub_le _ _).trans (add_le_add h1 ?_)
    rw [norm_smul, norm_eq_abs]
    have := mul_le_mul (abs_sin_le_one (Ω * t)) (hM.nw _ (hx t ht)) (norm_nonneg _) zero_le_one
    linarith

end Drive

/-- **C132.** In a ball off the electrodes and during a fixed time, the position of an ion in the oscillating field differs from that of an ion with
the same start in the combined potential by at most `C / Ω`. The rf voltages are proportional to the frequency `Ω`, such that the pseudopotential
stays the same; `C` does not depend on the frequency, nor on the motion. The velocities differ by that of the micromotion, which has the amplitude
`κ |E_rf| / Ω`, and at most `C / Ω` more. -/
theorem c132_average (els : List Elec) (m q l : ℝ) (hm : 0 < m) (hq : 0 < q) (hl : 0 < l) (x0 : Fin 3 → ℝ) (R T V : ℝ)
    (hc : clearOf ⟨els, none⟩ (rball x0 R)) : ∃ C, ∀ Ω > 0, ∀ x v X U,
      DrivenPath (withRf Ω els) (q / (m * l ^ 2)) Ω T x v → IonPath (Sys.rfScale ⟨withRf Ω els, none⟩ m q l Ω).1 (q / (m * l ^ 2)) T X U →
      x 0 = X 0 → v 0 = U 0 → vlen (v 0) ≤ V → (∀ t ∈ Icc 0 T, x t ∈ rball x0 R) → (∀ t ∈ Icc 0 T, X t ∈ rball x0 R) →
      ∀ t ∈ Icc 0 T, vlen (x t - X t) ≤ C / Ω ∧
        vlen (fun a => v t a + sin (Ω * t) / Ω * (q / (m * l ^ 2) * electricalAt (withRf Ω els) .rf [a] (toV3 (x t))) - U t a) ≤ C / Ω := by
  obtain ⟨M, hM⟩ := bounds_exist (rball_compact x0 R) (rball_convex x0 R) (g := gf els (q / (m * l ^ 2))) (w := wf els (q / (m * l ^ 2)))
    (fun x hx => gf_smooth _ (hc x hx)) (fun x hx => wf_smooth _ (hc x hx))
  refine ⟨2 * drift M T V, fun Ω hΩ x v X U hp hP h0 h0' hV hx hX t ht => ?_⟩
  have hP' := (ionPath_scale hΩ.ne' fun t ht => hc _ (hX t ht)).1 hP
  have := (close hm hq hl hc hM hΩ le_rfl hx hX hp hP' h0 h0' (n := V) ((norm_le_vlen _).trans hV)).1 t ht
  have key : ∀ z : Fin 3 → ℝ, ‖z‖ ≤ drift M T V / Ω → vlen z ≤ 2 * drift M T V / Ω := fun z hz => by
    refine (vlen_le_norm _).trans ?_
    rw [mul_div_assoc]
    linarith
  have e : (fun a => v t a + sin (Ω * t) / Ω * (q / (m * l ^ 2) * electricalAt (withRf Ω els) .rf [a] (toV3 (x t))) - U t a)
      = slow els (q / (m * l ^ 2)) Ω x v t - U t := by
    funext a
    have hx' := hc _ (hx t ht)
    have ha : AvailAll (withRf Ω els) 1 .rf := avail_of_off ((off_withRf Ω _).2 hx') 1 .rf
    rw [electricalAt_eq _ _ [a] (by simp) _ ha, rf_withRf]
    simp only [slow, wf, Pi.add_apply, Pi.sub_apply, Pi.smul_apply, smul_eq_mul]
    field_simp
  rw [e]
  exact ⟨key _ this.1, key _ this.2⟩

namespace Drive

/-- position, velocity and time together -/
noncomputable def drivenFlow (els : List Elec) (κ Ω : ℝ) (z : (Fin 3 → ℝ) × (Fin 3 → ℝ) × ℝ) : (Fin 3 → ℝ) × (Fin 3 → ℝ) × ℝ :=
  (z.2.1, -gf els κ z.1 - (Ω * cos (Ω * z.2.2)) • wf els κ z.1, 1)

theorem drivenFlow_path {els : List Elec} {κ Ω T : ℝ} {γ : ℝ → (Fin 3 → ℝ) × (Fin 3 → ℝ) × ℝ} (h0 : (γ 0).2.2 = 0)
    (hγ : ∀ t ∈ Icc 0 T, HasDerivWithinAt γ (drivenFlow els κ Ω (γ t)) (Icc 0 T) t) : (∀ t ∈ Icc 0 T, (γ t).2.2 = t) ∧
      ∀ t ∈ Icc 0 T, HasDerivWithinAt (fun t => (γ t).1) (γ t).2.1 (Icc 0 T) t ∧
        HasDerivWithinAt (fun t => (γ t).2.1) (-gf els κ (γ t).1 - (Ω * cos (Ω * t)) • wf els κ (γ t).1) (Icc 0 T) t := by
  have h1 : ∀ t ∈ Icc 0 T, HasDerivWithinAt (fun t => (γ t).1) (γ t).2.1 (Icc 0 T) t := fun t ht => (hγ t ht).fst
  have h2 : ∀ t ∈ Icc 0 T, HasDerivWithinAt (fun t => (γ t).2.1) (-gf els κ (γ t).1 - (Ω * cos (Ω * (γ t).2.2)) • wf els κ (γ t).1) (Icc 0 T) t :=
    fun t ht => (hγ t ht).snd.fst
  have h3 : ∀ t ∈ Icc 0 T, HasDerivWithinAt (fun t => (γ t).2.2) 1 (Icc 0 T) t := fun t ht => (hγ t ht).snd.snd
  have h4 : ∀ t ∈ Icc 0 T, HasDerivWithinAt (fun t => (γ t).2.2 - t) 0 (Icc 0 T) t := fun t ht => by
    have := (h3 t ht).sub (hasDerivWithinAt_id t _)
    rw [sub_self] at this
    exact this
  have htime : ∀ t ∈ Icc 0 T, (γ t).2.2 = t := by
    intro t ht
    have := constant_of_has_deriv_right_zero (f := fun t => (γ t).2.2 - t) (a := 0) (b := T) (fun t ht => (h4 t ht).continuousWithinAt)
      (fun t ht => (h4 t ⟨ht.1, ht.2.le⟩).mono_of_mem_nhdsWithin (Icc_mem_nhdsGE_of_mem ht)) t ht
    simp only [h0, sub_zero] at this
    linarith
  refine ⟨htime, fun t ht => ⟨h1 t ht, ?_⟩⟩
  have := h2 t ht
  rwa [htime t ht] at this

theorem drivenFlow_smooth {els : List Elec} (κ Ω : ℝ) (z : (Fin 3 → ℝ) × (Fin 3 → ℝ) × ℝ) (hz : offSystem els (toV3 z.1)) :
    ContDiffAt ℝ 1 (drivenFlow els κ Ω) z := by
  have hg : ContDiffAt ℝ 1 (fun z : (Fin 3 → ℝ) × (Fin 3 → ℝ) × ℝ => gf els κ z.1) z :=
    ContDiffAt.comp (g := gf els κ) z ((gf_smooth κ hz).of_le (by simp)) contDiffAt_fst
  have hw : ContDiffAt ℝ 1 (fun z : (Fin 3 → ℝ) × (Fin 3 → ℝ) × ℝ => wf els κ z.1) z :=
    ContDiffAt.comp (g := wf els κ) z ((wf_smooth κ hz).of_le (by simp)) contDiffAt_fst
  have hcos : ContDiffAt ℝ 1 (fun z : (Fin 3 → ℝ) × (Fin 3 → ℝ) × ℝ => Ω * cos (Ω * z.2.2)) z := by fun_prop
  exact contDiffAt_snd.fst.prodMk ((hg.neg.sub (hcos.smul hw)).prodMk contDiffAt_const)

end Drive

/-- **C132.** If the ion in the combined potential stays in a ball of radius `r < R` during the time `T`, then for all frequencies above some
threshold an ion with the same start exists in the oscillating field for this time as well, and each such ion stays in the ball of radius `R` and closer
than `C / Ω` to the former. -/
theorem c132_stays (els : List Elec) (m q l : ℝ) (hm : 0 < m) (hq : 0 < q) (hl : 0 < l) (x0 : Fin 3 → ℝ) (r R T V : ℝ) (hr : r < R) (hT : 0 ≤ T)
    (hc : clearOf ⟨els, none⟩ (rball x0 R)) : ∃ C, 0 ≤ C ∧ ∀ X U, IonPath (Sys.rfScale ⟨els, none⟩ m q l 1).1 (q / (m * l ^ 2)) T X U →
      vlen (U 0) ≤ V → (∀ t ∈ Icc 0 T, X t ∈ rball x0 r) → ∀ Ω > 0, C < Ω * (R - r) →
      (∃ x v, DrivenPath (withRf Ω els) (q / (m * l ^ 2)) Ω T x v ∧ x 0 = X 0 ∧ v 0 = U 0) ∧
      ∀ x v, DrivenPath (withRf Ω els) (q / (m * l ^ 2)) Ω T x v → x 0 = X 0 → v 0 = U 0 →
        ∀ t ∈ Icc 0 T, x t ∈ rball x0 R ∧ vlen (x t - X t) ≤ C / Ω := by
  obtain ⟨M, hM⟩ := bounds_exist (rball_compact x0 R) (rball_convex x0 R) (g := gf els (q / (m * l ^ 2))) (w := wf els (q / (m * l ^ 2)))
    (fun x hx => gf_smooth _ (hc x hx)) (fun x hx => wf_smooth _ (hc x hx))
  have hM0 : 0 ≤ M := zero_le_one.trans hM.one
  set κ := q / (m * l ^ 2) with hκ
  by_cases hV0 : V < 0
  · refine ⟨0, le_rfl, fun X U _ hU => absurd (vlen_nonneg (U 0)) (by linarith)⟩
  push Not at hV0
  have hC0 : 0 ≤ drift M T V := drift_nonneg hM0 hV0 hT
  refine ⟨2 * drift M T V, by positivity, fun X U hP hV hX Ω hΩ hbig => ?_⟩
  have hXR : ∀ t ∈ Icc 0 T, X t ∈ rball x0 R := fun t ht => (hX t ht).trans hr.le
  have hlen : Continuous fun y => vlen (y - x0) := vlen_continuous.comp (continuous_id.sub continuous_const)
  have hO : IsOpen {y | vlen (y - x0) < R} := isOpen_lt hlen continuous_const
  have hcl : closure {y | vlen (y - x0) < R} ⊆ rball x0 R := closure_lt_subset_le hlen continuous_const
  -- an ion in the oscillating field stays in the ball
  have stay : ∀ T1 ≤ T, ∀ x v, DrivenPath (withRf Ω els) κ Ω T1 x v → x 0 = X 0 → v 0 = U 0 → ∀ t ∈ Icc 0 T1, x t ∈ {y | vlen (y - x0) < R} := by
    intro T1 hT1 x v hp h0 h0'
    refine first_exit hO (fun t ht => (hp.velocity t ht).continuousWithinAt) ?_ fun τ hτ hbef => ?_
    · rw [h0]
      exact lt_of_le_of_lt (hX 0 ⟨le_rfl, hT⟩) hr
    · have h1 := (close (n := V) hm hq hl hc hM hΩ (hτ.2.trans hT1) (fun t ht => hcl (hbef t ht)) (fun t ht => hXR t ⟨ht.1, ht.2.trans (hτ.2.trans hT1)⟩)
        (drivenPath_mono hp hτ.2) (ionPath_mono hP (hτ.2.trans hT1)) h0 h0' (by rw [h0']; exact (norm_le_vlen _).trans hV)).1 τ ⟨hτ.1, le_rfl⟩ |>.1
      have h2 : vlen (x τ - X τ) < R - r := by
        refine lt_of_le_of_lt (vlen_le_norm _) (lt_of_le_of_lt (mul_le_mul_of_nonneg_left h1 zero_le_two) ?_)
        rw [← mul_div_assoc, div_lt_iff₀ hΩ]
        linarith
      have h3 := hX τ ⟨hτ.1, hτ.2.trans hT1⟩
      have h4 := vlen_add (x τ - X τ) (X τ - x0)
      rw [sub_add_sub_cancel] at h4
      have h5 : vlen (X τ - x0) ≤ r := h3
      show vlen _ < R
      linarith
  have near : ∀ T1 ≤ T, ∀ x v, DrivenPath (withRf Ω els) κ Ω T1 x v → x 0 = X 0 → v 0 = U 0 → ∀ t ∈ Icc 0 T1,
      x t ∈ rball x0 R ∧ ‖x t - X t‖ ≤ drift M T V / Ω ∧ ‖v t‖ ≤ speed M T V + M := fun T1 hT1 x v hp h0 h0' t ht => by
    have hx : ∀ t ∈ Icc 0 T1, x t ∈ rball x0 R := fun t ht => show vlen _ ≤ R from le_of_lt (stay T1 hT1 x v hp h0 h0' t ht)
    have h1 := close (n := V) hm hq hl hc hM hΩ hT1 hx (fun t ht => hXR t ⟨ht.1, ht.2.trans hT1⟩) hp (ionPath_mono hP hT1) h0 h0'
      (by rw [h0']; exact (norm_le_vlen _).trans hV)
    exact ⟨hx t ht, (h1.1 t ht).1, h1.2 t ht⟩
  constructor
  · set Cs : Set ((Fin 3 → ℝ) × (Fin 3 → ℝ) × ℝ) := rball x0 R ×ˢ Metric.closedBall 0 (speed M T V + M) ×ˢ Icc 0 T with hCs
    have hCc : IsCompact Cs := (rball_compact x0 R).prod ((isCompact_closedBall _ _).prod isCompact_Icc)
    have hz0 : (X 0, U 0, (0:ℝ)) ∈ Cs := by
      refine ⟨hXR 0 ⟨le_rfl, hT⟩, ?_, le_rfl, hT⟩
      rw [mem_closedBall_zero_iff]
      have h1 : V ≤ speed M T V := by
        have := gronwallBound_mono (δ := V) (ε := M + M * M) hV0 (by positivity) hM0 hT
        rwa [gronwallBound_x0] at this
      linarith [(norm_le_vlen _).trans hV]
    have path : ∀ T1 ≤ T, ∀ γ : ℝ → (Fin 3 → ℝ) × (Fin 3 → ℝ) × ℝ, γ 0 = (X 0, U 0, 0) →
        (∀ t ∈ Icc 0 T1, HasDerivWithinAt γ (drivenFlow els κ Ω (γ t)) (Icc 0 T1) t) →
        DrivenPath (withRf Ω els) κ Ω T1 (fun t => (γ t).1) (fun t => (γ t).2.1) := by
      intro T1 hT1 γ e hγ
      obtain ⟨-, hd⟩ := drivenFlow_path (by rw [e]) hγ
      have hin : ∀ t ∈ Icc 0 T1, (γ t).1 ∈ {y | vlen (y - x0) < R} := by
        refine first_exit hO (fun t ht => (hd t ht).1.continuousWithinAt) ?_ fun τ hτ hbef => ?_
        · rw [e]
          exact lt_of_le_of_lt (hX 0 ⟨le_rfl, hT⟩) hr
        · refine stay τ (hτ.2.trans hT1) (fun t => (γ t).1) (fun t => (γ t).2.1) ⟨fun t ht => ?_, fun t ht => ?_⟩ (by rw [e]) (by rw [e]) τ ⟨hτ.1, le_rfl⟩
          · exact (hd t ⟨ht.1, ht.2.trans hτ.2⟩).1.mono (Icc_subset_Icc_right hτ.2)
          · rw [force_eq κ Ω t (hc _ (hcl (hbef t ht)))]
            exact (hd t ⟨ht.1, ht.2.trans hτ.2⟩).2.mono (Icc_subset_Icc_right hτ.2)
      refine ⟨fun t ht => (hd t ht).1, fun t ht => ?_⟩
      rw [force_eq κ Ω t (hc _ (show vlen _ ≤ R from le_of_lt (hin t ht)))]
      exact (hd t ht).2
    obtain ⟨γ, e, hγ⟩ := extend (f := drivenFlow els κ Ω) hCc (fun z hz => drivenFlow_smooth κ Ω z (hc _ hz.1)) hz0 hT fun T1 hT1 γ e hγ t ht => by
      have h1 := near T1 hT1 _ _ (path T1 hT1 γ e hγ) (by rw [e]) (by rw [e]) t ht
      refine ⟨h1.1, ?_, ?_⟩
      · rw [mem_closedBall_zero_iff]; exact h1.2.2
      · rw [(drivenFlow_path (by rw [e]) hγ).1 t ht]; exact ⟨ht.1, ht.2.trans hT1⟩
    exact ⟨_, _, path T le_rfl γ e hγ, by rw [e], by rw [e]⟩
  · intro x v hp h0 h0' t ht
    have h1 := near T le_rfl x v hp h0 h0' t ht
    refine ⟨h1.1, (vlen_le_norm _).trans ?_⟩
    rw [mul_div_assoc]
    linarith [h1.2.1]

/-- **C132.** Ions are trapped in the oscillating field: around a minimum of the combined potential with positive curvatures, an ion that starts with
little energy stays in the well for any given time, if the frequency is high enough. -/
theorem c132_trapped (els : List Elec) (m q l : ℝ) (hm : 0 < m) (hq : 0 < q) (hl : 0 < l) (x0 : Fin 3 → ℝ) (R : ℝ) (hR : 0 < R)
    (hc : clearOf ⟨els, none⟩ (rball x0 R)) (lam : ℝ) (hlam : 0 < lam) (hs : Stiff (Sys.rfScale ⟨els, none⟩ m q l 1).1 lam (rball x0 R))
    (hg : slopeAt (Sys.rfScale ⟨els, none⟩ m q l 1).1 x0 = 0) (x1 v1 : Fin 3 → ℝ) (h1 : vlen (x1 - x0) < R)
    (hE : energyAt (Sys.rfScale ⟨els, none⟩ m q l 1).1 (q / (m * l ^ 2)) x1 v1
      - q / (m * l ^ 2) * valueAt (Sys.rfScale ⟨els, none⟩ m q l 1).1 x0 < q / (m * l ^ 2) * lam * R ^ 2 / 2) (T : ℝ) (hT : 0 ≤ T) :
    ∃ Ω0 > 0, ∀ Ω ≥ Ω0, (∃ x v, DrivenPath (withRf Ω els) (q / (m * l ^ 2)) Ω T x v ∧ x 0 = x1 ∧ v 0 = v1) ∧
      ∀ x v, DrivenPath (withRf Ω els) (q / (m * l ^ 2)) Ω T x v → x 0 = x1 → v 0 = v1 → ∀ t ∈ Icc 0 T, x t ∈ rball x0 R := by
  have hκ : 0 < q / (m * l ^ 2) := by positivity
  obtain ⟨X, U, hP, e1, e2, hamp⟩ := c131_well els (√(q / m) / (2 * l * 1)) (q / (m * l ^ 2)) hκ x0 R hR hc lam hlam hs hg x1 v1 h1 hE T
  set e := energyAt (Sys.rfScale ⟨els, none⟩ m q l 1).1 (q / (m * l ^ 2)) x1 v1 - q / (m * l ^ 2) * valueAt (Sys.rfScale ⟨els, none⟩ m q l 1).1 x0 with he
  have hamp' : ∀ t ∈ Icc 0 T, vlen (X t - x0) ^ 2 ≤ 2 * e / (q / (m * l ^ 2) * lam) := hamp
  set r := √(2 * e / (q / (m * l ^ 2) * lam)) with hr
  have hrR : r < R := by
    rw [hr, Real.sqrt_lt' hR, div_lt_iff₀ (by positivity)]
    linarith
  obtain ⟨C, hC, hall⟩ := c132_stays els m q l hm hq hl x0 r R T (vlen v1) hrR hT hc
  have hpos : 0 < R - r := by linarith
  refine ⟨C / (R - r) + 1, by positivity, fun Ω hΩ => ?_⟩
  have hΩ0 : 0 < Ω := lt_of_lt_of_le (by positivity) hΩ
  have hbig : C < Ω * (R - r) := by
    rw [← div_lt_iff₀ hpos]
    linarith
  obtain ⟨h2, h3⟩ := hall X U hP (by rw [e2]) (fun t ht => Real.le_sqrt_of_sq_le (hamp' t ht)) Ω hΩ0 hbig
  rw [e1, e2] at h2 h3
  exact ⟨h2, fun x v hp a b t ht => (h3 x v hp a b t ht).1⟩

/-- a moving ion above two pixels is trapped by the oscillating field itself -/
example : ∃ v1 : Fin 3 → ℝ, v1 ≠ 0 ∧ ∃ R > 0, ∀ T ≥ 0, ∃ Ω0 > 0, ∀ Ω ≥ Ω0, ∃ x v, DrivenPath (withRf Ω twoPixels) 4 Ω T x v ∧ x 0 = ![0, 0, 1] ∧ v 0 = v1 ∧
    ∀ t ∈ Icc 0 T, x t ∈ rball ![0, 0, 1] R := by
  obtain ⟨R, lam, hR, hl, hc, hs, hg⟩ := twoPixels_well
  have hsys : (Sys.rfScale ⟨twoPixels, none⟩ 1 4 1 1).1 = ⟨twoPixels, some 1⟩ := by
    have : √(4 : ℝ) = 2 := by rw [show (4 : ℝ) = 2 ^ 2 by norm_num, Real.sqrt_sq (by norm_num)]
    simp [Sys.rfScale, this]
  have hκ : (4 : ℝ) / (1 * 1 ^ 2) = 4 := by norm_num
  set w := √lam * R / 2 with hw
  have hpos : 0 < w := by positivity
  refine ⟨![w, 0, 0], fun h => hpos.ne' (by simpa using congrFun h 0), R, hR, fun T hT => ?_⟩
  obtain ⟨Ω0, h0, h⟩ := c132_trapped twoPixels 1 4 1 one_pos (by norm_num) one_pos ![0, 0, 1] R hR hc lam hl (by rw [hsys]; exact hs) (by rw [hsys]; exact hg)
    ![0, 0, 1] ![w, 0, 0] (by rw [sub_self, (vlen_zero_iff 0).2 rfl]; exact hR) (by
      have h2 : vlen ![w, 0, 0] ^ 2 = lam * R ^ 2 / 4 := by
        rw [vlen_sq, Fin.sum_univ_three]
        simp [hw, div_pow, mul_pow, Real.sq_sqrt hl.le]
        ring
      have : 0 < lam * R ^ 2 := by positivity
      rw [hsys, hκ, energyAt, h2]
      linarith) T hT
  rw [hκ] at h
  refine ⟨Ω0, h0, fun Ω hΩ => ?_⟩
  obtain ⟨⟨x, v, hp, a, b⟩, hall⟩ := h Ω hΩ
  exact ⟨x, v, hp, a, b, hall x v hp a b⟩

end Electrode
