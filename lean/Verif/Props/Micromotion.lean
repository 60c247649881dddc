import Verif.Spec.Micromotion
import Verif.Props.Averaging
import Verif.Props.Expansion
import Verif.Props.RingTrap
import Verif.Props.Limits

/-
C139: an ion is at rest in the oscillating field just where the static and the rf field vanish; elsewhere it has excess micromotion.
-/
namespace Electrode
open Spec Set Real ContDiff
open Rob Mot Aver Drive

namespace Micro

variable {els : List Elec}

theorem grad_eq {typ : VTyp} {x : Fin 3 → ℝ} (hx : offSystem els (toV3 x)) (a : Fin 3) : fieldGrad els typ x a = sysTens els typ [a] (toV3 x) :=
  electricalAt_eq _ _ [a] (by simp) _ (avail_of_off hx 1 typ)

theorem wf_eq (κ : ℝ) {x : Fin 3 → ℝ} (hx : offSystem els (toV3 x)) : wf els κ x = κ • fieldGrad els .rf x := by
  funext a; simp [wf, grad_eq hx]

theorem gf_eq (κ : ℝ) {x : Fin 3 → ℝ} (hx : offSystem els (toV3 x)) : gf els κ x = κ • fieldGrad els .dc x := by
  funext a; simp [gf, grad_eq hx]

theorem force (κ Ω t : ℝ) {x : Fin 3 → ℝ} (hx : offSystem els (toV3 x)) :
    (fun a => -κ * timeAt els (Ω * t) [a] (toV3 x)) = -gf els κ x - cos (Ω * t) • wf els κ x := by
  funext a
  rw [timeAt_all _ _ _ (by simp) _ hx]
  simp only [dcRf, gf, wf, Pi.sub_apply, Pi.neg_apply, Pi.smul_apply, smul_eq_mul]
  ring

theorem ball {x0 : Fin 3 → ℝ} (hx : offSystem els (toV3 x0)) : ∃ R > 0, ∀ y ∈ rball x0 R, offSystem els (toV3 y) := by
  obtain ⟨δ, hδ, hball⟩ := Metric.isOpen_iff.1 (offSystem_open els) x0 hx
  refine ⟨δ / 2, half_pos hδ, fun y hy => hball ?_⟩
  rw [Metric.mem_ball, dist_eq_norm]
  exact lt_of_le_of_lt ((norm_le_vlen _).trans hy) (half_lt_self hδ)

theorem wf_lip {K : Set (Fin 3 → ℝ)} (hK : Convex ℝ K) {κ M : ℝ} {g p : (Fin 3 → ℝ) → Fin 3 → ℝ} {A B P}
    (hM : Bounds K g (wf els κ) p A B P M) {x y : Fin 3 → ℝ} (hx : x ∈ K) (hy : y ∈ K) : ‖wf els κ x - wf els κ y‖ ≤ M * ‖x - y‖ :=
  hK.norm_image_sub_le_of_norm_hasFDerivWithin_le (fun z hz => (hM.hw z hz).hasFDerivWithinAt) hM.nA hy hx

end Micro

open Micro

/-- **C139.** An ion can be at rest in the oscillating field, at a position off the electrodes, if and only if both the static field and the
amplitude of the rf field vanish there. -/
theorem c139_rest (els : List Elec) (κ Ω T : ℝ) (hκ : κ ≠ 0) (hΩ : 0 < Ω) (hT : 0 < T) (x0 : Fin 3 → ℝ) (hx : offSystem els (toV3 x0)) :
    DrivenPath els κ Ω T (fun _ => x0) (fun _ => 0) ↔ fieldGrad els .dc x0 = 0 ∧ fieldGrad els .rf x0 = 0 := by
  have hd : UniqueDiffOn ℝ (Icc 0 T) := uniqueDiffOn_Icc hT
  constructor
  · intro h
    have h1 : ∀ t ∈ Icc 0 T, fieldGrad els .dc x0 + cos (Ω * t) • fieldGrad els .rf x0 = 0 := fun t ht => by
      have h2 := h.force t ht
      rw [force κ Ω t hx, gf_eq κ hx, wf_eq κ hx] at h2
      have h3 := (hd t ht).eq_deriv _ h2 (hasDerivWithinAt_const t _ 0)
      have h4 : κ • (fieldGrad els .dc x0 + cos (Ω * t) • fieldGrad els .rf x0) = 0 := by
        rw [← neg_eq_zero, ← h3]; module
      exact (smul_eq_zero.1 h4).resolve_left hκ
    set s := min T (1 / Ω) with hs
    have hs0 : 0 < s := lt_min hT (by positivity)
    have h5 : 0 < Ω * s := by positivity
    have h6 : Ω * s ≤ 1 := by
      have : s ≤ 1 / Ω := min_le_right _ _
      rwa [le_div_iff₀ hΩ, mul_comm] at this
    have h7 : cos (Ω * s) < 1 := by
      have := Real.cos_lt_cos_of_nonneg_of_le_pi le_rfl (by linarith [Real.pi_gt_three]) h5
      rwa [Real.cos_zero] at this
    have ha := h1 0 ⟨le_rfl, hT.le⟩
    have hb := h1 s ⟨hs0.le, min_le_left _ _⟩
    simp only [mul_zero, Real.cos_zero, one_smul] at ha
    have hc : (1 - cos (Ω * s)) • fieldGrad els .rf x0 = 0 := by
      have : (1 - cos (Ω * s)) • fieldGrad els .rf x0 = (fieldGrad els .dc x0 + fieldGrad els .rf x0) - (fieldGrad els .dc x0 + cos (Ω * s) • fieldGrad els .rf x0) := by module
      rw [this, ha, hb, sub_zero]
    have h8 := (smul_eq_zero.1 hc).resolve_left (by linarith)
    rw [h8, add_zero] at ha
    exact ⟨ha, h8⟩
  · rintro ⟨h1, h2⟩
    refine ⟨fun t _ => hasDerivWithinAt_const t _ _, fun t _ => ?_⟩
    rw [force κ Ω t hx, gf_eq κ hx, wf_eq κ hx, h1, h2]
    simpa using hasDerivWithinAt_const t (Icc 0 T) (0 : Fin 3 → ℝ)

/-- **C139.** An ion that starts there without velocity stays there, at each frequency and for all times. -/
theorem c139_stays (els : List Elec) (κ Ω T : ℝ) (x0 : Fin 3 → ℝ) (hx : offSystem els (toV3 x0)) (hdc : fieldGrad els .dc x0 = 0) (hrf : fieldGrad els .rf x0 = 0)
    (x v : ℝ → Fin 3 → ℝ) (hp : DrivenPath els κ Ω T x v) (h0 : x 0 = x0) (h0' : v 0 = 0) : ∀ t ∈ Icc 0 T, x t = x0 ∧ v t = 0 := by
  obtain ⟨R, hR, hc⟩ := ball hx
  obtain ⟨M, hM⟩ := bounds_exist (rball_compact x0 R) (rball_convex x0 R) (g := gf els κ) (w := wf els κ)
    (fun x hx => gf_smooth _ (hc x hx)) (fun x hx => wf_smooth _ (hc x hx))
  have hM0 : 0 ≤ M := zero_le_one.trans hM.one
  have hm0 : x0 ∈ rball x0 R := center_mem x0 hR
  have hlen : Continuous fun y => vlen (y - x0) := vlen_continuous.comp (continuous_id.sub continuous_const)
  have hO : IsOpen {y | vlen (y - x0) < R} := isOpen_lt hlen continuous_const
  have hcl : closure {y | vlen (y - x0) < R} ⊆ rball x0 R := closure_lt_subset_le hlen continuous_const
  -- as long as the ion is in the ball, it is at rest
  have rest : ∀ τ ≤ T, (∀ t ∈ Icc 0 τ, x t ∈ rball x0 R) → ∀ t ∈ Icc 0 τ, x t = x0 ∧ v t = 0 := by
    intro τ hτ hin
    have hd : ∀ t ∈ Icc 0 τ, HasDerivWithinAt (fun t => (x t - x0, v t)) (v t, -gf els κ (x t) - cos (Ω * t) • wf els κ (x t)) (Icc 0 τ) t := fun t ht => by
      have h1 := (hp.velocity t ⟨ht.1, ht.2.trans hτ⟩).mono (Icc_subset_Icc_right hτ)
      have h2 := (hp.force t ⟨ht.1, ht.2.trans hτ⟩).mono (Icc_subset_Icc_right hτ)
      rw [force κ Ω t (hc _ (hin t ht))] at h2
      exact (h1.sub_const x0).prodMk h2
    have key := norm_le_gronwallBound_of_norm_deriv_right_le (f := fun t => (x t - x0, v t)) (δ := 0) (K := 1 + 2 * M) (ε := 0) (a := 0) (b := τ)
      (fun t ht => (hd t ht).continuousWithinAt)
      (fun t ht => (hd t ⟨ht.1, ht.2.le⟩).mono_of_mem_nhdsWithin (Icc_mem_nhdsGE_of_mem ht)) (by simp [h0, h0']) fun t ht => by
        have hxt := hin t ⟨ht.1, ht.2.le⟩
        have h1 := hM.lg _ hxt _ hm0
        have h2 := wf_lip (rball_convex x0 R) hM hxt hm0
        rw [gf_eq κ hx, hdc, smul_zero, sub_zero] at h1
        rw [wf_eq κ hx, hrf, smul_zero, sub_zero] at h2
        have e1 : ‖x t - x0‖ ≤ ‖(x t - x0, v t)‖ := norm_fst_le (x t - x0, v t)
        have e2 : ‖v t‖ ≤ ‖(x t - x0, v t)‖ := norm_snd_le (x t - x0, v t)
        have e3 : ‖cos (Ω * t) • wf els κ (x t)‖ ≤ ‖wf els κ (x t)‖ := by
          rw [norm_smul, norm_eq_abs]
          exact mul_le_of_le_one_left (norm_nonneg _) (abs_cos_le_one _)
        have e4 : M * ‖x t - x0‖ ≤ M * ‖(x t - x0, v t)‖ := mul_le_mul_of_nonneg_left e1 hM0
        have e5 := norm_sub_le (-gf els κ (x t)) (cos (Ω * t) • wf els κ (x t))
        rw [norm_neg] at e5
        have e6 : 0 ≤ ‖(x t - x0, v t)‖ := norm_nonneg _
        have e7 : 0 ≤ M * ‖(x t - x0, v t)‖ := mul_nonneg hM0 e6
        rw [Prod.norm_mk]
        refine max_le ?_ ?_ <;> nlinarith
    intro t ht
    have h1 := key t ht
    rw [gronwallBound_ε0_δ0, norm_le_zero_iff, Prod.mk_eq_zero] at h1
    exact ⟨sub_eq_zero.1 h1.1, h1.2⟩
  have hin : ∀ t ∈ Icc 0 T, x t ∈ {y | vlen (y - x0) < R} := by
    refine first_exit hO (fun t ht => (hp.velocity t ht).continuousWithinAt) ?_ fun τ hτ hbef => ?_
    · simp [h0, (vlen_zero_iff 0).2 rfl, hR]
    · have := (rest τ hτ.2 (fun t ht => hcl (hbef t ht)) τ ⟨hτ.1, le_rfl⟩).1
      simp [this, (vlen_zero_iff 0).2 rfl, hR]
  exact rest T le_rfl fun t ht => show vlen _ ≤ R from le_of_lt (hin t ht)

/-- **C139.** An ion that starts without velocity at a stationary point of the combined potential moves with the micromotion
`-κ sin(Ω t) grad(V_rf)` of constant amplitude around this point, up to `C / Ω`, for any given time. Its rf voltages are proportional to the frequency,
so the pseudopotential stays the same. -/
theorem c139_micromotion (els : List Elec) (m q l : ℝ) (hm : 0 < m) (hq : 0 < q) (hl : 0 < l) (x1 : Fin 3 → ℝ) (hx : offSystem els (toV3 x1))
    (hg : slopeAt (Sys.rfScale ⟨els, none⟩ m q l 1).1 x1 = 0) (T : ℝ) (hT : 0 ≤ T) :
    ∃ C ≥ 0, ∃ Ω0 > 0, ∀ Ω ≥ Ω0, (∃ x v, DrivenPath (withRf Ω els) (q / (m * l ^ 2)) Ω T x v ∧ x 0 = x1 ∧ v 0 = 0) ∧
      ∀ x v, DrivenPath (withRf Ω els) (q / (m * l ^ 2)) Ω T x v → x 0 = x1 → v 0 = 0 → ∀ t ∈ Icc 0 T, offSystem els (toV3 (x t)) ∧
        vlen (x t - x1) ≤ C / Ω ∧ vlen (v t + sin (Ω * t) • (q / (m * l ^ 2)) • fieldGrad els .rf x1) ≤ C / Ω := by
  obtain ⟨R, hR, hc⟩ := ball hx
  obtain ⟨M, hM⟩ := bounds_exist (rball_compact x1 R) (rball_convex x1 R) (g := gf els (q / (m * l ^ 2))) (w := wf els (q / (m * l ^ 2)))
    (fun x hx => gf_smooth _ (hc x hx)) (fun x hx => wf_smooth _ (hc x hx))
  have hM0 : 0 ≤ M := zero_le_one.trans hM.one
  have hm1 : x1 ∈ rball x1 R := center_mem x1 hR
  obtain ⟨C, hC, hall⟩ := c132_stays els m q l hm hq hl x1 0 R T 0 hR hT hc
  have hP : IonPath (Sys.rfScale ⟨els, none⟩ m q l 1).1 (q / (m * l ^ 2)) T (fun _ => x1) (fun _ => 0) := by
    refine ⟨fun t _ => hasDerivWithinAt_const t _ _, fun t _ => ?_⟩
    simp only [hg, Pi.zero_apply, mul_zero]
    exact hasDerivWithinAt_const t _ _
  have hD0 : 0 ≤ drift M T 0 := drift_nonneg hM0 le_rfl hT
  refine ⟨2 * (1 + M) * drift M T 0, by positivity, C / R + 1, by positivity, fun Ω hΩ => ?_⟩
  have hΩ0 : 0 < Ω := lt_of_lt_of_le (by positivity) hΩ
  have hbig : C < Ω * (R - 0) := by
    rw [sub_zero, ← div_lt_iff₀ hR]
    linarith
  have hz : vlen (0 : Fin 3 → ℝ) = 0 := (vlen_zero_iff 0).2 rfl
  obtain ⟨h1, h2⟩ := hall (fun _ => x1) (fun _ => 0) hP hz.le (fun t _ => by show vlen _ ≤ _; rw [sub_self, hz]) Ω hΩ0 hbig
  refine ⟨h1, fun x v hp h0 h0' t ht => ?_⟩
  have hxR : ∀ t ∈ Icc 0 T, x t ∈ rball x1 R := fun t ht => (h2 x v hp h0 h0' t ht).1
  have h3 := (close (n := 0) hm hq hl hc hM hΩ0 le_rfl hxR (fun _ _ => hm1) hp hP h0 h0' (by rw [h0', norm_zero])).1 t ht
  have hq0 : 0 ≤ drift M T 0 / Ω := by positivity
  refine ⟨hc _ (hxR t ht), (vlen_le_norm _).trans ?_, (vlen_le_norm _).trans ?_⟩
  · have : 2 * (1 + M) * drift M T 0 / Ω = 2 * (drift M T 0 / Ω) + 2 * (M * (drift M T 0 / Ω)) := by ring
    rw [this]
    have := mul_nonneg hM0 hq0
    linarith [h3.1]
  · rw [← wf_eq _ hx]
    have e : v t + sin (Ω * t) • wf els (q / (m * l ^ 2)) x1
        = (slow els (q / (m * l ^ 2)) Ω x v t - 0) - sin (Ω * t) • (wf els (q / (m * l ^ 2)) (x t) - wf els (q / (m * l ^ 2)) x1) := by
      simp only [slow]; module
    have h4 := wf_lip (rball_convex x1 R) hM (hxR t ht) hm1
    have h5 : ‖sin (Ω * t) • (wf els (q / (m * l ^ 2)) (x t) - wf els (q / (m * l ^ 2)) x1)‖ ≤ M * (drift M T 0 / Ω) := by
      rw [norm_smul, norm_eq_abs]
      exact (mul_le_of_le_one_left (norm_nonneg _) (abs_sin_le_one _)).trans (h4.trans (mul_le_mul_of_nonneg_left h3.1 hM0))
    have h6 := norm_sub_le (slow els (q / (m * l ^ 2)) Ω x v t - 0) (sin (Ω * t) • (wf els (q / (m * l ^ 2)) (x t) - wf els (q / (m * l ^ 2)) x1))
    rw [e]
    have : 2 * (1 + M) * drift M T 0 / Ω = 2 * (drift M T 0 / Ω + M * (drift M T 0 / Ω)) := by ring
    rw [this]
    linarith [h3.2]

/-- **C139.** The micromotion of such an ion vanishes for high frequencies if and only if the amplitude of the rf field vanishes at the stationary
point. -/
theorem c139_compensated (els : List Elec) (m q l : ℝ) (hm : 0 < m) (hq : 0 < q) (hl : 0 < l) (x1 : Fin 3 → ℝ) (hx : offSystem els (toV3 x1))
    (hg : slopeAt (Sys.rfScale ⟨els, none⟩ m q l 1).1 x1 = 0) (T : ℝ) (hT : 0 < T) :
    (∃ C, ∃ Ω0 > 0, ∀ Ω ≥ Ω0, ∀ x v, DrivenPath (withRf Ω els) (q / (m * l ^ 2)) Ω T x v → x 0 = x1 → v 0 = 0 → ∀ t ∈ Icc 0 T, vlen (v t) ≤ C / Ω)
      ↔ fieldGrad els .rf x1 = 0 := by
  have hκ : 0 < q / (m * l ^ 2) := by positivity
  obtain ⟨C, hC, Ω0, hΩ0, h⟩ := c139_micromotion els m q l hm hq hl x1 hx hg T hT.le
  constructor
  · rintro ⟨C', Ω0', hΩ0', h'⟩
    have key : ∀ Ω ≥ max (max Ω0 Ω0') (2 / T), vlen ((q / (m * l ^ 2)) • fieldGrad els .rf x1) ≤ (C + C') / Ω := fun Ω hΩ => by
      have h1 : Ω0 ≤ Ω := (le_max_left _ _).trans ((le_max_left _ _).trans hΩ)
      have h2 : Ω0' ≤ Ω := (le_max_right _ _).trans ((le_max_left _ _).trans hΩ)
      have h3 : 2 / T ≤ Ω := (le_max_right _ _).trans hΩ
      have hpos : 0 < Ω := hΩ0.trans_le h1
      have ht : π / (2 * Ω) ∈ Icc 0 T := by
        refine ⟨by positivity, ?_⟩
        rw [div_le_iff₀ hT] at h3
        rw [div_le_iff₀ (by positivity)]
        nlinarith [Real.pi_le_four]
      obtain ⟨x, v, hp, a, b⟩ := (h Ω h1).1
      have e1 := ((h Ω h1).2 x v hp a b _ ht).2.2
      have e2 := h' Ω h2 x v hp a b _ ht
      rw [show Ω * (π / (2 * Ω)) = π / 2 by field_simp, Real.sin_pi_div_two, one_smul] at e1
      have e3 := vlen_add (v (π / (2 * Ω)) + (q / (m * l ^ 2)) • fieldGrad els .rf x1) (-v (π / (2 * Ω)))
      rw [vlen_neg, add_neg_cancel_comm] at e3
      rw [add_div]
      linarith
    by_contra hne
    have hv : 0 < vlen ((q / (m * l ^ 2)) • fieldGrad els .rf x1) := by
      refine lt_of_le_of_ne (vlen_nonneg _) fun h0 => hne ?_
      exact (smul_eq_zero.1 ((vlen_zero_iff _).1 h0.symm)).resolve_left hκ.ne'
    set w := vlen ((q / (m * l ^ 2)) • fieldGrad els .rf x1) with hw
    set Ω := max (max (max Ω0 Ω0') (2 / T)) ((|C + C'| + 1) / w) with hΩ
    have h1 := key Ω (le_max_left _ _)
    have hpos : 0 < Ω := lt_of_lt_of_le (by positivity) (le_max_right _ _)
    have h2 : (|C + C'| + 1) / w ≤ Ω := le_max_right _ _
    rw [div_le_iff₀ hv] at h2
    rw [le_div_iff₀ hpos] at h1
    linarith [le_abs_self (C + C'), mul_comm w Ω]
  · intro h0
    refine ⟨C, Ω0, hΩ0, fun Ω hΩ x v hp a b t ht => ?_⟩
    have := ((h Ω hΩ).2 x v hp a b t ht).2.2
    simpa [h0] using this

namespace Micro

/-- the rf field grows linearly with the distance from a point without rf field -/
theorem near {els : List Elec} {c : ℝ} {K : Set (Fin 3 → ℝ)} (hK : Convex ℝ K) (hc : clearOf ⟨els, some c⟩ K) {x0 x1 : Fin 3 → ℝ} (h0 : x0 ∈ K) (h1 : x1 ∈ K)
    (hrf0 : fieldGrad els .rf x0 = 0) {B : ℝ} (hB : ∀ x ∈ K, ∀ a b : Fin 3, |electricalAt els .rf [a, b] (toV3 x)| ≤ B) :
    vlen (fieldGrad els .rf x1) ≤ 3 * B * vlen (x1 - x0) := by
  have hB0 : 0 ≤ B := (abs_nonneg _).trans (hB x0 h0 0 0)
  have hin : ∀ t ∈ Icc (0 : ℝ) 1, x0 + t • (x1 - x0) ∈ K := fun t ht => seg hK h0 h1 ht.1 ht.2
  have h2 : ∀ a, |fieldGrad els .rf x1 a| ≤ B * ∑ b, |(x1 - x0) b| := fun a => by
    have := c135_electrical els .rf [a] 0 (by simp) x0 (x1 - x0) (fun t ht => hc _ (hin t ht)) B (fun t ht i hi => by
      match i, hi with
      | [b, d], _ => exact hB _ (hin t ht) b d)
    simp only [add_sub_cancel, expansion] at this
    have e : electricalAt els .rf [a] (toV3 x0) = 0 := congrFun hrf0 a
    simpa [e, fieldGrad] using this
  have habs : (∑ b, |(x1 - x0) b|) ^ 2 ≤ 3 * vlen (x1 - x0) ^ 2 := by
    rw [vlen_sq, Fin.sum_univ_three, Fin.sum_univ_three, ← sq_abs ((x1 - x0) 0), ← sq_abs ((x1 - x0) 1), ← sq_abs ((x1 - x0) 2)]
    nlinarith [sq_nonneg (|(x1 - x0) 0| - |(x1 - x0) 1|), sq_nonneg (|(x1 - x0) 0| - |(x1 - x0) 2|), sq_nonneg (|(x1 - x0) 1| - |(x1 - x0) 2|)]
  refine (sq_le_sq₀ (vlen_nonneg _) (mul_nonneg (by positivity) (vlen_nonneg _))).1 ?_
  rw [vlen_sq]
  have h4 : ∀ a, fieldGrad els .rf x1 a ^ 2 ≤ (B * ∑ b, |(x1 - x0) b|) ^ 2 := fun a => by
    rw [← sq_abs]
    exact pow_le_pow_left₀ (abs_nonneg _) (h2 a) 2
  calc ∑ a, fieldGrad els .rf x1 a ^ 2 ≤ ∑ _a : Fin 3, (B * ∑ b, |(x1 - x0) b|) ^ 2 := Finset.sum_le_sum fun a _ => h4 a
    _ = 3 * B ^ 2 * (∑ b, |(x1 - x0) b|) ^ 2 := by simp; ring
    _ ≤ 3 * B ^ 2 * (3 * vlen (x1 - x0) ^ 2) := by gcongr
    _ = _ := by ring

theorem rf_same {els els' : List Elec} {δ : ℝ} (hd : List.Forall₂ (nearVoltage .dc δ) els els') (hr : List.Forall₂ (fun e e' => e'.rf = e.rf) els els')
    (l : Idx) (p : V3) : sysTens els' .rf l p = sysTens els .rf l p := by
  simp only [sysTens_eq]
  congr 1
  induction hd with
  | nil => rfl
  | cons a _ ih =>
    cases hr with
    | cons b hr => rw [List.map_cons, List.map_cons, ih hr, a.1]; simp only [Elec.voltD, Elec.volt, b]

end Micro

/-- **C139.** A static field error moves the ion off the point without rf field. If the potential curves upwards by at least `lam` in a region, the
forces of both traps differ by at most `ε`, and the second derivatives of the rf potential are at most `B` there, then the amplitude of the rf
field at the new stationary point is at most `3 B ε / lam`; times `κ` this is the velocity of the excess micromotion. -/
theorem c139_stray (els els' : List Elec) (c c' : ℝ) (K : Set (Fin 3 → ℝ)) (hK : Convex ℝ K) (hc : clearOf ⟨els, some c⟩ K) (lam : ℝ) (hl : 0 < lam)
    (hs : Stiff ⟨els, some c⟩ lam K) (x0 x1 : Fin 3 → ℝ) (h0 : x0 ∈ K) (h1 : x1 ∈ K) (hg : slopeAt ⟨els, some c⟩ x0 = 0)
    (hg' : slopeAt ⟨els', some c'⟩ x1 = 0) (hrf0 : fieldGrad els .rf x0 = 0) (hrf : fieldGrad els' .rf x1 = fieldGrad els .rf x1) (ε B : ℝ)
    (he : vlen (slopeAt ⟨els, some c⟩ x1 - slopeAt ⟨els', some c'⟩ x1) ≤ ε) (hB : ∀ x ∈ K, ∀ a b : Fin 3, |electricalAt els .rf [a, b] (toV3 x)| ≤ B) :
    vlen (fieldGrad els' .rf x1) ≤ 3 * B * (ε / lam) := by
  have hd := (c130_shift els els' c c' K hK hc lam hl hs x0 x1 h0 h1 hg hg').trans (div_le_div_of_nonneg_right he hl.le)
  have hB0 : 0 ≤ B := (abs_nonneg _).trans (hB x0 h0 0 0)
  rw [hrf]
  exact (near hK hc h0 h1 hrf0 hB).trans (by gcongr)

/-- **C139.** Errors of the dc voltages of at most `δ` in a trap of polygons that do not overlap, with rf voltages of at most `V`: a minimum remains in
the ball, and the amplitude of the rf field there is at most `216 V δ / (z0^3 lam)`. -/
theorem c139_voltages (els els' : List Elec) (h : ℝ) (ht : polygonTrap h 0 els) (hs : separate els) (δ : ℝ) (h0 : 0 ≤ δ)
    (hd : List.Forall₂ (nearVoltage .dc δ) els els') (hr : List.Forall₂ (fun e e' => e'.rf = e.rf) els els') (V : ℝ) (hV0 : 0 ≤ V) (hV : ∀ e ∈ els, |e.rf| ≤ V)
    (c : ℝ) (x0 : Fin 3 → ℝ) (R : ℝ) (hR : 0 < R) (z0 : ℝ) (hz : 0 < z0) (hz0 : ∀ x ∈ rball x0 R, z0 ≤ x 2) (lam : ℝ) (hl : 0 < lam)
    (hst : Stiff ⟨els, some c⟩ lam (rball x0 R)) (hg : slopeAt ⟨els, some c⟩ x0 = 0) (hrf0 : fieldGrad els .rf x0 = 0) (hδ : 2 * δ / z0 < lam * R) :
    (∃ x1 ∈ rball x0 R, slopeAt ⟨els', some c⟩ x1 = 0 ∧ ∀ y ∈ rball x0 R, valueAt ⟨els', some c⟩ x1 ≤ valueAt ⟨els', some c⟩ y) ∧
      ∀ x1 ∈ rball x0 R, slopeAt ⟨els', some c⟩ x1 = 0 → vlen (fieldGrad els' .rf x1) ≤ 216 * V * δ / (z0 ^ 3 * lam) := by
  obtain ⟨h1, h2⟩ := c133_minimum els els' h ht hs δ h0 hd hr c x0 R hR z0 hz hz0 lam hl hst hg hδ
  refine ⟨h1, fun x1 hx1 hs1 => ?_⟩
  have hoff : ∀ x ∈ rball x0 R, offPlanes h 0 (toV3 x) := fun x hx => Limit.images_ne (p := toV3 x) (hz.trans_le (hz0 x hx)) (.inl rfl)
  have hc : clearOf ⟨els, some c⟩ (rball x0 R) := fun x hx => Limit.trap_off ht (hoff x hx)
  have e : fieldGrad els' .rf x1 = fieldGrad els .rf x1 := by
    funext a
    rw [grad_eq (Limit.trap_off (Limit.differ_trap hd ht).1 (hoff x1 hx1)), grad_eq (hc x1 hx1), rf_same hd hr]
  have hm := Limit.map_bound els .rf hV0 (fun e he => by simpa [Elec.volt] using hV e he) hs
  have hB : ∀ x ∈ rball x0 R, ∀ a b : Fin 3, |electricalAt els .rf [a, b] (toV3 x)| ≤ 36 * V / z0 ^ 2 := fun x hx a b => by
    refine (c133_derivatives els h 0 ht .rf V hm [a, b] (by simp) (by simp) (toV3 x) (hoff x hx)).trans ?_
    have hzx : z0 ≤ (toV3 x).z := hz0 x hx
    simp only [Nat.cast_zero, neg_zero, Finset.Icc_self, Finset.sum_singleton, Int.cast_zero, mul_zero, zero_mul, add_zero, abs_of_pos (hz.trans_le hzx),
      List.length_cons, List.length_nil, zero_add, Nat.reduceAdd, List.getD_cons_succ, List.getD_cons_zero]
    rw [show (2 * 18 * V : ℝ) = 36 * V by ring]
    gcongr
  rw [e]
  refine (near (rball_convex x0 R) hc (center_mem x0 hR) hx1 hrf0 hB).trans ?_
  calc 3 * (36 * V / z0 ^ 2) * vlen (x1 - x0) ≤ 3 * (36 * V / z0 ^ 2) * (2 * δ / (z0 * lam)) := by gcongr; exact h2 x1 hx1 hs1
    _ = _ := by field_simp; ring

/-- Above the centre of the ring trap an ion is at rest in the oscillating field. -/
example (T : ℝ) (hT : 0 < T) : DrivenPath Ring.trap 1 3 T (fun _ => ![0, 0, 7]) (fun _ => 0) := by
  have e : ∀ typ, fieldGrad Ring.trap typ ![0, 0, 7] = fun a => sysTens Ring.trap typ [a] ⟨0, 0, 7⟩ := fun typ => funext fun a => grad_eq Ring.trap_off7 a
  refine (c139_rest Ring.trap 1 3 T one_ne_zero (by norm_num) hT ![0, 0, 7] Ring.trap_off7).2 ⟨?_, ?_⟩
  · rw [e]; exact funext fun a => Ring.trap_dc _ _
  · rw [e]; exact funext fun a => Ring.trap_tens1 a

/-- The hypotheses of `c139_compensated` are met: an ion above the centre of the ring trap has no micromotion. -/
example (T : ℝ) (hT : 0 < T) : ∃ C, ∃ Ω0 > 0, ∀ Ω ≥ Ω0, ∀ x v, DrivenPath (withRf Ω Ring.trap) 4 Ω T x v → x 0 = ![0, 0, 7] → v 0 = 0 →
    ∀ t ∈ Icc 0 T, vlen (v t) ≤ C / Ω := by
  have hsys : (Sys.rfScale ⟨Ring.trap, none⟩ 1 4 1 1).1 = ⟨Ring.trap, some 1⟩ := by
    have : √(4 : ℝ) = 2 := by rw [show (4 : ℝ) = 2 ^ 2 by norm_num, Real.sqrt_sq (by norm_num)]
    simp [Sys.rfScale, this]
  have hκ : (4 : ℝ) / (1 * 1 ^ 2) = 4 := by norm_num
  have := (c139_compensated Ring.trap 1 4 1 one_pos (by norm_num) one_pos ![0, 0, 7] Ring.trap_off7 (by rw [hsys]; exact Ring.trap_slope 1) T hT).2
    (funext fun a => (grad_eq Ring.trap_off7 a).trans (Ring.trap_tens1 a))
  rwa [hκ] at this

/-- The hypotheses of `c139_voltages` are met: small dc voltages on the electrodes of the ring trap. -/
example : ∃ R lam, 0 < R ∧ 0 < lam ∧ ∀ δ u v : ℝ, 0 ≤ δ → 2 * δ / 6 < lam * R → |u| ≤ δ → |v| ≤ δ →
    let els' : List Elec := [⟨"ring", u, 748, .polygons [Ring.sq 6, Ring.hole 4] 50 0⟩, ⟨"centre", v, -305, .polygons [Ring.sq 4] 50 0⟩]
    ∃ x1, slopeAt ⟨els', some 1⟩ x1 = 0 ∧ vlen (fieldGrad els' .rf x1) ≤ 748 * δ / lam := by
  obtain ⟨R, lam, hR, hl, h1, -, hst, hg⟩ := Ring.trap_well
  refine ⟨R, lam, hR, hl, fun δ u v h0 hδ hu hv => ?_⟩
  intro els'
  have hz : ∀ x ∈ rball ![0, 0, 7] R, 6 ≤ x 2 := fun x hx => by
    have h2 : vlen (x - ![0, 0, 7]) ≤ 1 := (show vlen _ ≤ R from hx).trans h1
    have h4 := (abs_le.1 ((Ring.abs_le_vlen (x - ![0, 0, 7]) 2).trans h2)).1
    simp at h4
    linarith
  have hrf : fieldGrad Ring.trap .rf ![0, 0, 7] = 0 := funext fun a => (grad_eq Ring.trap_off7 a).trans (Ring.trap_tens1 a)
  obtain ⟨⟨x1, hx1, hs, -⟩, hb⟩ := c139_voltages Ring.trap els' 50 Ring.trap_is Ring.trap_separate δ h0
    (.cons ⟨rfl, by simpa [Elec.volt] using hu⟩ (.cons ⟨rfl, by simpa [Elec.volt] using hv⟩ .nil)) (.cons rfl (.cons rfl .nil)) 748 (by norm_num)
    (fun e he => by
      simp only [Ring.trap, List.mem_cons, List.not_mem_nil, or_false] at he
      rcases he with rfl | rfl <;> norm_num)
    1 ![0, 0, 7] R hR 6 (by norm_num) hz lam hl hst hg hrf hδ
  refine ⟨x1, hs, (hb x1 hx1 hs).trans (le_of_eq ?_)⟩
  field_simp
  ring

end Electrode
