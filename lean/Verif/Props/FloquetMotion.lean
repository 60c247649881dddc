import Verif.Spec.FloquetMotion
import Verif.Props.Micromotion
import Verif.Props.Modes

/-
C140: the modes of `mathieu` are those of the motion in the oscillating field.
-/
namespace Electrode
open Spec Set Real ContDiff
open Rob Mot Aver Drive Micro

namespace Flo

theorem withRf_inv (els : List Elec) {o : ℝ} (ho : o ≠ 0) : withRf o (withRf o⁻¹ els) = els := by
  simp [withRf, Function.comp_def, ho]

/-- an ion exists for the time `T` if it cannot leave the ball in this time -/
theorem exists_driven {els : List Elec} {κ o : ℝ} (ho : o ≠ 0) {x0 : Fin 3 → ℝ} {R S T : ℝ} (hc : ∀ y ∈ rball x0 R, offSystem els (toV3 y)) (hT : 0 ≤ T)
    {x1 v1 : Fin 3 → ℝ} (h1 : vlen (x1 - x0) < R) (hv1 : ‖v1‖ ≤ S)
    (stay : ∀ T1 ≤ T, ∀ x v, DrivenPath els κ o T1 x v → x 0 = x1 → v 0 = v1 → ∀ t ∈ Icc 0 T1, vlen (x t - x0) < R ∧ ‖v t‖ ≤ S) :
    ∃ x v, DrivenPath els κ o T x v ∧ x 0 = x1 ∧ v 0 = v1 := by
  obtain ⟨els, rfl⟩ : ∃ e, els = withRf o e := ⟨_, (withRf_inv els ho).symm⟩
  have hc' : ∀ y ∈ rball x0 R, offSystem els (toV3 y) := fun y hy => (off_withRf o _).1 (hc y hy)
  have hlen : Continuous fun y => vlen (y - x0) := vlen_continuous.comp (continuous_id.sub continuous_const)
  have hO : IsOpen {y | vlen (y - x0) < R} := isOpen_lt hlen continuous_const
  have hcl : closure {y | vlen (y - x0) < R} ⊆ rball x0 R := closure_lt_subset_le hlen continuous_const
  set Cs : Set ((Fin 3 → ℝ) × (Fin 3 → ℝ) × ℝ) := rball x0 R ×ˢ Metric.closedBall 0 S ×ˢ Icc 0 T with hCs
  have hCc : IsCompact Cs := (rball_compact x0 R).prod ((isCompact_closedBall _ _).prod isCompact_Icc)
  have hz0 : (x1, v1, (0:ℝ)) ∈ Cs := by
    refine ⟨show vlen _ ≤ R from h1.le, ?_, le_rfl, hT⟩
    rw [mem_closedBall_zero_iff]
    exact hv1
  have path : ∀ T1 ≤ T, ∀ γ : ℝ → (Fin 3 → ℝ) × (Fin 3 → ℝ) × ℝ, γ 0 = (x1, v1, 0) →
      (∀ t ∈ Icc 0 T1, HasDerivWithinAt γ (drivenFlow els κ o (γ t)) (Icc 0 T1) t) →
      DrivenPath (withRf o els) κ o T1 (fun t => (γ t).1) (fun t => (γ t).2.1) := by
    intro T1 hT1 γ e hγ
    obtain ⟨-, hd⟩ := drivenFlow_path (by rw [e]) hγ
    have hin : ∀ t ∈ Icc 0 T1, (γ t).1 ∈ {y | vlen (y - x0) < R} := by
      refine first_exit hO (fun t ht => (hd t ht).1.continuousWithinAt) ?_ fun τ hτ hbef => ?_
      · rw [e]; exact h1
      · refine (stay τ (hτ.2.trans hT1) (fun t => (γ t).1) (fun t => (γ t).2.1) ⟨fun t ht => ?_, fun t ht => ?_⟩ (by rw [e]) (by rw [e]) τ ⟨hτ.1, le_rfl⟩).1
        · exact (hd t ⟨ht.1, ht.2.trans hτ.2⟩).1.mono (Icc_subset_Icc_right hτ.2)
        · rw [force_eq κ o t (hc' _ (hcl (hbef t ht)))]
          exact (hd t ⟨ht.1, ht.2.trans hτ.2⟩).2.mono (Icc_subset_Icc_right hτ.2)
    refine ⟨fun t ht => (hd t ht).1, fun t ht => ?_⟩
    rw [force_eq κ o t (hc' _ (show vlen _ ≤ R from le_of_lt (hin t ht)))]
    exact (hd t ht).2
  obtain ⟨γ, e, hγ⟩ := extend (f := drivenFlow els κ o) hCc (fun z hz => drivenFlow_smooth κ o z (hc' _ hz.1)) hz0 hT fun T1 hT1 γ e hγ t ht => by
    have h1 := stay T1 hT1 _ _ (path T1 hT1 γ e hγ) (by rw [e]) (by rw [e]) t ht
    refine ⟨show vlen _ ≤ R from h1.1.le, ?_, ?_⟩
    · rw [mem_closedBall_zero_iff]; exact h1.2
    · rw [(drivenFlow_path (by rw [e]) hγ).1 t ht]; exact ⟨ht.1, ht.2.trans hT1⟩
  exact ⟨_, _, path T le_rfl γ e hγ, by rw [e], by rw [e]⟩

/-- the force at the phase `o t` -/
noncomputable def ff (els : List Elec) (κ o t : ℝ) (x : Fin 3 → ℝ) : Fin 3 → ℝ := fun a => -κ * timeAt els (o * t) [a] (toV3 x)

theorem time_eq (els : List Elec) (φ : ℝ) (l : Idx) (hl : l.length < 6) {x : Fin 3 → ℝ} (hx : offSystem els (toV3 x)) :
    timeAt els φ l (toV3 x) = electricalAt els .dc l (toV3 x) + cos φ * electricalAt els .rf l (toV3 x) := by
  rw [timeAt_all _ _ _ hl _ hx, electricalAt_eq _ _ l hl _ (avail_of_off hx _ _), electricalAt_eq _ _ l hl _ (avail_of_off hx _ _)]
  simp [dcRf]

theorem abs_sum_le (d : Fin 3 → ℝ) : ∑ a, |d a| ≤ 3 * ‖d‖ := by
  have : ∀ a, |d a| ≤ ‖d‖ := fun a => by rw [← norm_eq_abs]; exact norm_le_pi_norm d a
  rw [Fin.sum_univ_three]
  linarith [this 0, this 1, this 2]

theorem abs_sum_sq (d : Fin 3 → ℝ) : (∑ a, |d a|) ^ 2 ≤ 3 * vlen d ^ 2 := by
  rw [vlen_sq, Fin.sum_univ_three, Fin.sum_univ_three, ← sq_abs (d 0), ← sq_abs (d 1), ← sq_abs (d 2)]
  nlinarith [sq_nonneg (|d 0| - |d 1|), sq_nonneg (|d 0| - |d 2|), sq_nonneg (|d 1| - |d 2|)]

variable {els : List Elec} {κ o : ℝ} {x0 : Fin 3 → ℝ} {R B M : ℝ}

theorem ff_lip (hκ : 0 ≤ κ) (hc : ∀ y ∈ rball x0 R, offSystem els (toV3 y))
    (hB : ∀ y ∈ rball x0 R, ∀ a b : Fin 3, |electricalAt els .dc [a, b] (toV3 y)| ≤ B ∧ |electricalAt els .rf [a, b] (toV3 y)| ≤ B)
    (t : ℝ) {x y : Fin 3 → ℝ} (hx : x ∈ rball x0 R) (hy : y ∈ rball x0 R) : ‖ff els κ o t y - ff els κ o t x‖ ≤ 6 * κ * B * ‖y - x‖ := by
  have hB0 : 0 ≤ B := (abs_nonneg _).trans (hB x hx 0 0).1
  have hin : ∀ s ∈ Icc (0 : ℝ) 1, x + s • (y - x) ∈ rball x0 R := fun s hs => seg (rball_convex x0 R) hx hy hs.1 hs.2
  refine (pi_norm_le_iff_of_nonneg (by positivity)).2 fun a => ?_
  have key : ∀ typ, (typ = .dc ∨ typ = .rf) → |electricalAt els typ [a] (toV3 y) - electricalAt els typ [a] (toV3 x)| ≤ B * (3 * ‖y - x‖) := fun typ ht => by
    have := c135_electrical els typ [a] 0 (by simp) x (y - x) (fun s hs => hc _ (hin s hs)) B (fun s hs i hi => by
      match i, hi with
      | [b, d], _ => rcases ht with rfl | rfl; exact (hB _ (hin s hs) b d).1; exact (hB _ (hin s hs) b d).2)
    simp only [add_sub_cancel, expansion] at this
    have h2 : |electricalAt els typ [a] (toV3 y) - electricalAt els typ [a] (toV3 x)| ≤ B * ∑ b, |(y - x) b| := by simpa using this
    exact h2.trans (mul_le_mul_of_nonneg_left (abs_sum_le _) hB0)
  have h1 := key .dc (.inl rfl)
  have h2 := key .rf (.inr rfl)
  simp only [ff, Pi.sub_apply]
  rw [time_eq els _ [a] (by simp) (hc y hy), time_eq els _ [a] (by simp) (hc x hx), norm_eq_abs]
  rw [show -κ * (electricalAt els .dc [a] (toV3 y) + cos (o * t) * electricalAt els .rf [a] (toV3 y))
      - -κ * (electricalAt els .dc [a] (toV3 x) + cos (o * t) * electricalAt els .rf [a] (toV3 x))
      = -(κ * ((electricalAt els .dc [a] (toV3 y) - electricalAt els .dc [a] (toV3 x))
        + cos (o * t) * (electricalAt els .rf [a] (toV3 y) - electricalAt els .rf [a] (toV3 x)))) by ring, abs_neg, abs_mul, abs_of_nonneg hκ]
  have h3 : |cos (o * t) * (electricalAt els .rf [a] (toV3 y) - electricalAt els .rf [a] (toV3 x))| ≤ B * (3 * ‖y - x‖) := by
    rw [abs_mul]
    exact (mul_le_of_le_one_left (abs_nonneg _) (abs_cos_le_one _)).trans h2
  calc κ * _ ≤ κ * (B * (3 * ‖y - x‖) + B * (3 * ‖y - x‖)) := mul_le_mul_of_nonneg_left ((abs_add_le _ _).trans (add_le_add h1 h3)) hκ
    _ = _ := by ring

/-- the force near a point without field is linear up to terms of second order -/
theorem ff_linear (hκ : 0 ≤ κ) (hR : 0 < R) (hc : ∀ y ∈ rball x0 R, offSystem els (toV3 y)) (hdc : fieldGrad els .dc x0 = 0) (hrf : fieldGrad els .rf x0 = 0)
    (hM : ∀ y ∈ rball x0 R, ∀ i : Idx, i.length = 3 → |electricalAt els .dc i (toV3 y)| ≤ M ∧ |electricalAt els .rf i (toV3 y)| ≤ M)
    (t : ℝ) {d : Fin 3 → ℝ} {ρ : ℝ} (hd : vlen d ≤ ρ) (hρ : ρ ≤ R) (a : Fin 3) :
    |ff els κ o t (x0 + d) a - -κ * ∑ b, (electricalAt els .dc [a, b] (toV3 x0) + cos (o * t) * electricalAt els .rf [a, b] (toV3 x0)) * d b| ≤ κ * (3 * M * ρ ^ 2) := by
  have hx0 : x0 ∈ rball x0 R := center_mem x0 hR
  have hM0 : 0 ≤ M := (abs_nonneg _).trans (hM x0 hx0 [0, 0, 0] rfl).1
  have hy : x0 + d ∈ rball x0 R := by
    show vlen _ ≤ R
    rw [add_sub_cancel_left]; exact hd.trans hρ
  have hin : ∀ s ∈ Icc (0 : ℝ) 1, x0 + s • d ∈ rball x0 R := fun s hs => by
    have := seg (rball_convex x0 R) hx0 hy hs.1 hs.2
    rwa [add_sub_cancel_left] at this
  have hs : (∑ b, |d b|) ^ 2 ≤ 3 * ρ ^ 2 := (abs_sum_sq d).trans (by gcongr; exact vlen_nonneg _)
  have key : ∀ typ, (typ = .dc ∨ typ = .rf) → |electricalAt els typ [a] (toV3 (x0 + d)) - ∑ b, electricalAt els typ [a, b] (toV3 x0) * d b| ≤ 3 / 2 * M * ρ ^ 2 :=
    fun typ ht => by
      have h1 := c135_electrical els typ [a] 1 (by simp) x0 d (fun s hs => hc _ (hin s hs)) M (fun s hs i hi => by
        rcases ht with rfl | rfl
        exact (hM _ (hin s hs) i hi).1
        exact (hM _ (hin s hs) i hi).2)
      have h0 : electricalAt els typ [a] (toV3 x0) = 0 := by rcases ht with rfl | rfl; exact congrFun hdc a; exact congrFun hrf a
      have e : expansion (fun i => electricalAt els typ i (toV3 x0)) [a] 1 d = ∑ b, electricalAt els typ [a, b] (toV3 x0) * d b := by
        simp only [expansion, Finset.sum_range_succ, Finset.sum_range_zero]
        rw [← (Equiv.funUnique (Fin 1) (Fin 3)).symm.sum_comp]
        simp [h0]
      rw [e] at h1
      refine h1.trans ?_
      have : M * (∑ a, |d a|) ^ (1 + 1) / ((1 + 1).factorial : ℝ) = 1 / 2 * M * (∑ a, |d a|) ^ 2 := by norm_num; ring
      rw [this]
      calc 1 / 2 * M * (∑ a, |d a|) ^ 2 ≤ 1 / 2 * M * (3 * ρ ^ 2) := by gcongr
        _ = _ := by ring
  have h1 := key .dc (.inl rfl)
  have h2 := key .rf (.inr rfl)
  simp only [ff]
  rw [time_eq els _ [a] (by simp) (hc _ hy)]
  rw [show -κ * (electricalAt els .dc [a] (toV3 (x0 + d)) + cos (o * t) * electricalAt els .rf [a] (toV3 (x0 + d)))
      - -κ * ∑ b, (electricalAt els .dc [a, b] (toV3 x0) + cos (o * t) * electricalAt els .rf [a, b] (toV3 x0)) * d b
      = -(κ * ((electricalAt els .dc [a] (toV3 (x0 + d)) - ∑ b, electricalAt els .dc [a, b] (toV3 x0) * d b)
        + cos (o * t) * (electricalAt els .rf [a] (toV3 (x0 + d)) - ∑ b, electricalAt els .rf [a, b] (toV3 x0) * d b))) by
      simp only [Fin.sum_univ_three]; ring, abs_neg, abs_mul, abs_of_nonneg hκ]
  have h3 : |cos (o * t) * (electricalAt els .rf [a] (toV3 (x0 + d)) - ∑ b, electricalAt els .rf [a, b] (toV3 x0) * d b)| ≤ 3 / 2 * M * ρ ^ 2 := by
    rw [abs_mul]
    exact (mul_le_of_le_one_left (abs_nonneg _) (abs_cos_le_one _)).trans h2
  calc κ * _ ≤ κ * (3 / 2 * M * ρ ^ 2 + 3 / 2 * M * ρ ^ 2) := mul_le_mul_of_nonneg_left ((abs_add_le _ _).trans (add_le_add h1 h3)) hκ
    _ = _ := by ring

/-- An ion in the oscillating field stays near an approximate solution. -/
theorem near_approx (hκ : 0 ≤ κ) (hc : ∀ y ∈ rball x0 R, offSystem els (toV3 y))
    (hB : ∀ y ∈ rball x0 R, ∀ a b : Fin 3, |electricalAt els .dc [a, b] (toV3 y)| ≤ B ∧ |electricalAt els .rf [a, b] (toV3 y)| ≤ B)
    {X U W : ℝ → Fin 3 → ℝ} {ε T : ℝ} (hX : ∀ t, HasDerivAt X (U t) t) (hU : ∀ t, HasDerivAt U (W t) t) (hXR : ∀ t ∈ Icc 0 T, x0 + X t ∈ rball x0 R)
    (hW : ∀ t ∈ Icc 0 T, ‖ff els κ o t (x0 + X t) - W t‖ ≤ ε) {x v : ℝ → Fin 3 → ℝ} (hp : DrivenPath els κ o T x v) (h0 : x 0 = x0 + X 0) (h0' : v 0 = U 0)
    (hx : ∀ t ∈ Icc 0 T, x t ∈ rball x0 R) :
    ∀ t ∈ Icc 0 T, ‖x t - x0 - X t‖ ≤ gronwallBound 0 (max 1 (6 * κ * B)) ε t ∧ ‖v t - U t‖ ≤ gronwallBound 0 (max 1 (6 * κ * B)) ε t := by
  have hd : ∀ t ∈ Icc 0 T, HasDerivWithinAt (fun t => (x t - x0 - X t, v t - U t)) (v t - U t, ff els κ o t (x t) - W t) (Icc 0 T) t := fun t ht =>
    (((hp.velocity t ht).sub_const x0).sub (hX t).hasDerivWithinAt).prodMk ((hp.force t ht).sub (hU t).hasDerivWithinAt)
  have key := norm_le_gronwallBound_of_norm_deriv_right_le (f := fun t => (x t - x0 - X t, v t - U t)) (δ := 0) (K := max 1 (6 * κ * B)) (ε := ε) (a := 0) (b := T)
    (fun t ht => (hd t ht).continuousWithinAt)
    (fun t ht => (hd t ⟨ht.1, ht.2.le⟩).mono_of_mem_nhdsWithin (Icc_mem_nhdsGE_of_mem ht)) (by simp [h0, h0']) fun t ht => by
      have ht' : t ∈ Icc 0 T := ⟨ht.1, ht.2.le⟩
      have hε : 0 ≤ ε := (norm_nonneg _).trans (hW t ht')
      have e1 : ‖x t - x0 - X t‖ ≤ ‖(x t - x0 - X t, v t - U t)‖ := norm_fst_le (x t - x0 - X t, v t - U t)
      have e2 : ‖v t - U t‖ ≤ ‖(x t - x0 - X t, v t - U t)‖ := norm_snd_le (x t - x0 - X t, v t - U t)
      have hB0 : 0 ≤ B := (abs_nonneg _).trans (hB _ (hx t ht') 0 0).1
      have h1 := ff_lip (o := o) hκ hc hB t (hXR t ht') (hx t ht')
      rw [show x t - (x0 + X t) = x t - x0 - X t by abel] at h1
      set n := ‖(x t - x0 - X t, v t - U t)‖ with hn
      have hn0 : 0 ≤ n := norm_nonneg _
      rw [Prod.norm_mk]
      refine max_le ?_ ?_
      · calc ‖v t - U t‖ ≤ n := e2
          _ = 1 * n := (one_mul _).symm
          _ ≤ max 1 (6 * κ * B) * n := by gcongr; exact le_max_left _ _
          _ ≤ _ := by linarith
      · have e : ff els κ o t (x t) - W t = (ff els κ o t (x t) - ff els κ o t (x0 + X t)) + (ff els κ o t (x0 + X t) - W t) := by abel
        calc ‖ff els κ o t (x t) - W t‖ ≤ 6 * κ * B * ‖x t - x0 - X t‖ + ε := by rw [e]; exact (norm_add_le _ _).trans (add_le_add h1 (hW t ht'))
          _ ≤ 6 * κ * B * n + ε := by gcongr
          _ ≤ _ := by gcongr; exact le_max_right _ _
  intro t ht
  have := key t ht
  rw [sub_zero] at this
  exact ⟨(norm_fst_le (x t - x0 - X t, v t - U t)).trans this, (norm_snd_le (x t - x0 - X t, v t - U t)).trans this⟩

end Flo

open Flo

/-- **C140.** Near a point off the electrodes where both the static and the rf field vanish, an ion in the oscillating field that starts in a mode of
`mathieu` follows this mode. During the time `T` its deviation is at most the bound on the right. It is made of the square of the amplitude `ρ` of the motion, times
a bound `M` for the third derivatives of the potentials, and of the size `σ` of the highest harmonics of the mode, times a bound `B` for the second
derivatives. -/
theorem c140_follows (eig : Eig) (heig : IsEig eig) (argsort : Argsort) (els : List Elec) (m q l o : ℝ) (hm : 0 < m) (hq : 0 < q) (hl : 0 < l) (ho : 0 < o)
    (x0 : Fin 3 → ℝ) (r : Nat) (sorted : Bool) (L) (h : sysMathieu eig argsort els (toV3 x0) (Sys.rfScale ⟨els, none⟩ m q l o).2 r sorted = .ok L) (nu : ℂ) (w)
    (hw : (nu, w) ∈ L) (A : ℂ) (hdc : fieldGrad els .dc x0 = 0) (hrf : fieldGrad els .rf x0 = 0) (R : ℝ) (hR : 0 < R) (hc : clearOf ⟨els, none⟩ (rball x0 R))
    (B M : ℝ) (hB : ∀ y ∈ rball x0 R, ∀ a b : Fin 3, |electricalAt els .dc [a, b] (toV3 y)| ≤ B ∧ |electricalAt els .rf [a, b] (toV3 y)| ≤ B)
    (hM : ∀ y ∈ rball x0 R, ∀ i : Idx, i.length = 3 → |electricalAt els .dc i (toV3 y)| ≤ M ∧ |electricalAt els .rf i (toV3 y)| ≤ M)
    (T ρ σ : ℝ) (hT : 0 ≤ T) (hρ : ∀ t ∈ Icc 0 T, vlen (modeMotion r o nu (component r 3 w 0) A t) ≤ ρ)
    (hσ : ∀ t ∈ Icc 0 T, cutoffSize r o nu (component r 3 w 0) A t ≤ σ)
    (hE : ρ + 2 * gronwallBound 0 (max 1 (6 * (q / (m * l ^ 2)) * B)) (q / (m * l ^ 2) * (3 * M * ρ ^ 2 + B * σ / 2)) T < R) :
    let X := modeMotion r o nu (component r 3 w 0) A
    ∃ U : ℝ → Fin 3 → ℝ, (∀ t, HasDerivAt X (U t) t) ∧
      (∃ x v, DrivenPath els (q / (m * l ^ 2)) o T x v ∧ x 0 = x0 + X 0 ∧ v 0 = U 0) ∧
      ∀ x v, DrivenPath els (q / (m * l ^ 2)) o T x v → x 0 = x0 + X 0 → v 0 = U 0 → ∀ t ∈ Icc 0 T, x t ∈ rball x0 R ∧
        vlen (x t - x0 - X t) ≤ 2 * gronwallBound 0 (max 1 (6 * (q / (m * l ^ 2)) * B)) (q / (m * l ^ 2) * (3 * M * ρ ^ 2 + B * σ / 2)) t := by
  intro X
  have hmo := c73_motion eig heig argsort ⟨els, none⟩ (toV3 x0) m q l o hm hq.le hl.ne' ho.ne' r sorted L h nu w hw
  simp only at hmo
  set c := component r 3 w 0 with hcdef
  obtain ⟨v', hv'⟩ := hmo
  choose hv1 acc hacc heq using hv'
  have hκ : 0 < q / (m * l ^ 2) := by positivity
  set κ := q / (m * l ^ 2) with hκdef
  set ε := κ * (3 * M * ρ ^ 2 + B * σ / 2) with hε
  set K := max 1 (6 * κ * B) with hK
  have hx0 : x0 ∈ rball x0 R := center_mem x0 hR
  have hB0 : 0 ≤ B := (abs_nonneg _).trans (hB x0 hx0 0 0).1
  have hM0 : 0 ≤ M := (abs_nonneg _).trans (hM x0 hx0 [0, 0, 0] rfl).1
  have hσ0 : 0 ≤ σ := le_trans (by unfold cutoffSize; positivity) (hσ 0 ⟨le_rfl, hT⟩)
  have hε0 : 0 ≤ ε := by positivity
  have hK0 : 0 ≤ K := zero_le_one.trans (le_max_left _ _)
  have hmono : Monotone (gronwallBound 0 K ε) := gronwallBound_mono le_rfl hε0 hK0
  have hE0 : 0 ≤ gronwallBound 0 K ε T := by
    have := hmono hT
    rwa [gronwallBound_x0] at this
  have hρR : ρ ≤ R := by linarith
  have hre : ∀ {f : ℝ → ℂ} {f' : ℂ} {t : ℝ}, HasDerivAt f f' t → HasDerivAt (fun t => (A * f t).re) (A * f').re t := fun hf =>
    Complex.reCLM.hasFDerivAt.comp_hasDerivAt _ (hf.const_mul A)
  have hX : ∀ t, HasDerivAt X (fun k => (A * v' t k).re) t := fun t => hasDerivAt_pi.2 fun k => hre (hv1 t k)
  have hU : ∀ t, HasDerivAt (fun t k => (A * v' t k).re) (fun k => (A * acc t k).re) t := fun t => hasDerivAt_pi.2 fun k => hre (hacc t k)
  have hXR : ∀ t ∈ Icc 0 T, x0 + X t ∈ rball x0 R := fun t ht => by
    show vlen _ ≤ R
    rw [add_sub_cancel_left]; exact (hρ t ht).trans hρR
  have hW : ∀ t ∈ Icc 0 T, ‖ff els κ o t (x0 + X t) - fun k => (A * acc t k).re‖ ≤ ε := fun t ht => by
    refine (pi_norm_le_iff_of_nonneg hε0).2 fun k => ?_
    have h1 := ff_linear (o := o) hκ.le hR hc hdc hrf hM t (hρ t ht) hρR k
    have hmc : ((m : ℂ) * (l : ℂ) ^ 2) ≠ 0 := by
      have : (m * l ^ 2) ≠ 0 := by positivity
      exact_mod_cast this
    set S : ℂ := ∑ j, (electricalAt els .rf [k, j] (toV3 x0) : ℂ) *
      (c r j * Complex.exp ((nu + Complex.I * (r + 1)) * (o * t)) + c (-r) j * Complex.exp ((nu - Complex.I * (r + 1)) * (o * t))) with hS
    have h2 : acc t k = ((-κ : ℝ) : ℂ) * ∑ j, ((electricalAt els .dc [k, j] (toV3 x0) + cos (o * t) * electricalAt els .rf [k, j] (toV3 x0) : ℝ) : ℂ)
        * ionMotion r o nu c t j + ((κ / 2 : ℝ) : ℂ) * S := by
      have := heq t k
      rw [← hS] at this
      have hk : (m : ℂ) * (l : ℂ) ^ 2 * (κ : ℂ) = q := by
        have : m * l ^ 2 * κ = q := by rw [hκdef]; field_simp
        exact_mod_cast this
      refine mul_left_cancel₀ hmc ?_
      rw [this]
      simp only [Complex.ofReal_neg, Complex.ofReal_div, Complex.ofReal_ofNat]
      linear_combination ((∑ j, ((electricalAt els .dc [k, j] (toV3 x0) + cos (o * t) * electricalAt els .rf [k, j] (toV3 x0) : ℝ) : ℂ)
        * ionMotion r o nu c t j) - S / 2) * hk
    have h3 : (A * acc t k).re = -κ * (∑ j, (electricalAt els .dc [k, j] (toV3 x0) + cos (o * t) * electricalAt els .rf [k, j] (toV3 x0)) * X t j)
        + κ / 2 * (A * S).re := by
      have e : A * acc t k = ((-κ : ℝ) : ℂ) * ∑ j, ((electricalAt els .dc [k, j] (toV3 x0) + cos (o * t) * electricalAt els .rf [k, j] (toV3 x0) : ℝ) : ℂ)
          * (A * ionMotion r o nu c t j) + ((κ / 2 : ℝ) : ℂ) * (A * S) := by
        rw [h2]
        simp only [Fin.sum_univ_three]
        ring
      rw [e, Complex.add_re, Complex.re_ofReal_mul, Complex.re_ofReal_mul, Complex.re_sum]
      simp only [Complex.re_ofReal_mul]
      rfl
    have hexp : ∀ s : ℝ, ‖Complex.exp ((nu + Complex.I * s) * (o * t))‖ = exp (nu.re * (o * t)) := fun s => by
      rw [Complex.norm_exp]
      congr 1
      simp [Complex.mul_re]
    have hx1 := hexp (r + 1)
    have hx2 := hexp (-(r + 1))
    have h4 : |(A * S).re| ≤ B * σ := by
      refine (Complex.abs_re_le_norm _).trans ?_
      rw [norm_mul]
      have h5 : ‖S‖ ≤ ∑ j, B * (exp (nu.re * (o * t)) * (‖c r j‖ + ‖c (-r) j‖)) := by
        refine (norm_sum_le _ _).trans (Finset.sum_le_sum fun j _ => ?_)
        rw [norm_mul, Complex.norm_real, norm_eq_abs]
        refine mul_le_mul (hB x0 hx0 k j).2 ?_ (norm_nonneg _) hB0
        refine (norm_add_le _ _).trans (le_of_eq ?_)
        rw [norm_mul, norm_mul]
        have e1 : ‖Complex.exp ((nu + Complex.I * (r + 1)) * (o * t))‖ = exp (nu.re * (o * t)) := by simpa using hx1
        have e2 : ‖Complex.exp ((nu - Complex.I * (r + 1)) * (o * t))‖ = exp (nu.re * (o * t)) := by
          rw [← hx2]
          congr 2
          push_cast
          ring
        rw [e1, e2]
        ring
      calc ‖A‖ * ‖S‖ ≤ ‖A‖ * ∑ j, B * (exp (nu.re * (o * t)) * (‖c r j‖ + ‖c (-r) j‖)) := by gcongr
        _ = B * cutoffSize r o nu c A t := by
          rw [cutoffSize]
          simp only [Fin.sum_univ_three]
          ring
        _ ≤ B * σ := by gcongr; exact hσ t ht
    simp only [Pi.sub_apply]
    rw [h3, norm_eq_abs]
    have h6 : |κ / 2 * (A * S).re| ≤ κ * (B * σ / 2) := by
      rw [abs_mul, abs_of_nonneg (by positivity : 0 ≤ κ / 2)]
      nlinarith
    calc _ = |(ff els κ o t (x0 + X t) k - -κ * ∑ j, (electricalAt els .dc [k, j] (toV3 x0) + cos (o * t) * electricalAt els .rf [k, j] (toV3 x0)) * X t j)
          - κ / 2 * (A * S).re| := by congr 1; ring
      _ ≤ κ * (3 * M * ρ ^ 2) + κ * (B * σ / 2) := (abs_sub _ _).trans (add_le_add h1 h6)
      _ = ε := by rw [hε]; ring
  have hlen : Continuous fun y => vlen (y - x0) := vlen_continuous.comp (continuous_id.sub continuous_const)
  have hO : IsOpen {y | vlen (y - x0) < R} := isOpen_lt hlen continuous_const
  have hcl : closure {y | vlen (y - x0) < R} ⊆ rball x0 R := closure_lt_subset_le hlen continuous_const
  have near : ∀ T1 ≤ T, ∀ x v, DrivenPath els κ o T1 x v → x 0 = x0 + X 0 → v 0 = (fun k => (A * v' 0 k).re) → (∀ t ∈ Icc 0 T1, x t ∈ rball x0 R) →
      ∀ t ∈ Icc 0 T1, ‖x t - x0 - X t‖ ≤ gronwallBound 0 K ε t ∧ ‖v t - fun k => (A * v' t k).re‖ ≤ gronwallBound 0 K ε t := fun T1 hT1 x v hp h0 h0' hin =>
    near_approx hκ.le hc hB hX hU (fun t ht => hXR t ⟨ht.1, ht.2.trans hT1⟩) (fun t ht => hW t ⟨ht.1, ht.2.trans hT1⟩) hp h0 h0' hin
  have stay : ∀ T1 ≤ T, ∀ x v, DrivenPath els κ o T1 x v → x 0 = x0 + X 0 → v 0 = (fun k => (A * v' 0 k).re) → ∀ t ∈ Icc 0 T1, x t ∈ {y | vlen (y - x0) < R} := by
    intro T1 hT1 x v hp h0 h0'
    refine first_exit hO (fun t ht => (hp.velocity t ht).continuousWithinAt) ?_ fun τ hτ hbef => ?_
    · show vlen _ < R
      rw [h0, add_sub_cancel_left]
      exact lt_of_le_of_lt (hρ 0 ⟨le_rfl, hT⟩) (by linarith)
    · have h1 := (near τ (hτ.2.trans hT1) x v (drivenPath_mono hp hτ.2) h0 h0' (fun t ht => hcl (hbef t ht)) τ ⟨hτ.1, le_rfl⟩).1
      have h2 := hρ τ ⟨hτ.1, hτ.2.trans hT1⟩
      have h3 := vlen_add (x τ - x0 - X τ) (X τ)
      rw [sub_add_cancel] at h3
      have h4 := vlen_le_norm (x τ - x0 - X τ)
      have h5 := hmono (hτ.2.trans hT1)
      show vlen _ < R
      have h6 : vlen (X τ) ≤ ρ := h2
      linarith
  refine ⟨fun t k => (A * v' t k).re, hX, ?_, fun x v hp h0 h0' t ht => ?_⟩
  · obtain ⟨S, hS⟩ := (isCompact_Icc (a := (0:ℝ)) (b := T)).exists_bound_of_continuousOn (f := fun t k => (A * v' t k).re)
      fun t _ => (hU t).continuousAt.continuousWithinAt
    refine exists_driven ho.ne' (x0 := x0) (R := R) (S := S + gronwallBound 0 K ε T) hc hT ?_ ?_ fun T1 hT1 x v hp h0 h0' t ht => ?_
    · rw [add_sub_cancel_left]
      exact lt_of_le_of_lt (hρ 0 ⟨le_rfl, hT⟩) (by linarith)
    · linarith [hS 0 ⟨le_rfl, hT⟩]
    · have h1 := stay T1 hT1 x v hp h0 h0'
      refine ⟨h1 t ht, ?_⟩
      have h2 := (near T1 hT1 x v hp h0 h0' (fun t ht => show vlen _ ≤ R from le_of_lt (h1 t ht)) t ht).2
      have h3 := hS t ⟨ht.1, ht.2.trans hT1⟩
      have h4 := hmono (ht.2.trans hT1)
      have h5 := norm_add_le (v t - fun k => (A * v' t k).re) (fun k => (A * v' t k).re)
      rw [sub_add_cancel] at h5
      linarith
  · have h1 := stay T le_rfl x v hp h0 h0'
    have hin : ∀ t ∈ Icc 0 T, x t ∈ rball x0 R := fun t ht => show vlen _ ≤ R from le_of_lt (h1 t ht)
    refine ⟨hin t ht, (vlen_le_norm _).trans ?_⟩
    have := (near T le_rfl x v hp h0 h0' hin t ht).1
    linarith

namespace Flo

/-- around positions off the electrodes the derivatives are bounded -/
theorem bounded_both (els : List Elec) {x0 : Fin 3 → ℝ} {R : ℝ} (hc : ∀ y ∈ rball x0 R, offSystem els (toV3 y)) (N : Nat) (hN : N ≤ 5) :
    ∃ M ≥ 0, ∀ y ∈ rball x0 R, ∀ i : Idx, i.length = N → |electricalAt els .dc i (toV3 y)| ≤ M ∧ |electricalAt els .rf i (toV3 y)| ≤ M := by
  have hb : ∀ typ : VTyp, ∀ i : Fin N → Fin 3, ∃ M, ∀ y ∈ rball x0 R, |electricalAt els typ (List.ofFn i) (toV3 y)| ≤ M := fun typ i => by
    have hcont : ContinuousOn (fun y => sysTens els typ (List.ofFn i) (toV3 y)) (rball x0 R) := fun y hy =>
      ((sysTens_smooth els typ (List.ofFn i) (by simpa using hN)) y (hc y hy)).continuousAt.continuousWithinAt
    obtain ⟨M, hM⟩ := (rball_compact x0 R).exists_bound_of_continuousOn hcont
    refine ⟨M, fun y hy => ?_⟩
    rw [electricalAt_eq _ _ _ (by rw [List.length_ofFn]; omega) _ (avail_of_off (hc y hy) _ _)]
    exact hM y hy
  choose M hM using hb
  have hs : ∀ typ, 0 ≤ ∑ i, |M typ i| := fun typ => Finset.sum_nonneg fun _ _ => abs_nonneg _
  have key : ∀ typ, ∀ y ∈ rball x0 R, ∀ i : Idx, i.length = N → |electricalAt els typ i (toV3 y)| ≤ ∑ i, |M typ i| := fun typ y hy i hi => by
    subst hi
    have := hM typ i.get y hy
    rw [List.ofFn_get] at this
    exact (this.trans (le_abs_self _)).trans (Finset.single_le_sum (f := fun i => |M typ i|) (fun _ _ => abs_nonneg _) (Finset.mem_univ i.get))
  exact ⟨∑ i, |M .dc i| + ∑ i, |M .rf i|, add_nonneg (hs _) (hs _), fun y hy i hi =>
    ⟨(key .dc y hy i hi).trans (by linarith [hs .rf]), (key .rf y hy i hi).trans (by linarith [hs .dc])⟩⟩

theorem vlen_le_sum (x : Fin 3 → ℝ) : vlen x ≤ ∑ a, |x a| := by
  refine (sq_le_sq₀ (vlen_nonneg _) (Finset.sum_nonneg fun _ _ => abs_nonneg _)).1 ?_
  rw [vlen_sq, Fin.sum_univ_three, Fin.sum_univ_three, ← sq_abs (x 0), ← sq_abs (x 1), ← sq_abs (x 2)]
  have := abs_nonneg (x 0)
  have := abs_nonneg (x 1)
  have := abs_nonneg (x 2)
  nlinarith [mul_nonneg (abs_nonneg (x 0)) (abs_nonneg (x 1)), mul_nonneg (abs_nonneg (x 0)) (abs_nonneg (x 2)), mul_nonneg (abs_nonneg (x 1)) (abs_nonneg (x 2))]

theorem motion_le (r : Nat) (o : ℝ) (nu : ℂ) (c : ℤ → Fin 3 → ℂ) (A : ℂ) (t : ℝ) :
    vlen (modeMotion r o nu c A t) ≤ exp (nu.re * (o * t)) * (‖A‖ * ∑ h ∈ Finset.Icc (-(r : ℤ)) r, ∑ k, ‖c h k‖) := by
  have hk : ∀ k, |modeMotion r o nu c A t k| ≤ ‖A‖ * ∑ h ∈ Finset.Icc (-(r : ℤ)) r, ‖c h k‖ * exp (nu.re * (o * t)) := fun k => by
    refine (Complex.abs_re_le_norm _).trans ?_
    rw [norm_mul]
    refine mul_le_mul_of_nonneg_left ((norm_sum_le _ _).trans (Finset.sum_le_sum fun h _ => ?_)) (norm_nonneg _)
    rw [norm_mul, Complex.norm_exp]
    refine le_of_eq ?_
    congr 2
    simp [Complex.mul_re]
  refine (vlen_le_sum _).trans ((Finset.sum_le_sum fun k _ => hk k).trans (le_of_eq ?_))
  rw [← Finset.mul_sum, Finset.sum_comm]
  simp only [← Finset.sum_mul]
  ring

end Flo

/-- **C140.** The deviation is of second order in the amplitude, up to the size of the highest harmonics: at a point off the electrodes without static and rf field
there are an amplitude and a constant, for all modes that do not grow faster than `exp(g o t)` and for all cutoffs, such that ions
with a motion of at most this amplitude exist for the time `T` and follow the mode with this deviation. -/
theorem c140_small (els : List Elec) (m q l o : ℝ) (hm : 0 < m) (hq : 0 < q) (hl : 0 < l) (ho : 0 < o) (x0 : Fin 3 → ℝ) (hoff : offSystem els (toV3 x0))
    (hdc : fieldGrad els .dc x0 = 0) (hrf : fieldGrad els .rf x0 = 0) (T g : ℝ) (hT : 0 ≤ T) (hg : 0 ≤ g) :
    ∃ a0 > 0, ∃ C, ∀ (eig : Eig), IsEig eig → ∀ (argsort : Argsort) (r : Nat) (sorted : Bool) (L),
      sysMathieu eig argsort els (toV3 x0) (Sys.rfScale ⟨els, none⟩ m q l o).2 r sorted = .ok L → ∀ nu w, (nu, w) ∈ L → nu.re ≤ g → ∀ A : ℂ,
      let c := component r 3 w 0
      let X := modeMotion r o nu c A
      let a := ‖A‖ * ∑ h ∈ Finset.Icc (-(r : ℤ)) r, ∑ k, ‖c h k‖
      a ≤ a0 → ∃ U : ℝ → Fin 3 → ℝ, (∀ t, HasDerivAt X (U t) t) ∧
        (∃ x v, DrivenPath els (q / (m * l ^ 2)) o T x v ∧ x 0 = x0 + X 0 ∧ v 0 = U 0) ∧
        ∀ x v, DrivenPath els (q / (m * l ^ 2)) o T x v → x 0 = x0 + X 0 → v 0 = U 0 → ∀ t ∈ Icc 0 T,
          vlen (x t - x0 - X t) ≤ C * (a ^ 2 + ‖A‖ * ∑ j, (‖c r j‖ + ‖c (-r) j‖)) := by
  obtain ⟨R, hR, hc⟩ := ball hoff
  obtain ⟨B, hB0, hB⟩ := bounded_both els hc 2 (by norm_num)
  obtain ⟨M, hM0, hM⟩ := bounded_both els hc 3 (by norm_num)
  have hκ : 0 < q / (m * l ^ 2) := by positivity
  set κ := q / (m * l ^ 2) with hκdef
  set K := max 1 (6 * κ * B) with hK
  have hK1 : 1 ≤ K := le_max_left _ _
  set e := exp (g * (o * T)) with he
  have he0 : 0 < e := exp_pos _
  set G := (exp (K * T) - 1) / K with hG
  have hG0 : 0 ≤ G := div_nonneg (by linarith [Real.one_le_exp (mul_nonneg (zero_le_one.trans hK1) hT)]) (by linarith)
  have hgr : ∀ ε, gronwallBound 0 K ε T = ε * G := fun ε => by
    rw [gronwallBound_of_K_ne_0 (by linarith : K ≠ 0), hG]
    ring
  set D := e + 2 * (κ * (3 * M * e ^ 2 + B * e)) * G with hD
  have hD0 : 0 < D := by positivity
  refine ⟨min 1 (R / (2 * D)), lt_min one_pos (by positivity), 2 * (κ * (3 * M * e ^ 2 + B * e / 2)) * G, ?_⟩
  intro eig heig argsort r sorted L h nu w hw hnu A c X a ha
  have ha1 : a ≤ 1 := ha.trans (min_le_left _ _)
  have haR : a * D ≤ R / 2 := by
    have := ha.trans (min_le_right _ _)
    rw [le_div_iff₀ (by positivity)] at this
    linarith
  have hN : ∀ h ∈ Finset.Icc (-(r : ℤ)) r, ∑ k, ‖c h k‖ ≤ ∑ h ∈ Finset.Icc (-(r : ℤ)) r, ∑ k, ‖c h k‖ := fun h hh =>
    Finset.single_le_sum (f := fun h => ∑ k, ‖c h k‖) (fun _ _ => Finset.sum_nonneg fun _ _ => norm_nonneg _) hh
  have ha0 : 0 ≤ a := mul_nonneg (norm_nonneg _) (Finset.sum_nonneg fun _ _ => Finset.sum_nonneg fun _ _ => norm_nonneg _)
  set s := ‖A‖ * ∑ j, (‖c r j‖ + ‖c (-r) j‖) with hs
  have hs0 : 0 ≤ s := by positivity
  have hs2 : s ≤ 2 * a := by
    have h1 := hN r (by simp)
    have h2 := hN (-r) (by simp)
    rw [hs, Finset.sum_add_distrib]
    have := mul_le_mul_of_nonneg_left (add_le_add h1 h2) (norm_nonneg A)
    calc _ ≤ _ := this
      _ = 2 * a := by simp only [a]; ring
  have hexp : ∀ t ∈ Icc 0 T, exp (nu.re * (o * t)) ≤ e := fun t ht => by
    refine Real.exp_le_exp.2 ?_
    have h1 : 0 ≤ o * t := mul_nonneg ho.le ht.1
    have h2 : o * t ≤ o * T := mul_le_mul_of_nonneg_left ht.2 ho.le
    exact (mul_le_mul_of_nonneg_right hnu h1).trans (mul_le_mul_of_nonneg_left h2 hg)
  have hε : κ * (3 * M * (e * a) ^ 2 + B * (e * s) / 2) ≤ κ * (3 * M * e ^ 2 + B * e) * a := by
    have h1 : a ^ 2 ≤ a := by nlinarith
    have h2 : 3 * M * e ^ 2 * a ^ 2 ≤ 3 * M * e ^ 2 * a := by gcongr
    have h3 : B * e * s ≤ B * e * (2 * a) := by gcongr
    have h4 : 3 * M * (e * a) ^ 2 + B * (e * s) / 2 ≤ (3 * M * e ^ 2 + B * e) * a := by linarith [mul_pow e a 2]
    calc _ ≤ κ * ((3 * M * e ^ 2 + B * e) * a) := by gcongr
      _ = _ := by ring
  have main := c140_follows eig heig argsort els m q l o hm hq hl ho x0 r sorted L h nu w hw A hdc hrf R hR hc B M (fun y hy a b => hB y hy [a, b] rfl) hM T
    (e * a) (e * s) hT (fun t ht => (motion_le r o nu c A t).trans (mul_le_mul_of_nonneg_right (hexp t ht) ha0))
    (fun t ht => by
      show ‖A‖ * exp (nu.re * (o * t)) * _ ≤ _
      calc _ = exp (nu.re * (o * t)) * s := by rw [hs]; ring
        _ ≤ _ := mul_le_mul_of_nonneg_right (hexp t ht) hs0)
    (by
      rw [hgr]
      have h5 := mul_le_mul_of_nonneg_right hε hG0
      have : e * a + 2 * (κ * (3 * M * e ^ 2 + B * e) * a * G) = a * D := by rw [hD]; ring
      linarith)
  obtain ⟨U, hU, hex, hall⟩ := main
  refine ⟨U, hU, hex, fun x v hp h0 h0' t ht => ((hall x v hp h0 h0' t ht).2).trans ?_⟩
  have hε0 : 0 ≤ κ * (3 * M * (e * a) ^ 2 + B * (e * s) / 2) := by positivity
  have h6 := gronwallBound_mono (δ := 0) le_rfl hε0 (zero_le_one.trans hK1) ht.2
  rw [hgr] at h6
  have h7 : κ * (3 * M * (e * a) ^ 2 + B * (e * s) / 2) * G ≤ κ * (3 * M * e ^ 2 + B * e / 2) * G * (a ^ 2 + s) := by
    have h8 : 3 * M * (e * a) ^ 2 + B * (e * s) / 2 ≤ (3 * M * e ^ 2 + B * e / 2) * (a ^ 2 + s) := by
      have : 0 ≤ B * e / 2 * a ^ 2 := by positivity
      have : 0 ≤ 3 * M * e ^ 2 * s := by positivity
      nlinarith
    have h9 := mul_le_mul_of_nonneg_left h8 (mul_nonneg hκ.le hG0)
    calc _ = κ * G * (3 * M * (e * a) ^ 2 + B * (e * s) / 2) := by ring
      _ ≤ _ := h9
      _ = _ := by ring
  linarith

namespace Flo

theorem sum_norm_le {r : Nat} {c : ℤ → Fin 3 → ℂ} (hout : ∀ h : ℤ, (r : ℤ) < |h| → ∀ k, c h k = 0) (h : ℤ) :
    ∑ k, ‖c h k‖ ≤ ∑ h ∈ Finset.Icc (-(r : ℤ)) r, ∑ k, ‖c h k‖ := by
  have hn : ∀ h, 0 ≤ ∑ k, ‖c h k‖ := fun h => Finset.sum_nonneg fun _ _ => norm_nonneg _
  by_cases hh : |h| ≤ r
  · exact Finset.single_le_sum (f := fun h => ∑ k, ‖c h k‖) (fun h _ => hn h) (by rw [Finset.mem_Icc]; exact abs_le.1 hh)
  · have : ∑ k, ‖c h k‖ = 0 := Finset.sum_eq_zero fun k _ => by rw [hout h (not_le.1 hh), norm_zero]
    rw [this]
    exact Finset.sum_nonneg fun h _ => hn h

end Flo

/-- **C140.** The higher harmonics of the modes that `mathieu` returns are small: they fall at least with the square of the harmonic, for exponents of at most
`n0`. -/
theorem c140_harmonics (eig : Eig) (heig : IsEig eig) (argsort : Argsort) (els : List Elec) (m q l o : ℝ) (hm : 0 < m) (hq : 0 < q) (hl : 0 < l) (ho : 0 < o) (x : V3)
    (r : Nat) (sorted : Bool) (L) (h : sysMathieu eig argsort els x (Sys.rfScale ⟨els, none⟩ m q l o).2 r sorted = .ok L) (nu : ℂ) (w) (hw : (nu, w) ∈ L)
    (n0 : ℝ) (hnu : ‖nu‖ ≤ n0) (B : ℝ) (hB : ∀ a b : Fin 3, |electricalAt els .dc [a, b] x| ≤ B ∧ |electricalAt els .rf [a, b] x| ≤ B) (n : ℤ) (hn : |n| ≤ r)
    (hn0 : n0 < |(n : ℝ)|) :
    ∑ k, ‖component r 3 w 0 n k‖ ≤ 6 * (q / (m * l ^ 2)) * B / (o ^ 2 * (|(n : ℝ)| - n0) ^ 2) * ∑ h ∈ Finset.Icc (-(r : ℤ)) r, ∑ k, ‖component r 3 w 0 h k‖ := by
  obtain ⟨mu, b, hmu, rfl⟩ := sysMathieu_inv eig argsort els x _ r sorted L h
  obtain ⟨⟨nu2, w'⟩, hq', he⟩ := List.mem_map.1 hw
  obtain ⟨j, -, hj⟩ := List.mem_map.1 (mem_sortModes hq')
  simp only [Prod.mk.injEq] at hj he
  obtain ⟨rfl, rfl⟩ := hj
  obtain ⟨rfl, rfl⟩ := he
  have hB0 : 0 ≤ B := (abs_nonneg _).trans (hB 0 0).1
  have hκ : 0 < q / (m * l ^ 2) := by positivity
  have hs : (Sys.rfScale ⟨els, none⟩ m q l o).2 ^ 2 = q / (m * l ^ 2) / (4 * o ^ 2) := by
    show (√(q / m) / (2 * l * o)) ^ 2 = _
    rw [div_pow, Real.sq_sqrt (div_nonneg hq.le hm.le)]
    field_simp
    ring
  rw [hs] at hmu
  set κ := q / (m * l ^ 2) with hκdef
  set c := component r 3 (fun i => b i j) 0 with hc
  obtain ⟨a, ha⟩ : ∃ a : List (Matrix (Fin 3) (Fin 3) ℂ), a = [fun i j => ((16 * (κ / (4 * o ^ 2)) * electricalAt els .dc [i, j] x : ℝ) : ℂ),
      fun i j => ((8 * (κ / (4 * o ^ 2)) * electricalAt els .rf [i, j] x : ℝ) : ℂ)] := ⟨_, rfl⟩
  have hmu : mathieu eig r a = .ok (mu, b) := by rw [ha]; exact hmu
  have hrec := (c41_recurrence eig heig r a hmu j).1 n hn
  have hIcc : Finset.Icc 1 (a.length - 1) = {1} := by rw [ha]; rfl
  have hout : ∀ h : ℤ, (r : ℤ) < |h| → ∀ k, c h k = 0 := fun h hh k => component_out r _ 0 h hh k
  set N := ∑ h ∈ Finset.Icc (-(r : ℤ)) r, ∑ k, ‖c h k‖ with hN
  have hS : ∀ h, ∑ k, ‖c h k‖ ≤ N := sum_norm_le hout
  have hfour : (4 : ℝ) * o ^ 2 ≠ 0 := by positivity
  -- the recurrence, solved for the harmonic
  have hk : ∀ k, (o : ℂ) ^ 2 * (mu j / 2 + Complex.I * n) ^ 2 * c n k = -(κ : ℂ) * (∑ i, (electricalAt els .dc [k, i] x : ℂ) * c n i
      + ∑ i, ((electricalAt els .rf [k, i] x / 2 : ℝ) : ℂ) * (c (n + 1) i + c (n - 1) i)) := fun k => by
    have h1 : (mu j + 2 * Complex.I * n) ^ 2 * c n k + ∑ i, ((16 * (κ / (4 * o ^ 2)) * electricalAt els .dc [k, i] x : ℝ) : ℂ) * c n i
        + ∑ i, ((8 * (κ / (4 * o ^ 2)) * electricalAt els .rf [k, i] x : ℝ) : ℂ) * (c (n + 1) i + c (n - 1) i) = 0 := by
      have h0 := hrec k
      rw [hIcc, Finset.sum_singleton, ha] at h0
      exact h0
    have hoc : (o : ℂ) ≠ 0 := by exact_mod_cast ho.ne'
    have e : ∀ (α : ℝ) (f : Fin 3 → ℝ) (g : Fin 3 → ℂ), ∑ i, ((α * (κ / (4 * o ^ 2)) * f i : ℝ) : ℂ) * g i = α * (κ / (4 * o ^ 2)) * ∑ i, (f i : ℂ) * g i := fun α f g => by
      rw [Finset.mul_sum]
      refine Finset.sum_congr rfl fun i _ => ?_
      push_cast
      ring
    have e2 : ∑ i, ((electricalAt els .rf [k, i] x / 2 : ℝ) : ℂ) * (c (n + 1) i + c (n - 1) i)
        = 1 / 2 * ∑ i, (electricalAt els .rf [k, i] x : ℂ) * (c (n + 1) i + c (n - 1) i) := by
      rw [Finset.mul_sum]
      refine Finset.sum_congr rfl fun i _ => ?_
      push_cast
      ring
    rw [e, e] at h1
    rw [e2]
    generalize (∑ i, (electricalAt els .dc [k, i] x : ℂ) * c n i) = Z1 at h1 ⊢
    generalize (∑ i, (electricalAt els .rf [k, i] x : ℂ) * (c (n + 1) i + c (n - 1) i)) = Z2 at h1 ⊢
    field_simp at h1
    push_cast at h1
    linear_combination h1 / 16
  have hbound : ∀ k, o ^ 2 * (|(n : ℝ)| - n0) ^ 2 * ‖c n k‖ ≤ κ * (B * (2 * N)) := fun k => by
    have h1 : (|(n : ℝ)| - n0) ≤ ‖mu j / 2 + Complex.I * n‖ := by
      have := norm_sub_norm_le (Complex.I * n) (-(mu j / 2))
      rw [norm_neg, norm_mul, Complex.norm_I, one_mul, Complex.norm_intCast, sub_neg_eq_add, add_comm] at this
      linarith
    have h2 : (|(n : ℝ)| - n0) ^ 2 ≤ ‖mu j / 2 + Complex.I * n‖ ^ 2 := pow_le_pow_left₀ (by linarith) h1 2
    have h3 : ‖(o : ℂ) ^ 2 * (mu j / 2 + Complex.I * n) ^ 2 * c n k‖ = o ^ 2 * ‖mu j / 2 + Complex.I * n‖ ^ 2 * ‖c n k‖ := by
      rw [norm_mul, norm_mul, norm_pow, norm_pow, Complex.norm_real, norm_eq_abs, abs_of_pos ho]
    have h4 : ‖∑ i, (electricalAt els .dc [k, i] x : ℂ) * c n i‖ ≤ B * N := by
      refine (norm_sum_le _ _).trans ?_
      calc ∑ i, ‖(electricalAt els .dc [k, i] x : ℂ) * c n i‖ ≤ ∑ i, B * ‖c n i‖ := Finset.sum_le_sum fun i _ => by
            rw [norm_mul, Complex.norm_real, norm_eq_abs]
            exact mul_le_mul_of_nonneg_right (hB k i).1 (norm_nonneg _)
        _ = B * ∑ i, ‖c n i‖ := (Finset.mul_sum _ _ _).symm
        _ ≤ B * N := mul_le_mul_of_nonneg_left (hS n) hB0
    have h5 : ‖∑ i, ((electricalAt els .rf [k, i] x / 2 : ℝ) : ℂ) * (c (n + 1) i + c (n - 1) i)‖ ≤ B * N := by
      refine (norm_sum_le _ _).trans ?_
      calc ∑ i, ‖((electricalAt els .rf [k, i] x / 2 : ℝ) : ℂ) * (c (n + 1) i + c (n - 1) i)‖ ≤ ∑ i, B / 2 * (‖c (n + 1) i‖ + ‖c (n - 1) i‖) :=
            Finset.sum_le_sum fun i _ => by
              rw [norm_mul, Complex.norm_real, norm_eq_abs, abs_div, abs_two]
              exact mul_le_mul (by linarith [(hB k i).2]) (norm_add_le _ _) (norm_nonneg _) (by positivity)
        _ = B / 2 * (∑ i, ‖c (n + 1) i‖ + ∑ i, ‖c (n - 1) i‖) := by rw [← Finset.mul_sum, Finset.sum_add_distrib]
        _ ≤ B / 2 * (N + N) := mul_le_mul_of_nonneg_left (add_le_add (hS _) (hS _)) (by positivity)
        _ = B * N := by ring
    calc o ^ 2 * (|(n : ℝ)| - n0) ^ 2 * ‖c n k‖ ≤ o ^ 2 * ‖mu j / 2 + Complex.I * n‖ ^ 2 * ‖c n k‖ := by gcongr
      _ = ‖(o : ℂ) ^ 2 * (mu j / 2 + Complex.I * n) ^ 2 * c n k‖ := h3.symm
      _ ≤ κ * (B * N + B * N) := by
        rw [hk k, norm_mul, norm_neg, Complex.norm_real, norm_eq_abs, abs_of_pos hκ]
        exact mul_le_mul_of_nonneg_left ((norm_add_le _ _).trans (add_le_add h4 h5)) hκ.le
      _ = _ := by ring
  have hpos : 0 < o ^ 2 * (|(n : ℝ)| - n0) ^ 2 := by
    have : 0 < |(n : ℝ)| - n0 := by linarith
    positivity
  rw [div_mul_eq_mul_div, le_div_iff₀ hpos, Fin.sum_univ_three]
  nlinarith [hbound 0, hbound 1, hbound 2]

/-- **C140.** The deviation from the modes with exponents of at most `n0` falls with the square of the cutoff and is of second order in the amplitude. -/
theorem c140_converges (els : List Elec) (m q l o : ℝ) (hm : 0 < m) (hq : 0 < q) (hl : 0 < l) (ho : 0 < o) (x0 : Fin 3 → ℝ) (hoff : offSystem els (toV3 x0))
    (hdc : fieldGrad els .dc x0 = 0) (hrf : fieldGrad els .rf x0 = 0) (T n0 : ℝ) (hT : 0 ≤ T) (hn0 : 0 ≤ n0) :
    ∃ a0 > 0, ∃ C, ∀ (eig : Eig), IsEig eig → ∀ (argsort : Argsort) (r : Nat), n0 < r → ∀ (sorted : Bool) (L),
      sysMathieu eig argsort els (toV3 x0) (Sys.rfScale ⟨els, none⟩ m q l o).2 r sorted = .ok L → ∀ nu w, (nu, w) ∈ L → ‖nu‖ ≤ n0 → ∀ A : ℂ,
      let c := component r 3 w 0
      let X := modeMotion r o nu c A
      let a := ‖A‖ * ∑ h ∈ Finset.Icc (-(r : ℤ)) r, ∑ k, ‖c h k‖
      a ≤ a0 → ∃ U : ℝ → Fin 3 → ℝ, (∀ t, HasDerivAt X (U t) t) ∧
        (∃ x v, DrivenPath els (q / (m * l ^ 2)) o T x v ∧ x 0 = x0 + X 0 ∧ v 0 = U 0) ∧
        ∀ x v, DrivenPath els (q / (m * l ^ 2)) o T x v → x 0 = x0 + X 0 → v 0 = U 0 → ∀ t ∈ Icc 0 T,
          vlen (x t - x0 - X t) ≤ C * a * (a + 1 / (r - n0) ^ 2) := by
  obtain ⟨a0, ha0, C, hC⟩ := c140_small els m q l o hm hq hl ho x0 hoff hdc hrf T n0 hT hn0
  obtain ⟨R, hR, hc⟩ := ball hoff
  obtain ⟨B, hB0, hB⟩ := bounded_both els hc 2 (by norm_num)
  have hκ : 0 < q / (m * l ^ 2) := by positivity
  refine ⟨a0, ha0, |C| * (1 + 2 * (6 * (q / (m * l ^ 2)) * B / o ^ 2)), ?_⟩
  intro eig heig argsort r hr sorted L h nu w hw hnu A c X a ha
  obtain ⟨U, hU, hex, hall⟩ := hC eig heig argsort r sorted L h nu w hw (((le_abs_self _).trans (Complex.abs_re_le_norm nu)).trans hnu) A ha
  refine ⟨U, hU, hex, fun x v hp h0 h0' t ht => (hall x v hp h0 h0' t ht).trans ?_⟩
  have hrc : |((r : ℤ) : ℝ)| = r := by simp
  have hrc' : |((-(r : ℤ) : ℤ) : ℝ)| = r := by simp
  have hx0 := center_mem x0 hR
  have h1 := c140_harmonics eig heig argsort els m q l o hm hq hl ho (toV3 x0) r sorted L h nu w hw n0 hnu B (fun a b => hB x0 hx0 [a, b] rfl) r (by simp)
    (by rw [hrc]; exact hr)
  have h2 := c140_harmonics eig heig argsort els m q l o hm hq hl ho (toV3 x0) r sorted L h nu w hw n0 hnu B (fun a b => hB x0 hx0 [a, b] rfl) (-r) (by simp)
    (by rw [hrc']; exact hr)
  rw [hrc] at h1
  rw [hrc'] at h2
  have hpos : 0 < (r - n0 : ℝ) := by linarith
  have ha0' : 0 ≤ a := mul_nonneg (norm_nonneg _) (Finset.sum_nonneg fun _ _ => Finset.sum_nonneg fun _ _ => norm_nonneg _)
  set D := 6 * (q / (m * l ^ 2)) * B / o ^ 2 with hD
  have hD0 : 0 ≤ D := by positivity
  have e : 6 * (q / (m * l ^ 2)) * B / (o ^ 2 * (r - n0) ^ 2) = D * (1 / (r - n0) ^ 2) := by rw [hD]; field_simp
  rw [e] at h1 h2
  set u := 1 / ((r : ℝ) - n0) ^ 2 with hu
  have hu0 : 0 ≤ u := by positivity
  have h3 : ‖A‖ * ∑ j, (‖c r j‖ + ‖c (-r) j‖) ≤ 2 * D * u * a := by
    rw [Finset.sum_add_distrib]
    have := mul_le_mul_of_nonneg_left (add_le_add h1 h2) (norm_nonneg A)
    calc _ ≤ _ := this
      _ = _ := by simp only [a, c]; ring
  have hs0 : 0 ≤ ‖A‖ * ∑ j, (‖c r j‖ + ‖c (-r) j‖) := by positivity
  calc C * (a ^ 2 + ‖A‖ * ∑ j, (‖c r j‖ + ‖c (-r) j‖)) ≤ |C| * (a ^ 2 + 2 * D * u * a) := by
        refine (mul_le_mul_of_nonneg_right (le_abs_self C) (by positivity)).trans ?_
        gcongr
    _ = |C| * a * (a + 2 * D * u) := by ring
    _ ≤ |C| * a * ((1 + 2 * D) * (a + u)) := by
        gcongr
        have : 0 ≤ 2 * D * a := by positivity
        nlinarith
    _ = _ := by ring

/-- The hypotheses are met: above the centre of the ring trap, and for each result of `mathieu` there. -/
example (T : ℝ) (hT : 0 ≤ T) : ∃ a0 > 0, ∃ C, ∀ (eig : Eig), IsEig eig → ∀ (argsort : Argsort) (r : Nat), ∃ L,
    sysMathieu eig argsort Ring.trap ⟨0, 0, 7⟩ (Sys.rfScale ⟨Ring.trap, none⟩ 1 1 1 1).2 r false = .ok L ∧ ∀ nu w, (nu, w) ∈ L → nu.re ≤ 1 → ∀ A : ℂ,
      let c := component r 3 w 0
      let X := modeMotion r 1 nu c A
      let a := ‖A‖ * ∑ h ∈ Finset.Icc (-(r : ℤ)) r, ∑ k, ‖c h k‖
      a ≤ a0 → ∃ x v, DrivenPath Ring.trap 1 1 T x v ∧ x 0 = ![0, 0, 7] + X 0 ∧
        ∀ t ∈ Icc 0 T, vlen (x t - ![0, 0, 7] - X t) ≤ C * (a ^ 2 + ‖A‖ * ∑ j, (‖c r j‖ + ‖c (-r) j‖)) := by
  have hz : ∀ typ, (∀ a : Fin 3, sysTens Ring.trap typ [a] ⟨0, 0, 7⟩ = 0) → fieldGrad Ring.trap typ ![0, 0, 7] = 0 := fun typ h =>
    funext fun a => (grad_eq Ring.trap_off7 a).trans (h a)
  obtain ⟨a0, h0, C, hC⟩ := c140_small Ring.trap 1 1 1 1 one_pos one_pos one_pos one_pos ![0, 0, 7] Ring.trap_off7 (hz .dc fun a => Ring.trap_dc _ _)
    (hz .rf Ring.trap_tens1) T 1 hT zero_le_one
  refine ⟨a0, h0, C, fun eig heig argsort r => ?_⟩
  have : ∃ L, sysMathieu eig argsort Ring.trap ⟨0, 0, 7⟩ (Sys.rfScale ⟨Ring.trap, none⟩ 1 1 1 1).2 r false = .ok L := by
    unfold sysMathieu
    rw [electrical_expand_eq _ _ 2 (by norm_num) .dc (avail_of_off Ring.trap_off7 _ _), electrical_expand_eq _ _ 2 (by norm_num) .rf (avail_of_off Ring.trap_off7 _ _)]
    exact ⟨_, rfl⟩
  obtain ⟨L, hL⟩ := this
  refine ⟨L, hL, ?_⟩
  intro nu w hw hnu A c X a ha
  obtain ⟨U, -, ⟨x, v, hp, e1, e2⟩, hall⟩ := hC eig heig argsort r false L hL nu w hw hnu A ha
  have e : (1 : ℝ) / (1 * 1 ^ 2) = 1 := by norm_num
  rw [e] at hp hall
  exact ⟨x, v, hp, e1, hall x v hp e1 e2⟩

namespace Flo

/-- every solution of the truncated recurrence is a mode for some `eig` -/
theorem exists_mode {n : Nat} (r : Nat) (a : List (Matrix (Fin n) (Fin n) ℂ)) (ha : a ≠ []) (mu : ℂ) (c : ℤ → Fin n → ℂ)
    (hout : ∀ h : ℤ, (r : ℤ) < |h| → ∀ k, c h k = 0) (hrec : HillRecurrence r a mu c) (hne : ∃ h k, c h k ≠ 0) :
    ∃ eig, IsEig eig ∧ ∃ b, mathieu eig r a = .ok (fun _ => mu, b) ∧ ∀ j, component r n (fun i => b i j) 0 = c := by
  classical
  set w : Fin ((2 * r + 1) * 2 * n) → ℂ := fun i =>
    let p := (flatEquiv r n).symm i
    if p.2.1 = 0 then c ((r : ℤ) - p.1.val) p.2.2 else (mu + 2 * Complex.I * ((r : ℤ) - p.1.val : ℤ)) * c ((r : ℤ) - p.1.val) p.2.2 with hw
  have hl : ∀ h : ℤ, |h| ≤ r → ∃ l : Fin (2 * r + 1), h = (r : ℤ) - l.val := fun h hh => by
    rw [abs_le] at hh
    exact ⟨⟨((r : ℤ) - h).toNat, by omega⟩, by simp only; omega⟩
  have h0 : component r n w 0 = c := by
    funext h k
    by_cases hh : |h| ≤ r
    · obtain ⟨l, rfl⟩ := hl h hh
      have := component_eq r w 0 l k
      simp only [hw, Equiv.symm_apply_apply] at this
      exact this
    · rw [component_out r w 0 h (not_le.1 hh), hout h (not_le.1 hh)]
  have h1 : ∀ h : ℤ, |h| ≤ r → ∀ k, component r n w 1 h k = (mu + 2 * Complex.I * h) * component r n w 0 h k := fun h hh k => by
    rw [h0]
    obtain ⟨l, rfl⟩ := hl h hh
    have := component_eq r w 1 l k
    simp only [hw, Equiv.symm_apply_apply] at this
    exact this
  obtain ⟨e0, he0⟩ := exists_isEig
  obtain ⟨M, hM, hiff⟩ := c41_exactly (fun N A => (0, A)) r a ha
  have hMf : M = floquetMatrix r a := by
    cases a with
    | nil => exact absurd rfl ha
    | cons x y =>
      injection hM with hM
      exact (congrArg Prod.snd hM).symm
  have hev : M.mulVec w = mu • w := (hiff w mu).2 ⟨by rw [h0]; exact hrec, h1⟩
  have hw0 : w ≠ 0 := fun h => by
    obtain ⟨h', k, hk⟩ := hne
    refine hk ?_
    rw [← h0, h]
    unfold component
    split <;> rfl
  refine ⟨fun N A => if h : ∃ e : N = (2 * r + 1) * 2 * n, A = e ▸ floquetMatrix r a then (fun _ => mu, fun i _ => w (h.choose ▸ i)) else e0 N A, ?_, ?_⟩
  · intro N A j
    by_cases h : ∃ e : N = (2 * r + 1) * 2 * n, A = e ▸ floquetMatrix r a
    · simp only [dif_pos h]
      obtain ⟨rfl, rfl⟩ := h
      exact ⟨hMf ▸ hev, hw0⟩
    · simp only [dif_neg h]
      exact he0 N A j
  · cases a with
    | nil => exact absurd rfl ha
    | cons x y =>
      refine ⟨fun i _ => w i, ?_, fun j => h0⟩
      unfold mathieu
      simp

/-- the radial mode of the ring trap for the cutoff 1 -/
theorem ring_mode (o : ℝ) (ho : 2 ≤ o) : ∃ eig, IsEig eig ∧ ∀ argsort : Argsort, ∃ L, sysMathieu eig argsort Ring.trap ⟨0, 0, 7⟩ (Sys.rfScale ⟨Ring.trap, none⟩ 1 1 1 o).2 1 false = .ok L ∧
    ∃ nu w, (nu, w) ∈ L ∧ nu ≠ 0 ∧ ‖nu‖ ≤ 1 / 2 ∧ ∀ n : ℤ, |n| ≤ 1 → component 1 3 w 0 n 0 ≠ 0 := by
  have ho0 : 0 < o := by linarith
  set g := Ring.kap / (2 * o ^ 2) with hg
  have hk := Ring.kap_pos
  have hg0 : 0 < g := by positivity
  have hg1 : g < 1 / 5 := by
    rw [hg, div_lt_iff₀ (by positivity)]
    have : Ring.kap < 8 / 5 := by
      unfold Ring.kap
      rw [div_lt_iff₀ (by positivity)]
      nlinarith [Real.pi_gt_three]
    nlinarith
  -- the frequency
  obtain ⟨ρ, hρ, hρe⟩ : ∃ ρ ∈ Icc (0 : ℝ) (1 / 2), ρ ^ 2 * (1 - ρ ^ 2) ^ 2 - 2 * g ^ 2 * (1 + ρ ^ 2) = 0 := by
    have hc : ContinuousOn (fun ρ : ℝ => ρ ^ 2 * (1 - ρ ^ 2) ^ 2 - 2 * g ^ 2 * (1 + ρ ^ 2)) (Icc 0 (1 / 2)) := by fun_prop
    refine intermediate_value_Icc (by norm_num) hc ⟨?_, ?_⟩
    · nlinarith [sq_nonneg g]
    · nlinarith
  have hρ0 : ρ ≠ 0 := by
    rintro rfl
    nlinarith [sq_nonneg g, hg0]
  have h1 : (1 : ℂ) + ρ ≠ 0 := by
    have : (1 : ℝ) + ρ ≠ 0 := by linarith [hρ.1]
    exact_mod_cast this
  have h2 : (1 : ℂ) - ρ ≠ 0 := by
    have : (1 : ℝ) - ρ ≠ 0 := by linarith [hρ.2]
    exact_mod_cast this
  have hgc : (g : ℂ) ≠ 0 := by exact_mod_cast hg0.ne'
  have hρc : (ρ : ℂ) ^ 2 * ((1 + ρ) ^ 2 * (1 - ρ) ^ 2) = g ^ 2 * ((1 + ρ) ^ 2 + (1 - ρ) ^ 2) := by
    have : ρ ^ 2 * ((1 + ρ) ^ 2 * (1 - ρ) ^ 2) = g ^ 2 * ((1 + ρ) ^ 2 + (1 - ρ) ^ 2) := by linarith [hρe]
    exact_mod_cast this
  set c : ℤ → Fin 3 → ℂ := fun h k => if k = 0 then (if h = 0 then 1 else if h = 1 then g / (1 + ρ) ^ 2 else if h = -1 then g / (1 - ρ) ^ 2 else 0) else 0 with hc
  have c0 : c 0 0 = 1 := by simp [hc]
  have c1 : c 1 0 = g / (1 + ρ) ^ 2 := by simp [hc]
  have cm : c (-1) 0 = g / (1 - ρ) ^ 2 := by simp [hc]
  have ck : ∀ h k, k ≠ 0 → c h k = 0 := fun h k hk => by simp [hc, hk]
  have cout : ∀ h : ℤ, ((1 : ℕ) : ℤ) < |h| → ∀ k, c h k = 0 := fun h hh k => by
    rw [lt_abs] at hh
    simp only [hc]
    rw [if_neg (by omega : ¬ h = 0), if_neg (by omega : ¬ h = 1), if_neg (by omega : ¬ h = -1), ite_self]
  have c2 : ∀ k, c 2 k = 0 := fun k => cout 2 (by norm_num) k
  have cm2 : ∀ k, c (-2) k = 0 := fun k => cout (-2) (by norm_num) k
  have hdc : ∀ i j, electricalAt Ring.trap .dc [i, j] ⟨0, 0, 7⟩ = 0 := fun i j => by
    rw [electricalAt_eq _ _ _ (by simp) _ (avail_of_off Ring.trap_off7 _ _)]; exact Ring.trap_dc _ _
  have hrf : ∀ i j, electricalAt Ring.trap .rf [i, j] ⟨0, 0, 7⟩ = if i = j then ![Ring.kap, Ring.kap, -2 * Ring.kap] i else 0 := fun i j => by
    rw [electricalAt_eq _ _ _ (by simp) _ (avail_of_off Ring.trap_off7 _ _)]; exact Ring.trap_tens2 _ _
  have hs : (Sys.rfScale ⟨Ring.trap, none⟩ 1 1 1 o).2 ^ 2 = 1 / (4 * o ^ 2) := by
    show (√(1 / 1) / (2 * 1 * o)) ^ 2 = _
    rw [div_one, Real.sqrt_one, div_pow]
    ring
  obtain ⟨a, ha⟩ : ∃ a : List (Matrix (Fin 3) (Fin 3) ℂ), a = [fun i j => ((16 * (Sys.rfScale ⟨Ring.trap, none⟩ 1 1 1 o).2 ^ 2 * electricalAt Ring.trap .dc [i, j] ⟨0, 0, 7⟩ : ℝ) : ℂ),
      fun i j => ((8 * (Sys.rfScale ⟨Ring.trap, none⟩ 1 1 1 o).2 ^ 2 * electricalAt Ring.trap .rf [i, j] ⟨0, 0, 7⟩ : ℝ) : ℂ)] := ⟨_, rfl⟩
  have hIcc : Finset.Icc 1 (a.length - 1) = {1} := by rw [ha]; rfl
  have hrec : HillRecurrence 1 a (2 * (Complex.I * ρ)) c := by
    intro h hh k
    rw [hIcc, Finset.sum_singleton, ha]
    show _ * c h k + ∑ j, ((16 * (Sys.rfScale ⟨Ring.trap, none⟩ 1 1 1 o).2 ^ 2 * electricalAt Ring.trap .dc [k, j] ⟨0, 0, 7⟩ : ℝ) : ℂ) * c h j
      + ∑ j, ((8 * (Sys.rfScale ⟨Ring.trap, none⟩ 1 1 1 o).2 ^ 2 * electricalAt Ring.trap .rf [k, j] ⟨0, 0, 7⟩ : ℝ) : ℂ) * (c (h + 1) j + c (h - 1) j) = 0
    simp only [hdc, hrf, hs, Fin.sum_univ_three]
    have hI := Complex.I_sq
    rw [abs_le] at hh
    by_cases hk0 : k = 0
    · subst hk0
      have e : ((8 * (1 / (4 * o ^ 2)) * Ring.kap : ℝ) : ℂ) = 4 * g := by
        rw [hg]
        push_cast
        have : (o : ℂ) ≠ 0 := by exact_mod_cast ho0.ne'
        field_simp
        ring
      have key : (2 * (Complex.I * ρ) + 2 * Complex.I * h) ^ 2 * c h 0 + 4 * g * (c (h + 1) 0 + c (h - 1) 0) = 0 := by
        obtain rfl | rfl | rfl : h = -1 ∨ h = 0 ∨ h = 1 := by push_cast at hh; omega
        · rw [show (-1 : ℤ) + 1 = 0 from rfl, show (-1 : ℤ) - 1 = -2 from rfl, c0, cm, cm2]
          push_cast
          field_simp
          linear_combination 4 * g * (ρ - 1) ^ 2 * hI
        · rw [show (0 : ℤ) + 1 = 1 from rfl, show (0 : ℤ) - 1 = -1 from rfl, c0, c1, cm]
          have hd : (g : ℂ) * (g / (1 + ρ) ^ 2 + g / (1 - ρ) ^ 2) = ρ ^ 2 := by
            field_simp
            linear_combination -hρc
          push_cast
          linear_combination 4 * ρ ^ 2 * hI + 4 * hd
        · rw [show (1 : ℤ) + 1 = 2 from rfl, show (1 : ℤ) - 1 = 0 from rfl, c0, c1, c2]
          push_cast
          field_simp
          linear_combination 4 * g * (ρ + 1) ^ 2 * hI
      simp only [if_pos, ck _ 1 (by decide), ck _ 2 (by decide), Matrix.cons_val_zero, e, mul_zero, Complex.ofReal_zero]
      linear_combination key
    · rw [ck h k hk0]
      have : ∀ j : Fin 3, ((8 * (1 / (4 * o ^ 2)) * (if k = j then ![Ring.kap, Ring.kap, -2 * Ring.kap] k else 0) : ℝ) : ℂ) * (c (h + 1) j + c (h - 1) j) = 0 := fun j => by
        by_cases hj : j = 0
        · rw [if_neg (by rw [hj]; exact hk0)]; push_cast; ring
        · rw [ck _ j hj, ck _ j hj]; ring
      rw [this 0, this 1, this 2]
      push_cast
      ring
  obtain ⟨eig, heig, b, hb, hcomp⟩ := exists_mode 1 a (by rw [ha]; exact List.cons_ne_nil _ _) _ c cout hrec ⟨0, 0, by rw [c0]; exact one_ne_zero⟩
  refine ⟨eig, heig, fun argsort => ?_⟩
  have : ∃ L, sysMathieu eig argsort Ring.trap ⟨0, 0, 7⟩ (Sys.rfScale ⟨Ring.trap, none⟩ 1 1 1 o).2 1 false = .ok L := by
    unfold sysMathieu
    rw [electrical_expand_eq _ _ 2 (by norm_num) .dc (avail_of_off Ring.trap_off7 _ _), electrical_expand_eq _ _ 2 (by norm_num) .rf (avail_of_off Ring.trap_off7 _ _)]
    exact ⟨_, rfl⟩
  obtain ⟨L, hL⟩ := this
  refine ⟨L, hL, ?_⟩
  obtain ⟨mu', b', hmu, rfl⟩ := sysMathieu_inv _ _ _ _ _ _ _ _ hL
  have hmu : mathieu eig 1 a = .ok (mu', b') := by rw [ha]; exact hmu
  rw [hb] at hmu
  injection hmu with hmu
  simp only [Prod.mk.injEq] at hmu
  obtain ⟨rfl, rfl⟩ := hmu
  refine ⟨2 * (Complex.I * ρ) / 2, fun i => b i ⟨0, by norm_num⟩, List.mem_map.2 ⟨(_, _), List.mem_map.2 ⟨⟨0, by norm_num⟩, List.mem_finRange _, rfl⟩, rfl⟩, ?_, ?_, ?_⟩
  · simp [hρ0]
  · rw [mul_div_cancel_left₀ _ two_ne_zero, norm_mul, Complex.norm_I, one_mul, Complex.norm_real, norm_eq_abs, abs_of_nonneg hρ.1]
    exact hρ.2
  · intro n hn
    rw [hcomp, abs_le] at *
    obtain rfl | rfl | rfl : n = -1 ∨ n = 0 ∨ n = 1 := by omega
    · rw [cm]; exact div_ne_zero hgc (pow_ne_zero 2 h2)
    · rw [c0]; exact one_ne_zero
    · rw [c1]; exact div_ne_zero hgc (pow_ne_zero 2 h1)

end Flo

/-- The hypotheses are met: the radial mode of the ring trap, found with the cutoff 1. -/
example (T : ℝ) (hT : 0 ≤ T) : ∃ a0 > 0, ∃ C, ∃ eig, IsEig eig ∧ ∀ argsort : Argsort, ∃ L,
    sysMathieu eig argsort Ring.trap ⟨0, 0, 7⟩ (Sys.rfScale ⟨Ring.trap, none⟩ 1 1 1 2).2 1 false = .ok L ∧ ∃ nu w, (nu, w) ∈ L ∧ nu ≠ 0 ∧ ∀ A : ℂ,
      let c := component 1 3 w 0
      let X := modeMotion 1 2 nu c A
      let a := ‖A‖ * ∑ h ∈ Finset.Icc (-((1 : ℕ) : ℤ)) (1 : ℕ), ∑ k, ‖c h k‖
      a ≤ a0 → ∃ x v, DrivenPath Ring.trap 1 2 T x v ∧ x 0 = ![0, 0, 7] + X 0 ∧ ∀ t ∈ Icc 0 T, vlen (x t - ![0, 0, 7] - X t) ≤ C * a * (a + 4) := by
  have hz : ∀ typ, (∀ a : Fin 3, sysTens Ring.trap typ [a] ⟨0, 0, 7⟩ = 0) → fieldGrad Ring.trap typ ![0, 0, 7] = 0 := fun typ h =>
    funext fun a => (grad_eq Ring.trap_off7 a).trans (h a)
  obtain ⟨a0, h0, C, hC⟩ := c140_converges Ring.trap 1 1 1 2 one_pos one_pos one_pos two_pos ![0, 0, 7] Ring.trap_off7 (hz .dc fun a => Ring.trap_dc _ _)
    (hz .rf Ring.trap_tens1) T (1 / 2) hT (by norm_num)
  obtain ⟨eig, heig, hL⟩ := ring_mode 2 le_rfl
  refine ⟨a0, h0, C, eig, heig, fun argsort => ?_⟩
  obtain ⟨L, hL, nu, w, hw, hne, hnu, -⟩ := hL argsort
  refine ⟨L, hL, nu, w, hw, hne, ?_⟩
  intro A c X a ha
  obtain ⟨U, -, ⟨x, v, hp, e1, e2⟩, hall⟩ := hC eig heig argsort 1 (by norm_num) false L hL nu w hw hnu A ha
  have e : (1 : ℝ) / (1 * 1 ^ 2) = 1 := by norm_num
  rw [e] at hp hall
  refine ⟨x, v, hp, e1, fun t ht => (hall x v hp e1 e2 t ht).trans (le_of_eq ?_)⟩
  rw [show (1 : ℝ) / (((1 : ℕ) : ℝ) - 1 / 2) ^ 2 = 4 by norm_num]

end Electrode
