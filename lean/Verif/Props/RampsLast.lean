import Verif.Props.Ramps
import Verif.Props.WaveformsExist

/-
C147: motions during ramps of the voltages last, and an ion follows the rows of a table of voltages.
-/
namespace Electrode
open Spec Knob Wave Set Rob Ramp Mot
open scoped Topology

namespace Ramp
variable {s : List Elec} {c : ℝ}

/-- a solution of a differential equation that cannot leave a compact set lasts -/
theorem lasts {E : Type*} [NormedAddCommGroup E] [NormedSpace ℝ E] [CompleteSpace E] {F : E → E} {C : Set E} (hC : IsCompact C) (hF : ∀ z ∈ C, ContDiffAt ℝ 1 F z)
    (z0 : E) (hz0 : z0 ∈ C) (T : ℝ) (hT : 0 ≤ T)
    (hin : ∀ T1 ∈ Icc 0 T, ∀ γ : ℝ → E, γ 0 = z0 → (∀ t ∈ Icc 0 T1, HasDerivWithinAt γ (F (γ t)) (Icc 0 T1) t) → γ T1 ∈ C) :
    ∃ γ : ℝ → E, γ 0 = z0 ∧ ∀ t ∈ Icc 0 T, HasDerivWithinAt γ (F (γ t)) (Icc 0 T) t := by
  have hstep : ∃ ε > 0, ∀ z ∈ C, ∃ α : ℝ → E, α 0 = z ∧ ∀ t ∈ Ioo (-ε) ε, HasDerivAt α (F (α t)) t := by
    have hloc : ∀ z ∈ C, ∃ r > (0:ℝ), ∃ ε > (0:ℝ), ∀ y ∈ Metric.closedBall z r, ∃ α : ℝ → E, α 0 = y ∧
        ∀ t ∈ Ioo (0 - ε) (0 + ε), HasDerivAt α (F (α t)) t := fun z hz =>
      (hF z hz).exists_forall_mem_closedBall_exists_eq_forall_mem_Ioo_hasDerivAt 0
    choose! r hr ε hε hα using hloc
    obtain ⟨S, hS, hcov⟩ := hC.elim_nhds_subcover (fun z => Metric.ball z (r z)) fun z hz => Metric.ball_mem_nhds z (hr z hz)
    have hmin : ∃ δ > 0, ∀ z ∈ S, δ ≤ ε z := by
      clear hcov
      classical
      induction S using Finset.induction_on with
      | empty => exact ⟨1, one_pos, by simp⟩
      | insert a S ha ih =>
        obtain ⟨δ, h1, h2⟩ := ih fun z hz => hS z (Finset.mem_insert_of_mem hz)
        refine ⟨min δ (ε a), lt_min h1 (hε a (hS a (Finset.mem_insert_self _ _))), fun z hz => ?_⟩
        rcases Finset.mem_insert.1 hz with rfl | h
        · exact min_le_right _ _
        · exact (min_le_left _ _).trans (h2 z h)
    obtain ⟨δ, h1, h2⟩ := hmin
    refine ⟨δ, h1, fun z hz => ?_⟩
    obtain ⟨w, hw, hzw⟩ := mem_iUnion₂.1 (hcov hz)
    obtain ⟨α, e, hd⟩ := hα w (hS w hw) z (Metric.ball_subset_closedBall hzw)
    have := h2 w hw
    exact ⟨α, e, fun t ht => hd t ⟨by linarith [ht.1], by linarith [ht.2]⟩⟩
  obtain ⟨ε, hε, hα⟩ := hstep
  have hn : ∀ n : ℕ, ∃ γ : ℝ → E, γ 0 = z0 ∧ ∀ t ∈ Icc 0 (min (n * (ε / 2)) T), HasDerivWithinAt γ (F (γ t)) (Icc 0 (min (n * (ε / 2)) T)) t := by
    intro n
    induction n with
    | zero =>
      obtain ⟨α, ea, hd⟩ := hα z0 hz0
      refine ⟨α, ea, fun t ht => ?_⟩
      rw [Nat.cast_zero, zero_mul, min_eq_left hT] at ht
      obtain rfl : t = 0 := le_antisymm ht.2 ht.1
      exact (hd 0 ⟨by linarith, hε⟩).hasDerivWithinAt
    | succ n ih =>
      obtain ⟨γ, e, hγ⟩ := ih
      set T1 : ℝ := min (n * (ε / 2)) T with hT1
      have hT0 : 0 ≤ T1 := le_min (by positivity) hT
      obtain ⟨α, ea, hd⟩ := hα _ (hin T1 ⟨hT0, min_le_right _ _⟩ γ e hγ)
      set T2 : ℝ := min (((n + 1 : ℕ) : ℝ) * (ε / 2)) T with hT2
      have hle : T1 ≤ T2 := min_le_min_right _ (by push_cast; nlinarith)
      have hge : T2 ≤ T1 + ε / 2 := by
        rw [hT1, ← min_add_add_right]
        exact min_le_min (by push_cast; linarith) (by linarith)
      have hβ : ∀ t ∈ Icc T1 T2, HasDerivWithinAt (fun t => α (t - T1)) (F (α (t - T1))) (Icc T1 T2) t := fun t ht => by
        have h1 := hd (t - T1) ⟨by linarith [ht.1], by linarith [ht.2]⟩
        exact (h1.comp_sub_const t T1).hasDerivWithinAt
      exact ⟨_, by simp [hT0, e], glue hT0 hle hγ hβ (by simp [ea])⟩
  obtain ⟨n, hnT⟩ := exists_nat_ge (T / (ε / 2))
  rw [div_le_iff₀ (by positivity)] at hnT
  have := hn n
  rwa [min_eq_right hnT] at this

/-- the forces add, wherever the ion is -/
theorem slope_any (u v : Fin s.length → ℝ) (t : ℝ) {p : V3} (hp : offSystem s p) (x : Fin 3 → ℝ) (a : Fin 3) :
    slopeAt (drivenBy s c (u + t • v)) x a = slopeAt (drivenBy s c u) x a + t * slopeAt (drivenBy s 0 v) x a := by
  have hoff := fun u => off_withDc s u hp
  have hu : (List.ofFn u).length = s.length := by simp
  have hv : (List.ofFn v).length = s.length := by simp
  have htl : (turned (List.ofFn u) t (List.ofFn v)).length = s.length := by simp [turned]
  unfold drivenBy
  rw [← turned_ofFn]
  simp only [slopeAt, fun u c => total_split (withDc s u) c [a] (by simp) (toV3 x) fun _ _ => avail_of_off (hoff u) _ _, tens_turned s _ _ hu hv, rf_withDc s _ htl,
    rf_withDc s _ hu, rf_withDc s _ hv, psT_smul]
  ring

end Ramp

/-- **C147.** An ion in a well has a motion for the whole time of a steady change of the voltages, if its energy, with what the change can add, does not suffice to
leave. -/
theorem c147_lasts (s : List Elec) (h : ℝ) (htr : polygonTrap h 0 s) (hsep : separate s) (c κ : ℝ) (hκ : 0 < κ) (T : ℝ) (hT : 0 ≤ T) (u d : Fin s.length → ℝ) (r : ℝ)
    (h0 : 0 ≤ r) (hd : ∀ j, |d j| ≤ r) (x0 : Fin 3 → ℝ) (R : ℝ) (hR : 0 < R) (hz : ∀ y ∈ rball x0 R, 0 < y 2) (lam : ℝ) (hl : 0 < lam)
    (hst : Stiff (drivenBy s c u) lam (rball x0 R)) (hg : slopeAt (drivenBy s c u) x0 = 0) (x1 v1 : Fin 3 → ℝ) (h1 : vlen (x1 - x0) < R)
    (hE : energyAt (drivenBy s c u) κ x1 v1 - κ * valueAt (drivenBy s c u) x0 + 2 * κ * r * T < κ * lam * R ^ 2 / 2) :
    ∃ x v, RampPath s c κ T (fun t => u + t • d) x v ∧ x 0 = x1 ∧ v 0 = v1 ∧ ∀ t ∈ Icc 0 T, vlen (x t - x0) < R := by
  have hoffz : ∀ y : Fin 3 → ℝ, 0 < y 2 → offSystem s (toV3 y) := fun y hy => Limit.trap_off htr (Limit.images_ne (p := toV3 y) hy (.inl rfl))
  have hoff0 : offSystem s (toV3 x0) := hoffz x0 (hz x0 (center_mem x0 hR))
  set F : ℝ × (Fin 3 → ℝ) × (Fin 3 → ℝ) → ℝ × (Fin 3 → ℝ) × (Fin 3 → ℝ) := fun z => ((1 : ℝ), z.2.2,
      fun a => -κ * (slopeAt (drivenBy s c u) z.2.1 a + z.1 * slopeAt (drivenBy s 0 d) z.2.1 a)) with hFdef
  set Q := 2 * (energyAt (drivenBy s c u) κ x1 v1 - κ * valueAt (drivenBy s c u) x0 + 2 * κ * r * T) with hQ
  set C : Set (ℝ × (Fin 3 → ℝ) × (Fin 3 → ℝ)) := Icc 0 T ×ˢ (rball x0 R ×ˢ rball 0 (√Q)) with hCdef
  have hCc : IsCompact C := isCompact_Icc.prod ((rball_compact x0 R).prod (rball_compact 0 _))
  have hF : ∀ z ∈ C, ContDiffAt ℝ 1 F z := fun z hzC => by
    have hx : offSystem s (toV3 z.2.1) := hoffz _ (hz _ hzC.2.1)
    have hsm : ∀ (c : ℝ) (u : Fin s.length → ℝ) (a : Fin 3), ContDiffAt ℝ 1 (fun z : ℝ × (Fin 3 → ℝ) × (Fin 3 → ℝ) => slopeAt (drivenBy s c u) z.2.1 a) z :=
      fun c u a => by
        have h1 : ContDiffAt ℝ 1 (fun w => slopeAt (drivenBy s c u) w a) z.2.1 :=
          ((total_smooth (withDc s (List.ofFn u)) c [a] (by simp)) z.2.1 (Knob.off_withDc s _ hx)).of_le (by simp)
        exact ContDiffAt.comp (g := fun w => slopeAt (drivenBy s c u) w a) (f := fun z : ℝ × (Fin 3 → ℝ) × (Fin 3 → ℝ) => z.2.1) z h1
          (contDiffAt_fst.comp _ contDiffAt_snd)
    exact contDiffAt_const.prodMk ((contDiffAt_snd.comp _ contDiffAt_snd).prodMk
      (contDiffAt_pi.2 fun a => contDiffAt_const.mul ((hsm c u a).add (contDiffAt_fst.mul (hsm 0 d a)))))
  have hramp : ∀ T1, rampedBy r T1 fun t => u + t • d := fun T1 => ⟨fun _ => d, fun t _ => ⟨by
    simpa using ((hasDerivWithinAt_id t (Icc 0 T1)).smul_const d).const_add u, hd⟩⟩
  -- a solution is a motion
  have hpath : ∀ T1, ∀ γ : ℝ → ℝ × (Fin 3 → ℝ) × (Fin 3 → ℝ), γ 0 = (0, x1, v1) → (∀ t ∈ Icc 0 T1, HasDerivWithinAt γ (F (γ t)) (Icc 0 T1) t) →
      (∀ t ∈ Icc 0 T1, (γ t).1 = t) ∧ RampPath s c κ T1 (fun t => u + t • d) (fun t => (γ t).2.1) fun t => (γ t).2.2 := fun T1 γ e0 hγ => by
    have htime : ∀ t ∈ Icc 0 T1, (γ t).1 = t := fun t ht => by
      have h1 := norm_image_sub_le_of_norm_deriv_le_segment' (f := fun t => (γ t).1 - t) (f' := fun _ => 0) (C := 0) (a := 0) (b := T1)
        (fun t ht => by
          have h1 : HasDerivWithinAt (fun t => (γ t).1) 1 (Icc 0 T1) t := (hγ t ht).fst
          have h2 := HasDerivWithinAt.fun_sub h1 (hasDerivWithinAt_id t _)
          rw [sub_self] at h2
          exact h2) (fun t _ => by simp) t ht
      simp only [zero_mul, norm_le_zero_iff] at h1
      rw [e0] at h1
      simp at h1
      linarith
    refine ⟨htime, fun t ht => (hγ t ht).snd.fst, fun t ht => ?_⟩
    have h1 : HasDerivWithinAt (fun t => (γ t).2.2)
        (fun a => -κ * (slopeAt (drivenBy s c u) (γ t).2.1 a + (γ t).1 * slopeAt (drivenBy s 0 d) (γ t).2.1 a)) (Icc 0 T1) t := (hγ t ht).snd.snd
    rw [htime t ht] at h1
    simp only [slope_any _ _ _ hoff0]
    exact h1
  have hzero : u + (0 : ℝ) • d = u := by rw [zero_smul, add_zero]
  have hsurv : ∀ T1 ∈ Icc 0 T, ∀ γ : ℝ → ℝ × (Fin 3 → ℝ) × (Fin 3 → ℝ), γ 0 = (0, x1, v1) → (∀ t ∈ Icc 0 T1, HasDerivWithinAt γ (F (γ t)) (Icc 0 T1) t) →
      ∀ t ∈ Icc 0 T1, vlen ((γ t).2.1 - x0) < R := fun T1 hT1 γ e0 hγ t ht => by
    refine (c147_survives s h htr hsep c κ hκ T1 _ r h0 (hramp T1) _ _ (hpath T1 γ e0 hγ).2 x0 R hR hz lam hl (by simpa only [hzero] using hst)
      (by simpa only [hzero] using hg) (by rw [e0]; exact h1) ?_ t ht).1
    simp only [hzero, e0]
    have : κ * r * T1 ≤ κ * r * T := mul_le_mul_of_nonneg_left hT1.2 (mul_nonneg hκ.le h0)
    linarith
  have hu := (c130_unique _ c _ (rball_convex x0 R) (fun y hy => off_withDc s (List.ofFn u) (hoffz y (hz y hy))) lam hl hst x0 (center_mem x0 hR) hg).1
  have hin : ∀ T1 ∈ Icc 0 T, ∀ γ : ℝ → ℝ × (Fin 3 → ℝ) × (Fin 3 → ℝ), γ 0 = (0, x1, v1) → (∀ t ∈ Icc 0 T1, HasDerivWithinAt γ (F (γ t)) (Icc 0 T1) t) → γ T1 ∈ C :=
    fun T1 hT1 γ e0 hγ => by
    have ht : T1 ∈ Icc 0 T1 := ⟨hT1.1, le_rfl⟩
    obtain ⟨htime, hp⟩ := hpath T1 γ e0 hγ
    have hb := hsurv T1 hT1 γ e0 hγ
    refine ⟨by rw [htime T1 ht]; exact hT1, (hb T1 ht).le, ?_⟩
    show vlen ((γ T1).2.2 - 0) ≤ _
    rw [sub_zero]
    refine Real.le_sqrt_of_sq_le ?_
    have k1 := (abs_le.1 (c147_ramp s h htr hsep c κ hκ.le T1 _ r h0 (hramp T1) _ _ hp (fun t ht => hz _ (hb t ht).le) T1 ht)).2
    have k2 := (abs_le.1 (c147_switch s h htr hsep c κ hκ.le u (u + T1 • d) (r * T1) (mul_nonneg h0 hT1.1) (fun j => by
      rw [show (u + T1 • d) j - u j = T1 * d j by simp, abs_mul, abs_of_nonneg hT1.1, mul_comm]
      exact mul_le_mul_of_nonneg_right (hd j) hT1.1) (γ T1).2.1 (γ T1).2.2 (hz _ (hb T1 ht).le))).1
    simp only [hzero, e0] at k1
    have k3 := mul_le_mul_of_nonneg_left (hu (γ T1).2.1 (hb T1 ht).le) hκ.le
    have k4 : energyAt (drivenBy s c u) κ (γ T1).2.1 (γ T1).2.2 = vlen (γ T1).2.2 ^ 2 / 2 + κ * valueAt (drivenBy s c u) (γ T1).2.1 := rfl
    have k5 : κ * (valueAt (drivenBy s c u) x0 + lam / 2 * vlen ((γ T1).2.1 - x0) ^ 2) ≤ κ * valueAt (drivenBy s c u) (γ T1).2.1 := k3
    have k6 : 0 ≤ κ * (lam / 2 * vlen ((γ T1).2.1 - x0) ^ 2) := by positivity
    have : κ * r * T1 ≤ κ * r * T := mul_le_mul_of_nonneg_left hT1.2 (mul_nonneg hκ.le h0)
    rw [hQ]
    nlinarith
  have hz0 : ((0 : ℝ), x1, v1) ∈ C := by
    refine ⟨⟨le_rfl, hT⟩, h1.le, ?_⟩
    show vlen (v1 - 0) ≤ _
    rw [sub_zero]
    refine Real.le_sqrt_of_sq_le ?_
    have k3 : κ * (valueAt (drivenBy s c u) x0 + lam / 2 * vlen (x1 - x0) ^ 2) ≤ κ * valueAt (drivenBy s c u) x1 := mul_le_mul_of_nonneg_left (hu x1 h1.le) hκ.le
    have k4 : energyAt (drivenBy s c u) κ x1 v1 = vlen v1 ^ 2 / 2 + κ * valueAt (drivenBy s c u) x1 := rfl
    have k6 : 0 ≤ κ * (lam / 2 * vlen (x1 - x0) ^ 2) := by positivity
    have k7 : 0 ≤ κ * r * T := by positivity
    rw [hQ]
    nlinarith
  obtain ⟨γ, e0, hγ⟩ := lasts hCc hF _ hz0 T hT hin
  exact ⟨_, _, (hpath T γ e0 hγ).2, by rw [e0], by rw [e0], hsurv T ⟨hT, le_rfl⟩ γ e0 hγ⟩

namespace Ramp
/-- the voltages go straight from one row to another -/
theorem leg (s : List Elec) (H : ℝ) (htr : polygonTrap H 0 s) (hsep : separate s) (rfs κ : ℝ) (hκ : 0 < κ) (T : ℝ) (hT : 0 < T) (p q : Fin s.length → ℝ)
    (δ : ℝ) (h0 : 0 ≤ δ) (hd : ∀ j, |q j - p j| ≤ δ) (x0 : Fin 3 → ℝ)
    (hx0 : slopeAt (drivenBy s rfs p) x0 = 0) (R : ℝ) (hR : 0 < R) (hz : ∀ y ∈ rball x0 R, 0 < y 2) (lam : ℝ) (hl : 0 < lam)
    (hst : Stiff (drivenBy s rfs p) lam (rball x0 R)) (x1 v1 : Fin 3 → ℝ) (h1 : vlen (x1 - x0) < R)
    (hE : energyAt (drivenBy s rfs p) κ x1 v1 - κ * valueAt (drivenBy s rfs p) x0 + 2 * κ * δ < κ * lam * R ^ 2 / 2) :
    (∃ x v, RampPath s rfs κ T (fun t => p + (t / T) • (q - p)) x v ∧ x 0 = x1 ∧ v 0 = v1) ∧
    ∀ x v, RampPath s rfs κ T (fun t => p + (t / T) • (q - p)) x v → x 0 = x1 → v 0 = v1 →
      (∀ t ∈ Icc 0 T, vlen (x t - x0) < R) ∧
      vlen (x T - x0) ^ 2 ≤ 2 * (energyAt (drivenBy s rfs p) κ x1 v1 - κ * valueAt (drivenBy s rfs p) x0 + 2 * κ * δ) / (κ * lam) ∧
      |energyAt (drivenBy s rfs q) κ (x T) (v T) - energyAt (drivenBy s rfs p) κ x1 v1| ≤ κ * δ := by
  have e : (fun t : ℝ => p + (t / T) • (q - p)) = fun t => p + t • ((1 / T) • (q - p)) := by
    funext t
    rw [smul_smul, mul_one_div]
  have hd' : ∀ j, |((1 / T) • (q - p)) j| ≤ δ / T := fun j => by
    rw [Pi.smul_apply, Pi.sub_apply, smul_eq_mul, abs_mul, abs_of_pos (by positivity), one_div_mul_eq_div]
    exact div_le_div_of_nonneg_right (hd j) hT.le
  have hE' : energyAt (drivenBy s rfs p) κ x1 v1 - κ * valueAt (drivenBy s rfs p) x0 + 2 * κ * (δ / T) * T < κ * lam * R ^ 2 / 2 := by
    rwa [show 2 * κ * (δ / T) * T = 2 * κ * δ by field_simp]
  refine ⟨?_, fun x v hp e1 e2 => ?_⟩
  · obtain ⟨x, v, k1, k2, k3, -⟩ := c147_lasts s H htr hsep rfs κ hκ T hT.le p _ (δ / T) (by positivity) hd' x0 R hR hz lam hl hst hx0 x1 v1 h1 hE'
    exact ⟨x, v, by rw [e]; exact k1, k2, k3⟩
  · have hzero : p + (0 / T) • (q - p) = p := by rw [zero_div, zero_smul, add_zero]
    have hcalm : ∃ d : ℝ → Fin s.length → ℝ, ∀ t ∈ Icc 0 T,
        HasDerivWithinAt (fun t : ℝ => p + (t / T) • (q - p)) (d t) (Icc 0 T) t ∧ ∀ j, |d t j| ≤ δ / T :=
      ⟨fun _ => (1 / T) • (q - p), fun t _ => ⟨(((hasDerivWithinAt_id t _).div_const T).smul_const (q - p)).const_add p, hd'⟩⟩
    have hin := fun t ht => (c147_survives s H htr hsep rfs κ hκ T (fun t => p + (t / T) • (q - p)) (δ / T) (by positivity) hcalm x v hp x0 R hR hz lam hl
      (by simpa only [hzero] using hst) (by simpa only [hzero] using hx0) (by rw [e1]; exact h1) (by simp only [hzero, e1, e2]; exact hE') t ht)
    refine ⟨fun t ht => (hin t ht).1, ?_, ?_⟩
    · have h5 := (hin T ⟨hT.le, le_rfl⟩).2
      simp only [hzero, e1, e2] at h5
      rwa [show 2 * κ * (δ / T) * T = 2 * κ * δ by field_simp] at h5
    · have := c147_straight s H htr hsep rfs κ hκ.le T hT p q δ h0 hd x v hp fun t ht => hz _ (hin t ht).1.le
      rwa [e1, e2] at this
end Ramp

/-- **C147.** Between the rows of a table from `solve`: the voltages go from row `k` straight to the next one, in any time `T`, and no voltage may differ by more than
`δ` between them (a `VoltageDerivativeConstraint` with `order=1` and `max=δ`). An ion in a well of row `k` whose energy above the minimum is at least `2 κ δ` below the
height at the distance `R` has a motion for this time, and no motion leaves the ball; its energy, each with the voltages of the time, grows by at most `κ δ`. -/
theorem c147_table (s : List Elec) (solver : (Volts s.length → ℝ) → List (Volts s.length → Prop) → Nat → Option (Volts s.length)) (hs : Minimises solver)
    (wants : List (List Want)) (loc : List (List Ctr)) (h : Demands wants loc) (hf : ∀ ws ∈ wants, ∀ w ∈ ws, w.fits s)
    (glob : List VDC) (hg : ∀ c ∈ glob, VDC.plain c) (u : Volts s.length) (c : ℝ) (hsol : solveSets s solver loc glob = .ok (u, c))
    (δ : ℝ) (h0 : 0 ≤ δ) (b : VDC) (hb : b ∈ glob) (hb1 : b.order = 1 ∧ b.delta = 1 ∧ b.abs = true ∧ b.max = some δ)
    (H : ℝ) (htr : polygonTrap H 0 s) (hsep : separate s) (rfs κ : ℝ) (hκ : 0 < κ) (k : Nat) (hk : k + 1 < wants.length) (T : ℝ) (hT : 0 < T) (x0 : Fin 3 → ℝ)
    (hx0 : slopeAt (drivenBy s rfs (u.getD k 0)) x0 = 0) (R : ℝ) (hR : 0 < R) (hz : ∀ y ∈ rball x0 R, 0 < y 2) (lam : ℝ) (hl : 0 < lam)
    (hst : Stiff (drivenBy s rfs (u.getD k 0)) lam (rball x0 R)) (x1 v1 : Fin 3 → ℝ) (h1 : vlen (x1 - x0) < R)
    (hE : energyAt (drivenBy s rfs (u.getD k 0)) κ x1 v1 - κ * valueAt (drivenBy s rfs (u.getD k 0)) x0 + 2 * κ * δ < κ * lam * R ^ 2 / 2) :
    (∃ x v, RampPath s rfs κ T (fun t => u.getD k 0 + (t / T) • (u.getD (k + 1) 0 - u.getD k 0)) x v ∧ x 0 = x1 ∧ v 0 = v1) ∧
    ∀ x v, RampPath s rfs κ T (fun t => u.getD k 0 + (t / T) • (u.getD (k + 1) 0 - u.getD k 0)) x v → x 0 = x1 → v 0 = v1 →
      (∀ t ∈ Icc 0 T, vlen (x t - x0) < R) ∧
      |energyAt (drivenBy s rfs (u.getD (k + 1) 0)) κ (x T) (v T) - energyAt (drivenBy s rfs (u.getD k 0)) κ x1 v1| ≤ κ * δ := by
  obtain ⟨hl1, -, h3, -⟩ := c146_met s solver hs wants loc h hf glob hg u c hsol
  have h4 := h3 b hb
  unfold VDC.kept at h4
  rw [hb1.1, hb1.2.1, hb1.2.2.1] at h4
  have hstep := h4 _ (step_mem b.smooth u k (by omega)) δ hb1.2.2.2
  have hd : ∀ j, |u.getD (k + 1) 0 j - u.getD k 0 j| ≤ δ := fun j => (entry_le _ _ j).trans hstep
  obtain ⟨g1, g2⟩ := Ramp.leg s H htr hsep rfs κ hκ T hT _ _ δ h0 hd x0 hx0 R hR hz lam hl hst x1 v1 h1 hE
  exact ⟨g1, fun x v hp e1 e2 => ⟨(g2 x v hp e1 e2).1, (g2 x v hp e1 e2).2.2⟩⟩

namespace Ramp
/-- without voltages the ring trap has only its rf voltage -/
theorem ring_at_rest : drivenBy Ring.trap 1 0 = ⟨Ring.trap, some 1⟩ := by
  have e : List.ofFn (0 : Fin Ring.trap.length → ℝ) = [0, 0] := rfl
  rw [drivenBy, e]
  simp [withDc, Ring.trap]

theorem ring_above {R : ℝ} (hR1 : R ≤ 1) : ∀ y ∈ rball ![0, 0, 7] R, 0 < y 2 := fun y hy => by
  have h1 := (Ring.abs_le_vlen (y - ![0, 0, 7]) 2).trans hy
  have e2 : ∀ a b c : ℝ, ![a, b, c] 2 = c := fun _ _ _ => rfl
  rw [Pi.sub_apply, e2] at h1
  linarith [(abs_le.1 h1).1]

theorem ring_speed {R lam : ℝ} (hl : 0 < lam) : vlen ![√lam * R / 2, 0, 0] ^ 2 = lam * R ^ 2 / 4 := by
  rw [Rob.vlen_sq, Fin.sum_univ_three]
  simp [div_pow, mul_pow, Real.sq_sqrt hl.le]
  ring
end Ramp

/-- An ion in the ring trap, with a velocity, while the voltage of the centre is raised steadily for a given time. -/
example : ∃ (T R lam : ℝ) (x v : ℝ → Fin 3 → ℝ), T = lam * R ^ 2 / 32 ∧ 0 < T ∧ v 0 ≠ 0 ∧ RampPath Ring.trap 1 1 T (fun t => 0 + t • raise) x v ∧
    ∀ t ∈ Icc 0 T, vlen (x t - ![0, 0, 7]) < R := by
  obtain ⟨R, lam, hR, hl, hR1, hc, hs, hg⟩ := Ring.trap_well
  have hpos : 0 < √lam * R / 2 := by positivity
  have h3 : 0 < lam * R ^ 2 := by positivity
  obtain ⟨x, v, hp, e1, e2, hin⟩ := c147_lasts Ring.trap 50 Ring.trap_is Ring.trap_separate 1 1 one_pos (lam * R ^ 2 / 32) (by positivity) 0 raise 1 zero_le_one
    (fun j => by unfold raise; split <;> simp) ![0, 0, 7] R hR (ring_above hR1) lam hl (by rw [ring_at_rest]; exact hs) (by rw [ring_at_rest]; exact hg)
    ![0, 0, 7] ![√lam * R / 2, 0, 0] (by rw [sub_self, (Rob.vlen_zero_iff 0).2 rfl]; exact hR)
    (by rw [ring_at_rest, energyAt, ring_speed hl]; linarith)
  exact ⟨_, R, lam, x, v, rfl, by positivity, fun h => hpos.ne' (by rw [e2] at h; simpa using congrFun h 0), hp, hin⟩

namespace Ramp
/-- a table from `solve` for the ring trap: without voltages first, then with voltages from `δ / 2` to `δ` -/
theorem ring_table (δ : ℝ) (hδ0 : 0 < δ) : ∃ solver, Minimises solver ∧ ∃ (wants : List (List Want)) (loc : List (List Ctr)) (u : Volts Ring.trap.length) (c : ℝ),
    wants.length = 2 ∧ Demands wants loc ∧ (∀ ws ∈ wants, ∀ w ∈ ws, w.fits Ring.trap) ∧
    solveSets Ring.trap solver loc [⟨1, 1, some δ, none, false, 1, .inf, true⟩] = .ok (u, c) ∧ u.getD 0 0 = 0 ∧ ∀ j, δ / 2 ≤ u.getD 1 0 j ∧ u.getD 1 0 j ≤ δ := by
  obtain ⟨solver, hs, hfind⟩ := exists_findsOptimum Ring.trap.length
  let wants : List (List Want) := [[.volts (some 0) (some 0) none], [.volts (some (δ / 2)) (some δ) none]]
  let loc : List (List Ctr) := [[.range (some 0) (some 0) none], [.range (some (δ / 2)) (some δ) none]]
  have hdem : Demands wants loc := .cons (.cons rfl .nil) (.cons (.cons rfl .nil) .nil)
  have hfits : ∀ ws ∈ wants, ∀ w ∈ ws, w.fits Ring.trap := by
    intro ws hws w hw
    simp only [wants, List.mem_cons, List.not_mem_nil, or_false] at hws
    rcases hws with rfl | rfl
    all_goals
      simp only [List.mem_cons, List.not_mem_nil, or_false] at hw
      subst hw
      intro j hj; cases hj
  let b : VDC := ⟨1, 1, some δ, none, false, 1, .inf, true⟩
  have hplain : ∀ c ∈ [b], VDC.plain c := by
    intro c hc
    rw [List.mem_singleton] at hc
    subst hc
    exact ⟨by simp [b], rfl, by norm_num [b]⟩
  let u0 : Volts Ring.trap.length := [fun _ => 0, fun _ => δ]
  have hmet0 : AllMet Ring.trap wants u0 := by
    intro k ws hk w hw
    match k, hk with
    | 0, hk =>
      simp only [wants, List.getElem?_cons_zero, Option.some.injEq] at hk
      subst hk
      have e : rowOf u0 0 = [0, 0] := rfl
      rw [e]
      simp only [List.mem_cons, List.not_mem_nil, or_false] at hw
      subst hw
      intro j hj _
      have hj' : j = 0 ∨ j = 1 := by have : j < 2 := hj; omega
      rcases hj' with rfl | rfl <;> simp
    | 1, hk =>
      simp only [wants, List.getElem?_cons_zero, List.getElem?_cons_succ, Option.some.injEq] at hk
      subst hk
      have e : rowOf u0 1 = [δ, δ] := rfl
      rw [e]
      simp only [List.mem_cons, List.not_mem_nil, or_false] at hw
      subst hw
      intro j hj _
      have hj' : j = 0 ∨ j = 1 := by have : j < 2 := hj; omega
      rcases hj' with rfl | rfl <;> simp <;> linarith
  have hkept0 : ∀ c ∈ [b], VDC.kept c u0 := by
    intro c hc
    rw [List.mem_singleton] at hc
    subst hc
    intro v hv m hm
    simp only [b, Option.some.injEq] at hm
    subst hm
    have : v = fun _ => δ := by
      have h1 : v ∈ voltDeriv 1 false 1 u0 := hv
      simp only [voltDeriv, diffLoop, diffStep, u0] at h1
      simp at h1
      rw [h1]
      funext j
      simp
    subst this
    have : Nonempty (Fin Ring.trap.length) := ⟨⟨0, by simp [Ring.trap]⟩⟩
    simp [sliceNorm, b, abs_of_pos hδ0]
  obtain ⟨u, c, hu⟩ := c146_succeeds Ring.trap solver hfind wants loc hdem hfits [b] hplain (by
    intro ws hws
    simp only [wants, List.mem_cons, List.not_mem_nil, or_false] at hws
    rcases hws with rfl | rfl
    · exact ⟨0, 0, by simp⟩
    · exact ⟨δ / 2, δ, by simp⟩) u0 rfl hmet0 hkept0
  obtain ⟨m1, m2, -⟩ := c146_met Ring.trap solver hs wants loc hdem hfits [b] hplain u c hu
  have hrow0 : u.getD 0 0 = 0 := by
    funext j
    have h2 := m2 0 _ rfl (.volts (some 0) (some 0) none) (by simp) j.val j.isLt trivial
    rw [row_getD u 0 j.val j.isLt] at h2
    exact le_antisymm (h2.2 0 rfl) (h2.1 0 rfl)
  have hrow1 : ∀ j, δ / 2 ≤ u.getD 1 0 j ∧ u.getD 1 0 j ≤ δ := fun j => by
    have h2 := m2 1 _ rfl (.volts (some (δ / 2)) (some δ) none) (by simp) j.val j.isLt trivial
    rw [row_getD u 1 j.val j.isLt] at h2
    exact ⟨h2.1 _ rfl, h2.2 _ rfl⟩
  exact ⟨solver, hs, wants, loc, u, c, rfl, hdem, hfits, hu, hrow0, hrow1⟩

theorem ring_plain (δ : ℝ) : ∀ c ∈ [(⟨1, 1, some δ, none, false, 1, .inf, true⟩ : VDC)], VDC.plain c := by
  intro c hc
  rw [List.mem_singleton] at hc
  subst hc
  exact ⟨by simp, rfl, by norm_num⟩
end Ramp

/-- Two rows of voltages from `solve` for the ring trap, without voltages first and then with voltages of at least `δ / 2`: an ion with a velocity stays in the
well while the voltages go from the first row to the second, in whatever time. -/
example : ∃ solver, Minimises solver ∧ ∃ (δ R : ℝ) (loc : List (List Ctr)) (u : Volts Ring.trap.length) (c : ℝ) (v1 : Fin 3 → ℝ), 0 < δ ∧ v1 ≠ 0 ∧
    solveSets Ring.trap solver loc [⟨1, 1, some δ, none, false, 1, .inf, true⟩] = .ok (u, c) ∧ (∀ j, δ / 2 ≤ u.getD 1 0 j) ∧
    ∀ T > 0, ∃ x v, RampPath Ring.trap 1 1 T (fun t => u.getD 0 0 + (t / T) • (u.getD 1 0 - u.getD 0 0)) x v ∧ v 0 = v1 ∧
      ∀ t ∈ Icc 0 T, vlen (x t - ![0, 0, 7]) < R := by
  obtain ⟨R, lam, hR, hl, hR1, -, hst, hg⟩ := Ring.trap_well
  have hpos : 0 < √lam * R / 2 := by positivity
  have h3 : 0 < lam * R ^ 2 := by positivity
  set δ := lam * R ^ 2 / 32 with hδ
  have hδ0 : 0 < δ := by positivity
  obtain ⟨solver, hs, wants, loc, u, c, hlen, hdem, hfits, hu, hrow0, hrow1⟩ := ring_table δ hδ0
  refine ⟨solver, hs, δ, R, loc, u, c, ![√lam * R / 2, 0, 0], hδ0, fun h => hpos.ne' (by simpa using congrFun h 0), hu, fun j => (hrow1 j).1, fun T hT => ?_⟩
  obtain ⟨⟨x, v, k1, k2, k3⟩, k4⟩ := c147_table Ring.trap solver hs wants loc hdem hfits _ (ring_plain δ) u c hu δ hδ0.le _ (List.mem_singleton.2 rfl) ⟨rfl, rfl, rfl, rfl⟩ 50 Ring.trap_is
    Ring.trap_separate 1 1 one_pos 0 (by omega) T hT ![0, 0, 7] (by rw [hrow0, ring_at_rest]; exact hg) R hR (ring_above hR1) lam hl
    (by rw [hrow0, ring_at_rest]; exact hst) ![0, 0, 7] ![√lam * R / 2, 0, 0] (by rw [sub_self, (Rob.vlen_zero_iff 0).2 rfl]; exact hR)
    (by rw [hrow0, ring_at_rest, energyAt, ring_speed hl]; linarith)
  exact ⟨x, v, k1, k3, (k4 x v k1 k2 k3).1⟩

end Electrode
