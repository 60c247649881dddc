import Verif.Props.Motion
import Verif.Props.WaveformsExist

/-
C147: changing voltages change the energy of an ion by no more than the charge times the change.
-/
namespace Electrode
open Set Filter Topology Spec

namespace Spec
/-- the system `s` with the dc voltages `u` -/
noncomputable def drivenBy (s : List Elec) (c : ℝ) (u : Fin s.length → ℝ) : Sys := ⟨withDc s (List.ofFn u), some c⟩

/-- Position `x` and velocity `v` of an ion during the time from 0 to `T`, while the dc voltages are `w t`; units as for `IonPath`. -/
structure RampPath (s : List Elec) (c κ T : ℝ) (w : ℝ → Fin s.length → ℝ) (x v : ℝ → Fin 3 → ℝ) : Prop where
  velocity : ∀ t ∈ Icc 0 T, HasDerivWithinAt x (v t) (Icc 0 T) t
  force : ∀ t ∈ Icc 0 T, HasDerivWithinAt v (fun a => -κ * slopeAt (drivenBy s c (w t)) (x t) a) (Icc 0 T) t

/-- the voltages change no faster than `r` per unit of time -/
def rampedBy {n : Nat} (r T : ℝ) (w : ℝ → Fin n → ℝ) : Prop :=
  ∃ w' : ℝ → Fin n → ℝ, ∀ t ∈ Icc 0 T, HasDerivWithinAt w (w' t) (Icc 0 T) t ∧ ∀ j, |w' t j| ≤ r
end Spec

namespace Ramp
open Knob Mot Rob

variable {s : List Elec} {c : ℝ}

theorem turned_ofFn {n : Nat} (u v : Fin n → ℝ) (t : ℝ) : turned (List.ofFn u) t (List.ofFn v) = List.ofFn (u + t • v) := by
  unfold turned
  refine List.ext_getElem (by simp) fun i h1 h2 => ?_
  simp

theorem value_add (u v : Fin s.length → ℝ) (t : ℝ) {x : Fin 3 → ℝ} (hx : offSystem s (toV3 x)) :
    valueAt (drivenBy s c (u + t • v)) x = valueAt (drivenBy s c u) x + t * valueAt (drivenBy s 0 v) x := by
  unfold drivenBy
  rw [← turned_ofFn]
  exact total_turned s _ _ (by simp) (by simp) c t [] (by simp) _ hx

theorem slope_add (u v : Fin s.length → ℝ) (t : ℝ) {x : Fin 3 → ℝ} (hx : offSystem s (toV3 x)) (a : Fin 3) :
    slopeAt (drivenBy s c (u + t • v)) x a = slopeAt (drivenBy s c u) x a + t * slopeAt (drivenBy s 0 v) x a := by
  unfold drivenBy
  rw [← turned_ofFn]
  exact total_turned s _ _ (by simp) (by simp) c t [a] (by simp) _ hx

theorem value_sum (v : Fin s.length → ℝ) {x : Fin 3 → ℝ} (hx : offSystem s (toV3 x)) :
    valueAt (drivenBy s 0 v) x = ∑ j, v j * valueAt (drivenBy s 0 (Pi.single j 1)) x := by
  have h0 : valueAt (drivenBy s 0 0) x = 0 := by
    have := value_add (c := 0) (0 : Fin s.length → ℝ) 0 1 hx
    rw [smul_zero, add_zero] at this
    linarith
  let L : (Fin s.length → ℝ) →ₗ[ℝ] ℝ :=
    { toFun := fun v => valueAt (drivenBy s 0 v) x
      map_add' := fun u v => by
        have := value_add (c := 0) u v 1 hx
        rwa [one_smul, one_mul] at this
      map_smul' := fun t v => by
        have := value_add (c := 0) 0 v t hx
        rwa [zero_add, h0, zero_add] at this }
  have := LinearMap.pi_apply_eq_sum_univ L v
  simp only [smul_eq_mul] at this
  refine this.trans (Finset.sum_congr rfl fun j _ => ?_)
  congr 2
  show valueAt (drivenBy s 0 _) x = _
  congr 2
  funext i
  simp [Pi.single_apply, eq_comm]

theorem value_deriv {κ T : ℝ} {w w' : ℝ → Fin s.length → ℝ} {x v : ℝ → Fin 3 → ℝ} (hp : RampPath s c κ T w x v) (hoff : ∀ t ∈ Icc 0 T, offSystem s (toV3 (x t)))
    {t : ℝ} (ht : t ∈ Icc 0 T) (hw : HasDerivWithinAt w (w' t) (Icc 0 T) t) :
    HasDerivWithinAt (fun t => valueAt (drivenBy s c (w t)) (x t))
      ((∑ a, v t a * slopeAt (drivenBy s c (w t)) (x t) a) + valueAt (drivenBy s 0 (w' t)) (x t)) (Icc 0 T) t := by
  have h1 : ∀ (c : ℝ) (u : Fin s.length → ℝ), HasDerivWithinAt (fun t => valueAt (drivenBy s c u) (x t)) (∑ a, v t a * slopeAt (drivenBy s c u) (x t) a) (Icc 0 T) t :=
    fun c u => by
      obtain ⟨h, e⟩ := value_fderiv (els := withDc s (List.ofFn u)) (c := c) (off_withDc s _ (hoff t ht))
      unfold drivenBy
      rw [← e]
      exact h.comp_hasDerivWithinAt t (hp.velocity t ht)
  have h2 : ∀ j, HasDerivWithinAt (fun τ => (w τ j - w t j) * valueAt (drivenBy s 0 (Pi.single j 1)) (x τ))
      (w' t j * valueAt (drivenBy s 0 (Pi.single j 1)) (x t)) (Icc 0 T) t := fun j => by
    have h3 := ((hasDerivWithinAt_pi.1 hw j).sub_const (w t j)).mul (h1 0 (Pi.single j 1))
    rw [sub_self, zero_mul, add_zero] at h3
    exact h3
  have h4 := (h1 c (w t)).add (HasDerivWithinAt.fun_sum fun j (_ : j ∈ Finset.univ) => h2 j)
  rw [value_sum (w' t) (hoff t ht)]
  refine h4.congr (fun τ hτ => ?_) ?_
  · have e : w τ = w t + (1 : ℝ) • (w τ - w t) := by simp
    show valueAt (drivenBy s c (w τ)) (x τ) = _
    rw [e, value_add _ _ _ (hoff τ hτ), one_mul, value_sum _ (hoff τ hτ)]
    rfl
  · simp

theorem energy_ramp {κ T : ℝ} {w w' : ℝ → Fin s.length → ℝ} {x v : ℝ → Fin 3 → ℝ} (hp : RampPath s c κ T w x v) (hoff : ∀ t ∈ Icc 0 T, offSystem s (toV3 (x t)))
    {t : ℝ} (ht : t ∈ Icc 0 T) (hw : HasDerivWithinAt w (w' t) (Icc 0 T) t) :
    HasDerivWithinAt (fun t => energyAt (drivenBy s c (w t)) κ (x t) (v t)) (κ * valueAt (drivenBy s 0 (w' t)) (x t)) (Icc 0 T) t := by
  have h2 : ∀ a, HasDerivWithinAt (fun t => v t a ^ 2) (2 * v t a * (-κ * slopeAt (drivenBy s c (w t)) (x t) a)) (Icc 0 T) t := fun a => by
    have := ((hasDerivWithinAt_pi.1 (hp.force t ht)) a).fun_pow 2
    norm_num at this ⊢
    exact this
  have h3 : HasDerivWithinAt (fun t => ∑ a, v t a ^ 2) (∑ a, 2 * v t a * (-κ * slopeAt (drivenBy s c (w t)) (x t) a)) (Icc 0 T) t :=
    HasDerivWithinAt.fun_sum fun a _ => h2 a
  have h4 := (h3.div_const 2).add ((value_deriv hp hoff ht hw).const_mul κ)
  have e : (fun t => energyAt (drivenBy s c (w t)) κ (x t) (v t)) = fun t => (∑ a, v t a ^ 2) / 2 + κ * valueAt (drivenBy s c (w t)) (x t) := by
    funext t
    rw [energyAt, vlen_sq]
  rw [e]
  have e2 : (∑ a, 2 * v t a * (-κ * slopeAt (drivenBy s c (w t)) (x t) a)) / 2 + κ * ((∑ a, v t a * slopeAt (drivenBy s c (w t)) (x t) a)
      + valueAt (drivenBy s 0 (w' t)) (x t)) = κ * valueAt (drivenBy s 0 (w' t)) (x t) := by
    rw [mul_add, ← add_assoc]
    refine add_eq_right.2 ?_
    rw [Finset.sum_div, Finset.mul_sum, ← Finset.sum_add_distrib]
    exact Finset.sum_eq_zero fun a _ => by ring
  rw [e2] at h4
  exact h4

/-- unit voltages do not add up to more than the largest one -/
theorem value_bound {h : ℝ} (htr : polygonTrap h 0 s) (hsep : separate s) (u : Fin s.length → ℝ) (r : ℝ) (hr : 0 ≤ r) (hu : ∀ j, |u j| ≤ r)
    (x : Fin 3 → ℝ) (hx : 0 < x 2) : |valueAt (drivenBy s 0 u) x| ≤ r := by
  have hl : (List.ofFn u).length = s.length := by simp
  have hoff : offSystem s (toV3 x) := Limit.trap_off htr (Limit.images_ne (p := toV3 x) hx (.inl rfl))
  have h1 := (c133_separate (withDc s (List.ofFn u)) h 0 (Wave.trap_withDc hl htr) (Wave.separate_withDc hl hsep) .dc r hr (fun e he => by
    unfold withDc at he
    rw [← List.map_uncurry_zip_eq_zipWith, List.mem_map] at he
    obtain ⟨q, hq, rfl⟩ := he
    obtain ⟨j, hj⟩ := List.mem_ofFn.1 (List.of_mem_zip hq).2
    show |q.2| ≤ r
    rw [← hj]
    exact hu j) (toV3 x) hx (.inl rfl)).1
  have e : valueAt (drivenBy s 0 u) x = electricalAt (withDc s (List.ofFn u)) .dc [] (toV3 x) := by
    have hoff' := off_withDc s (List.ofFn u) hoff
    show totalAt _ [] _ = _
    unfold drivenBy
    rw [total_split _ 0 [] (by simp) _ fun _ _ => avail_of_off hoff' _ _, electricalAt_eq _ .dc [] (by simp) _ (avail_of_off hoff' _ _)]
    simp [psT]
  rw [e]
  exact h1

theorem rampPath_mono {κ T T' : ℝ} {w : ℝ → Fin s.length → ℝ} {x v : ℝ → Fin 3 → ℝ} (hm : RampPath s c κ T w x v) (h : T' ≤ T) : RampPath s c κ T' w x v :=
  ⟨fun t ht => (hm.velocity t ⟨ht.1, ht.2.trans h⟩).mono (Icc_subset_Icc_right h),
    fun t ht => (hm.force t ⟨ht.1, ht.2.trans h⟩).mono (Icc_subset_Icc_right h)⟩

theorem rampedBy_mono {n : Nat} {r T T' : ℝ} {w : ℝ → Fin n → ℝ} (hw : rampedBy r T w) (h : T' ≤ T) : rampedBy r T' w := by
  obtain ⟨w', h1⟩ := hw
  exact ⟨w', fun t ht => ⟨((h1 t ⟨ht.1, ht.2.trans h⟩).1).mono (Icc_subset_Icc_right h), (h1 t ⟨ht.1, ht.2.trans h⟩).2⟩⟩

theorem ramp_le {n : Nat} {r T : ℝ} {w : ℝ → Fin n → ℝ} (hw : rampedBy r T w) {t : ℝ} (ht : t ∈ Icc 0 T) (j : Fin n) : |w t j - w 0 j| ≤ r * t := by
  obtain ⟨w', h1⟩ := hw
  have := norm_image_sub_le_of_norm_deriv_le_segment' (f := fun t => w t j) (f' := fun t => w' t j) (C := r) (a := 0) (b := T)
    (fun t ht => hasDerivWithinAt_pi.1 (h1 t ht).1 j) (fun t ht => (h1 t ⟨ht.1, ht.2.le⟩).2 j) t ht
  simpa using this

end Ramp
open Ramp

/-- **C147.** Switching: if no voltage jumps by more than `δ`, the energy of an ion above the electrodes jumps by no more than `κ δ`. -/
theorem c147_switch (s : List Elec) (h : ℝ) (htr : polygonTrap h 0 s) (hsep : separate s) (c κ : ℝ) (hκ : 0 ≤ κ) (u w : Fin s.length → ℝ) (δ : ℝ) (h0 : 0 ≤ δ)
    (hd : ∀ j, |w j - u j| ≤ δ) (x v : Fin 3 → ℝ) (hx : 0 < x 2) :
    |energyAt (drivenBy s c w) κ x v - energyAt (drivenBy s c u) κ x v| ≤ κ * δ := by
  have hoff : offSystem s (toV3 x) := Limit.trap_off htr (Limit.images_ne (p := toV3 x) hx (.inl rfl))
  have e : w = u + (1 : ℝ) • (w - u) := by simp
  unfold energyAt
  rw [e, value_add _ _ _ hoff, one_mul, show vlen v ^ 2 / 2 + κ * (valueAt (drivenBy s c u) x + valueAt (drivenBy s 0 (w - u)) x)
    - (vlen v ^ 2 / 2 + κ * valueAt (drivenBy s c u) x) = κ * valueAt (drivenBy s 0 (w - u)) x by ring, abs_mul, abs_of_nonneg hκ]
  exact mul_le_mul_of_nonneg_left (value_bound htr hsep _ δ h0 hd x hx) hκ

/-- **C147.** Ramps: if no voltage changes faster than `r`, the energy of an ion above the electrodes changes by no more than `κ r t` in the time `t`. -/
theorem c147_ramp (s : List Elec) (h : ℝ) (htr : polygonTrap h 0 s) (hsep : separate s) (c κ : ℝ) (hκ : 0 ≤ κ) (T : ℝ) (w : ℝ → Fin s.length → ℝ) (r : ℝ)
    (h0 : 0 ≤ r) (hw : rampedBy r T w) (x v : ℝ → Fin 3 → ℝ) (hp : RampPath s c κ T w x v) (hx : ∀ t ∈ Icc 0 T, 0 < x t 2) (t : ℝ) (ht : t ∈ Icc 0 T) :
    |energyAt (drivenBy s c (w t)) κ (x t) (v t) - energyAt (drivenBy s c (w 0)) κ (x 0) (v 0)| ≤ κ * r * t := by
  obtain ⟨w', hw'⟩ := hw
  have hoff : ∀ t ∈ Icc 0 T, offSystem s (toV3 (x t)) := fun t ht => Limit.trap_off htr (Limit.images_ne (p := toV3 (x t)) (hx t ht) (.inl rfl))
  have := norm_image_sub_le_of_norm_deriv_le_segment' (f := fun t => energyAt (drivenBy s c (w t)) κ (x t) (v t)) (C := κ * r) (a := 0) (b := T)
    (fun t ht => energy_ramp hp hoff ht (hw' t ht).1) (fun t ht => by
      rw [Real.norm_eq_abs, abs_mul, abs_of_nonneg hκ]
      exact mul_le_mul_of_nonneg_left (value_bound htr hsep _ r h0 (hw' t ⟨ht.1, ht.2.le⟩).2 _ (hx t ⟨ht.1, ht.2.le⟩)) hκ) t ht
  simpa using this

/-- **C147.** An ion in a well survives ramps: with the energy `e` above the minimum it is, at the time `t`, no further away than
`√(2 (e / κ + 2 r t) / lam)`, as long as this is less than the radius of the ball with curvatures of at least `lam` at the start. -/
theorem c147_survives (s : List Elec) (h : ℝ) (htr : polygonTrap h 0 s) (hsep : separate s) (c κ : ℝ) (hκ : 0 < κ) (T : ℝ) (w : ℝ → Fin s.length → ℝ) (r : ℝ)
    (h0 : 0 ≤ r) (hw : rampedBy r T w) (x v : ℝ → Fin 3 → ℝ) (hp : RampPath s c κ T w x v) (x0 : Fin 3 → ℝ) (R : ℝ) (hR : 0 < R)
    (hz : ∀ y ∈ rball x0 R, 0 < y 2) (lam : ℝ) (hl : 0 < lam) (hst : Stiff (drivenBy s c (w 0)) lam (rball x0 R)) (hg : slopeAt (drivenBy s c (w 0)) x0 = 0)
    (hx0 : vlen (x 0 - x0) < R)
    (hE : energyAt (drivenBy s c (w 0)) κ (x 0) (v 0) - κ * valueAt (drivenBy s c (w 0)) x0 + 2 * κ * r * T < κ * lam * R ^ 2 / 2) :
    ∀ t ∈ Icc 0 T, vlen (x t - x0) < R ∧
      vlen (x t - x0) ^ 2 ≤ 2 * (energyAt (drivenBy s c (w 0)) κ (x 0) (v 0) - κ * valueAt (drivenBy s c (w 0)) x0 + 2 * κ * r * t) / (κ * lam) := by
  have hoff : ∀ y : Fin 3 → ℝ, 0 < y 2 → offSystem s (toV3 y) := fun y hy => Limit.trap_off htr (Limit.images_ne (p := toV3 y) hy (.inl rfl))
  have hu := (c130_unique _ c _ (Rob.rball_convex x0 R) (fun y hy => Knob.off_withDc s _ (hoff y (hz y hy))) lam hl hst x0 (Rob.center_mem x0 hR) hg).1
  set e0 := energyAt (drivenBy s c (w 0)) κ (x 0) (v 0) - κ * valueAt (drivenBy s c (w 0)) x0 with he0
  -- as long as the ion has been in the ball
  have key : ∀ t ∈ Icc 0 T, (∀ τ ∈ Icc 0 t, x τ ∈ rball x0 R) → vlen (x t - x0) ^ 2 ≤ 2 * (e0 + 2 * κ * r * t) / (κ * lam) := fun t ht hin => by
    have ht' : t ∈ Icc 0 t := ⟨ht.1, le_rfl⟩
    have h1 := (abs_le.1 (c147_ramp s h htr hsep c κ hκ.le t w r h0 (rampedBy_mono hw ht.2) x v (rampPath_mono hp ht.2) (fun τ hτ => hz _ (hin τ hτ)) t ht')).2
    have h2 := (abs_le.1 (c147_switch s h htr hsep c κ hκ.le (w 0) (w t) (r * t) (mul_nonneg h0 ht.1) (ramp_le hw ht) (x t) (v t) (hz _ (hin t ht')))).1
    have h3 := mul_le_mul_of_nonneg_left (hu (x t) (hin t ht')) hκ.le
    rw [le_div_iff₀ (by positivity)]
    have h4 : energyAt (drivenBy s c (w 0)) κ (x t) (v t) = vlen (v t) ^ 2 / 2 + κ * valueAt (drivenBy s c (w 0)) (x t) := rfl
    have h5 := sq_nonneg (vlen (v t))
    have h6 : κ * (valueAt (drivenBy s c (w 0)) x0 + lam / 2 * vlen (x t - x0) ^ 2) ≤ κ * valueAt (drivenBy s c (w 0)) (x t) := h3
    nlinarith
  have hlt : ∀ t ∈ Icc 0 T, (∀ τ ∈ Icc 0 t, x τ ∈ rball x0 R) → vlen (x t - x0) < R := fun t ht hin => by
    have h1 := key t ht hin
    by_contra hn
    push Not at hn
    rw [le_div_iff₀ (by positivity)] at h1
    have h2 : R ^ 2 ≤ vlen (x t - x0) ^ 2 := pow_le_pow_left₀ hR.le hn 2
    have h3 : κ * r * t ≤ κ * r * T := mul_le_mul_of_nonneg_left ht.2 (mul_nonneg hκ.le h0)
    have h4 : R ^ 2 * (κ * lam) ≤ vlen (x t - x0) ^ 2 * (κ * lam) := mul_le_mul_of_nonneg_right h2 (by positivity)
    linarith
  have hall : ∀ t ∈ Icc 0 T, vlen (x t - x0) < R := by
    by_contra hcon
    push Not at hcon
    obtain ⟨t1, ht1, hout⟩ := hcon
    have hlen : Continuous fun y : Fin 3 → ℝ => vlen (y - x0) := Rob.vlen_continuous.comp (continuous_id.sub continuous_const)
    have hcont : ContinuousOn (fun t => vlen (x t - x0)) (Icc 0 T) := hlen.comp_continuousOn fun t ht => (hp.velocity t ht).continuousWithinAt
    set S := Icc 0 T ∩ (fun t => vlen (x t - x0)) ⁻¹' Ici R with hS
    have hSc : IsClosed S := hcont.preimage_isClosed_of_isClosed isClosed_Icc isClosed_Ici
    have hSb : BddBelow S := ⟨0, fun t ht => ht.1.1⟩
    have hτ : sInf S ∈ S := hSc.csInf_mem ⟨t1, ht1, hout⟩ hSb
    set τ := sInf S with hτd
    have hbefore : ∀ t, 0 ≤ t → t < τ → vlen (x t - x0) < R := fun t h1 h2 => by
      by_contra hn
      exact absurd (csInf_le hSb ⟨⟨h1, h2.le.trans hτ.1.2⟩, not_lt.1 hn⟩) (not_le.2 h2)
    have hpos : 0 < τ := by
      refine lt_of_le_of_ne hτ.1.1 fun h => ?_
      have h2 : R ≤ vlen (x τ - x0) := hτ.2
      rw [← h] at h2
      linarith
    have hle : vlen (x τ - x0) ≤ R := by
      have h1 : ContinuousWithinAt (fun t => vlen (x t - x0)) (Ico 0 τ) τ := (hcont τ hτ.1).mono fun t ht => ⟨ht.1, ht.2.le.trans hτ.1.2⟩
      have hcl : τ ∈ closure (Ico 0 τ) := by rw [closure_Ico hpos.ne]; exact ⟨hpos.le, le_rfl⟩
      have h2 := h1.mem_closure_image hcl
      have h3 : closure ((fun t => vlen (x t - x0)) '' Ico 0 τ) ⊆ Iic R := closure_minimal (by
        rintro _ ⟨t, ht, rfl⟩
        exact (hbefore t ht.1 ht.2).le) isClosed_Iic
      exact h3 h2
    refine absurd (hlt τ hτ.1 fun t ht => ?_) (not_lt.2 hτ.2)
    rcases ht.2.eq_or_lt with h | h
    · rw [h]; exact hle
    · exact (hbefore t ht.1 h).le
  exact fun t ht => ⟨hall t ht, key t ht fun τ hτ => (hall τ ⟨hτ.1, hτ.2.trans ht.2⟩).le⟩

/-- **C147.** Voltages that go straight from `u` to `w`, as between two rows of a table, change the energy by no more than `κ δ`, however fast. -/
theorem c147_straight (s : List Elec) (h : ℝ) (htr : polygonTrap h 0 s) (hsep : separate s) (c κ : ℝ) (hκ : 0 ≤ κ) (T : ℝ) (hT : 0 < T) (u w : Fin s.length → ℝ)
    (δ : ℝ) (h0 : 0 ≤ δ) (hd : ∀ j, |w j - u j| ≤ δ) (x v : ℝ → Fin 3 → ℝ) (hp : RampPath s c κ T (fun t => u + (t / T) • (w - u)) x v)
    (hx : ∀ t ∈ Icc 0 T, 0 < x t 2) :
    |energyAt (drivenBy s c w) κ (x T) (v T) - energyAt (drivenBy s c u) κ (x 0) (v 0)| ≤ κ * δ := by
  have h1 := c147_ramp s h htr hsep c κ hκ T _ (δ / T) (by positivity) ⟨fun _ => (1 / T) • (w - u), fun t _ => ⟨?_, fun j => ?_⟩⟩ x v hp hx T ⟨hT.le, le_rfl⟩
  · have e : κ * (δ / T) * T = κ * δ := by field_simp
    rw [e] at h1
    simpa [hT.ne'] using h1
  · exact (((hasDerivWithinAt_id t _).div_const T).smul_const (w - u)).const_add u
  · show |(1 / T) * (w j - u j)| ≤ δ / T
    rw [abs_mul, abs_of_pos (by positivity), one_div_mul_eq_div]
    exact div_le_div_of_nonneg_right (hd j) hT.le

/-- **C147.** Such motions exist, for some time, from every position off the electrodes, with every velocity and for every steady change of the
voltages. -/
theorem c147_motion (s : List Elec) (c κ : ℝ) (u d : Fin s.length → ℝ) (x0 v0 : Fin 3 → ℝ) (hx : offSystem s (toV3 x0)) :
    ∃ T x v, 0 < T ∧ RampPath s c κ T (fun t => u + t • d) x v ∧ x 0 = x0 ∧ v 0 = v0 ∧ ∀ t ∈ Icc 0 T, offSystem s (toV3 (x t)) := by
  have hsm : ∀ (c : ℝ) (u : Fin s.length → ℝ) (a : Fin 3), ContDiffAt ℝ 1 (fun z : ℝ × (Fin 3 → ℝ) × (Fin 3 → ℝ) => slopeAt (drivenBy s c u) z.2.1 a) (0, x0, v0) :=
    fun c u a => by
      have h1 : ContDiffAt ℝ 1 (fun w => slopeAt (drivenBy s c u) w a) x0 :=
        ((total_smooth (withDc s (List.ofFn u)) c [a] (by simp)) x0 (Knob.off_withDc s _ hx)).of_le (by simp)
      exact ContDiffAt.comp (g := fun w => slopeAt (drivenBy s c u) w a) (f := fun z : ℝ × (Fin 3 → ℝ) × (Fin 3 → ℝ) => z.2.1) (0, x0, v0) h1
        (contDiffAt_fst.comp _ contDiffAt_snd)
  have hF : ContDiffAt ℝ 1 (fun z : ℝ × (Fin 3 → ℝ) × (Fin 3 → ℝ) => ((1 : ℝ), z.2.2,
      fun a => -κ * (slopeAt (drivenBy s c u) z.2.1 a + z.1 * slopeAt (drivenBy s 0 d) z.2.1 a))) (0, x0, v0) :=
    contDiffAt_const.prodMk ((contDiffAt_snd.comp _ contDiffAt_snd).prodMk
      (contDiffAt_pi.2 fun a => contDiffAt_const.mul ((hsm c u a).add (contDiffAt_fst.mul (hsm 0 d a)))))
  obtain ⟨α, h0, ε, hε, hα⟩ := hF.exists_forall_mem_closedBall_exists_eq_forall_mem_Ioo_hasDerivAt₀ 0
  have hopen : ∀ᶠ t in 𝓝 (0 : ℝ), offSystem s (toV3 (α t).2.1) := by
    have hc : ContinuousAt (fun t => (α t).2.1) 0 := (hα 0 ⟨by linarith, by linarith⟩).continuousAt.snd.fst
    have hm := hc.preimage_mem_nhds (t := {y : Fin 3 → ℝ | offSystem s (toV3 y)}) (by
      rw [h0]
      exact IsOpen.mem_nhds (offSystem_open s) hx)
    exact hm
  obtain ⟨ε', hε', hin⟩ := Metric.eventually_nhds_iff.1 hopen
  set T := min (ε / 2) (ε' / 2) with hT
  have hTp : 0 < T := lt_min (by linarith) (by linarith)
  have hle : ∀ t ∈ Icc 0 T, t ∈ Ioo (0 - ε) (0 + ε) := fun t ht => ⟨by linarith [ht.1], by linarith [ht.2, min_le_left (ε / 2) (ε' / 2)]⟩
  have hoff : ∀ t ∈ Icc 0 T, offSystem s (toV3 (α t).2.1) := fun t ht => hin (by
    rw [Real.dist_eq, sub_zero, abs_of_nonneg ht.1]
    linarith [ht.2, min_le_right (ε / 2) (ε' / 2)])
  have hD := fun t (ht : t ∈ Icc 0 T) => (hα t (hle t ht)).hasDerivWithinAt (s := Icc 0 T)
  have htime : ∀ t ∈ Icc 0 T, (α t).1 = t := fun t ht => by
    have h1 := norm_image_sub_le_of_norm_deriv_le_segment' (f := fun t => (α t).1 - t) (f' := fun _ => 0) (C := 0) (a := 0) (b := T)
      (fun t ht => by
        have h1 : HasDerivWithinAt (fun t => (α t).1) 1 (Icc 0 T) t := (hD t ht).fst
        have h2 := HasDerivWithinAt.fun_sub h1 (hasDerivWithinAt_id t _)
        rw [sub_self] at h2
        exact h2) (fun t _ => by simp) t ht
    simp only [zero_mul, norm_le_zero_iff] at h1
    rw [h0] at h1
    simp at h1
    linarith
  refine ⟨T, fun t => (α t).2.1, fun t => (α t).2.2, hTp, ⟨fun t ht => (hD t ht).snd.fst, fun t ht => ?_⟩, by simp [h0], by simp [h0], hoff⟩
  have h1 : HasDerivWithinAt (fun t => (α t).2.2)
      (fun a => -κ * (slopeAt (drivenBy s c u) (α t).2.1 a + (α t).1 * slopeAt (drivenBy s 0 d) (α t).2.1 a)) (Icc 0 T) t := (hD t ht).snd.snd
  rw [htime t ht] at h1
  simp only [slope_add _ _ _ (hoff t ht)]
  exact h1

namespace Ramp
/-- the voltage of the centre of the ring trap rises -/
noncomputable def raise : Fin Ring.trap.length → ℝ := fun j => if j.val = 1 then 1 else 0
end Ramp

/-- An ion in the ring trap, with a velocity, while the voltage of the centre is raised steadily. -/
example : ∃ (T : ℝ) (x v : ℝ → Fin 3 → ℝ) (R lam : ℝ), 0 < T ∧ 0 < lam ∧ R ≤ 1 ∧ v 0 ≠ 0 ∧ RampPath Ring.trap 1 1 T (fun t => 0 + t • raise) x v ∧
    ∀ t ∈ Icc 0 T, vlen (x t - ![0, 0, 7]) < R := by
  obtain ⟨R, lam, hR, hl, hR1, hc, hs, hg⟩ := Ring.trap_well
  have e : drivenBy Ring.trap 1 (0 + (0 : ℝ) • raise) = ⟨Ring.trap, some 1⟩ := by
    rw [zero_smul, add_zero]
    have e : List.ofFn (0 : Fin Ring.trap.length → ℝ) = [0, 0] := rfl
    rw [drivenBy, e]
    simp [withDc, Ring.trap]
  set w := √lam * R / 2 with hw
  have hpos : 0 < w := by positivity
  obtain ⟨T, x, v, hT, hp, e1, e2, -⟩ := c147_motion Ring.trap 1 1 0 raise ![0, 0, 7] ![w, 0, 0]
    (by rw [show toV3 ![0, 0, 7] = ⟨0, 0, 7⟩ by simp [toV3]]; exact Ring.trap_off7)
  set T' := min T (lam * R ^ 2 / 16) with hT'
  refine ⟨T', x, v, R, lam, lt_min hT (by positivity), hl, hR1, fun h => hpos.ne' (by rw [e2] at h; simpa using congrFun h 0), rampPath_mono hp (min_le_left _ _),
    fun t ht => (c147_survives Ring.trap 50 Ring.trap_is Ring.trap_separate 1 1 one_pos T' _ 1 zero_le_one
      ⟨fun _ => raise, fun t _ => ⟨?_, fun j => ?_⟩⟩ x v (rampPath_mono hp (min_le_left _ _)) ![0, 0, 7] R hR (fun y hy => ?_) lam hl ?_ ?_ ?_ ?_ t ht).1⟩
  · have h1 := ((hasDerivWithinAt_id t (Icc 0 T')).smul_const raise).const_add 0
    rw [one_smul] at h1
    exact h1
  · show |raise j| ≤ 1
    unfold raise
    split <;> simp
  · have h1 := (Ring.abs_le_vlen (y - ![0, 0, 7]) 2).trans hy
    have e2 : ∀ a b c : ℝ, ![a, b, c] 2 = c := fun _ _ _ => rfl
    rw [Pi.sub_apply, e2] at h1
    linarith [(abs_le.1 h1).1]
  · rw [e]; exact hs
  · rw [e]; exact hg
  · rw [e1, sub_self, (Rob.vlen_zero_iff 0).2 rfl]; exact hR
  · rw [e, e1, e2, energyAt]
    have h2 : vlen ![w, 0, 0] ^ 2 = lam * R ^ 2 / 4 := by
      rw [Rob.vlen_sq, Fin.sum_univ_three]
      simp [hw, div_pow, mul_pow, Real.sq_sqrt hl.le]
      ring
    have h3 : 0 < lam * R ^ 2 := by positivity
    have h4 : T' ≤ lam * R ^ 2 / 16 := min_le_right _ _
    rw [h2]
    linarith

end Electrode
