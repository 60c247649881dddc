import Verif.Spec.Motion
import Verif.Props.Robust
import Verif.Props.Analyze
import Mathlib.Analysis.ODE.ExistUnique

/-
C131: the energy of an ion in the combined potential is constant, and an ion with less energy than the barrier stays in the trap.
-/
namespace Electrode
open Spec Set Filter Topology
open Rob

namespace Mot

variable {els : List Elec} {c : ℝ}

theorem value_fderiv {x : Fin 3 → ℝ} (hx : offSystem els (toV3 x)) :
    HasFDerivAt (valueAt ⟨els, some c⟩) (fderiv ℝ (valueAt ⟨els, some c⟩) x) x ∧
      ∀ v, fderiv ℝ (valueAt ⟨els, some c⟩) x v = ∑ a, v a * slopeAt ⟨els, some c⟩ x a := by
  have h1 : HasFDerivAt (valueAt ⟨els, some c⟩) (fderiv ℝ (valueAt ⟨els, some c⟩) x) x :=
    ((total_smooth els c [] (by simp)).diff (w := x) hx).hasFDerivAt
  refine ⟨h1, fun v => ?_⟩
  have e0 : x + (0:ℝ) • v = x := by simp
  have h2 := line (els := els) (c := c) x v 0 [] (by simp) (by rw [e0]; exact hx)
  have h3 : HasDerivAt (fun t : ℝ => x + t • v) v 0 := by
    have h := ((hasDerivAt_id (0:ℝ)).smul_const v).const_add x
    rwa [one_smul] at h
  have h4 : HasDerivAt (fun t : ℝ => valueAt ⟨els, some c⟩ (x + t • v)) (fderiv ℝ (valueAt ⟨els, some c⟩) x v) 0 := by
    have h5 : HasFDerivAt (valueAt ⟨els, some c⟩) (fderiv ℝ (valueAt ⟨els, some c⟩) x) ((fun t : ℝ => x + t • v) 0) := by
      simp only [e0]; exact h1
    exact h5.comp_hasDerivAt 0 h3
  have := h4.unique h2
  rw [this, e0]
  rfl

theorem energy_deriv {κ T : ℝ} {x v : ℝ → Fin 3 → ℝ} (hm : IonPath ⟨els, some c⟩ κ T x v) {t : ℝ} (ht : t ∈ Icc 0 T)
    (hx : offSystem els (toV3 (x t))) : HasDerivWithinAt (fun t => energyAt ⟨els, some c⟩ κ (x t) (v t)) 0 (Icc 0 T) t := by
  have h1 : HasDerivWithinAt (fun t => valueAt ⟨els, some c⟩ (x t)) (∑ a, v t a * slopeAt ⟨els, some c⟩ (x t) a) (Icc 0 T) t := by
    obtain ⟨h, e⟩ := value_fderiv (els := els) (c := c) hx
    rw [← e]
    exact h.comp_hasDerivWithinAt t (hm.velocity t ht)
  have h2 : ∀ a, HasDerivWithinAt (fun t => v t a ^ 2) (2 * v t a * (-κ * slopeAt ⟨els, some c⟩ (x t) a)) (Icc 0 T) t := fun a => by
    have := ((hasDerivWithinAt_pi.1 (hm.force t ht)) a).fun_pow 2
    norm_num at this ⊢
    exact this
  have h3 : HasDerivWithinAt (fun t => ∑ a, v t a ^ 2) (∑ a, 2 * v t a * (-κ * slopeAt ⟨els, some c⟩ (x t) a)) (Icc 0 T) t :=
    HasDerivWithinAt.fun_sum fun a _ => h2 a
  have h4 := (h3.div_const 2).add (h1.const_mul κ)
  have e : (fun t => energyAt ⟨els, some c⟩ κ (x t) (v t)) = fun t => (∑ a, v t a ^ 2) / 2 + κ * valueAt ⟨els, some c⟩ (x t) := by
    funext t
    rw [energyAt, vlen_sq]
  rw [e]
  have e2 : (∑ a, 2 * v t a * (-κ * slopeAt ⟨els, some c⟩ (x t) a)) / 2 + κ * ∑ a, v t a * slopeAt ⟨els, some c⟩ (x t) a = 0 := by
    rw [Finset.sum_div, Finset.mul_sum, ← Finset.sum_add_distrib]
    exact Finset.sum_eq_zero fun a _ => by ring
  rw [e2] at h4
  exact h4

theorem ionPath_mono {s : Sys} {κ T T' : ℝ} {x v : ℝ → Fin 3 → ℝ} (hm : IonPath s κ T x v) (h : T' ≤ T) : IonPath s κ T' x v :=
  ⟨fun t ht => (hm.velocity t ⟨ht.1, ht.2.trans h⟩).mono (Icc_subset_Icc_right h),
    fun t ht => (hm.force t ⟨ht.1, ht.2.trans h⟩).mono (Icc_subset_Icc_right h)⟩

end Mot
open Mot

/-- **C131.** The energy is constant as long as the ion does not touch an electrode. -/
theorem c131_energy (els : List Elec) (c κ T : ℝ) (x v : ℝ → Fin 3 → ℝ) (hm : IonPath ⟨els, some c⟩ κ T x v)
    (hx : ∀ t ∈ Icc 0 T, offSystem els (toV3 (x t))) (t : ℝ) (ht : t ∈ Icc 0 T) :
    energyAt ⟨els, some c⟩ κ (x t) (v t) = energyAt ⟨els, some c⟩ κ (x 0) (v 0) := by
  refine constant_of_has_deriv_right_zero (f := fun t => energyAt ⟨els, some c⟩ κ (x t) (v t)) (a := 0) (b := T)
    (fun t ht => (energy_deriv hm ht (hx t ht)).continuousWithinAt) (fun t ht => ?_) t ht
  exact (energy_deriv hm ⟨ht.1, ht.2.le⟩ (hx t ⟨ht.1, ht.2.le⟩)).mono_of_mem_nhdsWithin (Icc_mem_nhdsGE_of_mem ht)

/-- **C131.** An ion with less energy than the lowest point of the boundary of a region never leaves it. -/
theorem c131_confined (els : List Elec) (c κ T : ℝ) (hκ : 0 ≤ κ) (x v : ℝ → Fin 3 → ℝ) (hm : IonPath ⟨els, some c⟩ κ T x v)
    (U : Set (Fin 3 → ℝ)) (hU : IsOpen U) (hc : clearOf ⟨els, some c⟩ (closure U)) (D : ℝ)
    (hD : ∀ y ∈ frontier U, D ≤ valueAt ⟨els, some c⟩ y) (h0 : x 0 ∈ U) (hE : energyAt ⟨els, some c⟩ κ (x 0) (v 0) < κ * D) :
    ∀ t ∈ Icc 0 T, x t ∈ U ∧ energyAt ⟨els, some c⟩ κ (x t) (v t) = energyAt ⟨els, some c⟩ κ (x 0) (v 0) := by
  have key : ∀ t ∈ Icc 0 T, x t ∈ U := by
    by_contra hcon
    push Not at hcon
    obtain ⟨t1, ht1, hout⟩ := hcon
    have hcont : ContinuousOn x (Icc 0 T) := fun t ht => (hm.velocity t ht).continuousWithinAt
    set S := Icc 0 T ∩ x ⁻¹' Uᶜ with hS
    have hSc : IsClosed S := hcont.preimage_isClosed_of_isClosed isClosed_Icc hU.isClosed_compl
    have hSb : BddBelow S := ⟨0, fun t ht => ht.1.1⟩
    have hτ : sInf S ∈ S := hSc.csInf_mem ⟨t1, ht1, hout⟩ hSb
    set τ := sInf S with hτd
    have hbefore : ∀ t, 0 ≤ t → t < τ → x t ∈ U := fun t h1 h2 => by
      by_contra hn
      exact absurd (csInf_le hSb ⟨⟨h1, h2.le.trans hτ.1.2⟩, hn⟩) (not_le.2 h2)
    have hpos : 0 < τ := by
      refine lt_of_le_of_ne hτ.1.1 fun h => hτ.2 ?_
      rw [← h]; exact h0
    have hcl : x τ ∈ closure U := by
      have h1 : ContinuousWithinAt x (Ico 0 τ) τ := (hcont τ hτ.1).mono fun t ht => ⟨ht.1, ht.2.le.trans hτ.1.2⟩
      refine h1.mem_closure ?_ fun t ht => hbefore t ht.1 ht.2
      rw [closure_Ico hpos.ne]
      exact ⟨hpos.le, le_rfl⟩
    have hfr : x τ ∈ frontier U := by
      rw [hU.frontier_eq]
      exact ⟨hcl, hτ.2⟩
    have hoff : ∀ t ∈ Icc 0 τ, offSystem els (toV3 (x t)) := fun t ht => by
      rcases ht.2.eq_or_lt with h | h
      · rw [h]; exact hc _ hcl
      · exact hc _ (subset_closure (hbefore t ht.1 h))
    have he := c131_energy els c κ τ x v (ionPath_mono hm hτ.1.2) hoff τ ⟨hpos.le, le_rfl⟩
    rw [← he] at hE
    have h1 := mul_le_mul_of_nonneg_left (hD _ hfr) hκ
    have h2 := sq_nonneg (vlen (v τ))
    unfold energyAt at hE
    linarith
  exact fun t ht => ⟨key t ht, c131_energy els c κ T x v hm (fun t ht => hc _ (subset_closure (key t ht))) t ht⟩

/-- **C131.** Its speed is at most that which the energy above the lowest potential in the region allows. -/
theorem c131_speed (els : List Elec) (c κ T : ℝ) (hκ : 0 ≤ κ) (x v : ℝ → Fin 3 → ℝ) (hm : IonPath ⟨els, some c⟩ κ T x v)
    (U : Set (Fin 3 → ℝ)) (hU : IsOpen U) (hc : clearOf ⟨els, some c⟩ (closure U)) (D : ℝ)
    (hD : ∀ y ∈ frontier U, D ≤ valueAt ⟨els, some c⟩ y) (h0 : x 0 ∈ U) (hE : energyAt ⟨els, some c⟩ κ (x 0) (v 0) < κ * D)
    (m : ℝ) (hlow : ∀ y ∈ U, m ≤ valueAt ⟨els, some c⟩ y) :
    ∀ t ∈ Icc 0 T, vlen (v t) ^ 2 ≤ 2 * (energyAt ⟨els, some c⟩ κ (x 0) (v 0) - κ * m) := by
  intro t ht
  obtain ⟨h1, h2⟩ := c131_confined els c κ T hκ x v hm U hU hc D hD h0 hE t ht
  rw [← h2, energyAt]
  have := mul_le_mul_of_nonneg_left (hlow _ h1) hκ
  linarith

/-- **C131.** Around a minimum with curvatures of at least `lam` an ion with the energy `e` above the minimum moves no further away than
`√(2 e / (κ lam))`. -/
theorem c131_amplitude (els : List Elec) (c κ T : ℝ) (hκ : 0 < κ) (x v : ℝ → Fin 3 → ℝ) (hm : IonPath ⟨els, some c⟩ κ T x v)
    (x0 : Fin 3 → ℝ) (R : ℝ) (hR : 0 < R) (hc : clearOf ⟨els, some c⟩ (rball x0 R)) (lam : ℝ) (hl : 0 < lam) (hs : Stiff ⟨els, some c⟩ lam (rball x0 R))
    (hg : slopeAt ⟨els, some c⟩ x0 = 0) (h0 : vlen (x 0 - x0) < R)
    (hE : energyAt ⟨els, some c⟩ κ (x 0) (v 0) - κ * valueAt ⟨els, some c⟩ x0 < κ * lam * R ^ 2 / 2) :
    ∀ t ∈ Icc 0 T, vlen (x t - x0) ^ 2 ≤ 2 * (energyAt ⟨els, some c⟩ κ (x 0) (v 0) - κ * valueAt ⟨els, some c⟩ x0) / (κ * lam) := by
  have hlen : Continuous fun y => vlen (y - x0) := vlen_continuous.comp (continuous_id.sub continuous_const)
  have hU : IsOpen {y | vlen (y - x0) < R} := isOpen_lt hlen continuous_const
  have hcl : closure {y | vlen (y - x0) < R} ⊆ rball x0 R := closure_lt_subset_le hlen continuous_const
  have hu := (c130_unique els c _ (rball_convex x0 R) hc lam hl hs x0 (center_mem x0 hR) hg).1
  have hfr : ∀ y ∈ frontier {y | vlen (y - x0) < R}, valueAt ⟨els, some c⟩ x0 + lam / 2 * R ^ 2 ≤ valueAt ⟨els, some c⟩ y := fun y hy => by
    have h1 : vlen (y - x0) = R := frontier_lt_subset_eq hlen continuous_const hy
    have h2 := hu y (hcl (frontier_subset_closure hy))
    rwa [h1] at h2
  intro t ht
  obtain ⟨h1, h2⟩ := c131_confined els c κ T hκ.le x v hm _ hU (fun y hy => hc y (hcl hy)) _ hfr h0 (by linarith) t ht
  have h3 := hu (x t) (show vlen _ ≤ R from le_of_lt h1)
  rw [le_div_iff₀ (by positivity), ← h2, energyAt]
  have h4 := mul_le_mul_of_nonneg_left h3 hκ.le
  have := sq_nonneg (vlen (v t))
  linarith

namespace Mot

/-- position and velocity together -/
noncomputable def flow (s : Sys) (κ : ℝ) (z : (Fin 3 → ℝ) × (Fin 3 → ℝ)) : (Fin 3 → ℝ) × (Fin 3 → ℝ) := (z.2, fun a => -κ * slopeAt s z.1 a)

theorem flow_smooth (κ : ℝ) (z : (Fin 3 → ℝ) × (Fin 3 → ℝ)) (hz : offSystem els (toV3 z.1)) : ContDiffAt ℝ 1 (flow ⟨els, some c⟩ κ) z := by
  refine contDiffAt_snd.prodMk (contDiffAt_pi.2 fun a => contDiffAt_const.mul ?_)
  have h1 : ContDiffAt ℝ 1 (fun w => slopeAt ⟨els, some c⟩ w a) z.1 := ((total_smooth els c [a] (by simp)) z.1 hz).of_le (by simp)
  exact ContDiffAt.comp (g := fun w => slopeAt ⟨els, some c⟩ w a) z h1 contDiffAt_fst

theorem ionPath_iff {s : Sys} {κ T : ℝ} {x v : ℝ → Fin 3 → ℝ} :
    IonPath s κ T x v ↔ ∀ t ∈ Icc 0 T, HasDerivWithinAt (fun t => (x t, v t)) (flow s κ (x t, v t)) (Icc 0 T) t := by
  constructor
  · exact fun h t ht => (h.velocity t ht).prodMk (h.force t ht)
  · exact fun h => ⟨fun t ht => (h t ht).fst, fun t ht => (h t ht).snd⟩

/-- continuing a solution -/
theorem glue {E : Type*} [NormedAddCommGroup E] [NormedSpace ℝ E] {f : E → E} {T1 T2 : ℝ} (h0 : 0 ≤ T1) (h1 : T1 ≤ T2) {γ β : ℝ → E}
    (hγ : ∀ t ∈ Icc 0 T1, HasDerivWithinAt γ (f (γ t)) (Icc 0 T1) t) (hβ : ∀ t ∈ Icc T1 T2, HasDerivWithinAt β (f (β t)) (Icc T1 T2) t)
    (he : β T1 = γ T1) : ∀ t ∈ Icc 0 T2,
      HasDerivWithinAt (fun t => if t ≤ T1 then γ t else β t) (f (if t ≤ T1 then γ t else β t)) (Icc 0 T2) t := by
  intro t ht
  have eβ : ∀ t, T1 ≤ t → (if t ≤ T1 then γ t else β t) = β t := fun t h => by
    split
    · next h2 => rw [le_antisymm h2 h, he]
    · rfl
  rw [← Icc_union_Icc_eq_Icc h0 h1]
  refine HasDerivWithinAt.union ?_ ?_
  · by_cases h : t ≤ T1
    · rw [if_pos h]
      exact (hγ t ⟨ht.1, h⟩).congr (fun s hs => if_pos hs.2) (if_pos h)
    · refine HasFDerivWithinAt.of_notMem_closure ?_
      rw [isClosed_Icc.closure_eq]
      exact fun h2 => h h2.2
  · by_cases h : T1 ≤ t
    · rw [eβ t h]
      exact (hβ t ⟨h, ht.2⟩).congr (fun s hs => eβ s hs.1) (eβ t h)
    · refine HasFDerivWithinAt.of_notMem_closure ?_
      rw [isClosed_Icc.closure_eq]
      exact fun h2 => h h2.1

end Mot

/-- **C131.** Such motions exist, for some time, from every position off the electrodes and with every velocity. -/
theorem c131_motion (els : List Elec) (c κ : ℝ) (x0 v0 : Fin 3 → ℝ) (hx : offSystem els (toV3 x0)) :
    ∃ T x v, 0 < T ∧ IonPath ⟨els, some c⟩ κ T x v ∧ x 0 = x0 ∧ v 0 = v0 := by
  obtain ⟨α, h0, ε, hε, hα⟩ := (flow_smooth (els := els) (c := c) κ (x0, v0) hx).exists_forall_mem_closedBall_exists_eq_forall_mem_Ioo_hasDerivAt₀ 0
  refine ⟨ε / 2, fun t => (α t).1, fun t => (α t).2, by positivity, ionPath_iff.2 fun t ht => ?_, by simp [h0], by simp [h0]⟩
  exact (hα t ⟨by linarith [ht.1], by linarith [ht.2]⟩).hasDerivWithinAt

/-- **C131.** An ion with less energy than the barrier around a bounded region keeps moving there forever: a motion exists for any length of
time. -/
theorem c131_forever (els : List Elec) (c κ : ℝ) (hκ : 0 ≤ κ) (U : Set (Fin 3 → ℝ)) (hU : IsOpen U) (hb : Bornology.IsBounded U)
    (hc : clearOf ⟨els, some c⟩ (closure U)) (D : ℝ) (hD : ∀ y ∈ frontier U, D ≤ valueAt ⟨els, some c⟩ y) (x0 v0 : Fin 3 → ℝ) (h0 : x0 ∈ U)
    (hE : energyAt ⟨els, some c⟩ κ x0 v0 < κ * D) (T : ℝ) :
    ∃ x v, IonPath ⟨els, some c⟩ κ T x v ∧ x 0 = x0 ∧ v 0 = v0 ∧ ∀ t ∈ Icc 0 T, x t ∈ U := by
  have hcont : ContinuousOn (valueAt ⟨els, some c⟩) (closure U) := fun y hy =>
    ((total_smooth els c [] (by simp)) y (hc y hy)).continuousAt.continuousWithinAt
  obtain ⟨B, hB⟩ := hb.isCompact_closure.exists_bound_of_continuousOn hcont
  have hlow : ∀ y ∈ U, -B ≤ valueAt ⟨els, some c⟩ y := fun y hy => (abs_le.1 (hB y (subset_closure hy))).1
  set Q := 2 * (energyAt ⟨els, some c⟩ κ x0 v0 - κ * -B) with hQ
  set C : Set ((Fin 3 → ℝ) × (Fin 3 → ℝ)) := closure U ×ˢ rball 0 (√Q) with hC
  have hCc : IsCompact C := hb.isCompact_closure.prod (rball_compact 0 _)
  -- a common time step
  have hstep : ∃ ε > 0, ∀ z ∈ C, ∃ α : ℝ → (Fin 3 → ℝ) × (Fin 3 → ℝ), α 0 = z ∧
      ∀ t ∈ Ioo (-ε) ε, HasDerivAt α (flow ⟨els, some c⟩ κ (α t)) t := by
    have hloc : ∀ z ∈ C, ∃ r > (0:ℝ), ∃ ε > (0:ℝ), ∀ y ∈ Metric.closedBall z r, ∃ α : ℝ → (Fin 3 → ℝ) × (Fin 3 → ℝ), α 0 = y ∧
        ∀ t ∈ Ioo (0 - ε) (0 + ε), HasDerivAt α (flow ⟨els, some c⟩ κ (α t)) t := fun z hz =>
      (flow_smooth (els := els) (c := c) κ z (hc _ hz.1)).exists_forall_mem_closedBall_exists_eq_forall_mem_Ioo_hasDerivAt 0
    choose! r hr ε hε hα using hloc
    obtain ⟨S, hS, hcov⟩ := hCc.elim_nhds_subcover (fun z => Metric.ball z (r z)) fun z hz => Metric.ball_mem_nhds z (hr z hz)
    have hmin : ∃ δ > 0, ∀ z ∈ S, δ ≤ ε z := by
      clear hcov
      induction S using Finset.induction_on with
      | empty => exact ⟨1, one_pos, by simp⟩
      | insert a S ha ih =>
        obtain ⟨δ, h1, h2⟩ := ih fun z hz => hS z (Finset.mem_insert_of_mem hz)
        refine ⟨min δ (ε a), lt_min h1 (hε a (hS a (Finset.mem_insert_self _ _))), fun z hz => ?_⟩
        rcases Finset.mem_insert.1 hz with rfl | h
        · exact min_le_right _ _
        · exact (min_le_left _ _).trans (h2 z h)
    obtain ⟨δ, h1, h2⟩ := hmin
    refine ⟨δ, h1, fun z hz => ?_⟩
    obtain ⟨w, hw, hzw⟩ := mem_iUnion₂.1 (hcov hz)
    obtain ⟨α, e, hd⟩ := hα w (hS w hw) z (Metric.ball_subset_closedBall hzw)
    have := h2 w hw
    exact ⟨α, e, fun t ht => hd t ⟨by linarith [ht.1], by linarith [ht.2]⟩⟩
  obtain ⟨ε, hε, hα⟩ := hstep
  have hn : ∀ n : ℕ, ∃ x v, IonPath ⟨els, some c⟩ κ (n * (ε / 2)) x v ∧ x 0 = x0 ∧ v 0 = v0 := by
    intro n
    induction n with
    | zero =>
      obtain ⟨T1, x, v, hT, hp, e1, e2⟩ := c131_motion els c κ x0 v0 (hc _ (subset_closure h0))
      exact ⟨x, v, ionPath_mono hp (by simpa using hT.le), e1, e2⟩
    | succ n ih =>
      obtain ⟨x, v, hp, e1, e2⟩ := ih
      set T1 : ℝ := n * (ε / 2) with hT1
      have hT0 : 0 ≤ T1 := by positivity
      have hend := c131_confined els c κ T1 hκ x v hp U hU hc D hD (by rw [e1]; exact h0) (by rw [e1, e2]; exact hE) T1 ⟨hT0, le_rfl⟩
      have hsp := c131_speed els c κ T1 hκ x v hp U hU hc D hD (by rw [e1]; exact h0) (by rw [e1, e2]; exact hE) (-B) hlow T1 ⟨hT0, le_rfl⟩
      rw [e1, e2] at hsp
      have hz : (x T1, v T1) ∈ C := by
        refine ⟨subset_closure hend.1, ?_⟩
        show vlen (v T1 - 0) ≤ _
        rw [sub_zero]
        exact Real.le_sqrt_of_sq_le hsp
      obtain ⟨α, ea, hd⟩ := hα _ hz
      have hsucc : ((n + 1 : ℕ) : ℝ) * (ε / 2) = T1 + ε / 2 := by rw [hT1]; push_cast; ring
      rw [hsucc]
      have hβ : ∀ t ∈ Icc T1 (T1 + ε / 2), HasDerivWithinAt (fun t => α (t - T1)) (flow ⟨els, some c⟩ κ (α (t - T1))) (Icc T1 (T1 + ε / 2)) t := fun t ht => by
        have h1 := hd (t - T1) ⟨by linarith [ht.1], by linarith [ht.2]⟩
        exact (h1.comp_sub_const t T1).hasDerivWithinAt
      have hg := glue hT0 (by linarith) (ionPath_iff.1 hp) hβ (by simp [ea])
      refine ⟨fun t => (if t ≤ T1 then (x t, v t) else α (t - T1)).1, fun t => (if t ≤ T1 then (x t, v t) else α (t - T1)).2, ionPath_iff.2 hg, ?_, ?_⟩
      · simp [hT0, e1]
      · simp [hT0, e2]
  obtain ⟨n, hnT⟩ := exists_nat_ge (T / (ε / 2))
  rw [div_le_iff₀ (by positivity)] at hnT
  obtain ⟨x, v, hp, e1, e2⟩ := hn n
  have hpT := ionPath_mono hp hnT
  exact ⟨x, v, hpT, e1, e2, fun t ht => (c131_confined els c κ T hκ x v hpT U hU hc D hD (by rw [e1]; exact h0) (by rw [e1, e2]; exact hE) t ht).1⟩

/-- **C131.** Around a minimum with positive curvatures ions with little energy move forever. -/
theorem c131_well (els : List Elec) (c κ : ℝ) (hκ : 0 < κ) (x0 : Fin 3 → ℝ) (R : ℝ) (hR : 0 < R) (hc : clearOf ⟨els, some c⟩ (rball x0 R)) (lam : ℝ)
    (hl : 0 < lam) (hs : Stiff ⟨els, some c⟩ lam (rball x0 R)) (hg : slopeAt ⟨els, some c⟩ x0 = 0) (x1 v1 : Fin 3 → ℝ) (h1 : vlen (x1 - x0) < R)
    (hE : energyAt ⟨els, some c⟩ κ x1 v1 - κ * valueAt ⟨els, some c⟩ x0 < κ * lam * R ^ 2 / 2) (T : ℝ) :
    ∃ x v, IonPath ⟨els, some c⟩ κ T x v ∧ x 0 = x1 ∧ v 0 = v1 ∧
      ∀ t ∈ Icc 0 T, vlen (x t - x0) ^ 2 ≤ 2 * (energyAt ⟨els, some c⟩ κ x1 v1 - κ * valueAt ⟨els, some c⟩ x0) / (κ * lam) := by
  have hlen : Continuous fun y => vlen (y - x0) := vlen_continuous.comp (continuous_id.sub continuous_const)
  have hU : IsOpen {y | vlen (y - x0) < R} := isOpen_lt hlen continuous_const
  have hcl : closure {y | vlen (y - x0) < R} ⊆ rball x0 R := closure_lt_subset_le hlen continuous_const
  have hu := (c130_unique els c _ (rball_convex x0 R) hc lam hl hs x0 (center_mem x0 hR) hg).1
  obtain ⟨x, v, hp, e1, e2, -⟩ := c131_forever els c κ hκ.le _ hU ((rball_compact x0 R).isBounded.subset (subset_closure.trans hcl))
    (fun y hy => hc y (hcl hy)) (valueAt ⟨els, some c⟩ x0 + lam / 2 * R ^ 2) (fun y hy => by
      have h1 : vlen (y - x0) = R := frontier_lt_subset_eq hlen continuous_const hy
      have h2 := hu y (hcl (frontier_subset_closure hy))
      rwa [h1] at h2) x1 v1 h1 (by linarith) T
  refine ⟨x, v, hp, e1, e2, ?_⟩
  have := c131_amplitude els c κ T hκ x v hp x0 R hR hc lam hl hs hg (by rw [e1]; exact h1) (by rw [e1, e2]; exact hE)
  rwa [e1, e2] at this

/-- **C131.** The height of the saddle point in the report of `analyze_static` is the energy an ion at the analyzed point needs to leave: if
the potential at the boundary of a region is nowhere lower than that of the saddle point, an ion with a kinetic energy below the height stays. -/
theorem c131_height (k : PhysConst) (hamu : k.amu ≠ 0) (hqe : k.qe ≠ 0) (lib : AnalyzeLib) (els : List Elec) (c : ℝ) (x0 : Fin 3 → ℝ) (A : AnalyzeArgs)
    (hm : 0 < A.m) (hq : 0 < A.q) (hl : 0 < A.l) (hh : k.h ≠ 0) (lines : List Line) (h : analyzeStatic k lib ⟨els, some c⟩ x0 A = (lines, none))
    (height : ℝ) (hline : Line.saddleHeight height ∈ lines) (p : Fin 3 → ℝ) (ps : ℝ) (hs : lib.saddle (fun a => x0 a + A.saddleOffset a) = .ok (p, ps))
    (U : Set (Fin 3 → ℝ)) (hU : IsOpen U) (hc : clearOf ⟨els, some c⟩ (closure U)) (hD : ∀ y ∈ frontier U, ps ≤ valueAt ⟨els, some c⟩ y) (h0 : x0 ∈ U)
    (T : ℝ) (x v : ℝ → Fin 3 → ℝ) (hp : IonPath ⟨els, some c⟩ (A.q / (A.m * A.l ^ 2)) T x v) (hx : x 0 = x0)
    (hE : A.m * (vlen (v 0) * A.l) ^ 2 / 2 < A.q * height) : ∀ t ∈ Icc 0 T, x t ∈ U := by
  obtain ⟨c', F, hc', hF, hall⟩ := c89_report_partial k hamu hqe lib ⟨els, some c⟩ x0 A hm hq hl hh lines h
  obtain ⟨p', h', hsad, hval⟩ := hall _ hline
  have h1 := hF.saddle
  rw [hsad] at h1
  simp only [hs, Except.ok.injEq, Prod.mk.injEq] at h1
  rw [← h1.2] at hval
  have hκ : 0 < A.q / (A.m * A.l ^ 2) := by positivity
  refine fun t ht => (c131_confined els c _ T hκ.le x v hp U hU hc ps hD (by rw [hx]; exact h0) ?_ t ht).1
  rw [hx, energyAt, valueAt]
  have e : A.q / (A.m * A.l ^ 2) * ps = A.q / (A.m * A.l ^ 2) * totalAt ⟨els, some c⟩ [] (toV3 x0) + A.q / (A.m * A.l ^ 2) * height := by
    rw [← hval]; ring
  rw [e]
  have : vlen (v 0) ^ 2 / 2 < A.q / (A.m * A.l ^ 2) * height := by
    rw [div_mul_eq_mul_div, lt_div_iff₀ (by positivity)]
    refine lt_of_eq_of_lt ?_ hE
    ring
  linarith

/-- above two pixels driven with rf an ion that moves at the start keeps moving near the trap for any time -/
example : ∃ v1 : Fin 3 → ℝ, v1 ≠ 0 ∧ ∀ T, ∃ x v, IonPath ⟨twoPixels, some 1⟩ 1 T x v ∧ x 0 = ![0, 0, 1] ∧ v 0 = v1 := by
  obtain ⟨R, lam, hR, hl, hc, hs, hg⟩ := twoPixels_well
  set w := √lam * R / 2 with hw
  have hpos : 0 < w := by positivity
  refine ⟨![w, 0, 0], fun h => hpos.ne' (by simpa using congrFun h 0), fun T => ?_⟩
  obtain ⟨x, v, hp, e1, e2, -⟩ := c131_well twoPixels 1 1 one_pos ![0, 0, 1] R hR hc lam hl hs hg ![0, 0, 1] ![w, 0, 0]
    (by rw [sub_self, (vlen_zero_iff 0).2 rfl]; exact hR) (by
      have h2 : vlen ![w, 0, 0] ^ 2 = lam * R ^ 2 / 4 := by
        rw [vlen_sq, Fin.sum_univ_three]
        simp [hw, div_pow, mul_pow, Real.sq_sqrt hl.le]
        ring
      have : 0 < lam * R ^ 2 := by positivity
      rw [energyAt, h2]
      linarith) T
  exact ⟨x, v, hp, e1, e2⟩

end Electrode
