import Verif.Lemmas.MaxPrinciple
import Verif.Lemmas.SysSmooth

/-
The largest value of a function whose Laplacian is not negative lies on the boundary of a region.
-/
namespace Electrode.MaxP
open Spec Filter Topology Set

/-- the maximum over a bounded region is reached at its boundary -/
theorem frontier_max {U : Set (ℝ × ℝ × ℝ)} (hU : IsOpen U) (hb : Bornology.IsBounded U) {f : V3 → ℝ} {f1 f2 : Fin 3 → V3 → ℝ}
    (hc : ContinuousOn (fun t => f (at3 t)) (closure U))
    (h1 : ∀ a (p : V3), (p.x, p.y, p.z) ∈ U → HasPartial a f (f1 a p) p)
    (h2 : ∀ a (p : V3), (p.x, p.y, p.z) ∈ U → HasPartial a (f1 a) (f2 a p) p)
    (hl : ∀ t ∈ U, 0 ≤ f2 0 (at3 t) + f2 1 (at3 t) + f2 2 (at3 t))
    {t : ℝ × ℝ × ℝ} (ht : t ∈ U) : ∃ s ∈ frontier U, f (at3 t) ≤ f (at3 s) := by
  have hK : IsCompact (closure U) := hb.isCompact_closure
  have hn : Continuous fun t : ℝ × ℝ × ℝ => nsq (at3 t) := by simp only [nsq, at3]; fun_prop
  obtain ⟨N, hN⟩ := (hK.image hn).bddAbove
  have hN' : ∀ s ∈ closure U, nsq (at3 s) ≤ N := fun s hs => hN ⟨s, hs, rfl⟩
  have hpos : ∀ s, 0 ≤ nsq (at3 s) := fun s => by unfold nsq; positivity
  have key : ∀ ε > 0, ∃ s ∈ frontier U, f (at3 t) ≤ f (at3 s) + ε * N := by
    intro ε hε
    have hg : ContinuousOn (fun t => f (at3 t) + ε * nsq (at3 t)) (closure U) :=
      hc.add (continuous_const.mul hn).continuousOn
    obtain ⟨s, hs, hmax⟩ := hK.exists_isMaxOn ⟨t, subset_closure ht⟩ hg
    refine ⟨s, ⟨hs, ?_⟩, ?_⟩
    · intro hsi
      have hsU : s ∈ U := by rwa [hU.interior_eq] at hsi
      have hlm : IsLocalMax (fun t => (fun p => f p + ε * nsq p) (at3 t)) s := by
        filter_upwards [hU.mem_nhds hsU] with q hq using hmax (subset_closure hq)
      have := no_max hU (f := fun p => f p + ε * nsq p) (f1 := fun a p => f1 a p + ε * (2 * co a p))
        (f2 := fun a p => f2 a p + ε * 2)
        (fun a p hp => HasDerivAt.add (h1 a p hp) (HasDerivAt.const_mul ε (nsq1 p a)))
        (fun a p hp => HasDerivAt.add (h2 a p hp) (HasDerivAt.const_mul ε (nsq2 p a))) hsU hlm
      have := hl s hsU
      linarith
    · have h3 : f (at3 t) + ε * nsq (at3 t) ≤ f (at3 s) + ε * nsq (at3 s) := hmax (subset_closure ht)
      have := mul_nonneg hε.le (hpos t)
      have := mul_le_mul_of_nonneg_left (hN' s hs) hε.le
      linarith
  have hF : IsCompact (frontier U) := hK.of_isClosed_subset isClosed_frontier frontier_subset_closure
  obtain ⟨s1, hs1, -⟩ := key 1 one_pos
  obtain ⟨s0, hs0, hmax⟩ := hF.exists_isMaxOn ⟨s1, hs1⟩ (hc.mono frontier_subset_closure)
  refine ⟨s0, hs0, le_of_forall_pos_le_add fun δ hδ => ?_⟩
  have hN0 : 0 ≤ N := (hpos t).trans (hN' t (subset_closure ht))
  obtain ⟨s, hs, hle⟩ := key (δ / (N + 1)) (by positivity)
  have h4 : f (at3 s) ≤ f (at3 s0) := hmax hs
  have h5 : δ / (N + 1) * N ≤ δ := by
    rw [div_mul_eq_mul_div, div_le_iff₀ (by positivity)]
    nlinarith
  linarith

/-- smooth functions are continuous in the coordinates -/
theorem smooth_continuous {P : V3 → Prop} {f : V3 → ℝ} (h : Smooth P f) : ContinuousOn (fun t => f (at3 t)) {t | P (at3 t)} := by
  intro t ht
  have e : ∀ t : ℝ × ℝ × ℝ, toV ![t.1, t.2.1, t.2.2] = at3 t := fun t => rfl
  have h1 := (h ![t.1, t.2.1, t.2.2] (by rw [e]; exact ht)).continuousAt
  have h2 : Continuous fun t : ℝ × ℝ × ℝ => (![t.1, t.2.1, t.2.2] : W) := by
    refine continuous_pi fun i => ?_
    fin_cases i <;> simp <;> fun_prop
  exact (ContinuousAt.comp (f := fun t : ℝ × ℝ × ℝ => (![t.1, t.2.1, t.2.2] : W)) (g := fun w => f (toV w)) h1
    h2.continuousAt).continuousWithinAt

theorem at3_coord (p : V3) : at3 (p.x, p.y, p.z) = p := rfl

/-- square of the distance of two positions -/
def dsq (q p : V3) : ℝ := (p.x - q.x) ^ 2 + (p.y - q.y) ^ 2 + (p.z - q.z) ^ 2
def dco (a : Fin 3) (q p : V3) : ℝ := match a with | 0 => p.x - q.x | 1 => p.y - q.y | 2 => p.z - q.z

theorem dsq_shift (q p : V3) (a : Fin 3) (t : ℝ) : dsq q (shift p a t) = dsq q p + 2 * dco a q p * t + t ^ 2 := by
  fin_cases a <;> simp [dsq, shift, dco] <;> ring
theorem dco_shift (q p : V3) (a : Fin 3) (t : ℝ) : dco a q (shift p a t) = dco a q p + t := by
  fin_cases a <;> simp [shift, dco] <;> ring
theorem dsq_nonneg (q p : V3) : 0 ≤ dsq q p := by unfold dsq; positivity
theorem dsq_continuous (q : V3) : Continuous fun t : ℝ × ℝ × ℝ => dsq q (at3 t) := by simp only [dsq, at3]; fun_prop

theorem dsq_partial (q p : V3) (a : Fin 3) : HasPartial a (dsq q) (2 * dco a q p) p := by
  unfold HasPartial
  simp only [dsq_shift]
  refine ((((hasDerivAt_id (0 : ℝ)).const_mul (2 * dco a q p)).const_add (dsq q p)).add ((hasDerivAt_id (0 : ℝ)).pow 2)).congr_deriv ?_
  simp

theorem dco_partial (q p : V3) (a : Fin 3) : HasPartial a (dco a q) 1 p := by
  unfold HasPartial
  simp only [dco_shift]
  exact (hasDerivAt_id (0 : ℝ)).const_add _

/-- a barrier: `exp(-α d²)` -/
noncomputable def bar (α : ℝ) (q p : V3) : ℝ := Real.exp (-α * dsq q p)
noncomputable def bar1 (α : ℝ) (q : V3) (a : Fin 3) (p : V3) : ℝ := bar α q p * (-2 * α * dco a q p)
noncomputable def bar2 (α : ℝ) (q : V3) (a : Fin 3) (p : V3) : ℝ := bar α q p * (4 * α ^ 2 * dco a q p ^ 2 - 2 * α)

theorem shift_zero' (p : V3) (a : Fin 3) : shift p a 0 = p := by fin_cases a <;> simp [shift]

theorem bar_partial (α : ℝ) (q p : V3) (a : Fin 3) : HasPartial a (bar α q) (bar1 α q a p) p := by
  have h := ((dsq_partial q p a).const_mul (-α)).exp
  rw [shift_zero'] at h
  refine h.congr_deriv ?_
  unfold bar1 bar; ring

theorem bar1_partial (α : ℝ) (q p : V3) (a : Fin 3) : HasPartial a (bar1 α q a) (bar2 α q a p) p := by
  have h := HasDerivAt.mul (bar_partial α q p a) ((dco_partial q p a).const_mul (-2 * α))
  rw [shift_zero'] at h
  refine h.congr_deriv ?_
  unfold bar2 bar1; ring

theorem bar_laplace (α : ℝ) (q p : V3) :
    bar2 α q 0 p + bar2 α q 1 p + bar2 α q 2 p = bar α q p * (4 * α ^ 2 * dsq q p - 6 * α) := by
  simp only [bar2, dsq, dco]; ring

theorem dsq_triangle (q r p : V3) : dsq q p ≤ 2 * dsq r p + 2 * dsq q r := by
  unfold dsq
  nlinarith [sq_nonneg (p.x - r.x - (r.x - q.x)), sq_nonneg (p.y - r.y - (r.y - q.y)), sq_nonneg (p.z - r.z - (r.z - q.z))]

/-- the middle of two positions -/
noncomputable def mid (q y : V3) : V3 := ⟨(q.x + y.x) / 2, (q.y + y.y) / 2, (q.z + y.z) / 2⟩

/-- the parallelogram law -/
theorem dsq_mid (q y p : V3) : dsq q p + dsq y p = 2 * dsq (mid q y) p + dsq q y / 2 := by
  unfold dsq mid; ring

theorem dsq_small {t : ℝ × ℝ × ℝ} {U : Set (ℝ × ℝ × ℝ)} (hU : U ∈ 𝓝 t) : ∃ R > 0, ∀ s, dsq (at3 t) (at3 s) ≤ R → s ∈ U := by
  obtain ⟨r, hr, hs⟩ := Metric.mem_nhds_iff.1 hU
  refine ⟨r ^ 2 / 2, by positivity, fun s h => hs ?_⟩
  have h1 : ∀ x : ℝ, x ^ 2 ≤ r ^ 2 / 2 → |x| < r := by
    intro x hx
    refine abs_lt_of_sq_lt_sq (by nlinarith [sq_pos_of_pos hr]) hr.le
  simp only [dsq, at3] at h
  rw [Metric.mem_ball, Prod.dist_eq, Prod.dist_eq, max_lt_iff, max_lt_iff]
  simp only [Real.dist_eq]
  exact ⟨h1 _ (by nlinarith [sq_nonneg (s.2.1 - t.2.1), sq_nonneg (s.2.2 - t.2.2)]),
    h1 _ (by nlinarith [sq_nonneg (s.1 - t.1), sq_nonneg (s.2.2 - t.2.2)]),
    h1 _ (by nlinarith [sq_nonneg (s.1 - t.1), sq_nonneg (s.2.1 - t.2.1)])⟩

theorem ball_nhds (t : ℝ × ℝ × ℝ) {R : ℝ} (hR : 0 < R) : {s | dsq (at3 t) (at3 s) < R} ∈ 𝓝 t := by
  refine (isOpen_lt (dsq_continuous (at3 t)) continuous_const).mem_nhds ?_
  simp [dsq, hR]

theorem ball_bounded (t : ℝ × ℝ × ℝ) (R : ℝ) : Bornology.IsBounded {s | dsq (at3 t) (at3 s) ≤ R} := by
  rw [Metric.isBounded_iff_subset_closedBall t]
  refine ⟨√(max R 0), fun s h => ?_⟩
  have h1 : ∀ x : ℝ, x ^ 2 ≤ R → |x| ≤ √(max R 0) := by
    intro x hx
    rw [← Real.sqrt_sq_eq_abs]
    exact Real.sqrt_le_sqrt (hx.trans (le_max_left _ _))
  simp only [dsq, at3, mem_setOf_eq] at h
  rw [Metric.mem_closedBall, Prod.dist_eq, Prod.dist_eq, max_le_iff, max_le_iff]
  simp only [Real.dist_eq]
  exact ⟨h1 _ (by nlinarith [sq_nonneg (s.2.1 - t.2.1), sq_nonneg (s.2.2 - t.2.2)]),
    h1 _ (by nlinarith [sq_nonneg (s.1 - t.1), sq_nonneg (s.2.2 - t.2.2)]),
    h1 _ (by nlinarith [sq_nonneg (s.1 - t.1), sq_nonneg (s.2.1 - t.2.1)])⟩

/-- Where a function whose Laplacian is not negative has a local maximum, it is constant. -/
theorem strong_max {U : Set (ℝ × ℝ × ℝ)} (hU : IsOpen U) {f : V3 → ℝ} {f1 f2 : Fin 3 → V3 → ℝ}
    (hc : ContinuousOn (fun t => f (at3 t)) U)
    (h1 : ∀ a (p : V3), (p.x, p.y, p.z) ∈ U → HasPartial a f (f1 a p) p)
    (h2 : ∀ a (p : V3), (p.x, p.y, p.z) ∈ U → HasPartial a (f1 a) (f2 a p) p)
    (hl : ∀ t ∈ U, 0 ≤ f2 0 (at3 t) + f2 1 (at3 t) + f2 2 (at3 t))
    {t : ℝ × ℝ × ℝ} (ht : t ∈ U) (hm : IsLocalMax (fun t => f (at3 t)) t) :
    ∀ᶠ s in 𝓝 t, f (at3 s) = f (at3 t) := by
  obtain ⟨R, hR, hball⟩ := dsq_small (inter_mem (hU.mem_nhds ht) hm)
  set M := f (at3 t) with hM
  have hle : ∀ s, dsq (at3 t) (at3 s) ≤ R → f (at3 s) ≤ M := fun s hs => (hball s hs).2
  have hin : ∀ s, dsq (at3 t) (at3 s) ≤ R → s ∈ U := fun s hs => (hball s hs).1
  filter_upwards [ball_nhds t (show 0 < R / 64 by positivity)] with q hq
  have hq : dsq (at3 t) (at3 q) < R / 64 := hq
  by_contra hne
  have hlt : f (at3 q) < M := lt_of_le_of_ne (hle q (by linarith)) hne
  -- the nearest position with the maximal value
  have hBc : IsCompact {s | dsq (at3 t) (at3 s) ≤ R} :=
    Metric.isCompact_of_isClosed_isBounded (isClosed_le (dsq_continuous _) continuous_const) (ball_bounded t R)
  have hcB : ContinuousOn (fun t => f (at3 t)) {s | dsq (at3 t) (at3 s) ≤ R} := hc.mono hin
  have hK : IsCompact ({s | dsq (at3 t) (at3 s) ≤ R} ∩ (fun t => f (at3 t)) ⁻¹' {M}) :=
    hBc.of_isClosed_subset (hcB.preimage_isClosed_of_isClosed hBc.isClosed isClosed_singleton) inter_subset_left
  have htt : dsq (at3 t) (at3 t) = 0 := by simp [dsq]
  obtain ⟨y, ⟨hyR, hyM⟩, hymin⟩ := hK.exists_isMinOn ⟨t, by rw [mem_setOf_eq, htt]; exact hR.le, rfl⟩
    (dsq_continuous (at3 q)).continuousOn
  have hyR : dsq (at3 t) (at3 y) ≤ R := hyR
  have hyM : f (at3 y) = M := hyM
  have hmin : ∀ s, dsq (at3 t) (at3 s) ≤ R → f (at3 s) = M → dsq (at3 q) (at3 y) ≤ dsq (at3 q) (at3 s) :=
    fun s h1 h2 => hymin ⟨h1, h2⟩
  set ρ := dsq (at3 q) (at3 y) with hρ
  have hsym : ∀ a b : V3, dsq a b = dsq b a := fun a b => by unfold dsq; ring
  have hρR : ρ < R / 64 := by
    have := hmin t (by rw [htt]; exact hR.le) rfl
    rw [hsym (at3 q) (at3 t)] at this
    linarith
  have hρ0 : 0 < ρ := by
    refine lt_of_le_of_ne (dsq_nonneg _ _) fun h0 => ?_
    have h0 : dsq (at3 q) (at3 y) = 0 := h0.symm
    have : at3 y = at3 q := by
      simp only [dsq, at3] at h0 ⊢
      have a1 : y.1 - q.1 = 0 := by nlinarith [sq_nonneg (y.1 - q.1), sq_nonneg (y.2.1 - q.2.1), sq_nonneg (y.2.2 - q.2.2)]
      have a2 : y.2.1 - q.2.1 = 0 := by nlinarith [sq_nonneg (y.1 - q.1), sq_nonneg (y.2.1 - q.2.1), sq_nonneg (y.2.2 - q.2.2)]
      have a3 : y.2.2 - q.2.2 = 0 := by nlinarith [sq_nonneg (y.1 - q.1), sq_nonneg (y.2.1 - q.2.1), sq_nonneg (y.2.2 - q.2.2)]
      rw [sub_eq_zero.1 a1, sub_eq_zero.1 a2, sub_eq_zero.1 a3]
    rw [this] at hyM
    exact hlt.ne hyM
  have hyt : dsq (at3 t) (at3 y) < R / 16 := by linarith [dsq_triangle (at3 t) (at3 q) (at3 y)]
  -- a ball around that position
  set D : Set (ℝ × ℝ × ℝ) := {s | dsq (at3 y) (at3 s) < ρ / 16} with hD
  have hDo : IsOpen D := isOpen_lt (dsq_continuous _) continuous_const
  have hDcl : closure D ⊆ {s | dsq (at3 y) (at3 s) ≤ ρ / 16} :=
    closure_minimal (fun s (hs : dsq (at3 y) (at3 s) < ρ / 16) => hs.le) (isClosed_le (dsq_continuous _) continuous_const)
  have hDfr : ∀ s ∈ frontier D, dsq (at3 y) (at3 s) = ρ / 16 := by
    intro s hs
    refine le_antisymm (hDcl (frontier_subset_closure hs)) (not_lt.1 fun h => ?_)
    rw [hDo.frontier_eq] at hs
    exact hs.2 h
  have hDb : Bornology.IsBounded D := (ball_bounded y (ρ / 16)).subset fun s (hs : dsq (at3 y) (at3 s) < ρ / 16) => hs.le
  have hDR : ∀ s ∈ closure D, dsq (at3 t) (at3 s) ≤ R := by
    intro s hs
    have := hDcl hs
    have h3 : dsq (at3 y) (at3 s) ≤ ρ / 16 := this
    linarith [dsq_triangle (at3 t) (at3 y) (at3 s)]
  set c := mid (at3 q) (at3 y) with hcdef
  have hcy : dsq c (at3 y) = ρ / 4 := by
    rw [hρ, hcdef]; unfold dsq mid; ring
  -- in the ball around the middle only `y` has the maximal value
  have honly : ∀ s, s ∈ frontier D → dsq c (at3 s) ≤ ρ / 4 → f (at3 s) < M := by
    intro s hs hcs
    refine lt_of_le_of_ne (hle s (hDR s (frontier_subset_closure hs))) fun he => ?_
    have h3 := hmin s (hDR s (frontier_subset_closure hs)) he
    have h4 := dsq_mid (at3 q) (at3 y) (at3 s)
    have h5 := hDfr s hs
    rw [← hcdef] at h4
    linarith
  have hFc : IsCompact (frontier D ∩ {s | dsq c (at3 s) ≤ ρ / 4}) :=
    (hDb.isCompact_closure.of_isClosed_subset isClosed_frontier frontier_subset_closure).inter_right
      (isClosed_le (dsq_continuous c) continuous_const)
  obtain ⟨δ, hδ, hδM⟩ : ∃ δ > 0, ∀ s ∈ frontier D, dsq c (at3 s) ≤ ρ / 4 → f (at3 s) ≤ M - δ := by
    rcases (frontier D ∩ {s | dsq c (at3 s) ≤ ρ / 4}).eq_empty_or_nonempty with he | hne
    · refine ⟨1, one_pos, fun s hs hcs => ?_⟩
      have : s ∈ frontier D ∩ {s | dsq c (at3 s) ≤ ρ / 4} := ⟨hs, hcs⟩
      rw [he] at this
      exact this.elim
    · obtain ⟨s0, hs0, hmx⟩ := hFc.exists_isMaxOn hne
        (hc.mono fun s hs => hin s (hDR s (frontier_subset_closure hs.1)))
      refine ⟨M - f (at3 s0), sub_pos.2 (honly s0 hs0.1 hs0.2), fun s hs hcs => ?_⟩
      have : f (at3 s) ≤ f (at3 s0) := hmx ⟨hs, hcs⟩
      linarith
  -- the barrier
  set α := 24 / ρ with hα
  have hα0 : 0 < α := by positivity
  set e := Real.exp (-α * (ρ / 4)) with he
  have hD0 : ∀ s ∈ D, ρ / 16 ≤ dsq c (at3 s) := by
    intro s hs
    have hs : dsq (at3 y) (at3 s) < ρ / 16 := hs
    have := dsq_triangle c (at3 s) (at3 y)
    rw [hsym (at3 s) (at3 y)] at this
    linarith
  obtain ⟨s, hs, hle2⟩ := frontier_max hDo hDb (f := fun p => f p + δ / 2 * bar α c p)
    (f1 := fun a p => f1 a p + δ / 2 * bar1 α c a p) (f2 := fun a p => f2 a p + δ / 2 * bar2 α c a p)
    (by
      refine (hc.mono fun s hs => hin s (hDR s hs)).add (Continuous.continuousOn ?_)
      have := dsq_continuous c
      simp only [bar]
      fun_prop)
    (fun a p hp => HasDerivAt.add (h1 a p (hin _ (hDR _ (subset_closure hp)))) (HasDerivAt.const_mul _ (bar_partial α c p a)))
    (fun a p hp => HasDerivAt.add (h2 a p (hin _ (hDR _ (subset_closure hp)))) (HasDerivAt.const_mul _ (bar1_partial α c p a)))
    (by
      intro s hs
      have h3 := hl s (hin _ (hDR _ (subset_closure hs)))
      have h4 := bar_laplace α c (at3 s)
      have h5 : 0 ≤ 4 * α ^ 2 * dsq c (at3 s) - 6 * α := by
        have h6 : 4 * α ^ 2 * (ρ / 16) = 6 * α := by rw [hα]; field_simp; ring
        nlinarith [mul_le_mul_of_nonneg_left (hD0 s hs) (show 0 ≤ 4 * α ^ 2 by positivity)]
      have h7 : 0 ≤ bar α c (at3 s) * (4 * α ^ 2 * dsq c (at3 s) - 6 * α) := mul_nonneg (Real.exp_pos _).le h5
      nlinarith)
    (t := y) (by show dsq (at3 y) (at3 y) < ρ / 16; rw [show dsq (at3 y) (at3 y) = 0 by simp [dsq]]; positivity)
  have hby : bar α c (at3 y) = e := by unfold bar; rw [hcy]
  simp only [hyM, hby] at hle2
  have hbs1 : bar α c (at3 s) ≤ 1 := by
    unfold bar
    rw [Real.exp_le_one_iff]
    nlinarith [dsq_nonneg c (at3 s)]
  have he0 : 0 < e := Real.exp_pos _
  rcases le_or_gt (dsq c (at3 s)) (ρ / 4) with hcs | hcs
  · have := hδM s hs hcs
    nlinarith
  · have h3 := hle s (hDR s (frontier_subset_closure hs))
    have h4 : bar α c (at3 s) < e := by
      unfold bar
      rw [he, Real.exp_lt_exp]
      nlinarith
    nlinarith

end Electrode.MaxP
