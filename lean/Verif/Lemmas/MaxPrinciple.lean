import Verif.Spec.Problem
import Mathlib.Analysis.Calculus.DerivativeTest
import Mathlib.Analysis.SpecialFunctions.Log.Deriv
import Mathlib.Topology.MetricSpace.ProperSpace.Real
import Mathlib.Analysis.Normed.Group.Bounded
import Mathlib.Topology.Algebra.Order.LiminfLimsup
import Mathlib.Tactic.Positivity
import Mathlib.Tactic.Linarith
import Mathlib.Tactic.FieldSimp

/-
A maximum principle for the Laplace equation in an open part of the half space, with boundary
values prescribed except on finitely many straight lines of the plane.
-/
namespace Electrode.MaxP
open Spec Filter Topology Set

theorem second_le {φ φ' : ℝ → ℝ} {s : ℝ} (h1 : ∀ᶠ t in 𝓝 (0 : ℝ), HasDerivAt φ (φ' t) t) (h2 : HasDerivAt φ' s 0)
    (hm : IsLocalMax φ 0) : s ≤ 0 := by
  by_contra hs
  push Not at hs
  have e : deriv φ =ᶠ[𝓝 0] φ' := by filter_upwards [h1] with t ht using ht.deriv
  have e2 : deriv (deriv φ) 0 = s := by rw [e.deriv_eq]; exact h2.deriv
  have e0 : deriv φ 0 = 0 := hm.deriv_eq_zero
  have hmin := isLocalMin_of_deriv_deriv_pos (f := φ) (x₀ := 0) (by rw [e2]; exact hs) e0 h1.self_of_nhds.continuousAt
  have hc : φ =ᶠ[𝓝 0] fun _ => φ 0 := by
    filter_upwards [hm, hmin] with t a b using le_antisymm a b
  have hc2 : deriv φ =ᶠ[𝓝 0] fun _ => (0 : ℝ) := by
    have := hc.deriv
    simpa using this
  rw [hc2.deriv_eq] at e2
  simp at e2
  exact hs.ne e2

theorem shift_add (p : V3) (a : Fin 3) (s t : ℝ) : shift (shift p a s) a t = shift p a (s + t) := by
  fin_cases a <;> simp [shift, add_assoc]

theorem partial_at {f : V3 → ℝ} {f' : ℝ} {p : V3} {a : Fin 3} {s : ℝ} (h : HasPartial a f f' (shift p a s)) :
    HasDerivAt (fun t => f (shift p a t)) f' s := by
  unfold HasPartial at h
  simp only [shift_add] at h
  have h1 : HasDerivAt (fun t => f (shift p a (s + t))) f' (s - s) := by rwa [sub_self]
  have := h1.comp_sub_const s s
  simpa using this

/-- a straight line in the electrode plane: a point and a unit normal -/
structure Line where
  ax : ℝ
  ay : ℝ
  nx : ℝ
  ny : ℝ
  unit : nx ^ 2 + ny ^ 2 = 1

/-- distance of the projection -/
def Line.s (l : Line) (p : V3) : ℝ := l.nx * (p.x - l.ax) + l.ny * (p.y - l.ay)
/-- square of the distance -/
def Line.d (l : Line) (p : V3) : ℝ := l.s p ^ 2 + p.z ^ 2
def Line.n (l : Line) (a : Fin 3) : ℝ := match a with | 0 => l.nx | 1 => l.ny | 2 => 0
def ez (a : Fin 3) : ℝ := match a with | 0 => 0 | 1 => 0 | 2 => 1

theorem Line.s_shift (l : Line) (p : V3) (a : Fin 3) (t : ℝ) : l.s (shift p a t) = l.s p + t * l.n a := by
  fin_cases a <;> simp [Line.s, shift, Line.n] <;> ring
theorem z_shift (p : V3) (a : Fin 3) (t : ℝ) : (shift p a t).z = p.z + t * ez a := by
  fin_cases a <;> simp [shift, ez]

noncomputable def Line.g1 (l : Line) (a : Fin 3) (p : V3) : ℝ := 2 * (l.s p * l.n a + p.z * ez a) / l.d p
noncomputable def Line.g2 (l : Line) (a : Fin 3) (p : V3) : ℝ :=
  2 * (l.n a ^ 2 + ez a ^ 2) / l.d p - 4 * (l.s p * l.n a + p.z * ez a) ^ 2 / l.d p ^ 2

theorem Line.d_pos (l : Line) {p : V3} (hp : 0 < p.z) : 0 < l.d p := by unfold Line.d; positivity

theorem Line.d_deriv (l : Line) (p : V3) (a : Fin 3) :
    HasDerivAt (fun t => l.d (shift p a t)) (2 * (l.s p * l.n a + p.z * ez a)) 0 := by
  simp only [Line.d, Line.s_shift, z_shift]
  have h1 : HasDerivAt (fun t : ℝ => l.s p + t * l.n a) (l.n a) 0 := by
    simpa using ((hasDerivAt_id (0 : ℝ)).mul_const (l.n a)).const_add (l.s p)
  have h2 : HasDerivAt (fun t : ℝ => p.z + t * ez a) (ez a) 0 := by
    simpa using ((hasDerivAt_id (0 : ℝ)).mul_const (ez a)).const_add p.z
  refine ((h1.pow 2).add (h2.pow 2)).congr_deriv ?_
  simp; ring

theorem Line.log1 (l : Line) {p : V3} (hp : 0 < p.z) (a : Fin 3) : HasPartial a (fun p => Real.log (l.d p)) (l.g1 a p) p := by
  have h := (l.d_deriv p a).log (by
    have : shift p a 0 = p := by fin_cases a <;> simp [shift]
    rw [this]; exact (l.d_pos hp).ne')
  have : shift p a 0 = p := by fin_cases a <;> simp [shift]
  rw [this] at h
  exact h

theorem Line.log2 (l : Line) {p : V3} (hp : 0 < p.z) (a : Fin 3) : HasPartial a (l.g1 a) (l.g2 a p) p := by
  have e : shift p a 0 = p := by fin_cases a <;> simp [shift]
  have hd := l.d_deriv p a
  have hn : HasDerivAt (fun t => 2 * (l.s (shift p a t) * l.n a + (shift p a t).z * ez a)) (2 * (l.n a ^ 2 + ez a ^ 2)) 0 := by
    simp only [Line.s_shift, z_shift]
    have h1 : HasDerivAt (fun t : ℝ => l.s p + t * l.n a) (l.n a) 0 := by
      simpa using ((hasDerivAt_id (0 : ℝ)).mul_const (l.n a)).const_add (l.s p)
    have h2 : HasDerivAt (fun t : ℝ => p.z + t * ez a) (ez a) 0 := by
      simpa using ((hasDerivAt_id (0 : ℝ)).mul_const (ez a)).const_add p.z
    refine (((h1.mul_const (l.n a)).add (h2.mul_const (ez a))).const_mul 2).congr_deriv ?_
    ring
  have h0 : l.d (shift p a 0) ≠ 0 := by rw [e]; exact (l.d_pos hp).ne'
  have h := hn.div hd h0
  unfold HasPartial
  refine h.congr_deriv ?_
  have h3 := (l.d_pos hp).ne'
  rw [e, Line.g2]
  field_simp
  ring

theorem Line.harmonic (l : Line) {p : V3} (hp : 0 < p.z) : l.g2 0 p + l.g2 1 p + l.g2 2 p = 0 := by
  have h3 := (l.d_pos hp).ne'
  have hu := l.unit
  simp only [Line.g2, Line.n, ez]
  field_simp
  simp only [Line.d]
  linear_combination (4 * (l.s p ^ 2 + p.z ^ 2) - 4 * l.s p ^ 2 - 2 * (l.s p ^ 2 + p.z ^ 2)) * hu

theorem partial_sum {ι : Type*} (L : List ι) (f : ι → V3 → ℝ) (f' : ι → ℝ) (a : Fin 3) (p : V3)
    (h : ∀ l ∈ L, HasPartial a (f l) (f' l) p) : HasPartial a (fun p => (L.map fun l => f l p).sum) (L.map f').sum p := by
  induction L with
  | nil => exact hasDerivAt_const _ _
  | cons x L ih =>
    simp only [List.map_cons, List.sum_cons]
    exact HasDerivAt.add (h x (by simp)) (ih fun l hl => h l (by simp [hl]))

/-- square of the distance from the origin -/
def nsq (p : V3) : ℝ := p.x ^ 2 + p.y ^ 2 + p.z ^ 2
def co (a : Fin 3) (p : V3) : ℝ := match a with | 0 => p.x | 1 => p.y | 2 => p.z

theorem nsq1 (p : V3) (a : Fin 3) : HasPartial a nsq (2 * co a p) p := by
  have h : ∀ c : ℝ, HasDerivAt (fun t : ℝ => (c + t) ^ 2) (2 * c) 0 := fun c => by
    refine (((hasDerivAt_id (0 : ℝ)).const_add c).pow 2).congr_deriv ?_
    simp
  unfold HasPartial
  fin_cases a
  · exact (((h p.x).add_const (p.y ^ 2)).add_const (p.z ^ 2))
  · exact (((h p.y).const_add (p.x ^ 2)).add_const (p.z ^ 2))
  · exact ((h p.z).const_add (p.x ^ 2 + p.y ^ 2))

theorem nsq2 (p : V3) (a : Fin 3) : HasPartial a (fun p => 2 * co a p) 2 p := by
  have h : ∀ c : ℝ, HasDerivAt (fun t : ℝ => 2 * (c + t)) 2 0 := fun c => by
    simpa using ((hasDerivAt_id (0 : ℝ)).const_add c).const_mul 2
  unfold HasPartial
  fin_cases a
  · exact h p.x
  · exact h p.y
  · exact h p.z

theorem shift_tendsto (t : ℝ × ℝ × ℝ) (a : Fin 3) :
    Tendsto (fun s => ((shift (at3 t) a s).x, (shift (at3 t) a s).y, (shift (at3 t) a s).z)) (𝓝 0) (𝓝 t) := by
  have : Continuous fun s : ℝ => ((shift (at3 t) a s).x, (shift (at3 t) a s).y, (shift (at3 t) a s).z) := by
    fin_cases a <;> simp only [shift, at3] <;> fun_prop
  have h := this.tendsto 0
  have e : ((shift (at3 t) a 0).x, (shift (at3 t) a 0).y, (shift (at3 t) a 0).z) = t := by
    fin_cases a <;> simp [shift, at3]
  rwa [e] at h

/-- a function with positive Laplacian has no local maximum -/
theorem no_max {U : Set (ℝ × ℝ × ℝ)} (hU : IsOpen U) {f : V3 → ℝ} {f1 f2 : Fin 3 → V3 → ℝ}
    (h1 : ∀ a (p : V3), (p.x, p.y, p.z) ∈ U → HasPartial a f (f1 a p) p)
    (h2 : ∀ a (p : V3), (p.x, p.y, p.z) ∈ U → HasPartial a (f1 a) (f2 a p) p)
    {t : ℝ × ℝ × ℝ} (ht : t ∈ U) (hm : IsLocalMax (fun t => f (at3 t)) t) :
    f2 0 (at3 t) + f2 1 (at3 t) + f2 2 (at3 t) ≤ 0 := by
  have key : ∀ a, f2 a (at3 t) ≤ 0 := by
    intro a
    have hs := shift_tendsto t a
    refine second_le (φ := fun s => f (shift (at3 t) a s)) (φ' := fun s => f1 a (shift (at3 t) a s)) ?_ ?_ ?_
    · filter_upwards [hs.eventually (hU.mem_nhds ht)] with s hs
      exact partial_at (h1 a _ hs)
    · exact h2 a (at3 t) ht
    · have e : shift (at3 t) a 0 = at3 t := by fin_cases a <;> simp [shift]
      have := hs.eventually hm
      filter_upwards [this] with s hs
      have h : f (shift (at3 t) a s) ≤ f (at3 t) := hs
      simpa [e] using h
  linarith [key 0, key 1, key 2]

theorem max_principle {U : Set (ℝ × ℝ × ℝ)} (hU : IsOpen U) (hz : ∀ t ∈ U, 0 < t.2.2) {w : V3 → ℝ}
    (hw : ObeysLaplace U w) {M : ℝ} (hM : ∀ t ∈ U, w (at3 t) ≤ M)
    (hfar : ∀ ε > 0, ∀ᶠ t in cocompact (ℝ × ℝ × ℝ) ⊓ 𝓟 U, w (at3 t) ≤ ε) (Ls : List Line)
    (hbd : ∀ t ∈ closure U, t ∉ U →
      (∀ ε > 0, ∀ᶠ s in 𝓝[U] t, w (at3 s) ≤ ε) ∨ ∃ l ∈ Ls, l.d (at3 t) = 0) :
    ∀ t ∈ U, w (at3 t) ≤ 0 := by
  obtain ⟨hc, w2, hw1, hlap⟩ := hw
  choose w1 hw1 hw2' using hw1
  have hw2 : ∀ a (p : V3), (p.x, p.y, p.z) ∈ U → HasPartial a (w1 a) (w2 a p) p := by
    intro a p hp
    obtain ⟨f', h1, h2⟩ := hw2' a
    rw [← h2 p hp]
    exact h1 p hp
  intro t0 ht0
  by_contra hpos
  push Not at hpos
  set c := w (at3 t0) with hcdef
  -- outside a ball the function is small
  obtain ⟨R, hR0, hR⟩ : ∃ R, ‖t0‖ ≤ R ∧ ∀ t ∈ U, R ≤ ‖t‖ → w (at3 t) ≤ c / 4 := by
    have h1 := hfar (c / 4) (by linarith)
    rw [eventually_inf_principal] at h1
    rw [← Metric.cobounded_eq_cocompact] at h1
    obtain ⟨r, hr⟩ := (Metric.hasBasis_cobounded_compl_closedBall (0 : ℝ × ℝ × ℝ)).eventually_iff.mp h1
    refine ⟨max ‖t0‖ (r + 1), le_max_left _ _, fun t ht hrt => hr.2 ?_ ht⟩
    rw [mem_compl_iff, Metric.mem_closedBall, dist_zero_right]
    have := le_max_right ‖t0‖ (r + 1)
    push Not
    linarith
  have hRn : 0 ≤ R := le_trans (norm_nonneg _) hR0
  have hdc : ∀ l : Line, Continuous fun t => l.d (at3 t) := by
    intro l
    unfold Line.d Line.s at3
    fun_prop
  have hd0 : ∀ (l : Line) p, 0 ≤ l.d p := fun l p => by unfold Line.d; positivity
  -- the distances are bounded in the ball
  obtain ⟨C, hC⟩ : ∃ C, ∀ t, ‖t‖ ≤ R → ∀ l ∈ Ls, Real.log (l.d (at3 t)) ≤ C := by
    have hcont : ContinuousOn (fun t => (Ls.map fun l => l.d (at3 t)).sum) (Metric.closedBall 0 R) := by
      apply Continuous.continuousOn
      exact continuous_list_sum _ fun l _ => hdc l
    obtain ⟨C, hC⟩ := (isCompact_closedBall (0 : ℝ × ℝ × ℝ) R).bddAbove_image hcont
    refine ⟨C, fun t ht l hl => ?_⟩
    refine (Real.log_le_self (hd0 l _)).trans ?_
    refine le_trans ?_ (hC ⟨t, by simpa using ht, rfl⟩)
    exact List.single_le_sum (l := Ls.map fun l => l.d (at3 t)) (by simpa using fun l _ => hd0 l _) _
      (List.mem_map.mpr ⟨l, hl, rfl⟩)
  -- the barrier
  set B : V3 → ℝ := fun p => (Ls.map fun l => C - Real.log (l.d p)).sum with hB
  have hB0 : ∀ t, ‖t‖ ≤ R → 0 ≤ B (at3 t) := by
    intro t ht
    refine List.sum_nonneg ?_
    simp only [List.mem_map]
    rintro x ⟨l, hl, rfl⟩
    linarith [hC t ht l hl]
  have hBl : ∀ t, ‖t‖ ≤ R → ∀ l ∈ Ls, C - Real.log (l.d (at3 t)) ≤ B (at3 t) := by
    intro t ht l hl
    refine List.single_le_sum (l := Ls.map fun l => C - Real.log (l.d (at3 t))) ?_ _ (List.mem_map.mpr ⟨l, hl, rfl⟩)
    simp only [List.mem_map]
    rintro x ⟨l, hl, rfl⟩
    linarith [hC t ht l hl]
  have hBt := hB0 t0 hR0
  obtain ⟨ε, hε, hεB⟩ : ∃ ε > 0, ε * B (at3 t0) ≤ c / 4 := by
    refine ⟨c / 4 / (B (at3 t0) + 1), by positivity, ?_⟩
    rw [div_mul_eq_mul_div, div_le_iff₀ (by linarith)]
    nlinarith
  obtain ⟨η, hη, hηR⟩ : ∃ η > 0, ∀ t : ℝ × ℝ × ℝ, ‖t‖ ≤ R → η * nsq (at3 t) ≤ c / 4 := by
    refine ⟨c / 4 / (3 * R ^ 2 + 1), by positivity, fun t ht => ?_⟩
    have h1 : |t.1| ≤ R := (norm_fst_le t).trans ht
    have h2 : |t.2.1| ≤ R := ((norm_fst_le t.2).trans (norm_snd_le t)).trans ht
    have h3 : |t.2.2| ≤ R := ((norm_snd_le t.2).trans (norm_snd_le t)).trans ht
    have e1 := sq_le_sq' (abs_le.mp h1).1 (abs_le.mp h1).2
    have e2 := sq_le_sq' (abs_le.mp h2).1 (abs_le.mp h2).2
    have e3 := sq_le_sq' (abs_le.mp h3).1 (abs_le.mp h3).2
    rw [div_mul_eq_mul_div, div_le_iff₀ (by positivity)]
    have : nsq (at3 t) ≤ 3 * R ^ 2 := by simp only [nsq, at3]; linarith
    nlinarith
  set g : V3 → ℝ := fun p => w p - ε * B p + η * nsq p with hg
  have hgc : ContinuousOn (fun t => g (at3 t)) U := by
    have h1 : ContinuousOn (fun t => B (at3 t)) U := by
      refine ContinuousOn.congr (f := fun t => (Ls.map fun l => C - Real.log (l.d (at3 t))).sum) ?_ fun t _ => rfl
      refine continuousOn_list_sum _ fun l _ => ?_
      exact continuousOn_const.sub ((hdc l).continuousOn.log fun t ht => (l.d_pos (p := at3 t) (hz t ht)).ne')
    have h2 : Continuous fun t => nsq (at3 t) := by unfold nsq at3; fun_prop
    exact (hc.sub (h1.const_mul ε)).add (h2.continuousOn.const_mul η)
  set K : Set (ℝ × ℝ × ℝ) := {t | t ∈ U ∧ ‖t‖ ≤ R ∧ 3 * c / 4 ≤ g (at3 t)} with hK
  have hKw : ∀ t ∈ K, c / 2 ≤ w (at3 t) - ε * B (at3 t) := by
    rintro t ⟨-, h2, h3⟩
    have := hηR t h2
    simp only [hg] at h3
    linarith
  have hKw' : ∀ t ∈ K, c / 2 ≤ w (at3 t) := by
    intro t ht
    have h1 := hKw t ht
    have h2 := mul_nonneg hε.le (hB0 t ht.2.1)
    linarith
  have hKclosed : IsClosed K := by
    rw [← closure_subset_iff_isClosed]
    intro t ht
    have hf := mem_closure_iff_frequently.mp ht
    have hn : ‖t‖ ≤ R := by
      have : closure K ⊆ Metric.closedBall 0 R :=
        closure_minimal (fun s hs => by simpa using hs.2.1) Metric.isClosed_closedBall
      simpa using this ht
    by_cases htU : t ∈ U
    · refine ⟨htU, hn, ?_⟩
      by_contra hlt
      push Not at hlt
      have h1 := (hgc.continuousAt (hU.mem_nhds htU)).eventually_lt_const hlt
      exact hf (h1.mono fun s hs hsK => absurd hsK.2.2 (not_le.mpr hs))
    · exfalso
      have htc : t ∈ closure U := closure_mono (fun s hs => hs.1) ht
      rcases hbd t htc htU with h | ⟨l, hl, hl0⟩
      · have h1 := h (c / 4) (by linarith)
        rw [eventually_nhdsWithin_iff] at h1
        exact hf (h1.mono fun s hs hsK => by linarith [hs hsK.1, hKw' s hsK])
      · have h1 : ∀ᶠ s in 𝓝 t, l.d (at3 s) < Real.exp (C - M / ε) := by
          refine ((hdc l).tendsto t).eventually_lt_const ?_
          rw [hl0]
          exact Real.exp_pos _
        refine hf (h1.mono fun s hs hsK => ?_)
        have hdp := l.d_pos (p := at3 s) (hz s hsK.1)
        have h2 : Real.log (l.d (at3 s)) < C - M / ε := by
          rwa [← Real.log_exp (C - M / ε), Real.log_lt_log_iff hdp (Real.exp_pos _)]
        have h3 := hBl s hsK.2.1 l hl
        have h4 : M < ε * B (at3 s) := by
          have : M / ε < B (at3 s) := by linarith
          rwa [div_lt_iff₀' hε] at this
        linarith [hKw s hsK, hM s hsK.1]
  have hKc : IsCompact K :=
    (isCompact_closedBall (0 : ℝ × ℝ × ℝ) R).of_isClosed_subset hKclosed fun s hs => by simpa using hs.2.1
  have hne : t0 ∈ K := by
    refine ⟨ht0, hR0, ?_⟩
    have : 0 ≤ η * nsq (at3 t0) := mul_nonneg hη.le (by unfold nsq; positivity)
    simp only [hg]
    linarith
  obtain ⟨t, htK, hmax⟩ := hKc.exists_isMaxOn ⟨t0, hne⟩ (hgc.mono fun s hs => hs.1)
  have htR : ‖t‖ < R := by
    by_contra h
    push Not at h
    linarith [hR t htK.1 h, hKw' t htK]
  have hloc : IsLocalMax (fun t => g (at3 t)) t := by
    have h1 : ∀ᶠ s in 𝓝 t, ‖s‖ < R := continuous_norm.continuousAt.eventually_lt_const htR
    filter_upwards [h1, hU.mem_nhds htK.1] with s h1 h2
    by_cases h3 : 3 * c / 4 ≤ g (at3 s)
    · exact hmax ⟨h2, h1.le, h3⟩
    · exact (lt_of_not_ge h3).le.trans htK.2.2
  have h := no_max hU (f := g)
    (f1 := fun a p => w1 a p - ε * (Ls.map fun l => -l.g1 a p).sum + η * (2 * co a p))
    (f2 := fun a p => w2 a p - ε * (Ls.map fun l => -l.g2 a p).sum + η * 2) ?_ ?_ htK.1 hloc
  · have e : (Ls.map fun l => -l.g2 0 (at3 t)).sum + (Ls.map fun l => -l.g2 1 (at3 t)).sum
        + (Ls.map fun l => -l.g2 2 (at3 t)).sum = 0 := by
      rw [← List.sum_map_add, ← List.sum_map_add]
      refine List.sum_eq_zero ?_
      simp only [List.mem_map]
      rintro x ⟨l, -, rfl⟩
      have := l.harmonic (p := at3 t) (hz t htK.1)
      linarith
    have := hlap (at3 t) htK.1
    nlinarith
  · intro a p hp
    have hp0 : 0 < p.z := hz _ hp
    have b : HasPartial a B (Ls.map fun l => -l.g1 a p).sum p :=
      partial_sum Ls (fun l p => C - Real.log (l.d p)) _ a p fun l _ =>
        HasDerivAt.const_sub C (l.log1 hp0 a)
    exact ((hw1 a p hp).sub (HasDerivAt.const_mul ε b)).add (HasDerivAt.const_mul η (nsq1 p a))
  · intro a p hp
    have hp0 : 0 < p.z := hz _ hp
    have b : HasPartial a (fun p => (Ls.map fun l => -l.g1 a p).sum) (Ls.map fun l => -l.g2 a p).sum p :=
      partial_sum Ls (fun l p => -l.g1 a p) _ a p fun l _ => HasDerivAt.neg (l.log2 hp0 a)
    exact ((hw2 a p hp).sub (HasDerivAt.const_mul ε b)).add (HasDerivAt.const_mul η (nsq2 p a))

end Electrode.MaxP
