import Mathlib.Analysis.ODE.Gronwall
import Mathlib.Analysis.SpecialFunctions.Trigonometric.Deriv
import Mathlib.Analysis.Calculus.Deriv.Mul
import Mathlib.Analysis.Calculus.Deriv.Prod
import Mathlib.Analysis.Calculus.MeanValue
import Mathlib.Analysis.Calculus.ContDiff.Operations
import Mathlib.Analysis.ODE.ExistUnique

/-
Averaging over a fast oscillation: a motion with the velocity `y - sin(Ω t) w(x)` differs from that in the mean force by `C / Ω`.
-/
namespace Electrode.Aver
open Set Real ContDiff

variable {E : Type*} [NormedAddCommGroup E] [NormedSpace ℝ E]

/-- bounds of the force `g`, the amplitude `w` of the micromotion and their derivatives in a region -/
structure Bounds (K : Set E) (g w p : E → E) (A : E → E →L[ℝ] E) (B : E → E →L[ℝ] E →L[ℝ] E) (P : E → E →L[ℝ] E) (M : ℝ) : Prop where
  one : 1 ≤ M
  hw : ∀ x ∈ K, HasFDerivAt w (A x) x
  hA : ∀ x ∈ K, HasFDerivAt A (B x) x
  hp : ∀ x ∈ K, HasFDerivAt p (P x) x
  hpA : ∀ x ∈ K, p x = A x (w x)
  ng : ∀ x ∈ K, ‖g x‖ ≤ M
  nw : ∀ x ∈ K, ‖w x‖ ≤ M
  nA : ∀ x ∈ K, ‖A x‖ ≤ M
  nB : ∀ x ∈ K, ‖B x‖ ≤ M
  np : ∀ x ∈ K, ‖p x‖ ≤ M
  nP : ∀ x ∈ K, ‖P x‖ ≤ M
  lg : ∀ x ∈ K, ∀ y ∈ K, ‖g x - g y‖ ≤ M * ‖x - y‖
  lp : ∀ x ∈ K, ∀ y ∈ K, ‖p x - p y‖ ≤ M * ‖x - y‖

/-- bound of the velocity without micromotion -/
noncomputable def speed (M T n : ℝ) : ℝ := gronwallBound n M (M + M * M) T

theorem speed_bound {K : Set E} {g w p : E → E} {A : E → E →L[ℝ] E} {B P} {M : ℝ} (hM : Bounds K g w p A B P M) {Ω T T' n : ℝ}
    (hT : T ≤ T') {x y : ℝ → E} (hx : ∀ t ∈ Icc 0 T, x t ∈ K) (hn : ‖y 0‖ ≤ n)
    (hy' : ∀ t ∈ Icc 0 T, HasDerivWithinAt y (-g (x t) + sin (Ω * t) • A (x t) (y t - sin (Ω * t) • w (x t))) (Icc 0 T) t) :
    ∀ t ∈ Icc 0 T, ‖y t‖ ≤ speed M T' n := by
  have hM0 : 0 ≤ M := zero_le_one.trans hM.one
  intro t ht
  have h := norm_le_gronwallBound_of_norm_deriv_right_le (f := y)
    (f' := fun t => -g (x t) + sin (Ω * t) • A (x t) (y t - sin (Ω * t) • w (x t))) (δ := n) (K := M) (ε := M + M * M) (a := 0) (b := T)
    (fun t ht => (hy' t ht).continuousWithinAt)
    (fun t ht => (hy' t ⟨ht.1, ht.2.le⟩).mono_of_mem_nhdsWithin (Icc_mem_nhdsGE_of_mem ht)) hn
    (fun t ht => by
      have hk := hx t ⟨ht.1, ht.2.le⟩
      have hs := abs_sin_le_one (Ω * t)
      have h1 : ‖y t - sin (Ω * t) • w (x t)‖ ≤ ‖y t‖ + M := by
        refine (norm_sub_le _ _).trans ?_
        rw [norm_smul, norm_eq_abs]
        have := mul_le_mul hs (hM.nw _ hk) (norm_nonneg _) zero_le_one
        linarith
      have h2 : ‖A (x t) (y t - sin (Ω * t) • w (x t))‖ ≤ M * (‖y t‖ + M) :=
        ((A (x t)).le_opNorm _).trans (mul_le_mul (hM.nA _ hk) h1 (norm_nonneg _) hM0)
      refine (norm_add_le _ _).trans ?_
      rw [norm_neg, norm_smul, norm_eq_abs]
      have h3 := mul_le_mul hs h2 (norm_nonneg _) zero_le_one
      have h4 := hM.ng _ hk
      linarith) t ht
  refine h.trans ?_
  rw [sub_zero]
  exact gronwallBound_mono ((norm_nonneg _).trans hn) (by positivity) hM0 (ht.2.trans hT)

/-- the error is at most this number divided by the frequency -/
noncomputable def drift (M T n : ℝ) : ℝ :=
  let N := speed M T n
  let C0 := M + (M * N + M)
  gronwallBound C0 (2 * M) (2 * M * C0 + M * (N + M) + (M * (N + M) * N + M * (M + M * (N + M)) + M * (N + M))) T + C0

theorem average {K : Set E} {g w p : E → E} {A : E → E →L[ℝ] E} {B P} {M : ℝ} (hM : Bounds K g w p A B P M) {Ω T T' n : ℝ} (hΩ : 0 < Ω) (hTT : T ≤ T')
    {x y X Y : ℝ → E} (hx : ∀ t ∈ Icc 0 T, x t ∈ K) (hX : ∀ t ∈ Icc 0 T, X t ∈ K)
    (hx' : ∀ t ∈ Icc 0 T, HasDerivWithinAt x (y t - sin (Ω * t) • w (x t)) (Icc 0 T) t)
    (hy' : ∀ t ∈ Icc 0 T, HasDerivWithinAt y (-g (x t) + sin (Ω * t) • A (x t) (y t - sin (Ω * t) • w (x t))) (Icc 0 T) t)
    (hX' : ∀ t ∈ Icc 0 T, HasDerivWithinAt X (Y t) (Icc 0 T) t)
    (hY' : ∀ t ∈ Icc 0 T, HasDerivWithinAt Y (-g (X t) - (1 / 2 : ℝ) • p (X t)) (Icc 0 T) t)
    (h0 : x 0 = X 0) (h0' : y 0 = Y 0) (hn : ‖y 0‖ ≤ n) : ∀ t ∈ Icc 0 T,
      ‖x t - X t‖ ≤ drift M T' n / Ω ∧ ‖y t - Y t‖ ≤ drift M T' n / Ω := by
  have hM0 : 0 ≤ M := zero_le_one.trans hM.one
  set N := speed M T' n with hN
  have hyN : ∀ t ∈ Icc 0 T, ‖y t‖ ≤ N := speed_bound hM hTT hx hn hy'
  intro t ht
  have hT : 0 ≤ T := ht.1.trans ht.2
  have hN0 : 0 ≤ N := (norm_nonneg _).trans (hyN 0 ⟨le_rfl, hT⟩)
  -- the corrected variables
  let xt : ℝ → E := fun t => x t - (cos (Ω * t) / Ω) • w (x t)
  let yt : ℝ → E := fun t => y t + (cos (Ω * t) / Ω) • A (x t) (y t) - (sin (2 * (Ω * t)) / (4 * Ω)) • p (x t)
  let dx : ℝ → E := fun t => y t - sin (Ω * t) • w (x t)
  let dy : ℝ → E := fun t => -g (x t) + sin (Ω * t) • A (x t) (dx t)
  let r1 : ℝ → E := fun t => (cos (Ω * t) / Ω) • A (x t) (dx t)
  let r2 : ℝ → E := fun t => (cos (Ω * t) / Ω) • (B (x t) (dx t) (y t) + A (x t) (dy t)) - (sin (2 * (Ω * t)) / (4 * Ω)) • P (x t) (dx t)
  have hcos : ∀ t, |cos (Ω * t) / Ω| ≤ 1 / Ω := fun t => by
    rw [abs_div, abs_of_pos hΩ]
    have := abs_cos_le_one (Ω * t)
    gcongr
  have hsin : ∀ t, |sin (2 * (Ω * t)) / (4 * Ω)| ≤ 1 / Ω := fun t => by
    rw [abs_div, abs_of_pos (by positivity : 0 < 4 * Ω), div_le_div_iff₀ (by positivity) hΩ]
    have := abs_sin_le_one (2 * (Ω * t))
    nlinarith
  have hd1 : ∀ t, HasDerivAt (fun t => cos (Ω * t) / Ω) (-sin (Ω * t)) t := fun t => by
    have h1 : HasDerivAt (fun t : ℝ => Ω * t) Ω t := by simpa using (hasDerivAt_id t).const_mul Ω
    have := (h1.cos).div_const Ω
    rwa [mul_div_cancel_right₀ _ hΩ.ne'] at this
  have hd2 : ∀ t, HasDerivAt (fun t => sin (2 * (Ω * t)) / (4 * Ω)) (cos (2 * (Ω * t)) / 2) t := fun t => by
    have h1 : HasDerivAt (fun t : ℝ => 2 * (Ω * t)) (2 * Ω) t := by simpa using ((hasDerivAt_id t).const_mul Ω).const_mul 2
    have := (h1.sin).div_const (4 * Ω)
    refine this.congr_deriv ?_
    field_simp
    ring
  have ndx : ∀ t ∈ Icc 0 T, ‖dx t‖ ≤ N + M := fun t ht => by
    refine (norm_sub_le _ _).trans ?_
    rw [norm_smul, norm_eq_abs]
    have := mul_le_mul (abs_sin_le_one (Ω * t)) (hM.nw _ (hx t ht)) (norm_nonneg _) zero_le_one
    have := hyN t ht
    linarith
  have nAdx : ∀ t ∈ Icc 0 T, ‖A (x t) (dx t)‖ ≤ M * (N + M) := fun t ht =>
    ((A (x t)).le_opNorm _).trans (mul_le_mul (hM.nA _ (hx t ht)) (ndx t ht) (norm_nonneg _) hM0)
  have ndy : ∀ t ∈ Icc 0 T, ‖dy t‖ ≤ M + M * (N + M) := fun t ht => by
    refine (norm_add_le _ _).trans ?_
    rw [norm_neg, norm_smul, norm_eq_abs]
    have := mul_le_mul (abs_sin_le_one (Ω * t)) (nAdx t ht) (norm_nonneg _) zero_le_one
    have := hM.ng _ (hx t ht)
    linarith
  have nr1 : ∀ t ∈ Icc 0 T, ‖r1 t‖ ≤ M * (N + M) / Ω := fun t ht => by
    show ‖(cos (Ω * t) / Ω) • A (x t) (dx t)‖ ≤ _
    rw [norm_smul, norm_eq_abs]
    have := mul_le_mul (hcos t) (nAdx t ht) (norm_nonneg _) (by positivity)
    rwa [one_div_mul_eq_div] at this
  have nr2 : ∀ t ∈ Icc 0 T, ‖r2 t‖ ≤ (M * (N + M) * N + M * (M + M * (N + M)) + M * (N + M)) / Ω := fun t ht => by
    have hk := hx t ht
    have h1 : ‖B (x t) (dx t) (y t)‖ ≤ M * (N + M) * N :=
      ((B (x t) (dx t)).le_opNorm _).trans (mul_le_mul (((B (x t)).le_opNorm _).trans (mul_le_mul (hM.nB _ hk) (ndx t ht) (norm_nonneg _) hM0))
        (hyN t ht) (norm_nonneg _) (by positivity))
    have h2 : ‖A (x t) (dy t)‖ ≤ M * (M + M * (N + M)) :=
      ((A (x t)).le_opNorm _).trans (mul_le_mul (hM.nA _ hk) (ndy t ht) (norm_nonneg _) hM0)
    have h3 : ‖P (x t) (dx t)‖ ≤ M * (N + M) :=
      ((P (x t)).le_opNorm _).trans (mul_le_mul (hM.nP _ hk) (ndx t ht) (norm_nonneg _) hM0)
    refine (norm_sub_le _ _).trans ?_
    rw [norm_smul, norm_smul, norm_eq_abs, norm_eq_abs]
    have h4 := mul_le_mul (hcos t) ((norm_add_le _ _).trans (add_le_add h1 h2)) (norm_nonneg _) (by positivity)
    have h5 := mul_le_mul (hsin t) h3 (norm_nonneg _) (by positivity)
    refine (add_le_add h4 h5).trans (le_of_eq ?_)
    ring
  have dxt : ∀ t ∈ Icc 0 T, HasDerivWithinAt xt (y t - r1 t) (Icc 0 T) t := fun t ht => by
    have h1 := (hM.hw _ (hx t ht)).comp_hasDerivWithinAt t (hx' t ht)
    have h2 := (hx' t ht).sub ((hd1 t).hasDerivWithinAt.smul h1)
    refine h2.congr_deriv ?_
    simp only [r1, dx, Function.comp_apply]
    module
  have dyt : ∀ t ∈ Icc 0 T, HasDerivWithinAt yt (-g (x t) - (1 / 2 : ℝ) • p (x t) + r2 t) (Icc 0 T) t := fun t ht => by
    have hA := (hM.hA _ (hx t ht)).comp_hasDerivWithinAt t (hx' t ht)
    have hP := (hM.hp _ (hx t ht)).comp_hasDerivWithinAt t (hx' t ht)
    have h1 := (hd1 t).hasDerivWithinAt.smul (hA.clm_apply (hy' t ht))
    have h2 := (hd2 t).hasDerivWithinAt.smul hP
    have h3 := ((hy' t ht).add h1).sub h2
    refine h3.congr_deriv ?_
    have e1 : cos (2 * (Ω * t)) = 1 - 2 * sin (Ω * t) ^ 2 := by
      rw [cos_two_mul, cos_sq']; ring
    simp only [r2, dx, dy, Function.comp_apply, map_sub, map_smul, hM.hpA _ (hx t ht), e1]
    module
  have nx : ∀ t ∈ Icc 0 T, ‖x t - xt t‖ ≤ M / Ω := fun t ht => by
    simp only [xt, sub_sub_cancel]
    rw [norm_smul, norm_eq_abs]
    have := mul_le_mul (hcos t) (hM.nw _ (hx t ht)) (norm_nonneg _) (by positivity)
    rwa [one_div_mul_eq_div] at this
  have ny : ∀ t ∈ Icc 0 T, ‖y t - yt t‖ ≤ (M * N + M) / Ω := fun t ht => by
    have e : y t - yt t = (sin (2 * (Ω * t)) / (4 * Ω)) • p (x t) - (cos (Ω * t) / Ω) • A (x t) (y t) := by
      simp only [yt]; abel
    rw [e]
    refine (norm_sub_le _ _).trans ?_
    rw [norm_smul, norm_smul, norm_eq_abs, norm_eq_abs]
    have h1 := mul_le_mul (hsin t) (hM.np _ (hx t ht)) (norm_nonneg _) (by positivity)
    have h2 := mul_le_mul (hcos t) (((A (x t)).le_opNorm _).trans (mul_le_mul (hM.nA _ (hx t ht)) (hyN t ht) (norm_nonneg _) hM0)) (norm_nonneg _)
      (by positivity)
    refine (add_le_add h1 h2).trans (le_of_eq ?_)
    ring
  set C0 := M + (M * N + M) with hC0
  set C2 := 2 * M * C0 + M * (N + M) + (M * (N + M) * N + M * (M + M * (N + M)) + M * (N + M)) with hC2
  have hΩi : (0:ℝ) ≤ 1 / Ω := by positivity
  have main := norm_le_gronwallBound_of_norm_deriv_right_le (f := fun t => (xt t - X t, yt t - Y t))
    (f' := fun t => (y t - r1 t - Y t, -g (x t) - (1 / 2 : ℝ) • p (x t) + r2 t - (-g (X t) - (1 / 2 : ℝ) • p (X t))))
    (δ := C0 / Ω) (K := 2 * M) (ε := C2 / Ω) (a := 0) (b := T)
    (fun t ht => (((dxt t ht).sub (hX' t ht)).prodMk ((dyt t ht).sub (hY' t ht))).continuousWithinAt)
    (fun t ht => (((dxt t ⟨ht.1, ht.2.le⟩).sub (hX' t ⟨ht.1, ht.2.le⟩)).prodMk
      ((dyt t ⟨ht.1, ht.2.le⟩).sub (hY' t ⟨ht.1, ht.2.le⟩))).mono_of_mem_nhdsWithin (Icc_mem_nhdsGE_of_mem ht))
    (by
      have a1 := nx 0 ⟨le_rfl, hT⟩
      have a2 := ny 0 ⟨le_rfl, hT⟩
      rw [Prod.norm_mk]
      have e : C0 / Ω = M / Ω + (M * N + M) / Ω := by rw [hC0]; ring
      have b1 : 0 ≤ M / Ω := by positivity
      have b2 : 0 ≤ (M * N + M) / Ω := by positivity
      refine max_le ?_ ?_
      · rw [← h0, norm_sub_rev]; linarith
      · rw [← h0', norm_sub_rev]; linarith)
    (fun t ht => by
      have ht' : t ∈ Icc 0 T := ⟨ht.1, ht.2.le⟩
      have a1 := nx t ht'
      have a2 := ny t ht'
      have b1 : ‖xt t - X t‖ ≤ ‖(xt t - X t, yt t - Y t)‖ := norm_fst_le (xt t - X t, yt t - Y t)
      have b2 : ‖yt t - Y t‖ ≤ ‖(xt t - X t, yt t - Y t)‖ := norm_snd_le (xt t - X t, yt t - Y t)
      set n := ‖(xt t - X t, yt t - Y t)‖ with hnd
      have hn0 : 0 ≤ n := norm_nonneg _
      have c1 : ‖x t - X t‖ ≤ n + M / Ω := by
        have := norm_sub_le_norm_sub_add_norm_sub (x t) (xt t) (X t)
        linarith
      have c2 : ‖y t - Y t‖ ≤ n + (M * N + M) / Ω := by
        have := norm_sub_le_norm_sub_add_norm_sub (y t) (yt t) (Y t)
        linarith
      have e0 : C0 / Ω = M / Ω + (M * N + M) / Ω := by rw [hC0]; ring
      have e2 : C2 / Ω = 2 * M * (C0 / Ω) + M * (N + M) / Ω + (M * (N + M) * N + M * (M + M * (N + M)) + M * (N + M)) / Ω := by rw [hC2]; ring
      have p1 : 0 ≤ M / Ω := by positivity
      have p2 : 0 ≤ (M * N + M) / Ω := by positivity
      have p3 : 0 ≤ M * (N + M) / Ω := by positivity
      have p4 : 0 ≤ (M * (N + M) * N + M * (M + M * (N + M)) + M * (N + M)) / Ω := by positivity
      have hm1 := hM.one
      rw [Prod.norm_mk]
      refine max_le ?_ ?_
      · have f1 : ‖y t - r1 t - Y t‖ ≤ ‖y t - Y t‖ + ‖r1 t‖ := by
          rw [show y t - r1 t - Y t = (y t - Y t) - r1 t by abel]
          exact norm_sub_le _ _
        have f2 := nr1 t ht'
        have f3 : n ≤ 2 * M * n := by nlinarith
        have f4 : C0 / Ω ≤ 2 * M * (C0 / Ω) := by
          have : 0 ≤ C0 / Ω := by rw [e0]; positivity
          nlinarith
        linarith
      · have f1 : ‖-g (x t) - (1 / 2 : ℝ) • p (x t) + r2 t - (-g (X t) - (1 / 2 : ℝ) • p (X t))‖
            ≤ ‖g (x t) - g (X t)‖ + ‖p (x t) - p (X t)‖ / 2 + ‖r2 t‖ := by
          rw [show -g (x t) - (1 / 2 : ℝ) • p (x t) + r2 t - (-g (X t) - (1 / 2 : ℝ) • p (X t))
            = -(g (x t) - g (X t)) + (-(1 / 2 : ℝ)) • (p (x t) - p (X t)) + r2 t by module]
          refine (norm_add_le _ _).trans (add_le_add_left ?_ _)
          refine (norm_add_le _ _).trans (le_of_eq ?_)
          rw [norm_neg, norm_smul, norm_eq_abs, abs_neg, abs_of_pos (by norm_num : (0:ℝ) < 1 / 2)]
          ring
        have f2 := hM.lg _ (hx t ht') _ (hX t ht')
        have f3 := hM.lp _ (hx t ht') _ (hX t ht')
        have f4 := nr2 t ht'
        have f5 := mul_le_mul_of_nonneg_left c1 hM0
        have f6 : M * (M / Ω) ≤ M * (C0 / Ω) := mul_le_mul_of_nonneg_left (by linarith) hM0
        have f7 : 0 ≤ M * n := by positivity
        nlinarith) t ht
  have hlin : gronwallBound (C0 / Ω) (2 * M) (C2 / Ω) (t - 0) = gronwallBound C0 (2 * M) C2 t / Ω := by
    have : 2 * M ≠ 0 := by have := hM.one; positivity
    rw [sub_zero, gronwallBound_of_K_ne_0 this, gronwallBound_of_K_ne_0 this]
    ring
  have hmono : gronwallBound C0 (2 * M) C2 t ≤ gronwallBound C0 (2 * M) C2 T' := by
    refine gronwallBound_mono ?_ ?_ (by positivity) (ht.2.trans hTT) <;> positivity
  have b1 : ‖xt t - X t‖ ≤ ‖(xt t - X t, yt t - Y t)‖ := norm_fst_le (xt t - X t, yt t - Y t)
  have c1 := norm_sub_le_norm_sub_add_norm_sub (x t) (xt t) (X t)
  have c2 := nx t ht
  have b2 : ‖yt t - Y t‖ ≤ ‖(xt t - X t, yt t - Y t)‖ := norm_snd_le (xt t - X t, yt t - Y t)
  have d1 := norm_sub_le_norm_sub_add_norm_sub (y t) (yt t) (Y t)
  have d2 := ny t ht
  rw [hlin] at main
  have e : drift M T' n / Ω = gronwallBound C0 (2 * M) C2 T' / Ω + (M / Ω + (M * N + M) / Ω) := by
    rw [drift, add_div, ← add_div M]
  rw [e]
  have p1 : 0 ≤ M / Ω := by positivity
  have p2 : 0 ≤ (M * N + M) / Ω := by positivity
  have c3 : gronwallBound C0 (2 * M) C2 t / Ω ≤ gronwallBound C0 (2 * M) C2 T' / Ω := by gcongr
  exact ⟨by linarith, by linarith⟩

theorem drift_nonneg {M T n : ℝ} (hM : 0 ≤ M) (hn : 0 ≤ n) (hT : 0 ≤ T) : 0 ≤ drift M T n := by
  have h1 : 0 ≤ speed M T n := by
    refine hn.trans ?_
    have := gronwallBound_mono (δ := n) (ε := M + M * M) hn (by positivity) hM hT
    rwa [gronwallBound_x0] at this
  unfold drift
  simp only
  set N := speed M T n
  have := gronwallBound_mono (δ := M + (M * N + M)) (K := 2 * M)
    (ε := 2 * M * (M + (M * N + M)) + M * (N + M) + (M * (N + M) * N + M * (M + M * (N + M)) + M * (N + M))) (by positivity) (by positivity) (by positivity) hT
  rw [gronwallBound_x0] at this
  have : 0 ≤ M + (M * N + M) := by positivity
  linarith

/-- smooth functions have such bounds on convex compact sets -/
theorem bounds_exist {K : Set E} (hK : IsCompact K) (hc : Convex ℝ K) {g w : E → E} (hg : ∀ x ∈ K, ContDiffAt ℝ ∞ g x) (hw : ∀ x ∈ K, ContDiffAt ℝ ∞ w x) :
    ∃ M, Bounds K g w (fun x => fderiv ℝ w x (w x)) (fderiv ℝ w) (fderiv ℝ (fderiv ℝ w)) (fderiv ℝ fun x => fderiv ℝ w x (w x)) M := by
  have hA : ∀ x ∈ K, ContDiffAt ℝ ∞ (fderiv ℝ w) x := fun x hx => (hw x hx).fderiv_right (by simp)
  have hB : ∀ x ∈ K, ContDiffAt ℝ ∞ (fderiv ℝ (fderiv ℝ w)) x := fun x hx => (hA x hx).fderiv_right (by simp)
  have hp : ∀ x ∈ K, ContDiffAt ℝ ∞ (fun x => fderiv ℝ w x (w x)) x := fun x hx => (hA x hx).clm_apply (hw x hx)
  have hP : ∀ x ∈ K, ContDiffAt ℝ ∞ (fderiv ℝ fun x => fderiv ℝ w x (w x)) x := fun x hx => (hp x hx).fderiv_right (by simp)
  have hG : ∀ x ∈ K, ContDiffAt ℝ ∞ (fderiv ℝ g) x := fun x hx => (hg x hx).fderiv_right (by simp)
  obtain ⟨M1, h1⟩ := hK.exists_bound_of_continuousOn fun x hx => (hg x hx).continuousAt.continuousWithinAt
  obtain ⟨M2, h2⟩ := hK.exists_bound_of_continuousOn fun x hx => (hw x hx).continuousAt.continuousWithinAt
  obtain ⟨M3, h3⟩ := hK.exists_bound_of_continuousOn fun x hx => (hA x hx).continuousAt.continuousWithinAt
  obtain ⟨M4, h4⟩ := hK.exists_bound_of_continuousOn fun x hx => (hB x hx).continuousAt.continuousWithinAt
  obtain ⟨M5, h5⟩ := hK.exists_bound_of_continuousOn fun x hx => (hp x hx).continuousAt.continuousWithinAt
  obtain ⟨M6, h6⟩ := hK.exists_bound_of_continuousOn fun x hx => (hP x hx).continuousAt.continuousWithinAt
  obtain ⟨M7, h7⟩ := hK.exists_bound_of_continuousOn fun x hx => (hG x hx).continuousAt.continuousWithinAt
  set M := 1 + |M1| + |M2| + |M3| + |M4| + |M5| + |M6| + |M7| with hM
  have a1 := abs_nonneg M1
  have a2 := abs_nonneg M2
  have a3 := abs_nonneg M3
  have a4 := abs_nonneg M4
  have a5 := abs_nonneg M5
  have a6 := abs_nonneg M6
  have a7 := abs_nonneg M7
  have b6 : M6 ≤ M := by have := le_abs_self M6; linarith
  have b7 : M7 ≤ M := by have := le_abs_self M7; linarith
  refine ⟨M, by linarith, fun x hx => ((hw x hx).differentiableAt (by simp)).hasFDerivAt, fun x hx => ((hA x hx).differentiableAt (by simp)).hasFDerivAt,
    fun x hx => ((hp x hx).differentiableAt (by simp)).hasFDerivAt, fun _ _ => rfl,
    fun x hx => (h1 x hx).trans (by have := le_abs_self M1; linarith), fun x hx => (h2 x hx).trans (by have := le_abs_self M2; linarith),
    fun x hx => (h3 x hx).trans (by have := le_abs_self M3; linarith), fun x hx => (h4 x hx).trans (by have := le_abs_self M4; linarith),
    fun x hx => (h5 x hx).trans (by have := le_abs_self M5; linarith), fun x hx => (h6 x hx).trans b6, fun x hx y hy => ?_, fun x hx y hy => ?_⟩
  · exact hc.norm_image_sub_le_of_norm_hasFDerivWithin_le (fun z hz => ((hg z hz).differentiableAt (by simp)).hasFDerivAt.hasFDerivWithinAt)
      (fun z hz => (h7 z hz).trans b7) hy hx
  · exact hc.norm_image_sub_le_of_norm_hasFDerivWithin_le (fun z hz => ((hp z hz).differentiableAt (by simp)).hasFDerivAt.hasFDerivWithinAt)
      (fun z hz => (h6 z hz).trans b6) hy hx

/-- a path that stays in an open set if it has stayed in its closure before stays there -/
theorem first_exit {U : Set E} (hU : IsOpen U) {T : ℝ} {x : ℝ → E} (hcont : ContinuousOn x (Icc 0 T)) (h0 : x 0 ∈ U)
    (key : ∀ τ ∈ Icc 0 T, (∀ t ∈ Icc 0 τ, x t ∈ closure U) → x τ ∈ U) : ∀ t ∈ Icc 0 T, x t ∈ U := by
  by_contra hcon
  push Not at hcon
  obtain ⟨t1, ht1, hout⟩ := hcon
  set S := Icc 0 T ∩ x ⁻¹' Uᶜ with hS
  have hSc : IsClosed S := hcont.preimage_isClosed_of_isClosed isClosed_Icc hU.isClosed_compl
  have hSb : BddBelow S := ⟨0, fun t ht => ht.1.1⟩
  have hτ : sInf S ∈ S := hSc.csInf_mem ⟨t1, ht1, hout⟩ hSb
  set τ := sInf S with hτd
  have hbefore : ∀ t, 0 ≤ t → t < τ → x t ∈ U := fun t h1 h2 => by
    by_contra hn
    exact absurd (csInf_le hSb ⟨⟨h1, h2.le.trans hτ.1.2⟩, hn⟩) (not_le.2 h2)
  have hpos : 0 < τ := by
    refine lt_of_le_of_ne hτ.1.1 fun h => hτ.2 ?_
    rw [← h]; exact h0
  have hcl : x τ ∈ closure U := by
    have h1 : ContinuousWithinAt x (Ico 0 τ) τ := (hcont τ hτ.1).mono fun t ht => ⟨ht.1, ht.2.le.trans hτ.1.2⟩
    refine h1.mem_closure ?_ fun t ht => hbefore t ht.1 ht.2
    rw [closure_Ico hpos.ne]
    exact ⟨hpos.le, le_rfl⟩
  refine hτ.2 (key τ hτ.1 fun t ht => ?_)
  rcases ht.2.eq_or_lt with h | h
  · rw [h]; exact hcl
  · exact subset_closure (hbefore t ht.1 h)

/-- continuing a solution -/
theorem join {f : E → E} {T1 T2 : ℝ} (h0 : 0 ≤ T1) (h1 : T1 ≤ T2) {γ β : ℝ → E}
    (hγ : ∀ t ∈ Icc 0 T1, HasDerivWithinAt γ (f (γ t)) (Icc 0 T1) t) (hβ : ∀ t ∈ Icc T1 T2, HasDerivWithinAt β (f (β t)) (Icc T1 T2) t)
    (he : β T1 = γ T1) : ∀ t ∈ Icc 0 T2,
      HasDerivWithinAt (fun t => if t ≤ T1 then γ t else β t) (f (if t ≤ T1 then γ t else β t)) (Icc 0 T2) t := by
  intro t ht
  have eβ : ∀ t, T1 ≤ t → (if t ≤ T1 then γ t else β t) = β t := fun t h => by
    split
    · next h2 => rw [le_antisymm h2 h, he]
    · rfl
  rw [← Icc_union_Icc_eq_Icc h0 h1]
  refine HasDerivWithinAt.union ?_ ?_
  · by_cases h : t ≤ T1
    · rw [if_pos h]
      exact (hγ t ⟨ht.1, h⟩).congr (fun s hs => if_pos hs.2) (if_pos h)
    · refine HasFDerivWithinAt.of_notMem_closure ?_
      rw [isClosed_Icc.closure_eq]
      exact fun h2 => h h2.2
  · by_cases h : T1 ≤ t
    · rw [eβ t h]
      exact (hβ t ⟨h, ht.2⟩).congr (fun s hs => eβ s hs.1) (eβ t h)
    · refine HasFDerivWithinAt.of_notMem_closure ?_
      rw [isClosed_Icc.closure_eq]
      exact fun h2 => h h2.1

/-- solutions that cannot leave a compact set exist as long as one likes -/
theorem extend [CompleteSpace E] {f : E → E} {C : Set E} (hC : IsCompact C) (hf : ∀ z ∈ C, ContDiffAt ℝ 1 f z) {z0 : E} (h0 : z0 ∈ C) {T : ℝ} (hT : 0 ≤ T)
    (hstay : ∀ T' ≤ T, ∀ γ : ℝ → E, γ 0 = z0 → (∀ t ∈ Icc 0 T', HasDerivWithinAt γ (f (γ t)) (Icc 0 T') t) → ∀ t ∈ Icc 0 T', γ t ∈ C) :
    ∃ γ : ℝ → E, γ 0 = z0 ∧ ∀ t ∈ Icc 0 T, HasDerivWithinAt γ (f (γ t)) (Icc 0 T) t := by
  have hstep : ∃ ε > 0, ∀ z ∈ C, ∃ α : ℝ → E, α 0 = z ∧ ∀ t ∈ Ioo (-ε) ε, HasDerivAt α (f (α t)) t := by
    have hloc : ∀ z ∈ C, ∃ r > (0:ℝ), ∃ ε > (0:ℝ), ∀ y ∈ Metric.closedBall z r, ∃ α : ℝ → E, α 0 = y ∧
        ∀ t ∈ Ioo (0 - ε) (0 + ε), HasDerivAt α (f (α t)) t := fun z hz =>
      (hf z hz).exists_forall_mem_closedBall_exists_eq_forall_mem_Ioo_hasDerivAt 0
    choose! r hr ε hε hα using hloc
    obtain ⟨S, hS, hcov⟩ := hC.elim_nhds_subcover (fun z => Metric.ball z (r z)) fun z hz => Metric.ball_mem_nhds z (hr z hz)
    have hmin : ∃ δ > 0, ∀ z ∈ S, δ ≤ ε z := by
      clear hcov
      classical
      induction S using Finset.induction_on with
      | empty => exact ⟨1, one_pos, by simp⟩
      | insert a S ha ih =>
        obtain ⟨δ, h1, h2⟩ := ih fun z hz => hS z (Finset.mem_insert_of_mem hz)
        refine ⟨min δ (ε a), lt_min h1 (hε a (hS a (Finset.mem_insert_self _ _))), fun z hz => ?_⟩
        rcases Finset.mem_insert.1 hz with rfl | h
        · exact min_le_right _ _
        · exact (min_le_left _ _).trans (h2 z h)
    obtain ⟨δ, h1, h2⟩ := hmin
    refine ⟨δ, h1, fun z hz => ?_⟩
    obtain ⟨w, hw, hzw⟩ := mem_iUnion₂.1 (hcov hz)
    obtain ⟨α, e, hd⟩ := hα w (hS w hw) z (Metric.ball_subset_closedBall hzw)
    have := h2 w hw
    exact ⟨α, e, fun t ht => hd t ⟨by linarith [ht.1], by linarith [ht.2]⟩⟩
  obtain ⟨ε, hε, hα⟩ := hstep
  have shrink : ∀ {γ : ℝ → E} {T1 T2 : ℝ}, T2 ≤ T1 → (∀ t ∈ Icc 0 T1, HasDerivWithinAt γ (f (γ t)) (Icc 0 T1) t) →
      ∀ t ∈ Icc 0 T2, HasDerivWithinAt γ (f (γ t)) (Icc 0 T2) t := fun h hγ t ht =>
    (hγ t ⟨ht.1, ht.2.trans h⟩).mono (Icc_subset_Icc_right h)
  have hn : ∀ n : ℕ, ∃ γ : ℝ → E, γ 0 = z0 ∧ ∀ t ∈ Icc 0 (min (n * (ε / 2)) T), HasDerivWithinAt γ (f (γ t)) (Icc 0 (min (n * (ε / 2)) T)) t := by
    intro n
    induction n with
    | zero =>
      obtain ⟨α, e, hd⟩ := hα z0 h0
      refine ⟨α, e, fun t ht => (hd t ⟨by linarith [ht.1], ?_⟩).hasDerivWithinAt⟩
      have := ht.2.trans (min_le_left _ _)
      simp at this
      linarith
    | succ n ih =>
      obtain ⟨γ, e, hγ⟩ := ih
      set T1 : ℝ := min (n * (ε / 2)) T with hT1
      have hT0 : 0 ≤ T1 := le_min (by positivity) hT
      have hz := hstay T1 (min_le_right _ _) γ e hγ T1 ⟨hT0, le_rfl⟩
      obtain ⟨α, ea, hd⟩ := hα _ hz
      have hsucc : min (((n + 1 : ℕ) : ℝ) * (ε / 2)) T ≤ T1 + ε / 2 := by
        rw [hT1, ← min_add_add_right]
        refine le_min ((min_le_left _ _).trans (le_of_eq ?_)) ((min_le_right _ _).trans (by linarith))
        push_cast; ring
      have hβ : ∀ t ∈ Icc T1 (T1 + ε / 2), HasDerivWithinAt (fun t => α (t - T1)) (f (α (t - T1))) (Icc T1 (T1 + ε / 2)) t := fun t ht => by
        have h1 := hd (t - T1) ⟨by linarith [ht.1], by linarith [ht.2]⟩
        exact (h1.comp_sub_const t T1).hasDerivWithinAt
      refine ⟨_, ?_, shrink hsucc (join hT0 (by linarith) hγ hβ (by simp [ea]))⟩
      simp [hT0, e]
  obtain ⟨n, hnT⟩ := exists_nat_ge (T / (ε / 2))
  rw [div_le_iff₀ (by positivity)] at hnT
  obtain ⟨γ, e, hγ⟩ := hn n
  rw [min_eq_right hnT] at hγ
  exact ⟨γ, e, hγ⟩

end Electrode.Aver
