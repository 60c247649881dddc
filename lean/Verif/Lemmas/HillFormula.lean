import Verif.Lemmas.HillTail
import Mathlib.Analysis.Complex.Liouville
import Mathlib.Analysis.Complex.RemovableSingularity
import Mathlib.Analysis.Real.Pi.Bounds
import Mathlib.Analysis.SpecialFunctions.Trigonometric.Complex
import Mathlib.Analysis.SpecialFunctions.Trigonometric.DerivHyp

/-!
Hill's formula: how the infinite determinant depends on the exponent.
-/

open Filter Topology Complex

namespace Electrode

theorem hlD_strip (k : ℝ) : ∃ c > (0 : ℝ), ∀ (n : ℕ) (v : ℂ), |v.re| ≤ 1 → 1 ≤ |v.im| → c * |v.im| * ((n : ℝ) + 1) ≤ ‖hlD k n v‖ := by
  obtain ⟨N, hN⟩ := exists_nat_ge (1 + |k|)
  refine ⟨1 / (2 * ((N : ℝ) + 1)), by positivity, fun n v hr hi => ?_⟩
  have hk := abs_nonneg k
  have hN0 : (1 : ℝ) ≤ N := by linarith
  have hn0 : (0 : ℝ) ≤ n := Nat.cast_nonneg n
  rw [hlD_factor, norm_mul]
  have i1 : |v.im| ≤ ‖v + 2 * (n : ℤ) - k‖ := by
    refine le_trans (le_of_eq ?_) (abs_im_le_norm _)
    simp
  have i2 : |v.im| ≤ ‖v + 2 * (n : ℤ) + k‖ := by
    refine le_trans (le_of_eq ?_) (abs_im_le_norm _)
    simp
  by_cases hn : n < N
  · have h1 : |v.im| * |v.im| ≤ ‖v + 2 * (n : ℤ) - k‖ * ‖v + 2 * (n : ℤ) + k‖ := mul_le_mul i1 i2 (abs_nonneg _) (norm_nonneg _)
    refine le_trans ?_ h1
    have h2 : (n : ℝ) + 1 ≤ N + 1 := by
      have : (n : ℝ) ≤ N := by exact_mod_cast hn.le
      linarith
    have h3 : 1 / (2 * ((N : ℝ) + 1)) * ((n : ℝ) + 1) ≤ 1 := by
      rw [div_mul_eq_mul_div, one_mul, div_le_one (by positivity)]
      linarith
    calc 1 / (2 * ((N : ℝ) + 1)) * |v.im| * ((n : ℝ) + 1) = |v.im| * (1 / (2 * ((N : ℝ) + 1)) * ((n : ℝ) + 1)) := by ring
      _ ≤ |v.im| * |v.im| := mul_le_mul_of_nonneg_left (h3.trans hi) (abs_nonneg _)
  · have hn' : (N : ℝ) ≤ n := by exact_mod_cast not_lt.1 hn
    have h2 : (n : ℝ) ≤ ‖v + 2 * (n : ℤ) + k‖ := by
      refine le_trans ?_ (abs_re_le_norm _)
      refine le_trans ?_ (le_abs_self _)
      have := neg_abs_le v.re
      have := neg_abs_le k
      simp
      linarith
    have h1 : |v.im| * n ≤ ‖v + 2 * (n : ℤ) - k‖ * ‖v + 2 * (n : ℤ) + k‖ := mul_le_mul i1 h2 hn0 (norm_nonneg _)
    refine le_trans ?_ h1
    have h3 : 1 / (2 * ((N : ℝ) + 1)) * ((n : ℝ) + 1) ≤ n := by
      rw [div_mul_eq_mul_div, one_mul, div_le_iff₀ (by positivity)]
      nlinarith
    calc 1 / (2 * ((N : ℝ) + 1)) * |v.im| * ((n : ℝ) + 1) = |v.im| * (1 / (2 * ((N : ℝ) + 1)) * ((n : ℝ) + 1)) := by ring
      _ ≤ |v.im| * n := mul_le_mul_of_nonneg_left h3 (abs_nonneg _)

theorem hlB_strip (k q : ℝ) : ∃ C : ℝ, 0 ≤ C ∧ ∀ (m j : ℕ) (v : ℂ), |v.re| ≤ 1 → 1 ≤ |v.im| → ‖hlB k q (m + j) v‖ ≤ C / v.im ^ 2 * hlU j := by
  obtain ⟨c, hc, h⟩ := hlD_strip k
  refine ⟨q ^ 2 / c ^ 2, by positivity, fun m j v hr hi => ?_⟩
  have h1 := h (m + j) v hr hi
  have h2 := h (m + j + 1) v hr hi
  have hm : (0 : ℝ) ≤ m := Nat.cast_nonneg m
  have hj : (0 : ℝ) ≤ j := Nat.cast_nonneg j
  push_cast at h1 h2
  have hi0 : 0 < |v.im| := by linarith
  have hb1 : c * |v.im| * ((j : ℝ) + 1) ≤ ‖hlD k (m + j) v‖ := le_trans (mul_le_mul_of_nonneg_left (by linarith) (by positivity)) h1
  have hb2 : c * |v.im| * ((j : ℝ) + 1) ≤ ‖hlD k (m + j + 1) v‖ := le_trans (mul_le_mul_of_nonneg_left (by linarith) (by positivity)) h2
  have hpos : 0 < c * |v.im| * ((j : ℝ) + 1) := by positivity
  unfold hlB hlA hlU
  rw [norm_mul, norm_div, norm_div, Complex.norm_real, Real.norm_eq_abs, div_mul_div_comm, ← sq, sq_abs]
  have e : q ^ 2 / c ^ 2 / v.im ^ 2 * (1 / ((j : ℝ) + 1) ^ 2) = q ^ 2 / (c * |v.im| * ((j : ℝ) + 1) * (c * |v.im| * ((j : ℝ) + 1))) := by
    rw [← sq_abs v.im]
    field_simp
  rw [e]
  exact div_le_div_of_nonneg_left (sq_nonneg q) (by positivity) (mul_le_mul hb1 hb2 hpos.le (norm_nonneg _))

theorem hlR_strip (k q : ℝ) : ∃ C : ℝ, 0 ≤ C ∧ ∀ (m : ℕ) (v : ℂ), |v.re| ≤ 1 → 1 ≤ |v.im| →
    ‖hlR k q m v - 1‖ ≤ C / v.im ^ 2 * Real.exp (C / v.im ^ 2) ∧ ‖hlB k q m v‖ ≤ C / v.im ^ 2 := by
  obtain ⟨C, hC, h⟩ := hlB_strip k q
  have hZ : 1 ≤ ∑' j, hlU j := by
    have := hlU_summable.sum_le_tsum (Finset.range 1) fun j _ => by unfold hlU; positivity
    simpa [hlU] using this
  refine ⟨C * ∑' j, hlU j, by positivity, fun m v hr hi => ⟨?_, ?_⟩⟩
  · have := contL_near (hlU_summable.mul_left (C / v.im ^ 2)) fun j => h m j v hr hi
    rw [tsum_mul_left, show C / v.im ^ 2 * ∑' j, hlU j = C * (∑' j, hlU j) / v.im ^ 2 by ring] at this
    exact this
  · have := h m 0 v hr hi
    simp [hlU] at this
    refine this.trans ?_
    rw [mul_div_right_comm]
    exact le_mul_of_one_le_right (by positivity) hZ

theorem hlDelta_bounded (k q : ℝ) : ∃ B : ℝ, ∀ v : ℂ, |v.re| ≤ 1 → 1 ≤ |v.im| → ‖hlDelta k q v‖ ≤ B := by
  obtain ⟨C, hC, h⟩ := hlR_strip k q
  have key : ∀ (m : ℕ) (v : ℂ), |v.re| ≤ 1 → 1 ≤ |v.im| → ‖hlR k q m v‖ ≤ 1 + C * Real.exp C ∧ ‖hlB k q m v‖ ≤ C := by
    intro m v hr hi
    obtain ⟨h1, h2⟩ := h m v hr hi
    have h3 : C / v.im ^ 2 ≤ C := div_le_self hC (by rw [← sq_abs]; exact one_le_pow₀ hi)
    refine ⟨?_, h2.trans h3⟩
    have h4 := norm_le_norm_sub_add (hlR k q m v) 1
    rw [norm_one] at h4
    have h5 : C / v.im ^ 2 * Real.exp (C / v.im ^ 2) ≤ C * Real.exp C := mul_le_mul h3 (Real.exp_le_exp.2 h3) (Real.exp_pos _).le hC
    linarith
  obtain ⟨ρ, hρ⟩ : ∃ ρ, ρ = 1 + C * Real.exp C := ⟨_, rfl⟩
  rw [← hρ] at key
  refine ⟨ρ * ρ + C * ρ * ρ, fun v hr hi => ?_⟩
  have hr' : |(-v).re| ≤ 1 := by rwa [neg_re, abs_neg]
  have hi' : 1 ≤ |(-v).im| := by rwa [neg_im, abs_neg]
  have k0 := (key 0 (-v) hr' hi').1
  have k1 := (key 1 v hr hi).1
  have k2 := (key 0 v hr hi).2
  have k3 := (key 1 (-v) hr' hi').1
  have k4 := (key 2 v hr hi).1
  have hρ0 : 0 ≤ ρ := (norm_nonneg _).trans k0
  norm_num at k0 k1 k2 k3 k4
  unfold hlDelta hlW
  norm_num
  refine (norm_sub_le _ _).trans (add_le_add ?_ ?_)
  · rw [norm_mul]
    exact mul_le_mul k0 k1 (norm_nonneg _) hρ0
  · rw [norm_mul, norm_mul]
    exact mul_le_mul (mul_le_mul k2 k3 (norm_nonneg _) hC) k4 (norm_nonneg _) (by positivity)

theorem hlDelta_limit (k q : ℝ) : Tendsto (fun y : ℝ => hlDelta k q (y * I)) atTop (𝓝 1) := by
  obtain ⟨C, hC, h⟩ := hlR_strip k q
  have hT : Tendsto (fun y : ℝ => C / y ^ 2) atTop (𝓝 0) := tendsto_const_nhds.div_atTop (tendsto_pow_atTop (by norm_num))
  have hT2 : Tendsto (fun y : ℝ => C / y ^ 2 * Real.exp (C / y ^ 2)) atTop (𝓝 0) := by
    have := hT.mul ((Real.continuous_exp.tendsto 0).comp hT)
    simpa using this
  have hy : ∀ y : ℝ, 1 ≤ y → |((y : ℂ) * I).re| ≤ 1 ∧ 1 ≤ |((y : ℂ) * I).im| ∧ ((y : ℂ) * I).im = y := by
    intro y hy
    simp
    rw [abs_of_pos (by linarith)]
    exact hy
  have hy' : ∀ y : ℝ, 1 ≤ y → |(-((y : ℂ) * I)).re| ≤ 1 ∧ 1 ≤ |(-((y : ℂ) * I)).im| ∧ (-((y : ℂ) * I)).im ^ 2 = y ^ 2 := by
    intro y hy
    simp
    rw [abs_of_pos (by linarith)]
    exact hy
  have hR : ∀ m : ℕ, Tendsto (fun y : ℝ => hlR k q m (y * I)) atTop (𝓝 1) := by
    intro m
    rw [tendsto_iff_norm_sub_tendsto_zero]
    refine squeeze_zero' (Eventually.of_forall fun _ => norm_nonneg _) ?_ hT2
    filter_upwards [eventually_ge_atTop 1] with y hy1
    obtain ⟨h1, h2, h3⟩ := hy y hy1
    have := (h m _ h1 h2).1
    rwa [h3] at this
  have hR' : ∀ m : ℕ, Tendsto (fun y : ℝ => hlR k q m (-(y * I))) atTop (𝓝 1) := by
    intro m
    rw [tendsto_iff_norm_sub_tendsto_zero]
    refine squeeze_zero' (Eventually.of_forall fun _ => norm_nonneg _) ?_ hT2
    filter_upwards [eventually_ge_atTop 1] with y hy1
    obtain ⟨h1, h2, h3⟩ := hy' y hy1
    have := (h m _ h1 h2).1
    rwa [h3] at this
  have hB : Tendsto (fun y : ℝ => hlB k q (0 : ℕ) (y * I)) atTop (𝓝 0) := by
    rw [tendsto_zero_iff_norm_tendsto_zero]
    refine squeeze_zero' (Eventually.of_forall fun _ => norm_nonneg _) ?_ hT
    filter_upwards [eventually_ge_atTop 1] with y hy1
    obtain ⟨h1, h2, h3⟩ := hy y hy1
    have := (h 0 _ h1 h2).2
    rwa [h3] at this
  have := ((hR' 0).mul (hR 1)).sub ((hB.mul (hR' 1)).mul (hR 2))
  norm_num at this
  refine this.congr fun y => ?_
  unfold hlDelta hlW
  norm_num

/-- the function that vanishes where a row is not defined -/
noncomputable def hlS (k : ℝ) (v : ℂ) : ℂ := cos (Real.pi * v) - cos (Real.pi * k)

theorem hlS_differentiable (k : ℝ) : Differentiable ℂ (hlS k) := by
  unfold hlS
  fun_prop

theorem hlS_shift (k : ℝ) (v : ℂ) : hlS k (v + 2) = hlS k v := by
  unfold hlS
  rw [mul_add, mul_comm (Real.pi : ℂ) 2, Complex.cos_add_two_pi]

theorem hlS_neg (k : ℝ) (v : ℂ) : hlS k (-v) = hlS k v := by
  unfold hlS
  rw [mul_neg, Complex.cos_neg]

theorem hlS_zero {k : ℝ} {v : ℂ} : hlS k v = 0 ↔ ∃ n : ℤ, v = k + 2 * n ∨ v = -k + 2 * n := by
  unfold hlS
  rw [sub_eq_zero, eq_comm, Complex.cos_eq_cos_iff]
  have hp : (Real.pi : ℂ) ≠ 0 := by exact_mod_cast Real.pi_ne_zero
  constructor
  · rintro ⟨n, h | h⟩
    · exact ⟨n, Or.inl (mul_left_cancel₀ hp (by rw [h]; ring))⟩
    · exact ⟨n, Or.inr (mul_left_cancel₀ hp (by rw [h]; ring))⟩
  · rintro ⟨n, rfl | rfl⟩
    · exact ⟨n, Or.inl (by ring)⟩
    · exact ⟨n, Or.inr (by ring)⟩

theorem hlD_ne {k : ℝ} {v : ℂ} (h : hlS k v ≠ 0) (n : ℤ) : hlD k n v ≠ 0 := by
  intro h0
  rw [hlD_factor, mul_eq_zero] at h0
  refine h (hlS_zero.2 ⟨-n, ?_⟩)
  rcases h0 with h0 | h0
  · left
    push_cast
    linear_combination h0
  · right
    push_cast
    linear_combination h0

theorem hlS_large (k : ℝ) {v : ℂ} (hv : 1 ≤ |v.im|) : |v.im| ≤ ‖hlS k v‖ := by
  have hp := Real.pi_gt_three
  have hc : |v.im| * Real.pi ≤ ‖cos (Real.pi * v)‖ := by
    have e1 : ‖Complex.exp (Real.pi * v * I)‖ = Real.exp (-(Real.pi * v.im)) := by
      rw [Complex.norm_exp]
      simp
    have e2 : ‖Complex.exp (-(Real.pi * v) * I)‖ = Real.exp (Real.pi * v.im) := by
      rw [Complex.norm_exp]
      simp
    have h1 := abs_norm_sub_norm_le (Complex.exp (Real.pi * v * I)) (-Complex.exp (-(Real.pi * v) * I))
    rw [norm_neg, e1, e2, sub_neg_eq_add] at h1
    have h2 : cos (Real.pi * v) = (Complex.exp (Real.pi * v * I) + Complex.exp (-(Real.pi * v) * I)) / 2 := rfl
    rw [h2, norm_div, Complex.norm_ofNat, le_div_iff₀ (by norm_num)]
    refine le_trans ?_ h1
    have h3 : |Real.exp (-(Real.pi * v.im)) - Real.exp (Real.pi * v.im)| = 2 * Real.sinh |Real.pi * v.im| := by
      rw [← Real.abs_sinh, Real.sinh_eq, abs_div, abs_two, abs_sub_comm]
      ring
    have h4 : |Real.pi * v.im| ≤ Real.sinh |Real.pi * v.im| := Real.self_le_sinh_iff.2 (abs_nonneg _)
    rw [h3]
    rw [abs_mul, abs_of_pos Real.pi_pos] at h4 ⊢
    linarith
  have hk : ‖cos (Real.pi * (k : ℂ))‖ ≤ 1 := by
    rw [← Complex.ofReal_mul, ← Complex.ofReal_cos, Complex.norm_real, Real.norm_eq_abs]
    exact Real.abs_cos_le_one _
  have := norm_sub_norm_le (cos (Real.pi * v)) (cos (Real.pi * k))
  unfold hlS
  nlinarith

theorem hlDelta_analytic {k q : ℝ} {v : ℂ} (h : hlS k v ≠ 0) : AnalyticAt ℂ (hlDelta k q) v := by
  have h' : hlS k (-v) ≠ 0 := by rwa [hlS_neg]
  have hn : AnalyticAt ℂ (fun v : ℂ => -v) v := analyticAt_id.neg
  have r : ∀ m, AnalyticAt ℂ (fun v => hlR k q m (-v)) v := fun m =>
    AnalyticAt.fun_comp (f := fun v : ℂ => -v) (g := hlR k q m) (hlR_analytic fun n _ => hlD_ne h' n) hn
  exact ((r _).mul (hlR_analytic fun n _ => hlD_ne h n)).sub (((hlB_analytic (hlD_ne h _) (hlD_ne h _)).mul (r _)).mul
    (hlR_analytic fun n _ => hlD_ne h n))

theorem hlD_at {k : ℝ} (hk : ∀ n : ℤ, k ≠ n) {n : ℤ} (hn : 1 ≤ n) : hlD k n k ≠ 0 ∧ hlD k n (-k) ≠ 0 := by
  have hn' : (n : ℂ) ≠ 0 := by exact_mod_cast (by omega : n ≠ 0)
  have h1 : (k : ℂ) + n ≠ 0 := by
    have : k + n ≠ 0 := fun h => hk (-n) (by push_cast; linarith)
    exact_mod_cast this
  have h2 : (k : ℂ) - n ≠ 0 := by
    have : k - n ≠ 0 := fun h => hk n (by linarith)
    exact_mod_cast this
  constructor
  · rw [show hlD k n k = 4 * (n * (k + n)) by unfold hlD; ring]
    exact mul_ne_zero (by norm_num) (mul_ne_zero hn' h1)
  · rw [show hlD k n (-k) = -4 * (n * (k - n)) by unfold hlD; ring]
    exact mul_ne_zero (by norm_num) (mul_ne_zero hn' h2)

theorem hlG_analytic {k q : ℝ} (hk : ∀ n : ℤ, k ≠ n) : AnalyticAt ℂ (hlG k q) k := by
  have hn : AnalyticAt ℂ (fun v : ℂ => -v) (k : ℂ) := analyticAt_id.neg
  have r : ∀ m, 1 ≤ m → AnalyticAt ℂ (fun v => hlR k q m (-v)) k := fun m hm =>
    AnalyticAt.fun_comp (f := fun v : ℂ => -v) (g := hlR k q m) (hlR_analytic fun n hn => (hlD_at hk (hm.trans hn)).2) hn
  have r' : ∀ m, 1 ≤ m → AnalyticAt ℂ (hlR k q m) k := fun m hm => hlR_analytic fun n hn => (hlD_at hk (hm.trans hn)).1
  have a : AnalyticAt ℂ (fun v => hlA k q 1 (-v)) k :=
    AnalyticAt.fun_comp (f := fun v : ℂ => -v) (g := hlA k q 1) (hlA_analytic (hlD_at hk le_rfl).2) hn
  have a' : AnalyticAt ℂ (hlA k q 1) k := hlA_analytic (hlD_at hk le_rfl).1
  exact (((((hlD_differentiable k 0).analyticAt _).mul (r 1 le_rfl)).mul (r' 1 le_rfl)).sub
    (((analyticAt_const.mul a').mul (r 1 le_rfl)).mul (r' 2 (by norm_num)))).sub
    (((analyticAt_const.mul a).mul (r 2 (by norm_num))).mul (r' 1 le_rfl))

/-- singularities that can be removed one by one can be removed together -/
theorem remove_singularities {f : ℂ → ℂ} (h : ∀ c, ∃ g, AnalyticAt ℂ g c ∧ f =ᶠ[𝓝[≠] c] g) :
    ∃ F, Differentiable ℂ F ∧ ∀ c, f =ᶠ[𝓝[≠] c] F := by
  choose g hg hfg using h
  have key : ∀ c, (fun v => g v v) =ᶠ[𝓝 c] g c := by
    intro c
    have h1 := (hg c).eventually_analyticAt
    have h2 : ∀ᶠ v in 𝓝 c, v ≠ c → ∀ᶠ w in 𝓝 v, f w = g c w := by
      have h3 := eventually_nhdsWithin_iff.1 (hfg c)
      filter_upwards [h3.eventually_nhds] with v hv hne
      filter_upwards [hv, isOpen_ne.mem_nhds hne] with w hw hwne
      exact hw hwne
    filter_upwards [h1, h2] with v hv1 hv2
    by_cases hvc : v = c
    · rw [hvc]
    · have e1 : g v =ᶠ[𝓝[≠] v] g c := (hfg v).symm.trans ((hv2 hvc).filter_mono nhdsWithin_le_nhds)
      exact (((hg v).continuousAt.eventuallyEq_nhds_iff_eventuallyEq_nhdsNE hv1.continuousAt).1 e1).eq_of_nhds
  refine ⟨fun v => g v v, fun c => ((hg c).congr (key c).symm).differentiableAt, fun c => ?_⟩
  exact (hfg c).trans ((key c).symm.filter_mono nhdsWithin_le_nhds)

/-- the constant in Hill's formula -/
noncomputable def hlK (k q : ℝ) : ℂ := hlG k q k * -(Real.pi * Complex.sin (Real.pi * k)) / (2 * k)

theorem analytic_dslope {f : ℂ → ℂ} {c : ℂ} (h : AnalyticAt ℂ f c) : AnalyticAt ℂ (dslope f c) c := by
  obtain ⟨p, hp⟩ := h
  exact ⟨_, hp.has_fpower_series_dslope_fslope⟩

theorem hlS_deriv (k : ℝ) : HasDerivAt (hlS k) (-(Real.pi * Complex.sin (Real.pi * k))) k := by
  unfold hlS
  exact ((((hasDerivAt_id' (k : ℂ)).const_mul (Real.pi : ℂ)).ccos).sub_const _).congr_deriv (by ring)

theorem hill_local {k q : ℝ} (hk : ∀ n : ℤ, k ≠ n) :
    ∃ g : ℂ → ℂ, AnalyticAt ℂ g (k : ℂ) ∧ (fun v => hlDelta k q v - hlK k q / hlS k v) =ᶠ[𝓝[≠] (k : ℂ)] g := by
  have hk0 : (k : ℂ) ≠ 0 := by
    have : k ≠ 0 := fun h => hk 0 (by simpa using h)
    exact_mod_cast this
  have hsin : Complex.sin (Real.pi * k) ≠ 0 := by
    rw [← Complex.ofReal_mul, ← Complex.ofReal_sin]
    intro h
    have h : Real.sin (Real.pi * k) = 0 := by exact_mod_cast h
    obtain ⟨n, hn⟩ := Real.sin_eq_zero_iff.1 h
    refine hk n (mul_left_cancel₀ Real.pi_ne_zero ?_)
    rw [← hn]
    ring
  have hS0 : hlS k k = 0 := by unfold hlS; ring
  have hpi : (Real.pi : ℂ) ≠ 0 := by exact_mod_cast Real.pi_ne_zero
  obtain ⟨s, hs⟩ : ∃ s, s = dslope (hlS k) (k : ℂ) := ⟨_, rfl⟩
  have hsa : AnalyticAt ℂ s k := by rw [hs]; exact analytic_dslope ((hlS_differentiable k).analyticAt _)
  have hsk : s k = -(Real.pi * Complex.sin (Real.pi * k)) := by rw [hs, dslope_same, (hlS_deriv k).deriv]
  have hsk0 : s k ≠ 0 := by rw [hsk]; exact neg_ne_zero.2 (mul_ne_zero hpi hsin)
  have hSs : ∀ v, hlS k v = (v - k) * s v := by
    intro v
    have := sub_smul_dslope (hlS k) (k : ℂ) v
    rw [hS0, sub_zero, ← hs, smul_eq_mul] at this
    exact this.symm
  obtain ⟨N, hN⟩ : ∃ N : ℂ → ℂ, N = fun v => hlG k q v * s v - hlK k q * (v + k) := ⟨_, rfl⟩
  have hNa : AnalyticAt ℂ N k := by
    rw [hN]
    exact ((hlG_analytic hk).mul hsa).sub (analyticAt_const.mul (analyticAt_id.add analyticAt_const))
  have hNk : N k = 0 := by
    rw [hN]
    simp only
    rw [hsk]
    unfold hlK
    field_simp
    ring
  have hNs : ∀ v, N v = (v - k) * dslope N k v := by
    intro v
    have := sub_smul_dslope N (k : ℂ) v
    rw [hNk, sub_zero, smul_eq_mul] at this
    exact this.symm
  have h2k : (k : ℂ) + k ≠ 0 := by
    rw [← two_mul]
    exact mul_ne_zero two_ne_zero hk0
  refine ⟨fun v => dslope N k v / ((v + k) * s v), (analytic_dslope hNa).div ((analyticAt_id.add analyticAt_const).mul hsa)
    (mul_ne_zero h2k hsk0), ?_⟩
  have c1 : ∀ᶠ v in 𝓝 (k : ℂ), s v ≠ 0 := hsa.continuousAt.eventually_ne hsk0
  have c2 : ∀ᶠ v : ℂ in 𝓝 (k : ℂ), v + k ≠ 0 := (continuous_id.add continuous_const).continuousAt.eventually_ne h2k
  filter_upwards [c1.filter_mono nhdsWithin_le_nhds, c2.filter_mono nhdsWithin_le_nhds, self_mem_nhdsWithin] with v h1 h2 h3
  have h3' : v - k ≠ 0 := sub_ne_zero.2 h3
  have hD : hlD k 0 v = (v - k) * (v + k) := by rw [hlD_factor]; push_cast; ring
  have hD0 : hlD k 0 v ≠ 0 := by rw [hD]; exact mul_ne_zero h3' h2
  have e : hlG k q v * s v - hlK k q * (v + k) = (v - k) * dslope N k v := (congrFun hN v).symm.trans (hNs v)
  rw [hlG_eq hD0, hD, hSs]
  rw [div_sub_div _ _ (mul_ne_zero h3' h2) (mul_ne_zero h3' h1), div_eq_div_iff (mul_ne_zero (mul_ne_zero h3' h2) (mul_ne_zero h3' h1)) (mul_ne_zero h2 h1)]
  linear_combination (v - k) * (v + k) * s v * e

/-- Hill's formula -/
theorem hill_formula {k q : ℝ} (hk : ∀ n : ℤ, k ≠ n) {v : ℂ} (hv : hlS k v ≠ 0) :
    hlDelta k q v * hlS k v = hlS k v + hlK k q := by
  obtain ⟨f, hf⟩ : ∃ f : ℂ → ℂ, f = fun v => hlDelta k q v - hlK k q / hlS k v := ⟨_, rfl⟩
  have fper : ∀ v, f (v + 2) = f v := fun v => by rw [hf]; simp only [hlDelta_shift, hlS_shift]
  have fperi : ∀ (n : ℤ) v, f (v + 2 * n) = f v := by
    intro n v
    have hp : Function.Periodic f 2 := fper
    have := hp.int_mul n v
    rwa [mul_comm (n : ℂ)] at this
  have feven : ∀ v, f (-v) = f v := fun v => by rw [hf]; simp only [hlDelta_neg, hlS_neg]
  have freg : ∀ v, hlS k v ≠ 0 → AnalyticAt ℂ f v := by
    intro v h
    rw [hf]
    exact (hlDelta_analytic h).sub (analyticAt_const.div ((hlS_differentiable k).analyticAt v) h)
  have hloc : ∀ c, ∃ g, AnalyticAt ℂ g c ∧ f =ᶠ[𝓝[≠] c] g := by
    obtain ⟨g, hg, hfg⟩ := hill_local (q := q) hk
    rw [← hf] at hfg
    intro c
    by_cases hc : hlS k c = 0
    · obtain ⟨n, rfl | rfl⟩ := hlS_zero.1 hc
      · have ht : Tendsto (fun v : ℂ => v - 2 * n) (𝓝[≠] ((k : ℂ) + 2 * n)) (𝓝[≠] (k : ℂ)) := by
          refine tendsto_nhdsWithin_iff.2 ⟨?_, ?_⟩
          · have : Tendsto (fun v : ℂ => v - 2 * n) (𝓝 ((k : ℂ) + 2 * n)) (𝓝 ((k : ℂ) + 2 * n - 2 * n)) :=
              (continuous_id.sub continuous_const).tendsto _
            rw [add_sub_cancel_right] at this
            exact this.mono_left nhdsWithin_le_nhds
          · filter_upwards [self_mem_nhdsWithin] with v hv h
            exact hv (by rw [Set.mem_singleton_iff] at *; rw [← h]; ring)
        refine ⟨fun v => g (v - 2 * n), AnalyticAt.fun_comp (f := fun v : ℂ => v - 2 * n) (g := g) (by rwa [add_sub_cancel_right])
          (analyticAt_id.sub analyticAt_const), ?_⟩
        filter_upwards [ht.eventually hfg] with v h
        rw [← h, ← fperi n (v - 2 * n)]
        congr 1
        ring
      · have ht : Tendsto (fun v : ℂ => -(v - 2 * n)) (𝓝[≠] (-(k : ℂ) + 2 * n)) (𝓝[≠] (k : ℂ)) := by
          refine tendsto_nhdsWithin_iff.2 ⟨?_, ?_⟩
          · have : Tendsto (fun v : ℂ => -(v - 2 * n)) (𝓝 (-(k : ℂ) + 2 * n)) (𝓝 (-(-(k : ℂ) + 2 * n - 2 * n))) :=
              (continuous_id.sub continuous_const).neg.tendsto _
            rw [add_sub_cancel_right, neg_neg] at this
            exact this.mono_left nhdsWithin_le_nhds
          · filter_upwards [self_mem_nhdsWithin] with v hv h
            exact hv (by rw [Set.mem_singleton_iff] at *; rw [← h]; ring)
        refine ⟨fun v => g (-(v - 2 * n)), AnalyticAt.fun_comp (f := fun v : ℂ => -(v - 2 * n)) (g := g) (by rwa [add_sub_cancel_right, neg_neg])
          (analyticAt_id.sub analyticAt_const).neg, ?_⟩
        filter_upwards [ht.eventually hfg] with v h
        rw [← h, feven, ← fperi n (v - 2 * n)]
        congr 1
        ring
    · exact ⟨f, freg c hc, EventuallyEq.rfl⟩
  obtain ⟨F, hF, hfF⟩ := remove_singularities hloc
  have heq : ∀ v, hlS k v ≠ 0 → f v = F v := fun v h =>
    (((freg v h).continuousAt.eventuallyEq_nhds_iff_eventuallyEq_nhdsNE hF.continuous.continuousAt).1 (hfF v)).eq_of_nhds
  have Fper : Function.Periodic F 2 := by
    intro c
    have ht : Tendsto (fun v : ℂ => v + 2) (𝓝[≠] c) (𝓝[≠] (c + 2)) := by
      refine tendsto_nhdsWithin_iff.2 ⟨((continuous_id.add continuous_const).tendsto c).mono_left nhdsWithin_le_nhds, ?_⟩
      filter_upwards [self_mem_nhdsWithin] with v hv h
      exact hv (by rw [Set.mem_singleton_iff] at *; exact add_right_cancel h)
    have h1 : (fun v => F (v + 2)) =ᶠ[𝓝[≠] c] F := by
      filter_upwards [ht.eventually (hfF (c + 2)), hfF c] with v h1 h2
      rw [← h1, fper, h2]
    exact (((hF.continuous.comp (continuous_id.add continuous_const)).continuousAt.eventuallyEq_nhds_iff_eventuallyEq_nhdsNE
      hF.continuous.continuousAt).1 h1).eq_of_nhds
  have hbd : ∃ B, ∀ v, ‖F v‖ ≤ B := by
    obtain ⟨B1, hB1⟩ := hlDelta_bounded k q
    obtain ⟨B2, hB2⟩ := (isCompact_closedBall (0 : ℂ) 2).exists_bound_of_continuousOn hF.continuous.continuousOn
    refine ⟨max (B1 + ‖hlK k q‖) B2, fun v => ?_⟩
    obtain ⟨n, w, hw, hwr⟩ : ∃ (n : ℤ) (w : ℂ), v = w + n * 2 ∧ |w.re| ≤ 1 := by
      refine ⟨round (v.re / 2), v - round (v.re / 2) * 2, by ring, ?_⟩
      have h := abs_sub_round (v.re / 2)
      have e : (v - round (v.re / 2) * 2 : ℂ).re = 2 * (v.re / 2 - round (v.re / 2)) := by
        simp
        ring
      rw [e, abs_mul, abs_two]
      linarith
    rw [hw, Fper.int_mul n w]
    by_cases hi : 1 ≤ |w.im|
    · refine le_trans ?_ (le_max_left _ _)
      have hl := hlS_large k hi
      have hS : hlS k w ≠ 0 := fun h => by rw [h, norm_zero] at hl; linarith
      rw [← heq w hS, hf]
      refine (norm_sub_le _ _).trans (add_le_add (hB1 w hwr hi) ?_)
      rw [norm_div]
      exact div_le_self (norm_nonneg _) (hi.trans hl)
    · refine le_trans (hB2 w ?_) (le_max_right _ _)
      rw [mem_closedBall_zero_iff]
      have := Complex.norm_le_abs_re_add_abs_im w
      push Not at hi
      linarith
  have hconst : ∀ v, F v = 1 := by
    obtain ⟨B, hB⟩ := hbd
    have hb : Bornology.IsBounded (Set.range F) := by
      rw [isBounded_iff_forall_norm_le]
      exact ⟨B, by rintro _ ⟨v, rfl⟩; exact hB v⟩
    have hlim : Tendsto (fun y : ℝ => F (y * I)) atTop (𝓝 1) := by
      have h1 : Tendsto (fun y : ℝ => hlK k q / hlS k (y * I)) atTop (𝓝 0) := by
        rw [tendsto_zero_iff_norm_tendsto_zero]
        refine squeeze_zero' (Eventually.of_forall fun _ => norm_nonneg _) ?_ ((tendsto_const_nhds (x := ‖hlK k q‖)).div_atTop tendsto_id)
        filter_upwards [eventually_ge_atTop 1] with y hy
        have hi : ((y : ℂ) * I).im = y := by simp
        have hl := hlS_large k (v := y * I) (by rw [hi, abs_of_pos (by linarith)]; exact hy)
        rw [hi, abs_of_pos (by linarith)] at hl
        rw [norm_div]
        exact div_le_div_of_nonneg_left (norm_nonneg _) (by simp only [id]; linarith) hl
      have h2 := (hlDelta_limit k q).sub h1
      rw [sub_zero] at h2
      refine h2.congr' ?_
      filter_upwards [eventually_ge_atTop 1] with y hy
      have hi : ((y : ℂ) * I).im = y := by simp
      have hl := hlS_large k (v := y * I) (by rw [hi, abs_of_pos (by linarith)]; exact hy)
      rw [hi, abs_of_pos (by linarith)] at hl
      have hS : hlS k (y * I) ≠ 0 := fun h => by rw [h, norm_zero] at hl; linarith
      rw [← heq _ hS, hf]
    intro v
    refine tendsto_nhds_unique (tendsto_const_nhds (x := F v) (f := (atTop : Filter ℝ))) (hlim.congr fun y => ?_)
    exact hF.apply_eq_apply_of_bounded hb _ _
  have h1 := heq v hv
  rw [hconst v, hf] at h1
  simp only at h1
  rw [sub_eq_iff_eq_add] at h1
  rw [h1, add_mul, one_mul, div_mul_cancel₀ _ hv]

end Electrode
