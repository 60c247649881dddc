import Verif.Props.MathieuSol
import Verif.Lemmas.LinearOde
import Mathlib.Analysis.SpecialFunctions.Trigonometric.Deriv
import Mathlib.Analysis.Calculus.Deriv.Prod

/-! C108: the exponents of `Mathieu.nu_exp_ivp` and the approximations. -/

namespace Electrode

open Real

namespace Spec

/-- `y` solves the equation of Mathieu, and `y'` is its derivative -/
def SolvesMathieu (a q : ℝ) (y y' : ℝ → ℝ) : Prop :=
  ∀ t, HasDerivAt y (y' t) t ∧ HasDerivAt y' (-(a - 2 * q * cos (2 * t)) * y t) t

end Spec
open Spec

/-- the field of the equation -/
noncomputable def mField (a q t : ℝ) (x : ℝ × ℝ) : ℝ × ℝ := (x.2, -(a - 2 * q * cos (2 * t)) * x.1)

theorem mField_lip (a q t : ℝ) : LipschitzWith (1 + ‖a‖₊ + 2 * ‖q‖₊) (mField a q t) := by
  refine LipschitzWith.of_dist_le_mul fun x y => ?_
  have hc : |a - 2 * q * cos (2 * t)| ≤ |a| + 2 * |q| := by
    have h1 := abs_sub a (2 * q * cos (2 * t))
    have h2 : |2 * q * cos (2 * t)| ≤ 2 * |q| := by
      rw [abs_mul, abs_mul, abs_two]
      have := abs_cos_le_one (2 * t)
      have h3 : 0 ≤ 2 * |q| := by positivity
      nlinarith
    linarith
  have hd1 : |x.1 - y.1| ≤ dist x y := by rw [Prod.dist_eq, ← Real.dist_eq]; exact le_max_left _ _
  have hd2 : |x.2 - y.2| ≤ dist x y := by rw [Prod.dist_eq, ← Real.dist_eq]; exact le_max_right _ _
  have hd0 : 0 ≤ dist x y := dist_nonneg
  have hq := abs_nonneg q
  have ha := abs_nonneg a
  push_cast
  simp only [Real.norm_eq_abs]
  conv_lhs => rw [Prod.dist_eq]
  simp only [mField]
  refine max_le ?_ ?_
  · rw [Real.dist_eq]
    nlinarith
  · rw [Real.dist_eq, ← mul_sub, abs_mul, abs_neg]
    have := mul_le_mul hc hd1 (abs_nonneg _) (by positivity)
    nlinarith

theorem solves_field {a q : ℝ} {y y' : ℝ → ℝ} (h : SolvesMathieu a q y y') (t : ℝ) :
    HasDerivAt (fun s => (y s, y' s)) (mField a q t (y t, y' t)) t := (h t).1.prodMk (h t).2

theorem mathieu_unique {a q : ℝ} {y y' z z' : ℝ → ℝ} (hy : SolvesMathieu a q y y') (hz : SolvesMathieu a q z z') (t₀ : ℝ)
    (h : y t₀ = z t₀) (h' : y' t₀ = z' t₀) (t : ℝ) : y t = z t ∧ y' t = z' t := by
  have := congrFun (ode_unique (mField_lip a q) (solves_field hy) (solves_field hz) t₀ (by simp [h, h'])) t
  exact Prod.mk.injEq .. ▸ this

theorem mathieu_exists (a q y0 y0' : ℝ) : ∃ y y', SolvesMathieu a q y y' ∧ y 0 = y0 ∧ y' 0 = y0' := by
  obtain ⟨α, h0, h⟩ := ode_global (mField_lip a q) (fun t => by simp [mField]) (fun x => by unfold mField; fun_prop) (y0, y0')
  refine ⟨fun t => (α t).1, fun t => (α t).2, fun t => ⟨?_, ?_⟩, by simp [h0], by simp [h0]⟩
  · exact (h t).fst
  · exact (h t).snd

theorem Spec.SolvesMathieu.comb {a q : ℝ} {y y' z z' : ℝ → ℝ} (hy : SolvesMathieu a q y y') (hz : SolvesMathieu a q z z') (c d : ℝ) :
    SolvesMathieu a q (fun t => c * y t + d * z t) (fun t => c * y' t + d * z' t) := fun t =>
  ⟨((hy t).1.const_mul c).add ((hz t).1.const_mul d), (((hy t).2.const_mul c).add ((hz t).2.const_mul d)).congr_deriv (by ring)⟩

theorem Spec.SolvesMathieu.shift {a q : ℝ} {y y' : ℝ → ℝ} (hy : SolvesMathieu a q y y') :
    SolvesMathieu a q (fun t => y (t + π)) (fun t => y' (t + π)) := fun t => by
  refine ⟨(hy (t + π)).1.comp_add_const t π, ?_⟩
  have := (hy (t + π)).2.comp_add_const t π
  rw [show 2 * (t + π) = 2 * t + 2 * π by ring, cos_add_two_pi] at this
  exact this

theorem Spec.SolvesMathieu.back {a q : ℝ} {y y' : ℝ → ℝ} (hy : SolvesMathieu a q y y') :
    SolvesMathieu a q (fun t => y (t - π)) (fun t => y' (t - π)) := fun t => by
  refine ⟨(hy (t - π)).1.comp_sub_const t π, ?_⟩
  have := (hy (t - π)).2.comp_sub_const t π
  rw [show 2 * (t - π) = 2 * t - 2 * π by ring, cos_sub_two_pi] at this
  exact this

theorem Spec.SolvesMathieu.reflect {a q : ℝ} {y y' : ℝ → ℝ} (hy : SolvesMathieu a q y y') :
    SolvesMathieu a q (fun t => y (-t)) (fun t => -y' (-t)) := fun t => by
  refine ⟨?_, ?_⟩
  · exact ((hy (-t)).1.comp t (hasDerivAt_neg t)).congr_deriv (by ring)
  · refine ((hy (-t)).2.comp t (hasDerivAt_neg t)).neg.congr_deriv ?_
    rw [show 2 * -t = -(2 * t) by ring, cos_neg]
    ring

/-- the solution with even initial values is even -/
theorem even_sol {a q : ℝ} {y y' : ℝ → ℝ} (hy : SolvesMathieu a q y y') (h1 : y' 0 = 0) (t : ℝ) : y (-t) = y t ∧ y' (-t) = -y' t := by
  have := mathieu_unique hy.reflect hy 0 (by simp) (by simp [h1]) t
  exact ⟨this.1, by linarith [this.2]⟩

/-- the solution with odd initial values is odd -/
theorem odd_sol {a q : ℝ} {y y' : ℝ → ℝ} (hy : SolvesMathieu a q y y') (h1 : y 0 = 0) (t : ℝ) : y (-t) = -y t ∧ y' (-t) = y' t := by
  have := mathieu_unique hy.reflect (hy.comb hy (-1) 0) 0 (by simp [h1]) (by simp) t
  exact ⟨by linarith [this.1], by linarith [this.2]⟩

/-- C108: for every solution, the value a period later and the value a period before add up to `2 y1(π)` times the value. -/
theorem three_term {a q : ℝ} {y1 y1' : ℝ → ℝ} (h1 : SolvesMathieu a q y1 y1') (h10 : y1 0 = 1) (h10' : y1' 0 = 0)
    {y y' : ℝ → ℝ} (hy : SolvesMathieu a q y y') (t : ℝ) : y (t + π) + y (t - π) = 2 * y1 π * y t := by
  obtain ⟨y2, y2', h2, h20, h20'⟩ := mathieu_exists a q 0 1
  have e1 := even_sol h1 h10'
  have e2 := odd_sol h2 h20
  -- the values after one period
  have hs1 : ∀ t, y1 (t + π) = y1 π * y1 t + y1' π * y2 t ∧ y1' (t + π) = y1 π * y1' t + y1' π * y2' t :=
    fun t => mathieu_unique h1.shift (h1.comb h2 (y1 π) (y1' π)) 0 (by simp [h10, h20]) (by simp [h10', h20']) t
  have hs2 : ∀ t, y2 (t + π) = y2 π * y1 t + y2' π * y2 t ∧ y2' (t + π) = y2 π * y1' t + y2' π * y2' t :=
    fun t => mathieu_unique h2.shift (h1.comb h2 (y2 π) (y2' π)) 0 (by simp [h10, h20]) (by simp [h10', h20']) t
  have r1 := (hs1 (-π)).1
  have r2 := (hs2 (-π)).1
  have r3 := (hs2 (-π)).2
  rw [neg_add_cancel, (e1 π).1, (e2 π).1] at r1 r2
  rw [neg_add_cancel, (e1 π).2, (e2 π).2] at r3
  rw [h10] at r1
  rw [h20] at r2
  rw [h20'] at r3
  -- the trace
  have htr : y2' π = y1 π := by
    by_cases hz : y2 π = 0
    · have hc : y1 π * y1 π = 1 := by rw [hz] at r1; linarith
      have hd : y2' π * y2' π = 1 := by rw [hz] at r3; linarith
      -- the Wronskian
      have hW : ∀ t, HasDerivAt (fun t => y1 t * y2' t - y1' t * y2 t) 0 t := fun t =>
        (((h1 t).1.mul (h2 t).2).sub ((h1 t).2.mul (h2 t).1)).congr_deriv (by ring)
      have hconst := is_const_of_deriv_eq_zero (fun t => (hW t).differentiableAt) (fun t => (hW t).deriv) π 0
      simp only [h10, h10', h20, h20', hz] at hconst
      have : y1 π * y2' π = 1 := by linarith
      have h0 : y1 π * (y2' π - y1 π) = 0 := by linarith
      rcases mul_eq_zero.1 h0 with h | h
      · rw [h] at hc; norm_num at hc
      · linarith
    · have : y2 π * (y1 π - y2' π) = 0 := by linarith
      rcases mul_eq_zero.1 this with h | h
      · exact absurd h hz
      · linarith
  -- the sum is a solution with the same initial values
  have hsum : SolvesMathieu a q (fun t => 1 * y (t + π) + 1 * y (t - π)) (fun t => 1 * y' (t + π) + 1 * y' (t - π)) :=
    hy.shift.comb hy.back 1 1
  have hyc : ∀ t, y t = y 0 * y1 t + y' 0 * y2 t ∧ y' t = y 0 * y1' t + y' 0 * y2' t :=
    fun t => mathieu_unique hy (h1.comb h2 (y 0) (y' 0)) 0 (by simp [h10, h20]) (by simp [h10', h20']) t
  have := (mathieu_unique hsum (hy.comb hy (2 * y1 π) 0) 0 (by
      simp only [zero_add, zero_sub, one_mul]
      rw [(hyc π).1, (hyc (-π)).1, (e1 π).1, (e2 π).1]; ring) (by
      simp only [zero_add, zero_sub, one_mul]
      rw [(hyc π).2, (hyc (-π)).2, (e1 π).2, (e2 π).2, htr]; ring) t).1
  simpa using this

/-- C108: the initial value problem has exactly one solution, so `y1(π)` is well defined. -/
theorem c108_defined (a q : ℝ) : ∃ y y', (SolvesMathieu a q y y' ∧ y 0 = 1 ∧ y' 0 = 0) ∧
    ∀ z z', SolvesMathieu a q z z' → z 0 = 1 → z' 0 = 0 → z = y := by
  obtain ⟨y, y', h, h0, h0'⟩ := mathieu_exists a q 1 0
  refine ⟨y, y', ⟨h, h0, h0'⟩, fun z z' hz hz0 hz0' => ?_⟩
  ext t
  exact (mathieu_unique hz h 0 (by rw [hz0, h0]) (by rw [hz0', h0']) t).1

/-- C108: with the exact value `y1(π)`, the exponent `nu` that `nu_exp_ivp` returns without a warning is a characteristic exponent:
there is a solution, not zero, that is multiplied by `exp(iπ nu)` in each period. -/
theorem c108_exponent {a q : ℝ} {y1 y1' : ℝ → ℝ} (h1 : SolvesMathieu a q y1 y1') (h10 : y1 0 = 1) (h10' : y1' 0 = 0)
    {nu : ℝ} (h : nuExpIvp (y1 π) = .bounded nu) : 0 ≤ nu ∧ nu ≤ 1 ∧ ∃ u u' v v' : ℝ → ℝ, SolvesMathieu a q u u' ∧ SolvesMathieu a q v v' ∧
      (∃ t, u t ≠ 0 ∨ v t ≠ 0) ∧ ∀ t, (⟨u (t + π), v (t + π)⟩ : ℂ) = Complex.exp (Complex.I * (π * nu)) * ⟨u t, v t⟩ := by
  have hc : |y1 π| ≤ 1 := by
    by_contra hh
    simp [nuExpIvp, not_le.1 hh] at h
  have hnu : nu = arccos (y1 π) / π := by
    have : ¬ 1 < |y1 π| := not_lt.2 hc
    simp only [nuExpIvp, this, if_false, Expo.bounded.injEq] at h
    exact h.symm
  obtain ⟨hc1, hc2⟩ := abs_le.1 hc
  have hpn : π * nu = arccos (y1 π) := by rw [hnu]; field_simp
  have hcos : cos (π * nu) = y1 π := by rw [hpn, cos_arccos hc1 hc2]
  have hexp : Complex.exp (Complex.I * (π * nu)) = ⟨cos (π * nu), sin (π * nu)⟩ := by
    rw [mul_comm, ← Complex.ofReal_mul, Complex.exp_mul_I, ← Complex.ofReal_cos, ← Complex.ofReal_sin]
    generalize π * nu = x
    apply Complex.ext <;> simp [-Complex.ofReal_cos, -Complex.ofReal_sin]
  refine ⟨by rw [hnu]; exact div_nonneg (arccos_nonneg _) pi_pos.le, by rw [hnu, div_le_one pi_pos]; exact arccos_le_pi _, ?_⟩
  have h3 := three_term h1 h10 h10' h1
  rw [hexp, hcos]
  obtain ⟨s, hs⟩ : ∃ s, s = sin (π * nu) := ⟨_, rfl⟩
  have hsc : s ^ 2 + y1 π ^ 2 = 1 := by rw [hs, ← hcos]; exact sin_sq_add_cos_sq _
  rw [← hs]
  by_cases hz : ∀ t, y1 (t + π) = y1 π * y1 t ∧ s = 0
  · refine ⟨y1, y1', _, _, h1, h1.comb h1 0 0, ⟨0, Or.inl (by simp [h10])⟩, fun t => ?_⟩
    apply Complex.ext <;> simp [(hz t).1, (hz t).2]
  · -- u + iv = y1(t + π) - exp(-iπ nu) y1(t)
    refine ⟨_, _, _, _, h1.shift.comb h1 1 (-y1 π), h1.comb h1 s 0, ?_, fun t => ?_⟩
    · push Not at hz
      obtain ⟨t, ht⟩ := hz
      by_cases hs0 : s = 0
      · refine ⟨t, Or.inl fun h => ?_⟩
        exact ht (by linarith) hs0
      · exact ⟨0, Or.inr (by simp [h10, hs0])⟩
    · have h4 := h3 (t + π)
      rw [add_sub_cancel_right] at h4
      apply Complex.ext
      · simp
        linear_combination h4 + y1 t * hsc
      · simp
        ring

/-- C108: the values of `y1` after whole periods are the cosines of the multiples of `nu`. -/
theorem c108_periods {a q : ℝ} {y1 y1' : ℝ → ℝ} (h1 : SolvesMathieu a q y1 y1') (h10 : y1 0 = 1) (h10' : y1' 0 = 0)
    {nu : ℝ} (h : nuExpIvp (y1 π) = .bounded nu) (n : Nat) : y1 (n * π) = cos (n * π * nu) := by
  have hc : |y1 π| ≤ 1 := by
    by_contra hh
    simp [nuExpIvp, not_le.1 hh] at h
  have hnu : nu = arccos (y1 π) / π := by
    have : ¬ 1 < |y1 π| := not_lt.2 hc
    simp only [nuExpIvp, this, if_false, Expo.bounded.injEq] at h
    exact h.symm
  obtain ⟨hc1, hc2⟩ := abs_le.1 hc
  have hpn : π * nu = arccos (y1 π) := by rw [hnu]; field_simp
  have hcos : cos (π * nu) = y1 π := by rw [hpn, cos_arccos hc1 hc2]
  have key : ∀ n : Nat, y1 (n * π) = cos (n * π * nu) ∧ y1 ((n + 1 : Nat) * π) = cos ((n + 1 : Nat) * π * nu) := by
    intro n
    induction n with
    | zero => simp [h10, hcos]
    | succ n ih =>
      refine ⟨ih.2, ?_⟩
      have h3 := three_term h1 h10 h10' h1 ((n + 1 : Nat) * π)
      have e1 : ((n + 1 : Nat) : ℝ) * π + π = (n + 1 + 1 : Nat) * π := by push_cast; ring
      have e2 : ((n + 1 : Nat) : ℝ) * π - π = n * π := by push_cast; ring
      rw [e1, e2, ih.1, ih.2, ← hcos] at h3
      have e3 : ((n + 1 + 1 : Nat) : ℝ) * π * nu = (n + 1 : Nat) * π * nu + π * nu := by push_cast; ring
      have e4 : (n : ℝ) * π * nu = (n + 1 : Nat) * π * nu - π * nu := by push_cast; ring
      rw [e4, cos_sub] at h3
      rw [e3, cos_add]
      linarith
  exact (key n).1

/-- C108: if `|y1(π)| < 1`, every solution is bounded. -/
theorem c108_bounded {a q : ℝ} {y1 y1' : ℝ → ℝ} (h1 : SolvesMathieu a q y1 y1') (h10 : y1 0 = 1) (h10' : y1' 0 = 0)
    (hc : |y1 π| < 1) {y y' : ℝ → ℝ} (hy : SolvesMathieu a q y y') : ∃ B, ∀ t, |y t| ≤ B := by
  obtain ⟨c, hcd⟩ : ∃ c, c = y1 π := ⟨_, rfl⟩
  rw [← hcd] at hc
  obtain ⟨hc1, hc2⟩ := abs_lt.1 hc
  have h3 := three_term h1 h10 h10' hy
  rw [← hcd] at h3
  obtain ⟨Q, hQ⟩ : ∃ Q : ℝ → ℝ, Q = fun t => y (t + π) ^ 2 + y t ^ 2 - 2 * c * y t * y (t + π) := ⟨_, rfl⟩
  have hper : Function.Periodic Q π := by
    intro t
    have h := h3 (t + π)
    rw [add_sub_cancel_right] at h
    have : y (t + π + π) = 2 * c * y (t + π) - y t := by linarith
    rw [hQ]
    simp only [this]
    ring
  have hcy : Continuous y := continuous_iff_continuousAt.2 fun t => (hy t).1.continuousAt
  have hcQ : Continuous Q := by
    rw [hQ]
    fun_prop
  obtain ⟨C, hC⟩ := (isCompact_Icc (a := (0 : ℝ)) (b := π)).exists_bound_of_continuousOn hcQ.continuousOn
  have hCQ : ∀ t, Q t ≤ C := by
    intro t
    obtain ⟨s, hs, e⟩ := hper.exists_mem_Ico₀ pi_pos t
    rw [e]
    exact (le_abs_self _).trans (hC s ⟨hs.1, hs.2.le⟩)
  have hp : 0 < 1 - c ^ 2 := by nlinarith
  refine ⟨√(C / (1 - c ^ 2)), fun t => abs_le_sqrt ?_⟩
  rw [le_div_iff₀ hp]
  have : Q t = (y (t + π) - c * y t) ^ 2 + y t ^ 2 * (1 - c ^ 2) := by rw [hQ]; ring
  have h := hCQ t
  rw [this] at h
  nlinarith [sq_nonneg (y (t + π) - c * y t)]

/-- C108: if `nu_exp_ivp` warns of unbounded motion, then `y1` is not bounded. -/
theorem c108_unbounded {a q : ℝ} {y1 y1' : ℝ → ℝ} (h1 : SolvesMathieu a q y1 y1') (h10 : y1 0 = 1) (h10' : y1' 0 = 0)
    {x : ℝ} (h : nuExpIvp (y1 π) = .unbounded x) (B : ℝ) : ∃ t, B < |y1 t| := by
  have hc : 1 < |y1 π| := by
    by_contra hh
    simp [nuExpIvp, hh] at h
  have key : ∀ n : Nat, 1 + n * (|y1 π| - 1) ≤ |y1 (n * π)| ∧ |y1 (n * π)| + (|y1 π| - 1) ≤ |y1 ((n + 1 : Nat) * π)| := by
    intro n
    induction n with
    | zero => simp [h10]
    | succ n ih =>
      have h3 := three_term h1 h10 h10' h1 ((n + 1 : Nat) * π)
      have e1 : ((n + 1 : Nat) : ℝ) * π + π = (n + 1 + 1 : Nat) * π := by push_cast; ring
      have e2 : ((n + 1 : Nat) : ℝ) * π - π = n * π := by push_cast; ring
      rw [e1, e2] at h3
      have h5 : 2 * |y1 π| * |y1 ((n + 1 : Nat) * π)| ≤ |y1 ((n + 1 + 1 : Nat) * π)| + |y1 (n * π)| := by
        have := abs_add_le (y1 ((n + 1 + 1 : Nat) * π)) (y1 (n * π))
        rw [h3, abs_mul, abs_mul, abs_two] at this
        exact this
      have h6 : 1 + ((n + 1 : Nat) : ℝ) * (|y1 π| - 1) ≤ |y1 ((n + 1 : Nat) * π)| := by
        have e3 : ((n + 1 : Nat) : ℝ) * (|y1 π| - 1) = n * (|y1 π| - 1) + (|y1 π| - 1) := by push_cast; ring
        rw [e3]
        linarith [ih.1, ih.2]
      refine ⟨h6, ?_⟩
      have h7 : 0 ≤ (|y1 π| - 1) * |y1 ((n + 1 : Nat) * π)| := mul_nonneg (by linarith) (abs_nonneg _)
      linarith [ih.2]
  obtain ⟨n, hn⟩ := exists_nat_gt (B / (|y1 π| - 1))
  rw [div_lt_iff₀ (by linarith)] at hn
  exact ⟨n * π, by linarith [(key n).1]⟩

/-- C108: between the two there is a case without a warning where not every solution is bounded: no field at all. -/
theorem c108_edge : ∃ y1 y1' y y' : ℝ → ℝ, SolvesMathieu 0 0 y1 y1' ∧ y1 0 = 1 ∧ y1' 0 = 0 ∧ nuExpIvp (y1 π) = .bounded 0 ∧
    SolvesMathieu 0 0 y y' ∧ ∀ B, ∃ t, B < |y t| := by
  refine ⟨fun _ => 1, fun _ => 0, fun t => t, fun _ => 1, fun t => ⟨hasDerivAt_const _ _, ?_⟩, rfl, rfl, ?_, fun t => ⟨hasDerivAt_id _, ?_⟩, ?_⟩
  · exact (hasDerivAt_const t (0 : ℝ)).congr_deriv (by ring)
  · simp [nuExpIvp]
  · exact (hasDerivAt_const t (1 : ℝ)).congr_deriv (by ring)
  · intro B
    exact ⟨|B| + 1, by rw [abs_of_nonneg (by positivity)]; linarith [le_abs_self B]⟩

/-! without a radio frequency -/

theorem solves_static {w : ℝ} : SolvesMathieu (w ^ 2) 0 (fun t => cos (w * t)) (fun t => -(w * sin (w * t))) := by
  intro t
  have hl : HasDerivAt (fun t => w * t) w t := by simpa using (hasDerivAt_id t).const_mul w
  refine ⟨hl.cos.congr_deriv (by ring), ((hl.sin.const_mul w).neg).congr_deriv (by ring)⟩

theorem arccos_double (x : ℝ) : 2 * arcsin √(sin x ^ 2) = arccos (cos (2 * x)) := by
  rw [sqrt_sq_eq_abs]
  have h0 : 0 ≤ arcsin |sin x| := arcsin_nonneg.2 (abs_nonneg _)
  have h1 : arcsin |sin x| ≤ π / 2 := arcsin_le_pi_div_two _
  have : cos (2 * arcsin |sin x|) = cos (2 * x) := by
    rw [cos_two_mul, cos_arcsin, cos_two_mul, sq_sqrt, sq_abs, cos_sq']
    rw [sq_abs]
    linarith [sin_sq_le_one x]
  rw [← this, arccos_cos (by linarith) (by linarith)]

theorem hill_static (a : ℝ) {ntr : Nat} (hn : 1 ≤ ntr) : (hillDelta a 0 ntr).det = 1 := by
  have : hillDelta a 0 ntr = 1 := by
    rw [c76_matrix hn]
    ext i j
    simp [Spec.hill, Matrix.one_apply]
  rw [this, Matrix.det_one]

/-- C108: without a radio frequency field the three methods agree for all positive `a` but 1 and the squares of even numbers, and for `a`
below 1 all four give `√a`. -/
theorem c108_static {a : ℝ} (ha : 0 < a) (ha1 : a ≠ 1) {ntr : Nat} (hn : 1 ≤ ntr) (ha4 : ∀ n : Nat, n ≤ ntr → a ≠ 4 * (n : ℝ) ^ 2) {y1 y1' : ℝ → ℝ} (h1 : SolvesMathieu a 0 y1 y1')
    (h10 : y1 0 = 1) (h10' : y1' 0 = 0) :
    ∃ nu, nuExpDet a 0 ntr = .ok (.bounded nu) ∧ nuExpD0ap a 0 = some nu ∧ nuExpIvp (y1 π) = .bounded nu ∧ nuExpBla a 0 = some √a ∧
      (a < 1 → nu = √a) := by
  have hsq : √a ^ 2 = a := sq_sqrt ha.le
  have hy : y1 π = cos (π * √a) := by
    have hs := solves_static (w := √a)
    rw [hsq] at hs
    rw [(mathieu_unique h1 hs 0 (by simp [h10]) (by simp [h10']) π).1, mul_comm]
  refine ⟨arccos (cos (π * √a)) / π, ?_, ?_, ?_, ?_, fun h => ?_⟩
  · rw [nuExpDet_eq hn ha.le ha4, ← c76_matrix hn, hill_static a hn, one_mul]
    have : ¬ (sin (π / 2 * √a) ^ 2 < 0 ∨ 1 < sin (π / 2 * √a) ^ 2) := by
      rintro (h | h)
      · linarith [sq_nonneg (sin (π / 2 * √a))]
      · linarith [sin_sq_le_one (π / 2 * √a)]
    simp only [this, if_false]
    have e := arccos_double (π / 2 * √a)
    rw [show 2 * (π / 2 * √a) = π * √a by ring] at e
    rw [← e]
    congr 2
    ring
  · unfold nuExpD0ap
    have : ¬ (a < 0 ∨ 4 * √a * (a - 1) = 0) := by
      rintro (h | h)
      · linarith
      · have : 4 * √a * (a - 1) ≠ 0 := mul_ne_zero (by positivity) (sub_ne_zero.2 ha1)
        exact this h
    rw [if_neg this]
    simp [abs_cos_le_one]
  · unfold nuExpIvp
    rw [hy, if_neg (not_lt.2 (abs_cos_le_one _))]
  · simp [nuExpBla, ha.le]
  · have hs1 : √a ≤ 1 := by rw [sqrt_le_one]; exact h.le
    rw [arccos_cos (by positivity) (by nlinarith [pi_pos])]
    field_simp

/-- C108: `nu_exp_d0ap` gives nan for `a = 0`, the usual case of a trap without a static field along the axis, and for `a = 1`. -/
theorem c108_d0ap_nan (q : ℝ) : nuExpD0ap 0 q = none ∧ nuExpD0ap 1 q = none := by
  constructor <;> simp [nuExpD0ap]

/-- C108: for `a = 0` and `q = 0` the determinant cannot be computed either; the other two methods give zero. -/
theorem c108_zero {ntr : Nat} {y1 y1' : ℝ → ℝ} (h1 : SolvesMathieu 0 0 y1 y1') (h10 : y1 0 = 1) (h10' : y1' 0 = 0) :
    nuExpDet 0 0 ntr = .error .zeroDivisionError ∧ nuExpIvp (y1 π) = .bounded 0 ∧ nuExpBla 0 0 = some 0 := by
  have hy : y1 π = 1 := by
    have hs := solves_static (w := 0)
    rw [zero_pow two_ne_zero] at hs
    rw [(mathieu_unique h1 hs 0 (by simp [h10]) (by simp [h10']) π).1]
    simp
  refine ⟨?_, ?_, ?_⟩
  · exact c76_zero 0 ntr
  · simp [nuExpIvp, hy]
  · simp [nuExpBla]

/-! the hypotheses can be met -/

/-- with a field -/
example (a q : ℝ) : ∃ y1 y1', SolvesMathieu a q y1 y1' ∧ y1 0 = 1 ∧ y1' 0 = 0 := mathieu_exists a q 1 0

/-- an exponent of one half, and a warning -/
example : (∃ y1 y1', SolvesMathieu (1 / 4) 0 y1 y1' ∧ y1 0 = 1 ∧ y1' 0 = 0 ∧ nuExpIvp (y1 π) = .bounded (1 / 2)) ∧
    ∃ x, nuExpIvp 2 = .unbounded x := by
  refine ⟨?_, 2, by simp [nuExpIvp]⟩
  obtain ⟨y1, y1', h, h0, h0'⟩ := mathieu_exists (1 / 4) 0 1 0
  obtain ⟨nu, -, -, e, -, hnu⟩ := c108_static (by norm_num) (by norm_num) le_rfl (fun n _ => quarter_ok n) h h0 h0'
  refine ⟨y1, y1', h, h0, h0', ?_⟩
  rw [e, hnu (by norm_num)]
  congr 1
  rw [show (1 / 4 : ℝ) = (1 / 2) ^ 2 by norm_num]
  exact sqrt_sq (by norm_num)

end Electrode
