import Verif.Lemmas.Continuant
import Mathlib.Analysis.PSeries
import Mathlib.Analysis.Complex.CauchyIntegral
import Mathlib.Analysis.SpecialFunctions.Trigonometric.Basic

/-!
The infinite determinant of Hill for the equation of Mathieu, as a function of the exponent: continuants to the right and to the left
of a row.  `k` is the square root of `a`.
-/

open Filter Topology Complex

namespace Electrode

/-- the diagonal of the recurrence -/
noncomputable def hlD (k : ℝ) (n : ℤ) (v : ℂ) : ℂ := (v + 2 * n) ^ 2 - (k : ℂ) ^ 2

/-- the entries next to the diagonal after division -/
noncomputable def hlA (k q : ℝ) (n : ℤ) (v : ℂ) : ℂ := (q : ℂ) / hlD k n v

/-- product of the two entries -/
noncomputable def hlB (k q : ℝ) (n : ℤ) (v : ℂ) : ℂ := hlA k q n v * hlA k q (n + 1) v

/-- the determinant of the rows from `m` on -/
noncomputable def hlR (k q : ℝ) (m : ℤ) (v : ℂ) : ℂ := contL fun j : ℕ => hlB k q (m + j) v

theorem hlD_factor (k : ℝ) (n : ℤ) (v : ℂ) : hlD k n v = (v + 2 * n - k) * (v + 2 * n + k) := by
  unfold hlD
  ring

theorem hlD_shift (k : ℝ) (n : ℤ) (v : ℂ) : hlD k n (v + 2) = hlD k (n + 1) v := by
  unfold hlD
  push_cast
  ring

theorem hlD_neg (k : ℝ) (n : ℤ) (v : ℂ) : hlD k n (-v) = hlD k (-n) v := by
  unfold hlD
  push_cast
  ring

theorem hlA_shift (k q : ℝ) (n : ℤ) (v : ℂ) : hlA k q n (v + 2) = hlA k q (n + 1) v := by
  unfold hlA
  rw [hlD_shift]

theorem hlA_neg (k q : ℝ) (n : ℤ) (v : ℂ) : hlA k q n (-v) = hlA k q (-n) v := by
  unfold hlA
  rw [hlD_neg]

theorem hlB_shift (k q : ℝ) (n : ℤ) (v : ℂ) : hlB k q n (v + 2) = hlB k q (n + 1) v := by
  unfold hlB
  rw [hlA_shift, hlA_shift]

theorem hlB_neg (k q : ℝ) (n : ℤ) (v : ℂ) : hlB k q n (-v) = hlB k q (-n - 1) v := by
  unfold hlB
  rw [hlA_neg, hlA_neg, mul_comm]
  congr 2 <;> ring

theorem hlR_shift (k q : ℝ) (m : ℤ) (v : ℂ) : hlR k q m (v + 2) = hlR k q (m + 1) v := by
  unfold hlR
  congr 1
  funext j
  rw [hlB_shift]
  congr 1
  ring

theorem hlR_unshift (k q : ℝ) (m : ℤ) (v : ℂ) : hlR k q m (-(v + 2)) = hlR k q (m - 1) (-v) := by
  have := hlR_shift k q (m - 1) (-(v + 2))
  rw [show -(v + 2) + 2 = -v by ring, show m - 1 + 1 = m by ring] at this
  exact this.symm

/-- far from the point the diagonal is large -/
theorem hlD_lower {k r : ℝ} {n : ℤ} {v : ℂ} (hv : ‖v‖ ≤ r) (hn : r + |k| ≤ n) : (n : ℝ) ^ 2 ≤ ‖hlD k n v‖ := by
  have hr : 0 ≤ r := (norm_nonneg v).trans hv
  have hn0 : (0 : ℝ) ≤ n := (add_nonneg hr (abs_nonneg k)).trans hn
  have hk : ‖(k : ℂ)‖ = |k| := by rw [Complex.norm_real, Real.norm_eq_abs]
  have h2 : ‖(2 * n : ℂ)‖ = 2 * n := by
    rw [norm_mul, Complex.norm_intCast, abs_of_nonneg hn0]
    simp
  rw [hlD_factor, norm_mul, sq]
  have h3 : (n : ℝ) ≤ ‖v + 2 * n - k‖ := by
    have h := norm_sub_norm_le (2 * n : ℂ) (k - v)
    have h' := norm_sub_le (k : ℂ) v
    rw [show (2 * n : ℂ) - (k - v) = v + 2 * n - k by ring] at h
    rw [hk] at h'
    rw [h2] at h
    linarith
  have h4 : (n : ℝ) ≤ ‖v + 2 * n + k‖ := by
    have h := norm_sub_norm_le (2 * n : ℂ) (-(k : ℂ) - v)
    have h' := norm_sub_le (-(k : ℂ)) v
    rw [show (2 * n : ℂ) - (-(k : ℂ) - v) = v + 2 * n + k by ring] at h
    rw [norm_neg, hk] at h'
    rw [h2] at h
    linarith
  exact mul_le_mul h3 h4 hn0 (hn0.trans h3)

/-- the sequence that bounds the products -/
noncomputable def hlU (j : ℕ) : ℝ := 1 / ((j : ℝ) + 1) ^ 2

theorem hlU_summable : Summable hlU := by
  have := (summable_nat_add_iff 1).2 (Real.summable_one_div_nat_pow.2 (by norm_num : 1 < 2))
  refine this.congr fun j => ?_
  unfold hlU
  push_cast
  rfl

theorem hlB_far {k q r : ℝ} {m : ℤ} {v : ℂ} (hv : ‖v‖ ≤ r) (hm : r + |k| ≤ m) (hm1 : 1 ≤ m) (j : ℕ) : ‖hlB k q (m + j) v‖ ≤ q ^ 2 * hlU j := by
  have hj : (0 : ℝ) ≤ j := Nat.cast_nonneg j
  have hm1' : (1 : ℝ) ≤ m := by exact_mod_cast hm1
  have h1 : ((m + j : ℤ) : ℝ) ^ 2 ≤ ‖hlD k (m + j) v‖ := hlD_lower hv (by push_cast; linarith)
  have h2 : ((m + j + 1 : ℤ) : ℝ) ^ 2 ≤ ‖hlD k (m + j + 1) v‖ := hlD_lower hv (by push_cast; linarith)
  push_cast at h1 h2
  have h3 : ((j : ℝ) + 1) ^ 2 ≤ ‖hlD k (m + j) v‖ := le_trans (pow_le_pow_left₀ (by linarith) (by linarith) 2) h1
  have h4 : (1 : ℝ) ≤ ‖hlD k (m + j + 1) v‖ := le_trans (one_le_pow₀ (by linarith)) h2
  have h5 : (0 : ℝ) < ((j : ℝ) + 1) ^ 2 := by positivity
  unfold hlB hlA hlU
  rw [norm_mul, norm_div, norm_div, Complex.norm_real, Real.norm_eq_abs, div_mul_div_comm, ← sq, sq_abs, mul_one_div]
  refine div_le_div_of_nonneg_left (sq_nonneg q) h5 ?_
  nlinarith

theorem exists_far (k r : ℝ) (m : ℤ) : ∃ M : ℕ, r + |k| ≤ ((m + M : ℤ) : ℝ) ∧ 1 ≤ m + M := by
  obtain ⟨M, hM⟩ := exists_nat_ge (r + |k| + |(m : ℝ)| + 1 + |r|)
  refine ⟨M, ?_, ?_⟩
  · push_cast
    have := neg_abs_le (m : ℝ)
    have := abs_nonneg r
    linarith
  · have h : (1 : ℝ) ≤ ((m + M : ℤ) : ℝ) := by
      push_cast
      have := neg_abs_le (m : ℝ)
      have := neg_abs_le r
      have := abs_nonneg k
      linarith
    exact_mod_cast h

theorem hlB_summable (k q : ℝ) (m : ℤ) (v : ℂ) : Summable fun j : ℕ => ‖hlB k q (m + j) v‖ := by
  obtain ⟨M, h1, h2⟩ := exists_far k ‖v‖ m
  refine (summable_nat_add_iff M).1 ?_
  refine Summable.of_nonneg_of_le (fun _ => norm_nonneg _) (fun j => ?_) (hlU_summable.mul_left (q ^ 2))
  have := hlB_far (q := q) le_rfl h1 h2 j
  rw [show (m + (M : ℤ) + (j : ℤ)) = m + ((j + M : ℕ) : ℤ) by push_cast; ring] at this
  exact this

theorem hlR_rec (k q : ℝ) (m : ℤ) (v : ℂ) : hlR k q m v = hlR k q (m + 1) v - hlB k q m v * hlR k q (m + 2) v := by
  unfold hlR
  rw [contL_front (hlB_summable k q m v)]
  have h1 : shiftS 1 (fun j : ℕ => hlB k q (m + j) v) = fun j : ℕ => hlB k q (m + 1 + j) v := by
    funext j
    simp only [shiftS]
    congr 1
    push_cast
    ring
  have h2 : shiftS 2 (fun j : ℕ => hlB k q (m + j) v) = fun j : ℕ => hlB k q (m + 2 + j) v := by
    funext j
    simp only [shiftS]
    congr 1
    push_cast
    ring
  rw [h1, h2]
  simp

/-- from the left -/
theorem hlR_rec_neg (k q : ℝ) (m : ℤ) (v : ℂ) : hlR k q m (-v) = hlR k q (m + 1) (-v) - hlB k q (-m - 1) v * hlR k q (m + 2) (-v) := by
  rw [hlR_rec, hlB_neg]

theorem hlD_differentiable (k : ℝ) (n : ℤ) : Differentiable ℂ (hlD k n) := by
  unfold hlD
  fun_prop

theorem hlA_analytic {k q : ℝ} {n : ℤ} {v : ℂ} (h : hlD k n v ≠ 0) : AnalyticAt ℂ (hlA k q n) v :=
  analyticAt_const.div ((hlD_differentiable k n).analyticAt v) h

theorem hlB_analytic {k q : ℝ} {n : ℤ} {v : ℂ} (h : hlD k n v ≠ 0) (h' : hlD k (n + 1) v ≠ 0) : AnalyticAt ℂ (hlB k q n) v :=
  (hlA_analytic h).mul (hlA_analytic h')

theorem hlR_far {k q r : ℝ} {m : ℤ} (hm : r + |k| ≤ m) (hm1 : 1 ≤ m) : DifferentiableOn ℂ (hlR k q m) (Metric.ball 0 r) := by
  refine contL_differentiable Metric.isOpen_ball (fun j => ?_) (hlU_summable.mul_left (q ^ 2)) fun w hw j => ?_
  · have hne : ∀ n : ℤ, m ≤ n → ∀ w ∈ Metric.ball (0 : ℂ) r, hlD k n w ≠ 0 := by
      intro n hn w hw h0
      have hw' : ‖w‖ ≤ r := by rw [mem_ball_zero_iff] at hw; exact hw.le
      have hn' : (m : ℝ) ≤ n := by exact_mod_cast hn
      have hm1' : (1 : ℝ) ≤ m := by exact_mod_cast hm1
      have := hlD_lower hw' (hm.trans hn')
      rw [h0, norm_zero] at this
      nlinarith
    intro w hw
    exact (hlB_analytic (hne _ (by omega) w hw) (hne _ (by omega) w hw)).differentiableAt.differentiableWithinAt
  · rw [mem_ball_zero_iff] at hw
    exact hlB_far hw.le hm hm1 j

theorem hlR_analytic {k q : ℝ} {m : ℤ} {v : ℂ} (h : ∀ n, m ≤ n → hlD k n v ≠ 0) : AnalyticAt ℂ (hlR k q m) v := by
  obtain ⟨M, h1, h2⟩ := exists_far k (‖v‖ + 1) m
  have key : ∀ t : ℕ, ∀ m' : ℤ, m ≤ m' → m + M ≤ m' + t → AnalyticAt ℂ (hlR k q m') v := by
    intro t
    induction t with
    | zero =>
      intro m' _ hm'
      have hm'' : m + (M : ℤ) ≤ m' := by simpa using hm'
      have : ((m + M : ℤ) : ℝ) ≤ m' := by exact_mod_cast hm''
      exact (hlR_far (h1.trans this) (h2.trans hm'')).analyticAt (Metric.isOpen_ball.mem_nhds (by
        rw [mem_ball_zero_iff]
        linarith))
    | succ t ih =>
      intro m' hm hm'
      have e : hlR k q m' = fun v => hlR k q (m' + 1) v - hlB k q m' v * hlR k q (m' + 2) v := funext fun v => hlR_rec k q m' v
      rw [e]
      push_cast at hm'
      exact (ih (m' + 1) (by omega) (by omega)).sub ((hlB_analytic (h _ hm) (h _ (by omega))).mul (ih (m' + 2) (by omega) (by omega)))
  exact key M m le_rfl (by omega)

/-- the whole determinant, cut between the rows `m` and `m + 1` -/
noncomputable def hlW (k q : ℝ) (m : ℤ) (v : ℂ) : ℂ :=
  hlR k q (-m) (-v) * hlR k q (m + 1) v - hlB k q m v * hlR k q (1 - m) (-v) * hlR k q (m + 2) v

theorem hlW_succ (k q : ℝ) (m : ℤ) (v : ℂ) : hlW k q (m + 1) v = hlW k q m v := by
  unfold hlW
  have h1 := hlR_rec_neg k q (-(m + 1)) v
  have h2 := hlR_rec k q (m + 1) v
  rw [show -(m + 1) + 1 = -m by ring, show -(m + 1) + 2 = 1 - m by ring, show -(-(m + 1)) - 1 = m by ring] at h1
  rw [show m + 1 + 1 = m + 2 by ring, show m + 1 + 2 = m + 3 by ring] at *
  rw [h1, h2, show 1 - (m + 1) = -m by ring]
  ring

/-- the determinant -/
noncomputable def hlDelta (k q : ℝ) (v : ℂ) : ℂ := hlW k q 0 v

theorem hlDelta_shift (k q : ℝ) (v : ℂ) : hlDelta k q (v + 2) = hlDelta k q v := by
  unfold hlDelta
  rw [← hlW_succ k q 0 v]
  unfold hlW
  rw [hlR_unshift, hlR_unshift, hlR_shift, hlR_shift, hlB_shift]
  norm_num

theorem hlDelta_neg (k q : ℝ) (v : ℂ) : hlDelta k q (-v) = hlDelta k q v := by
  unfold hlDelta
  have h := hlW_succ k q (-1) v
  rw [show (-1 + 1 : ℤ) = 0 by norm_num] at h
  rw [h]
  clear h
  unfold hlW
  rw [neg_neg, hlB_neg]
  norm_num
  ring

/-- the determinant with the row zero not divided -/
noncomputable def hlG (k q : ℝ) (v : ℂ) : ℂ :=
  hlD k 0 v * hlR k q 1 (-v) * hlR k q 1 v - q * hlA k q 1 v * hlR k q 1 (-v) * hlR k q 2 v - q * hlA k q 1 (-v) * hlR k q 2 (-v) * hlR k q 1 v

theorem hlG_eq {k q : ℝ} {v : ℂ} (h : hlD k 0 v ≠ 0) : hlDelta k q v = hlG k q v / hlD k 0 v := by
  have e0 : hlB k q 0 v * hlD k 0 v = q * hlA k q 1 v := by
    unfold hlB hlA
    rw [zero_add]
    field_simp
  have e1 : hlB k q 0 (-v) * hlD k 0 v = q * hlA k q 1 (-v) := by
    unfold hlB
    rw [zero_add, hlA_neg k q 0, neg_zero]
    unfold hlA
    field_simp
  rw [eq_div_iff h]
  unfold hlDelta hlW hlG
  have h1 := hlR_rec k q 0 (-v)
  norm_num at h1 ⊢
  rw [h1]
  linear_combination -(hlR k q 1 (-v) * hlR k q 2 v) * e0 - (hlR k q 2 (-v) * hlR k q 1 v) * e1

end Electrode
