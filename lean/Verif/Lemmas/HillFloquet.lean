import Verif.Lemmas.HillTail
import Mathlib.Analysis.Calculus.SmoothSeries
import Mathlib.Analysis.SpecialFunctions.Integrals.Basic
import Mathlib.Analysis.SpecificLimits.Normed
import Mathlib.MeasureTheory.Integral.DominatedConvergence

/-!
Where Hill's determinant vanishes there is a solution of Floquet's form.
-/

open Filter Topology Complex

namespace Electrode

/-- the solution of the recurrence that decays to the right -/
noncomputable def hlC (k q : ℝ) (v : ℂ) (n : ℕ) : ℂ := (-1) ^ n * (∏ j ∈ Finset.range n, hlA k q (j + 1) v) * hlR k q (n + 1) v

theorem hlC_rec {k q : ℝ} {v : ℂ} {n : ℕ} (h : hlD k (n + 1) v ≠ 0) :
    hlD k (n + 1) v * hlC k q v (n + 1) + q * (hlC k q v n + hlC k q v (n + 2)) = 0 := by
  have hA : hlD k (n + 1) v * hlA k q (n + 1) v = q := by
    unfold hlA
    field_simp
  have hR := hlR_rec k q (n + 1) v
  unfold hlB at hR
  unfold hlC
  rw [Finset.prod_range_succ _ (n + 1), Finset.prod_range_succ _ n]
  push_cast
  rw [show (n : ℤ) + 1 + 2 = (n : ℤ) + 2 + 1 by ring] at hR
  rw [hR]
  linear_combination -((-1) ^ n * (∏ j ∈ Finset.range n, hlA k q (j + 1) v) * hlR k q (n + 1 + 1) v) * hA

theorem hlA_small (k q : ℝ) (v : ℂ) {ε : ℝ} (hε : 0 < ε) : ∀ᶠ n : ℕ in atTop, ‖hlA k q (n + 1) v‖ ≤ ε := by
  obtain ⟨M, hM⟩ := exists_nat_ge (‖v‖ + |k| + |q| / ε)
  filter_upwards [eventually_ge_atTop M] with n hn
  have hn' : (M : ℝ) ≤ n := by exact_mod_cast hn
  have h0 : 0 ≤ |q| / ε := by positivity
  have h1 : ‖v‖ + |k| ≤ ((n + 1 : ℤ) : ℝ) := by push_cast; linarith
  have h2 := hlD_lower le_rfl h1
  push_cast at h2
  have hn0 : (0 : ℝ) ≤ n := Nat.cast_nonneg n
  have h3 : |q| / ε ≤ ((n : ℝ) + 1) ^ 2 := by
    have : |q| / ε ≤ n := by
      have := norm_nonneg v
      have := abs_nonneg k
      linarith
    nlinarith
  unfold hlA
  rw [norm_div, Complex.norm_real, Real.norm_eq_abs, div_le_iff₀ (lt_of_lt_of_le (by positivity) h2)]
  rw [div_le_iff₀ hε] at h3
  nlinarith

theorem hlR_tendsto (k q : ℝ) (v : ℂ) : Tendsto (fun n : ℕ => hlR k q (n + 1) v) atTop (𝓝 1) := by
  have hs := hlB_summable k q 1 v
  have hT := tendsto_sum_nat_add fun j : ℕ => ‖hlB k q (1 + j) v‖
  have hT2 := hT.mul ((Real.continuous_exp.tendsto 0).comp hT)
  rw [zero_mul] at hT2
  rw [tendsto_iff_norm_sub_tendsto_zero]
  refine squeeze_zero (fun _ => norm_nonneg _) (fun n => ?_) hT2
  have h1 : Summable fun j : ℕ => ‖hlB k q (1 + ((j + n : ℕ) : ℤ)) v‖ := (summable_nat_add_iff n).2 hs
  exact contL_near (b := fun j : ℕ => hlB k q ((n : ℤ) + 1 + j) v) h1 fun j => le_of_eq (by
    congr 2
    push_cast
    ring)

theorem hlC_summable (k q : ℝ) (v : ℂ) : Summable fun n : ℕ => ‖hlC k q v n‖ * ((n : ℝ) + 1) ^ 2 := by
  have hp : Summable fun n : ℕ => (∏ j ∈ Finset.range n, ‖hlA k q (j + 1) v‖) * ((n : ℝ) + 1) ^ 2 := by
    refine summable_of_ratio_norm_eventually_le (r := 1 / 2) (by norm_num) ?_
    filter_upwards [hlA_small k q v (by norm_num : (0 : ℝ) < 1 / 8)] with n hn
    have hP : 0 ≤ ∏ j ∈ Finset.range n, ‖hlA k q (j + 1) v‖ := Finset.prod_nonneg fun _ _ => norm_nonneg _
    rw [Finset.prod_range_succ, Real.norm_eq_abs, Real.norm_eq_abs, abs_of_nonneg (by positivity), abs_of_nonneg (by positivity)]
    have h1 : ‖hlA k q (n + 1) v‖ * (((n + 1 : ℕ) : ℝ) + 1) ^ 2 ≤ 1 / 2 * ((n : ℝ) + 1) ^ 2 := by
      have h2 : (((n + 1 : ℕ) : ℝ) + 1) ^ 2 ≤ 4 * ((n : ℝ) + 1) ^ 2 := by
        push_cast
        have : (0 : ℝ) ≤ n := Nat.cast_nonneg n
        nlinarith
      calc _ ≤ 1 / 8 * (4 * ((n : ℝ) + 1) ^ 2) := mul_le_mul hn h2 (by positivity) (by norm_num)
        _ = _ := by ring
    calc (∏ j ∈ Finset.range n, ‖hlA k q (j + 1) v‖) * ‖hlA k q (n + 1) v‖ * (((n + 1 : ℕ) : ℝ) + 1) ^ 2
        = (∏ j ∈ Finset.range n, ‖hlA k q (j + 1) v‖) * (‖hlA k q (n + 1) v‖ * (((n + 1 : ℕ) : ℝ) + 1) ^ 2) := by ring
      _ ≤ (∏ j ∈ Finset.range n, ‖hlA k q (j + 1) v‖) * (1 / 2 * ((n : ℝ) + 1) ^ 2) := mul_le_mul_of_nonneg_left h1 hP
      _ = _ := by ring
  refine Summable.of_norm_bounded_eventually_nat (hp.mul_left 2) ?_
  have hR : ∀ᶠ n : ℕ in atTop, ‖hlR k q (n + 1) v‖ ≤ 2 := by
    have := (hlR_tendsto k q v).norm
    rw [norm_one] at this
    exact (this.eventually (eventually_le_nhds (by norm_num : (1 : ℝ) < 2)))
  filter_upwards [hR] with n hn
  unfold hlC
  rw [norm_mul, norm_norm, norm_mul, norm_mul, norm_pow, norm_neg, norm_one, one_pow, one_mul, norm_prod, Real.norm_eq_abs,
    abs_of_nonneg (by positivity)]
  have hP : 0 ≤ (∏ j ∈ Finset.range n, ‖hlA k q (j + 1) v‖) * ((n : ℝ) + 1) ^ 2 :=
    mul_nonneg (Finset.prod_nonneg fun _ _ => norm_nonneg _) (by positivity)
  nlinarith

theorem hlR_nonzero {k q : ℝ} (hq : q ≠ 0) {v : ℂ} (h : ∀ n : ℤ, 1 ≤ n → hlD k n v ≠ 0) : ¬ (hlR k q 1 v = 0 ∧ hlR k q 2 v = 0) := by
  rintro ⟨h1, h2⟩
  have key : ∀ n : ℕ, hlR k q (n + 1) v = 0 ∧ hlR k q (n + 2) v = 0 := by
    intro n
    induction n with
    | zero => simpa using ⟨h1, h2⟩
    | succ n ih =>
      have hr := hlR_rec k q (n + 1) v
      have hB : hlB k q (n + 1) v ≠ 0 := by
        unfold hlB hlA
        have hq' : (q : ℂ) ≠ 0 := by exact_mod_cast hq
        exact mul_ne_zero (div_ne_zero hq' (h _ (by omega))) (div_ne_zero hq' (h _ (by omega)))
      rw [show (n : ℤ) + 1 + 1 = n + 2 by ring, ih.1, ih.2, zero_sub, eq_comm, neg_eq_zero, mul_eq_zero] at hr
      push_cast
      refine ⟨by rw [show (n : ℤ) + 1 + 1 = n + 2 by ring]; exact ih.2, hr.resolve_left hB⟩
  have := hlR_tendsto k q v
  have h0 : (fun n : ℕ => hlR k q (n + 1) v) = fun _ => 0 := funext fun n => (key n).1
  rw [h0] at this
  exact zero_ne_one (tendsto_nhds_unique tendsto_const_nhds this)

theorem hlC_start {k q : ℝ} (hq : q ≠ 0) {v : ℂ} (h : ∀ n : ℤ, 1 ≤ n → hlD k n v ≠ 0) (h0 : hlC k q v 0 = 0) : hlC k q v 1 ≠ 0 := by
  have e0 : hlR k q 1 v = 0 := by simpa [hlC] using h0
  have hq' : (q : ℂ) ≠ 0 := by exact_mod_cast hq
  have h2 : hlR k q 2 v ≠ 0 := fun h2 => hlR_nonzero hq h ⟨e0, h2⟩
  unfold hlC
  norm_num
  unfold hlA
  exact ⟨div_ne_zero hq' (h 1 le_rfl), h2⟩

/-- where the determinant vanishes the recurrence has a solution that decays on both sides -/
theorem hill_kernel {k q : ℝ} (hq : q ≠ 0) {v : ℂ} (h : ∀ n : ℤ, n ≠ 0 → hlD k n v ≠ 0) (hG : hlG k q v = 0) :
    ∃ c : ℤ → ℂ, (∃ m, c m ≠ 0) ∧ (∀ n, hlD k n v * c n + q * (c (n - 1) + c (n + 1)) = 0) ∧
      Summable fun n : ℤ => ‖c n‖ * (|(n : ℝ)| + 1) ^ 2 := by
  have hp : ∀ n : ℤ, 1 ≤ n → hlD k n v ≠ 0 := fun n hn => h n (by omega)
  have hm : ∀ n : ℤ, 1 ≤ n → hlD k n (-v) ≠ 0 := fun n hn => by rw [hlD_neg]; exact h _ (by omega)
  obtain ⟨l, m, e0, e1, hne⟩ : ∃ l m : ℂ, l * hlC k q v 0 = m * hlC k q (-v) 0 ∧
      hlD k 0 v * (l * hlC k q v 0) + q * (m * hlC k q (-v) 1 + l * hlC k q v 1) = 0 ∧
      (l * hlC k q v 0 ≠ 0 ∨ l * hlC k q v 1 ≠ 0 ∨ m * hlC k q (-v) 1 ≠ 0) := by
    by_cases hz : hlC k q v 0 = 0 ∧ hlC k q (-v) 0 = 0
    · refine ⟨hlC k q (-v) 1, -hlC k q v 1, by rw [hz.1, hz.2]; ring, by rw [hz.1]; ring, Or.inr (Or.inl ?_)⟩
      exact mul_ne_zero (hlC_start hq hm hz.2) (hlC_start hq hp hz.1)
    · refine ⟨hlC k q (-v) 0, hlC k q v 0, mul_comm _ _, ?_, ?_⟩
      · rw [← hG]
        unfold hlG hlC
        norm_num
        ring
      · by_cases h1 : hlC k q v 0 = 0
        · have h2 : hlC k q (-v) 0 ≠ 0 := fun h2 => hz ⟨h1, h2⟩
          exact Or.inr (Or.inl (mul_ne_zero h2 (hlC_start hq hp h1)))
        · by_cases h2 : hlC k q (-v) 0 = 0
          · exact Or.inr (Or.inr (mul_ne_zero h1 (hlC_start hq hm h2)))
          · exact Or.inl (mul_ne_zero h2 h1)
  obtain ⟨c, hc⟩ : ∃ c : ℤ → ℂ, c = fun n => if 0 ≤ n then l * hlC k q v n.toNat else m * hlC k q (-v) (-n).toNat := ⟨_, rfl⟩
  have cp : ∀ n : ℕ, c n = l * hlC k q v n := by
    intro n
    rw [hc]
    simp
  have cm : ∀ n : ℕ, c (-n) = m * hlC k q (-v) n := by
    intro n
    rcases Nat.eq_zero_or_pos n with rfl | hn
    · have := cp 0
      rw [e0] at this
      simpa using this
    · rw [hc]
      simp only
      rw [if_neg (by omega), neg_neg, Int.toNat_natCast]
  refine ⟨c, ?_, ?_, ?_⟩
  · rcases hne with hne | hne | hne
    · exact ⟨0, by have := cp 0; push_cast at this; rwa [this]⟩
    · exact ⟨1, by have := cp 1; push_cast at this; rwa [this]⟩
    · exact ⟨-1, by have := cm 1; push_cast at this; rwa [this]⟩
  · intro n
    rcases lt_trichotomy n 0 with hn | rfl | hn
    · obtain ⟨t, rfl⟩ : ∃ t : ℕ, n = -((t + 1 : ℕ) : ℤ) := ⟨(-n - 1).toNat, by omega⟩
      rw [show -((t + 1 : ℕ) : ℤ) - 1 = -((t + 2 : ℕ) : ℤ) by push_cast; ring, show -((t + 1 : ℕ) : ℤ) + 1 = -((t : ℕ) : ℤ) by push_cast; ring,
        cm, cm, cm, ← hlD_neg]
      have := hlC_rec (q := q) (n := t) (hm (t + 1) (by omega))
      push_cast at this ⊢
      linear_combination m * this
    · have h1 := cp 0
      have h2 := cp 1
      have h3 := cm 1
      push_cast at h1 h2 h3
      rw [zero_sub, zero_add, h1, h2, h3]
      exact e1
    · obtain ⟨t, rfl⟩ : ∃ t : ℕ, n = ((t + 1 : ℕ) : ℤ) := ⟨(n - 1).toNat, by omega⟩
      rw [show ((t + 1 : ℕ) : ℤ) + 1 = ((t + 2 : ℕ) : ℤ) by push_cast; ring, show ((t + 1 : ℕ) : ℤ) - 1 = ((t : ℕ) : ℤ) by push_cast; ring,
        cp, cp, cp]
      have := hlC_rec (q := q) (n := t) (hp (t + 1) (by omega))
      push_cast at this ⊢
      linear_combination l * this
  · refine Summable.of_nat_of_neg ?_ ?_
    · refine ((hlC_summable k q v).mul_left ‖l‖).congr fun n => ?_
      rw [cp, norm_mul, mul_assoc, Int.cast_natCast, Nat.abs_cast]
    · refine ((hlC_summable k q (-v)).mul_left ‖m‖).congr fun n => ?_
      rw [cm, norm_mul, mul_assoc, Int.cast_neg, Int.cast_natCast, abs_neg, Nat.abs_cast]

end Electrode
