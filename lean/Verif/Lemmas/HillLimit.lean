import Verif.Lemmas.HillSeries
import Verif.Props.MathieuOrder

/-!
The determinants of the finite matrices converge, and the limit depends continuously on the parameter.
-/

namespace Electrode

open Filter Topology Spec
open scoped Real

theorem contP_cast (b : ℕ → ℝ) (n : ℕ) : ((contP b n : ℝ) : ℂ) = contP (fun j => (b j : ℂ)) n := by
  induction n using Nat.twoStepInduction with
  | zero => simp [contP]
  | one => simp [contP]
  | more n h1 h2 =>
    simp only [contP] at *
    push_cast
    rw [h1, h2]

theorem hill_tri (a q : ℝ) (N : ℕ) : Spec.hill a q N =
    triMat (fun j => q / (4 * ((j : ℝ) + 1 - N) ^ 2 - a)) (fun j => q / (4 * ((j : ℝ) - N) ^ 2 - a)) (2 * N + 1) := by
  ext i j
  unfold Spec.hill triMat
  by_cases h : i.val = j.val
  · rw [if_pos (Fin.ext h), if_pos h]
  · rw [if_neg (fun e => h (congrArg Fin.val e)), if_neg h]
    by_cases h1 : j.val = i.val + 1
    · rw [if_pos (Or.inl h1.symm), if_pos h1]
    · rw [if_neg h1]
      by_cases h2 : i.val = j.val + 1
      · rw [if_pos (Or.inr h2.symm), if_pos h2, h2]
        push_cast
        rfl
      · rw [if_neg (by omega), if_neg h2]

theorem hill_det (k q : ℝ) (M : ℕ) : (((Spec.hill (k ^ 2) q (M + 1)).det : ℝ) : ℂ) =
    contP (fun j : ℕ => hlB k q (0 + j) 0) (M + 2) * contP (fun j : ℕ => hlB k q (1 + j) 0) (M + 1) -
      hlB k q 0 0 * contP (fun j : ℕ => hlB k q (1 + j) 0) (M + 1) * contP (fun j : ℕ => hlB k q (2 + j) 0) M := by
  rw [hill_tri, triMat_det, contP_cast, show 2 * (M + 1) + 1 = M + 1 + 1 + (M + 1) by ring, contP_split]
  have hb : ∀ (i : ℕ) (n : ℤ), (i : ℤ) = n + M + 1 → (((q / (4 * ((i : ℝ) - (M + 1 : ℕ)) ^ 2 - k ^ 2) *
      (q / (4 * ((i : ℝ) + 1 - (M + 1 : ℕ)) ^ 2 - k ^ 2)) : ℝ)) : ℂ) = hlB k q n 0 := by
    intro i n hi
    have hi' : (i : ℂ) = n + M + 1 := by exact_mod_cast hi
    unfold hlB hlA hlD
    push_cast
    rw [hi']
    congr 2 <;> ring
  have hs : ∀ (i : ℕ) (n : ℤ), (i : ℤ) = -n + M → (((q / (4 * ((i : ℝ) - (M + 1 : ℕ)) ^ 2 - k ^ 2) *
      (q / (4 * ((i : ℝ) + 1 - (M + 1 : ℕ)) ^ 2 - k ^ 2)) : ℝ)) : ℂ) = hlB k q n 0 := by
    intro i n hi
    have hi' : (i : ℂ) = -n + M := by exact_mod_cast hi
    unfold hlB hlA hlD
    push_cast
    rw [hi', mul_comm]
    congr 2 <;> ring
  have e1 : contP (fun j : ℕ => (((q / (4 * ((j : ℝ) - (M + 1 : ℕ)) ^ 2 - k ^ 2) *
      (q / (4 * ((j : ℝ) + 1 - (M + 1 : ℕ)) ^ 2 - k ^ 2)) : ℝ)) : ℂ)) (M + 1 + 1) = contP (fun j : ℕ => hlB k q (0 + j) 0) (M + 2) :=
    contP_rev _ _ _ fun i j h => hs i _ (by omega)
  have e2 : contP (fun j : ℕ => (((q / (4 * ((j : ℝ) - (M + 1 : ℕ)) ^ 2 - k ^ 2) *
      (q / (4 * ((j : ℝ) + 1 - (M + 1 : ℕ)) ^ 2 - k ^ 2)) : ℝ)) : ℂ)) (M + 1) = contP (fun j : ℕ => hlB k q (1 + j) 0) (M + 1) :=
    contP_rev _ _ _ fun i j h => hs i _ (by omega)
  have e3 : contP (shiftS (M + 1 + 1) fun j : ℕ => (((q / (4 * ((j : ℝ) - (M + 1 : ℕ)) ^ 2 - k ^ 2) *
      (q / (4 * ((j : ℝ) + 1 - (M + 1 : ℕ)) ^ 2 - k ^ 2)) : ℝ)) : ℂ)) (M + 1) = contP (fun j : ℕ => hlB k q (1 + j) 0) (M + 1) :=
    contP_congr _ fun j _ => hb _ _ (by push_cast; ring)
  have e4 : contP (shiftS (M + 1 + 2) fun j : ℕ => (((q / (4 * ((j : ℝ) - (M + 1 : ℕ)) ^ 2 - k ^ 2) *
      (q / (4 * ((j : ℝ) + 1 - (M + 1 : ℕ)) ^ 2 - k ^ 2)) : ℝ)) : ℂ)) M = contP (fun j : ℕ => hlB k q (2 + j) 0) M :=
    contP_congr _ fun j _ => hb _ _ (by push_cast; ring)
  have e0 := hb (M + 1) 0 (by push_cast; ring)
  rw [e1, e2, e3, e4]
  rw [← e0]

theorem hill_tendsto (k q : ℝ) : Tendsto (fun N : ℕ => (((Spec.hill (k ^ 2) q N).det : ℝ) : ℂ)) atTop (𝓝 (hlDelta k q 0)) := by
  rw [← tendsto_add_atTop_iff_nat 1]
  have t0 := (tendsto_add_atTop_iff_nat 2).2 (contL_tendsto (hlB_summable k q 0 0))
  have t1 := (tendsto_add_atTop_iff_nat 1).2 (contL_tendsto (hlB_summable k q 1 0))
  have t2 := contL_tendsto (hlB_summable k q 2 0)
  have h := (t0.mul t1).sub ((t1.const_mul (hlB k q 0 0)).mul t2)
  have e : hlDelta k q 0 = hlR k q 0 0 * hlR k q 1 0 - hlB k q 0 0 * hlR k q 1 0 * hlR k q 2 0 := by
    unfold hlDelta hlW
    norm_num
  rw [e]
  exact h.congr fun M => (hill_det k q M).symm

/-! ### continuity in the parameter -/

theorem hlB_cont {k q : ℝ} {n : ℤ} (h : hlD k n 0 ≠ 0) (h1 : hlD k (n + 1) 0 ≠ 0) : ContinuousAt (fun k => hlB k q n 0) k := by
  unfold hlB hlA
  have hc : ∀ n : ℤ, Continuous fun k : ℝ => hlD k n 0 := fun n => by
    unfold hlD
    fun_prop
  exact ((continuousAt_const.div (hc n).continuousAt h).mul (continuousAt_const.div (hc (n + 1)).continuousAt h1))

theorem hlR_cont {k q : ℝ} {m : ℤ} (h : ∀ n, m ≤ n → hlD k n 0 ≠ 0) : ContinuousAt (fun k => hlR k q m 0) k := by
  obtain ⟨M, h1, h2⟩ := exists_far (|k| + 1) 0 m
  rw [zero_add, abs_of_nonneg (by positivity)] at h1
  have key : ∀ t : ℕ, ∀ m' : ℤ, m ≤ m' → m + M ≤ m' + t → ContinuousAt (fun k => hlR k q m' 0) k := by
    intro t
    induction t with
    | zero =>
      intro m' hm hm'
      have hm'' : m + (M : ℤ) ≤ m' := by simpa using hm'
      have h3 : ((m + M : ℤ) : ℝ) ≤ m' := by exact_mod_cast hm''
      have hU : Set.Ioo (k - 1) (k + 1) ∈ 𝓝 k := Ioo_mem_nhds (by linarith) (by linarith)
      have hw : ∀ w ∈ Set.Ioo (k - 1) (k + 1), |w| ≤ |k| + 1 := by
        intro w hw
        rw [abs_le]
        have := neg_abs_le k
        have := le_abs_self k
        exact ⟨by linarith [hw.1], by linarith [hw.2]⟩
      refine (contL_continuous (U := Set.Ioo (k - 1) (k + 1)) (fun j => ?_) (hlU_summable.mul_left (q ^ 2)) fun w hw' j => ?_).continuousAt hU
      · intro w hw'
        refine (hlB_cont ?_ ?_).continuousWithinAt
        · intro h0
          have := hlD_lower (k := w) (n := m' + j) (v := 0) (r := 0) (by simp) (by
            have := hw w hw'
            have : (0 : ℝ) ≤ j := Nat.cast_nonneg j
            push_cast
            linarith)
          rw [h0, norm_zero] at this
          have h5 : (1 : ℝ) ≤ ((m' + j : ℤ) : ℝ) := by exact_mod_cast (by omega : 1 ≤ m' + (j : ℤ))
          nlinarith
        · intro h0
          have := hlD_lower (k := w) (n := m' + j + 1) (v := 0) (r := 0) (by simp) (by
            have := hw w hw'
            have : (0 : ℝ) ≤ j := Nat.cast_nonneg j
            push_cast
            linarith)
          rw [h0, norm_zero] at this
          have h5 : (1 : ℝ) ≤ ((m' + j + 1 : ℤ) : ℝ) := by exact_mod_cast (by omega : 1 ≤ m' + (j : ℤ) + 1)
          nlinarith
      · exact hlB_far (r := 0) (by simp) (by linarith [hw w hw']) (by omega) j
    | succ t ih =>
      intro m' hm hm'
      have e : (fun k => hlR k q m' 0) = fun k => hlR k q (m' + 1) 0 - hlB k q m' 0 * hlR k q (m' + 2) 0 := funext fun k => hlR_rec k q m' 0
      rw [e]
      push_cast at hm'
      exact (ih (m' + 1) (by omega) (by omega)).sub ((hlB_cont (h _ hm) (h _ (by omega))).mul (ih (m' + 2) (by omega) (by omega)))
  exact key M m le_rfl (by omega)

theorem hlDelta_cont {k q : ℝ} (h : ∀ n : ℤ, k ≠ 2 * n) : ContinuousAt (fun k => hlDelta k q 0) k := by
  have hD : ∀ n : ℤ, hlD k n 0 ≠ 0 := by
    intro n h0
    rw [hlD_factor, mul_eq_zero] at h0
    rcases h0 with h0 | h0
    · exact h n (by
        have : (k : ℂ) = ((2 * n : ℝ) : ℂ) := by push_cast; linear_combination -h0
        exact_mod_cast this)
    · exact h (-n) (by
        have : (k : ℂ) = ((2 * -n : ℝ) : ℂ) := by push_cast; linear_combination h0
        have : k = 2 * -n := by exact_mod_cast this
        push_cast
        exact this)
  have e : (fun k => hlDelta k q 0) = fun k => hlR k q 0 0 * hlR k q 1 0 - hlB k q 0 0 * hlR k q 1 0 * hlR k q 2 0 := by
    funext k
    unfold hlDelta hlW
    norm_num
  rw [e]
  have hR : ∀ m, ContinuousAt (fun k => hlR k q m 0) k := fun m => hlR_cont fun n _ => hD n
  exact ((hR 0).mul (hR 1)).sub (((hlB_cont (hD 0) (hD _)).mul (hR 1)).mul (hR 2))

/-- the value after one period depends continuously on the parameter -/
theorem value_cont (a q : ℝ) {y y' : ℝ → ℝ} (hy : SolvesMathieu a q y y') (h0 : y 0 = 1) (h0' : y' 0 = 0) :
    ∃ C : ℝ, ∀ b, |b - a| ≤ 1 → ∀ z z', SolvesMathieu b q z z' → z 0 = 1 → z' 0 = 0 → |z π - y π| ≤ C * |b - a| := by
  have hc : ContinuousOn y (Set.Icc 0 π) := fun t _ => (hy t).1.continuousAt.continuousWithinAt
  obtain ⟨B, hB⟩ := isCompact_Icc.exists_bound_of_continuousOn hc
  refine ⟨B * Real.exp ((1 + 2 * |q| + (|a| + 1)) * π), fun b hb z z' hz z0 z0' => ?_⟩
  have := mathieu_stable (a := b) (q := q) (A := |a| + 1) (Q := |q|) (ε := B * |b - a|) (y := z) (y' := z') (z := y) (z' := y')
    (e := fun t => (b - a) * y t) hz (fun t => ⟨(hy t).1, (hy t).2.congr_deriv (by ring)⟩) (by rw [z0, h0]) (by rw [z0', h0'])
    (fun t ht => by
      rw [abs_mul, mul_comm]
      exact mul_le_mul_of_nonneg_right (hB t ht) (abs_nonneg _)) (by
      have := abs_sub_abs_le_abs_sub b a
      linarith) le_rfl
  linarith

/-- the value of the determinant, odd squares included -/
theorem hill_value_all {k q : ℝ} (hk : ∀ n : ℤ, k ≠ 2 * n) {y1 y1' : ℝ → ℝ} (h1 : SolvesMathieu (k ^ 2) q y1 y1') (h10 : y1 0 = 1) (h10' : y1' 0 = 0) :
    hlDelta k q 0 * (1 - Complex.cos (π * k)) = 1 - y1 π := by
  by_cases hq : q = 0
  · subst hq
    have hd : hlDelta k 0 0 = 1 := by
      refine tendsto_nhds_unique (hill_tendsto k 0) ?_
      refine tendsto_const_nhds.congr' ?_
      filter_upwards [eventually_ge_atTop 1] with N hN
      rw [← c76_matrix hN, hill_static _ hN]
      simp
    have hy : y1 π = Real.cos (π * k) := by
      rw [(mathieu_unique h1 solves_static 0 (by simp [h10]) (by simp [h10']) π).1, mul_comm]
    rw [hd, hy]
    push_cast
    ring
  by_cases hi : ∀ n : ℤ, k ≠ n
  · exact hill_value hi hq h1 h10 h10'
  push Not at hi
  obtain ⟨n, hn⟩ := hi
  choose y y' hy hy0 hy0' using fun x : ℝ => mathieu_exists (x ^ 2) q 1 0
  have hl : Tendsto (fun x : ℝ => hlDelta x q 0 * (1 - Complex.cos (π * x))) (𝓝[≠] k) (𝓝 (hlDelta k q 0 * (1 - Complex.cos (π * k)))) := by
    have hc : ContinuousAt (fun x : ℝ => 1 - Complex.cos (π * x)) k := by fun_prop
    exact ((hlDelta_cont hk).mul hc).tendsto.mono_left nhdsWithin_le_nhds
  have hr : Tendsto (fun x : ℝ => (1 : ℂ) - (y x π : ℝ)) (𝓝[≠] k) (𝓝 (1 - (y1 π : ℝ))) := by
    obtain ⟨C, hC⟩ := value_cont (k ^ 2) q h1 h10 h10'
    have hsq : Tendsto (fun x : ℝ => |x ^ 2 - k ^ 2|) (𝓝[≠] k) (𝓝 0) := by
      have : ContinuousAt (fun x : ℝ => |x ^ 2 - k ^ 2|) k := by fun_prop
      have h := this.tendsto.mono_left (nhdsWithin_le_nhds (s := {k}ᶜ))
      simpa using h
    have : Tendsto (fun x : ℝ => y x π) (𝓝[≠] k) (𝓝 (y1 π)) := by
      rw [tendsto_iff_dist_tendsto_zero]
      have hsq2 := hsq.const_mul C
      rw [mul_zero] at hsq2
      refine squeeze_zero' (Eventually.of_forall fun _ => dist_nonneg) ?_ hsq2
      filter_upwards [hsq.eventually (eventually_le_nhds (zero_lt_one))] with x hx
      rw [Real.dist_eq]
      exact hC _ hx _ _ (hy x) (hy0 x) (hy0' x)
    exact tendsto_const_nhds.sub ((Complex.continuous_ofReal.tendsto _).comp this)
  refine tendsto_nhds_unique (hl.congr' ?_) hr
  have hU : Set.Ioo (k - 1) (k + 1) ∈ 𝓝[≠] k := mem_nhdsWithin_of_mem_nhds (Ioo_mem_nhds (by linarith) (by linarith))
  filter_upwards [hU, self_mem_nhdsWithin] with x hx hne
  refine hill_value (fun m hm => hne ?_) hq (hy x) (hy0 x) (hy0' x)
  have h1 : (n - 1 : ℝ) < m := by rw [← hn, ← hm]; exact hx.1
  have h2 : (m : ℝ) < n + 1 := by rw [← hn, ← hm]; exact hx.2
  have h3 : n - 1 < m := by exact_mod_cast h1
  have h4 : m < n + 1 := by exact_mod_cast h2
  rw [Set.mem_singleton_iff, hm, hn, show m = n by omega]

end Electrode
