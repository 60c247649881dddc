import Mathlib.Analysis.ODE.ExistUnique
import Mathlib.Analysis.Normed.Module.FiniteDimension

/-! Differential equations with a field of linear growth have exactly one solution for all times. -/
namespace Electrode
open Set Metric Filter Topology NNReal

variable {E : Type*} [NormedAddCommGroup E] [NormedSpace ℝ E] [CompleteSpace E]

theorem ode_unique_Ioo {v : ℝ → E → E} {K : ℝ≥0} (hv : ∀ t, LipschitzWith K (v t)) {a b t₀ : ℝ} (ht : t₀ ∈ Ioo a b) {f g : ℝ → E}
    (hf : ∀ t ∈ Ioo a b, HasDerivAt f (v t (f t)) t) (hg : ∀ t ∈ Ioo a b, HasDerivAt g (v t (g t)) t) (h : f t₀ = g t₀) :
    ∀ t ∈ Ioo a b, f t = g t :=
  ODE_solution_unique_of_mem_Ioo (s := fun _ => univ) (fun t _ => (hv t).lipschitzOnWith) ht (fun t h => ⟨hf t h, trivial⟩)
    (fun t h => ⟨hg t h, trivial⟩) h

theorem ode_unique {v : ℝ → E → E} {K : ℝ≥0} (hv : ∀ t, LipschitzWith K (v t)) {f g : ℝ → E}
    (hf : ∀ t, HasDerivAt f (v t (f t)) t) (hg : ∀ t, HasDerivAt g (v t (g t)) t) (t₀ : ℝ) (h : f t₀ = g t₀) : f = g := by
  ext t
  refine ode_unique_Ioo hv (a := min t t₀ - 1) (b := max t t₀ + 1) (t₀ := t₀) ⟨?_, ?_⟩ (fun t _ => hf t) (fun t _ => hg t) h t ⟨?_, ?_⟩
  · linarith [min_le_right t t₀]
  · linarith [le_max_right t t₀]
  · linarith [min_le_left t t₀]
  · linarith [le_max_left t t₀]

theorem ode_local {v : ℝ → E → E} {K : ℝ≥0} (hv : ∀ t, LipschitzWith K (v t)) (h0 : ∀ t, v t 0 = 0) (hc : ∀ x, Continuous fun t => v t x)
    (t₀ : ℝ) (x₀ : E) : ∃ α : ℝ → E, α t₀ = x₀ ∧
      ∀ t ∈ Ioo (t₀ - 1 / (2 * (K + 1))) (t₀ + 1 / (2 * (K + 1))), HasDerivAt α (v t (α t)) t := by
  obtain ⟨ε, hε⟩ : ∃ ε : ℝ, ε = 1 / (2 * (K + 1)) := ⟨_, rfl⟩
  have hε0 : 0 < ε := by rw [hε]; positivity
  rw [← hε]
  have hn : ∀ t x, ‖v t x‖ ≤ K * ‖x‖ := by
    intro t x
    have := (hv t).dist_le_mul x 0
    simpa [h0, dist_eq_norm] using this
  let t0 : Icc (t₀ - ε) (t₀ + ε) := ⟨t₀, by constructor <;> linarith⟩
  have hpl : IsPicardLindelof v t0 x₀ (‖x₀‖₊ + 1) 0 (K * (2 * ‖x₀‖₊ + 1)) K := by
    refine ⟨fun t _ => (hv t).lipschitzOnWith, fun x _ => (hc x).continuousOn, fun t _ x hx => ?_, ?_⟩
    · rw [mem_closedBall, dist_eq_norm] at hx
      have h1 : ‖x‖ ≤ ‖x - x₀‖ + ‖x₀‖ := by simpa using norm_add_le (x - x₀) x₀
      have h2 := hn t x
      push_cast at hx ⊢
      refine h2.trans (mul_le_mul_of_nonneg_left ?_ K.coe_nonneg)
      linarith
    · push_cast
      have e1 : t₀ + ε - t₀ = ε := by ring
      have e2 : t₀ - (t₀ - ε) = ε := by ring
      simp only [t0, e1, e2, max_self, sub_zero]
      rw [hε, mul_one_div, div_le_iff₀ (by positivity)]
      have hk := K.coe_nonneg
      have hx := norm_nonneg x₀
      nlinarith
  obtain ⟨α, h1, h2⟩ := hpl.exists_eq_forall_mem_Icc_hasDerivWithinAt₀
  exact ⟨α, h1, fun t ht => (h2 t (Ioo_subset_Icc_self ht)).hasDerivAt (Icc_mem_nhds ht.1 ht.2)⟩

theorem ode_extend {v : ℝ → E → E} {K : ℝ≥0} (hv : ∀ t, LipschitzWith K (v t)) (h0 : ∀ t, v t 0 = 0) (hc : ∀ x, Continuous fun t => v t x)
    (x₀ : E) (r : ℝ) (hr : 1 / (2 * ((K : ℝ) + 1)) ≤ r) (h : ∃ α : ℝ → E, α 0 = x₀ ∧ ∀ t ∈ Ioo (-r) r, HasDerivAt α (v t (α t)) t) :
    ∃ α : ℝ → E, α 0 = x₀ ∧ ∀ t ∈ Ioo (-(r + 1 / (2 * ((K : ℝ) + 1)) / 2)) (r + 1 / (2 * ((K : ℝ) + 1)) / 2), HasDerivAt α (v t (α t)) t := by
  obtain ⟨α, hα0, hα⟩ := h
  obtain ⟨ε, hε⟩ : ∃ ε : ℝ, ε = 1 / (2 * ((K : ℝ) + 1)) := ⟨_, rfl⟩
  have hε0 : 0 < ε := by rw [hε]; positivity
  obtain ⟨β, hβ0, hβ⟩ := ode_local hv h0 hc (r - ε / 2) (α (r - ε / 2))
  obtain ⟨γ, hγ0, hγ⟩ := ode_local hv h0 hc (-(r - ε / 2)) (α (-(r - ε / 2)))
  rw [← hε] at hr hβ hγ ⊢
  obtain ⟨t1, ht1⟩ : ∃ t1, t1 = r - ε / 2 := ⟨_, rfl⟩
  rw [← ht1] at hβ0 hβ hγ0 hγ
  have hβα : ∀ᶠ t in 𝓝 t1, β t = α t := by
    have : Ioo (t1 - ε / 4) (t1 + ε / 4) ∈ 𝓝 t1 := Ioo_mem_nhds (by linarith) (by linarith)
    filter_upwards [this] with t ht
    exact ode_unique_Ioo hv (a := t1 - ε / 4) (b := t1 + ε / 4) (t₀ := t1) ⟨by linarith, by linarith⟩
      (fun t h => hβ t ⟨by linarith [h.1], by linarith [h.2]⟩) (fun t h => hα t ⟨by linarith [h.1], by linarith [h.2]⟩) hβ0 t ht
  have hγα : ∀ᶠ t in 𝓝 (-t1), γ t = α t := by
    have : Ioo (-t1 - ε / 4) (-t1 + ε / 4) ∈ 𝓝 (-t1) := Ioo_mem_nhds (by linarith) (by linarith)
    filter_upwards [this] with t ht
    exact ode_unique_Ioo hv (a := -t1 - ε / 4) (b := -t1 + ε / 4) (t₀ := -t1) ⟨by linarith, by linarith⟩
      (fun t h => hγ t ⟨by linarith [h.1], by linarith [h.2]⟩) (fun t h => hα t ⟨by linarith [h.1], by linarith [h.2]⟩) hγ0 t ht
  let δ : ℝ → E := fun t => if t < -t1 then γ t else if t ≤ t1 then α t else β t
  have hkey : ∀ t ∈ Ioo (-(r + ε / 2)) (r + ε / 2), ∃ φ : ℝ → E, δ =ᶠ[𝓝 t] φ ∧ HasDerivAt φ (v t (φ t)) t := by
    intro t ht
    rcases lt_trichotomy t (-t1) with h | h | h
    · refine ⟨γ, ?_, hγ t ⟨by linarith [ht.1], by linarith⟩⟩
      filter_upwards [Iio_mem_nhds h] with s hs
      exact if_pos hs
    · refine ⟨α, ?_, hα t ⟨by linarith, by linarith⟩⟩
      subst h
      filter_upwards [hγα, Iio_mem_nhds (show -t1 < t1 by linarith)] with s hs hs2
      simp only [δ]
      split
      · exact hs
      · rw [if_pos (le_of_lt hs2)]
    · rcases lt_trichotomy t t1 with h' | h' | h'
      · refine ⟨α, ?_, hα t ⟨by linarith, by linarith⟩⟩
        filter_upwards [Iio_mem_nhds h', Ioi_mem_nhds h] with s hs hs2
        simp only [δ]
        rw [if_neg (not_lt.2 (le_of_lt hs2)), if_pos (le_of_lt hs)]
      · refine ⟨α, ?_, hα t ⟨by linarith, by linarith⟩⟩
        subst h'
        filter_upwards [hβα, Ioi_mem_nhds h] with s hs hs2
        simp only [δ]
        rw [if_neg (not_lt.2 (le_of_lt hs2))]
        split
        · rfl
        · exact hs
      · refine ⟨β, ?_, hβ t ⟨by linarith, by linarith [ht.2]⟩⟩
        filter_upwards [Ioi_mem_nhds h', Ioi_mem_nhds h] with s hs hs2
        simp only [δ]
        rw [if_neg (not_lt.2 (le_of_lt hs2)), if_neg (not_le.2 hs)]
  refine ⟨δ, ?_, fun t ht => ?_⟩
  · simp only [δ]
    rw [if_neg (by linarith), if_pos (by linarith), hα0]
  · obtain ⟨φ, h1, h2⟩ := hkey t ht
    rw [h1.eq_of_nhds]
    exact h2.congr_of_eventuallyEq h1

theorem ode_global {v : ℝ → E → E} {K : ℝ≥0} (hv : ∀ t, LipschitzWith K (v t)) (h0 : ∀ t, v t 0 = 0) (hc : ∀ x, Continuous fun t => v t x)
    (x₀ : E) : ∃ α : ℝ → E, α 0 = x₀ ∧ ∀ t, HasDerivAt α (v t (α t)) t := by
  obtain ⟨ε, hε⟩ : ∃ ε : ℝ, ε = 1 / (2 * ((K : ℝ) + 1)) := ⟨_, rfl⟩
  have hε0 : 0 < ε := by rw [hε]; positivity
  have hn : ∀ n : Nat, ∃ α : ℝ → E, α 0 = x₀ ∧ ∀ t ∈ Ioo (-(ε + n * (ε / 2))) (ε + n * (ε / 2)), HasDerivAt α (v t (α t)) t := by
    intro n
    induction n with
    | zero =>
      obtain ⟨α, h1, h2⟩ := ode_local hv h0 hc 0 x₀
      rw [← hε] at h2
      exact ⟨α, h1, fun t ht => h2 t (by simpa using ht)⟩
    | succ n ih =>
      have hge : 1 / (2 * ((K : ℝ) + 1)) ≤ ε + n * (ε / 2) := by rw [← hε]; have : (0 : ℝ) ≤ n := n.cast_nonneg; nlinarith
      obtain ⟨α, h1, h2⟩ := ode_extend hv h0 hc x₀ _ hge ih
      rw [← hε] at h2
      refine ⟨α, h1, fun t ht => h2 t ?_⟩
      push_cast at ht
      exact ⟨by linarith [ht.1], by linarith [ht.2]⟩
  choose α hα0 hα using hn
  have hmono : ∀ m n : Nat, m ≤ n → ∀ t ∈ Ioo (-(ε + m * (ε / 2))) (ε + m * (ε / 2)), α m t = α n t := by
    intro m n hmn
    have hmn' : (m : ℝ) ≤ n := by exact_mod_cast hmn
    have hm0 : (0 : ℝ) ≤ m := m.cast_nonneg
    refine ode_unique_Ioo hv (t₀ := 0) ⟨by nlinarith, by nlinarith⟩ (hα m) (fun t ht => hα n t ⟨by nlinarith [ht.1], by nlinarith [ht.2]⟩) ?_
    rw [hα0, hα0]
  let N : ℝ → Nat := fun t => ⌈|t| / (ε / 2)⌉₊
  have hN : ∀ t, t ∈ Ioo (-(ε + N t * (ε / 2))) (ε + N t * (ε / 2)) := by
    intro t
    have h1 : |t| / (ε / 2) ≤ N t := Nat.le_ceil _
    rw [div_le_iff₀ (by linarith)] at h1
    exact ⟨by linarith [neg_abs_le t], by linarith [le_abs_self t]⟩
  refine ⟨fun t => α (N t) t, hα0 _, fun t => ?_⟩
  obtain ⟨n, hn⟩ : ∃ n : Nat, n = ⌈(|t| + 1) / (ε / 2)⌉₊ := ⟨_, rfl⟩
  have hle : ∀ s, |s| ≤ |t| + 1 → N s ≤ n := by
    intro s hs
    rw [hn]
    exact Nat.ceil_mono (div_le_div_of_nonneg_right hs (by linarith))
  have hev : (fun s => α (N s) s) =ᶠ[𝓝 t] α n := by
    filter_upwards [Metric.ball_mem_nhds t one_pos] with s hs
    rw [Metric.mem_ball, Real.dist_eq] at hs
    refine hmono _ _ (hle s ?_) s (hN s)
    have := abs_add_le (s - t) t
    simp only [sub_add_cancel] at this
    linarith
  have ht : t ∈ Ioo (-(ε + n * (ε / 2))) (ε + n * (ε / 2)) := by
    have h1 := hN t
    have h2 : (N t : ℝ) ≤ n := by exact_mod_cast hle t (by linarith)
    exact ⟨by nlinarith [h1.1], by nlinarith [h1.2]⟩
  have := (hα n t ht).congr_of_eventuallyEq hev
  rw [← hev.eq_of_nhds] at this
  exact this

end Electrode
