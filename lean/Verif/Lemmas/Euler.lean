import Verif.Lemmas.Rotation
import Mathlib.Tactic.Linarith
import Mathlib.Tactic.Positivity
import Mathlib.Tactic.FieldSimp

/-
The round trip between Euler angles and matrices for the axes 0, 1, 2.
-/
namespace Electrode
open Spec

theorem trig_of_sq {y x r : ℝ} (hr : 0 < r) (h : x ^ 2 + y ^ 2 = r ^ 2) :
    Real.cos (atan2 y x) = x / r ∧ Real.sin (atan2 y x) = y / r := by
  have e : √(x ^ 2 + y ^ 2) = r := by rw [h, Real.sqrt_sq hr.le]
  rw [cos_atan2 y x (by rw [e]; exact hr), sin_atan2, e]
  exact ⟨rfl, rfl⟩

theorem eulerCore_false (x y z : ℝ) : eulerCore false 0 1 2 x y z =
    !![Real.cos y * Real.cos z, Real.sin y * (Real.sin x * Real.cos z) - Real.cos x * Real.sin z,
        Real.sin y * (Real.cos x * Real.cos z) + Real.sin x * Real.sin z;
      Real.cos y * Real.sin z, Real.sin y * (Real.sin x * Real.sin z) + Real.cos x * Real.cos z,
        Real.sin y * (Real.cos x * Real.sin z) - Real.sin x * Real.cos z;
      -Real.sin y, Real.cos y * Real.sin x, Real.cos y * Real.cos x] := by
  ext a b
  fin_cases a <;> fin_cases b <;> rfl

theorem eulerCore_true (x y z : ℝ) : eulerCore true 0 1 2 x y z =
    !![Real.cos y, Real.sin y * Real.sin x, Real.sin y * Real.cos x;
      Real.sin y * Real.sin z, -Real.cos y * (Real.sin x * Real.sin z) + Real.cos x * Real.cos z,
        -Real.cos y * (Real.cos x * Real.sin z) - Real.sin x * Real.cos z;
      -Real.sin y * Real.cos z, Real.cos y * (Real.sin x * Real.cos z) + Real.cos x * Real.sin z,
        Real.cos y * (Real.cos x * Real.cos z) - Real.sin x * Real.sin z] := by
  ext a b
  fin_cases a <;> fin_cases b <;> rfl

/-- how far the middle rotation is from degenerate -/
noncomputable def gap (rep : Bool) (N : Matrix (Fin 3) (Fin 3) ℝ) : ℝ :=
  if rep then √(N 0 1 * N 0 1 + N 0 2 * N 0 2) else √(N 0 0 * N 0 0 + N 1 0 * N 1 0)

theorem core_exact_false {N : Matrix (Fin 3) (Fin 3) ℝ} (hN : IsRotation N) (hg : tEps < gap false N) :
    eulerCore false 0 1 2 (eulerFromCore false 0 1 2 N).1 (eulerFromCore false 0 1 2 N).2.1 (eulerFromCore false 0 1 2 N).2.2 = N := by
  obtain ⟨⟨c00, c01, c02⟩, ⟨c10, c11, c12⟩, c20, c21, c22⟩ := rot_cofactors hN
  have r2 := rot_rows hN 2 2
  have k0 := rot_cols hN 0 0
  simp only [if_true] at r2 k0
  have hpos : 0 < tEps := by unfold tEps; positivity
  simp only [gap, Bool.false_eq_true, if_false] at hg
  set g := √(N 0 0 * N 0 0 + N 1 0 * N 1 0) with hgdef
  have g0 : 0 < g := hpos.trans hg
  have gsq : g ^ 2 = N 0 0 * N 0 0 + N 1 0 * N 1 0 := Real.sq_sqrt (add_nonneg (mul_self_nonneg _) (mul_self_nonneg _))
  have e : eulerFromCore false 0 1 2 N = (atan2 (N 2 1) (N 2 2), atan2 (-N 2 0) g, atan2 (N 1 0) (N 0 0)) := by
    simp only [eulerFromCore, Bool.false_eq_true, if_false]
    rw [← hgdef, if_pos hg]
  obtain ⟨cx, sx⟩ := trig_of_sq (y := N 2 1) (x := N 2 2) g0 (by rw [gsq]; linear_combination r2 - k0)
  obtain ⟨cz, sz⟩ := trig_of_sq (y := N 1 0) (x := N 0 0) g0 (by rw [gsq]; ring)
  obtain ⟨cy, sy⟩ := trig_of_sq (y := -N 2 0) (x := g) one_pos (by rw [gsq]; linear_combination k0)
  rw [e]
  simp only
  rw [eulerCore_false, cx, sx, cz, sz, cy, sy]
  have hne : g ≠ 0 := g0.ne'
  have gs' : g ^ 2 = 1 - N 2 0 * N 2 0 := by rw [gsq]; linear_combination k0
  ext a b
  fin_cases a <;> fin_cases b <;> simp
  · field_simp
  · field_simp
    rw [gs']
    linear_combination (-1 : ℝ) * c01 - N 2 0 * c12
  · field_simp
    rw [gs']
    linear_combination (-1 : ℝ) * c02 + N 2 0 * c11
  · field_simp
  · field_simp
    rw [gs']
    linear_combination (-1 : ℝ) * c11 + N 2 0 * c02
  · field_simp
    rw [gs']
    linear_combination (-1 : ℝ) * c12 - N 2 0 * c01
  · field_simp
  · field_simp

theorem core_exact_true {N : Matrix (Fin 3) (Fin 3) ℝ} (hN : IsRotation N) (hg : tEps < gap true N) :
    eulerCore true 0 1 2 (eulerFromCore true 0 1 2 N).1 (eulerFromCore true 0 1 2 N).2.1 (eulerFromCore true 0 1 2 N).2.2 = N := by
  obtain ⟨⟨c00, c01, c02⟩, ⟨c10, c11, c12⟩, c20, c21, c22⟩ := rot_cofactors hN
  have r0 := rot_rows hN 0 0
  have k0 := rot_cols hN 0 0
  simp only [if_true] at r0 k0
  have hpos : 0 < tEps := by unfold tEps; positivity
  simp only [gap, if_true] at hg
  set g := √(N 0 1 * N 0 1 + N 0 2 * N 0 2) with hgdef
  have g0 : 0 < g := hpos.trans hg
  have gsq : g ^ 2 = N 0 1 * N 0 1 + N 0 2 * N 0 2 := Real.sq_sqrt (add_nonneg (mul_self_nonneg _) (mul_self_nonneg _))
  have e : eulerFromCore true 0 1 2 N = (atan2 (N 0 1) (N 0 2), atan2 g (N 0 0), atan2 (N 1 0) (-N 2 0)) := by
    simp only [eulerFromCore, if_true]
    rw [← hgdef, if_pos hg]
  obtain ⟨cx, sx⟩ := trig_of_sq (y := N 0 1) (x := N 0 2) g0 (by rw [gsq]; ring)
  obtain ⟨cz, sz⟩ := trig_of_sq (y := N 1 0) (x := -N 2 0) g0 (by rw [gsq]; linear_combination k0 - r0)
  obtain ⟨cy, sy⟩ := trig_of_sq (y := g) (x := N 0 0) one_pos (by rw [gsq]; linear_combination r0)
  rw [e]
  simp only
  rw [eulerCore_true, cx, sx, cz, sz, cy, sy]
  have hne : g ≠ 0 := g0.ne'
  have gs' : g ^ 2 = 1 - N 0 0 * N 0 0 := by rw [gsq]; linear_combination r0
  ext a b
  fin_cases a <;> fin_cases b <;> simp
  · field_simp
  · field_simp
  · field_simp
  · field_simp
    rw [gs']
    linear_combination (-1 : ℝ) * c11 - N 0 0 * c22
  · field_simp
    rw [gs']
    linear_combination (-1 : ℝ) * c12 + N 0 0 * c21
  · field_simp
  · field_simp
    rw [gs']
    linear_combination (-1 : ℝ) * c21 + N 0 0 * c12
  · field_simp
    rw [gs']
    linear_combination (-1 : ℝ) * c22 - N 0 0 * c11

/-- rounding of the angle in the degenerate case -/
theorem degen_trig {N : Matrix (Fin 3) (Fin 3) ℝ} (hN : IsRotation N) {g : ℝ} (hg : |N 1 0| ≤ g) (h1 : g < 1) :
    let x := atan2 (-N 1 2) (N 1 1)
    |Real.cos x - N 1 1| ≤ g ^ 2 ∧ |Real.sin x + N 1 2| ≤ g ^ 2 := by
  have r1 := rot_rows hN 1 1
  simp only [if_true] at r1
  have ha : (N 1 0) ^ 2 ≤ g ^ 2 := by rw [← sq_abs]; exact pow_le_pow_left₀ (abs_nonneg _) hg 2
  have g0 : 0 ≤ g := (abs_nonneg _).trans hg
  have hsq : 0 < N 1 1 ^ 2 + (-N 1 2) ^ 2 := by nlinarith
  set h := √(N 1 1 ^ 2 + (-N 1 2) ^ 2) with hh
  have h0 : 0 < h := Real.sqrt_pos.2 hsq
  have hsq' : h ^ 2 = N 1 1 ^ 2 + (-N 1 2) ^ 2 := Real.sq_sqrt hsq.le
  obtain ⟨c, s⟩ := trig_of_sq (y := -N 1 2) (x := N 1 1) h0 hsq'.symm
  have hle : h ≤ 1 := by nlinarith [sq_nonneg (N 1 0)]
  have hdef : 1 - h ≤ g ^ 2 := by nlinarith
  have key : ∀ u : ℝ, |u| ≤ h → |u / h - u| ≤ g ^ 2 := by
    intro u hu
    have : u / h - u = u / h * (1 - h) := by field_simp
    rw [this, abs_mul, abs_div, abs_of_pos h0, abs_of_nonneg (sub_nonneg.2 hle)]
    have : |u| / h ≤ 1 := (div_le_one h0).2 hu
    nlinarith [div_nonneg (abs_nonneg u) h0.le]
  have b1 : |N 1 1| ≤ h := by rw [hh]; exact Real.abs_le_sqrt (by nlinarith)
  have b2 : |-N 1 2| ≤ h := by rw [hh]; exact Real.abs_le_sqrt (by nlinarith)
  intro x
  refine ⟨by rw [c]; exact key _ b1, ?_⟩
  rw [s]
  have := key _ b2
  rwa [sub_neg_eq_add] at this

theorem small_sub {u v g : ℝ} (hu : |u| ≤ g) (hv : |v| ≤ g) : |u - v| ≤ 2 * g := by
  have h1 := abs_le.1 hu
  have h2 := abs_le.1 hv
  exact abs_le.2 ⟨by linarith, by linarith⟩

theorem small_mul {u v e : ℝ} (hu : |u| ≤ 1) (hv : |v| ≤ e) : |u * v| ≤ e := by
  rw [abs_mul]
  nlinarith [abs_nonneg u, abs_nonneg v]

theorem core_close_false {N : Matrix (Fin 3) (Fin 3) ℝ} (hN : IsRotation N) (hg : gap false N ≤ tEps) (a b : Fin 3) :
    |eulerCore false 0 1 2 (eulerFromCore false 0 1 2 N).1 (eulerFromCore false 0 1 2 N).2.1 (eulerFromCore false 0 1 2 N).2.2 a b - N a b|
      ≤ 2 * gap false N := by
  obtain ⟨⟨c00, c01, c02⟩, ⟨c10, c11, c12⟩, c20, c21, c22⟩ := rot_cofactors hN
  have r2 := rot_rows hN 2 2
  have k0 := rot_cols hN 0 0
  simp only [if_true] at r2 k0
  have hE : tEps < 1 := by unfold tEps; norm_num
  simp only [gap, Bool.false_eq_true, if_false] at hg ⊢
  set g := √(N 0 0 * N 0 0 + N 1 0 * N 1 0) with hgdef
  have g0 : 0 ≤ g := Real.sqrt_nonneg _
  have g1 : g < 1 := hg.trans_lt hE
  have gsq : g ^ 2 = N 0 0 * N 0 0 + N 1 0 * N 1 0 := Real.sq_sqrt (add_nonneg (mul_self_nonneg _) (mul_self_nonneg _))
  have gg : g ^ 2 ≤ g := by nlinarith
  have e : eulerFromCore false 0 1 2 N = (atan2 (-N 1 2) (N 1 1), atan2 (-N 2 0) g, 0) := by
    simp only [eulerFromCore, Bool.false_eq_true, if_false]
    rw [← hgdef, if_neg (not_lt.2 hg)]
  have b00 : |N 0 0| ≤ g := Real.abs_le_sqrt (by nlinarith)
  have b10 : |N 1 0| ≤ g := Real.abs_le_sqrt (by nlinarith)
  have gsq2 : g ^ 2 = N 2 1 * N 2 1 + N 2 2 * N 2 2 := by rw [gsq]; linear_combination k0 - r2
  have b21 : |N 2 1| ≤ g := abs_le_of_sq_le_sq (by nlinarith) g0
  have b22 : |N 2 2| ≤ g := abs_le_of_sq_le_sq (by nlinarith) g0
  have b20 : |N 2 0| ≤ 1 := abs_le_of_sq_le_sq (by nlinarith) zero_le_one
  obtain ⟨cy, sy⟩ := trig_of_sq (y := -N 2 0) (x := g) one_pos (by rw [gsq]; linear_combination k0)
  obtain ⟨dx, ds⟩ := degen_trig hN b10 g1
  rw [e]
  simp only
  rw [eulerCore_false, cy, sy, Real.sin_zero, Real.cos_zero]
  set cx := Real.cos (atan2 (-N 1 2) (N 1 1))
  set sx := Real.sin (atan2 (-N 1 2) (N 1 1))
  have hcx : |cx| ≤ 1 := Real.abs_cos_le_one _
  have hsx : |sx| ≤ 1 := Real.abs_sin_le_one _
  have tri : ∀ u v : ℝ, |u| ≤ g → |v| ≤ g → |u - v| ≤ 2 * g := fun u v => small_sub
  have pr : ∀ u v : ℝ, |u| ≤ 1 → |v| ≤ g ^ 2 → |u * v| ≤ g := fun u v hu hv => (small_mul hu hv).trans gg
  have pg : ∀ u v : ℝ, |u| ≤ g → |v| ≤ 1 → |u * v| ≤ g := fun u v hu hv => by rw [mul_comm]; exact small_mul hv hu
  have hgg : |g| ≤ g := by rw [abs_of_nonneg g0]
  have pp : ∀ u v : ℝ, |u| ≤ g → |v| ≤ g → |u * v| ≤ g := fun u v hu hv => pg u v hu (hv.trans g1.le)
  fin_cases a <;> fin_cases b <;> simp
  · exact tri _ _ hgg b00
  · have : -(N 2 0 * sx) - N 0 1 = -(N 2 0) * (sx + N 1 2) - -(N 1 0 * N 2 2) := by linear_combination (-1 : ℝ) * c01
    rw [this]
    exact tri _ _ (pr _ _ (by rw [abs_neg]; exact b20) ds) (by rw [abs_neg]; exact pp _ _ b10 b22)
  · have : -(N 2 0 * cx) - N 0 2 = -(N 2 0) * (cx - N 1 1) - N 1 0 * N 2 1 := by linear_combination (-1 : ℝ) * c02
    rw [this]
    exact tri _ _ (pr _ _ (by rw [abs_neg]; exact b20) dx) (pp _ _ b10 b21)
  · linarith
  · linarith
  · rw [abs_sub_comm, sub_neg_eq_add, add_comm]; linarith
  · linarith
  · exact tri _ _ (pg _ _ hgg hsx) b21
  · exact tri _ _ (pg _ _ hgg hcx) b22

theorem core_close_true {N : Matrix (Fin 3) (Fin 3) ℝ} (hN : IsRotation N) (hg : gap true N ≤ tEps) (a b : Fin 3) :
    |eulerCore true 0 1 2 (eulerFromCore true 0 1 2 N).1 (eulerFromCore true 0 1 2 N).2.1 (eulerFromCore true 0 1 2 N).2.2 a b - N a b|
      ≤ 2 * gap true N := by
  obtain ⟨⟨c00, c01, c02⟩, ⟨c10, c11, c12⟩, c20, c21, c22⟩ := rot_cofactors hN
  have r0 := rot_rows hN 0 0
  have k0 := rot_cols hN 0 0
  simp only [if_true] at r0 k0
  have hE : tEps < 1 := by unfold tEps; norm_num
  simp only [gap, if_true] at hg ⊢
  set g := √(N 0 1 * N 0 1 + N 0 2 * N 0 2) with hgdef
  have g0 : 0 ≤ g := Real.sqrt_nonneg _
  have g1 : g < 1 := hg.trans_lt hE
  have gsq : g ^ 2 = N 0 1 * N 0 1 + N 0 2 * N 0 2 := Real.sq_sqrt (add_nonneg (mul_self_nonneg _) (mul_self_nonneg _))
  have gg : g ^ 2 ≤ g := by nlinarith
  have e : eulerFromCore true 0 1 2 N = (atan2 (-N 1 2) (N 1 1), atan2 g (N 0 0), 0) := by
    simp only [eulerFromCore, if_true]
    rw [← hgdef, if_neg (not_lt.2 hg)]
  have gsq2 : g ^ 2 = N 1 0 * N 1 0 + N 2 0 * N 2 0 := by rw [gsq]; linear_combination r0 - k0
  have b01 : |N 0 1| ≤ g := abs_le_of_sq_le_sq (by nlinarith) g0
  have b02 : |N 0 2| ≤ g := abs_le_of_sq_le_sq (by nlinarith) g0
  have b10 : |N 1 0| ≤ g := abs_le_of_sq_le_sq (by nlinarith) g0
  have b20 : |N 2 0| ≤ g := abs_le_of_sq_le_sq (by nlinarith) g0
  have b00 : |N 0 0| ≤ 1 := abs_le_of_sq_le_sq (by nlinarith) zero_le_one
  obtain ⟨cy, sy⟩ := trig_of_sq (y := g) (x := N 0 0) one_pos (by rw [gsq]; linear_combination r0)
  obtain ⟨dx, ds⟩ := degen_trig hN b10 g1
  rw [e]
  simp only
  rw [eulerCore_true, cy, sy, Real.sin_zero, Real.cos_zero]
  set cx := Real.cos (atan2 (-N 1 2) (N 1 1))
  set sx := Real.sin (atan2 (-N 1 2) (N 1 1))
  have hcx : |cx| ≤ 1 := Real.abs_cos_le_one _
  have hsx : |sx| ≤ 1 := Real.abs_sin_le_one _
  have tri : ∀ u v : ℝ, |u| ≤ g → |v| ≤ g → |u - v| ≤ 2 * g := fun u v => small_sub
  have pr : ∀ u v : ℝ, |u| ≤ 1 → |v| ≤ g ^ 2 → |u * v| ≤ g := fun u v hu hv => (small_mul hu hv).trans gg
  have pg : ∀ u v : ℝ, |u| ≤ g → |v| ≤ 1 → |u * v| ≤ g := fun u v hu hv => by rw [mul_comm]; exact small_mul hv hu
  have hgg : |g| ≤ g := by rw [abs_of_nonneg g0]
  have pp : ∀ u v : ℝ, |u| ≤ g → |v| ≤ g → |u * v| ≤ g := fun u v hu hv => pg u v hu (hv.trans g1.le)
  fin_cases a <;> fin_cases b <;> simp
  · exact g0
  · exact tri _ _ (pg _ _ hgg hsx) b01
  · exact tri _ _ (pg _ _ hgg hcx) b02
  · linarith
  · linarith
  · rw [abs_sub_comm, sub_neg_eq_add, add_comm]; linarith
  · exact tri _ _ (by rw [abs_neg]; exact hgg) b20
  · have : N 0 0 * sx - N 2 1 = N 0 0 * (sx + N 1 2) - N 0 2 * N 1 0 := by linear_combination (-1 : ℝ) * c21
    rw [this]
    exact tri _ _ (pr _ _ b00 ds) (pp _ _ b02 b10)
  · have : N 0 0 * cx - N 2 2 = N 0 0 * (cx - N 1 1) - -(N 0 1 * N 1 0) := by linear_combination (-1 : ℝ) * c22
    rw [this]
    exact tri _ _ (pr _ _ b00 dx) (by rw [abs_neg]; exact pp _ _ b01 b10)

end Electrode
