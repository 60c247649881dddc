import Verif.Props.Project
import Verif.Props.Euler

/-! C100: the matrix of a crystal cell.  C101: composing and decomposing transformations. -/

namespace Electrode

open Matrix Spec

/-! ### Cells -/

/-- C100: the columns of the matrix are the edges of the cell: they have the given lengths and stand at the given angles (in degrees; alpha lies
between b and c, beta between a and c, gamma between a and b). -/
theorem c100_cell {lengths angles : Fin 3 → ℝ} {M : Matrix (Fin 4) (Fin 4) ℝ} (h : orthogonalizationMatrix lengths angles = .ok M)
    (ha : Real.sin (angles 0 * (Real.pi / 180)) ≠ 0) (hb : Real.sin (angles 1 * (Real.pi / 180)) ≠ 0) :
    let col : Fin 3 → Fin 3 → ℝ := fun j i => M i.castSucc j.castSucc
    IsAffine M ∧ (∀ i : Fin 3, M i.castSucc 3 = 0) ∧ (∀ j, dot3 (col j) (col j) = lengths j ^ 2) ∧
      dot3 (col 1) (col 2) = lengths 1 * lengths 2 * Real.cos (angles 0 * (Real.pi / 180)) ∧
      dot3 (col 0) (col 2) = lengths 0 * lengths 2 * Real.cos (angles 1 * (Real.pi / 180)) ∧
      dot3 (col 0) (col 1) = lengths 0 * lengths 1 * Real.cos (angles 2 * (Real.pi / 180)) := by
  simp only [orthogonalizationMatrix] at h
  split at h
  · cases h
  rename_i hn
  simp only [radians] at h hn
  obtain rfl := Except.ok.inj h
  clear h
  have s0 := Real.sin_sq_add_cos_sq (angles 0 * (Real.pi / 180))
  have s1 := Real.sin_sq_add_cos_sq (angles 1 * (Real.pi / 180))
  generalize Real.sin (angles 0 * (Real.pi / 180)) = sa at *
  generalize Real.sin (angles 1 * (Real.pi / 180)) = sb at *
  generalize Real.cos (angles 0 * (Real.pi / 180)) = ca at *
  generalize Real.cos (angles 1 * (Real.pi / 180)) = cb at *
  generalize Real.cos (angles 2 * (Real.pi / 180)) = cg at *
  have hco : (ca * cb - cg) / (sa * sb) * (sa * sb) = ca * cb - cg := div_mul_cancel₀ _ (mul_ne_zero ha hb)
  generalize (ca * cb - cg) / (sa * sb) = co at *
  have hq : √(1 - co * co) * √(1 - co * co) = 1 - co * co := Real.mul_self_sqrt (not_lt.1 hn)
  generalize √(1 - co * co) = q at *
  refine ⟨⟨fun b => by fin_cases b <;> simp, by simp⟩, fun i => by fin_cases i <;> simp, fun j => ?_, ?_, ?_, ?_⟩
  · fin_cases j <;> simp [dot3]
    · linear_combination (lengths 0 ^ 2 * sb ^ 2) * hq + lengths 0 ^ 2 * s1
    · linear_combination (lengths 1 ^ 2) * s0
    · ring
  · simp [dot3]; ring
  · simp [dot3]; ring
  · simp [dot3]
    linear_combination (-lengths 0 * lengths 1) * hco

/-- C100: a cell is refused exactly if there are no three directions with the given mutual angles. -/
theorem c100_defined (lengths angles : Fin 3 → ℝ)
    (ha : Real.sin (angles 0 * (Real.pi / 180)) ≠ 0) (hb : Real.sin (angles 1 * (Real.pi / 180)) ≠ 0) :
    (∃ M, orthogonalizationMatrix lengths angles = .ok M) ↔ ∃ u v w : Fin 3 → ℝ, dot3 u u = 1 ∧ dot3 v v = 1 ∧ dot3 w w = 1 ∧
      dot3 v w = Real.cos (angles 0 * (Real.pi / 180)) ∧ dot3 u w = Real.cos (angles 1 * (Real.pi / 180)) ∧
      dot3 u v = Real.cos (angles 2 * (Real.pi / 180)) := by
  constructor
  · rintro ⟨M, h⟩
    have h' : ∃ M, orthogonalizationMatrix 1 angles = .ok M := by
      simp only [orthogonalizationMatrix] at h ⊢
      split at h
      · cases h
      · rename_i hn
        rw [if_neg hn]
        exact ⟨_, rfl⟩
    obtain ⟨N, hN⟩ := h'
    obtain ⟨-, -, h1, h2, h3, h4⟩ := c100_cell hN ha hb
    simp only [Pi.one_apply, one_pow, one_mul] at h1 h2 h3 h4
    exact ⟨_, _, _, h1 0, h1 1, h1 2, h2, h3, h4⟩
  · rintro ⟨u, v, w, u1, v1, w1, h1, h2, h3⟩
    simp only [orthogonalizationMatrix]
    rw [if_neg]
    · exact ⟨_, rfl⟩
    simp only [radians]
    have s0 := Real.sin_sq_add_cos_sq (angles 0 * (Real.pi / 180))
    have s1 := Real.sin_sq_add_cos_sq (angles 1 * (Real.pi / 180))
    rw [← h1, ← h2, ← h3, not_lt]
    rw [← h1] at s0
    rw [← h2] at s1
    generalize Real.sin (angles 0 * (Real.pi / 180)) = sa at *
    generalize Real.sin (angles 1 * (Real.pi / 180)) = sb at *
    have hp : 0 < (sa * sb) ^ 2 := by positivity
    have cs : (dot3 v w * dot3 u w - dot3 u v) ^ 2 ≤ (sa * sb) ^ 2 := by
      have e : (sa * sb) ^ 2 = (1 - dot3 v w ^ 2) * (1 - dot3 u w ^ 2) := by linear_combination (sb ^ 2) * s0 + (1 - dot3 v w ^ 2) * s1
      rw [e]
      -- Lagrange's identity for the parts orthogonal to w
      have lag : ∀ p q : Fin 3 → ℝ, dot3 p q ^ 2 ≤ dot3 p p * dot3 q q := by
        intro p q
        simp only [dot3]
        nlinarith [sq_nonneg (p 0 * q 1 - p 1 * q 0), sq_nonneg (p 0 * q 2 - p 2 * q 0), sq_nonneg (p 1 * q 2 - p 2 * q 1)]
      have := lag (v - dot3 v w • w) (u - dot3 u w • w)
      have e1 : dot3 (v - dot3 v w • w) (u - dot3 u w • w) = dot3 u v - dot3 v w * dot3 u w := by
        have : dot3 (v - dot3 v w • w) (u - dot3 u w • w) = dot3 u v - 2 * (dot3 v w * dot3 u w) + dot3 v w * dot3 u w * dot3 w w := by
          simp only [dot3, Pi.sub_apply, Pi.smul_apply, smul_eq_mul]; ring
        rw [this, w1]; ring
      have e2 : ∀ z, dot3 (z - dot3 z w • w) (z - dot3 z w • w) = dot3 z z - dot3 z w ^ 2 := by
        intro z
        have : dot3 (z - dot3 z w • w) (z - dot3 z w • w) = dot3 z z - 2 * dot3 z w ^ 2 + dot3 z w ^ 2 * dot3 w w := by
          simp only [dot3, Pi.sub_apply, Pi.smul_apply, smul_eq_mul]; ring
        rw [this, w1]; ring
      rw [e1, e2, e2, u1, v1] at this
      linarith [this, sq_nonneg (dot3 u v - dot3 v w * dot3 u w)]
    rw [sub_nonneg, ← pow_two, div_pow, div_le_one hp]
    exact cs

/-- C100: the volume of the cell -/
theorem c100_volume {lengths angles : Fin 3 → ℝ} {M : Matrix (Fin 4) (Fin 4) ℝ} (h : orthogonalizationMatrix lengths angles = .ok M)
    (hl : ∀ i, 0 < lengths i) (ha : 0 < Real.sin (angles 0 * (Real.pi / 180))) (hb : 0 < Real.sin (angles 1 * (Real.pi / 180))) : 0 ≤ M.det ∧
    M.det ^ 2 = (lengths 0 * lengths 1 * lengths 2) ^ 2 * (1 - Real.cos (angles 0 * (Real.pi / 180)) ^ 2
      - Real.cos (angles 1 * (Real.pi / 180)) ^ 2 - Real.cos (angles 2 * (Real.pi / 180)) ^ 2
      + 2 * Real.cos (angles 0 * (Real.pi / 180)) * Real.cos (angles 1 * (Real.pi / 180)) * Real.cos (angles 2 * (Real.pi / 180))) := by
  simp only [orthogonalizationMatrix] at h
  split at h
  · cases h
  rename_i hn
  simp only [radians] at h hn
  obtain rfl := Except.ok.inj h
  clear h
  have s0 := Real.sin_sq_add_cos_sq (angles 0 * (Real.pi / 180))
  have s1 := Real.sin_sq_add_cos_sq (angles 1 * (Real.pi / 180))
  generalize Real.sin (angles 0 * (Real.pi / 180)) = sa at *
  generalize Real.sin (angles 1 * (Real.pi / 180)) = sb at *
  generalize Real.cos (angles 0 * (Real.pi / 180)) = ca at *
  generalize Real.cos (angles 1 * (Real.pi / 180)) = cb at *
  generalize Real.cos (angles 2 * (Real.pi / 180)) = cg at *
  have hco : (ca * cb - cg) / (sa * sb) * (sa * sb) = ca * cb - cg := div_mul_cancel₀ _ (mul_pos ha hb).ne'
  generalize (ca * cb - cg) / (sa * sb) = co at *
  have hq : √(1 - co * co) * √(1 - co * co) = 1 - co * co := Real.mul_self_sqrt (not_lt.1 hn)
  have hq0 : 0 ≤ √(1 - co * co) := Real.sqrt_nonneg _
  generalize √(1 - co * co) = q at *
  have l0 := hl 0
  have l1 := hl 1
  have l2 := hl 2
  have e : (!![lengths 0 * sb * q, 0, 0, 0; -lengths 0 * sb * co, lengths 1 * sa, 0, 0; lengths 0 * cb, lengths 1 * ca, lengths 2, 0; 0, 0, 0, 1] :
      Matrix (Fin 4) (Fin 4) ℝ).det = lengths 0 * sb * q * (lengths 1 * sa) * lengths 2 := by
    simp [Matrix.det_succ_row_zero, Fin.sum_univ_succ]
    ring
  rw [e]
  refine ⟨by positivity, ?_⟩
  have : (lengths 0 * sb * q * (lengths 1 * sa) * lengths 2) ^ 2
      = (lengths 0 * lengths 1 * lengths 2) ^ 2 * ((sa * sb) ^ 2 - (co * (sa * sb)) ^ 2) := by
    linear_combination ((lengths 0 * sb * (lengths 1 * sa) * lengths 2) ^ 2) * hq
  rw [this, hco]
  have e2 : (sa * sb) ^ 2 = (1 - ca ^ 2) * (1 - cb ^ 2) := by linear_combination (sb ^ 2) * s0 + (1 - ca ^ 2) * s1
  rw [e2]; ring

-- a cube
example : ∃ M, orthogonalizationMatrix ![1, 2, 3] ![90, 90, 90] = .ok M ∧ Real.sin (90 * (Real.pi / 180)) ≠ 0 := by
  have e : (90 : ℝ) * (Real.pi / 180) = Real.pi / 2 := by ring
  have hs : Real.sin (90 * (Real.pi / 180)) ≠ 0 := by rw [e, Real.sin_pi_div_two]; norm_num
  obtain ⟨M, hM⟩ := (c100_defined ![1, 2, 3] ![90, 90, 90] hs hs).2
    ⟨![1, 0, 0], ![0, 1, 0], ![0, 0, 1], by simp [dot3], by simp [dot3], by simp [dot3], by simp [dot3, e], by simp [dot3, e], by simp [dot3, e]⟩
  exact ⟨M, hM, hs⟩

/-! ### Composition -/

/-- the angles that `decompose_matrix` reads off give back the rotation -/
theorem rowAngles_core {N : Matrix (Fin 3) (Fin 3) ℝ} (hN : IsRotation N) (row : Fin 3 → Fin 3 → ℝ) (hr : ∀ i j, row i j = N j i) :
    eulerCore false 0 1 2 (rowAngles row 0) (rowAngles row 1) (rowAngles row 2) = N := by
  obtain ⟨⟨c00, c01, c02⟩, ⟨c10, c11, c12⟩, c20, c21, c22⟩ := rot_cofactors hN
  have r2 := rot_rows hN 2 2
  have r1 := rot_rows hN 1 1
  have k0 := rot_cols hN 0 0
  simp only [if_true] at r2 r1 k0
  have sy : Real.sin (Real.arcsin (-N 2 0)) = -N 2 0 := by
    apply Real.sin_arcsin <;> nlinarith [sq_nonneg (N 0 0), sq_nonneg (N 1 0)]
  have cy0 : 0 ≤ Real.cos (Real.arcsin (-N 2 0)) := Real.cos_arcsin_nonneg _
  have cysq : Real.cos (Real.arcsin (-N 2 0)) ^ 2 = N 0 0 * N 0 0 + N 1 0 * N 1 0 := by
    have := Real.sin_sq_add_cos_sq (Real.arcsin (-N 2 0))
    rw [sy] at this
    linear_combination this - k0
  simp only [rowAngles, hr]
  by_cases hc : Real.cos (Real.arcsin (-N 2 0)) ≠ 0
  · rw [if_pos hc]
    set g := Real.cos (Real.arcsin (-N 2 0)) with hg
    have g0 : 0 < g := lt_of_le_of_ne cy0 (Ne.symm hc)
    obtain ⟨cx, sx⟩ := trig_of_sq (y := N 2 1) (x := N 2 2) g0 (by rw [cysq]; linear_combination r2 - k0)
    obtain ⟨cz, sz⟩ := trig_of_sq (y := N 1 0) (x := N 0 0) g0 (by rw [cysq]; ring)
    simp only [Matrix.cons_val_zero, Matrix.cons_val_one, Matrix.cons_val]
    rw [eulerCore_false, cx, sx, cz, sz, sy, ← hg]
    have gs' : g ^ 2 = 1 - N 2 0 * N 2 0 := by rw [cysq]; linear_combination k0
    ext a b
    fin_cases a <;> fin_cases b <;> simp
    · field_simp
    · field_simp
      rw [gs']
      linear_combination (-1 : ℝ) * c01 - N 2 0 * c12
    · field_simp
      rw [gs']
      linear_combination (-1 : ℝ) * c02 + N 2 0 * c11
    · field_simp
    · field_simp
      rw [gs']
      linear_combination (-1 : ℝ) * c11 + N 2 0 * c02
    · field_simp
      rw [gs']
      linear_combination (-1 : ℝ) * c12 - N 2 0 * c01
    · field_simp
    · field_simp
  · rw [if_neg hc]
    push Not at hc
    rw [hc] at cysq
    have two : ∀ {a b : ℝ}, a * a + b * b = 0 → a = 0 ∧ b = 0 := by
      intro a b h
      obtain ⟨h1, h2⟩ := (add_eq_zero_iff_of_nonneg (mul_self_nonneg a) (mul_self_nonneg b)).1 h
      exact ⟨mul_self_eq_zero.1 h1, mul_self_eq_zero.1 h2⟩
    obtain ⟨n00, n10⟩ := two (a := N 0 0) (b := N 1 0) (by rw [← cysq]; ring)
    have n20 : N 2 0 * N 2 0 = 1 := by rw [n00, n10] at k0; linarith
    obtain ⟨n21, n22⟩ := two (a := N 2 1) (b := N 2 2) (by linarith)
    obtain ⟨cx, sx⟩ := trig_of_sq (y := -N 1 2) (x := N 1 1) one_pos (by rw [n10] at r1; linear_combination r1)
    simp only [Matrix.cons_val_zero, Matrix.cons_val_one, Matrix.cons_val]
    rw [eulerCore_false, cx, sx, sy, hc, Real.cos_zero, Real.sin_zero]
    ext a b
    fin_cases a <;> fin_cases b <;> simp
    · exact n00.symm
    · rw [c01, n10]; ring
    · rw [c02, n10]; ring
    · exact n10.symm
    · exact n21.symm
    · exact n22.symm

theorem norm_three (v : Fin 3 → ℝ) : vectorNorm v = √(dot3 v v) := by
  simp only [vectorNorm, Fin.sum_univ_three, dot3]

theorem dot3_self_nonneg (v : Fin 3 → ℝ) : 0 ≤ dot3 v v := by
  simp only [dot3]; nlinarith [sq_nonneg (v 0), sq_nonneg (v 1), sq_nonneg (v 2)]

theorem dot3_self_eq_zero {v : Fin 3 → ℝ} (h : dot3 v v = 0) : v = 0 := by
  simp only [dot3] at h
  have h0 := mul_self_nonneg (v 0)
  have h1 := mul_self_nonneg (v 1)
  have h2 := mul_self_nonneg (v 2)
  ext i
  fin_cases i <;> simp <;> apply mul_self_eq_zero.1 <;> linarith

theorem normalised {v : Fin 3 → ℝ} (h : v ≠ 0) : 0 < vectorNorm v ∧ dot3 (fun a => v a / vectorNorm v) (fun a => v a / vectorNorm v) = 1 ∧
    v = vectorNorm v • fun a => v a / vectorNorm v := by
  have hp : 0 < dot3 v v := lt_of_le_of_ne (dot3_self_nonneg v) fun h0 => h (dot3_self_eq_zero h0.symm)
  have hn : 0 < vectorNorm v := by rw [norm_three]; exact Real.sqrt_pos.2 hp
  have hs : vectorNorm v ^ 2 = dot3 v v := by rw [norm_three, Real.sq_sqrt hp.le]
  refine ⟨hn, ?_, ?_⟩
  · have : dot3 (fun a => v a / vectorNorm v) (fun a => v a / vectorNorm v) = dot3 v v / vectorNorm v ^ 2 := by
      simp only [dot3]; field_simp
    rw [this, hs, div_self hp.ne']
  · ext a
    simp only [Pi.smul_apply, smul_eq_mul]
    field_simp

/-- what the orthogonalisation of the rows returns -/
theorem orthoRows_spec (m : Fin 3 → Fin 3 → ℝ) (hdet : dot3 (m 0) (cross3 (m 1) (m 2)) ≠ 0) :
    let p := orthoRows m
    (∀ i, 0 < p.2.1 i) ∧ (dot3 (p.1 0) (p.1 0) = 1 ∧ dot3 (p.1 1) (p.1 1) = 1 ∧ dot3 (p.1 2) (p.1 2) = 1) ∧
      (dot3 (p.1 0) (p.1 1) = 0 ∧ dot3 (p.1 0) (p.1 2) = 0 ∧ dot3 (p.1 1) (p.1 2) = 0) ∧
      m 0 = p.2.1 0 • p.1 0 ∧ m 1 = p.2.1 1 • (p.2.2 0 • p.1 0 + p.1 1) ∧ m 2 = p.2.1 2 • (p.2.2 1 • p.1 0 + p.2.2 2 • p.1 1 + p.1 2) := by
  obtain ⟨s0, hs0⟩ : ∃ s0, s0 = vectorNorm (m 0) := ⟨_, rfl⟩
  obtain ⟨r0, hr0⟩ : ∃ r0 : Fin 3 → ℝ, r0 = fun a => m 0 a / s0 := ⟨_, rfl⟩
  obtain ⟨h0, hh0⟩ : ∃ h0, h0 = dot3 r0 (m 1) := ⟨_, rfl⟩
  obtain ⟨v1, hv1⟩ : ∃ v1 : Fin 3 → ℝ, v1 = fun a => m 1 a - r0 a * h0 := ⟨_, rfl⟩
  obtain ⟨s1, hs1⟩ : ∃ s1, s1 = vectorNorm v1 := ⟨_, rfl⟩
  obtain ⟨r1, hr1⟩ : ∃ r1 : Fin 3 → ℝ, r1 = fun a => v1 a / s1 := ⟨_, rfl⟩
  obtain ⟨h1, hh1⟩ : ∃ h1, h1 = dot3 r0 (m 2) := ⟨_, rfl⟩
  obtain ⟨v2, hv2⟩ : ∃ v2 : Fin 3 → ℝ, v2 = fun a => m 2 a - r0 a * h1 := ⟨_, rfl⟩
  obtain ⟨h2, hh2⟩ : ∃ h2, h2 = dot3 r1 v2 := ⟨_, rfl⟩
  obtain ⟨v3, hv3⟩ : ∃ v3 : Fin 3 → ℝ, v3 = fun a => v2 a - r1 a * h2 := ⟨_, rfl⟩
  obtain ⟨s2, hs2⟩ : ∃ s2, s2 = vectorNorm v3 := ⟨_, rfl⟩
  obtain ⟨r2, hr2⟩ : ∃ r2 : Fin 3 → ℝ, r2 = fun a => v3 a / s2 := ⟨_, rfl⟩
  have e : orthoRows m = (![r0, r1, r2], ![s0, s1, s2], ![h0 / s1, h1 / s2, h2 / s2]) := by
    subst hr2 hs2 hv3 hh2 hv2 hh1 hr1 hs1 hv1 hh0 hr0 hs0
    simp only [orthoRows, vdot_three]
  have m0 : m 0 ≠ 0 := by intro h; apply hdet; rw [h]; simp [dot3]
  obtain ⟨a1, a2, a3⟩ := normalised m0
  rw [← hs0] at a1 a2 a3
  rw [← hr0] at a2 a3
  have o1 : dot3 r0 v1 = 0 := by
    rw [hv1]
    have : dot3 r0 (fun a => m 1 a - r0 a * h0) = dot3 r0 (m 1) - h0 * dot3 r0 r0 := by simp only [dot3]; ring
    rw [this, a2, hh0]; ring
  have v1e : m 1 = h0 • r0 + v1 := by
    rw [hv1]; ext a; simp; ring
  have v1n : v1 ≠ 0 := by
    intro h; apply hdet
    rw [v1e, h, a3]; simp [dot3, cross3]; ring
  obtain ⟨b1, b2, b3⟩ := normalised v1n
  rw [← hs1] at b1 b2 b3
  rw [← hr1] at b2 b3
  have o1' : dot3 r0 r1 = 0 := by
    have : s1 * dot3 r0 r1 = 0 := by rw [← o1, b3]; simp only [dot3, Pi.smul_apply, smul_eq_mul]; ring
    exact (mul_eq_zero.1 this).resolve_left b1.ne'
  have v2e : m 2 = h1 • r0 + h2 • r1 + v3 := by
    rw [hv3, hv2]; ext a; simp; ring
  have o2 : dot3 r0 v2 = 0 := by
    rw [hv2]
    have : dot3 r0 (fun a => m 2 a - r0 a * h1) = dot3 r0 (m 2) - h1 * dot3 r0 r0 := by simp only [dot3]; ring
    rw [this, a2, hh1]; ring
  have o3 : dot3 r0 v3 = 0 := by
    rw [hv3]
    have : dot3 r0 (fun a => v2 a - r1 a * h2) = dot3 r0 v2 - h2 * dot3 r0 r1 := by simp only [dot3]; ring
    rw [this, o2, o1']; ring
  have o4 : dot3 r1 v3 = 0 := by
    rw [hv3]
    have : dot3 r1 (fun a => v2 a - r1 a * h2) = dot3 r1 v2 - h2 * dot3 r1 r1 := by simp only [dot3]; ring
    rw [this, b2, hh2]; ring
  have v3n : v3 ≠ 0 := by
    intro h; apply hdet
    rw [v2e, h, v1e, a3, b3]; simp [dot3, cross3]; ring
  obtain ⟨c1, c2, c3⟩ := normalised v3n
  rw [← hs2] at c1 c2 c3
  rw [← hr2] at c2 c3
  have o3' : dot3 r0 r2 = 0 := by
    have : s2 * dot3 r0 r2 = 0 := by rw [← o3, c3]; simp only [dot3, Pi.smul_apply, smul_eq_mul]; ring
    exact (mul_eq_zero.1 this).resolve_left c1.ne'
  have o4' : dot3 r1 r2 = 0 := by
    have : s2 * dot3 r1 r2 = 0 := by rw [← o4, c3]; simp only [dot3, Pi.smul_apply, smul_eq_mul]; ring
    exact (mul_eq_zero.1 this).resolve_left c1.ne'
  rw [e]
  refine ⟨fun i => by fin_cases i <;> simpa, ⟨a2, b2, c2⟩, ⟨o1', o3', o4'⟩, a3, ?_, ?_⟩
  · rw [v1e, b3]; ext a; simp; field_simp
  · rw [v2e, c3]; ext a; simp; field_simp

/-- the matrix of the shears -/
def Spec.shearOf (h : Fin 3 → ℝ) : Matrix (Fin 3) (Fin 3) ℝ := !![1, h 0, h 1; 0, 1, h 2; 0, 0, 1]

/-- the matrix of the scales -/
def Spec.scaleOf (s : Fin 3 → ℝ) : Matrix (Fin 3) (Fin 3) ℝ := !![s 0, 0, 0; 0, s 1, 0; 0, 0, s 2]

theorem affine_mul_homog (R S : Matrix (Fin 3) (Fin 3) ℝ) (t : Fin 3 → ℝ) : affine R t * homog S = affine (R * S) t := by
  rw [homog_affine]
  ext i j
  rw [Matrix.mul_apply, Fin.sum_univ_four]
  have h : ∀ (A : Matrix (Fin 3) (Fin 3) ℝ) (v : Fin 3 → ℝ), affine A v = !![A 0 0, A 0 1, A 0 2, v 0; A 1 0, A 1 1, A 1 2, v 1;
      A 2 0, A 2 1, A 2 2, v 2; 0, 0, 0, 1] := fun A v => affine_apply A v
  rw [h, h, h]
  fin_cases i <;> fin_cases j <;> simp [Matrix.mul_apply, Fin.sum_univ_four, Fin.sum_univ_three]

theorem eulerMatrixT_sxyz (a b c : ℝ) : eulerMatrixT ⟨0, 0, 0, 0⟩ a b c = homog (eulerCore false 0 1 2 a b c) := by
  simp [eulerMatrixT, axIJK]
  rfl

/-- `compose_matrix` with all parts -/
theorem compose_eq (s h a t : Fin 3 → ℝ) (p : Fin 4 → ℝ) : composeMatrix (some s) (some h) (some a) (some t) (some p) = fun i j =>
    (perspRow p * affine (eulerCore false 0 1 2 (a 0) (a 1) (a 2) * shearOf h * scaleOf s) t) i j /
      (perspRow p * affine (eulerCore false 0 1 2 (a 0) (a 1) (a 2) * shearOf h * scaleOf s) t) 3 3 := by
  have e : 1 * perspRow p * affine 1 t * eulerMatrixT ⟨0, 0, 0, 0⟩ (a 0) (a 1) (a 2) * homog !![1, h 0, h 1; 0, 1, h 2; 0, 0, 1]
      * homog !![s 0, 0, 0; 0, s 1, 0; 0, 0, s 2]
      = perspRow p * affine (eulerCore false 0 1 2 (a 0) (a 1) (a 2) * shearOf h * scaleOf s) t := by
    rw [eulerMatrixT_sxyz, one_mul, mul_assoc, mul_assoc, mul_assoc, ← mul_assoc (affine 1 t), affine_mul_homog, ← mul_assoc (affine _ t),
      affine_mul_homog, affine_mul_homog, one_mul]
    rfl
  simp only [composeMatrix, e]
  rfl

theorem persp_mul (p : Fin 4 → ℝ) (B : Matrix (Fin 4) (Fin 4) ℝ) : (∀ i j, i ≠ 3 → (perspRow p * B) i j = B i j) ∧
    ∀ j, (perspRow p * B) 3 j = ∑ k, p k * B k j := by
  refine ⟨fun i j hi => ?_, fun j => ?_⟩
  · simp [Matrix.mul_apply, perspRow, hi, Matrix.one_apply]
  · simp [Matrix.mul_apply, perspRow]

/-- orthonormal vectors, turned over if they are left-handed, are the columns of a rotation -/
theorem rotation_of_orthonormal (row : Fin 3 → Fin 3 → ℝ)
    (h1 : dot3 (row 0) (row 0) = 1 ∧ dot3 (row 1) (row 1) = 1 ∧ dot3 (row 2) (row 2) = 1)
    (h2 : dot3 (row 0) (row 1) = 0 ∧ dot3 (row 0) (row 2) = 0 ∧ dot3 (row 1) (row 2) = 0) (σ : ℝ) (hσ : σ * σ = 1)
    (hs : 0 ≤ σ * dot3 (row 0) (cross3 (row 1) (row 2))) :
    IsRotation (Matrix.of fun a b => σ * row b a) := by
  obtain ⟨a, b, c⟩ := h1
  obtain ⟨d, e, f⟩ := h2
  have hT : (Matrix.of fun a b => σ * row b a).transpose * (Matrix.of fun a b => σ * row b a) = 1 := by
    ext i j
    have : ((Matrix.of fun a b => σ * row b a).transpose * (Matrix.of fun a b => σ * row b a)) i j = dot3 (row i) (row j) := by
      simp [Matrix.mul_apply, Fin.sum_univ_three, dot3]
      linear_combination (row i 0 * row j 0 + row i 1 * row j 1 + row i 2 * row j 2) * hσ
    rw [this]
    have sw : ∀ u v, dot3 u v = dot3 v u := fun u v => by simp only [dot3]; ring
    fin_cases i <;> fin_cases j <;> simp [a, b, c, d, e, f, sw (row 1) (row 0), sw (row 2) (row 0), sw (row 2) (row 1)]
  have hd : (Matrix.of fun a b => σ * row b a).det = σ * dot3 (row 0) (cross3 (row 1) (row 2)) := by
    rw [Matrix.det_fin_three]
    simp [dot3, cross3]
    linear_combination (σ * (row 0 0 * (row 1 1 * row 2 2 - row 1 2 * row 2 1) + row 0 1 * (row 1 2 * row 2 0 - row 1 0 * row 2 2)
      + row 0 2 * (row 1 0 * row 2 1 - row 1 1 * row 2 0))) * hσ
  refine ⟨mul_eq_one_comm.1 hT, ?_⟩
  have h := congrArg Matrix.det hT
  rw [Matrix.det_mul, Matrix.det_transpose, Matrix.det_one] at h
  rw [hd] at h ⊢
  nlinarith

/-- the scales, shears and angles found by `decompose_matrix` give back the three by three part -/
theorem decompose_linear (U : Matrix (Fin 3) (Fin 3) ℝ) (hU : U.det ≠ 0) :
    let p := orthoRows fun i j => U j i
    let neg : Bool := vdot (p.1 0) (vcross (p.1 1) (p.1 2)) < 0
    let row : Fin 3 → Fin 3 → ℝ := if neg then fun i j => -p.1 i j else p.1
    let scale : Fin 3 → ℝ := if neg then fun i => -p.2.1 i else p.2.1
    eulerCore false 0 1 2 (rowAngles row 0) (rowAngles row 1) (rowAngles row 2) * shearOf p.2.2 * scaleOf scale = U ∧
      ((∀ i, 0 < scale i) ∨ ∀ i, scale i < 0) := by
  have hdet : dot3 (fun j => U j 0) (cross3 (fun j => U j 1) (fun j => U j 2)) ≠ 0 := by
    intro h; apply hU
    rw [Matrix.det_fin_three, ← h]; simp [dot3, cross3]; ring
  obtain ⟨hp, h1, h2, m0, m1, m2⟩ := orthoRows_spec (fun i j => U j i) hdet
  simp only [vdot_three]
  have hv : ∀ u v, vcross u v = cross3 u v := fun u v => rfl
  rw [hv]
  generalize orthoRows (fun i j => U j i) = p at *
  obtain ⟨row, scale, h⟩ := p
  simp only at *
  obtain ⟨σ, hσ, hs, er, es⟩ : ∃ σ : ℝ, σ * σ = 1 ∧ 0 ≤ σ * dot3 (row 0) (cross3 (row 1) (row 2)) ∧
      (if decide (dot3 (row 0) (cross3 (row 1) (row 2)) < 0) then (fun i j => -row i j) else row) = (fun i j => σ * row i j) ∧
      (if decide (dot3 (row 0) (cross3 (row 1) (row 2)) < 0) then (fun i => -scale i) else scale) = (fun i => σ * scale i) := by
    by_cases hn : dot3 (row 0) (cross3 (row 1) (row 2)) < 0
    · refine ⟨-1, by norm_num, by linarith, ?_, ?_⟩ <;> simp [hn]
    · refine ⟨1, by norm_num, by linarith, ?_, ?_⟩ <;> simp [hn]
  rw [er, es]
  have hR := rotation_of_orthonormal row h1 h2 σ hσ hs
  rw [rowAngles_core hR (fun i j => σ * row i j) fun i j => rfl]
  constructor
  · ext a b
    have e0 := congrFun m0 a
    have e1 := congrFun m1 a
    have e2 := congrFun m2 a
    simp at e0 e1 e2
    fin_cases b <;> simp [Matrix.mul_apply, Fin.sum_univ_three, shearOf, scaleOf]
    · linear_combination (row 0 a * scale 0) * hσ - e0
    · linear_combination ((row 0 a * h 0 + row 1 a) * scale 1) * hσ - e1
    · linear_combination ((row 0 a * h 1 + row 1 a * h 2 + row 2 a) * scale 2) * hσ - e2
  · rcases mul_self_eq_one_iff.1 hσ with h' | h'
    · left; intro i; rw [h']; have := hp i; linarith
    · right; intro i; rw [h']; have := hp i; linarith

theorem det_affine (R : Matrix (Fin 3) (Fin 3) ℝ) (t : Fin 3 → ℝ) : (affine R t).det = R.det := by
  have h : affine R t = !![R 0 0, R 0 1, R 0 2, t 0; R 1 0, R 1 1, R 1 2, t 1; R 2 0, R 2 1, R 2 2, t 2; 0, 0, 0, 1] := affine_apply R t
  rw [h, Matrix.det_fin_three]
  simp [Matrix.det_succ_row_zero, Fin.sum_univ_succ]
  simp [Fin.succAbove, Fin.lt_def]
  ring

/-- the matrix with its last row replaced -/
theorem base_affine (A : Matrix (Fin 4) (Fin 4) ℝ) : (fun i j => if i = 3 then (if j = 3 then 1 else 0) else A i j : Matrix (Fin 4) (Fin 4) ℝ)
    = affine (upper A) fun a => A a.castSucc 3 := by
  have h : affine (upper A) (fun a => A a.castSucc 3) = _ := affine_apply (upper A) fun a => A a.castSucc 3
  rw [h]
  ext i j
  fin_cases i <;> fin_cases j <;> simp [upper]

/-- `decompose_matrix`, opened up -/
theorem decompose_open (M : Matrix (Fin 4) (Fin 4) ℝ) :
    (|M 3 3| < tEps ∨ (upper M).det = 0 → decomposeMatrix M = .error .valueError) ∧
    (¬ (|M 3 3| < tEps ∨ (upper M).det = 0) → ∃ p, decomposeMatrix M = .ok p ∧
      affine (eulerCore false 0 1 2 (p.angles 0) (p.angles 1) (p.angles 2) * shearOf p.shear * scaleOf p.scale) p.translate
        = affine (upper fun i j => M i j / M 3 3) (fun a => M a.castSucc 3 / M 3 3) ∧
      ((∀ i, 0 < p.scale i) ∨ ∀ i, p.scale i < 0) ∧
      ((¬ ∃ b : Fin 3, tEps < |M 3 b.castSucc / M 3 3|) → p.perspective = ![0, 0, 0, 1]) ∧
      ((∃ b : Fin 3, tEps < |M 3 b.castSucc / M 3 3|) → p.perspective = fun j => ∑ k, M 3 k / M 3 3 *
        (affine (upper fun i j => M i j / M 3 3) (fun a => M a.castSucc 3 / M 3 3))⁻¹ k j)) := by
  have hm : ¬ |M 3 3| < tEps → M 3 3 ≠ 0 := by
    intro h h0; rw [h0, abs_zero] at h; exact h tEps_pos
  have hu : (upper fun i j => M i j / M 3 3 : Matrix (Fin 3) (Fin 3) ℝ).det = (upper M).det / (M 3 3) ^ 3 := by
    rw [Matrix.det_fin_three, Matrix.det_fin_three]; simp only [upper]; ring
  have hd : Matrix.det (Matrix.transpose (m := Fin 4) (n := Fin 4) (α := ℝ) fun i j => if i = 3 then (if j = 3 then 1 else 0) else M i j / M 3 3)
      = (upper M).det / (M 3 3) ^ 3 := by
    exact (Matrix.det_transpose _).trans ((congrArg Matrix.det (base_affine fun i j => M i j / M 3 3)).trans (by rw [det_affine, hu]))
  constructor
  · intro h
    simp only [decomposeMatrix]
    split
    · rfl
    · rename_i h1
      rw [if_pos]
      rw [hd, h.resolve_left h1, zero_div]
  · intro h
    push Not at h
    obtain ⟨h1, h2⟩ := h
    have h3 := hm (not_lt.2 h1)
    have hU : (upper fun i j => M i j / M 3 3 : Matrix (Fin 3) (Fin 3) ℝ).det ≠ 0 := by
      rw [hu]; exact div_ne_zero h2 (pow_ne_zero _ h3)
    simp only [decomposeMatrix]
    rw [if_neg (not_lt.2 h1), if_neg (by rw [hd]; exact div_ne_zero h2 (pow_ne_zero _ h3))]
    obtain ⟨g1, g2⟩ := decompose_linear _ hU
    refine ⟨_, rfl, ?_, g2, ?_, ?_⟩
    · simp only
      rw [← g1]
      rfl
    · intro hb; simp only [if_neg hb]
    · intro hb
      simp only [if_pos hb]
      rw [base_affine fun i j => M i j / M 3 3]

/-- C101: `decompose_matrix` fails, with ValueError, exactly if the last entry of the matrix is below `_EPS` or its three by three part is singular. -/
theorem c101_error (M : Matrix (Fin 4) (Fin 4) ℝ) : (decomposeMatrix M = .error .valueError ↔ |M 3 3| < tEps ∨ (upper M).det = 0) ∧
    ((∃ p, decomposeMatrix M = .ok p) ↔ ¬ (|M 3 3| < tEps ∨ (upper M).det = 0)) := by
  obtain ⟨h1, h2⟩ := decompose_open M
  by_cases h : |M 3 3| < tEps ∨ (upper M).det = 0
  · rw [h1 h]; simp [h]
  · obtain ⟨p, hp, -⟩ := h2 h
    rw [hp]; simp [h]

theorem decompose_compose (M : Matrix (Fin 4) (Fin 4) ℝ) (p : Parts) (h : decomposeMatrix M = .ok p) :
    ∃ N, composeMatrix (some p.scale) (some p.shear) (some p.angles) (some p.translate) (some p.perspective) = N ∧
      (∀ i j, i ≠ 3 → N i j = M i j / M 3 3) ∧
      ((∃ b : Fin 3, tEps < |M 3 b.castSucc / M 3 3|) → ∀ j, N 3 j = M 3 j / M 3 3) ∧
      ((¬ ∃ b : Fin 3, tEps < |M 3 b.castSucc / M 3 3|) → N 3 = ![0, 0, 0, 1]) := by
  have hne := (c101_error M).2.1 ⟨p, h⟩
  obtain ⟨p', hp', e, -, q1, q2⟩ := (decompose_open M).2 hne
  rw [h] at hp'
  obtain rfl := Except.ok.inj hp'
  have h3 : M 3 3 ≠ 0 := by
    intro h0; apply hne; left; rw [h0, abs_zero]; exact tEps_pos
  have hu : (upper fun i j => M i j / M 3 3 : Matrix (Fin 3) (Fin 3) ℝ).det = (upper M).det / (M 3 3) ^ 3 := by
    rw [Matrix.det_fin_three, Matrix.det_fin_three]; simp only [upper]; ring
  have hB : IsUnit (affine (upper fun i j => M i j / M 3 3) (fun a => M a.castSucc 3 / M 3 3)).det := by
    rw [det_affine, hu, isUnit_iff_ne_zero]
    push Not at hne
    exact div_ne_zero hne.2 (pow_ne_zero _ h3)
  have hBv : ∀ i j, i ≠ 3 → (affine (upper fun i j => M i j / M 3 3) (fun a => M a.castSucc 3 / M 3 3)) i j = M i j / M 3 3 := by
    intro i j hi
    rw [← base_affine fun i j => M i j / M 3 3]
    simp [hi]
  have hB3 : ∀ j, (affine (upper fun i j => M i j / M 3 3) (fun a => M a.castSucc 3 / M 3 3)) 3 j = if j = 3 then 1 else 0 := by
    intro j
    rw [← base_affine fun i j => M i j / M 3 3]
    simp
  refine ⟨_, rfl, ?_⟩
  rw [compose_eq, e]
  obtain ⟨m1, m2⟩ := persp_mul p.perspective (affine (upper fun i j => M i j / M 3 3) (fun a => M a.castSucc 3 / M 3 3))
  generalize affine (upper fun i j => M i j / M 3 3) (fun a => M a.castSucc 3 / M 3 3) = B at *
  have key : (∃ b : Fin 3, tEps < |M 3 b.castSucc / M 3 3|) → ∀ j, (perspRow p.perspective * B) 3 j = M 3 j / M 3 3 := by
    intro hb j
    rw [m2, q2 hb]
    have : (∑ k, (∑ l, M 3 l / M 3 3 * B⁻¹ l k) * B k j) = ∑ l, M 3 l / M 3 3 * (B⁻¹ * B) l j := by
      simp only [Matrix.mul_apply, Finset.sum_mul, Finset.mul_sum]
      rw [Finset.sum_comm]
      simp only [mul_assoc]
    rw [this, Matrix.nonsing_inv_mul B hB]
    simp [Matrix.one_apply]
  have key2 : (¬ ∃ b : Fin 3, tEps < |M 3 b.castSucc / M 3 3|) → ∀ j, (perspRow p.perspective * B) 3 j = if j = 3 then 1 else 0 := by
    intro hb j
    rw [m2, q1 hb, ← hB3]
    simp [Fin.sum_univ_four]
  have w : (perspRow p.perspective * B) 3 3 = 1 := by
    by_cases hb : ∃ b : Fin 3, tEps < |M 3 b.castSucc / M 3 3|
    · rw [key hb, div_self h3]
    · rw [key2 hb]; simp
  refine ⟨fun i j hi => ?_, fun hb j => ?_, fun hb => ?_⟩
  · show (perspRow p.perspective * B) i j / (perspRow p.perspective * B) 3 3 = _
    rw [w, div_one, m1 i j hi, hBv i j hi]
  · show (perspRow p.perspective * B) 3 j / (perspRow p.perspective * B) 3 3 = _
    rw [w, div_one, key hb]
  · ext j
    show (perspRow p.perspective * B) 3 j / (perspRow p.perspective * B) 3 3 = _
    rw [w, div_one, key2 hb]
    fin_cases j <;> simp

/-- C101: what `compose_matrix` makes of the parts that `decompose_matrix` found: the matrix divided by its last entry.  The last row may be lost,
if its entries are below `_EPS`. -/
theorem c101_close (M : Matrix (Fin 4) (Fin 4) ℝ) (p : Parts) (h : decomposeMatrix M = .ok p) :
    ∃ N, composeMatrix (some p.scale) (some p.shear) (some p.angles) (some p.translate) (some p.perspective) = N ∧
      (∀ i j, i ≠ 3 → N i j = M i j / M 3 3) ∧ N 3 3 = 1 ∧ ∀ j, |N 3 j - M 3 j / M 3 3| ≤ tEps := by
  obtain ⟨N, hN, h1, h2, h3⟩ := decompose_compose M p h
  have hne := (c101_error M).2.1 ⟨p, h⟩
  have m3 : M 3 3 ≠ 0 := by
    intro h0; apply hne; left; rw [h0, abs_zero]; exact tEps_pos
  refine ⟨N, hN, h1, ?_⟩
  by_cases hb : ∃ b : Fin 3, tEps < |M 3 b.castSucc / M 3 3|
  · refine ⟨by rw [h2 hb, div_self m3], fun j => by rw [h2 hb, sub_self, abs_zero]; exact tEps_pos.le⟩
  · have hN3 := h3 hb
    push Not at hb
    refine ⟨by rw [hN3]; simp, fun j => ?_⟩
    rw [hN3]
    refine Fin.lastCases ?_ (fun b => ?_) j
    · have : Fin.last 3 = (3 : Fin 4) := rfl
      rw [this, div_self m3]; simp [tEps_pos.le]
    · have hb' := hb b
      have : (![0, 0, 0, 1] : Fin 4 → ℝ) b.castSucc = 0 := by fin_cases b <;> rfl
      rw [this, zero_sub, abs_neg]; exact hb'

/-- C101: composing the parts of a matrix gives the matrix back, divided by its last entry, if its last row is zero before the last entry or
some entry there exceeds `_EPS`. -/
theorem c101_roundtrip (M : Matrix (Fin 4) (Fin 4) ℝ) (p : Parts) (h : decomposeMatrix M = .ok p)
    (hl : (∀ b : Fin 3, M 3 b.castSucc = 0) ∨ ∃ b : Fin 3, tEps < |M 3 b.castSucc / M 3 3|) :
    composeMatrix (some p.scale) (some p.shear) (some p.angles) (some p.translate) (some p.perspective) = fun i j => M i j / M 3 3 := by
  obtain ⟨N, hN, h1, h2, h3⟩ := decompose_compose M p h
  have hne := (c101_error M).2.1 ⟨p, h⟩
  have m3 : M 3 3 ≠ 0 := by
    intro h0; apply hne; left; rw [h0, abs_zero]; exact tEps_pos
  rw [hN]
  ext i j
  by_cases hi : i = 3
  · subst hi
    by_cases hb : ∃ b : Fin 3, tEps < |M 3 b.castSucc / M 3 3|
    · exact h2 hb j
    · have hz := hl.resolve_right hb
      have z0 : M 3 0 = 0 := hz 0
      have z1 : M 3 1 = 0 := hz 1
      have z2 : M 3 2 = 0 := hz 2
      rw [h3 hb]
      fin_cases j <;> simp [z0, z1, z2, m3]
  · exact h1 i j hi

/-- C101: the scales have one sign. -/
theorem c101_scales (M : Matrix (Fin 4) (Fin 4) ℝ) (p : Parts) (h : decomposeMatrix M = .ok p) :
    (∀ i, 0 < p.scale i) ∨ ∀ i, p.scale i < 0 := by
  obtain ⟨p', hp', -, hs, -⟩ := (decompose_open M).2 ((c101_error M).2.1 ⟨p, h⟩)
  rw [h] at hp'
  obtain rfl := Except.ok.inj hp'
  exact hs

theorem core_sxyz (x y z : ℝ) : eulerCore false 0 1 2 x y z = threeRot true 0 1 2 x y z := by
  rw [eulerCore_false]
  ext i j
  fin_cases i <;> fin_cases j <;> simp [threeRot, axisRot, Matrix.mul_apply, Fin.sum_univ_three] <;> ring

/-- `compose_matrix` without perspective -/
theorem compose_affine (s h a t : Fin 3 → ℝ) : composeMatrix (some s) (some h) (some a) (some t) (some ![0, 0, 0, 1])
    = affine (threeRot true 0 1 2 (a 0) (a 1) (a 2) * shearOf h * scaleOf s) t := by
  rw [compose_eq, core_sxyz]
  generalize threeRot true 0 1 2 (a 0) (a 1) (a 2) = R
  have hp : perspRow ![0, 0, 0, 1] = 1 := by
    ext i j
    fin_cases i <;> fin_cases j <;> simp [perspRow]
  rw [hp, one_mul]
  have hA := affine_isAffine (R * shearOf h * scaleOf s) t
  ext i j
  show affine (R * shearOf h * scaleOf s) t i j / affine (R * shearOf h * scaleOf s) t 3 3 = _
  rw [hA.2, div_one]

/-- C101: without perspective, `compose_matrix` scales a point first, then shears it, turns it and moves it. -/
theorem c101_order (s h a t x : Fin 3 → ℝ) : TakesTo (composeMatrix (some s) (some h) (some a) (some t) (some ![0, 0, 0, 1])) x
    (t + threeRot true 0 1 2 (a 0) (a 1) (a 2) *ᵥ (shearOf h *ᵥ fun i => s i * x i)) 1 := by
  rw [compose_affine]
  generalize threeRot true 0 1 2 (a 0) (a 1) (a 2) = R
  have := takesTo_of_affine (affine_isAffine (R * shearOf h * scaleOf s) t) x
  rw [affine_move] at this
  convert this using 1
  ext i
  have e2 : scaleOf s *ᵥ x = fun i => s i * x i := by
    ext i; fin_cases i <;> simp [scaleOf, Matrix.mulVec, dotProduct, Fin.sum_univ_three]
  rw [← e2, Matrix.mulVec_mulVec, Matrix.mulVec_mulVec]
  simp only [Pi.add_apply, Matrix.mulVec, dotProduct, mul_assoc]
  ring

theorem norm_smul_unit {q : Fin 3 → ℝ} (hq : dot3 q q = 1) {s : ℝ} (hs : 0 < s) : vectorNorm (s • q) = s ∧ (fun a => (s • q) a / s) = q := by
  constructor
  · rw [norm_three]
    have : dot3 (s • q) (s • q) = s ^ 2 * dot3 q q := by simp only [dot3, Pi.smul_apply, smul_eq_mul]; ring
    rw [this, hq, mul_one, Real.sqrt_sq hs.le]
  · ext a; simp only [Pi.smul_apply, smul_eq_mul]; field_simp

/-- the orthogonalisation has one answer -/
theorem orthoRows_unique {m q : Fin 3 → Fin 3 → ℝ} {s h : Fin 3 → ℝ} (hs : ∀ i, 0 < s i)
    (h1 : dot3 (q 0) (q 0) = 1 ∧ dot3 (q 1) (q 1) = 1 ∧ dot3 (q 2) (q 2) = 1)
    (h2 : dot3 (q 0) (q 1) = 0 ∧ dot3 (q 0) (q 2) = 0 ∧ dot3 (q 1) (q 2) = 0)
    (m0 : m 0 = s 0 • q 0) (m1 : m 1 = s 1 • (h 0 • q 0 + q 1)) (m2 : m 2 = s 2 • (h 1 • q 0 + h 2 • q 1 + q 2)) :
    orthoRows m = (q, s, h) := by
  obtain ⟨a, b, c⟩ := h1
  obtain ⟨d, e, f⟩ := h2
  obtain ⟨n0, u0⟩ := norm_smul_unit a (hs 0)
  obtain ⟨n1, u1⟩ := norm_smul_unit b (hs 1)
  obtain ⟨n2, u2⟩ := norm_smul_unit c (hs 2)
  have lin : ∀ (x y z : Fin 3 → ℝ) (k : ℝ), dot3 x (y + z) = dot3 x y + dot3 x z ∧ dot3 x (k • y) = k * dot3 x y := by
    intro x y z k; constructor <;> simp only [dot3, Pi.add_apply, Pi.smul_apply, smul_eq_mul] <;> ring
  have hh0 : dot3 (q 0) (s 1 • (h 0 • q 0 + q 1)) = s 1 * h 0 := by
    rw [(lin _ _ 0 _).2, (lin _ _ _ 0).1, (lin _ _ 0 _).2, a, d]; ring
  have v1 : (fun i => (s 1 • (h 0 • q 0 + q 1)) i - q 0 i * (s 1 * h 0)) = s 1 • q 1 := by
    ext i; simp only [Pi.smul_apply, Pi.add_apply, smul_eq_mul]; ring
  have hh1 : dot3 (q 0) (s 2 • (h 1 • q 0 + h 2 • q 1 + q 2)) = s 2 * h 1 := by
    rw [(lin _ _ 0 _).2, (lin _ _ _ 0).1, (lin _ _ _ 0).1, (lin _ _ 0 _).2, (lin _ _ 0 _).2, a, d, e]; ring
  have v2 : (fun i => (s 2 • (h 1 • q 0 + h 2 • q 1 + q 2)) i - q 0 i * (s 2 * h 1)) = s 2 • (h 2 • q 1 + q 2) := by
    ext i; simp only [Pi.smul_apply, Pi.add_apply, smul_eq_mul]; ring
  have hh2 : dot3 (q 1) (s 2 • (h 2 • q 1 + q 2)) = s 2 * h 2 := by
    rw [(lin _ _ 0 _).2, (lin _ _ _ 0).1, (lin _ _ 0 _).2, b, f]; ring
  have v3 : (fun i => (s 2 • (h 2 • q 1 + q 2)) i - q 1 i * (s 2 * h 2)) = s 2 • q 2 := by
    ext i; simp only [Pi.smul_apply, Pi.add_apply, smul_eq_mul]; ring
  have e1 : ∀ (s0 : ℝ) (r0 : Fin 3 → ℝ) (k0 : ℝ) (w1 : Fin 3 → ℝ) (s1 : ℝ) (r1 : Fin 3 → ℝ) (k1 : ℝ) (w2 : Fin 3 → ℝ) (k2 : ℝ) (w3 : Fin 3 → ℝ)
      (s2 : ℝ) (r2 : Fin 3 → ℝ), s0 = vectorNorm (m 0) → r0 = (fun a => m 0 a / s0) → k0 = dot3 r0 (m 1) → w1 = (fun a => m 1 a - r0 a * k0) →
      s1 = vectorNorm w1 → r1 = (fun a => w1 a / s1) → k1 = dot3 r0 (m 2) → w2 = (fun a => m 2 a - r0 a * k1) → k2 = dot3 r1 w2 →
      w3 = (fun a => w2 a - r1 a * k2) → s2 = vectorNorm w3 → r2 = (fun a => w3 a / s2) →
      orthoRows m = (![r0, r1, r2], ![s0, s1, s2], ![k0 / s1, k1 / s2, k2 / s2]) := by
    intro s0 r0 k0 w1 s1 r1 k1 w2 k2 w3 s2 r2 hs0 hr0 hk0 hw1 hs1 hr1 hk1 hw2 hk2 hw3 hs2 hr2
    subst hr2 hs2 hw3 hk2 hw2 hk1 hr1 hs1 hw1 hk0 hr0 hs0
    simp only [orthoRows, vdot_three]
  rw [e1 (s 0) (q 0) (s 1 * h 0) (s 1 • q 1) (s 1) (q 1) (s 2 * h 1) (s 2 • (h 2 • q 1 + q 2)) (s 2 * h 2) (s 2 • q 2) (s 2) (q 2)
    (by rw [m0, n0]) (by rw [m0, u0]) (by rw [m1, hh0]) (by rw [m1, v1]) n1.symm u1.symm (by rw [m2, hh1]) (by rw [m2, v2]) hh2.symm v3.symm n2.symm
    u2.symm]
  have p1 := (hs 1).ne'
  have p2 := (hs 2).ne'
  refine Prod.ext ?_ (Prod.ext ?_ ?_)
  · ext i j; fin_cases i <;> rfl
  · ext i; fin_cases i <;> rfl
  · ext i; fin_cases i <;> simp [p1, p2]

theorem atan2_polar {r θ : ℝ} (hr : 0 < r) (h : -Real.pi < θ ∧ θ ≤ Real.pi) : atan2 (r * Real.sin θ) (r * Real.cos θ) = θ := by
  have e : (⟨r * Real.cos θ, r * Real.sin θ⟩ : ℂ) = r * (Complex.cos θ + Complex.sin θ * Complex.I) := by
    apply Complex.ext
    · simp [← Complex.ofReal_cos, ← Complex.ofReal_sin]
    · simp [← Complex.ofReal_cos, ← Complex.ofReal_sin]
  rw [atan2, e, Complex.arg_mul_cos_add_sin_mul_I hr ⟨h.1, h.2⟩]

/-- the rows found for a product of rotation, shears and scales -/
theorem rows_back {R : Matrix (Fin 3) (Fin 3) ℝ} (hR : IsRotation R) {s h : Fin 3 → ℝ} (hs : (∀ i, 0 < s i) ∨ ∀ i, s i < 0) :
    let p := orthoRows fun i j => (R * shearOf h * scaleOf s) j i
    let neg : Bool := vdot (p.1 0) (vcross (p.1 1) (p.1 2)) < 0
    (if neg then (fun i j => -p.1 i j) else p.1) = (fun i j => R j i) ∧ (if neg then (fun i => -p.2.1 i) else p.2.1) = s ∧ p.2.2 = h := by
  have hc : ∀ i j : Fin 3, dot3 (fun k => R k i) (fun k => R k j) = if i = j then 1 else 0 := fun i j => rot_cols hR i j
  have ht : dot3 (fun k => R k 0) (cross3 (fun k => R k 1) fun k => R k 2) = 1 := by
    rw [← hR.2, Matrix.det_fin_three]; simp [dot3, cross3]; ring
  have m0 : (fun j => (R * shearOf h * scaleOf s) j 0) = s 0 • fun k => R k 0 := by
    ext a; simp [Matrix.mul_apply, Fin.sum_univ_three, shearOf, scaleOf]; ring
  have m1 : (fun j => (R * shearOf h * scaleOf s) j 1) = s 1 • ((h 0 • fun k => R k 0) + fun k => R k 1) := by
    ext a; simp [Matrix.mul_apply, Fin.sum_univ_three, shearOf, scaleOf]; ring
  have m2 : (fun j => (R * shearOf h * scaleOf s) j 2) = s 2 • ((h 1 • fun k => R k 0) + (h 2 • fun k => R k 1) + fun k => R k 2) := by
    ext a; simp [Matrix.mul_apply, Fin.sum_univ_three, shearOf, scaleOf]; ring
  have hv : ∀ u v, vcross u v = cross3 u v := fun u v => rfl
  simp only [vdot_three, hv]
  rcases hs with hs | hs
  · have e := orthoRows_unique (m := fun i j => (R * shearOf h * scaleOf s) j i) (q := fun i j => R j i) (h := h) hs
      ⟨by simpa using hc 0 0, by simpa using hc 1 1, by simpa using hc 2 2⟩
      ⟨by simpa using hc 0 1, by simpa using hc 0 2, by simpa using hc 1 2⟩ m0 m1 m2
    rw [e]
    simp only [ht]
    norm_num
  · have neg : ∀ u v : Fin 3 → ℝ, dot3 (fun k => -u k) (fun k => -v k) = dot3 u v := fun u v => by simp only [dot3]; ring
    have e := orthoRows_unique (m := fun i j => (R * shearOf h * scaleOf s) j i) (q := fun i j => -R j i) (s := fun i => -s i) (h := h)
      (fun i => neg_pos.2 (hs i))
      ⟨by simpa [neg] using hc 0 0, by simpa [neg] using hc 1 1, by simpa [neg] using hc 2 2⟩
      ⟨by simpa [neg] using hc 0 1, by simpa [neg] using hc 0 2, by simpa [neg] using hc 1 2⟩
      (by rw [m0]; ext a; simp) (by rw [m1]; ext a; simp; ring) (by rw [m2]; ext a; simp; ring)
    rw [e]
    have ht' : dot3 (fun k => -R k 0) (cross3 (fun k => -R k 1) fun k => -R k 2) = -1 := by
      rw [← ht]; simp [dot3, cross3]; ring
    simp only [ht']
    norm_num

theorem upper_affine (R : Matrix (Fin 3) (Fin 3) ℝ) (t : Fin 3 → ℝ) : upper (affine R t) = R := by
  ext i j
  fin_cases i <;> fin_cases j <;> simp [upper, affine]

/-- C101: parts without perspective come back as they were: the scales of one sign, the angles in their ranges, the middle one below a right angle. -/
theorem c101_parts (s h a t : Fin 3 → ℝ) (hs : (∀ i, 0 < s i) ∨ ∀ i, s i < 0) (h0 : -Real.pi < a 0 ∧ a 0 ≤ Real.pi)
    (h1 : -(Real.pi / 2) < a 1 ∧ a 1 < Real.pi / 2) (h2 : -Real.pi < a 2 ∧ a 2 ≤ Real.pi) :
    decomposeMatrix (composeMatrix (some s) (some h) (some a) (some t) (some ![0, 0, 0, 1])) = .ok ⟨s, h, a, t, ![0, 0, 0, 1]⟩ := by
  rw [compose_affine]
  have hR : IsRotation (threeRot true 0 1 2 (a 0) (a 1) (a 2)) := threeRot_isRotation ..
  obtain ⟨b1, b2, b3⟩ := rows_back hR (h := h) hs
  have hang : rowAngles (fun i j => threeRot true 0 1 2 (a 0) (a 1) (a 2) j i) = a := by
    rw [← core_sxyz, eulerCore_false]
    have hc : 0 < Real.cos (a 1) := Real.cos_pos_of_mem_Ioo ⟨h1.1, h1.2⟩
    have hy : Real.arcsin (Real.sin (a 1)) = a 1 := Real.arcsin_sin h1.1.le h1.2.le
    simp only [rowAngles]
    simp [hy, hc.ne', atan2_polar hc h0, atan2_polar hc h2]
    ext i; fin_cases i <;> rfl
  have hA := affine_isAffine (threeRot true 0 1 2 (a 0) (a 1) (a 2) * shearOf h * scaleOf s) t
  have hdet : (threeRot true 0 1 2 (a 0) (a 1) (a 2) * shearOf h * scaleOf s).det ≠ 0 := by
    rw [Matrix.det_mul, Matrix.det_mul, hR.2, one_mul]
    have e1 : (shearOf h).det = 1 := by rw [Matrix.det_fin_three]; simp [shearOf]
    have e2 : (scaleOf s).det = s 0 * s 1 * s 2 := by rw [Matrix.det_fin_three]; simp [scaleOf]
    have hn : ∀ i, s i ≠ 0 := fun i => by rcases hs with hs | hs <;> [exact (hs i).ne'; exact (hs i).ne]
    rw [e1, e2, one_mul]
    exact mul_ne_zero (mul_ne_zero (hn 0) (hn 1)) (hn 2)
  have hup : ∀ i j : Fin 3, (affine (threeRot true 0 1 2 (a 0) (a 1) (a 2) * shearOf h * scaleOf s) t) i.castSucc j.castSucc
      = (threeRot true 0 1 2 (a 0) (a 1) (a 2) * shearOf h * scaleOf s) i j := fun i j =>
    congrFun (congrFun (upper_affine (threeRot true 0 1 2 (a 0) (a 1) (a 2) * shearOf h * scaleOf s) t) i) j
  have htr : ∀ i : Fin 3, (affine (threeRot true 0 1 2 (a 0) (a 1) (a 2) * shearOf h * scaleOf s) t) i.castSucc 3 = t i := by
    intro i; fin_cases i <;> simp [affine]
  have hne : ¬ (|(affine (threeRot true 0 1 2 (a 0) (a 1) (a 2) * shearOf h * scaleOf s) t) 3 3| < tEps ∨
      (upper (affine (threeRot true 0 1 2 (a 0) (a 1) (a 2) * shearOf h * scaleOf s) t)).det = 0) := by
    rw [upper_affine, hA.2]
    push Not
    refine ⟨?_, hdet⟩
    norm_num [tEps]
  generalize threeRot true 0 1 2 (a 0) (a 1) (a 2) * shearOf h * scaleOf s = L at *
  obtain ⟨p, hp, -, -, q1, -⟩ := (decompose_open (affine L t)).2 hne
  rw [hp]
  have q1' := q1 (by push Not; intro b; rw [hA.1 b, zero_div, abs_zero]; exact tEps_pos.le)
  -- read the other fields off the definition
  simp only [decomposeMatrix] at hp
  push Not at hne
  rw [if_neg (not_lt.2 hne.1)] at hp
  split at hp
  · cases hp
  simp only [hup, htr, hA.2, div_one] at hp
  have hp' := (Except.ok.inj hp).symm
  have f1 : p.scale = s := by rw [hp']; exact b2
  have f2 : p.shear = h := by rw [hp']; exact b3
  have f3 : p.angles = a := by
    rw [hp', ← hang, ← b1]
  have f4 : p.translate = t := by rw [hp']
  obtain ⟨ps, ph, pa, pt, pp⟩ := p
  simp only at f1 f2 f3 f4 q1'
  rw [f1, f2, f3, f4, q1']

-- a matrix with perspective, and parts within the ranges
example : (∃ p, decomposeMatrix !![2, 0, 0, 1; 0, 2, 0, 0; 0, 0, 2, 0; 1, 0, 0, 2] = .ok p) ∧
    tEps < |(!![2, 0, 0, 1; 0, 2, 0, 0; 0, 0, 2, 0; 1, 0, 0, 2] : Matrix (Fin 4) (Fin 4) ℝ) 3 (0 : Fin 3).castSucc / 2| := by
  refine ⟨(c101_error _).2.2 ?_, ?_⟩
  · have c2 : (2 : Fin 3).castSucc = (2 : Fin 4) := rfl
    rw [Matrix.det_fin_three]
    simp [upper, c2]
    norm_num [tEps]
  · simp
    norm_num [tEps]

end Electrode
