import Verif.Props.EigenC

/-! C112, continued: the bisection. -/

namespace Electrode

open Matrix Spec

/-! ### quadratic forms -/

theorem exists_eigen {A : Matrix (Fin 4) (Fin 4) ℝ} (hA : Aᵀ = A) :
    ∃ (V : Matrix (Fin 4) (Fin 4) ℝ) (w : Fin 4 → ℝ) (m : Fin 4), Vᵀ * V = 1 ∧ A * V = V * diagonal w ∧ ∀ a, w a ≤ w m := by
  obtain ⟨lib, -, -, h, ha⟩ := exists_regLib
  obtain ⟨h1, h2⟩ := h A
  have e : symLower A = A := by
    ext i j
    unfold symLower
    split_ifs
    · rfl
    · conv_rhs => rw [← hA, transpose_apply]
  rw [e] at h2
  exact ⟨_, _, _, h1, h2, ha _⟩

theorem col_eigen {A V : Matrix (Fin 4) (Fin 4) ℝ} {w : Fin 4 → ℝ} (hV : Vᵀ * V = 1) (h : A * V = V * diagonal w) (m : Fin 4) :
    (fun i => V i m) ≠ 0 ∧ A *ᵥ (fun i => V i m) = w m • fun i => V i m := by
  constructor
  · intro h0
    have := congrFun (congrFun hV m) m
    rw [Matrix.mul_apply, one_apply_eq] at this
    have h1 : ∀ i, V i m = 0 := fun i => congrFun h0 i
    simp [transpose_apply, h1] at this
  · ext i
    have := congrFun (congrFun h i) m
    rw [Matrix.mul_apply, mul_diagonal] at this
    simp only [mulVec, dotProduct, Pi.smul_apply, smul_eq_mul]
    rw [this, mul_comm]

theorem dot_self_pos {v : Fin 4 → ℝ} (h : v ≠ 0) : 0 < v ⬝ᵥ v := by
  rcases (dot_self_nonneg v).lt_or_eq with h1 | h1
  · exact h1
  · exact absurd (dotProduct_self_eq_zero.1 h1.symm) h

/-- the largest eigenvalue bounds the quadratic form -/
theorem top_form {A : Matrix (Fin 4) (Fin 4) ℝ} (hA : Aᵀ = A) {l : ℝ} (h : IsTop A l) (v : Fin 4 → ℝ) : qform A v ≤ l * (v ⬝ᵥ v) := by
  obtain ⟨V, w, m, h1, h2, h3⟩ := exists_eigen hA
  obtain ⟨c1, c2⟩ := col_eigen h1 h2 m
  have hw : w m ≤ l := h.2 _ _ c1 c2
  by_cases hv : v = 0
  · subst hv; simp [qform]
  have hp := dot_self_pos hv
  have hs : √(v ⬝ᵥ v) ≠ 0 := (Real.sqrt_pos.2 hp).ne'
  have hr := rayleigh h1 h2 h3 ((√(v ⬝ᵥ v))⁻¹ • v) (by
    have : quatDot ((√(v ⬝ᵥ v))⁻¹ • v) = (√(v ⬝ᵥ v))⁻¹ * (√(v ⬝ᵥ v))⁻¹ * (v ⬝ᵥ v) := by
      simp [quatDot, dotProduct, Fin.sum_univ_four]
      ring
    rw [this, ← mul_inv, Real.mul_self_sqrt hp.le, inv_mul_cancel₀ hp.ne'])
  rw [mulVec_smul, dotProduct_smul, smul_dotProduct, smul_smul, smul_eq_mul, ← mul_inv, Real.mul_self_sqrt hp.le] at hr
  have h4 : qform A v ≤ w m * (v ⬝ᵥ v) := by
    have := mul_le_mul_of_nonneg_right hr hp.le
    rwa [mul_comm, ← mul_assoc, mul_inv_cancel₀ hp.ne', one_mul] at this
  exact h4.trans (mul_le_mul_of_nonneg_right hw hp.le)

/-- a symmetric matrix has a largest eigenvalue -/
theorem exists_top {A : Matrix (Fin 4) (Fin 4) ℝ} (hA : Aᵀ = A) : ∃ l, IsTop A l := by
  obtain ⟨V, w, m, h1, h2, h3⟩ := exists_eigen hA
  refine ⟨w m, ⟨_, col_eigen h1 h2 m⟩, fun μ v hv he => ?_⟩
  have hp := dot_self_pos hv
  obtain ⟨y, hy⟩ : ∃ y, y = Vᵀ *ᵥ v := ⟨_, rfl⟩
  have hne : y ≠ 0 := by
    rintro rfl
    refine hv ?_
    have : V *ᵥ (Vᵀ *ᵥ v) = v := by rw [mulVec_mulVec, mul_eq_one_comm.1 h1, one_mulVec]
    rw [← this, ← hy, mulVec_zero]
  have hd : ∀ i, w i * y i = μ * y i := by
    have e1 : V *ᵥ (diagonal w *ᵥ y) = V *ᵥ (μ • y) := by
      have e0 : V *ᵥ (Vᵀ *ᵥ v) = v := by rw [mulVec_mulVec, mul_eq_one_comm.1 h1, one_mulVec]
      rw [mulVec_mulVec, ← h2, ← mulVec_mulVec, hy, mulVec_smul, e0, he]
    have e2 : diagonal w *ᵥ y = μ • y := by
      have := congrArg (Vᵀ *ᵥ ·) e1
      simpa only [mulVec_mulVec, ← Matrix.mul_assoc, h1, Matrix.one_mul, one_mulVec] using this
    intro i
    have := congrFun e2 i
    rwa [mulVec_diagonal, Pi.smul_apply, smul_eq_mul] at this
  obtain ⟨i, hi⟩ := Function.ne_iff.1 hne
  have := mul_right_cancel₀ hi (hd i)
  rw [← this]
  exact h3 i

theorem triMat_symm (T : Tri4) : (triMat T)ᵀ = triMat T := by
  ext i j
  fin_cases i <;> fin_cases j <;> rfl

theorem qform_tri (T : Tri4) (v : Fin 4 → ℝ) : qform (triMat T) v = T.a0 * v 0 ^ 2 + T.a1 * v 1 ^ 2 + T.a2 * v 2 ^ 2 + T.a3 * v 3 ^ 2 +
    2 * T.b0 * v 0 * v 1 + 2 * T.b1 * v 1 * v 2 + 2 * T.b2 * v 2 * v 3 := by
  simp only [qform, triMat, dotProduct, mulVec, Fin.sum_univ_four, of_apply, cons_val_zero, cons_val_one, cons_val]
  ring

theorem dot_four (v : Fin 4 → ℝ) : v ⬝ᵥ v = v 0 ^ 2 + v 1 ^ 2 + v 2 ^ 2 + v 3 ^ 2 := by
  simp only [dotProduct, Fin.sum_univ_four]
  ring

namespace Spec

/-- the pivots of the elimination of `T - x` -/
noncomputable def piv (T : Tri4) (x : ℝ) : Fin 4 → ℝ :=
  let d0 := T.a0 - x
  let d1 := T.a1 - x - T.b0 ^ 2 / d0
  let d2 := T.a2 - x - T.b1 ^ 2 / d1
  ![d0, d1, d2, T.a3 - x - T.b2 ^ 2 / d2]

/-- no pivot is negative and smaller than `1e-18`, unless nothing follows that it would be used for -/
def GoodPivots (T : Tri4) (x : ℝ) : Prop :=
  ¬ (-(1 / 10 ^ 18) < piv T x 0 ∧ piv T x 0 < 0 ∧ T.b0 ≠ 0) ∧ ¬ (-(1 / 10 ^ 18) < piv T x 1 ∧ piv T x 1 < 0 ∧ T.b1 ≠ 0) ∧
    ¬ (-(1 / 10 ^ 18) < piv T x 2 ∧ piv T x 2 < 0 ∧ T.b2 ≠ 0)

end Spec

theorem piv_eqs (T : Tri4) (x : ℝ) : T.a0 = piv T x 0 + x ∧ T.a1 = piv T x 1 + x + T.b0 * (T.b0 / piv T x 0) ∧
    T.a2 = piv T x 2 + x + T.b1 * (T.b1 / piv T x 1) ∧ T.a3 = piv T x 3 + x + T.b2 * (T.b2 / piv T x 2) := by
  refine ⟨?_, ?_, ?_, ?_⟩ <;> simp only [piv, cons_val_zero, cons_val_one, cons_val] <;> ring

theorem form_piv (T : Tri4) (x : ℝ) (v : Fin 4 → ℝ) (h0 : piv T x 0 ≠ 0 ∨ v 1 = 0) (h1 : piv T x 1 ≠ 0 ∨ v 2 = 0) (h2 : piv T x 2 ≠ 0 ∨ v 3 = 0) :
    qform (triMat T) v - x * (v ⬝ᵥ v) = piv T x 0 * (v 0 + T.b0 / piv T x 0 * v 1) ^ 2 + piv T x 1 * (v 1 + T.b1 / piv T x 1 * v 2) ^ 2 +
      piv T x 2 * (v 2 + T.b2 / piv T x 2 * v 3) ^ 2 + piv T x 3 * v 3 ^ 2 := by
  have aux : ∀ b d z : ℝ, d ≠ 0 ∨ z = 0 → b * z = b / d * d * z := by
    rintro b d z (h | rfl)
    · rw [div_mul_cancel₀ _ h]
    · simp
  have H0 := aux T.b0 _ _ h0
  have H1 := aux T.b1 _ _ h1
  have H2 := aux T.b2 _ _ h2
  obtain ⟨e0, e1, e2, e3⟩ := piv_eqs T x
  rw [qform_tri, dot_four, e0, e1, e2, e3]
  generalize T.b0 / piv T x 0 = r0 at *
  generalize T.b1 / piv T x 1 = r1 at *
  generalize T.b2 / piv T x 2 = r2 at *
  linear_combination (r0 * v 1 + 2 * v 0) * H0 + (r1 * v 2 + 2 * v 1) * H1 + (r2 * v 3 + 2 * v 2) * H2

/-- all the pivots are negative only above all eigenvalues -/
theorem top_lt_of_piv {T : Tri4} {x l : ℝ} (hl : IsTop (triMat T) l) (h : ∀ i, piv T x i < 0) : l < x := by
  obtain ⟨v, hv, he⟩ := hl.1
  have hp := dot_self_pos hv
  have e : qform (triMat T) v = l * (v ⬝ᵥ v) := by rw [qform, he, dotProduct_smul, smul_eq_mul]
  have hf := form_piv T x v (.inl (h 0).ne) (.inl (h 1).ne) (.inl (h 2).ne)
  by_contra hx
  have hge : 0 ≤ qform (triMat T) v - x * (v ⬝ᵥ v) := by rw [e, ← sub_mul]; exact mul_nonneg (by linarith) hp.le
  rw [hf] at hge
  have z0 := mul_nonpos_of_nonpos_of_nonneg (h 0).le (sq_nonneg (v 0 + T.b0 / piv T x 0 * v 1))
  have z1 := mul_nonpos_of_nonpos_of_nonneg (h 1).le (sq_nonneg (v 1 + T.b1 / piv T x 1 * v 2))
  have z2 := mul_nonpos_of_nonpos_of_nonneg (h 2).le (sq_nonneg (v 2 + T.b2 / piv T x 2 * v 3))
  have z3 := mul_nonpos_of_nonpos_of_nonneg (h 3).le (sq_nonneg (v 3))
  have y3 : v 3 = 0 := by
    have : piv T x 3 * v 3 ^ 2 = 0 := by linarith
    simpa [(h 3).ne] using this
  have y2 : v 2 = 0 := by
    have : piv T x 2 * (v 2 + T.b2 / piv T x 2 * v 3) ^ 2 = 0 := by linarith
    simpa [(h 2).ne, y3] using this
  have y1 : v 1 = 0 := by
    have : piv T x 1 * (v 1 + T.b1 / piv T x 1 * v 2) ^ 2 = 0 := by linarith
    simpa [(h 1).ne, y2] using this
  have y0 : v 0 = 0 := by
    have : piv T x 0 * (v 0 + T.b0 / piv T x 0 * v 1) ^ 2 = 0 := by linarith
    simpa [(h 0).ne, y1] using this
  refine hv ?_
  ext i
  fin_cases i <;> assumption

theorem piv_neg {T : Tri4} {x l : ℝ} (hl : IsTop (triMat T) l) (h : l < x) (i : Fin 4) : piv T x i < 0 := by
  have key : ∀ v : Fin 4 → ℝ, v ≠ 0 → qform (triMat T) v - x * (v ⬝ᵥ v) < 0 := by
    intro v hv
    have := top_form (triMat_symm T) hl v
    nlinarith [dot_self_pos hv]
  have h0 : piv T x 0 < 0 := by
    have := key ![1, 0, 0, 0] (fun h => by simpa using congrFun h 0)
    rw [form_piv T x _ (.inr rfl) (.inr rfl) (.inr rfl)] at this
    simpa using this
  have h1 : piv T x 1 < 0 := by
    have := key ![-(T.b0 / piv T x 0), 1, 0, 0] (fun h => by simpa using congrFun h 1)
    rw [form_piv T x _ (.inl h0.ne) (.inr rfl) (.inr rfl)] at this
    simpa using this
  have h2 : piv T x 2 < 0 := by
    have := key ![-(T.b0 / piv T x 0 * -(T.b1 / piv T x 1)), -(T.b1 / piv T x 1), 1, 0] (fun h => by simpa using congrFun h 2)
    rw [form_piv T x _ (.inl h0.ne) (.inl h1.ne) (.inr rfl)] at this
    simpa using this
  have h3 : piv T x 3 < 0 := by
    have := key ![-(T.b0 / piv T x 0 * -(T.b1 / piv T x 1 * -(T.b2 / piv T x 2))), -(T.b1 / piv T x 1 * -(T.b2 / piv T x 2)), -(T.b2 / piv T x 2), 1]
      (fun h => by simpa using congrFun h 3)
    rw [form_piv T x _ (.inl h0.ne) (.inl h1.ne) (.inl h2.ne)] at this
    simpa using this
  fin_cases i <;> assumption

theorem bisEps_pos : 0 < bisEps := by unfold bisEps; positivity

theorem fix_le {b c t : ℝ} (ht : t < 0) (hc : c ≤ t) : -(b * b / fixPivot c) ≤ -(b ^ 2 / t) := by
  have hb := mul_self_nonneg b
  have h1 : b ^ 2 / t ≤ 0 := div_nonpos_of_nonneg_of_nonpos (sq_nonneg b) ht.le
  unfold fixPivot
  split_ifs
  · have := div_nonneg hb bisEps_pos.le
    linarith
  · rw [neg_le_neg_iff, pow_two, div_eq_mul_one_div, div_eq_mul_one_div (b * b) c]
    exact mul_le_mul_of_nonneg_left (one_div_le_one_div_of_neg_of_le ht hc) hb

theorem fix_good {b c : ℝ} (hc : c < 0) (h : ¬ (-(1 / 10 ^ 18) < c ∧ c < 0 ∧ b ≠ 0)) : b * b / fixPivot c = b ^ 2 / c := by
  unfold fixPivot
  split_ifs with h1
  · have : b = 0 := by
      by_contra hb
      refine h ⟨?_, hc, hb⟩
      rw [abs_of_neg hc, bisEps] at h1
      linarith
    subst this
    simp
  · rw [pow_two]

theorem pivotCount_le (T : Tri4) (x : ℝ) : pivotCount T x = 4 ↔
    T.a0 - x < 0 ∧ T.a1 - x - T.b0 * T.b0 / fixPivot (T.a0 - x) < 0 ∧
      T.a2 - x - T.b1 * T.b1 / fixPivot (T.a1 - x - T.b0 * T.b0 / fixPivot (T.a0 - x)) < 0 ∧
      T.a3 - x - T.b2 * T.b2 / fixPivot (T.a2 - x - T.b1 * T.b1 / fixPivot (T.a1 - x - T.b0 * T.b0 / fixPivot (T.a0 - x))) < 0 := by
  unfold pivotCount
  simp only
  constructor
  · intro h
    split_ifs at h <;> first | omega | (refine ⟨?_, ?_, ?_, ?_⟩ <;> assumption)
  · rintro ⟨h0, h1, h2, h3⟩
    rw [if_pos h0, if_pos h1, if_pos h2, if_pos h3]

/-- above all the eigenvalues all the pivots are counted, whatever is replaced -/
theorem count_of_top_lt {T : Tri4} {x l : ℝ} (hl : IsTop (triMat T) l) (h : l < x) : pivotCount T x = 4 := by
  have h0 := piv_neg hl h 0
  have h1 := piv_neg hl h 1
  have h2 := piv_neg hl h 2
  have h3 := piv_neg hl h 3
  obtain ⟨e0, e1, e2, e3⟩ : piv T x 0 = T.a0 - x ∧ piv T x 1 = T.a1 - x - T.b0 ^ 2 / piv T x 0 ∧ piv T x 2 = T.a2 - x - T.b1 ^ 2 / piv T x 1 ∧
    piv T x 3 = T.a3 - x - T.b2 ^ 2 / piv T x 2 := ⟨rfl, rfl, rfl, rfl⟩
  have c0 : T.a0 - x ≤ piv T x 0 := e0.ge
  have c1 : T.a1 - x - T.b0 * T.b0 / fixPivot (T.a0 - x) ≤ piv T x 1 := by
    rw [e1]; linarith [fix_le (b := T.b0) h0 c0]
  have c2 : T.a2 - x - T.b1 * T.b1 / fixPivot (T.a1 - x - T.b0 * T.b0 / fixPivot (T.a0 - x)) ≤ piv T x 2 := by
    rw [e2]; linarith [fix_le (b := T.b1) h1 c1]
  have c3 : T.a3 - x - T.b2 * T.b2 / fixPivot (T.a2 - x - T.b1 * T.b1 / fixPivot (T.a1 - x - T.b0 * T.b0 / fixPivot (T.a0 - x))) ≤ piv T x 3 := by
    rw [e3]; linarith [fix_le (b := T.b2) h2 c2]
  exact (pivotCount_le T x).2 ⟨c0.trans_lt h0, c1.trans_lt h1, c2.trans_lt h2, c3.trans_lt h3⟩

/-- where nothing is replaced, all the pivots are counted only above all the eigenvalues -/
theorem top_lt_of_count {T : Tri4} {x l : ℝ} (hl : IsTop (triMat T) l) (hg : GoodPivots T x) (h : pivotCount T x = 4) : l < x := by
  obtain ⟨h0, h1, h2, h3⟩ := (pivotCount_le T x).1 h
  obtain ⟨e0, e1, e2, e3⟩ : piv T x 0 = T.a0 - x ∧ piv T x 1 = T.a1 - x - T.b0 ^ 2 / piv T x 0 ∧ piv T x 2 = T.a2 - x - T.b1 ^ 2 / piv T x 1 ∧
    piv T x 3 = T.a3 - x - T.b2 ^ 2 / piv T x 2 := ⟨rfl, rfl, rfl, rfl⟩
  obtain ⟨g0, g1, g2⟩ := hg
  rw [← e0] at h0 h1 h2 h3
  rw [fix_good h0 g0, ← e1] at h1 h2 h3
  rw [fix_good h1 g1, ← e2] at h2 h3
  rw [fix_good h2 g2, ← e3] at h3
  refine top_lt_of_piv hl fun i => ?_
  fin_cases i <;> assumption

/-! ### bisection -/

namespace Spec

/-- the points at which the pivots are counted -/
noncomputable def bisPoints (T : Tri4) : (fuel : Nat) → (lower upper : ℝ) → List ℝ := open Classical in fun
  | 0, _, _ => []
  | fuel + 1, lower, upper =>
    if upper - lower ≤ 1 / 10 ^ 18 then []
    else (upper + lower) / 2 ::
      if pivotCount T ((upper + lower) / 2) < 4 then bisPoints T fuel ((upper + lower) / 2) upper else bisPoints T fuel lower ((upper + lower) / 2)

end Spec

theorem pivotCount_four (T : Tri4) (x : ℝ) : ¬ pivotCount T x < 4 ↔ pivotCount T x = 4 := by
  have : pivotCount T x ≤ 4 := by
    unfold pivotCount
    simp only
    split_ifs <;> omega
  omega

theorem mid_ne {lower upper : ℝ} (h : lower < upper) : ¬ ((upper + lower) / 2 = upper ∨ (upper + lower) / 2 = lower) := by
  rintro (h' | h') <;> linarith

theorem bisect_succ (T : Tri4) (fuel : Nat) {lower upper : ℝ} (h : lower ≤ upper) :
    bisect T (fuel + 1) lower upper = open Classical in
      if upper - lower ≤ 1 / 10 ^ 18 then some ((upper + lower) / 2)
      else if pivotCount T ((upper + lower) / 2) < 4 then bisect T fuel ((upper + lower) / 2) upper
      else bisect T fuel lower ((upper + lower) / 2) := by
  rw [bisect]
  have ha : |upper - lower| = upper - lower := abs_of_nonneg (by linarith)
  rw [ha]
  by_cases h1 : upper - lower ≤ 1 / 10 ^ 18
  · rw [if_neg (by unfold bisEps; linarith), if_pos h1]
  · have : lower < upper := by
      have : (0:ℝ) < 1 / 10 ^ 18 := by positivity
      linarith
    rw [if_pos (by unfold bisEps; linarith), if_neg h1]
    simp only [if_neg (mid_ne this)]

/-- the loop ends -/
theorem bisect_ends (T : Tri4) (k : Nat) : ∀ {lower upper : ℝ}, lower ≤ upper → upper - lower ≤ 2 ^ k * (1 / 10 ^ 18) → ∀ fuel, k < fuel →
    ∃ r, bisect T fuel lower upper = some r ∧ lower ≤ r ∧ r ≤ upper := by
  induction k with
  | zero =>
    intro lower upper h hk fuel hf
    obtain ⟨fuel, rfl⟩ : ∃ f, fuel = f + 1 := ⟨fuel - 1, by omega⟩
    rw [bisect_succ T fuel h, if_pos (by linarith)]
    exact ⟨_, rfl, by linarith, by linarith⟩
  | succ k ih =>
    intro lower upper h hk fuel hf
    obtain ⟨fuel, rfl⟩ : ∃ f, fuel = f + 1 := ⟨fuel - 1, by omega⟩
    rw [bisect_succ T fuel h]
    rw [pow_succ] at hk
    split_ifs with h1 h2
    · exact ⟨_, rfl, by linarith, by linarith⟩
    · obtain ⟨r, h3, h4, h5⟩ := ih (lower := (upper + lower) / 2) (upper := upper) (by linarith) (by linarith) fuel (by omega)
      exact ⟨r, h3, by linarith, h5⟩
    · obtain ⟨r, h3, h4, h5⟩ := ih (lower := lower) (upper := (upper + lower) / 2) (by linarith) (by linarith) fuel (by omega)
      exact ⟨r, h3, h4, by linarith⟩

theorem bisect_le {T : Tri4} {l : ℝ} (hl : IsTop (triMat T) l) (fuel : Nat) : ∀ {lower upper r : ℝ}, lower ≤ upper → lower ≤ l →
    bisect T fuel lower upper = some r → r ≤ l + 1 / 10 ^ 18 / 2 := by
  induction fuel with
  | zero => intro lower upper r _ _ h; simp [bisect] at h
  | succ fuel ih =>
    intro lower upper r h h1 hr
    rw [bisect_succ T fuel h] at hr
    split_ifs at hr with h2 h3
    · rw [← Option.some.inj hr]; linarith
    · refine ih (by linarith) ?_ hr
      by_contra hx
      have := count_of_top_lt hl (not_le.1 hx)
      omega
    · exact ih (by linarith) h1 hr

theorem bisect_ge {T : Tri4} {l : ℝ} (hl : IsTop (triMat T) l) (fuel : Nat) : ∀ {lower upper r : ℝ}, lower ≤ upper → l ≤ upper →
    (∀ x ∈ bisPoints T fuel lower upper, GoodPivots T x) → bisect T fuel lower upper = some r → l - 1 / 10 ^ 18 / 2 ≤ r := by
  induction fuel with
  | zero => intro lower upper r _ _ _ h; simp [bisect] at h
  | succ fuel ih =>
    intro lower upper r h h1 hg hr
    rw [bisect_succ T fuel h] at hr
    rw [bisPoints] at hg
    split_ifs at hr hg with h2 h3
    · rw [← Option.some.inj hr]; linarith
    · exact ih (by linarith) h1 (fun x hx => hg x (List.mem_cons_of_mem _ hx)) hr
    · refine ih (by linarith) ?_ (fun x hx => hg x (List.mem_cons_of_mem _ hx)) hr
      exact (top_lt_of_count hl (hg _ List.mem_cons_self) ((pivotCount_four _ _).1 h3)).le

theorem bisect_more (T : Tri4) (fuel : Nat) : ∀ {lower upper r : ℝ}, bisect T fuel lower upper = some r → bisect T (fuel + 1) lower upper = some r := by
  induction fuel with
  | zero => intro lower upper r h; simp [bisect] at h
  | succ fuel ih =>
    intro lower upper r h
    rw [bisect] at h ⊢
    simp only at h ⊢
    split_ifs at h ⊢
    · exact h
    · exact ih h
    · exact ih h
    · exact h

theorem bisect_mono (T : Tri4) {fuel fuel' : Nat} (h : fuel ≤ fuel') {lower upper r : ℝ} (hr : bisect T fuel lower upper = some r) :
    bisect T fuel' lower upper = some r := by
  induction h with
  | refl => exact hr
  | step _ ih => exact bisect_more T _ ih

theorem top_ge {T : Tri4} {l : ℝ} (hl : IsTop (triMat T) l) : T.a0 ≤ l ∧ T.a1 ≤ l ∧ T.a2 ≤ l ∧ T.a3 ≤ l := by
  have k := top_form (triMat_symm T) hl
  refine ⟨?_, ?_, ?_, ?_⟩
  · simpa [qform_tri, dot_four] using k ![1, 0, 0, 0]
  · simpa [qform_tri, dot_four] using k ![0, 1, 0, 0]
  · simpa [qform_tri, dot_four] using k ![0, 0, 1, 0]
  · simpa [qform_tri, dot_four] using k ![0, 0, 0, 1]

theorem cross_le (b x y : ℝ) : 2 * b * x * y ≤ |b| * x ^ 2 + |b| * y ^ 2 := by
  rcases abs_cases b with ⟨h, h'⟩ | ⟨h, h'⟩ <;> rw [h] <;> nlinarith [mul_nonneg (abs_nonneg b) (sq_nonneg (x - y)), mul_nonneg (abs_nonneg b) (sq_nonneg (x + y))]

theorem gersh_top {T : Tri4} {l : ℝ} (hl : IsTop (triMat T) l) : gershLower T ≤ l ∧ l ≤ gershUpper T := by
  obtain ⟨h0, -, -, -⟩ := top_ge hl
  constructor
  · refine le_trans ?_ h0
    have : gershLower T ≤ T.a0 - |T.b0| := (min_le_left _ _).trans ((min_le_left _ _).trans (min_le_left _ _))
    linarith [abs_nonneg T.b0]
  · have u0 : T.a0 + |T.b0| ≤ gershUpper T := ((le_max_left _ _).trans (le_max_left _ _)).trans (le_max_left _ _)
    have u1 : T.a1 + |T.b0| + |T.b1| ≤ gershUpper T := ((le_max_right _ _).trans (le_max_left _ _)).trans (le_max_left _ _)
    have u2 : T.a2 + |T.b2| + |T.b1| ≤ gershUpper T := (le_max_right _ _).trans (le_max_left _ _)
    have u3 : T.a3 + |T.b2| ≤ gershUpper T := le_max_right _ _
    obtain ⟨v, hv, he⟩ := hl.1
    have hp := dot_self_pos hv
    have e : qform (triMat T) v = l * (v ⬝ᵥ v) := by rw [qform, he, dotProduct_smul, smul_eq_mul]
    have hq : qform (triMat T) v ≤ gershUpper T * (v ⬝ᵥ v) := by
      rw [qform_tri, dot_four]
      nlinarith [mul_le_mul_of_nonneg_right u0 (sq_nonneg (v 0)), mul_le_mul_of_nonneg_right u1 (sq_nonneg (v 1)),
        mul_le_mul_of_nonneg_right u2 (sq_nonneg (v 2)), mul_le_mul_of_nonneg_right u3 (sq_nonneg (v 3)),
        cross_le T.b0 (v 0) (v 1), cross_le T.b1 (v 1) (v 2), cross_le T.b2 (v 2) (v 3)]
    rw [e] at hq
    exact le_of_mul_le_mul_right hq hp

theorem gersh_le (T : Tri4) : gershLower T ≤ gershUpper T := by
  obtain ⟨l, hl⟩ := exists_top (triMat_symm T)
  exact (gersh_top hl).1.trans (gersh_top hl).2

theorem maxEigen_ends (T : Tri4) : ∃ k, ∀ fuel, k < fuel → ∃ r, maxEigen fuel T = some r ∧ gershLower T ≤ r ∧ r ≤ gershUpper T := by
  obtain ⟨k, hk⟩ := pow_unbounded_of_one_lt ((gershUpper T - gershLower T) * 10 ^ 18) (one_lt_two : (1:ℝ) < 2)
  refine ⟨k, fun fuel hf => bisect_ends T k (gersh_le T) ?_ fuel hf⟩
  rw [mul_one_div, le_div_iff₀ (by positivity)]
  exact hk.le

/-- **C112**: the search for the largest eigenvalue ends for every matrix, and its result does not depend on how long one waits. -/
theorem c112_terminates (T : Tri4) : ∃ N r, ∀ fuel ≥ N, maxEigen fuel T = some r := by
  obtain ⟨k, h⟩ := maxEigen_ends T
  obtain ⟨r, hr, -⟩ := h (k + 1) (by omega)
  exact ⟨k + 1, r, fun fuel hf => bisect_mono T hf hr⟩

/-- **C112**: the result is never above the largest eigenvalue by more than `5e-19`. -/
theorem c112_max_le (T : Tri4) (l : ℝ) (hl : IsTop (triMat T) l) (fuel : Nat) (r : ℝ) (h : maxEigen fuel T = some r) :
    r ≤ l + 1 / 10 ^ 18 / 2 := bisect_le hl fuel (gersh_le T) (gersh_top hl).1 h

/-- **C112**: the result is the largest eigenvalue up to `5e-19`, if at no point that is looked at a negative pivot above `-1e-18` is
replaced. -/
theorem c112_max_partial (T : Tri4) (l : ℝ) (hl : IsTop (triMat T) l) (fuel : Nat) (r : ℝ) (h : maxEigen fuel T = some r)
    (hg : ∀ x ∈ bisPoints T fuel (gershLower T) (gershUpper T), GoodPivots T x) : |r - l| ≤ 1 / 10 ^ 18 / 2 := by
  have h1 := c112_max_le T l hl fuel r h
  have h2 := bisect_ge hl fuel (gersh_le T) (gersh_top hl).2 hg h
  rw [abs_le]
  constructor <;> linarith

theorem bisPoints_between (T : Tri4) (fuel : Nat) : ∀ {lower upper : ℝ}, lower ≤ upper → ∀ x ∈ bisPoints T fuel lower upper, lower < x ∧ x < upper := by
  induction fuel with
  | zero => intro lower upper _ x hx; simp [bisPoints] at hx
  | succ fuel ih =>
    intro lower upper h x hx
    rw [bisPoints] at hx
    have hpos : (0:ℝ) < 1 / 10 ^ 18 := by positivity
    split_ifs at hx with h1 h2
    · simp at hx
    · rcases List.mem_cons.1 hx with rfl | hx
      · constructor <;> linarith
      · have := ih (by linarith) x hx
        constructor <;> linarith
    · rcases List.mem_cons.1 hx with rfl | hx
      · constructor <;> linarith
      · have := ih (by linarith) x hx
        constructor <;> linarith

/-- a matrix with one entry beside the diagonal -/
def tri01 : Tri4 := ⟨0, 0, 0, 0, 1, 0, 0⟩

theorem tri01_top : IsTop (triMat tri01) 1 := by
  refine ⟨⟨![1, 1, 0, 0], fun h => by simpa using congrFun h 0, ?_⟩, fun m v hv he => ?_⟩
  · ext i
    fin_cases i <;> simp [triMat, tri01, mulVec, dotProduct, Fin.sum_univ_four]
  · have hp := dot_self_pos hv
    have e : qform (triMat tri01) v = m * (v ⬝ᵥ v) := by rw [qform, he, dotProduct_smul, smul_eq_mul]
    rw [qform_tri] at e
    simp only [tri01] at e
    rw [dot_four] at e hp
    by_contra hm
    nlinarith [sq_nonneg (v 0 - v 1), sq_nonneg (v 2), sq_nonneg (v 3)]

theorem tri01_good {x : ℝ} (h : 1 / 2 ≤ x) : GoodPivots tri01 x := by
  refine ⟨?_, ?_, ?_⟩
  · rintro ⟨h1, -, -⟩
    simp [piv, tri01] at h1
    linarith
  · rintro ⟨-, -, h1⟩
    simp [tri01] at h1
  · rintro ⟨-, -, h1⟩
    simp [tri01] at h1

theorem tri01_points (fuel : Nat) : ∀ x ∈ bisPoints tri01 fuel (gershLower tri01) (gershUpper tri01), GoodPivots tri01 x := by
  have e1 : gershLower tri01 = -1 := by simp [gershLower, tri01]
  have e2 : gershUpper tri01 = 1 := by simp [gershUpper, tri01]
  rw [e1, e2]
  rcases fuel with _ | fuel
  · simp [bisPoints]
  have g0 : GoodPivots tri01 0 := ⟨by simp [piv, tri01], by simp [tri01], by simp [tri01]⟩
  have c0 : pivotCount tri01 0 < 4 := by
    by_contra h
    have := top_lt_of_count tri01_top g0 ((pivotCount_four _ _).1 h)
    linarith
  rw [bisPoints, if_neg (by norm_num)]
  have : ((1:ℝ) + -1) / 2 = 0 := by norm_num
  rw [this, if_pos c0]
  intro x hx
  rcases List.mem_cons.1 hx with rfl | hx
  · exact g0
  rcases fuel with _ | fuel
  · simp [bisPoints] at hx
  have c1 : pivotCount tri01 ((1 + 0) / 2) < 4 := by
    by_contra h
    have := top_lt_of_count tri01_top (tri01_good (by norm_num)) ((pivotCount_four _ _).1 h)
    linarith
  rw [bisPoints, if_neg (by norm_num), if_pos c1] at hx
  rcases List.mem_cons.1 hx with rfl | hx
  · exact tri01_good (by norm_num)
  · refine tri01_good ?_
    have := (bisPoints_between tri01 fuel (by norm_num) x hx).1
    linarith

/-- the matrix with one entry meets the conditions -/
example : ∃ N r, (∀ fuel ≥ N, maxEigen fuel tri01 = some r) ∧ |r - 1| ≤ 1 / 10 ^ 18 / 2 := by
  obtain ⟨N, r, h⟩ := c112_terminates tri01
  exact ⟨N, r, h, c112_max_partial tri01 1 tri01_top N r (h N le_rfl) (tri01_points N)⟩

/-- **C112**: it is not the largest eigenvalue for every matrix: for the diagonal `-5e-19`, 0, -1/2, -1/2 and one entry 1 beside it the
largest eigenvalue is more than 0.9, but the result is negative. -/
theorem c112_max_wrong : ∃ (T : Tri4) (l : ℝ) (N : Nat) (r : ℝ), IsTop (triMat T) l ∧ 9 / 10 < l ∧ (∀ fuel ≥ N, maxEigen fuel T = some r) ∧ r < 0 := by
  obtain ⟨T, hT⟩ : ∃ T : Tri4, T = ⟨-(1 / 10 ^ 18 / 2), 0, -1 / 2, -1 / 2, 1, 0, 0⟩ := ⟨_, rfl⟩
  obtain ⟨l, hl⟩ := exists_top (triMat_symm T)
  obtain ⟨N, r, h⟩ := c112_terminates T
  refine ⟨T, l, N, r, hl, ?_, h, ?_⟩
  · have := top_form (triMat_symm T) hl ![1, 1, 0, 0]
    rw [qform_tri, dot_four, hT] at this
    simp at this
    norm_num at this
    linarith
  · have e1 : gershLower T = -1 - 1 / 10 ^ 18 / 2 := by
      rw [hT]
      norm_num [gershLower]
    have e2 : gershUpper T = 1 := by
      rw [hT]
      norm_num [gershUpper]
    have hr := h (N + 1) (by omega)
    unfold maxEigen at hr
    rw [bisect_succ T N (gersh_le T), e1, e2, if_neg (by norm_num), if_neg] at hr
    · obtain ⟨k, hk⟩ := pow_unbounded_of_one_lt (((1 + (-1 - 1 / 10 ^ 18 / 2)) / 2 - (-1 - 1 / 10 ^ 18 / 2) : ℝ) * 10 ^ 18) (one_lt_two : (1:ℝ) < 2)
      obtain ⟨r', hr', -, hle⟩ := bisect_ends T k (lower := -1 - 1 / 10 ^ 18 / 2) (upper := (1 + (-1 - 1 / 10 ^ 18 / 2)) / 2) (by norm_num) (by
        rw [mul_one_div, le_div_iff₀ (by positivity)]
        exact hk.le) (max N (k + 1)) (by omega)
      rw [bisect_mono T (le_max_left N (k + 1)) hr] at hr'
      rw [Option.some.inj hr']
      refine hle.trans_lt ?_
      norm_num
    · rw [pivotCount_four, pivotCount_le, hT]
      have hf : fixPivot (-(1 / 10 ^ 18 / 2) - (1 + (-1 - 1 / 10 ^ 18 / 2)) / 2) = 1 / 10 ^ 18 := by
        rw [fixPivot, if_pos, bisEps]
        rw [bisEps]
        norm_num [abs_lt]
      simp only [hf]
      norm_num

end Electrode
