import Verif.Model.TransformC
import Verif.Props.Project

/-! C102: the compiled matrix functions and the Python functions they replace. -/

namespace Electrode

open Matrix Spec

theorem cNorm3_eq (v : Fin 3 → ℝ) : cNorm3 v = vectorNorm v := by
  rw [vectorNorm, Fin.sum_univ_three]; rfl

theorem unit_c (v : Fin 3 → ℝ) (a : Fin 3) : unitVector v a = v a / cNorm3 v := by
  rw [cNorm3_eq]; rfl

theorem cIsZero_iff (x : ℝ) : cIsZero x = true ↔ |x| < tEps := by
  rw [cIsZero, decide_eq_true_iff, abs_lt]
  exact ⟨fun h => ⟨h.2, h.1⟩, fun h => ⟨h.2, h.1⟩⟩

theorem cNotZero_iff (x : ℝ) : cNotZero x = true ↔ tEps < |x| := by
  rw [cNotZero, decide_eq_true_iff, lt_abs]
  constructor <;> rintro (h | h) <;> first | exact Or.inl h | exact Or.inr (by linarith)

/-- the three by three part and the last column of a matrix given by its entries -/
theorem of_affine (R : Fin 3 → Fin 3 → ℝ) (t : Fin 3 → ℝ) {m0 m1 m2 m3 m4 m5 m6 m7 m8 m9 m10 m11 : ℝ}
    (h0 : m0 = R 0 0) (h1 : m1 = R 0 1) (h2 : m2 = R 0 2) (h3 : m3 = t 0) (h4 : m4 = R 1 0) (h5 : m5 = R 1 1) (h6 : m6 = R 1 2)
    (h7 : m7 = t 1) (h8 : m8 = R 2 0) (h9 : m9 = R 2 1) (h10 : m10 = R 2 2) (h11 : m11 = t 2) :
    (!![m0, m1, m2, m3; m4, m5, m6, m7; m8, m9, m10, m11; 0, 0, 0, 1] : Matrix (Fin 4) (Fin 4) ℝ) = affine R t := by
  subst_vars
  exact (affine_apply R t).symm

/-- C102: the compiled `reflection_matrix` refuses a normal that is too short and otherwise gives what the Python function gives. -/
theorem c102_reflection (p n : Fin 3 → ℝ) : (vectorNorm n < tEps → cReflection p n = .error .valueError) ∧
    (tEps ≤ vectorNorm n → cReflection p n = .ok (reflectionMatrix p n)) := by
  constructor <;> intro h <;> rw [← cNorm3_eq] at h
  · simp only [cReflection, if_pos h]
  · simp only [cReflection, if_neg (not_lt.2 h), reflectionMatrix]
    congr 1
    refine of_affine _ _ ?_ ?_ ?_ ?_ ?_ ?_ ?_ ?_ ?_ ?_ ?_ ?_ <;> simp [unit_c, Fin.sum_univ_three] <;> ring

/-- C102: the compiled `rotation_matrix`. -/
theorem c102_rotation (angle : ℝ) (d : Fin 3 → ℝ) (point : Option (Fin 3 → ℝ)) :
    (vectorNorm d < tEps → cRotation angle d point = .error .valueError) ∧
    (tEps ≤ vectorNorm d → cRotation angle d point = .ok (rotationMatrix angle d point)) := by
  constructor <;> intro h <;> rw [← cNorm3_eq] at h
  · simp only [cRotation, if_pos h]
  · simp only [cRotation, if_neg (not_lt.2 h), rotationMatrix]
    cases point with
    | none =>
      simp only
      congr 1
      rw [homog_affine]
      refine of_affine _ _ ?_ ?_ ?_ ?_ ?_ ?_ ?_ ?_ ?_ ?_ ?_ ?_ <;> simp [rotationCore, unit_c, -mul_eq_mul_right_iff, -mul_eq_mul_left_iff] <;> ring
    | some p =>
      simp only
      congr 1
      refine of_affine _ _ ?_ ?_ ?_ ?_ ?_ ?_ ?_ ?_ ?_ ?_ ?_ ?_ <;> simp [rotationCore, unit_c, Fin.sum_univ_three, -mul_eq_mul_right_iff, -mul_eq_mul_left_iff] <;> ring

/-- C102: the compiled `projection_matrix` also refuses a direction that is orthogonal to the normal; the Python function divides by
zero there. -/
theorem c102_projection (p n : Fin 3 → ℝ) (direction perspective : Option (Fin 3 → ℝ)) (pseudo : Bool) :
    (vectorNorm n < tEps → cProjection p n direction perspective pseudo = .error .valueError) ∧
    (∀ d, tEps ≤ vectorNorm n → perspective = none → direction = some d → |dot3 d (unitVector n)| < tEps →
      cProjection p n direction perspective pseudo = .error .valueError) ∧
    (tEps ≤ vectorNorm n → (∀ d, perspective = none → direction = some d → tEps ≤ |dot3 d (unitVector n)|) →
      cProjection p n direction perspective pseudo = .ok (projectionMatrix p n direction perspective pseudo)) := by
  refine ⟨fun h => ?_, fun d h hp hd hs => ?_, fun h hd => ?_⟩ <;> rw [← cNorm3_eq] at h
  · simp only [cProjection, if_pos h]
  · subst hp hd
    have hz : cIsZero (d 0 * (n 0 / cNorm3 n) + d 1 * (n 1 / cNorm3 n) + d 2 * (n 2 / cNorm3 n)) = true := by
      rw [cIsZero_iff]
      simpa only [dot3, unit_c] using hs
    simp only [cProjection, if_neg (not_lt.2 h), hz, if_true]
  · simp only [cProjection, if_neg (not_lt.2 h), projectionMatrix]
    cases perspective with
    | some q =>
      cases pseudo <;> simp only [if_true, Bool.false_eq_true, if_false] <;> congr 1 <;>
        refine Eq.trans ?_ (block4_apply _ _ _ _).symm <;> congr 1 <;>
        simp [unit_c, vdot_three, dot3] <;> ring_nf <;> simp
    | none =>
      cases direction with
      | none =>
        simp only
        congr 1
        refine of_affine _ _ ?_ ?_ ?_ ?_ ?_ ?_ ?_ ?_ ?_ ?_ ?_ ?_ <;> simp [unit_c, vdot_three, dot3] <;> ring
      | some d =>
        have hd' := hd d rfl rfl
        have hz : cIsZero (d 0 * (n 0 / cNorm3 n) + d 1 * (n 1 / cNorm3 n) + d 2 * (n 2 / cNorm3 n)) = false := by
          rw [← Bool.not_eq_true, cIsZero_iff, not_lt]
          simpa only [dot3, unit_c] using hd'
        simp only [hz, Bool.false_eq_true, if_false]
        congr 1
        have hv : vdot d (unitVector n) = d 0 * (n 0 / cNorm3 n) + d 1 * (n 1 / cNorm3 n) + d 2 * (n 2 / cNorm3 n) := by
          simp only [vdot_three, dot3, unit_c]
        rw [hv]
        generalize d 0 * (n 0 / cNorm3 n) + d 1 * (n 1 / cNorm3 n) + d 2 * (n 2 / cNorm3 n) = s
        refine of_affine _ _ ?_ ?_ ?_ ?_ ?_ ?_ ?_ ?_ ?_ ?_ ?_ ?_ <;> simp [unit_c, vdot_three, dot3] <;> ring

/-- C102: the compiled `shear_matrix` refuses short vectors and otherwise does what the Python function does. -/
theorem c102_shear (angle : ℝ) (d p n : Fin 3 → ℝ) :
    (vectorNorm d < tEps ∨ vectorNorm n < tEps → cShear angle d p n = .error .valueError) ∧
    (tEps ≤ vectorNorm d → tEps ≤ vectorNorm n → cShear angle d p n = shearMatrix angle d p n) := by
  constructor
  · intro h
    rw [← cNorm3_eq, ← cNorm3_eq] at h
    simp only [cShear]
    by_cases h1 : cNorm3 d < tEps
    · rw [if_pos h1]
    · rw [if_neg h1, if_pos (h.resolve_left h1)]
  · intro h1 h2
    rw [← cNorm3_eq] at h1 h2
    simp only [cShear, if_neg (not_lt.2 h1), if_neg (not_lt.2 h2), shearMatrix]
    have e : vdot (unitVector n) (unitVector d) = n 0 / cNorm3 n * (d 0 / cNorm3 d) + n 1 / cNorm3 n * (d 1 / cNorm3 d)
        + n 2 / cNorm3 n * (d 2 / cNorm3 d) := by simp only [vdot_three, dot3, unit_c]
    rw [e]
    split_ifs with h
    · rfl
    · congr 1
      refine of_affine _ _ ?_ ?_ ?_ ?_ ?_ ?_ ?_ ?_ ?_ ?_ ?_ ?_ <;> simp [unit_c, vdot_three, dot3] <;> ring

/-- C102: the compiled `clip_matrix` differs from the Python function only for a near plane at exactly the tolerance. -/
theorem c102_clip (left right bottom top near far : ℝ) (perspective : Bool) (h : perspective = true → near ≠ tEps) :
    cClip left right bottom top near far perspective = clipMatrix left right bottom top near far perspective := by
  simp only [cClip, clipMatrix]
  cases perspective with
  | false => simp
  | true =>
    have e : near < tEps ↔ near ≤ tEps := ⟨le_of_lt, fun hl => lt_of_le_of_ne hl (h rfl)⟩
    simp only [if_true, e]

/-- C102: the compiled `scale_matrix` agrees with the Python function when no direction is given or the direction has length one. -/
theorem c102_scale_partial (factor : ℝ) (origin direction : Option (Fin 3 → ℝ))
    (h : ∀ d, direction = some d → vectorNorm d = 1) : cScale factor origin direction = scaleMatrix factor origin direction := by
  cases direction with
  | none =>
    simp only [cScale, scaleMatrix]
    cases origin <;> refine of_affine _ _ ?_ ?_ ?_ ?_ ?_ ?_ ?_ ?_ ?_ ?_ ?_ ?_ <;> simp <;> ring
  | some d =>
    have hu : unitVector d = d := by
      funext a
      rw [unit_c, cNorm3_eq, h d rfl, div_one]
    simp only [cScale, scaleMatrix, hu]
    cases origin <;> refine of_affine _ _ ?_ ?_ ?_ ?_ ?_ ?_ ?_ ?_ ?_ ?_ ?_ ?_ <;> simp [Fin.sum_univ_three, -mul_eq_mul_right_iff, -mul_eq_mul_left_iff] <;> ring

/-- C102: what the compiled `scale_matrix` does for any direction: it scales by another factor, namely `1 - (1 - factor) * length ^ 2`. -/
theorem c102_scale_factor (factor : ℝ) (origin : Option (Fin 3 → ℝ)) (d : Fin 3 → ℝ) (hd : d ≠ 0) :
    cScale factor origin (some d) = scaleMatrix (1 - (1 - factor) * vectorNorm d ^ 2) origin (some d) := by
  obtain ⟨hu, r, hr, hv⟩ := unit_dot hd
  have hn : vectorNorm d = r := by
    rw [vectorNorm, Fin.sum_univ_three]
    have e : d 0 * d 0 + d 1 * d 1 + d 2 * d 2 = r ^ 2 := by
      simp only [hv]
      simp only [dot3] at hu
      linear_combination r ^ 2 * hu
    rw [e, Real.sqrt_sq hr.le]
  simp only [cScale, scaleMatrix, hn]
  generalize unitVector d = u at *
  simp only [hv]
  cases origin <;> refine of_affine _ _ ?_ ?_ ?_ ?_ ?_ ?_ ?_ ?_ ?_ ?_ ?_ ?_ <;> simp [Fin.sum_univ_three, -mul_eq_mul_right_iff, -mul_eq_mul_left_iff] <;> ring

/-- C102: so with a direction of length two and the factor three, the compiled function scales by nine. -/
theorem c102_scale_counterexample : moveBy (scaleMatrix 3 none (some ![2, 0, 0])) ![1, 0, 0] = ![3, 0, 0] ∧
    moveBy (cScale 3 none (some ![2, 0, 0])) ![1, 0, 0] = ![9, 0, 0] := by
  have hn : vectorNorm (![2, 0, 0] : Fin 3 → ℝ) = 2 := by
    rw [vectorNorm, Fin.sum_univ_three]
    simp
  constructor
  · have e : scaleMatrix 3 none (some ![2, 0, 0]) = !![3, 0, 0, 0; 0, 1, 0, 0; 0, 0, 1, 0; 0, 0, 0, 1] := by
      simp only [scaleMatrix]
      symm
      refine of_affine _ _ ?_ ?_ ?_ ?_ ?_ ?_ ?_ ?_ ?_ ?_ ?_ ?_ <;> simp [unit_c, cNorm3_eq, hn] <;> norm_num
    rw [e]
    ext a
    fin_cases a <;> simp [moveBy, Fin.sum_univ_three]
  · ext a
    fin_cases a <;> simp [moveBy, cScale, Fin.sum_univ_three] <;> norm_num

/-- C102: where the compiled `orthogonalization_matrix` returns numbers, they are those of the Python function, which then raises no
error. -/
theorem c102_orthogonalization_partial (l a : Fin 3 → ℝ) (M : Matrix (Fin 4) (Fin 4) ℝ) (h : cOrthogonalization l a = .ok (some M)) :
    orthogonalizationMatrix l a = .ok M := by
  simp only [cOrthogonalization] at h
  simp only [orthogonalizationMatrix]
  split_ifs at h with h1 h2
  · exact absurd h (by simp)
  · split_ifs with h3
    · simp only [radians] at h3
      exact absurd h3 h2
    · simpa [radians] using h

/-- C102: for lengths of sides and angles that no cell can have the Python function raises an error and the compiled one returns a
matrix with nan. -/
theorem c102_orthogonalization_counterexample : orthogonalizationMatrix ![1, 1, 1] ![60, 60, 180] = .error .valueError ∧
    cOrthogonalization ![1, 1, 1] ![60, 60, 180] = .ok none := by
  have e60 : (60 : ℝ) * (Real.pi / 180) = Real.pi / 3 := by ring
  have e180 : (180 : ℝ) * (Real.pi / 180) = Real.pi := by ring
  have s3 : √(3 : ℝ) * √3 = 3 := Real.mul_self_sqrt (by norm_num)
  have hs : √(3 : ℝ) / 2 * (√3 / 2) = 3 / 4 := by linear_combination s3 / 4
  have he : tEps < 1 / 4 := by norm_num [tEps]
  constructor
  · simp only [orthogonalizationMatrix, radians]
    simp only [Matrix.cons_val_zero, Matrix.cons_val_one, Matrix.cons_val, e60, e180, Real.sin_pi_div_three, Real.cos_pi_div_three,
      Real.cos_pi, hs]
    rw [if_pos (by norm_num)]
  · simp only [cOrthogonalization]
    have h1 : ¬ (|(3 : ℝ) / 4| < tEps ∨ |(1 / 2 : ℝ) * (1 / 2) - -1 - 3 / 4| < tEps) := by
      rw [not_or, not_lt, not_lt]
      constructor <;> norm_num <;> linarith
    simp only [Matrix.cons_val_zero, Matrix.cons_val_one, Matrix.cons_val, e60, e180, Real.sin_pi_div_three, Real.cos_pi_div_three,
      Real.cos_pi, hs, if_neg h1]
    norm_num

/-- C102: the compiled `is_same_transform` gives what the Python function gives, unless a last entry is tiny. -/
theorem c102_same (A B : Matrix (Fin 4) (Fin 4) ℝ) (hA : tEps ≤ |A 3 3|) (hB : tEps ≤ |B 3 3|) : cIsSame A B = isSameTransform A B := by
  have ha : cIsZero (A 3 3) = false := by rw [← Bool.not_eq_true, cIsZero_iff, not_lt]; exact hA
  have hb : cIsZero (B 3 3) = false := by rw [← Bool.not_eq_true, cIsZero_iff, not_lt]; exact hB
  have h0 : ¬ (A 3 3 = 0 ∨ B 3 3 = 0) := by
    have := tEps_pos
    rintro (h | h)
    · rw [h, abs_zero] at hA; linarith
    · rw [h, abs_zero] at hB; linarith
  rw [cIsSame, isSameTransform, ha, hb, if_neg h0]
  simp only [Bool.or_self, Bool.false_eq_true, if_false]
  rw [Bool.eq_iff_iff]
  simp [allclose]

/-- C102: two matrices of which one is a multiple of the other are always found to be the same. -/
theorem c102_same_scaled (A : Matrix (Fin 4) (Fin 4) ℝ) (k : ℝ) (hA : tEps ≤ |A 3 3|) (hk : tEps ≤ |k * A 3 3|) :
    cIsSame (k • A) A = true ∧ cIsSame A (k • A) = true := by
  have hp := tEps_pos
  have h0 : A 3 3 ≠ 0 := fun h => by rw [h, abs_zero] at hA; linarith
  have hk0 : k ≠ 0 := fun h => by rw [h, zero_mul, abs_zero] at hk; linarith
  have e : ∀ i j, (k • A) i j / (k • A) 3 3 = A i j / A 3 3 := fun i j => by
    simp only [Matrix.smul_apply, smul_eq_mul]
    exact mul_div_mul_left _ _ hk0
  have hz : ∀ x : ℝ, |x - x| ≤ 1 / 10 ^ 8 + 1 / 10 ^ 5 * |x| := fun x => by rw [sub_self, abs_zero]; positivity
  have hne : ¬ (k * A 3 3 = 0 ∨ A 3 3 = 0) := by
    rintro (h | h)
    · exact (mul_ne_zero hk0 h0) h
    · exact h0 h
  constructor
  · rw [c102_same _ _ (by simpa using hk) hA, isSameTransform, if_neg (by simpa using hne)]
    simp only [decide_eq_true_iff, allclose, e]
    exact fun i j => hz _
  · rw [c102_same _ _ hA (by simpa using hk), isSameTransform, if_neg (by simpa [or_comm] using hne)]
    simp only [decide_eq_true_iff, allclose, e]
    exact fun i j => hz _

/-- C102: but sameness is not symmetric: a tolerance relative to the second matrix. -/
theorem c102_same_counterexample : ∃ A B, cIsSame A B = true ∧ cIsSame B A = false := by
  obtain ⟨x, hx⟩ : ∃ x : ℝ, x = 1000 := ⟨_, rfl⟩
  obtain ⟨y, hy⟩ : ∃ y : ℝ, y = 100001 / 100 + 5 / 10 ^ 8 := ⟨_, rfl⟩
  have e : ∀ x : ℝ, affine 1 ![x, 0, 0] = !![1, 0, 0, x; 0, 1, 0, 0; 0, 0, 1, 0; 0, 0, 0, 1] := fun x => by
    symm
    refine of_affine _ _ ?_ ?_ ?_ ?_ ?_ ?_ ?_ ?_ ?_ ?_ ?_ ?_ <;> simp
  have hw : ∀ x : ℝ, tEps ≤ |affine 1 ![x, 0, 0] 3 3| := fun x => by
    rw [e, show (!![1, 0, 0, x; 0, 1, 0, 0; 0, 0, 1, 0; 0, 0, 0, 1] : Matrix (Fin 4) (Fin 4) ℝ) 3 3 = 1 from rfl]
    norm_num [tEps]
  refine ⟨affine 1 ![x, 0, 0], affine 1 ![y, 0, 0], ?_, ?_⟩
  · rw [c102_same _ _ (hw _) (hw _), isSameTransform, if_neg (by rw [e, e]; simp)]
    simp only [decide_eq_true_iff, allclose, e]
    have h3 : |x - y| ≤ 1 / 10 ^ 8 + 1 / 10 ^ 5 * |y| := by
      subst hx hy
      rw [abs_of_nonpos (by norm_num), abs_of_pos (by norm_num)]
      norm_num
    intro i j
    fin_cases i <;> fin_cases j <;> first | (simp; done) | (simp; positivity) | simpa using h3
  · rw [c102_same _ _ (hw _) (hw _), isSameTransform, if_neg (by rw [e, e]; simp)]
    simp only [decide_eq_false_iff_not, allclose, e]
    intro h
    have h := h 0 3
    simp at h
    subst hx hy
    rw [abs_of_nonneg (by norm_num)] at h
    norm_num at h

/-- the hypotheses can be met -/
example : tEps ≤ vectorNorm (![1, 2, 2] : Fin 3 → ℝ) ∧ vectorNorm (![0, 0, 0] : Fin 3 → ℝ) < tEps := by
  have h : vectorNorm (![1, 2, 2] : Fin 3 → ℝ) = 3 := by
    rw [vectorNorm, Fin.sum_univ_three]
    rw [show (![1, 2, 2] : Fin 3 → ℝ) 0 * ![1, 2, 2] 0 + (![1, 2, 2] : Fin 3 → ℝ) 1 * ![1, 2, 2] 1
      + (![1, 2, 2] : Fin 3 → ℝ) 2 * ![1, 2, 2] 2 = 3 ^ 2 by simp; norm_num]
    exact Real.sqrt_sq (by norm_num)
  rw [h]
  refine ⟨by norm_num [tEps], ?_⟩
  rw [vectorNorm, Fin.sum_univ_three]
  simpa using tEps_pos

end Electrode
