import Verif.Props.Quaternion
import Mathlib.Analysis.SpecialFunctions.Trigonometric.Inverse
import Mathlib.Analysis.SpecialFunctions.Trigonometric.Bounds
import Mathlib.Analysis.Real.Pi.Bounds

/-! C84: `quaternion_slerp`. -/

namespace Electrode

open Matrix Spec

namespace Spec

/-- inner product of two quaternions -/
def inner4 (p q : Fin 4 → ℝ) : ℝ := p 0 * q 0 + p 1 * q 1 + p 2 * q 2 + p 3 * q 3

/-- `u` is the unit quaternion in the direction of `q` -/
def UnitOf (q u : Fin 4 → ℝ) : Prop := inner4 u u = 1 ∧ ∃ r : ℝ, 0 < r ∧ q = r • u

/-- the angle of the path from `u0` to `u1`, or to `-u1` if that is nearer and the shorter path is wanted, plus `turns` full turns -/
noncomputable def pathAngle (u0 u1 : Fin 4 → ℝ) (turns : ℤ) (shortest : Bool) : ℝ :=
  Real.arccos (if shortest then |inner4 u0 u1| else inner4 u0 u1) + 2 * turns * Real.pi

end Spec

theorem inner4_sum (p q : Quat) : ∑ a, p a * q a = inner4 p q := by rw [Fin.sum_univ_four]; rfl

theorem unitVector_unitOf (q : Quat) (h : q ≠ 0) : UnitOf q (unitVector q) := by
  have hp := quatDot_pos h
  have hs : 0 < √(quatDot q) := Real.sqrt_pos.2 hp
  have hss : √(quatDot q) * √(quatDot q) = quatDot q := Real.mul_self_sqrt hp.le
  have hu : ∀ a, unitVector q a = q a / √(quatDot q) := fun a => rfl
  refine ⟨?_, √(quatDot q), hs, ?_⟩
  · simp only [inner4, hu]
    have := quatDot_eq q
    field_simp
    nlinarith
  · ext a
    rw [Pi.smul_apply, smul_eq_mul, hu]
    field_simp

theorem unitOf_unique {q u : Quat} (h : UnitOf q u) : unitVector q = u := by
  obtain ⟨h1, r, hr, rfl⟩ := h
  have hd : quatDot (r • u) = r * r := by
    rw [quatDot_eq]
    simp only [Pi.smul_apply, smul_eq_mul]
    have : inner4 u u = u 0 * u 0 + u 1 * u 1 + u 2 * u 2 + u 3 * u 3 := rfl
    rw [this] at h1
    linear_combination r * r * h1
  ext a
  show (r • u) a / √(quatDot (r • u)) = u a
  rw [hd, Real.sqrt_mul_self hr.le, Pi.smul_apply, smul_eq_mul]
  field_simp

theorem inner4_abs_le (u v : Quat) (hu : inner4 u u = 1) (hv : inner4 v v = 1) : |inner4 u v| ≤ 1 := by
  unfold inner4 at *
  rw [abs_le]
  constructor
  · nlinarith [mul_self_nonneg (u 0 + v 0), mul_self_nonneg (u 1 + v 1), mul_self_nonneg (u 2 + v 2), mul_self_nonneg (u 3 + v 3)]
  · nlinarith [mul_self_nonneg (u 0 - v 0), mul_self_nonneg (u 1 - v 1), mul_self_nonneg (u 2 - v 2), mul_self_nonneg (u 3 - v 3)]

/-- the vector that the path leads to -/
noncomputable def slerpEnd (u0 u1 : Quat) (shortest : Bool) : Quat := open Classical in
  if shortest ∧ inner4 u0 u1 < 0 then fun a => -u1 a else u1

theorem slerpEnd_inner (u0 u1 : Quat) (shortest : Bool) :
    inner4 u0 (slerpEnd u0 u1 shortest) = if shortest then |inner4 u0 u1| else inner4 u0 u1 := by
  unfold slerpEnd
  by_cases h : inner4 u0 u1 < 0
  · cases shortest
    · simp
    · simp only [h, and_self, if_true]
      rw [abs_of_neg h]
      unfold inner4; ring
  · simp only [h, and_false, if_false]
    rw [abs_of_nonneg (not_lt.1 h), ite_self]

theorem slerpEnd_unit (u0 u1 : Quat) (shortest : Bool) (h : inner4 u1 u1 = 1) :
    inner4 (slerpEnd u0 u1 shortest) (slerpEnd u0 u1 shortest) = 1 := by
  unfold slerpEnd
  split_ifs
  · rw [← h]; unfold inner4; ring
  · exact h

/-- with full turns the angle is neither too small nor a multiple of half a turn -/
theorem angle_ok (c : ℝ) (k : ℤ) (hc : |c| ≤ 1 - tEps) :
    ¬ |Real.arccos c + 2 * k * Real.pi| < tEps ∧ Real.sin (Real.arccos c + 2 * k * Real.pi) ≠ 0 ∧
      Real.cos (Real.arccos c + 2 * k * Real.pi) = c := by
  have he := tEps_pos
  have he1 : tEps < 1 := by unfold tEps; norm_num
  obtain ⟨h1, h2⟩ := abs_le.1 hc
  have hcos : Real.cos (Real.arccos c) = c := Real.cos_arccos (by linarith) (by linarith)
  have hpos : 0 < Real.arccos c := Real.arccos_pos.2 (by linarith)
  have hlt : Real.arccos c < Real.pi := by
    refine lt_of_le_of_ne (Real.arccos_le_pi _) ?_
    intro h
    rw [h, Real.cos_pi] at hcos
    linarith
  have hper : Real.arccos c + 2 * k * Real.pi = Real.arccos c + k * (2 * Real.pi) := by ring
  refine ⟨?_, ?_, ?_⟩
  · rw [not_lt]
    have hbig : tEps ≤ Real.arccos c := by
      have := Real.one_sub_sq_div_two_le_cos (x := Real.arccos c)
      rw [hcos] at this
      nlinarith
    have hpi := Real.pi_gt_three
    rcases lt_trichotomy k 0 with hk | hk | hk
    · have hk' : (k : ℝ) ≤ -1 := by exact_mod_cast (by omega : k ≤ -1)
      rw [abs_of_neg (by nlinarith)]
      nlinarith
    · rw [hk, Int.cast_zero, mul_zero, zero_mul, add_zero, abs_of_pos hpos]
      exact hbig
    · have hk' : (1 : ℝ) ≤ k := by exact_mod_cast (by omega : 1 ≤ k)
      rw [abs_of_pos (by nlinarith)]
      nlinarith
  · rw [hper, Real.sin_add_int_mul_two_pi]
    exact (Real.sin_pos_of_pos_of_lt_pi hpos hlt).ne'
  · rw [hper, Real.cos_add_int_mul_two_pi, hcos]

/-- the formula of the interpolation holds for all fractions but 1, unless the quaternions are nearly parallel -/
theorem slerp_formula {q0 q1 u0 u1 : Quat} (h0 : UnitOf q0 u0) (h1 : UnitOf q1 u1) (hpar : |inner4 u0 u1| ≤ 1 - tEps) (f : ℝ) (hf : f ≠ 1)
    (k : ℤ) (shortest : Bool) : ∀ a, quatSlerp q0 q1 f (2 * k) shortest a =
      u0 a * (Real.sin ((1 - f) * pathAngle u0 u1 k shortest) / Real.sin (pathAngle u0 u1 k shortest))
      + slerpEnd u0 u1 shortest a * (Real.sin (f * pathAngle u0 u1 k shortest) / Real.sin (pathAngle u0 u1 k shortest)) := by
  have hc : |(if shortest then |inner4 u0 u1| else inner4 u0 u1)| ≤ 1 - tEps := by split_ifs <;> simpa using hpar
  obtain ⟨n1, n2, -⟩ := angle_ok _ k hc
  intro a
  unfold quatSlerp
  simp only [unitOf_unique h0, unitOf_unique h1, inner4_sum, if_neg hf]
  by_cases hf0 : f = 0
  · rw [if_pos hf0, hf0, sub_zero, one_mul, zero_mul, Real.sin_zero, zero_div, mul_zero, add_zero]
    rw [show pathAngle u0 u1 k shortest = Real.arccos (if shortest then |inner4 u0 u1| else inner4 u0 u1) + 2 * k * Real.pi from rfl,
      div_self n2, mul_one]
  · rw [if_neg hf0]
    have hnp : ¬ |(|inner4 u0 u1| - 1)| < tEps := by
      rw [not_lt, abs_of_nonpos (by linarith [tEps_pos])]
      linarith
    rw [if_neg hnp]
    have hpair : (if shortest = true ∧ inner4 u0 u1 < 0 then (-inner4 u0 u1, fun a => -u1 a) else (inner4 u0 u1, u1) : ℝ × Quat)
        = (if shortest then |inner4 u0 u1| else inner4 u0 u1, slerpEnd u0 u1 shortest) := by
      unfold slerpEnd
      by_cases h : inner4 u0 u1 < 0
      · cases shortest
        · simp
        · simp [h, abs_of_neg h]
      · simp [h, abs_of_nonneg (not_lt.1 h)]
    rw [hpair]
    simp only [if_neg n1]
    rw [show pathAngle u0 u1 k shortest = Real.arccos (if shortest then |inner4 u0 u1| else inner4 u0 u1) + 2 * k * Real.pi from rfl]
    ring

/-- C84: at fraction 0 and 1 the interpolation gives the two quaternions, normalised. -/
theorem c84_ends (q0 q1 : Quat) (h0 : q0 ≠ 0) (h1 : q1 ≠ 0) (spin : ℝ) (shortest : Bool) :
    UnitOf q0 (quatSlerp q0 q1 0 spin shortest) ∧ UnitOf q1 (quatSlerp q0 q1 1 spin shortest) := by
  constructor
  · have : quatSlerp q0 q1 0 spin shortest = unitVector q0 := by
      unfold quatSlerp; simp only [if_true]
    rw [this]
    exact unitVector_unitOf q0 h0
  · have : quatSlerp q0 q1 1 spin shortest = unitVector q1 := by
      unfold quatSlerp; simp only [one_ne_zero, if_false, if_true]
    rw [this]
    exact unitVector_unitOf q1 h1

/-- C84: in between the path runs on the unit sphere with constant speed: the angle between the values at two fractions is the angle
of the whole path times the difference of the fractions.  For full turns, and quaternions that are not nearly parallel. -/
theorem c84_speed (q0 q1 u0 u1 : Quat) (h0 : UnitOf q0 u0) (h1 : UnitOf q1 u1) (hpar : |inner4 u0 u1| ≤ 1 - tEps) (k : ℤ)
    (shortest : Bool) (f g : ℝ) (hf : f ≠ 1) (hg : g ≠ 1) :
    inner4 (quatSlerp q0 q1 f (2 * k) shortest) (quatSlerp q0 q1 g (2 * k) shortest)
      = Real.cos ((f - g) * pathAngle u0 u1 k shortest) := by
  have hc : |(if shortest then |inner4 u0 u1| else inner4 u0 u1)| ≤ 1 - tEps := by split_ifs <;> simpa using hpar
  obtain ⟨-, n2, n3⟩ := angle_ok _ k hc
  have F := slerp_formula h0 h1 hpar f hf k shortest
  have G := slerp_formula h0 h1 hpar g hg k shortest
  have e1 := slerpEnd_inner u0 u1 shortest
  have e2 := slerpEnd_unit u0 u1 shortest h1.1
  have e0 := h0.1
  rw [← n3] at e1
  change Real.sin (pathAngle u0 u1 k shortest) ≠ 0 at n2
  change _ = Real.cos (pathAngle u0 u1 k shortest) at e1
  generalize pathAngle u0 u1 k shortest = A at *
  generalize slerpEnd u0 u1 shortest = v at *
  have s1 := Real.sin_sq_add_cos_sq A
  have expand : inner4 (quatSlerp q0 q1 f (2 * k) shortest) (quatSlerp q0 q1 g (2 * k) shortest) =
      inner4 u0 u0 * (Real.sin ((1 - f) * A) / Real.sin A) * (Real.sin ((1 - g) * A) / Real.sin A)
      + inner4 v v * (Real.sin (f * A) / Real.sin A) * (Real.sin (g * A) / Real.sin A)
      + inner4 u0 v * ((Real.sin ((1 - f) * A) / Real.sin A) * (Real.sin (g * A) / Real.sin A)
        + (Real.sin (f * A) / Real.sin A) * (Real.sin ((1 - g) * A) / Real.sin A)) := by
    simp only [inner4, F, G]
    ring
  rw [expand, e0, e1, e2]
  rw [show (1 - f) * A = A - f * A by ring, show (1 - g) * A = A - g * A by ring, show (f - g) * A = f * A - g * A by ring,
    Real.sin_sub, Real.sin_sub, Real.cos_sub]
  generalize Real.sin (f * A) = sf
  generalize Real.sin (g * A) = sg
  generalize Real.cos (f * A) = cf
  generalize Real.cos (g * A) = cg
  field_simp
  linear_combination (-sf * sg) * s1

/-- C84: towards fraction 1 the path ends at the second quaternion, or at its negative, which is the same rotation. -/
theorem c84_arrives (q0 q1 u0 u1 : Quat) (h0 : UnitOf q0 u0) (h1 : UnitOf q1 u1) (hpar : |inner4 u0 u1| ≤ 1 - tEps) (k : ℤ)
    (shortest : Bool) : ∃ v, (v = u1 ∨ v = -u1) ∧ quatMatrix v = quatMatrix (quatSlerp q0 q1 1 (2 * k) shortest) ∧
      ∀ f, f ≠ 1 → inner4 (quatSlerp q0 q1 f (2 * k) shortest) v = Real.cos ((1 - f) * pathAngle u0 u1 k shortest) := by
  have hone : quatSlerp q0 q1 1 (2 * k) shortest = u1 := by
    unfold quatSlerp; simp only [one_ne_zero, if_false, if_true]
    exact unitOf_unique h1
  have hv : slerpEnd u0 u1 shortest = u1 ∨ slerpEnd u0 u1 shortest = -u1 := by
    unfold slerpEnd; split_ifs
    · exact Or.inr rfl
    · exact Or.inl rfl
  refine ⟨slerpEnd u0 u1 shortest, hv, ?_, ?_⟩
  · rw [hone]
    refine (c68_sign _ _ ?_ ?_).2 hv
    · rw [quatDot_eq]; exact slerpEnd_unit u0 u1 shortest h1.1
    · rw [quatDot_eq]; exact h1.1
  · intro f hf
    have hc : |(if shortest then |inner4 u0 u1| else inner4 u0 u1)| ≤ 1 - tEps := by split_ifs <;> simpa using hpar
    obtain ⟨-, n2, n3⟩ := angle_ok _ k hc
    have F := slerp_formula h0 h1 hpar f hf k shortest
    have e1 := slerpEnd_inner u0 u1 shortest
    have e2 := slerpEnd_unit u0 u1 shortest h1.1
    rw [← n3] at e1
    change Real.sin (pathAngle u0 u1 k shortest) ≠ 0 at n2
    change _ = Real.cos (pathAngle u0 u1 k shortest) at e1
    generalize pathAngle u0 u1 k shortest = A at *
    generalize slerpEnd u0 u1 shortest = v at *
    have s1 := Real.sin_sq_add_cos_sq A
    have expand : inner4 (quatSlerp q0 q1 f (2 * k) shortest) v =
        inner4 u0 v * (Real.sin ((1 - f) * A) / Real.sin A) + inner4 v v * (Real.sin (f * A) / Real.sin A) := by
      simp only [inner4, F]
      ring
    rw [expand, e1, e2, show (1 - f) * A = A - f * A by ring, Real.sin_sub, Real.cos_sub]
    field_simp
    linear_combination (-Real.sin (f * A)) * s1

/-- C84: nearly parallel quaternions are not interpolated: the first one is kept until fraction 1. -/
theorem c84_parallel (q0 q1 u0 u1 : Quat) (h0 : UnitOf q0 u0) (h1 : UnitOf q1 u1) (hpar : 1 - tEps < |inner4 u0 u1|) (f spin : ℝ)
    (hf : f ≠ 1) (shortest : Bool) : quatSlerp q0 q1 f spin shortest = u0 := by
  have hle := inner4_abs_le u0 u1 h0.1 h1.1
  have hp : |(|inner4 u0 u1| - 1)| < tEps := by
    rw [abs_of_nonpos (by linarith)]
    linarith
  unfold quatSlerp
  simp only [unitOf_unique h0, unitOf_unique h1, inner4_sum, if_neg hf, if_pos hp, ite_self]

/-- C84: with full turns the result is a unit quaternion for all fractions and all quaternions that are not zero. -/
theorem c84_unit (q0 q1 : Quat) (h0 : q0 ≠ 0) (h1 : q1 ≠ 0) (k : ℤ) (shortest : Bool) (f : ℝ) :
    quatDot (quatSlerp q0 q1 f (2 * k) shortest) = 1 := by
  have g0 := unitVector_unitOf q0 h0
  have g1 := unitVector_unitOf q1 h1
  rw [quatDot_eq]
  by_cases hf : f = 1
  · subst hf
    exact (c84_ends q0 q1 h0 h1 _ shortest).2.1
  · rcases lt_or_ge (1 - tEps) |inner4 (unitVector q0) (unitVector q1)| with hp | hp
    · rw [c84_parallel q0 q1 _ _ g0 g1 hp f _ hf]
      exact g0.1
    · have := c84_speed q0 q1 _ _ g0 g1 hp k shortest f f hf hf
      rw [sub_self, zero_mul, Real.cos_zero] at this
      exact this

/-- C84 needs full turns: with `spin=1`, as in the documentation, the result is not a unit quaternion. -/
theorem c84_odd_spin : ∃ q0 q1 : Quat, quatDot q0 = 1 ∧ quatDot q1 = 1 ∧ quatDot (quatSlerp q0 q1 (1 / 2) 1 true) ≠ 1 := by
  have h3 : √3 * √3 = (3 : ℝ) := Real.mul_self_sqrt (by norm_num)
  let q0 : Quat := ![1, 0, 0, 0]
  let q1 : Quat := ![1 / 2, √3 / 2, 0, 0]
  have d0 : quatDot q0 = 1 := by rw [quatDot_eq]; simp [q0]
  have d1 : quatDot q1 = 1 := by rw [quatDot_eq]; simp [q1]; nlinarith
  refine ⟨q0, q1, d0, d1, ?_⟩
  have u0 : UnitOf q0 q0 := ⟨by rw [← d0, quatDot_eq]; rfl, 1, one_pos, by simp⟩
  have u1 : UnitOf q1 q1 := ⟨by rw [← d1, quatDot_eq]; rfl, 1, one_pos, by simp⟩
  have hin : inner4 q0 q1 = 1 / 2 := by simp [inner4, q0, q1]
  have harc : Real.arccos (1 / 2) = Real.pi / 3 := by
    rw [← Real.cos_pi_div_three, Real.arccos_cos (by positivity) (by linarith [Real.pi_pos])]
  have hpi := Real.pi_gt_three
  have e : quatSlerp q0 q1 (1 / 2) 1 true = fun a => -(q0 a + q1 a) := by
    have n1 : ¬ |(|(1 / 2 : ℝ)| - 1)| < tEps := by
      rw [abs_of_pos (by norm_num : (0 : ℝ) < 1 / 2)]
      unfold tEps
      norm_num [abs_of_neg]
    have n2 : ¬ (True ∧ (1 / 2 : ℝ) < 0) := by norm_num
    have n3 : ¬ |Real.pi / 3 + 1 * Real.pi| < tEps := by
      rw [abs_of_pos (by positivity), not_lt]
      unfold tEps
      linarith
    unfold quatSlerp
    simp only [unitOf_unique u0, unitOf_unique u1, inner4_sum, hin, if_neg n1, if_neg n2, harc, if_neg n3,
      if_neg (by norm_num : ¬ (1 / 2 : ℝ) = 0), if_neg (by norm_num : ¬ (1 / 2 : ℝ) = 1)]
    have s1 : Real.sin (Real.pi / 3 + 1 * Real.pi) = -(√3 / 2) := by
      rw [one_mul, Real.sin_add_pi, Real.sin_pi_div_three]
    have s2 : Real.sin (1 / 2 * (Real.pi / 3 + 1 * Real.pi)) = √3 / 2 := by
      rw [show 1 / 2 * (Real.pi / 3 + 1 * Real.pi) = Real.pi - Real.pi / 3 by ring, Real.sin_pi_sub, Real.sin_pi_div_three]
    have s3 : Real.sin ((1 - 1 / 2) * (Real.pi / 3 + 1 * Real.pi)) = √3 / 2 := by
      rw [show (1 - 1 / 2 : ℝ) = 1 / 2 by norm_num, s2]
    have hp : √3 ≠ 0 := by
      intro h; rw [h] at h3; norm_num at h3
    rw [s1, s2, s3]
    ext a
    field_simp
    ring
  rw [e, quatDot_eq]
  simp [q0, q1]
  intro h
  nlinarith

/-- Two quaternions a sixth of a turn apart meet the hypotheses. -/
example : UnitOf (![2, 0, 0, 0] : Quat) ![1, 0, 0, 0] ∧ |inner4 (![1, 0, 0, 0] : Quat) ![0, 1, 0, 0]| ≤ 1 - tEps := by
  refine ⟨⟨by simp [inner4], 2, two_pos, ?_⟩, ?_⟩
  · ext a; fin_cases a <;> simp
  · simp [inner4, tEps]; norm_num

end Electrode
