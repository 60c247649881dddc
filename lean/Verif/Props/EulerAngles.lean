import Verif.Props.Euler
import Verif.Props.QuatEuler
import Mathlib.Analysis.Real.Pi.Bounds

/-
C67: which of the many triples of Euler angles of a rotation `euler_from_matrix` returns.
-/
namespace Electrode

namespace Spec

/-- Even sequences: the second axis follows in the cycle x, y, z, x on the first one, or, in a rotating frame, on the last one. -/
def EvenAxes (static : Bool) (a b c : Fin 3) : Prop := b = (if static then a else c) + 1

/-- The principal ranges: the outer angles between minus and plus π; the middle one between minus and plus π/2 if the outer axes differ,
else from 0 to π for even sequences and from -π to 0 for odd ones. -/
def Principal (static : Bool) (a b c : Fin 3) (x y z : ℝ) : Prop :=
  (-Real.pi ≤ x ∧ x ≤ Real.pi) ∧ (-Real.pi ≤ z ∧ z ≤ Real.pi) ∧
    (a ≠ c → -(Real.pi / 2) ≤ y ∧ y ≤ Real.pi / 2) ∧
    (a = c → EvenAxes static a b c → 0 ≤ y ∧ y ≤ Real.pi) ∧ (a = c → ¬ EvenAxes static a b c → -Real.pi ≤ y ∧ y ≤ 0)

end Spec
open Spec

namespace EulerAng

theorem atan2_polar {r θ : ℝ} (hr : 0 < r) (h1 : -Real.pi < θ) (h2 : θ ≤ Real.pi) : atan2 (r * Real.sin θ) (r * Real.cos θ) = θ := by
  have e : (⟨r * Real.cos θ, r * Real.sin θ⟩ : ℂ) = r * (Complex.cos θ + Complex.sin θ * Complex.I) := by
    apply Complex.ext
    · simp [Complex.cos_ofReal_re, Complex.sin_ofReal_re, Complex.cos_ofReal_im, Complex.sin_ofReal_im]
    · simp [Complex.cos_ofReal_re, Complex.sin_ofReal_re, Complex.cos_ofReal_im, Complex.sin_ofReal_im]
  unfold atan2
  rw [e]
  exact Complex.arg_mul_cos_add_sin_mul_I hr ⟨h1, h2⟩

theorem atan2_range (y x : ℝ) : -Real.pi ≤ atan2 y x ∧ atan2 y x ≤ Real.pi := ⟨(Complex.neg_pi_lt_arg _).le, Complex.arg_le_pi _⟩

theorem atan2_half {x : ℝ} (hx : 0 ≤ x) (y : ℝ) : -(Real.pi / 2) ≤ atan2 y x ∧ atan2 y x ≤ Real.pi / 2 :=
  abs_le.1 (Complex.abs_arg_le_pi_div_two_iff.2 hx)

theorem atan2_upper {y : ℝ} (hy : 0 ≤ y) (x : ℝ) : 0 ≤ atan2 y x := Complex.arg_nonneg_iff.2 hy

theorem norm_two (s u : ℝ) : √(s * Real.sin u * (s * Real.sin u) + s * Real.cos u * (s * Real.cos u)) = |s| := by
  rw [show s * Real.sin u * (s * Real.sin u) + s * Real.cos u * (s * Real.cos u) = s ^ 2 * (Real.sin u ^ 2 + Real.cos u ^ 2) by ring,
    Real.sin_sq_add_cos_sq, mul_one, Real.sqrt_sq_eq_abs]

theorem core_false {x y z : ℝ} (hx : -Real.pi < x ∧ x < Real.pi) (hz : -Real.pi < z ∧ z < Real.pi) (h1 : -(Real.pi / 2) ≤ y) (h2 : y ≤ Real.pi / 2)
    (hg : tEps < |Real.cos y|) : eulerFromCore false 0 1 2 (eulerCore false 0 1 2 x y z) = (x, y, z) := by
  have hc0 : 0 ≤ Real.cos y := Real.cos_nonneg_of_neg_pi_div_two_le_of_le h1 h2
  have hcp : 0 < Real.cos y := by
    rw [abs_of_nonneg hc0] at hg
    exact lt_trans (by unfold tEps; positivity) hg
  have hp := Real.pi_pos
  rw [eulerCore_false]
  simp only [eulerFromCore, Bool.false_eq_true, if_false, Matrix.of_apply, Matrix.cons_val', Matrix.cons_val_zero, Matrix.cons_val_one,
    Matrix.cons_val, neg_neg]
  have e : √(Real.cos y * Real.cos z * (Real.cos y * Real.cos z) + Real.cos y * Real.sin z * (Real.cos y * Real.sin z)) = |Real.cos y| := by
    rw [add_comm]; exact norm_two _ _
  rw [e, if_pos hg, abs_of_pos hcp, atan2_polar hcp hx.1 hx.2.le, atan2_polar hcp hz.1 hz.2.le]
  have := atan2_polar one_pos (θ := y) (by linarith) (by linarith)
  rw [one_mul, one_mul] at this
  rw [this]

theorem core_true {x y z : ℝ} (hx : -Real.pi < x ∧ x < Real.pi) (hz : -Real.pi < z ∧ z < Real.pi) (h1 : 0 ≤ y) (h2 : y ≤ Real.pi)
    (hg : tEps < |Real.sin y|) : eulerFromCore true 0 1 2 (eulerCore true 0 1 2 x y z) = (x, y, z) := by
  have hc0 : 0 ≤ Real.sin y := Real.sin_nonneg_of_nonneg_of_le_pi h1 h2
  have hcp : 0 < Real.sin y := by
    rw [abs_of_nonneg hc0] at hg
    exact lt_trans (by unfold tEps; positivity) hg
  have hp := Real.pi_pos
  rw [eulerCore_true]
  simp only [eulerFromCore, if_true, Matrix.of_apply, Matrix.cons_val', Matrix.cons_val_zero, Matrix.cons_val_one,
    Matrix.cons_val]
  rw [norm_two, if_pos hg, abs_of_pos hcp, atan2_polar hcp hx.1 hx.2.le]
  have := atan2_polar one_pos (θ := y) (by linarith) (by linarith)
  rw [one_mul, one_mul] at this
  rw [this, show -(-Real.sin y * Real.cos z) = Real.sin y * Real.cos z by ring, atan2_polar hcp hz.1 hz.2.le]

theorem core_range (rep : Bool) (N : Matrix (Fin 3) (Fin 3) ℝ) : let v := eulerFromCore rep 0 1 2 N
    (-Real.pi ≤ v.1 ∧ v.1 ≤ Real.pi) ∧ (-Real.pi ≤ v.2.2 ∧ v.2.2 ≤ Real.pi) ∧
      if rep then 0 ≤ v.2.1 ∧ v.2.1 ≤ Real.pi else -(Real.pi / 2) ≤ v.2.1 ∧ v.2.1 ≤ Real.pi / 2 := by
  have hp := Real.pi_pos
  have h0 : -Real.pi ≤ (0 : ℝ) ∧ (0 : ℝ) ≤ Real.pi := ⟨by linarith, hp.le⟩
  cases rep
  · simp only [eulerFromCore, Bool.false_eq_true, if_false]
    split
    · exact ⟨atan2_range _ _, atan2_range _ _, atan2_half (Real.sqrt_nonneg _) _⟩
    · exact ⟨atan2_range _ _, h0, atan2_half (Real.sqrt_nonneg _) _⟩
  · simp only [eulerFromCore, if_true]
    split
    · exact ⟨atan2_range _ _, atan2_range _ _, atan2_upper (Real.sqrt_nonneg _) _, (atan2_range _ _).2⟩
    · exact ⟨atan2_range _ _, h0, atan2_upper (Real.sqrt_nonneg _) _, (atan2_range _ _).2⟩

theorem coreAngles_inj (t : AxTuple) {x y z x' y' z' : ℝ} (h : coreAngles t x y z = coreAngles t x' y' z') : (x, y, z) = (x', y', z') := by
  unfold coreAngles at h
  by_cases hf : t.frame = 0 <;> by_cases hp : t.parity = 0 <;>
    simp only [hf, hp, ne_eq, not_true_eq_false, not_false_eq_true, if_true, if_false, Prod.mk.injEq, neg_inj] at h ⊢ <;>
    exact ⟨by simp [h], by simp [h], by simp [h]⟩

/-- the angles of the core, with the parity of the sequence -/
theorem coreAngles_of (static : Bool) (a b c : Fin 3) (x y z : ℝ) : ∃ u w, ((u, w) = (x, z) ∨ (u, w) = (z, x)) ∧
    ((EvenAxes static a b c ∧ coreAngles (tupleOf static a b c) x y z = (u, y, w)) ∨
      (¬ EvenAxes static a b c ∧ coreAngles (tupleOf static a b c) x y z = (-u, -y, -w))) := by
  have hpar : (tupleOf static a b c).parity = if b = (if static then a else c) + 1 then 0 else 1 := rfl
  refine ⟨if static then x else z, if static then z else x, by cases static <;> simp, ?_⟩
  have hfr : (tupleOf static a b c).frame = if static then 0 else 1 := rfl
  unfold coreAngles EvenAxes
  rw [hpar, hfr]
  by_cases he : b = (if static then a else c) + 1
  · refine .inl ⟨he, ?_⟩
    rw [if_pos he]
    cases static <;> simp
  · refine .inr ⟨he, ?_⟩
    rw [if_neg he]
    cases static <;> simp

end EulerAng
open EulerAng

/-- **C67.** Whatever the matrix, the angles returned are in the principal ranges of the sequence. -/
theorem c67_principal (static : Bool) (a b c : Fin 3) (hab : a ≠ b) (hbc : b ≠ c) (M : Matrix (Fin 4) (Fin 4) ℝ) :
    ∃ x y z, eulerFromMatrix M (.str (axesName static a b c)) = .ok (x, y, z) ∧ Principal static a b c x y z := by
  refine ⟨(eulerFromMatrixT (tupleOf static a b c) M).1, (eulerFromMatrixT (tupleOf static a b c) M).2.1,
    (eulerFromMatrixT (tupleOf static a b c) M).2.2, by simp only [eulerFromMatrix, axTuple_name true static a b c hab hbc], ?_⟩
  have h := eulerFromMatrixT_core (tupleOf static a b c) M
  have hr := core_range (decide ((tupleOf static a b c).rep ≠ 0)) ((upper M).submatrix (permOf (tupleOf static a b c)) (permOf (tupleOf static a b c)))
  rw [← h] at hr
  generalize (eulerFromMatrixT (tupleOf static a b c) M).1 = x at hr ⊢
  generalize (eulerFromMatrixT (tupleOf static a b c) M).2.1 = y at hr ⊢
  generalize (eulerFromMatrixT (tupleOf static a b c) M).2.2 = z at hr ⊢
  have hrep : (tupleOf static a b c).rep = if a = c then 1 else 0 := rfl
  obtain ⟨u, w, huw, ⟨he, e⟩ | ⟨he, e⟩⟩ := coreAngles_of static a b c x y z <;> rw [e] at hr <;> simp only at hr <;>
    obtain ⟨⟨r1, r2⟩, ⟨r3, r4⟩, r5⟩ := hr
  · have hxz : (-Real.pi ≤ x ∧ x ≤ Real.pi) ∧ (-Real.pi ≤ z ∧ z ≤ Real.pi) := by
      rcases huw with h | h <;> obtain ⟨rfl, rfl⟩ := Prod.mk.inj h
      · exact ⟨⟨r1, r2⟩, r3, r4⟩
      · exact ⟨⟨r3, r4⟩, r1, r2⟩
    refine ⟨hxz.1, hxz.2, fun hac => ?_, fun hac _ => ?_, fun _ hne => absurd he hne⟩
    · rw [hrep, if_neg hac] at r5; simpa using r5
    · rw [hrep, if_pos hac] at r5; simpa using r5
  · have hxz : (-Real.pi ≤ x ∧ x ≤ Real.pi) ∧ (-Real.pi ≤ z ∧ z ≤ Real.pi) := by
      rcases huw with h | h <;> obtain ⟨rfl, rfl⟩ := Prod.mk.inj h
      · exact ⟨⟨by linarith, by linarith⟩, by linarith, by linarith⟩
      · exact ⟨⟨by linarith, by linarith⟩, by linarith, by linarith⟩
    refine ⟨hxz.1, hxz.2, fun hac => ?_, fun _ hev => absurd hev he, fun hac _ => ?_⟩
    · rw [hrep, if_neg hac] at r5
      simp only [ne_eq, not_true_eq_false, decide_false, Bool.false_eq_true, if_false] at r5
      exact ⟨by linarith [r5.2], by linarith [r5.1]⟩
    · rw [hrep, if_pos hac] at r5
      simp only [ne_eq, one_ne_zero, not_false_eq_true, decide_true, if_true] at r5
      exact ⟨by linarith [r5.2], by linarith [r5.1]⟩

/-- **C67.** Angles inside the principal ranges are recovered: `euler_from_matrix` returns the angles that `euler_matrix` was given, unless
the middle rotation is within `_EPS` of a degenerate one. -/
theorem c67_angles (static : Bool) (a b c : Fin 3) (hab : a ≠ b) (hbc : b ≠ c) (x y z : ℝ) (hp : Principal static a b c x y z)
    (hx : |x| ≠ Real.pi) (hz : |z| ≠ Real.pi) (hreg : tEps < if a = c then |Real.sin y| else |Real.cos y|) (M : Matrix (Fin 4) (Fin 4) ℝ)
    (h : eulerMatrix x y z (.str (axesName static a b c)) = .ok M) : eulerFromMatrix M (.str (axesName static a b c)) = .ok (x, y, z) := by
  obtain ⟨M₀, h₀, -, hM⟩ := c67_product static a b c hab hbc x y z
  rw [h] at h₀
  obtain rfl := Except.ok.inj h₀
  simp only [eulerFromMatrix, axTuple_name true static a b c hab hbc]
  refine congrArg Except.ok ?_
  have hup : upper M = threeRot static a b c x y z := by ext p q; exact hM.1 p q
  have h1 := eulerFromMatrixT_core (tupleOf static a b c) M
  have hcore := core_threeRot static a b c hab hbc x y z
  simp only at hcore
  rw [hup, ← hcore] at h1
  have hsub : (eulerCore (decide ((tupleOf static a b c).rep ≠ 0)) (permOf (tupleOf static a b c) 0) (permOf (tupleOf static a b c) 1)
      (permOf (tupleOf static a b c) 2) (coreAngles (tupleOf static a b c) x y z).1 (coreAngles (tupleOf static a b c) x y z).2.1
      (coreAngles (tupleOf static a b c) x y z).2.2).submatrix (permOf (tupleOf static a b c)) (permOf (tupleOf static a b c))
      = eulerCore (decide ((tupleOf static a b c).rep ≠ 0)) 0 1 2 (coreAngles (tupleOf static a b c) x y z).1
        (coreAngles (tupleOf static a b c) x y z).2.1 (coreAngles (tupleOf static a b c) x y z).2.2 := by
    ext p q
    exact eulerCore_perm _ _ (permOf_bij static a b c hab hbc).1 _ _ _ p q
  rw [hsub] at h1
  refine coreAngles_inj (tupleOf static a b c) (x := (eulerFromMatrixT (tupleOf static a b c) M).1)
    (y := (eulerFromMatrixT (tupleOf static a b c) M).2.1) (z := (eulerFromMatrixT (tupleOf static a b c) M).2.2) (h1.trans ?_)
  obtain ⟨⟨x1, x2⟩, ⟨z1, z2⟩, p3, p4, p5⟩ := hp
  have strict : ∀ {t : ℝ}, -Real.pi ≤ t → t ≤ Real.pi → |t| ≠ Real.pi → -Real.pi < t ∧ t < Real.pi := fun {t} t1 t2 hne =>
    abs_lt.1 (lt_of_le_of_ne (abs_le.2 ⟨t1, t2⟩) hne)
  have sx := strict x1 x2 hx
  have sz := strict z1 z2 hz
  have hrep : (tupleOf static a b c).rep = if a = c then 1 else 0 := rfl
  obtain ⟨u, w, huw, hcase⟩ := coreAngles_of static a b c x y z
  have su : -Real.pi < u ∧ u < Real.pi := by rcases huw with h | h <;> obtain ⟨rfl, rfl⟩ := Prod.mk.inj h <;> assumption
  have sw : -Real.pi < w ∧ w < Real.pi := by rcases huw with h | h <;> obtain ⟨rfl, rfl⟩ := Prod.mk.inj h <;> assumption
  by_cases hac : a = c
  · have hd : decide ((tupleOf static a b c).rep ≠ 0) = true := by rw [hrep, if_pos hac]; rfl
    rw [hd]
    rw [if_pos hac] at hreg
    rcases hcase with ⟨he, e⟩ | ⟨he, e⟩ <;> rw [e]
    · exact core_true su sw (p4 hac he).1 (p4 hac he).2 hreg
    · exact core_true ⟨by linarith [su.2], by linarith [su.1]⟩ ⟨by linarith [sw.2], by linarith [sw.1]⟩ (by linarith [(p5 hac he).2])
        (by linarith [(p5 hac he).1]) (by rw [Real.sin_neg, abs_neg]; exact hreg)
  · have hd : decide ((tupleOf static a b c).rep ≠ 0) = false := by rw [hrep, if_neg hac]; rfl
    rw [hd]
    rw [if_neg hac] at hreg
    rcases hcase with ⟨he, e⟩ | ⟨he, e⟩ <;> rw [e]
    · exact core_false su sw (p3 hac).1 (p3 hac).2 hreg
    · exact core_false ⟨by linarith [su.2], by linarith [su.1]⟩ ⟨by linarith [sw.2], by linarith [sw.1]⟩ (by linarith [(p3 hac).2])
        (by linarith [(p3 hac).1]) (by rw [Real.cos_neg]; exact hreg)

/-- **C82.** The same for quaternions: `euler_from_quaternion` returns the angles that `quaternion_from_euler` was given. -/
theorem c82_angles (static : Bool) (a b c : Fin 3) (hab : a ≠ b) (hbc : b ≠ c) (x y z : ℝ) (hp : Principal static a b c x y z)
    (hx : |x| ≠ Real.pi) (hz : |z| ≠ Real.pi) (hreg : tEps < if a = c then |Real.sin y| else |Real.cos y|) (q : Quat)
    (h : quatFromEuler x y z (.str (axesName static a b c)) = .ok q) :
    eulerFromMatrix (quatMatrix q) (.str (axesName static a b c)) = .ok (x, y, z) := by
  obtain ⟨q', M, h1, h2, -, h3, -⟩ := c82_from_euler static a b c hab hbc x y z
  rw [h] at h1
  obtain rfl := Except.ok.inj h1
  rw [h3]
  exact c67_angles static a b c hab hbc x y z hp hx hz hreg M h2

/-- For a sequence with a repeated axis that is odd, such as `sxzx`, the middle angle returned is negative: a middle angle of 1 comes back as
-1, with the outer angles changed by half turns. -/
theorem c67_odd_negative (x z : ℝ) (M : Matrix (Fin 4) (Fin 4) ℝ) (h : eulerMatrix x 1 z (.str ['s', 'x', 'z', 'x']) = .ok M) :
    ∃ x' y' z', eulerFromMatrix M (.str ['s', 'x', 'z', 'x']) = .ok (x', y', z') ∧ y' ≤ 0 := by
  obtain ⟨x', y', z', h1, h2⟩ := c67_principal true 0 2 0 (by decide) (by decide) M
  exact ⟨x', y', z', h1, (h2.2.2.2.2 rfl (by unfold EvenAxes; decide)).2⟩

/-- angles in the principal ranges, for the default sequence and for an odd one with a repeated axis -/
example : Principal true 0 1 2 1 (-1) 3 ∧ Principal true 0 2 0 1 (-2) 3 ∧ tEps < |Real.cos (-1)| ∧ |(3 : ℝ)| ≠ Real.pi := by
  have := Real.pi_gt_three
  refine ⟨⟨⟨?_, ?_⟩, ⟨?_, ?_⟩, fun _ => ⟨?_, ?_⟩, fun h => absurd h (by decide), fun h => absurd h (by decide)⟩,
    ⟨⟨?_, ?_⟩, ⟨?_, ?_⟩, fun h => absurd rfl h, fun _ h => absurd h (by unfold EvenAxes; decide), fun _ _ => ⟨?_, ?_⟩⟩, ?_, ?_⟩
  any_goals linarith
  · rw [Real.cos_neg, abs_of_pos Real.cos_one_pos]
    have h1 := Real.one_sub_sq_div_two_le_cos (x := 1)
    unfold tEps
    norm_num at h1 ⊢
    linarith
  · rw [abs_of_pos (by norm_num)]
    exact this.ne

end Electrode
