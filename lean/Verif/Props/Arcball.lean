import Verif.Model.Arcball
import Verif.Props.CompiledQuat

/-
C105: the class `Arcball`.
-/
namespace Electrode

open Matrix Spec

namespace Spec

/-- the point of the unit sphere that lies under a point of the window, `y` pointing up there and down here; points outside of the circle
belong to the nearest point of its rim -/
def SpherePoint (p c : Fin 2 → ℝ) (r : ℝ) (v : Fin 3 → ℝ) : Prop :=
  let x := (p 0 - c 0) / r
  let y := (c 1 - p 1) / r
  v 0 * v 0 + v 1 * v 1 + v 2 * v 2 = 1 ∧ 0 ≤ v 2 ∧
    (x * x + y * y ≤ 1 → v 0 = x ∧ v 1 = y) ∧ (1 < x * x + y * y → v 2 = 0 ∧ ∃ k : ℝ, 0 < k ∧ v 0 = k * x ∧ v 1 = k * y)

/-- the rotation by half a turn about a unit vector -/
def halfTurn (v : Fin 3 → ℝ) : Matrix (Fin 3) (Fin 3) ℝ := fun i j => 2 * (v i * v j) - if i = j then 1 else 0

end Spec

theorem mapToSphere_spec {p c : Fin 2 → ℝ} {r : ℝ} {v : Vec3} (h : mapToSphere p c r = some v) : SpherePoint p c r v := by
  unfold mapToSphere at h
  simp only at h
  by_cases hr : r = 0
  · rw [if_pos hr] at h; simp at h
  rw [if_neg hr] at h
  unfold SpherePoint
  simp only
  generalize (p 0 - c 0) / r = x at *
  generalize (c 1 - p 1) / r = y at *
  by_cases hn : 1 < x * x + y * y
  · rw [if_pos hn] at h
    have h := Option.some.inj h
    subst h
    have hp : 0 < √(x * x + y * y) := Real.sqrt_pos.2 (by linarith)
    have hs : √(x * x + y * y) * √(x * x + y * y) = x * x + y * y := Real.mul_self_sqrt (by linarith)
    simp only [Matrix.cons_val_zero, Matrix.cons_val_one, Matrix.cons_val]
    refine ⟨?_, le_refl _, fun h => absurd h (not_le.2 hn), fun _ => ⟨trivial, 1 / √(x * x + y * y), by positivity, by ring, by ring⟩⟩
    generalize √(x * x + y * y) = n at *
    field_simp
    linarith
  · rw [if_neg hn] at h
    have h := Option.some.inj h
    subst h
    have hs : √(1 - (x * x + y * y)) * √(1 - (x * x + y * y)) = 1 - (x * x + y * y) := Real.mul_self_sqrt (by linarith)
    simp only [Matrix.cons_val_zero, Matrix.cons_val_one, Matrix.cons_val]
    exact ⟨by linarith, Real.sqrt_nonneg _, fun _ => ⟨trivial, trivial⟩, fun h => absurd h hn⟩

theorem mapToSphere_some {p c : Fin 2 → ℝ} {r : ℝ} (h : r ≠ 0) : ∃ v, mapToSphere p c r = some v := by
  unfold mapToSphere
  simp only [if_neg h]
  split_ifs
  · exact ⟨_, rfl⟩
  · exact ⟨_, rfl⟩

/-- the vector from the axis to the point -/
noncomputable def perp (p a : Vec3) : Vec3 := fun i => p i - a i * npDot a p

theorem perp_dot (p a : Vec3) (ha : npDot a a = 1) : npDot a (perp p a) = 0 := by
  simp only [npDot, perp] at *
  linear_combination -(a 0 * p 0 + a 1 * p 1 + a 2 * p 2) * ha

theorem perp_sq (p a : Vec3) (ha : npDot a a = 1) (hp : npDot p p = 1) : npDot (perp p a) (perp p a) = 1 - npDot a p * npDot a p := by
  simp only [npDot, perp] at *
  linear_combination (a 0 * p 0 + a 1 * p 1 + a 2 * p 2) * (a 0 * p 0 + a 1 * p 1 + a 2 * p 2) * ha + hp

theorem npDot_nonneg (v : Vec3) : 0 ≤ npDot v v := by
  unfold npDot; nlinarith [mul_self_nonneg (v 0), mul_self_nonneg (v 1), mul_self_nonneg (v 2)]

theorem constrainTo_eq (lib : BallLib) (p a : Vec3) : constrainTo lib p a = (open Classical in
    if tEps < √(npDot (perp p a) (perp p a)) then
      some fun i => (if lib = .python ∧ perp p a 2 < 0 then -perp p a i else perp p a i) / √(npDot (perp p a) (perp p a))
    else if a 2 = 1 then some ![1, 0, 0]
    else if √(a 0 * a 0 + a 1 * a 1) = 0 then none
    else some ![-a 1 / √(a 0 * a 0 + a 1 * a 1), a 0 / √(a 0 * a 0 + a 1 * a 1), 0]) := by
  unfold constrainTo
  have e : (fun i => p i - a i * npDot a p) = perp p a := rfl
  simp only [e]
  congr 1
  by_cases h : lib = .python ∧ perp p a 2 < 0
  · have h' : lib = .python ∧ p 2 - a 2 * npDot a p < 0 := h
    simp only [if_pos h, if_pos h']
    rfl
  · have h' : ¬ (lib = .python ∧ p 2 - a 2 * npDot a p < 0) := h
    simp only [if_neg h, if_neg h']

theorem constrainTo_spec {lib : BallLib} {p a v : Vec3} (ha : npDot a a = 1) (h : constrainTo lib p a = some v) :
    npDot v v = 1 ∧ npDot a v = 0 := by
  rw [constrainTo_eq] at h
  have hd := perp_dot p a ha
  have hs := Real.mul_self_sqrt (npDot_nonneg (perp p a))
  by_cases h1 : tEps < √(npDot (perp p a) (perp p a))
  · rw [if_pos h1] at h
    have h := Option.some.inj h
    subst h
    have hn : 0 < √(npDot (perp p a) (perp p a)) := lt_trans tEps_pos h1
    obtain ⟨n, hn'⟩ : ∃ n, n = √(npDot (perp p a) (perp p a)) := ⟨_, rfl⟩
    rw [← hn'] at hs hn ⊢
    generalize perp p a = w at *
    simp only [npDot] at *
    by_cases hf : lib = .python ∧ w 2 < 0
    · simp only [if_pos hf]
      constructor
      · field_simp; linarith
      · field_simp; linarith
    · simp only [if_neg hf]
      constructor
      · field_simp; linarith
      · field_simp; linarith
  · rw [if_neg h1] at h
    by_cases h2 : a 2 = 1
    · rw [if_pos h2] at h
      have h := Option.some.inj h
      subst h
      simp only [npDot, Matrix.cons_val_zero, Matrix.cons_val_one, Matrix.cons_val] at *
      rw [h2] at ha
      have : a 0 = 0 := by nlinarith [mul_self_nonneg (a 0), mul_self_nonneg (a 1)]
      constructor
      · norm_num
      · rw [this]; ring
    · rw [if_neg h2] at h
      have hm := Real.mul_self_sqrt (show 0 ≤ a 0 * a 0 + a 1 * a 1 by nlinarith [mul_self_nonneg (a 0), mul_self_nonneg (a 1)])
      generalize √(a 0 * a 0 + a 1 * a 1) = m at *
      by_cases h3 : m = 0
      · rw [if_pos h3] at h; simp at h
      · rw [if_neg h3] at h
        have h := Option.some.inj h
        subst h
        simp only [npDot, Matrix.cons_val_zero, Matrix.cons_val_one, Matrix.cons_val]
        constructor
        · field_simp; linarith
        · field_simp; ring

theorem constrainTo_some (lib : BallLib) (p : Vec3) {a : Vec3} (ha : npDot a a = 1) (h : a 2 ≠ -1) : ∃ v, constrainTo lib p a = some v := by
  rw [constrainTo_eq]
  by_cases h1 : tEps < √(npDot (perp p a) (perp p a))
  · rw [if_pos h1]; exact ⟨_, rfl⟩
  · rw [if_neg h1]
    by_cases h2 : a 2 = 1
    · rw [if_pos h2]; exact ⟨_, rfl⟩
    · rw [if_neg h2, if_neg]
      · exact ⟨_, rfl⟩
      · intro h3
        have h4 := Real.sqrt_eq_zero'.1 h3
        simp only [npDot] at ha
        have : (a 2 - 1) * (a 2 + 1) = 0 := by nlinarith [mul_self_nonneg (a 0), mul_self_nonneg (a 1), mul_self_nonneg (a 2)]
        rcases mul_eq_zero.1 this with h5 | h5
        · exact h2 (by linarith)
        · exact h (by linarith)

/-- the product of the constrained point with the point itself -/
theorem constrainTo_dot {lib : BallLib} {p a v : Vec3} (ha : npDot a a = 1) (hp : npDot p p = 1) (h2 : 0 ≤ p 2)
    (h : constrainTo lib p a = some v) : -1 < npDot v p ∧
      (tEps < √(1 - npDot a p * npDot a p) → lib = .compiled → npDot v p = √(1 - npDot a p * npDot a p)) ∧
      (¬ tEps < √(1 - npDot a p * npDot a p) → npDot v p ≤ tEps) := by
  have hsq := perp_sq p a ha hp
  have hd := perp_dot p a ha
  have hvp : npDot v p = npDot v (perp p a) := by
    have := (constrainTo_spec ha h).2
    simp only [npDot, perp] at *
    linear_combination (a 0 * p 0 + a 1 * p 1 + a 2 * p 2) * this
  have hvv := (constrainTo_spec ha h).1
  rw [← hsq]
  have hs := Real.mul_self_sqrt (npDot_nonneg (perp p a))
  have hs0 := Real.sqrt_nonneg (npDot (perp p a) (perp p a))
  have he1 : tEps < 1 := by unfold tEps; norm_num
  obtain ⟨n, hn⟩ : ∃ n, n = √(npDot (perp p a) (perp p a)) := ⟨_, rfl⟩
  rw [constrainTo_eq] at h
  rw [← hn] at hs hs0 h ⊢
  have hcs : npDot v (perp p a) * npDot v (perp p a) ≤ n * n := by
    rw [hs]
    have : npDot v (perp p a) * npDot v (perp p a) ≤ npDot v v * npDot (perp p a) (perp p a) := by
      generalize perp p a = w
      simp only [npDot]
      nlinarith [mul_self_nonneg (v 0 * w 1 - v 1 * w 0), mul_self_nonneg (v 0 * w 2 - v 2 * w 0),
        mul_self_nonneg (v 1 * w 2 - v 2 * w 1)]
    rwa [hvv, one_mul] at this
  have habs : |npDot v (perp p a)| ≤ n := abs_le_of_sq_le_sq (by nlinarith) hs0
  rw [hvp]
  by_cases h1 : tEps < n
  · rw [if_pos h1] at h
    have h := Option.some.inj h
    have hn0 : n ≠ 0 := (lt_trans tEps_pos h1).ne'
    refine ⟨?_, fun _ hl => ?_, fun h => absurd h1 h⟩
    · by_cases hf : lib = .python ∧ perp p a 2 < 0
      · have hlt : n < 1 := by
          by_contra hc
          have h3 : npDot a p * npDot a p ≤ 0 := by nlinarith
          have h4 : npDot a p = 0 := by nlinarith [mul_self_nonneg (npDot a p)]
          have h5 := hf.2
          simp only [perp, h4, mul_zero, sub_zero] at h5
          linarith
        have := (abs_le.1 habs).1
        linarith
      · simp only [if_neg hf] at h
        rw [← h]
        have : npDot (fun i => perp p a i / n) (perp p a) = n := by
          have e : npDot (fun i => perp p a i / n) (perp p a) = npDot (perp p a) (perp p a) / n := by
            simp only [npDot]; ring
          rw [e, ← hs]; field_simp
        rw [this]; linarith
    · have hf : ¬ (lib = .python ∧ perp p a 2 < 0) := by rw [hl]; simp
      simp only [if_neg hf] at h
      rw [← h]
      have e : npDot (fun i => perp p a i / n) (perp p a) = npDot (perp p a) (perp p a) / n := by
        simp only [npDot]; ring
      rw [e, ← hs]; field_simp
  · have hb := abs_le.1 habs
    exact ⟨by linarith, fun h => absurd h h1, fun _ => by linarith⟩

/-- one axis of the search -/
noncomputable def nearestStep (lib : BallLib) (p : Vec3) (s : Option Vec3 × ℝ) (axis : Vec3) : Option Vec3 × ℝ := open Classical in
  match constrainTo lib p axis with
  | none => s
  | some v => if s.2 < npDot v p then (some axis, npDot v p) else s

theorem nearestAxis_eq (lib : BallLib) (p : Vec3) (axes : List Vec3) :
    nearestAxis lib p axes = (axes.foldl (nearestStep lib p) (none, -1)).1 := rfl

/-- the search for the nearest axis -/
theorem nearest_fold (lib : BallLib) (p : Vec3) (axes : List Vec3) (s : Option Vec3 × ℝ) :
    let r := axes.foldl (nearestStep lib p) s
    s.2 ≤ r.2 ∧ (∀ b ∈ axes, ∀ v, constrainTo lib p b = some v → npDot v p ≤ r.2) ∧
      ((r = s) ∨ ∃ a ∈ axes, r.1 = some a ∧ ∃ v, constrainTo lib p a = some v ∧ r.2 = npDot v p) := by
  induction axes generalizing s with
  | nil => intro r; exact ⟨le_refl _, fun b hb => by simp at hb, Or.inl rfl⟩
  | cons c axes ih =>
    intro r
    obtain ⟨s', hs'⟩ : ∃ s', s' = nearestStep lib p s c := ⟨_, rfl⟩
    have hr0 := hs'
    unfold nearestStep at hs'
    have hr : r = axes.foldl (nearestStep lib p) s' := by rw [hr0]; rfl
    obtain ⟨h1, h2, h3⟩ := ih s'
    rw [← hr] at h1 h2 h3
    have key : s.2 ≤ s'.2 ∧ (∀ v, constrainTo lib p c = some v → npDot v p ≤ s'.2) ∧
        (s' = s ∨ (s'.1 = some c ∧ ∃ v, constrainTo lib p c = some v ∧ s'.2 = npDot v p)) := by
      rcases hc : constrainTo lib p c with _ | v
      · rw [hc] at hs'
        simp only at hs'
        rw [hs']
        exact ⟨le_refl _, fun v hv => by simp at hv, Or.inl rfl⟩
      · rw [hc] at hs'
        simp only at hs'
        by_cases hlt : s.2 < npDot v p
        · rw [if_pos hlt] at hs'
          rw [hs']
          refine ⟨hlt.le, fun w hw => ?_, Or.inr ⟨rfl, v, rfl, rfl⟩⟩
          rw [← Option.some.inj hw]
        · rw [if_neg hlt] at hs'
          rw [hs']
          refine ⟨le_refl _, fun w hw => ?_, Or.inl rfl⟩
          rw [← Option.some.inj hw]
          exact not_lt.1 hlt
    obtain ⟨k1, k2, k3⟩ := key
    refine ⟨k1.trans h1, fun b hb v hv => ?_, ?_⟩
    · rcases List.mem_cons.1 hb with rfl | hb
      · exact (k2 v hv).trans h1
      · exact h2 b hb v hv
    · rcases h3 with h3 | ⟨a, ha, h4⟩
      · rcases k3 with k3 | ⟨k3, v, k4, k5⟩
        · left; rw [h3, k3]
        · right
          refine ⟨c, List.mem_cons_self, ?_, v, k4, ?_⟩
          · rw [h3, k3]
          · rw [h3, k5]
      · right; exact ⟨a, List.mem_cons_of_mem _ ha, h4⟩

theorem nearest_spec {lib : BallLib} {p : Vec3} {axes : List Vec3} {a : Vec3} (h : nearestAxis lib p axes = some a) :
    a ∈ axes ∧ ∃ v, constrainTo lib p a = some v ∧ ∀ b ∈ axes, ∀ w, constrainTo lib p b = some w → npDot w p ≤ npDot v p := by
  obtain ⟨h1, h2, h3⟩ := nearest_fold lib p axes (none, -1)
  rw [nearestAxis_eq] at h
  rcases h3 with h3 | ⟨c, hc, h4, v, h5, h6⟩
  · rw [h3] at h; simp at h
  · rw [h4] at h
    have h := Option.some.inj h
    subst h
    rw [h6] at h2
    exact ⟨hc, v, h5, h2⟩

theorem nearest_some {lib : BallLib} {p : Vec3} {axes : List Vec3} (hp : npDot p p = 1) (h2 : 0 ≤ p 2) (hne : axes ≠ [])
    (ha : ∀ b ∈ axes, npDot b b = 1 ∧ b 2 ≠ -1) : ∃ a, nearestAxis lib p axes = some a := by
  obtain ⟨b, hb⟩ := List.exists_mem_of_ne_nil axes hne
  obtain ⟨v, hv⟩ := constrainTo_some lib p (ha b hb).1 (ha b hb).2
  obtain ⟨-, h4, h3⟩ := nearest_fold lib p axes (none, -1)
  rw [nearestAxis_eq]
  rcases h3 with h3 | ⟨c, _, h5, _⟩
  · have := h4 b hb v hv
    rw [h3] at this
    have := (constrainTo_dot (ha b hb).1 hp h2 hv).1
    simp only at *
    linarith
  · exact ⟨c, h5⟩

/-- what holds of every ball -/
structure BallGood (s : Ball) : Prop where
  qnow : quatDot s.qnow = 1
  qdown : quatDot s.qdown = 1
  qpre : quatDot s.qpre = 1
  vdown : npDot s.vdown s.vdown = 1
  axes : ∀ l, s.axes = some l → ∀ a ∈ l, npDot a a = 1
  axis : ∀ a, s.axis = some a → npDot a a = 1 ∧ npDot a s.vdown = 0

theorem newBall_good {q : Quat} (h : quatDot q = 1) : BallGood (newBall q) where
  qnow := h
  qdown := h
  qpre := h
  vdown := by simp [newBall, npDot]
  axes l hl := by simp [newBall] at hl
  axis a ha := by simp [newBall] at ha

theorem unitVector3_dot {a : Vec3} (h : vectorNorm a ≠ 0) : npDot (unitVector a) (unitVector a) = 1 := by
  have e : ∑ i, a i * a i = a 0 * a 0 + a 1 * a 1 + a 2 * a 2 := Fin.sum_univ_three _
  have hs := Real.mul_self_sqrt (show 0 ≤ ∑ i, a i * a i from Finset.sum_nonneg fun i _ => mul_self_nonneg _)
  unfold vectorNorm at h
  simp only [npDot, unitVector]
  generalize √(∑ i, a i * a i) = n at *
  rw [e] at hs
  field_simp
  linarith

/-- the quaternion of `drag` -/
theorem dragQuat_dot (a b : Vec3) : quatDot ![npDot a b, npCross a b 0, npCross a b 1, npCross a b 2] = npDot a a * npDot b b := by
  rw [quatDot_eq]
  simp only [npDot, npCross, Matrix.cons_val_zero, Matrix.cons_val_one, Matrix.cons_val]
  ring

theorem unitVector_of_unit {q : Quat} (h : quatDot q = 1) : unitVector q = q := by
  funext a
  show q a / √(quatDot q) = q a
  rw [h, Real.sqrt_one, div_one]

theorem vectorNorm_of_unit {q : Quat} (h : quatDot q = 1) : vectorNorm q = 1 := by
  show √(quatDot q) = 1
  rw [h, Real.sqrt_one]

theorem ne_zero_of_unit {q : Quat} (h : quatDot q = 1) : q ≠ 0 := by
  rintro rfl
  rw [quatDot_eq] at h
  simp at h

theorem cNorm4_of_unit {q : Quat} (h : quatDot q = 1) : cNorm4 q = 1 := by
  rw [cNorm4_vec, vectorNorm_of_unit h]

/-- what the compiled interpolation of unit quaternions can return -/
theorem cSlerp_cases {q0 q1 : Quat} (h0 : quatDot q0 = 1) (h1 : quatDot q1 = 1) (f : ℝ) :
    ∃ r, cSlerp q0 q1 f 0 true = .ok r ∧ (r = q0 ∨ r = q1 ∨ r = quatSlerp q0 q1 f 0 true) := by
  have he := tEps_pos
  have he1 : tEps < 1 := by unfold tEps; norm_num
  have n0 := cNorm4_of_unit h0
  have n1 := cNorm4_of_unit h1
  have c1 : ¬ (1 : ℝ) < tEps := by linarith
  have v0 : ![q0 0 / 1, q0 1 / 1, q0 2 / 1, q0 3 / 1] = q0 := by simp only [div_one]; exact vec4_eta q0
  have v1 : ![q1 0 / 1, q1 1 / 1, q1 2 / 1, q1 3 / 1] = q1 := by simp only [div_one]; exact vec4_eta q1
  by_cases hf : f = 0 ∨ f = 1 ∨ (tEps < |f| ∧ tEps ≤ |(|f| - 1)|)
  · by_cases hp : |inner4 (unitVector q0) (unitVector q1)| = 1 - tEps
    · rw [unitVector_of_unit h0, unitVector_of_unit h1] at hp
      by_cases hf1 : |(|f| - 1)| < tEps
      · refine ⟨q1, ?_, Or.inr (Or.inl rfl)⟩
        simp only [cSlerp, n0, n1, if_neg c1, if_pos hf1, v1]
      · refine ⟨q0, ?_, Or.inl rfl⟩
        have hs : ¬ tEps < |(|inner4 q0 q1| - 1)| := by
          rw [hp, show 1 - tEps - 1 = -tEps by ring, abs_neg, abs_of_pos he]
          exact lt_irrefl _
        have hi : q0 0 * q1 0 + q0 1 * q1 1 + q0 2 * q1 2 + q0 3 * q1 3 = inner4 q0 q1 := rfl
        simp only [cSlerp, n0, n1, if_neg c1, if_neg hf1, v0]
        simp only [hi, div_one, if_neg hs, ite_self]
    · refine ⟨_, ?_, Or.inr (Or.inr rfl)⟩
      have := c103_slerp_partial q0 q1 f 0 true (by rw [vectorNorm_of_unit h0]; exact he1.le) (by rw [vectorNorm_of_unit h1]; exact he1.le) hf hp
      rw [this]; simp
  · push Not at hf
    obtain ⟨f0, f1, f2⟩ := hf
    by_cases hf1 : |(|f| - 1)| < tEps
    · refine ⟨q1, ?_, Or.inr (Or.inl rfl)⟩
      simp only [cSlerp, n0, n1, if_neg c1, if_pos hf1, v1]
    · have hz : ¬ cNotZero f = true := by
        rw [cNotZero_iff]
        intro hc
        exact hf1 (f2 hc)
      refine ⟨q0, ?_, Or.inl rfl⟩
      simp only [cSlerp, n0, n1, if_neg c1, if_neg hf1, v0, if_neg hz]

theorem ballNext_good {lib : BallLib} {s s' : Ball} {acc : ℝ} (hg : BallGood s) (h : ballNext lib s acc = some s') : BallGood s' := by
  have hq : ∀ q : Quat, quatDot q = 1 → BallGood { s with qpre := s.qnow, qnow := q } := fun q hq =>
    { qnow := hq, qdown := hg.qdown, qpre := hg.qnow, vdown := hg.vdown, axes := hg.axes, axis := hg.axis }
  have hs : quatDot (quatSlerp s.qpre s.qnow (2 + acc) 0 true) = 1 := by
    have := c84_unit s.qpre s.qnow (ne_zero_of_unit hg.qpre) (ne_zero_of_unit hg.qnow) 0 true (2 + acc)
    simpa using this
  unfold ballNext at h
  cases lib with
  | python =>
    have h := Option.some.inj h
    rw [← h]; exact hq _ hs
  | compiled =>
    obtain ⟨r, hr, hc⟩ := cSlerp_cases hg.qpre hg.qnow (2 + acc)
    rw [hr] at h
    have h := Option.some.inj h
    rw [← h]
    refine hq _ ?_
    rcases hc with rfl | rfl | rfl
    · exact hg.qpre
    · exact hg.qnow
    · exact hs

theorem ballDrag_good {lib : BallLib} {s s' : Ball} {p : Fin 2 → ℝ} (hg : BallGood s) (h : ballDrag lib s p = some s') : BallGood s' := by
  have hq : ∀ q : Quat, quatDot q = 1 → BallGood { s with qpre := s.qnow, qnow := q } := fun q hq =>
    { qnow := hq, qdown := hg.qdown, qpre := hg.qnow, vdown := hg.vdown, axes := hg.axes, axis := hg.axis }
  unfold ballDrag at h
  rcases hd : dragPoint lib s p with _ | v
  · rw [hd] at h; simp at h
  · rw [hd] at h
    simp only at h
    have hv : npDot v v = 1 := by
      unfold dragPoint at hd
      rcases hm : mapToSphere p s.center s.radius with _ | w
      · rw [hm] at hd; simp at hd
      · rw [hm] at hd
        simp only at hd
        rcases ha : s.axis with _ | a
        · rw [ha] at hd
          rw [← Option.some.inj hd]
          exact (mapToSphere_spec hm).1
        · rw [ha] at hd
          exact (constrainTo_spec (hg.axis a ha).1 hd).1
    split_ifs at h with hc
    · rw [← Option.some.inj h]; exact hq _ hg.qdown
    · rw [← Option.some.inj h]
      refine hq _ ?_
      rw [quatDot_mul, dragQuat_dot, hg.vdown, hv, hg.qdown]
      norm_num

theorem ballDown_good {lib : BallLib} {s s' : Ball} {p : Fin 2 → ℝ} (hg : BallGood s) (h : ballDown lib s p = some s') : BallGood s' := by
  unfold ballDown at h
  rcases hm : mapToSphere p s.center s.radius with _ | v
  · rw [hm] at h; simp at h
  · rw [hm] at h
    simp only at h
    have hv : npDot v v = 1 := (mapToSphere_spec hm).1
    split at h
    · rename_i l hcon hax
      rcases hn : nearestAxis lib v l with _ | a
      · rw [hn] at h; simp at h
      · rw [hn] at h
        simp only at h
        rcases hc : constrainTo lib v a with _ | w
        · rw [hc] at h; simp at h
        · rw [hc] at h
          rw [← Option.some.inj h]
          have ha := hg.axes l hax a (nearest_spec hn).1
          obtain ⟨hw, haw⟩ := constrainTo_spec ha hc
          refine ⟨hg.qnow, hg.qnow, hg.qnow, hw, hg.axes, fun b hb => ?_⟩
          rw [← Option.some.inj hb]; exact ⟨ha, haw⟩
    · rw [← Option.some.inj h]
      exact ⟨hg.qnow, hg.qnow, hg.qnow, hv, hg.axes, fun b hb => nomatch hb⟩

/-- a unit quaternion is not changed by the compiled `quaternion_matrix` -/
theorem cQuatMatrix_unit {q : Quat} (h : quatDot q = 1) : cQuatMatrix q = (quatMatrix q, q) := by
  have he1 : tEps ≤ vectorNorm q := by rw [vectorNorm_of_unit h]; unfold tEps; norm_num
  obtain ⟨h1, h2⟩ := c103_matrix q he1
  rw [unitVector_of_unit h] at h1 h2
  exact Prod.ext h1 h2

/-- C105: `matrix` gives the matrix of the orientation and changes nothing, with either set of functions -/
theorem c105_matrix (lib : BallLib) (s : Ball) (hg : BallGood s) : ballMatrix lib s = (quatMatrix s.qnow, s) := by
  cases lib with
  | python => rfl
  | compiled =>
    unfold ballMatrix
    simp only [cQuatMatrix_unit hg.qnow]

theorem ballStep_good {lib : BallLib} {s s' : Ball} {op : BallOp} (hg : BallGood s) (h : ballStep lib s op = some s') : BallGood s' := by
  cases op with
  | place c r =>
    rw [← Option.some.inj h]
    exact { qnow := hg.qnow, qdown := hg.qdown, qpre := hg.qpre, vdown := hg.vdown, axes := hg.axes, axis := hg.axis }
  | setaxes l =>
    have h : ballSetaxes s l = some s' := h
    unfold ballSetaxes at h
    split_ifs at h with hc
    rw [← Option.some.inj h]
    refine { qnow := hg.qnow, qdown := hg.qdown, qpre := hg.qpre, vdown := hg.vdown, axes := fun l' hl' a ha => ?_, axis := hg.axis }
    rw [← Option.some.inj hl'] at ha
    obtain ⟨b, hb, rfl⟩ := List.mem_map.1 ha
    exact unitVector3_dot fun h0 => hc ⟨b, hb, h0⟩
  | constrain b =>
    rw [← Option.some.inj h]
    exact { qnow := hg.qnow, qdown := hg.qdown, qpre := hg.qpre, vdown := hg.vdown, axes := hg.axes, axis := hg.axis }
  | down p => exact ballDown_good hg h
  | drag p => exact ballDrag_good hg h
  | next a => exact ballNext_good hg h
  | matrix =>
    have h : some (ballMatrix lib s).2 = some s' := h
    rw [c105_matrix lib s hg] at h
    rw [← Option.some.inj h]; exact hg

theorem ballRun_good {lib : BallLib} {s s' : Ball} {l : List BallOp} (hg : BallGood s) (h : ballRun lib s l = some s') : BallGood s' := by
  induction l generalizing s with
  | nil => rw [← Option.some.inj h]; exact hg
  | cons op l ih =>
    rw [ballRun] at h
    rcases hs : ballStep lib s op with _ | t
    · rw [hs] at h; simp at h
    · rw [hs] at h
      exact ih (ballStep_good hg hs) h

/-- C105: whatever is done with an Arcball, `matrix` gives a rotation -/
theorem c105_rotation (lib : BallLib) (q : Quat) (hq : quatDot q = 1) (l : List BallOp) (s : Ball)
    (h : ballRun lib (newBall q) l = some s) : ∃ R, Homog (ballMatrix lib s).1 R ∧ IsRotation R := by
  have hg := ballRun_good (newBall_good hq) h
  rw [c105_matrix lib s hg]
  exact c68_rotation s.qnow

/-- C105: the first orientation: the identity, the normalised quaternion or the rotation of the given matrix -/
theorem c105_initial (fromMatrix : Matrix (Fin 4) (Fin 4) ℝ → Quat)
    (hf : ∀ M R, Homog M R → IsRotation R → quatDot (fromMatrix M) = 1 ∧ quatMatrix (fromMatrix M) = M) (lib : BallLib) :
    (∃ q, initQuat fromMatrix .none = some q ∧ quatDot q = 1 ∧ (ballMatrix lib (newBall q)).1 = 1) ∧
      (∀ p : Quat, p ≠ 0 → ∃ q, initQuat fromMatrix (.quat p) = some q ∧ quatDot q = 1 ∧ UnitOf p q) ∧
      ∀ M R, Homog M R → IsRotation R → ∃ q, initQuat fromMatrix (.matrix M) = some q ∧ quatDot q = 1 ∧
        (ballMatrix lib (newBall q)).1 = M := by
  refine ⟨⟨_, rfl, ?_, ?_⟩, fun p hp => ?_, fun M R hM hR => ⟨_, rfl, (hf M R hM hR).1, ?_⟩⟩
  · rw [quatDot_eq]; simp
  · have hq : quatDot ![1, 0, 0, 0] = 1 := by rw [quatDot_eq]; simp
    rw [c105_matrix lib _ (newBall_good hq)]
    show quatMatrix ![1, 0, 0, 0] = 1
    rw [quatMatrix_unit _ hq, ← homog_one]
    congr 1
    ext a b
    fin_cases a <;> fin_cases b <;> simp [homMat]
  · have hn : vectorNorm p ≠ 0 := by
      unfold vectorNorm
      exact (Real.sqrt_pos.2 (quatDot_pos hp)).ne'
    have hu := unitVector_unitOf p hp
    refine ⟨unitVector p, ?_, ?_, hu⟩
    · unfold initQuat
      simp only [if_neg hn]
      rfl
    · rw [quatDot_eq]; exact hu.1
  · rw [c105_matrix lib _ (newBall_good (hf M R hM hR).1)]
    exact (hf M R hM hR).2

/-- calls that work on a ball: no radius of zero, some axes if any are set, none of length zero or pointing straight away from the
viewer -/
def OkOp : BallOp → Prop
  | .place _ r => r ≠ 0
  | .setaxes l => l ≠ [] ∧ ∀ a ∈ l, ¬ (a 0 = 0 ∧ a 1 = 0 ∧ a 2 ≤ 0)
  | _ => True

/-- what such calls keep -/
structure BallOk (s : Ball) : Prop where
  good : BallGood s
  radius : s.radius ≠ 0
  axes : ∀ l, s.axes = some l → l ≠ [] ∧ ∀ a ∈ l, a 2 ≠ -1
  axis : ∀ a, s.axis = some a → a 2 ≠ -1

theorem unitVector3_ok {a : Vec3} (h : ¬ (a 0 = 0 ∧ a 1 = 0 ∧ a 2 ≤ 0)) : vectorNorm a ≠ 0 ∧ unitVector a 2 ≠ -1 := by
  have e : ∑ i, a i * a i = a 0 * a 0 + a 1 * a 1 + a 2 * a 2 := Fin.sum_univ_three _
  have h0 : 0 ≤ ∑ i, a i * a i := Finset.sum_nonneg fun i _ => mul_self_nonneg _
  have hs := Real.mul_self_sqrt h0
  have hs0 := Real.sqrt_nonneg (∑ i, a i * a i)
  simp only [vectorNorm, unitVector]
  generalize √(∑ i, a i * a i) = n at *
  rw [e] at hs
  have hn : n ≠ 0 := by
    intro hn
    rw [hn] at hs
    apply h
    refine ⟨?_, ?_, ?_⟩ <;> nlinarith [mul_self_nonneg (a 0), mul_self_nonneg (a 1), mul_self_nonneg (a 2)]
  refine ⟨hn, fun h1 => ?_⟩
  have h2 : a 2 = -n := by field_simp at h1; linarith
  apply h
  rw [h2] at hs
  refine ⟨?_, ?_, ?_⟩
  · nlinarith [mul_self_nonneg (a 0), mul_self_nonneg (a 1)]
  · nlinarith [mul_self_nonneg (a 0), mul_self_nonneg (a 1)]
  · linarith

theorem ballStep_ok {lib : BallLib} {s : Ball} {op : BallOp} (hk : BallOk s) (ho : OkOp op) : ∃ s', ballStep lib s op = some s' ∧ BallOk s' := by
  have hg := hk.good
  suffices h : ∃ s', ballStep lib s op = some s' ∧ s'.radius ≠ 0 ∧ (∀ l, s'.axes = some l → l ≠ [] ∧ ∀ a ∈ l, a 2 ≠ -1) ∧
      ∀ a, s'.axis = some a → a 2 ≠ -1 by
    obtain ⟨s', h1, h2, h3, h4⟩ := h
    exact ⟨s', h1, ballStep_good hg h1, h2, h3, h4⟩
  cases op with
  | place c r => exact ⟨_, rfl, ho, hk.axes, hk.axis⟩
  | setaxes l =>
    obtain ⟨hl, ha⟩ := ho
    refine ⟨{ s with axes := some (l.map unitVector) }, ?_, hk.radius, fun l' hl' => ?_, hk.axis⟩
    · show ballSetaxes s l = _
      unfold ballSetaxes
      rw [if_neg]
      rintro ⟨a, hal, h0⟩
      exact (unitVector3_ok (ha a hal)).1 h0
    · rw [← Option.some.inj hl']
      refine ⟨by simpa using hl, fun a hal => ?_⟩
      obtain ⟨b, hb, rfl⟩ := List.mem_map.1 hal
      exact (unitVector3_ok (ha b hb)).2
  | constrain b => exact ⟨_, rfl, hk.radius, hk.axes, hk.axis⟩
  | down p =>
    obtain ⟨v, hv⟩ := mapToSphere_some (p := p) (c := s.center) hk.radius
    have hsp := mapToSphere_spec hv
    show ∃ s', ballDown lib s p = some s' ∧ _
    unfold ballDown
    rw [hv]
    simp only
    split
    · rename_i l hcon hax
      obtain ⟨hne, hl⟩ := hk.axes l hax
      obtain ⟨a, ha⟩ := nearest_some (lib := lib) hsp.1 hsp.2.1 hne fun b hb => ⟨hg.axes l hax b hb, hl b hb⟩
      have hal := (nearest_spec ha).1
      obtain ⟨w, hw⟩ := constrainTo_some lib v (hg.axes l hax a hal) (hl a hal)
      rw [ha]
      simp only [hw]
      refine ⟨_, rfl, hk.radius, hk.axes, fun b hb => ?_⟩
      rw [← Option.some.inj hb]; exact hl a hal
    · exact ⟨_, rfl, hk.radius, hk.axes, fun b hb => nomatch hb⟩
  | drag p =>
    have hd : ∃ v, dragPoint lib s p = some v := by
      obtain ⟨v, hv⟩ := mapToSphere_some (p := p) (c := s.center) hk.radius
      unfold dragPoint
      rw [hv]
      simp only
      rcases ha : s.axis with _ | a
      · exact ⟨v, rfl⟩
      · exact constrainTo_some lib v (hg.axis a ha).1 (hk.axis a ha)
    obtain ⟨v, hv⟩ := hd
    show ∃ s', ballDrag lib s p = some s' ∧ _
    unfold ballDrag
    rw [hv]
    simp only
    split_ifs
    · exact ⟨_, rfl, hk.radius, hk.axes, hk.axis⟩
    · exact ⟨_, rfl, hk.radius, hk.axes, hk.axis⟩
  | next a =>
    show ∃ s', ballNext lib s a = some s' ∧ _
    unfold ballNext
    cases lib with
    | python => exact ⟨_, rfl, hk.radius, hk.axes, hk.axis⟩
    | compiled =>
      obtain ⟨r, hr, -⟩ := cSlerp_cases hg.qpre hg.qnow (2 + a)
      simp only [hr]
      exact ⟨_, rfl, hk.radius, hk.axes, hk.axis⟩
  | matrix =>
    refine ⟨_, rfl, ?_⟩
    rw [c105_matrix lib s hg]
    exact ⟨hk.radius, hk.axes, hk.axis⟩

/-- C105: no history of such calls raises an exception or makes nan -/
theorem c105_progress (lib : BallLib) (q : Quat) (hq : quatDot q = 1) (l : List BallOp) (hl : ∀ op ∈ l, OkOp op) :
    ∃ s, ballRun lib (newBall q) l = some s := by
  have key : ∀ s, BallOk s → ∃ s', ballRun lib s l = some s' := by
    induction l with
    | nil => exact fun s _ => ⟨s, rfl⟩
    | cons op l ih =>
      intro s hk
      obtain ⟨t, ht, hk'⟩ := ballStep_ok (lib := lib) hk (hl op List.mem_cons_self)
      obtain ⟨s', hs'⟩ := ih (fun o ho => hl o (List.mem_cons_of_mem _ ho)) t hk'
      exact ⟨s', by rw [ballRun, ht]; exact hs'⟩
  refine key _ ⟨newBall_good hq, by simp [newBall], fun l hl => ?_, fun a ha => ?_⟩
  · simp [newBall] at hl
  · simp [newBall] at ha

/-- calls between pressing and releasing the button -/
def IsMove : BallOp → Prop
  | .drag _ => True
  | .next _ => True
  | .matrix => True
  | _ => False

/-- two balls that differ at most in the present and the previous orientation -/
def SameDown (s t : Ball) : Prop := { s with qnow := t.qnow, qpre := t.qpre } = t

theorem SameDown.refl (s : Ball) : SameDown s s := rfl

theorem SameDown.trans {s t u : Ball} (h1 : SameDown s t) (h2 : SameDown t u) : SameDown s u := by
  unfold SameDown at *
  rw [← h2, ← h1]

theorem move_same {lib : BallLib} {s s' : Ball} {op : BallOp} (hm : IsMove op) (h : ballStep lib s op = some s') : SameDown s s' := by
  cases op with
  | drag p =>
    have h : ballDrag lib s p = some s' := h
    unfold ballDrag at h
    rcases hd : dragPoint lib s p with _ | v
    · rw [hd] at h; simp at h
    · rw [hd] at h
      simp only at h
      split_ifs at h
      · rw [← Option.some.inj h]; rfl
      · rw [← Option.some.inj h]; rfl
  | next a =>
    have h : ballNext lib s a = some s' := h
    unfold ballNext at h
    cases lib with
    | python => rw [← Option.some.inj h]; rfl
    | compiled =>
      simp only at h
      rcases hc : cSlerp s.qpre s.qnow (2 + a) 0 true with e | r
      · rw [hc] at h; simp at h
      · rw [hc] at h; rw [← Option.some.inj h]; rfl
  | matrix =>
    rw [← Option.some.inj h]
    cases lib <;> rfl
  | place _ _ => exact absurd hm id
  | setaxes _ => exact absurd hm id
  | constrain _ => exact absurd hm id
  | down _ => exact absurd hm id

theorem moves_same {lib : BallLib} {s s' : Ball} {l : List BallOp} (hm : ∀ op ∈ l, IsMove op) (h : ballRun lib s l = some s') :
    SameDown s s' := by
  induction l generalizing s with
  | nil => rw [← Option.some.inj h]; rfl
  | cons op l ih =>
    rw [ballRun] at h
    rcases hs : ballStep lib s op with _ | t
    · rw [hs] at h; simp at h
    · rw [hs] at h
      exact (move_same (hm op List.mem_cons_self) hs).trans (ih (fun o ho => hm o (List.mem_cons_of_mem _ ho)) h)

theorem run_append {lib : BallLib} {s s' : Ball} {l m : List BallOp} (h : ballRun lib s (l ++ m) = some s') :
    ∃ t, ballRun lib s l = some t ∧ ballRun lib t m = some s' := by
  induction l generalizing s with
  | nil => exact ⟨s, rfl, h⟩
  | cons op l ih =>
    rw [List.cons_append, ballRun] at h
    rcases hs : ballStep lib s op with _ | t
    · rw [hs] at h; simp at h
    · rw [hs] at h
      obtain ⟨u, h1, h2⟩ := ih h
      exact ⟨u, by rw [ballRun, hs]; exact h1, h2⟩

theorem run_one {lib : BallLib} {s : Ball} {op : BallOp} : ballRun lib s [op] = ballStep lib s op := by
  rw [ballRun]
  rcases ballStep lib s op with _ | t <;> rfl

theorem dragPoint_same {lib : BallLib} {s t : Ball} (h : SameDown s t) (p : Fin 2 → ℝ) : dragPoint lib t p = dragPoint lib s p := by
  unfold SameDown at h
  rw [← h]; rfl

/-- the orientation after `drag` -/
noncomputable def dragNow (s : Ball) (v : Vec3) : Quat := open Classical in
  if npDot (npCross s.vdown v) (npCross s.vdown v) < tEps then s.qdown
  else quatMul ![npDot s.vdown v, npCross s.vdown v 0, npCross s.vdown v 1, npCross s.vdown v 2] s.qdown

theorem ballDrag_eq (lib : BallLib) (s : Ball) (p : Fin 2 → ℝ) : ballDrag lib s p =
    match dragPoint lib s p with
    | none => none
    | some v => some { s with qpre := s.qnow, qnow := dragNow s v } := by
  unfold ballDrag dragNow
  rcases dragPoint lib s p with _ | v
  · rfl
  · simp only
    split_ifs <;> rfl

/-- C105: the orientation does not depend on the path of the cursor: after any moves, a drag to a point gives the orientation that a drag
straight from the start to that point gives -/
theorem c105_path (lib : BallLib) (s s' : Ball) (l : List BallOp) (hm : ∀ op ∈ l, IsMove op) (p : Fin 2 → ℝ)
    (h : ballRun lib s (l ++ [.drag p]) = some s') : ∃ t, ballRun lib s [.drag p] = some t ∧ t.qnow = s'.qnow := by
  obtain ⟨u, h1, h2⟩ := run_append h
  have hs := moves_same hm h1
  rw [run_one] at h2 ⊢
  have h2 : ballDrag lib u p = some s' := h2
  show ∃ t, ballDrag lib s p = some t ∧ _
  rw [ballDrag_eq, dragPoint_same hs] at h2
  rw [ballDrag_eq]
  rcases hd : dragPoint lib s p with _ | v
  · rw [hd] at h2; simp at h2
  · rw [hd] at h2
    refine ⟨_, rfl, ?_⟩
    rw [← Option.some.inj h2]
    have hs' : { s with qnow := u.qnow, qpre := u.qpre } = u := hs
    simp only
    rw [← hs']
    rfl

theorem npCross_self (v : Vec3) : npDot (npCross v v) (npCross v v) = 0 := by
  simp only [npDot, npCross, Matrix.cons_val_zero, Matrix.cons_val_one, Matrix.cons_val]; ring

/-- C105: a drag back to the point where the button was pressed restores the orientation of that moment -/
theorem c105_back (lib : BallLib) (s s' : Ball) (p : Fin 2 → ℝ) (l : List BallOp) (hm : ∀ op ∈ l, IsMove op)
    (h : ballRun lib s (.down p :: l ++ [.drag p]) = some s') : s'.qnow = s.qnow := by
  rw [List.cons_append, ballRun] at h
  rcases hs : ballStep lib s (.down p) with _ | t
  · rw [hs] at h; simp at h
  · rw [hs] at h
    simp only at h
    obtain ⟨u, hu, hq⟩ := c105_path lib t s' l hm p h
    rw [← hq]
    rw [run_one] at hu
    have hu : ballDrag lib t p = some u := hu
    have hs : ballDown lib s p = some t := hs
    unfold ballDown at hs
    rcases hmap : mapToSphere p s.center s.radius with _ | v
    · rw [hmap] at hs; simp at hs
    · rw [hmap] at hs
      simp only at hs
      have key : t.qdown = s.qnow ∧ dragPoint lib t p = some t.vdown := by
        split at hs
        · rename_i l hcon hax
          rcases hn : nearestAxis lib v l with _ | a
          · rw [hn] at hs; simp at hs
          · rw [hn] at hs
            simp only at hs
            rcases hc : constrainTo lib v a with _ | w
            · rw [hc] at hs; simp at hs
            · rw [hc] at hs
              rw [← Option.some.inj hs]
              refine ⟨rfl, ?_⟩
              unfold dragPoint
              simp only [hmap]
              exact hc
        · rw [← Option.some.inj hs]
          refine ⟨rfl, ?_⟩
          unfold dragPoint
          simp only [hmap]
      rw [ballDrag_eq, key.2] at hu
      rw [← Option.some.inj hu]
      simp only [dragNow]
      rw [npCross_self, if_pos tEps_pos, key.1]

theorem homMat_drag (a b : Vec3) (ha : npDot a a = 1) (hb : npDot b b = 1) :
    homMat ![npDot a b, npCross a b 0, npCross a b 1, npCross a b 2] = halfTurn b * halfTurn a := by
  have e : (![npDot a b, npCross a b 0, npCross a b 1, npCross a b 2] : Quat) =
      quatMul ![0, b 0, b 1, b 2] ![0, -a 0, -a 1, -a 2] := by
    ext i
    fin_cases i <;> simp [npDot, npCross, quatMul] <;> ring
  have h : ∀ v : Vec3, npDot v v = 1 → homMat ![0, v 0, v 1, v 2] = halfTurn v := by
    intro v hv
    simp only [npDot] at hv
    ext i j
    fin_cases i <;> fin_cases j <;> simp [homMat, halfTurn] <;> first | ring1 | linear_combination -hv
  have h' : ∀ v : Vec3, npDot v v = 1 → homMat ![0, -v 0, -v 1, -v 2] = halfTurn v := by
    intro v hv
    simp only [npDot] at hv
    ext i j
    fin_cases i <;> fin_cases j <;> simp [homMat, halfTurn] <;> first | ring1 | linear_combination -hv
  rw [e, homMat_mul, h b hb, h' a ha]

/-- the matrix of the orientation after a drag -/
theorem dragNow_matrix {s : Ball} (hg : BallGood s) {v : Vec3} (hv : npDot v v = 1) :
    quatDot (dragNow s v) = 1 ∧ quatMatrix (dragNow s v) =
      (open Classical in if npDot (npCross s.vdown v) (npCross s.vdown v) < tEps then 1 else homog (halfTurn v * halfTurn s.vdown)) *
        quatMatrix s.qdown := by
  unfold dragNow
  split_ifs
  · exact ⟨hg.qdown, by rw [one_mul]⟩
  · have h1 : quatDot (quatMul ![npDot s.vdown v, npCross s.vdown v 0, npCross s.vdown v 1, npCross s.vdown v 2] s.qdown) = 1 := by
      rw [quatDot_mul, dragQuat_dot, hg.vdown, hv, hg.qdown]; norm_num
    refine ⟨h1, ?_⟩
    rw [quatMatrix_unit _ h1, homMat_mul, homMat_drag _ _ hg.vdown hv, quatMatrix_unit _ hg.qdown, homog_mul]

/-- C105: without constraint, pressing the button over one point of the sphere and dragging to another turns the ball by twice the
angle between them: half a turn about the first point and half a turn about the second one.  If the points are within about 3e-8 of each
other or of opposite points, the ball does not turn. -/
theorem c105_drag (lib : BallLib) (s s' : Ball) (hg : BallGood s) (hc : s.constrain = false ∨ s.axes = none) (p p' : Fin 2 → ℝ)
    (h : ballRun lib s [.down p, .drag p'] = some s') :
    ∃ v v', SpherePoint p s.center s.radius v ∧ SpherePoint p' s.center s.radius v' ∧
      (ballMatrix lib s').1 =
        (open Classical in if npDot (npCross v v') (npCross v v') < tEps then 1 else homog (halfTurn v' * halfTurn v)) *
          (ballMatrix lib s).1 := by
  have hg' := ballRun_good hg h
  rw [c105_matrix lib s hg, c105_matrix lib s' hg']
  rw [ballRun] at h
  rcases hs : ballStep lib s (.down p) with _ | t
  · rw [hs] at h; simp at h
  · rw [hs] at h
    simp only at h
    have hgt := ballStep_good hg hs
    rw [run_one] at h
    have h : ballDrag lib t p' = some s' := h
    have hs : ballDown lib s p = some t := hs
    unfold ballDown at hs
    rcases hmap : mapToSphere p s.center s.radius with _ | v
    · rw [hmap] at hs; simp at hs
    · rw [hmap] at hs
      simp only at hs
      have ht : t = { s with vdown := v, qdown := s.qnow, qpre := s.qnow, axis := none } := by
        split at hs
        · rename_i l hcon hax
          rcases hc with hc | hc
          · rw [hc] at hcon; simp at hcon
          · rw [hc] at hax; simp at hax
        · exact (Option.some.inj hs).symm
      rw [ballDrag_eq] at h
      have hd : dragPoint lib t p' = mapToSphere p' s.center s.radius := by
        unfold dragPoint
        rw [ht]
        simp only
        rcases mapToSphere p' s.center s.radius with _ | w <;> rfl
      rw [hd] at h
      rcases hmap' : mapToSphere p' s.center s.radius with _ | w
      · rw [hmap'] at h; simp at h
      · rw [hmap'] at h
        have h := Option.some.inj h
        refine ⟨v, w, mapToSphere_spec hmap, mapToSphere_spec hmap', ?_⟩
        have := (dragNow_matrix hgt (mapToSphere_spec hmap').1).2
        rw [← h]
        simp only
        rw [this, ht]

theorem halfTurn_perp (v a : Vec3) (h : npDot a v = 0) : (halfTurn v).mulVec a = -a := by
  simp only [npDot] at h
  funext i
  simp only [Matrix.mulVec, dotProduct, halfTurn, Fin.sum_univ_three, Pi.neg_apply]
  fin_cases i <;> simp <;> linear_combination 2 * _ * h

/-- C105: with a constraint the ball turns only about one of the axes, which stays where it is.  The compiled functions take the axis
whose great circle comes nearest to the point, unless all axes are within 9e-16 of the point or its opposite. -/
theorem c105_axis (lib : BallLib) (s s' : Ball) (hg : BallGood s) (l : List Vec3) (hl : s.axes = some l) (hc : s.constrain = true)
    (p p' : Fin 2 → ℝ) (h : ballRun lib s [.down p, .drag p'] = some s') :
    ∃ a ∈ l, ∃ v, SpherePoint p s.center s.radius v ∧
      (∀ R R', Homog (ballMatrix lib s).1 R → Homog (ballMatrix lib s').1 R' → (R' * Rᵀ).mulVec a = a) ∧
      (lib = .compiled → (∃ b ∈ l, tEps < √(1 - npDot b v * npDot b v)) → ∀ b ∈ l, |npDot a v| ≤ |npDot b v|) := by
  have hg' := ballRun_good hg h
  rw [c105_matrix lib s hg, c105_matrix lib s' hg']
  rw [ballRun] at h
  rcases hs : ballStep lib s (.down p) with _ | t
  · rw [hs] at h; simp at h
  · rw [hs] at h
    simp only at h
    have hgt := ballStep_good hg hs
    rw [run_one] at h
    have h : ballDrag lib t p' = some s' := h
    have hs : ballDown lib s p = some t := hs
    unfold ballDown at hs
    rcases hmap : mapToSphere p s.center s.radius with _ | v
    · rw [hmap] at hs; simp at hs
    · rw [hmap] at hs
      simp only [hl, hc] at hs
      rcases hn : nearestAxis lib v l with _ | a
      · rw [hn] at hs; simp at hs
      rw [hn] at hs
      simp only at hs
      rcases hcon : constrainTo lib v a with _ | w
      · rw [hcon] at hs; simp at hs
      rw [hcon] at hs
      have ht := Option.some.inj hs
      obtain ⟨hal, x, hx, hbest⟩ := nearest_spec hn
      have hsp := mapToSphere_spec hmap
      have hvv : npDot v v = 1 := hsp.1
      have haa := hg.axes l hl a hal
      refine ⟨a, hal, v, hsp, fun R R' hR hR' => ?_, fun hcomp hb => ?_⟩
      · have hta : t.axis = some a := by rw [← ht]
        have htq : t.qdown = s.qnow := by rw [← ht]
        have hav := (hgt.axis a hta).2
        rw [ballDrag_eq] at h
        rcases hd : dragPoint lib t p' with _ | y
        · rw [hd] at h; simp at h
        · rw [hd] at h
          have h := Option.some.inj h
          have hyy : npDot y y = 1 ∧ npDot a y = 0 := by
            unfold dragPoint at hd
            rcases hm : mapToSphere p' t.center t.radius with _ | z
            · rw [hm] at hd; simp at hd
            · rw [hm] at hd
              simp only [hta] at hd
              exact constrainTo_spec haa hd
          obtain ⟨hq1, hq2⟩ := dragNow_matrix hgt hyy.1
          rw [← h] at hR'
          simp only at hR'
          rw [hq2, htq] at hR'
          have hRs : homMat s.qnow = R := by
            rw [quatMatrix_unit _ hg.qnow] at hR
            ext i j
            rw [← hR.1 i j]
            exact ((homog_spec (homMat s.qnow)).1 i j).symm
          have horth : R * Rᵀ = 1 := by rw [← hRs, homMat_orth, hg.qnow]; simp
          rw [quatMatrix_unit _ hg.qnow, hRs] at hR'
          have key : ∃ K : Matrix (Fin 3) (Fin 3) ℝ, R' = K * R ∧ K.mulVec a = a := by
            split_ifs at hR' with hsm
            · refine ⟨1, ?_, Matrix.one_mulVec a⟩
              rw [one_mul] at hR'
              ext i j
              rw [one_mul, ← hR'.1 i j, (homog_spec R).1 i j]
            · refine ⟨halfTurn y * halfTurn t.vdown, ?_, ?_⟩
              · rw [homog_mul] at hR'
                ext i j
                rw [← hR'.1 i j, (homog_spec _).1 i j]
              · rw [← Matrix.mulVec_mulVec, halfTurn_perp _ _ hav, Matrix.mulVec_neg, halfTurn_perp _ _ hyy.2, neg_neg]
          obtain ⟨K, hK, hKa⟩ := key
          rw [hK, Matrix.mul_assoc, horth, Matrix.mul_one, hKa]
      · have hle : ∀ b ∈ l, npDot b b = 1 := hg.axes l hl
        intro b hbl
        obtain ⟨-, da1, da2⟩ := constrainTo_dot haa hvv hsp.2.1 hx
        have hbig : tEps < √(1 - npDot a v * npDot a v) := by
          by_contra hna
          obtain ⟨c, hcl, hcb⟩ := hb
          have hc1 : ∃ z, constrainTo lib v c = some z := by
            rw [constrainTo_eq, perp_sq _ _ (hle c hcl) hvv, if_pos hcb]; exact ⟨_, rfl⟩
          obtain ⟨z, hz⟩ := hc1
          have h1 := hbest c hcl z hz
          rw [(constrainTo_dot (hle c hcl) hvv hsp.2.1 hz).2.1 hcb hcomp] at h1
          have := da2 hna
          linarith
        have ea := da1 hbig hcomp
        have hcase : √(1 - npDot b v * npDot b v) ≤ √(1 - npDot a v * npDot a v) := by
          by_cases hbb : tEps < √(1 - npDot b v * npDot b v)
          · have hc1 : ∃ z, constrainTo lib v b = some z := by
              rw [constrainTo_eq, perp_sq _ _ (hle b hbl) hvv, if_pos hbb]; exact ⟨_, rfl⟩
            obtain ⟨z, hz⟩ := hc1
            have h1 := hbest b hbl z hz
            rwa [(constrainTo_dot (hle b hbl) hvv hsp.2.1 hz).2.1 hbb hcomp, ea] at h1
          · linarith
        have hb1 : 0 ≤ 1 - npDot a v * npDot a v := by
          rw [← perp_sq _ _ haa hvv]; exact npDot_nonneg _
        have := (Real.sqrt_le_sqrt_iff hb1).1 hcase
        exact sq_le_sq.1 (by nlinarith)

/-- C105: `next` continues the last rotation: what it adds is what the last step added, unless that was smaller than about 4e-8 -/
theorem c105_next (lib : BallLib) (s s' : Ball) (hg : BallGood s) (h : ballRun lib s [.next 0] = some s')
    (hp : |inner4 s.qpre s.qnow| < 1 - tEps) (R0 R1 R2 : Matrix (Fin 3) (Fin 3) ℝ) (h0 : Homog (quatMatrix s.qpre) R0)
    (h1 : Homog (ballMatrix lib s).1 R1) (h2 : Homog (ballMatrix lib s').1 R2) : R2 * R1ᵀ = R1 * R0ᵀ ∧ s'.qpre = s.qnow := by
  have hg' := ballRun_good hg h
  rw [c105_matrix lib s hg] at h1
  rw [c105_matrix lib s' hg'] at h2
  rw [run_one] at h
  have h : ballNext lib s 0 = some s' := h
  have hs' : s'.qpre = s.qnow ∧ s'.qnow = quatSlerp s.qpre s.qnow 2 0 true := by
    unfold ballNext at h
    cases lib with
    | python =>
      rw [← Option.some.inj h]
      simp
    | compiled =>
      have he1 : tEps < 1 := by unfold tEps; norm_num
      have hc := c103_slerp_partial s.qpre s.qnow (2 + 0) 0 true (by rw [vectorNorm_of_unit hg.qpre]; exact he1.le)
        (by rw [vectorNorm_of_unit hg.qnow]; exact he1.le) (Or.inr (Or.inr (by rw [add_zero, abs_two]; norm_num; exact ⟨by linarith, he1.le⟩)))
        (by rw [unitVector_of_unit hg.qpre, unitVector_of_unit hg.qnow]; exact hp.ne)
      rw [hc] at h
      rw [← Option.some.inj h]
      simp
  refine ⟨?_, hs'.1⟩
  obtain ⟨q0, hq0⟩ : ∃ q, q = s.qpre := ⟨_, rfl⟩
  obtain ⟨q1, hq1⟩ : ∃ q, q = s.qnow := ⟨_, rfl⟩
  have n0 := hg.qpre
  have n1 := hg.qnow
  have n2 := hg'.qnow
  rw [← hq0] at n0 h0 hp
  rw [← hq1] at n1 h1 hp
  have i0 : inner4 q0 q0 = 1 := by rw [← n0, quatDot_eq]; rfl
  have i1 : inner4 q1 q1 = 1 := by rw [← n1, quatDot_eq]; rfl
  have u0 : UnitOf q0 q0 := ⟨i0, 1, one_pos, by simp⟩
  have u1 : UnitOf q1 q1 := ⟨i1, 1, one_pos, by simp⟩
  have F := slerp_formula u0 u1 hp.le 2 (by norm_num) 0 true
  rw [hs'.2, ← hq0, ← hq1] at n2 h2
  have hc : |(if true then |inner4 q0 q1| else inner4 q0 q1)| ≤ 1 - tEps := by simpa using hp.le
  obtain ⟨-, a2, a3⟩ := angle_ok _ 0 hc
  obtain ⟨θ, hθ⟩ : ∃ θ, θ = pathAngle q0 q1 0 true := ⟨_, rfl⟩
  have hθ' : θ = Real.arccos (if true then |inner4 q0 q1| else inner4 q0 q1) + 2 * ((0 : ℤ) : ℝ) * Real.pi := hθ
  rw [← hθ'] at a2 a3
  rw [← hθ] at F
  have hF : ∀ a, quatSlerp q0 q1 2 0 true a = 2 * inner4 q0 q1 * q1 a - q0 a := by
    intro a
    have hFa := F a
    simp only [Int.cast_zero, mul_zero] at hFa
    rw [hFa, show (1 - 2) * θ = -θ by ring, Real.sin_neg, Real.sin_two_mul, neg_div, div_self a2]
    have e : 2 * Real.sin θ * Real.cos θ / Real.sin θ = 2 * Real.cos θ := by field_simp
    rw [e, a3]
    simp only [if_true]
    unfold slerpEnd
    by_cases hneg : inner4 q0 q1 < 0
    · rw [if_pos ⟨rfl, hneg⟩, abs_of_neg hneg]; ring
    · rw [if_neg (fun h => hneg h.2), abs_of_nonneg (not_lt.1 hneg)]; ring
  have hmul : quatSlerp q0 q1 2 0 true = quatMul q1 (quatMul (quatConj q0) q1) := by
    rw [quatConj_eq]
    simp only [inner4] at i1 hF
    ext a
    rw [hF a]
    fin_cases a <;> simp [quatMul]
    · linear_combination q0 0 * i1
    · linear_combination q0 1 * i1
    · linear_combination q0 2 * i1
    · linear_combination q0 3 * i1
  have hR : ∀ (q : Quat) (R : Matrix (Fin 3) (Fin 3) ℝ), quatDot q = 1 → Homog (quatMatrix q) R → R = homMat q := by
    intro q R hq hR
    rw [quatMatrix_unit _ hq] at hR
    ext i j
    rw [← hR.1 i j, (homog_spec (homMat q)).1 i j]
  have horth : homMat q1 * (homMat q1)ᵀ = 1 := by rw [homMat_orth, n1]; simp
  rw [hR q0 R0 n0 h0, hR q1 R1 n1 h1, hR _ R2 n2 h2, hmul, homMat_mul, homMat_mul, homMat_conj, Matrix.mul_assoc, Matrix.mul_assoc, horth,
    Matrix.mul_one]

/-- C105: an axis that points straight away from the viewer makes nan when the button is pressed over the centre, and no axes at all
make an exception or nan everywhere. -/
theorem c105_nan_counterexample (lib : BallLib) (q : Quat) :
    ballRun lib (newBall q) [.setaxes [![0, 0, -1]], .constrain true, .down ![0, 0]] = none ∧
      ∀ p, ballRun lib (newBall q) [.setaxes [], .constrain true, .down p] = none := by
  have hv : vectorNorm (![0, 0, -1] : Vec3) = 1 := by simp [vectorNorm, Fin.sum_univ_three]
  have hu : unitVector (![0, 0, -1] : Vec3) = ![0, 0, -1] := by
    funext i
    show (![0, 0, -1] : Vec3) i / vectorNorm (![0, 0, -1] : Vec3) = _
    rw [hv, div_one]
  constructor
  · have h1 : ballStep lib (newBall q) (.setaxes [![0, 0, -1]]) = some { newBall q with axes := some [![0, 0, -1]] } := by
      show ballSetaxes _ _ = _
      unfold ballSetaxes
      rw [if_neg]
      · rw [List.map_cons, List.map_nil, hu]
      · rintro ⟨a, ha, h0⟩
        rw [List.mem_singleton] at ha
        rw [ha, hv] at h0
        exact one_ne_zero h0
    have hm : mapToSphere ![0, 0] ![0, 0] 1 = some ![0, 0, 1] := by simp [mapToSphere]
    have hc : constrainTo lib ![0, 0, 1] ![0, 0, -1] = none := by
      rw [constrainTo_eq]
      have hp : npDot (perp ![0, 0, 1] ![0, 0, -1]) (perp ![0, 0, 1] ![0, 0, -1]) = 0 := by simp [npDot, perp]
      rw [hp, Real.sqrt_zero, if_neg (not_lt.2 tEps_pos.le), if_neg, if_pos]
      · simp
      · simp; norm_num
    have hn : nearestAxis lib ![0, 0, 1] [![0, 0, -1]] = none := by
      rw [nearestAxis_eq, List.foldl_cons, List.foldl_nil]
      unfold nearestStep
      rw [hc]
    rw [ballRun, h1]
    simp only
    rw [ballRun]
    simp only [ballStep]
    rw [ballRun]
    simp only [ballStep, ballDown, newBall, hm, hn]
  · intro p
    have h1 : ballStep lib (newBall q) (.setaxes []) = some { newBall q with axes := some [] } := by
      show ballSetaxes _ _ = _
      unfold ballSetaxes
      rw [if_neg (by simp), List.map_nil]
    have hn : ∀ v, nearestAxis lib v [] = none := fun v => rfl
    obtain ⟨v, hm⟩ := mapToSphere_some (p := p) (c := ![0, 0]) (one_ne_zero (α := ℝ))
    rw [ballRun, h1]
    simp only
    rw [ballRun]
    simp only [ballStep]
    rw [ballRun]
    simp only [ballStep, ballDown, newBall, hm, hn]

/-- C105: the Python functions may take an axis whose great circle is not the nearest, where the compiled functions take the nearest
one -/
theorem c105_nearest_counterexample :
    let a : Vec3 := ![3 / 5, 0, 4 / 5]
    let b : Vec3 := ![4 / 5, 3 / 5, 0]
    let v : Vec3 := ![1, 0, 0]
    SpherePoint ![1, 0] ![0, 0] 1 v ∧ |npDot a v| < |npDot b v| ∧ nearestAxis .python v [a, b] = some b ∧
      nearestAxis .compiled v [a, b] = some a := by
  intro a b v
  have hav : npDot a v = 3 / 5 := by simp [npDot, a, v]
  have hbv : npDot b v = 4 / 5 := by simp [npDot, b, v]
  have haa : npDot a a = 1 := by simp [npDot, a]; norm_num
  have hbb : npDot b b = 1 := by simp [npDot, b]; norm_num
  have hvv : npDot v v = 1 := by simp [npDot, v]
  have he : tEps < 1 / 2 := by unfold tEps; norm_num
  have sa : √(npDot (perp v a) (perp v a)) = 4 / 5 := by
    rw [perp_sq _ _ haa hvv, hav, show (1 : ℝ) - 3 / 5 * (3 / 5) = (4 / 5) ^ 2 by norm_num]
    exact Real.sqrt_sq (by norm_num)
  have sb : √(npDot (perp v b) (perp v b)) = 3 / 5 := by
    rw [perp_sq _ _ hbb hvv, hbv, show (1 : ℝ) - 4 / 5 * (4 / 5) = (3 / 5) ^ 2 by norm_num]
    exact Real.sqrt_sq (by norm_num)
  have pa : perp v a = ![16 / 25, 0, -12 / 25] := by
    funext i; unfold perp; rw [hav]; fin_cases i <;> simp [v, a] <;> norm_num
  have pb : perp v b = ![9 / 25, -12 / 25, 0] := by
    funext i; unfold perp; rw [hbv]; fin_cases i <;> simp [v, b] <;> norm_num
  have ca : ∀ lib, ∃ w, constrainTo lib v a = some w ∧ npDot w v = if lib = .python then -(4 / 5) else 4 / 5 := by
    intro lib
    rw [constrainTo_eq, sa, if_pos (by linarith)]
    refine ⟨_, rfl, ?_⟩
    rw [pa]
    cases lib <;> simp [npDot, v] <;> norm_num
  have cb : ∀ lib, ∃ w, constrainTo lib v b = some w ∧ npDot w v = 3 / 5 := by
    intro lib
    rw [constrainTo_eq, sb, if_pos (by linarith)]
    refine ⟨_, rfl, ?_⟩
    rw [pb]
    cases lib <;> simp [npDot, v] <;> norm_num
  refine ⟨?_, ?_, ?_, ?_⟩
  · unfold SpherePoint
    simp [v]
  · rw [hav, hbv]; norm_num [abs_of_pos]
  · obtain ⟨wa, h1, h2⟩ := ca .python
    obtain ⟨wb, h3, h4⟩ := cb .python
    rw [nearestAxis_eq, List.foldl_cons, List.foldl_cons, List.foldl_nil]
    unfold nearestStep
    simp only [h1, h2, h3, h4]
    norm_num
  · obtain ⟨wa, h1, h2⟩ := ca .compiled
    obtain ⟨wb, h3, h4⟩ := cb .compiled
    rw [nearestAxis_eq, List.foldl_cons, List.foldl_cons, List.foldl_nil]
    unfold nearestStep
    rw [if_neg (by decide)] at h2
    simp only [h1, h2, h3, h4]
    norm_num

/-- the hypotheses can be met: a ball with two axes that is pressed, dragged and goes on -/
example (lib : BallLib) : ∃ s, ballRun lib (newBall ![1, 0, 0, 0]) [.place ![320, 320] 320, .setaxes [![1, 1, 0], ![-1, 1, 0]],
    .constrain true, .down ![400, 200], .drag ![200, 400], .next 0, .matrix] = some s := by
  refine c105_progress lib _ (by rw [quatDot_eq]; simp) _ fun op hop => ?_
  simp only [List.mem_cons, List.not_mem_nil, or_false] at hop
  rcases hop with rfl | rfl | rfl | rfl | rfl | rfl | rfl
  · show (320 : ℝ) ≠ 0
    norm_num
  · refine ⟨by simp, fun a ha => ?_⟩
    simp only [List.mem_cons, List.not_mem_nil, or_false] at ha
    rcases ha with rfl | rfl <;> simp
  all_goals trivial

/-! ### axes without `constrain` -/

/-- the ball without its axes -/
def noAxes (s : Ball) : Ball := { s with axes := none }

theorem step_noAxes {lib : BallLib} {s s' : Ball} {op : BallOp} (hc : s.constrain = false) (ha : s.axis = none) (hop : op ≠ .constrain true)
    (h : ballStep lib s op = some s') :
    s'.constrain = false ∧ s'.axis = none ∧ (noAxes s' = noAxes s ∨ ballStep lib (noAxes s) op = some (noAxes s')) ∧
      ((∀ l, op ≠ .setaxes l) → ballStep lib (noAxes s) op = some (noAxes s')) := by
  cases op with
  | place c r => obtain rfl := Option.some.inj h; exact ⟨hc, ha, .inr rfl, fun _ => rfl⟩
  | setaxes l =>
    simp only [ballStep, ballSetaxes] at h
    split_ifs at h
    obtain rfl := Option.some.inj h
    exact ⟨hc, ha, .inl rfl, fun h => absurd rfl (h l)⟩
  | constrain b =>
    obtain rfl := Option.some.inj h
    cases b with
    | true => exact absurd rfl hop
    | false => exact ⟨rfl, ha, .inr rfl, fun _ => rfl⟩
  | down p =>
    simp only [ballStep, ballDown] at h
    have e : ballStep lib (noAxes s) (.down p) = some (noAxes s') ∧ s'.constrain = false ∧ s'.axis = none := by
      simp only [ballStep, ballDown, noAxes]
      rcases hm : mapToSphere p s.center s.radius with _ | v
      · rw [hm] at h; cases h
      · rw [hm] at h
        simp only [hc] at h ⊢
        obtain rfl := Option.some.inj h
        exact ⟨rfl, rfl, rfl⟩
    exact ⟨e.2.1, e.2.2, .inr e.1, fun _ => e.1⟩
  | drag p =>
    have e : ballStep lib (noAxes s) (.drag p) = some (noAxes s') ∧ s'.constrain = false ∧ s'.axis = none := by
      simp only [ballStep, ballDrag, dragPoint, noAxes, ha] at h ⊢
      rcases hm : mapToSphere p s.center s.radius with _ | v
      · rw [hm] at h; cases h
      · rw [hm] at h
        simp only at h ⊢
        split_ifs at h ⊢ <;> obtain rfl := Option.some.inj h <;> exact ⟨rfl, hc, rfl⟩
    exact ⟨e.2.1, e.2.2, .inr e.1, fun _ => e.1⟩
  | next a =>
    have e : ballStep lib (noAxes s) (.next a) = some (noAxes s') ∧ s'.constrain = false ∧ s'.axis = none := by
      simp only [ballStep, ballNext, noAxes] at h ⊢
      cases lib with
      | python =>
        obtain rfl := Option.some.inj h
        exact ⟨rfl, hc, ha⟩
      | compiled =>
        simp only at h ⊢
        rcases hq : cSlerp s.qpre s.qnow (2 + a) 0 true with _ | q
        · rw [hq] at h; cases h
        · rw [hq] at h
          obtain rfl := Option.some.inj h
          exact ⟨rfl, hc, ha⟩
    exact ⟨e.2.1, e.2.2, .inr e.1, fun _ => e.1⟩
  | matrix =>
    obtain rfl := Option.some.inj h
    cases lib <;> exact ⟨hc, ha, .inr rfl, fun _ => rfl⟩

/-- C105: an Arcball is free at first: as long as `constrain` is not set, the axes given to `setaxes` change nothing, and the matrix is
the same as without these calls. -/
theorem c105_free (lib : BallLib) (q : Quat) (l : List BallOp) (hl : BallOp.constrain true ∉ l) (s : Ball)
    (h : ballRun lib (newBall q) l = some s) :
    ∃ s', ballRun lib (newBall q) (l.filter fun op => match op with | .setaxes _ => false | _ => true) = some s' ∧
      (ballMatrix lib s').1 = (ballMatrix lib s).1 := by
  have key : ∀ (l : List BallOp) (s t : Ball), s.constrain = false → s.axis = none → BallOp.constrain true ∉ l → ballRun lib s l = some t →
      ballRun lib (noAxes s) (l.filter fun op => match op with | .setaxes _ => false | _ => true) = some (noAxes t) := by
    intro l
    induction l with
    | nil =>
      intro s t _ _ _ h
      rw [← Option.some.inj h]
      rfl
    | cons op l ih =>
      intro s t hc ha hn h
      rw [ballRun] at h
      rcases hs : ballStep lib s op with _ | u
      · rw [hs] at h; cases h
      rw [hs] at h
      have hne : op ≠ .constrain true := fun he => hn (he ▸ List.mem_cons_self)
      obtain ⟨h1, h2, -, h4⟩ := step_noAxes hc ha hne hs
      have := ih u t h1 h2 (fun hm => hn (List.mem_cons_of_mem _ hm)) h
      cases op with
      | setaxes x =>
        have hu : noAxes u = noAxes s := by
          simp only [ballStep, ballSetaxes] at hs
          split_ifs at hs
          rw [← Option.some.inj hs]
          rfl
        rw [hu] at this
        exact this
      | _ =>
        simp only [List.filter_cons, if_true]
        rw [ballRun, h4 (by intro l h; cases h)]
        exact this
  refine ⟨noAxes s, key l (newBall q) s rfl rfl hl h, ?_⟩
  cases lib <;> rfl

/-- with an axis and a drag -/
example (lib : BallLib) (q : Quat) (hq : quatDot q = 1) : ∃ s,
    ballRun lib (newBall q) [.setaxes [![1, 0, 0]], .down ![0, 0], .drag ![1 / 2, 1 / 2]] = some s := by
  refine c105_progress lib q hq _ fun op hop => ?_
  simp only [List.mem_cons, List.not_mem_nil, or_false] at hop
  rcases hop with rfl | rfl | rfl <;> simp [OkOp]

end Electrode
