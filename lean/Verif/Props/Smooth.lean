import Verif.Model.Smooth
import Mathlib.Data.List.GetD
import Mathlib.Tactic.IntervalCases
import Mathlib.Tactic.Linarith

/-
C117: smoothing of polygons.
-/
namespace Electrode

/-- a point as a complex number -/
noncomputable def Spec.cpt (p : List V2) (i : Nat) : ℂ := ⟨(p.getD i ⟨0, 0⟩).x, (p.getD i ⟨0, 0⟩).y⟩

/-- the edge from point `i` to the next -/
noncomputable def Spec.cedge (p : List V2) (i : Nat) : ℂ := Spec.cpt p (i + 1) - Spec.cpt p i

/-- the direction in which the curve comes to point `i`; the first point has none, and the code takes the positive x axis -/
noncomputable def Spec.edgeIn (p : List V2) (i : Nat) : ℂ := if i = 0 then 1 else Spec.cedge p (i - 1)

/-- the direction in which the curve leaves point `i`; at the last point the code takes the positive x axis -/
noncomputable def Spec.edgeOut (p : List V2) (i : Nat) : ℂ := if i + 1 = p.length then 1 else Spec.cedge p i

/-- `w` points in the direction of `z` turned counterclockwise by `θ` -/
def Spec.TurnsBy (z w : ℂ) (θ : ℝ) : Prop :=
  0 ≤ θ ∧ θ < 2 * Real.pi ∧ ∃ r : ℝ, 0 < r ∧ w = r * Complex.exp (θ * Complex.I) * z

/-- point `i` is passed with a counterclockwise turn of less than `tol` -/
def Spec.Straight (p : List V2) (tol : ℝ) (i : Nat) : Prop := ∃ θ, Spec.TurnsBy (Spec.edgeIn p i) (Spec.edgeOut p i) θ ∧ θ < tol

/-- a closed curve in which successive points differ -/
structure Spec.ClosedCurve (p : List V2) : Prop where
  two : 2 ≤ p.length
  closed : Spec.cpt p 0 = Spec.cpt p (p.length - 1)
  moves : ∀ i, i + 1 < p.length → Spec.cedge p i ≠ 0

/-! ### angles -/

theorem floatMod_range (a : ℝ) {b : ℝ} (hb : 0 < b) : 0 ≤ floatMod a b ∧ floatMod a b < b := by
  unfold floatMod
  have h1 := Int.floor_le (a / b)
  have h2 := Int.lt_floor_add_one (a / b)
  rw [le_div_iff₀ hb] at h1
  rw [div_lt_iff₀ hb] at h2
  constructor <;> linarith

theorem exp_floatMod (a : ℝ) : Complex.exp (floatMod a (2 * Real.pi) * Complex.I) = Complex.exp (a * Complex.I) := by
  unfold floatMod
  push_cast
  rw [show ((a : ℂ) - 2 * Real.pi * (⌊a / (2 * Real.pi)⌋ : ℂ)) * Complex.I =
    a * Complex.I - (⌊a / (2 * Real.pi)⌋ : ℂ) * (2 * Real.pi * Complex.I) by ring]
  rw [Complex.exp_sub, Complex.exp_int_mul_two_pi_mul_I, div_one]

/-- the remainder of the difference of the angles is the turn -/
theorem turn_floatMod {z w : ℂ} (hz : z ≠ 0) (hw : w ≠ 0) (θ : ℝ) :
    Spec.TurnsBy z w θ ↔ θ = floatMod (Complex.arg w - Complex.arg z) (2 * Real.pi) := by
  have hpi : (0 : ℝ) < 2 * Real.pi := by positivity
  set φ := floatMod (Complex.arg w - Complex.arg z) (2 * Real.pi) with hφ
  obtain ⟨r1, r2⟩ := floatMod_range (Complex.arg w - Complex.arg z) hpi
  have hzn : (0 : ℝ) < ‖z‖ := norm_pos_iff.2 hz
  have hwn : (0 : ℝ) < ‖w‖ := norm_pos_iff.2 hw
  have hexp : w = ((‖w‖ / ‖z‖ : ℝ) : ℂ) * Complex.exp (φ * Complex.I) * z := by
    rw [hφ, exp_floatMod]
    have ez := Complex.norm_mul_exp_arg_mul_I z
    have ew := Complex.norm_mul_exp_arg_mul_I w
    push_cast
    rw [show ((Complex.arg w : ℂ) - Complex.arg z) * Complex.I = Complex.arg w * Complex.I - Complex.arg z * Complex.I by ring,
      Complex.exp_sub]
    have h1 : (‖z‖ : ℂ) ≠ 0 := by exact_mod_cast hzn.ne'
    have h2 := Complex.exp_ne_zero (Complex.arg z * Complex.I)
    generalize Complex.exp (Complex.arg z * Complex.I) = Ez at *
    generalize Complex.exp (Complex.arg w * Complex.I) = Ew at *
    field_simp
    linear_combination w * ez - z * ew
  constructor
  · rintro ⟨h0, h1, r, hr, h⟩
    have hn : ‖w‖ = r * ‖z‖ := by
      rw [h, norm_mul, norm_mul, Complex.norm_exp_ofReal_mul_I, Complex.norm_real, Real.norm_of_nonneg hr.le, mul_one]
    have hr' : ‖w‖ / ‖z‖ = r := by rw [hn]; field_simp
    rw [hr'] at hexp
    have hrc : (r : ℂ) ≠ 0 := by exact_mod_cast hr.ne'
    have he : Complex.exp (θ * Complex.I) = Complex.exp (φ * Complex.I) := by
      have := h.symm.trans hexp
      exact mul_left_cancel₀ hrc (mul_right_cancel₀ hz this)
    obtain ⟨m, hm⟩ := Complex.exp_eq_exp_iff_exists_int.1 he
    have hm' : θ = φ + m * (2 * Real.pi) := by
      have h2 : ((θ : ℂ) - φ - m * (2 * Real.pi)) * Complex.I = 0 := by linear_combination hm
      have h3 := (mul_eq_zero.1 h2).resolve_right Complex.I_ne_zero
      have h4 : ((θ - φ - m * (2 * Real.pi) : ℝ) : ℂ) = 0 := by push_cast; exact h3
      have := Complex.ofReal_eq_zero.1 h4
      linarith
    have hm0 : m = 0 := by
      have a1 : (m : ℝ) < 1 := by nlinarith
      have a2 : (-1 : ℝ) < m := by nlinarith
      have : m < 1 := by exact_mod_cast a1
      have : -1 < m := by exact_mod_cast a2
      omega
    rw [hm', hm0]; simp
  · rintro rfl
    exact ⟨r1, r2, _, div_pos hwn hzn, hexp⟩

/-! ### the curve -/

theorem stepAngle_in {p : List V2} (h : Spec.ClosedCurve p) {i : Nat} (hi : i < p.length) :
    stepAngle p.length (fun i => (p.getD i ⟨0, 0⟩).x) (fun i => (p.getD i ⟨0, 0⟩).y) i = Complex.arg (Spec.edgeIn p i) := by
  have h2 := h.two
  unfold stepAngle arctan2 stepFrom Spec.edgeIn
  by_cases h0 : i = 0
  · subst h0
    rw [if_pos rfl, Complex.arg_one, Nat.zero_add, Nat.mod_eq_of_lt (by omega)]
    have hx := congrArg Complex.re h.closed
    have hy := congrArg Complex.im h.closed
    simp only [Spec.cpt] at hx hy
    simp only
    rw [hx, hy, sub_self, sub_self]
    exact Complex.arg_zero
  · rw [if_neg h0, show i + p.length - 1 = (i - 1) + p.length by omega, Nat.add_mod_right, Nat.mod_eq_of_lt (by omega)]
    congr 1
    unfold Spec.cedge Spec.cpt
    rw [show i - 1 + 1 = i by omega]
    exact Complex.ext (by simp) (by simp)

theorem edgeIn_ne {p : List V2} (h : Spec.ClosedCurve p) {i : Nat} (hi : i < p.length) : Spec.edgeIn p i ≠ 0 := by
  unfold Spec.edgeIn
  split_ifs with h0
  · exact one_ne_zero
  · exact h.moves _ (by omega)

theorem edgeOut_eq {p : List V2} {i : Nat} (hi : i < p.length) :
    Spec.edgeOut p i = Spec.edgeIn p ((i + 1) % p.length) := by
  unfold Spec.edgeOut Spec.edgeIn
  by_cases h0 : i + 1 = p.length
  · rw [if_pos h0, h0, Nat.mod_self, if_pos rfl]
  · rw [if_neg h0, Nat.mod_eq_of_lt (by omega), if_neg (by omega), Nat.add_sub_cancel]

theorem straight_iff {p : List V2} (h : Spec.ClosedCurve p) (tol : ℝ) {i : Nat} (hi : i < p.length) :
    isStraight p.length (fun i => (p.getD i ⟨0, 0⟩).x) (fun i => (p.getD i ⟨0, 0⟩).y) tol i ↔ Spec.Straight p tol i := by
  have h2 := h.two
  have hm : (i + 1) % p.length < p.length := Nat.mod_lt _ (by omega)
  unfold isStraight
  rw [stepAngle_in h hi, stepAngle_in h hm, ← edgeOut_eq hi]
  have hi' := edgeIn_ne h hi
  have ho : Spec.edgeOut p i ≠ 0 := by rw [edgeOut_eq hi]; exact edgeIn_ne h hm
  rw [abs_of_nonneg (floatMod_range _ (by positivity)).1]
  constructor
  · intro ht
    exact ⟨_, (turn_floatMod hi' ho _).2 rfl, ht⟩
  · rintro ⟨θ, hθ, ht⟩
    rwa [← (turn_floatMod hi' ho θ).1 hθ]

theorem stepLen_eq {p : List V2} (h : Spec.ClosedCurve p) {i : Nat} (hi : i < p.length) :
    stepLen p.length (fun i => (p.getD i ⟨0, 0⟩).x) (fun i => (p.getD i ⟨0, 0⟩).y) i = if i = 0 then 0 else ‖Spec.cedge p (i - 1)‖ := by
  have h2 := h.two
  unfold stepLen stepFrom
  by_cases h0 : i = 0
  · subst h0
    rw [if_pos rfl, Nat.zero_add, Nat.mod_eq_of_lt (by omega)]
    have hx := congrArg Complex.re h.closed
    have hy := congrArg Complex.im h.closed
    simp only [Spec.cpt] at hx hy
    simp only
    rw [hx, hy, sub_self, sub_self]
    norm_num
  · rw [if_neg h0, show i + p.length - 1 = (i - 1) + p.length by omega, Nat.add_mod_right, Nat.mod_eq_of_lt (by omega)]
    rw [Complex.norm_def, Complex.normSq_apply]
    unfold Spec.cedge Spec.cpt
    rw [show i - 1 + 1 = i by omega]
    simp only [Complex.sub_re, Complex.sub_im]
    congr 1
    ring

theorem arcLen_eq {p : List V2} (h : Spec.ClosedCurve p) {i : Nat} (hi : i < p.length) :
    arcLen p.length (fun i => (p.getD i ⟨0, 0⟩).x) (fun i => (p.getD i ⟨0, 0⟩).y) i = ∑ j ∈ Finset.range i, ‖Spec.cedge p j‖ := by
  unfold arcLen
  rw [Finset.sum_range_succ', add_sub_cancel_right]
  refine Finset.sum_congr rfl fun j hj => ?_
  rw [stepLen_eq h (by have := Finset.mem_range.1 hj; omega), if_neg (by omega), Nat.add_sub_cancel]

/-! ### theorems -/

/-- C117: what `smooth` asks of the spline routine for a closed curve: the points, one weight and one parameter for each, the smoothing
times the number of points.  The parameter runs from 0 to 1 in proportion to the length of the edges.  The weight of a point is 1;
`straight`, if given, replaces it where the curve turns counterclockwise by less than the tolerance, and `corner` where it does not but
does so at a neighbour (the neighbour of the first point is the last). -/
theorem c117_call {S : Type*} (L : SplineLib S) (g : SmoothArgs) (p : List V2) (h : Spec.ClosedCurve p) :
    ∃ w u : List ℝ, smoothCurve L g p = (match L.fit (p.map V2.x) (p.map V2.y) w (some u) (p.length * g.smoothing) g.k (p.length + 2) with
        | .error e => .error e
        | .ok (tck, ier) =>
          if ier ≤ 0 then .ok ((match g.knots with | none => innerSlice (L.knots tck) g.k | some m => linspace01 m).map (L.eval tck))
          else .error .assertionError) ∧
      u.length = p.length ∧ u.getD 0 0 = 0 ∧ u.getD (p.length - 1) 0 = 1 ∧
      (∀ i, i + 1 < p.length → u.getD (i + 1) 0 - u.getD i 0 =
        ‖Spec.cedge p i‖ / ∑ j ∈ Finset.range (p.length - 1), ‖Spec.cedge p j‖) ∧
      w.length = p.length ∧ ∀ i < p.length,
        (g.straight = none → g.corner = none → w.getD i 0 = 1) ∧
        (∀ s, g.straight = some s → Spec.Straight p g.tol i → w.getD i 0 = s) ∧
        (g.straight = none → Spec.Straight p g.tol i → w.getD i 0 = 1) ∧
        (∀ c, g.corner = some c → ¬ Spec.Straight p g.tol i →
          (Spec.Straight p g.tol ((i + p.length - 1) % p.length) ∨ Spec.Straight p g.tol ((i + 1) % p.length)) → w.getD i 0 = c) ∧
        (¬ Spec.Straight p g.tol i → g.corner = none ∨
          (¬ Spec.Straight p g.tol ((i + p.length - 1) % p.length) ∧ ¬ Spec.Straight p g.tol ((i + 1) % p.length)) → w.getD i 0 = 1) := by
  classical
  have h2 := h.two
  set x : Nat → ℝ := fun i => (p.getD i ⟨0, 0⟩).x with hx
  set y : Nat → ℝ := fun i => (p.getD i ⟨0, 0⟩).y with hy
  set P := ∑ j ∈ Finset.range (p.length - 1), ‖Spec.cedge p j‖ with hP
  have hPpos : 0 < P := by
    refine Finset.sum_pos' (fun _ _ => norm_nonneg _) ⟨0, Finset.mem_range.2 (by omega), norm_pos_iff.2 (h.moves 0 (by omega))⟩
  have hlast : arcLen p.length x y (p.length - 1) = P := arcLen_eq h (by omega)
  have hu : curveParam p.length x y = some ((List.range p.length).map fun i => arcLen p.length x y i / P) := by
    unfold curveParam
    rw [if_neg (by rw [hlast]; exact hPpos.ne'), hlast]
  have hget : ∀ (f : Nat → ℝ) i, i < p.length → ((List.range p.length).map f).getD i 0 = f i := by
    intro f i hi
    rw [List.getD_eq_getElem _ _ (by simpa using hi), List.getElem_map, List.getElem_range]
  have hcx := congrArg Complex.re h.closed
  have hcy := congrArg Complex.im h.closed
  simp only [Spec.cpt] at hcx hcy
  have hst : ∀ i < p.length, isStraight p.length x y g.tol i ↔ Spec.Straight p g.tol i := fun i hi => straight_iff h g.tol hi
  have hm1 : ∀ i, (i + p.length - 1) % p.length < p.length := fun i => Nat.mod_lt _ (by omega)
  have hm2 : ∀ i, (i + 1) % p.length < p.length := fun i => Nat.mod_lt _ (by omega)
  refine ⟨(List.range p.length).map (pointWeight p.length x y g.straight g.corner g.tol),
    (List.range p.length).map fun i => arcLen p.length x y i / P, ?_, by simp, ?_, ?_, ?_, by simp, ?_⟩
  · unfold smoothCurve
    simp only
    rw [if_neg (by omega), if_pos ⟨hcx, hcy⟩, hu]
    rfl
  · rw [hget _ _ (by omega), arcLen_eq h (by omega)]; simp
  · rw [hget _ _ (by omega), hlast, div_self hPpos.ne']
  · intro i hi
    rw [hget _ _ (by omega), hget _ _ (by omega), arcLen_eq h (by omega), arcLen_eq h (by omega), Finset.sum_range_succ]
    ring
  · intro i hi
    rw [hget _ _ hi]
    unfold pointWeight isCorner
    simp only [hst i hi, hst _ (hm1 i), hst _ (hm2 i)]
    refine ⟨fun e1 e2 => by rw [e1, e2], fun s e1 e2 => ?_, fun e1 e2 => ?_, fun c e1 e2 e3 => ?_, fun e1 e2 => ?_⟩
    · rw [e1]; cases g.corner <;> simp [e2]
    · rw [e1]; cases g.corner <;> simp [e2]
    · rw [e1]; simp only; rw [if_pos ⟨e3, e2⟩]
    · cases hgs : g.straight <;> cases hgc : g.corner <;> simp only [e1, if_false]
      all_goals
        rcases e2 with e2 | ⟨e2, e3⟩
        · rw [hgc] at e2; cases e2
        · rw [if_neg (by tauto)]

/-- C117: at a point inside the curve, where both edges run in the same direction, the path is found straight, whatever the tolerance. -/
theorem c117_straight (p : List V2) (i : Nat) (h0 : 0 < i) (hi : i + 1 < p.length) (r : ℝ) (hr : 0 < r)
    (he : Spec.cedge p i = r * Spec.cedge p (i - 1)) (tol : ℝ) (ht : 0 < tol) : Spec.Straight p tol i := by
  refine ⟨0, ⟨le_refl _, by positivity, r, hr, ?_⟩, ht⟩
  unfold Spec.edgeIn Spec.edgeOut
  rw [if_neg (by omega), if_neg (by omega), he]
  simp

/-- C117, what is missing: a clockwise turn is never found straight, however small it is, since the remainder of a small negative angle is
close to a full turn. -/
theorem c117_clockwise_counterexample (p : List V2) (h : Spec.ClosedCurve p) (i : Nat) (h0 : 0 < i) (hi : i + 1 < p.length) (r φ : ℝ)
    (hr : 0 < r) (hφ : 0 < φ) (hφ' : φ < 2 * Real.pi) (he : Spec.cedge p i = r * Complex.exp (-(φ * Complex.I)) * Spec.cedge p (i - 1))
    (tol : ℝ) (ht : tol ≤ 2 * Real.pi - φ) : ¬ Spec.Straight p tol i := by
  rintro ⟨θ, hθ, hlt⟩
  have e1 : Spec.edgeIn p i = Spec.cedge p (i - 1) := if_neg (by omega)
  have e2 : Spec.edgeOut p i = Spec.cedge p i := if_neg (by omega)
  have hz := h.moves (i - 1) (by omega)
  have hw := h.moves i hi
  rw [e1, e2] at hθ
  have h' : Spec.TurnsBy (Spec.cedge p (i - 1)) (Spec.cedge p i) (2 * Real.pi - φ) := by
    refine ⟨by linarith, by linarith, r, hr, ?_⟩
    rw [he]
    congr 2
    push_cast
    rw [sub_mul, sub_eq_add_neg, Complex.exp_add, Complex.exp_two_pi_mul_I, one_mul]
  have := ((turn_floatMod hz hw _).1 hθ).trans ((turn_floatMod hz hw _).1 h').symm
  linarith

/-- a square of side 2 that starts in the middle of its right side, and the same square turned so that it starts in the middle of its
lower side -/
noncomputable def exSquare (lower : Bool) : List V2 :=
  if lower then [⟨0, 0⟩, ⟨1, 0⟩, ⟨1, 2⟩, ⟨-1, 2⟩, ⟨-1, 0⟩, ⟨0, 0⟩] else [⟨0, 0⟩, ⟨0, 1⟩, ⟨-2, 1⟩, ⟨-2, -1⟩, ⟨0, -1⟩, ⟨0, 0⟩]

theorem exSquare_closed (lower : Bool) : Spec.ClosedCurve (exSquare lower) := by
  refine ⟨by cases lower <;> simp [exSquare], by cases lower <;> simp [exSquare, Spec.cpt], fun i hi => ?_⟩
  have : i < 5 := by cases lower <;> simp [exSquare] at hi <;> omega
  cases lower <;> interval_cases i <;> simp [exSquare, Spec.cedge, Spec.cpt, Complex.ext_iff] <;> norm_num

/-- C117, what is missing: the point where the curve closes is judged by the direction of the x axis and not by the edges that meet there.
Of two congruent squares that start in the middle of a side, the start is found straight for the one and not for the other. -/
theorem c117_start_counterexample (tol : ℝ) (h0 : 0 < tol) (h1 : tol ≤ Real.pi / 2) :
    Spec.Straight (exSquare true) tol 0 ∧ ¬ Spec.Straight (exSquare false) tol 0 ∧
    ∀ b, Spec.cedge (exSquare b) 4 = Spec.cedge (exSquare b) 0 := by
  have hpi := Real.pi_pos
  refine ⟨⟨0, ⟨le_refl _, by positivity, 1, one_pos, ?_⟩, h0⟩, ?_, fun b => ?_⟩
  · simp [Spec.edgeIn, Spec.edgeOut, exSquare, Spec.cedge, Spec.cpt, Complex.ext_iff]
  · rintro ⟨θ, hθ, hlt⟩
    have hz : Spec.edgeIn (exSquare false) 0 = 1 := if_pos rfl
    have hw : Spec.edgeOut (exSquare false) 0 = Complex.I := by
      simp [Spec.edgeOut, exSquare, Spec.cedge, Spec.cpt, Complex.ext_iff]
    rw [hz, hw] at hθ
    have h' : Spec.TurnsBy 1 Complex.I (Real.pi / 2) := by
      refine ⟨by positivity, by linarith, 1, one_pos, ?_⟩
      push_cast
      rw [Complex.exp_pi_div_two_mul_I]
      ring
    have := ((turn_floatMod one_ne_zero Complex.I_ne_zero _).1 hθ).trans
      ((turn_floatMod one_ne_zero Complex.I_ne_zero _).1 h').symm
    linarith
  · cases b <;> simp [exSquare, Spec.cedge, Spec.cpt, Complex.ext_iff]

/-- C117: an open curve is refused, and so is one without points. -/
theorem c117_open {S : Type*} (L : SplineLib S) (g : SmoothArgs) (p : List V2) :
    (p = [] → smoothCurve L g p = .error .indexError) ∧
    (p ≠ [] → Spec.cpt p 0 ≠ Spec.cpt p (p.length - 1) → smoothCurve L g p = .error .assertionError) := by
  refine ⟨fun h => by rw [h]; rfl, fun h h' => ?_⟩
  unfold smoothCurve
  simp only
  rw [if_neg (by simpa using h), if_neg]
  rintro ⟨e1, e2⟩
  exact h' (Complex.ext e1 e2)

/-- what `splprep` promises for a periodic curve: the inner knots run from 0 to 1, and the curve closes -/
structure Spec.Periodic {S : Type*} (L : SplineLib S) : Prop where
  knots : ∀ x y w u s k nest tck ier, L.fit x y w u s k nest = .ok (tck, ier) → ier ≤ 0 →
    (innerSlice (L.knots tck) k).head? = some 0 ∧ (innerSlice (L.knots tck) k).getLast? = some 1
  closes : ∀ x y w u s k nest tck ier, L.fit x y w u s k nest = .ok (tck, ier) → ier ≤ 0 → L.eval tck 0 = L.eval tck 1

/-- C117: with degree zero, which the spline routine does not support, and without a number of points nothing is left of the curve, since
`t[0:-0]` is empty. -/
theorem c117_degree_zero {S : Type*} (L : SplineLib S) (g : SmoothArgs) (hk : g.k = 0) (hn : g.knots = none) (p r : List V2)
    (h : smoothCurve L g p = .ok r) : r = [] := by
  unfold smoothCurve at h
  simp only at h
  split_ifs at h with h1 h2
  split at h
  · cases h
  · split_ifs at h with h3
    rw [hn, hk] at h
    simpa [innerSlice] using (Except.ok.inj h).symm

/-- the hypotheses are met -/
example : smoothCurve (S := Unit) ⟨fun _ _ _ _ _ _ _ => .ok ((), 0), fun _ => [0, 1], fun _ _ => ⟨0, 0⟩⟩ { k := 0 } [⟨1, 2⟩] = .ok [] := by
  simp [smoothCurve, innerSlice]

/-- C117: the smoothed curve is closed again, so that it can be smoothed again and used as a boundary. -/
theorem c117_closed {S : Type*} (L : SplineLib S) (hL : Spec.Periodic L) (g : SmoothArgs) (hk : ∀ m, g.knots = some m → 1 ≤ m)
    (p r : List V2) (h : smoothCurve L g p = .ok r) : r ≠ [] ∧ r.head? = r.getLast? := by
  unfold smoothCurve at h
  simp only at h
  split_ifs at h with h1 h2
  split at h
  · cases h
  · rename_i tck ier hf
    split_ifs at h with h3
    have hcl := hL.closes _ _ _ _ _ _ _ _ _ hf h3
    obtain ⟨k1, k2⟩ := hL.knots _ _ _ _ _ _ _ _ _ hf h3
    obtain rfl := Except.ok.inj h
    cases hg : g.knots with
    | none =>
      simp only
      refine ⟨fun hn => ?_, by rw [List.head?_map, List.getLast?_map, k1, k2]; simp [hcl]⟩
      rw [List.map_eq_nil_iff.1 hn] at k1
      simp at k1
    | some m =>
      simp only
      have hm := hk m hg
      unfold linspace01
      refine ⟨by simp; omega, ?_⟩
      rw [List.map_map, List.head?_map, List.getLast?_map]
      obtain ⟨j, rfl⟩ : ∃ j, m = j + 1 := ⟨m - 1, by omega⟩
      rw [List.getLast?_range, List.head?_range]
      simp only [Nat.add_eq_zero_iff, one_ne_zero, and_false, if_false, Nat.add_sub_cancel, Option.map_some, Function.comp]
      by_cases hj : j = 0
      · subst hj; simp
      · have hjr : (j : ℝ) ≠ 0 := by exact_mod_cast hj
        rw [if_neg (by omega), if_neg (by omega)]
        push_cast
        rw [add_sub_cancel_right, div_self hjr, zero_div, hcl]

/-- what `splprep` promises for degree one and without smoothing: the polygon itself, with its parameters as inner knots -/
def Spec.Interpolates {S : Type*} (L : SplineLib S) : Prop :=
  ∀ (p : List V2) w u nest, u.length = p.length → Spec.cpt p 0 = Spec.cpt p (p.length - 1) → u.head? = some 0 → u.getLast? = some 1 →
    u.Pairwise (· < ·) → ∃ tck, L.fit (p.map V2.x) (p.map V2.y) w (some u) 0 1 nest = .ok (tck, 0) ∧
    innerSlice (L.knots tck) 1 = u ∧ ∀ i < p.length, L.eval tck (u.getD i 0) = p.getD i ⟨0, 0⟩

/-- C117: without smoothing the polygon comes back unchanged, whatever the weights. -/
theorem c117_unchanged {S : Type*} (L : SplineLib S) (hL : Spec.Interpolates L) (g : SmoothArgs) (hs : g.smoothing = 0) (hk : g.k = 1)
    (hn : g.knots = none) (p : List V2) (h : Spec.ClosedCurve p) : smoothCurve L g p = .ok p := by
  obtain ⟨w, u, e, hu, u0, u1, hstep, -⟩ := c117_call L g p h
  have h2 := h.two
  have hP : 0 < ∑ j ∈ Finset.range (p.length - 1), ‖Spec.cedge p j‖ :=
    Finset.sum_pos' (fun _ _ => norm_nonneg _) ⟨0, Finset.mem_range.2 (by omega), norm_pos_iff.2 (h.moves 0 (by omega))⟩
  have hgd : ∀ i (hi : i < u.length), u.getD i 0 = u[i] := fun i hi => List.getD_eq_getElem _ _ hi
  have hmono : u.Pairwise (· < ·) := by
    refine List.isChain_iff_pairwise.1 (List.isChain_iff_getElem.2 fun i hi => ?_)
    have := hstep i (by omega)
    rw [hgd _ hi, hgd i (by omega)] at this
    have h3 := div_pos (norm_pos_iff.2 (h.moves i (by omega))) hP
    rw [← this] at h3
    linarith
  have hne : u ≠ [] := fun hn => by rw [hn] at hu; simp at hu; omega
  obtain ⟨tck, hf, hkn, hev⟩ := hL p w u (p.length + 2) hu h.closed
    (by rw [List.head?_eq_getElem?, List.getElem?_eq_getElem (by omega), ← hgd, u0])
    (by rw [List.getLast?_eq_getElem?, List.getElem?_eq_getElem (by omega), ← hgd, hu, u1]) hmono
  rw [e, hs, hk, mul_zero, hf, hn]
  simp only
  rw [if_pos (le_refl _), hkn]
  congr 1
  refine List.ext_getElem (by simpa using hu) fun i hi hi' => ?_
  have hiu : i < u.length := by simpa using hi
  rw [List.getElem_map]
  have := hev i hi'
  rwa [List.getD_eq_getElem _ _ hiu, List.getD_eq_getElem _ _ hi'] at this

theorem mapM_ok {α β : Type} (f : α → Py β) (l : List α) (r : List β) (h : l.mapM f = .ok r) :
    List.Forall₂ (fun a b => f a = .ok b) l r := by
  induction l generalizing r with
  | nil =>
    rw [List.mapM_nil] at h
    obtain rfl := Except.ok.inj h
    exact .nil
  | cons a l ih =>
    rw [List.mapM_cons] at h
    cases h1 : f a with
    | error e => rw [h1] at h; cases h
    | ok b =>
      rw [h1] at h
      cases h2 : l.mapM f with
      | error e => simp only [bind, Except.bind, h2] at h; cases h
      | ok t =>
        simp only [bind, Except.bind, h2] at h
        obtain rfl := Except.ok.inj h
        exact .cons h1 (ih t h2)

/-- what one polygon becomes -/
theorem smoothPoly_ok {S : Type*} {L : SplineLib S} {g : SmoothArgs} {p : GPoly} {o : Option GPoly} (h : smoothPoly L g p = .ok o) :
    ∃ e is, smoothCurve L g p.ext = .ok e ∧ List.Forall₂ (fun a b => smoothCurve L g a = .ok b) p.ints is ∧
      o = if 3 ≤ e.length then some ⟨e, is.filter fun l => 3 ≤ l.length⟩ else none := by
  unfold smoothPoly at h
  split at h
  · cases h
  · rename_i loops hl
    have hf := mapM_ok _ _ _ hl
    cases hf with
    | cons h1 h2 =>
      rename_i e is
      refine ⟨e, is, h1, h2, ?_⟩
      change (if 3 ≤ e.length then Except.ok (some (⟨e, is.filter fun l => 3 ≤ l.length⟩ : GPoly)) else Except.ok none) = Except.ok o at h
      by_cases h3 : 3 ≤ e.length
      · rw [if_pos h3] at h ⊢
        exact (Except.ok.inj h).symm
      · rw [if_neg h3] at h ⊢
        exact (Except.ok.inj h).symm

/-- C117: `Polygons.smooth` smooths every boundary of every polygon and keeps the names and the order of the electrodes; a polygon is left
out exactly when less than three points remain of its exterior, and so is a hole.  If one boundary cannot be smoothed, nothing is
returned. -/
theorem c117_polygons {S : Type*} (L : SplineLib S) (g : SmoothArgs) (ps r : List (String × List GPoly)) (h : polySmooth L g ps = .ok r) :
    List.Forall₂ (fun p q => q.1 = p.1 ∧ ∃ o : List (Option GPoly), q.2 = o.filterMap id ∧
      List.Forall₂ (fun (s : GPoly) (t : Option GPoly) => ∃ e is, smoothCurve L g s.ext = .ok e ∧
        List.Forall₂ (fun a b => smoothCurve L g a = .ok b) s.ints is ∧
        (e.length < 3 → t = none) ∧ (3 ≤ e.length → t = some ⟨e, is.filter fun l => 3 ≤ l.length⟩)) p.2 o) ps r := by
  have hf := mapM_ok _ _ _ h
  refine hf.imp fun p q hpq => ?_
  split at hpq
  · cases hpq
  · rename_i o ho
    obtain rfl := Except.ok.inj hpq
    refine ⟨rfl, o, rfl, (mapM_ok _ _ _ ho).imp fun s t hst => ?_⟩
    obtain ⟨e, is, h1, h2, h3⟩ := smoothPoly_ok hst
    refine ⟨e, is, h1, h2, fun h4 => by rw [h3, if_neg (by omega)], fun h4 => by rw [h3, if_pos h4]⟩

/-! ### an example of a library -/

/-- a spline of degree one without smoothing: the polygon with its parameters -/
noncomputable def exSpline : SplineLib (List V2 × List ℝ) where
  fit x y _ u _ k _ := open Classical in
    match u with
    | none => .error .valueError
    | some u =>
      if k = 1 ∧ u.head? = some 0 ∧ u.getLast? = some 1 then .ok ((List.zipWith V2.mk x y, u), 0) else .error .typeError
  knots t := 0 :: t.2 ++ [1]
  eval t v := open Classical in if v = 1 then t.1.getD 0 ⟨0, 0⟩ else t.1.getD (t.2.findIdx (· = v)) ⟨0, 0⟩

theorem exSpline_slice (t : List V2 × List ℝ) : innerSlice (exSpline.knots t) 1 = t.2 := by
  simp [innerSlice, exSpline]

theorem exSpline_ok {x y w : List ℝ} {u : Option (List ℝ)} {s : ℝ} {k nest : Nat} {tck : List V2 × List ℝ} {ier : Int}
    (h : exSpline.fit x y w u s k nest = .ok (tck, ier)) : k = 1 ∧ tck.2.head? = some 0 ∧ tck.2.getLast? = some 1 := by
  simp only [exSpline] at h
  split at h
  · cases h
  · split_ifs at h with hc
    obtain ⟨rfl, -⟩ := Prod.mk.inj (Except.ok.inj h)
    exact hc

theorem findIdx_of_lt {u : List ℝ} (h : u.Pairwise (· < ·)) {i : Nat} (hi : i < u.length) :
    (u.findIdx (open Classical in fun a => decide (a = u[i]))) = i := by
  rw [List.findIdx_eq hi]
  refine ⟨by simp, fun j hj => ?_⟩
  have := List.pairwise_iff_getElem.1 h j i (by omega) hi hj
  simp [this.ne]

theorem exSpline_interpolates : Spec.Interpolates exSpline := by
  classical
  intro p w u nest hl hc h0 h1 hm
  have hz : List.zipWith V2.mk (p.map V2.x) (p.map V2.y) = p := by
    rw [List.zipWith_map_left, List.zipWith_map_right, List.zipWith_self]
    simp
  refine ⟨(p, u), ?_, exSpline_slice _, fun i hi => ?_⟩
  · simp only [exSpline]
    rw [if_pos ⟨trivial, h0, h1⟩, hz]
  · have hiu : i < u.length := by omega
    rw [List.getD_eq_getElem _ _ hiu]
    simp only [exSpline]
    split_ifs with h
    · have hlast : i = p.length - 1 := by
        by_contra hne
        have := List.pairwise_iff_getElem.1 hm i (p.length - 1) hiu (by omega) (by omega)
        rw [List.getLast?_eq_getElem?, List.getElem?_eq_getElem (by omega)] at h1
        have h2 := Option.some.inj h1
        simp only [hl] at h2
        rw [h2, h] at this
        exact lt_irrefl _ this
      rw [hlast]
      have hx := congrArg Complex.re hc
      have hy := congrArg Complex.im hc
      exact V2.ext hx hy
    · rw [findIdx_of_lt hm hiu]

theorem exSpline_periodic : Spec.Periodic exSpline := by
  classical
  refine ⟨fun x y w u s k nest tck ier h _ => ?_, fun x y w u s k nest tck ier h _ => ?_⟩
  · obtain ⟨rfl, h1, h2⟩ := exSpline_ok h
    rw [exSpline_slice]
    exact ⟨h1, h2⟩
  · obtain ⟨rfl, h1, h2⟩ := exSpline_ok h
    have hf : tck.2.findIdx (fun a => decide (a = (0 : ℝ))) = 0 := by
      cases ht : tck.2 with
      | nil => rw [ht] at h1; simp at h1
      | cons a l => rw [ht] at h1; simp at h1; rw [h1]; simp [List.findIdx_cons]
    simp only [exSpline]
    rw [if_neg (by norm_num), if_pos trivial]
    congr 1

/-- With this library the square comes back from `Polygons.smooth` under its name. -/
example : polySmooth exSpline { smoothing := 0 } [("rf", [⟨exSquare true, [exSquare false]⟩])] =
    .ok [("rf", [⟨exSquare true, [exSquare false]⟩])] := by
  have h : ∀ b, smoothCurve exSpline { smoothing := 0 } (exSquare b) = .ok (exSquare b) := fun b =>
    c117_unchanged exSpline exSpline_interpolates _ rfl rfl rfl _ (exSquare_closed b)
  have hl : ∀ b, (exSquare b).length = 6 := fun b => by cases b <;> simp [exSquare]
  generalize ({ smoothing := 0 } : SmoothArgs) = G at *
  simp [polySmooth, smoothPoly, h, hl, bind, Except.bind, pure, Except.pure]

/-- its curves close -/
example : ∃ r, smoothCurve exSpline { smoothing := 0 } (exSquare true) = .ok r ∧ r ≠ [] ∧ r.head? = r.getLast? := by
  have h := c117_unchanged exSpline exSpline_interpolates { smoothing := 0 } rfl rfl rfl _ (exSquare_closed true)
  exact ⟨_, h, c117_closed exSpline exSpline_periodic _ (fun m hm => by cases hm) _ _ h⟩

end Electrode
