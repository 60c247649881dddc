import Verif.Lemmas.Mirror
import Verif.Lemmas.Cyclic
import Mathlib.Analysis.SpecialFunctions.Trigonometric.ArctanDeriv

/-
The gradient of the order 0 edge term is the order 1 edge term up to a difference that
telescopes around a closed boundary.
-/
namespace Electrode
open Spec PExpr Real
namespace EdgeId

/-- numerator of the argument of `atan` -/
def nE : PExpr := .sub (.mul (.v 0) (.v 3)) (.mul (.v 2) (.v 1))

/-- denominator of the argument of `atan`, for `z > 0` -/
def dE : PExpr :=
  .add (.add (.add (.mul (.v 4) (.v 5)) (.mul (.v 0) (.v 1))) (.mul (.v 2) (.v 3)))
    (.mul (.v 7) (.add (.add (.v 7) (.v 4)) (.v 5)))

/-- the telescoping term, for `z > 0` -/
noncomputable def tele (a : Axis) (p : V3) (v : V2) : ℝ :=
  match a with
  | 0 => -(p.y - v.y) / (2 * (relR v p * (relR v p + p.z)))
  | 1 => (p.x - v.x) / (2 * (relR v p * (relR v p + p.z)))
  | 2 => 0

theorem algZ (n z r1 r2 : ℝ) (E d : ℝ) (hd : d ≠ 0) (h1 : 0 < r1) (h2 : 0 < r2) (hz : 0 < z) (hE : 0 < E)
    (hden : n ^ 2 + d ^ 2 = (r1 + z) * (r2 + z) * E) (D' : ℝ) (hD : D' = (r1 + r2) * (r1 + z) * (r2 + z)) :
    1 / (1 + (n / d) ^ 2) * ((0 * d - n * ((r1 * r2)⁻¹ * D')) / d ^ 2) = -n * (r1 + r2) / (r1 * r2 * E) := by
  have h : 1 / (1 + (n / d) ^ 2) = d ^ 2 / ((r1 + z) * (r2 + z) * E) := by
    rw [← hden]; field_simp; ring
  rw [h, hD]
  have p1 : r1 + z ≠ 0 := by positivity
  have p2 : r2 + z ≠ 0 := by positivity
  field_simp
  ring

theorem algXY (n d n' D' z r1 r2 E t1 t2 w : ℝ) (hd : d ≠ 0) (h1 : 0 < r1) (h2 : 0 < r2) (hz : 0 < z) (hE : 0 < E)
    (hden : n ^ 2 + d ^ 2 = (r1 + z) * (r2 + z) * E)
    (hD : 2 * (n' * d - n * D') = 2 * w * z * (r1 + r2) * (r1 + z) * (r2 + z) + E * (t2 * r1 * (r1 + z) - t1 * r2 * (r2 + z))) :
    1 / (1 + (n / d) ^ 2) * (((r1 * r2)⁻¹ * n' * d - n * ((r1 * r2)⁻¹ * D')) / d ^ 2)
      = w * z * (r1 + r2) / (r1 * r2 * E) + (t2 / (2 * (r2 * (r2 + z))) - t1 / (2 * (r1 * (r1 + z)))) := by
  have h : 1 / (1 + (n / d) ^ 2) = d ^ 2 / ((r1 + z) * (r2 + z) * E) := by
    rw [← hden]; field_simp; ring
  rw [h]
  have e : ((r1 * r2)⁻¹ * n' * d - n * ((r1 * r2)⁻¹ * D')) = (2 * (n' * d - n * D')) / (2 * (r1 * r2)) := by
    field_simp
  rw [e, hD]
  have p1 : r1 + z ≠ 0 := by positivity
  have p2 : r2 + z ≠ 0 := by positivity
  field_simp

theorem axis_cases : ∀ a : Axis, a = 0 ∨ a = 1 ∨ a = 2 := by decide

theorem seg1 (a : Axis) (v1 v2 : V2) (p : V3) :
    segComp 1 a.val p v1 v2 = ((edgeNum 1).getD a.val (.c 0)).eval (env v1 v2 p) *
      ((relR v1 p + relR v2 p) / (relR v1 p * relR v2 p * eE v1 v2 p)) / π := by
  rw [segComp_pos_eq 1 a.val le_rfl]
  simp only [edgeNorm, eE]; ring

theorem dE_pos {p : V3} (hz : 0 < p.z) (v1 v2 : V2) : 0 < dE.eval (env v1 v2 p) := by
  have h1 := relR_pos hz.ne' v1
  have h2 := relR_pos hz.ne' v2
  have hE := eE_pos hz.ne' v1 v2
  rw [eE_eq] at hE
  have : dE.eval (env v1 v2 p) = (relR v1 p * relR v2 p + (p.x - v1.x) * (p.x - v2.x) + (p.y - v1.y) * (p.y - v2.y)
      + p.z ^ 2) + p.z * (relR v1 p + relR v2 p) := by
    simp only [dE, eval, env, edgeEnv]; ring
  rw [this]
  have : 0 < p.z * (relR v1 p + relR v2 p) := by positivity
  linarith

theorem arctan_step {p : V3} (hz : 0 < p.z) (v1 v2 : V2) (a : Axis) :
    HasPartial a (fun p => arctan (nE.eval (env v1 v2 p) / dE.eval (env v1 v2 p)))
      (π * segComp 1 a.val p v1 v2 + (tele a p v2 - tele a p v1)) p := by
  have h1 := relR_pos hz.ne' v1
  have h2 := relR_pos hz.ne' v2
  have hE := eE_pos hz.ne' v1 v2
  have hd := dE_pos hz v1 v2
  have h0 : shift p a 0 = p := by fin_cases a <;> simp [shift]
  have hn := hasDerivAt_evalS (δ a) _ (fun t => env v1 v2 (shift p a t)) 0 (env_partial hz.ne' v1 v2 a) nE
  have hD := hasDerivAt_evalS (δ a) _ (fun t => env v1 v2 (shift p a t)) 0 (env_partial hz.ne' v1 v2 a) dE
  have := (hn.div hD (by rw [h0]; exact hd.ne')).arctan
  refine HasDerivAt.congr_deriv this ?_
  simp only [h0, Pi.div_apply]
  rw [seg1]
  have q1 := relR_sq v1 p
  have q2 := relR_sq v2 p
  have hden : nE.eval (env v1 v2 p) ^ 2 + dE.eval (env v1 v2 p) ^ 2
      = (relR v1 p + p.z) * (relR v2 p + p.z) * eE v1 v2 p := by
    rw [eE_eq]
    simp only [nE, dE, eval, env, edgeEnv]
    linear_combination ((-1) * relR v2 p ^ 2 + p.z ^ 2) * q1
      + (-(p.x - v1.x) ^ 2 - (p.y - v1.y) ^ 2) * q2
  have hpi : π ≠ 0 := pi_ne_zero
  obtain rfl | rfl | rfl : a = 0 ∨ a = 1 ∨ a = 2 := axis_cases a
  · have hw := algXY (nE.eval (env v1 v2 p)) (dE.eval (env v1 v2 p)) ((diffS (δ 0) nE).eval (env v1 v2 p))
      ((diffS (δ 0) dE).eval (env v1 v2 p)) p.z (relR v1 p) (relR v2 p) (eE v1 v2 p)
      (-(p.y - v1.y)) (-(p.y - v2.y)) (-((p.y - v1.y) - (p.y - v2.y))) hd.ne' h1 h2 hz hE hden ?_
    · simp only [tele]
      have e : (edgeNum 1).getD ((0 : Fin 3) : Nat) (.c 0) = edgeNum1_0 := rfl
      refine Eq.trans ?_ (hw.trans ?_)
      · simp only [mul_assoc]
      · congr 1
        rw [e]
        simp only [edgeNum1_0, eval, env, edgeEnv]
        field_simp
    · rw [eE_eq]
      simp only [nE, dE, diffS, mul'_eval, add'_eval, sub'_eval, δ, s1, s2, eval, env, edgeEnv]
      simp [eval, edgeEnv]
      clear hn hD this hden h0
      set x1 := p.x - v1.x
      set x2 := p.x - v2.x
      set y1 := p.y - v1.y
      set y2 := p.y - v2.y
      set r1 := relR v1 p
      set r2 := relR v2 p
      set z := p.z
      linear_combination (2 * y2 * r2 ^ 2 + (-2) * y1 * r2 ^ 2 + 2 * x2 ^ 2 * y1 + 2 * y1 * z ^ 2 + 2 * y2 * r1 * r2
        + 2 * y2 * r2 * z + 2 * y1 * y2 ^ 2) * q1 + ((-2) * y1 * r1 * r2 + (-2) * y1 * r1 * z + (-2) * x1 ^ 2 * y1
        + (-2) * y1 ^ 3 + (-2) * y1 * z ^ 2) * q2
  · have hw := algXY (nE.eval (env v1 v2 p)) (dE.eval (env v1 v2 p)) ((diffS (δ 1) nE).eval (env v1 v2 p))
      ((diffS (δ 1) dE).eval (env v1 v2 p)) p.z (relR v1 p) (relR v2 p) (eE v1 v2 p)
      ((p.x - v1.x)) ((p.x - v2.x)) (((p.x - v1.x) - (p.x - v2.x))) hd.ne' h1 h2 hz hE hden ?_
    · simp only [tele]
      have e : (edgeNum 1).getD ((1 : Fin 3) : Nat) (.c 0) = edgeNum1_1 := rfl
      refine Eq.trans ?_ (hw.trans ?_)
      · simp only [mul_assoc]
      · congr 1
        rw [e]
        simp only [edgeNum1_1, eval, env, edgeEnv]
        field_simp
    · rw [eE_eq]
      simp only [nE, dE, diffS, mul'_eval, add'_eval, sub'_eval, δ, s1, s2, eval, env, edgeEnv]
      simp [eval, edgeEnv]
      clear hn hD this hden h0
      set x1 := p.x - v1.x
      set x2 := p.x - v2.x
      set y1 := p.y - v1.y
      set y2 := p.y - v2.y
      set r1 := relR v1 p
      set r2 := relR v2 p
      set z := p.z
      linear_combination (2*x1*r2^2 + (-2)*x2*r2^2 + (-2)*x1*y2^2 + (-2)*x1*z^2 + (-2)*x2*r1*r2 + (-2)*x2*r2*z
        + (-2)*x1*x2^2) * q1 + (2*x1*r1*r2 + 2*x1*r1*z + 2*x1^3 + 2*x1*y1^2 + 2*x1*z^2) * q2
  · have hw := algZ (nE.eval (env v1 v2 p)) p.z (relR v1 p) (relR v2 p) (eE v1 v2 p) (dE.eval (env v1 v2 p)) hd.ne' h1 h2 hz
      hE hden ((diffS (δ 2) dE).eval (env v1 v2 p)) ?_
    · have e : (edgeNum 1).getD ((2 : Fin 3) : Nat) (.c 0) = edgeNum1_2 := rfl
      have e' : (diffS (δ 2) nE).eval (env v1 v2 p) = 0 := by
        simp [nE, diffS, δ, mul'_eval, add'_eval, sub'_eval, eval]
      simp only [tele, e', mul_zero]
      refine hw.trans ?_
      rw [e]
      simp only [edgeNum1_2, nE, eval, env, edgeEnv, sub_self, add_zero]
      field_simp
      ring
    · simp only [dE, diffS, mul'_eval, add'_eval, δ, s1, s2, eval, env, edgeEnv]
      simp [eval, edgeEnv]
      ring

theorem seg0_pos {p : V3} (hz : 0 < p.z) (v1 v2 : V2) :
    segComp 0 0 p v1 v2 = arctan (nE.eval (env v1 v2 p) / dE.eval (env v1 v2 p)) * (1 / π) := by
  have hd := dE_pos hz v1 v2
  simp only [segComp, edgeTerm, List.getD_cons_zero, abs_of_pos hz]
  congr 2
  rw [mul_div_mul_left _ _ hz.ne']
  simp only [nE, dE, eval, env, edgeEnv, relR]

theorem shift_zero (p : V3) (a : Axis) : shift p a 0 = p := by
  obtain rfl | rfl | rfl := axis_cases a <;> simp [shift]

theorem shift_z_continuous (p : V3) (a : Axis) : Continuous fun t => (shift p a t).z := by
  obtain rfl | rfl | rfl := axis_cases a <;> simp only [shift] <;> fun_prop

theorem polyComp_cyc (d i : Nat) (poly : List V2) (p : V3) :
    polyComp d i poly p = cycSum (fun v1 v2 => segComp d i p v1 v2) poly :=
  boundary_sum (fun v1 v2 => segComp d i p v1 v2) poly

theorem poly_gradient_pos (poly : List V2) {p : V3} (hz : 0 < p.z) (a : Axis) :
    HasPartial a (polyComp 0 0 poly) (polyComp 1 a.val poly p) p := by
  have h1 : HasPartial a
      (fun q => ((boundaryEdges poly).map fun e =>
        arctan (nE.eval (env e.1 e.2 q) / dE.eval (env e.1 e.2 q)) * (1 / π)).sum)
      ((boundaryEdges poly).map fun e => (π * segComp 1 a.val p e.1 e.2 + (tele a p e.2 - tele a p e.1)) * (1 / π)).sum p := by
    apply HasPartial.list_sum
    intro e _
    exact HasDerivAt.mul_const (arctan_step hz e.1 e.2 a) (1 / π)
  have h2 : ((boundaryEdges poly).map fun e =>
      (π * segComp 1 a.val p e.1 e.2 + (tele a p e.2 - tele a p e.1)) * (1 / π)).sum = polyComp 1 a.val poly p := by
    rw [polyComp_cyc, boundary_sum (fun v1 v2 => (π * segComp 1 a.val p v1 v2 + (tele a p v2 - tele a p v1)) * (1 / π))]
    have : (fun v1 v2 => (π * segComp 1 a.val p v1 v2 + (tele a p v2 - tele a p v1)) * (1 / π))
        = fun v1 v2 => segComp 1 a.val p v1 v2 + (tele a p v2 * (1 / π) - tele a p v1 * (1 / π)) := by
      funext v1 v2
      have := pi_ne_zero
      field_simp
    rw [this, cycSum_add, cycSum_tele (fun v => tele a p v * (1 / π)), add_zero]
  rw [h2] at h1
  unfold HasPartial at h1 ⊢
  refine h1.congr_of_eventuallyEq ?_
  have hpos : ∀ᶠ t in nhds (0 : ℝ), 0 < (shift p a t).z :=
    (shift_z_continuous p a).continuousAt.eventually_const_lt (by simpa only [shift_zero] using hz)
  filter_upwards [hpos] with t ht
  unfold polyComp
  congr 1
  apply List.map_congr_left
  intro e _
  exact seg0_pos ht e.1 e.2

theorem poly_mirror (k i : Nat) (hi : i < 2 * k + 1) (poly : List V2) (p : V3) :
    polyComp k i poly p.mirror = sgn (compOdd k i) * polyComp k i poly p := by
  unfold polyComp
  rw [← List.sum_map_mul_left]
  congr 1
  apply List.map_congr_left
  intro e _
  exact seg_mirror k i hi e.1 e.2 p

theorem hasPartial_mirror {a : Axis} {f : V3 → ℝ} {c : ℝ} {p : V3} (h : HasPartial a f c p.mirror) :
    HasPartial a (fun q => f q.mirror) ((if a = 2 then -1 else 1) * c) p := by
  unfold HasPartial at h ⊢
  obtain rfl | rfl | rfl := axis_cases a
  · simpa [shift, V3.mirror] using h
  · simpa [shift, V3.mirror] using h
  · have h' : HasDerivAt (fun t => f (shift p.mirror 2 t)) c (-0) := by simpa using h
    have := HasDerivAt.scomp (0 : ℝ) h' (hasDerivAt_neg (0 : ℝ))
    simp only [if_true]
    simp only [smul_eq_mul] at this
    refine this.congr_of_eventuallyEq (Filter.Eventually.of_forall fun t => ?_)
    simp only [shift, V3.mirror, Function.comp_def]
    congr 2; ring

theorem poly_gradient (poly : List V2) {p : V3} (hz : p.z ≠ 0) (a : Axis) :
    HasPartial a (polyComp 0 0 poly) (polyComp 1 a.val poly p) p := by
  rcases lt_or_gt_of_ne hz with h | h
  · have h1 := hasPartial_mirror (poly_gradient_pos poly (p := p.mirror) (by simpa [V3.mirror] using h) a)
    have h2 := h1.const_mul (-1)
    rw [poly_mirror 1 a.val (by have := a.isLt; omega)] at h2
    have e : (-1 * ((if a = 2 then -1 else 1) * (sgn (compOdd 1 a.val) * polyComp 1 a.val poly p)))
        = polyComp 1 a.val poly p := by
      obtain rfl | rfl | rfl := axis_cases a
      · have : compOdd 1 ((0 : Axis) : Nat) = true := by decide
        rw [this]; simp [sgn]
      · have : compOdd 1 ((1 : Axis) : Nat) = true := by decide
        rw [this]; simp [sgn]
      · have : compOdd 1 ((2 : Axis) : Nat) = false := by decide
        rw [this]; simp [sgn]
    rw [e] at h2
    refine h2.congr fun q => ?_
    rw [poly_mirror 0 0 (by norm_num)]
    have : compOdd 0 0 = true := by decide
    rw [this]; simp [sgn]
  · exact poly_gradient_pos poly h a

end EdgeId
end Electrode
