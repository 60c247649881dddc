import Verif.Lemmas.EdgeIdent
import Verif.Lemmas.PointDeriv

/-
The derivative of an edge term is given by the numerator `EdgeId.deriv`, and the kernel checks
`EdgeId.check`, `EdgeId.checkR` imply the identities of real numbers.
-/
namespace Electrode
open Spec PExpr Real

namespace PExpr

/-- chain rule with a common factor of the derivatives of the variables -/
theorem hasDerivAt_evalS (δ : Nat → PExpr) (κ : ℝ) (ρ : ℝ → Nat → ℝ) (t : ℝ)
    (h : ∀ i, HasDerivAt (fun s => ρ s i) (κ * (δ i).eval (ρ t)) t) (e : PExpr) :
    HasDerivAt (fun s => e.eval (ρ s)) (κ * (diffS δ e).eval (ρ t)) t := by
  induction e with
  | c n => simpa [eval, diffS] using hasDerivAt_const t (n : ℝ)
  | v i => exact h i
  | neg a ih =>
    refine ih.neg.congr_deriv ?_
    simp only [diffS, neg'_eval]; ring
  | add a b ha hb =>
    refine (ha.add hb).congr_deriv ?_
    simp only [diffS, add'_eval]; ring
  | sub a b ha hb =>
    refine (ha.sub hb).congr_deriv ?_
    simp only [diffS, sub'_eval]; ring
  | mul a b ha hb =>
    refine (ha.mul hb).congr_deriv ?_
    simp only [diffS, add'_eval, mul'_eval]; ring
  | pow a n ih =>
    refine (ih.pow n).congr_deriv ?_
    simp only [diffS, mul'_eval, pow'_eval, eval]; ring

end PExpr

namespace EdgeId

/-- squared length of an edge as computed -/
def len2 (v1 v2 : V2) (p : V3) : ℝ := ((p.x - v1.x) - (p.x - v2.x)) ^ 2 + ((p.y - v1.y) - (p.y - v2.y)) ^ 2

/-- values of the variables of an edge term -/
noncomputable def env (v1 v2 : V2) (p : V3) : Nat → ℝ :=
  edgeEnv (p.x - v1.x) (p.x - v2.x) (p.y - v1.y) (p.y - v2.y) (relR v1 p) (relR v2 p) (len2 v1 v2 p) p.z

/-- `(r1 + r2)^2 - l2` -/
noncomputable def eE (v1 v2 : V2) (p : V3) : ℝ := (relR v1 p + relR v2 p) ^ 2 - len2 v1 v2 p

theorem off {p : V3} (hz : p.z ≠ 0) (q : V2) : OffPixel q p := fun h => hz h.2.2

theorem relR_pos {p : V3} (hz : p.z ≠ 0) (q : V2) : 0 < relR q p := sqrt_pos.mpr (relQ_pos (off hz q))

theorem eE_eq (v1 v2 : V2) (p : V3) :
    eE v1 v2 p = 2 * (relR v1 p * relR v2 p + (p.x - v1.x) * (p.x - v2.x) + (p.y - v1.y) * (p.y - v2.y) + p.z ^ 2) := by
  have h1 := relR_sq v1 p
  have h2 := relR_sq v2 p
  unfold eE len2
  linear_combination h1 + h2

theorem eE_pos {p : V3} (hz : p.z ≠ 0) (v1 v2 : V2) : 0 < eE v1 v2 p := by
  rw [eE_eq]
  have h1 := relR_sq v1 p
  have h2 := relR_sq v2 p
  have p1 := relR_pos hz v1
  have p2 := relR_pos hz v2
  set x1 := p.x - v1.x
  set x2 := p.x - v2.x
  set y1 := p.y - v1.y
  set y2 := p.y - v2.y
  have hz2 : 0 < p.z ^ 2 := by positivity
  -- Cauchy-Schwarz for (x1, y1, z) and (-x2, -y2, z)
  have hc : (-(x1 * x2 + y1 * y2) + p.z ^ 2) ^ 2 ≤ (relR v1 p * relR v2 p) ^ 2 := by
    rw [mul_pow, h1, h2]
    nlinarith [sq_nonneg (x1 * y2 - y1 * x2), sq_nonneg ((x1 + x2) * p.z), sq_nonneg ((y1 + y2) * p.z)]
  have := abs_le_of_sq_le_sq' hc (by positivity)
  nlinarith [this.2]

/-- the factor `1 / ((r1 r2)^(2k-1) ((r1+r2)^2-l2)^k π)` -/
noncomputable def nrmF (k : Nat) (v1 v2 : V2) (p : V3) : ℝ :=
  ((relR v1 p * relR v2 p) ^ (2 * k - 1) * eE v1 v2 p ^ k)⁻¹ / π

theorem env_partial {p : V3} (hz : p.z ≠ 0) (v1 v2 : V2) (a : Axis) (i : Nat) :
    HasDerivAt (fun t => env v1 v2 (shift p a t) i)
      ((relR v1 p * relR v2 p)⁻¹ * (δ a i).eval (env v1 v2 (shift p a 0))) 0 := by
  have h1 := relR_pos hz v1
  have h2 := relR_pos hz v2
  have h0 : shift p a 0 = p := by fin_cases a <;> simp [shift]
  have hne : relR v1 p * relR v2 p ≠ 0 := by positivity
  have hs1 : (s1 a).eval (env v1 v2 p) = relCoord v1 p a := by fin_cases a <;> rfl
  have hs2 : (s2 a).eval (env v1 v2 p) = relCoord v2 p a := by fin_cases a <;> rfl
  have e4 : env v1 v2 p 4 = relR v1 p := rfl
  have e5 : env v1 v2 p 5 = relR v2 p := rfl
  rw [h0]
  have hlin : ∀ (c : ℝ), HasDerivAt (fun t : ℝ => c + t) 1 0 := fun c => by
    simpa using (hasDerivAt_id (0 : ℝ)).const_add c
  have hlin2 : ∀ (c d : ℝ), HasDerivAt (fun t : ℝ => c + t - d) 1 0 := fun c d => (hlin c).sub_const d
  match i with
  | 0 => fin_cases a
         · refine (hlin2 p.x v1.x).congr_deriv ?_
           simp [δ, eval, e4, e5]; field_simp
         · simpa [δ, eval, env, edgeEnv, shift] using hasDerivAt_const (0 : ℝ) (p.x - v1.x)
         · simpa [δ, eval, env, edgeEnv, shift] using hasDerivAt_const (0 : ℝ) (p.x - v1.x)
  | 1 => fin_cases a
         · refine (hlin2 p.x v2.x).congr_deriv ?_
           simp [δ, eval, e4, e5]; field_simp
         · simpa [δ, eval, env, edgeEnv, shift] using hasDerivAt_const (0 : ℝ) (p.x - v2.x)
         · simpa [δ, eval, env, edgeEnv, shift] using hasDerivAt_const (0 : ℝ) (p.x - v2.x)
  | 2 => fin_cases a
         · simpa [δ, eval, env, edgeEnv, shift] using hasDerivAt_const (0 : ℝ) (p.y - v1.y)
         · refine (hlin2 p.y v1.y).congr_deriv ?_
           simp [δ, eval, e4, e5]; field_simp
         · simpa [δ, eval, env, edgeEnv, shift] using hasDerivAt_const (0 : ℝ) (p.y - v1.y)
  | 3 => fin_cases a
         · simpa [δ, eval, env, edgeEnv, shift] using hasDerivAt_const (0 : ℝ) (p.y - v2.y)
         · refine (hlin2 p.y v2.y).congr_deriv ?_
           simp [δ, eval, e4, e5]; field_simp
         · simpa [δ, eval, env, edgeEnv, shift] using hasDerivAt_const (0 : ℝ) (p.y - v2.y)
  | 4 =>
    refine HasDerivAt.congr_deriv (relR_partial (off hz v1) a) ?_
    simp only [δ, eval, hs1, e5]; field_simp
  | 5 =>
    refine HasDerivAt.congr_deriv (relR_partial (off hz v2) a) ?_
    simp only [δ, eval, hs2, e4]; field_simp
  | 6 =>
    have : (fun t => env v1 v2 (shift p a t) 6) = fun _ => len2 v1 v2 p := by
      funext t
      change len2 v1 v2 (shift p a t) = _
      unfold len2
      fin_cases a <;> simp [shift]
    rw [this]
    simpa [δ, eval] using hasDerivAt_const (0 : ℝ) (len2 v1 v2 p)
  | 7 => fin_cases a
         · simpa [δ, eval, env, edgeEnv, shift] using hasDerivAt_const (0 : ℝ) p.z
         · simpa [δ, eval, env, edgeEnv, shift] using hasDerivAt_const (0 : ℝ) p.z
         · refine (hlin p.z).congr_deriv ?_
           simp [δ, eval, e4, e5]; field_simp
  | n + 8 =>
    have hd : δ a (n + 8) = .c 0 := by
      simp only [δ]
      rw [if_neg]
      have := a.isLt
      omega
    rw [hd]
    simpa [eval, env, edgeEnv] using hasDerivAt_const (0 : ℝ) (0 : ℝ)

theorem step (k : Nat) (hk : 1 ≤ k) (P Q : PExpr) (a : Axis) (v1 v2 : V2) (p : V3) (hz : p.z ≠ 0)
    (h : (ident k P a Q).eval (env v1 v2 p) = 0) :
    HasPartial a (fun p => P.eval (env v1 v2 p) * nrmF k v1 v2 p) (Q.eval (env v1 v2 p) * nrmF (k + 1) v1 v2 p) p := by
  obtain ⟨k, rfl⟩ : ∃ j, k = j + 1 := ⟨k - 1, by omega⟩
  have h1 := relR_pos hz v1
  have h2 := relR_pos hz v2
  have hE := eE_pos hz v1 v2
  have h0 : shift p a 0 = p := by fin_cases a <;> simp [shift]
  have hs1 : (s1 a).eval (env v1 v2 p) = relCoord v1 p a := by fin_cases a <;> rfl
  have hs2 : (s2 a).eval (env v1 v2 p) = relCoord v2 p a := by fin_cases a <;> rfl
  have e4 : env v1 v2 p 4 = relR v1 p := rfl
  have e5 : env v1 v2 p 5 = relR v2 p := rfl
  have e6 : (relR v1 p + relR v2 p) ^ 2 - env v1 v2 p 6 = eE v1 v2 p := rfl
  have hP := hasDerivAt_evalS (δ a) _ (fun t => env v1 v2 (shift p a t)) 0 (env_partial hz v1 v2 a) P
  have d4 := env_partial hz v1 v2 a 4
  have d5 := env_partial hz v1 v2 a 5
  have d6 := env_partial hz v1 v2 a 6
  have hpow := (d4.mul d5).pow (2 * k + 1)
  have hEd := (((d4.add d5).pow 2).sub d6).pow (k + 1)
  have hden := (hpow.mul hEd).inv (by
    simp only [Pi.mul_apply, Pi.pow_apply, Pi.sub_apply, Pi.add_apply, h0, e4, e5]
    rw [e6]
    positivity)
  have := hP.mul (hden.div_const π)
  unfold HasPartial
  refine HasDerivAt.congr_deriv (f := fun t => P.eval (env v1 v2 (shift p a t)) * nrmF (k + 1) v1 v2 (shift p a t)) this ?_
  simp only [ident, deriv, eval, hs1, hs2, e4, e5] at h
  rw [e6] at h
  simp only [Pi.mul_apply, Pi.pow_apply, Pi.sub_apply, Pi.add_apply, Pi.inv_apply, h0, e4, e5, δ, eval, hs1, hs2, nrmF]
  rw [e6]
  have hpi : π ≠ 0 := pi_ne_zero
  have h1' := h1.ne'
  have h2' := h2.ne'
  have hE' := hE.ne'
  have c1 : 2 * (k + 1) - 1 = 2 * k + 1 := by omega
  have c2 : 2 * (k + 1 + 1) - 1 = 2 * k + 3 := by omega
  have c3 : 2 * k + 1 - 1 = 2 * k := by omega
  have c4 : k + 1 - 1 = k := by omega
  rw [c1] at h
  rw [c2, c3, c4]
  generalize (diffS (δ a) P).eval (env v1 v2 p) = P' at *
  generalize P.eval (env v1 v2 p) = Pv at *
  generalize Q.eval (env v1 v2 p) = Qv at *
  generalize relCoord v1 p a = S1 at *
  generalize relCoord v2 p a = S2 at *
  generalize eE v1 v2 p = E at *
  generalize relR v1 p = r1 at *
  generalize relR v2 p = r2 at *
  push_cast at h ⊢
  have hQ : Qv = r1 * r2 * E * P' - (2 * k + 1) * (Pv * (E * (S1 * r2 ^ 2 + S2 * r1 ^ 2)))
      - 2 * (k + 1) * (Pv * (r1 * r2 * ((r1 + r2) * (S1 * r2 + S2 * r1)))) := by linarith
  rw [hQ]
  have g1 : (r1 * r2) ^ (2 * k + 1) = (r1 * r2) ^ (2 * k) * (r1 * r2) := pow_succ _ _
  have g2 : (r1 * r2) ^ (2 * k + 3) = (r1 * r2) ^ (2 * k) * (r1 * r2) ^ 3 := by rw [← pow_add]
  have g3 : E ^ (k + 1) = E ^ k * E := pow_succ _ _
  have g4 : E ^ (k + 1 + 1) = E ^ k * E ^ 2 := by rw [← pow_add]
  rw [g1, g2, g3, g4]
  have n1 : (r1 * r2) ^ (2 * k) ≠ 0 := by positivity
  have n2 : E ^ k ≠ 0 := by positivity
  generalize (r1 * r2) ^ (2 * k) = X at *
  generalize E ^ k = Y at *
  field_simp
  ring

/-- relation used by an identity -/
def Kind.rel (ρ : Nat → ℝ) : Kind → Prop
  | .free => True
  | .r1 => ρ 4 ^ 2 = ρ 0 ^ 2 + ρ 2 ^ 2 + ρ 7 ^ 2
  | .r2 => ρ 5 ^ 2 = ρ 1 ^ 2 + ρ 3 ^ 2 + ρ 7 ^ 2

/-- scaling -/
theorem scaled (ρ : Nat → ℝ) (s : ℝ) (hs : s ≠ 0) (p : PExpr) (hd : (homDeg wt p).isSome)
    (h : p.eval (fun i => s ^ wt i * ρ i) = 0) : p.eval ρ = 0 := by
  obtain ⟨d, hd⟩ := Option.isSome_iff_exists.1 hd
  rw [homDeg_eval wt s ρ p d hd] at h
  exact (mul_eq_zero.1 h).resolve_left (pow_ne_zero _ hs)

theorem parts_zero (ρ : Nat → ℝ) (h8 : ρ 8 = ρ 7 ^ 2) (e : PExpr) (h : ∀ p ∈ parts e, p.eval ρ = 0) : e.eval ρ = 0 := by
  rw [splitSq_eval 7 (.v 8) ρ (by simp [eval, h8]) e, h _ (by simp [parts]), h _ (by simp [parts])]
  ring

/-- the values `ρ` with the squares of `z`, `r1`, `r2` appended -/
def ext (ρ : Nat → ℝ) (i : Nat) : ℝ :=
  if i = 8 then ρ 7 ^ 2 else if i = 9 then ρ 4 ^ 2 else if i = 10 then ρ 5 ^ 2 else ρ i

theorem ext_eval (ρ : Nat → ℝ) (e : PExpr) (h : e.varsBelow 8 = true) : e.eval ρ = e.eval (ext ρ) := by
  apply eval_congr _ e h
  intro i hi
  simp only [ext]
  rw [if_neg (by omega), if_neg (by omega), if_neg (by omega)]

theorem check_sound {kd : Kind} {es : List Nat} {K : Nat} {e : PExpr} (h : check kd es K e = true) (ρ : Nat → ℝ)
    (h5 : ρ 5 ≠ 0) (hr : kd.rel ρ) : e.eval ρ = 0 := by
  simp only [check, Bool.and_eq_true, List.all_eq_true] at h
  obtain ⟨hv, h⟩ := h
  rw [ext_eval ρ e hv]
  apply parts_zero _ rfl
  intro p hp
  have := h p hp
  simp only [Bool.or_eq_true, beq_iff_eq, Bool.and_eq_true] at this
  rcases this with rfl | ⟨hd, hk⟩
  · simp [eval]
  · apply scaled _ (ρ 5)⁻¹ (inv_ne_zero h5) p hd
    have hs := kronCheckS_sound (R := ℝ) hk (fun i => (ρ 5)⁻¹ ^ wt i * ext ρ i)
    have hv9 : p.varsBelow 9 = true := by
      simp only [kronCheckS, Bool.and_eq_true] at hk
      exact hk.1.1.1.1
    rw [← hs]
    apply eval_congr _ p hv9
    intro i hi
    have w : ∀ i, i = 0 ∨ i = 1 ∨ i = 2 ∨ i = 3 ∨ i = 4 ∨ i = 5 ∨ i = 7 → wt i = 1 := by
      intro i hi; unfold wt; rw [if_neg (by omega)]
    have w8 : wt 8 = 2 := rfl
    have x : ∀ i, i < 8 → ext ρ i = ρ i := by
      intro i hi; unfold ext; rw [if_neg (by omega), if_neg (by omega), if_neg (by omega)]
    by_cases c5 : i = 5
    · subst c5
      simp [Kind.σ, eval, w, x, h5]
    · by_cases c8 : i = 8
      · subst c8
        have x8 : ext ρ 8 = ρ 7 ^ 2 := rfl
        cases kd with
        | free => simp [Kind.σ, Kind.zsq, eval]
        | r1 =>
          simp only [Kind.rel] at hr
          simp only [Kind.σ, Kind.zsq, eval, w8, x8, w 4 (by simp), w 0 (by simp), w 2 (by simp), x 4 (by simp),
            x 0 (by simp), x 2 (by simp)]
          linear_combination (-(ρ 5)⁻¹ ^ 2) * hr
        | r2 =>
          simp only [Kind.rel] at hr
          simp only [Kind.σ, Kind.zsq, eval, w8, x8, w 1 (by simp), w 3 (by simp), x 1 (by simp), x 3 (by simp)]
          have h1 : (ρ 5)⁻¹ ^ 2 * ρ 5 ^ 2 = 1 := by field_simp
          push_cast
          linear_combination (-(ρ 5)⁻¹ ^ 2) * hr + h1
      · have : kd.σ i = .v i := by
          unfold Kind.σ; split <;> simp_all
        rw [this]; rfl

theorem partsR_zero (ρ : Nat → ℝ) (h8 : ρ 8 = ρ 7 ^ 2) (h9 : ρ 9 = ρ 4 ^ 2) (h10 : ρ 10 = ρ 5 ^ 2) (e : PExpr)
    (h : ∀ p ∈ partsR e, p.eval ρ = 0) : e.eval ρ = 0 := by
  apply parts_zero ρ h8
  intro p hp
  rw [coeffs_eval ρ 6 p]
  apply coEval_zero
  intro q hq
  have hh : ∀ x ∈ [(splitSq 5 (.v 10) (splitSq 4 (.v 9) q).1).1, (splitSq 5 (.v 10) (splitSq 4 (.v 9) q).1).2,
      (splitSq 5 (.v 10) (splitSq 4 (.v 9) q).2).1, (splitSq 5 (.v 10) (splitSq 4 (.v 9) q).2).2], x.eval ρ = 0 := by
    intro x hx
    apply h
    simp only [partsR, List.mem_flatMap]
    exact ⟨p, hp, q, hq, hx⟩
  rw [splitSq_eval 4 (.v 9) ρ (by simp [eval, h9]) q, splitSq_eval 5 (.v 10) ρ (by simp [eval, h10]) (splitSq 4 (.v 9) q).1,
    splitSq_eval 5 (.v 10) ρ (by simp [eval, h10]) (splitSq 4 (.v 9) q).2, hh _ (by simp), hh _ (by simp), hh _ (by simp),
    hh _ (by simp)]
  ring

/-- values that do not matter -/
theorem eval_congr_hasVar {R : Type*} [CommRing R] (ρ τ : Nat → R) (e : PExpr) (h : ∀ i, e.hasVar i = true → ρ i = τ i) :
    e.eval ρ = e.eval τ := by
  induction e with
  | c n => rfl
  | v i => exact h i (by simp [hasVar])
  | neg a ih => simp only [eval]; rw [ih h]
  | add a b ha hb =>
    simp only [eval]; rw [ha fun i hi => h i (by simp [hasVar, hi]), hb fun i hi => h i (by simp [hasVar, hi])]
  | sub a b ha hb =>
    simp only [eval]; rw [ha fun i hi => h i (by simp [hasVar, hi]), hb fun i hi => h i (by simp [hasVar, hi])]
  | mul a b ha hb =>
    simp only [eval]; rw [ha fun i hi => h i (by simp [hasVar, hi]), hb fun i hi => h i (by simp [hasVar, hi])]
  | pow a n ih => simp only [eval]; rw [ih h]

theorem varsBelow_hasVar {n i : Nat} {e : PExpr} (h : e.varsBelow n = true) (hi : e.hasVar i = true) : i < n := by
  induction e with
  | c n => simp [hasVar] at hi
  | v j => simp [hasVar, varsBelow] at hi h; omega
  | neg a ih => exact ih h hi
  | add a b ha hb =>
    simp only [hasVar, varsBelow, Bool.or_eq_true, Bool.and_eq_true] at hi h
    rcases hi with hi | hi
    · exact ha h.1 hi
    · exact hb h.2 hi
  | sub a b ha hb =>
    simp only [hasVar, varsBelow, Bool.or_eq_true, Bool.and_eq_true] at hi h
    rcases hi with hi | hi
    · exact ha h.1 hi
    · exact hb h.2 hi
  | mul a b ha hb =>
    simp only [hasVar, varsBelow, Bool.or_eq_true, Bool.and_eq_true] at hi h
    rcases hi with hi | hi
    · exact ha h.1 hi
    · exact hb h.2 hi
  | pow a n ih => exact ih h hi

theorem checkR_sound {es : List Nat} {K : Nat} {p : PExpr} (h : checkR es K p = true) (ρ : Nat → ℝ)
    (hx : ρ 0 ≠ ρ 1) (h1 : ρ 4 ^ 2 = ρ 0 ^ 2 + ρ 2 ^ 2 + ρ 7 ^ 2) (h2 : ρ 5 ^ 2 = ρ 1 ^ 2 + ρ 3 ^ 2 + ρ 7 ^ 2)
    (h8 : ρ 8 = ρ 7 ^ 2) (h9 : ρ 9 = ρ 4 ^ 2) (h10 : ρ 10 = ρ 5 ^ 2) : p.eval ρ = 0 := by
  simp only [checkR, Bool.or_eq_true, beq_iff_eq, Bool.and_eq_true, Bool.not_eq_true', Bool.or_eq_false_iff] at h
  rcases h with rfl | ⟨⟨⟨⟨⟨n4, n5⟩, n6⟩, n7⟩, hd⟩, hk⟩
  · simp [eval]
  have hu : ρ 0 - ρ 1 ≠ 0 := sub_ne_zero.mpr hx
  set s : ℝ := 2 / (ρ 0 - ρ 1) with hs
  have hs0 : s ≠ 0 := by positivity
  apply scaled ρ s hs0 p hd
  let τ : Nat → ℝ
    | 0 => (s * ρ 4) ^ 2 / 4
    | 1 => (s * ρ 5) ^ 2 / 4
    | 2 => s * ρ 2 / 2
    | 3 => s * ρ 3 / 2
    | _ => 0
  have hsound := kronCheckS_sound (R := ℝ) hk τ
  have hv : p.varsBelow 11 = true := by
    simp only [kronCheckS, Bool.and_eq_true] at hk
    exact hk.1.1.1.1
  rw [← hsound]
  have hsu : s * ρ 0 = s * ρ 1 + 2 := by rw [hs]; field_simp; ring
  have hmid : mid.eval τ = s * ρ 1 + 1 := by
    simp only [mid, eval, τ]
    have e1 : (s * ρ 4) ^ 2 = (s * ρ 1 + 2) ^ 2 + (s * ρ 2) ^ 2 + (s * ρ 7) ^ 2 := by
      rw [← hsu, mul_pow, h1]; ring
    have e2 : (s * ρ 5) ^ 2 = (s * ρ 1) ^ 2 + (s * ρ 3) ^ 2 + (s * ρ 7) ^ 2 := by
      rw [mul_pow, h2]; ring
    rw [e1, e2]; ring
  apply eval_congr_hasVar
  intro i hi
  have hi11 := varsBelow_hasVar hv hi
  interval_cases i
  · simp only [σR, eval, hmid, show wt 0 = 1 from rfl, pow_one, hsu]; push_cast; ring
  · simp only [σR, eval, hmid, show wt 1 = 1 from rfl, pow_one]; push_cast; ring
  · simp only [σR, eval, show wt 2 = 1 from rfl, pow_one, τ]; push_cast; ring
  · simp only [σR, eval, show wt 3 = 1 from rfl, pow_one, τ]; push_cast; ring
  · simp [n4] at hi
  · simp [n5] at hi
  · simp [n6] at hi
  · simp [n7] at hi
  · simp only [σR, eval, hmid, show wt 8 = 2 from rfl, τ, h8]; push_cast
    linear_combination (-s ^ 2) * h2
  · simp only [σR, eval, show wt 9 = 2 from rfl, τ, h9]; push_cast; ring
  · simp only [σR, eval, show wt 10 = 2 from rfl, τ, h10]; push_cast; ring

/-- an identity that needs both relations, first for `x1 ≠ x2`, then in the limit -/
theorem partsR_sound (e : PExpr) (n : Nat) (hv : e.varsBelow 8 = true) (hl : (partsR e).length = n)
    (H : ∀ j < n, ∃ es K, checkR es K ((partsR e).getD j (.c 0)) = true) (v1 v2 : V2) (p : V3) :
    e.eval (env v1 v2 p) = 0 := by
  -- away from `x1 = x2`, any value of `l2`
  have key : ∀ x1 x2 y1 y2 l z : ℝ, x1 ≠ x2 →
      e.eval (edgeEnv x1 x2 y1 y2 (√(x1 ^ 2 + y1 ^ 2 + z ^ 2)) (√(x2 ^ 2 + y2 ^ 2 + z ^ 2)) l z) = 0 := by
    intro x1 x2 y1 y2 l z hx
    rw [ext_eval _ e hv]
    apply partsR_zero _ rfl rfl rfl
    intro q hq
    obtain ⟨j, hj, rfl⟩ := List.getElem_of_mem hq
    obtain ⟨es, K, hc⟩ := H j (by omega)
    rw [List.getD_eq_getElem?_getD, List.getElem?_eq_getElem hj] at hc
    refine checkR_sound hc _ hx ?_ ?_ rfl rfl rfl
    · exact sq_sqrt (by positivity)
    · exact sq_sqrt (by positivity)
  by_cases hx : p.x - v1.x = p.x - v2.x
  · -- move the first vertex
    let g : ℝ → ℝ := fun t => e.eval (edgeEnv (p.x - v1.x + t) (p.x - v2.x) (p.y - v1.y) (p.y - v2.y)
      (√((p.x - v1.x + t) ^ 2 + (p.y - v1.y) ^ 2 + p.z ^ 2)) (√((p.x - v2.x) ^ 2 + (p.y - v2.y) ^ 2 + p.z ^ 2))
      (len2 v1 v2 p) p.z)
    have hc : Continuous g := by
      have hcv : ∀ i, Continuous fun t : ℝ => edgeEnv (p.x - v1.x + t) (p.x - v2.x) (p.y - v1.y) (p.y - v2.y)
          (√((p.x - v1.x + t) ^ 2 + (p.y - v1.y) ^ 2 + p.z ^ 2)) (√((p.x - v2.x) ^ 2 + (p.y - v2.y) ^ 2 + p.z ^ 2))
          (len2 v1 v2 p) p.z i := by
        intro i
        unfold edgeEnv
        split <;> fun_prop
      have : ∀ e : PExpr, Continuous fun t : ℝ => e.eval (edgeEnv (p.x - v1.x + t) (p.x - v2.x) (p.y - v1.y) (p.y - v2.y)
          (√((p.x - v1.x + t) ^ 2 + (p.y - v1.y) ^ 2 + p.z ^ 2)) (√((p.x - v2.x) ^ 2 + (p.y - v2.y) ^ 2 + p.z ^ 2))
          (len2 v1 v2 p) p.z) := by
        intro e
        induction e with
        | c n => exact continuous_const
        | v i => exact hcv i
        | neg a ih => exact ih.neg
        | add a b ha hb => exact ha.add hb
        | sub a b ha hb => exact ha.sub hb
        | mul a b ha hb => exact ha.mul hb
        | pow a n ih => exact ih.pow n
      exact this e
    have hz : ∀ t ∈ ({0}ᶜ : Set ℝ), g t = 0 := by
      intro t ht
      apply key
      intro h
      apply ht
      have : t = 0 := by linarith
      exact this
    have h0 : g 0 = 0 := by
      have hd : Dense ({0}ᶜ : Set ℝ) := dense_compl_singleton 0
      have := Continuous.ext_on hd hc continuous_const hz
      exact congrFun this 0
    have : g 0 = e.eval (env v1 v2 p) := by
      simp only [g, add_zero]; rfl
    rw [← this, h0]
  · exact key _ _ _ _ _ _ hx

end EdgeId
end Electrode
