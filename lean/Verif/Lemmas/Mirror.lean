import Verif.Lemmas.EdgeDeriv

/-
Reflection in the electrode plane.
-/
namespace Electrode
open Spec PExpr Real

namespace PExpr

/-- `some true`: odd in variable `i`, `some false`: even, `none`: unknown -/
def par (i : Nat) : PExpr → Option Bool
  | c _ => some false
  | v j => some (j == i)
  | neg a => par i a
  | add a b => if par i a = par i b then par i a else none
  | sub a b => if par i a = par i b then par i a else none
  | mul a b => match par i a, par i b with
    | some x, some y => some (xor x y)
    | _, _ => none
  | pow a n => match par i a with
    | some x => some (x && n % 2 == 1)
    | none => none

/-- sign of a parity -/
def sgn (b : Bool) : ℝ := if b then -1 else 1

theorem sgn_xor (a b : Bool) : sgn (xor a b) = sgn a * sgn b := by
  cases a <;> cases b <;> simp [sgn]

theorem sgn_sq (a : Bool) : sgn a * sgn a = 1 := by cases a <;> simp [sgn]

theorem par_eval (i : Nat) (ρ τ : Nat → ℝ) (h : ∀ j, τ j = if j = i then -ρ j else ρ j) (e : PExpr) :
    ∀ b, par i e = some b → e.eval τ = sgn b * e.eval ρ := by
  induction e with
  | c n => intro b hb; simp only [par, Option.some.injEq] at hb; subst hb; simp [eval, sgn]
  | v j =>
    intro b hb
    simp only [par, Option.some.injEq] at hb; subst hb
    by_cases hj : j = i <;> simp [eval, sgn, h, hj]
  | neg a ih => intro b hb; simp only [eval, ih b hb]; ring
  | add x y hx hy =>
    intro b hb
    simp only [par] at hb
    split at hb
    · rename_i he
      simp only [eval, hx b hb, hy b (he ▸ hb)]; ring
    · cases hb
  | sub x y hx hy =>
    intro b hb
    simp only [par] at hb
    split at hb
    · rename_i he
      simp only [eval, hx b hb, hy b (he ▸ hb)]; ring
    · cases hb
  | mul x y hx hy =>
    intro b hb
    simp only [par] at hb
    split at hb
    · rename_i p q hp hq
      simp only [Option.some.injEq] at hb; subst hb
      simp only [eval, hx p hp, hy q hq, sgn_xor]; ring
    · cases hb
  | pow x n ih =>
    intro b hb
    simp only [par] at hb
    split at hb
    · rename_i p hp
      simp only [Option.some.injEq] at hb; subst hb
      simp only [eval, ih p hp, mul_pow]
      congr 1
      cases p
      · simp [sgn]
      · rcases Nat.mod_two_eq_zero_or_one n with h2 | h2
        · simp [sgn, h2, Even.neg_one_pow (Nat.even_iff.2 h2)]
        · simp [sgn, h2, Odd.neg_one_pow (Nat.odd_iff.2 h2)]
    · cases hb

end PExpr

/-- reflection in the electrode plane -/
def V3.mirror (p : V3) : V3 := ⟨p.x, p.y, -p.z⟩

/-- is the component odd under reflection: the potential is odd, every `z` in the name changes that -/
def compOdd (k i : Nat) : Bool := (1 + (nameIdx k i).count 2) % 2 == 1

theorem edge_par : ∀ k < 6, 1 ≤ k → ∀ i < 2 * k + 1,
    PExpr.par 7 ((edgeNum k).getD i (.c 0)) = some (compOdd k i) := by decide +kernel

theorem point_par : ∀ k < 6, ∀ i < 2 * k + 1, PExpr.par 2 ((pointNum k).getD i (.c 0)) = some (compOdd k i) := by
  decide +kernel

theorem relR_mirror (q : V2) (p : V3) : relR q p.mirror = relR q p := by simp [relR, V3.mirror]

theorem segComp_pos_eq (k i : Nat) (hk : 1 ≤ k) (v1 v2 : V2) (p : V3) :
    segComp k i p v1 v2 = ((edgeNum k).getD i (.c 0)).eval (EdgeId.env v1 v2 p)
      * edgeNorm k (relR v1 p) (relR v2 p) (EdgeId.len2 v1 v2 p) 1 := by
  obtain ⟨j, rfl⟩ : ∃ j, k = j + 1 := ⟨k - 1, by omega⟩
  unfold segComp edgeTerm
  simp only [List.getD_eq_getElem?_getD, List.getElem?_map]
  cases (edgeNum (j + 1))[i]? with
  | none => simp [eval]
  | some e => rfl

theorem edgeNum_high (k : Nat) (hk : 6 ≤ k) : edgeNum k = [] := by
  unfold edgeNum
  split <;> first | omega | rfl

theorem pointNum_high (k : Nat) (hk : 6 ≤ k) : pointNum k = [] := by
  unfold pointNum
  split <;> first | omega | rfl

theorem seg_mirror (k i : Nat) (hi : i < 2 * k + 1) (v1 v2 : V2) (p : V3) :
    segComp k i p.mirror v1 v2 = sgn (compOdd k i) * segComp k i p v1 v2 := by
  rcases Nat.eq_zero_or_pos k with rfl | hk
  · have : i = 0 := by omega
    subst this
    have hs : sgn (compOdd 0 0) = -1 := by
      have : compOdd 0 0 = true := by decide
      rw [this]; rfl
    rw [hs]
    simp only [segComp, edgeTerm, V3.mirror, List.getD_cons_zero, neg_sq, abs_neg, neg_mul, neg_div, arctan_neg, one_mul]
  · rw [segComp_pos_eq k i hk, segComp_pos_eq k i hk]
    rcases Nat.lt_or_ge k 6 with h6 | h6
    · rw [par_eval 7 (EdgeId.env v1 v2 p) _ ?_ _ _ (edge_par k h6 hk i hi)]
      · simp only [relR_mirror]
        have : EdgeId.len2 v1 v2 p.mirror = EdgeId.len2 v1 v2 p := rfl
        rw [this]; ring
      · intro j
        unfold EdgeId.env
        simp only [relR_mirror]
        have : EdgeId.len2 v1 v2 p.mirror = EdgeId.len2 v1 v2 p := rfl
        rw [this]
        unfold edgeEnv
        split <;> simp [V3.mirror]
    · rw [edgeNum_high k h6]; simp [eval]

theorem pixel_mirror (k i : Nat) (hi : i < 2 * k + 1) (q : V2) (p : V3) :
    pixelComp k i q p.mirror = sgn (compOdd k i) * pixelComp k i q p := by
  have h : ∀ p, pixelComp k i q p = ((pointNum k).getD i (.c 0)).eval (relEnv q p) * pointNorm k (relR q p) 1 := by
    intro p
    unfold pixelComp pointTerm
    simp only [List.getD_eq_getElem?_getD, List.getElem?_map]
    cases (pointNum k)[i]? with
    | none => simp [eval]
    | some e => rfl
  rw [h, h]
  rcases Nat.lt_or_ge k 6 with h6 | h6
  · rw [par_eval 2 (relEnv q p) _ ?_ _ _ (point_par k h6 i hi)]
    · rw [relR_mirror]; ring
    · intro j
      unfold relEnv
      rw [relR_mirror]
      unfold pointEnv
      split <;> simp [V3.mirror]
  · rw [pointNum_high k h6]; simp [eval]

end Electrode
