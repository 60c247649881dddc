import Verif.Lemmas.Calculus
import Mathlib.Analysis.SpecialFunctions.Sqrt
import Mathlib.Analysis.Calculus.Deriv.Inv
import Mathlib.Tactic.FieldSimp
import Mathlib.Tactic.IntervalCases

/-
First derivatives of the point pixel components.
-/
namespace Electrode
open Spec PExpr Real

/-- `x**2 + y**2 + z**2` -/
def qExpr : PExpr := .add (.add (.pow (.v 0) 2) (.pow (.v 1) 2)) (.pow (.v 2) 2)

/-- replace even powers of `r` -/
def elimR : PExpr → PExpr
  | .c n => .c n
  | .v i => .v i
  | .neg a => .neg (elimR a)
  | .add a b => .add (elimR a) (elimR b)
  | .sub a b => .sub (elimR a) (elimR b)
  | .mul a b => .mul (elimR a) (elimR b)
  | .pow a n => if a = .v 3 ∧ n % 2 = 0 then .pow qExpr (n / 2) else .pow (elimR a) n

theorem elimR_eval (ρ : Nat → ℝ) (h : ρ 3 ^ 2 = ρ 0 ^ 2 + ρ 1 ^ 2 + ρ 2 ^ 2) (e : PExpr) :
    (elimR e).eval ρ = e.eval ρ := by
  induction e with
  | c n => rfl
  | v i => rfl
  | neg a ih => simp [elimR, eval, ih]
  | add a b ha hb => simp [elimR, eval, ha, hb]
  | sub a b ha hb => simp [elimR, eval, ha, hb]
  | mul a b ha hb => simp [elimR, eval, ha, hb]
  | pow a n ih =>
    simp only [elimR]
    split
    · rename_i hc
      obtain ⟨rfl, hn⟩ := hc
      simp only [eval, qExpr, ← h, ← pow_mul]
      congr 1; omega
    · simp [eval, ih]

/-- constant of the order: `pointNorm k r 1 = pc k / (2 π r^(2k+3))` -/
def pc (k : Nat) : Nat := ([1, 1, 3, 3, 15, 45] : List Nat).getD k 0

theorem pointNorm_eq (k : Nat) (hk : k < 6) (r : ℝ) : pointNorm k r 1 = pc k / (2 * π) / r ^ (2 * k + 3) := by
  have hpi : π ≠ 0 := pi_ne_zero
  interval_cases k <;> simp [pointNorm, pc] <;> field_simp

/-- derivatives of `x, y, z` along an axis -/
def axisDelta (a : Axis) (i : Nat) : PExpr := if i = a.val then .c 1 else .c 0

/-- numerator of component `i` of order `k` in `x, y, z` -/
def pNum (k i : Nat) : PExpr := elimR ((pointNum k).getD i (.c 0))

/-- the polynomial identity behind `∂_a (component i of order k)` -/
def pointIdent (k i : Nat) (a : Axis) : PExpr :=
  .sub (.mul (.c (pc (k + 1))) (elimR (selExpr (pointNum (k + 1)) (entrySel (k + 1) (nameIdx k i ++ [a])))))
    (.mul (.c (pc k)) (.sub (.mul ((pNum k i).diff (axisDelta a)) qExpr)
      (.mul (.mul (.c (2 * k + 3)) (.v a.val)) (pNum k i))))

theorem pointIdent_check : ∀ k < 5, ∀ i < 2 * k + 1, ∀ a : Axis,
    kronCheck 3 [2000, 200, 20] 20000 (pointIdent k i a) = true := by decide +kernel

theorem pNum_vars : ∀ k < 6, ∀ i < 2 * k + 1, (pNum k i).varsBelow 3 = true := by decide +kernel

theorem pointNum_length : ∀ k < 6, (pointNum k).length = 2 * k + 1 := by decide +kernel

/-- position relative to a pixel -/
noncomputable def relR (q : V2) (p : V3) : ℝ := √((p.x - q.x) ^ 2 + (p.y - q.y) ^ 2 + p.z ^ 2)

/-- off the pixel -/
def OffPixel (q : V2) (p : V3) : Prop := ¬ (p.x = q.x ∧ p.y = q.y ∧ p.z = 0)

theorem relQ_pos {q : V2} {p : V3} (h : OffPixel q p) : 0 < (p.x - q.x) ^ 2 + (p.y - q.y) ^ 2 + p.z ^ 2 := by
  by_contra hc
  push Not at hc
  apply h
  have h1 := sq_nonneg (p.x - q.x)
  have h2 := sq_nonneg (p.y - q.y)
  have h3 := sq_nonneg p.z
  have e1 : (p.x - q.x) ^ 2 = 0 := by linarith
  have e2 : (p.y - q.y) ^ 2 = 0 := by linarith
  have e3 : p.z ^ 2 = 0 := by linarith
  simp only [pow_eq_zero_iff, ne_eq, OfNat.ofNat_ne_zero, not_false_eq_true] at e1 e2 e3
  exact ⟨by linarith, by linarith, e3⟩

noncomputable def relEnv (q : V2) (p : V3) : Nat → ℝ := pointEnv (p.x - q.x) (p.y - q.y) p.z (relR q p)

theorem relR_sq (q : V2) (p : V3) : relR q p ^ 2 = (p.x - q.x) ^ 2 + (p.y - q.y) ^ 2 + p.z ^ 2 :=
  sq_sqrt (by positivity)

theorem pixelComp_eq (k i : Nat) (hk : k < 6) (q : V2) (p : V3) :
    pixelComp k i q p = (pNum k i).eval (relEnv q p) * (pc k / (2 * π) / relR q p ^ (2 * k + 3)) := by
  unfold pixelComp pNum
  rw [elimR_eval _ (by simpa [relEnv, pointEnv] using relR_sq q p)]
  unfold pointTerm
  rw [List.getD_eq_getElem?_getD, List.getElem?_map, List.getD_eq_getElem?_getD, pointNorm_eq k hk]
  cases (pointNum k)[i]? with
  | none => simp [eval]
  | some e => rfl

/-- coordinate along an axis relative to the pixel -/
noncomputable def relCoord (q : V2) (p : V3) (a : Axis) : ℝ :=
  match a with
  | 0 => p.x - q.x
  | 1 => p.y - q.y
  | 2 => p.z

theorem relR_partial {q : V2} {p : V3} (h : OffPixel q p) (a : Axis) :
    HasPartial a (relR q) (relCoord q p a / relR q p) p := by
  have hq := relQ_pos h
  have hr : relR q p ≠ 0 := (sqrt_pos.mpr hq).ne'
  unfold HasPartial relR
  have hmain : HasDerivAt (fun t => (((shift p a t).x - q.x) ^ 2 + ((shift p a t).y - q.y) ^ 2 + (shift p a t).z ^ 2))
      (2 * relCoord q p a) 0 := by
    fin_cases a
    · have := (((hasDerivAt_id (0 : ℝ)).const_add (p.x)).sub_const q.x).pow 2
      have := (this.add_const ((p.y - q.y) ^ 2)).add_const (p.z ^ 2)
      simpa [shift, relCoord] using this
    · have := (((hasDerivAt_id (0 : ℝ)).const_add (p.y)).sub_const q.y).pow 2
      have := (this.const_add ((p.x - q.x) ^ 2)).add_const (p.z ^ 2)
      simpa [shift, relCoord] using this
    · have := ((hasDerivAt_id (0 : ℝ)).const_add (p.z)).pow 2
      have := this.const_add ((p.x - q.x) ^ 2 + (p.y - q.y) ^ 2)
      simpa [shift, relCoord] using this
  have h0 : ((shift p a 0).x - q.x) ^ 2 + ((shift p a 0).y - q.y) ^ 2 + (shift p a 0).z ^ 2
      = (p.x - q.x) ^ 2 + (p.y - q.y) ^ 2 + p.z ^ 2 := by fin_cases a <;> simp [shift]
  have := hmain.sqrt (by rw [h0]; exact hq.ne')
  rw [h0] at this
  convert this using 1
  unfold relR at hr
  field_simp

theorem pNum_partial (k i : Nat) (hk : k < 6) (hi : i < 2 * k + 1) (q : V2) (p : V3) (a : Axis) :
    HasPartial a (fun p => (pNum k i).eval (relEnv q p)) (((pNum k i).diff (axisDelta a)).eval (relEnv q p)) p := by
  -- replace the unused variable `r` by 0
  let ρ : V3 → Nat → ℝ := fun p => pointEnv (p.x - q.x) (p.y - q.y) p.z 0
  have hv := pNum_vars k hk i hi
  have hρ : ∀ p, ∀ j < 3, relEnv q p j = ρ p j := by
    intro p j hj; interval_cases j <;> rfl
  have hvd : ∀ e : PExpr, e.varsBelow 3 = true → (e.diff (axisDelta a)).varsBelow 3 = true := by
    intro e
    induction e with
    | c n => intro _; rfl
    | v j => intro _; simp only [diff, axisDelta]; split <;> rfl
    | neg x ih => exact ih
    | add x y hx hy => intro h; simp only [varsBelow, Bool.and_eq_true, diff] at h ⊢; exact ⟨hx h.1, hy h.2⟩
    | sub x y hx hy => intro h; simp only [varsBelow, Bool.and_eq_true, diff] at h ⊢; exact ⟨hx h.1, hy h.2⟩
    | mul x y hx hy =>
      intro h
      simp only [varsBelow, Bool.and_eq_true, diff] at h ⊢
      exact ⟨⟨hx h.1, h.2⟩, ⟨h.1, hy h.2⟩⟩
    | pow x n ih =>
      intro h
      simp only [varsBelow, Bool.and_eq_true, diff] at h ⊢
      exact ⟨⟨trivial, h⟩, ih h⟩
  rw [eval_congr (hρ p) _ (hvd _ hv)]
  refine HasPartial.congr (f := fun p => (pNum k i).eval (ρ p)) ?_ (fun p' => (eval_congr (hρ p') _ hv).symm)
  have h0 : shift p a 0 = p := by fin_cases a <;> simp [shift]
  have := hasDerivAt_eval (axisDelta a) (fun t => ρ (shift p a t)) 0 (by
    intro j
    match j with
    | 0 => fin_cases a
           · have := ((hasDerivAt_id (0 : ℝ)).const_add (p.x)).sub_const q.x
             simpa [axisDelta, ρ, shift, pointEnv, eval] using this
           · simpa [axisDelta, ρ, shift, pointEnv, eval] using hasDerivAt_const (0 : ℝ) (p.x - q.x)
           · simpa [axisDelta, ρ, shift, pointEnv, eval] using hasDerivAt_const (0 : ℝ) (p.x - q.x)
    | 1 => fin_cases a
           · simpa [axisDelta, ρ, shift, pointEnv, eval] using hasDerivAt_const (0 : ℝ) (p.y - q.y)
           · have := ((hasDerivAt_id (0 : ℝ)).const_add (p.y)).sub_const q.y
             simpa [axisDelta, ρ, shift, pointEnv, eval] using this
           · simpa [axisDelta, ρ, shift, pointEnv, eval] using hasDerivAt_const (0 : ℝ) (p.y - q.y)
    | 2 => fin_cases a
           · simpa [axisDelta, ρ, shift, pointEnv, eval] using hasDerivAt_const (0 : ℝ) (p.z)
           · simpa [axisDelta, ρ, shift, pointEnv, eval] using hasDerivAt_const (0 : ℝ) (p.z)
           · have := ((hasDerivAt_id (0 : ℝ)).const_add (p.z))
             simpa [axisDelta, ρ, shift, pointEnv, eval] using this
    | n + 3 =>
      have h1 : axisDelta a (n + 3) = .c 0 := by
        unfold axisDelta; rw [if_neg]; have := a.isLt; omega
      have h2 : (fun s => ρ (shift p a s) (n + 3)) = fun _ => (0 : ℝ) := by
        funext s; cases n <;> rfl
      rw [h1, h2]
      simpa [eval] using hasDerivAt_const (0 : ℝ) (0 : ℝ)) (pNum k i)
  simp only [h0] at this
  exact this

theorem selExpr_eval (k : Nat) (hk : k < 6) (l : Idx) (q : V2) (p : V3) :
    (elimR (selExpr (pointNum k) (entrySel k l))).eval (relEnv q p) * (pc k / (2 * π) / relR q p ^ (2 * k + 3))
      = tens (fun k i p => pixelComp k i q p) k l p := by
  have hr := relR_sq q p
  have hR : relEnv q p 3 ^ 2 = relEnv q p 0 ^ 2 + relEnv q p 1 ^ 2 + relEnv q p 2 ^ 2 := by
    simpa [relEnv, pointEnv] using hr
  have hrow : ∀ i, ((List.range (2 * k + 1)).map fun i => pixelComp k i q p).getD i 0
      = ((pointNum k).getD i (.c 0)).eval (relEnv q p) * (pc k / (2 * π) / relR q p ^ (2 * k + 3)) := by
    intro i
    rw [getD_range_map]
    split
    · rw [pixelComp_eq k i hk, pNum, elimR_eval _ hR]
    · rename_i h
      have : (pointNum k).getD i (.c 0) = .c 0 := by
        rw [List.getD_eq_getElem?_getD, List.getElem?_eq_none (by rw [pointNum_length k hk]; omega)]; rfl
      rw [this]; simp [eval]
  rw [elimR_eval _ hR]
  unfold tens
  cases entrySel k l with
  | one i => simp only [selExpr, selVal, hrow]
  | lap i j => simp only [selExpr, selVal, hrow, eval]; ring

theorem axis_eval (a : Axis) (q : V2) (p : V3) : (PExpr.v a.val).eval (relEnv q p) = relCoord q p a := by
  fin_cases a <;> rfl

theorem pixel_step (k : Nat) (hk : k < 5) (i : Nat) (hi : i < 2 * k + 1) (q : V2) (p : V3) (h : OffPixel q p) (a : Axis) :
    HasPartial a (pixelComp k i q) (tens (fun k i p => pixelComp k i q p) (k + 1) (nameIdx k i ++ [a]) p) p := by
  have hr : relR q p ≠ 0 := (sqrt_pos.mpr (relQ_pos h)).ne'
  rw [← selExpr_eval (k + 1) (by omega)]
  refine HasPartial.congr (f := fun p => (pNum k i).eval (relEnv q p) * (pc k / (2 * π) * (relR q p ^ (2 * k + 3))⁻¹)) ?_
    (fun p' => by rw [pixelComp_eq k i (by omega) q p']; rfl)
  have hid := kronCheck_sound (R := ℝ) (pointIdent_check k hk i hi a) (relEnv q p)
  have hN := pNum_partial k i (by omega) hi q p a
  have hR := relR_partial h a
  have h0 : shift p a 0 = p := by fin_cases a <;> simp [shift]
  have hpow := HasDerivAt.pow hR (2 * k + 3)
  have hinv := hpow.inv (by rw [Pi.pow_apply, h0]; exact pow_ne_zero _ hr)
  have := HasDerivAt.mul hN (hinv.const_mul ((pc k : ℝ) / (2 * π)))
  refine HasDerivAt.congr_deriv this ?_
  have hax : relEnv q p a.val = relCoord q p a := axis_eval a q p
  simp only [pointIdent, eval, hax, Nat.cast_add, Nat.cast_mul, Nat.cast_ofNat] at hid
  simp only [Pi.pow_apply, Pi.inv_apply, h0]
  have hq : qExpr.eval (relEnv q p) = relR q p ^ 2 := by
    rw [relR_sq]; rfl
  rw [hq] at hid
  have hpi : π ≠ 0 := pi_ne_zero
  generalize (elimR (selExpr (pointNum (k + 1)) (entrySel (k + 1) (nameIdx k i ++ [a])))).eval (relEnv q p) = M at *
  generalize ((pNum k i).diff (axisDelta a)).eval (relEnv q p) = N' at *
  generalize (pNum k i).eval (relEnv q p) = N at *
  generalize relCoord q p a = X at *
  have e1 : M * (pc (k + 1) / (2 * π) / relR q p ^ (2 * (k + 1) + 3))
      = pc k * (N' * relR q p ^ 2 - (2 * k + 3) * X * N) / (2 * π) / relR q p ^ (2 * (k + 1) + 3) := by
    have : (pc (k + 1) : ℝ) * M = pc k * (N' * relR q p ^ 2 - (2 * k + 3) * X * N) := by linarith
    rw [← this]; ring
  rw [e1]
  have e2 : 2 * k + 3 - 1 = 2 * k + 2 := by omega
  rw [e2]
  push_cast
  field_simp
  ring

end Electrode
