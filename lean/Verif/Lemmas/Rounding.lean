import Verif.Spec.Rounding
import Verif.Lemmas.PolyIdent
import Verif.Lemmas.Expressions
import Mathlib.Tactic.Linarith
import Mathlib.Tactic.Positivity
import Mathlib.Tactic.FieldSimp
import Mathlib.Tactic.GCongr

/-
Propagation of rounding errors.  `b` is `1 / (1 - u)` for an arithmetic with the relative error `u`.
-/
namespace Electrode

namespace Rounding
open Spec

/-- `x` is `y` up to `k` factors between `1 / b` and `b` -/
def Rel (b : ℝ) (k : Nat) (x y : ℝ) : Prop := ∃ t, x = y * t ∧ 1 ≤ t * b ^ k ∧ t ≤ b ^ k

/-- `x` differs from `y` by what `k` roundings make of terms of the total size `m` -/
structure App (b : ℝ) (k : Nat) (x y m : ℝ) : Prop where
  size : |y| ≤ m
  err : |x - y| ≤ (b ^ k - 1) * m

variable {b : ℝ} (hb : 1 ≤ b)
include hb

theorem pow_ge (k : Nat) : 1 ≤ b ^ k := one_le_pow₀ hb

theorem Rel.refl (y : ℝ) (k : Nat) : Rel b k y y := ⟨1, by ring, by simpa using pow_ge hb k, pow_ge hb k⟩

theorem Rel.mono {j k : Nat} (h : j ≤ k) {x y : ℝ} (hx : Rel b j x y) : Rel b k x y := by
  obtain ⟨t, rfl, h1, h2⟩ := hx
  have ht : 0 < t := by
    by_contra hn
    have := mul_nonpos_of_nonpos_of_nonneg (not_lt.1 hn) (zero_le_one.trans (pow_ge hb j))
    linarith
  exact ⟨t, rfl, h1.trans (by gcongr), h2.trans (by gcongr)⟩

omit hb in
theorem Rel.base {c : ℝ} (hb : 1 ≤ b) (hbc : b ≤ c) {k : Nat} {x y : ℝ} (h : Rel b k x y) : Rel c k x y := by
  obtain ⟨t, rfl, h1, h2⟩ := h
  have h3 : b ^ k ≤ c ^ k := by gcongr
  have ht : 0 < t := by
    by_contra hn
    have := mul_nonpos_of_nonpos_of_nonneg (not_lt.1 hn) (zero_le_one.trans (pow_ge hb k))
    linarith
  exact ⟨t, rfl, h1.trans (by gcongr), h2.trans h3⟩

omit hb in
theorem Rel.pos_factor {k : Nat} {t : ℝ} (hb : 1 ≤ b) (h1 : 1 ≤ t * b ^ k) : 0 < t := by
  by_contra hn
  have := mul_nonpos_of_nonpos_of_nonneg (not_lt.1 hn) (zero_le_one.trans (pow_ge hb k))
  linarith

theorem Rel.mul {j k : Nat} {x y x' y' : ℝ} (h : Rel b j x y) (h' : Rel b k x' y') : Rel b (j + k) (x * x') (y * y') := by
  obtain ⟨t, rfl, h1, h2⟩ := h
  obtain ⟨s, rfl, h3, h4⟩ := h'
  have := Rel.pos_factor hb h1
  have := Rel.pos_factor hb h3
  refine ⟨t * s, by ring, ?_, ?_⟩
  · rw [pow_add]
    calc (1 : ℝ) = 1 * 1 := by ring
      _ ≤ (t * b ^ j) * (s * b ^ k) := by gcongr
      _ = _ := by ring
  · rw [pow_add]
    gcongr

theorem Rel.trans {j k : Nat} {x y z : ℝ} (h : Rel b j x y) (h' : Rel b k y z) : Rel b (j + k) x z := by
  obtain ⟨t, rfl, h1, h2⟩ := h
  obtain ⟨s, rfl, h3, h4⟩ := h'
  obtain ⟨w, e, h5, h6⟩ := Rel.mul hb (x := t) (y := 1) (x' := s) (y' := 1) ⟨t, by ring, h1, h2⟩ ⟨s, by ring, h3, h4⟩
  exact ⟨w, by rw [mul_assoc, mul_comm s t, e]; ring, h5, h6⟩

theorem Rel.inv {k : Nat} {x y : ℝ} (h : Rel b k x y) : Rel b k x⁻¹ y⁻¹ := by
  obtain ⟨t, rfl, h1, h2⟩ := h
  have ht := Rel.pos_factor hb h1
  refine ⟨t⁻¹, by rw [mul_inv], ?_, ?_⟩
  · rw [inv_mul_eq_div, le_div_iff₀ ht]; linarith
  · rw [inv_le_iff_one_le_mul₀ ht]; linarith

theorem Rel.div {j k : Nat} {x y x' y' : ℝ} (h : Rel b j x y) (h' : Rel b k x' y') : Rel b (j + k) (x / x') (y / y') := by
  rw [div_eq_mul_inv, div_eq_mul_inv]
  exact h.mul hb (h'.inv hb)

theorem Rel.pow {k : Nat} {x y : ℝ} (h : Rel b k x y) (n : Nat) : Rel b (n * k) (x ^ n) (y ^ n) := by
  induction n with
  | zero => simpa using Rel.refl hb 1 0
  | succ n ih =>
    rw [pow_succ, pow_succ, Nat.succ_mul]
    exact ih.mul hb h

/-- half of the factors are left -/
theorem Rel.sqrt {k : Nat} {x y : ℝ} (hy : 0 ≤ y) (h : Rel b (2 * k) x y) : Rel b k √x √y := by
  obtain ⟨t, rfl, h1, h2⟩ := h
  have ht := Rel.pos_factor hb h1
  have hbk := zero_le_one.trans (pow_ge hb k)
  refine ⟨√t, Real.sqrt_mul hy t, ?_, ?_⟩
  · rw [pow_mul', ← Real.sqrt_sq hbk, ← Real.sqrt_mul ht.le, Real.one_le_sqrt] at *
    simpa using h1
  · rw [Real.sqrt_le_left hbk]
    rwa [pow_mul'] at h2

theorem Rel.add {k : Nat} {x y x' y' : ℝ} (hy : 0 ≤ y) (hy' : 0 ≤ y') (h : Rel b k x y) (h' : Rel b k x' y') :
    Rel b k (x + x') (y + y') := by
  obtain ⟨t, rfl, h1, h2⟩ := h
  obtain ⟨s, rfl, h3, h4⟩ := h'
  rcases (add_nonneg hy hy').eq_or_lt with h0 | h0
  · have e1 : y = 0 := by linarith
    have e2 : y' = 0 := by linarith
    subst e1; subst e2
    simpa using Rel.refl hb 0 k
  · refine ⟨(y * t + y' * s) / (y + y'), by field_simp, ?_, ?_⟩
    · rw [div_mul_eq_mul_div, le_div_iff₀ h0]
      have := mul_le_mul_of_nonneg_left h1 hy
      have := mul_le_mul_of_nonneg_left h3 hy'
      linarith
    · rw [div_le_iff₀ h0]
      have := mul_le_mul_of_nonneg_left h2 hy
      have := mul_le_mul_of_nonneg_left h4 hy'
      linarith

omit hb in
theorem Rel.nonneg {k : Nat} {x y : ℝ} (hb : 1 ≤ b) (h : Rel b k x y) (hy : 0 ≤ y) : 0 ≤ x := by
  obtain ⟨t, rfl, h1, h2⟩ := h
  exact mul_nonneg hy (Rel.pos_factor hb h1).le

omit hb in
theorem Rel.ne_zero {k : Nat} {x y : ℝ} (hb : 1 ≤ b) (h : Rel b k x y) (hy : y ≠ 0) : x ≠ 0 := by
  obtain ⟨t, rfl, h1, h2⟩ := h
  exact mul_ne_zero hy (Rel.pos_factor hb h1).ne'

theorem Rel.neg {k : Nat} {x y : ℝ} (h : Rel b k x y) : Rel b k (-x) (-y) := by
  obtain ⟨t, rfl, h⟩ := h
  exact ⟨t, by ring, h⟩

/-- a relative error is an error -/
theorem Rel.app {k : Nat} {x y m : ℝ} (h : Rel b k x y) (hm : |y| ≤ m) : App b k x y m := by
  obtain ⟨t, rfl, h1, h2⟩ := h
  have hk := pow_ge hb k
  have ht := Rel.pos_factor hb h1
  refine ⟨hm, ?_⟩
  have e : y * t - y = y * (t - 1) := by ring
  rw [e, abs_mul, mul_comm]
  have h3 : |t - 1| ≤ b ^ k - 1 := by
    rw [abs_le]
    constructor
    · by_contra hn
      have h4 : t < 2 - b ^ k := by linarith
      have h5 : t * b ^ k < (2 - b ^ k) * b ^ k := by gcongr
      nlinarith [sq_nonneg (b ^ k - 1)]
    · linarith
  have h0 : 0 ≤ b ^ k - 1 := by linarith
  gcongr

omit hb in
theorem App.nonneg {k : Nat} {x y m : ℝ} (h : App b k x y m) : 0 ≤ m := (abs_nonneg y).trans h.size

theorem App.mono {j k : Nat} (hjk : j ≤ k) {x y m n : ℝ} (h : App b j x y m) (hm : m ≤ n) : App b k x y n := by
  refine ⟨h.size.trans hm, h.err.trans ?_⟩
  have := pow_ge hb j
  have := h.nonneg
  have : b ^ j ≤ b ^ k := by gcongr
  have : (0 : ℝ) ≤ b ^ k - 1 := by linarith
  gcongr

omit hb in
theorem App.bound {k : Nat} {x y m : ℝ} (h : App b k x y m) : |x| ≤ b ^ k * m := by
  have := abs_sub_abs_le_abs_sub x y
  linarith [h.size, h.err]

theorem App.neg {k : Nat} {x y m : ℝ} (h : App b k x y m) : App b k (-x) (-y) m := by
  refine ⟨by rw [abs_neg]; exact h.size, ?_⟩
  rw [show -x - -y = -(x - y) by ring, abs_neg]
  exact h.err

theorem App.add {k : Nat} {x y m x' y' m' : ℝ} (h : App b k x y m) (h' : App b k x' y' m') :
    App b k (x + x') (y + y') (m + m') := by
  refine ⟨(abs_add_le _ _).trans (add_le_add h.size h'.size), ?_⟩
  rw [show x + x' - (y + y') = (x - y) + (x' - y') by ring, mul_add]
  exact (abs_add_le _ _).trans (add_le_add h.err h'.err)

theorem App.sub {k : Nat} {x y m x' y' m' : ℝ} (h : App b k x y m) (h' : App b k x' y' m') :
    App b k (x - x') (y - y') (m + m') := by
  rw [sub_eq_add_neg, sub_eq_add_neg]
  exact h.add hb (h'.neg hb)

theorem App.mul {j k : Nat} {x y m x' y' m' : ℝ} (h : App b j x y m) (h' : App b k x' y' m') :
    App b (j + k) (x * x') (y * y') (m * m') := by
  have h0 := h.nonneg
  have h0' := h'.nonneg
  have hj := pow_ge hb j
  have hk := pow_ge hb k
  refine ⟨by rw [abs_mul]; exact mul_le_mul h.size h'.size (abs_nonneg _) h0, ?_⟩
  rw [show x * x' - y * y' = (x - y) * x' + y * (x' - y') by ring]
  calc |(x - y) * x' + y * (x' - y')| ≤ |x - y| * |x'| + |y| * |x' - y'| := by
        rw [← abs_mul, ← abs_mul]; exact abs_add_le _ _
    _ ≤ ((b ^ j - 1) * m) * (b ^ k * m') + m * ((b ^ k - 1) * m') := by
        have h1 : (0 : ℝ) ≤ b ^ j - 1 := by linarith
        have := h.err
        have := h.size
        have := h'.err
        have := h'.bound
        gcongr
    _ = _ := by rw [pow_add]; ring

theorem App.pow {k : Nat} {x y m : ℝ} (h : App b k x y m) (n : Nat) : App b (n * k) (x ^ n) (y ^ n) (m ^ n) := by
  induction n with
  | zero => exact ⟨by simp, by simp⟩
  | succ n ih =>
    rw [pow_succ, pow_succ, pow_succ, Nat.succ_mul]
    exact ih.mul hb h

/-- one more rounding -/
theorem App.round {k : Nat} {w x y m : ℝ} (h : App b k x y m) (hw : Rel b 1 w x) : App b (k + 1) w y m := by
  have h1 := (hw.app hb le_rfl).err
  refine ⟨h.size, ?_⟩
  have hb1 : 0 ≤ b - 1 := by linarith
  calc |w - y| ≤ |w - x| + |x - y| := by
        rw [show w - y = (w - x) + (x - y) by ring]; exact abs_add_le _ _
    _ ≤ (b - 1) * (b ^ k * m) + (b ^ k - 1) * m := by
        refine add_le_add (h1.trans ?_) h.err
        rw [pow_one]
        exact mul_le_mul_of_nonneg_left h.bound hb1
    _ = _ := by rw [pow_succ]; ring

omit hb

/-- the base of an arithmetic -/
theorem base_ge {u : ℝ} (h0 : 0 ≤ u) (h1 : u < 1) : 1 ≤ (1 - u)⁻¹ := by
  rw [one_le_inv₀ (by linarith)]; linarith

theorem rel_of_err {u : ℝ} (h0 : 0 ≤ u) (h1 : u < 1) {x y : ℝ} (h : |x - y| ≤ u * |y|) : Rel (1 - u)⁻¹ 1 x y := by
  have hu : 0 < 1 - u := by linarith
  by_cases hy : y = 0
  · subst hy
    have : x = 0 := by simpa using h
    subst this
    exact Rel.refl (base_ge h0 h1) 0 1
  · refine ⟨x / y, by field_simp, ?_, ?_⟩
    all_goals
      have h2 : |x / y - 1| ≤ u := by
        rw [show x / y - 1 = (x - y) / y by field_simp, abs_div, div_le_iff₀ (abs_pos.2 hy)]
        exact h
      rw [abs_le] at h2
    · rw [pow_one, ← div_eq_mul_inv, one_le_div hu]; linarith
    · rw [pow_one]
      have : (1 + u) ≤ (1 - u)⁻¹ := by
        rw [le_inv_comm₀ (by linarith) hu, inv_eq_one_div, le_div_iff₀ (by linarith)]
        nlinarith
      linarith

/-- the growth of the bound is linear as long as it is small -/
theorem growth {u : ℝ} (h0 : 0 ≤ u) (h1 : u < 1) {k : Nat} (hk : k * u ≤ 1 / 2) : (1 - u)⁻¹ ^ k - 1 ≤ 2 * k * u := by
  have hu : 0 < 1 - u := by linarith
  have hbern := one_add_mul_le_pow (a := -u) (by linarith) k
  rw [inv_pow]
  have h2 : 1 - k * u ≤ (1 - u) ^ k := by
    rw [sub_eq_add_neg 1 u]; linarith
  have h3 : ((1 - u) ^ k)⁻¹ ≤ (1 - k * u)⁻¹ := inv_anti₀ (by linarith) h2
  have h4 : (1 - k * u)⁻¹ ≤ 1 + 2 * k * u := by
    have hs : 0 ≤ k * u := by positivity
    rw [inv_le_iff_one_le_mul₀ (by linarith)]
    nlinarith
  linarith

/-! ### Expressions -/

/-- total size of the terms of an expression -/
noncomputable def absEval (M : Nat → ℝ) : PExpr → ℝ
  | .c n => (n : ℝ)
  | .v i => M i
  | .neg a => absEval M a
  | .add a b => absEval M a + absEval M b
  | .sub a b => absEval M a + absEval M b
  | .mul a b => absEval M a * absEval M b
  | .pow a n => absEval M a ^ n

/-- number of roundings that matter -/
def cost (κ : Nat → Nat) : PExpr → Nat
  | .c _ => 0
  | .v i => κ i
  | .neg a => cost κ a
  | .add a b => max (cost κ a) (cost κ b) + 1
  | .sub a b => max (cost κ a) (cost κ b) + 1
  | .mul a b => cost κ a + cost κ b + 1
  | .pow a n => n * cost κ a + 1

/-- sum of the absolute values of the coefficients -/
def wt : PExpr → Nat
  | .c n => n
  | .v _ => 1
  | .neg a => wt a
  | .add a b => wt a + wt b
  | .sub a b => wt a + wt b
  | .mul a b => wt a * wt b
  | .pow a n => wt a ^ n

theorem absEval_hom (r : ℝ) (e : PExpr) (d : Nat) (h : e.homDeg (fun _ => 1) = some d) : absEval (fun _ => r) e = wt e * r ^ d := by
  induction e generalizing d with
  | c n => simp [PExpr.homDeg] at h; subst h; simp [absEval, wt]
  | v i => simp [PExpr.homDeg] at h; subst h; simp [absEval, wt]
  | neg a ih => exact ih d h
  | add a b iha ihb =>
    simp only [PExpr.homDeg] at h
    split at h
    · split at h
      · rename_i m n h1 h2 hmn
        cases h; subst hmn
        simp only [absEval, wt, iha _ h1, ihb _ h2]; push_cast; ring
      · cases h
    · cases h
  | sub a b iha ihb =>
    simp only [PExpr.homDeg] at h
    split at h
    · split at h
      · rename_i m n h1 h2 hmn
        cases h; subst hmn
        simp only [absEval, wt, iha _ h1, ihb _ h2]; push_cast; ring
      · cases h
    · cases h
  | mul a b iha ihb =>
    simp only [PExpr.homDeg] at h
    split at h
    · rename_i m n h1 h2
      cases h
      simp only [absEval, wt, iha _ h1, ihb _ h2]; push_cast; ring
    · cases h
  | pow a n ih =>
    simp only [PExpr.homDeg] at h
    split at h
    · rename_i m h1
      cases h
      simp only [absEval, wt, ih _ h1]; push_cast; rw [mul_pow, pow_mul]
    · cases h

variable {o : FloatOps} {u : ℝ} (ho : Accurate o u)
include ho

theorem rel_add (x y : ℝ) : Rel (1 - u)⁻¹ 1 (o.add x y) (x + y) := rel_of_err ho.nonneg ho.lt_one (ho.add x y)
theorem rel_sub (x y : ℝ) : Rel (1 - u)⁻¹ 1 (o.sub x y) (x - y) := rel_of_err ho.nonneg ho.lt_one (ho.sub x y)
theorem rel_mul (x y : ℝ) : Rel (1 - u)⁻¹ 1 (o.mul x y) (x * y) := rel_of_err ho.nonneg ho.lt_one (ho.mul x y)
theorem rel_div (x : ℝ) {y : ℝ} (hy : y ≠ 0) : Rel (1 - u)⁻¹ 1 (o.div x y) (x / y) := rel_of_err ho.nonneg ho.lt_one (ho.div x y hy)
theorem rel_pow (x : ℝ) (n : Nat) : Rel (1 - u)⁻¹ 1 (o.pow x n) (x ^ n) := rel_of_err ho.nonneg ho.lt_one (ho.pow x n)
theorem rel_sqrt {x : ℝ} (hx : 0 ≤ x) : Rel (1 - u)⁻¹ 1 (o.sqrt x) √x :=
  rel_of_err ho.nonneg ho.lt_one (by simpa [abs_of_nonneg (Real.sqrt_nonneg x)] using ho.sqrt x hx)
theorem rel_pi : Rel (1 - u)⁻¹ 1 o.pi Real.pi :=
  rel_of_err ho.nonneg ho.lt_one (by simpa [abs_of_pos Real.pi_pos] using ho.pi)

theorem hbase : 1 ≤ (1 - u)⁻¹ := base_ge ho.nonneg ho.lt_one

/-- the value of an expression, computed from approximations of its variables; `b` may be worse than the arithmetic -/
theorem flEval_app {b : ℝ} (hb : (1 - u)⁻¹ ≤ b) {κ : Nat → Nat} {ρ ρ' M : Nat → ℝ} (h : ∀ i, App b (κ i) (ρ i) (ρ' i) (M i)) (e : PExpr) :
    App b (cost κ e) (e.flEval o ρ) (e.eval ρ') (absEval M e) := by
  have h1 : 1 ≤ b := (hbase ho).trans hb
  have lift : ∀ {x y : ℝ}, Rel (1 - u)⁻¹ 1 x y → Rel b 1 x y := fun h => h.base (hbase ho) hb
  induction e with
  | c n => exact (Rel.refl h1 _ 0).app h1 (by simp [absEval, PExpr.flEval])
  | v i => exact h i
  | neg a ih => exact ih.neg h1
  | add a b iha ihb =>
    exact ((iha.mono h1 (le_max_left _ _) le_rfl).add h1 (ihb.mono h1 (le_max_right _ _) le_rfl)).round h1 (lift (rel_add ho _ _))
  | sub a b iha ihb =>
    exact ((iha.mono h1 (le_max_left _ _) le_rfl).sub h1 (ihb.mono h1 (le_max_right _ _) le_rfl)).round h1 (lift (rel_sub ho _ _))
  | mul a b iha ihb => exact (iha.mul h1 ihb).round h1 (lift (rel_mul ho _ _))
  | pow a n ih => exact (ih.pow h1 n).round h1 (lift (rel_pow ho _ _))

end Rounding
end Electrode
