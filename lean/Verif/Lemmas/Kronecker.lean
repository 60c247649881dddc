import Verif.Model.PExpr
import Mathlib.Algebra.Polynomial.Eval.Degree
import Mathlib.Algebra.Polynomial.Div
import Mathlib.Algebra.Polynomial.Inductions
import Mathlib.Algebra.Polynomial.AlgebraMap
import Mathlib.Data.Int.ModEq
import Mathlib.Algebra.Order.BigOperators.Group.Finset
import Mathlib.Tactic.Ring
import Mathlib.Tactic.LinearCombination
import Mathlib.Tactic.Linarith
import Mathlib.Tactic.Positivity

/-
Proving polynomial identities by one evaluation.  If a polynomial with integer coefficients
vanishes at `X = b` and the sum of the absolute values of its coefficients is below `b`,
it is the zero polynomial.  Iterating over the variables gives a complete test for an
identity between expressions (`PExpr.identity`), which the kernel can run on numbers.
-/
namespace Electrode
open Polynomial

/-- A commutative ring with a submultiplicative size in which a multiple of `b` of size
below `b` is zero. -/
class KRing (A : Type) extends CommRing A where
  nrm : A → ℕ
  nrm_zero : nrm 0 = 0
  nrm_add : ∀ a b, nrm (a + b) ≤ nrm a + nrm b
  nrm_neg : ∀ a, nrm (-a) = nrm a
  nrm_mul : ∀ a b, nrm (a * b) ≤ nrm a * nrm b
  nrm_cast : ∀ n : ℕ, nrm (n : A) ≤ n
  small : ∀ (b : ℕ) (c : A), nrm ((b : A) * c) < b → c = 0

open KRing

instance : KRing ℤ where
  nrm := Int.natAbs
  nrm_zero := rfl
  nrm_add := Int.natAbs_add_le
  nrm_neg := Int.natAbs_neg
  nrm_mul a b := (Int.natAbs_mul a b).le
  nrm_cast n := by simp
  small b c h := by
    rw [Int.natAbs_mul, Int.natAbs_natCast] at h
    by_contra hc
    have : 1 ≤ c.natAbs := Nat.one_le_iff_ne_zero.mpr (by simpa using hc)
    nlinarith

variable {A : Type} [KRing A]

/-- the polynomial of coefficient sizes -/
noncomputable def absP (p : A[X]) : ℕ[X] := ∑ i ∈ Finset.range (p.natDegree + 1), monomial i (nrm (p.coeff i))

theorem absP_coeff (p : A[X]) (k : ℕ) : (absP p).coeff k = nrm (p.coeff k) := by
  simp only [absP, finsetSum_coeff, coeff_monomial, Finset.sum_ite_eq', Finset.mem_range]
  split
  · rfl
  · rw [coeff_eq_zero_of_natDegree_lt (by omega), nrm_zero]

theorem eval_one_mono (p q : ℕ[X]) (h : ∀ k, p.coeff k ≤ q.coeff k) : p.eval 1 ≤ q.eval 1 := by
  rw [eval_eq_sum_range' (n := max p.natDegree q.natDegree + 1) (by omega),
    eval_eq_sum_range' (n := max p.natDegree q.natDegree + 1) (by omega)]
  apply Finset.sum_le_sum
  intro i _
  simpa using h i

theorem nrm_sum_le {ι : Type*} (s : Finset ι) (f : ι → A) : nrm (∑ i ∈ s, f i) ≤ ∑ i ∈ s, nrm (f i) := by
  classical
  induction s using Finset.induction_on with
  | empty => simp [nrm_zero]
  | insert a s ha ih =>
    rw [Finset.sum_insert ha, Finset.sum_insert ha]
    exact (nrm_add _ _).trans (by omega)

noncomputable instance : KRing A[X] where
  nrm p := (absP p).eval 1
  nrm_zero := by
    have : absP (0 : A[X]) = 0 := by ext k; simp [absP_coeff, nrm_zero]
    simp [this]
  nrm_add p q := by
    rw [← eval_add]
    apply eval_one_mono
    intro k
    simp only [coeff_add, absP_coeff]
    exact nrm_add _ _
  nrm_neg p := by
    have : absP (-p) = absP p := by ext k; simp [absP_coeff, nrm_neg]
    rw [this]
  nrm_mul p q := by
    rw [← eval_mul]
    apply eval_one_mono
    intro k
    rw [absP_coeff, coeff_mul, coeff_mul]
    refine (nrm_sum_le _ _).trans ?_
    apply Finset.sum_le_sum
    intro x _
    rw [absP_coeff, absP_coeff]
    exact nrm_mul _ _
  nrm_cast n := by
    have : (absP (n : A[X])) = C (nrm (n : A)) := by
      ext k
      rw [absP_coeff, coeff_C, coeff_natCast_ite]
      split <;> simp [nrm_zero]
    rw [this, eval_C]
    exact nrm_cast n
  small b c h := by
    ext k
    rw [coeff_zero]
    apply small b
    refine lt_of_le_of_lt ?_ h
    have : nrm ((b : A) * c.coeff k) = (absP ((b : A[X]) * c)).coeff k := by
      rw [absP_coeff, ← C_eq_natCast, coeff_C_mul]
    rw [this]
    rw [eval_eq_sum_range' (n := max k (absP ((b : A[X]) * c)).natDegree + 1) (by omega)]
    simp only [one_pow, mul_one]
    exact Finset.single_le_sum (f := fun i => (absP ((b : A[X]) * c)).coeff i) (fun _ _ => Nat.zero_le _)
      (Finset.mem_range.mpr (by omega))

theorem nrm_coeff_le (p : A[X]) (k : ℕ) : nrm (p.coeff k) ≤ nrm p := by
  show _ ≤ (absP p).eval 1
  rw [eval_eq_sum_range' (n := max k (absP p).natDegree + 1) (by omega), ← absP_coeff]
  simp only [one_pow, mul_one]
  exact Finset.single_le_sum (f := fun i => (absP p).coeff i) (fun _ _ => Nat.zero_le _)
    (Finset.mem_range.mpr (by omega))

theorem nrm_X_le : nrm (X : A[X]) ≤ 1 := by
  show (absP (X : A[X])).eval 1 ≤ 1
  have h : ∀ k, (absP (X : A[X])).coeff k ≤ (X : ℕ[X]).coeff k := by
    intro k
    rw [absP_coeff, coeff_X, coeff_X]
    split
    · simpa using nrm_cast (A := A) 1
    · simp [nrm_zero]
  simpa using eval_one_mono _ _ h

theorem nrm_C_le (a : A) : nrm (C a : A[X]) ≤ nrm a := by
  show (absP (C a : A[X])).eval 1 ≤ nrm a
  have h : ∀ k, (absP (C a : A[X])).coeff k ≤ (C (nrm a) : ℕ[X]).coeff k := by
    intro k
    rw [absP_coeff, coeff_C, coeff_C]
    split
    · exact le_rfl
    · simp [nrm_zero]
  simpa using eval_one_mono _ _ h

theorem nrm_divX_le (p : A[X]) : nrm p.divX ≤ nrm p := by
  show (absP p.divX).eval 1 ≤ (absP p).eval 1
  have h : absP p.divX = (absP p).divX := by ext k; simp [absP_coeff, coeff_divX]
  rw [h]
  conv_rhs => rw [← divX_mul_X_add (absP p)]
  simp

/-- a polynomial of size below `b` that vanishes at `b` is zero -/
theorem eq_zero_of_eval (b : ℕ) (p : A[X]) (h : nrm p < b) (h0 : p.eval (b : A) = 0) : p = 0 := by
  induction hn : p.natDegree using Nat.strong_induction_on generalizing p with
  | _ n ih =>
    have hp := divX_mul_X_add p
    have hc : p.coeff 0 = (b : A) * (-p.divX.eval (b : A)) := by
      have h1 : p.eval (b : A) = p.divX.eval (b : A) * b + p.coeff 0 := by
        conv_lhs => rw [← hp]
        simp
      rw [h0] at h1
      linear_combination -h1
    have h2 : -p.divX.eval (b : A) = 0 := by
      apply small b
      rw [← hc]
      exact lt_of_le_of_lt (nrm_coeff_le p 0) h
    have h3 : p.divX.eval (b : A) = 0 := by simpa using h2
    have hc0 : p.coeff 0 = 0 := by rw [hc, h2, mul_zero]
    by_cases hdeg : n = 0
    · have : p = C (p.coeff 0) := eq_C_of_natDegree_eq_zero (by omega)
      rw [this, hc0, C_0]
    · have h4 : p.divX = 0 := by
        apply ih p.divX.natDegree _ p.divX (lt_of_le_of_lt (nrm_divX_le p) h) h3 rfl
        rw [natDegree_divX_eq_natDegree_tsub_one]; omega
      rw [← hp, h4, hc0]; simp

namespace PExpr

/-- value of the majorant: all signs made positive -/
def major (ρ : Nat → Nat) : PExpr → Nat
  | c n => n
  | v i => ρ i
  | neg a => major ρ a
  | add a b => major ρ a + major ρ b
  | sub a b => major ρ a + major ρ b
  | mul a b => major ρ a * major ρ b
  | pow a n => major ρ a ^ n

theorem nrm_pow_le (a : A) (n : ℕ) : nrm (a ^ n) ≤ nrm a ^ n := by
  induction n with
  | zero => simpa using nrm_cast (A := A) 1
  | succ n ih =>
    rw [pow_succ, pow_succ]
    exact (nrm_mul _ _).trans (Nat.mul_le_mul_right _ ih)

theorem nrm_eval_le (ρ : Nat → A) (σ : Nat → Nat) (h : ∀ i, nrm (ρ i) ≤ σ i) (e : PExpr) :
    nrm (e.eval ρ) ≤ e.major σ := by
  induction e with
  | c n => exact nrm_cast n
  | v i => exact h i
  | neg a ih => simp only [eval, major, nrm_neg]; exact ih
  | add a b ha hb => exact (nrm_add _ _).trans (Nat.add_le_add ha hb)
  | sub a b ha hb =>
    simp only [eval, major, sub_eq_add_neg]
    refine (nrm_add _ _).trans ?_
    rw [nrm_neg]
    exact Nat.add_le_add ha hb
  | mul a b ha hb => exact (nrm_mul _ _).trans (Nat.mul_le_mul ha hb)
  | pow a n ih => exact (nrm_pow_le _ _).trans (Nat.pow_le_pow_left ih n)

theorem eval_hom {R S : Type*} [CommRing R] [CommRing S] (φ : R →+* S) (ρ : Nat → R) (e : PExpr) :
    φ (e.eval ρ) = e.eval fun i => φ (ρ i) := by
  induction e with
  | c n => simp [eval]
  | v i => rfl
  | neg a ih => simp [eval, ih]
  | add a b ha hb => simp [eval, ha, hb]
  | sub a b ha hb => simp [eval, ha, hb]
  | mul a b ha hb => simp [eval, ha, hb]
  | pow a n ih => simp [eval, ih]

/-- all variables used are below `n` -/
def varsBelow (n : Nat) : PExpr → Bool
  | c _ => true
  | v i => i < n
  | neg a => varsBelow n a
  | add a b => varsBelow n a && varsBelow n b
  | sub a b => varsBelow n a && varsBelow n b
  | mul a b => varsBelow n a && varsBelow n b
  | pow a _ => varsBelow n a

theorem eval_congr {R : Type*} [CommRing R] {n : Nat} {ρ σ : Nat → R} (h : ∀ i < n, ρ i = σ i) (e : PExpr)
    (he : e.varsBelow n = true) : e.eval ρ = e.eval σ := by
  induction e with
  | c n => rfl
  | v i => simp only [varsBelow, decide_eq_true_eq] at he; exact h i he
  | neg a ih => simp only [varsBelow] at he; simp only [eval, ih he]
  | add a b ha hb => simp only [varsBelow, Bool.and_eq_true] at he; simp only [eval, ha he.1, hb he.2]
  | sub a b ha hb => simp only [varsBelow, Bool.and_eq_true] at he; simp only [eval, ha he.1, hb he.2]
  | mul a b ha hb => simp only [varsBelow, Bool.and_eq_true] at he; simp only [eval, ha he.1, hb he.2]
  | pow a n ih => simp only [varsBelow] at he; simp only [eval, ih he]

/-- Variables `n, n+1, …` have the integer values `ρ`, the variables below `n` are
indeterminates of the nested polynomial ring. -/
theorem identity_aux : ∀ (n : Nat) (b : Nat → Nat) (e : PExpr),
    (∀ k < n, e.major (fun i => if i ≤ k then 1 else b i) < b k) →
    e.eval (fun i => (b i : ℤ)) = 0 →
    ∃ (A : Type) (_ : KRing A) (x : Nat → A), (∀ i, nrm (x i) ≤ if i < n then 1 else b i) ∧ e.eval x = 0 ∧
      (∀ i, n ≤ i → x i = (b i : A)) ∧
      ∀ {R : Type} [CommRing R] (ρ : Nat → R), (∀ i, n ≤ i → ρ i = (b i : R)) →
        ∃ φ : A →+* R, ∀ i, φ (x i) = ρ i := by
  intro n
  induction n with
  | zero =>
    intro b e _ h0
    refine ⟨ℤ, inferInstance, fun i => (b i : ℤ), ?_, h0, fun _ _ => rfl, ?_⟩
    · intro i; exact nrm_cast (A := ℤ) (b i)
    · intro R _ ρ hρ
      exact ⟨Int.castRingHom R, fun i => by simp [hρ i (Nat.zero_le i)]⟩
  | succ n ih =>
    intro b e hb h0
    obtain ⟨A, hA, x, hx, hx0, hxb, hφ⟩ := ih b e (fun k hk => hb k (by omega)) h0
    let y : Nat → A[X] := fun i => if i = n then X else C (x i)
    have hy : ∀ i, nrm (y i) ≤ if i < n + 1 then 1 else b i := by
      intro i
      by_cases hi : i = n
      · simp only [y, hi, if_true, Nat.lt_succ_self]; exact nrm_X_le
      · simp only [y, hi, if_false]
        refine (nrm_C_le _).trans ((hx i).trans ?_)
        by_cases h1 : i < n
        · simp [h1, Nat.lt_succ_of_lt h1]
        · have : ¬ i < n + 1 := by omega
          simp [h1, this]
    refine ⟨A[X], inferInstance, y, hy, ?_, ?_, ?_⟩
    · apply eq_zero_of_eval (b n)
      · refine lt_of_le_of_lt (nrm_eval_le y (fun i => if i ≤ n then 1 else b i) ?_ e) (hb n (Nat.lt_succ_self n))
        intro i
        have := hy i
        simpa [Nat.lt_succ_iff] using this
      · have h1 := eval_hom (evalRingHom ((b n : Nat) : A)) y e
        rw [coe_evalRingHom] at h1
        rw [h1, ← hx0]
        congr 1
        funext i
        by_cases hi : i = n
        · simp only [y, hi, if_true]
          rw [eval_X, hxb n le_rfl]
        · simp only [y, hi, if_false]
          rw [eval_C]
    · intro i hi
      have : i ≠ n := by omega
      simp only [y, this, if_false]
      rw [hxb i (by omega)]
      simp
    · intro R _ ρ hρ
      -- send the new indeterminate to `ρ n`, the others by the previous homomorphism
      obtain ⟨φ, hφ'⟩ := hφ (fun i => if i = n then (b n : R) else ρ i) (by
        intro i hi
        by_cases h1 : i = n
        · simp [h1]
        · simp only [h1, if_false]; exact hρ i (by omega))
      refine ⟨eval₂RingHom φ (ρ n), ?_⟩
      intro i
      by_cases hi : i = n
      · simp [y, hi]
      · have := hφ' i
        simp only [hi, if_false] at this
        simp [y, hi, this]

/-- An expression in `n` variables that vanishes at the point `b`, with each `b k` exceeding the
majorant at the values of the later variables, vanishes identically in every commutative
ring. -/
theorem identity {R : Type} [CommRing R] (n : Nat) (b : Nat → Nat) (e : PExpr) (hv : e.varsBelow n = true)
    (hb : ∀ k < n, e.major (fun i => if i ≤ k then 1 else b i) < b k)
    (h0 : e.eval (fun i => (b i : ℤ)) = 0) (ρ : Nat → R) : e.eval ρ = 0 := by
  obtain ⟨A, hA, x, _, hx0, _, hφ⟩ := identity_aux n b e hb h0
  obtain ⟨φ, hφ'⟩ := hφ (fun i => if i < n then ρ i else (b i : R)) (by
    intro i hi
    simp [Nat.not_lt.mpr hi])
  have h1 : e.eval ρ = e.eval (fun i => φ (x i)) := by
    apply eval_congr _ e hv
    intro i hi
    rw [hφ' i, if_pos hi]
  rw [h1, ← eval_hom, hx0, map_zero]

/-- evaluation modulo `M` on natural numbers -/
def evalMod (M : Nat) (ρ : Nat → Nat) : PExpr → Nat
  | c n => n % M
  | v i => ρ i % M
  | neg a => M - evalMod M ρ a
  | add a b => (evalMod M ρ a + evalMod M ρ b) % M
  | sub a b => (evalMod M ρ a + (M - evalMod M ρ b)) % M
  | mul a b => (evalMod M ρ a * evalMod M ρ b) % M
  | pow a n => (evalMod M ρ a ^ n) % M

theorem evalMod_le (M : Nat) (hM : 0 < M) (ρ : Nat → Nat) (e : PExpr) : evalMod M ρ e ≤ M := by
  cases e <;> simp only [evalMod] <;> first | exact (Nat.mod_lt _ hM).le | exact Nat.sub_le _ _

theorem evalMod_modEq (M : Nat) (hM : 0 < M) (ρ : Nat → Nat) (e : PExpr) :
    (evalMod M ρ e : ℤ) ≡ e.eval (fun i => (ρ i : ℤ)) [ZMOD M] := by
  induction e with
  | c n => simp only [evalMod, eval]; push_cast; exact Int.mod_modEq _ _
  | v i => simp only [evalMod, eval]; push_cast; exact Int.mod_modEq _ _
  | neg a ih =>
    simp only [evalMod, eval]
    rw [Nat.cast_sub (evalMod_le M hM ρ a)]
    have h := (Int.ModEq.sub (Int.modEq_zero_iff_dvd.mpr (dvd_refl (M : ℤ))) ih)
    simpa using h
  | add a b ha hb =>
    simp only [evalMod, eval]; push_cast
    exact (Int.mod_modEq _ _).trans (ha.add hb)
  | sub a b ha hb =>
    simp only [evalMod, eval]
    rw [Int.natCast_mod, Nat.cast_add, Nat.cast_sub (evalMod_le M hM ρ b)]
    refine (Int.mod_modEq _ _).trans ?_
    have h := ha.add (Int.ModEq.sub (Int.modEq_zero_iff_dvd.mpr (dvd_refl (M : ℤ))) hb)
    simpa [sub_eq_add_neg] using h
  | mul a b ha hb =>
    simp only [evalMod, eval]; push_cast
    exact (Int.mod_modEq _ _).trans (ha.mul hb)
  | pow a n ih =>
    simp only [evalMod, eval]; push_cast
    exact (Int.mod_modEq _ _).trans (ih.pow n)

/-- The check run by the kernel: evaluation points `2 ^ es[k]`, modulus `2 ^ K`. -/
def kronCheck (n : Nat) (es : List Nat) (K : Nat) (e : PExpr) : Bool :=
  e.varsBelow n
  && (List.range n).all (fun k => Nat.blt (e.major fun i => if i ≤ k then 1 else 2 ^ es.getD i 0) (2 ^ es.getD k 0))
  && Nat.blt (e.major fun i => 2 ^ es.getD i 0) (2 ^ K)
  && Nat.beq (e.evalMod (2 ^ K) fun i => 2 ^ es.getD i 0) 0

theorem nrm_int (z : ℤ) : nrm z = z.natAbs := rfl

theorem kronCheck_sound {R : Type} [CommRing R] {n : Nat} {es : List Nat} {K : Nat} {e : PExpr}
    (h : kronCheck n es K e = true) (ρ : Nat → R) : e.eval ρ = 0 := by
  simp only [kronCheck, Bool.and_eq_true, List.all_eq_true, List.mem_range, Nat.blt_eq, Nat.beq_eq] at h
  obtain ⟨⟨⟨h1, h2⟩, h3⟩, h4⟩ := h
  apply identity n (fun i => 2 ^ es.getD i 0) e h1 h2
  have hm := evalMod_modEq (2 ^ K) (by positivity) (fun i => 2 ^ es.getD i 0) e
  rw [h4] at hm
  have hd : ((2 ^ K : Nat) : ℤ) ∣ e.eval (fun i => ((2 ^ es.getD i 0 : Nat) : ℤ)) :=
    Int.modEq_zero_iff_dvd.mp (by simpa using hm.symm)
  have hn := nrm_eval_le (A := ℤ) (fun i => ((2 ^ es.getD i 0 : Nat) : ℤ)) (fun i => 2 ^ es.getD i 0)
    (fun i => nrm_cast _) e
  rw [nrm_int] at hn
  exact Int.eq_zero_of_dvd_of_natAbs_lt_natAbs hd (by simpa using lt_of_le_of_lt hn h3)

/-- exponents for `kronCheck`, found by evaluation -/
def kronExps (e : PExpr) : Nat → List Nat → List Nat
  | 0, acc => acc
  | k + 1, acc => kronExps e k
      ((Nat.log2 (e.major fun i => if i ≤ k then 1 else 2 ^ acc.getD (i - k - 1) 0) + 1) :: acc)

/-- substitution of the variables -/
def subst (σ : Nat → PExpr) : PExpr → PExpr
  | c n => c n
  | v i => σ i
  | neg a => neg (subst σ a)
  | add a b => add (subst σ a) (subst σ b)
  | sub a b => sub (subst σ a) (subst σ b)
  | mul a b => mul (subst σ a) (subst σ b)
  | pow a n => pow (subst σ a) n

theorem subst_eval {R : Type*} [CommRing R] (σ : Nat → PExpr) (ρ : Nat → R) (e : PExpr) :
    (e.subst σ).eval ρ = e.eval fun i => (σ i).eval ρ := by
  induction e <;> simp_all [subst, eval]

theorem subst_major (σ : Nat → PExpr) (ρ : Nat → Nat) (e : PExpr) :
    (e.subst σ).major ρ = e.major fun i => (σ i).major ρ := by
  induction e <;> simp_all [subst, major]

theorem subst_varsBelow (σ : Nat → PExpr) (n m : Nat) (h : ∀ i < m, (σ i).varsBelow n = true) (e : PExpr)
    (he : e.varsBelow m = true) : (e.subst σ).varsBelow n = true := by
  induction e <;> simp_all [subst, varsBelow]

/-- like `kronCheck`, for an expression in `m` variables that are substituted by expressions in
`n` variables -/
def kronCheckS (n m : Nat) (σ : Nat → PExpr) (es : List Nat) (K : Nat) (e : PExpr) : Bool :=
  e.varsBelow m
  && (List.range m).all (fun i => (σ i).varsBelow n)
  && (List.range n).all (fun k => Nat.blt
      (e.major fun i => (σ i).major fun i => if i ≤ k then 1 else 2 ^ es.getD i 0) (2 ^ es.getD k 0))
  && Nat.blt (e.major fun i => (σ i).major fun i => 2 ^ es.getD i 0) (2 ^ K)
  && Nat.beq (e.evalMod (2 ^ K) fun i => (σ i).evalMod (2 ^ K) fun i => 2 ^ es.getD i 0) 0

theorem eval_modEq (M : ℤ) (ρ σ : Nat → ℤ) (h : ∀ i, ρ i ≡ σ i [ZMOD M]) (e : PExpr) :
    e.eval ρ ≡ e.eval σ [ZMOD M] := by
  induction e with
  | c n => exact Int.ModEq.refl _
  | v i => exact h i
  | neg a ih => exact ih.neg
  | add a b ha hb => exact ha.add hb
  | sub a b ha hb => exact ha.sub hb
  | mul a b ha hb => exact ha.mul hb
  | pow a n ih => exact ih.pow n

theorem kronCheckS_sound {R : Type} [CommRing R] {n m : Nat} {σ : Nat → PExpr} {es : List Nat} {K : Nat} {e : PExpr}
    (h : kronCheckS n m σ es K e = true) (ρ : Nat → R) : e.eval (fun i => (σ i).eval ρ) = 0 := by
  simp only [kronCheckS, Bool.and_eq_true, List.all_eq_true, List.mem_range, Nat.blt_eq, Nat.beq_eq] at h
  obtain ⟨⟨⟨⟨h0, h1⟩, h2⟩, h3⟩, h4⟩ := h
  rw [← subst_eval]
  apply identity n (fun i => 2 ^ es.getD i 0) _ (subst_varsBelow σ n m h1 e h0)
  · intro k hk
    rw [subst_major]; exact h2 k hk
  have hm := evalMod_modEq (2 ^ K) (by positivity) (fun i => (σ i).evalMod (2 ^ K) fun i => 2 ^ es.getD i 0) e
  rw [h4] at hm
  have hm2 := hm.trans (eval_modEq _ _ _ (fun i => evalMod_modEq (2 ^ K) (by positivity) _ (σ i)) e)
  rw [← subst_eval] at hm2
  have hd : ((2 ^ K : Nat) : ℤ) ∣ (e.subst σ).eval (fun i => ((2 ^ es.getD i 0 : Nat) : ℤ)) :=
    Int.modEq_zero_iff_dvd.mp (by simpa using hm2.symm)
  have hn := nrm_eval_le (A := ℤ) (fun i => ((2 ^ es.getD i 0 : Nat) : ℤ)) (fun i => 2 ^ es.getD i 0)
    (fun i => nrm_cast _) (e.subst σ)
  rw [nrm_int] at hn
  rw [← subst_major] at h3
  exact Int.eq_zero_of_dvd_of_natAbs_lt_natAbs hd (by simpa using lt_of_le_of_lt hn h3)

/-- exponents for `kronCheckS`, found by evaluation -/
def kronExpsS (σ : Nat → PExpr) (e : PExpr) : Nat → List Nat → List Nat
  | 0, acc => acc
  | k + 1, acc => kronExpsS σ e k
      ((Nat.log2 (e.major fun i => (σ i).major fun i => if i ≤ k then 1 else 2 ^ acc.getD (i - k - 1) 0) + 1) :: acc)

end PExpr
end Electrode
