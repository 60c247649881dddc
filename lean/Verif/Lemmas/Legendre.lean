import Mathlib.Algebra.Polynomial.Derivative
import Mathlib.Algebra.Polynomial.Coeff
import Mathlib.Analysis.Calculus.Deriv.Polynomial
import Mathlib.Topology.Algebra.Polynomial
import Mathlib.Algebra.Polynomial.Degree.Lemmas
import Mathlib.MeasureTheory.Integral.IntervalIntegral.FundThmCalculus

/-
Legendre polynomials and their derivatives: orthogonality, from Rodrigues' formula.
-/
namespace Electrode
open Polynomial

/-- Legendre's polynomial, by Rodrigues' formula -/
noncomputable def Spec.legendre (n : Nat) : ℝ[X] :=
  C (1 / (2 ^ n * (n.factorial : ℝ))) * derivative^[n] ((X ^ 2 - 1) ^ n)

/-- the integral over `[-1, 1]` -/
noncomputable def pint (p : ℝ[X]) : ℝ := ∫ t in (-1 : ℝ)..1, p.eval t

theorem pint_integrable (p : ℝ[X]) : IntervalIntegrable (fun t => p.eval t) MeasureTheory.volume (-1) 1 :=
  p.continuous.intervalIntegrable _ _

theorem pint_add (p q : ℝ[X]) : pint (p + q) = pint p + pint q := by
  unfold pint
  simp only [eval_add]
  exact intervalIntegral.integral_add (pint_integrable p) (pint_integrable q)

theorem pint_C_mul (a : ℝ) (p : ℝ[X]) : pint (C a * p) = a * pint p := by
  unfold pint
  simp only [eval_mul, eval_C]
  exact intervalIntegral.integral_const_mul a _

theorem pint_neg (p : ℝ[X]) : pint (-p) = -pint p := by
  have := pint_C_mul (-1) p
  simpa using this

theorem pint_sub (p q : ℝ[X]) : pint (p - q) = pint p - pint q := by
  rw [sub_eq_add_neg, pint_add, pint_neg, sub_eq_add_neg]

theorem pint_derivative (p : ℝ[X]) : pint (derivative p) = p.eval 1 - p.eval (-1) := by
  unfold pint
  exact intervalIntegral.integral_eq_sub_of_hasDerivAt (fun t _ => p.hasDerivAt t) (pint_integrable _)

theorem pint_parts (p q : ℝ[X]) (h1 : p.eval 1 = 0) (h2 : p.eval (-1) = 0) :
    pint (derivative p * q) = -pint (p * derivative q) := by
  have := pint_derivative (p * q)
  rw [derivative_mul, pint_add, eval_mul, eval_mul, h1, h2] at this
  linarith

theorem pint_parts_iterate (k : Nat) : ∀ (p q : ℝ[X]), (∀ j < k, (derivative^[j] p).eval 1 = 0 ∧ (derivative^[j] p).eval (-1) = 0) →
    pint (derivative^[k] p * q) = (-1) ^ k * pint (p * derivative^[k] q) := by
  induction k with
  | zero => intro p q _; simp
  | succ k ih =>
    intro p q h
    have h0 := h k (by omega)
    rw [Function.iterate_succ_apply' derivative k p, pint_parts _ _ h0.1 h0.2, ih p (derivative q) fun j hj => h j (by omega),
      ← Function.iterate_succ_apply derivative k q]
    ring

theorem eval_iterate_zero {a : ℝ} {n j : Nat} (hj : j < n) {p : ℝ[X]} (h : (X - C a) ^ n ∣ p) : (derivative^[j] p).eval a = 0 := by
  have h1 := pow_sub_dvd_iterate_derivative_of_pow_dvd j h
  have h2 : (X - C a) ∣ derivative^[j] p := (dvd_pow_self _ (by omega : n - j ≠ 0)).trans h1
  exact dvd_iff_isRoot.1 h2

theorem sq_factor (a : ℝ) (ha : a ^ 2 = 1) : (X - C a) ∣ (X ^ 2 - 1 : ℝ[X]) :=
  ⟨X + C a, by
    have : (C a : ℝ[X]) * C a = 1 := by rw [← C_mul, ← sq, ha, C_1]
    linear_combination this⟩

theorem ends_zero {n j : Nat} (hj : j < n) {p : ℝ[X]} (h : (X ^ 2 - 1) ^ n ∣ p) :
    (derivative^[j] p).eval 1 = 0 ∧ (derivative^[j] p).eval (-1) = 0 :=
  ⟨eval_iterate_zero hj ((pow_dvd_pow_of_dvd (sq_factor 1 (by norm_num)) n).trans h),
    eval_iterate_zero hj ((pow_dvd_pow_of_dvd (sq_factor (-1) (by norm_num)) n).trans h)⟩

theorem legendre_pint (n : Nat) (q : ℝ[X]) :
    pint (Spec.legendre n * q) = 1 / (2 ^ n * (n.factorial : ℝ)) * ((-1) ^ n * pint ((X ^ 2 - 1) ^ n * derivative^[n] q)) := by
  unfold Spec.legendre
  rw [mul_assoc, pint_C_mul, pint_parts_iterate n _ _ fun j hj => ends_zero hj dvd_rfl]

theorem base_degree : (X ^ 2 - 1 : ℝ[X]).natDegree ≤ 2 := by
  compute_degree

theorem base_coeff : (X ^ 2 - 1 : ℝ[X]).coeff 2 = 1 := by
  rw [coeff_sub, coeff_X_pow, if_pos rfl, coeff_one, if_neg (by norm_num), sub_zero]

theorem pow_degree (n : Nat) : ((X ^ 2 - 1 : ℝ[X]) ^ n).natDegree ≤ 2 * n := by
  refine natDegree_pow_le.trans ?_
  have := base_degree
  nlinarith

theorem pow_coeff (n : Nat) : ((X ^ 2 - 1 : ℝ[X]) ^ n).coeff (2 * n) = 1 := by
  have := coeff_pow_of_natDegree_le (m := n) base_degree
  rw [mul_comm 2 n, this, base_coeff, one_pow]

theorem iterate_degree (p : ℝ[X]) {d k : Nat} (h : p.natDegree ≤ d) : (derivative^[k] p).natDegree ≤ d - k :=
  (natDegree_iterate_derivative p k).trans (by omega)

theorem legendre_degree (n : Nat) : (Spec.legendre n).natDegree ≤ n := by
  unfold Spec.legendre
  refine (natDegree_C_mul_le _ _).trans ((iterate_degree _ (pow_degree n)).trans (by omega))

theorem iterate_coeff_top (p : ℝ[X]) (n k : Nat) :
    (derivative^[k] p).coeff n = ((n + k).factorial : ℝ) / (n.factorial : ℝ) * p.coeff (n + k) := by
  rw [coeff_iterate_derivative, nsmul_eq_mul]
  congr 1
  have h := Nat.factorial_mul_descFactorial (Nat.le_add_left k n)
  rw [Nat.add_sub_cancel] at h
  have hne : (n.factorial : ℝ) ≠ 0 := by exact_mod_cast Nat.factorial_ne_zero n
  rw [eq_div_iff hne, mul_comm]
  exact_mod_cast h

theorem legendre_coeff (n : Nat) : (Spec.legendre n).coeff n =
    1 / (2 ^ n * (n.factorial : ℝ)) * (((2 * n).factorial : ℝ) / (n.factorial : ℝ)) := by
  unfold Spec.legendre
  rw [coeff_C_mul, iterate_coeff_top, ← two_mul, pow_coeff, mul_one]

theorem iterate_const {p : ℝ[X]} {n : Nat} (h : p.natDegree ≤ n) : derivative^[n] p = C ((n.factorial : ℝ) * p.coeff n) := by
  ext m
  rw [iterate_coeff_top, coeff_C]
  split
  · rename_i h0
    subst h0
    simp
  · rw [coeff_eq_zero_of_natDegree_lt (by omega), mul_zero]

theorem iterate_zero {p : ℝ[X]} {n : Nat} (h : p.natDegree < n) : derivative^[n] p = 0 := by
  rw [iterate_const h.le, coeff_eq_zero_of_natDegree_lt h, mul_zero, C_0]

/-- `∫ (t²-1)^n` -/
theorem pint_base (n : Nat) : pint ((X ^ 2 - 1) ^ n) * ((2 * n + 1).factorial : ℝ) = (-1) ^ n * 2 ^ (2 * n + 1) * (n.factorial : ℝ) ^ 2 := by
  induction n with
  | zero =>
    have : pint ((X ^ 2 - 1) ^ 0) = 2 := by
      unfold pint
      simp
      norm_num
    rw [this]
    norm_num
  | succ n ih =>
    have hp := pint_parts ((X ^ 2 - 1) ^ (n + 1)) X (by simp) (by simp)
    rw [derivative_X, mul_one] at hp
    have hd : derivative ((X ^ 2 - 1 : ℝ[X]) ^ (n + 1)) * X =
        C (2 * ((n : ℝ) + 1)) * ((X ^ 2 - 1) ^ (n + 1) + (X ^ 2 - 1) ^ n) := by
      rw [derivative_pow, derivative_sub, derivative_X_pow, derivative_one]
      simp only [Nat.cast_add, Nat.cast_one, map_mul, map_add, map_one, map_natCast, Nat.add_sub_cancel, Nat.cast_ofNat, map_ofNat]
      ring
    rw [hd, pint_C_mul, pint_add] at hp
    have hrec : (2 * (n : ℝ) + 3) * pint ((X ^ 2 - 1) ^ (n + 1)) = -(2 * ((n : ℝ) + 1)) * pint ((X ^ 2 - 1) ^ n) := by
      linarith
    have f1 : ((2 * (n + 1) + 1).factorial : ℝ) = (2 * n + 3) * (2 * n + 2) * ((2 * n + 1).factorial : ℝ) := by
      rw [show 2 * (n + 1) + 1 = (2 * n + 1) + 1 + 1 by ring, Nat.factorial_succ, Nat.factorial_succ]
      push_cast
      ring
    have f2 : ((n + 1).factorial : ℝ) = (n + 1) * (n.factorial : ℝ) := by
      rw [Nat.factorial_succ]; push_cast; ring
    rw [f1, f2]
    have e1 : (2 : ℝ) ^ (2 * (n + 1) + 1) = 4 * 2 ^ (2 * n + 1) := by
      rw [show 2 * (n + 1) + 1 = (2 * n + 1) + 2 by ring, pow_add]; ring
    have e2 : (-1 : ℝ) ^ (n + 1) = -(-1) ^ n := by rw [pow_succ]; ring
    rw [e1, e2]
    linear_combination (2 * (n : ℝ) + 2) * ((2 * n + 1).factorial : ℝ) * hrec - (2 * (n : ℝ) + 2) * (2 * ((n : ℝ) + 1)) * ih

/-- the polynomial `(1-X²)^mu * P_n^(mu)` -/
noncomputable def assoc (mu n : Nat) : ℝ[X] := (1 - X ^ 2) ^ mu * derivative^[mu] (Spec.legendre n)

theorem one_sub_pow (mu : Nat) : (1 - X ^ 2 : ℝ[X]) ^ mu = C ((-1) ^ mu) * (X ^ 2 - 1) ^ mu := by
  rw [C_pow, ← mul_pow]
  congr 1
  simp

theorem assoc_degree {mu n : Nat} (h : mu ≤ n) : (assoc mu n).natDegree ≤ n + mu := by
  unfold assoc
  rw [one_sub_pow]
  refine natDegree_mul_le.trans ?_
  have h1 := (natDegree_C_mul_le ((-1 : ℝ) ^ mu) ((X ^ 2 - 1) ^ mu)).trans (pow_degree mu)
  have h2 := iterate_degree (k := mu) _ (legendre_degree n)
  omega

theorem assoc_coeff {mu n : Nat} (h : mu ≤ n) : (assoc mu n).coeff (n + mu) =
    (-1) ^ mu * ((n.factorial : ℝ) / ((n - mu).factorial : ℝ) * (Spec.legendre n).coeff n) := by
  unfold assoc
  rw [one_sub_pow, mul_assoc, coeff_C_mul, show n + mu = 2 * mu + (n - mu) by omega,
    coeff_mul_add_eq_of_natDegree_le (pow_degree mu) (iterate_degree _ (legendre_degree n)), pow_coeff, one_mul, iterate_coeff_top,
    show n - mu + mu = n by omega]

theorem assoc_pint {mu n n' : Nat} (h : mu ≤ n) (h' : n ≤ n') :
    pint (assoc mu n * derivative^[mu] (Spec.legendre n')) =
      if n = n' then 2 / (2 * (n : ℝ) + 1) * (((n + mu).factorial : ℝ) / ((n - mu).factorial : ℝ)) else 0 := by
  have hdvd : (X ^ 2 - 1) ^ mu ∣ assoc mu n := by
    unfold assoc
    rw [one_sub_pow]
    exact Dvd.intro_left _ rfl |>.trans (dvd_mul_right _ _)
  have hparts := pint_parts_iterate mu (assoc mu n) (Spec.legendre n') fun j hj => ends_zero hj hdvd
  have hs : ((-1 : ℝ) ^ mu) * (-1) ^ mu = 1 := by rw [← mul_pow]; norm_num
  have e1 : pint (assoc mu n * derivative^[mu] (Spec.legendre n')) =
      (-1) ^ mu * pint (Spec.legendre n' * derivative^[mu] (assoc mu n)) := by
    rw [mul_comm (Spec.legendre n'), hparts, ← mul_assoc, hs, one_mul]
  have hdeg : (derivative^[mu] (assoc mu n)).natDegree ≤ n := (iterate_degree _ (assoc_degree h)).trans (by omega)
  rw [e1, legendre_pint]
  split
  · rename_i heq
    subst heq
    rw [iterate_const hdeg, iterate_coeff_top, assoc_coeff h, legendre_coeff, mul_comm ((X ^ 2 - 1) ^ n), pint_C_mul]
    have hb := pint_base n
    have f0 : (n.factorial : ℝ) ≠ 0 := by exact_mod_cast Nat.factorial_ne_zero _
    have f1 : ((n - mu).factorial : ℝ) ≠ 0 := by exact_mod_cast Nat.factorial_ne_zero _
    have f2 : ((2 * n).factorial : ℝ) ≠ 0 := by exact_mod_cast Nat.factorial_ne_zero _
    have f3 : (2 * (n : ℝ) + 1) ≠ 0 := by positivity
    have f4 : ((2 * n + 1).factorial : ℝ) = (2 * n + 1) * ((2 * n).factorial : ℝ) := by
      rw [Nat.factorial_succ]; push_cast; ring
    have hb' : pint ((X ^ 2 - 1) ^ n) = (-1) ^ n * 2 ^ (2 * n + 1) * (n.factorial : ℝ) ^ 2 / ((2 * n + 1) * ((2 * n).factorial : ℝ)) := by
      rw [eq_div_iff (mul_ne_zero f3 f2), ← f4]; exact hb
    rw [hb']
    have hp : (2 : ℝ) ^ (2 * n + 1) = 2 * (2 ^ n * 2 ^ n) := by rw [pow_succ, two_mul, pow_add]; ring
    rw [hp]
    have h2 : (2 : ℝ) ^ n ≠ 0 := by positivity
    rcases neg_one_pow_eq_or ℝ mu with hm | hm <;> rcases neg_one_pow_eq_or ℝ n with hk | hk <;> rw [hm, hk] <;> field_simp
  · rw [iterate_zero (lt_of_le_of_lt hdeg (by omega)), mul_zero]
    simp [pint]

end Electrode
