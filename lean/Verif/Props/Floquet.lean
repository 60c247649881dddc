import Verif.Lemmas.Floquet
import Mathlib.Analysis.SpecialFunctions.ExpDeriv
import Mathlib.Analysis.SpecialFunctions.Integrals.Basic
import Mathlib.Analysis.SpecialFunctions.Trigonometric.Basic
import Mathlib.LinearAlgebra.Eigenspace.Triangularizable
import Mathlib.Analysis.Complex.Polynomial.Basic
import Mathlib.Analysis.Calculus.Deriv.Add
import Mathlib.Analysis.Calculus.Deriv.Mul

/-
C41, C42: the eigenvectors computed by `utils.mathieu` are truncated Floquet solutions of Hill's equation.
-/
namespace Electrode
open Complex (I exp)

namespace Spec
variable {n : Nat}

/-- Entry of an eigenvector laid out as (frequency component, derivative, dimension), row-major: derivative `d`
(0: position, 1: velocity) and dimension `k` of the harmonic `exp(2i h t)`.  The frequency component with index `l`
holds the harmonic `h = r - l`.  Harmonics above the cutoff are absent. -/
noncomputable def component (r n : Nat) (w : Fin ((2 * r + 1) * 2 * n) → ℂ) (d : Nat) (h : ℤ) (k : Fin n) : ℂ :=
  if p : |h| ≤ r ∧ (((r : ℤ) - h).toNat * 2 + d) * n + k.val < (2 * r + 1) * 2 * n then w ⟨_, p.2⟩ else 0

/-- the truncated Hill recurrence: the coefficient of each harmonic up to the cutoff in
`x'' + (a_0 + 2 a_1 cos 2t + 2 a_2 cos 4t + ...) x`, for `x = sum_h c_h exp((mu + 2 i h) t)`, is zero -/
def HillRecurrence (r : Nat) (a : List (Matrix (Fin n) (Fin n) ℂ)) (mu : ℂ) (c : ℤ → Fin n → ℂ) : Prop :=
  ∀ h : ℤ, |h| ≤ r → ∀ k, (mu + 2 * I * h) ^ 2 * c h k + (a.getD 0 0).mulVec (c h) k +
    ∑ i ∈ Finset.Icc 1 (a.length - 1), (a.getD i 0).mulVec (fun k' => c (h + i) k' + c (h - i) k') k = 0

/-- the matrix `a_0 + 2 a_1 cos 2t + 2 a_2 cos 4t + ...` -/
noncomputable def hillMatrix (a : List (Matrix (Fin n) (Fin n) ℂ)) (t : ℝ) : Matrix (Fin n) (Fin n) ℂ :=
  a.getD 0 0 + ∑ i ∈ Finset.Icc 1 (a.length - 1), ((2 * Real.cos (2 * i * t) : ℝ) : ℂ) • a.getD i 0

/-- the function with the harmonics `c_h`, `|h| <= r`, times `exp(mu t)` -/
noncomputable def floquetSum (r : Nat) (mu : ℂ) (c : ℤ → Fin n → ℂ) (t : ℝ) (k : Fin n) : ℂ :=
  ∑ h ∈ Finset.Icc (-(r : ℤ)) r, c h k * exp ((mu + 2 * I * h) * t)

/-- What is assumed of `numpy.linalg.eig`: every column of the second result is an eigenvector for the eigenvalue of the
same index. -/
def IsEig (eig : Eig) : Prop :=
  ∀ (N : Nat) (M : Matrix (Fin N) (Fin N) ℂ) (j : Fin N),
    (M.mulVec fun i => (eig N M).2 i j) = (eig N M).1 j • (fun i => (eig N M).2 i j) ∧ (fun i => (eig N M).2 i j) ≠ 0

end Spec
open Spec
variable {n : Nat}

/-- there is such an `eig` -/
theorem exists_isEig : ∃ eig, IsEig eig := by
  have : ∀ (N : Nat) (M : Matrix (Fin N) (Fin N) ℂ), Fin N → ∃ (mu : ℂ) (v : Fin N → ℂ), M.mulVec v = mu • v ∧ v ≠ 0 := by
    intro N M j
    have : Nontrivial (Fin N → ℂ) := ⟨0, Function.update 0 j 1, fun h => by
      have := congrFun h j
      simp at this⟩
    obtain ⟨mu, hmu⟩ := Module.End.exists_eigenvalue (Matrix.toLin' M)
    obtain ⟨v, hv⟩ := hmu.exists_hasEigenvector
    exact ⟨mu, v, by simpa using hv.apply_eq_smul, hv.2⟩
  choose mu v hv using this
  exact ⟨fun N M => (fun j => mu N M j, fun i j => v N M j i), fun N M j => hv N M j⟩

theorem component_eq (r : Nat) (w : Fin ((2 * r + 1) * 2 * n) → ℂ) (d : Fin 2) (l : Fin (2 * r + 1)) (k : Fin n) :
    component r n w d ((r : ℤ) - l.val) k = w (flatEquiv r n (l, d, k)) := by
  have e : ((r : ℤ) - ((r : ℤ) - l.val)).toNat = l.val := by omega
  have hv := flatEquiv_val r n l d k
  have hlt := (flatEquiv r n (l, d, k)).isLt
  unfold component
  rw [dif_pos ⟨by rw [abs_le]; constructor <;> omega, by rw [e]; omega⟩]
  congr 1
  ext
  simp only [e]
  exact hv.symm

theorem component_out (r : Nat) (w : Fin ((2 * r + 1) * 2 * n) → ℂ) (d : Nat) (h : ℤ) (hh : (r : ℤ) < |h|) (k : Fin n) :
    component r n w d h k = 0 := by
  unfold component
  rw [dif_neg (fun p => absurd p.1 (by omega))]

/-- sums over different finite sets containing the support -/
theorem sum_support {ι E : Type*} [DecidableEq ι] [AddCommMonoid E] (f : ι → E) (s t : Finset ι) (hs : ∀ i, f i ≠ 0 → i ∈ s)
    (ht : ∀ i, f i ≠ 0 → i ∈ t) : ∑ i ∈ s, f i = ∑ i ∈ t, f i := by
  rw [← finsum_eq_sum_of_support_subset f (s := s) (fun i hi => hs i hi),
    ← finsum_eq_sum_of_support_subset f (s := t) (fun i hi => ht i hi)]

theorem sum_sym {E : Type*} [AddCommMonoid E] (f : ℤ → E) (h : ℤ) (K : Nat) :
    ∑ i ∈ Finset.Icc (h - K) (h + K), f i = f h + ∑ i ∈ Finset.Icc 1 K, (f (h + i) + f (h - i)) := by
  induction K with
  | zero => simp
  | succ K ih =>
    have e : Finset.Icc (h - ((K + 1 : ℕ) : ℤ)) (h + ((K + 1 : ℕ) : ℤ)) =
        insert (h + ((K + 1 : ℕ) : ℤ)) (insert (h - ((K + 1 : ℕ) : ℤ)) (Finset.Icc (h - K) (h + K))) := by
      ext i; simp only [Finset.mem_Icc, Finset.mem_insert]; omega
    rw [e, Finset.sum_insert (by simp only [Finset.mem_insert, Finset.mem_Icc]; omega),
      Finset.sum_insert (by simp only [Finset.mem_Icc]; omega), ih, ← Finset.insert_Icc_right_eq_Icc_add_one (by omega),
      Finset.sum_insert (by simp)]
    abel

/-- the sum over frequency components in the matrix is the sum over multiples of the drive in the recurrence -/
theorem conv_eq (r : Nat) (a : List (Matrix (Fin n) (Fin n) ℂ)) (c : ℤ → Fin n → ℂ) (hc : ∀ h, (r : ℤ) < |h| → c h = 0)
    (l : Fin (2 * r + 1)) (k : Fin n) :
    ∑ l' : Fin (2 * r + 1), (a.getD ((l.val : ℤ) - l'.val).natAbs 0).mulVec (c ((r : ℤ) - l'.val)) k =
      (a.getD 0 0).mulVec (c ((r : ℤ) - l.val)) k + ∑ i ∈ Finset.Icc 1 (a.length - 1),
        (a.getD i 0).mulVec (fun k' => c ((r : ℤ) - l.val + i) k' + c ((r : ℤ) - l.val - i) k') k := by
  set h : ℤ := (r : ℤ) - l.val with hh
  let F : ℤ → ℂ := fun h' => (a.getD (h - h').natAbs 0).mulVec (c h') k
  have h1 : ∑ l' : Fin (2 * r + 1), (a.getD ((l.val : ℤ) - l'.val).natAbs 0).mulVec (c ((r : ℤ) - l'.val)) k =
      ∑ h' ∈ Finset.Icc (-(r : ℤ)) r, F h' := by
    refine Finset.sum_bij (fun l' _ => (r : ℤ) - l'.val) ?_ ?_ ?_ ?_
    · intro l' _; simp only [Finset.mem_Icc]; omega
    · intro l1 _ l2 _ e; ext; omega
    · intro h' hh'
      simp only [Finset.mem_Icc] at hh'
      exact ⟨⟨((r : ℤ) - h').toNat, by omega⟩, Finset.mem_univ _, by simp only; omega⟩
    · intro l' _
      have : ((l.val : ℤ) - l'.val).natAbs = (h - ((r : ℤ) - l'.val)).natAbs := by omega
      simp only [F, this]
  have hF : ∀ h', F h' ≠ 0 → |h'| ≤ r ∧ (h - h').natAbs ≤ a.length - 1 := by
    intro h' hne
    constructor
    · by_contra hcon
      exact hne (by simp [F, hc h' (by omega)])
    · by_contra hcon
      exact hne (by simp only [F]; rw [List.getD_eq_default _ _ (by omega)]; simp)
  rw [h1, sum_support F _ (Finset.Icc (h - ((a.length - 1 : ℕ) : ℤ)) (h + ((a.length - 1 : ℕ) : ℤ)))
    (fun i hi => by have := (hF i hi).1; rw [abs_le] at this; simpa using this)
    (fun i hi => by have := (hF i hi).2; simp only [Finset.mem_Icc]; omega), sum_sym]
  congr 1
  · simp only [F, sub_self, Int.natAbs_zero]
  · refine Finset.sum_congr rfl fun i _ => ?_
    have e1 : (h - (h + (i : ℤ))).natAbs = i := by omega
    have e2 : (h - (h - (i : ℤ))).natAbs = i := by omega
    simp only [F, e1, e2]
    exact (congrFun (Matrix.mulVec_add (a.getD i 0) (c (h + i)) (c (h - i))) k).symm

/-- **C41.** The matrix whose eigenvalues and eigenvectors `mathieu` returns has exactly the truncated Floquet solutions
for eigenvectors: `w` is an eigenvector for `mu` if and only if its position harmonics satisfy the truncated Hill
recurrence, and its velocity harmonics are those of the derivative. -/
theorem c41_exactly (eig : Eig) (r : Nat) (a : List (Matrix (Fin n) (Fin n) ℂ)) (ha : a ≠ []) :
    ∃ M, mathieu eig r a = .ok (eig _ M) ∧ ∀ (w : Fin ((2 * r + 1) * 2 * n) → ℂ) (mu : ℂ),
      M.mulVec w = mu • w ↔ HillRecurrence r a mu (component r n w 0) ∧
        ∀ h : ℤ, |h| ≤ r → ∀ k, component r n w 1 h k = (mu + 2 * I * h) * component r n w 0 h k := by
  refine ⟨floquetMatrix r a, ?_, fun w mu => ?_⟩
  · cases a with
    | nil => exact absurd rfl ha
    | cons => rfl
  have hidx : ∀ P : ℤ → Prop, (∀ h : ℤ, |h| ≤ r → P h) ↔ ∀ l : Fin (2 * r + 1), P ((r : ℤ) - l.val) := by
    intro P
    constructor
    · exact fun H l => H _ (by rw [abs_le]; constructor <;> omega)
    · intro H h hh
      rw [abs_le] at hh
      have := H ⟨((r : ℤ) - h).toNat, by omega⟩
      have e : (r : ℤ) - (((r : ℤ) - h).toNat : ℤ) = h := by omega
      simpa only [e] using this
  have hflat : (floquetMatrix r a).mulVec w = mu • w ↔ ∀ (l : Fin (2 * r + 1)) (k : Fin n) (d : Fin 2),
      (floquetMatrix r a).mulVec w (flatEquiv r n (l, d, k)) = mu * w (flatEquiv r n (l, d, k)) := by
    rw [funext_iff, ← (flatEquiv r n).forall_congr_right]
    constructor
    · exact fun H l k d => H (l, d, k)
    · exact fun H p => H p.1 p.2.2 p.2.1
  rw [hflat]
  unfold HillRecurrence
  rw [hidx, hidx, ← forall_and]
  refine forall_congr' fun l => ?_
  rw [← forall_and]
  refine forall_congr' fun k => ?_
  obtain ⟨h0, h1⟩ := floquetMatrix_mulVec r a w l k
  have hconv := conv_eq r a (component r n w 0) (fun h hh => funext fun k => component_out r w 0 h hh k) l k
  have hc0 : ∀ l', component r n w 0 ((r : ℤ) - Fin.val l') = fun k' => w (flatEquiv r n (l', 0, k')) :=
    fun l' => funext fun k' => component_eq r w 0 l' k'
  have hc1 : component r n w 1 ((r : ℤ) - l.val) k = w (flatEquiv r n (l, 1, k)) := component_eq r w 1 l k
  rw [Fin.forall_fin_two, h0, h1, hc1, add_assoc, ← hconv]
  simp only [hc0]
  set S := ∑ l' : Fin (2 * r + 1), (a.getD ((l.val : ℤ) - l'.val).natAbs 0).mulVec (fun k' => w (flatEquiv r n (l', 0, k'))) k
  push_cast
  constructor
  · rintro ⟨e0, e1⟩
    have e : w (flatEquiv r n (l, 1, k)) = (mu + 2 * I * ((r : ℂ) - l.val)) * w (flatEquiv r n (l, 0, k)) := by
      linear_combination e0
    refine ⟨?_, e⟩
    rw [e] at e1
    linear_combination -e1
  · rintro ⟨e1, e⟩
    refine ⟨by rw [e]; ring, ?_⟩
    rw [e]
    linear_combination -e1

theorem c41_recurrence (eig : Eig) (heig : IsEig eig) (r : Nat) (a : List (Matrix (Fin n) (Fin n) ℂ)) {mu b}
    (h : mathieu eig r a = .ok (mu, b)) (j : Fin ((2 * r + 1) * 2 * n)) :
    HillRecurrence r a (mu j) (component r n (fun i => b i j) 0) ∧
      (∀ h : ℤ, |h| ≤ r → ∀ k, component r n (fun i => b i j) 1 h k = (mu j + 2 * I * h) * component r n (fun i => b i j) 0 h k) ∧
      ∃ h k, component r n (fun i => b i j) 0 h k ≠ 0 := by
  have ha : a ≠ [] := by rintro rfl; cases h
  obtain ⟨M, hM, hiff⟩ := c41_exactly eig r a ha
  rw [hM] at h
  injection h with h
  have h1 : (eig _ M).1 = mu := by rw [h]
  have h2 : (eig _ M).2 = b := by rw [h]
  subst h1 h2
  obtain ⟨h3, h4⟩ := (hiff _ _).1 (heig _ M j).1
  refine ⟨h3, h4, ?_⟩
  by_contra hcon
  push Not at hcon
  refine (heig _ M j).2 (funext fun i => ?_)
  obtain ⟨⟨l, d, k⟩, rfl⟩ := (flatEquiv r n).surjective i
  obtain rfl | rfl : d = 0 ∨ d = 1 := by omega
  · rw [← component_eq r (fun i => (eig _ M).2 i j) 0 l k]
    exact hcon _ _
  · rw [← component_eq r (fun i => (eig _ M).2 i j) 1 l k]
    rw [show ((1 : Fin 2) : ℕ) = 1 from rfl, h4 _ (by rw [abs_le]; constructor <;> omega), hcon, mul_zero]
    rfl

/-- without coefficients there is nothing to solve -/
theorem c41_no_coefficients (eig : Eig) (r : Nat) : mathieu (n := n) eig r [] = .error .indexError := rfl

theorem exp_shift (mu : ℂ) (h : ℤ) (i : Nat) (t : ℝ) :
    ((2 * Real.cos (2 * i * t) : ℝ) : ℂ) * exp ((mu + 2 * I * h) * t) =
      exp ((mu + 2 * I * ((h + i : ℤ) : ℂ)) * t) + exp ((mu + 2 * I * ((h - i : ℤ) : ℂ)) * t) := by
  have e1 : (mu + 2 * I * ((h + i : ℤ) : ℂ)) * t = (mu + 2 * I * h) * t + (2 * i * t : ℂ) * I := by push_cast; ring
  have e2 : (mu + 2 * I * ((h - i : ℤ) : ℂ)) * t = (mu + 2 * I * h) * t + -(2 * i * t : ℂ) * I := by push_cast; ring
  rw [e1, e2, Complex.exp_add, Complex.exp_add, ← mul_add]
  push_cast
  rw [Complex.two_cos]
  ring

theorem floquetSum_deriv (r : Nat) (mu : ℂ) (c : ℤ → Fin n → ℂ) (t : ℝ) (k : Fin n) :
    HasDerivAt (fun t => floquetSum r mu c t k) (floquetSum r mu (fun h k => (mu + 2 * I * h) * c h k) t k) t := by
  unfold floquetSum
  refine HasDerivAt.fun_sum fun h _ => ?_
  have h1 : HasDerivAt (fun t : ℝ => (mu + 2 * I * h) * (t : ℂ)) ((mu + 2 * I * h) * 1) t :=
    (Complex.ofRealCLM.hasDerivAt (x := t)).const_mul _
  have h2 := (h1.cexp).const_mul (c h k)
  refine h2.congr_deriv ?_
  ring

/-- the product of the periodic matrix and a sum of harmonics -/
theorem hill_mulVec (r : Nat) (a : List (Matrix (Fin n) (Fin n) ℂ)) (mu : ℂ) (c : ℤ → Fin n → ℂ)
    (hc : ∀ h, (r : ℤ) < |h| → c h = 0) (t : ℝ) (k : Fin n) :
    (hillMatrix a t).mulVec (floquetSum r mu c t) k =
      ∑ h ∈ Finset.Icc (-((r + (a.length - 1) : ℕ) : ℤ)) ((r + (a.length - 1) : ℕ) : ℤ),
        ((a.getD 0 0).mulVec (c h) k + ∑ i ∈ Finset.Icc 1 (a.length - 1),
          (a.getD i 0).mulVec (fun k' => c (h + i) k' + c (h - i) k') k) * exp ((mu + 2 * I * h) * t) := by
  set K := a.length - 1
  set B := Finset.Icc (-((r + K : ℕ) : ℤ)) ((r + K : ℕ) : ℤ) with hB
  have hX : floquetSum r mu c t = ∑ h ∈ B, exp ((mu + 2 * I * h) * t) • c h := by
    funext k
    rw [Finset.sum_apply]
    unfold floquetSum
    have e : ∀ h, c h k * exp ((mu + 2 * I * h) * t) = (exp ((mu + 2 * I * h) * t) • c h) k := by
      intro h; simp [mul_comm]
    simp only [e]
    have hz : ∀ h : ℤ, (exp ((mu + 2 * I * h) * t) • c h) k ≠ 0 → |h| ≤ r := by
      intro h hne
      by_contra hcon
      exact hne (by simp [hc h (by omega)])
    refine sum_support _ _ _ (fun h hh => ?_) (fun h hh => ?_) <;>
    · have := hz h hh; rw [abs_le] at this
      simp only [hB, Finset.mem_Icc]; omega
  have hmv : ∀ A : Matrix (Fin n) (Fin n) ℂ,
      A.mulVec (floquetSum r mu c t) k = ∑ h ∈ B, A.mulVec (c h) k * exp ((mu + 2 * I * h) * t) := by
    intro A
    rw [hX, Matrix.mulVec_sum, Finset.sum_apply]
    refine Finset.sum_congr rfl fun h _ => ?_
    rw [Matrix.mulVec_smul, Pi.smul_apply, smul_eq_mul, mul_comm]
  -- shifting the index
  have hsh : ∀ (A : Matrix (Fin n) (Fin n) ℂ) (j : ℤ), |j| ≤ K →
      ∑ h ∈ B, A.mulVec (c h) k * exp ((mu + 2 * I * ((h + j : ℤ) : ℂ)) * t) =
        ∑ h ∈ B, A.mulVec (c (h - j)) k * exp ((mu + 2 * I * h) * t) := by
    intro A j hj
    rw [abs_le] at hj
    have hz : ∀ h : ℤ, A.mulVec (c h) k ≠ 0 → |h| ≤ r := by
      intro h hne
      by_contra hcon
      exact hne (by simp [hc h (by omega)])
    rw [← finsum_eq_sum_of_support_subset (s := B), ← finsum_eq_sum_of_support_subset (s := B)]
    · refine (finsum_comp_equiv (Equiv.subRight j)).symm.trans (finsum_congr fun h => ?_)
      simp only [Equiv.subRight_apply, sub_add_cancel]
    · intro h hh
      have := hz (h - j) fun e => hh (by simp [e])
      rw [abs_le] at this
      simp only [hB, Finset.coe_Icc, Set.mem_Icc]; omega
    · intro h hh
      have := hz h fun e => hh (by simp [e])
      rw [abs_le] at this
      simp only [hB, Finset.coe_Icc, Set.mem_Icc]; omega
  unfold hillMatrix
  rw [Matrix.add_mulVec, Pi.add_apply, hmv, Matrix.sum_mulVec, Finset.sum_apply]
  rw [Finset.sum_congr rfl fun h _ => add_mul _ _ _, Finset.sum_add_distrib, Finset.sum_congr rfl fun h _ => Finset.sum_mul _ _ _]
  refine congrArg _ ?_
  rw [Finset.sum_comm]
  refine Finset.sum_congr rfl fun i hi => ?_
  simp only [Finset.mem_Icc] at hi
  have ha : |(i : ℤ)| ≤ K := by rw [abs_le]; constructor <;> omega
  have hb : |(-i : ℤ)| ≤ K := by rw [abs_le]; constructor <;> omega
  have e1 := hsh (a.getD i 0) i ha
  have e2 := hsh (a.getD i 0) (-i) hb
  rw [Matrix.smul_mulVec, Pi.smul_apply, smul_eq_mul, hmv, Finset.mul_sum]
  have e3 : ∀ h : ℤ, (a.getD i 0).mulVec (fun k' => c (h + i) k' + c (h - i) k') k * exp ((mu + 2 * I * h) * t) =
      (a.getD i 0).mulVec (c (h - -(i : ℤ))) k * exp ((mu + 2 * I * h) * t) +
        (a.getD i 0).mulVec (c (h - i)) k * exp ((mu + 2 * I * h) * t) := by
    intro h
    rw [← add_mul, sub_neg_eq_add]
    congr 1
    exact congrFun (Matrix.mulVec_add (a.getD i 0) (c (h + i)) (c (h - i))) k
  rw [Finset.sum_congr rfl fun h _ => e3 h, Finset.sum_add_distrib]
  rw [← e1, ← e2, add_comm, ← Finset.sum_add_distrib]
  refine Finset.sum_congr rfl fun h _ => ?_
  have := exp_shift mu h i t
  calc _ = (a.getD i 0).mulVec (c h) k * (((2 * Real.cos (2 * i * t) : ℝ) : ℂ) * exp ((mu + 2 * I * h) * t)) := by ring
    _ = _ := by rw [this, mul_add, sub_eq_add_neg]

/-- **C41, as a differential equation.** For every exponent and eigenvector returned, the sum `x` of its harmonics is
twice differentiable, its velocity is the sum of the velocity harmonics, and `x'' + (a_0 + sum_i 2 a_i cos 2it) x` has no
harmonic up to the cutoff: what is left are the harmonics above it, which are what the products of the drive and `x`
contribute there. -/
theorem c41_hill (eig : Eig) (heig : IsEig eig) (r : Nat) (a : List (Matrix (Fin n) (Fin n) ℂ)) {mu b}
    (h : mathieu eig r a = .ok (mu, b)) (j : Fin ((2 * r + 1) * 2 * n)) :
    let c := component r n (fun i => b i j) 0
    let x := floquetSum r (mu j) c
    let v := floquetSum r (mu j) (component r n (fun i => b i j) 1)
    ∀ (t : ℝ) (k : Fin n), HasDerivAt (fun t => x t k) (v t k) t ∧
      HasDerivAt (fun t => v t k)
        (-(hillMatrix a t).mulVec (x t) k +
          ∑ h ∈ (Finset.Icc (-((r + (a.length - 1) : ℕ) : ℤ)) ((r + (a.length - 1) : ℕ) : ℤ)).filter fun h => (r : ℤ) < |h|,
            (∑ i ∈ Finset.Icc 1 (a.length - 1), (a.getD i 0).mulVec (fun k' => c (h + i) k' + c (h - i) k') k) *
              exp ((mu j + 2 * I * h) * t)) t := by
  intro c x v t k
  obtain ⟨hrec, hvel, -⟩ := c41_recurrence eig heig r a h j
  have hv : v = floquetSum r (mu j) fun h k => (mu j + 2 * I * h) * c h k := by
    funext t k
    refine Finset.sum_congr rfl fun h hh => ?_
    simp only [Finset.mem_Icc] at hh
    rw [hvel h (by rw [abs_le]; exact hh)]
  refine ⟨?_, ?_⟩
  · rw [hv]; exact floquetSum_deriv r (mu j) c t k
  · rw [hv]
    refine (floquetSum_deriv r (mu j) _ t k).congr_deriv ?_
    have hcout : ∀ h, (r : ℤ) < |h| → c h = 0 := fun h hh => funext fun k => component_out r _ 0 h hh k
    rw [hill_mulVec r a (mu j) c hcout t k, ← Finset.sum_filter_add_sum_filter_not _ (fun h : ℤ => (r : ℤ) < |h|)
      (fun h => ((a.getD 0 0).mulVec (c h) k + ∑ i ∈ Finset.Icc 1 (a.length - 1),
          (a.getD i 0).mulVec (fun k' => c (h + i) k' + c (h - i) k') k) * exp ((mu j + 2 * I * h) * t)), neg_add]
    have e1 : ∑ h ∈ (Finset.Icc (-((r + (a.length - 1) : ℕ) : ℤ)) ((r + (a.length - 1) : ℕ) : ℤ)).filter (fun h => (r : ℤ) < |h|),
        ((a.getD 0 0).mulVec (c h) k + ∑ i ∈ Finset.Icc 1 (a.length - 1),
          (a.getD i 0).mulVec (fun k' => c (h + i) k' + c (h - i) k') k) * exp ((mu j + 2 * I * h) * t) =
        ∑ h ∈ (Finset.Icc (-((r + (a.length - 1) : ℕ) : ℤ)) ((r + (a.length - 1) : ℕ) : ℤ)).filter (fun h => (r : ℤ) < |h|),
        (∑ i ∈ Finset.Icc 1 (a.length - 1),
          (a.getD i 0).mulVec (fun k' => c (h + i) k' + c (h - i) k') k) * exp ((mu j + 2 * I * h) * t) := by
      refine Finset.sum_congr rfl fun h hh => ?_
      rw [hcout h (Finset.mem_filter.1 hh).2, Matrix.mulVec_zero, Pi.zero_apply, zero_add]
    rw [e1]
    have e2 : (Finset.Icc (-((r + (a.length - 1) : ℕ) : ℤ)) ((r + (a.length - 1) : ℕ) : ℤ)).filter (fun h => ¬(r : ℤ) < |h|) =
        Finset.Icc (-(r : ℤ)) r := by
      ext h
      simp only [Finset.mem_filter, Finset.mem_Icc, not_lt, abs_le]
      omega
    rw [e2]
    unfold floquetSum
    have e3 : ∀ h ∈ Finset.Icc (-(r : ℤ)) r, (mu j + 2 * I * h) * ((mu j + 2 * I * h) * c h k) * exp ((mu j + 2 * I * h) * t) =
        -(((a.getD 0 0).mulVec (c h) k + ∑ i ∈ Finset.Icc 1 (a.length - 1),
          (a.getD i 0).mulVec (fun k' => c (h + i) k' + c (h - i) k') k) * exp ((mu j + 2 * I * h) * t)) := by
      intro h hh
      have := hrec h (by rw [abs_le]; simpa using hh) k
      linear_combination exp ((mu j + 2 * I * h) * t) * this
    rw [Finset.sum_congr rfl e3, Finset.sum_neg_distrib]
    ring

/-- without drive the solutions are exact, for every cutoff -/
theorem c41_static_exact (eig : Eig) (heig : IsEig eig) (r : Nat) (A : Matrix (Fin n) (Fin n) ℂ) {mu b}
    (h : mathieu eig r [A] = .ok (mu, b)) (j : Fin ((2 * r + 1) * 2 * n)) (t : ℝ) (k : Fin n) :
    HasDerivAt (fun t => floquetSum r (mu j) (component r n (fun i => b i j) 1) t k)
      (-A.mulVec (floquetSum r (mu j) (component r n (fun i => b i j) 0) t) k) t := by
  have := (c41_hill eig heig r [A] h j t k).2
  refine this.congr_deriv ?_
  rw [Finset.sum_eq_zero]
  · simp [hillMatrix]
  · intro h hh
    simp

/-! ### C42 -/

/-- **C42.** The three entries of an eigenvector that are printed as a mode are the real parts of the zeroth harmonic of
the position. -/
theorem c42_slice (r : Nat) (w : Fin ((2 * r + 1) * 2 * 3) → ℂ) :
    modeSlice w = (List.finRange 3).map fun k => (component r 3 w 0 0 k).re := by
  have hN : (2 * r + 1) * 2 * 3 / 2 = 6 * r + 3 := by omega
  refine List.ext_getElem ?_ fun i h1 h2 => ?_
  · simp [modeSlice, hN]; omega
  · have hi : i < 3 := by simpa using h2
    have hlt : 6 * r + i < (2 * r + 1) * 2 * 3 := by omega
    have hl : (modeSlice w)[i] = (w ⟨6 * r + i, hlt⟩).re := by
      simp only [modeSlice, List.getElem_map, List.getElem_take, List.getElem_drop, List.getElem_ofFn]
      exact congrArg (fun z => (w z).re) (Fin.ext (by simp only [hN]; omega))
    have hr : component r 3 w 0 0 ⟨i, hi⟩ = w ⟨6 * r + i, hlt⟩ := by
      unfold component
      rw [dif_pos ⟨by simp, by simp; omega⟩]
      exact congrArg w (Fin.ext (by simp; omega))
    rw [hl, ← hr, List.getElem_map, List.getElem_finRange]
    rfl

/-- The zeroth harmonic is the mean over a period of the drive of the motion with the exponential growth taken out: the
displacement without micromotion. -/
theorem c42_mean (r : Nat) (mu : ℂ) (c : ℤ → Fin n → ℂ) (k : Fin n) :
    ∫ t in (0 : ℝ)..Real.pi, exp (-mu * t) * floquetSum r mu c t k = Real.pi * c 0 k := by
  have e : ∀ t : ℝ, exp (-mu * t) * floquetSum r mu c t k =
      ∑ h ∈ Finset.Icc (-(r : ℤ)) r, c h k * exp (2 * I * h * t) := by
    intro t
    unfold floquetSum
    rw [Finset.mul_sum]
    refine Finset.sum_congr rfl fun h _ => ?_
    rw [mul_left_comm, ← Complex.exp_add]
    congr 2
    ring
  simp only [e]
  rw [intervalIntegral.integral_finsetSum]
  · rw [Finset.sum_eq_single 0]
    · simp
    · intro h _ hne
      rw [intervalIntegral.integral_const_mul, integral_exp_mul_complex]
      · have : exp (2 * I * h * (Real.pi : ℂ)) = 1 := by
          rw [Complex.exp_eq_one_iff]
          exact ⟨h, by ring⟩
        rw [this]
        simp
      · simp [hne]
    · intro hcon
      exact absurd (Finset.mem_Icc.2 ⟨by omega, by omega⟩) hcon
  · intro h _
    exact Continuous.intervalIntegrable (by fun_prop) _ _

end Electrode
