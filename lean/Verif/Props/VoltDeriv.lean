import Verif.Model.Constraints
import Verif.Lemmas.System
import Mathlib.Data.List.GetD
import Mathlib.Algebra.Group.ForwardDiff
import Mathlib.Algebra.Polynomial.Eval.Degree
import Mathlib.Algebra.Polynomial.Degree.Domain

/-
C50: `VoltageDerivativeConstraint`.
-/
namespace Electrode

namespace Spec
/-- the difference quotient of the given order and step at time `i`: `δ⁻ᵒ Σ_k (-1)^(o-k) C(o, k) x(i + k δ)` -/
noncomputable def quotient {M : Type*} [AddCommGroup M] [Module ℝ M] (order : Nat) (delta : ℤ) (x : ℤ → M) (i : ℤ) : M :=
  (1 / (delta : ℝ) ^ order) • ∑ k ∈ Finset.range (order + 1), ((-1 : ℝ) ^ (order - k) * (order.choose k : ℝ)) • x (i + k * delta)

/-- the norm of the voltages of one time slice that the argument `norm` (and `abs`) asks for -/
noncomputable def sliceNorm {n : Nat} (abs : Bool) (inf : Bool) (v : Fin n → ℝ) : ℝ :=
  if inf then ⨆ k, (if abs then |v k| else v k) else ∑ k, (if abs then |v k| else v k)
end Spec
open Spec

section
variable {M : Type*} [AddCommGroup M] [Module ℝ M]
open fwdDiff

/-- the list holds the values of `f` at `a, a+1, .., a+l-1` -/
def Rep (obj : List M) (f : ℤ → M) (a : ℤ) (l : Nat) : Prop :=
  obj.length = l ∧ ∀ i : Nat, i < l → obj.getD i 0 = f (a + i)

omit [Module ℝ M] in
theorem rep_diffStep (delta : Nat) (obj : List M) (f : ℤ → M) (a : ℤ) (l : Nat) (h : Rep obj f a l) :
    Rep (diffStep delta obj) (Δ_[(delta : ℤ)] f) a (l - delta) := by
  unfold diffStep
  refine ⟨by simp [h.1], fun i hi => ?_⟩
  rw [List.getD_eq_getElem _ _ (by simp [h.1, hi])]
  simp only [List.getElem_map, List.getElem_range]
  rw [h.2 _ (by omega), h.2 _ (by omega), fwdDiff]
  push_cast
  rw [add_assoc]

omit [Module ℝ M] in
theorem rep_mirror (delta L : Nat) (hd : delta ≤ L) (obj : List M) (f : ℤ → M) (h : Rep obj f 0 (L + 1))
    (h0 : ∀ m, f (-m) = f m) (hL : ∀ m, f (2 * L - m) = f m) :
    Rep (mirrorExt delta obj) f (-delta) (L + 1 + 2 * delta) := by
  unfold mirrorExt
  obtain ⟨hl, hv⟩ := h
  have hA : (((obj.drop 1).take delta).reverse).length = delta := by simp [hl, hd]
  have hB : ((obj.dropLast).reverse.take delta).length = delta := by simp [hl, hd]
  refine ⟨by rw [List.length_append, List.length_append, hA, hB, hl]; ring, fun i hi => ?_⟩
  have key : ∀ j : Nat, (hj : j < obj.length) → obj[j] = f j := by
    intro j hj
    have := hv j (by omega)
    rw [List.getD_eq_getElem _ _ hj] at this
    rw [this, zero_add]
  by_cases h1 : i < delta
  · rw [List.append_assoc, List.getD_append _ _ _ _ (by rw [hA]; exact h1),
      List.getD_eq_getElem _ _ (by rw [hA]; exact h1)]
    simp only [List.getElem_reverse, List.getElem_take, List.getElem_drop, List.length_take, List.length_drop, hl]
    rw [key _ (by omega), ← h0]
    congr 1
    omega
  · by_cases h2 : i < delta + (L + 1)
    · rw [List.getD_append _ _ _ _ (by rw [List.length_append, hA, hl]; omega),
        List.getD_append_right _ _ _ _ (by rw [hA]; omega), hA, hv _ (by omega)]
      congr 1
      omega
    · rw [List.getD_append_right _ _ _ _ (by rw [List.length_append, hA, hl]; omega), List.length_append, hA, hl,
        List.getD_eq_getElem _ _ (by rw [hB]; omega)]
      simp only [List.getElem_take, List.getElem_reverse, List.getElem_dropLast, List.length_dropLast, hl]
      rw [key _ (by omega), ← hL]
      congr 1
      omega

omit [Module ℝ M] in
theorem rep_plain (delta : Nat) (k i : Nat) (obj : List M) (f : ℤ → M) (a : ℤ) (l : Nat) (h : Rep obj f a l) :
    Rep (diffLoop false delta i k obj) (Δ_[(delta : ℤ)]^[k] f) a (l - k * delta) := by
  induction k generalizing i obj f l with
  | zero => simpa [diffLoop] using h
  | succ k ih =>
    rw [diffLoop, Function.iterate_succ_apply]
    simp only [Bool.false_eq_true, false_and, if_false]
    have := ih (i + 1) _ _ _ (rep_diffStep delta obj f a l h)
    rw [show l - (k + 1) * delta = l - delta - k * delta by rw [Nat.sub_sub]; congr 1; ring]
    exact this

omit [Module ℝ M] in
theorem rep_smooth (delta L : Nat) (hd : delta ≤ L) (k : Nat) : ∀ (i : Nat) (obj : List M) (f : ℤ → M), i % 2 = 0 →
    Rep obj f 0 (L + 1) → (∀ m, f (-m) = f m) → (∀ m, f (2 * L - m) = f m) →
    Rep (diffLoop true delta i k obj) (fun m => Δ_[(delta : ℤ)]^[k] f (m - ((k + 1) / 2 : Nat) * delta)) 0
      (L + 1 + k % 2 * delta) := by
  induction k using Nat.twoStepInduction with
  | zero =>
    intro i obj f _ h _ _
    simpa [diffLoop] using h
  | one =>
    intro i obj f hi h h0 hL
    simp only [diffLoop, true_and, if_pos hi]
    have := rep_diffStep delta _ f _ _ (rep_mirror delta L hd obj f h h0 hL)
    refine ⟨by rw [this.1]; omega, fun j hj => ?_⟩
    rw [this.2 j (by omega)]
    simp only [Function.iterate_one]
    congr 1
    push_cast
    ring
  | more k ih _ =>
    intro i obj f hi h h0 hL
    rw [diffLoop, diffLoop]
    simp only [true_and, if_pos hi]
    rw [if_neg (by omega)]
    have h1 := rep_diffStep delta _ _ _ _ (rep_diffStep delta _ f _ _ (rep_mirror delta L hd obj f h h0 hL))
    set g := Δ_[(delta : ℤ)] (Δ_[(delta : ℤ)] f) with hg
    have hgv : ∀ m, g (m - delta) = f (m + delta) - f m - (f m - f (m - delta)) := by
      intro m
      simp only [hg, fwdDiff]
      congr 2 <;> congr 1 <;> ring_nf
    have h2 : Rep (diffStep delta (diffStep delta (mirrorExt delta obj))) (fun m => g (m - delta)) 0 (L + 1) := by
      refine ⟨by rw [h1.1]; omega, fun j hj => ?_⟩
      rw [h1.2 j (by omega)]
      congr 1
      ring
    have h3 := ih (i + 2) _ _ (by omega) h2
      (by
        intro m
        rw [hgv, hgv, h0 m, show -m + (delta : ℤ) = -(m - delta) by ring, h0, show -m - (delta : ℤ) = -(m + delta) by ring, h0]
        abel)
      (by
        intro m
        rw [hgv, hgv, hL m, show 2 * (L : ℤ) - m + delta = 2 * L - (m - delta) by ring, hL,
          show 2 * (L : ℤ) - m - delta = 2 * L - (m + delta) by ring, hL]
        abel)
    have hmod : (k + 2) % 2 = k % 2 := by omega
    rw [hmod]
    refine ⟨h3.1, fun j hj => ?_⟩
    rw [h3.2 j hj]
    beta_reduce
    have := fwdDiff_iter_comp_add (delta : ℤ) g (-(delta : ℤ)) k (0 + (j : ℤ) - ((k + 1) / 2 : Nat) * delta)
    simp only [← sub_eq_add_neg] at this
    rw [this, hg, Function.iterate_succ_apply, Function.iterate_succ_apply]
    congr 1
    rw [show (k + 2 + 1) / 2 = (k + 1) / 2 + 1 by omega, Nat.cast_add, Nat.cast_one]
    ring_nf

theorem quotient_eq (order : Nat) (delta : ℤ) (x : ℤ → M) (i : ℤ) :
    (1 / (delta : ℝ) ^ order) • Δ_[delta]^[order] x i = quotient order delta x i := by
  unfold quotient
  rw [fwdDiff_iter_eq_sum_shift]
  congr 1
  apply Finset.sum_congr rfl
  intro k _
  rw [← Int.cast_smul_eq_zsmul ℝ]
  push_cast
  simp

/-- C50, without `smooth`: for `N` rows of voltages the value is the list of the `N - order * delta` difference quotients
of the given order and step. -/
theorem c50_difference (order delta : Nat) (vars : List M) :
    (voltDeriv order false delta vars).length = vars.length - order * delta ∧
    ∀ i : Nat, i < vars.length - order * delta →
      (voltDeriv order false delta vars)[i]? = some (quotient order delta (fun m => vars.getD m.toNat 0) i) := by
  have h : Rep vars (fun m => vars.getD m.toNat 0) 0 vars.length := ⟨rfl, fun i _ => by simp⟩
  have h2 := rep_plain delta order 0 vars _ 0 _ h
  unfold voltDeriv
  refine ⟨by simp [h2.1], fun i hi => ?_⟩
  have hi' : i < (diffLoop false delta 0 order vars).length := by rw [h2.1]; exact hi
  have h3 := h2.2 i hi
  rw [List.getD_eq_getElem _ _ hi', zero_add] at h3
  rw [List.getElem?_map, List.getElem?_eq_getElem hi', Option.map_some, h3, ← quotient_eq]
  simp

/-- C50, with `smooth`: the voltages are continued beyond the first and the last row by reflection.  `x` is any such
continuation (symmetric about row `0` and about row `L`, with the given values at rows `0` to `L`), and the value is
the list of its difference quotients centred on the rows `0` to `L` (even order), or between them and including
both outer neighbours (odd order). -/
theorem c50_smooth (order delta L : Nat) (hd : delta ≤ L) (vars : List M) (hl : vars.length = L + 1) (x : ℤ → M)
    (hx : ∀ i : Nat, i ≤ L → vars[i]? = some (x i)) (h0 : ∀ m, x (-m) = x m) (hL : ∀ m, x (2 * L - m) = x m) :
    (voltDeriv order true delta vars).length = L + 1 + order % 2 * delta ∧
    ∀ i : Nat, i < L + 1 + order % 2 * delta →
      (voltDeriv order true delta vars)[i]? = some (quotient order delta x (i - ((order + 1) / 2 : Nat) * delta)) := by
  have h : Rep vars x 0 (L + 1) := by
    refine ⟨hl, fun i hi => ?_⟩
    rw [List.getD_eq_getElem?_getD, hx i (by omega)]
    simp
  have h2 := rep_smooth delta L hd order 0 vars x rfl h h0 hL
  unfold voltDeriv
  refine ⟨by simp [h2.1], fun i hi => ?_⟩
  have hi' : i < (diffLoop true delta 0 order vars).length := by rw [h2.1]; exact hi
  have h3 := h2.2 i hi
  rw [List.getD_eq_getElem _ _ hi', zero_add] at h3
  rw [List.getElem?_map, List.getElem?_eq_getElem hi', Option.map_some, h3, ← quotient_eq]
  simp

omit [Module ℝ M] in
/-- there is exactly one continuation by reflection -/
theorem c50_reflection (L : Nat) (hL : 1 ≤ L) (vars : List M) (hl : vars.length = L + 1) :
    ∃! x : ℤ → M, (∀ i : Nat, i ≤ L → vars[i]? = some (x i)) ∧ (∀ m, x (-m) = x m) ∧ ∀ m, x (2 * L - m) = x m := by
  have hp : (0 : ℤ) < 2 * L := by omega
  have hneg : ∀ m : ℤ, min (-m % (2 * (L : ℤ))) (2 * L - -m % (2 * L)) = min (m % (2 * L)) (2 * L - m % (2 * L)) := by
    intro m
    obtain ⟨hr0, hr1⟩ : 0 ≤ m % (2 * L) ∧ m % (2 * L) < 2 * L := ⟨Int.emod_nonneg _ hp.ne', Int.emod_lt_of_pos _ hp⟩
    have hm := Int.emod_add_mul_ediv m (2 * L)
    set r := m % (2 * L) with hr
    have h1 : -m % (2 * (L : ℤ)) = (2 * L - r) % (2 * L) := by
      rw [show -m = 2 * L - r + 2 * L * (-(m / (2 * L)) - 1) by linarith, Int.add_mul_emod_self_left]
    rcases eq_or_lt_of_le hr0 with h | h
    · rw [h1, ← h]
      simp
    · rw [h1, Int.emod_eq_of_lt (by omega) (by omega), min_comm]
      congr 1
      ring
  refine ⟨fun m => vars.getD (min (m % (2 * L)) (2 * L - m % (2 * L))).toNat 0, ⟨?_, ?_, ?_⟩, ?_⟩
  · intro i hi
    have h1 : (i : ℤ) % (2 * L) = i := Int.emod_eq_of_lt (by omega) (by omega)
    have h2 : (min ((i : ℤ) % (2 * L)) (2 * L - i % (2 * L))).toNat = i := by
      rw [h1, min_eq_left (by omega)]; simp
    simp only [h2]
    rw [List.getElem?_eq_getElem (by omega), List.getD_eq_getElem _ _ (by omega)]
  · intro m
    beta_reduce
    rw [hneg m]
  · intro m
    have h2 : (2 * (L : ℤ) - m) % (2 * L) = -m % (2 * L) := by
      rw [show 2 * (L : ℤ) - m = -m + 2 * L * 1 by ring, Int.add_mul_emod_self_left]
    beta_reduce
    rw [h2, hneg m]
  · rintro y ⟨hy, hy0, hyL⟩
    have hper : Function.Periodic y (2 * L : ℤ) := by
      intro m
      rw [show m + 2 * (L : ℤ) = 2 * L - (-m) by ring, hyL, hy0]
    funext m
    obtain ⟨hr0, hr1⟩ : 0 ≤ m % (2 * L) ∧ m % (2 * L) < 2 * L := ⟨Int.emod_nonneg _ hp.ne', Int.emod_lt_of_pos _ hp⟩
    have hm : y m = y (m % (2 * L)) := by
      conv_lhs => rw [← Int.emod_add_mul_ediv m (2 * L)]
      have := hper.int_mul (m / (2 * L)) (m % (2 * L))
      rw [Int.cast_id, mul_comm (m / (2 * (L : ℤ)))] at this
      exact this
    have key : ∀ r : ℤ, 0 ≤ r → r ≤ L → y r = vars.getD r.toNat 0 := by
      intro r h0 h1
      have h := hy r.toNat (by omega)
      rw [Int.toNat_of_nonneg h0] at h
      rw [List.getD_eq_getElem?_getD, h]
      rfl
    rw [hm]
    by_cases hle : m % (2 * L) ≤ L
    · rw [min_eq_left (by omega)]
      exact key _ hr0 hle
    · rw [min_eq_right (by omega), ← key _ (by omega) (by omega), hyL]

/-- C50: rows that are equal have vanishing differences of any order, also with `smooth`. -/
theorem c50_constant (order delta : Nat) (ho : 1 ≤ order) (smooth : Bool) (c : M) (N : Nat) (hN : delta < N) :
    ∀ v ∈ voltDeriv order smooth delta (List.replicate N c), v = 0 := by
  have hz : ∀ i : ℤ, quotient order (delta : ℤ) (fun _ => c) i = 0 := by
    intro i
    rw [← quotient_eq]
    obtain ⟨k, rfl⟩ := Nat.exists_eq_succ_of_ne_zero (by omega : order ≠ 0)
    rw [Function.iterate_succ_apply, fwdDiff_const]
    have : ∀ k : Nat, Δ_[(delta : ℤ)]^[k] (fun _ : ℤ => (0 : M)) = fun _ => 0 := by
      intro k
      induction k with
      | zero => rfl
      | succ k ih => rw [Function.iterate_succ_apply, fwdDiff_const, ih]
    rw [this, smul_zero]
  intro v hv
  obtain ⟨i, hi, rfl⟩ := List.getElem_of_mem hv
  cases smooth with
  | false =>
    have h := rep_plain delta order 0 (List.replicate N c) (fun _ => c) 0 N ⟨by simp, fun i hi => by simp [hi]⟩
    have hi' : i < (diffLoop false delta 0 order (List.replicate N c)).length := by simpa [voltDeriv] using hi
    have h3 := h.2 i (by rw [← h.1]; exact hi')
    rw [List.getD_eq_getElem _ _ hi'] at h3
    simp only [voltDeriv, List.getElem_map]
    have h4 := quotient_eq order (delta : ℤ) (fun _ => c) (0 + i)
    rw [h3, ← hz (0 + i), ← h4]
    simp
  | true =>
    obtain ⟨h1, h2⟩ := c50_smooth order delta (N - 1) (by omega) (List.replicate N c) (by simp; omega) (fun _ => c)
      (by intro i hi; rw [List.getElem?_replicate, if_pos (by omega)]) (fun _ => rfl) (fun _ => rfl)
    have := h2 i (by rw [← h1]; exact hi)
    rw [List.getElem?_eq_getElem hi, hz] at this
    injection this

end

open fwdDiff in
/-- C50: on rows whose entries are polynomials in time of degree at most `order` the quotient is the derivative of that
order (time measured in rows): `order!` times the coefficient, and so zero for lower degree. -/
theorem c50_polynomial (n order delta : Nat) (hd : 1 ≤ delta) (N : Nat) (P : Fin n → Polynomial ℝ)
    (hP : ∀ k, (P k).natDegree ≤ order) (t0 τ : ℝ) (i : Nat) (hi : i < N - order * delta) :
    (voltDeriv order false delta ((List.range N).map fun (j : Nat) (k : Fin n) => (P k).eval (t0 + j * τ)))[i]?
      = some fun k => (order.factorial : ℝ) * (P k).coeff order * τ ^ order := by
  obtain ⟨h1, h2⟩ := c50_difference order delta ((List.range N).map fun (j : Nat) (k : Fin n) => (P k).eval (t0 + j * τ))
  rw [h2 i (by simpa using hi)]
  congr 1
  funext k
  have hδ : (delta : ℝ) ≠ 0 := by positivity
  let q : Polynomial ℝ := (P k).comp (Polynomial.C (delta * τ) * Polynomial.X + Polynomial.C (t0 + i * τ))
  have hlin (hτ : τ ≠ 0) : (Polynomial.C (delta * τ) * Polynomial.X + Polynomial.C (t0 + i * τ) : Polynomial ℝ).natDegree = 1 :=
    Polynomial.natDegree_linear (mul_ne_zero hδ hτ)
  have hdeg (hτ : τ ≠ 0) : q.natDegree = (P k).natDegree := by
    rw [Polynomial.natDegree_comp, hlin hτ, mul_one]
  have hsum : Δ_[(1 : ℝ)]^[order] q.eval 0
      = ∑ l ∈ Finset.range (order + 1), ((-1 : ℝ) ^ (order - l) * (order.choose l : ℝ)) * (P k).eval (t0 + (i + l * delta) * τ) := by
    rw [fwdDiff_iter_eq_sum_shift]
    apply Finset.sum_congr rfl
    intro l _
    rw [← Int.cast_smul_eq_zsmul ℝ]
    push_cast
    rw [smul_eq_mul]
    congr 1
    simp only [q, Polynomial.eval_comp, Polynomial.eval_add, Polynomial.eval_mul, Polynomial.eval_C, Polynomial.eval_X]
    congr 1
    simp
    ring
  have hcoef : Δ_[(1 : ℝ)]^[order] q.eval 0 = (order.factorial : ℝ) * (P k).coeff order * (delta * τ) ^ order := by
    by_cases hτ : τ = 0
    · have hq : q = Polynomial.C ((P k).eval t0) := by
        simp [q, hτ, Polynomial.comp_C]
      rcases Nat.eq_zero_or_pos order with h0 | h0
      · subst h0
        have := Polynomial.eq_C_of_natDegree_le_zero (hP k)
        simp only [Function.iterate_zero, id_eq, hq, Polynomial.eval_C]
        conv_lhs => rw [this, Polynomial.eval_C]
        simp
      · rw [Polynomial.fwdDiff_iter_eq_zero_of_degree_lt (by rw [hq]; simpa using h0), hτ]
        simp [h0.ne']
    rcases lt_or_eq_of_le (hP k) with hlt | heq
    · rw [Polynomial.fwdDiff_iter_eq_zero_of_degree_lt (by rw [hdeg hτ]; exact hlt),
        Polynomial.coeff_eq_zero_of_natDegree_lt hlt]
      simp
    · have h3 := q.fwdDiff_iter_degree_eq_factorial
      rw [hdeg hτ, heq] at h3
      rw [h3]
      have h4 : q.leadingCoeff = (P k).coeff order * (delta * τ) ^ order := by
        rw [Polynomial.leadingCoeff_comp (by rw [hlin hτ]; norm_num), Polynomial.leadingCoeff_linear (mul_ne_zero hδ hτ),
          Polynomial.leadingCoeff, heq]
      rw [h4]
      simp
      ring
  unfold quotient
  simp only [Pi.smul_apply, Finset.sum_apply, smul_eq_mul]
  rw [hsum] at hcoef
  have hvals : ∀ l ∈ Finset.range (order + 1), ((-1 : ℝ) ^ (order - l) * (order.choose l : ℝ)) *
      (((List.range N).map fun (j : Nat) (k : Fin n) => (P k).eval (t0 + j * τ)).getD ((i : ℤ) + l * delta).toNat 0) k
      = ((-1 : ℝ) ^ (order - l) * (order.choose l : ℝ)) * (P k).eval (t0 + (i + l * delta) * τ) := by
    intro l hl
    have hl' : l ≤ order := by simpa [Nat.lt_succ_iff] using hl
    have hb : i + l * delta < N := by
      have := Nat.mul_le_mul_right delta hl'
      omega
    have ht : ((i : ℤ) + l * delta).toNat = i + l * delta := by
      have : ((i : ℤ) + l * delta) = ((i + l * delta : Nat) : ℤ) := by push_cast; rfl
      rw [this, Int.toNat_natCast]
    rw [ht, List.getD_eq_getElem _ _ (by simpa using hb)]
    simp
  rw [Finset.sum_congr rfl hvals, hcoef]
  rw [mul_pow]
  push_cast
  field_simp

/-! ### norms and bounds -/

theorem diffLoop_length {M : Type*} [AddCommGroup M] (smooth : Bool) (delta k i : Nat) (a b : List M)
    (h : a.length = b.length) : (diffLoop smooth delta i k a).length = (diffLoop smooth delta i k b).length := by
  induction k generalizing i a b with
  | zero => exact h
  | succ k ih =>
    rw [diffLoop, diffLoop]
    apply ih
    unfold diffStep mirrorExt
    split_ifs <;> simp [h]

theorem coef_eq {n : Nat} (c : VDC) (inf : Bool) (hn : c.norm = if inf then .inf else .one) (u : List (Fin n → ℝ)) :
    c.coef u = .ok ((voltDeriv c.order c.smooth c.delta u).map (sliceNorm c.abs inf)) := by
  unfold VDC.coef
  refine pySeq_map_ok _ _ _ fun v _ => ?_
  rw [hn]
  cases inf <;> simp [coefOf, sliceNorm]

/-- C50: used as a global constraint on `N` rows of voltages, it holds the chosen norm of every difference quotient between
`min` and `max`, and contributes `weight` times the sum of these norms to the objective. -/
theorem c50_bounds {n : Nat} (c : VDC) (inf : Bool) (hn : c.norm = if inf then .inf else .one) (N : Nat) (u : Volts n)
    (hu : u.length = N) :
    ((∀ q ∈ (c.gen N).constraints, q u) ↔
      ∀ v ∈ voltDeriv c.order c.smooth c.delta u,
        (∀ m, c.max = some m → sliceNorm c.abs inf v ≤ m) ∧ ∀ m, c.min = some m → m ≤ sliceNorm c.abs inf v) ∧
    ((c.gen N).objective.map fun t => t.1 u * t.2).sum
      = ((voltDeriv c.order c.smooth c.delta u).map fun v => sliceNorm c.abs inf v * c.weight).sum := by
  have hlen : (voltDeriv c.order c.smooth c.delta (List.replicate N (0 : Fin n → ℝ))).length
      = (voltDeriv c.order c.smooth c.delta u).length := by
    simp only [voltDeriv, List.length_map]
    exact diffLoop_length _ _ _ _ _ _ (by simp [hu])
  have hf := coef_eq c inf hn u
  set D := voltDeriv c.order c.smooth c.delta u with hD
  have hget : ∀ i (hi : i < D.length), (D.map (sliceNorm c.abs inf)).getD i 0 = sliceNorm c.abs inf D[i] := by
    intro i hi
    rw [List.getD_eq_getElem _ _ (by simpa using hi), List.getElem_map]
  have hall : ∀ (R : ℝ → Prop), (∀ i ∈ List.range D.length, R ((D.map (sliceNorm c.abs inf)).getD i 0)) ↔
      ∀ v ∈ D, R (sliceNorm c.abs inf v) := by
    intro R
    constructor
    · intro h v hv
      obtain ⟨i, hi, rfl⟩ := List.getElem_of_mem hv
      rw [← hget i hi]
      exact h i (by simpa using hi)
    · intro h i hi
      rw [hget i (by simpa using hi)]
      exact h _ (List.getElem_mem _)
  constructor
  · unfold VDC.gen
    simp only [hlen, List.mem_append, or_imp, forall_and]
    refine and_congr ?_ ?_
    · cases c.max with
      | none => simp
      | some m =>
        simp only [List.mem_map, forall_exists_index, and_imp, forall_apply_eq_imp_iff₂, hf, Option.some.injEq,
          forall_eq']
        exact hall (· ≤ m)
    · cases c.min with
      | none => simp
      | some m =>
        simp only [List.mem_map, forall_exists_index, and_imp, forall_apply_eq_imp_iff₂, hf, Option.some.injEq,
          forall_eq']
        exact hall (m ≤ ·)
  · unfold VDC.gen
    simp only [hlen]
    split_ifs with h0
    · symm
      simp only [List.map_nil, List.sum_nil]
      apply List.sum_eq_zero
      intro x hx
      rw [List.mem_map] at hx
      obtain ⟨v, _, rfl⟩ := hx
      rw [h0, mul_zero]
    · rw [List.map_map]
      congr 1
      apply List.ext_getElem
      · simp
      · intro i h1 h2
        simp only [List.getElem_map, List.getElem_range, Function.comp_apply, hf]
        rw [hget i (by simpa using h1)]

/-- C50: any other name of a norm is rejected with `ValueError` as soon as there is a difference quotient. -/
theorem c50_bad_norm {n : Nat} (c : VDC) (hn : c.norm = .other) (u : List (Fin n → ℝ))
    (h : voltDeriv c.order c.smooth c.delta u ≠ []) : c.coef u = .error .valueError := by
  unfold VDC.coef
  rw [hn]
  cases hv : voltDeriv c.order c.smooth c.delta u with
  | nil => exact absurd hv h
  | cons v l => rfl

/-- squares: the second differences are `2` -/
example : (voltDeriv 2 false 1 ([0, 1, 4, 9] : List ℝ)) = [2, 2] := by
  norm_num [voltDeriv, diffLoop, diffStep, List.range_succ]

/-- with `smooth`, the first and the last row are reflected: `1, 0, 1, 4, 9, 4` -/
example : (voltDeriv 2 true 1 ([0, 1, 4, 9] : List ℝ)) = [2, 2, 2, -10] := by
  norm_num [voltDeriv, diffLoop, diffStep, mirrorExt, List.range_succ]

end Electrode
