import Verif.Model.FromMatrix
import Verif.Props.Project
import Mathlib.LinearAlgebra.Matrix.Charpoly.Coeff
import Mathlib.Analysis.Complex.Polynomial.Basic
import Mathlib.LinearAlgebra.Matrix.ToLinearEquiv

/-
C106: the functions that find the arguments of a transformation from its matrix.
-/
namespace Electrode

namespace Spec

/-- what `numpy.linalg.eig` promises for a real matrix: eigenvectors of length one, real for real eigenvalues, and every eigenvalue as
often as it is a root of the characteristic polynomial -/
structure EigOf {n : Nat} (A : Matrix (Fin n) (Fin n) ℝ) (e : Eigen n) : Prop where
  vector : ∀ i k, ∑ j, (A k j : ℂ) * (e i).2 j = (e i).1 * (e i).2 k
  norm : ∀ i, ∑ k, Complex.normSq ((e i).2 k) = 1
  real : ∀ i, (e i).1.im = 0 → ∀ k, ((e i).2 k).im = 0
  roots : (A.map ((↑) : ℝ → ℂ)).charpoly = ∏ i, (Polynomial.X - Polynomial.C (e i).1)

/-- `numpy.linalg.eig` keeps its promise -/
structure EigOk (L : EigLib) : Prop where
  three : ∀ A, EigOf A (L.eig3 A)
  four : ∀ A, EigOf A (L.eig4 A)

/-- no eigenvector that belongs to one of the given eigenvalues is a point at infinity -/
def Finite4 (L : EigLib) (M : Matrix (Fin 4) (Fin 4) ℝ) (w : ℂ) : Prop := ∀ i, (L.eig4 M i).1 = w → (L.eig4 M i).2 3 ≠ 0

end Spec

open Matrix Spec

/-! ### eigenvectors -/

theorem eigOf_ne {n : Nat} {A : Matrix (Fin n) (Fin n) ℝ} {e : Eigen n} (h : EigOf A e) (i : Fin n) : (e i).2 ≠ 0 := by
  intro h0
  have := h.norm i
  simp [h0] at this

/-- a real eigenvalue: the real part of the vector is an eigenvector of length one -/
theorem eigOf_real {n : Nat} {A : Matrix (Fin n) (Fin n) ℝ} {e : Eigen n} (h : EigOf A e) {i : Fin n} {w : ℝ} (hw : (e i).1 = w) :
    (∀ k, ∑ j, A k j * ((e i).2 j).re = w * ((e i).2 k).re) ∧ ∑ k, ((e i).2 k).re * ((e i).2 k).re = 1 := by
  have him := h.real i (by rw [hw]; simp)
  constructor
  · intro k
    have := congrArg Complex.re (h.vector i k)
    rw [hw] at this
    simpa [him] using this
  · rw [← h.norm i]
    refine Finset.sum_congr rfl fun k _ => ?_
    rw [Complex.normSq_apply, him k]; ring

/-- a quadratic equation of the matrix holds for its eigenvalues -/
theorem eigOf_quad {n : Nat} {A : Matrix (Fin n) (Fin n) ℝ} {e : Eigen n} (h : EigOf A e) {a b : ℝ}
    (hA : A * A = a • A + b • (1 : Matrix (Fin n) (Fin n) ℝ)) (i : Fin n) : (e i).1 * (e i).1 = a * (e i).1 + b := by
  obtain ⟨k, hk⟩ := Function.ne_iff.1 (eigOf_ne h i)
  simp only [Pi.zero_apply] at hk
  refine mul_right_cancel₀ hk ?_
  have h2 : ∑ j, ((A * A) k j : ℂ) * (e i).2 j = (e i).1 * (e i).1 * (e i).2 k := by
    have : ∀ j, ((A * A) k j : ℂ) * (e i).2 j = ∑ m, (A k m : ℂ) * ((A m j : ℂ) * (e i).2 j) := by
      intro j
      rw [Matrix.mul_apply, Complex.ofReal_sum, Finset.sum_mul]
      refine Finset.sum_congr rfl fun m _ => ?_
      push_cast; ring
    rw [Finset.sum_congr rfl fun j _ => this j, Finset.sum_comm]
    have h3 : ∀ m, ∑ j, (A k m : ℂ) * ((A m j : ℂ) * (e i).2 j) = (e i).1 * ((A k m : ℂ) * (e i).2 m) := by
      intro m
      rw [← Finset.mul_sum, h.vector i m]; ring
    rw [Finset.sum_congr rfl fun m _ => h3 m, ← Finset.mul_sum, h.vector i k]; ring
  rw [← h2, hA]
  have h4 : ∀ j, ((a • A + b • (1 : Matrix (Fin n) (Fin n) ℝ)) k j : ℂ) * (e i).2 j
      = a * ((A k j : ℂ) * (e i).2 j) + b * (if k = j then (e i).2 j else 0) := by
    intro j
    simp only [Matrix.add_apply, Matrix.smul_apply, Matrix.one_apply, smul_eq_mul]
    split_ifs <;> push_cast <;> ring
  rw [Finset.sum_congr rfl fun j _ => h4 j, Finset.sum_add_distrib, ← Finset.mul_sum, ← Finset.mul_sum, h.vector i k, Finset.sum_ite_eq]
  simp only [Finset.mem_univ, if_true]
  ring

/-- every eigenvalue is found -/
theorem eigOf_mem {n : Nat} {A : Matrix (Fin n) (Fin n) ℝ} {e : Eigen n} (h : EigOf A e) {w : ℝ} {x : Fin n → ℝ} (hx : x ≠ 0)
    (hw : ∀ k, ∑ j, A k j * x j = w * x k) : ∃ i, (e i).1 = w := by
  have hr : (A.map ((↑) : ℝ → ℂ)).charpoly.eval (w : ℂ) = 0 := by
    rw [Matrix.eval_charpoly]
    refine Matrix.exists_mulVec_eq_zero_iff.1 ⟨fun k => (x k : ℂ), ?_, ?_⟩
    · intro h0
      refine hx (funext fun k => ?_)
      have := congrFun h0 k
      simpa using this
    · funext k
      have := congrArg (fun z : ℝ => (z : ℂ)) (hw k)
      push_cast at this
      rw [Matrix.sub_mulVec, Pi.sub_apply]
      simp only [Matrix.scalar_apply, Matrix.mulVec_diagonal, Matrix.mulVec, dotProduct, Matrix.map_apply, this, Pi.zero_apply]
      simp [Matrix.diagonal_apply]
  rw [h.roots, Polynomial.eval_prod, Finset.prod_eq_zero_iff] at hr
  obtain ⟨i, -, hi⟩ := hr
  refine ⟨i, ?_⟩
  simp only [Polynomial.eval_sub, Polynomial.eval_X, Polynomial.eval_C] at hi
  exact (sub_eq_zero.1 hi).symm

theorem eigPick_head {n : Nat} {e : Eigen n} {P : ℝ → Prop} {v : Fin n → ℝ} (h : (eigPick e P).head? = some v) :
    ∃ i, P (e i).1.re ∧ v = fun k => ((e i).2 k).re := by
  have := List.mem_of_mem_head? (h ▸ rfl : v ∈ (eigPick e P).head?)
  unfold eigPick at this
  rw [List.mem_map] at this
  obtain ⟨i, hi, rfl⟩ := this
  rw [List.mem_filter] at hi
  exact ⟨i, by simpa using hi.2, rfl⟩

theorem eigPick_last {n : Nat} {e : Eigen n} {P : ℝ → Prop} {v : Fin n → ℝ} (h : (eigPick e P).getLast? = some v) :
    ∃ i, P (e i).1.re ∧ v = fun k => ((e i).2 k).re := by
  have := List.mem_of_getLast? h
  unfold eigPick at this
  rw [List.mem_map] at this
  obtain ⟨i, hi, rfl⟩ := this
  rw [List.mem_filter] at hi
  exact ⟨i, by simpa using hi.2, rfl⟩

theorem eigPick_ne {n : Nat} {e : Eigen n} {P : ℝ → Prop} {i : Fin n} (h : P (e i).1.re) : eigPick e P ≠ [] := by
  refine List.ne_nil_of_mem (a := fun k => ((e i).2 k).re) ?_
  unfold eigPick
  exact List.mem_map.2 ⟨i, List.mem_filter.2 ⟨List.mem_finRange i, by simpa using h⟩, rfl⟩

theorem eigPick_head_some {n : Nat} {e : Eigen n} {P : ℝ → Prop} {i : Fin n} (h : P (e i).1.re) : ∃ v, (eigPick e P).head? = some v := by
  rcases hl : eigPick e P with _ | ⟨a, l⟩
  · exact absurd hl (eigPick_ne h)
  · exact ⟨a, rfl⟩

theorem eigPick_last_some {n : Nat} {e : Eigen n} {P : ℝ → Prop} {i : Fin n} (h : P (e i).1.re) : ∃ v, (eigPick e P).getLast? = some v :=
  ⟨_, List.getLast?_eq_some_getLast (eigPick_ne h)⟩

theorem eigTol_pos : 0 < eigTol := by unfold eigTol; norm_num

theorem eigTol_lt : eigTol < 1 / 2 := by unfold eigTol; norm_num

theorem unitVector_of_dot {v : Fin 3 → ℝ} (h : dot3 v v = 1) : unitVector v = v := by
  funext i
  unfold unitVector
  have : ∑ i, v i * v i = 1 := by rw [← h]; simp [dot3, Fin.sum_univ_three]
  rw [this, Real.sqrt_one, div_one]

theorem byNorm_of_dot {v : Fin 3 → ℝ} (h : dot3 v v = 1) : byNorm v = v := unitVector_of_dot h

theorem dehom_some {v : Fin 4 → ℝ} {p : Fin 3 → ℝ} (h : dehom v = some p) : v 3 ≠ 0 ∧ ∀ a : Fin 3, v a.castSucc = v 3 * p a := by
  unfold dehom at h
  by_cases h3 : v 3 = 0
  · rw [if_pos h3] at h; simp at h
  · rw [if_neg h3] at h
    refine ⟨h3, fun a => ?_⟩
    rw [← Option.some.inj h]
    field_simp

theorem dehom_ne {v : Fin 4 → ℝ} (h : v 3 ≠ 0) : ∃ p, dehom v = some p := ⟨_, if_neg h⟩

/-! ### maps that move points in one direction only -/

/-- every point moves along `d`, by its distance from a plane -/
def along (d u : Fin 3 → ℝ) (c : ℝ) : Matrix (Fin 4) (Fin 4) ℝ :=
  affine (fun a b => (1 : Matrix (Fin 3) (Fin 3) ℝ) a b - d a * u b) fun a => c * d a

theorem along_apply (d u : Fin 3 → ℝ) (c : ℝ) : along d u c =
    !![1 - d 0 * u 0, -(d 0 * u 1), -(d 0 * u 2), c * d 0; -(d 1 * u 0), 1 - d 1 * u 1, -(d 1 * u 2), c * d 1;
      -(d 2 * u 0), -(d 2 * u 1), 1 - d 2 * u 2, c * d 2; 0, 0, 0, 1] := by
  rw [along, affine_apply]
  ext i j
  fin_cases i <;> fin_cases j <;> simp

theorem along_upper (d u : Fin 3 → ℝ) (c : ℝ) : upper (along d u c) =
    !![1 - d 0 * u 0, -(d 0 * u 1), -(d 0 * u 2); -(d 1 * u 0), 1 - d 1 * u 1, -(d 1 * u 2);
      -(d 2 * u 0), -(d 2 * u 1), 1 - d 2 * u 2] := by
  rw [along_apply]
  ext i j
  fin_cases i <;> fin_cases j <;> rfl

theorem along_quad (d u : Fin 3 → ℝ) (c : ℝ) : along d u c * along d u c =
    (2 - dot3 d u) • along d u c + (dot3 d u - 1) • (1 : Matrix (Fin 4) (Fin 4) ℝ) := by
  rw [along_apply]
  ext i j
  simp only [dot3]
  fin_cases i <;> fin_cases j <;>
    simp [Matrix.mul_apply, Fin.sum_univ_four, Matrix.one_apply] <;> ring

theorem along_quad3 (d u : Fin 3 → ℝ) (c : ℝ) : upper (along d u c) * upper (along d u c) =
    (2 - dot3 d u) • upper (along d u c) + (dot3 d u - 1) • (1 : Matrix (Fin 3) (Fin 3) ℝ) := by
  rw [along_upper]
  ext i j
  simp only [dot3]
  fin_cases i <;> fin_cases j <;>
    simp [Matrix.mul_apply, Fin.sum_univ_three, Matrix.one_apply] <;> ring

/-- the eigenvalues of such a map -/
theorem along_root {δ : ℝ} {w : ℂ} (h : w * w = ((2 - δ : ℝ) : ℂ) * w + ((δ - 1 : ℝ) : ℂ)) : w = ((1 : ℝ) : ℂ) ∨ w = ((1 - δ : ℝ) : ℂ) := by
  have : (w - 1) * (w - (1 - δ : ℝ)) = 0 := by
    push_cast at h ⊢
    linear_combination h
  rcases mul_eq_zero.1 this with h1 | h1
  · left; rw [sub_eq_zero.1 h1]; simp
  · right; exact sub_eq_zero.1 h1

/-- the fixed point that is chosen lies in the plane -/
theorem along_fixed {L : EigLib} (hL : EigOk L) {d u : Fin 3 → ℝ} {c : ℝ} (hd : d ≠ 0) (hu : dot3 u u = 1)
    (hδ : dot3 d u = 0 ∨ eigTol ≤ |dot3 d u|) :
    ∃ v, (eigPick (L.eig4 (along d u c)) fun w => |w - 1| < eigTol).getLast? = some v ∧ (∀ p, dehom v = some p → dot3 p u = c) ∧
      (Finite4 L (along d u c) 1 → ∃ p, dehom v = some p) := by
  have e4 := hL.four (along d u c)
  have hex : ∃ i, (L.eig4 (along d u c) i).1 = ((1 : ℝ) : ℂ) := by
    refine eigOf_mem e4 (x := ![c * u 0, c * u 1, c * u 2, 1]) (fun h => by simpa using congrFun h 3) fun k => ?_
    simp only [dot3] at hu
    rw [along_apply]
    fin_cases k <;> simp [Fin.sum_univ_four]
    · linear_combination -c * d 0 * hu
    · linear_combination -c * d 1 * hu
    · linear_combination -c * d 2 * hu
  obtain ⟨i, hi⟩ := hex
  obtain ⟨v, hv⟩ := eigPick_last_some (e := L.eig4 (along d u c)) (P := fun w => |w - 1| < eigTol) (i := i)
    (by rw [hi]; simpa using eigTol_pos)
  refine ⟨v, hv, ?_⟩
  obtain ⟨j, hj, hvj⟩ := eigPick_last hv
  have hw : (L.eig4 (along d u c) j).1 = ((1 : ℝ) : ℂ) := by
    rcases along_root (eigOf_quad e4 (along_quad d u c) j) with h | h
    · exact h
    · rw [h] at hj
      simp only [Complex.ofReal_re] at hj
      rcases hδ with h0 | h0
      · rw [h, h0, sub_zero]
      · rw [show 1 - dot3 d u - 1 = -dot3 d u by ring, abs_neg] at hj
        linarith
  obtain ⟨hvec, -⟩ := eigOf_real e4 hw
  constructor
  · intro p hp
    obtain ⟨h3, hp⟩ := dehom_some hp
    obtain ⟨a, ha⟩ := Function.ne_iff.1 hd
    simp only [Pi.zero_apply] at ha
    have h0 := hp 0
    have h1 := hp 1
    have h2 := hp 2
    have hx : ∀ k, ((L.eig4 (along d u c) j).2 k).re = v k := fun k => by rw [hvj]
    simp only [hx] at hvec
    have key : d a * (v 3 * (dot3 p u - c)) = 0 := by
      have c0 : (0 : Fin 3).castSucc = 0 := rfl
      have c1 : (1 : Fin 3).castSucc = 1 := rfl
      have c2 : (2 : Fin 3).castSucc = 2 := rfl
      rw [c0] at h0
      rw [c1] at h1
      rw [c2] at h2
      have hk := hvec a.castSucc
      rw [along_apply] at hk
      simp only [dot3]
      fin_cases a <;> simp [Fin.sum_univ_four, -mul_eq_zero] at hk ⊢ <;> rw [h0, h1, h2] at hk <;> linear_combination -hk
    have := (mul_eq_zero.1 key).resolve_left ha
    have := (mul_eq_zero.1 this).resolve_left h3
    linarith
  · intro hf
    refine dehom_ne ?_
    have := hf j (by rw [hw]; simp)
    rw [hvj]
    intro h0
    refine this ?_
    apply Complex.ext
    · exact h0
    · exact e4.real j (by rw [hw]; simp) 3

/-- the direction that is chosen -/
theorem along_direction {L : EigLib} (hL : EigOk L) {d u : Fin 3 → ℝ} {c : ℝ} (hd : d ≠ 0) (hδ : eigTol ≤ |dot3 d u|) :
    ∃ v, (eigPick (L.eig3 (upper (along d u c))) fun w => |w - (1 - dot3 d u)| < eigTol).head? = some v ∧ dot3 v v = 1 ∧
      ∃ k, ∀ a, v a = k * d a := by
  have e3 := hL.three (upper (along d u c))
  have hex : ∃ i, (L.eig3 (upper (along d u c)) i).1 = ((1 - dot3 d u : ℝ) : ℂ) := by
    refine eigOf_mem e3 hd fun k => ?_
    rw [along_upper]
    simp only [dot3]
    fin_cases k <;> simp [Fin.sum_univ_three] <;> ring
  obtain ⟨i, hi⟩ := hex
  obtain ⟨v, hv⟩ := eigPick_head_some (e := L.eig3 (upper (along d u c))) (P := fun w => |w - (1 - dot3 d u)| < eigTol) (i := i)
    (by rw [hi]; simpa using eigTol_pos)
  refine ⟨v, hv, ?_⟩
  obtain ⟨j, hj, hvj⟩ := eigPick_head hv
  have hw : (L.eig3 (upper (along d u c)) j).1 = ((1 - dot3 d u : ℝ) : ℂ) := by
    rcases along_root (eigOf_quad e3 (along_quad3 d u c) j) with h | h
    · rw [h] at hj
      simp only [Complex.ofReal_re] at hj
      rw [show 1 - (1 - dot3 d u) = dot3 d u by ring] at hj
      linarith
    · exact h
  obtain ⟨hvec, hnorm⟩ := eigOf_real e3 hw
  have hx : ∀ k, ((L.eig3 (upper (along d u c)) j).2 k).re = v k := fun k => by rw [hvj]
  simp only [hx] at hvec hnorm
  rw [Fin.sum_univ_three] at hnorm
  refine ⟨hnorm, dot3 v u / dot3 d u, fun a => ?_⟩
  have h0 : dot3 d u ≠ 0 := fun h => by
    rw [h, abs_zero] at hδ
    linarith [eigTol_pos]
  have hk := hvec a
  rw [along_upper] at hk
  simp only [dot3] at h0 hk ⊢
  rw [eq_comm, div_mul_eq_mul_div, div_eq_iff h0]
  fin_cases a <;> simp [Fin.sum_univ_three] at hk ⊢ <;> linear_combination -hk

/-- the normal that is chosen -/
theorem along_normal {L : EigLib} (hL : EigOk L) {d u : Fin 3 → ℝ} {c : ℝ} (hu : dot3 u u = 1) (hδ : eigTol ≤ |dot3 d u|) :
    ∃ v, (eigPick (L.eig3 (upper (along d u c)).transpose) fun w => |w - (1 - dot3 d u)| < eigTol).head? = some v ∧ dot3 v v = 1 ∧
      ∃ k, ∀ a, v a = k * u a := by
  have ht : (upper (along d u c)).transpose = upper (along u d c) := by
    rw [along_upper, along_upper]
    ext i j
    fin_cases i <;> fin_cases j <;> simp [mul_comm]
  have hsym : dot3 d u = dot3 u d := by simp only [dot3]; ring
  rw [ht, hsym]
  refine along_direction hL (fun h => ?_) (hsym ▸ hδ)
  rw [h] at hu
  simp [dot3] at hu

/-! ### reflections -/

theorem reflection_along (p n : Fin 3 → ℝ) : reflectionMatrix p n = along (fun a => 2 * unitVector n a) (unitVector n) (dot3 p (unitVector n)) := by
  unfold reflectionMatrix along
  simp only [dot3, Fin.sum_univ_three]
  congr 1
  · funext a b; ring
  · funext a; ring

theorem along_scaled {d u : Fin 3 → ℝ} {c k : ℝ} (hk : k * k = 1) : along (fun a => k * d a) (fun a => k * u a) (k * c) = along d u c := by
  unfold along
  congr 1
  · funext a b
    linear_combination -(d a * u b) * hk
  · funext a
    linear_combination c * d a * hk

/-- C106: `reflection_from_matrix` of a reflection raises no exception, and what it gives makes the same matrix.  The result is finite
if no fixed point that `eig` finds is at infinity. -/
theorem c106_reflection (L : EigLib) (hL : EigOk L) (p n : Fin 3 → ℝ) (hn : n ≠ 0) :
    ∃ r, reflectionFrom L (reflectionMatrix p n) = .ok r ∧ (∀ q, r = some q → reflectionMatrix q.1 q.2 = reflectionMatrix p n) ∧
      (Finite4 L (reflectionMatrix p n) 1 → r ≠ none) := by
  obtain ⟨hu, -⟩ := unit_dot hn
  rw [reflection_along p n]
  obtain ⟨u, hu'⟩ : ∃ u, u = unitVector n := ⟨_, rfl⟩
  rw [← hu'] at hu ⊢
  have hδ : dot3 (fun a => 2 * u a) u = 2 := by
    simp only [dot3] at hu ⊢
    linear_combination 2 * hu
  have hd : (fun a => 2 * u a) ≠ 0 := fun h => by
    rw [h] at hδ
    simp [dot3] at hδ
  have htol : eigTol ≤ |dot3 (fun a => 2 * u a) u| := by rw [hδ, abs_two]; linarith [eigTol_lt]
  obtain ⟨m, hm1, hm2, k, hm3⟩ := along_direction (c := dot3 p u) hL hd htol
  obtain ⟨v, hv1, hv2, hv3⟩ := along_fixed (c := dot3 p u) hL hd hu (Or.inr htol)
  have hP : (fun w : ℝ => |w - (1 - dot3 (fun a => 2 * u a) u)| < eigTol) = fun w => |w + 1| < eigTol := by
    funext w
    rw [hδ]
    norm_num
  rw [hP] at hm1
  refine ⟨(dehom v).map fun q => (q, m), ?_, ?_, ?_⟩
  · unfold reflectionFrom
    rw [hm1, hv1]
  · intro q hq
    obtain ⟨q', hq', rfl⟩ := Option.map_eq_some_iff.1 hq
    have hp := hv2 q' hq'
    rw [reflection_along, unitVector_of_dot hm2]
    have hk : (2 * k) * (2 * k) = 1 := by
      simp only [dot3, hm3] at hm2 hu
      linear_combination hm2 - 4 * k ^ 2 * hu
    have hmm : m = fun a => 2 * k * u a := by funext a; rw [hm3]; ring
    rw [hmm]
    have e1 : (fun a => 2 * (2 * k * u a)) = fun a => 2 * k * (2 * u a) := by funext a; ring
    have e2 : dot3 q' (fun a => 2 * k * u a) = 2 * k * dot3 p u := by
      rw [← hp]; simp only [dot3]; ring
    simp only [e1, e2]
    exact along_scaled hk
  · intro hf h0
    obtain ⟨q, hq⟩ := hv3 hf
    rw [hq] at h0
    simp at h0

/-! ### scaling -/

theorem scale_along (f : ℝ) (o : Option (Fin 3 → ℝ)) (d : Fin 3 → ℝ) : scaleMatrix f o (some d) =
    along (fun a => (1 - f) * unitVector d a) (unitVector d) (dot3 (o.getD 0) (unitVector d)) := by
  unfold scaleMatrix along
  simp only
  congr 1
  · funext a b; ring
  · funext a
    cases o with
    | none => simp [dot3]
    | some o => simp only [dot3, Fin.sum_univ_three, Option.getD_some]; ring

theorem scale_uniform (f : ℝ) (o : Option (Fin 3 → ℝ)) : scaleMatrix f o none =
    !![f, 0, 0, (o.getD 0) 0 * (1 - f); 0, f, 0, (o.getD 0) 1 * (1 - f); 0, 0, f, (o.getD 0) 2 * (1 - f); 0, 0, 0, 1] := by
  unfold scaleMatrix
  rw [affine_apply]
  ext i j
  cases o <;> fin_cases i <;> fin_cases j <;> simp

theorem scale_one (o d : Option (Fin 3 → ℝ)) : scaleMatrix 1 o d = 1 := by
  cases d with
  | none => rw [scale_uniform]; ext i j; fin_cases i <;> fin_cases j <;> simp
  | some d => rw [scale_along, along_apply]; ext i j; fin_cases i <;> fin_cases j <;> simp

theorem along_trace (d u : Fin 3 → ℝ) (c : ℝ) : (upper (along d u c)).trace = 3 - dot3 d u := by
  rw [along_upper]
  simp [Matrix.trace_fin_three, dot3]
  ring

/-- an affine map with a fixed point: the last eigenvector for the eigenvalue one is found -/
theorem fixed_some {L : EigLib} (hL : EigOk L) {M : Matrix (Fin 4) (Fin 4) ℝ} {x : Fin 4 → ℝ} (hx : x ≠ 0) (h : ∀ k, ∑ j, M k j * x j = x k) :
    ∃ v, (eigPick (L.eig4 M) fun w => |w - 1| < eigTol).getLast? = some v := by
  obtain ⟨i, hi⟩ := eigOf_mem (hL.four M) (w := 1) hx fun k => by rw [one_mul]; exact h k
  exact eigPick_last_some (i := i) (by rw [hi]; simpa using eigTol_pos)

/-- the chosen vector is not at infinity if no eigenvector for the eigenvalue one is -/
theorem finite_last {L : EigLib} (hL : EigOk L) {M : Matrix (Fin 4) (Fin 4) ℝ} {v : Fin 4 → ℝ} {P : ℝ → Prop} {w : ℝ}
    (h : (eigPick (L.eig4 M) P).getLast? = some v) (hw : ∀ i, P (L.eig4 M i).1.re → (L.eig4 M i).1 = (w : ℂ)) (hf : Finite4 L M (w : ℂ)) :
    ∃ p, dehom v = some p := by
  obtain ⟨j, hj, hvj⟩ := eigPick_last h
  refine dehom_ne ?_
  have := hf j (hw j hj)
  rw [hvj]
  intro h0
  exact this (Complex.ext h0 ((hL.four M).real j (by rw [hw j hj]; simp) 3))

/-- C106: `scale_from_matrix` of a scaling raises no exception, and what it gives makes the same matrix, unless the factor is within
1e-8 of one but not one.  A uniform scaling always gives a finite result. -/
theorem c106_scale (L : EigLib) (hL : EigOk L) (f : ℝ) (hf : f = 1 ∨ eigTol ≤ |1 - f|) (o d : Option (Fin 3 → ℝ)) (hd : d ≠ some 0) :
    ∃ r, scaleFrom L (scaleMatrix f o d) = .ok r ∧ (∀ q, r = some q → scaleMatrix q.1 (some q.2.1) q.2.2 = scaleMatrix f o d) ∧
      (Finite4 L (scaleMatrix f o d) 1 ∨ (d = none ∧ f ≠ 1) → r ≠ none) := by
  rcases hf with rfl | hf
  · -- the identity
    rw [scale_one]
    have hup : upper (1 : Matrix (Fin 4) (Fin 4) ℝ) = 1 := by
      ext i j
      fin_cases i <;> fin_cases j <;> rfl
    have htr : (upper (1 : Matrix (Fin 4) (Fin 4) ℝ)).trace - 2 = 1 := by
      rw [hup, Matrix.trace_one, Fintype.card_fin]; norm_num
    obtain ⟨v, hv⟩ := fixed_some hL (M := 1) (x := ![1, 0, 0, 0]) (fun h => by simpa using congrFun h 0) fun k => by
      simp [Matrix.one_apply]
    obtain ⟨i, hi⟩ := eigOf_mem (hL.three 1) (w := 1) (x := ![1, 0, 0]) (fun h => by simpa using congrFun h 0) fun k => by
      simp [Matrix.one_apply]
    obtain ⟨m, hm⟩ := eigPick_head_some (e := L.eig3 1) (P := fun w => |w - 1| < eigTol) (i := i) (by rw [hi]; simpa using eigTol_pos)
    refine ⟨(dehom v).map fun q => (1, q, some (byNorm m)), ?_, ?_, ?_⟩
    · unfold scaleFrom
      simp only [htr]
      rw [hup, hm, hv]
    · intro q hq
      obtain ⟨q', hq', rfl⟩ := Option.map_eq_some_iff.1 hq
      exact scale_one _ _
    · intro h h0
      rcases h with h | h
      · have hw : ∀ i, |(L.eig4 1 i).1.re - 1| < eigTol → (L.eig4 1 i).1 = ((1 : ℝ) : ℂ) := by
          intro i _
          have := eigOf_quad (hL.four 1) (a := 2) (b := -1) (by rw [one_mul]; ext i j; simp; ring) i
          have h2 : ((L.eig4 1 i).1 - 1) * ((L.eig4 1 i).1 - 1) = 0 := by
            push_cast at this
            linear_combination this
          rw [sub_eq_zero.1 (mul_self_eq_zero.1 h2)]; simp
        obtain ⟨q, hq⟩ := finite_last hL hv hw (by simpa using h)
        rw [hq] at h0
        simp at h0
      · exact h.2 rfl
  cases d with
  | none =>
    obtain ⟨o', ho'⟩ : ∃ o', o' = o.getD 0 := ⟨_, rfl⟩
    obtain ⟨M, hM⟩ : ∃ M, M = scaleMatrix f o none := ⟨_, rfl⟩
    have hMe := hM
    rw [scale_uniform, ← ho'] at hMe
    rw [← hM]
    have hup : upper M = f • (1 : Matrix (Fin 3) (Fin 3) ℝ) := by
      rw [hMe]
      ext i j
      fin_cases i <;> fin_cases j <;> simp [upper]
    have htr : (upper M).trace - 2 = 3 * f - 2 := by
      rw [hup, Matrix.trace_smul, Matrix.trace_one, Fintype.card_fin, smul_eq_mul]; push_cast; ring
    have hno : (eigPick (L.eig3 (upper M)) fun w => |w - (3 * f - 2)| < eigTol).head? = none := by
      rcases hh : (eigPick (L.eig3 (upper M)) fun w => |w - (3 * f - 2)| < eigTol).head? with _ | v
      · rfl
      · obtain ⟨i, hi, -⟩ := eigPick_head hh
        have := eigOf_quad (hL.three (upper M)) (a := 2 * f) (b := -f ^ 2) (by rw [hup]; ext i j; simp [Matrix.mul_apply, Matrix.one_apply]; split_ifs <;> ring) i
        have h2 : ((L.eig3 (upper M) i).1 - (f : ℂ)) * ((L.eig3 (upper M) i).1 - (f : ℂ)) = 0 := by
          push_cast at this
          linear_combination this
        rw [sub_eq_zero.1 (mul_self_eq_zero.1 h2), Complex.ofReal_re, show f - (3 * f - 2) = 2 * (1 - f) by ring, abs_mul, abs_two] at hi
        linarith [abs_nonneg (1 - f)]
    obtain ⟨v, hv⟩ := fixed_some hL (M := M) (x := ![o' 0, o' 1, o' 2, 1]) (fun h => by simpa using congrFun h 3) fun k => by
      rw [hMe]
      fin_cases k <;> simp [Fin.sum_univ_four] <;> ring
    have hf1 : 1 - f ≠ 0 := fun h => by
      rw [h, abs_zero] at hf
      linarith [eigTol_pos]
    obtain ⟨j, hj, hvj⟩ := eigPick_last hv
    have hw : (L.eig4 M j).1 = ((1 : ℝ) : ℂ) := by
      have := eigOf_quad (hL.four M) (a := 1 + f) (b := -f) (by
        rw [hMe]
        ext i j
        fin_cases i <;> fin_cases j <;> simp [Matrix.mul_apply, Fin.sum_univ_four, Matrix.one_apply] <;> ring) j
      have h2 : ((L.eig4 M j).1 - ((1 : ℝ) : ℂ)) * ((L.eig4 M j).1 - (f : ℂ)) = 0 := by
        push_cast at this ⊢
        linear_combination this
      rcases mul_eq_zero.1 h2 with h3 | h3
      · exact sub_eq_zero.1 h3
      · rw [sub_eq_zero.1 h3, Complex.ofReal_re, ← abs_neg, neg_sub] at hj
        linarith
    obtain ⟨hvec, hnorm⟩ := eigOf_real (hL.four M) hw
    have hx : ∀ k, ((L.eig4 M j).2 k).re = v k := fun k => by rw [hvj]
    simp only [hx] at hvec hnorm
    rw [hMe] at hvec
    have h0 := hvec 0
    have h1 := hvec 1
    have h2 := hvec 2
    simp [Fin.sum_univ_four] at h0 h1 h2
    have g0 : v 0 = v 3 * o' 0 := mul_left_cancel₀ hf1 (by linear_combination -h0)
    have g1 : v 1 = v 3 * o' 1 := mul_left_cancel₀ hf1 (by linear_combination -h1)
    have g2 : v 2 = v 3 * o' 2 := mul_left_cancel₀ hf1 (by linear_combination -h2)
    have h3 : v 3 ≠ 0 := by
      intro h3
      rw [Fin.sum_univ_four, g0, g1, g2, h3] at hnorm
      simp at hnorm
    obtain ⟨q, hq⟩ := dehom_ne h3
    refine ⟨(dehom v).map fun q => (f, q, none), ?_, ?_, ?_⟩
    · unfold scaleFrom
      simp only [htr]
      rw [hno, hv]
      simp only
      congr 2
      funext q
      congr 1
      ring
    · intro r hr
      obtain ⟨q', hq', rfl⟩ := Option.map_eq_some_iff.1 hr
      obtain ⟨-, hq2⟩ := dehom_some hq'
      have e : q' = o' := by
        funext a
        refine mul_left_cancel₀ h3 ?_
        rw [← hq2]
        fin_cases a
        · exact g0
        · exact g1
        · exact g2
      rw [scale_uniform, hMe, e, Option.getD_some]
    · intro _ h0
      rw [hq] at h0
      simp at h0
  | some d =>
    have hd0 : d ≠ 0 := fun h => hd (by rw [h])
    obtain ⟨hu, -⟩ := unit_dot hd0
    rw [scale_along]
    obtain ⟨u, hu'⟩ : ∃ u, u = unitVector d := ⟨_, rfl⟩
    rw [← hu'] at hu ⊢
    have hδ : dot3 (fun a => (1 - f) * u a) u = 1 - f := by
      simp only [dot3] at hu ⊢
      linear_combination (1 - f) * hu
    have hd : (fun a => (1 - f) * u a) ≠ 0 := fun h => by
      rw [h] at hδ
      rw [← hδ] at hf
      simp [dot3] at hf
      linarith [eigTol_pos]
    have htol : eigTol ≤ |dot3 (fun a => (1 - f) * u a) u| := by rw [hδ]; exact hf
    have htr := along_trace (fun a => (1 - f) * u a) u (dot3 (o.getD 0) u)
    obtain ⟨m, hm1, hm2, k, hm3⟩ := along_direction (c := dot3 (o.getD 0) u) hL hd htol
    obtain ⟨v, hv1, hv2, hv3⟩ := along_fixed (c := dot3 (o.getD 0) u) hL hd hu (Or.inr htol)
    rw [hδ, show 1 - (1 - f) = f by ring] at hm1
    rw [hδ, show 3 - (1 - f) = f + 2 by ring] at htr
    refine ⟨(dehom v).map fun q => (f, q, some m), ?_, ?_, ?_⟩
    · unfold scaleFrom
      simp only [htr, show f + 2 - 2 = f by ring]
      rw [hm1, hv1]
      simp only [byNorm_of_dot hm2]
    · intro r hr
      obtain ⟨q, hq, rfl⟩ := Option.map_eq_some_iff.1 hr
      have hp := hv2 q hq
      simp only
      rw [scale_along, unitVector_of_dot hm2, Option.getD_some]
      have hk : (k * (1 - f)) * (k * (1 - f)) = 1 := by
        simp only [dot3, hm3] at hm2 hu
        linear_combination hm2 - k ^ 2 * (1 - f) ^ 2 * hu
      have hmm : m = fun a => k * (1 - f) * u a := by funext a; rw [hm3]; ring
      have e1 : (fun a => (1 - f) * m a) = fun a => k * (1 - f) * ((1 - f) * u a) := by funext a; rw [hmm]; ring
      have e2 : dot3 q m = k * (1 - f) * dot3 (o.getD 0) u := by
        rw [← hp, hmm]; simp only [dot3]; ring
      rw [e1, e2, hmm]
      exact along_scaled hk
    · intro h h0
      rcases h with h | h
      · obtain ⟨q, hq⟩ := hv3 h
        rw [hq] at h0
        simp at h0
      · simp at h

/-! ### projections -/

theorem projection_along (p n d : Fin 3 → ℝ) (b : Bool) : projectionMatrix p n (some d) none b =
    along (fun a => d a / dot3 d (unitVector n)) (unitVector n) (dot3 p (unitVector n)) := by
  unfold projectionMatrix along
  simp only [vdot_three]
  congr 1
  · funext a b; ring
  · funext a; ring

theorem projection_orthogonal (p n : Fin 3 → ℝ) (hn : n ≠ 0) (b : Bool) : projectionMatrix p n none none b =
    projectionMatrix p n (some (unitVector n)) none b := by
  obtain ⟨hu, -⟩ := unit_dot hn
  unfold projectionMatrix
  simp only [vdot_three, hu, div_one]
  congr 1
  funext a; ring

/-- C106: `projection_from_matrix` of a parallel projection raises no exception, and what it gives makes the same matrix.  Without
direction the projection is along the normal. -/
theorem c106_parallel (L : EigLib) (hL : EigOk L) (p n : Fin 3 → ℝ) (d : Option (Fin 3 → ℝ)) (hn : n ≠ 0)
    (hd : ∀ e, d = some e → dot3 e (unitVector n) ≠ 0) (b : Bool) :
    ∃ r, projectionFrom L (projectionMatrix p n d none b) false = .ok r ∧
      (∀ q, r = some q → projectionMatrix q.point q.normal q.direction q.perspective q.pseudo = projectionMatrix p n d none b) ∧
      (Finite4 L (projectionMatrix p n d none b) 1 → r ≠ none) := by
  obtain ⟨hu, -⟩ := unit_dot hn
  have key : ∀ e, dot3 e (unitVector n) ≠ 0 → ∃ r, projectionFrom L (projectionMatrix p n (some e) none b) false = .ok r ∧
      (∀ q, r = some q → projectionMatrix q.point q.normal q.direction q.perspective q.pseudo = projectionMatrix p n (some e) none b) ∧
      (Finite4 L (projectionMatrix p n (some e) none b) 1 → r ≠ none) := by
    intro e he
    rw [projection_along]
    obtain ⟨u, hu'⟩ : ∃ u, u = unitVector n := ⟨_, rfl⟩
    rw [← hu'] at hu he ⊢
    obtain ⟨g, hg⟩ : ∃ g : Fin 3 → ℝ, g = fun a => e a / dot3 e u := ⟨_, rfl⟩
    rw [← hg]
    have hδ : dot3 g u = 1 := by
      rw [hg]
      simp only [dot3] at he ⊢
      field_simp
    have hg0 : g ≠ 0 := fun h => by
      rw [h] at hδ
      simp [dot3] at hδ
    have htol : eigTol ≤ |dot3 g u| := by rw [hδ, abs_one]; linarith [eigTol_lt]
    obtain ⟨m, hm1, hm2, k, hm3⟩ := along_direction (c := dot3 p u) hL hg0 htol
    obtain ⟨l, hl1, hl2, k', hl3⟩ := along_normal (c := dot3 p u) hL hu htol
    obtain ⟨v, hv1, hv2, hv3⟩ := along_fixed (c := dot3 p u) hL hg0 hu (Or.inr htol)
    have hP : (fun w : ℝ => |w - (1 - dot3 g u)| < eigTol) = fun w => |w| < eigTol := by
      funext w
      rw [hδ]
      norm_num
    rw [hP] at hm1 hl1
    refine ⟨(dehom v).map fun q => ⟨q, l, some m, none, false⟩, ?_, ?_, ?_⟩
    · unfold projectionFrom
      simp only [Bool.false_eq_true, if_false, hv1, hm1, hl1, byNorm_of_dot hm2, byNorm_of_dot hl2]
    · intro q hq
      obtain ⟨q', hq', rfl⟩ := Option.map_eq_some_iff.1 hq
      have hp := hv2 q' hq'
      simp only
      rw [projection_along, unitVector_of_dot hl2]
      have hk0 : k ≠ 0 := fun h => by
        simp only [dot3, hm3, h] at hm2
        simp at hm2
      have hk' : k' * k' = 1 := by
        simp only [dot3, hl3] at hl2 hu
        linear_combination hl2 - k' ^ 2 * hu
      have hk0' : k' ≠ 0 := fun h => by simp [h] at hk'
      have hs : dot3 m l = k * k' := by
        have : dot3 m l = k * k' * dot3 g u := by simp only [dot3, hm3, hl3]; ring
        rw [this, hδ, mul_one]
      have e1 : (fun a => m a / dot3 m l) = fun a => k' * g a := by
        funext a
        rw [hs, hm3, div_eq_iff (mul_ne_zero hk0 hk0')]
        linear_combination -(k * g a) * hk'
      have e2 : dot3 q' l = k' * dot3 p u := by
        rw [← hp]; simp only [dot3, hl3]; ring
      have e3 : l = fun a => k' * u a := funext hl3
      rw [e1, e2, e3]
      exact along_scaled hk'
    · intro hf h0
      obtain ⟨q, hq⟩ := hv3 hf
      rw [hq] at h0
      simp at h0
  cases d with
  | some e => exact key e (hd e rfl)
  | none =>
    rw [projection_orthogonal p n hn]
    exact key (unitVector n) (by rw [hu]; exact one_ne_zero)

/-! ### perspective projections -/

theorem persp_apply (p n q : Fin 3 → ℝ) (d : Option (Fin 3 → ℝ)) (pseudo : Bool) (hn : n ≠ 0) : ∃ u k : Fin 3 → ℝ, ∃ c g : ℝ,
    u = unitVector n ∧ dot3 u u = 1 ∧ c = dot3 q u - dot3 p u ∧ (k = if pseudo then q + u else q) ∧ (g = if pseudo then 1 else 0) ∧
    dot3 k u = dot3 q u + g ∧
    projectionMatrix p n d (some q) pseudo =
      !![c - k 0 * u 0, -(k 0 * u 1), -(k 0 * u 2), dot3 p u * k 0; -(k 1 * u 0), c - k 1 * u 1, -(k 1 * u 2), dot3 p u * k 1;
        -(k 2 * u 0), -(k 2 * u 1), c - k 2 * u 2, dot3 p u * k 2; -u 0, -u 1, -u 2, dot3 q u] := by
  obtain ⟨hu, -⟩ := unit_dot hn
  refine ⟨unitVector n, _, _, _, rfl, hu, rfl, rfl, rfl, ?_, ?_⟩
  · simp only [dot3] at hu
    cases pseudo
    · simp
    · simp only [dot3, if_true, Pi.add_apply]; linear_combination hu
  · obtain ⟨u, hu'⟩ : ∃ u, u = unitVector n := ⟨_, rfl⟩
    unfold projectionMatrix
    simp only [← hu', vdot_three, block4_apply]
    have hc : dot3 (fun a => q a - p a) u = dot3 q u - dot3 p u := by simp only [dot3]; ring
    rw [hc]
    cases pseudo
    · ext i j
      fin_cases i <;> fin_cases j <;> simp
    · ext i j
      fin_cases i <;> fin_cases j <;> simp <;> ring

/-- the equation of a perspective projection -/
theorem persp_quad {u k : Fin 3 → ℝ} {c g P Q : ℝ} (hc : c = Q - P) (hk : dot3 k u = Q + g) (M : Matrix (Fin 4) (Fin 4) ℝ)
    (hM : M = !![c - k 0 * u 0, -(k 0 * u 1), -(k 0 * u 2), P * k 0; -(k 1 * u 0), c - k 1 * u 1, -(k 1 * u 2), P * k 1;
        -(k 2 * u 0), -(k 2 * u 1), c - k 2 * u 2, P * k 2; -u 0, -u 1, -u 2, Q]) :
    M * M = (c - g) • M + (c * g) • (1 : Matrix (Fin 4) (Fin 4) ℝ) := by
  rw [hM]
  simp only [dot3] at hk
  have hQ : Q = c + P := by rw [hc]; ring
  have hg : g = k 0 * u 0 + k 1 * u 1 + k 2 * u 2 - c - P := by rw [hk, hc]; ring
  rw [hg, hQ]
  ext i j
  fin_cases i <;> fin_cases j <;>
    simp [Matrix.mul_apply, Fin.sum_univ_four, Matrix.one_apply] <;> ring

theorem persp_root {c g : ℝ} {w : ℂ} (h : w * w = ((c - g : ℝ) : ℂ) * w + ((c * g : ℝ) : ℂ)) : w = (c : ℂ) ∨ w = ((-g : ℝ) : ℂ) := by
  have : (w - c) * (w - (-g : ℝ)) = 0 := by
    push_cast at h ⊢
    linear_combination h
  rcases mul_eq_zero.1 this with h1 | h1
  · left; exact sub_eq_zero.1 h1
  · right; exact sub_eq_zero.1 h1

/-- the last index that is found -/
theorem eigPick_last4 {e : Eigen 4} {P : ℝ → Prop} {v : Fin 4 → ℝ} (h : (eigPick e P).getLast? = some v) :
    ∃ i, P (e i).1.re ∧ (∀ j, i < j → ¬ P (e j).1.re) ∧ v = fun k => ((e i).2 k).re := by
  have hl : List.finRange 4 = [0, 1, 2, 3] := rfl
  unfold eigPick at h
  rw [hl] at h
  have h4 : ∀ j : Fin 4, j = 0 ∨ j = 1 ∨ j = 2 ∨ j = 3 := by decide
  by_cases h3 : P (e 3).1.re
  · refine ⟨3, h3, fun j hj => absurd hj (by omega), ?_⟩
    by_cases h0 : P (e 0).1.re <;> by_cases h1 : P (e 1).1.re <;> by_cases h2 : P (e 2).1.re <;>
      simp [h0, h1, h2, h3] at h <;> exact h.symm
  by_cases h2 : P (e 2).1.re
  · refine ⟨2, h2, fun j hj => ?_, ?_⟩
    · rcases h4 j with rfl | rfl | rfl | rfl
      · exact absurd hj (by decide)
      · exact absurd hj (by decide)
      · exact absurd hj (by decide)
      · exact h3
    · by_cases h0 : P (e 0).1.re <;> by_cases h1 : P (e 1).1.re <;> simp [h0, h1, h2, h3] at h <;> exact h.symm
  by_cases h1 : P (e 1).1.re
  · refine ⟨1, h1, fun j hj => ?_, ?_⟩
    · rcases h4 j with rfl | rfl | rfl | rfl
      · exact absurd hj (by decide)
      · exact absurd hj (by decide)
      · exact h2
      · exact h3
    · by_cases h0 : P (e 0).1.re <;> simp [h0, h1, h2, h3] at h <;> exact h.symm
  by_cases h0 : P (e 0).1.re
  · refine ⟨0, h0, fun j hj => ?_, ?_⟩
    · rcases h4 j with rfl | rfl | rfl | rfl
      · exact absurd hj (by decide)
      · exact h1
      · exact h2
      · exact h3
    · simp [h0, h1, h2, h3] at h; exact h.symm
  · simp [h0, h1, h2, h3] at h

/-- C106: `projection_from_matrix` of a perspective projection raises no exception, and what it gives makes the same matrix, if the plane
does not contain the origin and the distance of the perspective point from it is neither 0 nor, without `pseudo`, 1 (up to 1e-8).  With `pseudo` the last
eigenvalue that `eig` returns and that is not zero must be this distance. -/
theorem c106_perspective (L : EigLib) (hL : EigOk L) (p n q : Fin 3 → ℝ) (d : Option (Fin 3 → ℝ)) (pseudo : Bool) (hn : n ≠ 0)
    (h0 : dot3 p (unitVector n) ≠ 0) (c : ℝ) (hc : c = dot3 q (unitVector n) - dot3 p (unitVector n)) (hc0 : eigTol < |c|)
    (hc1 : pseudo = false → eigTol ≤ |c - 1|)
    (hlast : pseudo = true → ∀ i, (∀ j, i < j → |(L.eig4 (projectionMatrix p n d (some q) pseudo) j).1.re| ≤ eigTol) →
      eigTol < |(L.eig4 (projectionMatrix p n d (some q) pseudo) i).1.re| → (L.eig4 (projectionMatrix p n d (some q) pseudo) i).1 = (c : ℂ)) :
    ∃ r, projectionFrom L (projectionMatrix p n d (some q) pseudo) pseudo = .ok r ∧
      (∀ s, r = some s → projectionMatrix s.point s.normal s.direction s.perspective s.pseudo = projectionMatrix p n d (some q) pseudo) ∧
      (Finite4 L (projectionMatrix p n d (some q) pseudo) (c : ℂ) → r ≠ none) := by
  obtain ⟨u, k, c', g, hu', hu, hc', hk, hg, hku, hM⟩ := persp_apply p n q d pseudo hn
  have hcc : c' = c := by rw [hc', hu', hc]
  subst hcc
  rw [← hu'] at h0
  obtain ⟨M, hMM⟩ : ∃ M, M = projectionMatrix p n d (some q) pseudo := ⟨_, rfl⟩
  rw [← hMM] at hM hlast ⊢
  have e4 := hL.four M
  have hroot := fun i => persp_root (eigOf_quad e4 (persp_quad hc' hku M hM) i)
  have hex : ∃ i, (L.eig4 M i).1 = (c' : ℂ) := by
    refine eigOf_mem e4 (x := ![dot3 p u * u 0, dot3 p u * u 1, dot3 p u * u 2, 1]) (fun h => by simpa using congrFun h 3) fun a => ?_
    rw [hM]
    have hu2 : u 0 * u 0 + u 1 * u 1 + u 2 * u 2 = 1 := hu
    fin_cases a <;> simp [Fin.sum_univ_four]
    · linear_combination -(dot3 p u * k 0) * hu2
    · linear_combination -(dot3 p u * k 1) * hu2
    · linear_combination -(dot3 p u * k 2) * hu2
    · linear_combination -(dot3 p u) * hu2 - hc'
  obtain ⟨i, hi⟩ := hex
  obtain ⟨v, hv⟩ := eigPick_last_some (e := L.eig4 M) (P := fun w => eigTol < |w|) (i := i) (by rw [hi]; simpa using hc0)
  obtain ⟨j, hj, hjl, hvj⟩ := eigPick_last4 hv
  have hw : (L.eig4 M j).1 = (c' : ℂ) := by
    cases hp : pseudo
    · rcases hroot j with h | h
      · exact h
      · rw [hp] at hg
        simp only [Bool.false_eq_true, if_false] at hg
        rw [h, hg] at hj
        simp at hj
        linarith [eigTol_pos]
    · exact hlast hp j (fun l hl => not_lt.1 (hjl l hl)) hj
  have hnone : (if pseudo then none else (eigPick (L.eig4 M) fun w => |w - 1| < eigTol).getLast?) = none := by
    cases hp : pseudo
    · simp only [Bool.false_eq_true, if_false]
      rcases hl : (eigPick (L.eig4 M) fun w => |w - 1| < eigTol).getLast? with _ | x
      · rfl
      · obtain ⟨m, hm, -⟩ := eigPick_last hl
        rw [hp] at hg
        simp only [Bool.false_eq_true, if_false] at hg
        rcases hroot m with h | h
        · rw [h, Complex.ofReal_re] at hm
          linarith [hc1 hp]
        · rw [h, hg] at hm
          simp at hm
          linarith [eigTol_lt]
    · simp
  obtain ⟨hvec, -⟩ := eigOf_real e4 hw
  have hx : ∀ a, ((L.eig4 M j).2 a).re = v a := fun a => by rw [hvj]
  simp only [hx] at hvec
  have hnv : (fun a : Fin 3 => -M 3 a.castSucc) = u := by
    funext a
    rw [hM]
    fin_cases a <;> simp
  have hplane : ∀ x, dehom v = some x → dot3 x u = dot3 p u := by
    intro x hx'
    obtain ⟨h3, hx'⟩ := dehom_some hx'
    have g0 : v 0 = v 3 * x 0 := hx' 0
    have g1 : v 1 = v 3 * x 1 := hx' 1
    have g2 : v 2 = v 3 * x 2 := hx' 2
    have h := hvec 3
    rw [hM] at h
    simp [Fin.sum_univ_four] at h
    rw [g0, g1, g2] at h
    refine mul_left_cancel₀ h3 ?_
    have e : dot3 x u = x 0 * u 0 + x 1 * u 1 + x 2 * u 2 := rfl
    rw [e]
    linear_combination -h - v 3 * hc'
  refine ⟨(dehom v).map fun x => ⟨x, u, none, some q, pseudo⟩, ?_, ?_, ?_⟩
  · unfold projectionFrom
    simp only [hnone, hv, hnv]
    rcases hd : dehom v with _ | x
    · rfl
    · have hp0 := hplane x hd
      simp only [Option.bind_some, Option.map_some, vdot_three, hp0, if_neg h0]
      congr 3
      have : (fun a : Fin 3 => M a.castSucc 3 / dot3 p u - if pseudo then -M 3 a.castSucc else 0) = q := by
        funext a
        rw [show -M 3 a.castSucc = u a from congrFun hnv a]
        have : M a.castSucc 3 = dot3 p u * k a := by
          rw [hM]
          fin_cases a <;> simp
        rw [this, mul_div_cancel_left₀ _ h0, hk]
        cases pseudo <;> simp
      rw [this]
  · intro s hs
    obtain ⟨x, hx', rfl⟩ := Option.map_eq_some_iff.1 hs
    have hp0 := hplane x hx'
    simp only
    have hu1 := unitVector_of_dot hu
    have hu0 : u ≠ 0 := fun h => by
      rw [h] at hu
      simp [dot3] at hu
    obtain ⟨u2, k2, c2, g2, hu2, -, hc2, hk2, -, -, hM2⟩ := persp_apply x u q none pseudo hu0
    rw [hu1] at hu2
    subst hu2
    rw [hM2, hM, hk2, hk, hc2, hc', hp0]
  · intro hf hr
    obtain ⟨x, hx'⟩ : ∃ x, dehom v = some x := by
      refine dehom_ne ?_
      have := hf j hw
      rw [hvj]
      intro h3
      exact this (Complex.ext h3 (e4.real j (by rw [hw]; simp) 3))
    rw [hx'] at hr
    simp at hr

/-! ### rotations -/

theorem core_apply (θ : ℝ) (u : Fin 3 → ℝ) : rotationCore θ u =
    !![Real.cos θ + u 0 * u 0 * (1 - Real.cos θ), u 0 * u 1 * (1 - Real.cos θ) - u 2 * Real.sin θ, u 0 * u 2 * (1 - Real.cos θ) + u 1 * Real.sin θ;
      u 1 * u 0 * (1 - Real.cos θ) + u 2 * Real.sin θ, Real.cos θ + u 1 * u 1 * (1 - Real.cos θ), u 1 * u 2 * (1 - Real.cos θ) - u 0 * Real.sin θ;
      u 2 * u 0 * (1 - Real.cos θ) - u 1 * Real.sin θ, u 2 * u 1 * (1 - Real.cos θ) + u 0 * Real.sin θ,
        Real.cos θ + u 2 * u 2 * (1 - Real.cos θ)] := by
  unfold rotationCore
  ext i j
  fin_cases i <;> fin_cases j <;> simp [-mul_eq_mul_right_iff, -mul_eq_mul_left_iff] <;> ring

theorem affine_mk (R : Matrix (Fin 3) (Fin 3) ℝ) (t : Fin 3 → ℝ) : affine R t =
    !![R 0 0, R 0 1, R 0 2, t 0; R 1 0, R 1 1, R 1 2, t 1; R 2 0, R 2 1, R 2 2, t 2; 0, 0, 0, 1] := affine_apply R t

theorem core_transpose (θ : ℝ) (u : Fin 3 → ℝ) : (rotationCore θ u).transpose = rotationCore (-θ) u := by
  rw [core_apply, core_apply, Real.cos_neg, Real.sin_neg]
  ext i j
  fin_cases i <;> fin_cases j <;> simp [-mul_eq_mul_right_iff, -mul_eq_mul_left_iff] <;> ring

/-- the eigenvalues of a rotation: one, or a number with the cosine as real part -/
theorem core_root {θ : ℝ} {u : Fin 3 → ℝ} (hu : dot3 u u = 1) {z : Fin 3 → ℂ} {w : ℂ} (hz : z ≠ 0)
    (h : ∀ k, ∑ j, (rotationCore θ u k j : ℂ) * z j = w * z k) : w = ((1 : ℝ) : ℂ) ∨ w.re = Real.cos θ := by
  rw [core_apply] at h
  obtain ⟨c, hc⟩ : ∃ c : ℝ, c = Real.cos θ := ⟨_, rfl⟩
  obtain ⟨s, hs⟩ : ∃ s : ℝ, s = Real.sin θ := ⟨_, rfl⟩
  have hcs : c * c + s * s = 1 := by rw [hc, hs]; nlinarith [Real.sin_sq_add_cos_sq θ]
  rw [← hc, ← hs] at h
  rw [← hc]
  have hu' : (u 0 : ℂ) * u 0 + u 1 * u 1 + u 2 * u 2 = 1 := by
    simp only [dot3] at hu
    exact_mod_cast congrArg (fun x : ℝ => (x : ℂ)) hu
  have h0 := h 0
  have h1 := h 1
  have h2 := h 2
  simp [Fin.sum_univ_three] at h0 h1 h2
  clear h
  generalize (u 0 : ℂ) = a at *
  generalize (u 1 : ℂ) = b at *
  generalize (u 2 : ℂ) = d at *
  by_cases hw : w = 1
  · left; rw [hw]; simp
  right
  have hd : a * z 0 + b * z 1 + d * z 2 = 0 := by
    have : (w - 1) * (a * z 0 + b * z 1 + d * z 2) = 0 := by
      linear_combination -(a * h0) - b * h1 - d * h2 + (1 - (c : ℂ)) * (a * z 0 + b * z 1 + d * z 2) * hu'
    exact (mul_eq_zero.1 this).resolve_left (sub_ne_zero.2 hw)
  have k0 : s * (b * z 2 - d * z 1) = (w - c) * z 0 := by linear_combination h0 - a * (1 - (c : ℂ)) * hd
  have k1 : s * (d * z 0 - a * z 2) = (w - c) * z 1 := by linear_combination h1 - b * (1 - (c : ℂ)) * hd
  have k2 : s * (a * z 1 - b * z 0) = (w - c) * z 2 := by linear_combination h2 - d * (1 - (c : ℂ)) * hd
  have hsq : (w - c) * (w - c) = -(s * s : ℂ) := by
    obtain ⟨i, hi⟩ := Function.ne_iff.1 hz
    simp only [Pi.zero_apply] at hi
    refine mul_right_cancel₀ hi ?_
    fin_cases i
    · show _ * z 0 = _ * z 0
      linear_combination -((w - c) * k0) - s * b * k2 + s * d * k1 - s * s * z 0 * hu' + s * s * a * hd
    · show _ * z 1 = _ * z 1
      linear_combination -((w - c) * k1) - s * d * k0 + s * a * k2 - s * s * z 1 * hu' + s * s * b * hd
    · show _ * z 2 = _ * z 2
      linear_combination -((w - c) * k2) - s * a * k1 + s * b * k0 - s * s * z 2 * hu' + s * s * d * hd
  have hre := congrArg Complex.re hsq
  have him := congrArg Complex.im hsq
  simp at hre him
  have him : 2 * ((w.re - c) * w.im) = 0 := by linarith
  rcases mul_eq_zero.1 ((mul_eq_zero.1 him).resolve_left two_ne_zero) with h | h
  · linarith
  · rw [h] at hre
    have : (w.re - c) * (w.re - c) ≤ 0 := by nlinarith [mul_self_nonneg s]
    have := mul_self_eq_zero.1 (le_antisymm this (mul_self_nonneg _))
    linarith

theorem core_root4 {θ : ℝ} {u t : Fin 3 → ℝ} (hu : dot3 u u = 1) {e : Eigen 4} (he : EigOf (affine (rotationCore θ u) t) e) (i : Fin 4) :
    (e i).1 = ((1 : ℝ) : ℂ) ∨ (e i).1.re = Real.cos θ := by
  by_cases hw : (e i).1 = 1
  · left; rw [hw]; simp
  have hv := he.vector i
  rw [affine_mk] at hv
  have h3 := hv 3
  simp [Fin.sum_univ_four] at h3
  have h3 : (e i).2 3 = 0 := by
    have : ((e i).1 - 1) * (e i).2 3 = 0 := by linear_combination -h3
    exact (mul_eq_zero.1 this).resolve_left (sub_ne_zero.2 hw)
  refine core_root hu (z := fun a => (e i).2 a.castSucc) (fun h => eigOf_ne he i ?_) fun a => ?_
  · funext k
    refine Fin.lastCases ?_ (fun k => ?_) k
    · exact h3
    · exact congrFun h k
  · have := hv a.castSucc
    rw [Fin.sum_univ_four, h3] at this
    rw [Fin.sum_univ_three]
    fin_cases a <;> simpa using this

/-- the axis that is chosen -/
theorem core_axis {L : EigLib} (hL : EigOk L) {θ : ℝ} {u : Fin 3 → ℝ} (hu : dot3 u u = 1) (hθ : eigTol ≤ 1 - Real.cos θ) :
    ∃ m, (eigPick (L.eig3 (rotationCore θ u)) fun w => |w - 1| < eigTol).getLast? = some m ∧ dot3 m m = 1 ∧ ∃ k, ∀ a, m a = k * u a := by
  have e3 := hL.three (rotationCore θ u)
  have hu2 : u 0 * u 0 + u 1 * u 1 + u 2 * u 2 = 1 := hu
  have hex : ∃ i, (L.eig3 (rotationCore θ u) i).1 = ((1 : ℝ) : ℂ) := by
    refine eigOf_mem e3 (x := u) (fun h => ?_) fun k => ?_
    · rw [h] at hu; simp [dot3] at hu
    · rw [core_apply]
      fin_cases k <;> simp [Fin.sum_univ_three]
      · linear_combination (1 - Real.cos θ) * u 0 * hu2
      · linear_combination (1 - Real.cos θ) * u 1 * hu2
      · linear_combination (1 - Real.cos θ) * u 2 * hu2
  obtain ⟨i, hi⟩ := hex
  obtain ⟨m, hm⟩ := eigPick_last_some (e := L.eig3 (rotationCore θ u)) (P := fun w => |w - 1| < eigTol) (i := i)
    (by rw [hi]; simpa using eigTol_pos)
  refine ⟨m, hm, ?_⟩
  obtain ⟨j, hj, hmj⟩ := eigPick_last hm
  have hw : (L.eig3 (rotationCore θ u) j).1 = ((1 : ℝ) : ℂ) := by
    rcases core_root hu (eigOf_ne e3 j) (e3.vector j) with h | h
    · exact h
    · rw [h, abs_sub_comm, abs_of_nonneg (by linarith [Real.cos_le_one θ])] at hj
      linarith
  obtain ⟨hvec, hnorm⟩ := eigOf_real e3 hw
  have hx : ∀ k, ((L.eig3 (rotationCore θ u) j).2 k).re = m k := fun k => by rw [hmj]
  simp only [hx] at hvec hnorm
  rw [Fin.sum_univ_three] at hnorm
  refine ⟨hnorm, dot3 m u, ?_⟩
  have h0 := hvec 0
  have h1 := hvec 1
  have h2 := hvec 2
  rw [core_apply] at h0 h1 h2
  simp [Fin.sum_univ_three] at h0 h1 h2
  obtain ⟨r, hr⟩ : ∃ r : Fin 3 → ℝ, r = fun a => m a - dot3 m u * u a := ⟨_, rfl⟩
  have hc : (1 - Real.cos θ) ≠ 0 := by linarith [eigTol_pos]
  have hrr : r 0 * r 0 + r 1 * r 1 + r 2 * r 2 = 0 := by
    have hm0 : m 0 = r 0 + dot3 m u * u 0 := by rw [hr]; ring
    have hm1 : m 1 = r 1 + dot3 m u * u 1 := by rw [hr]; ring
    have hm2 : m 2 = r 2 + dot3 m u * u 2 := by rw [hr]; ring
    have hru : r 0 * u 0 + r 1 * u 1 + r 2 * u 2 = 0 := by
      rw [hr]
      simp only [dot3]
      linear_combination -(m 0 * u 0 + m 1 * u 1 + m 2 * u 2) * hu2
    generalize dot3 m u = g at *
    rw [hm0, hm1, hm2] at h0 h1 h2
    refine mul_left_cancel₀ hc ?_
    linear_combination -(r 0 * h0) - r 1 * h1 - r 2 * h2 + (1 - Real.cos θ) * (r 0 * u 0 + r 1 * u 1 + r 2 * u 2) * hru
      + (1 - Real.cos θ) * g * (u 0 * u 0 + u 1 * u 1 + u 2 * u 2 - 1) * hru
  have q0 : r 0 = 0 := mul_self_eq_zero.1 (by nlinarith [mul_self_nonneg (r 0), mul_self_nonneg (r 1), mul_self_nonneg (r 2)])
  have q1 : r 1 = 0 := mul_self_eq_zero.1 (by nlinarith [mul_self_nonneg (r 0), mul_self_nonneg (r 1), mul_self_nonneg (r 2)])
  have q2 : r 2 = 0 := mul_self_eq_zero.1 (by nlinarith [mul_self_nonneg (r 0), mul_self_nonneg (r 1), mul_self_nonneg (r 2)])
  rw [hr] at q0 q1 q2
  intro a
  fin_cases a
  · exact sub_eq_zero.1 q0
  · exact sub_eq_zero.1 q1
  · exact sub_eq_zero.1 q2

theorem rotation_affine (θ : ℝ) (d : Fin 3 → ℝ) (p : Option (Fin 3 → ℝ)) : rotationMatrix θ d p =
    affine (rotationCore θ (unitVector d)) fun a => (p.getD 0) a - ∑ i, rotationCore θ (unitVector d) a i * (p.getD 0) i := by
  unfold rotationMatrix
  cases p with
  | none => simp only [homog_affine]; congr 1; funext a; simp
  | some p => rfl

theorem upper_affine (R : Matrix (Fin 3) (Fin 3) ℝ) (t : Fin 3 → ℝ) : upper (affine R t) = R := by
  rw [affine_mk]
  ext i j
  fin_cases i <;> fin_cases j <;> rfl

/-- the angle that belongs to the chosen axis -/
theorem angleFrom_spec {θ : ℝ} {u m t : Fin 3 → ℝ} {k : ℝ} (hu : dot3 u u = 1) (hm : ∀ a, m a = k * u a) (hk : k * k = 1) :
    Real.cos (angleFrom (affine (rotationCore θ u) t) m) = Real.cos θ ∧ Real.sin (angleFrom (affine (rotationCore θ u) t) m) = k * Real.sin θ := by
  have hu2 : u 0 * u 0 + u 1 * u 1 + u 2 * u 2 = 1 := hu
  have hcos : ((upper (affine (rotationCore θ u) t)).trace - 1) / 2 = Real.cos θ := by
    rw [upper_affine, core_apply]
    simp [Matrix.trace_fin_three]
    linear_combination (1 - Real.cos θ) / 2 * hu2
  have hk0 : k ≠ 0 := fun h => by simp [h] at hk
  have h10 : affine (rotationCore θ u) t 1 0 = u 1 * u 0 * (1 - Real.cos θ) + u 2 * Real.sin θ := by rw [affine_mk, core_apply]; rfl
  have h02 : affine (rotationCore θ u) t 0 2 = u 0 * u 2 * (1 - Real.cos θ) + u 1 * Real.sin θ := by rw [affine_mk, core_apply]; rfl
  have h21 : affine (rotationCore θ u) t 2 1 = u 2 * u 1 * (1 - Real.cos θ) + u 0 * Real.sin θ := by rw [affine_mk, core_apply]; rfl
  have key : angleFrom (affine (rotationCore θ u) t) m = atan2 (k * Real.sin θ) (Real.cos θ) := by
    unfold angleFrom
    simp only [hcos, h10, h02, h21, hm]
    congr 1
    have ne : ∀ x : ℝ, eigTol < |k * x| → x ≠ 0 := fun x h h0 => by
      rw [h0] at h
      simp at h
      linarith [eigTol_pos]
    split_ifs with h2 h1
    · have := ne _ h2
      rw [div_eq_iff (mul_ne_zero hk0 this)]
      linear_combination (Real.cos θ - 1) * u 0 * u 1 * hk - u 2 * Real.sin θ * hk
    · have := ne _ h1
      rw [div_eq_iff (mul_ne_zero hk0 this)]
      linear_combination (Real.cos θ - 1) * u 0 * u 2 * hk - u 1 * Real.sin θ * hk
    · have hu0 : u 0 ≠ 0 := by
        intro h0
        have hkk : |k| = 1 := by
          have := abs_mul_abs_self k
          nlinarith [abs_nonneg k]
        rw [abs_mul, hkk, one_mul, not_lt] at h1 h2
        have l1 : u 1 * u 1 ≤ eigTol * eigTol := by
          rw [← abs_mul_abs_self (u 1)]; exact mul_le_mul h1 h1 (abs_nonneg _) eigTol_pos.le
        have l2 : u 2 * u 2 ≤ eigTol * eigTol := by
          rw [← abs_mul_abs_self (u 2)]; exact mul_le_mul h2 h2 (abs_nonneg _) eigTol_pos.le
        rw [h0] at hu2
        nlinarith [eigTol_pos, eigTol_lt]
      rw [div_eq_iff (mul_ne_zero hk0 hu0)]
      linear_combination (Real.cos θ - 1) * u 1 * u 2 * hk - u 0 * Real.sin θ * hk
  have h1 : Real.cos θ ^ 2 + (k * Real.sin θ) ^ 2 = 1 := by
    have := Real.sin_sq_add_cos_sq θ
    linear_combination this + Real.sin θ ^ 2 * hk
  rw [key, cos_atan2 _ _ (by rw [h1]; simp), sin_atan2, h1]
  simp

/-- C106: `rotation_from_matrix` of a rotation raises no exception, and what it gives makes the same matrix, unless the angle is so small
that its cosine is within 1e-8 of one without being one. -/
theorem c106_rotation (L : EigLib) (hL : EigOk L) (θ : ℝ) (hθ : Real.cos θ = 1 ∨ eigTol ≤ 1 - Real.cos θ) (d : Fin 3 → ℝ) (hd : d ≠ 0)
    (p : Option (Fin 3 → ℝ)) :
    ∃ r, rotationFrom L (rotationMatrix θ d p) = .ok r ∧ (∀ q, r = some q → rotationMatrix q.1 q.2.1 (some q.2.2) = rotationMatrix θ d p) ∧
      (Finite4 L (rotationMatrix θ d p) 1 → r ≠ none) := by
  obtain ⟨hu, -⟩ := unit_dot hd
  rw [rotation_affine]
  obtain ⟨u, hu'⟩ : ∃ u, u = unitVector d := ⟨_, rfl⟩
  rw [← hu'] at hu ⊢
  obtain ⟨p', hp'⟩ : ∃ p', p' = p.getD 0 := ⟨_, rfl⟩
  rw [← hp']
  obtain ⟨t, ht⟩ : ∃ t : Fin 3 → ℝ, t = fun a => p' a - ∑ i, rotationCore θ u a i * p' i := ⟨_, rfl⟩
  rw [← ht]
  -- the fixed point
  have e4 := hL.four (affine (rotationCore θ u) t)
  obtain ⟨v, hv⟩ := fixed_some hL (M := affine (rotationCore θ u) t) (x := ![p' 0, p' 1, p' 2, 1]) (fun h => by simpa using congrFun h 3) fun k => by
    rw [affine_mk, ht]
    fin_cases k <;> simp [Fin.sum_univ_four, Fin.sum_univ_three]
  have hw : ∀ i, |(L.eig4 (affine (rotationCore θ u) t) i).1.re - 1| < eigTol → (L.eig4 (affine (rotationCore θ u) t) i).1 = ((1 : ℝ) : ℂ) := by
    intro i hi
    rcases core_root4 hu e4 i with h | h
    · exact h
    · rw [h] at hi
      rcases hθ with h1 | h1
      · -- the identity
        have hs : Real.sin θ = 0 := by
          have := Real.sin_sq_add_cos_sq θ
          rw [h1] at this
          nlinarith
        have hone : affine (rotationCore θ u) t = 1 := by
          have hR : rotationCore θ u = 1 := by
            rw [core_apply, h1, hs]
            ext i j
            fin_cases i <;> fin_cases j <;> simp
          rw [ht, hR, affine_mk]
          ext i j
          fin_cases i <;> fin_cases j <;> simp [Fin.sum_univ_three]
        have := eigOf_quad e4 (a := 2) (b := -1) (by rw [hone, one_mul]; ext i j; simp; ring) i
        have h2 : ((L.eig4 (affine (rotationCore θ u) t) i).1 - 1) * ((L.eig4 (affine (rotationCore θ u) t) i).1 - 1) = 0 := by
          push_cast at this
          linear_combination this
        rw [sub_eq_zero.1 (mul_self_eq_zero.1 h2)]; simp
      · rw [abs_sub_comm, abs_of_nonneg (by linarith [Real.cos_le_one θ])] at hi
        linarith
  have hfix : ∀ x, dehom v = some x → ∀ a, x a - ∑ i, rotationCore θ u a i * x i = t a := by
    intro x hx a
    obtain ⟨h3, hx⟩ := dehom_some hx
    obtain ⟨j, hj, hvj⟩ := eigPick_last hv
    obtain ⟨hvec, -⟩ := eigOf_real e4 (hw j hj)
    have hvx : ∀ k, ((L.eig4 (affine (rotationCore θ u) t) j).2 k).re = v k := fun k => by rw [hvj]
    simp only [hvx] at hvec
    have g0 : v 0 = v 3 * x 0 := hx 0
    have g1 : v 1 = v 3 * x 1 := hx 1
    have g2 : v 2 = v 3 * x 2 := hx 2
    have h := hvec a.castSucc
    rw [affine_mk] at h
    refine mul_left_cancel₀ h3 ?_
    rw [Fin.sum_univ_three]
    fin_cases a <;> simp [Fin.sum_univ_four, -mul_eq_mul_right_iff, -mul_eq_mul_left_iff] at h ⊢ <;> rw [g0, g1, g2] at h <;>
      linear_combination -h
  -- the axis and the angle
  have hax : ∃ m, (eigPick (L.eig3 (upper (affine (rotationCore θ u) t)).transpose) fun w => |w - 1| < eigTol).getLast? = some m ∧
      rotationCore (angleFrom (affine (rotationCore θ u) t) m) (unitVector m) = rotationCore θ u := by
    rw [upper_affine, core_transpose]
    rcases hθ with h1 | h1
    · have hs : Real.sin θ = 0 := by
        have := Real.sin_sq_add_cos_sq θ
        rw [h1] at this
        nlinarith
      have hR : ∀ (φ : ℝ) (y : Fin 3 → ℝ), Real.cos φ = 1 → Real.sin φ = 0 → rotationCore φ y = 1 := by
        intro φ y hc hs
        rw [core_apply, hc, hs]
        ext i j
        fin_cases i <;> fin_cases j <;> simp
      rw [hR θ u h1 hs, hR (-θ) u (by rw [Real.cos_neg, h1]) (by rw [Real.sin_neg, hs, neg_zero])]
      obtain ⟨i, hi⟩ := eigOf_mem (hL.three 1) (w := 1) (x := ![1, 0, 0]) (fun h => by simpa using congrFun h 0) fun k => by
        simp [Matrix.one_apply]
      obtain ⟨m, hm⟩ := eigPick_last_some (e := L.eig3 1) (P := fun w => |w - 1| < eigTol) (i := i) (by rw [hi]; simpa using eigTol_pos)
      refine ⟨m, hm, ?_⟩
      have hang : angleFrom (affine 1 t) m = 0 := by
        have h1 : ((1 : Matrix (Fin 3) (Fin 3) ℝ).trace - 1) / 2 = 1 := by
          rw [Matrix.trace_one, Fintype.card_fin]; norm_num
        have h10 : affine 1 t 1 0 = 0 := by rw [affine_mk]; rfl
        have h02 : affine 1 t 0 2 = 0 := by rw [affine_mk]; rfl
        have h21 : affine 1 t 2 1 = 0 := by rw [affine_mk]; rfl
        unfold angleFrom
        simp only [upper_affine, h1, h10, h02, h21]
        simp [atan2]
        exact Complex.arg_one
      rw [hang]
      exact hR _ _ Real.cos_zero Real.sin_zero
    · obtain ⟨m, hm1, hm2, k, hm3⟩ := core_axis hL (θ := -θ) hu (by rw [Real.cos_neg]; exact h1)
      refine ⟨m, hm1, ?_⟩
      have hk : k * k = 1 := by
        simp only [dot3, hm3] at hm2 hu
        linear_combination hm2 - k ^ 2 * hu
      obtain ⟨a1, a2⟩ := angleFrom_spec (θ := θ) (t := t) hu hm3 hk
      rw [unitVector_of_dot hm2, core_apply (angleFrom _ _), a1, a2, hm3, hm3, hm3, core_apply]
      ext i j
      fin_cases i <;> fin_cases j <;> simp [-mul_eq_mul_right_iff, -mul_eq_mul_left_iff]
      · linear_combination u 0 * u 0 * (1 - Real.cos θ) * hk
      · linear_combination (u 0 * u 1 * (1 - Real.cos θ) - u 2 * Real.sin θ) * hk
      · linear_combination (u 0 * u 2 * (1 - Real.cos θ) + u 1 * Real.sin θ) * hk
      · linear_combination (u 0 * u 1 * (1 - Real.cos θ) + u 2 * Real.sin θ) * hk
      · linear_combination u 1 * u 1 * (1 - Real.cos θ) * hk
      · linear_combination (u 1 * u 2 * (1 - Real.cos θ) - u 0 * Real.sin θ) * hk
      · linear_combination (u 0 * u 2 * (1 - Real.cos θ) - u 1 * Real.sin θ) * hk
      · linear_combination (u 1 * u 2 * (1 - Real.cos θ) + u 0 * Real.sin θ) * hk
      · linear_combination u 2 * u 2 * (1 - Real.cos θ) * hk
  obtain ⟨m, hm1, hm2⟩ := hax
  refine ⟨(dehom v).map fun x => (angleFrom (affine (rotationCore θ u) t) m, m, x), ?_, ?_, ?_⟩
  · unfold rotationFrom
    rw [hm1, hv]
  · intro q hq
    obtain ⟨x, hx, rfl⟩ := Option.map_eq_some_iff.1 hq
    rw [rotation_affine]
    simp only [Option.getD_some, hm2]
    congr 1
    funext a
    exact hfix x hx a
  · intro hf h0
    obtain ⟨x, hx⟩ := finite_last hL hv hw (by simpa using hf)
    rw [hx] at h0
    simp at h0

end Electrode
