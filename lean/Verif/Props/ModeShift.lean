import Verif.Props.Expansion
import Verif.Props.RingTrap
import Verif.Props.Analyze
import Verif.Props.Ions
import Verif.Props.RoundedSystem
import Verif.Spec.ModeShift
import Verif.Model.RoundedModes
import Mathlib.LinearAlgebra.Dimension.Constructions

/-
C137: small changes of the potential change the curvatures and directions of the modes only a little.
-/
namespace Electrode
open Spec Set

namespace ModeShift

/-- orthonormal eigenvectors `e j` of the matrix `A` with ascending eigenvalues `w j` -/
structure Eigs (A : Fin 3 → Fin 3 → ℝ) (w : Fin 3 → ℝ) (e : Fin 3 → Fin 3 → ℝ) : Prop where
  mono : Monotone w
  vec : ∀ j i, ∑ k, A i k * e j k = w j * e j i
  ortho : ∀ j j', ∑ i, e j i * e j' i = if j = j' then 1 else 0

/-- scalar product -/
def ip (u v : Fin 3 → ℝ) : ℝ := ∑ i, u i * v i

/-- `v A v` -/
def qf (A : Fin 3 → Fin 3 → ℝ) (v : Fin 3 → ℝ) : ℝ := ∑ i, ∑ k, v i * A i k * v k

section
variable {A : Fin 3 → Fin 3 → ℝ} {w : Fin 3 → ℝ} {e : Fin 3 → Fin 3 → ℝ}

theorem Eigs.expand (h : Eigs A w e) (v : Fin 3 → ℝ) (a : Fin 3) : v a = ∑ j, e j a * ip (e j) v := by
  let P : Matrix (Fin 3) (Fin 3) ℝ := fun i j => e j i
  have hP : P.transpose * P = 1 := by
    ext i j
    rw [Matrix.mul_apply, Matrix.one_apply]
    exact h.ortho i j
  have hP' : P * P.transpose = 1 := mul_eq_one_comm.1 hP
  have := congrFun (congrArg (fun Q : Matrix (Fin 3) (Fin 3) ℝ => Q.mulVec v) hP') a
  simp only [Matrix.one_mulVec] at this
  rw [← this, ← Matrix.mulVec_mulVec]
  rfl

theorem Eigs.norm (h : Eigs A w e) (v : Fin 3 → ℝ) : ip v v = ∑ j, ip (e j) v ^ 2 := by
  have h1 : ∀ a, v a * v a = ∑ j, e j a * v a * ip (e j) v := fun a => by
    nth_rewrite 2 [h.expand v a]
    rw [Finset.mul_sum]
    exact Finset.sum_congr rfl fun j _ => by ring
  unfold ip
  simp only [h1]
  rw [Finset.sum_comm]
  refine Finset.sum_congr rfl fun j _ => ?_
  rw [← Finset.sum_mul, sq]
  rfl

theorem Eigs.apply (h : Eigs A w e) (v : Fin 3 → ℝ) (i : Fin 3) : ∑ k, A i k * v k = ∑ j, w j * ip (e j) v * e j i := by
  have h1 : ∀ k, A i k * v k = ∑ j, ip (e j) v * (A i k * e j k) := fun k => by
    conv_lhs => rw [h.expand v k]
    rw [Finset.mul_sum]
    exact Finset.sum_congr rfl fun j _ => by ring
  simp only [h1]
  rw [Finset.sum_comm]
  refine Finset.sum_congr rfl fun j _ => ?_
  rw [← Finset.mul_sum, h.vec]
  ring

theorem Eigs.quad (h : Eigs A w e) (v : Fin 3 → ℝ) : qf A v = ∑ j, w j * ip (e j) v ^ 2 := by
  have h1 : ∀ i, ∑ k, v i * A i k * v k = ∑ j, w j * ip (e j) v * (e j i * v i) := fun i => by
    simp only [mul_assoc]
    rw [← Finset.mul_sum, h.apply v i, Finset.mul_sum]
    exact Finset.sum_congr rfl fun j _ => by ring
  unfold qf
  simp only [h1]
  rw [Finset.sum_comm]
  refine Finset.sum_congr rfl fun j _ => ?_
  rw [← Finset.mul_sum]
  show _ * ip (e j) v = _
  ring

/-- a vector without components along the eigenvectors above `k` of one matrix and below `k` of another -/
theorem common (e e' : Fin 3 → Fin 3 → ℝ) (k : Fin 3) : ∃ v : Fin 3 → ℝ, v ≠ 0 ∧ (∀ j, k < j → ip (e j) v = 0) ∧ ∀ j, j < k → ip (e' j) v = 0 := by
  let f : (Fin 3 → ℝ) →ₗ[ℝ] ({j : Fin 3 // j ≠ k} → ℝ) :=
    { toFun := fun v j => if j.1 < k then ip (e' j.1) v else ip (e j.1) v
      map_add' := fun u v => by
        funext j
        simp only [ip, Pi.add_apply, mul_add, Finset.sum_add_distrib]
        split_ifs <;> rfl
      map_smul' := fun r v => by
        funext j
        simp only [ip, Pi.smul_apply, smul_eq_mul, RingHom.id_apply, mul_left_comm, ← Finset.mul_sum]
        split_ifs <;> rfl }
  have hk : LinearMap.ker f ≠ ⊥ := LinearMap.ker_ne_bot_of_finrank_lt (by
    rw [Module.finrank_fintype_fun_eq_card, Module.finrank_fintype_fun_eq_card, Fintype.card_subtype_compl]
    simp)
  obtain ⟨v, hv, h0⟩ := Submodule.exists_mem_ne_zero_of_ne_bot hk
  have hz : f v = 0 := hv
  refine ⟨v, h0, fun j hj => ?_, fun j hj => ?_⟩
  · have := congrFun hz ⟨j, hj.ne'⟩
    simpa [f, not_lt.2 hj.le] using this
  · have := congrFun hz ⟨j, hj.ne⟩
    simpa [f, hj] using this

/-- eigenvalues grow at most as much as the quadratic form -/
theorem weyl {A' : Fin 3 → Fin 3 → ℝ} {w' : Fin 3 → ℝ} {e' : Fin 3 → Fin 3 → ℝ} (h : Eigs A w e) (h' : Eigs A' w' e') {η : ℝ}
    (hq : ∀ v, qf A' v ≤ qf A v + η * ip v v) (k : Fin 3) : w' k ≤ w k + η := by
  obtain ⟨v, hv, h1, h2⟩ := common e e' k
  have hpos : 0 < ip v v := by
    obtain ⟨i, hi⟩ := Function.ne_iff.1 hv
    exact Finset.sum_pos' (fun j _ => mul_self_nonneg _) ⟨i, Finset.mem_univ i, mul_self_pos.2 hi⟩
  have h3 : w' k * ip v v ≤ qf A' v := by
    rw [h'.quad, h'.norm v, Finset.mul_sum]
    refine Finset.sum_le_sum fun j _ => ?_
    rcases lt_or_ge j k with hj | hj
    · rw [h2 j hj]; simp
    · exact mul_le_mul_of_nonneg_right (h'.mono hj) (sq_nonneg _)
  have h4 : qf A v ≤ w k * ip v v := by
    rw [h.quad, h.norm v, Finset.mul_sum]
    refine Finset.sum_le_sum fun j _ => ?_
    rcases lt_or_ge k j with hj | hj
    · rw [h1 j hj]; simp
    · exact mul_le_mul_of_nonneg_right (h.mono hj) (sq_nonneg _)
  have := hq v
  nlinarith

theorem form_bound {A' : Fin 3 → Fin 3 → ℝ} {δ : ℝ} (hδ : ∀ i k, |A' i k - A i k| ≤ δ) (v : Fin 3 → ℝ) : qf A' v ≤ qf A v + 3 * δ * ip v v := by
  have hδ0 : 0 ≤ δ := (abs_nonneg _).trans (hδ 0 0)
  have h1 : qf A' v - qf A v ≤ δ * (∑ i, |v i|) ^ 2 := by
    have e1 : qf A' v - qf A v = ∑ i, ∑ k, v i * (A' i k - A i k) * v k := by
      simp only [qf, ← Finset.sum_sub_distrib]
      exact Finset.sum_congr rfl fun i _ => Finset.sum_congr rfl fun k _ => by ring
    have e2 : δ * (∑ i, |v i|) ^ 2 = ∑ i, ∑ k, |v i| * δ * |v k| := by
      simp only [Fin.sum_univ_three]
      ring
    rw [e1, e2]
    refine Finset.sum_le_sum fun i _ => Finset.sum_le_sum fun k _ => (le_abs_self _).trans ?_
    rw [abs_mul, abs_mul]
    gcongr
    exact hδ i k
  have h2 : (∑ i, |v i|) ^ 2 ≤ 3 * ip v v := by
    simp only [ip, Fin.sum_univ_three, ← abs_mul_abs_self (v 0), ← abs_mul_abs_self (v 1), ← abs_mul_abs_self (v 2)]
    nlinarith [sq_nonneg (|v 0| - |v 1|), sq_nonneg (|v 0| - |v 2|), sq_nonneg (|v 1| - |v 2|)]
  nlinarith

theorem shift {A' : Fin 3 → Fin 3 → ℝ} {w' : Fin 3 → ℝ} {e' : Fin 3 → Fin 3 → ℝ} (h : Eigs A w e) (h' : Eigs A' w' e') {δ : ℝ}
    (hδ : ∀ i k, |A' i k - A i k| ≤ δ) (k : Fin 3) : |w' k - w k| ≤ 3 * δ := by
  have h1 := weyl h h' (form_bound hδ) k
  have h2 := weyl h' h (form_bound fun i k => by rw [abs_sub_comm]; exact hδ i k) k
  rw [abs_le]
  constructor <;> linarith

/-- the part of an eigenvector outside of the direction of the corresponding one -/
theorem turn {A' : Fin 3 → Fin 3 → ℝ} {w' : Fin 3 → ℝ} {e' : Fin 3 → Fin 3 → ℝ} (hA : ∀ i k, A i k = A k i) (h : Eigs A w e) (h' : Eigs A' w' e') {δ g : ℝ}
    (hδ : ∀ i k, |A' i k - A i k| ≤ δ) (j : Fin 3) (hg0 : 0 ≤ g) (hg : ∀ i, i ≠ j → g ≤ |w i - w' j|) :
    g ^ 2 * (1 - ip (e j) (e' j) ^ 2) ≤ (3 * δ) ^ 2 := by
  have hδ0 : 0 ≤ δ := (abs_nonneg _).trans (hδ 0 0)
  -- the difference of the matrices applied to the eigenvector
  set u : Fin 3 → ℝ := fun i => ∑ k, (A' i k - A i k) * e' j k with hu
  have hn : ip (e' j) (e' j) = 1 := (h'.ortho j j).trans (if_pos rfl)
  have hcomp : ∀ i, ip (e i) u = (w' j - w i) * ip (e i) (e' j) := fun i => by
    have h1 : ∀ a, u a = w' j * e' j a - ∑ k, A a k * e' j k := fun a => by
      rw [← h'.vec j a, ← Finset.sum_sub_distrib]
      exact Finset.sum_congr rfl fun k _ => by ring
    have h2 : ∑ a, e i a * ∑ k, A a k * e' j k = w i * ip (e i) (e' j) := by
      simp only [Finset.mul_sum]
      rw [Finset.sum_comm]
      unfold ip
      rw [Finset.mul_sum]
      refine Finset.sum_congr rfl fun k _ => ?_
      rw [← mul_assoc, ← h.vec i k, Finset.sum_mul]
      exact Finset.sum_congr rfl fun a _ => by rw [hA k a]; ring
    have h3 : ip (e i) u = w' j * ip (e i) (e' j) - ∑ a, e i a * ∑ k, A a k * e' j k := by
      unfold ip
      rw [Finset.mul_sum, ← Finset.sum_sub_distrib]
      exact Finset.sum_congr rfl fun a _ => by rw [h1 a]; ring
    rw [h3, h2]
    ring
  have hu2 : ip u u ≤ (3 * δ) ^ 2 := by
    have hs : (∑ k, |e' j k|) ^ 2 ≤ 3 := by
      rw [← mul_one (3 : ℝ), ← hn]
      simp only [ip, Fin.sum_univ_three, ← abs_mul_abs_self (e' j 0), ← abs_mul_abs_self (e' j 1), ← abs_mul_abs_self (e' j 2)]
      nlinarith [sq_nonneg (|e' j 0| - |e' j 1|), sq_nonneg (|e' j 0| - |e' j 2|), sq_nonneg (|e' j 1| - |e' j 2|)]
    have h1 : ∀ i, u i * u i ≤ δ ^ 2 * 3 := fun i => by
      have h2 : |u i| ≤ δ * ∑ k, |e' j k| := by
        refine (Finset.abs_sum_le_sum_abs _ _).trans ?_
        rw [Finset.mul_sum]
        refine Finset.sum_le_sum fun k _ => ?_
        rw [abs_mul]
        exact mul_le_mul_of_nonneg_right (hδ i k) (abs_nonneg _)
      calc u i * u i = |u i| ^ 2 := by rw [sq_abs, sq]
        _ ≤ (δ * ∑ k, |e' j k|) ^ 2 := pow_le_pow_left₀ (abs_nonneg _) h2 2
        _ = δ ^ 2 * (∑ k, |e' j k|) ^ 2 := by ring
        _ ≤ δ ^ 2 * 3 := by gcongr
    calc ip u u ≤ ∑ _i : Fin 3, δ ^ 2 * 3 := Finset.sum_le_sum fun i _ => h1 i
      _ = (3 * δ) ^ 2 := by simp; ring
  have h1 : 1 - ip (e j) (e' j) ^ 2 = ∑ i ∈ Finset.univ.erase j, ip (e i) (e' j) ^ 2 := by
    rw [← hn, h.norm (e' j), ← Finset.add_sum_erase _ _ (Finset.mem_univ j)]
    ring
  rw [h1, Finset.mul_sum]
  refine le_trans ?_ hu2
  rw [h.norm u]
  refine (Finset.sum_le_sum fun i hi => ?_).trans (Finset.sum_le_sum_of_subset_of_nonneg (Finset.subset_univ (Finset.univ.erase j)) fun _ _ _ => sq_nonneg _)
  rw [hcomp i, mul_pow]
  refine mul_le_mul_of_nonneg_right ?_ (sq_nonneg _)
  rw [← sq_abs (w' j - w i), abs_sub_comm]
  exact pow_le_pow_left₀ hg0 (hg i (Finset.ne_of_mem_erase hi)) 2

end

theorem eigs {eigh : Eigh} (heigh : IsEigh eigh) {argsort : Argsort} (hsort : IsArgsort argsort) {s : Sys} {x : V3} {ew : List ℝ} {ev : List (Fin 3 → ℝ)}
    (h : modes eigh argsort s x true = .ok (ew, ev)) : Eigs (fun i k => totalAt s [i, k] x) (fun j => ew.getD j 0) fun j => ev.getD j 0 := by
  obtain ⟨l1, -, sorted, he, ho⟩ := c43_modes eigh heigh argsort hsort _ _ ew ev h
  refine ⟨fun i j hij => ?_, fun j i => he j i j.2, fun j j' => (ho j j' j.2 j'.2).trans (by simp [Fin.ext_iff])⟩
  rcases hij.eq_or_lt with rfl | hlt
  · exact le_rfl
  · show ew.getD i 0 ≤ ew.getD j 0
    rw [List.getD_eq_getElem _ _ (by omega), List.getD_eq_getElem _ _ (by omega)]
    exact (List.pairwise_iff_getElem.1 sorted) i j (by omega) (by omega) hlt

end ModeShift
open ModeShift

/-- **C137.** If the second derivatives of the potential change by at most `δ`, the curvatures that `modes` returns change by at most `3 δ`, each in its place. -/
theorem c137_curvatures (eigh : Eigh) (heigh : IsEigh eigh) (argsort : Argsort) (hsort : IsArgsort argsort) (s s' : Sys) (x x' : V3)
    (ew ew' : List ℝ) (ev ev' : List (Fin 3 → ℝ)) (h : modes eigh argsort s x true = .ok (ew, ev)) (h' : modes eigh argsort s' x' true = .ok (ew', ev')) (δ : ℝ)
    (hδ : ∀ i k, |totalAt s' [i, k] x' - totalAt s [i, k] x| ≤ δ) (j : Nat) (hj : j < 3) : |ew'.getD j 0 - ew.getD j 0| ≤ 3 * δ :=
  shift (eigs heigh hsort h) (eigs heigh hsort h') hδ ⟨j, hj⟩

/-- **C137.** Where the quadratic form of the second derivatives grows, no curvature falls. -/
theorem c137_monotone (eigh : Eigh) (heigh : IsEigh eigh) (argsort : Argsort) (hsort : IsArgsort argsort) (s s' : Sys) (x x' : V3)
    (ew ew' : List ℝ) (ev ev' : List (Fin 3 → ℝ)) (h : modes eigh argsort s x true = .ok (ew, ev)) (h' : modes eigh argsort s' x' true = .ok (ew', ev'))
    (hq : ∀ v : Fin 3 → ℝ, ∑ a, ∑ b, v a * totalAt s [a, b] x * v b ≤ ∑ a, ∑ b, v a * totalAt s' [a, b] x' * v b) (j : Nat) (hj : j < 3) :
    ew.getD j 0 ≤ ew'.getD j 0 := by
  have := weyl (eigs heigh hsort h') (eigs heigh hsort h) (η := 0) (fun v => by simpa [qf] using hq v) ⟨j, hj⟩
  simpa using this

/-- **C137.** The direction of a mode turns by a small angle: its sine is at most `3 δ` over the distance of its curvature from the other curvatures. -/
theorem c137_directions (eigh : Eigh) (heigh : IsEigh eigh) (argsort : Argsort) (hsort : IsArgsort argsort) (els els' : List Elec) (c c' : ℝ) (x x' : V3)
    (hx : offSystem els x) (ew ew' : List ℝ) (ev ev' : List (Fin 3 → ℝ)) (h : modes eigh argsort ⟨els, some c⟩ x true = .ok (ew, ev))
    (h' : modes eigh argsort ⟨els', some c'⟩ x' true = .ok (ew', ev')) (δ g : ℝ)
    (hδ : ∀ i k, |totalAt ⟨els', some c'⟩ [i, k] x' - totalAt ⟨els, some c⟩ [i, k] x| ≤ δ) (j : Nat) (hj : j < 3) (hg : 3 * δ < g)
    (hgap : ∀ i < 3, i ≠ j → g ≤ |ew.getD i 0 - ew.getD j 0|) :
    1 - (∑ a, ev.getD j 0 a * ev'.getD j 0 a) ^ 2 ≤ (3 * δ / (g - 3 * δ)) ^ 2 := by
  have hs := c137_curvatures eigh heigh argsort hsort _ _ _ _ ew ew' ev ev' h h' δ hδ j hj
  have := turn (fun i k => total_symm2 els c x hx i k) (eigs heigh hsort h) (eigs heigh hsort h') hδ ⟨j, hj⟩ (g := g - 3 * δ) (by linarith) fun i hi => by
    have h1 := hgap i i.2 fun e => hi (Fin.ext e)
    have h2 : |ew.getD i 0 - ew.getD j 0| ≤ |ew.getD i 0 - ew'.getD j 0| + |ew'.getD j 0 - ew.getD j 0| := abs_sub_le _ _ _
    show _ ≤ |ew.getD i 0 - ew'.getD j 0|
    linarith
  rw [div_pow, le_div_iff₀ (by nlinarith), mul_comm]
  exact this

/-- **C137.** The curvatures at two positions: they differ by at most `3 √3 M` times the distance if no third derivative between them exceeds `M`. -/
theorem c137_position (eigh : Eigh) (heigh : IsEigh eigh) (argsort : Argsort) (hsort : IsArgsort argsort) (els : List Elec) (c : ℝ) (x d : Fin 3 → ℝ)
    (hx : ∀ t ∈ Icc (0 : ℝ) 1, offSystem els (toV3 (x + t • d))) (M : ℝ)
    (hM : ∀ t ∈ Icc (0 : ℝ) 1, ∀ i : Idx, i.length = 3 → |totalAt ⟨els, some c⟩ i (toV3 (x + t • d))| ≤ M)
    (ew ew' : List ℝ) (ev ev' : List (Fin 3 → ℝ)) (h : modes eigh argsort ⟨els, some c⟩ (toV3 x) true = .ok (ew, ev))
    (h' : modes eigh argsort ⟨els, some c⟩ (toV3 (x + d)) true = .ok (ew', ev')) (j : Nat) (hj : j < 3) :
    |ew'.getD j 0 - ew.getD j 0| ≤ 3 * √3 * M * vlen d := by
  have hM0 : 0 ≤ M := (abs_nonneg _).trans (hM 0 (by simp) [0, 0, 0] rfl)
  have := c137_curvatures eigh heigh argsort hsort _ _ _ _ ew ew' ev ev' h h' (M * (√3 * vlen d)) (fun i k => by
    have h1 := c135_total els c [i, k] 0 (by simp) x d hx M hM
    rw [show expansion (fun l => totalAt ⟨els, some c⟩ l (toV3 x)) [i, k] 0 d = totalAt ⟨els, some c⟩ [i, k] (toV3 x) by
      rw [Expan.expansion_eq]; simp [Expan.along]] at h1
    refine h1.trans ?_
    simp only [zero_add, pow_one, Nat.factorial_one, Nat.cast_one, div_one]
    gcongr
    exact Expan.sum_abs_le d) j hj
  linarith

namespace ModeShift

/-- second derivatives of the potential if dc voltages change -/
theorem second_error {els els' : List Elec} {δ h : ℝ} {n : Nat} (h0 : 0 ≤ δ) (hs : separate els) (hd : List.Forall₂ (nearVoltage .dc δ) els els')
    (hr : List.Forall₂ (fun e e' => e'.rf = e.rf) els els') (ht : polygonTrap h n els) (c : ℝ) {p : V3} (hz : 0 < p.z) (hzh : n = 0 ∨ p.z < h) (i k : Fin 3) :
    |totalAt ⟨els', some c⟩ [i, k] p - totalAt ⟨els, some c⟩ [i, k] p| ≤ ∑ m ∈ Finset.Icc (-(n : ℤ)) n, 36 * δ / |p.z + 2 * m * h| ^ 2 := by
  have hp : offPlanes h n p := Limit.images_ne hz hzh
  have h1 := Limit.trap_off ht hp
  have h2 := Limit.trap_off (Limit.differ_trap hd ht).1 hp
  have e : ∀ l, sysTens els' .rf l p = sysTens els .rf l p := fun l => by
    simp only [sysTens_eq]
    congr 1
    clear h1 h2 ht hs
    induction hd with
    | nil => rfl
    | cons a _ ih =>
      cases hr with
      | cons b hr => rw [List.map_cons, List.map_cons, ih hr, a.1]; simp only [Elec.voltD, Elec.volt, b]
  have h3 := (c133_errors els els' h n ht hs .dc (by simp) δ h0 hd p hz hzh).2.2 [i, k] (by simp) (by simp)
  have h4 : totalAt ⟨els', some c⟩ [i, k] p - totalAt ⟨els, some c⟩ [i, k] p = electricalAt els' .dc [i, k] p - electricalAt els .dc [i, k] p := by
    rw [total_split els' c [i, k] (by simp) _ fun d typ => avail_of_off h2 d typ, total_split els c [i, k] (by simp) _ fun d typ => avail_of_off h1 d typ,
      electricalAt_eq els' .dc [i, k] (by simp) _ (avail_of_off h2 _ _), electricalAt_eq els .dc [i, k] (by simp) _ (avail_of_off h1 _ _)]
    simp only [e]
    ring
  rw [h4]
  refine h3.trans (le_of_eq (Finset.sum_congr rfl fun m _ => ?_))
  simp only [List.length_cons, List.length_nil, List.getD_cons_succ, List.getD_cons_zero]
  norm_num

end ModeShift

/-- **C137.** Errors of dc voltages of polygon electrodes of at most `δ` change each curvature by at most `108 δ / z²` at the height `z`, plus the same for each image
in a cover. -/
theorem c137_voltages (eigh : Eigh) (heigh : IsEigh eigh) (argsort : Argsort) (hsort : IsArgsort argsort) (els els' : List Elec) (h : ℝ) (n : Nat)
    (ht : polygonTrap h n els) (hs : separate els) (δ : ℝ) (h0 : 0 ≤ δ) (hd : List.Forall₂ (nearVoltage .dc δ) els els')
    (hr : List.Forall₂ (fun e e' => e'.rf = e.rf) els els') (c : ℝ) (p : V3) (hz : 0 < p.z) (hzh : n = 0 ∨ p.z < h) (ew ew' : List ℝ) (ev ev' : List (Fin 3 → ℝ))
    (hm : modes eigh argsort ⟨els, some c⟩ p true = .ok (ew, ev)) (hm' : modes eigh argsort ⟨els', some c⟩ p true = .ok (ew', ev')) (j : Nat) (hj : j < 3) :
    |ew'.getD j 0 - ew.getD j 0| ≤ ∑ m ∈ Finset.Icc (-(n : ℤ)) n, 108 * δ / |p.z + 2 * m * h| ^ 2 := by
  refine (c137_curvatures eigh heigh argsort hsort _ _ _ _ ew ew' ev ev' hm hm' _ (second_error h0 hs hd hr ht c hz hzh) j hj).trans (le_of_eq ?_)
  rw [Finset.mul_sum]
  exact Finset.sum_congr rfl fun m _ => by ring

/-- **C137.** The modes at the moved minimum: errors of dc voltages of at most `δ` leave a minimum near the old one, and each curvature at any such minimum differs from the
one before by at most `δ` times a constant. -/
theorem c137_minimum (eigh : Eigh) (heigh : IsEigh eigh) (argsort : Argsort) (hsort : IsArgsort argsort) (els els' : List Elec) (h : ℝ)
    (ht : polygonTrap h 0 els) (hs : separate els) (δ : ℝ) (h0 : 0 ≤ δ) (hd : List.Forall₂ (nearVoltage .dc δ) els els')
    (hr : List.Forall₂ (fun e e' => e'.rf = e.rf) els els') (c : ℝ) (x0 : Fin 3 → ℝ) (R : ℝ) (hR : 0 < R) (z0 : ℝ) (hz : 0 < z0) (hz0 : ∀ x ∈ rball x0 R, z0 ≤ x 2)
    (lam : ℝ) (hl : 0 < lam) (hst : Stiff ⟨els, some c⟩ lam (rball x0 R)) (hg : slopeAt ⟨els, some c⟩ x0 = 0) (hδ : 2 * δ / z0 < lam * R) (M : ℝ)
    (hM : ∀ y ∈ rball x0 R, ∀ i : Idx, i.length = 3 → |totalAt ⟨els, some c⟩ i (toV3 y)| ≤ M) (ew : List ℝ) (ev : List (Fin 3 → ℝ))
    (hm : modes eigh argsort ⟨els, some c⟩ (toV3 x0) true = .ok (ew, ev)) :
    (∃ x1 ∈ rball x0 R, slopeAt ⟨els', some c⟩ x1 = 0) ∧
    ∀ x1 ∈ rball x0 R, slopeAt ⟨els', some c⟩ x1 = 0 → ∃ ew' ev', modes eigh argsort ⟨els', some c⟩ (toV3 x1) true = .ok (ew', ev') ∧
      ∀ j < 3, |ew'.getD j 0 - ew.getD j 0| ≤ (108 / z0 ^ 2 + 6 * √3 * M / (z0 * lam)) * δ := by
  obtain ⟨⟨x1, hx1, hg1, -⟩, hall⟩ := c133_minimum els els' h ht hs δ h0 hd hr c x0 R hR z0 hz hz0 lam hl hst hg hδ
  refine ⟨⟨x1, hx1, hg1⟩, fun x1 hx1 hg1 => ?_⟩
  have hM0 : 0 ≤ M := (abs_nonneg _).trans (hM x0 (Rob.center_mem x0 hR) [0, 0, 0] rfl)
  have hoff : ∀ {els}, polygonTrap h 0 els → ∀ y ∈ rball x0 R, offSystem els (toV3 y) := fun ht y hy =>
    Limit.trap_off ht (Limit.images_ne (p := toV3 y) (hz.trans_le (hz0 y hy)) (.inl rfl))
  have hex : ∀ els, offSystem els (toV3 x1) → ∃ ew' ev', modes eigh argsort ⟨els, some c⟩ (toV3 x1) true = .ok (ew', ev') := fun els ho => by
    obtain ⟨r, hr⟩ := (c43_fails eigh argsort ⟨els, some c⟩ (toV3 x1) true).2 ⟨_, (Ions.potential_rows els c [toV3 x1] 2 (by norm_num) fun d typ => avail_of_off ho d typ).choose_spec.1⟩
    exact ⟨r.1, r.2, hr⟩
  obtain ⟨ew1, ev1, h1⟩ := hex els (hoff ht x1 hx1)
  obtain ⟨ew', ev', h2⟩ := hex els' (hoff (Limit.differ_trap hd ht).1 x1 hx1)
  refine ⟨ew', ev', h2, fun j hj => ?_⟩
  have hz1 := hz0 x1 hx1
  have a1 := c137_voltages eigh heigh argsort hsort els els' h 0 ht hs δ h0 hd hr c (toV3 x1) (hz.trans_le hz1) (.inl rfl) ew1 ew' ev1 ev' h1 h2 j hj
  simp only [Nat.cast_zero, neg_zero, Finset.Icc_self, Finset.sum_singleton, Int.cast_zero, mul_zero, zero_mul, add_zero] at a1
  have hdr : vlen (x1 - x0) ≤ R := hx1
  have a2 := c137_position eigh heigh argsort hsort els c x0 (x1 - x0) (fun t ht' => hoff ht _ (Expan.line_mem hdr ht')) M (fun t ht' => hM _ (Expan.line_mem hdr ht'))
    ew ew1 ev ev1 hm (by rw [add_sub_cancel]; exact h1) j hj
  have a3 := hall x1 hx1 hg1
  have a4 : 108 * δ / |(toV3 x1).z| ^ 2 ≤ 108 * δ / z0 ^ 2 := by
    have : z0 ≤ |(toV3 x1).z| := hz1.trans (le_abs_self _)
    gcongr
  have a5 : 3 * √3 * M * vlen (x1 - x0) ≤ 3 * √3 * M * (2 * δ / (z0 * lam)) := by gcongr
  calc |ew'.getD j 0 - ew.getD j 0| ≤ |ew'.getD j 0 - ew1.getD j 0| + |ew1.getD j 0 - ew.getD j 0| := abs_sub_le _ _ _
    _ ≤ 108 * δ / z0 ^ 2 + 3 * √3 * M * (2 * δ / (z0 * lam)) := add_le_add (a1.trans a4) (a2.trans a5)
    _ = (108 / z0 ^ 2 + 6 * √3 * M / (z0 * lam)) * δ := by ring

/-- **C137.** The frequencies in the reports of `analyze_static` for two systems or positions: their squares differ by at most `3 δ` times the factor between curvatures and
squares of angular frequencies if the second derivatives differ by at most `δ`. -/
theorem c137_report (k : PhysConst) (hamu : k.amu ≠ 0) (hqe : k.qe ≠ 0) (hh : k.h ≠ 0) (lib : AnalyzeLib) (heigh : IsEigh lib.eigh) (hsort : IsArgsort lib.argsort)
    (s s' : Sys) (x x' : Fin 3 → ℝ) (A : AnalyzeArgs) (hm : 0 < A.m) (hq : 0 < A.q) (hl : 0 < A.l) (lines lines' : List Line)
    (h : analyzeStatic k lib s x A = (lines, none)) (h' : analyzeStatic k lib s' x' A = (lines', none)) (δ : ℝ)
    (hδ : ∀ i k, |totalAt s' [i, k] (toV3 x') - totalAt s [i, k] (toV3 x)| ≤ δ) (j : Nat) (f f' : ℝ) (e e' : Fin 3 → ℝ)
    (hline : Line.mode .pseudo j (some f) e ∈ lines) (hline' : Line.mode .pseudo j (some f') e' ∈ lines') :
    |(2 * Real.pi * (f' * 1e6)) ^ 2 - (2 * Real.pi * (f * 1e6)) ^ 2| ≤ A.q / (A.m * A.l ^ 2) * (3 * δ) := by
  have key : ∀ (s : Sys) (x : Fin 3 → ℝ) (lines : List Line) (f : ℝ) (e : Fin 3 → ℝ), analyzeStatic k lib s x A = (lines, none) → Line.mode .pseudo j (some f) e ∈ lines →
      ∃ ew ev, modes lib.eigh lib.argsort s (toV3 x) true = .ok (ew, ev) ∧ j < 3 ∧ A.q / (A.m * A.l ^ 2) * ew.getD j 0 = (2 * Real.pi * (f * 1e6)) ^ 2 := by
    intro s x lines f e h hline
    obtain ⟨c, F, hc, hF, hall⟩ := c89_report_partial k hamu hqe lib s x A hm hq hl hh lines h
    have hs : s = ⟨s.els, some c⟩ := by rw [← hc]
    obtain ⟨w, hw, he, hpos, hneg⟩ := hall _ hline
    have hw0 : 0 ≤ w := by
      by_contra hn
      simpa using hneg (not_le.1 hn)
    obtain ⟨g, hgf, hg0, hgw⟩ := hpos hw0
    obtain rfl : f = g := Option.some.inj hgf
    refine ⟨F.ew, F.ev, by rw [hs]; exact hF.modes, ?_, ?_⟩
    · obtain ⟨l1, -⟩ := c43_modes _ heigh _ hsort _ _ _ _ hF.modes
      rw [← l1]
      exact (List.getElem?_eq_some_iff.1 hw).1
    · rw [List.getD_eq_getElem?_getD, hw, Option.getD_some]
      field_simp
      field_simp at hgw
      linarith
  obtain ⟨ew, ev, h1, hj, h2⟩ := key s x lines f e h hline
  obtain ⟨ew', ev', h1', -, h2'⟩ := key s' x' lines' f' e' h' hline'
  have hκ : 0 < A.q / (A.m * A.l ^ 2) := by positivity
  rw [← h2, ← h2', ← mul_sub, abs_mul, abs_of_pos hκ]
  exact mul_le_mul_of_nonneg_left (c137_curvatures lib.eigh heigh lib.argsort hsort _ _ _ _ ew ew' ev ev' h1 h1' δ hδ j hj) hκ.le

namespace ModeShift

/-- an ascending list is not changed by sorting -/
theorem takeIdx_sorted {argsort : Argsort} (hsort : IsArgsort argsort) {l : List ℝ} (hl : l.Pairwise (· ≤ ·)) : takeIdx l (argsort l) = l := by
  obtain ⟨hp, ho⟩ := hsort l
  rw [takeIdx_eq l 0 _ fun k hk => by simpa using hp.mem_iff.1 hk]
  refine List.Perm.eq_of_pairwise (fun a b _ _ h1 h2 => le_antisymm h1 h2) ho hl ?_
  refine (hp.map fun k => l.getD k 0).trans (List.Perm.of_eq ?_)
  refine List.ext_getElem (by simp) fun i h1 h2 => ?_
  simp [h2]

end ModeShift

/-- **C137.** Rounding errors: the curvatures that `modes` returns in floating-point arithmetic differ from those without rounding by at most nine times the rounding error of
the second derivatives, plus the error of `eigh`. -/
theorem c137_rounding {o : FloatOps} {u : ℝ} (ho : Accurate o u) {dot : (Axis → ℝ) → (Axis → ℝ) → ℝ} (hdot : AccurateDot dot u) (compiled : Bool)
    (eigh : Eigh) (heigh : IsEigh eigh) (argsort : Argsort) (hsort : IsArgsort argsort) (flEigh : Eigh) (ε : ℝ) (hε : 0 ≤ ε) (hfl : StableEigh flEigh ε)
    (s : List Elec) (c : ℝ) (p : V3) (hz : p.z ≠ 0) (κ : Nat) (hw : ∀ typ, ∀ e ∈ s, e.volt typ ≠ none → e.volt typ ≠ some 0 → WellPlaced κ p e.shape) (N : Nat)
    (hN : ∀ typ, (s.map fun e => e.roundings typ).sum ≤ N) (hu : (2 * (701 * (κ + 1) + N) + 17) * u ≤ 1 / 2) (ew : List ℝ) (ev : List (Fin 3 → ℝ))
    (hm : modes eigh argsort ⟨s, some c⟩ p true = .ok (ew, ev)) (S : ℝ) (hS : ∀ a b, |totalAt ⟨s, some c⟩ [a, b] p| ≤ S) (sorted : Bool) :
    ∃ fw fv, flModes o dot compiled flEigh argsort ⟨s, some c⟩ p sorted = .ok (fw, fv) ∧ ∀ j < 3,
      |fw.getD j 0 - ew.getD j 0| ≤ 9 * (2 * (2 * (701 * (κ + 1) + N) + 17) * u * (entrySize s .dc 2 p + pseudoSize s c 2 p))
        + 3 * ε * (S + 2 * (2 * (701 * (κ + 1) + N) + 17) * u * (entrySize s .dc 2 p + pseudoSize s c 2 p)) := by
  set B := 2 * (2 * (701 * (κ + 1) + N) + 17) * u * (entrySize s .dc 2 p + pseudoSize s c 2 p) with hB
  obtain ⟨g, h1, h2⟩ := c134_potential ho hdot compiled s c [p] 2 (by norm_num) κ (by simpa using hz)
    (fun typ q hq => by rw [List.mem_singleton] at hq; rw [hq]; exact hw typ) N hN hu (by simp)
  have h3 : ∀ a b, |row0Matrix g a b - totalAt ⟨s, some c⟩ [a, b] p| ≤ B := fun a b => by
    have := h2 0 p rfl [a, b] rfl
    unfold row0Matrix toNArr
    rw [idxToNidx_eq]
    exact this
  have hE := eigs heigh hsort hm
  have hsym : ∀ a b, totalAt ⟨s, some c⟩ [a, b] p = totalAt ⟨s, some c⟩ [b, a] p := by
    obtain ⟨r, hr⟩ := (c43_fails eigh argsort ⟨s, some c⟩ p true).1 ⟨_, hm⟩
    exact hessian_symm _ _ r hr
  obtain ⟨l1, l2, Bm, P, b1, b2, b3, b4⟩ := hfl 3 (row0Matrix g) (2 * B) (S + B) (fun a b => by
      have e1 := h3 a b
      have e2 := h3 b a
      rw [hsym b a] at e2
      rw [abs_le] at e1 e2 ⊢
      constructor <;> linarith) (fun a b => by
      have e1 := h3 a b
      have e2 := hS a b
      rw [abs_le] at e1 e2 ⊢
      constructor <;> linarith)
  have hF : Eigs Bm (fun j => (flEigh 3 (row0Matrix g)).1.getD j 0) fun j i => P i j := by
    refine ⟨fun i j hij => ?_, fun j i => b3 i j, fun j j' => b4 j j'⟩
    rcases hij.eq_or_lt with rfl | hlt
    · exact le_rfl
    · show (flEigh 3 (row0Matrix g)).1.getD i 0 ≤ (flEigh 3 (row0Matrix g)).1.getD j 0
      rw [List.getD_eq_getElem _ _ (by omega), List.getD_eq_getElem _ _ (by omega)]
      exact (List.pairwise_iff_getElem.1 l2) i j (by omega) (by omega) hlt
  have hsh := shift hE hF (δ := 3 * B + ε * (S + B)) fun a b => by
    have e1 := h3 a b
    have e2 := b2 a b
    rw [abs_le] at e1 e2 ⊢
    constructor <;> linarith
  have hret : ∃ fv, flModes o dot compiled flEigh argsort ⟨s, some c⟩ p sorted = .ok ((flEigh 3 (row0Matrix g)).1, fv) := by
    unfold flModes
    rw [h1]
    cases sorted
    · exact ⟨_, rfl⟩
    · simp only [if_true]
      rw [takeIdx_sorted hsort l2]
      exact ⟨_, rfl⟩
  obtain ⟨fv, hfv⟩ := hret
  refine ⟨_, fv, hfv, fun j hj => ?_⟩
  have := hsh ⟨j, hj⟩
  linarith

/-- `StableEigh` can be met: an exact `eigh` that reads the lower triangle -/
theorem exists_stableEigh : ∃ eigh, StableEigh eigh 0 := by
  obtain ⟨eigh, h⟩ := exists_isEigh
  refine ⟨fun N A => eigh N fun i j => if j ≤ i then A i j else A j i, fun N A τ S h1 h2 => ?_⟩
  have hs : ∀ i j : Fin N, (if j ≤ i then A i j else A j i) = if i ≤ j then A j i else A i j := fun i j => by
    rcases lt_trichotomy i j with h | rfl | h
    · simp [h.le, not_le.2 h]
    · simp
    · simp [h.le, not_le.2 h]
  obtain ⟨a, b, c, d⟩ := h N (fun i j => if j ≤ i then A i j else A j i) hs
  refine ⟨a, b, _, _, hs, fun i j => ?_, c, d⟩
  split_ifs
  · simpa using (abs_nonneg _).trans (h1 i j)
  · simpa using h1 j i

/-- The hypotheses of `c137_minimum` are met: small dc voltages on the electrodes of the ring trap. -/
example : ∃ (eigh : Eigh) (argsort : Argsort) (ew : List ℝ) (R lam C : ℝ), 0 < R ∧ 0 < lam ∧ (∀ w ∈ ew, 0 < w) ∧ ∀ δ u v : ℝ, 0 ≤ δ → 2 * δ / 6 < lam * R → |u| ≤ δ → |v| ≤ δ →
    let els' : List Elec := [⟨"ring", u, 748, .polygons [Ring.sq 6, Ring.hole 4] 50 0⟩, ⟨"centre", v, -305, .polygons [Ring.sq 4] 50 0⟩]
    ∃ x1 ew' ev', slopeAt ⟨els', some 1⟩ x1 = 0 ∧ modes eigh argsort ⟨els', some 1⟩ (toV3 x1) true = .ok (ew', ev') ∧ ∀ j < 3, |ew'.getD j 0 - ew.getD j 0| ≤ C * δ := by
  obtain ⟨eigh, argsort, ew, ev, e1, e2, e3, e4⟩ := Ring.trap_modes 1 one_ne_zero
  obtain ⟨R, lam, hR, hl, h1, -, hst, hg⟩ := Ring.trap_well
  obtain ⟨R', M, hR', hM0, hc', hM⟩ := Expan.bounded Ring.trap 1 3 (by norm_num) ![0, 0, 7] Ring.trap_off7
  have hs1 : rball ![0, 0, 7] (min R R') ⊆ rball ![0, 0, 7] R := fun x hx => (show vlen _ ≤ min R R' from hx).trans (min_le_left _ _)
  have hs2 : rball ![0, 0, 7] (min R R') ⊆ rball ![0, 0, 7] R' := fun x hx => (show vlen _ ≤ min R R' from hx).trans (min_le_right _ _)
  refine ⟨eigh, argsort, ew, min R R', lam, 108 / 6 ^ 2 + 6 * √3 * M / (6 * lam), lt_min hR hR', hl, e4, fun δ u v h0 hδ hu hv => ?_⟩
  intro els'
  have hz : ∀ x ∈ rball ![0, 0, 7] (min R R'), 6 ≤ x 2 := fun x hx => by
    have h2 : vlen (x - ![0, 0, 7]) ≤ 1 := (show vlen _ ≤ R from hs1 hx).trans h1
    have h4 := (abs_le.1 ((Ring.abs_le_vlen (x - ![0, 0, 7]) 2).trans h2)).1
    simp at h4
    linarith
  obtain ⟨⟨x1, hx1, hs⟩, hb⟩ := c137_minimum eigh e1 argsort e2 Ring.trap els' 50 Ring.trap_is Ring.trap_separate δ h0
    (.cons ⟨rfl, by simpa [Elec.volt] using hu⟩ (.cons ⟨rfl, by simpa [Elec.volt] using hv⟩ .nil)) (.cons rfl (.cons rfl .nil)) 1 ![0, 0, 7] (min R R') (lt_min hR hR') 6
    (by norm_num) hz lam hl (fun x hx => hst x (hs1 hx)) hg hδ M (fun y hy => hM y (hs2 hy)) ew ev e3
  obtain ⟨ew', ev', h5, h6⟩ := hb x1 hx1 hs
  exact ⟨x1, ew', ev', hs, h5, h6⟩

/-- The hypotheses of `c137_rounding` are met: two pixels, with doubles. -/
example (compiled : Bool) : ∃ (eigh flEigh : Eigh) (argsort : Argsort) (ew : List ℝ) (ev : List (Fin 3 → ℝ)) (fw : List ℝ) (fv : List (Fin 3 → ℝ)),
    modes eigh argsort ⟨twoPixels, some 1⟩ ⟨0, 0, 1⟩ true = .ok (ew, ev) ∧
    flModes (binary 52) (loopDot (binary 52)) compiled flEigh argsort ⟨twoPixels, some 1⟩ ⟨0, 0, 1⟩ true = .ok (fw, fv) ∧ ∀ j < 3, |fw.getD j 0 - ew.getD j 0|
      ≤ 9 * (2 * (2 * (701 * ((0 : ℕ) + 1) + (2 : ℕ)) + 17) * (1 / 2 ^ (52 + 1)) * (entrySize twoPixels .dc 2 ⟨0, 0, 1⟩ + pseudoSize twoPixels 1 2 ⟨0, 0, 1⟩)) := by
  obtain ⟨eigh, argsort, ew, ev, h1, h2, h3, h4⟩ := twoPixels_modes
  obtain ⟨flEigh, h5⟩ := exists_stableEigh
  obtain ⟨S, hS⟩ : ∃ S, ∀ a b : Fin 3, |totalAt ⟨twoPixels, some 1⟩ [a, b] ⟨0, 0, 1⟩| ≤ S :=
    ⟨∑ a : Fin 3, ∑ b : Fin 3, |totalAt ⟨twoPixels, some 1⟩ [a, b] ⟨0, 0, 1⟩|, fun a b =>
      (Finset.single_le_sum (f := fun b => |totalAt ⟨twoPixels, some 1⟩ [a, b] ⟨0, 0, 1⟩|) (fun _ _ => abs_nonneg _) (Finset.mem_univ b)).trans
        (Finset.single_le_sum (f := fun a => ∑ b, |totalAt ⟨twoPixels, some 1⟩ [a, b] ⟨0, 0, 1⟩|) (fun _ _ => Finset.sum_nonneg fun _ _ => abs_nonneg _) (Finset.mem_univ a))⟩
  obtain ⟨fw, fv, h6, h7⟩ := c137_rounding (c122_binary 52) (c134_loop (c122_binary 52)) compiled eigh h1 argsort h2 flEigh 0 le_rfl h5 twoPixels 1 ⟨0, 0, 1⟩
    (by norm_num) 0 (fun typ e he _ _ => by
      simp only [twoPixels, List.mem_singleton] at he
      subst he
      simp [WellPlaced]) 2 (fun typ => by cases typ <;> simp [twoPixels, Elec.roundings, Elec.volt, Shape.roundings]) (by norm_num) ew ev h3 S hS true
  refine ⟨eigh, flEigh, argsort, ew, ev, fw, fv, h3, h6, fun j hj => (h7 j hj).trans (le_of_eq ?_)⟩
  ring

end Electrode
