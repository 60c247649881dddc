import Verif.Props.Floquet
import Verif.Props.Pseudo
import Mathlib.Analysis.Matrix.Spectrum
import Mathlib.Data.Fin.Tuple.Sort

/-
C43, C73: normal modes of the pseudopotential, and Floquet modes of a system.
-/
namespace Electrode
open Complex (I exp)

namespace Spec

/-- What is assumed of `argsort`: it returns every index once, in an order that sorts the values. -/
def IsArgsort (argsort : Argsort) : Prop :=
  ∀ l : List ℝ, (argsort l).Perm (List.range l.length) ∧ ((argsort l).map fun k => l.getD k 0).Pairwise (· ≤ ·)

/-- What is assumed of `numpy.linalg.eigh` for a symmetric matrix: ascending eigenvalues, and a matrix whose columns
are orthonormal eigenvectors. -/
def IsEigh (eigh : Eigh) : Prop :=
  ∀ (N : Nat) (A : Matrix (Fin N) (Fin N) ℝ), (∀ i j, A i j = A j i) →
    (eigh N A).1.length = N ∧ (eigh N A).1.Pairwise (· ≤ ·) ∧
    (∀ i j : Fin N, ∑ k, A i k * (eigh N A).2 k j = (eigh N A).1.getD j 0 * (eigh N A).2 i j) ∧
    ∀ j j' : Fin N, ∑ i, (eigh N A).2 i j * (eigh N A).2 i j' = if j = j' then 1 else 0

end Spec
open Spec

theorem exists_isArgsort : ∃ argsort, IsArgsort argsort := by
  classical
  refine ⟨fun l => (List.range l.length).mergeSort fun i j => decide (l.getD i 0 ≤ l.getD j 0), fun l => ⟨List.mergeSort_perm _ _, ?_⟩⟩
  rw [List.pairwise_map]
  have := List.pairwise_mergeSort (le := fun i j => decide (l.getD i 0 ≤ l.getD j 0))
    (fun a b c h1 h2 => by simp only [decide_eq_true_eq] at *; exact le_trans h1 h2)
    (fun a b => by simp only [Bool.or_eq_true, decide_eq_true_eq]; exact le_total _ _) (List.range l.length)
  simpa only [decide_eq_true_eq] using this

theorem exists_isEigh : ∃ eigh, IsEigh eigh := by
  have : ∀ (N : Nat) (A : Matrix (Fin N) (Fin N) ℝ), ∃ r : List ℝ × Matrix (Fin N) (Fin N) ℝ, (∀ i j, A i j = A j i) →
    r.1.length = N ∧ r.1.Pairwise (· ≤ ·) ∧
    (∀ i j : Fin N, ∑ k, A i k * r.2 k j = r.1.getD j 0 * r.2 i j) ∧
    ∀ j j' : Fin N, ∑ i, r.2 i j * r.2 i j' = if j = j' then 1 else 0 := by
    intro N A
    by_cases hA : ∀ i j, A i j = A j i
    · have hH : A.IsHermitian := Matrix.IsHermitian.ext fun i j => by simp [hA i j]
      let σ := Tuple.sort hH.eigenvalues
      have hlen : ∀ j : Fin N, (List.ofFn fun j => hH.eigenvalues (σ j)).getD j 0 = hH.eigenvalues (σ j) := by
        intro j
        rw [List.getD_eq_getElem _ _ (by simp)]
        simp
      refine ⟨(List.ofFn fun j => hH.eigenvalues (σ j), fun i j => hH.eigenvectorBasis (σ j) i), fun _ => ⟨by simp, ?_, ?_, ?_⟩⟩
      · rw [List.pairwise_ofFn]
        intro i j hij
        exact Tuple.monotone_sort hH.eigenvalues hij.le
      · intro i j
        have := congrFun (hH.mulVec_eigenvectorBasis (σ j)) i
        simp only [hlen]
        simpa [Matrix.mulVec, dotProduct] using this
      · intro j j'
        have := orthonormal_iff_ite.1 hH.eigenvectorBasis.orthonormal (σ j) (σ j')
        rw [PiLp.inner_apply] at this
        simp only [Real.inner_apply] at this
        rw [show (∑ i, hH.eigenvectorBasis (σ j) i * hH.eigenvectorBasis (σ j') i) =
          ∑ i, hH.eigenvectorBasis (σ j) i * hH.eigenvectorBasis (σ j') i from rfl]
        simpa [σ.injective.eq_iff] using this
    · exact ⟨([], 0), fun h => absurd h hA⟩
  choose f hf using this
  exact ⟨f, hf⟩

theorem takeIdx_eq {α : Type} (l : List α) (d : α) (i : List Nat) (h : ∀ k ∈ i, k < l.length) :
    takeIdx l i = i.map fun k => l.getD k d := by
  induction i with
  | nil => rfl
  | cons k i ih =>
    have hk : k < l.length := h k (by simp)
    have hi := ih fun k' hk' => h k' (by simp [hk'])
    unfold takeIdx at hi ⊢
    rw [List.filterMap_cons_some (List.getElem?_eq_getElem hk), hi, List.map_cons, List.getD_eq_getElem _ _ hk]

theorem takeIdx_perm {α : Type} (l : List α) (i : List Nat) (h : i.Perm (List.range l.length)) : (takeIdx l i).Perm l := by
  have h1 : (takeIdx l i).Perm (takeIdx l (List.range l.length)) := h.filterMap _
  refine h1.trans (List.Perm.of_eq ?_)
  cases l with
  | nil => rfl
  | cons a l =>
    rw [takeIdx_eq _ a _ (by simp)]
    refine List.ext_getElem (by simp) fun k h1 h2 => ?_
    rw [List.getElem_map, List.getElem_range, List.getD_eq_getElem]

theorem takeIdx_map {α β : Type} (l : List α) (i : List Nat) (f : α → β) : takeIdx (l.map f) i = (takeIdx l i).map f := by
  unfold takeIdx
  rw [List.map_filterMap]
  refine congrArg (fun g => List.filterMap g i) (funext fun k => ?_)
  simp

/-! ### the Hessian -/

theorem sysTens_perm (s : List Elec) (typ : VTyp) {l l' : Idx} (h : l.Perm l') (p : V3) : sysTens s typ l p = sysTens s typ l' p := by
  unfold sysTens
  rw [h.length_eq, tens_perm _ _ h]

theorem psT_perm2 (T : NArr ℝ) (hT : ∀ l l' : Idx, l.Perm l' → T l = T l') (k l : Axis) : psT T [k, l] = psT T [l, k] := by
  simp only [psT]
  congr 2
  · exact Finset.sum_congr rfl fun j _ => mul_comm _ _
  · exact Finset.sum_congr rfl fun j _ => by rw [hT [j, k, l] [j, l, k] (List.Perm.cons _ (List.Perm.swap _ _ _))]

theorem potential_ok_inv (s : Sys) (p : V3) (d : Nat) (rows) (h : s.potential [p] d .tot = .ok rows) :
    ∃ c, s = ⟨s.els, some c⟩ ∧ d ≤ 4 ∧ AvailAll s.els d .dc ∧ ∀ i, 1 ≤ i → i ≤ d + 1 → AvailAll s.els i .rf := by
  obtain ⟨-, ⟨u, hu⟩, w, hw⟩ := (c34_errors s [p] d .tot).1 ⟨_, h⟩
  obtain ⟨c, hc⟩ := pseudo_coeff s [p] d w hw
  rw [hc] at hw
  obtain ⟨h4, ha⟩ := pseudo_avail s.els c [p] d w hw
  refine ⟨c, hc, h4, ?_, ha⟩
  by_contra hn
  rw [electrical_err s.els [p] d .dc true hn] at hu
  cases hu

theorem total_value (els : List Elec) (c : ℝ) (p : V3) (l : Idx) (h4 : l.length ≤ 4) (hd : AvailAll els l.length .dc)
    (hr : ∀ i, 1 ≤ i → i ≤ l.length + 1 → AvailAll els i .rf) :
    totalAt ⟨els, some c⟩ l p = sysTens els .dc l p + psT (fun l => c * sysTens els .rf l p) l := by
  unfold totalAt
  have h1 := electrical_expand_eq els [p] l.length (by omega) .dc hd
  have h2 := pseudo_eq els c [p] l.length h4 hr
  obtain ⟨⟨r, hr, _, hv⟩, _⟩ := c34_potential ⟨els, some c⟩ [p] l.length _ _ h1 h2
  rw [hr]
  have := hv 0 (rowMajor l)
  have e1 := entry_flatten l.length (fun l => sysTens els .dc l p) l rfl
  have e2 := entry_flatten l.length (psT fun l => c * sysTens els .rf l p) l rfl
  simp only [entryOf, entry] at e1 e2 ⊢
  simp only [at2, List.map_cons, List.map_nil, List.getD_cons_zero] at this
  rw [this, e1, e2]

theorem row0Matrix_total (s : Sys) (x : V3) (rows) (h : s.potential [x] 2 .tot = .ok rows) (i j : Fin 3) :
    row0Matrix rows i j = totalAt s [i, j] x := by
  unfold totalAt row0Matrix
  rw [show [i, j].length = 2 from rfl, h]
  unfold toNArr
  rw [idxToNidx_eq]
  rfl

theorem row0Matrix_electrical (s : List Elec) (typ : VTyp) (x : V3) (rows) (h : electricalPotential s [x] 2 typ true = .ok rows)
    (i j : Fin 3) : row0Matrix rows i j = electricalAt s typ [i, j] x := by
  unfold electricalAt row0Matrix
  rw [show [i, j].length = 2 from rfl, h]
  unfold toNArr
  rw [idxToNidx_eq]
  rfl

/-- the matrix of second derivatives is symmetric -/
theorem hessian_symm (s : Sys) (x : V3) (rows) (h : s.potential [x] 2 .tot = .ok rows) (i j : Fin 3) :
    totalAt s [i, j] x = totalAt s [j, i] x := by
  obtain ⟨c, hc, -, hd, hr⟩ := potential_ok_inv s x 2 rows h
  rw [hc, total_value s.els c x [i, j] (by simp) hd hr, total_value s.els c x [j, i] (by simp) hd hr,
    sysTens_perm s.els .dc (List.Perm.swap j i []) x,
    psT_perm2 _ (fun l l' h => by rw [sysTens_perm s.els .rf h x]) i j]

/-! ### C43 -/

theorem modes_core (eigh : Eigh) (heigh : IsEigh eigh) (argsort : Argsort) (hsort : IsArgsort argsort) (s : Sys) (x : V3)
    (sorted : Bool) (ew : List ℝ) (ev : List (Fin 3 → ℝ)) (h : modes eigh argsort s x sorted = .ok (ew, ev)) :
    ew.length = 3 ∧ ev.length = 3 ∧ ew.Pairwise (· ≤ ·) ∧
      (∀ (j : Nat) (i : Fin 3), j < 3 → ∑ k, totalAt s [i, k] x * ev.getD j 0 k = ew.getD j 0 * ev.getD j 0 i) ∧
      ∀ j j' : Nat, j < 3 → j' < 3 → ∑ i, ev.getD j 0 i * ev.getD j' 0 i = if j = j' then 1 else 0 := by
  unfold modes at h
  cases hp : s.potential [x] 2 .tot with
  | error e => rw [hp] at h; cases h
  | ok p =>
    rw [hp] at h
    simp only at h
    have hsym : ∀ i j, row0Matrix p i j = row0Matrix p j i := by
      intro i j
      rw [row0Matrix_total s x p hp, row0Matrix_total s x p hp, hessian_symm s x p hp]
    obtain ⟨hlen, hasc, heq, hort⟩ := heigh 3 (row0Matrix p) hsym
    set w := eigh 3 (row0Matrix p)
    have hcol : ∀ j : Fin 3, ((List.finRange 3).map fun j i => w.2 i j).getD j 0 = fun i => w.2 i j := by
      intro j
      rw [List.getD_eq_getElem _ _ (by simp)]
      simp
    have hcol' : ∀ (j : Nat) (hj : j < 3), ((List.finRange 3).map fun j i => w.2 i j).getD j 0 = fun i => w.2 i ⟨j, hj⟩ :=
      fun j hj => hcol ⟨j, hj⟩
    have heq' : ∀ (j : Nat) (hj : j < 3) (i : Fin 3), ∑ k, totalAt s [i, k] x * w.2 k ⟨j, hj⟩ = w.1.getD j 0 * w.2 i ⟨j, hj⟩ := by
      intro j hj i
      rw [← heq i ⟨j, hj⟩]
      exact Finset.sum_congr rfl fun k _ => by rw [row0Matrix_total s x p hp]
    cases sorted with
    | false =>
      simp only [Bool.false_eq_true, if_false, Except.ok.injEq, Prod.mk.injEq] at h
      obtain ⟨rfl, rfl⟩ := h
      refine ⟨hlen, by simp, hasc, fun j i hj => ?_, fun j j' hj hj' => ?_⟩
      · rw [hcol' j hj]; exact heq' j hj i
      · rw [hcol' j hj, hcol' j' hj']
        exact (hort ⟨j, hj⟩ ⟨j', hj'⟩).trans (by simp)
    | true =>
      simp only [if_true, Except.ok.injEq, Prod.mk.injEq] at h
      obtain ⟨rfl, rfl⟩ := h
      obtain ⟨hperm, hord⟩ := hsort w.1
      rw [hlen] at hperm
      have hmem : ∀ k ∈ argsort w.1, k < 3 := fun k hk => by simpa using hperm.mem_iff.1 hk
      have hl3 : (argsort w.1).length = 3 := by rw [hperm.length_eq, List.length_range]
      have hnd : (argsort w.1).Nodup := hperm.nodup_iff.2 List.nodup_range
      rw [takeIdx_eq w.1 0 _ (by rw [hlen]; exact hmem), takeIdx_eq _ 0 _ (by simpa using hmem)]
      have hg : ∀ (j : Nat) (hj : j < 3), (argsort w.1)[j]'(by omega) < 3 := fun j hj => hmem _ (List.getElem_mem _)
      have e1 : ∀ (j : Nat) (hj : j < 3), ((argsort w.1).map fun k => w.1.getD k 0).getD j 0 =
          w.1.getD ((argsort w.1)[j]'(by omega)) 0 := by
        intro j hj
        rw [List.getD_eq_getElem _ _ (by simpa [hl3] using hj), List.getElem_map]
      have e2 : ∀ (j : Nat) (hj : j < 3), ((argsort w.1).map fun k => ((List.finRange 3).map fun j i => w.2 i j).getD k 0).getD j 0 =
          fun i => w.2 i ⟨(argsort w.1)[j]'(by omega), hg j hj⟩ := by
        intro j hj
        rw [List.getD_eq_getElem _ _ (by simpa [hl3] using hj), List.getElem_map, hcol' _ (hg j hj)]
      refine ⟨by simp [hl3], by simp [hl3], hord, fun j i hj => ?_, fun j j' hj hj' => ?_⟩
      · rw [e1 j hj, e2 j hj]
        exact heq' _ (hg j hj) i
      · rw [e2 j hj, e2 j' hj', hort]
        simp only [Fin.mk.injEq, hnd.getElem_inj_iff]

/-- **C43.** `modes` returns three curvatures in ascending order and three orthonormal vectors, the columns of `ev`, each of
which is an eigenvector of the matrix of second derivatives of the potential for the curvature of the same index. -/
theorem c43_modes (eigh : Eigh) (heigh : IsEigh eigh) (argsort : Argsort) (hsort : IsArgsort argsort) (s : Sys) (x : V3)
    (ew : List ℝ) (ev : List (Fin 3 → ℝ)) (h : modes eigh argsort s x true = .ok (ew, ev)) :
    ew.length = 3 ∧ ev.length = 3 ∧ ew.Pairwise (· ≤ ·) ∧
      (∀ (j : Nat) (i : Fin 3), j < 3 → ∑ k, totalAt s [i, k] x * ev.getD j 0 k = ew.getD j 0 * ev.getD j 0 i) ∧
      ∀ j j' : Nat, j < 3 → j' < 3 → ∑ i, ev.getD j 0 i * ev.getD j' 0 i = if j = j' then 1 else 0 :=
  modes_core eigh heigh argsort hsort s x true ew ev h

/-- without sorting as well, because `eigh` sorts already -/
theorem c43_modes_unsorted (eigh : Eigh) (heigh : IsEigh eigh) (argsort : Argsort) (hsort : IsArgsort argsort) (s : Sys) (x : V3)
    (ew : List ℝ) (ev : List (Fin 3 → ℝ)) (h : modes eigh argsort s x false = .ok (ew, ev)) :
    ew.length = 3 ∧ ev.length = 3 ∧ ew.Pairwise (· ≤ ·) ∧
      (∀ (j : Nat) (i : Fin 3), j < 3 → ∑ k, totalAt s [i, k] x * ev.getD j 0 k = ew.getD j 0 * ev.getD j 0 i) ∧
      ∀ j j' : Nat, j < 3 → j' < 3 → ∑ i, ev.getD j 0 i * ev.getD j' 0 i = if j = j' then 1 else 0 :=
  modes_core eigh heigh argsort hsort s x false ew ev h

/-- The matrix is the Hessian: off the electrodes, for systems of cover, point and polygon electrodes, its entries are
the second partial derivatives of the potential. -/
theorem c43_hessian (els : List Elec) (c : ℝ) (i k : Fin 3) :
    IsIterated (offSystem els) [i, k] (totalAt ⟨els, some c⟩ []) (totalAt ⟨els, some c⟩ [i, k]) :=
  c34_derivatives els c [i, k] (by simp)

/-- `modes` succeeds exactly if the second derivatives of the potential can be computed. -/
theorem c43_fails (eigh : Eigh) (argsort : Argsort) (s : Sys) (x : V3) (sorted : Bool) :
    (∃ r, modes eigh argsort s x sorted = .ok r) ↔ ∃ r, s.potential [x] 2 .tot = .ok r := by
  unfold modes
  cases s.potential [x] 2 .tot with
  | error e => simp
  | ok p => cases sorted <;> simp

/-- the curvatures sum to the Laplacian of the potential -/
theorem c43_trace (eigh : Eigh) (heigh : IsEigh eigh) (argsort : Argsort) (hsort : IsArgsort argsort) (s : Sys) (x : V3)
    (ew : List ℝ) (ev : List (Fin 3 → ℝ)) (h : modes eigh argsort s x true = .ok (ew, ev)) :
    ∑ i, totalAt s [i, i] x = ew.sum := by
  obtain ⟨h1, h2, -, heq, hort⟩ := c43_modes eigh heigh argsort hsort s x ew ev h
  obtain ⟨a, b, c, rfl⟩ := List.length_eq_three.1 h1
  let P : Matrix (Fin 3) (Fin 3) ℝ := fun i j => ev.getD j 0 i
  let H : Matrix (Fin 3) (Fin 3) ℝ := fun i j => totalAt s [i, j] x
  let D : Matrix (Fin 3) (Fin 3) ℝ := Matrix.diagonal fun j => [a, b, c].getD j.val 0
  have hP : P.transpose * P = 1 := by
    ext j j'
    rw [Matrix.mul_apply, Matrix.one_apply]
    refine (hort j j' j.isLt j'.isLt).trans ?_
    simp [Fin.ext_iff]
  have hHP : H * P = P * D := by
    ext i j
    rw [Matrix.mul_apply, Matrix.mul_diagonal]
    refine (heq j i j.isLt).trans (mul_comm _ _)
  have hP' : P * P.transpose = 1 := mul_eq_one_comm.1 hP
  have : H = P * D * P.transpose := by rw [← hHP, Matrix.mul_assoc, hP', Matrix.mul_one]
  have ht : H.trace = D.trace := by
    rw [this, Matrix.trace_mul_comm, ← Matrix.mul_assoc, hP, Matrix.one_mul]
  simpa [Matrix.trace, Matrix.diag, H, D, Fin.sum_univ_three, add_assoc] using ht

/-! ### C73 -/

namespace Spec

/-- motion with the complex exponent `nu` and the amplitudes `c` of the multiples of the angular frequency `o`, both in
units of `o` -/
noncomputable def ionMotion (r : Nat) (o : ℝ) (nu : ℂ) (c : ℤ → Fin 3 → ℂ) (t : ℝ) (k : Fin 3) : ℂ :=
  ∑ h ∈ Finset.Icc (-(r : ℤ)) r, c h k * exp ((nu + I * h) * (o * t))

end Spec

theorem ionMotion_eq (r : Nat) (o : ℝ) (nu : ℂ) (c : ℤ → Fin 3 → ℂ) (t : ℝ) (k : Fin 3) :
    ionMotion r o nu c t k = floquetSum r (nu * 2) c (o / 2 * t) k := by
  refine Finset.sum_congr rfl fun h _ => ?_
  congr 2
  push_cast
  ring

theorem deriv_scale (f : ℝ → ℂ) (c t : ℝ) (f' : ℂ) (h : HasDerivAt f f' (c * t)) :
    HasDerivAt (fun t => f (c * t)) ((c : ℂ) * f') t := by
  have h1 : HasDerivAt (fun t : ℝ => c * t) c t := by simpa using (hasDerivAt_id t).const_mul c
  have h2 := HasDerivAt.scomp t h h1
  rw [Complex.real_smul] at h2
  exact h2

theorem mem_takeIdx {α : Type} {l : List α} {i : List Nat} {a : α} (h : a ∈ takeIdx l i) : a ∈ l := by
  unfold takeIdx at h
  obtain ⟨k, -, hk⟩ := List.mem_filterMap.1 h
  exact List.mem_of_getElem? hk

theorem mem_sortModes {V : Type} {argsort : Argsort} {sorted : Bool} {b : List (ℂ × V)} {q : ℂ × V}
    (h : q ∈ sortModes argsort sorted b) : q ∈ b := by
  unfold sortModes at h
  cases sorted with
  | false => exact h
  | true => exact List.mem_of_mem_filter (mem_takeIdx h)

theorem sysMathieu_inv (eig : Eig) (argsort : Argsort) (s : List Elec) (x : V3) (scale : ℝ) (r : Nat) (sorted : Bool) (L)
    (h : sysMathieu eig argsort s x scale r sorted = .ok L) :
    ∃ mu b, mathieu eig r [fun i j => ((16 * scale ^ 2 * electricalAt s .dc [i, j] x : ℝ) : ℂ),
        fun i j => ((8 * scale ^ 2 * electricalAt s .rf [i, j] x : ℝ) : ℂ)] = .ok (mu, b) ∧
      L = (sortModes argsort sorted ((List.finRange _).map fun j => (mu j, fun i => b i j))).map fun q => (q.1 / 2, q.2) := by
  unfold sysMathieu at h
  cases hdc : electricalPotential s [x] 2 .dc true with
  | error e => rw [hdc] at h; cases h
  | ok dc =>
    cases hrf : electricalPotential s [x] 2 .rf true with
    | error e => rw [hdc, hrf] at h; cases h
    | ok rf =>
      rw [hdc, hrf] at h
      simp only [row0Matrix_electrical s .dc x dc hdc, row0Matrix_electrical s .rf x rf hrf] at h
      refine ⟨_, _, rfl, ?_⟩
      injection h with h
      exact h.symm

/-- **C73.** With the scale factor of `rf_scale(m, q, l, o)`, every exponent `nu` returned by `mathieu` and its column describe
a solution of the equation of motion of an ion of mass `m` and charge `q` linearised around the point: the motion `x` with
the harmonics in the column and the exponent `nu` (in units of the angular frequency `o`) satisfies
`m l^2 x'' = -q (H_dc + cos(o t) H_rf) x`, with the second derivatives of the dc and of the rf potential, except for a term at
the two multiples `+-(r+1)` of the drive just above the cutoff. -/
theorem c73_motion (eig : Eig) (heig : IsEig eig) (argsort : Argsort) (sys : Sys) (x : V3) (m q l o : ℝ) (hm : 0 < m)
    (hq : 0 ≤ q) (hl : l ≠ 0) (ho : o ≠ 0) (r : Nat) (sorted : Bool) (L)
    (h : sysMathieu eig argsort sys.els x (sys.rfScale m q l o).2 r sorted = .ok L) (nu : ℂ) (w) (hw : (nu, w) ∈ L) :
    let c := component r 3 w 0
    let X := ionMotion r o nu c
    ∃ v : ℝ → Fin 3 → ℂ, ∀ t k, HasDerivAt (fun t => X t k) (v t k) t ∧ ∃ acc : ℂ, HasDerivAt (fun t => v t k) acc t ∧
      m * l ^ 2 * acc =
        -q * ∑ j, ((electricalAt sys.els .dc [k, j] x + Real.cos (o * t) * electricalAt sys.els .rf [k, j] x : ℝ) : ℂ) * X t j +
        q / 2 * ∑ j, (electricalAt sys.els .rf [k, j] x : ℂ) *
          (c r j * exp ((nu + I * (r + 1)) * (o * t)) + c (-r) j * exp ((nu - I * (r + 1)) * (o * t))) := by
  obtain ⟨mu, b, hmu, rfl⟩ := sysMathieu_inv eig argsort sys.els x _ r sorted L h
  obtain ⟨⟨nu2, w'⟩, hq', he⟩ := List.mem_map.1 hw
  obtain ⟨j, -, hj⟩ := List.mem_map.1 (mem_sortModes hq')
  simp only [Prod.mk.injEq] at hj he
  obtain ⟨rfl, rfl⟩ := hj
  obtain ⟨rfl, rfl⟩ := he
  intro c X
  obtain ⟨a, ha⟩ : ∃ a : List (Matrix (Fin 3) (Fin 3) ℂ),
      a = [fun i j => ((16 * (sys.rfScale m q l o).2 ^ 2 * electricalAt sys.els .dc [i, j] x : ℝ) : ℂ),
        fun i j => ((8 * (sys.rfScale m q l o).2 ^ 2 * electricalAt sys.els .rf [i, j] x : ℝ) : ℂ)] := ⟨_, rfl⟩
  have hmu : mathieu eig r a = .ok (mu, b) := by rw [ha]; exact hmu
  have hhill := c41_hill eig heig r a hmu j
  simp only at hhill
  have hlen : a.length = 2 := by rw [ha]; rfl
  have ha0 : ∀ k j, a.getD 0 0 k j = ((16 * (sys.rfScale m q l o).2 ^ 2 * electricalAt sys.els .dc [k, j] x : ℝ) : ℂ) := by
    intro k j; rw [ha]; rfl
  have ha1 : ∀ k j, a.getD 1 0 k j = ((8 * (sys.rfScale m q l o).2 ^ 2 * electricalAt sys.els .rf [k, j] x : ℝ) : ℂ) := by
    intro k j; rw [ha]; rfl
  have hX : ∀ t k, X t k = floquetSum r (mu j) c (o / 2 * t) k := by
    intro t k
    have := ionMotion_eq r o (mu j / 2) c t k
    rwa [div_mul_cancel₀ _ (two_ne_zero)] at this
  set V := floquetSum r (mu j) (component r 3 (fun i => b i j) 1) with hV
  refine ⟨fun t k => ((o / 2 : ℝ) : ℂ) * V (o / 2 * t) k, fun t k => ⟨?_, _, HasDerivAt.const_mul ((o / 2 : ℝ) : ℂ)
    (deriv_scale _ (o / 2) t _ (hhill (o / 2 * t) k).2), ?_⟩⟩
  · refine (deriv_scale _ (o / 2) t _ (hhill (o / 2 * t) k).1).congr_of_eventuallyEq ?_
    exact Filter.Eventually.of_forall fun t => hX t k
  · have hs : (sys.rfScale m q l o).2 ^ 2 = q / (4 * m * l ^ 2 * o ^ 2) := by
      show (√(q / m) / (2 * l * o)) ^ 2 = _
      rw [div_pow, Real.sq_sqrt (div_nonneg hq hm.le)]
      field_simp
      ring
    have hset : (Finset.Icc (-((r + (a.length - 1) : ℕ) : ℤ)) ((r + (a.length - 1) : ℕ) : ℤ)).filter (fun h => (r : ℤ) < |h|) =
        {(r : ℤ) + 1, -((r : ℤ) + 1)} := by
      ext h
      simp only [hlen, Finset.mem_filter, Finset.mem_Icc, lt_abs, Finset.mem_insert,
        Finset.mem_singleton]
      omega
    have hmc : (m : ℂ) ≠ 0 := by exact_mod_cast hm.ne'
    have hlc : (l : ℂ) ≠ 0 := by exact_mod_cast hl
    have hoc : (o : ℂ) ≠ 0 := by exact_mod_cast ho
    have hout : ∀ h : ℤ, (r : ℤ) < |h| → ∀ k, c h k = 0 := fun h hh k => component_out r _ 0 h hh k
    have ht1 : ((2 * Real.cos (2 * ((1 : ℕ) : ℝ) * (o / 2 * t)) : ℝ) : ℂ) = 2 * (Real.cos (o * t) : ℂ) := by
      rw [show 2 * ((1 : ℕ) : ℝ) * (o / 2 * t) = o * t by push_cast; ring]; push_cast; rfl
    rw [hset, Finset.sum_pair (by omega)]
    have hIcc : Finset.Icc 1 (a.length - 1) = {1} := by simp [hlen]
    rw [hIcc, Finset.sum_singleton, Finset.sum_singleton]
    have hmat : ∀ (y : Fin 3 → ℂ), (hillMatrix a (o / 2 * t)).mulVec y k =
        ∑ j, ((16 * (sys.rfScale m q l o).2 ^ 2 * electricalAt sys.els .dc [k, j] x : ℝ) : ℂ) * y j +
        ∑ j, 2 * (Real.cos (o * t) : ℂ) * ((8 * (sys.rfScale m q l o).2 ^ 2 * electricalAt sys.els .rf [k, j] x : ℝ) : ℂ) * y j := by
      intro y
      unfold hillMatrix
      rw [hIcc, Finset.sum_singleton, Matrix.add_mulVec, Pi.add_apply, ht1]
      simp only [← ha0, ← ha1]
      rfl
    rw [hmat]
    have e1 : ∀ k', c ((r : ℤ) + 1 + ((1 : ℕ) : ℤ)) k' + c ((r : ℤ) + 1 - ((1 : ℕ) : ℤ)) k' = c r k' := by
      intro k'
      rw [hout _ (by rw [lt_abs]; omega), zero_add]
      congr 1
      omega
    have e2 : ∀ k', c (-((r : ℤ) + 1) + ((1 : ℕ) : ℤ)) k' + c (-((r : ℤ) + 1) - ((1 : ℕ) : ℤ)) k' = c (-r) k' := by
      intro k'
      rw [hout (-((r : ℤ) + 1) - ((1 : ℕ) : ℤ)) (by rw [lt_abs]; omega), add_zero]
      congr 1
      omega
    have e1' := funext e1
    have e2' := funext e2
    rw [e1', e2']
    have hmv : ∀ y : Fin 3 → ℂ, (a.getD 1 0).mulVec y k =
        ∑ j, ((8 * (sys.rfScale m q l o).2 ^ 2 * electricalAt sys.els .rf [k, j] x : ℝ) : ℂ) * y j := fun y => by
      simp only [← ha1]
      rfl
    rw [hmv, hmv]
    have x1 : exp ((mu j + 2 * I * (((r : ℤ) + 1 : ℤ) : ℂ)) * ((o / 2 * t : ℝ) : ℂ)) = exp ((mu j / 2 + I * (r + 1)) * (o * t)) := by
      congr 1; push_cast; ring
    have x2 : exp ((mu j + 2 * I * ((-((r : ℤ) + 1) : ℤ) : ℂ)) * ((o / 2 * t : ℝ) : ℂ)) = exp ((mu j / 2 - I * (r + 1)) * (o * t)) := by
      congr 1; push_cast; ring
    rw [x1, x2]
    simp only [hX, hs, Fin.sum_univ_three]
    push_cast
    field_simp
    ring

/-- the modes returned: with `sorted`, those of the exponents with nonnegative imaginary part, each once, by ascending
imaginary part -/
theorem c73_sorted (eig : Eig) (argsort : Argsort) (hsort : IsArgsort argsort) (s : List Elec) (x : V3) (scale : ℝ) (r : Nat) (L)
    (h : sysMathieu eig argsort s x scale r true = .ok L) :
    ∃ all, sysMathieu eig argsort s x scale r false = .ok all ∧ all.length = 6 * (2 * r + 1) ∧
      (open Classical in L.Perm (all.filter fun q => 0 ≤ q.1.im)) ∧ (L.map fun q => q.1.im).Pairwise (· ≤ ·) := by
  classical
  obtain ⟨mu, b, hmu, rfl⟩ := sysMathieu_inv eig argsort s x scale r true L h
  have hall : ∃ all, sysMathieu eig argsort s x scale r false = .ok all := by
    unfold sysMathieu at h ⊢
    cases hdc : electricalPotential s [x] 2 .dc true with
    | error e => rw [hdc] at h; cases h
    | ok dc =>
      cases hrf : electricalPotential s [x] 2 .rf true with
      | error e => rw [hdc, hrf] at h; cases h
      | ok rf => exact ⟨_, rfl⟩
  obtain ⟨all, hall⟩ := hall
  obtain ⟨mu', b', hmu', hall'⟩ := sysMathieu_inv eig argsort s x scale r false all hall
  rw [hmu] at hmu'
  simp only [Except.ok.injEq, Prod.mk.injEq] at hmu'
  obtain ⟨rfl, rfl⟩ := hmu'
  refine ⟨all, hall, ?_, ?_, ?_⟩
  · rw [hall']
    simp only [sortModes, Bool.false_eq_true, if_false, List.length_map, List.length_finRange]
    ring
  · rw [hall']
    simp only [sortModes, if_true, Bool.false_eq_true, if_false]
    generalize (List.finRange ((2 * r + 1) * 2 * 3)).map (fun j => ((mu j, fun i => b i j) : ℂ × (Fin ((2 * r + 1) * 2 * 3) → ℂ))) = B
    rw [List.filter_map (l := B)]
    refine List.Perm.map _ ?_
    refine (takeIdx_perm _ _ ?_).trans (List.Perm.of_eq ?_)
    · have := (hsort (List.map (fun q => q.1.im) (List.filter (fun q => decide (0 ≤ q.1.im)) B))).1
      rwa [List.length_map] at this
    · refine List.filter_congr fun q _ => ?_
      have : 0 ≤ q.1.im ↔ 0 ≤ q.1.im / 2 := ⟨fun h => by linarith, fun h => by linarith⟩
      simp [this]
  · simp only [sortModes, if_true, List.map_map]
    set B := ((List.finRange ((2 * r + 1) * 2 * 3)).map fun j => ((mu j, fun i => b i j) : ℂ × (Fin ((2 * r + 1) * 2 * 3) → ℂ))).filter
      fun q => decide (0 ≤ q.1.im)
    obtain ⟨hp, hord⟩ := hsort (B.map fun q => q.1.im)
    have hlt : ∀ k ∈ argsort (B.map fun q => q.1.im), k < (B.map fun q => q.1.im).length :=
      fun k hk => by simpa using hp.mem_iff.1 hk
    rw [← takeIdx_eq _ 0 _ hlt, takeIdx_map] at hord
    rw [List.pairwise_map] at hord ⊢
    refine hord.imp fun {a b} hab => ?_
    simp only [Function.comp_apply]
    have e : ∀ z : ℂ, (z / 2).im = z.im / 2 := fun z => by simp
    rw [e, e]
    linarith

/-- a system for which all of this succeeds: a cover electrode -/
example : ∃ (eigh : Eigh) (argsort : Argsort) (ew : List ℝ) (ev : List (Fin 3 → ℝ)), IsEigh eigh ∧ IsArgsort argsort ∧
    modes eigh argsort ⟨[⟨"a", 1, 2, .cover 1⟩], some 3⟩ ⟨0, 0, 1⟩ true = .ok (ew, ev) := by
  obtain ⟨eigh, h1⟩ := exists_isEigh
  obtain ⟨argsort, h2⟩ := exists_isArgsort
  have hav : ∀ d typ, AvailAll [⟨"a", 1, 2, .cover 1⟩] d typ := fun d typ e he _ => by
    simp only [List.mem_singleton] at he
    subst he
    trivial
  have hp : ∃ r, (⟨[⟨"a", 1, 2, .cover 1⟩], some 3⟩ : Sys).potential [⟨0, 0, 1⟩] 2 .tot = .ok r :=
    (c34_errors _ _ _ _).2 ⟨by decide, ⟨_, electrical_expand_eq _ _ 2 (by norm_num) .dc (hav _ _)⟩,
      _, pseudo_eq _ 3 _ 2 (by norm_num) fun i _ _ => hav i .rf⟩
  obtain ⟨r, hr⟩ := (c43_fails eigh argsort _ ⟨0, 0, 1⟩ true).2 hp
  exact ⟨eigh, argsort, r.1, r.2, h1, h2, hr⟩

/-- the same for the Floquet modes: all `30` exponents, and each of them with its motion -/
example : ∃ (eig : Eig) (argsort : Argsort) (L : List (ℂ × (Fin ((2 * 2 + 1) * 2 * 3) → ℂ))), IsEig eig ∧ IsArgsort argsort ∧
    sysMathieu eig argsort [⟨"a", 1, 2, .cover 1⟩] ⟨0, 0, 1⟩ ((⟨[], none⟩ : Sys).rfScale 1 1 1 1).2 2 false = .ok L ∧ L.length = 30 := by
  obtain ⟨eig, h1⟩ := exists_isEig
  obtain ⟨argsort, h2⟩ := exists_isArgsort
  have hav : ∀ d typ, AvailAll [⟨"a", 1, 2, .cover 1⟩] d typ := fun d typ e he _ => by
    simp only [List.mem_singleton] at he
    subst he
    trivial
  have : ∃ L, sysMathieu eig argsort [⟨"a", 1, 2, .cover 1⟩] ⟨0, 0, 1⟩ ((⟨[], none⟩ : Sys).rfScale 1 1 1 1).2 2 true = .ok L := by
    unfold sysMathieu
    rw [electrical_expand_eq _ _ 2 (by norm_num) .dc (hav _ _), electrical_expand_eq _ _ 2 (by norm_num) .rf (hav _ _)]
    exact ⟨_, rfl⟩
  obtain ⟨L, hL⟩ := this
  obtain ⟨all, ha, hl, -⟩ := c73_sorted eig argsort h2 _ _ _ _ _ hL
  exact ⟨eig, argsort, all, h1, h2, ha, hl⟩

end Electrode
