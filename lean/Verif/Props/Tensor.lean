import Verif.Lemmas.Tensor
import Verif.Lemmas.Rotate
import Mathlib.LinearAlgebra.Matrix.Notation

/-
Properties C01-C09: tensor tables and helpers of `electrode/utils.py`.
-/
namespace Electrode
open Spec

variable {R : Type*} [CommRing R]

/-! ### C01 -/

/-- C01. For every order `k ≤ 5` and every reduced row `c` of `2k+1` numbers,
`expand_tensor(c)` succeeds with `3^k` numbers and `select_tensor` of it is `c`. -/
theorem c01_select_expand (k : Nat) (hk : k ≤ 5) (c : List R) (hc : c.length = 2 * k + 1) :
    ∃ t, expandTensor c = .ok t ∧ t.length = 3 ^ k ∧ selectTensor t k = .ok c := by
  refine ⟨fullOf k c, expandTensor_full k (by omega) c hc, fullOf_length k c, ?_⟩
  rw [selectTensor_sel k (by omega) _ (fullOf_length k c), selOf_fullOf k (by omega) c hc]

/-- order 6 and above are not in the tables: `expand_tensor` raises `IndexError`. -/
theorem c01_expand_out_of_range (k : Nat) (hk : 6 ≤ k) (c : List R) (hc : c.length = 2 * k + 1) :
    expandTensor c = .error .indexError := by
  have ho : (none : Option Nat).getD ((c.length - 1) / 2) = k := by simp [hc]
  have hlen : expandMap.length = 6 := by decide +kernel
  have h0 : k ≠ 0 := by omega
  have h1 : k ≠ 1 := by omega
  unfold expandTensor
  simp only [ho, h0, h1, if_false]
  rw [List.getElem?_eq_none (by omega)]

example : expandTensor ([1, 2, 3, 4, 5] : List ℤ) = .ok [1, 2, 3, 2, 4, 5, 3, 5, -5] := by decide +kernel
example : selectTensor ([1, 2, 3, 2, 4, 5, 3, 5, -5] : List ℤ) 2 = .ok [1, 2, 3, 4, 5] := by decide +kernel

/-! ### C02 -/

/-- C02. The expanded tensor is symmetric and traceless and its selected entries are
`c`; and it is the only such tensor. -/
theorem c02_expand_unique (k : Nat) (hk : k ≤ 5) (c : List R) (hc : c.length = 2 * k + 1) (t : List R) :
    expandTensor c = .ok t ↔
      t.length = 3 ^ k ∧ Spec.Symmetric k (entry t) ∧ Traceless k (entry t) ∧ selectTensor t k = .ok c := by
  rw [expandTensor_full k (by omega) c hc]
  constructor
  · intro h
    injection h with h
    subst h
    refine ⟨fullOf_length k c, fullOf_symmetric k c, fullOf_traceless k (by omega) c hc, ?_⟩
    rw [selectTensor_sel k (by omega) _ (fullOf_length k c), selOf_fullOf k (by omega) c hc]
  · rintro ⟨hl, hs, ht, hsel⟩
    rw [selectTensor_sel k (by omega) t hl] at hsel
    injection hsel with hsel
    rw [← hsel, fullOf_selOf k (by omega) t hl hs ht]

/-- C02, second direction of the round trip: for a symmetric traceless tensor,
selecting and expanding gives the tensor back. -/
theorem c02_expand_select (k : Nat) (hk : k ≤ 5) (t : List R) (ht : t.length = 3 ^ k)
    (hs : Spec.Symmetric k (entry t)) (htr : Traceless k (entry t)) :
    ∃ c, selectTensor t k = .ok c ∧ c.length = 2 * k + 1 ∧ expandTensor c = .ok t := by
  refine ⟨selOf k t, selectTensor_sel k (by omega) t ht, by simp [selOf], ?_⟩
  rw [expandTensor_full k (by omega) _ (by simp [selOf]), fullOf_selOf k (by omega) t ht hs htr]

example : Spec.Symmetric 2 (entry ([1, 2, 3, 2, 4, 5, 3, 5, -5] : List ℤ)) ∧
    Traceless 2 (entry ([1, 2, 3, 2, 4, 5, 3, 5, -5] : List ℤ)) :=
  have h := (c02_expand_unique 2 (by norm_num) ([1, 2, 3, 4, 5] : List ℤ) rfl
    [1, 2, 3, 2, 4, 5, 3, 5, -5]).1 (by decide +kernel)
  ⟨h.2.1, h.2.2.1⟩

/-! ### C03 -/

/-- C03. For axis tuples of any length: every pair yielded by `find_laplace` completes a
vanishing Laplace sum for every symmetric traceless tensor. -/
theorem c03_find_laplace_sound (c a b : Idx) (h : (a, b) ∈ findLaplace c) (T : Idx → R)
    (hs : Spec.Symmetric c.length T) (ht : Traceless c.length T) : T a + T b + T c = 0 :=
  findLaplace_sum hs ht h

/-- C03. The number of pairs is the number of axes occurring at least twice. -/
theorem c03_find_laplace_count (c : Idx) :
    (findLaplace c).length = (([0, 1, 2] : List Axis).filter fun i => 2 ≤ c.count i).length :=
  findLaplace_length c

/-- C03. For each axis occurring at least twice the pair obtained by replacing two of its
occurrences by the other two axes is yielded, with sorted tuples. -/
theorem c03_find_laplace_complete (c keep : Idx) (i j k : Axis) (hc : c.Perm (i :: i :: keep))
    (hijk : [i, j, k] = [0, 1, 2] ∨ [i, j, k] = [1, 0, 2] ∨ [i, j, k] = [2, 0, 1]) :
    ∃ a b, (a, b) ∈ findLaplace c ∧ a.Perm (j :: j :: keep) ∧ b.Perm (k :: k :: keep) ∧
      a.Pairwise (· ≤ ·) ∧ b.Pairwise (· ≤ ·) := by
  have hcount : 2 ≤ (sortIdx c).count i := by
    rw [(sortIdx_perm c).count_eq, hc.count_eq]; simp
  have hk : (((sortIdx c).erase i).erase i).Perm keep := by
    have h1 := (((sortIdx_perm c).trans hc).erase i).erase i
    simpa using h1
  have key : ∀ m : Axis, (sortIdx (((sortIdx c).erase i).erase i ++ [m, m])).Perm (m :: m :: keep) := fun m =>
    (sortIdx_perm _).trans ((List.perm_append_comm (l₂ := [m, m])).trans ((hk.cons m).cons m))
  refine ⟨sortIdx (((sortIdx c).erase i).erase i ++ [j, j]), sortIdx (((sortIdx c).erase i).erase i ++ [k, k]),
    ?_, key j, key k, sortIdx_sorted _, sortIdx_sorted _⟩
  unfold findLaplace
  simp only [List.mem_flatMap]
  refine ⟨i, by fin_cases i <;> simp, ?_⟩
  rw [if_pos hcount]
  rcases hijk with h | h | h <;>
  · simp only [List.cons.injEq, and_true] at h
    obtain ⟨rfl, rfl, rfl⟩ := h
    simp

example : findLaplace [2, 0, 0, 2] = [([1, 1, 2, 2], [2, 2, 2, 2]), ([0, 0, 0, 0], [0, 0, 1, 1])] := by
  decide

/-! ### C04 -/

/-- C04. `idx_to_nidx` is the row-major position. -/
theorem c04_nidx_row_major (l : Idx) : idxToNidx l = rowMajor l := idxToNidx_eq l

/-- C04. For every `n`, `idx_to_nidx` is a bijection from axis tuples of length `n` onto
`0 … 3^n-1`. -/
theorem c04_nidx_bijective (n m : Nat) (hm : m < 3 ^ n) :
    ∃! l : Idx, l.length = n ∧ idxToNidx l = m := by
  obtain ⟨l, hl, hr⟩ := rowMajor_surj n m hm
  refine ⟨l, ⟨hl, by rw [idxToNidx_eq, hr]⟩, ?_⟩
  rintro l' ⟨hl', hr'⟩
  rw [idxToNidx_eq] at hr'
  exact rowMajor_inj (by rw [hl, hl']) (by rw [hr, hr'])

theorem c04_nidx_lt (l : Idx) : idxToNidx l < 3 ^ l.length := by
  rw [idxToNidx_eq]; exact rowMajor_lt l

/-- C04. The order of `itertools.product`, in which the expanded tensor is filled, is the
order of `idx_to_nidx`. -/
theorem c04_product_order (n : Nat) (l : Idx) (h : l.length = n) :
    (productIdx n)[idxToNidx l]? = some l := by
  rw [idxToNidx_eq, productIdx_eq]; exact tuples_get n l h

/-- C04. `name_to_idx` accepts exactly the words over x, y, z … -/
theorem c04_name_to_idx (s : Name) (l : Idx) : nameToIdx s = .ok l ↔ s = l.map axisLetter :=
  ⟨nameToIdx_ok, fun h => by rw [h, nameToIdx_map]⟩

/-- C04. … and raises `ValueError` otherwise. -/
theorem c04_name_to_idx_error (s : Name) (c : Char) (hc : c ∈ s) (hx : c ∉ xyz) :
    nameToIdx s = .error .valueError := by
  apply pySeq_map_error s letterToAxis .valueError c hc
  · simp [xyz] at hx
    simp [letterToAxis, hx]
  · intro b _ e' h
    unfold letterToAxis at h
    split_ifs at h <;> cases h
    rfl

/-- C04. `idx_to_name(name_to_idx(s))` is `s` with its letters sorted. -/
theorem c04_name_round_trip (s : Name) (l : Idx) (h : nameToIdx s = .ok l) :
    (idxToName l).Perm s ∧ nameToIdx (idxToName l) = .ok (sortIdx l) ∧ (sortIdx l).Pairwise (· ≤ ·) := by
  refine ⟨?_, nameToIdx_map _, sortIdx_sorted l⟩
  rw [nameToIdx_ok h]
  exact (sortIdx_perm l).map _

example : nameToIdx ['z', 'x', 'y'] = .ok [2, 0, 1] ∧ idxToName [2, 0, 1] = ['x', 'y', 'z'] ∧
    idxToNidx [2, 0, 1] = 19 := by decide

/-! ### C05 -/

theorem derivativeNames_length : derivativeNames.length = 6 := by decide

theorem derivativeNames_get? (k : Nat) (hk : k < 6) :
    derivativeNames[k]? = some (derivativeNames.getD k []) := by
  rw [List.getD_eq_getElem?_getD, List.getElem?_eq_getElem (by rw [derivativeNames_length]; exact hk)]
  rfl

theorem table_name_length : ∀ k < 6, ∀ s ∈ derivativeNames.getD k [], s.length = k := by decide +kernel

/-- C05. `name_to_deriv` and `deriv_to_name` are inverse to each other. -/
theorem c05_name_deriv_inverse (s : Name) (k i : Nat) :
    nameToDeriv s = .ok (k, i) ↔ derivToName k i = .ok s := by
  constructor
  · intro h
    unfold nameToDeriv at h
    cases hn : derivativeNames[s.length]? with
    | none => simp [hn] at h
    | some names =>
      simp only [hn] at h
      split_ifs at h with hmem
      injection h with h
      injection h with h1 h2
      subst h1 h2
      unfold derivToName
      simp only [hn]
      rw [List.getElem?_eq_getElem (List.idxOf_lt_length_iff.2 hmem)]
      simp
  · intro h
    unfold derivToName at h
    by_cases hk : k < 6
    · rw [derivativeNames_get? k hk] at h
      simp only at h
      cases hi : (derivativeNames.getD k [])[i]? with
      | none => rw [hi] at h; simp at h
      | some n =>
        simp only [hi] at h
        injection h with h
        subst h
        have hmem : n ∈ derivativeNames.getD k [] := List.mem_of_getElem? hi
        have hlen := table_name_length k hk n hmem
        unfold nameToDeriv
        simp only [hlen, derivativeNames_get? k hk]
        rw [if_pos hmem]
        have hlt : i < (derivativeNames.getD k []).length := (List.getElem?_eq_some_iff.1 hi).1
        have he : (derivativeNames.getD k [])[i] = n := (List.getElem?_eq_some_iff.1 hi).2
        have hnd := table_names_nodup k hk
        rw [← he, hnd.idxOf_getElem]
    · rw [List.getElem?_eq_none (by rw [derivativeNames_length]; omega)] at h
      simp at h

/-- C05. A pair has a name exactly when `order ≤ 5` and `index < 2 * order + 1`; otherwise
`KeyError`. -/
theorem c05_deriv_to_name_domain (k i : Nat) :
    (k ≤ 5 ∧ i < 2 * k + 1 → ∃ s, derivToName k i = .ok s ∧ s.length = k) ∧
    (¬ (k ≤ 5 ∧ i < 2 * k + 1) → derivToName k i = .error .keyError) := by
  unfold derivToName
  constructor
  · rintro ⟨hk, hi⟩
    have hk' : k < 6 := by omega
    rw [derivativeNames_get? k hk']
    have hl := table_names_length k hk'
    simp only
    rw [List.getElem?_eq_getElem (by rw [hl]; exact hi)]
    exact ⟨_, rfl, table_name_length k hk' _ (List.getElem_mem _)⟩
  · intro h
    by_cases hk : k < 6
    · rw [derivativeNames_get? k hk]
      have hl := table_names_length k hk
      simp only
      rw [List.getElem?_eq_none (by rw [hl]; omega)]
    · rw [List.getElem?_eq_none (by rw [derivativeNames_length]; omega)]

/-- C05. Names outside the list raise `KeyError`. -/
theorem c05_name_to_deriv_unknown (s : Name) (h : ∀ k i, derivToName k i ≠ .ok s) :
    nameToDeriv s = .error .keyError := by
  cases hd : nameToDeriv s with
  | ok p => exact absurd ((c05_name_deriv_inverse s p.1 p.2).1 hd) (h _ _)
  | error e =>
    unfold nameToDeriv at hd
    split at hd
    · simpa using hd.symm
    · split_ifs at hd; simpa using hd.symm

example : nameToDeriv ['x', 'y', 'z'] = .ok (3, 6) ∧ nameToDeriv ['z', 'z'] = .error .keyError := by
  decide +kernel

/-! ### C06 -/

def isOkPerm (k i : Nat) : Bool :=
  match constructDerivative k i with
  | .ok ((k', j), a) =>
    k' + 1 == k && decide (a < 3) &&
    match derivToName k i, derivToName k' j with
    | .ok s, .ok s' =>
      match nameToIdx s, nameToIdx s' with
      | .ok l, .ok l' => decide (l.Perm (l' ++ [⟨a % 3, Nat.mod_lt _ (by decide)⟩]))
      | _, _ => false
    | _, _ => false
  | .error _ => false

theorem table_construct : ∀ k < 6, 1 ≤ k → ∀ i < 2 * k + 1, isOkPerm k i = true := by decide +kernel

omit [CommRing R] in
/-- C06. `construct_derivative(k, i)` names component `j` of order `k-1` and an axis such
that, for every symmetric family `D` of iterated partial derivatives (`D` of an axis tuple,
invariant under reordering), differentiating component `j` once more along the axis is
component `i` of order `k`. -/
theorem c06_construct_derivative (k i : Nat) (h1 : 1 ≤ k) (hk : k ≤ 5) (hi : i < 2 * k + 1) :
    ∃ (j : Nat) (a : Axis) (s s' : Name) (l l' : Idx),
      constructDerivative k i = .ok ((k - 1, j), a.val) ∧
      derivToName k i = .ok s ∧ nameToIdx s = .ok l ∧
      derivToName (k - 1) j = .ok s' ∧ nameToIdx s' = .ok l' ∧
      ∀ D : Idx → R, (∀ m m' : Idx, m.Perm m' → D m = D m') → D (l' ++ [a]) = D l := by
  have h := table_construct k (by omega) h1 i hi
  unfold isOkPerm at h
  cases hc : constructDerivative k i with
  | error e => simp [hc] at h
  | ok p =>
    obtain ⟨⟨k', j⟩, a⟩ := p
    rw [hc] at h
    simp only [Bool.and_eq_true, beq_iff_eq, decide_eq_true_eq] at h
    obtain ⟨⟨hk', ha⟩, h⟩ := h
    have hkk : k' = k - 1 := by omega
    subst hkk
    cases hs : derivToName k i with
    | error e => simp [hs] at h
    | ok s =>
      cases hs' : derivToName (k - 1) j with
      | error e => simp [hs, hs'] at h
      | ok s' =>
        simp only [hs, hs'] at h
        cases hl : nameToIdx s with
        | error e => simp [hl] at h
        | ok l =>
          cases hl' : nameToIdx s' with
          | error e => simp [hl, hl'] at h
          | ok l' =>
            simp only [hl, hl', decide_eq_true_eq] at h
            refine ⟨j, ⟨a, ha⟩, s, s', l, l', rfl, rfl, hl, hs', hl', ?_⟩
            intro D hD
            have : (⟨a % 3, Nat.mod_lt _ (by decide)⟩ : Axis) = ⟨a, ha⟩ := by
              apply Fin.ext; simp [Nat.mod_eq_of_lt ha]
            rw [this] at h
            exact (hD _ _ h).symm

/-- C06. Everything else raises `KeyError`. -/
theorem c06_construct_derivative_error (k i : Nat) (h : ¬ (1 ≤ k ∧ k ≤ 5 ∧ i < 2 * k + 1)) :
    constructDerivative k i = .error .keyError := by
  unfold constructDerivative
  cases k with
  | zero => rfl
  | succ d =>
    simp only
    by_cases hd : d + 1 < 6
    · rw [derivativeNames_get? (d + 1) hd, derivativeNames_get? d (by omega)]
      have hl := table_names_length (d + 1) hd
      simp only
      rw [List.getElem?_eq_none (by rw [hl]; omega)]
    · rw [List.getElem?_eq_none (by rw [derivativeNames_length]; omega)]

example : constructDerivative 3 6 = .ok ((2, 4), 0) := by decide +kernel

/-! ### C07 -/

/-- C07. For every axis tuple `l` (a name with letters in any order) of length `k ≤ 5`,
`deriv_to_reduced_idx` designates in a reduced row the entry of the expanded tensor at `l`. -/
theorem c07_deriv_to_reduced_idx (l : Idx) (hk : l.length ≤ 5) (c t : List R)
    (hc : c.length = 2 * l.length + 1) (ht : expandTensor c = .ok t) :
    (∃ i, derivToReducedIdx (l.map axisLetter) = .ok (.one i) ∧ pyGet c i = .ok (entry t l)) ∨
    (∃ i j a b, derivToReducedIdx (l.map axisLetter) = .ok (.lap i j) ∧ pyGet c i = .ok a ∧
      pyGet c j = .ok b ∧ entry t l = -a - b) := by
  have hk' : l.length < 6 := by omega
  rw [expandTensor_full l.length hk' c hc] at ht
  injection ht with ht
  subst ht
  have hsel : derivToReducedIdx (l.map axisLetter) = .ok (entrySel l.length l) := by
    unfold derivToReducedIdx
    rw [nameToIdx_map]
    simp only [List.length_map, expandMap_get l.length hk', idxToNidx_eq]
    simp [pyGet, tuples_get l.length l rfl]
  have hr := table_in_range l.length hk' l (by rw [productIdx_eq, mem_tuples])
  rw [entry_fullOf l.length c l rfl, hsel]
  rw [← hc] at hr
  cases hs : entrySel l.length l with
  | one i =>
    left
    rw [hs] at hr
    simp only [selInRange, decide_eq_true_eq] at hr
    exact ⟨i, rfl, pyGet_ok c i 0 hr⟩
  | lap i j =>
    right
    rw [hs] at hr
    simp only [selInRange, Bool.and_eq_true, decide_eq_true_eq] at hr
    exact ⟨i, j, _, _, rfl, pyGet_ok c i 0 hr.1, pyGet_ok c j 0 hr.2, rfl⟩

theorem c07_too_long (l : Idx) (hk : 6 ≤ l.length) :
    derivToReducedIdx (l.map axisLetter) = .error .indexError := by
  have hlen : expandMap.length = 6 := by decide +kernel
  unfold derivToReducedIdx
  rw [nameToIdx_map]
  simp only [List.length_map]
  rw [List.getElem?_eq_none (by omega)]

example : derivToReducedIdx ['z', 'x', 'z', 'y'] = .ok (.lap 0 4) := by decide +kernel
example : derivToReducedIdx ['y', 'x'] = .ok (.one 1) := by decide +kernel

/-! ### C08 -/

/-- C08. `rotate_tensor` with all tensor axes is the full contraction of every axis with `r`. -/
theorem c08_rotate_contraction (rank : Nat) (hr : 1 ≤ rank) (c : NArr R) (r : Matrix Axis Axis R) (js : Idx)
    (hj : js.length = rank) : rotateTensor rank c r none js = contraction c r js := by
  rw [contractRec_eq]
  unfold rotateTensor
  have := rotate_steps r c rank [] js hj (rank - 1) (by simp; omega)
  simpa using this

/-- C08. With `order` given, only the last `order` axes are rotated. -/
theorem c08_rotate_order (rank order : Nat) (hr : 1 ≤ rank) (c : NArr R)
    (r : Matrix Axis Axis R) (pre js : Idx) (hj : js.length = order) (hp : pre.length + order = rank) :
    rotateTensor rank c r (some order) (pre ++ js) = contraction (fun ks => c (pre ++ ks)) r js := by
  rw [contractRec_eq]
  unfold rotateTensor
  exact rotate_steps r c order pre js hj (rank - 1) (by omega)

/-- C08. Rotating by `r` and then by `s` is rotating by the matrix product `r s`. -/
theorem c08_rotate_comp (rank : Nat) (hr : 1 ≤ rank) (c : NArr R) (r s : Matrix Axis Axis R) (js : Idx)
    (hj : js.length = rank) :
    rotateTensor rank (rotateTensor rank c r none) s none js = rotateTensor rank c (r * s) none js := by
  rw [c08_rotate_contraction rank hr _ _ js hj, c08_rotate_contraction rank hr _ _ js hj, contractRec_eq,
    contractRec_eq, ← contractRec_comp]
  apply contractRec_congr
  intro ks hks
  rw [c08_rotate_contraction rank hr _ _ ks (by omega), contractRec_eq]

/-- C08. Rotating by an orthogonal matrix and then by its transpose gives the tensor back. -/
theorem c08_rotate_round_trip (rank : Nat) (hr : 1 ≤ rank) (c : NArr R) (r : Matrix Axis Axis R)
    (ho : r * r.transpose = 1) (js : Idx) (hj : js.length = rank) :
    rotateTensor rank (rotateTensor rank c r none) r.transpose none js = c js := by
  rw [c08_rotate_comp rank hr c r _ js hj, ho, c08_rotate_contraction rank hr _ _ js hj, contractRec_eq,
    contractRec_one]

/-- quarter turn about z followed by a mirror-free relabelling: a non-symmetric rotation -/
def exRot : Matrix Axis Axis ℤ := !![0, -1, 0; 1, 0, 0; 0, 0, 1]

example : exRot * exRot.transpose = 1 := by decide
example : rotateTensor 2 (fun l => (idxToNidx l : ℤ)) exRot none [0, 1] = -3 := by decide

/-! ### C09 -/

/-- C09. Rotation by an orthogonal matrix keeps a tensor symmetric and traceless. -/
theorem c09_rotate_harmonic (rank : Nat) (hr : 1 ≤ rank) (c : NArr R) (r : Matrix Axis Axis R)
    (ho : r * r.transpose = 1) (hs : Spec.Symmetric rank c) (ht : Traceless rank c) :
    Spec.Symmetric rank (rotateTensor rank c r none) ∧ Traceless rank (rotateTensor rank c r none) := by
  have e : ∀ js : Idx, js.length = rank → rotateTensor rank c r none js = contractRec r c js := by
    intro js hj
    rw [c08_rotate_contraction rank hr c r js hj, contractRec_eq]
  constructor
  · intro l l' hl hp
    rw [e l hl, e l' (by rw [← hp.length_eq]; exact hl)]
    exact contractRec_symmetric r rank c hs l l' hl hp
  · intro a b d hl
    rw [← contractRec_traceless r ho rank c hs ht a b d hl]
    refine Finset.sum_congr rfl fun i _ => e _ (by simp; omega)

/-- C09. Consequently a rotated derivative tensor survives `select_tensor` and
`expand_tensor`: with `t` the flat rotated tensor of an expanded reduced row, nothing is
lost. -/
theorem c09_rotate_select_expand (k : Nat) (h1 : 1 ≤ k) (hk : k ≤ 5) (c t : List R) (r : Matrix Axis Axis R)
    (ho : r * r.transpose = 1) (hc : c.length = 2 * k + 1) (hexp : expandTensor c = .ok t) (t' : List R)
    (hl : t'.length = 3 ^ k) (ht' : ∀ l : Idx, l.length = k → entry t' l = rotateTensor k (entry t) r none l) :
    ∃ c', selectTensor t' k = .ok c' ∧ expandTensor c' = .ok t' := by
  obtain ⟨_, hs, htr, _⟩ := (c02_expand_unique k hk c hc t).1 hexp
  obtain ⟨h2, h3⟩ := c09_rotate_harmonic k h1 (entry t) r ho hs htr
  obtain ⟨c', ha, _, hb⟩ := c02_expand_select k hk t' hl
    (fun l l' hl hp => by rw [ht' l hl, ht' l' (by rw [← hp.length_eq]; exact hl)]; exact h2 l l' hl hp)
    (fun a b d hl => by
      rw [← h3 a b d hl]
      exact Finset.sum_congr rfl fun i _ => ht' _ (by simp; omega))
  exact ⟨c', ha, hb⟩

end Electrode
