import Verif.Lemmas.Inverse
import Verif.Props.Compiled
import Mathlib.LinearAlgebra.Matrix.NonsingularInverse
import Mathlib.LinearAlgebra.Matrix.ToLinearEquiv

/-
C104: `inverse_matrix` as compiled, for square arrays of every size.
-/
namespace Electrode

/-- the array with the entries of a matrix -/
noncomputable def arrMat {n : Nat} (M : Matrix (Fin n) (Fin n) ℝ) : Arr := fun i j =>
  if h : i < n ∧ j < n then M ⟨i, h.1⟩ ⟨j, h.2⟩ else 0

/-- the matrix with the entries of an array -/
def matArr (n : Nat) (X : Arr) : Matrix (Fin n) (Fin n) ℝ := fun i j => X i j

theorem arrMat_apply {n : Nat} (M : Matrix (Fin n) (Fin n) ℝ) (i j : Fin n) : arrMat M i j = M i j := by
  unfold arrMat; rw [dif_pos ⟨i.2, j.2⟩]

theorem mul_matArr {n : Nat} (M : Matrix (Fin n) (Fin n) ℝ) (X : Arr)
    (h : ∀ s i, s < n → i < n → ∑ c ∈ Finset.range n, arrMat M s c * X c i = if s = i then 1 else 0) : M * matArr n X = 1 := by
  ext s i
  have := h s i s.2 i.2
  rw [← Fin.sum_univ_eq_sum_range (fun c => arrMat M s c * X c i)] at this
  simp only [arrMat_apply, Fin.val_inj] at this
  rw [Matrix.mul_apply, Matrix.one_apply, ← this]
  rfl

theorem lu_right {n : Nat} (M : Matrix (Fin n) (Fin n) ℝ) {X : Arr} (h : luInverse n (arrMat M) = some (some X)) (hn : 0 < n) :
    M * matArr n X = 1 := by
  unfold luInverse at h
  rcases hl : luLoop n (arrMat M) (n - 1) with _ | ⟨L, seq⟩
  · rw [hl] at h; simp at h
  · rw [hl] at h
    simp only at h
    by_cases hc : L (n - 1) (n - 1) = 0
    · rw [if_pos hc] at h; simp at h
    · rw [if_neg hc] at h
      have h := Option.some.inj (Option.some.inj h)
      refine mul_matArr M X fun s i hs hi => ?_
      rw [← h]
      exact luInv_solve (luLoop_inv (by omega) hl) hn hc hs hi

/-- a column that makes a change of one column of the matrix singular -/
theorem lu_near {n k : Nat} (M : Matrix (Fin n) (Fin n) ℝ) (hk : k < n) {L : Arr} {seq : Nat → Nat}
    (h : LuInv n k (arrMat M) L seq) :
    ∃ δ : Fin n → ℝ, (∀ s, δ s = 0 ∨ ∃ r, k ≤ r ∧ r < n ∧ δ s = -L r k) ∧
      (M.updateCol ⟨k, hk⟩ fun s => M s ⟨k, hk⟩ + δ s).det = 0 := by
  obtain ⟨x, hx, hz⟩ := luInv_kernel h hk
  have hm : ∀ (s : Fin n) (r : Nat), r < n → seq r = s → ∑ c : Fin n, M s c * x c = if r < k then 0 else L r k := by
    intro s r hr hs
    rw [← hz r hr, ← Fin.sum_univ_eq_sum_range (fun c => arrMat M (seq r) c * x c), hs]
    refine Finset.sum_congr rfl fun c _ => ?_
    rw [arrMat_apply]
  refine ⟨fun s => -∑ c : Fin n, M s c * x c, fun s => ?_, ?_⟩
  · obtain ⟨r, hr, hs⟩ := luInv_surj h s.2
    simp only [hm s r hr hs]
    by_cases hrk : r < k
    · left; rw [if_pos hrk, neg_zero]
    · right; exact ⟨r, by omega, hr, by rw [if_neg hrk]⟩
  · refine Matrix.exists_mulVec_eq_zero_iff.1 ⟨fun c : Fin n => x c, ?_, ?_⟩
    · intro hc
      have := congrFun hc ⟨k, hk⟩
      simp [hx] at this
    · funext s
      have e : ∀ (v : ℝ) (c : Fin n), (if c = ⟨k, hk⟩ then M s ⟨k, hk⟩ + v else M s c) * x c =
          M s c * x c + if c = ⟨k, hk⟩ then v * x c else 0 := by
        intro v c
        by_cases hc : c = ⟨k, hk⟩
        · rw [if_pos hc, if_pos hc, hc]; ring
        · rw [if_neg hc, if_neg hc, add_zero]
      simp only [Matrix.mulVec, dotProduct, Matrix.updateCol_apply, e, Finset.sum_add_distrib, Finset.sum_ite_eq', Finset.mem_univ,
        if_true, hx, mul_one, Pi.zero_apply]
      ring

theorem lu_nan {n : Nat} (M : Matrix (Fin n) (Fin n) ℝ) (h : luInverse n (arrMat M) = some none) (hn : 0 < n) : M.det = 0 := by
  unfold luInverse at h
  rcases hl : luLoop n (arrMat M) (n - 1) with _ | ⟨L, seq⟩
  · rw [hl] at h; simp at h
  · rw [hl] at h
    simp only at h
    by_cases hc : L (n - 1) (n - 1) = 0
    · obtain ⟨δ, hδ, hd⟩ := lu_near M (by omega : n - 1 < n) (luLoop_inv (by omega) hl)
      have h0 : ∀ s, δ s = 0 := by
        intro s
        rcases hδ s with h | ⟨r, h1, h2, h⟩
        · exact h
        · have : r = n - 1 := by omega
          rw [h, this, hc, neg_zero]
      have e : (M.updateCol ⟨n - 1, by omega⟩ fun s => M s ⟨n - 1, by omega⟩ + δ s) = M := by
        ext s c
        rw [Matrix.updateCol_apply]
        split_ifs with hcc
        · rw [h0, add_zero, hcc]
        · rfl
      rwa [e] at hd
    · rw [if_neg hc] at h; simp at h

theorem lu_refused {n : Nat} (M : Matrix (Fin n) (Fin n) ℝ) (h : luInverse n (arrMat M) = none) (hn : 0 < n) :
    ∃ (k : Fin n) (δ : Fin n → ℝ), (∀ s, |δ s| < pivotTol) ∧ (M.updateCol k fun s => M s k + δ s).det = 0 := by
  unfold luInverse at h
  rcases hl : luLoop n (arrMat M) (n - 1) with _ | ⟨L, seq⟩
  · obtain ⟨k, L, seq, hk, hinv, hs⟩ := luLoop_none (by omega) hl
    obtain ⟨δ, hδ, hd⟩ := lu_near M (by omega : k < n) hinv
    refine ⟨⟨k, by omega⟩, δ, fun s => ?_, hd⟩
    rcases hδ s with h | ⟨r, h1, h2, h⟩
    · rw [h, abs_zero]; exact pivotTol_pos
    · rw [h, abs_neg]; exact hs r h1 h2
  · rw [hl] at h
    simp only at h
    split_ifs at h

theorem not_cIsZero {x : ℝ} (h : ¬ cIsZero x = true) : x ≠ 0 := by
  intro h0
  rw [h0] at h
  exact h (by rw [cIsZero_iff, abs_zero]; exact tEps_pos)

theorem inverse22_none (A : Arr) : inverse22 A = none ↔ |A 0 0 * A 1 1 - A 0 1 * A 1 0| < tEps := by
  unfold inverse22
  rw [← cIsZero_iff]
  simp only
  split_ifs with h <;> simp [h]

theorem inverse22_mul (A : Arr) (l : List (List ℝ)) (hl : inverse22 A = some l) (s i : Nat) (hs : s < 2) (hi : i < 2) :
    ∑ c ∈ Finset.range 2, A s c * arrOf l c i = if s = i then 1 else 0 := by
  unfold inverse22 at hl
  simp only at hl
  split_ifs at hl with h
  have h0 := not_cIsZero h
  rw [← Option.some.inj hl]
  obtain ⟨d, hd⟩ : ∃ d, d = A 0 0 * A 1 1 - A 0 1 * A 1 0 := ⟨_, rfl⟩
  rw [← hd] at h0 ⊢
  have hd' : (A 0 0 * A 1 1 - A 0 1 * A 1 0) * d⁻¹ = 1 := by rw [← hd]; exact mul_inv_cancel₀ h0
  interval_cases s <;> interval_cases i <;>
    simp only [Finset.sum_range_succ, Finset.sum_range_zero, arrOf, List.getD_cons_zero, List.getD_cons_succ, zero_ne_one, one_ne_zero,
      if_true, if_false, div_eq_mul_inv] <;>
    first | ring1 | linear_combination hd'

theorem inverse33_none (A : Arr) : inverse33 A = none ↔ |A 0 0 * (A 1 1 * A 2 2 - A 1 2 * A 2 1) -
    A 0 1 * (A 1 0 * A 2 2 - A 1 2 * A 2 0) + A 0 2 * (A 1 0 * A 2 1 - A 1 1 * A 2 0)| < tEps := by
  have e : inverse33 A = none ↔ cIsZero (A 0 0 * (A 2 2 * A 1 1 - A 2 1 * A 1 2) + A 1 0 * (A 2 1 * A 0 2 - A 2 2 * A 0 1) +
      A 2 0 * (A 1 2 * A 0 1 - A 1 1 * A 0 2)) = true := by
    unfold inverse33
    simp only
    split_ifs with h <;> simp [h]
  rw [e, cIsZero_iff]
  ring_nf

theorem inverse33_mul (A : Arr) (l : List (List ℝ)) (hl : inverse33 A = some l) (s i : Nat) (hs : s < 3) (hi : i < 3) :
    ∑ c ∈ Finset.range 3, A s c * arrOf l c i = if s = i then 1 else 0 := by
  unfold inverse33 at hl
  simp only at hl
  split_ifs at hl with h
  have h0 := not_cIsZero h
  rw [← Option.some.inj hl]
  have hd := mul_one_div_cancel h0
  obtain ⟨d, hdd⟩ : ∃ d, d = 1 / (A 0 0 * (A 2 2 * A 1 1 - A 2 1 * A 1 2) + A 1 0 * (A 2 1 * A 0 2 - A 2 2 * A 0 1) +
      A 2 0 * (A 1 2 * A 0 1 - A 1 1 * A 0 2)) := ⟨_, rfl⟩
  rw [← hdd] at hd ⊢
  clear hl h h0 hdd
  interval_cases s <;> interval_cases i <;>
    simp only [Finset.sum_range_succ, Finset.sum_range_zero, arrOf, List.getD_cons_zero, List.getD_cons_succ, zero_ne_one, one_ne_zero,
      if_true, if_false, OfNat.ofNat_ne_zero, OfNat.ofNat_ne_one, OfNat.zero_ne_ofNat, OfNat.one_ne_ofNat, Nat.reduceEqDiff] <;>
    first | ring1 | linear_combination hd

/-- the determinant that `invert_matrix44` computes -/
theorem inverse44_none (M : Matrix (Fin 4) (Fin 4) ℝ) : inverse44 (arrMat M) = none ↔ |M.det| < tEps := by
  have e : inverse44 (arrMat M) = none ↔ cIsZero M.det = true := by
    have ed : M.det = (fun A : Arr =>
      A 0 0 * (A 2 2 * A 3 3 * A 1 1 + A 3 2 * A 1 3 * A 2 1 + A 1 2 * A 2 3 * A 3 1 -
          (A 3 2 * A 2 3 * A 1 1 + A 1 2 * A 3 3 * A 2 1 + A 2 2 * A 1 3 * A 3 1)) +
        A 1 0 * (A 3 2 * A 2 3 * A 0 1 + A 0 2 * A 3 3 * A 2 1 + A 2 2 * A 0 3 * A 3 1 -
          (A 2 2 * A 3 3 * A 0 1 + A 3 2 * A 0 3 * A 2 1 + A 0 2 * A 2 3 * A 3 1)) +
        A 2 0 * (A 1 2 * A 3 3 * A 0 1 + A 3 2 * A 0 3 * A 1 1 + A 0 2 * A 1 3 * A 3 1 -
          (A 3 2 * A 1 3 * A 0 1 + A 0 2 * A 3 3 * A 1 1 + A 1 2 * A 0 3 * A 3 1)) +
        A 3 0 * (A 2 2 * A 1 3 * A 0 1 + A 0 2 * A 2 3 * A 1 1 + A 1 2 * A 0 3 * A 2 1 -
          (A 1 2 * A 2 3 * A 0 1 + A 2 2 * A 0 3 * A 1 1 + A 0 2 * A 1 3 * A 2 1))) (arrMat M) := by
      have h : ∀ i j : Fin 4, M i j = arrMat M i j := fun i j => (arrMat_apply M i j).symm
      rw [Matrix.det_succ_column_zero]
      simp only [Fin.sum_univ_four, Matrix.det_fin_three, Matrix.submatrix_apply, h]
      simp [Fin.succAbove, Fin.lt_def]
      ring
    rw [ed]
    unfold inverse44
    simp only
    split_ifs with h <;> simp [h]
  rw [e, cIsZero_iff]

theorem inverse44_mul (A : Arr) (l : List (List ℝ)) (hl : inverse44 A = some l) (s i : Nat) (hs : s < 4) (hi : i < 4) :
    ∑ c ∈ Finset.range 4, A s c * arrOf l c i = if s = i then 1 else 0 := by
  unfold inverse44 at hl
  simp only at hl
  split_ifs at hl with h
  have h0 := not_cIsZero h
  rw [← Option.some.inj hl]
  have hd := mul_one_div_cancel h0
  obtain ⟨d, hdd⟩ : ∃ d, d = 1 / (A 0 0 * (A 2 2 * A 3 3 * A 1 1 + A 3 2 * A 1 3 * A 2 1 + A 1 2 * A 2 3 * A 3 1 -
          (A 3 2 * A 2 3 * A 1 1 + A 1 2 * A 3 3 * A 2 1 + A 2 2 * A 1 3 * A 3 1)) +
        A 1 0 * (A 3 2 * A 2 3 * A 0 1 + A 0 2 * A 3 3 * A 2 1 + A 2 2 * A 0 3 * A 3 1 -
          (A 2 2 * A 3 3 * A 0 1 + A 3 2 * A 0 3 * A 2 1 + A 0 2 * A 2 3 * A 3 1)) +
        A 2 0 * (A 1 2 * A 3 3 * A 0 1 + A 3 2 * A 0 3 * A 1 1 + A 0 2 * A 1 3 * A 3 1 -
          (A 3 2 * A 1 3 * A 0 1 + A 0 2 * A 3 3 * A 1 1 + A 1 2 * A 0 3 * A 3 1)) +
        A 3 0 * (A 2 2 * A 1 3 * A 0 1 + A 0 2 * A 2 3 * A 1 1 + A 1 2 * A 0 3 * A 2 1 -
          (A 1 2 * A 2 3 * A 0 1 + A 2 2 * A 0 3 * A 1 1 + A 0 2 * A 1 3 * A 2 1))) := ⟨_, rfl⟩
  rw [← hdd] at hd ⊢
  clear hl h h0 hdd
  interval_cases s <;> interval_cases i <;>
    simp only [Finset.sum_range_succ, Finset.sum_range_zero, arrOf, List.getD_cons_zero, List.getD_cons_succ, zero_ne_one, one_ne_zero,
      if_true, if_false, OfNat.ofNat_ne_zero, OfNat.ofNat_ne_one, OfNat.zero_ne_ofNat, OfNat.one_ne_ofNat, Nat.reduceEqDiff] <;>
    first | ring1 | linear_combination hd

/-- C104: what the compiled `inverse_matrix` returns is the inverse of the matrix, whatever its size -/
theorem c104_inverse {n : Nat} (M : Matrix (Fin n) (Fin n) ℝ) {X : Arr} (h : cInverse n (arrMat M) = .ok (some X)) :
    M * matArr n X = 1 ∧ matArr n X * M = 1 := by
  have key : M * matArr n X = 1 := by
    unfold cInverse at h
    simp only at h
    by_cases h4 : n = 4
    · subst h4
      rw [if_pos rfl] at h
      rcases hl : inverse44 (arrMat M) with _ | l
      · rw [hl] at h; simp at h
      · rw [hl] at h
        have h := Option.some.inj (Except.ok.inj h)
        exact mul_matArr M X fun s i hs hi => by rw [← h]; exact inverse44_mul _ l hl s i hs hi
    rw [if_neg h4] at h
    by_cases h3 : n = 3
    · subst h3
      rw [if_pos rfl] at h
      rcases hl : inverse33 (arrMat M) with _ | l
      · rw [hl] at h; simp at h
      · rw [hl] at h
        have h := Option.some.inj (Except.ok.inj h)
        exact mul_matArr M X fun s i hs hi => by rw [← h]; exact inverse33_mul _ l hl s i hs hi
    rw [if_neg h3] at h
    by_cases h2 : n = 2
    · subst h2
      rw [if_pos rfl] at h
      rcases hl : inverse22 (arrMat M) with _ | l
      · rw [hl] at h; simp at h
      · rw [hl] at h
        have h := Option.some.inj (Except.ok.inj h)
        exact mul_matArr M X fun s i hs hi => by rw [← h]; exact inverse22_mul _ l hl s i hs hi
    rw [if_neg h2] at h
    by_cases h1 : n = 1
    · subst h1
      rw [if_pos rfl] at h
      split_ifs at h with hz
      have h := Option.some.inj (Except.ok.inj h)
      refine mul_matArr M X fun s i hs hi => ?_
      obtain rfl : s = 0 := by omega
      obtain rfl : i = 0 := by omega
      rw [← h, Finset.sum_range_one, if_pos rfl]
      exact mul_one_div_cancel (not_cIsZero hz)
    rw [if_neg h1] at h
    by_cases h0 : n = 0
    · rw [if_pos h0] at h; simp at h
    rw [if_neg h0] at h
    rcases hl : luInverse n (arrMat M) with _ | l
    · rw [hl] at h; simp at h
    · rw [hl] at h
      have h := Except.ok.inj h
      rw [h] at hl
      exact lu_right M hl (by omega)
  exact ⟨key, mul_eq_one_comm.1 key⟩

/-- C104: a matrix of at most four rows is refused exactly when its determinant is small -/
theorem c104_small {n : Nat} (M : Matrix (Fin n) (Fin n) ℝ) (h1 : 1 ≤ n) (h4 : n ≤ 4) :
    (|M.det| < tEps ∧ cInverse n (arrMat M) = .error .valueError) ∨
      (tEps ≤ |M.det| ∧ ∃ X, cInverse n (arrMat M) = .ok (some X)) := by
  unfold cInverse
  simp only
  interval_cases n
  · simp only [OfNat.one_ne_ofNat, if_false, if_true]
    have e : arrMat M 0 0 = M.det := by rw [Matrix.det_fin_one]; exact arrMat_apply M 0 0
    rw [e]
    by_cases h : cIsZero M.det = true
    · left; exact ⟨(cIsZero_iff _).1 h, if_pos h⟩
    · right; exact ⟨not_lt.1 fun hc => h ((cIsZero_iff _).2 hc), _, if_neg h⟩
  · simp only [if_true]
    have e := inverse22_none (arrMat M)
    have e' : arrMat M 0 0 * arrMat M 1 1 - arrMat M 0 1 * arrMat M 1 0 = M.det := by rw [Matrix.det_fin_two]; rfl
    rw [e'] at e
    rcases hl : inverse22 (arrMat M) with _ | l
    · left; exact ⟨e.1 hl, rfl⟩
    · right; exact ⟨not_lt.1 fun hc => by rw [e.2 hc] at hl; simp at hl, _, rfl⟩
  · simp only [if_true]
    have e := inverse33_none (arrMat M)
    have e' : arrMat M 0 0 * (arrMat M 1 1 * arrMat M 2 2 - arrMat M 1 2 * arrMat M 2 1) -
        arrMat M 0 1 * (arrMat M 1 0 * arrMat M 2 2 - arrMat M 1 2 * arrMat M 2 0) +
        arrMat M 0 2 * (arrMat M 1 0 * arrMat M 2 1 - arrMat M 1 1 * arrMat M 2 0) = M.det := by
      rw [Matrix.det_fin_three]
      have h : ∀ i j : Fin 3, M i j = arrMat M i j := fun i j => (arrMat_apply M i j).symm
      simp only [h, Fin.val_zero, Fin.val_one, Fin.val_two]
      ring
    rw [e'] at e
    rcases hl : inverse33 (arrMat M) with _ | l
    · left; exact ⟨e.1 hl, rfl⟩
    · right; exact ⟨not_lt.1 fun hc => by rw [e.2 hc] at hl; simp at hl, _, rfl⟩
  · simp only [if_true]
    have e := inverse44_none M
    rcases hl : inverse44 (arrMat M) with _ | l
    · left; exact ⟨e.1 hl, rfl⟩
    · right; exact ⟨not_lt.1 fun hc => by rw [e.2 hc] at hl; simp at hl, _, rfl⟩

theorem cInverse_large {n : Nat} (h : 5 ≤ n) (A : Arr) : cInverse n A = match luInverse n A with
    | none => .error .valueError
    | some r => .ok r := by
  unfold cInverse
  simp only
  rw [if_neg (by omega), if_neg (by omega), if_neg (by omega), if_neg (by omega), if_neg (by omega)]
  rcases luInverse n A with _ | r <;> rfl

/-- C104: larger matrices are refused only if a change of one column by less than 1e-14 makes them singular; so a matrix far from singular
ones is inverted -/
theorem c104_large {n : Nat} (M : Matrix (Fin n) (Fin n) ℝ) (h5 : 5 ≤ n) (hd : M.det ≠ 0) :
    (∃ X, cInverse n (arrMat M) = .ok (some X)) ∨
      (cInverse n (arrMat M) = .error .valueError ∧
        ∃ (k : Fin n) (δ : Fin n → ℝ), (∀ s, |δ s| < 1 / 10 ^ 14) ∧ (M.updateCol k fun s => M s k + δ s).det = 0) := by
  rw [cInverse_large h5]
  rcases hl : luInverse n (arrMat M) with _ | _ | X
  · right; exact ⟨rfl, lu_refused M hl (by omega)⟩
  · exact absurd (lu_nan M hl (by omega)) hd
  · left; exact ⟨X, rfl⟩

/-- C104: a singular matrix never has a finite result -/
theorem c104_singular {n : Nat} (M : Matrix (Fin n) (Fin n) ℝ) (hd : M.det = 0) (X : Arr) :
    cInverse n (arrMat M) ≠ .ok (some X) := by
  intro h
  have := congrArg Matrix.det (c104_inverse M h).1
  rw [Matrix.det_mul, hd, zero_mul, Matrix.det_one] at this
  exact zero_ne_one this

/-- elimination leaves an array alone whose entries off the diagonal are zero -/
theorem luLoop_diag {n : Nat} {A : Arr} (h0 : ∀ i j, i ≠ j → A i j = 0) {m : Nat} (hm : m ≤ n)
    (hp : ∀ k, k < m → pivotTol ≤ |A k k|) : luLoop n A m = some (A, fun k => k) := by
  induction m with
  | zero => rfl
  | succ m ih =>
    rw [luLoop, ih (by omega) fun k hk => hp k (by omega)]
    simp only
    have hpm := hp m (by omega)
    have hA : A m m ≠ 0 := abs_pos.1 (lt_of_lt_of_le pivotTol_pos hpm)
    have hpiv : luPivot n m A = m := by
      obtain ⟨_, _, h3⟩ := luPivot_spec A (by omega : m < n)
      by_contra hc
      have := h3 m (le_refl m) (by omega)
      rw [h0 _ _ hc, abs_zero] at this
      exact absurd (lt_of_lt_of_le pivotTol_pos hpm) (not_lt.2 this)
    have hsw : luSwapped n m (A, fun k => k) = (A, fun k => k) := by
      unfold luSwapped
      simp only [hpiv]
      rw [if_neg (by simp)]
    rw [luStep_eq, hsw, if_neg (not_lt.2 hpm)]
    congr 2
    funext j i
    unfold luElim
    simp only
    by_cases hj : m < j ∧ j < n
    · rw [if_pos hj, h0 j m (by omega), zero_div, zero_mul, sub_zero]
      split_ifs with h1
      · rw [h1, h0 j m (by omega)]
      · rfl
      · rfl
    · rw [if_neg hj]

theorem arrMat_diag {n : Nat} (d : Fin n → ℝ) (i j : Nat) (h : i ≠ j) : arrMat (Matrix.diagonal d) i j = 0 := by
  unfold arrMat
  split_ifs with hc
  · rw [Matrix.diagonal_apply_ne]
    intro e
    exact h (by simpa using e)
  · rfl

theorem arrMat_diag_self {n : Nat} (d : Fin n → ℝ) (i : Fin n) : arrMat (Matrix.diagonal d) i i = d i := by
  rw [arrMat_apply, Matrix.diagonal_apply_eq]

/-- C104: a singular matrix is not always refused.  For every size above four the matrix with ones on its diagonal and a zero in the
last place has no inverse, but there is no exception: the result has entries inf or nan. -/
theorem c104_singular_counterexample {n : Nat} (h5 : 5 ≤ n) :
    let M : Matrix (Fin n) (Fin n) ℝ := Matrix.diagonal fun i => if i.1 = n - 1 then 0 else 1
    M.det = 0 ∧ cInverse n (arrMat M) = .ok none := by
  intro M
  have hd : ∀ i : Fin n, arrMat M i i = if i.1 = n - 1 then 0 else 1 := fun i => arrMat_diag_self _ i
  constructor
  · rw [Matrix.det_diagonal]
    exact Finset.prod_eq_zero (Finset.mem_univ (⟨n - 1, by omega⟩ : Fin n)) (if_pos rfl)
  · rw [cInverse_large h5]
    have hl : luLoop n (arrMat M) (n - 1) = some (arrMat M, fun k => k) := by
      refine luLoop_diag (arrMat_diag _) (by omega) fun k hk => ?_
      have := hd ⟨k, by omega⟩
      simp only at this
      rw [this, if_neg (by omega)]
      unfold pivotTol; norm_num
    unfold luInverse
    rw [hl]
    simp only
    have := hd ⟨n - 1, by omega⟩
    simp only at this
    rw [if_pos trivial] at this
    rw [this, if_pos rfl]

/-- C104: a matrix with an inverse may be refused.  Of size four, a ten thousandth of the identity; -/
theorem c104_refused_counterexample :
    let M : Matrix (Fin 4) (Fin 4) ℝ := Matrix.diagonal fun _ => 1 / 10 ^ 4
    M * Matrix.diagonal (fun _ => 10 ^ 4) = 1 ∧ cInverse 4 (arrMat M) = .error .valueError := by
  intro M
  have hd : M.det = 1 / 10 ^ 16 := by
    rw [Matrix.det_diagonal]; norm_num
  constructor
  · rw [Matrix.diagonal_mul_diagonal, ← Matrix.diagonal_one]
    congr 1
    funext _
    norm_num
  · rcases c104_small M (by omega) (by omega) with h | h
    · exact h.2
    · exfalso
      have := h.1
      rw [hd, tEps] at this
      norm_num at this

/-- and of any size above four, the identity times 1e-15 -/
theorem c104_large_counterexample {n : Nat} (h5 : 5 ≤ n) :
    let M : Matrix (Fin n) (Fin n) ℝ := Matrix.diagonal fun _ => 1 / 10 ^ 15
    M * Matrix.diagonal (fun _ => 10 ^ 15) = 1 ∧ cInverse n (arrMat M) = .error .valueError := by
  intro M
  have hd : ∀ i : Fin n, arrMat M i i = 1 / 10 ^ 15 := fun i => arrMat_diag_self _ i
  constructor
  · rw [Matrix.diagonal_mul_diagonal, ← Matrix.diagonal_one]
    congr 1
    funext _
    norm_num
  · rw [cInverse_large h5]
    have hl : luLoop n (arrMat M) 1 = none := by
      rw [luLoop, luLoop]
      simp only
      rw [luStep_eq]
      refine if_pos ?_
      have hp : ∀ i, i < n → |arrMat M i 0| < pivotTol := by
        intro i hi
        by_cases hc : i = 0
        · have := hd ⟨0, by omega⟩
          simp only at this
          rw [hc, this]; unfold pivotTol; norm_num
        · rw [arrMat_diag _ _ _ hc, abs_zero]; exact pivotTol_pos
      unfold luSwapped
      simp only
      split_ifs with h
      · obtain ⟨_, h2, _⟩ := luPivot_spec (arrMat M) (by omega : 0 < n)
        simp only [swapRows, if_true]
        exact hp _ h2
      · exact hp _ (by omega)
    have hn : ∀ m, 1 ≤ m → luLoop n (arrMat M) m = none := by
      intro m hm
      induction m with
      | zero => omega
      | succ m ih =>
        by_cases h : m = 0
        · rw [h]; exact hl
        · rw [luLoop, ih (by omega)]
    unfold luInverse
    rw [hn _ (by omega)]

/-- the multipliers of the elimination are at most one: the row with the largest coefficient is always taken as the pivot -/
theorem c104_pivots {n : Nat} (M : Matrix (Fin n) (Fin n) ℝ) (h5 : 5 ≤ n) {L : Arr} {seq : Nat → Nat}
    (h : luLoop n (arrMat M) (n - 1) = some (L, seq)) :
    (∀ j r, j < r → r < n → |L r j| ≤ 1) ∧ (∀ i, i < n → ∃ r, r < n ∧ seq r = i) ∧
      ∀ r c : Fin n, ∑ j : Fin n, (if j < r then L r j else if j = r then 1 else 0) * (if j ≤ c then L j c else 0) =
        arrMat M (seq r) c := by
  have hinv := luLoop_inv (by omega) h
  refine ⟨fun j r hj hr => hinv.small j r (by omega) hj hr, fun i hi => luInv_surj hinv hi, fun r c => ?_⟩
  rw [← hinv.entry r c r.2 c.2]
  have hl := luEntry_last L (k := n - 1) (by omega : r.1 ≤ n - 1) c.1
  rw [Nat.sub_add_cancel (by omega)] at hl
  rw [← hl]
  unfold luEntry
  rw [if_pos r.2, ← Fin.sum_univ_eq_sum_range (fun j => if j < r.1 ∧ j ≤ c.1 then L r j * L j c else 0)]
  have e : ∀ j : Fin n, (if j < r then L r j else if j = r then 1 else 0) * (if j ≤ c then L j c else 0) =
      (if j.1 < r.1 ∧ j.1 ≤ c.1 then L r j * L j c else 0) + if j = r then (if r.1 ≤ c.1 then L r c else 0) else 0 := by
    intro j
    simp only [Fin.lt_def, Fin.le_def]
    by_cases h1 : j = r
    · subst h1; simp
    · have h1' : ¬ j.1 = r.1 := fun e => h1 (Fin.ext e)
      simp only [if_neg h1, add_zero]
      by_cases h2 : j.1 < r.1
      · by_cases h3 : j.1 ≤ c.1
        · rw [if_pos h2, if_pos h3, if_pos ⟨h2, h3⟩]
        · rw [if_neg h3, mul_zero, if_neg (fun h => h3 h.2)]
      · rw [if_neg h2, zero_mul, if_neg (fun h => h2 h.1)]
  simp only [e, Finset.sum_add_distrib, Finset.sum_ite_eq', Finset.mem_univ, if_true]

/-- the hypotheses are met: of every size above four, twice the identity is inverted -/
example {n : Nat} (h5 : 5 ≤ n) : ∃ X, cInverse n (arrMat (Matrix.diagonal fun _ : Fin n => (2 : ℝ))) = .ok (some X) := by
  have hd : ∀ i : Fin n, arrMat (Matrix.diagonal fun _ : Fin n => (2 : ℝ)) i i = 2 := fun i => arrMat_diag_self _ i
  rw [cInverse_large h5]
  have hl : luLoop n (arrMat (Matrix.diagonal fun _ : Fin n => (2 : ℝ))) (n - 1) =
      some (arrMat (Matrix.diagonal fun _ : Fin n => (2 : ℝ)), fun k => k) := by
    refine luLoop_diag (arrMat_diag _) (by omega) fun k hk => ?_
    have := hd ⟨k, by omega⟩
    simp only at this
    rw [this]
    unfold pivotTol; norm_num
  unfold luInverse
  rw [hl]
  have := hd ⟨n - 1, by omega⟩
  simp only at this
  simp only [this]
  rw [if_neg two_ne_zero]
  exact ⟨_, rfl⟩

example : ∃ M : Matrix (Fin 4) (Fin 4) ℝ, tEps ≤ |M.det| := ⟨1, by rw [Matrix.det_one, tEps]; norm_num⟩

end Electrode
