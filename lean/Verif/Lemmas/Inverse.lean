import Verif.Model.InverseC
import Mathlib.Algebra.BigOperators.Intervals
import Mathlib.Algebra.BigOperators.Ring.Finset
import Mathlib.Tactic.FieldSimp
import Mathlib.Tactic.Positivity

/-
The invariants of the loops of `invert_matrix` of `transformations.c`.
-/
namespace Electrode

/-- the entry of the matrix which the array stands for after `k` passes of the elimination: the product of the triangle with ones on
its diagonal and the triangle above, plus what is left -/
noncomputable def luEntry (k : Nat) (M : Arr) (r c : Nat) : ℝ :=
  ∑ j ∈ Finset.range k, (if j < r ∧ j ≤ c then M r j * M j c else 0) +
    (if r < k then (if r ≤ c then M r c else 0) else if c < k then 0 else M r c)

theorem luEntry_zero (M : Arr) (r c : Nat) : luEntry 0 M r c = M r c := by simp [luEntry]

theorem luEntry_last {k : Nat} (M : Arr) {r : Nat} (hr : r ≤ k) (c : Nat) : luEntry (k + 1) M r c = luEntry k M r c := by
  unfold luEntry
  rw [Finset.sum_range_succ, if_neg (by omega : ¬ (k < r ∧ k ≤ c)), add_zero]
  congr 1
  rcases lt_or_eq_of_le hr with h | h
  · rw [if_pos (by omega : r < k + 1), if_pos h]
  · subst h
    rw [if_pos (by omega : r < r + 1), if_neg (by omega : ¬ r < r)]
    split_ifs <;> first | rfl | omega

theorem luElim_upper {n k : Nat} (M : Arr) {j : Nat} (hj : j ≤ k) (i : Nat) : luElim n k M j i = M j i := by
  unfold luElim; rw [if_neg (by omega)]

theorem luElim_left {n k : Nat} (M : Arr) (j : Nat) {i : Nat} (hi : i < k) : luElim n k M j i = M j i := by
  unfold luElim
  split_ifs <;> first | rfl | omega

theorem luEntry_elim {n k : Nat} (M : Arr) (hp : M k k ≠ 0) {r c : Nat} (hr : r < n) (hc : c < n) :
    luEntry (k + 1) (luElim n k M) r c = luEntry k M r c := by
  rcases le_or_gt r k with h | h
  · rw [luEntry_last _ h]
    unfold luEntry
    congr 1
    · refine Finset.sum_congr rfl fun j hj => ?_
      have hj := Finset.mem_range.1 hj
      rw [luElim_upper M h, luElim_upper M (by omega)]
    · rw [luElim_upper M h]
  · unfold luEntry
    rw [Finset.sum_range_succ, add_assoc]
    congr 1
    · refine Finset.sum_congr rfl fun j hj => ?_
      have hj := Finset.mem_range.1 hj
      rw [luElim_left M r hj, luElim_upper M (by omega : j ≤ k)]
    · rw [if_neg (by omega : ¬ r < k + 1), if_neg (by omega : ¬ r < k), luElim_upper M (le_refl k)]
      have e1 : luElim n k M r k = M r k / M k k := by
        unfold luElim; rw [if_pos ⟨h, hr⟩, if_pos rfl]
      rcases lt_trichotomy c k with hck | hck | hck
      · rw [if_neg (by omega), if_pos (by omega), if_pos hck, add_zero]
      · subst hck
        rw [if_pos ⟨h, le_refl _⟩, if_pos (by omega), if_neg (by omega), e1, add_zero]
        field_simp
      · have e2 : luElim n k M r c = M r c - M r k / M k k * M k c := by
          unfold luElim; rw [if_pos ⟨h, hr⟩, if_neg (by omega), if_pos ⟨hck, hc⟩]
        rw [if_pos ⟨h, by omega⟩, if_neg (by omega), if_neg (by omega), e1, e2]
        ring

/-- the row which takes the place of `i` when `k` and `p` change places -/
def rowIdx (k p i : Nat) : Nat := if i = k then p else if i = p then k else i

theorem swapRows_eq {α : Type} (M : Nat → α) (k p : Nat) : swapRows M k p = fun i => M (rowIdx k p i) := by
  funext i; unfold swapRows rowIdx; split_ifs <;> rfl

theorem rowIdx_rowIdx (k p i : Nat) : rowIdx k p (rowIdx k p i) = i := by
  unfold rowIdx; split_ifs <;> simp_all

theorem rowIdx_lt {n k p i : Nat} (hk : k < n) (hp : p < n) (hi : i < n) : rowIdx k p i < n := by
  unfold rowIdx; split_ifs <;> assumption

theorem rowIdx_low {k p i : Nat} (hp : k ≤ p) (hi : i < k) : rowIdx k p i = i := by
  unfold rowIdx; rw [if_neg (by omega), if_neg (by omega)]

theorem rowIdx_ge {k p i : Nat} (hp : k ≤ p) (hi : k ≤ i) : k ≤ rowIdx k p i := by
  unfold rowIdx; split_ifs <;> omega

theorem luEntry_swap {k p : Nat} (M : Arr) (hp : k ≤ p) (r c : Nat) :
    luEntry k (swapRows M k p) r c = luEntry k M (rowIdx k p r) c := by
  rw [swapRows_eq]
  unfold luEntry
  rcases lt_or_ge r k with hr | hr
  · rw [rowIdx_low hp hr]
    congr 1
    · refine Finset.sum_congr rfl fun j hj => ?_
      have hj := Finset.mem_range.1 hj
      simp only [rowIdx_low hp hr, rowIdx_low hp hj]
    · simp only [rowIdx_low hp hr]
  · have h2 := rowIdx_ge hp hr
    congr 1
    · refine Finset.sum_congr rfl fun j hj => ?_
      have hj := Finset.mem_range.1 hj
      simp only [rowIdx_low hp hj]
      by_cases hc : j ≤ c
      · rw [if_pos ⟨by omega, hc⟩, if_pos ⟨by omega, hc⟩]
      · rw [if_neg (fun h => hc h.2), if_neg (fun h => hc h.2)]
    · rw [if_neg (by omega : ¬ r < k), if_neg (by omega : ¬ rowIdx k p r < k)]

/-- the search for the pivot returns a row at or below `k` with the largest coefficient -/
theorem luPivot_fold (M : Arr) (k : Nat) (l : List Nat) (s : Nat × ℝ) (hs : s.2 = |M s.1 k|) :
    let r := l.foldl (fun (s : Nat × ℝ) i => open Classical in if s.2 < |M i k| then (i, |M i k|) else s) s
    r.2 = |M r.1 k| ∧ s.2 ≤ r.2 ∧ (∀ i ∈ l, |M i k| ≤ r.2) ∧ (r.1 = s.1 ∨ r.1 ∈ l) := by
  induction l generalizing s with
  | nil => simp [hs]
  | cons a l ih =>
    intro r
    by_cases h : s.2 < |M a k|
    · obtain ⟨h1, h2, h3, h4⟩ := ih (a, |M a k|) rfl
      have hr : r = l.foldl (fun (s : Nat × ℝ) i => open Classical in if s.2 < |M i k| then (i, |M i k|) else s) (a, |M a k|) := by
        show List.foldl _ _ _ = _
        rw [List.foldl_cons, if_pos h]
      rw [← hr] at h1 h2 h3 h4
      refine ⟨h1, h.le.trans h2, fun i hi => ?_, ?_⟩
      · rcases List.mem_cons.1 hi with rfl | hi
        · exact h2
        · exact h3 i hi
      · rcases h4 with h4 | h4
        · right; rw [h4]; exact List.mem_cons_self
        · right; exact List.mem_cons_of_mem _ h4
    · obtain ⟨h1, h2, h3, h4⟩ := ih s hs
      have hr : r = l.foldl (fun (s : Nat × ℝ) i => open Classical in if s.2 < |M i k| then (i, |M i k|) else s) s := by
        show List.foldl _ _ _ = _
        rw [List.foldl_cons, if_neg h]
      rw [← hr] at h1 h2 h3 h4
      refine ⟨h1, h2, fun i hi => ?_, ?_⟩
      · rcases List.mem_cons.1 hi with rfl | hi
        · exact (not_lt.1 h).trans h2
        · exact h3 i hi
      · rcases h4 with h4 | h4
        · left; exact h4
        · right; exact List.mem_cons_of_mem _ h4

theorem luPivot_spec {n k : Nat} (M : Arr) (hk : k < n) :
    k ≤ luPivot n k M ∧ luPivot n k M < n ∧ ∀ i, k ≤ i → i < n → |M i k| ≤ |M (luPivot n k M) k| := by
  obtain ⟨h1, h2, h3, h4⟩ := luPivot_fold M k (List.range' (k + 1) (n - (k + 1))) (k, |M k k|) rfl
  have e : luPivot n k M = ((List.range' (k + 1) (n - (k + 1))).foldl
    (fun (s : Nat × ℝ) i => open Classical in if s.2 < |M i k| then (i, |M i k|) else s) (k, |M k k|)).1 := rfl
  rw [← e] at h1 h4
  refine ⟨?_, ?_, fun i hi hn => ?_⟩
  · rcases h4 with h | h
    · rw [h]
    · have := List.mem_range'_1.1 h; omega
  · rcases h4 with h | h
    · rw [h]; exact hk
    · have := List.mem_range'_1.1 h; omega
  · rw [← h1]
    rcases Nat.eq_or_lt_of_le hi with rfl | hi
    · exact h2
    · exact h3 i (List.mem_range'_1.2 (by omega))

theorem pivotTol_pos : 0 < pivotTol := by unfold pivotTol; positivity

/-- what holds after `k` passes of the elimination -/
structure LuInv (n k : Nat) (A M : Arr) (seq : Nat → Nat) : Prop where
  lt : ∀ r, r < n → seq r < n
  inj : ∀ r s, r < n → s < n → seq r = seq s → r = s
  entry : ∀ r c, r < n → c < n → luEntry k M r c = A (seq r) c
  pivot : ∀ j, j < k → pivotTol ≤ |M j j|
  small : ∀ j r, j < k → j < r → r < n → |M r j| ≤ 1

theorem luInv_zero (n : Nat) (A : Arr) : LuInv n 0 A A (fun k => k) where
  lt _ h := h
  inj _ _ _ _ h := h
  entry r c _ _ := luEntry_zero A r c
  pivot j h := absurd h (Nat.not_lt_zero j)
  small j _ h := absurd h (Nat.not_lt_zero j)

/-- the exchange of rows keeps what holds -/
theorem luInv_swap {n k p : Nat} {A M : Arr} {seq : Nat → Nat} (h : LuInv n k A M seq) (hk : k < n) (hp : k ≤ p) (hpn : p < n) :
    LuInv n k A (swapRows M k p) (swapRows seq k p) where
  lt r hr := by rw [swapRows_eq]; exact h.lt _ (rowIdx_lt hk hpn hr)
  inj r s hr hs e := by
    rw [swapRows_eq] at e
    have := h.inj _ _ (rowIdx_lt hk hpn hr) (rowIdx_lt hk hpn hs) e
    rw [← rowIdx_rowIdx k p r, this, rowIdx_rowIdx]
  entry r c hr hc := by
    rw [luEntry_swap M hp, h.entry _ _ (rowIdx_lt hk hpn hr) hc, swapRows_eq]
  pivot j hj := by
    rw [swapRows_eq]
    simpa only [rowIdx_low hp hj] using h.pivot j hj
  small j r hj hr hrn := by
    rw [swapRows_eq]
    refine h.small j _ hj ?_ (rowIdx_lt hk hpn hrn)
    rcases lt_or_ge r k with hrk | hrk
    · rw [rowIdx_low hp hrk]; exact hr
    · have := rowIdx_ge hp hrk; omega

theorem luInv_elim {n k : Nat} {A M : Arr} {seq : Nat → Nat} (h : LuInv n k A M seq)
    (hp : pivotTol ≤ |M k k|) (hm : ∀ i, k ≤ i → i < n → |M i k| ≤ |M k k|) : LuInv n (k + 1) A (luElim n k M) seq where
  lt := h.lt
  inj := h.inj
  entry r c hr hc := by
    have h0 : M k k ≠ 0 := abs_pos.1 (lt_of_lt_of_le pivotTol_pos hp)
    rw [luEntry_elim M h0 hr hc, h.entry r c hr hc]
  pivot j hj := by
    rw [luElim_upper M (by omega : j ≤ k)]
    rcases Nat.eq_or_lt_of_le (Nat.lt_succ_iff.1 hj) with rfl | hj
    · exact hp
    · exact h.pivot j hj
  small j r hj hr hrn := by
    rcases Nat.eq_or_lt_of_le (Nat.lt_succ_iff.1 hj) with rfl | hj
    · have e1 : luElim n j M r j = M r j / M j j := by
        unfold luElim; rw [if_pos ⟨hr, hrn⟩, if_pos rfl]
      rw [e1, abs_div]
      exact div_le_one_of_le₀ (hm r hr.le hrn) (abs_nonneg _)
    · rw [luElim_left M r hj]
      exact h.small j r hj hr hrn

/-- the array and the sequence once the rows have changed places -/
noncomputable def luSwapped (n k : Nat) (s : Arr × (Nat → Nat)) : Arr × (Nat → Nat) := open Classical in
  if luPivot n k s.1 ≠ k then (swapRows s.1 k (luPivot n k s.1), swapRows s.2 k (luPivot n k s.1)) else s

theorem luStep_eq (n k : Nat) (s : Arr × (Nat → Nat)) : luStep n k s = (open Classical in
    if |(luSwapped n k s).1 k k| < pivotTol then none else some (luElim n k (luSwapped n k s).1, (luSwapped n k s).2)) := by
  unfold luStep luSwapped
  by_cases h : luPivot n k s.1 ≠ k
  · simp only [if_pos h]
  · simp only [if_neg h]

theorem luSwapped_spec {n k : Nat} {A M : Arr} {seq : Nat → Nat} (h : LuInv n k A M seq) (hk : k < n) :
    LuInv n k A (luSwapped n k (M, seq)).1 (luSwapped n k (M, seq)).2 ∧
      ∀ i, k ≤ i → i < n → |(luSwapped n k (M, seq)).1 i k| ≤ |(luSwapped n k (M, seq)).1 k k| := by
  obtain ⟨h1, h2, h3⟩ := luPivot_spec M hk
  unfold luSwapped
  by_cases hp : luPivot n k M ≠ k
  · rw [if_pos hp]
    refine ⟨luInv_swap h hk h1 h2, fun i hi hn => ?_⟩
    simp only [swapRows_eq]
    have e : rowIdx k (luPivot n k M) k = luPivot n k M := by unfold rowIdx; rw [if_pos rfl]
    rw [e]
    exact h3 _ (rowIdx_ge h1 hi) (rowIdx_lt hk h2 hn)
  · rw [if_neg hp]
    refine ⟨h, fun i hi hn => ?_⟩
    have := h3 i hi hn
    rwa [not_not.1 hp] at this

theorem luLoop_inv {n : Nat} {A : Arr} {m : Nat} (hm : m ≤ n) {M : Arr} {seq : Nat → Nat}
    (h : luLoop n A m = some (M, seq)) : LuInv n m A M seq := by
  induction m generalizing M seq with
  | zero =>
    have h := Option.some.inj h
    rw [Prod.mk.injEq] at h
    rw [← h.1, ← h.2]
    exact luInv_zero n A
  | succ m ih =>
    rw [luLoop] at h
    rcases hl : luLoop n A m with _ | ⟨M', seq'⟩
    · rw [hl] at h; simp at h
    · rw [hl] at h
      simp only at h
      obtain ⟨h1, h2⟩ := luSwapped_spec (ih (by omega) hl) (by omega)
      rw [luStep_eq] at h
      split_ifs at h with hc
      have h := Option.some.inj h
      rw [Prod.mk.injEq] at h
      rw [← h.1, ← h.2]
      exact luInv_elim h1 (not_lt.1 hc) h2

/-- a refusal comes from a column whose coefficients are all small -/
theorem luLoop_none {n : Nat} {A : Arr} {m : Nat} (hm : m ≤ n) (h : luLoop n A m = none) :
    ∃ k M seq, k < m ∧ LuInv n k A M seq ∧ ∀ i, k ≤ i → i < n → |M i k| < pivotTol := by
  induction m with
  | zero => simp [luLoop] at h
  | succ m ih =>
    rw [luLoop] at h
    rcases hl : luLoop n A m with _ | ⟨M', seq'⟩
    · obtain ⟨k, M, seq, h1, h2⟩ := ih (by omega) hl
      exact ⟨k, M, seq, by omega, h2⟩
    · rw [hl] at h
      simp only at h
      obtain ⟨h1, h2⟩ := luSwapped_spec (luLoop_inv (by omega) hl) (by omega)
      rw [luStep_eq] at h
      split_ifs at h with hc
      exact ⟨m, _, _, by omega, h1, fun i hi hn => (h2 i hi hn).trans_lt hc⟩

/-- the product of the entries and a column -/
theorem luEntry_mul (n k : Nat) (M : Arr) (x : Nat → ℝ) (r : Nat) :
    ∑ c ∈ Finset.range n, luEntry k M r c * x c =
      ∑ j ∈ Finset.range k, (if j < r then M r j * ∑ c ∈ Finset.Ico j n, M j c * x c else 0) +
        ∑ c ∈ Finset.Ico (min r k) n, M r c * x c := by
  have key : ∀ (f : Nat → ℝ) (a : Nat), ∑ c ∈ Finset.range n, (if a ≤ c then f c else 0) = ∑ c ∈ Finset.Ico a n, f c := by
    intro f a
    rw [← Finset.sum_filter]
    congr 1
    ext c; simp [and_comm]
  unfold luEntry
  simp only [add_mul, Finset.sum_add_distrib]
  congr 1
  · simp only [Finset.sum_mul]
    rw [Finset.sum_comm]
    refine Finset.sum_congr rfl fun j _ => ?_
    by_cases h : j < r
    · rw [if_pos h, ← key, Finset.mul_sum]
      refine Finset.sum_congr rfl fun c _ => ?_
      by_cases hc : j ≤ c
      · rw [if_pos ⟨h, hc⟩, if_pos hc, mul_assoc]
      · rw [if_neg (fun h => hc h.2), if_neg hc, zero_mul, mul_zero]
    · rw [if_neg h]
      refine Finset.sum_eq_zero fun c _ => ?_
      rw [if_neg (fun h' => h h'.1), zero_mul]
  · rw [← key]
    refine Finset.sum_congr rfl fun c _ => ?_
    rcases lt_or_ge r k with h | h
    · rw [min_eq_left h.le, if_pos h]
      split_ifs <;> simp
    · rw [min_eq_right h, if_neg (by omega)]
      by_cases hc : c < k
      · rw [if_pos hc, if_neg (by omega), zero_mul]
      · rw [if_neg hc, if_pos (by omega)]

theorem luBackward_spec (n : Nat) (M : Arr) (y : Nat → ℝ) (hd : ∀ k, k < n → M k k ≠ 0) (m : Nat) (hm : m ≤ n) :
    (∀ k, n - m ≤ k → k < n → ∑ c ∈ Finset.Ico k n, M k c * luBackward n M y m c = y k) ∧
      ∀ k, k < n - m ∨ n ≤ k → luBackward n M y m k = y k := by
  induction m with
  | zero => exact ⟨fun k h1 h2 => by omega, fun k _ => rfl⟩
  | succ m ih =>
    obtain ⟨h1, h2⟩ := ih (by omega)
    obtain ⟨x, hx⟩ : ∃ x, x = luBackward n M y m := ⟨_, rfl⟩
    obtain ⟨a, ha⟩ : ∃ a, a = n - (m + 1) := ⟨_, rfl⟩
    have e : luBackward n M y (m + 1) =
        Function.update x a ((x a - ∑ j ∈ Finset.Ico (a + 1) n, M a j * x j) / M a a) := by rw [luBackward, hx, ha]
    rw [← hx] at h1 h2
    rw [e]
    refine ⟨fun k hk hn => ?_, fun k hk => ?_⟩
    · rcases Nat.eq_or_lt_of_le hk with hk | hk
      · have hka : k = a := by omega
        rw [hka, Finset.sum_eq_sum_Ico_succ_bot (by omega : a < n), Function.update_self]
        have : ∑ c ∈ Finset.Ico (a + 1) n, M a c * Function.update x a
            ((x a - ∑ j ∈ Finset.Ico (a + 1) n, M a j * x j) / M a a) c = ∑ c ∈ Finset.Ico (a + 1) n, M a c * x c := by
          refine Finset.sum_congr rfl fun c hc => ?_
          have := Finset.mem_Ico.1 hc
          rw [Function.update_of_ne (by omega)]
        rw [this, mul_div_cancel₀ _ (hd a (by omega)), h2 a (Or.inl (by omega))]
        ring
      · rw [← h1 k (by omega) hn]
        refine Finset.sum_congr rfl fun c hc => ?_
        have := Finset.mem_Ico.1 hc
        rw [Function.update_of_ne (by omega)]
    · rw [Function.update_of_ne (by omega)]
      exact h2 k (by omega)

theorem luForward_spec (M : Arr) (is : Nat) (b : Nat → ℝ) (hb : ∀ j, j < is → b j = 0) (m : Nat) :
    (∀ k, k ≤ m → luForward M is b m k + ∑ j ∈ Finset.range k, M k j * luForward M is b m j = b k) ∧
      (∀ k, m < k → luForward M is b m k = b k) ∧ ∀ j, j < is → luForward M is b m j = 0 := by
  induction m with
  | zero =>
    refine ⟨fun k hk => ?_, fun k _ => rfl, hb⟩
    obtain rfl : k = 0 := by omega
    simp [luForward]
  | succ m ih =>
    obtain ⟨h1, h2, h3⟩ := ih
    obtain ⟨x, hx⟩ : ∃ x, x = luForward M is b m := ⟨_, rfl⟩
    have e : luForward M is b (m + 1) =
        Function.update x (m + 1) (x (m + 1) - ∑ j ∈ Finset.Ico is (m + 1), M (m + 1) j * x j) := by rw [luForward, hx]
    rw [← hx] at h1 h2 h3
    have hsum : ∑ j ∈ Finset.Ico is (m + 1), M (m + 1) j * x j = ∑ j ∈ Finset.range (m + 1), M (m + 1) j * x j := by
      rw [Finset.range_eq_Ico]
      refine Finset.sum_subset (Finset.Ico_subset_Ico_left (Nat.zero_le _)) fun j hj hj' => ?_
      have hj := Finset.mem_Ico.1 hj
      have : j < is := by
        by_contra hc
        exact hj' (Finset.mem_Ico.2 ⟨by omega, hj.2⟩)
      rw [h3 j this, mul_zero]
    rw [e]
    refine ⟨fun k hk => ?_, fun k hk => ?_, fun j hj => ?_⟩
    · have hs : ∀ v, ∑ j ∈ Finset.range k, M k j * Function.update x (m + 1) v j = ∑ j ∈ Finset.range k, M k j * x j := by
        intro v
        refine Finset.sum_congr rfl fun j hj => ?_
        have := Finset.mem_range.1 hj
        rw [Function.update_of_ne (by omega)]
      rw [hs]
      rcases Nat.eq_or_lt_of_le hk with rfl | hk
      · rw [Function.update_self, hsum, h2 _ (by omega)]; ring
      · rw [Function.update_of_ne (by omega)]
        exact h1 k (by omega)
    · rw [Function.update_of_ne (by omega)]
      exact h2 k (by omega)
    · by_cases hjm : j = m + 1
      · subst hjm
        rw [Function.update_self, h3 _ hj, Finset.Ico_eq_empty (by omega), Finset.sum_empty, sub_zero]
      · rw [Function.update_of_ne hjm]
        exact h3 j hj

theorem luIseq_fold (n : Nat) (seq : Nat → Nat) (hi : ∀ r s, r < n → s < n → seq r = seq s → r = s) (m : Nat) (hm : m ≤ n)
    (i : Nat) (h : i < m) : ((List.range m).foldl (fun s i => Function.update s (seq i) i) fun _ => 0) (seq i) = i := by
  induction m with
  | zero => omega
  | succ m ih =>
    rw [List.range_succ, List.foldl_append, List.foldl_cons, List.foldl_nil]
    by_cases hc : i = m
    · rw [hc, Function.update_self]
    · rw [Function.update_of_ne]
      · exact ih (by omega) (by omega)
      · intro he
        exact hc (hi i m (by omega) (by omega) he)

theorem luInv_surj {n k : Nat} {A M : Arr} {seq : Nat → Nat} (h : LuInv n k A M seq) {i : Nat} (hi : i < n) :
    ∃ r, r < n ∧ seq r = i := by
  have hinj : Function.Injective (fun r : Fin n => (⟨seq r, h.lt r r.2⟩ : Fin n)) := by
    intro r s e
    exact Fin.ext (h.inj r s r.2 s.2 (by simpa using e))
  obtain ⟨r, hr⟩ := (Finite.injective_iff_surjective.1 hinj) ⟨i, hi⟩
  exact ⟨r, r.2, by simpa using hr⟩

/-- a column that the matrix after `k` passes makes small -/
theorem luInv_kernel {n k : Nat} {A M : Arr} {seq : Nat → Nat} (h : LuInv n k A M seq) (hk : k < n) :
    ∃ x : Nat → ℝ, x k = 1 ∧ ∀ r, r < n → ∑ c ∈ Finset.range n, A (seq r) c * x c = if r < k then 0 else M r k := by
  have hd : ∀ j, j < k → M j j ≠ 0 := fun j hj => abs_pos.1 (lt_of_lt_of_le pivotTol_pos (h.pivot j hj))
  obtain ⟨hs, _⟩ := luBackward_spec k M (fun j => -M j k) hd k (le_refl k)
  obtain ⟨z, hz⟩ : ∃ z, z = luBackward k M (fun j => -M j k) k := ⟨_, rfl⟩
  rw [← hz] at hs
  obtain ⟨x, hx⟩ : ∃ x : Nat → ℝ, x = fun c => if c < k then z c else if c = k then 1 else 0 := ⟨_, rfl⟩
  have hxk : x k = 1 := by rw [hx]; simp
  have hrow : ∀ r j, j ≤ k → ∑ c ∈ Finset.Ico j n, M r c * x c = ∑ c ∈ Finset.Ico j k, M r c * z c + M r k := by
    intro r j hj
    rw [← Finset.sum_Ico_consecutive _ hj hk.le, Finset.sum_eq_sum_Ico_succ_bot hk]
    have e1 : ∑ c ∈ Finset.Ico j k, M r c * x c = ∑ c ∈ Finset.Ico j k, M r c * z c := by
      refine Finset.sum_congr rfl fun c hc => ?_
      have := (Finset.mem_Ico.1 hc).2
      rw [hx]; simp only [if_pos this]
    have e2 : ∑ c ∈ Finset.Ico (k + 1) n, M r c * x c = 0 := by
      refine Finset.sum_eq_zero fun c hc => ?_
      have := (Finset.mem_Ico.1 hc).1
      rw [hx]; simp only [if_neg (by omega : ¬ c < k), if_neg (by omega : ¬ c = k), mul_zero]
    rw [e1, e2, hxk]; ring
  have hz0 : ∀ j, j < k → ∑ c ∈ Finset.Ico j n, M j c * x c = 0 := by
    intro j hj
    rw [hrow j j hj.le, hs j (by omega) hj]; ring
  refine ⟨x, hxk, fun r hr => ?_⟩
  have e : ∑ c ∈ Finset.range n, A (seq r) c * x c = ∑ c ∈ Finset.range n, luEntry k M r c * x c := by
    refine Finset.sum_congr rfl fun c hc => ?_
    rw [h.entry r c hr (Finset.mem_range.1 hc)]
  rw [e, luEntry_mul]
  have e0 : ∑ j ∈ Finset.range k, (if j < r then M r j * ∑ c ∈ Finset.Ico j n, M j c * x c else 0) = 0 := by
    refine Finset.sum_eq_zero fun j hj => ?_
    rw [hz0 j (Finset.mem_range.1 hj), mul_zero, ite_self]
  rw [e0, zero_add]
  by_cases hrk : r < k
  · rw [if_pos hrk, min_eq_left hrk.le]; exact hz0 r hrk
  · rw [if_neg hrk, min_eq_right (by omega), hrow r k (le_refl k), Finset.Ico_self, Finset.sum_empty, zero_add]

/-- the two substitutions solve the equations -/
theorem luInv_solve {n : Nat} {A M : Arr} {seq : Nat → Nat} (h : LuInv n (n - 1) A M seq) (hn : 0 < n)
    (hl : M (n - 1) (n - 1) ≠ 0) {s i : Nat} (hs : s < n) (hi : i < n) :
    ∑ c ∈ Finset.range n, A s c *
      luBackward n M (luForward M (luIseq n seq i) (fun r => if seq r = i then 1 else 0) (n - 1)) n c = if s = i then 1 else 0 := by
  obtain ⟨r, hr, rfl⟩ := luInv_surj h hs
  obtain ⟨q, hq, rfl⟩ := luInv_surj h hi
  have hiq : luIseq n seq (seq q) = q := luIseq_fold n seq h.inj n (le_refl n) q hq
  rw [hiq]
  obtain ⟨b, hb⟩ : ∃ b : Nat → ℝ, b = fun r => if seq r = seq q then 1 else 0 := ⟨_, rfl⟩
  have hb0 : ∀ j, j < q → b j = 0 := by
    intro j hj
    rw [hb]
    simp only
    rw [if_neg]
    intro e
    have := h.inj j q (by omega) hq e
    omega
  rw [← hb]
  obtain ⟨f1, _, _⟩ := luForward_spec M q b hb0 (n - 1)
  obtain ⟨y, hy⟩ : ∃ y, y = luForward M q b (n - 1) := ⟨_, rfl⟩
  rw [← hy] at f1 ⊢
  have hd : ∀ k, k < n → M k k ≠ 0 := by
    intro k hk
    by_cases hc : k = n - 1
    · rw [hc]; exact hl
    · exact abs_pos.1 (lt_of_lt_of_le pivotTol_pos (h.pivot k (by omega)))
  obtain ⟨b1, _⟩ := luBackward_spec n M y hd n (le_refl n)
  obtain ⟨x, hx⟩ : ∃ x, x = luBackward n M y n := ⟨_, rfl⟩
  rw [← hx] at b1 ⊢
  have e : ∑ c ∈ Finset.range n, A (seq r) c * x c = ∑ c ∈ Finset.range n, luEntry n M r c * x c := by
    refine Finset.sum_congr rfl fun c hc => ?_
    rw [← h.entry r c hr (Finset.mem_range.1 hc)]
    have := luEntry_last M (k := n - 1) (by omega : r ≤ n - 1) c
    rw [Nat.sub_add_cancel hn] at this
    rw [this]
  rw [e, luEntry_mul, min_eq_left hr.le, b1 r (by omega) hr]
  have e2 : ∑ j ∈ Finset.range n, (if j < r then M r j * ∑ c ∈ Finset.Ico j n, M j c * x c else 0) =
      ∑ j ∈ Finset.range r, M r j * y j := by
    rw [← Finset.sum_filter]
    have : (Finset.range n).filter (fun j => j < r) = Finset.range r := by ext j; simp; omega
    rw [this]
    refine Finset.sum_congr rfl fun j hj => ?_
    have := Finset.mem_range.1 hj
    rw [b1 j (by omega) (by omega)]
  rw [e2, add_comm, f1 r (by omega), hb]

end Electrode
