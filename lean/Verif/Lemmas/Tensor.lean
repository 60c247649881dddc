import Verif.Model.Tensor
import Verif.Spec.Tensor
import Mathlib.Tactic.Ring
import Mathlib.Tactic.Linarith
import Mathlib.Tactic.LinearCombination
import Mathlib.Tactic.IntervalCases
import Mathlib.Tactic.FinCases
import Mathlib.Algebra.BigOperators.Fin

namespace Electrode
open Spec

/-! ### pySeq -/

theorem pySeq_ok {α : Type*} (l : List α) : pySeq (l.map Except.ok) = .ok l := by
  induction l with
  | nil => rfl
  | cons a l ih => simp [pySeq, ih]

theorem pySeq_map_ok {α β : Type*} (l : List α) (f : α → Py β) (g : α → β)
    (h : ∀ a ∈ l, f a = .ok (g a)) : pySeq (l.map f) = .ok (l.map g) := by
  induction l with
  | nil => rfl
  | cons a l ih =>
    have h1 := h a (by simp)
    have h2 := ih (fun b hb => h b (by simp [hb]))
    simp [pySeq, h1, h2]

theorem pySeq_map_error {α β : Type*} (l : List α) (f : α → Py β) (e : PyErr) (a : α) (ha : a ∈ l)
    (hf : f a = .error e) (hall : ∀ b ∈ l, ∀ e', f b = .error e' → e' = e) :
    pySeq (l.map f) = .error e := by
  induction l with
  | nil => simp at ha
  | cons b l ih =>
    simp only [List.map_cons, pySeq]
    cases hb : f b with
    | error e' => simp [hall b (by simp) e' hb]
    | ok x =>
      rcases List.mem_cons.1 ha with rfl | h
      · rw [hf] at hb; cases hb
      · simp [ih h (fun c hc e' => hall c (by simp [hc]) e')]

/-! ### names and indexes -/

theorem sortIdx_perm (l : Idx) : (sortIdx l).Perm l := List.perm_insertionSort _ _

theorem sortIdx_sorted (l : Idx) : (sortIdx l).Pairwise (· ≤ ·) := List.pairwise_insertionSort _ _

theorem sortIdx_length (l : Idx) : (sortIdx l).length = l.length := (sortIdx_perm l).length_eq

theorem sortIdx_eq_of_perm {l l' : Idx} (h : l.Perm l') : sortIdx l = sortIdx l' :=
  List.Perm.eq_of_pairwise (fun _ _ _ _ h1 h2 => le_antisymm h1 h2) (sortIdx_sorted l) (sortIdx_sorted l')
    ((sortIdx_perm l).trans (h.trans (sortIdx_perm l').symm))

theorem idxToName_eq_of_perm {l l' : Idx} (h : l.Perm l') : idxToName l = idxToName l' := by
  unfold idxToName; rw [sortIdx_eq_of_perm h]

theorem letter_axis (a : Axis) : letterToAxis (axisLetter a) = .ok a := by
  fin_cases a <;> rfl

theorem nameToIdx_map (l : Idx) : nameToIdx (l.map axisLetter) = .ok l := by
  unfold nameToIdx
  rw [List.map_map]
  have := pySeq_map_ok l (letterToAxis ∘ axisLetter) id (fun a _ => letter_axis a)
  simpa using this

theorem letterToAxis_ok {c : Char} {a : Axis} (h : letterToAxis c = .ok a) : c = axisLetter a := by
  unfold letterToAxis at h
  split_ifs at h <;> cases h <;> simp_all [axisLetter]

theorem nameToIdx_ok {s : Name} {l : Idx} (h : nameToIdx s = .ok l) : s = l.map axisLetter := by
  induction s generalizing l with
  | nil => simp [nameToIdx, pySeq] at h; simp [← h]
  | cons c s ih =>
    simp only [nameToIdx, List.map_cons, pySeq] at h
    cases hc : letterToAxis c with
    | error e => simp [hc] at h
    | ok a =>
      simp only [hc] at h
      cases hs : pySeq (s.map letterToAxis) with
      | error e => simp [hs] at h
      | ok xs =>
        simp only [hs, Except.ok.injEq] at h
        subst h
        simp [← letterToAxis_ok hc, ← ih hs]

/-! ### flat index -/

theorem foldl_rowMajor (l : Idx) (n : Nat) :
    l.foldl (fun n i => 3 * n + i.val) n = n * 3 ^ l.length + rowMajor l := by
  induction l generalizing n with
  | nil => simp [rowMajor]
  | cons a l ih =>
    simp only [List.foldl_cons, rowMajor, List.length_cons]
    rw [ih, ih (3 * 0 + a.val)]
    ring

theorem rowMajor_cons (a : Axis) (l : Idx) : rowMajor (a :: l) = a.val * 3 ^ l.length + rowMajor l := by
  simp only [rowMajor, List.foldl_cons]
  rw [foldl_rowMajor]; simp [rowMajor]

theorem idxToNidx_aux (l : Idx) (m k : Nat) :
    ((l.zipIdx k).map fun p => p.1.val * 3 ^ (m + k + l.length - p.2 - 1)).sum = 3 ^ m * rowMajor l := by
  induction l generalizing k with
  | nil => simp [rowMajor]
  | cons a l ih =>
    have h := ih (k + 1)
    simp only [List.zipIdx_cons, List.map_cons, List.sum_cons, List.length_cons]
    have e : m + k + (l.length + 1) = m + (k + 1) + l.length := by ring
    rw [e, h, rowMajor_cons]
    have e2 : m + (k + 1) + l.length - k - 1 = m + l.length := by omega
    rw [e2, pow_add]; ring

theorem idxToNidx_eq (l : Idx) : idxToNidx l = rowMajor l := by
  have h := idxToNidx_aux l 0 0
  simpa [idxToNidx] using h

theorem rowMajor_lt (l : Idx) : rowMajor l < 3 ^ l.length := by
  induction l with
  | nil => simp [rowMajor]
  | cons a l ih =>
    rw [rowMajor_cons, List.length_cons, pow_succ]
    have := a.isLt
    have h2 : a.val ≤ 2 := by omega
    nlinarith [Nat.mul_le_mul_right (3 ^ l.length) h2]

theorem rowMajor_inj {l l' : Idx} (hl : l.length = l'.length) (h : rowMajor l = rowMajor l') : l = l' := by
  induction l generalizing l' with
  | nil => cases l' with
    | nil => rfl
    | cons => simp at hl
  | cons a l ih =>
    cases l' with
    | nil => simp at hl
    | cons b l' =>
      simp only [List.length_cons, Nat.add_right_cancel_iff] at hl
      rw [rowMajor_cons, rowMajor_cons, hl] at h
      have h1 := rowMajor_lt l
      have h2 := rowMajor_lt l'
      rw [hl] at h1
      have hp : 0 < 3 ^ l'.length := by positivity
      have e1 : (a.val * 3 ^ l'.length + rowMajor l) / 3 ^ l'.length = a.val := by
        rw [mul_comm, Nat.mul_add_div hp, Nat.div_eq_of_lt h1]; simp
      have e2 : (b.val * 3 ^ l'.length + rowMajor l') / 3 ^ l'.length = b.val := by
        rw [mul_comm, Nat.mul_add_div hp, Nat.div_eq_of_lt h2]; simp
      have hab : a = b := by
        apply Fin.ext
        rw [← e1, ← e2, h]
      subst hab
      rw [ih hl (by omega)]

theorem rowMajor_surj (n : Nat) (m : Nat) (h : m < 3 ^ n) : ∃ l : Idx, l.length = n ∧ rowMajor l = m := by
  induction n generalizing m with
  | zero => exact ⟨[], rfl, by simp at h; simp [rowMajor, h]⟩
  | succ n ih =>
    have hp : 0 < 3 ^ n := by positivity
    obtain ⟨l, hl, hm⟩ := ih (m % 3 ^ n) (Nat.mod_lt _ hp)
    have hq : m / 3 ^ n < 3 := by
      rw [Nat.div_lt_iff_lt_mul hp]; rw [pow_succ] at h; omega
    refine ⟨⟨m / 3 ^ n, hq⟩ :: l, by simp [hl], ?_⟩
    rw [rowMajor_cons, hl, hm]
    simp only
    rw [mul_comm]; exact Nat.div_add_mod m (3 ^ n)

theorem productIdx_eq (n : Nat) : productIdx n = tuples n := by
  induction n with
  | zero => rfl
  | succ n ih => simp [productIdx, tuples, ih]

theorem tuples_length (n : Nat) : (tuples n).length = 3 ^ n := by
  induction n with
  | zero => rfl
  | succ n ih => simp [tuples, ih, pow_succ]; ring

theorem mem_tuples {n : Nat} {l : Idx} : l ∈ tuples n ↔ l.length = n := by
  induction n generalizing l with
  | zero => simp [tuples]
  | succ n ih =>
    simp only [tuples, List.mem_flatMap, List.mem_map]
    constructor
    · rintro ⟨i, _, m, hm, rfl⟩; simp [ih.1 hm]
    · intro h
      cases l with
      | nil => simp at h
      | cons a l =>
        refine ⟨a, ?_, l, ih.2 (by simpa using h), rfl⟩
        fin_cases a <;> simp

theorem tuples_get (n : Nat) (l : Idx) (h : l.length = n) : (tuples n)[rowMajor l]? = some l := by
  induction n generalizing l with
  | zero => cases l with
    | nil => simp [tuples, rowMajor]
    | cons => simp at h
  | succ n ih =>
    cases l with
    | nil => simp at h
    | cons a l =>
      have hl : l.length = n := by simpa using h
      have hlt := rowMajor_lt l
      rw [hl] at hlt
      have hg := ih l hl
      rw [rowMajor_cons, hl]
      simp only [tuples, List.flatMap_cons, List.flatMap_nil, List.append_nil]
      have hlen : ∀ i : Axis, ((tuples n).map (i :: ·)).length = 3 ^ n := by
        intro i; simp [tuples_length]
      fin_cases a
      · simp only [Fin.zero_eta, Fin.isValue]
        rw [List.getElem?_append_left (by rw [hlen]; simpa using hlt)]
        simp [hg]
      · simp only [Fin.mk_one, Fin.isValue]
        rw [List.getElem?_append_right (by rw [hlen]; simp), hlen,
          List.getElem?_append_left (by rw [hlen]; simp; omega)]
        simp [hg]
      · simp only [Fin.reduceFinMk, Fin.isValue]
        rw [List.getElem?_append_right (by rw [hlen]; omega), hlen,
          List.getElem?_append_right (by rw [hlen]; omega), hlen]
        have : 2 * 3 ^ n + rowMajor l - 3 ^ n - 3 ^ n = rowMajor l := by
          omega
        rw [this]; simp [hg]

/-! ### find_laplace -/

theorem traceless_of_head {R : Type*} [CommRing R] {n : Nat} {T : Idx → R}
    (hs : Symmetric n T) (h : ∀ l : Idx, l.length + 2 = n → ∑ i : Fin 3, T (i :: i :: l) = 0) :
    Traceless n T := by
  intro a b c hlen
  rw [← h (a ++ b ++ c) (by simp; omega)]
  refine Finset.sum_congr rfl fun i _ => hs _ _ (by simp; omega) ?_
  have h1 : (a ++ i :: (b ++ i :: c)).Perm (i :: (a ++ (b ++ i :: c))) := List.perm_middle
  have h2 : (a ++ (b ++ i :: c)).Perm (i :: (a ++ b ++ c)) := by
    rw [← List.append_assoc]; exact List.perm_middle
  exact h1.trans (h2.cons i)

/-- the pairs yielded by `findLaplace`, one axis at a time -/
theorem mem_findLaplace {c a b : Idx} (h : (a, b) ∈ findLaplace c) :
    ∃ i j k : Axis, ∃ keep : Idx, [i, j, k].Perm [0, 1, 2] ∧ c.Perm (i :: i :: keep) ∧
      a.Perm (j :: j :: keep) ∧ b.Perm (k :: k :: keep) := by
  unfold findLaplace at h
  simp only [List.mem_flatMap] at h
  obtain ⟨i, hi, h⟩ := h
  split_ifs at h with hc
  · have hmem : i ∈ sortIdx c := List.count_pos_iff.1 (by omega)
    have hmem2 : i ∈ (sortIdx c).erase i := by
      apply List.count_pos_iff.1
      rw [List.count_erase_self]; omega
    have hp : c.Perm (i :: i :: ((sortIdx c).erase i).erase i) :=
      (sortIdx_perm c).symm.trans
        ((List.perm_cons_erase hmem).trans ((List.perm_cons_erase hmem2).cons i))
    have key : ∀ j : Axis, (sortIdx (((sortIdx c).erase i).erase i ++ [j, j])).Perm
        (j :: j :: ((sortIdx c).erase i).erase i) := fun j =>
      (sortIdx_perm _).trans (List.perm_append_comm (l₁ := ((sortIdx c).erase i).erase i) (l₂ := [j, j]))
    fin_cases i <;> simp at h <;> obtain ⟨rfl, rfl⟩ := h
    · exact ⟨0, 1, 2, _, by decide, hp, key 1, key 2⟩
    · exact ⟨1, 0, 2, _, by decide, hp, key 0, key 2⟩
    · exact ⟨2, 0, 1, _, by decide, hp, key 0, key 1⟩
  · simp at h

theorem findLaplace_length (c : Idx) :
    (findLaplace c).length = (([0, 1, 2] : List Axis).filter fun i => 2 ≤ c.count i).length := by
  have hc : ∀ i, (sortIdx c).count i = c.count i := fun i => (sortIdx_perm c).count_eq i
  unfold findLaplace
  simp only [hc, List.flatMap_cons, List.flatMap_nil, List.filter_cons, List.filter_nil]
  by_cases h0 : 2 ≤ c.count 0 <;> by_cases h1 : 2 ≤ c.count 1 <;> by_cases h2 : 2 ≤ c.count 2 <;>
    simp [h0, h1, h2]

theorem findLaplace_sum {R : Type*} [CommRing R] {T : Idx → R} {c a b : Idx}
    (hs : Symmetric c.length T) (ht : Traceless c.length T) (h : (a, b) ∈ findLaplace c) :
    T a + T b + T c = 0 := by
  obtain ⟨i, j, k, keep, hp, hc, ha, hb⟩ := mem_findLaplace h
  have hl : c.length = keep.length + 2 := by simpa using hc.length_eq
  have ea : T a = T (j :: j :: keep) := hs _ _ (by rw [ha.length_eq, hl]; simp) ha
  have eb : T b = T (k :: k :: keep) := hs _ _ (by rw [hb.length_eq, hl]; simp) hb
  have ec : T c = T (i :: i :: keep) := hs _ _ rfl hc
  have h0 := ht [] [] keep (by simp [hl])
  rw [ea, eb, ec]
  have hsum : T (i :: i :: keep) + (T (j :: j :: keep) + (T (k :: k :: keep) + 0))
      = T (0 :: 0 :: keep) + (T (1 :: 1 :: keep) + (T (2 :: 2 :: keep) + 0)) := by
    have := (hp.map fun x => T (x :: x :: keep)).sum_eq
    simpa using this
  simp only [Fin.sum_univ_three, List.nil_append] at h0
  linear_combination hsum + h0

/-! ### the tables -/

/-- Table facts, checked by the kernel over the complete tables. -/
theorem table_names_length : ∀ k < 6, (derivativeNames.getD k []).length = 2 * k + 1 := by decide +kernel

theorem table_names_nodup : ∀ k < 6, (derivativeNames.getD k []).Nodup := by decide +kernel

/-- every name of order `k` is the sorted spelling of an axis tuple of length `k` -/
theorem table_names_sorted : ∀ k < 6, ∀ s ∈ derivativeNames.getD k [],
    ∃ l ∈ productIdx k, idxToName l = s ∧ sortIdx l = l := by decide +kernel

theorem table_entries_single : ∀ k < 6, ∀ l ∈ productIdx k,
    (expandEntries (derivativeNames.getD k []) l).length = 1 := by decide +kernel

/-- coefficient vector (length `m`) of a selection -/
def selCoef (m : Nat) : Sel → List Int
  | .one i => (List.range m).map fun n => if n = i then 1 else 0
  | .lap i j => (List.range m).map fun n => (if n = i then -1 else 0) + (if n = j then -1 else 0)

def entrySel (k : Nat) (l : Idx) : Sel :=
  (expandEntries (derivativeNames.getD k []) l).headD (.one 0)

theorem table_traceless : ∀ k < 6, 2 ≤ k → ∀ l ∈ productIdx (k - 2),
    List.zipWith (· + ·) (selCoef (2 * k + 1) (entrySel k (0 :: 0 :: l)))
      (List.zipWith (· + ·) (selCoef (2 * k + 1) (entrySel k (1 :: 1 :: l)))
        (selCoef (2 * k + 1) (entrySel k (2 :: 2 :: l)))) = List.replicate (2 * k + 1) 0 := by
  decide +kernel


/-- axis tuple of the `i`-th name of order `k` -/
def nameIdx (k i : Nat) : Idx :=
  match nameToIdx ((derivativeNames.getD k []).getD i []) with
  | .ok l => l
  | .error _ => []

def selInRange (m : Nat) : Sel → Bool
  | .one i => i < m
  | .lap i j => i < m && j < m

/-- what an entry of the table means -/
def selMeans (k : Nat) (l : Idx) : Sel → Bool
  | .one i => nameIdx k i == sortIdx l
  | .lap i j => (findLaplace l).contains (nameIdx k i, nameIdx k j)

theorem table_in_range : ∀ k < 6, ∀ l ∈ productIdx k, selInRange (2 * k + 1) (entrySel k l) = true := by
  decide +kernel

theorem table_means : ∀ k < 6, ∀ l ∈ productIdx k, selMeans k l (entrySel k l) = true := by
  decide +kernel

theorem table_select : ∀ k < 6, ∀ i < 2 * k + 1,
    (nameIdx k i).length = k ∧ entrySel k (nameIdx k i) = .one i := by decide +kernel

theorem table_selectMap : ∀ k < 6,
    selectMap[k]? = some ((List.range (2 * k + 1)).map fun i => idxToNidx (nameIdx k i)) := by
  decide +kernel

theorem expandMap_get (k : Nat) (hk : k < 6) :
    expandMap[k]? = some ((tuples k).map (entrySel k)) := by
  have h1 : expandMap[k]? = some (expandMapOf k (derivativeNames.getD k [])) := by
    have hlen : derivativeNames.length = 6 := by decide
    unfold expandMap
    rw [List.getElem?_map, List.getElem?_zipIdx]
    rw [List.getElem?_eq_getElem (by rw [hlen]; exact hk)]
    simp [List.getD_eq_getElem?_getD, List.getElem?_eq_getElem (show k < derivativeNames.length by rw [hlen]; exact hk)]
  rw [h1]
  congr 1
  unfold expandMapOf
  rw [productIdx_eq]
  have key : ∀ L : List Idx, (∀ l ∈ L, (expandEntries (derivativeNames.getD k []) l).length = 1) →
      L.flatMap (expandEntries (derivativeNames.getD k [])) = L.map (entrySel k) := by
    intro L
    induction L with
    | nil => simp
    | cons a L ih =>
      intro h
      rw [List.flatMap_cons, List.map_cons, ih (fun l hl => h l (by simp [hl]))]
      have ha := h a (by simp)
      obtain ⟨s, hs⟩ := List.length_eq_one_iff.1 ha
      simp only [entrySel, hs]; rfl
  apply key
  intro l hl
  exact table_entries_single k hk l (by rw [productIdx_eq]; exact hl)

section
variable {R : Type*} [CommRing R]

def selVal (c : List R) : Sel → R
  | .one i => c.getD i 0
  | .lap i j => -c.getD i 0 - c.getD j 0

theorem pyGet_ok {α : Type*} (l : List α) (i : Nat) (d : α) (h : i < l.length) :
    pyGet l i = .ok (l.getD i d) := by
  simp [pyGet, List.getElem?_eq_getElem h]

theorem selValue_ok (c : List R) (s : Sel) (h : selInRange c.length s = true) :
    selValue c s = .ok (selVal c s) := by
  cases s with
  | one i => simp only [selInRange, decide_eq_true_eq] at h; simp [selValue, selVal, pyGet_ok c i 0 h]
  | lap i j =>
    simp only [selInRange, Bool.and_eq_true, decide_eq_true_eq] at h
    simp [selValue, selVal, pyGet_ok c i 0 h.1, pyGet_ok c j 0 h.2]

/-- the full tensor in `tuples` order -/
def fullOf (k : Nat) (c : List R) : List R := (tuples k).map fun l => selVal c (entrySel k l)

theorem fullOf_length (k : Nat) (c : List R) : (fullOf k c).length = 3 ^ k := by
  simp [fullOf, tuples_length]

theorem entry_fullOf (k : Nat) (c : List R) (l : Idx) (h : l.length = k) :
    entry (fullOf k c) l = selVal c (entrySel k l) := by
  simp [entry, fullOf, List.getD_eq_getElem?_getD, tuples_get k l h]

theorem expandTensor_full (k : Nat) (hk : k < 6) (c : List R) (hc : c.length = 2 * k + 1) :
    expandTensor c = .ok (fullOf k c) := by
  have ho : (none : Option Nat).getD ((c.length - 1) / 2) = k := by simp [hc]
  unfold expandTensor
  simp only [ho]
  by_cases h0 : k = 0
  · subst h0
    obtain ⟨a, rfl⟩ := List.length_eq_one_iff.1 hc
    simp [fullOf, tuples, pyGet, Except.map]
    rfl
  by_cases h1 : k = 1
  · subst h1
    obtain ⟨a, b, d, rfl⟩ := List.length_eq_three.1 hc
    simp
    rfl
  simp only [h0, h1, if_false, expandMap_get k hk]
  unfold fullOf
  rw [List.map_map]
  apply pySeq_map_ok
  intro l hl
  apply selValue_ok
  rw [hc]
  exact table_in_range k hk l (by rw [productIdx_eq]; exact hl)

/-- the selected entries -/
def selOf (k : Nat) (t : List R) : List R := (List.range (2 * k + 1)).map fun i => entry t (nameIdx k i)

theorem selectTensor_sel (k : Nat) (hk : k < 6) (t : List R) (ht : t.length = 3 ^ k) :
    selectTensor t k = .ok (selOf k t) := by
  unfold selectTensor
  by_cases h0 : k = 0
  · subst h0
    obtain ⟨a, rfl⟩ := List.length_eq_one_iff.1 ht
    simp
    rfl
  by_cases h1 : k = 1
  · subst h1
    obtain ⟨a, b, d, rfl⟩ := List.length_eq_three.1 ht
    simp
    rfl
  have h2 : ¬ k < 2 := by omega
  simp only [h2, if_false, table_selectMap k hk, selOf]
  rw [List.map_map]
  apply pySeq_map_ok
  intro i hi
  have h := (table_select k hk i (by simpa using hi)).1
  simp only [Function.comp, idxToNidx_eq, entry]
  apply pyGet_ok
  rw [ht]
  have h2 := rowMajor_lt (nameIdx k i)
  rwa [h] at h2

theorem selOf_fullOf (k : Nat) (hk : k < 6) (c : List R) (hc : c.length = 2 * k + 1) :
    selOf k (fullOf k c) = c := by
  apply List.ext_getElem
  · simp [selOf, hc]
  intro i h1 h2
  have hi : i < 2 * k + 1 := by simpa [selOf] using h1
  obtain ⟨hl, hs⟩ := table_select k hk i hi
  simp only [selOf, List.getElem_map, List.getElem_range]
  rw [entry_fullOf k c _ hl, hs]
  simp [selVal, h2]

theorem entrySel_perm (k : Nat) {l l' : Idx} (h : l.Perm l') : entrySel k l = entrySel k l' := by
  unfold entrySel expandEntries
  have h1 : findLaplace l = findLaplace l' := by
    unfold findLaplace; rw [sortIdx_eq_of_perm h]
  rw [idxToName_eq_of_perm h, h1]

theorem fullOf_symmetric (k : Nat) (c : List R) : Symmetric k (entry (fullOf k c)) := by
  intro l l' hl hp
  rw [entry_fullOf k c l hl, entry_fullOf k c l' (by rw [← hp.length_eq, hl]), entrySel_perm k hp]

def dotI (v : List Int) (c : List R) : R := (List.zipWith (fun (a : Int) (b : R) => (a : R) * b) v c).sum

theorem dotI_add (u v : List Int) (c : List R) (h : u.length = v.length) :
    dotI (List.zipWith (· + ·) u v) c = dotI u c + dotI v c := by
  induction u generalizing v c with
  | nil => cases v <;> simp_all [dotI]
  | cons a u ih =>
    cases v with
    | nil => simp at h
    | cons b v =>
      cases c with
      | nil => simp [dotI]
      | cons d c =>
        have := ih v c (by simpa using h)
        simp only [dotI, List.zipWith_cons_cons, List.sum_cons] at this ⊢
        rw [this]; push_cast; ring

theorem dotI_zero (n : Nat) (c : List R) : dotI (List.replicate n 0) c = 0 := by
  induction n generalizing c with
  | zero => simp [dotI]
  | succ n ih =>
    cases c with
    | nil => simp [dotI]
    | cons d c =>
      have := ih c
      simp only [dotI, List.replicate_succ, List.zipWith_cons_cons, List.sum_cons] at this ⊢
      rw [this]; simp

theorem dotI_single (c : List R) (i s : Nat) (x : Int) :
    dotI ((List.range' s c.length).map fun n => if n = s + i then x else 0) c = x * c.getD i 0 := by
  induction c generalizing i s with
  | nil => simp [dotI]
  | cons d c ih =>
    simp only [List.length_cons, List.range'_succ, List.map_cons, dotI, List.zipWith_cons_cons, List.sum_cons]
    cases i with
    | zero =>
      have h0 : ((List.range' (s + 1) c.length).map fun n => if n = s + 0 then x else 0)
          = List.replicate c.length 0 := by
        apply List.ext_getElem
        · simp
        intro n h1 h2
        simp; omega
      rw [h0]
      have := dotI_zero c.length c
      simp only [dotI] at this
      rw [this]; simp
    | succ i =>
      have := ih i (s + 1)
      have e : ∀ n : Nat, (n = s + (i + 1)) = (n = s + 1 + i) := fun n => by
        apply propext; omega
      simp only [dotI] at this
      simp only [e]
      rw [this]
      have : ¬ s = s + 1 + i := by omega
      simp [this]

theorem selVal_dot (c : List R) (s : Sel) : selVal c s = dotI (selCoef c.length s) c := by
  have key : ∀ i (x : Int), dotI ((List.range c.length).map fun n => if n = i then x else 0) c = x * c.getD i 0 := by
    intro i x
    have := dotI_single c i 0 x
    simpa [List.range_eq_range'] using this
  cases s with
  | one i => simp only [selVal, selCoef]; rw [key]; simp
  | lap i j =>
    simp only [selVal, selCoef]
    have : ((List.range c.length).map fun n => (if n = i then (-1:Int) else 0) + (if n = j then -1 else 0))
        = List.zipWith (· + ·) ((List.range c.length).map fun n => if n = i then (-1:Int) else 0)
            ((List.range c.length).map fun n => if n = j then (-1:Int) else 0) := by
      rw [List.zipWith_map]; simp
    rw [this, dotI_add _ _ _ (by simp), key, key]
    push_cast; ring

theorem selCoef_length (m : Nat) (s : Sel) : (selCoef m s).length = m := by cases s <;> simp [selCoef]

theorem fullOf_traceless (k : Nat) (hk : k < 6) (c : List R) (hc : c.length = 2 * k + 1) :
    Traceless k (entry (fullOf k c)) := by
  apply traceless_of_head (fullOf_symmetric k c)
  intro l hl
  have h := table_traceless k hk (by omega) l (by rw [productIdx_eq, mem_tuples]; omega)
  simp only [Fin.sum_univ_three]
  rw [entry_fullOf k c _ (by simp; omega), entry_fullOf k c _ (by simp; omega),
    entry_fullOf k c _ (by simp; omega), selVal_dot, selVal_dot, selVal_dot, hc, add_assoc,
    ← dotI_add _ _ _ (by simp [selCoef_length]), ← dotI_add _ _ _ (by simp [selCoef_length]), h, dotI_zero]

theorem list_eq_of_entry (k : Nat) (t t' : List R) (h : t.length = 3 ^ k) (h' : t'.length = 3 ^ k)
    (he : ∀ l : Idx, l.length = k → entry t l = entry t' l) : t = t' := by
  apply List.ext_getElem (by rw [h, h'])
  intro i h1 h2
  obtain ⟨l, hl, hr⟩ := rowMajor_surj k i (by rw [← h]; exact h1)
  have := he l hl
  simpa [entry, hr, List.getD_eq_getElem?_getD, h1, h2] using this

theorem fullOf_selOf (k : Nat) (hk : k < 6) (t : List R) (ht : t.length = 3 ^ k)
    (hs : Symmetric k (entry t)) (htr : Traceless k (entry t)) : fullOf k (selOf k t) = t := by
  apply list_eq_of_entry k _ _ (fullOf_length _ _) ht
  intro l hl
  have hmem : l ∈ productIdx k := by rw [productIdx_eq, mem_tuples]; exact hl
  rw [entry_fullOf k _ l hl]
  have hm := table_means k hk l hmem
  have hr := table_in_range k hk l hmem
  have get : ∀ i < 2 * k + 1, (selOf k t).getD i 0 = entry t (nameIdx k i) := by
    intro i hi
    simp [selOf, List.getD_eq_getElem?_getD, hi]
  cases hsel : entrySel k l with
  | one i =>
    rw [hsel] at hm hr
    simp only [selMeans, beq_iff_eq] at hm
    simp only [selInRange, decide_eq_true_eq] at hr
    simp only [selVal]
    rw [get i hr, hm]
    exact hs _ _ (by rw [sortIdx_length, hl]) (sortIdx_perm l)
  | lap i j =>
    rw [hsel] at hm hr
    simp only [selMeans, List.contains_iff_mem] at hm
    simp only [selInRange, Bool.and_eq_true, decide_eq_true_eq] at hr
    simp only [selVal]
    rw [get i hr.1, get j hr.2]
    subst hl
    have := findLaplace_sum hs htr hm
    linear_combination -this

end

end Electrode
