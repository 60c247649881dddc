import Verif.Model.VectorsC
import Verif.Props.Helpers
import Verif.Props.RandomRot
import Mathlib.Data.Fintype.BigOperators
import Mathlib.Tactic.IntervalCases

/-
C120: compiled lengths, unit vectors and random rotations.
-/
namespace Electrode
open Real Spec Helpers

namespace Spec
/-- the entries of an array as a function of the index; `none` is nan -/
noncomputable def ndEntry (shape : List Nat) (data : List (Option ℝ)) (idx : List Nat) : Option ℝ := data.getD (ndPlace shape idx) none

/-- the length of the vector of the entries `a[pre, s, post]` for all `s` -/
noncomputable def lengthAlong (a : NdArr) (size : Nat) (pre post : List Nat) : ℝ :=
  √(∑ s ∈ Finset.range size, a.get (pre ++ s :: post) ^ 2)

/-- how an axis is named: from the start or from the end -/
def NamesAxis (n ax : Nat) (axis : Int) : Prop := axis = ax ∨ axis = (ax : Int) - n
end Spec

namespace VecC

theorem axisOf_names {n ax : Nat} (h : ax < n) {axis : Int} (hn : NamesAxis n ax axis) : axisOf n axis = some ax := by
  unfold axisOf
  rcases hn with rfl | rfl
  · have e : ¬ ((ax : Int) < 0) := by omega
    simp only [e, if_false]
    rw [if_pos (by omega)]
    simp
  · have e : (ax : Int) - n < 0 := by omega
    simp only [e, if_true]
    rw [if_pos (by omega)]
    congr
    omega

theorem axisOf_some {n ax : Nat} {axis : Int} (h : axisOf n axis = some ax) : ax < n ∧ NamesAxis n ax axis := by
  unfold axisOf at h
  simp only at h
  split_ifs at h with h1 h2 h2
  · have := Option.some.inj h
    unfold NamesAxis
    omega
  · have := Option.some.inj h
    unfold NamesAxis
    omega

theorem lineLen_range (f : Nat → ℝ) (n : Nat) : lineLen ((List.range n).map f) = √(∑ s ∈ Finset.range n, f s ^ 2) := by
  unfold lineLen
  congr 1
  rw [List.map_map]
  induction n with
  | zero => simp
  | succ n ih =>
    rw [List.range_succ, List.map_append, List.sum_append, ih, Finset.sum_range_succ]
    simp [sq]

theorem step_eq (S1 S2 : List Nat) (n : Nat) : axisStep (S1 ++ n :: S2) S1.length = S2.prod ∧ (S1 ++ n :: S2).getD S1.length 0 = n ∧
    (S1 ++ n :: S2).eraseIdx S1.length = S1 ++ S2 := by
  refine ⟨?_, ?_, ?_⟩
  · unfold axisStep
    rw [← List.drop_drop, List.drop_left]
    rfl
  · simp
  · simp [List.eraseIdx_append_of_length_le]

theorem line_eq (S1 S2 : List Nat) (n : Nat) (data : List ℝ) {pre post : List Nat} (h1 : InNd pre S1) (h2 : InNd post S2) :
    lineLen (axisLine ⟨S1 ++ n :: S2, data⟩ S1.length (ndPlace (S1 ++ S2) (pre ++ post))) = lengthAlong ⟨S1 ++ n :: S2, data⟩ n pre post := by
  obtain ⟨e1, e2, -⟩ := step_eq S1 S2 n
  unfold axisLine
  simp only [e1, e2]
  rw [lineLen_range]
  unfold lengthAlong
  congr 1
  refine Finset.sum_congr rfl fun s _ => ?_
  have hp := place_lt h2
  have hP : 0 < S2.prod := by omega
  have d1 : (ndPlace S1 pre * S2.prod + ndPlace S2 post) / S2.prod = ndPlace S1 pre := by
    rw [mul_comm, Nat.mul_add_div hP, Nat.div_eq_of_lt hp, add_zero]
  have d2 : (ndPlace S1 pre * S2.prod + ndPlace S2 post) % S2.prod = ndPlace S2 post := by
    rw [mul_comm, Nat.mul_add_mod, Nat.mod_eq_of_lt hp]
  rw [place_append h1, d1, d2]
  unfold NdArr.get
  simp only
  rw [place_append h1, List.prod_cons]
  congr 2
  simp only [ndPlace]
  ring

theorem lineOf_eq (S1 S2 : List Nat) (n : Nat) {pre post : List Nat} (h1 : InNd pre S1) (h2 : InNd post S2) {s : Nat} (hs : s < n) :
    lineOf (S1 ++ n :: S2) S1.length (ndPlace (S1 ++ n :: S2) (pre ++ s :: post)) = ndPlace (S1 ++ S2) (pre ++ post) := by
  obtain ⟨e1, e2, -⟩ := step_eq S1 S2 n
  have hp := place_lt h2
  have hP : 0 < S2.prod := by omega
  unfold lineOf
  simp only [e1, e2]
  rw [place_append h1, place_append h1, List.prod_cons]
  simp only [ndPlace]
  have hlt : s * S2.prod + ndPlace S2 post < n * S2.prod := by
    calc s * S2.prod + ndPlace S2 post < s * S2.prod + S2.prod := by omega
      _ = (s + 1) * S2.prod := by ring
      _ ≤ n * S2.prod := Nat.mul_le_mul_right _ hs
  have d1 : (ndPlace S1 pre * (n * S2.prod) + (s * S2.prod + ndPlace S2 post)) / (n * S2.prod) = ndPlace S1 pre := by
    rw [mul_comm, Nat.mul_add_div (by omega), Nat.div_eq_of_lt hlt, add_zero]
  have d2 : (ndPlace S1 pre * (n * S2.prod) + (s * S2.prod + ndPlace S2 post)) % S2.prod = ndPlace S2 post := by
    rw [show ndPlace S1 pre * (n * S2.prod) + (s * S2.prod + ndPlace S2 post)
      = S2.prod * (ndPlace S1 pre * n + s) + ndPlace S2 post by ring, Nat.mul_add_mod, Nat.mod_eq_of_lt hp]
  rw [d1, d2]

theorem inNd_append {a b s t : List Nat} (h1 : InNd a s) (h2 : InNd b t) : InNd (a ++ b) (s ++ t) := List.rel_append h1 h2

end VecC
open VecC

/-- C120: the compiled `vector_norm` gives the length of all entries, or with an axis, counted from either end, the lengths of the vectors
along it, for arrays with any number of dimensions. -/
theorem c120_norm (a : NdArr) (S1 S2 : List Nat) (n : Nat) (hs : a.shape = S1 ++ n :: S2) (axis : Int)
    (hx : NamesAxis a.shape.length S1.length axis) :
    cVectorNorm a none none = .number (some √(a.data.map (· ^ 2)).sum) ∧
    ∃ d, cVectorNorm a (some axis) none = .array (S1 ++ S2) d ∧ d.length = (S1 ++ S2).prod ∧
      ∀ pre post, InNd pre S1 → InNd post S2 → ndEntry (S1 ++ S2) d (pre ++ post) = some (lengthAlong a n pre post) := by
  constructor
  · simp [cVectorNorm, lineLen, sq]
  · obtain ⟨shape, data⟩ := a
    simp only at hs
    subst hs
    obtain ⟨e1, e2, e3⟩ := step_eq S1 S2 n
    refine ⟨lineLens ⟨S1 ++ n :: S2, data⟩ S1.length, ?_, ?_, fun pre post h1 h2 => ?_⟩
    · unfold cVectorNorm
      simp only
      rw [axisOf_names (by simp) hx]
      simp only [e3]
    · simp [lineLens, e3]
    · unfold ndEntry lineLens
      simp only [e3]
      rw [getD_map_range _ _ _ _ (place_lt (inNd_append h1 h2)), line_eq S1 S2 n data h1 h2]

/-- C120: the compiled `unit_vector` divides each ndEntry by the length of the vector along the axis; vectors of length zero become nan. -/
theorem c120_unit (a : NdArr) (hw : a.Wf) (S1 S2 : List Nat) (n : Nat) (hs : a.shape = S1 ++ n :: S2) (axis : Int)
    (hx : NamesAxis a.shape.length S1.length axis) :
    ∃ d, cUnitVector a (some axis) none = .array a.shape d ∧
      ∀ pre s post, InNd pre S1 → s < n → InNd post S2 →
        (lengthAlong a n pre post ≠ 0 → ndEntry a.shape d (pre ++ s :: post) = some (a.get (pre ++ s :: post) / lengthAlong a n pre post)) ∧
        (lengthAlong a n pre post = 0 → ndEntry a.shape d (pre ++ s :: post) = none) := by
  obtain ⟨shape, data⟩ := a
  simp only at hs
  subst hs
  refine ⟨unitLines ⟨S1 ++ n :: S2, data⟩ S1.length, ?_, fun pre s post h1 h2 h3 => ?_⟩
  · unfold cUnitVector
    rw [if_neg (by simp)]
    simp only
    rw [axisOf_names (by simp) hx]
    simp
  · have hi : InNd (pre ++ s :: post) (S1 ++ n :: S2) := inNd_append h1 (List.Forall₂.cons h2 h3)
    have hl : ndPlace (S1 ++ n :: S2) (pre ++ s :: post) < data.length := by
      rw [show data.length = _ from hw]; exact place_lt hi
    have e : ndEntry (S1 ++ n :: S2) (unitLines ⟨S1 ++ n :: S2, data⟩ S1.length) (pre ++ s :: post)
        = nanQuot (NdArr.get ⟨S1 ++ n :: S2, data⟩ (pre ++ s :: post)) (lengthAlong ⟨S1 ++ n :: S2, data⟩ n pre post) := by
      unfold ndEntry unitLines
      simp only
      rw [getD_map_range _ _ _ _ hl, lineOf_eq S1 S2 n h1 h3 h2, line_eq S1 S2 n data h1 h3]
      rfl
    simp only at e ⊢
    rw [e]
    unfold nanQuot
    exact ⟨fun h => if_neg h, fun h => if_pos h⟩

/-- the two rows of an array: lengths 5 and 13, also as the last axis -/
example : ∃ d, cVectorNorm ⟨[2, 2], [3, 4, 5, 12]⟩ (some (-1)) none = .array [2] d ∧ ndEntry [2] d [0] = some 5 ∧ ndEntry [2] d [1] = some 13 := by
  obtain ⟨-, d, h1, -, h2⟩ := c120_norm ⟨[2, 2], [3, 4, 5, 12]⟩ [2] [] 2 rfl (-1) (Or.inr rfl)
  have e0 : lengthAlong ⟨[2, 2], [3, 4, 5, 12]⟩ 2 [0] [] = 5 := by
    unfold lengthAlong
    rw [show (5 : ℝ) = √(5 ^ 2) from (Real.sqrt_sq (by norm_num)).symm]
    congr 1
    norm_num [Finset.sum_range_succ, NdArr.get, ndPlace]
  have e1 : lengthAlong ⟨[2, 2], [3, 4, 5, 12]⟩ 2 [1] [] = 13 := by
    unfold lengthAlong
    rw [show (13 : ℝ) = √(13 ^ 2) from (Real.sqrt_sq (by norm_num)).symm]
    congr 1
    norm_num [Finset.sum_range_succ, NdArr.get, ndPlace]
  refine ⟨d, h1, ?_, ?_⟩
  · rw [← e0]; exact h2 [0] [] (by simp [InNd]) (by simp [InNd])
  · rw [← e1]; exact h2 [1] [] (by simp [InNd]) (by simp [InNd])

/-- C120: without axis.  The compiled `vector_norm` refuses `out` and gives a number; the Python one writes to an `out` without
dimensions, and for more than one dimension gives an array with one entry.  Both `unit_vector` divide by the length of all entries. -/
theorem c120_no_axis (a o : NdArr) (hn : a.shape.length ≠ 1) :
    cVectorNorm a none (some o) = .raised .valueError ∧
    cVectorNorm a none none = .number (some √(a.data.map (· ^ 2)).sum) ∧
    pyVectorNorm a none none = .array [1] [some √(a.data.map (· ^ 2)).sum] ∧
    (o.shape = [] → pyVectorNorm a none (some o) = .wrote [] [some √(a.data.map (· ^ 2)).sum]) ∧
    ∃ d, cUnitVector a none none = .array a.shape d ∧ d.length = a.data.length ∧
      ∀ i < a.data.length, d.getD i none = if √(a.data.map (· ^ 2)).sum = 0 then none
        else some (a.data.getD i 0 / √(a.data.map (· ^ 2)).sum) := by
  have e : lineLen a.data = √(a.data.map (· ^ 2)).sum := by simp [lineLen, sq]
  refine ⟨by simp [cVectorNorm], by simp [cVectorNorm, e], by simp [pyVectorNorm, hn, e], fun h => by simp [pyVectorNorm, h, e],
    unitAll a, by simp [cUnitVector], by simp [unitAll], fun i hi => ?_⟩
  simp [unitAll, nanQuot, e, List.getD_eq_getElem?_getD, hi]

/-- the hypotheses are met -/
example : ∃ d, cUnitVector ⟨[2, 1], [3, 4]⟩ none none = .array [2, 1] d ∧ d.getD 1 none = some (4 / 5) := by
  obtain ⟨-, -, -, -, d, h1, -, h2⟩ := c120_no_axis ⟨[2, 1], [3, 4]⟩ ⟨[], []⟩ (by norm_num)
  refine ⟨d, h1, ?_⟩
  have e : √((([3, 4] : List ℝ).map (· ^ 2)).sum) = 5 := by
    rw [show (([3, 4] : List ℝ).map (· ^ 2)).sum = 5 ^ 2 by norm_num]
    exact Real.sqrt_sq (by norm_num)
  rw [h2 1 (by norm_num), e]
  norm_num

/-- C120: for arrays with at least two dimensions, any axis, existing or not, and without `out` or with one of the shape of the result, the
compiled `vector_norm` does what the Python function does. -/
theorem c120_norm_agree (a : NdArr) (h : 2 ≤ a.shape.length) (axis : Int) (out : Option NdArr)
    (ho : ∀ o ax, out = some o → ax < a.shape.length → NamesAxis a.shape.length ax axis → o.Wf ∧ o.shape = a.shape.eraseIdx ax) :
    cVectorNorm a (some axis) out = pyVectorNorm a (some axis) out := by
  unfold cVectorNorm pyVectorNorm
  simp only
  have n0 : ¬ a.shape.length = 0 := by omega
  have n1 : ¬ a.shape.length = 1 := by omega
  cases hx : axisOf a.shape.length axis with
  | none => cases out <;> simp [n0, n1]
  | some ax =>
    cases out with
    | none => simp [n0, n1]
    | some o =>
      obtain ⟨hax, hna⟩ := axisOf_some hx
      obtain ⟨hw, hsh⟩ := ho o ax rfl hax hna
      have hl : a.shape.length = o.shape.length + 1 := by
        rw [hsh, List.length_eraseIdx_of_lt hax]; omega
      have hn : (lineLens a ax).length = o.data.length := by
        rw [show o.data.length = _ from hw, hsh]; simp [lineLens]
      simp only [n0, if_false]
      rw [if_neg (by simpa using hl), if_pos hn.le, if_pos hsh, hn, List.drop_length]
      simp

/-- C120: the same for `unit_vector`, with any axis or none. -/
theorem c120_unit_agree (a : NdArr) (axis : Option Int) (out : Option NdArr) (h : 2 ≤ a.shape.length ∨ (a.shape.length = 1 ∧ axis = none))
    (ho : ∀ o, out = some o → o.shape = a.shape) : cUnitVector a axis out = pyUnitVector a axis out := by
  unfold cUnitVector pyUnitVector
  rw [if_neg (by rintro ⟨o, ho1, ho2⟩; exact ho2 (ho o ho1))]
  have n0 : ¬ a.shape.length = 0 := by omega
  rcases h with h | ⟨h, rfl⟩
  · have n1 : ¬ a.shape.length = 1 := by omega
    rw [if_neg (fun h' => n1 h'.2), if_neg n0]
    cases axis with
    | none => rfl
    | some axis => simp only [n1, if_false]
  · cases out with
    | none => rw [if_pos ⟨rfl, h⟩]; rfl
    | some o => rw [if_neg (by simp), if_neg n0]

/-- both hypotheses are met by an array of shape (2, 3) and an output for its rows -/
example : cVectorNorm ⟨[2, 3], [1, 2, 3, 4, 5, 6]⟩ (some 1) (some ⟨[2], [0, 0]⟩) = pyVectorNorm ⟨[2, 3], [1, 2, 3, 4, 5, 6]⟩ (some 1) (some ⟨[2], [0, 0]⟩) := by
  refine c120_norm_agree _ (by simp) _ _ fun o ax e h h' => ?_
  obtain rfl := Option.some.inj e
  have : ax = 1 := by
    simp [NamesAxis] at h h'
    omega
  subst this
  simp [NdArr.Wf]

/-- C120, what is missing: the compiled `vector_norm` accepts an `out` of any size with the right number of dimensions.  If it is too small,
memory beyond its end is overwritten; if it is too large, its other entries stay as they were.  The Python function raises ValueError. -/
theorem c120_out_counterexample (a : NdArr) (hn : 2 ≤ a.shape.length) (axis : Int) (ax : Nat) (hax : ax < a.shape.length)
    (hna : NamesAxis a.shape.length ax axis) (o : NdArr) (hl : a.shape.length = o.shape.length + 1) (hne : o.shape ≠ a.shape.eraseIdx ax) :
    pyVectorNorm a (some axis) (some o) = .raised .valueError ∧
    (o.data.length < (a.shape.eraseIdx ax).prod → cVectorNorm a (some axis) (some o) = .overrun) ∧
    ((a.shape.eraseIdx ax).prod ≤ o.data.length → ∃ d, cVectorNorm a (some axis) (some o) = .wrote o.shape d ∧
      d.drop (a.shape.eraseIdx ax).prod = (o.data.drop (a.shape.eraseIdx ax).prod).map some) := by
  have hx := axisOf_names hax hna
  have hlen : (lineLens a ax).length = (a.shape.eraseIdx ax).prod := by simp [lineLens]
  refine ⟨?_, fun h => ?_, fun h => ⟨lineLens a ax ++ (o.data.drop (lineLens a ax).length).map some, ?_, ?_⟩⟩
  · unfold pyVectorNorm
    simp only
    rw [if_neg (by omega), hx]
    simp only
    rw [if_neg hne]
  · unfold cVectorNorm
    simp only [hx]
    rw [if_neg (by simpa using hl), if_neg (by omega)]
  · unfold cVectorNorm
    simp only [hx]
    rw [if_neg (by simpa using hl), if_pos (by omega)]
  · rw [← hlen, List.drop_left]

/-- both cases occur: the lengths of two rows, for an output with one ndEntry and one with three -/
example : cVectorNorm ⟨[2, 3], [1, 2, 3, 4, 5, 6]⟩ (some 1) (some ⟨[1], [0]⟩) = .overrun ∧
    ∃ d, cVectorNorm ⟨[2, 3], [1, 2, 3, 4, 5, 6]⟩ (some 1) (some ⟨[3], [7, 8, 9]⟩) = .wrote [3] d ∧ d.drop 2 = [some 9] := by
  obtain ⟨-, h1, -⟩ := c120_out_counterexample ⟨[2, 3], [1, 2, 3, 4, 5, 6]⟩ (by simp) 1 1 (by simp) (Or.inl rfl) ⟨[1], [0]⟩ rfl (by simp)
  obtain ⟨-, -, h2⟩ := c120_out_counterexample ⟨[2, 3], [1, 2, 3, 4, 5, 6]⟩ (by simp) 1 1 (by simp) (Or.inl rfl) ⟨[3], [7, 8, 9]⟩ rfl (by simp)
  refine ⟨h1 (by simp), ?_⟩
  obtain ⟨d, e1, e2⟩ := h2 (by simp)
  exact ⟨d, e1, by simpa using e2⟩

/-- C120, what is missing: for an array with one dimension the Python functions ignore the axis, so that one that does not exist is no error;
and `unit_vector` of a vector with an axis and `out` raises ValueError.  The compiled functions do the opposite. -/
theorem c120_vector_counterexample (n : Nat) (data : List ℝ) (o : NdArr) (ho : o.shape = [n]) :
    (∀ axis, pyVectorNorm ⟨[n], data⟩ (some axis) none = .number (some (lineLen data))) ∧
    (∀ axis : Int, 1 ≤ axis → cVectorNorm ⟨[n], data⟩ (some axis) none = .raised .valueError) ∧
    pyUnitVector ⟨[n], data⟩ (some 0) (some o) = .raised .valueError ∧
    ∃ d, cUnitVector ⟨[n], data⟩ (some 0) (some o) = .wrote [n] d := by
  have hx : axisOf 1 0 = some 0 := by decide
  refine ⟨fun axis => rfl, fun axis h => ?_, ?_, unitLines ⟨[n], data⟩ 0, ?_⟩
  · have : axisOf 1 axis = none := by
      unfold axisOf
      simp only
      rw [if_neg]
      split_ifs <;> omega
    simp [cVectorNorm, this]
  · simp [pyUnitVector, hx]
  · simp [cUnitVector, ho, hx]

/-! ### Random numbers -/

namespace VecC

theorem card_div (d m A : Nat) (hd : 0 < d) (hA : A < m) : (Finset.univ.filter fun p : Fin (d * m) => p.val / d = A).card = d := by
  have hb : ∀ j < d, d * A + j < d * m := fun j hj => by
    calc d * A + j < d * A + d := by omega
      _ = d * (A + 1) := by ring
      _ ≤ d * m := Nat.mul_le_mul_left _ hA
  rw [← Finset.card_range d]
  rw [Finset.card_range]
  refine Eq.trans (Finset.card_bij' (t := Finset.range d) (fun p _ => p.val % d)
    (fun j hj => ⟨d * A + j, hb j (Finset.mem_range.1 hj)⟩) (fun p _ => Finset.mem_range.2 (Nat.mod_lt _ hd)) ?_ ?_ ?_) (Finset.card_range d)
  · intro j hj
    rw [Finset.mem_filter]
    refine ⟨Finset.mem_univ _, ?_⟩
    simp only
    rw [Nat.mul_add_div hd, Nat.div_eq_of_lt (Finset.mem_range.1 hj), add_zero]
  · intro p hp
    have h := (Finset.mem_filter.1 hp).2
    ext
    simp only
    rw [← h, Nat.div_add_mod]
  · intro j hj
    simp only
    rw [Nat.mul_add_mod, Nat.mod_eq_of_lt (Finset.mem_range.1 hj)]

end VecC

/-- C120: the random numbers are multiples of 2⁻⁵³ in [0, 1), and all of them are equally likely: each comes from as many pairs of words. -/
theorem c120_random_numbers :
    (∀ p q, ∃ k < 2 ^ 53, randomDouble p q = (k : ℕ) / (2 : ℝ) ^ 53) ∧
    ∀ k < 2 ^ 53, (Finset.univ.filter fun w : Fin (2 ^ 32) × Fin (2 ^ 32) => randomDouble w.1 w.2 = (k : ℕ) / (2 : ℝ) ^ 53).card = 2 ^ 11 := by
  have val : ∀ p q, randomDouble p q = ((p.val / 2 ^ 5 * 2 ^ 26 + q.val / 2 ^ 6 : ℕ) : ℝ) / 2 ^ 53 := by
    intro p q
    unfold randomDouble
    push_cast
    norm_num
  constructor
  · intro p q
    refine ⟨_, ?_, val p q⟩
    have := p.2
    have := q.2
    omega
  · intro k hk
    have e : (Finset.univ.filter fun w : Fin (2 ^ 32) × Fin (2 ^ 32) => randomDouble w.1 w.2 = (k : ℕ) / (2 : ℝ) ^ 53)
        = (Finset.univ.filter fun p : Fin (2 ^ 32) => p.val / 2 ^ 5 = k / 2 ^ 26) ×ˢ
          (Finset.univ.filter fun q : Fin (2 ^ 32) => q.val / 2 ^ 6 = k % 2 ^ 26) := by
      ext ⟨p, q⟩
      simp only [Finset.mem_filter, Finset.mem_univ, true_and, Finset.mem_product]
      rw [val, div_left_inj' (by positivity), Nat.cast_inj]
      have := q.2
      omega
    rw [e, Finset.card_product]
    have c1 := card_div (2 ^ 5) (2 ^ 27) (k / 2 ^ 26) (by norm_num) (by omega)
    have c2 := card_div (2 ^ 6) (2 ^ 26) (k % 2 ^ 26) (by norm_num) (Nat.mod_lt _ (by norm_num))
    have e1 : (2 : ℕ) ^ 5 * 2 ^ 27 = 2 ^ 32 := by norm_num
    have e2 : (2 : ℕ) ^ 6 * 2 ^ 26 = 2 ^ 32 := by norm_num
    rw [e1] at c1
    rw [e2] at c2
    rw [c1, c2]
    norm_num

/-- C120: with three numbers of which the first is in [0, 1], the compiled functions compute the random quaternion and rotation of C110. -/
theorem c120_random_agree (r : Fin 3 → ℝ) (h0 : 0 ≤ r 0) (h1 : r 0 ≤ 1) :
    cRandomQuat [r 0, r 1, r 2] = .ok (some (randomQuat r)) ∧ cRandomRotation [r 0, r 1, r 2] = .ok (some (randomRotation r)) := by
  have e : cRandomQuat [r 0, r 1, r 2] = .ok (some (randomQuat r)) := by
    unfold cRandomQuat randomQuat
    simp only [List.length_cons, List.length_nil]
    rw [if_neg (by norm_num)]
    simp only [List.getD_cons_zero, List.getD_cons_succ]
    rw [if_pos ⟨h0, h1⟩, mul_comm 2 Real.pi]
  refine ⟨e, ?_⟩
  unfold cRandomRotation
  rw [e]
  simp only
  rw [randomRotation, quatMatrix_unit _ (c110_unit h0 h1)]
  congr 2
  have hn := c110_unit h0 h1
  rw [quatDot_eq] at hn
  generalize randomQuat r = q at hn ⊢
  ext a b
  fin_cases a <;> fin_cases b <;> simp [homog, homMat] <;> linarith

/-- C120, what is missing: a first number outside [0, 1] gives nan without an error, and further numbers are ignored (in Python they fail an
assertion). -/
theorem c120_random_counterexample (r0 r1 r2 : ℝ) (more : List ℝ) :
    ((r0 < 0 ∨ 1 < r0) → cRandomQuat (r0 :: r1 :: r2 :: more) = .ok none ∧ cRandomRotation (r0 :: r1 :: r2 :: more) = .ok none) ∧
    cRandomQuat (r0 :: r1 :: r2 :: more) = cRandomQuat [r0, r1, r2] := by
  refine ⟨fun h => ?_, ?_⟩
  · have e : cRandomQuat (r0 :: r1 :: r2 :: more) = .ok none := by
      unfold cRandomQuat
      rw [if_neg (by simp)]
      simp only [List.getD_cons_zero]
      rw [if_neg (by rintro ⟨h1, h2⟩; rcases h with h | h <;> linarith)]
    exact ⟨e, by rw [cRandomRotation, e]⟩
  · unfold cRandomQuat
    rw [if_neg (show ¬ (r0 :: r1 :: r2 :: more).length < 3 by simp), if_neg (show ¬ [r0, r1, r2].length < 3 by simp)]
    rfl

end Electrode
