import Verif.Lemmas.System

/-
Closed form of the pseudopotential tensors and the product rule for them.
-/
namespace Electrode
open Spec Real

/-- derivative tensors of `Σ_j T[j]²` written with the derivative tensors `T` -/
def psT (T : NArr ℝ) : NArr ℝ
  | [] => ∑ j, T [j] * T [j]
  | [k] => 2 * ∑ j, T [j] * T [j, k]
  | [k, l] => 2 * ((∑ j, T [j, k] * T [j, l]) + ∑ j, T [j] * T [j, k, l])
  | [k, l, m] => 2 * ((∑ j, T [j] * T [j, k, l, m]) + (∑ j, T [j, k] * T [j, l, m])
      + (∑ j, T [j, l] * T [j, k, m]) + ∑ j, T [j, m] * T [j, l, k])
  | [k, l, m, n] => 2 * ((∑ j, T [j] * T [j, k, l, m, n]) + (∑ j, T [j, k] * T [j, l, m, n])
      + (∑ j, T [j, n] * T [j, l, m, k]) + (∑ j, T [j, m] * T [j, l, k, n]) + (∑ j, T [j, l] * T [j, k, m, n])
      + (∑ j, T [j, k, l] * T [j, m, n]) + (∑ j, T [j, k, n] * T [j, m, l]) + ∑ j, T [j, k, m] * T [j, l, n])
  | _ => 0

theorem flatten_congr (d : Nat) (s t : NArr ℝ) (h : ∀ l : Idx, l.length = d → s l = t l) : flatten d s = flatten d t := by
  unfold flatten
  rw [productIdx_eq]
  apply List.map_congr_left
  intro l hl
  rw [mem_tuples] at hl
  exact h l hl

theorem pseudoRow_eq (d : Nat) (hd : d ≤ 4) (p : Nat → NArr ℝ) (T : NArr ℝ)
    (h : ∀ i ≤ d, ∀ l : Idx, l.length = i + 1 → p i l = T l) :
    pseudoRow d p = some (flatten d (psT T)) := by
  have hd' : d = 0 ∨ d = 1 ∨ d = 2 ∨ d = 3 ∨ d = 4 := by omega
  rcases hd' with rfl | rfl | rfl | rfl | rfl
  · refine congrArg some (flatten_congr _ _ _ ?_)
    intro l hl
    obtain rfl := List.length_eq_zero_iff.1 hl
    simp only [psT, h 0 le_rfl [_] rfl]
  · refine congrArg some (flatten_congr _ _ _ ?_)
    intro l hl
    obtain ⟨k, rfl⟩ := List.length_eq_one_iff.1 hl
    simp only [ix, List.getD_cons_zero]
    simp only [psT, h 0 (by norm_num) [_] rfl, h 1 le_rfl [_, _] rfl]
  · refine congrArg some (flatten_congr _ _ _ ?_)
    intro l hl
    obtain ⟨k, l, rfl⟩ := List.length_eq_two.1 hl
    simp only [ix, List.getD_cons_zero, List.getD_cons_succ]
    simp only [psT, h 0 (by norm_num) [_] rfl, h 1 (by norm_num) [_, _] rfl, h 2 le_rfl [_, _, _] rfl]
  · refine congrArg some (flatten_congr _ _ _ ?_)
    intro l hl
    obtain ⟨k, l, m, rfl⟩ := List.length_eq_three.1 hl
    simp only [ix, swapAxes, swapIdx, List.set_cons_zero, List.set_cons_succ, List.getD_cons_zero, List.getD_cons_succ]
    simp only [psT, h 0 (by norm_num) [_] rfl, h 1 (by norm_num) [_, _] rfl, h 2 (by norm_num) [_, _, _] rfl,
      h 3 le_rfl [_, _, _, _] rfl]
  · refine congrArg some (flatten_congr _ _ _ ?_)
    intro l hl
    obtain ⟨k, l, rfl⟩ : ∃ k l', l = k :: l' := by cases l with | nil => simp at hl | cons k l => exact ⟨k, l, rfl⟩
    obtain ⟨l, m, n, rfl⟩ := List.length_eq_three.1 (by simpa using hl)
    simp only [ix, swapAxes, swapIdx, List.set_cons_zero, List.set_cons_succ, List.getD_cons_zero, List.getD_cons_succ]
    simp only [psT, h 0 (by norm_num) [_] rfl, h 1 (by norm_num) [_, _] rfl, h 2 (by norm_num) [_, _, _] rfl,
      h 3 (by norm_num) [_, _, _, _] rfl, h 4 le_rfl [_, _, _, _, _] rfl]

theorem scaleRows_flatten (c : ℝ) (x : List V3) (d : Nat) (f : V3 → NArr ℝ) :
    scaleRows c (x.map fun p => flatten d (f p)) = x.map fun p => flatten d fun l => c * f p l := by
  simp [scaleRows, flatten, Function.comp_def]

theorem pseudo_eq (els : List Elec) (c : ℝ) (x : List V3) (d : Nat) (hd : d ≤ 4)
    (ha : ∀ i, 1 ≤ i → i ≤ d + 1 → AvailAll els i .rf) :
    pseudoPotential ⟨els, some c⟩ x d
      = .ok (x.map fun p => flatten d (psT fun l => c * sysTens els .rf l p)) := by
  unfold pseudoPotential
  simp only
  rw [pySeq_map_ok (List.range (d + 1)) _
    (fun i => x.map fun p => flatten (i + 1) fun l => c * sysTens els .rf l p)]
  · simp only [if_pos hd]
    congr 1
    apply List.ext_getElem
    · simp
    · intro n h1 h2
      simp only [List.getElem_map, List.getElem_range]
      have hn : n < x.length := by simpa using h2
      rw [pseudoRow_eq d hd _ fun l => c * sysTens els .rf l x[n]]
      · rfl
      · intro i hi l hl
        have h3 : ((List.map (fun i => x.map fun p => flatten (i + 1) fun l => c * sysTens els .rf l p)
            (List.range (d + 1))).getD i []) = x.map fun p => flatten (i + 1) fun l => c * sysTens els .rf l p := by
          rw [List.getD_eq_getElem?_getD, List.getElem?_map, List.getElem?_range (by omega)]
          rfl
        rw [h3]
        have h4 : (x.map fun p => flatten (i + 1) fun l => c * sysTens els .rf l p).getD n []
            = flatten (i + 1) fun l => c * sysTens els .rf l x[n] := by
          rw [List.getD_eq_getElem?_getD, List.getElem?_map, List.getElem?_eq_getElem hn]
          rfl
        rw [h4, toNArr_flatten _ _ _ hl]
  · intro i hi
    rw [List.mem_range] at hi
    rw [electrical_expand_eq els x (i + 1) (by omega) .rf (ha (i + 1) (by omega) (by omega))]
    simp only [Except.map]
    rw [scaleRows_flatten]

/-- orders above 4: the expansion of the rf tensor of order 6 fails first -/
theorem pseudo_high (els : List Elec) (c : ℝ) (x : List V3) (d : Nat) (hd : 5 ≤ d) :
    pseudoPotential ⟨els, some c⟩ x d = .error .indexError := by
  unfold pseudoPotential
  simp only
  rw [pySeq_map_err (List.range (d + 1)) _ .indexError ?_ 5 (by simp; omega) ?_]
  · intro i _ e' he
    by_cases hi : 6 ≤ i + 1
    · rw [electrical_expand_high els x (i + 1) hi .rf] at he
      simp only [Except.map, Except.error.injEq] at he
      exact he.symm
    · by_cases ha : AvailAll els (i + 1) .rf
      · rw [electrical_expand_eq els x (i + 1) (by omega) .rf ha] at he
        simp [Except.map] at he
      · rw [electrical_err els x (i + 1) .rf true ha] at he
        simp only [Except.map, Except.error.injEq] at he
        exact he.symm
  · rw [electrical_expand_high els x 6 le_rfl .rf]; rfl

/-- not every order needed is available -/
theorem pseudo_err (els : List Elec) (c : ℝ) (x : List V3) (d : Nat) (i : Nat) (h1 : 1 ≤ i) (h2 : i ≤ d + 1)
    (ha : ¬ AvailAll els i .rf) : pseudoPotential ⟨els, some c⟩ x d = .error .indexError := by
  unfold pseudoPotential
  simp only
  rw [pySeq_map_err (List.range (d + 1)) _ .indexError ?_ (i - 1) (by simp; omega) ?_]
  · intro i _ e' he
    by_cases hi : 6 ≤ i + 1
    · rw [electrical_expand_high els x (i + 1) hi .rf] at he
      simp only [Except.map, Except.error.injEq] at he
      exact he.symm
    · by_cases ha : AvailAll els (i + 1) .rf
      · rw [electrical_expand_eq els x (i + 1) (by omega) .rf ha] at he
        simp [Except.map] at he
      · rw [electrical_err els x (i + 1) .rf true ha] at he
        simp only [Except.map, Except.error.injEq] at he
        exact he.symm
  · have : i - 1 + 1 = i := by omega
    rw [this, electrical_err els x i .rf true ha]; rfl

theorem Spec.HasPartial.mul {a : Axis} {f g : V3 → ℝ} {f' g' : ℝ} {p : V3} (h : HasPartial a f f' p)
    (h2 : HasPartial a g g' p) : HasPartial a (fun q => f q * g q) (f' * g p + f p * g') p := by
  have := HasDerivAt.mul h h2
  have e : shift p a 0 = p := by cases p; fin_cases a <;> simp [shift]
  rw [e] at this
  exact this

theorem Spec.HasPartial.sum3 {a : Axis} {f : Axis → V3 → ℝ} {f' : Axis → ℝ} {p : V3}
    (h : ∀ j, HasPartial a (f j) (f' j) p) : HasPartial a (fun q => ∑ j, f j q) (∑ j, f' j) p := by
  unfold HasPartial at h ⊢
  exact HasDerivAt.fun_sum fun j _ => h j

theorem perm_tail2 : ∀ a b c : Axis, [a, b, c].Perm [a, c, b] := by decide
theorem perm_mid2 : ∀ a b c d : Axis, [a, b, c, d].Perm [a, c, b, d] := by decide
theorem perm_rot3 : ∀ a b c d : Axis, [a, b, c, d].Perm [a, d, b, c] := by decide

/-- product rule: one more derivative of the pseudopotential tensor -/
theorem psT_step (T : V3 → NArr ℝ) (a : Axis) (p : V3)
    (hsym : ∀ q, ∀ l l' : Idx, l.Perm l' → T q l = T q l')
    (h : ∀ l : Idx, 1 ≤ l.length → l.length ≤ 4 → HasPartial a (fun q => T q l) (T p (l ++ [a])) p)
    (l : Idx) (hl : l.length ≤ 3) :
    HasPartial a (fun q => psT (T q) l) (psT (T p) (l ++ [a])) p := by
  have P : ∀ (c d : Idx), 1 ≤ c.length → c.length ≤ 4 → 1 ≤ d.length → d.length ≤ 4 →
      HasPartial a (fun q => T q c * T q d) (T p (c ++ [a]) * T p d + T p c * T p (d ++ [a])) p :=
    fun c d h1 h2 h3 h4 => (h c h1 h2).mul (h d h3 h4)
  have cast : ∀ {f : V3 → ℝ} {u v : ℝ}, HasPartial a f u p → u = v → HasPartial a f v p :=
    fun hf e => e ▸ hf
  rcases l with _ | ⟨k, _ | ⟨l, _ | ⟨m, _ | ⟨n, r⟩⟩⟩⟩
  · refine cast (HasPartial.sum3 fun j => P [j] [j] (by simp) (by simp) (by simp) (by simp)) ?_
    simp only [List.cons_append, List.nil_append, psT, Finset.mul_sum]
    apply Finset.sum_congr rfl
    intro j _; ring
  · refine cast ((HasPartial.sum3 fun j => P [j] [j, k] (by simp) (by simp) (by simp) (by simp)).const_mul 2) ?_
    simp only [List.cons_append, List.nil_append, psT, ← Finset.sum_add_distrib]
    congr 1
    apply Finset.sum_congr rfl
    intro j _; ring
  · refine cast (((HasPartial.sum3 fun j => P [j, k] [j, l] (by simp) (by simp) (by simp) (by simp)).add
      (HasPartial.sum3 fun j => P [j] [j, k, l] (by simp) (by simp) (by simp) (by simp))).const_mul 2) ?_
    simp only [List.cons_append, List.nil_append, psT, ← Finset.sum_add_distrib]
    congr 1
    apply Finset.sum_congr rfl
    intro j _
    rw [hsym p [j, l, k] [j, k, l] (perm_tail2 _ _ _)]
    ring
  · refine cast (((((HasPartial.sum3 fun j => P [j] [j, k, l, m] (by simp) (by simp) (by simp) (by simp)).add
      (HasPartial.sum3 fun j => P [j, k] [j, l, m] (by simp) (by simp) (by simp) (by simp))).add
      (HasPartial.sum3 fun j => P [j, l] [j, k, m] (by simp) (by simp) (by simp) (by simp))).add
      (HasPartial.sum3 fun j => P [j, m] [j, l, k] (by simp) (by simp) (by simp) (by simp))).const_mul 2) ?_
    simp only [List.cons_append, List.nil_append, psT, ← Finset.sum_add_distrib]
    congr 1
    apply Finset.sum_congr rfl
    intro j _
    rw [hsym p [j, l, m, k] [j, k, l, m] (perm_rot3 _ _ _ _), hsym p [j, l, k, a] [j, k, l, a] (perm_mid2 _ _ _ _),
      hsym p [j, m, l] [j, l, m] (perm_tail2 _ _ _), hsym p [j, l, k] [j, k, l] (perm_tail2 _ _ _)]
    ring
  · simp at hl; omega

end Electrode
