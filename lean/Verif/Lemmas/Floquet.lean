import Verif.Model.Dynamics
import Mathlib.Algebra.BigOperators.Finprod
import Mathlib.Data.Int.Interval
import Mathlib.Data.List.GetD
import Mathlib.Algebra.BigOperators.Fin

/-
The blocks of the Floquet matrix and its action on a vector.
-/
namespace Electrode
open Complex (I)
variable {n : Nat}

theorem applyWrites_val {K V : Type*} [DecidableEq K] (ws : List (K × V)) (m : K → V) (k : K) (v : V)
    (h1 : ∀ w ∈ ws, w.1 = k → w.2 = v) (h2 : (∃ w ∈ ws, w.1 = k) ∨ m k = v) : applyWrites m ws k = v := by
  induction ws generalizing m with
  | nil =>
    rcases h2 with ⟨w, hw, -⟩ | h2
    · simp at hw
    · exact h2
  | cons w ws ih =>
    refine ih (Function.update m w.1 w.2) (fun w' hw' => h1 w' (by simp [hw'])) ?_
    by_cases hk : w.1 = k
    · exact Or.inr (by rw [← hk, Function.update_self]; exact h1 w (by simp) hk)
    · rcases h2 with ⟨w', hw', hk'⟩ | h2
      · rcases List.mem_cons.1 hw' with rfl | hw'
        · exact absurd hk' hk
        · exact Or.inl ⟨w', hw', hk'⟩
      · exact Or.inr (by rw [Function.update_of_ne (Ne.symm hk)]; exact h2)

theorem mem_floquetWrites (r : Nat) (a : List (Matrix (Fin n) (Fin n) ℂ)) (w : Blk × Matrix (Fin n) (Fin n) ℂ) :
    w ∈ floquetWrites r a ↔ ∃ l, l < 2 * r + 1 ∧
      (w = ((l, l, 0, 0), (2 * I * ((l : ℂ) - (r : ℂ))) • 1) ∨ w = ((l, l, 1, 1), (2 * I * ((l : ℂ) - (r : ℂ))) • 1) ∨
        w = ((l, l, 0, 1), 1) ∨
        ∃ i, i < a.length ∧ l + i < 2 * r + 1 ∧ (w = ((l, l + i, 1, 0), -a.getD i 0) ∨ w = ((l + i, l, 1, 0), -a.getD i 0))) := by
  unfold floquetWrites
  simp only [List.mem_flatMap, List.mem_range, List.mem_append, List.mem_cons, List.not_mem_nil, or_false]
  refine exists_congr fun l => and_congr_right fun _ => ?_
  have : (∃ q ∈ a.zipIdx, w ∈ (if l + q.2 < 2 * r + 1 then
        [(((l, l + q.2, 1, 0) : Blk), -q.1), ((l + q.2, l, 1, 0), -q.1)] else [])) ↔
      ∃ i, i < a.length ∧ l + i < 2 * r + 1 ∧
        (w = ((l, l + i, 1, 0), -a.getD i 0) ∨ w = ((l + i, l, 1, 0), -a.getD i 0)) := by
    constructor
    · rintro ⟨⟨A, i⟩, hq, hw⟩
      obtain ⟨hi, hA⟩ := List.mem_zipIdx' hq
      split at hw
      · rename_i hlt
        refine ⟨i, hi, hlt, ?_⟩
        rw [List.getD_eq_getElem _ _ hi, ← hA]
        simpa using hw
      · simp at hw
    · rintro ⟨i, hi, hlt, hw⟩
      refine ⟨(a[i], i), by simp [List.mem_zipIdx_iff_getElem?, hi], ?_⟩
      rw [List.getD_eq_getElem _ _ hi] at hw
      simpa [hlt] using hw
  rw [this]
  simp only [or_assoc]

theorem floquetBlocks_00 (r : Nat) (a : List (Matrix (Fin n) (Fin n) ℂ)) (l l' : Nat) (hl : l < 2 * r + 1) :
    floquetBlocks r a (l, l', 0, 0) = if l = l' then (2 * I * ((l : ℂ) - (r : ℂ))) • 1 else 0 := by
  refine applyWrites_val _ _ _ _ (fun w hw hk => ?_) ?_
  · obtain ⟨m, -, rfl | rfl | rfl | ⟨i, -, -, rfl | rfl⟩⟩ := (mem_floquetWrites r a w).1 hw <;>
      simp only [Prod.mk.injEq] at hk
    · obtain ⟨rfl, rfl, -⟩ := hk; simp
    all_goals exact absurd hk (by simp)
  · by_cases h : l = l'
    · subst h
      exact Or.inl ⟨_, (mem_floquetWrites r a _).2 ⟨l, hl, Or.inl rfl⟩, rfl⟩
    · simp [h]

theorem floquetBlocks_11 (r : Nat) (a : List (Matrix (Fin n) (Fin n) ℂ)) (l l' : Nat) (hl : l < 2 * r + 1) :
    floquetBlocks r a (l, l', 1, 1) = if l = l' then (2 * I * ((l : ℂ) - (r : ℂ))) • 1 else 0 := by
  refine applyWrites_val _ _ _ _ (fun w hw hk => ?_) ?_
  · obtain ⟨m, -, rfl | rfl | rfl | ⟨i, -, -, rfl | rfl⟩⟩ := (mem_floquetWrites r a w).1 hw <;>
      simp only [Prod.mk.injEq] at hk
    · exact absurd hk (by simp)
    · obtain ⟨rfl, rfl, -⟩ := hk; simp
    all_goals exact absurd hk (by simp)
  · by_cases h : l = l'
    · subst h
      exact Or.inl ⟨_, (mem_floquetWrites r a _).2 ⟨l, hl, Or.inr (Or.inl rfl)⟩, rfl⟩
    · simp [h]

theorem floquetBlocks_01 (r : Nat) (a : List (Matrix (Fin n) (Fin n) ℂ)) (l l' : Nat) (hl : l < 2 * r + 1) :
    floquetBlocks r a (l, l', 0, 1) = if l = l' then 1 else 0 := by
  refine applyWrites_val _ _ _ _ (fun w hw hk => ?_) ?_
  · obtain ⟨m, -, rfl | rfl | rfl | ⟨i, -, -, rfl | rfl⟩⟩ := (mem_floquetWrites r a w).1 hw <;>
      simp only [Prod.mk.injEq] at hk
    · exact absurd hk (by simp)
    · exact absurd hk (by simp)
    · obtain ⟨rfl, rfl, -⟩ := hk; simp
    all_goals exact absurd hk (by simp)
  · by_cases h : l = l'
    · subst h
      exact Or.inl ⟨_, (mem_floquetWrites r a _).2 ⟨l, hl, Or.inr (Or.inr (Or.inl rfl))⟩, rfl⟩
    · simp [h]

theorem floquetBlocks_10 (r : Nat) (a : List (Matrix (Fin n) (Fin n) ℂ)) (l l' : Nat) (hl : l < 2 * r + 1) (hl' : l' < 2 * r + 1) :
    floquetBlocks r a (l, l', 1, 0) = -a.getD ((l : ℤ) - l').natAbs 0 := by
  refine applyWrites_val _ _ _ _ (fun w hw hk => ?_) ?_
  · obtain ⟨m, -, rfl | rfl | rfl | ⟨i, -, -, rfl | rfl⟩⟩ := (mem_floquetWrites r a w).1 hw <;>
      simp only [Prod.mk.injEq] at hk
    · exact absurd hk (by simp)
    · exact absurd hk (by simp)
    · exact absurd hk (by simp)
    all_goals
      obtain ⟨rfl, rfl, -⟩ := hk
      simp only
      congr 2
      omega
  · by_cases hi : ((l : ℤ) - l').natAbs < a.length
    · left
      rcases le_total l l' with h | h
      · refine ⟨_, (mem_floquetWrites r a _).2 ⟨l, hl, Or.inr (Or.inr (Or.inr ⟨l' - l, by omega, by omega, Or.inl rfl⟩))⟩, ?_⟩
        simp only [Prod.mk.injEq, and_true, true_and]
        omega
      · refine ⟨_, (mem_floquetWrites r a _).2 ⟨l', hl', Or.inr (Or.inr (Or.inr ⟨l - l', by omega, by omega, Or.inr rfl⟩))⟩, ?_⟩
        simp only [Prod.mk.injEq, and_true]
        omega
    · right
      rw [List.getD_eq_default _ _ (by omega), neg_zero]

theorem flatEquiv_val (r n : Nat) (l : Fin (2 * r + 1)) (d : Fin 2) (k : Fin n) :
    (flatEquiv r n (l, d, k)).val = (l.val * 2 + d.val) * n + k.val := by
  simp only [flatEquiv, Equiv.trans_apply, Equiv.prodCongr_apply, Prod.map, Equiv.prodAssoc_symm_apply, finProdFinEquiv,
    Equiv.coe_fn_mk, Equiv.refl_apply]
  ring

/-- the action of the matrix on a vector -/
theorem floquetMatrix_mulVec (r : Nat) (a : List (Matrix (Fin n) (Fin n) ℂ)) (w : Fin ((2 * r + 1) * 2 * n) → ℂ)
    (l : Fin (2 * r + 1)) (k : Fin n) :
    (floquetMatrix r a).mulVec w (flatEquiv r n (l, 0, k)) =
        2 * I * ((l.val : ℂ) - (r : ℂ)) * w (flatEquiv r n (l, 0, k)) + w (flatEquiv r n (l, 1, k)) ∧
      (floquetMatrix r a).mulVec w (flatEquiv r n (l, 1, k)) =
        2 * I * ((l.val : ℂ) - (r : ℂ)) * w (flatEquiv r n (l, 1, k)) -
          ∑ l' : Fin (2 * r + 1), (a.getD ((l.val : ℤ) - l'.val).natAbs 0).mulVec (fun k' => w (flatEquiv r n (l', 0, k'))) k := by
  have key : ∀ d : Fin 2, (floquetMatrix r a).mulVec w (flatEquiv r n (l, d, k)) =
      ∑ l' : Fin (2 * r + 1), ∑ d' : Fin 2, ∑ k' : Fin n,
        floquetBlocks r a (l.val, l'.val, d, d') k k' * w (flatEquiv r n (l', d', k')) := by
    intro d
    unfold Matrix.mulVec dotProduct
    rw [← Equiv.sum_comp (flatEquiv r n), Fintype.sum_prod_type]
    refine Finset.sum_congr rfl fun l' _ => ?_
    rw [Fintype.sum_prod_type]
    simp only [floquetMatrix, Equiv.symm_apply_apply]
  have dia : ∀ (c : ℂ) (B : Fin (2 * r + 1) → Matrix (Fin n) (Fin n) ℂ) (d : Fin 2),
      (∀ l', B l' = if l.val = l'.val then c • 1 else 0) →
      ∑ l' : Fin (2 * r + 1), ∑ k' : Fin n, B l' k k' * w (flatEquiv r n (l', d, k')) = c * w (flatEquiv r n (l, d, k)) := by
    intro c B d hB
    rw [Finset.sum_eq_single l, Finset.sum_eq_single k]
    · rw [hB, if_pos rfl]; simp
    · intro k' _ hk
      rw [hB, if_pos rfl]; simp [Matrix.one_apply_ne (Ne.symm hk)]
    · simp
    · intro l' _ hl
      rw [hB, if_neg (fun h => hl (Fin.ext h.symm))]
      simp
    · simp
  constructor
  · rw [key 0]
    simp only [Fin.sum_univ_two, Finset.sum_add_distrib]
    rw [dia (2 * I * ((l.val : ℂ) - (r : ℂ))) _ 0 fun l' => floquetBlocks_00 r a _ _ l.isLt,
      dia 1 _ 1 fun l' => by rw [one_smul]; exact floquetBlocks_01 r a _ _ l.isLt, one_mul]
  · rw [key 1]
    simp only [Fin.sum_univ_two, Finset.sum_add_distrib]
    rw [dia (2 * I * ((l.val : ℂ) - (r : ℂ))) _ 1 fun l' => floquetBlocks_11 r a _ _ l.isLt, add_comm]
    refine (congrArg _ ?_).trans (sub_eq_add_neg _ _).symm
    rw [← Finset.sum_neg_distrib]
    refine Finset.sum_congr rfl fun l' _ => ?_
    rw [floquetBlocks_10 r a _ _ l.isLt l'.isLt]
    unfold Matrix.mulVec dotProduct
    rw [← Finset.sum_neg_distrib]
    refine Finset.sum_congr rfl fun k' _ => ?_
    simp

end Electrode
