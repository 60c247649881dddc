import Verif.Model.System
import Verif.Lemmas.Calculus

/-
Closed forms of the system potentials.
-/
namespace Electrode
open Spec Real

theorem zeroRows_eq (n d : Nat) : zeroRows n d = List.replicate n (List.replicate (2 * d + 1) 0) := by
  unfold zeroRows; rw [Nat.mul_comm]

/-- voltage of an electrode, 0 for an unknown `typ` -/
noncomputable def Elec.voltD (e : Elec) (typ : VTyp) : ℝ := (e.volt typ).getD 0

/-- all electrodes at non-zero voltage provide the order -/
def AvailAll (s : List Elec) (d : Nat) (typ : VTyp) : Prop := ∀ e ∈ s, e.voltD typ ≠ 0 → e.shape.Avail d

theorem electricalStep_eq (x : List V3) (d : Nat) (typ : VTyp) (out : List (List ℝ)) (hl : x.length = out.length)
    (e : Elec) (ha : e.voltD typ ≠ 0 → e.shape.Avail d) :
    electricalStep x d typ out e
      = .ok (List.zipWith (fun p row => addFn row fun i => e.voltD typ * e.shape.contrib d p i) x out) := by
  have hz : e.voltD typ = 0 → List.zipWith (fun p row => addFn row fun i => e.voltD typ * e.shape.contrib d p i) x out
      = out := by
    intro h
    conv_rhs => rw [← zipWith_id_right x out hl]
    apply zipWith_congr
    intro p row
    simp [h, addFn_zero]
  unfold electricalStep
  unfold Elec.voltD at ha hz ⊢
  cases hv : e.volt typ with
  | none => rw [hv] at hz; simp only; rw [hz rfl]
  | some v =>
    rw [hv] at ha hz
    simp only [Option.getD_some] at ha hz ⊢
    by_cases h : v = 0
    · rw [if_pos h, hz h]
    · rw [if_neg h, Elec.potential_eq e x d v out hl (ha h)]

theorem electrical_fold (s : List Elec) (x : List V3) (d : Nat) (typ : VTyp) (out : List (List ℝ))
    (hl : x.length = out.length) (ha : AvailAll s d typ) :
    s.foldlM (electricalStep x d typ) out
      = .ok (List.zipWith (fun p row => addFn row fun i => (s.map fun e => e.voltD typ * e.shape.contrib d p i).sum)
          x out) := by
  induction s generalizing out with
  | nil =>
    simp only [List.foldlM_nil, List.map_nil, List.sum_nil, addFn_zero]
    rw [zipWith_id_right x out hl]; rfl
  | cons e s ih =>
    rw [List.foldlM_cons, electricalStep_eq x d typ out hl e (ha e (by simp))]
    change List.foldlM (electricalStep x d typ) _ s = _
    rw [ih _ (by simp [hl]) fun e' he' => ha e' (by simp [he'])]
    congr 1
    apply List.ext_getElem
    · simp
    · intro n h1 h2
      simp only [List.getElem_zipWith, List.map_cons, List.sum_cons]
      apply List.ext_getElem
      · simp [addFn_length]
      · intro i h3 h4
        simp only [addFn_getElem]
        ring

/-- component `i` of order `d` of the whole system -/
noncomputable def sysContrib (s : List Elec) (typ : VTyp) (d i : Nat) (p : V3) : ℝ :=
  (s.map fun e => e.voltD typ * e.shape.contrib d p i).sum

theorem electrical_eq (s : List Elec) (x : List V3) (d : Nat) (typ : VTyp) (ha : AvailAll s d typ) :
    electricalPotential s x d typ false
      = .ok (x.map fun p => (List.range (2 * d + 1)).map fun i => sysContrib s typ d i p) := by
  unfold electricalPotential
  rw [zeroRows_eq, electrical_fold s x d typ _ (by simp) ha]
  simp only [Bool.false_eq_true, if_false]
  congr 1
  apply List.ext_getElem
  · simp
  · intro n h1 h2
    simp only [List.getElem_zipWith, List.getElem_replicate, List.getElem_map]
    apply List.ext_getElem
    · simp [addFn_length]
    · intro i h3 h4
      rw [addFn_getElem]
      simp [sysContrib]

theorem electrical_fold_err (s : List Elec) (x : List V3) (d : Nat) (typ : VTyp) (out : List (List ℝ))
    (hl : x.length = out.length) (ha : ¬ AvailAll s d typ) :
    s.foldlM (electricalStep x d typ) out = .error .indexError := by
  induction s generalizing out with
  | nil => exact absurd (by intro e he; simp at he) ha
  | cons e s ih =>
    rw [List.foldlM_cons]
    by_cases h : e.voltD typ ≠ 0 → e.shape.Avail d
    · rw [electricalStep_eq x d typ out hl e h]
      change List.foldlM (electricalStep x d typ) _ s = _
      apply ih _ (by simp [hl])
      intro hs
      exact ha fun e' he' => by
        rcases List.mem_cons.1 he' with rfl | he'
        · exact h
        · exact hs e' he'
    · push Not at h
      have : electricalStep x d typ out e = .error .indexError := by
        unfold electricalStep
        have h1 := h.1
        unfold Elec.voltD at h1
        cases hv : e.volt typ with
        | none => rw [hv] at h1; exact absurd rfl h1
        | some v =>
          rw [hv] at h1
          simp only [Option.getD_some] at h1 ⊢
          rw [if_neg h1, Elec.potential_err e x d v _ h.2]
      rw [this]; rfl

theorem electrical_err (s : List Elec) (x : List V3) (d : Nat) (typ : VTyp) (b : Bool) (ha : ¬ AvailAll s d typ) :
    electricalPotential s x d typ b = .error .indexError := by
  unfold electricalPotential
  rw [zeroRows_eq, electrical_fold_err s x d typ _ (by simp) ha]

theorem pySeq_map_inv {α β : Type*} (L : List α) (f : α → Py β) (r : List β) (h : pySeq (L.map f) = .ok r) :
    r.length = L.length ∧ ∀ (j : Nat) (a : α), L[j]? = some a → ∃ b, r[j]? = some b ∧ f a = .ok b := by
  induction L generalizing r with
  | nil =>
    simp only [List.map_nil, pySeq, Except.ok.injEq] at h
    subst h; simp
  | cons a L ih =>
    simp only [List.map_cons, pySeq] at h
    cases hf : f a with
    | error e => rw [hf] at h; simp at h
    | ok b =>
      rw [hf] at h
      cases hs : pySeq (L.map f) with
      | error e => rw [hs] at h; simp at h
      | ok bs =>
        rw [hs] at h
        simp only [Except.ok.injEq] at h
        subst h
        obtain ⟨h1, h2⟩ := ih bs hs
        refine ⟨by simp [h1], ?_⟩
        intro j a' hj
        cases j with
        | zero =>
          simp only [List.getElem?_cons_zero, Option.some.injEq] at hj
          subst hj
          exact ⟨b, by simp, hf⟩
        | succ j =>
          simp only [List.getElem?_cons_succ] at hj ⊢
          exact h2 j a' hj

theorem pySeq_map_err {α β : Type*} (L : List α) (f : α → Py β) (e : PyErr) (h : ∀ a ∈ L, ∀ e', f a = .error e' → e' = e)
    (a : α) (ha : a ∈ L) (hf : f a = .error e) : pySeq (L.map f) = .error e := by
  induction L with
  | nil => simp at ha
  | cons b L ih =>
    simp only [List.map_cons, pySeq]
    cases hb : f b with
    | error e' => rw [h b (by simp) e' hb]
    | ok v =>
      rcases List.mem_cons.1 ha with rfl | ha
      · rw [hf] at hb; cases hb
      · rw [ih (fun a ha => h a (by simp [ha])) ha]

theorem expandMap_length : expandMap.length = 6 := by decide

/-- entry `l` of the expanded tensor of the system -/
noncomputable def sysTens (s : List Elec) (typ : VTyp) (l : Idx) (p : V3) : ℝ :=
  tens (fun k i p => sysContrib s typ k i p) l.length l p

theorem sysTens_eq (s : List Elec) (typ : VTyp) (l : Idx) (p : V3) :
    sysTens s typ l p = (s.map fun e => e.voltD typ * tens (fun k i p => e.shape.contrib k p i) l.length l p).sum := by
  unfold sysTens sysContrib
  rw [tens_sum s (fun e k i p => e.voltD typ * e.shape.contrib k p i)]
  simp only [tens_smul]

theorem fullOf_eq_flatten (k : Nat) (s : List Elec) (typ : VTyp) (p : V3) :
    fullOf k ((List.range (2 * k + 1)).map fun i => sysContrib s typ k i p)
      = flatten k fun l => sysTens s typ l p := by
  unfold fullOf flatten
  rw [productIdx_eq]
  apply List.map_congr_left
  intro l hl
  rw [mem_tuples] at hl
  unfold sysTens tens
  rw [hl]

/-- the expanded potential of a system -/
theorem electrical_expand_eq (s : List Elec) (x : List V3) (d : Nat) (hd : d < 6) (typ : VTyp) (ha : AvailAll s d typ) :
    electricalPotential s x d typ true = .ok (x.map fun p => flatten d fun l => sysTens s typ l p) := by
  have h := electrical_eq s x d typ ha
  unfold electricalPotential at h ⊢
  cases hf : List.foldlM (electricalStep x d typ) (zeroRows x.length d) s with
  | error e => rw [hf] at h; cases h
  | ok pot =>
    rw [hf] at h
    simp only [Bool.false_eq_true, if_false, Except.ok.injEq] at h
    simp only [if_true, h]
    unfold expandRows
    rw [if_neg (by rw [expandMap_length]; omega), List.map_map]
    apply pySeq_map_ok
    intro p _
    simp only [Function.comp]
    rw [expandTensor_full d hd _ (by simp)]
    congr 1
    exact fullOf_eq_flatten d s typ p

/-- orders above 5 cannot be expanded -/
theorem electrical_expand_high (s : List Elec) (x : List V3) (d : Nat) (hd : 6 ≤ d) (typ : VTyp) :
    electricalPotential s x d typ true = .error .indexError := by
  by_cases ha : AvailAll s d typ
  · have h := electrical_eq s x d typ ha
    unfold electricalPotential at h ⊢
    cases hf : List.foldlM (electricalStep x d typ) (zeroRows x.length d) s with
    | error e => rw [hf] at h; cases h
    | ok pot =>
      simp only [if_true]
      unfold expandRows
      rw [if_pos (by rw [expandMap_length]; omega)]
  · exact electrical_err s x d typ true ha

theorem toNArr_flatten (k : Nat) (t : NArr ℝ) (l : Idx) (hl : l.length = k) : toNArr (flatten k t) l = t l := by
  unfold toNArr flatten
  rw [List.getD_eq_getElem?_getD, List.getElem?_map, ← hl, idxToNidx_eq, productIdx_eq,
    tuples_get _ l rfl]
  rfl

end Electrode
