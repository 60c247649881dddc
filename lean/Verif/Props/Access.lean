import Verif.Model.System

/-
C28 to C30: names and voltages of the electrodes of a system, item lookup, temporary voltages.
-/
namespace Electrode

/-! ### C28 -/

section
variable {α : Type} (upd : α → Elec → Elec)

theorem assign_not_mem (els : List Ref) (l : List α) (stop : Option PyErr) (h : Heap) (r : Ref) (hr : r ∉ els) :
    (assignLoop upd els l stop h).1 r = h r := by
  induction els generalizing l h with
  | nil => simp [assignLoop]
  | cons q els ih =>
    cases l with
    | nil => simp [assignLoop]
    | cons v l =>
      simp only [assignLoop]
      rw [ih _ _ fun hm => hr (by simp [hm])]
      rw [Function.update_of_ne]
      intro e; exact hr (by simp [e])

/-- an attribute not touched by the update keeps its value -/
theorem assign_attr {β : Type*} (f : Elec → β) (hf : ∀ v e, f (upd v e) = f e) (els : List Ref) (l : List α)
    (stop : Option PyErr) (h : Heap) (r : Ref) : f ((assignLoop upd els l stop h).1 r) = f (h r) := by
  induction els generalizing l h with
  | nil => simp [assignLoop]
  | cons q els ih =>
    cases l with
    | nil => simp [assignLoop]
    | cons v l =>
      simp only [assignLoop]
      rw [ih]
      by_cases e : r = q
      · subst e; simp [hf]
      · rw [Function.update_of_ne e]

theorem assign_get (els : List Ref) (hn : els.Nodup) (l : List α) (stop : Option PyErr) (h : Heap) (j : Nat) (r : Ref)
    (hj : els[j]? = some r) :
    (assignLoop upd els l stop h).1 r = match l[j]? with
      | some v => upd v (h r)
      | none => h r := by
  induction els generalizing l h j with
  | nil => simp at hj
  | cons q els ih =>
    rw [List.nodup_cons] at hn
    cases l with
    | nil => simp [assignLoop]
    | cons v l =>
      simp only [assignLoop]
      cases j with
      | zero =>
        simp only [List.getElem?_cons_zero, Option.some.injEq] at hj
        subst hj
        rw [assign_not_mem upd els l stop _ q hn.1]
        simp
      | succ j =>
        simp only [List.getElem?_cons_succ] at hj ⊢
        have hne : r ≠ q := by
          rintro rfl
          exact hn.1 (List.mem_of_getElem? hj)
        rw [ih hn.2 l _ j hj, Function.update_of_ne hne]

/-- the loop ends with the exception of the iterable exactly if items are missing -/
theorem assign_stop (els : List Ref) (l : List α) (stop : Option PyErr) (h : Heap) :
    (assignLoop upd els l stop h).2 = if l.length < els.length then stop else none := by
  induction els generalizing l h with
  | nil => simp [assignLoop]
  | cons q els ih =>
    cases l with
    | nil => simp [assignLoop]
    | cons v l =>
      simp only [assignLoop, ih]
      simp
end

/-- C28: the getters return one entry per electrode, in order. -/
theorem c28_get (els : List Ref) (h : Heap) :
    (getNames els h).length = els.length ∧ (getDcs els h).length = els.length ∧ (getRfs els h).length = els.length ∧
    ∀ (j : Nat) (r : Ref), els[j]? = some r → (getNames els h)[j]? = some (h r).name ∧
      (getDcs els h)[j]? = some (h r).dc ∧ (getRfs els h)[j]? = some (h r).rf := by
  refine ⟨by simp [getNames], by simp [getDcs], by simp [getRfs], ?_⟩
  intro j r hj
  simp [getNames, getDcs, getRfs, hj]

/-- C28: assigning a sequence to `dcs` of a system of different electrodes sets the `dc` of the first
electrodes, as many as there are items, and changes nothing else. -/
theorem c28_set_dcs (els : List Ref) (hn : els.Nodup) (l : List ℝ) (h : Heap) :
    ∃ h', setDcs els (.items l none) h = (h', none) ∧
      (∀ (j : Nat) (r : Ref), els[j]? = some r → h' r = { h r with dc := l.getD j (h r).dc }) ∧
      ∀ r, r ∉ els → h' r = h r := by
  refine ⟨(assignLoop updDc els l none h).1, ?_, ?_, fun r hr => assign_not_mem updDc els l none h r hr⟩
  · have := assign_stop updDc els l none h
    simp only [ite_self] at this
    unfold setDcs assignAll
    exact Prod.ext rfl this
  · intro j r hj
    rw [assign_get updDc els hn l none h j r hj]
    cases e : l[j]? <;> simp [e]

/-- C28: the same for `rfs`. -/
theorem c28_set_rfs (els : List Ref) (hn : els.Nodup) (l : List ℝ) (h : Heap) :
    ∃ h', setRfs els (.items l none) h = (h', none) ∧
      (∀ (j : Nat) (r : Ref), els[j]? = some r → h' r = { h r with rf := l.getD j (h r).rf }) ∧
      ∀ r, r ∉ els → h' r = h r := by
  refine ⟨(assignLoop updRf els l none h).1, ?_, ?_, fun r hr => assign_not_mem updRf els l none h r hr⟩
  · have := assign_stop updRf els l none h
    simp only [ite_self] at this
    unfold setRfs assignAll
    exact Prod.ext rfl this
  · intro j r hj
    rw [assign_get updRf els hn l none h j r hj]
    cases e : l[j]? <;> simp [e]

/-- C28: the same for `names`. -/
theorem c28_set_names (els : List Ref) (hn : els.Nodup) (l : List String) (h : Heap) :
    ∃ h', setNames els (.items l none) h = (h', none) ∧
      (∀ (j : Nat) (r : Ref), els[j]? = some r → h' r = { h r with name := l.getD j (h r).name }) ∧
      ∀ r, r ∉ els → h' r = h r := by
  refine ⟨(assignLoop updName els l none h).1, ?_, ?_, fun r hr => assign_not_mem updName els l none h r hr⟩
  · have := assign_stop updName els l none h
    simp only [ite_self] at this
    unfold setNames assignAll
    exact Prod.ext rfl this
  · intro j r hj
    rw [assign_get updName els hn l none h j r hj]
    cases e : l[j]? <;> simp [e]

/-- C28: reading back returns the assigned values when the lengths agree. -/
theorem c28_read_back (els : List Ref) (hn : els.Nodup) (d r : List ℝ) (n : List String) (h : Heap)
    (hd : d.length = els.length) (hr : r.length = els.length) (hN : n.length = els.length) :
    getDcs els (setDcs els (.items d none) h).1 = d ∧ getRfs els (setRfs els (.items r none) h).1 = r ∧
      getNames els (setNames els (.items n none) h).1 = n := by
  refine ⟨?_, ?_, ?_⟩
  · obtain ⟨h', h1, h2, _⟩ := c28_set_dcs els hn d h
    rw [h1]
    apply List.ext_getElem
    · simp [getDcs, hd]
    · intro j h3 h4
      have := h2 j els[j] (List.getElem?_eq_getElem (by omega))
      simp [getDcs, this, h4]
  · obtain ⟨h', h1, h2, _⟩ := c28_set_rfs els hn r h
    rw [h1]
    apply List.ext_getElem
    · simp [getRfs, hr]
    · intro j h3 h4
      have := h2 j els[j] (List.getElem?_eq_getElem (by omega))
      simp [getRfs, this, h4]
  · obtain ⟨h', h1, h2, _⟩ := c28_set_names els hn n h
    rw [h1]
    apply List.ext_getElem
    · simp [getNames, hN]
    · intro j h3 h4
      have := h2 j els[j] (List.getElem?_eq_getElem (by omega))
      simp [getNames, this, h4]

example : ([0, 1] : List Ref).Nodup := by decide

/-! ### C29 -/

/-- C29: lookup by a non-negative integer, … -/
theorem c29_index (els : List Ref) (h : Heap) (i : Nat) :
    getItem els h (.idx i) = if hi : i < els.length then .ok (some els[i]) else .error .indexError := by
  simp only [getItem, pyGetInt]
  rw [if_pos (by omega)]
  simp only [Int.toNat_natCast, pyGet]
  by_cases hi : i < els.length
  · rw [List.getElem?_eq_getElem hi, dif_pos hi]; rfl
  · rw [List.getElem?_eq_none (by omega), dif_neg hi]; rfl

/-- C29: … by a negative integer, counted from the end, … -/
theorem c29_negative_index (els : List Ref) (h : Heap) (i : Nat) (h1 : 1 ≤ i) :
    getItem els h (.idx (-(i : Int)))
      = if hi : i ≤ els.length then .ok (some (els[els.length - i]'(by omega))) else .error .indexError := by
  simp only [getItem, pyGetInt]
  rw [if_neg (by omega)]
  by_cases hi : i ≤ els.length
  · rw [if_pos (by omega), dif_pos hi]
    have : (-(i : Int) + (els.length : Int)).toNat = els.length - i := by omega
    rw [this, pyGet, List.getElem?_eq_getElem (by omega)]
    rfl
  · rw [if_neg (by omega), dif_neg hi]; rfl

/-- C29: … and by name: the first electrode of that name, … -/
theorem c29_name_found (els : List Ref) (h : Heap) (s : String) (r : Ref) :
    getItem els h (.name s) = .ok (some r) ↔
      ∃ i : Nat, els[i]? = some r ∧ (h r).name = s ∧ ∀ (j : Nat) (r' : Ref), j < i → els[j]? = some r' → (h r').name ≠ s := by
  unfold getItem
  simp only [Except.ok.injEq]
  rw [List.find?_eq_some_iff_getElem]
  constructor
  · rintro ⟨h1, i, hi, rfl, h3⟩
    refine ⟨i, List.getElem?_eq_getElem hi, by simpa using h1, ?_⟩
    intro j r' hj hr'
    have := h3 j hj
    rw [List.getElem?_eq_getElem (by omega), Option.some.injEq] at hr'
    rw [hr'] at this
    simpa using this
  · rintro ⟨i, hi, h1, h3⟩
    obtain ⟨hi', rfl⟩ := List.getElem?_eq_some_iff.1 hi
    refine ⟨by simpa using h1, i, hi', rfl, ?_⟩
    intro j hj
    have := h3 j _ hj (List.getElem?_eq_getElem (by omega))
    simpa using this

/-- C29: … or `None`. -/
theorem c29_name_missing (els : List Ref) (h : Heap) (s : String) :
    getItem els h (.name s) = .ok none ↔ ∀ r ∈ els, (h r).name ≠ s := by
  unfold getItem
  simp only [Except.ok.injEq, List.find?_eq_none]
  simp

/-- two electrodes of the same name: the first one is found -/
example : getItem [4, 7] (fun _ => ⟨"a", 0, 0, .cover 50⟩) (.name "a") = .ok (some 4) := by
  simp [getItem]

/-! ### C30 -/

/-- The heap after the values read from `h0` have been written back to the electrodes of `els`. -/
theorem restore_dc (els : List Ref) (h0 h : Heap) (r : Ref) (hr : r ∈ els) :
    ((assignLoop updDc els (getDcs els h0) none h).1 r).dc = (h0 r).dc := by
  unfold getDcs
  induction els generalizing h with
  | nil => simp at hr
  | cons q els ih =>
    simp only [List.map_cons, assignLoop]
    by_cases hm : r ∈ els
    · exact ih _ hm
    · have e : r = q := by simpa [hm] using hr
      rw [assign_not_mem _ els _ none _ r hm, e]
      simp

theorem restore_rf (els : List Ref) (h0 h : Heap) (r : Ref) (hr : r ∈ els) :
    ((assignLoop updRf els (getRfs els h0) none h).1 r).rf = (h0 r).rf := by
  unfold getRfs
  induction els generalizing h with
  | nil => simp at hr
  | cons q els ih =>
    simp only [List.map_cons, assignLoop]
    by_cases hm : r ∈ els
    · exact ih _ hm
    · have e : r = q := by simpa [hm] using hr
      rw [assign_not_mem _ els _ none _ r hm, e]
      simp

namespace Spec

/-- A request for temporary voltages that can be carried out: `None`, or enough or too few items,
without an exception raised while they are read. -/
def carriedOut (els : List Ref) : Option (Iterable ℝ) → Prop
  | none => True
  | some .notIterable => False
  | some (.items l stop) => els.length ≤ l.length ∨ stop = none

/-- The voltage requested for the electrode at position `j`, whose present one is `v`. -/
def requested (req : Option (Iterable ℝ)) (j : Nat) (v : ℝ) : ℝ :=
  match req with
  | some (.items l _) => l.getD j v
  | _ => v

end Spec
open Spec

theorem set_ok {upd : ℝ → Elec → Elec} (els : List Ref) (it : Iterable ℝ) (h : Heap) (hc : carriedOut els (some it)) :
    (assignAll upd els it h).2 = none := by
  cases it with
  | notIterable => exact hc.elim
  | items l stop =>
    simp only [assignAll, assign_stop]
    rcases hc with hc | hc
    · rw [if_neg (by omega)]
    · rw [hc]; simp

/-- C30: inside the block the electrodes of a system of different electrodes have the requested voltages
(an electrode for which none is requested keeps its own), and everything else is as before.  The body
runs exactly once, and its outcome, value or exception, is the outcome of the statement. -/
theorem c30_inside {α : Type} (els : List Ref) (hn : els.Nodup) (dcs rfs : Option (Iterable ℝ)) (h : Heap)
    (hd : carriedOut els dcs) (hr : carriedOut els rfs) :
    ∃ h', (∀ (j : Nat) (r : Ref), els[j]? = some r →
        h' r = { h r with dc := requested dcs j (h r).dc, rf := requested rfs j (h r).rf }) ∧
      (∀ r, r ∉ els → h' r = h r) ∧
      ∀ body : Heap → Heap × Py α, ∃ h'', withVoltages els dcs rfs body h = (h'', (body h').2) ∧
        ∀ r, (h'' r).name = ((body h').1 r).name ∧ (h'' r).shape = ((body h').1 r).shape := by
  have restore : ∀ (od or' : Option (List ℝ)) (g : Heap) (o : Py α),
      ∃ h'', leave o (restoreVoltages els (od.map (Iterable.items · none)) (or'.map (Iterable.items · none)) g) = (h'', o) ∧
        ∀ r, (h'' r).name = (g r).name ∧ (h'' r).shape = (g r).shape := by
    intro od or' g o
    have st : ∀ (upd : ℝ → Elec → Elec) (l : List ℝ) (g : Heap), assignLoop upd els l none g
        = ((assignLoop upd els l none g).1, none) := by
      intro upd l g
      refine Prod.ext rfl ?_
      simp [assign_stop]
    cases od with
    | none =>
      cases or' with
      | none => exact ⟨g, rfl, fun r => ⟨rfl, rfl⟩⟩
      | some l =>
        refine ⟨(assignLoop updRf els l none g).1, ?_, fun r =>
          ⟨assign_attr updRf Elec.name (fun _ _ => rfl) els l none g r, assign_attr updRf Elec.shape (fun _ _ => rfl) els l none g r⟩⟩
        simp only [restoreVoltages, Option.map_none, Option.map_some, setRfs, assignAll]
        rw [st]; rfl
    | some l =>
      cases or' with
      | none =>
        refine ⟨(assignLoop updDc els l none g).1, ?_, fun r =>
          ⟨assign_attr updDc Elec.name (fun _ _ => rfl) els l none g r, assign_attr updDc Elec.shape (fun _ _ => rfl) els l none g r⟩⟩
        simp only [restoreVoltages, Option.map_none, Option.map_some, setDcs, assignAll]
        rw [st]; rfl
      | some l' =>
        refine ⟨(assignLoop updRf els l' none (assignLoop updDc els l none g).1).1, ?_, fun r => ⟨?_, ?_⟩⟩
        rotate_left
        · rw [assign_attr updRf Elec.name (fun _ _ => rfl), assign_attr updDc Elec.name (fun _ _ => rfl)]
        · rw [assign_attr updRf Elec.shape (fun _ _ => rfl), assign_attr updDc Elec.shape (fun _ _ => rfl)]
        · simp only [restoreVoltages, Option.map_some, setDcs, setRfs, assignAll]
          rw [st updDc l g]
          simp only
          rw [st]; rfl
  cases dcs with
  | none =>
    cases rfs with
    | none =>
      refine ⟨h, ?_, fun _ _ => rfl, fun body => restore none none _ _⟩
      intro j r _; simp [requested]
    | some rr =>
      have h1 := set_ok (upd := updRf) els rr h hr
      refine ⟨(setRfs els rr h).1, ?_, ?_, ?_⟩
      · intro j r hj
        cases rr with
        | notIterable => exact hr.elim
        | items l stop =>
          simp only [setRfs, assignAll, requested]
          rw [assign_get _ els hn l stop h j r hj]
          cases e : l[j]? <;> simp [e]
      · intro r hr'
        cases rr with
        | notIterable => exact hr.elim
        | items l stop => exact assign_not_mem _ els l stop h r hr'
      · intro body
        have h2 : setRfs els rr h = ((setRfs els rr h).1, none) := Prod.ext rfl h1
        unfold withVoltages
        simp only
        rw [h2]
        exact restore none (some (getRfs els h)) _ _
  | some dd =>
    have h1 := set_ok (upd := updDc) els dd h hd
    have h2 : setDcs els dd h = ((setDcs els dd h).1, none) := Prod.ext rfl h1
    have hget : ∀ (j : Nat) (r : Ref), els[j]? = some r →
        (setDcs els dd h).1 r = { h r with dc := requested (some dd) j (h r).dc } := by
      intro j r hj
      cases dd with
      | notIterable => exact hd.elim
      | items l stop =>
        simp only [setDcs, assignAll, requested]
        rw [assign_get _ els hn l stop h j r hj]
        cases e : l[j]? <;> simp [e]
    have hnot : ∀ r, r ∉ els → (setDcs els dd h).1 r = h r := by
      intro r hr'
      cases dd with
      | notIterable => exact hd.elim
      | items l stop => exact assign_not_mem _ els l stop h r hr'
    cases rfs with
    | none =>
      refine ⟨(setDcs els dd h).1, ?_, hnot, ?_⟩
      · intro j r hj
        rw [hget j r hj]
        simp [requested]
      · intro body
        unfold withVoltages
        simp only
        rw [h2]
        exact restore (some (getDcs els h)) none _ _
    | some rr =>
      have h3 := set_ok (upd := updRf) els rr (setDcs els dd h).1 hr
      have h4 : setRfs els rr (setDcs els dd h).1 = ((setRfs els rr (setDcs els dd h).1).1, none) := Prod.ext rfl h3
      refine ⟨(setRfs els rr (setDcs els dd h).1).1, ?_, ?_, ?_⟩
      · intro j r hj
        cases rr with
        | notIterable => exact hr.elim
        | items l stop =>
          simp only [setRfs, assignAll]
          rw [assign_get _ els hn l stop _ j r hj, hget j r hj]
          have : requested (some (.items l stop)) j (h r).rf = l.getD j (h r).rf := rfl
          rw [this]
          cases e : l[j]? <;> simp [e]
      · intro r hr'
        rw [← hnot r hr']
        cases rr with
        | notIterable => exact hr.elim
        | items l stop => exact assign_not_mem _ els l stop _ r hr'
      · intro body
        unfold withVoltages
        simp only
        rw [h2]
        simp only
        rw [h4]
        exact restore (some (getDcs els h)) (some (getRfs els (setDcs els dd h).1)) _ _

theorem restore_both (els : List Ref) (h0 g : Heap) (r : Ref) (hr : r ∈ els) :
    let h' := (restoreVoltages els (some (.items (getDcs els h0) none)) (some (.items (getRfs els h0) none)) g).1
    (h' r).dc = (h0 r).dc ∧ (h' r).rf = (h0 r).rf := by
  have st : ∀ (upd : ℝ → Elec → Elec) (l : List ℝ) (g : Heap), assignLoop upd els l none g
      = ((assignLoop upd els l none g).1, none) := by
    intro upd l g
    refine Prod.ext rfl ?_
    simp [assign_stop]
  simp only [restoreVoltages, setDcs, setRfs, assignAll]
  rw [st updDc _ g]
  simp only
  refine ⟨?_, restore_rf els h0 _ r hr⟩
  rw [assign_attr updRf Elec.dc (fun _ _ => rfl)]
  exact restore_dc els h0 g r hr

theorem restore_dc_only (els : List Ref) (h0 g : Heap) :
    let h' := (restoreVoltages els (some (.items (getDcs els h0) none)) none g).1
    (∀ r ∈ els, (h' r).dc = (h0 r).dc) ∧ ∀ r, (h' r).rf = (g r).rf := by
  have st : ∀ (upd : ℝ → Elec → Elec) (l : List ℝ) (g : Heap), assignLoop upd els l none g
      = ((assignLoop upd els l none g).1, none) := by
    intro upd l g
    refine Prod.ext rfl ?_
    simp [assign_stop]
  simp only [restoreVoltages, setDcs, assignAll]
  rw [st updDc _ g]
  exact ⟨fun r hr => restore_dc els h0 g r hr, fun r => assign_attr updDc Elec.rf (fun _ _ => rfl) _ _ _ _ _⟩

theorem restore_rf_only (els : List Ref) (h0 g : Heap) :
    let h' := (restoreVoltages els none (some (.items (getRfs els h0) none)) g).1
    (∀ r ∈ els, (h' r).rf = (h0 r).rf) ∧ ∀ r, (h' r).dc = (g r).dc := by
  simp only [restoreVoltages, setRfs, assignAll]
  exact ⟨fun r hr => restore_rf els h0 g r hr, fun r => assign_attr updRf Elec.dc (fun _ _ => rfl) _ _ _ _ _⟩

theorem leave_fst {α : Type} (o : Py α) (r : Heap × Option PyErr) : (leave o r).1 = r.1 := by
  unfold leave; cases r.2 <;> rfl

theorem getRfs_after_dcs (els : List Ref) (it : Iterable ℝ) (h : Heap) : getRfs els (setDcs els it h).1 = getRfs els h := by
  unfold getRfs
  apply List.map_congr_left
  intro r _
  cases it with
  | notIterable => rfl
  | items l stop => exact assign_attr updDc Elec.rf (fun _ _ => rfl) _ _ _ _ _

/-- C30: after the block, whatever the body did to the voltages and however it ended, all electrodes have
the voltages of the requested kind they had before.  The same electrode may occur several times. -/
theorem c30_restored {α : Type} (els : List Ref) (dcs rfs : Option (Iterable ℝ)) (body : Heap → Heap × Py α) (h : Heap)
    (hd : carriedOut els dcs) (r : Ref) (hm : r ∈ els) :
    (dcs ≠ none → ((withVoltages els dcs rfs body h).1 r).dc = (h r).dc) ∧
    (rfs ≠ none → ((withVoltages els dcs rfs body h).1 r).rf = (h r).rf) := by
  cases dcs with
  | none =>
    refine ⟨fun c => absurd rfl c, ?_⟩
    cases rfs with
    | none => intro c; exact absurd rfl c
    | some rr =>
      intro _
      unfold withVoltages
      simp only
      split <;> rw [leave_fst] <;> exact (restore_rf_only els h _).1 r hm
  | some dd =>
    have h1 := set_ok (upd := updDc) els dd h hd
    have h2 : setDcs els dd h = ((setDcs els dd h).1, none) := Prod.ext rfl h1
    unfold withVoltages
    simp only
    rw [h2]
    simp only
    cases rfs with
    | none =>
      refine ⟨fun _ => ?_, fun c => absurd rfl c⟩
      simp only [leave_fst]
      exact (restore_dc_only els h _).1 r hm
    | some rr =>
      simp only
      rw [getRfs_after_dcs]
      split <;> rw [leave_fst] <;>
        exact ⟨fun _ => (restore_both els h _ r hm).1, fun _ => (restore_both els h _ r hm).2⟩

/-- C30: also when assigning the rf voltages raises: nothing stays changed. -/
theorem c30_restored_rf_failure {α : Type} (els : List Ref) (dcs : Option (Iterable ℝ)) (rr : Iterable ℝ)
    (body : Heap → Heap × Py α) (h : Heap) (hd : carriedOut els dcs) (e : PyErr)
    (hr : (setRfs els rr (match dcs with | none => h | some d => (setDcs els d h).1)).2 = some e) :
    (withVoltages els dcs (some rr) body h).2 = .error e ∧
      ∀ r ∈ els, ((withVoltages els dcs (some rr) body h).1 r).dc = (h r).dc ∧
        ((withVoltages els dcs (some rr) body h).1 r).rf = (h r).rf := by
  have st : ∀ (upd : ℝ → Elec → Elec) (l : List ℝ) (g : Heap), assignLoop upd els l none g
      = ((assignLoop upd els l none g).1, none) := by
    intro upd l g
    refine Prod.ext rfl ?_
    simp [assign_stop]
  cases dcs with
  | none =>
    simp only at hr
    have h2 : setRfs els rr h = ((setRfs els rr h).1, some e) := Prod.ext rfl hr
    unfold withVoltages
    simp only
    rw [h2]
    refine ⟨?_, fun r hm => ⟨?_, ?_⟩⟩
    · simp only [restoreVoltages, setRfs, assignAll]
      rw [st]; rfl
    · simp only [leave_fst]
      rw [(restore_rf_only els h _).2 r]
      cases rr with
      | notIterable => rfl
      | items l stop => exact assign_attr updRf Elec.dc (fun _ _ => rfl) _ _ _ _ _
    · simp only [leave_fst]
      exact (restore_rf_only els h _).1 r hm
  | some dd =>
    simp only at hr
    have h1 := set_ok (upd := updDc) els dd h hd
    have h2 : setDcs els dd h = ((setDcs els dd h).1, none) := Prod.ext rfl h1
    have h3 : setRfs els rr (setDcs els dd h).1 = ((setRfs els rr (setDcs els dd h).1).1, some e) := Prod.ext rfl hr
    unfold withVoltages
    simp only
    rw [h2]
    simp only
    rw [h3, getRfs_after_dcs]
    refine ⟨?_, fun r hm => ?_⟩
    · simp only [restoreVoltages, setDcs, setRfs, assignAll]
      rw [st updDc _ _]
      simp only
      rw [st]; rfl
    · simp only [leave_fst]
      exact restore_both els h _ r hm

/-- Not covered by C30, where the block is entered: if assigning the requested dc voltages raises, the
`finally` clause assigns the requested rf voltages to the electrodes and they stay, although the block
was never entered.  Here one electrode with rf voltage 0, `dcs` a number instead of a sequence and
`rfs=[5]`. -/
theorem c30_dc_failure_leaks_rf :
    let h : Heap := fun _ => ⟨"a", 1, 0, .cover 50⟩
    let res := withVoltages [0] (some .notIterable) (some (.items [5] none)) (fun g => (g, (.ok () : Py Unit))) h
    res.2 = .error .typeError ∧ (h 0).rf = 0 ∧ (res.1 0).rf = 5 := by
  simp only [withVoltages, setDcs, assignAll, restoreVoltages, getDcs, setRfs, List.map_cons, List.map_nil, assignLoop, leave]
  simp

/-- the hypotheses of C30 are met: two electrodes, one dc voltage requested for the first -/
example : carriedOut [0, 1] (some (.items [3] none)) ∧ carriedOut [0, 1] none := ⟨Or.inr rfl, trivial⟩

/-- an rf setter that raises after the first item -/
example : (setRfs [0, 1] (.items [3] (some (.user 0))) fun _ => ⟨"a", 1, 0, .cover 50⟩).2 = some (.user 0) := by
  simp [setRfs, assignAll, assignLoop]

end Electrode
