import Verif.Model.TraitOffset
import Verif.Props.TraitCon3

/-
C138: limits of the difference between the potentials at a reference position and at the points of a path.
-/
namespace Electrode
open Spec

/-- the potential at the reference position: fixed part and what the voltages add, if the electrode `e` adds `pref e` at one volt -/
def Spec.totalRef {m : Nat} (only : Bool) (r0 : ℝ) (pref v : Fin m → ℝ) : ℝ := (if only then 0 else r0) + ∑ e, v e * pref e

/-- electrodes that have a voltage and the potential `pref e` at one volt at the reference position -/
def Spec.refElectrodes {m : Nat} (els : List OffsetElec) (pref : Fin m → ℝ) : Prop :=
  els.length = m ∧ ∀ (e : Fin m) (h : e.1 < els.length), (els[e.1]).voltage ≠ none ∧ (els[e.1]).pot 1 = .ok (pref e)

namespace TraitOff

theorem loop_ok (els : List OffsetElec) (pref : List ℝ) (hl : els.length = pref.length)
    (h : ∀ (i : Nat) (h1 : i < els.length) (h2 : i < pref.length), (els[i]).voltage ≠ none ∧ (els[i]).pot 1 = .ok pref[i]) : offsetLoop els = (.ok pref, els) := by
  induction els generalizing pref with
  | nil =>
    obtain rfl : pref = [] := List.length_eq_zero_iff.1 hl.symm
    rfl
  | cons el els ih =>
    obtain ⟨p, pref, rfl⟩ : ∃ p q, pref = p :: q := by
      cases pref with
      | nil => simp at hl
      | cons p q => exact ⟨p, q, rfl⟩
    obtain ⟨h1, h2⟩ := h 0 (by simp) (by simp)
    simp only [List.getElem_cons_zero] at h1 h2
    obtain ⟨v0, hv⟩ := Option.ne_none_iff_exists'.1 h1
    have := ih pref (by simpa using hl) fun i a b =>
      h (i + 1) (Nat.succ_lt_succ a) (Nat.succ_lt_succ b)
    simp only [offsetLoop, hv, h2, this]
    cases el
    simp only at hv
    subst hv
    rfl

theorem loop_ref {m : Nat} {els : List OffsetElec} {pref : Fin m → ℝ} (h : refElectrodes els pref) : offsetLoop els = (.ok (List.ofFn pref), els) :=
  loop_ok els _ (by simp [h.1]) fun i h1 h2 => by
    have := h.2 ⟨i, by rw [← h.1]; exact h1⟩ h1
    simpa using this

end TraitOff
open TraitOff

/-- **C138.** For electrodes with the attributes that the constraint uses, it holds exactly if at every point it is for, the potential at the reference position minus that
at the point is within the limits. -/
theorem c138_offset_partial {m : Nat} {only : Bool} {pmin pmax : Option ℝ} {r0 : ℝ} {els : List OffsetElec} {pref : Fin m → ℝ} (he : refElectrodes els pref)
    {index : Option (List Int)} {vars : List (Fin m → ℝ)} {pots : List (Pots m)} (hlen : pots.length = vars.length)
    (hi : ∀ l, index = some l → ∀ i ∈ l, 0 ≤ i ∧ i < vars.length) :
    AllSat (traitConstraints 0 false ((singleValues index (offsetValue only pmin pmax (.ok r0) els) vars pots).map Prod.fst)) ↔
      ∀ (i : Nat) (h : i < vars.length), points index vars i →
        (∀ b, pmax = some b → totalRef only r0 pref vars[i] - totalP only pots[i] vars[i] ≤ b) ∧
        ∀ a, pmin = some a → a ≤ totalRef only r0 pref vars[i] - totalP only pots[i] vars[i] := by
  have ht : ∀ (v : Fin m → ℝ) (s : Pots m), offsetValue only pmin pmax (.ok r0) els v s =
      .ok (optYield pmin (fun a => ⟨.affine, [a - (totalRef only r0 pref v - totalP only s v)]⟩) ++
        optYield pmax (fun b => ⟨.affine, [totalRef only r0 pref v - totalP only s v - b]⟩), s) := by
    intro v s
    have e1 : ∑ e : Fin m, ((List.ofFn pref).getD e 0 - s.p e) * v e = ∑ e, v e * pref e - ∑ e, v e * s.p e := by
      rw [← Finset.sum_sub_distrib]
      refine Finset.sum_congr rfl fun e _ => ?_
      rw [show (List.ofFn pref).getD e 0 = pref e by simp [List.getD_eq_getElem?_getD]]
      ring
    have e2 : ((if only then r0 * 0 else r0) - (if only then s.p0 * 0 else s.p0)) + ∑ e : Fin m, ((List.ofFn pref).getD e 0 - s.p e) * v e =
        totalRef only r0 pref v - totalP only s v := by
      rw [e1]
      cases only <;> simp [totalRef, totalP] <;> ring
    simp only [offsetValue, loop_ref he, List.length_ofFn, ne_eq, not_true_eq_false, if_false, e2]
  obtain ⟨vs, e, h⟩ := single_all (single := offsetValue only pmin pmax (.ok r0) els)
    (out := fun v s => optYield pmin (fun a => ⟨.affine, [a - (totalRef only r0 pref v - totalP only s v)]⟩) ++
        optYield pmax (fun b => ⟨.affine, [totalRef only r0 pref v - totalP only s v - b]⟩)) (upd := fun s => s)
    hlen (fun v _ s => ht v s) (fun v s => rfl) hi
  rw [allSat_le e, h]
  · refine forall_congr' fun i => forall_congr' fun hi => forall_congr' fun _ => ?_
    cases pmin <;> cases pmax <;> simp [optYield, and_comm]
  · rw [h]
    intro i hi _ w hw
    cases pmin <;> cases pmax <;> simp [optYield] at hw
    · simp [hw]
    · simp [hw]
    · rcases hw with rfl | rfl <;> simp

/-- **C138.** The voltages of the electrodes are set back: if the constraint gets the potentials of all electrodes, they are as before. -/
theorem c138_restored (els : List OffsetElec) (pref : List ℝ) (h : (offsetLoop els).1 = .ok pref) : (offsetLoop els).2 = els ∧ pref.length = els.length := by
  induction els generalizing pref with
  | nil =>
    simp only [offsetLoop, Except.ok.injEq] at h
    simp [offsetLoop, ← h]
  | cons el els ih =>
    cases hv : el.voltage with
    | none => simp [offsetLoop, hv] at h
    | some v0 =>
      cases hp : el.pot 1 with
      | error e => simp [offsetLoop, hv, hp] at h
      | ok p =>
        simp only [offsetLoop, hv, hp] at h ⊢
        cases hr : (offsetLoop els).1 with
        | error e => rw [hr] at h; cases h
        | ok q =>
          rw [hr] at h
          obtain rfl : p :: q = pref := Except.ok.inj h
          obtain ⟨h1, h2⟩ := ih q hr
          rw [h1, List.length_cons, List.length_cons, h2, ← hv]
          exact ⟨rfl, rfl⟩

/-- **C138, violated.** The electrodes of this package do not have the attribute: the constraint fails for each point, whatever the limits and the potentials are, and so does
any problem with it. -/
theorem c138_attribute_counterexample {m : Nat} (only : Bool) (pmin pmax : Option ℝ) (r0 : ℝ) (els : List Elec) (hm : els ≠ []) (v : Fin m → ℝ) (s : Pots m) (vars : List (Fin m → ℝ))
    (pots : List (Pots m)) :
    offsetValue only pmin pmax (.ok r0) (els.map offsetElecOf) v s = .error .attributeError ∧
      ¬ AllSat (traitConstraints 0 false ((singleValues none (offsetValue only pmin pmax (.ok r0) (els.map offsetElecOf)) (v :: vars) (s :: pots)).map Prod.fst)) := by
  obtain ⟨el, els, rfl⟩ := List.exists_cons_of_ne_nil hm
  have h1 : ∀ v s, offsetValue (m := m) only pmin pmax (.ok r0) ((el :: els).map offsetElecOf) v s = .error .attributeError := fun v s => by
    simp [offsetValue, offsetLoop, offsetElecOf]
  refine ⟨h1 v s, ?_⟩
  have h2 : singleValues none (offsetValue only pmin pmax (.ok r0) ((el :: els).map offsetElecOf)) (v :: vars) (s :: pots) = .error .attributeError := by
    simp only [singleValues, List.length_cons, List.range_succ_eq_map, List.map_cons, singleValues.go]
    simp only [List.map_cons] at h1
    simp [pyGetInt, pyGet, h1]
  rw [h2]
  simp [traitConstraints, AllSat, Except.map]

/-- a failure of the potential in the loop leaves the voltage of this electrode at one volt -/
theorem c138_restored_counterexample : ∃ els : List OffsetElec, (offsetLoop els).2 ≠ els :=
  ⟨[⟨some 3, fun _ => .error .valueError⟩], fun h => by
    have h1 := congrArg (fun l : List OffsetElec => (l.map OffsetElec.voltage)) h
    simp [offsetLoop] at h1⟩

/-- The hypotheses are met: one electrode with 2 V / V at the reference position and 1 V / V at the point. -/
example (v : ℝ) : AllSat (traitConstraints 0 false ((singleValues none (offsetValue false (some 1) (some 4) (.ok 3) [⟨some 7, fun u => .ok (2 * u)⟩]) [fun _ => v]
      [(⟨true, 1, 0, 0, fun _ => 1, 0, 0⟩ : Pots 1)]).map Prod.fst)) ↔ -1 ≤ v ∧ v ≤ 2 := by
  have he : refElectrodes (m := 1) [⟨some 7, fun u => .ok (2 * u)⟩] fun _ => 2 := ⟨rfl, fun e h => by
    obtain rfl : e = 0 := Subsingleton.elim _ _
    simp⟩
  rw [c138_offset_partial he rfl (by simp)]
  constructor
  · intro h
    obtain ⟨h1, h2⟩ := h 0 (by simp) (by simp [points])
    have h1 := h1 4 rfl
    have h2 := h2 1 rfl
    simp [totalRef, totalP] at h1 h2
    constructor <;> linarith
  · rintro ⟨h1, h2⟩ i hi -
    obtain rfl : i = 0 := by simpa using hi
    simp [totalRef, totalP]
    constructor <;> linarith

end Electrode
