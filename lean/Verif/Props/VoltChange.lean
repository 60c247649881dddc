import Verif.Props.Adjust
import Verif.Props.GridElectrode
import Verif.Lemmas.System
import Verif.Lemmas.Pseudo
import Verif.Spec.System
import Mathlib.Tactic.Ring

/-
C79: the voltage changes proposed by `Adjust.volt_change`.
-/
namespace Electrode
open Spec

namespace Spec
/-- the contract of `scipy.linalg.solve` for a matrix given by its columns: a returned vector solves the system -/
def Solves (solve : List (List ℝ) → List ℝ → Py (List ℝ)) : Prop :=
  ∀ cols rhs x, solve cols rhs = .ok x → x.length = cols.length ∧
    ∀ i < 3, (List.zipWith (fun c v => v * c.getD i 0) cols x).sum = rhs.getD i 0

/-- the histories end with the voltages of the system -/
def Tracks (a : Adj) : Prop := ∀ n ∈ a.config.flatten, ((histOf a n).getD []).getLast? = dcOf a n

/-- all electrodes provide first derivatives -/
def FirstDerivs (a : Adj) : Prop := ∀ e ∈ a.sys.els, e.shape.Avail 1

/-- component `i` of the gradient of the total potential -/
noncomputable def gradAt (a : Adj) (x : V3) (i : Nat) : ℝ :=
  match a.sys.potential [x] 1 .tot with
  | .ok [row] => row.getD i 0
  | _ => 0
end Spec

section lemmas

theorem expandRows_one (rows : List (List ℝ)) (h : ∀ r ∈ rows, r.length = 3) : expandRows 1 rows = .ok rows := by
  unfold expandRows
  rw [if_neg (by omega)]
  have : ∀ l : List (List ℝ), (∀ r ∈ l, r.length = 3) → pySeq (l.map fun c => expandTensor c) = .ok l := by
    intro l
    induction l with
    | nil => intro _; rfl
    | cons r t ih =>
      intro hl
      have hr := hl r List.mem_cons_self
      have e : expandTensor r = .ok r := by simp [expandTensor, hr]
      rw [List.map_cons]
      simp only [pySeq, e, ih fun r hr => hl r (List.mem_cons_of_mem _ hr)]
  exact this rows h

theorem electrical_one (els : List Elec) (x : V3) (typ : VTyp) (ha : AvailAll els 1 typ) :
    electricalPotential els [x] 1 typ true = .ok [(List.range 3).map fun i => sysContrib els typ 1 i x] := by
  have h := electrical_eq els [x] 1 typ ha
  unfold electricalPotential at h ⊢
  cases hf : List.foldlM (electricalStep [x] 1 typ) (zeroRows [x].length 1) els with
  | error e => rw [hf] at h; cases h
  | ok pot =>
    rw [hf] at h
    simp only [Bool.false_eq_true, if_false, Except.ok.injEq] at h
    simp only [if_true, h]
    rw [expandRows_one _ (by simp)]
    rfl

theorem electricalStep_rf (x : List V3) (d : Nat) (pot : List (List ℝ)) (e e' : Elec) (h1 : e'.rf = e.rf) (h2 : e'.shape = e.shape) :
    electricalStep x d .rf pot e' = electricalStep x d .rf pot e := by
  unfold electricalStep
  simp only [Elec.volt, h1]
  unfold Elec.potential
  rw [h2]

/-- the rf potential does not depend on the dc voltages -/
theorem electrical_rf_congr (els els' : List Elec)
    (h : els'.map (fun e => ({ e with dc := 0 } : Elec)) = els.map (fun e => ({ e with dc := 0 } : Elec))) (x : List V3) (d : Nat)
    (b : Bool) : electricalPotential els' x d .rf b = electricalPotential els x d .rf b := by
  have key : ∀ (els els' : List Elec) (pot : List (List ℝ)),
      els'.map (fun e => ({ e with dc := 0 } : Elec)) = els.map (fun e => ({ e with dc := 0 } : Elec)) →
      els'.foldlM (electricalStep x d .rf) pot = els.foldlM (electricalStep x d .rf) pot := by
    intro els
    induction els with
    | nil => intro els' pot h; simp at h; rw [h]
    | cons e t ih =>
      intro els' pot h
      cases els' with
      | nil => simp at h
      | cons e' t' =>
        simp only [List.map_cons, List.cons.injEq, Elec.mk.injEq] at h
        rw [List.foldlM_cons, List.foldlM_cons, electricalStep_rf x d pot e e' h.1.2.2.1 h.1.2.2.2]
        congr 1
        funext pot'
        exact ih t' pot' h.2
  unfold electricalPotential
  rw [key els els' _ h]

theorem pseudo_congr (s s' : Sys) (h : s'.els.map (fun e => ({ e with dc := 0 } : Elec)) = s.els.map (fun e => ({ e with dc := 0 } : Elec)))
    (hc : s'.rfCoeff = s.rfCoeff) (x : List V3) (d : Nat) : pseudoPotential s' x d = pseudoPotential s x d := by
  unfold pseudoPotential
  rw [hc]
  simp only [electrical_rf_congr s.els s'.els h]

theorem avail_congr (els els' : List Elec) (d : Nat)
    (h : els'.map (fun e => ({ e with dc := 0 } : Elec)) = els.map (fun e => ({ e with dc := 0 } : Elec)))
    (ha : ∀ e ∈ els, e.shape.Avail d) : ∀ e ∈ els', e.shape.Avail d := by
  intro e he
  have : ({ e with dc := 0 } : Elec) ∈ els.map (fun e => ({ e with dc := 0 } : Elec)) := by
    rw [← h]; exact List.mem_map.2 ⟨e, he, rfl⟩
  obtain ⟨e', he', h2⟩ := List.mem_map.1 this
  simp only [Elec.mk.injEq] at h2
  rw [← h2.2.2.2]; exact ha e' he'

/-- the voltages times a quantity of the electrodes -/
noncomputable def weigh (φ : Shape → ℝ) (els : List Elec) : ℝ := (els.map fun e => e.dc * φ e.shape).sum

theorem setDcByName_weigh (φ : Shape → ℝ) (name : String) (v : ℝ) (els els' : List Elec) (h : setDcByName name v els = some els') :
    ∃ e, els.find? (fun e => e.name = name) = some e ∧ weigh φ els' = weigh φ els + (v - e.dc) * φ e.shape ∧
      ∀ n, (els'.find? fun e => e.name = n).map (·.shape) = (els.find? fun e => e.name = n).map (·.shape) := by
  induction els generalizing els' with
  | nil => simp [setDcByName] at h
  | cons e t ih =>
    by_cases he : e.name = name
    · simp only [setDcByName, he, if_true, Option.some.injEq] at h
      subst h
      refine ⟨e, by simp [he], by simp only [weigh, List.map_cons, List.sum_cons]; ring, ?_⟩
      intro n
      subst he
      by_cases hn : e.name = n
      · simp [List.find?_cons, hn]
      · simp [List.find?_cons, hn]
    · simp only [setDcByName, he, if_false, Option.map_eq_some_iff] at h
      obtain ⟨t', ht, rfl⟩ := h
      obtain ⟨e1, h1, h2, h3⟩ := ih t' ht
      refine ⟨e1, by simp [he, h1], ?_, ?_⟩
      · simp only [weigh, List.map_cons, List.sum_cons] at h2 ⊢
        rw [h2]; ring
      · intro n
        by_cases hn : e.name = n
        · simp [List.find?_cons, hn]
        · simp only [List.find?_cons, hn, decide_false]; exact h3 n

/-- shape of the electrode with this name -/
def shapeOf (a : Adj) (n : String) : Option Shape := (a.sys.els.find? fun e => e.name = n).map (·.shape)

theorem steps_setOne_weigh (φ : Shape → ℝ) (cfg : List (String × ℝ)) (hk : (cfg.map Prod.fst).Nodup) : ∀ a a' : Adj,
    steps setOne cfg a = (none, a') →
    weigh φ a'.sys.els = weigh φ a.sys.els
      + (cfg.map fun p => (p.2 - (dcOf a p.1).getD 0) * ((shapeOf a p.1).map φ).getD 0).sum := by
  induction cfg with
  | nil => intro a a' h; simp only [steps, Prod.mk.injEq, true_and] at h; subst h; simp
  | cons p t ih =>
    intro a a' h
    obtain ⟨name, v⟩ := p
    obtain ⟨hnot, hnd⟩ := List.nodup_cons.1 hk
    simp only [steps, setOne] at h
    cases hs : setDcByName name v a.sys.els with
    | none => rw [hs] at h; simp at h
    | some els' =>
      rw [hs] at h
      simp only at h
      have := ih hnd _ _ h
      rw [this]
      obtain ⟨e, h1, h2, h3⟩ := setDcByName_weigh φ name v a.sys.els els' hs
      have hmem : name ∈ a.sys.els.map (·.name) := by
        by_contra hc
        rw [setDcByName_none name v _ hc] at hs; cases hs
      obtain ⟨els'', k1, k2, -, -⟩ := setDcByName_some name v a.sys.els hmem
      rw [hs] at k1
      obtain rfl := Option.some.inj k1
      have e1 : (t.map fun p => (p.2 - (dcOf { a with sys := { a.sys with els := els' } } p.1).getD 0)
            * ((shapeOf { a with sys := { a.sys with els := els' } } p.1).map φ).getD 0)
          = t.map fun p => (p.2 - (dcOf a p.1).getD 0) * ((shapeOf a p.1).map φ).getD 0 := by
        apply List.map_congr_left
        intro p hp
        have hne : p.1 ≠ name := fun hh => hnot (List.mem_map.2 ⟨p, hp, hh⟩)
        have d1 : dcOf { a with sys := { a.sys with els := els' } } p.1 = dcOf a p.1 := by
          simp only [dcOf, k2, if_neg hne]
        have d2 : shapeOf { a with sys := { a.sys with els := els' } } p.1 = shapeOf a p.1 := h3 p.1
        rw [d1, d2]
      rw [e1]
      simp only [h2, List.map_cons, List.sum_cons, dcOf, shapeOf, h1, Option.map_some, Option.getD_some]
      ring

theorem coefColumn_eq (els : List Elec) (x : V3) (ha : ∀ e ∈ els, e.shape.Avail 1) (g : List String) (c : List ℝ)
    (h : coefColumn els x g = .ok c) : c.length = 3 ∧
    ∀ i < 3, c.getD i 0 = (g.map fun n => (((els.find? fun e => e.name = n).map (·.shape)).map fun s => s.contrib 1 x i).getD 0).sum := by
  induction g generalizing c with
  | nil =>
    simp only [coefColumn, Except.ok.injEq] at h
    subst h
    refine ⟨rfl, fun i hi => ?_⟩
    interval_cases i <;> rfl
  | cons n t ih =>
    simp only [coefColumn] at h
    cases hf : els.find? (fun e => e.name = n) with
    | none => rw [hf] at h; cases h
    | some e =>
      rw [hf] at h
      simp only at h
      have hav : e.shape.Avail 1 := ha e (List.mem_of_find?_eq_some hf)
      rw [Elec.potential_new e [x] 1 1 hav] at h
      simp only [firstRow, List.map_cons, List.map_nil] at h
      have e0 : pyGet [(List.range (2 * 1 + 1)).map fun i => 1 * e.shape.contrib 1 x i] 0
          = .ok ((List.range (2 * 1 + 1)).map fun i => 1 * e.shape.contrib 1 x i) := rfl
      rw [e0] at h
      cases hc : coefColumn els x t with
      | error err => rw [hc] at h; cases h
      | ok c' =>
        rw [hc] at h
        simp only [Except.ok.injEq] at h
        obtain ⟨hl, hv⟩ := ih c' hc
        subst h
        refine ⟨by simp [hl], fun i hi => ?_⟩
        rw [List.map_cons, List.sum_cons, ← hv i hi, hf]
        obtain ⟨p, q, r, rfl⟩ : ∃ p q r, c' = [p, q, r] := by
          match c', hl with
          | [p, q, r], _ => exact ⟨p, q, r, rfl⟩
        have : List.range (2 * 1 + 1) = [0, 1, 2] := rfl
        rw [this]
        interval_cases i <;> simp

end lemmas

/-- the gradient after a change of the voltages of disjoint groups -/
theorem grad_after (a a' : Adj) (dV : List ℝ) (x : V3) (hr : Ready a) (ht : Tracks a) (hf : FirstDerivs a)
    (hrf : ∃ w, pseudoPotential a.sys [x] 1 = .ok w) (hset : setVolts (moveConfig a dV) false a = (none, a')) (i : Nat) (hi : i < 3)
    (cols : List (List ℝ)) (hcols : pySeq (a.config.map (coefColumn a.sys.els x)) = .ok cols) :
    gradAt a' x i = gradAt a x i + (List.zipWith (fun c v => v * c.getD i 0) cols dV).sum := by
  obtain ⟨hs, hc⟩ := Ready_savable a dV hr
  obtain ⟨b, h1, h2, h3, h4⟩ := c64_nosave a (moveConfig a dV) hs.keys hs.known
  rw [hset] at h1
  obtain rfl : a' = b := by simpa using h1
  have hels := h2.2.2.2.2.2.2
  have hcoef := h2.2.2.2.2.2.1
  have hf' : ∀ e ∈ a'.sys.els, e.shape.Avail 1 := avail_congr _ _ 1 hels hf
  obtain ⟨w, hw⟩ := hrf
  have hw' : pseudoPotential a'.sys [x] 1 = .ok w := by rw [pseudo_congr a.sys a'.sys hels hcoef]; exact hw
  have hwl : ∃ r, w = [r] ∧ r.length = 3 := by
    unfold pseudoPotential at hw
    cases hcf : a.sys.rfCoeff with
    | none => rw [hcf] at hw; cases hw
    | some c =>
      rw [hcf] at hw
      simp only at hw
      split at hw
      · cases hw
      · rename_i p hp
        rw [if_pos (by omega)] at hw
        simp only [List.length_singleton, List.range_one, List.map_cons, List.map_nil, Except.ok.injEq] at hw
        subst hw
        exact ⟨_, rfl, by simp [pseudoRow, flatten, productIdx]⟩
  obtain ⟨r, rfl, hrl⟩ := hwl
  obtain ⟨r0, r1, r2, rfl⟩ : ∃ p q s, r = [p, q, s] := by
    match r, hrl with
    | [p, q, s], _ => exact ⟨p, q, s, rfl⟩
  have g1 : ∀ b : Adj, (∀ e ∈ b.sys.els, e.shape.Avail 1) → pseudoPotential b.sys [x] 1 = .ok [[r0, r1, r2]] →
      gradAt b x i = sysContrib b.sys.els .dc 1 i x + [r0, r1, r2].getD i 0 := by
    intro b hb hbw
    unfold gradAt Sys.potential
    rw [electrical_one b.sys.els x .dc (fun e he _ => hb e he), hbw]
    have : List.range 3 = [0, 1, 2] := rfl
    simp only [addRows, this]
    interval_cases i <;> simp
  rw [g1 a' hf' hw', g1 a hf hw]
  have hsc : ∀ els : List Elec, sysContrib els .dc 1 i x = weigh (fun s => s.contrib 1 x i) els := by
    intro els; rfl
  rw [hsc, hsc]
  have hst : steps setOne (moveConfig a dV) a = (none, a') := by
    unfold setVolts at hset
    split at hset
    · cases hset
    · rename_i h; simp only [Bool.false_eq_true, if_false] at hset; rw [h, hset]
  rw [steps_setOne_weigh _ _ hs.keys a a' hst]
  have hsum : ((moveConfig a dV).map fun p => (p.2 - (dcOf a p.1).getD 0)
        * ((shapeOf a p.1).map fun s => s.contrib 1 x i).getD 0).sum
      = (List.zipWith (fun c v => v * c.getD i 0) cols dV).sum := by
    have key : ∀ (cf : List (List String)) (cols : List (List ℝ)) (dV : List ℝ),
        (∀ n ∈ cf.flatten, ((histOf a n).getD []).getLast? = dcOf a n) →
        pySeq (cf.map (coefColumn a.sys.els x)) = .ok cols →
        (((cf.zip dV).flatMap fun p => p.1.map fun n => (n, ((histOf a n).getD []).getLastD 0 + p.2)).map fun p =>
          (p.2 - (dcOf a p.1).getD 0) * ((shapeOf a p.1).map fun s => s.contrib 1 x i).getD 0).sum
          = (List.zipWith (fun c v => v * c.getD i 0) cols dV).sum := by
      intro cf
      induction cf with
      | nil =>
        intro cols dV _ h
        simp only [List.map_nil, pySeq, Except.ok.injEq] at h
        subst h
        simp
      | cons g t ih =>
        intro cols dV htr h
        rw [List.map_cons] at h
        simp only [pySeq] at h
        cases hg : coefColumn a.sys.els x g with
        | error e => rw [hg] at h; cases h
        | ok c =>
          rw [hg] at h
          simp only at h
          cases hp : pySeq (t.map (coefColumn a.sys.els x)) with
          | error e => rw [hp] at h; cases h
          | ok cs =>
            rw [hp] at h
            simp only [Except.ok.injEq] at h
            subst h
            cases dV with
            | nil => simp
            | cons v dV =>
              simp only [List.zip_cons_cons, List.flatMap_cons, List.map_append, List.sum_append, List.zipWith_cons_cons,
                List.sum_cons]
              rw [ih cs dV (fun n hn => htr n (by simp only [List.flatten_cons, List.mem_append]; exact Or.inr hn)) hp]
              congr 1
              rw [(coefColumn_eq a.sys.els x hf g c hg).2 i hi]
              have htr' : ∀ n ∈ g, ((histOf a n).getD []).getLast? = dcOf a n := fun n hn =>
                htr n (by simp only [List.flatten_cons, List.mem_append]; exact Or.inl hn)
              clear hg ih htr
              induction g with
              | nil => simp
              | cons n g ihg =>
                simp only [List.map_cons, List.sum_cons]
                rw [ihg fun m hm => htr' m (List.mem_cons_of_mem _ hm), List.getLastD_eq_getLast?,
                  htr' n List.mem_cons_self, mul_add]
                congr 1
                simp only [shapeOf]
                ring
    exact key a.config cols dV ht hcols
  rw [hsum]
  ring

/-- C79: with `method='position'` the voltages proposed for a move make the total gradient vanish at the target. -/
theorem c79_position (solve : List (List ℝ) → List ℝ → Py (List ℝ)) (hsolve : Solves solve) (a a' : Adj) (axis : Nat) (l dis : ℝ)
    (same : Bool) (dV : List ℝ) (c : List (String × ℝ)) (xm : V3) (b0 b1 b2 : ℝ) (hr : Ready a) (ht : Tracks a) (hf : FirstDerivs a)
    (hx : a.xms.getLast? = some xm) (hb : a.basis[axis]? = some [b0, b1, b2])
    (h : voltChange solve a axis l dis same .position = .ok dV) (hc : constructConfig a dV = .ok c)
    (hset : setVolts c false a = (none, a')) (i : Nat) (hi : i < 3) :
    gradAt a' ⟨xm.x + dis / l * b0, xm.y + dis / l * b1, xm.z + dis / l * b2⟩ i = 0 := by
  rw [(Ready_savable a dV hr).2] at hc
  obtain rfl := Except.ok.inj hc
  have hbas : pyGet a.basis axis = .ok [b0, b1, b2] := by simp [pyGet, hb]
  unfold voltChange at h
  rw [hx, hbas] at h
  simp only [List.getD_cons_zero, List.getD_cons_succ] at h
  set x : V3 := ⟨xm.x + dis / l * b0, xm.y + dis / l * b1, xm.z + dis / l * b2⟩ with hxdef
  cases hg : firstRow (a.sys.potential [x] 1 .tot) with
  | error e => rw [hg] at h; simp at h
  | ok g =>
    rw [hg] at h
    simp only at h
    cases hp : pySeq (a.config.map (coefColumn a.sys.els x)) with
    | error e => rw [hp] at h; cases h
    | ok cols =>
      rw [hp] at h
      simp only at h
      obtain ⟨-, hs⟩ := hsolve _ _ _ h
      obtain ⟨w, hw, hgr⟩ : ∃ w, pseudoPotential a.sys [x] 1 = .ok w ∧ ∀ i < 3, gradAt a x i = g.getD i 0 := by
        unfold Sys.potential at hg
        rw [electrical_one a.sys.els x .dc fun e he _ => hf e he] at hg
        simp only at hg
        cases hw : pseudoPotential a.sys [x] 1 with
        | error e => rw [hw] at hg; simp [firstRow] at hg
        | ok w =>
          rw [hw] at hg
          refine ⟨w, rfl, fun i hi => ?_⟩
          simp only [firstRow, addRows] at hg
          cases w with
          | nil => simp [pyGet] at hg
          | cons r t =>
            simp only [List.zipWith_cons_cons, List.zipWith_nil_left, pyGet, List.getElem?_cons_zero, Except.ok.injEq] at hg
            unfold gradAt Sys.potential
            rw [electrical_one a.sys.els x .dc fun e he _ => hf e he, hw]
            simp only [addRows, List.zipWith_cons_cons, List.zipWith_nil_left]
            rw [hg]
      rw [grad_after a a' dV x hr ht hf ⟨w, hw⟩ hset i hi cols hp, hs i hi, hgr i hi]
      rw [List.getD_eq_getElem?_getD, List.getD_eq_getElem?_getD, List.getElem?_map]
      cases g[i]? <;> simp

/-- C79: with `method='force'` the voltages proposed for a move add to the gradient at the last minimum the curvature times the
displacement, along the axis. -/
theorem c79_force (solve : List (List ℝ) → List ℝ → Py (List ℝ)) (hsolve : Solves solve) (a a' : Adj) (axis : Nat) (l dis : ℝ)
    (same : Bool) (dV : List ℝ) (c : List (String × ℝ)) (xm : V3) (b : List ℝ) (ev : List ℝ) (k : ℝ)
    (hr : Ready a) (ht : Tracks a) (hf : FirstDerivs a) (hrf : ∃ w, pseudoPotential a.sys [xm] 1 = .ok w)
    (hx : a.xms.getLast? = some xm) (hb : a.basis[axis]? = some b)
    (hev : (if same then a.curves.head? else a.curves.getLast?) = some ev) (hk : ev[axis]? = some k)
    (h : voltChange solve a axis l dis same .force = .ok dV) (hc : constructConfig a dV = .ok c)
    (hset : setVolts c false a = (none, a')) (i : Nat) (hi : i < 3) :
    gradAt a' xm i = gradAt a xm i + k * (dis / l) * b.getD i 0 := by
  rw [(Ready_savable a dV hr).2] at hc
  obtain rfl := Except.ok.inj hc
  have hbas : pyGet a.basis axis = .ok b := by simp [pyGet, hb]
  have hkk : pyGet ev axis = .ok k := by simp [pyGet, hk]
  unfold voltChange at h
  rw [hx, hbas] at h
  simp only [hev, hkk] at h
  cases hp : pySeq (a.config.map (coefColumn a.sys.els xm)) with
  | error e => rw [hp] at h; cases h
  | ok cols =>
    rw [hp] at h
    simp only at h
    obtain ⟨-, hs⟩ := hsolve _ _ _ h
    rw [grad_after a a' dV xm hr ht hf hrf hset i hi cols hp, hs i hi]
    rw [List.getD_eq_getElem?_getD, List.getD_eq_getElem?_getD, List.getElem?_map]
    cases b[i]? with
    | none => simp
    | some y => simp only [Option.map_some, Option.getD_some]; ring

/-- C79 fails for the direction of `method='force'`: when the last minimum is a stationary point and the axis is an eigenvector
of the Hessian there with the stored curvature, the linearised gradient after the change vanishes at the displacement `-dis`, not
at `+dis`. -/
theorem c79_force_direction (solve : List (List ℝ) → List ℝ → Py (List ℝ)) (hsolve : Solves solve) (a a' : Adj) (axis : Nat)
    (l dis : ℝ) (same : Bool) (dV : List ℝ) (c : List (String × ℝ)) (xm : V3) (b : List ℝ) (ev : List ℝ) (k : ℝ)
    (hr : Ready a) (ht : Tracks a) (hf : FirstDerivs a) (hrf : ∃ w, pseudoPotential a.sys [xm] 1 = .ok w)
    (hx : a.xms.getLast? = some xm) (hb : a.basis[axis]? = some b)
    (hev : (if same then a.curves.head? else a.curves.getLast?) = some ev) (hk : ev[axis]? = some k)
    (h : voltChange solve a axis l dis same .force = .ok dV) (hc : constructConfig a dV = .ok c)
    (hset : setVolts c false a = (none, a'))
    (hess : Fin 3 → Fin 3 → ℝ) (heig : ∀ i : Fin 3, ∑ j : Fin 3, hess i j * b.getD j 0 = k * b.getD i 0)
    (hstat : ∀ i < 3, gradAt a xm i = 0) (i : Fin 3) :
    gradAt a' xm i + ∑ j : Fin 3, hess i j * (-(dis / l) * b.getD j 0) = 0 := by
  rw [c79_force solve hsolve a a' axis l dis same dV c xm b ev k hr ht hf hrf hx hb hev hk h hc hset i i.2, hstat i i.2]
  have : ∑ j : Fin 3, hess i j * (-(dis / l) * b.getD j 0) = -(dis / l) * ∑ j : Fin 3, hess i j * b.getD j 0 := by
    rw [Finset.mul_sum]; exact Finset.sum_congr rfl fun j _ => by ring
  rw [this, heig]
  ring

/-! ### the theorems apply -/

/-- an electrode whose unit gradient is along axis `k`, on a grid of eight positions -/
noncomputable def exGradElec (name : String) (dc : ℝ) (k : Nat) : Elec :=
  ⟨name, dc, 0, .grid [⟨2, 2, 2, 1, fun _ _ _ _ => 0⟩, ⟨2, 2, 2, 3, fun _ _ _ j => if j = k then 1 else 0⟩] ⟨0, 0, 0⟩ ⟨1, 1, 1⟩⟩

theorem exGradElec_contrib (name : String) (dc : ℝ) (k i : Nat) (hi : i < 3) (x : V3) (hx : x = ⟨0, 0, 0⟩ ∨ x = ⟨1, 0, 0⟩) :
    (exGradElec name dc k).shape.contrib 1 x i = if i = k then 1 else 0 := by
  have hav : (exGradElec name dc k).shape.Avail 1 := ⟨_, rfl, le_refl _⟩
  have h := compAt_eq (exGradElec name dc k) 1 i 1 x hav hi
  have hn : ∃ a < 2, x = node ⟨0, 0, 0⟩ ⟨1, 1, 1⟩ a 0 0 := by
    rcases hx with rfl | rfl
    · exact ⟨0, by omega, by simp [node]⟩
    · exact ⟨1, by omega, by simp [node]⟩
  obtain ⟨a, ha, hxa⟩ := hn
  have h2 := c52_nodes name dc 0 [⟨2, 2, 2, 1, fun _ _ _ _ => 0⟩, ⟨2, 2, 2, 3, fun _ _ _ j => if j = k then 1 else 0⟩] ⟨0, 0, 0⟩ ⟨1, 1, 1⟩
    1 i 1 ⟨2, 2, 2, 3, fun _ _ _ j => if j = k then 1 else 0⟩ rfl (le_refl _) hi ⟨one_ne_zero, one_ne_zero, one_ne_zero⟩ a 0 0 ha
    Nat.two_pos Nat.two_pos
  rw [← hxa] at h2
  have h3 : compAt (exGradElec name dc k) 1 i 1 x = 1 * if i = k then 1 else 0 := h2
  rw [h3] at h
  simpa using h.symm

/-- three electrodes that move the ion along the three axes -/
noncomputable def exMove : Adj where
  sys := ⟨[exGradElec "a" 1 0, exGradElec "b" 2 1, exGradElec "c" 3 2], some 1⟩
  volts := [("a", [1]), ("b", [2]), ("c", [3])]
  config := [["a"], ["b"], ["c"]]
  xms := [⟨0, 0, 0⟩]
  curves := [[1, 2, 3]]
  basis := [[1, 0, 0], [0, 1, 0], [0, 0, 1]]
  propose := none

/-- solves the systems with the identity matrix -/
noncomputable def exSolve (cols : List (List ℝ)) (rhs : List ℝ) : Py (List ℝ) :=
  open Classical in
  if cols = [[1, 0, 0], [0, 1, 0], [0, 0, 1]] ∧ rhs.length = 3 then .ok rhs else .error (.user 0)

theorem exSolve_solves : Solves exSolve := by
  intro cols rhs x h
  unfold exSolve at h
  split at h
  · rename_i hc
    obtain ⟨rfl, hl⟩ := hc
    obtain rfl := Except.ok.inj h
    obtain ⟨p, q, r, rfl⟩ : ∃ p q r, rhs = [p, q, r] := by
      match rhs, hl with
      | [p, q, r], _ => exact ⟨p, q, r, rfl⟩
    refine ⟨rfl, fun i hi => ?_⟩
    interval_cases i <;> simp
  · cases h

theorem exMove_ready : Ready exMove := by
  refine ⟨by simp [exMove], ?_, by simp [exMove, histNames], ?_⟩
  · intro n hn
    simp only [exMove, List.flatten_cons, List.flatten_nil, List.append_nil, List.mem_append, List.mem_singleton] at hn
    rcases hn with rfl | rfl | rfl <;> simp [exMove, sysNames, histNames, exGradElec]
  · intro n h hh
    simp only [histOf, exMove, List.lookup_cons, List.lookup_nil] at hh
    split at hh
    · obtain rfl := Option.some.inj hh; simp
    · split at hh
      · obtain rfl := Option.some.inj hh; simp
      · split at hh
        · obtain rfl := Option.some.inj hh; simp
        · cases hh

theorem exMove_tracks : Tracks exMove := by
  intro n hn
  simp only [exMove, List.flatten_cons, List.flatten_nil, List.append_nil, List.mem_append, List.mem_singleton] at hn
  rcases hn with rfl | rfl | rfl <;> simp [exMove, histOf, dcOf, exGradElec, List.lookup, List.find?_cons]

theorem exMove_derivs : FirstDerivs exMove := by
  intro e he
  simp only [exMove, List.mem_cons, List.not_mem_nil, or_false] at he
  rcases he with rfl | rfl | rfl <;> exact ⟨_, rfl, le_refl _⟩

theorem exMove_columns (x : V3) (hx : x = ⟨0, 0, 0⟩ ∨ x = ⟨1, 0, 0⟩) :
    pySeq (exMove.config.map (coefColumn exMove.sys.els x)) = .ok [[1, 0, 0], [0, 1, 0], [0, 0, 1]] := by
  have h3 : List.range (2 * 1 + 1) = [0, 1, 2] := rfl
  have h : ∀ name dc k, (exGradElec name dc k).potential [x] 1 1 none
      = .ok [[if 0 = k then 1 else 0, if 1 = k then 1 else 0, if 2 = k then 1 else 0]] := by
    intro name dc k
    have hav : (exGradElec name dc k).shape.Avail 1 := ⟨_, rfl, le_refl _⟩
    rw [Elec.potential_new _ [x] 1 1 hav, h3]
    simp only [List.map_cons, List.map_nil, one_mul, exGradElec_contrib name dc k _ (by decide : 0 < 3) x hx,
      exGradElec_contrib name dc k _ (by decide : 1 < 3) x hx, exGradElec_contrib name dc k _ (by decide : 2 < 3) x hx]
  have hn : ∀ name dc k, (exGradElec name dc k).name = name := fun _ _ _ => rfl
  simp [exMove, coefColumn, List.find?_cons, hn, firstRow, h, pyGet, pySeq]

theorem exMove_pseudo (x : V3) : pseudoPotential exMove.sys [x] 1
    = .ok ([x].map fun p => flatten 1 (psT fun l => 1 * sysTens exMove.sys.els .rf l p)) :=
  pseudo_eq exMove.sys.els 1 [x] 1 (by norm_num) (by
    intro i _ _ e he hne
    simp only [exMove, List.mem_cons, List.not_mem_nil, or_false] at he
    rcases he with rfl | rfl | rfl <;> exact absurd rfl hne)

/-- a proposed move by one grid step, by position and by force -/
example : (∃ dV, voltChange exSolve exMove 0 1 1 false .position = .ok dV) ∧ ∃ dV, voltChange exSolve exMove 0 1 1 false .force = .ok dV := by
  constructor
  · unfold voltChange
    have hx : (⟨0 + 1 / 1 * 1, 0 + 1 / 1 * 0, 0 + 1 / 1 * 0⟩ : V3) = ⟨1, 0, 0⟩ := by simp
    have hpot : ∃ r0 r1 r2, firstRow (exMove.sys.potential [⟨1, 0, 0⟩] 1 .tot) = .ok [r0, r1, r2] := by
      unfold Sys.potential
      rw [electrical_one _ _ .dc fun e he _ => exMove_derivs e he, exMove_pseudo]
      have : List.range 3 = [0, 1, 2] := rfl
      have e3 : ∀ r : List ℝ, r.length = 3 → ∃ r0 r1 r2, r = [r0, r1, r2] := by
        intro r hr
        match r, hr with
        | [p, q, s], _ => exact ⟨p, q, s, rfl⟩
      obtain ⟨r0, r1, r2, hr⟩ := e3 (flatten 1 (psT fun l => 1 * sysTens exMove.sys.els .rf l ⟨1, 0, 0⟩)) (by simp [flatten, productIdx])
      simp only [addRows, firstRow, this, List.map_cons, List.map_nil, hr, List.zipWith_cons_cons, List.zipWith_nil_left]
      exact ⟨_, _, _, rfl⟩
    obtain ⟨r0, r1, r2, hr⟩ := hpot
    have hb : pyGet exMove.basis 0 = .ok [1, 0, 0] := rfl
    have hxm : exMove.xms.getLast? = some ⟨0, 0, 0⟩ := rfl
    simp only [hxm, hb, List.getD_cons_zero, List.getD_cons_succ, hx, hr, exMove_columns _ (Or.inr rfl)]
    exact ⟨_, if_pos ⟨rfl, rfl⟩⟩
  · unfold voltChange
    have hb : pyGet exMove.basis 0 = .ok [1, 0, 0] := rfl
    have hxm : exMove.xms.getLast? = some ⟨0, 0, 0⟩ := rfl
    have hcv : exMove.curves.getLast? = some [1, 2, 3] := rfl
    have hk : pyGet [(1 : ℝ), 2, 3] 0 = .ok 1 := rfl
    simp only [hxm, hb, hcv, hk, Bool.false_eq_true, if_false, exMove_columns _ (Or.inl rfl)]
    exact ⟨_, if_pos ⟨rfl, rfl⟩⟩

end Electrode
