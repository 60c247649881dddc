import Verif.Model.Constraints
import Verif.Props.System
import Verif.Props.Tensor

/-
C46 to C49: what the pattern constraints and objectives mean.
-/
namespace Electrode
open Spec

namespace Spec
/-- the electrodes with dc voltages `v` -/
def withDc (s : List Elec) (v : List ℝ) : List Elec := List.zipWith (fun e u => { e with dc := u }) s v

/-- `Σ c_e v_e` over the electrodes -/
def pair (c v : List ℝ) : ℝ := (List.zipWith (· * ·) c v).sum

/-- the pattern fulfils all constraints -/
def Fulfils (ctrs : List LinCtr) (p : List ℝ) : Prop :=
  ∀ c ∈ ctrs, match c.rel with
    | .eq => pair c.coef p = c.bound
    | .ge => pair c.coef p ≥ c.bound
    | .le => pair c.coef p ≤ c.bound

/-- entry `j` of `n` is the one named by the (possibly negative) index, or there is no index -/
def selected (index : Option Int) (n j : Nat) : Prop :=
  match index with
  | none => True
  | some i => i = j ∨ i = (j : Int) - n
end Spec

theorem fulfils_iff (ctrs : List LinCtr) (p : List ℝ) : Fulfils ctrs p ↔ ∀ c ∈ ctrs, c.sat p := by
  unfold Fulfils
  refine forall₂_congr fun c _ => ?_
  unfold LinCtr.sat dotL pair
  cases c.rel <;> exact Iff.rfl

/-! ### C46 -/

theorem dot_unit_aux (p : List ℝ) (j m : Nat) (hj : j < p.length) :
    (List.zipWith (· * ·) ((List.range' m p.length).map fun k => if k = m + j then (1 : ℝ) else 0) p).sum = p.getD j 0 := by
  induction p generalizing j m with
  | nil => simp at hj
  | cons a p ih =>
    rw [List.length_cons, List.range'_succ]
    simp only [List.map_cons, List.zipWith_cons_cons, List.sum_cons]
    cases j with
    | zero =>
      have : ∀ q : List ℝ, ∀ m' > m, (List.zipWith (· * ·) ((List.range' m' q.length).map fun k => if k = m + 0 then (1 : ℝ) else 0) q).sum = 0 := by
        intro q
        induction q with
        | nil => simp
        | cons b q ihq =>
          intro m' hm
          rw [List.length_cons, List.range'_succ]
          simp only [List.map_cons, List.zipWith_cons_cons, List.sum_cons]
          rw [ihq (m' + 1) (by omega), if_neg (by omega)]
          simp
      rw [this p (m + 1) (by omega)]
      simp
    | succ j =>
      have h := ih j (m + 1) (by simpa using hj)
      rw [show m + 1 + j = m + (j + 1) by omega] at h
      rw [h, if_neg (by omega)]
      simp

theorem dot_unit (n j : Nat) (p : List ℝ) (hp : p.length = n) (hj : j < n) : dotL (unitRow n j) p = p.getD j 0 := by
  have := dot_unit_aux p j 0 (by omega)
  unfold dotL unitRow
  rw [List.range_eq_range', ← hp]
  simpa using this

theorem varsRel_sat (n : Nat) (sel : List Nat) (hs : ∀ j ∈ sel, j < n) (rel : Rel) (b : ℝ) (p : List ℝ) (hp : p.length = n) :
    (∀ c ∈ varsRel n sel rel b, c.sat p) ↔ ∀ j ∈ sel, rel.holds (p.getD j 0) b := by
  unfold varsRel
  simp only [List.mem_map, forall_exists_index, and_imp, forall_apply_eq_imp_iff₂]
  refine forall₂_congr fun j hj => ?_
  unfold LinCtr.sat
  rw [dot_unit n j p hp (hs j hj)]

theorem pyGetInt_range (n : Nat) (i : Int) :
    (∃ j, j < n ∧ (i = j ∨ i = (j : Int) - n) ∧ pyGetInt (List.range n) i = .ok j) ∨
      ((i < -n ∨ (n : Int) ≤ i) ∧ pyGetInt (List.range n) i = .error .indexError) := by
  unfold pyGetInt pyGet
  by_cases h0 : 0 ≤ i
  · rw [if_pos h0]
    by_cases h1 : i.toNat < n
    · left
      refine ⟨i.toNat, h1, Or.inl (by omega), ?_⟩
      rw [List.getElem?_range h1]
    · right
      refine ⟨Or.inr (by omega), ?_⟩
      rw [List.getElem?_eq_none (by simpa using h1)]
  · rw [if_neg h0, List.length_range]
    by_cases h1 : 0 ≤ i + (n : Int)
    · left
      rw [if_pos h1]
      have h2 : (i + (n : Int)).toNat < n := by omega
      refine ⟨(i + (n : Int)).toNat, h2, Or.inr (by omega), ?_⟩
      rw [List.getElem?_range h2]
    · right
      rw [if_neg h1]
      exact ⟨Or.inl (by omega), rfl⟩

theorem selectVars_mem (n : Nat) (index : Option Int) (sel : List Nat) (h : selectVars n index = .ok sel) (j : Nat) :
    j ∈ sel ↔ j < n ∧ selected index n j := by
  cases index with
  | none =>
    simp only [selectVars, Except.ok.injEq] at h
    subst h
    simp [selected]
  | some i =>
    rcases pyGetInt_range n i with ⟨k, hk, hi, he⟩ | ⟨_, he⟩
    · simp only [selectVars, he, Except.map, Except.ok.injEq] at h
      subst h
      simp only [selected, List.mem_singleton]
      constructor
      · rintro rfl; exact ⟨hk, hi⟩
      · rintro ⟨h1, h2⟩; omega
    · simp [selectVars, he, Except.map] at h

/-- C46: a pattern fulfils the constraints generated by `PatternRangeConstraint` exactly if all selected
entries lie in the range; a bound that is `None` does not restrict. -/
theorem c46_range (a b : Option ℝ) (index : Option Int) (n : Nat) (ctrs : List LinCtr)
    (h : rangeConstraints a b index n = .ok ctrs) (p : List ℝ) (hp : p.length = n) :
    Fulfils ctrs p ↔ ∀ j < n, selected index n j →
      (∀ m, a = some m → m ≤ p.getD j 0) ∧ (∀ m, b = some m → p.getD j 0 ≤ m) := by
  rw [fulfils_iff]
  unfold rangeConstraints at h
  cases hs : selectVars n index with
  | error e => simp [hs] at h
  | ok sel =>
    simp only [hs, Except.ok.injEq] at h
    subst h
    have hm := selectVars_mem n index sel hs
    have hlt : ∀ j ∈ sel, j < n := fun j hj => ((hm j).1 hj).1
    have hall : (∀ j < n, selected index n j → (∀ m, a = some m → m ≤ p.getD j 0) ∧ (∀ m, b = some m → p.getD j 0 ≤ m)) ↔
        ∀ j ∈ sel, (∀ m, a = some m → m ≤ p.getD j 0) ∧ (∀ m, b = some m → p.getD j 0 ≤ m) := by
      constructor
      · intro H j hj; exact H j ((hm j).1 hj).1 ((hm j).1 hj).2
      · intro H j h1 h2; exact H j ((hm j).2 ⟨h1, h2⟩)
    rw [hall]
    cases a with
    | none =>
      cases b with
      | none => simp
      | some b =>
        simp only
        rw [varsRel_sat n sel hlt _ _ p hp]
        simp [Rel.holds]
    | some a =>
      cases b with
      | none =>
        simp only
        rw [varsRel_sat n sel hlt _ _ p hp]
        simp [Rel.holds]
      | some b =>
        simp only
        split
        · next hab =>
          subst hab
          rw [varsRel_sat n sel hlt _ _ p hp]
          simp only [Rel.holds, Option.some.injEq, forall_eq']
          refine forall₂_congr fun j _ => ⟨fun h => ⟨h.ge, h.le⟩, fun h => le_antisymm h.2 h.1⟩
        · simp only [List.mem_append, or_imp, forall_and]
          rw [varsRel_sat n sel hlt _ _ p hp, varsRel_sat n sel hlt _ _ p hp]
          simp [Rel.holds]

/-- C46: the constraints are generated unless the index is out of range, which raises `IndexError`. -/
theorem c46_index (a b : Option ℝ) (index : Option Int) (n : Nat) :
    (∃ ctrs, rangeConstraints a b index n = .ok ctrs) ∧ (∀ i, index = some i → -(n : Int) ≤ i ∧ i < n) ∨
    rangeConstraints a b index n = .error .indexError ∧ ∃ i, index = some i ∧ (i < -(n : Int) ∨ (n : Int) ≤ i) := by
  cases index with
  | none => exact Or.inl ⟨⟨_, rfl⟩, by simp⟩
  | some i =>
    rcases pyGetInt_range n i with ⟨k, hk, hi, he⟩ | ⟨hi, he⟩
    · left
      refine ⟨⟨_, by simp only [rangeConstraints, selectVars, he, Except.map]; rfl⟩, ?_⟩
      rintro _ ⟨rfl⟩
      omega
    · right
      refine ⟨by simp [rangeConstraints, selectVars, he, Except.map], i, rfl, hi⟩

/-- the last of three electrodes between -1 and 2 -/
example : ∃ ctrs, rangeConstraints (some (-1)) (some 2) (some (-1)) 3 = .ok ctrs ∧
    Fulfils ctrs [7, 8, 1] ∧ ¬ Fulfils ctrs [0, 0, 3] := by
  rcases c46_index (some (-1)) (some 2) (some (-1)) 3 with ⟨⟨ctrs, h⟩, _⟩ | ⟨_, i, hi, h⟩
  · refine ⟨ctrs, h, ?_, ?_⟩
    · rw [c46_range _ _ _ _ _ h _ rfl]
      intro j hj hsel
      have : j = 2 := by simp only [selected] at hsel; omega
      subst this
      constructor <;> (intro m hm; simp at hm; subst hm; norm_num)
    · rw [c46_range _ _ _ _ _ h _ rfl]
      intro H
      have := (H 2 (by norm_num) (Or.inr (by norm_num))).2 2 rfl
      norm_num at this
  · simp at hi; omega

/-! ### C47 -/

theorem boundCtr_sat (c : List ℝ) (rel : Rel) (b : Option ℝ) (p : List ℝ) :
    (∀ k ∈ boundCtr c rel b, k.sat p) ↔ ∀ m, b = some m → rel.holds (dotL c p) m := by
  cases b with
  | none => simp [boundCtr]
  | some m => simp [boundCtr, LinCtr.sat]

/-- C47: a pattern fulfils the constraints generated by a potential objective exactly if the functional
`get` of the pattern equals `offset`, is at least `min` and at most `max`, as far as these are given. -/
theorem c47_constraints (s : List Elec) (o : SVC) (c : List ℝ) (h : o.get s = .ok (some c)) :
    ∃ ctrs, o.constraints s = .ok ctrs ∧ ∀ p, Fulfils ctrs p ↔
      (∀ m, o.sv.offset = some m → pair c p = m) ∧ (∀ m, o.sv.min = some m → m ≤ pair c p) ∧
      (∀ m, o.sv.max = some m → pair c p ≤ m) := by
  unfold SVC.constraints
  simp only [h]
  split
  · refine ⟨_, rfl, fun p => ?_⟩
    rw [fulfils_iff]
    simp only [List.mem_append, or_imp, forall_and]
    rw [boundCtr_sat, boundCtr_sat, boundCtr_sat]
    simp only [Rel.holds, dotL, pair, and_assoc]
  · next hn =>
    refine ⟨[], rfl, fun p => ?_⟩
    simp only [not_or, Bool.not_eq_true, Option.isSome_eq_false_iff, Option.isNone_iff_eq_none] at hn
    simp [Fulfils, hn.1, hn.2.1, hn.2.2]

/-- C47: exactly if `value` is given, the functional with that value becomes a row of the objective. -/
theorem c47_objective (s : List Elec) (o : SVC) (c : Option (List ℝ)) (h : o.get s = .ok c) :
    (o.sv.value = none → o.objective s = .ok []) ∧ ∀ v, o.sv.value = some v → o.objective s = .ok [(c, v)] := by
  unfold SVC.objective
  constructor
  · intro hv; rw [hv]
  · intro v hv; simp only [hv, h, Except.map]

/-- C47: an objective without value and bounds has no effect at all. -/
theorem c47_unused (s : List Elec) (o : SVC) (h : o.sv = ⟨none, none, none, none⟩) :
    o.objective s = .ok [] ∧ o.constraints s = .ok [] := by
  unfold SVC.objective SVC.constraints
  rw [h]
  simp

/-! ### C48 -/

theorem reducedEntry_eq (l : Idx) (hl : l.length ≤ 5) : ∃ r, derivToReducedIdx (l.map axisLetter) = .ok r ∧
    ∀ c : List ℝ, c.length = 2 * l.length + 1 → reducedEntry c r = .ok (entry (fullOf l.length c) l) := by
  have key : ∀ c : List ℝ, c.length = 2 * l.length + 1 →
      ∃ r, derivToReducedIdx (l.map axisLetter) = .ok r ∧ reducedEntry c r = .ok (entry (fullOf l.length c) l) := by
    intro c hc
    rcases c07_deriv_to_reduced_idx l hl c _ hc (expandTensor_full l.length (by omega) c hc) with
      ⟨i, h1, h2⟩ | ⟨i, j, a, b, h1, h2, h3, h4⟩
    · exact ⟨_, h1, h2⟩
    · refine ⟨_, h1, ?_⟩
      simp only [reducedEntry, h2, h3, h4]
      congr 1
      ring
  obtain ⟨r, hr, _⟩ := key (List.replicate (2 * l.length + 1) 0) (by simp)
  refine ⟨r, hr, fun c hc => ?_⟩
  obtain ⟨r', hr', he⟩ := key c hc
  rw [hr] at hr'
  injection hr' with hr'
  subst hr'
  exact he

theorem entry_flatten' (k : Nat) (t : NArr ℝ) (l : Idx) (hl : l.length = k) : entry (flatten k t) l = t l := by
  have := toNArr_flatten k t l hl
  unfold toNArr at this
  rw [idxToNidx_eq] at this
  exact this

theorem rotateRow_eq (k : Nat) (hk : k ≤ 5) (r : Matrix Axis Axis ℝ) (hr : r * r.transpose = 1) (c : List ℝ)
    (hc : c.length = 2 * k + 1) : ∃ c', rotateRow k r c = .ok c' ∧ c'.length = 2 * k + 1 ∧
      ∀ l : Idx, l.length = k → entry (fullOf k c') l = contractRec r (entry (fullOf k c)) l := by
  unfold rotateRow
  rw [expandTensor_full k (by omega) c hc]
  simp only
  set t := rotateTensor k (toNArr (fullOf k c)) r (some k) with ht
  have he : ∀ l : Idx, l.length = k → t l = contractRec r (entry (fullOf k c)) l := by
    intro l hl
    have hn : toNArr (fullOf k c) = entry (fullOf k c) := by
      funext idx; unfold toNArr entry; rw [idxToNidx_eq]
    rcases Nat.eq_zero_or_pos k with rfl | h1
    · obtain rfl := List.length_eq_zero_iff.1 hl
      rw [ht, hn]
      rfl
    · have := c08_rotate_order k k h1 (toNArr (fullOf k c)) r [] l hl (by simp)
      rw [List.nil_append] at this
      rw [ht, this, contractRec_eq, hn]
      rfl
  have hlen : (flatten k t).length = 3 ^ k := by
    unfold flatten; rw [productIdx_eq]; simp [tuples_length]
  rw [selectTensor_sel k (by omega) _ hlen]
  refine ⟨_, rfl, by simp [selOf], ?_⟩
  have hs : Spec.Symmetric k (entry (flatten k t)) := by
    intro l l' hl hp
    have hl' : l'.length = k := by rw [← hp.length_eq]; exact hl
    rw [entry_flatten' k t l hl, entry_flatten' k t l' hl', he l hl, he l' hl']
    exact contractRec_symmetric r k _ (fullOf_symmetric k c) l l' hl hp
  have htr : Traceless k (entry (flatten k t)) := by
    intro a b d hl
    have := contractRec_traceless r hr k _ (fullOf_symmetric k c) (fullOf_traceless k (by omega) c hc) a b d hl
    rw [← this]
    apply Finset.sum_congr rfl
    intro i _
    have hl' : (a ++ i :: (b ++ i :: d)).length = k := by simp; omega
    rw [entry_flatten' k t _ hl', he _ hl']
  intro l hl
  rw [fullOf_selOf k (by omega) _ hlen hs htr, entry_flatten' k t l hl, he l hl]

/-- the derivative row of one electrode at one volt -/
noncomputable def unitRowOf (e : Elec) (d : Nat) (x : V3) : List ℝ := (List.range (2 * d + 1)).map fun i => e.shape.contrib d x i

theorem entry_unitRowOf (e : Elec) (x : V3) (l : Idx) :
    entry (fullOf l.length (unitRowOf e l.length x)) l = tens (fun k i p => e.shape.contrib k p i) l.length l x := by
  rw [entry_fullOf _ _ _ rfl]
  rfl

/-- dc voltages set: expanded potential as a sum over the electrodes -/
theorem withDc_tens (s : List Elec) (v : List ℝ) (l : Idx) (x : V3) :
    sysTens (withDc s v) .dc l x
      = (List.zipWith (fun e u => u * tens (fun k i p => Shape.contrib e.shape k p i) l.length l x) s v).sum := by
  rw [sysTens_eq]
  unfold withDc
  rw [List.map_zipWith]
  rfl

theorem withDc_avail (s : List Elec) (v : List ℝ) (d : Nat) (typ : VTyp) (h : ∀ e ∈ s, e.shape.Avail d) :
    AvailAll (withDc s v) d typ := by
  intro e he _
  unfold withDc at he
  rw [← List.map_uncurry_zip_eq_zipWith, List.mem_map] at he
  obtain ⟨q, hq, rfl⟩ := he
  exact h q.1 (List.of_mem_zip hq).1

theorem electricalAt_withDc (s : List Elec) (v : List ℝ) (l : Idx) (hl : l.length ≤ 5) (x : V3)
    (h : ∀ e ∈ s, e.shape.Avail l.length) :
    electricalAt (withDc s v) .dc l x
      = (List.zipWith (fun e u => u * tens (fun k i p => Shape.contrib e.shape k p i) l.length l x) s v).sum := by
  unfold electricalAt
  rw [electrical_expand_eq _ _ _ (by omega) _ (withDc_avail s v l.length .dc h), ← withDc_tens]
  simp only [entryOf, List.map_cons, List.map_nil, List.getD_cons_zero]
  exact entry_flatten' _ _ l rfl

theorem individual_one (s : List Elec) (x : V3) (d : Nat) (ind : List (List (List ℝ)))
    (h : individualPotential s [x] d = .ok ind) :
    (∀ e ∈ s, e.shape.Avail d) ∧ ind = s.map fun e => [unitRowOf e d x] := by
  obtain ⟨ha, rfl⟩ := individual_eq s [x] d ind h
  exact ⟨ha, rfl⟩

theorem potGet_eq (s : List Elec) (x : V3) (l : Idx) (hl : l.length ≤ 5) (rot : Option (Matrix Axis Axis ℝ))
    (hr : ∀ r, rot = some r → r * r.transpose = 1) (ind : List (List (List ℝ)))
    (h : individualPotential s [x] l.length = .ok ind) (idx : Sel) (hidx : derivToReducedIdx (l.map axisLetter) = .ok idx) :
    potGet s x l.length idx rot = .ok (s.map fun e =>
      contractRec (rot.getD 1) (entry (fullOf l.length (unitRowOf e l.length x))) l) := by
  obtain ⟨ha, rfl⟩ := individual_one s x l.length ind h
  obtain ⟨idx', hi', hred⟩ := reducedEntry_eq l hl
  rw [hidx] at hi'
  injection hi' with hi'
  subst hi'
  unfold potGet
  rw [h]
  simp only [List.map_map]
  cases rot with
  | none =>
    rw [pySeq_map_ok s ((fun rows => rowInFrame l.length none (List.getD rows 0 [])) ∘ fun e => [unitRowOf e l.length x])
      (fun e => unitRowOf e l.length x) (fun e _ => rfl)]
    simp only [List.map_map]
    rw [pySeq_map_ok s ((fun row => reducedEntry row idx) ∘ fun e => unitRowOf e l.length x)
      (fun e => entry (fullOf l.length (unitRowOf e l.length x)) l)
      (fun e _ => hred _ (by simp [unitRowOf]))]
    simp only [Option.getD_none, contractRec_one]
  | some r =>
    have hrow : ∀ e : Elec, ∃ c', rotateRow l.length r (unitRowOf e l.length x) = .ok c' ∧ c'.length = 2 * l.length + 1 ∧
        ∀ l' : Idx, l'.length = l.length → entry (fullOf l.length c') l' = contractRec r (entry (fullOf l.length (unitRowOf e l.length x))) l' :=
      fun e => rotateRow_eq l.length hl r (hr r rfl) _ (by simp [unitRowOf])
    choose f hf1 hf2 hf3 using hrow
    rw [pySeq_map_ok s ((fun rows => rowInFrame l.length (some r) (List.getD rows 0 [])) ∘ fun e => [unitRowOf e l.length x])
      f (fun e _ => hf1 e)]
    simp only [List.map_map]
    rw [pySeq_map_ok s ((fun row => reducedEntry row idx) ∘ f) (fun e => entry (fullOf l.length (f e)) l) (fun e _ => hred _ (hf2 e))]
    congr 1
    apply List.map_congr_left
    intro e _
    rw [hf3 e l rfl]
    rfl

theorem contractRec_zero' (r : Matrix Axis Axis ℝ) (js : Idx) : contractRec r (fun _ => (0 : ℝ)) js = 0 := by
  induction js with
  | nil => rfl
  | cons j js ih => simp only [contractRec, ih]; simp

theorem contractRec_add' (r : Matrix Axis Axis ℝ) (T U : Idx → ℝ) (a : ℝ) (js : Idx) :
    contractRec r (fun l => a * T l + U l) js = a * contractRec r T js + contractRec r U js := by
  induction js generalizing T U with
  | nil => rfl
  | cons j js ih =>
    simp only [contractRec]
    have : ∀ k, contractRec r (fun l => a * T (k :: l) + U (k :: l)) js
        = a * contractRec r (fun l => T (k :: l)) js + contractRec r (fun l => U (k :: l)) js :=
      fun k => ih _ _
    simp only [this, Finset.mul_sum, ← Finset.sum_add_distrib]
    apply Finset.sum_congr rfl
    intro k _
    ring

theorem pair_contract (s : List Elec) (v : List ℝ) (r : Matrix Axis Axis ℝ) (F : Elec → Idx → ℝ) (l : Idx) :
    pair (s.map fun e => contractRec r (F e) l) v
      = contractRec r (fun ks => (List.zipWith (fun e u => u * F e ks) s v).sum) l := by
  unfold pair
  induction s generalizing v with
  | nil => simp [contractRec_zero']
  | cons e s ih =>
    cases v with
    | nil => simp [contractRec_zero']
    | cons u v =>
      simp only [List.map_cons, List.zipWith_cons_cons, List.sum_cons]
      rw [ih, contractRec_add' r (F e) (fun ks => (List.zipWith (fun e u => u * F e ks) s v).sum) u l]
      ring

theorem c48_core (s : List Elec) (x : V3) (l : Idx) (hl : l.length ≤ 5) (rot : Option (Matrix Axis Axis ℝ))
    (hr : ∀ r, rot = some r → r * r.transpose = 1) (sv : SV) (ind : List (List (List ℝ)))
    (h : individualPotential s [x] l.length = .ok ind) :
    ∃ o c, potentialObjective x (l.map axisLetter) rot sv = .ok o ∧ o.sv = sv ∧ o.get s = .ok (some c) ∧ c.length = s.length ∧
      ∀ v : List ℝ, v.length = s.length →
        pair c v = contraction (fun ks => electricalAt (withDc s v) .dc ks x) (rot.getD 1) l := by
  obtain ⟨idx, hidx, _⟩ := reducedEntry_eq l hl
  obtain ⟨ha, _⟩ := individual_one s x l.length ind h
  have hg := potGet_eq s x l hl rot hr ind h idx hidx
  refine ⟨.pot x (l.map axisLetter).length idx rot sv,
    s.map fun e => contractRec (rot.getD 1) (entry (fullOf l.length (unitRowOf e l.length x))) l,
    by simp only [potentialObjective, hidx], rfl, ?_, ?_, ?_⟩
  · simp only [SVC.get, List.length_map, hg, Except.map]
  · simp
  · intro v _
    rw [pair_contract, contractRec_eq]
    apply contractRec_congr
    intro ks hks
    rw [electricalAt_withDc s v ks (by omega) x (by rw [hks]; exact ha)]
    congr 2
    funext e u
    rw [← hks, entry_unitRowOf]

/-- C48: the functional of a `PotentialObjective` applied to voltages is the named derivative of the
electrical potential at `x` with these dc voltages. -/
theorem c48_derivative (s : List Elec) (x : V3) (l : Idx) (hl : l.length ≤ 5) (sv : SV) (ind : List (List (List ℝ)))
    (h : individualPotential s [x] l.length = .ok ind) :
    ∃ o c, potentialObjective x (l.map axisLetter) none sv = .ok o ∧ o.sv = sv ∧ o.get s = .ok (some c) ∧
      c.length = s.length ∧
      ∀ v : List ℝ, v.length = s.length → pair c v = electricalAt (withDc s v) .dc l x := by
  obtain ⟨o, c, h1, h2, h3, h4, h5⟩ := c48_core s x l hl none (by simp) sv ind h
  refine ⟨o, c, h1, h2, h3, h4, fun v hv => ?_⟩
  rw [h5 v hv, Option.getD_none, contractRec_eq, contractRec_one]

/-- C48: with a rotation it is the derivative in the rotated frame. -/
theorem c48_rotated (s : List Elec) (x : V3) (l : Idx) (hl : l.length ≤ 5) (r : Matrix Axis Axis ℝ)
    (hr : r * r.transpose = 1) (sv : SV) (ind : List (List (List ℝ)))
    (h : individualPotential s [x] l.length = .ok ind) :
    ∃ o c, potentialObjective x (l.map axisLetter) (some r) sv = .ok o ∧ o.sv = sv ∧ o.get s = .ok (some c) ∧
      c.length = s.length ∧ ∀ v : List ℝ, v.length = s.length →
        pair c v = contraction (fun ks => electricalAt (withDc s v) .dc ks x) r l :=
  c48_core s x l hl (some r) (by rintro _ ⟨rfl⟩; exact hr) sv ind h

/-- C48: names that are not words of at most five letters x, y, z are rejected when the objective is made. -/
theorem c48_bad_name (x : V3) (name : Name) (rot : Option (Matrix Axis Axis ℝ)) (sv : SV) :
    ((∃ c ∈ name, c ∉ xyz) → potentialObjective x name rot sv = .error .valueError) ∧
    (∀ l : Idx, name = l.map axisLetter → 6 ≤ name.length → potentialObjective x name rot sv = .error .indexError) := by
  constructor
  · rintro ⟨c, hc, hx⟩
    simp only [potentialObjective, derivToReducedIdx, c04_name_to_idx_error name c hc hx]
  · rintro l rfl h6
    simp only [potentialObjective, c07_too_long l (by simpa using h6)]

/-- an electrode that cannot provide the order makes `get` raise -/
theorem c48_get_error (s : List Elec) (x : V3) (order : Nat) (idx : Sel) (rot : Option (Matrix Axis Axis ℝ)) (sv : SV) (e : PyErr)
    (h : individualPotential s [x] order = .error e) : (SVC.pot x order idx rot sv).get s = .error e := by
  simp only [SVC.get, potGet, h, Except.map]

/-- a cover and a polygon electrode, second derivative -/
example : ∃ ind, individualPotential [⟨"a", 1, 0, .cover 50⟩, ⟨"b", 2, 3, .polygons [[⟨1, 1⟩, ⟨-1, 1⟩, ⟨-1, -1⟩]] 50 0⟩]
    [⟨0, 0, 1⟩] ([0, 2] : Idx).length = .ok ind := ⟨_, rfl⟩

/-! ### C49 -/

namespace Spec
/-- `Σ_k w_k c_k` of the functionals of the components that have a weight -/
def weighted : List (Option ℝ × List ℝ) → List ℝ → ℝ
  | [], _ => 0
  | (none, _) :: l, v => weighted l v
  | (some w, c) :: l, v => w * pair c v + weighted l v
end Spec

theorem pair_scale (w : ℝ) (c v : List ℝ) : pair (c.map fun a => w * a) v = w * pair c v := by
  unfold pair
  induction c generalizing v with
  | nil => simp
  | cons a c ih =>
    cases v with
    | nil => simp
    | cons u v => simp only [List.map_cons, List.zipWith_cons_cons, List.sum_cons, ih]; ring

theorem pair_addScaled (w : ℝ) (c d v : List ℝ) (h : c.length = d.length) :
    pair (List.zipWith (fun a b => a + w * b) c d) v = pair c v + w * pair d v := by
  unfold pair
  induction c generalizing d v with
  | nil => cases d with
    | nil => simp
    | cons => simp at h
  | cons a c ih =>
    cases d with
    | nil => simp at h
    | cons b d =>
      cases v with
      | nil => simp
      | cons u v =>
        simp only [List.zipWith_cons_cons, List.sum_cons]
        rw [ih d v (by simpa using h)]
        ring

theorem getAll_eq (s : List Elec) (comps : List SVC) (cs : List (List ℝ)) (n : Nat)
    (hlen : cs.length = comps.length) (hn : ∀ c ∈ cs, c.length = n)
    (h : ∀ (j : Nat) (o : SVC) (c : List ℝ), comps[j]? = some o → cs[j]? = some c → o.sv.value ≠ none → o.get s = .ok (some c))
    (acc : Option (List ℝ)) (hacc : ∀ c, acc = some c → c.length = n) :
    ∃ r, SVC.getAll s comps acc = .ok r ∧ (∀ c, r = some c → c.length = n) ∧
      (r = none ↔ acc = none ∧ ∀ o ∈ comps, o.sv.value = none) ∧
      ∀ v, pair (r.getD []) v = pair (acc.getD []) v + weighted (List.zipWith (fun o c => (SVC.sv o |>.value, c)) comps cs) v := by
  induction comps generalizing cs acc with
  | nil =>
    refine ⟨acc, rfl, hacc, by simp, fun v => ?_⟩
    simp [weighted]
  | cons o comps ih =>
    cases cs with
    | nil => simp at hlen
    | cons c cs =>
      have hc : c.length = n := hn c (by simp)
      have h' : ∀ (j : Nat) (o : SVC) (c : List ℝ), comps[j]? = some o → cs[j]? = some c → o.sv.value ≠ none → o.get s = .ok (some c) :=
        fun j o' c' h1 h2 h3 => h (j + 1) o' c' (by simpa using h1) (by simpa using h2) h3
      have hn' : ∀ c ∈ cs, c.length = n := fun c hc => hn c (by simp [hc])
      simp only [SVC.getAll]
      cases hv : o.sv.value with
      | none =>
        obtain ⟨r, h1, h2, h3, h4⟩ := ih cs (by simpa using hlen) hn' h' acc hacc
        refine ⟨r, by simpa using h1, h2, ?_, ?_⟩
        · rw [h3]; simp [hv]
        · intro v
          rw [h4 v]
          simp only [List.zipWith_cons_cons, hv, weighted]
      | some w =>
        have hg := h 0 o c rfl rfl (by simp [hv])
        simp only [hg]
        obtain ⟨r, h1, h2, h3, h4⟩ := ih cs (by simpa using hlen) hn' h' (addCoef acc w (some c)) (by
          intro c' hc'
          cases acc with
          | none => simp [addCoef] at hc'; subst hc'; simpa using hc
          | some a => simp [addCoef] at hc'; subst hc'; simp [hacc a rfl, hc])
        refine ⟨r, h1, h2, ?_, ?_⟩
        · rw [h3]
          cases acc <;> simp [addCoef, hv]
        · intro v
          rw [h4 v]
          simp only [List.zipWith_cons_cons, hv, weighted]
          cases acc with
          | none =>
            simp only [addCoef, Option.getD_some, Option.getD_none]
            rw [pair_scale]
            simp [pair]
          | some a =>
            simp only [addCoef, Option.getD_some]
            rw [pair_addScaled w a c v (by rw [hacc a rfl, hc])]
            ring

/-- C49: the functional of a `MultiPotentialObjective` is the sum of the functionals of its components,
weighted with their `value`s; components without `value` do not contribute. -/
theorem c49_weighted_sum (s : List Elec) (comps : List SVC) (sv : SV) (cs : List (List ℝ))
    (hlen : cs.length = comps.length) (hn : ∀ c ∈ cs, c.length = s.length)
    (h : ∀ (j : Nat) (o : SVC) (c : List ℝ), comps[j]? = some o → cs[j]? = some c → o.sv.value ≠ none → o.get s = .ok (some c))
    (hw : ∃ o ∈ comps, o.sv.value ≠ none) :
    ∃ c, (SVC.multi comps sv).get s = .ok (some c) ∧ c.length = s.length ∧
      ∀ v, pair c v = weighted (List.zipWith (fun o c => (o.sv.value, c)) comps cs) v := by
  obtain ⟨r, h1, h2, h3, h4⟩ := getAll_eq s comps cs s.length hlen hn h none (by simp)
  cases r with
  | none =>
    obtain ⟨o, ho, hv⟩ := hw
    exact absurd ((h3.1 rfl).2 o ho) hv
  | some c =>
    refine ⟨c, by simpa [SVC.get] using h1, h2 c rfl, fun v => ?_⟩
    have := h4 v
    simpa [pair] using this

/-- the difference of two second derivatives -/
example : ∃ c, (SVC.multi [.pot ⟨0, 0, 1⟩ 2 (.one 0) none ⟨some 1, none, none, none⟩,
    .pot ⟨0, 0, 1⟩ 2 (.one 3) none ⟨some (-1), none, none, none⟩] ⟨none, some 0, none, none⟩).get
      [⟨"a", 1, 0, .cover 50⟩] = .ok (some c) := by
  obtain ⟨o1, c1, h1, _, h3, h4, _⟩ := c48_derivative [⟨"a", 1, 0, .cover 50⟩] ⟨0, 0, 1⟩ [0, 0] (by simp)
    ⟨some 1, none, none, none⟩ _ rfl
  obtain ⟨o2, c2, k1, _, k3, k4, _⟩ := c48_derivative [⟨"a", 1, 0, .cover 50⟩] ⟨0, 0, 1⟩ [1, 1] (by simp)
    ⟨some (-1), none, none, none⟩ _ rfl
  have e1 : derivToReducedIdx ([0, 0].map axisLetter) = .ok (.one 0) := by decide
  have e2 : derivToReducedIdx ([1, 1].map axisLetter) = .ok (.one 3) := by decide
  simp only [potentialObjective, e1, Except.ok.injEq] at h1
  simp only [potentialObjective, e2, Except.ok.injEq] at k1
  subst h1 k1
  obtain ⟨c, hc, _⟩ := c49_weighted_sum [⟨"a", 1, 0, .cover 50⟩] [.pot ⟨0, 0, 1⟩ 2 (.one 0) none ⟨some 1, none, none, none⟩,
    .pot ⟨0, 0, 1⟩ 2 (.one 3) none ⟨some (-1), none, none, none⟩] ⟨none, some 0, none, none⟩ [c1, c2] rfl
    (by simp [h4, k4]) (by
      intro j o c hj hc _
      rcases j with _ | _ | j
      · simp at hj hc; subst hj hc; exact h3
      · simp at hj hc; subst hj hc; exact k3
      · simp at hj) ⟨_, List.mem_cons_self, by simp [SVC.sv]⟩
  exact ⟨c, hc⟩

end Electrode
