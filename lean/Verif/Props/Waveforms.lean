import Verif.Model.SolveSets
import Verif.Props.Solve
import Verif.Props.VoltDeriv
import Verif.Props.Knobs
import Verif.Props.Limits
import Mathlib.Topology.ContinuousMap.Algebra
import Mathlib.Topology.Order.Lattice
import Mathlib.Topology.MetricSpace.ProperSpace.Real

/-
C146: voltages from `solve` hold an ion on a path.
-/
namespace Electrode

namespace Spec
/-- a weighted sum of derivatives of the electrical potential, each at its position -/
noncomputable def weightedSum (els : List Elec) (parts : List (ℝ × V3 × List (Fin 3))) : ℝ := (parts.map fun q => q.1 * electricalAt els .dc q.2.2 q.2.1).sum

/-- what can be demanded of the voltages at a point of the path: a derivative of the electrical potential at a position, in the frame of the trap or in another
one, or a weighted sum of derivatives (equal to, at least, at most), or bounds of the voltages (of one electrode or of all) -/
inductive Want
  | deriv (x : V3) (l : List (Fin 3)) (equal atLeast atMost : Option ℝ)
  | turned (x : V3) (frame : Matrix (Fin 3) (Fin 3) ℝ) (l : List (Fin 3)) (equal atLeast atMost : Option ℝ)
  | sum (parts : List (ℝ × V3 × List (Fin 3))) (equal atLeast atMost : Option ℝ)
  | volts (atLeast atMost : Option ℝ) (index : Option Int)

/-- the constraint a user constructs for it: `PotentialObjective(x, "..", rotation=, offset=, min=, max=)`, a `MultiPotentialObjective` whose components have the
weights as `value`s, or `PatternRangeConstraint(min, max, index)` -/
def Want.ctr : Want → Py Ctr
  | .turned x r l o a b => (potentialObjective x (l.map axisLetter) (some r) ⟨none, a, b, o⟩).map .single
  | .sum parts o a b => (pySeq (parts.map fun q => potentialObjective q.2.1 (q.2.2.map axisLetter) none ⟨some q.1, none, none, none⟩)).map fun comps =>
      .single (.multi comps ⟨none, a, b, o⟩)
  | .deriv x l o a b => (potentialObjective x (l.map axisLetter) none ⟨none, a, b, o⟩).map .single
  | .volts a b i => .ok (.range a b i)

/-- the voltages `v` of the electrodes do it -/
def Want.met (s : List Elec) (v : List ℝ) : Want → Prop
  | .deriv x l o a b => (∀ m, o = some m → electricalAt (withDc s v) .dc l x = m) ∧ (∀ m, a = some m → m ≤ electricalAt (withDc s v) .dc l x) ∧
      ∀ m, b = some m → electricalAt (withDc s v) .dc l x ≤ m
  | .turned x r l o a b => (∀ m, o = some m → contraction (fun ks => electricalAt (withDc s v) .dc ks x) r l = m) ∧
      (∀ m, a = some m → m ≤ contraction (fun ks => electricalAt (withDc s v) .dc ks x) r l) ∧
      ∀ m, b = some m → contraction (fun ks => electricalAt (withDc s v) .dc ks x) r l ≤ m
  | .sum parts o a b => (∀ m, o = some m → weightedSum (withDc s v) parts = m) ∧ (∀ m, a = some m → m ≤ weightedSum (withDc s v) parts) ∧
      ∀ m, b = some m → weightedSum (withDc s v) parts ≤ m
  | .volts a b i => ∀ j < s.length, selected i s.length j → (∀ m, a = some m → m ≤ v.getD j 0) ∧ ∀ m, b = some m → v.getD j 0 ≤ m

/-- derivatives the electrodes have, frames of three axes at right angles, sums of something, indices in range -/
def Want.fits (s : List Elec) : Want → Prop
  | .deriv _ l _ _ _ => l.length ≤ 5 ∧ ∀ e ∈ s, e.shape.Avail l.length
  | .turned _ r l _ _ _ => r * r.transpose = 1 ∧ l.length ≤ 5 ∧ ∀ e ∈ s, e.shape.Avail l.length
  | .sum parts _ _ _ => parts ≠ [] ∧ ∀ q ∈ parts, q.2.2.length ≤ 5 ∧ ∀ e ∈ s, e.shape.Avail q.2.2.length
  | .volts _ _ i => ∀ j, i = some j → -(s.length : Int) ≤ j ∧ j < s.length

/-- the constraints `loc` are those for what is wanted at the points of the path -/
def Demands (wants : List (List Want)) (loc : List (List Ctr)) : Prop := List.Forall₂ (List.Forall₂ fun w c => w.ctr = .ok c) wants loc

/-- row `k` of the table, as a list of voltages of the electrodes -/
def rowOf {n : Nat} (u : Volts n) (k : Nat) : List ℝ := List.ofFn (u.getD k 0)

/-- the table does all that is wanted, each row at its point of the path -/
def AllMet (s : List Elec) (wants : List (List Want)) (u : Volts s.length) : Prop :=
  ∀ (k : Nat) (set : List Want), wants[k]? = some set → ∀ w ∈ set, w.met s (rowOf u k)

/-- a global constraint with one of the two norms, in a form the solver accepts: no lower bound and no negative weight -/
def VDC.plain (c : VDC) : Prop := c.norm ≠ .other ∧ c.min = none ∧ 0 ≤ c.weight

/-- the difference quotients of the voltages of consecutive rows stay below the bound -/
def VDC.kept {n : Nat} (c : VDC) (u : Volts n) : Prop :=
  ∀ v ∈ voltDeriv c.order c.smooth c.delta u, ∀ m, c.max = some m → sliceNorm c.abs (match c.norm with | .inf => true | _ => false) v ≤ m

/-- the sum of the differences between rows, with the weights of the global constraints -/
noncomputable def roughness {n : Nat} (glob : List VDC) (u : Volts n) : ℝ :=
  (glob.map fun c => ((voltDeriv c.order c.smooth c.delta u).map fun v => c.weight * sliceNorm c.abs (match c.norm with | .inf => true | _ => false) v).sum).sum

/-- the solver finds an optimum if there is one -/
def FindsOptimum {n : Nat} (solver : (Volts n → ℝ) → List (Volts n → Prop) → Nat → Option (Volts n)) : Prop :=
  ∀ obj ctrs rows, (∃ u : Volts n, u.length = rows ∧ (∀ c ∈ ctrs, c u) ∧ ∀ w : Volts n, w.length = rows → (∀ c ∈ ctrs, c w) → obj u ≤ obj w) →
    ∃ u, solver obj ctrs rows = some u
end Spec
open Spec Knob

namespace Wave

/-- the components of a sum and their functionals -/
theorem parts_ok (s : List Elec) (parts : List (ℝ × V3 × List (Fin 3))) (hf : ∀ q ∈ parts, q.2.2.length ≤ 5 ∧ ∀ e ∈ s, e.shape.Avail q.2.2.length) :
    ∃ comps cs, pySeq (parts.map fun q => potentialObjective q.2.1 (q.2.2.map axisLetter) none ⟨some q.1, none, none, none⟩) = .ok comps ∧
      comps.length = parts.length ∧ cs.length = comps.length ∧ (∀ c ∈ cs, c.length = s.length) ∧
      (∀ (j : Nat) (o : SVC) (c : List ℝ), comps[j]? = some o → cs[j]? = some c → o.sv.value ≠ none → o.get s = .ok (some c)) ∧
      (∀ o ∈ comps, o.sv.value ≠ none) ∧
      ∀ v : List ℝ, v.length = s.length → weighted (List.zipWith (fun o c => (o.sv.value, c)) comps cs) v = weightedSum (withDc s v) parts := by
  induction parts with
  | nil => exact ⟨[], [], rfl, rfl, rfl, by simp, by simp, by simp, fun v _ => by simp [weighted, weightedSum]⟩
  | cons q parts ih =>
    obtain ⟨comps, cs, h1, h2, h3, h4, h5, h6, h7⟩ := ih fun q hq => hf q (by simp [hq])
    obtain ⟨hl, ha⟩ := hf q (by simp)
    obtain ⟨ind, hi⟩ := Knob.individual_some s q.2.1 q.2.2.length ha
    obtain ⟨p, co, g1, g2, g3, g4, g5⟩ := c48_derivative s q.2.1 q.2.2 hl ⟨some q.1, none, none, none⟩ ind hi
    refine ⟨p :: comps, co :: cs, by simp [pySeq, g1, h1], by simp [h2], by simp [h3], ?_, ?_, ?_, fun v hv => ?_⟩
    · intro c hc
      rcases List.mem_cons.1 hc with rfl | hc
      · exact g4
      · exact h4 c hc
    · intro j o c ho hc hne
      cases j with
      | zero =>
        simp only [List.getElem?_cons_zero, Option.some.injEq] at ho hc
        subst ho hc
        exact g3
      | succ j => exact h5 j o c (by simpa using ho) (by simpa using hc) hne
    · intro o ho
      rcases List.mem_cons.1 ho with rfl | ho
      · rw [g2]; simp
      · exact h6 o ho
    · simp only [List.zipWith_cons_cons, g2, weighted, h7 v hv, weightedSum, List.map_cons, List.sum_cons]
      rw [← g5 v hv]
      try rfl

/-- one wanted thing: the constraint evaluates, has no terms, and means what is wanted -/
theorem one_ok (s : List Elec) (w : Want) (c : Ctr) (h : w.ctr = .ok c) (hf : w.fits s) :
    c.objective s = .ok [] ∧ ∃ ctrs, c.constraints s = .ok ctrs ∧ ∀ v : List ℝ, v.length = s.length → ((∀ q ∈ ctrs, q.sat v) ↔ w.met s v) := by
  cases w with
  | deriv x l o a b =>
    obtain ⟨hl, ha⟩ := hf
    obtain ⟨ind, hi⟩ := Knob.individual_some s x l.length ha
    obtain ⟨p, co, h1, h2, h3, -, h5⟩ := c48_derivative s x l hl ⟨none, a, b, o⟩ ind hi
    simp only [Want.ctr, h1, Except.map, Except.ok.injEq] at h
    subst h
    obtain ⟨ctrs, h6, h7⟩ := c47_constraints s p co h3
    refine ⟨(c47_objective s p _ h3).1 (by rw [h2]), ctrs, h6, fun v hv => ?_⟩
    rw [← fulfils_iff, h7 v, h2, h5 v hv]
    exact Iff.rfl
  | turned x r l o a b =>
    obtain ⟨hr, hl, ha⟩ := hf
    obtain ⟨ind, hi⟩ := Knob.individual_some s x l.length ha
    obtain ⟨p, co, h1, h2, h3, -, h5⟩ := c48_rotated s x l hl r hr ⟨none, a, b, o⟩ ind hi
    simp only [Want.ctr, h1, Except.map, Except.ok.injEq] at h
    subst h
    obtain ⟨ctrs, h6, h7⟩ := c47_constraints s p co h3
    refine ⟨(c47_objective s p _ h3).1 (by rw [h2]), ctrs, h6, fun v hv => ?_⟩
    rw [← fulfils_iff, h7 v, h2, h5 v hv]
    exact Iff.rfl
  | sum parts o a b =>
    obtain ⟨hne, hq⟩ := hf
    obtain ⟨comps, cs, h1, h2, h3, h4, h5, h6, h7⟩ := parts_ok s parts hq
    simp only [Want.ctr, h1, Except.map, Except.ok.injEq] at h
    subst h
    obtain ⟨p, hp⟩ := List.exists_mem_of_ne_nil comps (by rintro rfl; exact hne (List.length_eq_zero_iff.1 h2.symm))
    obtain ⟨co, k1, -, k3⟩ := c49_weighted_sum s comps ⟨none, a, b, o⟩ cs h3 h4 h5 ⟨p, hp, h6 p hp⟩
    obtain ⟨ctrs, k6, k7⟩ := c47_constraints s (.multi comps ⟨none, a, b, o⟩) co k1
    refine ⟨(c47_objective s (.multi comps ⟨none, a, b, o⟩) _ k1).1 rfl, ctrs, k6, fun v hv => ?_⟩
    rw [← fulfils_iff, k7 v, k3 v, h7 v hv]
    exact Iff.rfl
  | volts a b i =>
    simp only [Want.ctr, Except.ok.injEq] at h
    subst h
    refine ⟨rfl, ?_⟩
    rcases c46_index a b i s.length with ⟨⟨ctrs, h1⟩, -⟩ | ⟨-, j, rfl, h2⟩
    · refine ⟨ctrs, h1, fun v hv => ?_⟩
      rw [← fulfils_iff, c46_range a b i s.length ctrs h1 v hv]
      exact Iff.rfl
    · have := hf j rfl
      omega

theorem set_ok (s : List Elec) (ws : List Want) (cs : List Ctr) (h : List.Forall₂ (fun w c => w.ctr = .ok c) ws cs) (hf : ∀ w ∈ ws, w.fits s) :
    ∃ gs, localSet s cs false = .ok (false, gs) ∧
      List.Forall₂ (fun w g => g.objective = [] ∧ ∀ v, (∀ q ∈ g.constraints, q v) ↔ Want.met s (List.ofFn v) w) ws gs := by
  induction h with
  | nil => exact ⟨[], rfl, .nil⟩
  | @cons w c ws cs hc _ ih =>
    obtain ⟨gs, h1, h2⟩ := ih fun w hw => hf w (by simp [hw])
    obtain ⟨h3, ctrs, h4, h5⟩ := one_ok s w c hc (hf w (by simp))
    refine ⟨⟨[], ctrs.map fun c v => c.sat (List.ofFn v)⟩ :: gs, ?_, .cons ⟨rfl, fun v => ?_⟩ h2⟩
    · simp only [localSet, h3, h4, hasArray, List.any_nil, h1]
    · simp only [List.mem_map, forall_exists_index, and_imp, forall_apply_eq_imp_iff₂]
      exact h5 _ (by simp)

theorem sets_ok (s : List Elec) (wants : List (List Want)) (loc : List (List Ctr)) (h : Demands wants loc) (hf : ∀ ws ∈ wants, ∀ w ∈ ws, w.fits s) :
    ∃ gens, localSets s loc false = .ok (false, gens) ∧
      List.Forall₂ (List.Forall₂ fun w g => g.objective = [] ∧ ∀ v, (∀ q ∈ g.constraints, q v) ↔ Want.met s (List.ofFn v) w) wants gens := by
  unfold Demands at h
  induction h with
  | nil => exact ⟨[], rfl, .nil⟩
  | @cons ws cs wants loc hc _ ih =>
    obtain ⟨gens, h1, h2⟩ := ih fun w hw => hf w (by simp [hw])
    obtain ⟨gs, h3, h4⟩ := set_ok s ws cs hc (hf ws (by simp))
    exact ⟨gs :: gens, by simp only [localSets, h3, h1], .cons h4 h2⟩

theorem inf_of (c : VDC) (hc : VDC.plain c) : c.norm = if (match c.norm with | .inf => true | _ => false) = true then .inf else .one := by
  have := hc.1
  revert this
  cases c.norm <;> simp

theorem accepted_ok (c : VDC) (hc : VDC.plain c) (N : Nat) : c.accepted N = .ok () := by
  obtain ⟨h1, h2, h3⟩ := hc
  unfold VDC.accepted
  by_cases h0 : (voltDeriv c.order c.smooth c.delta (List.replicate N (0 : ℝ))).length = 0
  · rw [if_pos h0]
  · rw [if_neg h0]
    revert h1
    cases c.norm <;> simp [h2, h3]

theorem forall₂_at {α β : Type*} {R : α → β → Prop} {l : List α} {r : List β} (h : List.Forall₂ R l r) (k : Nat) :
    (l[k]? = none ∧ r[k]? = none) ∨ ∃ a b, l[k]? = some a ∧ r[k]? = some b ∧ R a b := by
  induction h generalizing k with
  | nil => exact .inl ⟨rfl, rfl⟩
  | cons a _ ih =>
    cases k with
    | zero => exact .inr ⟨_, _, rfl, rfl, a⟩
    | succ k => simpa using ih k

theorem forall₂_all {α β : Type*} {R : α → β → Prop} {l : List α} {r : List β} (h : List.Forall₂ R l r) {P : α → Prop} {Q : β → Prop}
    (hPQ : ∀ a b, R a b → (P a ↔ Q b)) : (∀ a ∈ l, P a) ↔ ∀ b ∈ r, Q b := by
  induction h with
  | nil => simp
  | cons a _ ih => simp [ih, hPQ _ _ a]

theorem satisfies_iff (s : List Elec) (wants : List (List Want)) (gens : List (List (Gen (Fin s.length → ℝ))))
    (h : List.Forall₂ (List.Forall₂ fun w g => g.objective = [] ∧ ∀ v, (∀ q ∈ g.constraints, q v) ↔ Want.met s (List.ofFn v) w) wants gens)
    (glob : List VDC) (hg : ∀ c ∈ glob, VDC.plain c) (u : Volts s.length) (hu : u.length = wants.length) :
    Satisfies gens (glob.map fun c => c.gen wants.length) u ↔ AllMet s wants u ∧ ∀ c ∈ glob, VDC.kept c u := by
  unfold Satisfies
  refine and_congr ?_ ?_
  · clear hu
    have key : ∀ (k : Nat), (∀ set, gens[k]? = some set → ∀ cj ∈ set, ∀ c ∈ cj.constraints, c (u.getD k 0)) ↔
        ∀ set, wants[k]? = some set → ∀ w ∈ set, w.met s (rowOf u k) := by
      intro k
      rcases forall₂_at h k with ⟨h1, h2⟩ | ⟨ws, gs, h1, h2, h3⟩
      · simp [h1, h2]
      · rw [h1, h2]
        simp only [Option.some.injEq, forall_eq']
        exact (forall₂_all h3 fun w g hwg => (hwg.2 (u.getD k 0)).symm).symm
    exact forall_congr' key
  · simp only [List.mem_map, forall_exists_index, and_imp, forall_apply_eq_imp_iff₂]
    refine forall₂_congr fun c hc => ?_
    rw [(c50_bounds c _ (inf_of c (hg c hc)) wants.length u hu).1]
    unfold VDC.kept
    simp only [(hg c hc).2.1, reduceCtorEq, false_imp_iff, implies_true, and_true]

theorem solve_split (s : List Elec) (solver : (Volts s.length → ℝ) → List (Volts s.length → Prop) → Nat → Option (Volts s.length))
    (wants : List (List Want)) (loc : List (List Ctr)) (h : Demands wants loc) (hf : ∀ ws ∈ wants, ∀ w ∈ ws, w.fits s)
    (glob : List VDC) (hg : ∀ c ∈ glob, VDC.plain c) : ∃ gens : List (List (Gen (Fin s.length → ℝ))), gens.length = wants.length ∧
      solveSets s solver loc glob = solve solver gens (glob.map fun c => c.gen wants.length) ∧
      (∀ g ∈ gens.flatten, g.objective = []) ∧
      ∀ u : Volts s.length, u.length = wants.length →
        (Satisfies gens (glob.map fun c => c.gen wants.length) u ↔ AllMet s wants u ∧ ∀ c ∈ glob, VDC.kept c u) := by
  obtain ⟨gens, h1, h2⟩ := sets_ok s wants loc h hf
  have hl : loc.length = wants.length := h.length_eq.symm
  refine ⟨gens, h2.length_eq.symm, ?_, fun g hgm => ?_, fun u hu => satisfies_iff s wants gens h2 glob hg u hu⟩
  · unfold solveSets
    rw [h1, pySeq_map_ok glob _ (fun _ => ()) fun c hc => accepted_ok c (hg c hc) _, hl]
    simp
  · rw [List.mem_flatten] at hgm
    obtain ⟨gs, h3, h4⟩ := hgm
    obtain ⟨k, hk⟩ := List.mem_iff_getElem?.1 h3
    rcases forall₂_at h2 k with ⟨-, h5⟩ | ⟨ws, gs', -, h5, h6⟩
    · rw [hk] at h5; cases h5
    · rw [hk] at h5
      obtain rfl := Option.some.inj h5
      obtain ⟨j, hj⟩ := List.mem_iff_getElem?.1 h4
      rcases forall₂_at h6 j with ⟨-, h7⟩ | ⟨w, g', -, h7, h8⟩
      · rw [hj] at h7; cases h7
      · rw [hj] at h7
        obtain rfl := Option.some.inj h7
        exact h8.1

theorem total_rough {n : Nat} (gens : List (List (Gen (Fin n → ℝ)))) (h : ∀ g ∈ gens.flatten, g.objective = []) (glob : List VDC)
    (hg : ∀ c ∈ glob, VDC.plain c) (N : Nat) (u : Volts n) (hu : u.length = N) :
    totalObjective gens (glob.map fun c => c.gen N) u = roughness glob u := by
  unfold totalObjective roughness
  have e1 : (gens.zipIdx.map fun q => (q.1.map fun cj => (cj.objective.map fun t => t.1 (u.getD q.2 0) * t.2).sum).sum).sum = 0 := by
    apply List.sum_eq_zero
    intro x hx
    rw [List.mem_map] at hx
    obtain ⟨q, hq, rfl⟩ := hx
    apply List.sum_eq_zero
    intro y hy
    rw [List.mem_map] at hy
    obtain ⟨g, hgm, rfl⟩ := hy
    rw [h g (List.mem_flatten.2 ⟨q.1, List.fst_mem_of_mem_zipIdx hq, hgm⟩)]
    rfl
  rw [e1, zero_add, List.map_map]
  congr 1
  refine List.map_congr_left fun c hc => ?_
  rw [Function.comp_apply, (c50_bounds c _ (inf_of c (hg c hc)) N u hu).2]
  congr 1
  exact List.map_congr_left fun v _ => mul_comm _ _

theorem step_mem {n : Nat} (smooth : Bool) (u : Volts n) (k : Nat) (hk : k + 1 < u.length) :
    u.getD (k + 1) 0 - u.getD k 0 ∈ voltDeriv 1 smooth 1 u := by
  unfold voltDeriv
  simp only [diffLoop, Nat.cast_one, one_pow, div_one, one_smul, List.map_id', Nat.zero_mod, and_true]
  cases smooth with
  | false =>
    simp only [Bool.false_eq_true, if_false, diffStep, List.mem_map, List.mem_range]
    exact ⟨k, by omega, rfl⟩
  | true =>
    simp only [if_true, diffStep, List.mem_map, List.mem_range]
    have hl : ((u.drop 1).take 1).reverse.length = 1 := by simp; omega
    have e : ∀ i, i < u.length → (mirrorExt 1 u).getD (i + 1) 0 = u.getD i 0 := fun i hi => by
      unfold mirrorExt
      rw [List.append_assoc, List.getD_append_right _ _ _ _ (by omega), hl, Nat.add_sub_cancel, List.getD_append _ _ _ _ hi]
    refine ⟨k + 1, ?_, by rw [e _ hk, e _ (by omega)]⟩
    unfold mirrorExt
    simp only [List.length_append, hl, List.length_take, List.length_reverse, List.length_dropLast]
    omega

theorem entry_le {n : Nat} (inf : Bool) (v : Fin n → ℝ) (j : Fin n) : |v j| ≤ sliceNorm true inf v := by
  unfold sliceNorm
  cases inf with
  | true =>
    simp only [if_true]
    exact le_ciSup (f := fun k => |v k|) (Set.finite_range _).bddAbove j
  | false =>
    simp only [Bool.false_eq_true, if_true, if_false]
    exact Finset.single_le_sum (f := fun k => |v k|) (fun _ _ => abs_nonneg _) (Finset.mem_univ j)

end Wave
open Wave

/-- **C146.** Row `k` of the voltages `solve` returns does what is wanted at point `k` of the path, the differences between rows stay below the bounds, and the
returned number is the smallest possible value of the weighted sum of these differences. -/
theorem c146_met (s : List Elec) (solver : (Volts s.length → ℝ) → List (Volts s.length → Prop) → Nat → Option (Volts s.length)) (hs : Minimises solver)
    (wants : List (List Want)) (loc : List (List Ctr)) (h : Demands wants loc) (hf : ∀ ws ∈ wants, ∀ w ∈ ws, w.fits s)
    (glob : List VDC) (hg : ∀ c ∈ glob, VDC.plain c) (u : Volts s.length) (c : ℝ) (hsol : solveSets s solver loc glob = .ok (u, c)) :
    u.length = wants.length ∧ AllMet s wants u ∧ (∀ c ∈ glob, VDC.kept c u) ∧ c = roughness glob u ∧
      ∀ w : Volts s.length, w.length = wants.length → AllMet s wants w → (∀ c ∈ glob, VDC.kept c w) → c ≤ roughness glob w := by
  obtain ⟨gens, h1, h2, h3, h4⟩ := solve_split s solver wants loc h hf glob hg
  rw [h2] at hsol
  obtain ⟨k1, k2, k3, k4⟩ := c40_solution_partial solver hs gens _ (fun g hgm => h3 g (List.dropLast_subset _ hgm)) u c hsol
  rw [h1] at k1
  obtain ⟨m1, m2⟩ := (h4 u k1).1 k2
  refine ⟨k1, m1, m2, by rw [k3, total_rough gens h3 glob hg wants.length u k1], fun w hw w1 w2 => ?_⟩
  rw [← total_rough gens h3 glob hg wants.length w hw]
  exact k4 w (by rw [hw, h1]) ((h4 w hw).2 ⟨w1, w2⟩)

/-- **C146.** If at each point of the path the wanted static field balances the pseudopotential, each point is an equilibrium of the combined potential
with its row of voltages. -/
theorem c146_equilibrium (s : List Elec) (solver : (Volts s.length → ℝ) → List (Volts s.length → Prop) → Nat → Option (Volts s.length)) (hs : Minimises solver)
    (wants : List (List Want)) (loc : List (List Ctr)) (h : Demands wants loc) (hf : ∀ ws ∈ wants, ∀ w ∈ ws, w.fits s)
    (glob : List VDC) (hg : ∀ c ∈ glob, VDC.plain c) (u : Volts s.length) (c : ℝ) (hsol : solveSets s solver loc glob = .ok (u, c))
    (rfs : ℝ) (k : Nat) (ws : List Want) (hk : wants[k]? = some ws) (x : Fin 3 → ℝ) (hx : offSystem s (toV3 x))
    (hb : ∀ a, Want.deriv (toV3 x) [a] (some (-pseudoAt ⟨s, some rfs⟩ [a] (toV3 x))) none none ∈ ws) :
    slopeAt ⟨withDc s (rowOf u k), some rfs⟩ x = 0 := by
  obtain ⟨-, h2, -⟩ := c146_met s solver hs wants loc h hf glob hg u c hsol
  have hlen : (rowOf u k).length = s.length := by simp [rowOf]
  have hoff := off_withDc s (rowOf u k) hx
  funext a
  have h3 := (h2 k ws hk _ (hb a)).1 _ rfl
  rw [electricalAt_eq _ .dc [a] (by simp) _ (avail_of_off hoff _ _), pseudoAt_eq s rfs [a] (by simp) _ fun i _ _ => avail_of_off hx _ _] at h3
  show totalAt _ [a] _ = 0
  rw [total_split _ rfs [a] (by simp) _ fun _ _ => avail_of_off hoff _ _, h3]
  simp only [rf_withDc s _ hlen]
  exact neg_add_cancel _

namespace Wave

theorem trap_withDc {s : List Elec} {v : List ℝ} (hv : v.length = s.length) {h : ℝ} {n : Nat} (htr : polygonTrap h n s) : polygonTrap h n (withDc s v) := fun e he => by
  have : e.shape ∈ (withDc s v).map Elec.shape := List.mem_map.2 ⟨e, he, rfl⟩
  rw [shapes_withDc s v hv] at this
  obtain ⟨e', he', h'⟩ := List.mem_map.1 this
  obtain ⟨polys, hp⟩ := htr e' he'
  exact ⟨polys, by rw [← h', hp]⟩

theorem separate_withDc {s : List Elec} {v : List ℝ} (hv : v.length = s.length) (hsep : separate s) : separate (withDc s v) := by
  unfold separate at hsep ⊢
  filter_upwards [hsep] with q hq
  have e3 : ∀ L : List Elec, L.map (fun e => |coverage q e.shape|) = (L.map Elec.shape).map fun sh => |coverage q sh| := fun L => by
    rw [List.map_map]; rfl
  rw [e3, shapes_withDc s v hv, ← e3]
  exact hq

theorem near_withDc (s : List Elec) (v w : List ℝ) (δ : ℝ) (hv : v.length = s.length) (hw : w.length = s.length)
    (hd : ∀ j < s.length, |w.getD j 0 - v.getD j 0| ≤ δ) : List.Forall₂ (nearVoltage .dc δ) (withDc s v) (withDc s w) ∧
      List.Forall₂ (fun e e' => e'.rf = e.rf) (withDc s v) (withDc s w) := by
  unfold withDc
  induction s generalizing v w with
  | nil => simp
  | cons e s ih =>
    obtain ⟨a, v, rfl⟩ : ∃ a w', v = a :: w' := List.exists_cons_of_ne_nil (by rintro rfl; simp at hv)
    obtain ⟨b, w, rfl⟩ : ∃ a w', w = a :: w' := List.exists_cons_of_ne_nil (by rintro rfl; simp at hw)
    obtain ⟨i1, i2⟩ := ih v w (by simpa using hv) (by simpa using hw) fun j hj => by simpa using hd (j + 1) (by simpa using hj)
    have := hd 0 (by simp)
    simp only [List.zipWith_cons_cons]
    exact ⟨.cons ⟨rfl, by simpa [Elec.volt] using this⟩ i1, .cons rfl i2⟩

theorem row_getD {n : Nat} (u : Volts n) (k : Nat) (j : Nat) (hj : j < n) : (rowOf u k).getD j 0 = u.getD k 0 ⟨j, hj⟩ := by
  unfold rowOf
  rw [List.getD_eq_getElem _ _ (by simpa using hj), List.getElem_ofFn]

end Wave

/-- **C146.** Between the rows: if the voltages of each electrode may differ by at most `δ` from row to row (a `VoltageDerivativeConstraint` with `order=1` and
`max=δ`), point `k` is an equilibrium with row `k` and the combined potential curves upwards by at least `lam` around it, then for all voltages on the way to the
next row there is a minimum, and it is at most `2 σ δ / (z0 lam)` from point `k`, where `σ` is the part of the way. -/
theorem c146_between (s : List Elec) (solver : (Volts s.length → ℝ) → List (Volts s.length → Prop) → Nat → Option (Volts s.length)) (hs : Minimises solver)
    (wants : List (List Want)) (loc : List (List Ctr)) (h : Demands wants loc) (hf : ∀ ws ∈ wants, ∀ w ∈ ws, w.fits s)
    (glob : List VDC) (hg : ∀ c ∈ glob, VDC.plain c) (u : Volts s.length) (c : ℝ) (hsol : solveSets s solver loc glob = .ok (u, c))
    (δ : ℝ) (h0 : 0 ≤ δ) (b : VDC) (hb : b ∈ glob) (hb1 : b.order = 1 ∧ b.delta = 1 ∧ b.abs = true ∧ b.max = some δ)
    (H : ℝ) (htr : polygonTrap H 0 s) (hsep : separate s) (rfs : ℝ) (k : Nat) (hk : k + 1 < wants.length) (x : Fin 3 → ℝ)
    (hx : slopeAt ⟨withDc s (rowOf u k), some rfs⟩ x = 0) (R : ℝ) (hR : 0 < R) (z0 : ℝ) (hz : 0 < z0) (hz0 : ∀ y ∈ rball x R, z0 ≤ y 2)
    (lam : ℝ) (hl : 0 < lam) (hst : Stiff ⟨withDc s (rowOf u k), some rfs⟩ lam (rball x R)) (hδ : 2 * δ / z0 < lam * R)
    (σ : ℝ) (hσ : 0 ≤ σ) (hσ1 : σ ≤ 1) (v : List ℝ) (hv : v = List.zipWith (fun p q => (1 - σ) * p + σ * q) (rowOf u k) (rowOf u (k + 1))) :
    (∃ x1 ∈ rball x R, slopeAt ⟨withDc s v, some rfs⟩ x1 = 0 ∧ ∀ y ∈ rball x R, valueAt ⟨withDc s v, some rfs⟩ x1 ≤ valueAt ⟨withDc s v, some rfs⟩ y) ∧
      ∀ x1 ∈ rball x R, slopeAt ⟨withDc s v, some rfs⟩ x1 = 0 → vlen (x1 - x) ≤ 2 * (σ * δ) / (z0 * lam) := by
  obtain ⟨h1, -, h3, -⟩ := c146_met s solver hs wants loc h hf glob hg u c hsol
  have h4 := h3 b hb
  unfold VDC.kept at h4
  rw [hb1.1, hb1.2.1, hb1.2.2.1] at h4
  have hlen : ∀ k, (rowOf u k).length = s.length := fun k => by simp [rowOf]
  have hvl : v.length = s.length := by rw [hv]; simp [hlen]
  have hstep := h4 _ (step_mem b.smooth u k (by omega)) δ hb1.2.2.2
  have hd : ∀ j < s.length, |v.getD j 0 - (rowOf u k).getD j 0| ≤ σ * δ := fun j hj => by
    have e1 : v.getD j 0 = (1 - σ) * u.getD k 0 ⟨j, hj⟩ + σ * u.getD (k + 1) 0 ⟨j, hj⟩ := by
      rw [← row_getD u k j hj, ← row_getD u (k + 1) j hj, hv, List.getD_eq_getElem _ _ (by simp [hlen, hj]), List.getElem_zipWith,
        List.getD_eq_getElem _ _ (by simp [hlen, hj]), List.getD_eq_getElem _ _ (by simp [hlen, hj])]
    have e2 := (entry_le _ _ ⟨j, hj⟩).trans hstep
    rw [Pi.sub_apply] at e2
    rw [e1, row_getD u k j hj, show (1 - σ) * u.getD k 0 ⟨j, hj⟩ + σ * u.getD (k + 1) 0 ⟨j, hj⟩ - u.getD k 0 ⟨j, hj⟩
      = σ * (u.getD (k + 1) 0 ⟨j, hj⟩ - u.getD k 0 ⟨j, hj⟩) by ring, abs_mul, abs_of_nonneg hσ]
    exact mul_le_mul_of_nonneg_left e2 hσ
  obtain ⟨n1, n2⟩ := near_withDc s (rowOf u k) v (σ * δ) (hlen k) hvl hd
  refine c133_minimum _ _ H (trap_withDc (hlen k) htr) (separate_withDc (hlen k) hsep) (σ * δ) (mul_nonneg hσ h0) n1 n2 rfs x R hR z0 hz hz0 lam hl hst hx
    (lt_of_le_of_lt ?_ hδ)
  gcongr
  exact mul_le_of_le_one_left h0 hσ1

end Electrode
