import Verif.Model.Constraints
import Mathlib.Data.List.GetD

/-
C40: `solve`.
-/
namespace Electrode


namespace Spec
/-- the sum of the objective terms of all constraints, at the voltage table `u` (row `k` belongs to set `k`) -/
def totalObjective {n : Nat} (loc : List (List (Gen (Fin n → ℝ)))) (glob : List (Gen (Volts n))) (u : Volts n) : ℝ :=
  (loc.zipIdx.map fun q => (q.1.map fun cj => (cj.objective.map fun t => t.1 (u.getD q.2 0) * t.2).sum).sum).sum +
  (glob.map fun ci => (ci.objective.map fun t => t.1 u * t.2).sum).sum

/-- the voltage table `u` fulfils all local constraints, each in its own row, and all global constraints -/
def Satisfies {n : Nat} (loc : List (List (Gen (Fin n → ℝ)))) (glob : List (Gen (Volts n))) (u : Volts n) : Prop :=
  (∀ (k : Nat) (set : List (Gen (Fin n → ℝ))), loc[k]? = some set →
    ∀ cj ∈ set, ∀ c ∈ cj.constraints, c (u.getD k 0)) ∧
  ∀ ci ∈ glob, ∀ c ∈ ci.constraints, c u

/-- what is assumed of the solver: a table of `rows` rows that fulfils the constraints and minimises the objective -/
def Minimises {n : Nat} (solver : (Volts n → ℝ) → List (Volts n → Prop) → Nat → Option (Volts n)) : Prop :=
  ∀ obj ctrs rows u, solver obj ctrs rows = some u →
    u.length = rows ∧ (∀ c ∈ ctrs, c u) ∧ ∀ w : Volts n, w.length = rows → (∀ c ∈ ctrs, c w) → obj u ≤ obj w
end Spec
open Spec

/-- C40, constraints: the problem handed to the solver has exactly the union of all constraints. -/
theorem c40_constraints {n : Nat} (loc : List (List (Gen (Fin n → ℝ)))) (glob : List (Gen (Volts n))) (u : Volts n) :
    (∀ c ∈ (solveProblem loc glob).2, c u) ↔ Satisfies loc glob u := by
  unfold solveProblem localCtrs Satisfies
  simp only [List.mem_append, List.mem_flatMap, List.mem_map, or_imp, forall_and]
  refine and_congr ?_ ?_
  · constructor
    · intro h k set hk cj hcj c hc
      refine h (fun u => c (u.getD k 0)) ⟨(set, k), ?_, cj, hcj, c, hc, rfl⟩
      rw [List.mem_zipIdx_iff_getElem?]
      exact hk
    · rintro h _ ⟨⟨set, k⟩, hk, cj, hcj, c, hc, rfl⟩
      rw [List.mem_zipIdx_iff_getElem?] at hk
      exact h k set hk cj hcj c hc
  · constructor
    · intro h ci hci c hc
      exact h c ⟨ci, hci, hc⟩
    · rintro h c ⟨ci, hci, hc⟩
      exact h ci hci c hc

/-- the terms of the local constraints, the first set belonging to row `k` -/
def localTotal {n : Nat} (k : Nat) (loc : List (List (Gen (Fin n → ℝ)))) (u : Volts n) : ℝ :=
  ((loc.zipIdx k).map fun q => (q.1.map fun cj => cj.sum (u.getD q.2 0)).sum).sum

theorem globFold {n : Nat} (glob : List (Gen (Volts n))) (f : Volts n → ℝ) (u : Volts n) :
    glob.foldl (fun obj ci u => obj u + ci.sum u) f u = f u + (glob.map fun ci => ci.sum u).sum := by
  induction glob generalizing f with
  | nil => simp
  | cons g glob ih => rw [List.foldl_cons, ih]; simp [add_assoc]

theorem setFold {n : Nat} (k : Nat) (ci : List (Gen (Fin n → ℝ))) (f : Volts n → ℝ) :
    ci.foldl (fun _ cj u => cj.sum (u.getD k 0)) f
      = match ci.getLast? with | none => f | some cj => fun u => cj.sum (u.getD k 0) := by
  rcases List.eq_nil_or_concat ci with rfl | ⟨l, a, rfl⟩
  · rfl
  · simp

theorem sum_no_terms {n : Nat} (l : List (Gen (Fin n → ℝ))) (h : ∀ g ∈ l, g.objective = []) (v : Fin n → ℝ) :
    (l.map fun cj => cj.sum v).sum = 0 := by
  apply List.sum_eq_zero
  intro x hx
  rw [List.mem_map] at hx
  obtain ⟨g, hg, rfl⟩ := hx
  simp [Gen.sum, h g hg]

theorem localObj_eq {n : Nat} (loc : List (List (Gen (Fin n → ℝ)))) (k : Nat) (f : Volts n → ℝ) (u : Volts n)
    (h : ∀ g ∈ loc.flatten.dropLast, g.objective = []) :
    localObj k loc f u = if loc.flatten = [] then f u else localTotal k loc u := by
  induction loc generalizing k f with
  | nil => simp [localObj]
  | cons ci l ih =>
    rw [localObj, setFold]
    have hcons : localTotal k (ci :: l) u = (ci.map fun cj => cj.sum (u.getD k 0)).sum + localTotal (k + 1) l u := by
      simp [localTotal, List.zipIdx_cons]
    by_cases hl : l.flatten = []
    · rw [ih _ _ (by simp [hl]), if_pos hl]
      have hz : localTotal (k + 1) l u = 0 := by
        unfold localTotal
        apply List.sum_eq_zero
        intro x hx
        rw [List.mem_map] at hx
        obtain ⟨⟨set, j⟩, hq, rfl⟩ := hx
        have : set = [] := List.flatten_eq_nil_iff.1 hl set (List.fst_mem_of_mem_zipIdx hq)
        simp [this]
      rw [hcons, hz, add_zero]
      rcases List.eq_nil_or_concat ci with rfl | ⟨c0, a, rfl⟩
      · simp [hl]
      · rw [if_neg (by simp)]
        simp only [List.getLast?_append, List.getLast?_singleton, Option.some_or, List.map_append, List.map_singleton,
          List.sum_append, List.sum_singleton, List.concat_eq_append]
        rw [sum_no_terms c0, zero_add]
        intro g hg
        apply h
        simp [hl, hg]
    · rw [ih _ _ (by
        intro g hg
        apply h
        rw [List.flatten_cons, List.dropLast_append_of_ne_nil hl]
        exact List.mem_append_right _ hg), if_neg hl, if_neg (by simp at hl ⊢; exact fun _ => hl), hcons,
        sum_no_terms ci, zero_add]
      intro g hg
      apply h
      rw [List.flatten_cons, List.dropLast_append_of_ne_nil hl]
      exact List.mem_append_left _ hg

/-- C40, objective, the part that holds: if no local constraint contributes to the objective, except possibly the very
last one, the objective handed to the solver is the sum of all objective terms.  Missing: two or more local
constraints with objective terms, see `c40_objective_overwritten`. -/
theorem c40_objective_partial {n : Nat} (loc : List (List (Gen (Fin n → ℝ)))) (glob : List (Gen (Volts n)))
    (h : ∀ g ∈ loc.flatten.dropLast, g.objective = []) (u : Volts n) :
    (solveProblem loc glob).1 u = totalObjective loc glob u := by
  unfold solveProblem
  simp only
  rw [globFold, localObj_eq loc 0 _ u h]
  split_ifs with h0
  · have : localTotal 0 loc u = 0 := by
      unfold localTotal
      apply List.sum_eq_zero
      intro x hx
      rw [List.mem_map] at hx
      obtain ⟨⟨set, j⟩, hq, rfl⟩ := hx
      have : set = [] := List.flatten_eq_nil_iff.1 h0 set (List.fst_mem_of_mem_zipIdx hq)
      simp [this]
    have h2 : totalObjective loc glob u = localTotal 0 loc u + (glob.map fun ci => ci.sum u).sum := rfl
    rw [h2, this]
  · rfl

/-- C40, objective: what the code really minimises.  Each local constraint replaces the objective (`obj = sum(...)`
instead of `obj += sum(...)`), so of all local constraints only the last one counts. -/
theorem c40_objective_last {n : Nat} (pre : List (List (Gen (Fin n → ℝ)))) (c0 : List (Gen (Fin n → ℝ)))
    (last : Gen (Fin n → ℝ)) (glob : List (Gen (Volts n))) (u : Volts n) :
    (solveProblem (pre ++ [c0 ++ [last]]) glob).1 u =
      (last.objective.map fun t => t.1 (u.getD pre.length 0) * t.2).sum +
      (glob.map fun ci => (ci.objective.map fun t => t.1 u * t.2).sum).sum := by
  unfold solveProblem
  simp only
  rw [globFold]
  have : ∀ (k : Nat) (f : Volts n → ℝ), localObj k (pre ++ [c0 ++ [last]]) f u = last.sum (u.getD (k + pre.length) 0) := by
    induction pre with
    | nil => intro k f; simp [localObj]
    | cons a pre ih =>
      intro k f
      rw [List.cons_append, localObj, ih]
      congr 2
      simp; omega
  rw [this, zero_add]
  rfl

/-- C40 fails: there are two local constraints with objective terms for which the problem handed to the solver is not
the sum, and a solver that does what is assumed returns a table at which the sum is not minimal. -/
theorem c40_objective_overwritten : ∃ (loc : List (List (Gen (Fin 1 → ℝ)))),
    (∃ u, (solveProblem loc []).1 u ≠ totalObjective loc [] u) ∧
    ∃ solver, Minimises solver ∧ ∃ u c, solve solver loc [] = .ok (u, c) ∧
      ∃ w : Volts 1, w.length = loc.length ∧ Satisfies loc [] w ∧ totalObjective loc [] w < totalObjective loc [] u := by
  let g : Gen (Fin 1 → ℝ) := ⟨[(fun v => v 0 ^ 2, 1)], []⟩
  let sol : (Volts 1 → ℝ) → List (Volts 1 → Prop) → Nat → Option (Volts 1) := fun obj ctrs rows =>
    open Classical in
    if rows = 2 ∧ (∀ c ∈ ctrs, c [1, 0]) ∧ ∀ w : Volts 1, w.length = rows → (∀ c ∈ ctrs, c w) → obj [1, 0] ≤ obj w
    then some [1, 0] else none
  refine ⟨[[g], [g]], ⟨[1, 0], ?_⟩, sol, ?_, [1, 0], 0, ?_, [0, 0], rfl, ?_, ?_⟩
  · norm_num [solveProblem, localObj, totalObjective, g, Gen.sum]
  · intro obj ctrs rows u h
    simp only [sol] at h
    split_ifs at h with hc
    injection h with h
    subst h
    exact ⟨hc.1.symm, hc.2.1, hc.2.2⟩
  · have h1 : (solveProblem [[g], [g]] []).1 = fun u : Volts 1 => u.getD 1 0 0 ^ 2 := by
      funext u
      simp [solveProblem, localObj, g, Gen.sum]
    have h2 : (solveProblem [[g], [g]] ([] : List (Gen (Volts 1)))).2 = [] := rfl
    unfold solve
    simp only
    rw [h2]
    have : sol (solveProblem [[g], [g]] []).1 [] [[g], [g]].length = some [1, 0] := by
      simp only [sol]
      rw [if_pos]
      refine ⟨rfl, by simp, fun w _ _ => ?_⟩
      rw [h1]
      simp only [List.getD_cons_succ, List.getD_cons_zero, Pi.zero_apply]
      rw [zero_pow two_ne_zero]
      exact sq_nonneg _
    rw [this, h1]
    simp
  · refine ⟨?_, by simp⟩
    intro k set hk cj hcj c hc
    match k, hk with
    | 0, hk => simp at hk; subst hk; simp at hcj; subst hcj; simp [g] at hc
    | 1, hk => simp at hk; subst hk; simp at hcj; subst hcj; simp [g] at hc
  · norm_num [totalObjective, g]

/-- C40: the returned table has one row per set of local constraints, fulfils all constraints, the returned number is
the minimum of the objective handed to the solver, and, under the condition of `c40_objective_partial`, no other table
that fulfils the constraints has a smaller sum of objective terms. -/
theorem c40_solution_partial {n : Nat} (solver : (Volts n → ℝ) → List (Volts n → Prop) → Nat → Option (Volts n))
    (hs : Minimises solver) (loc : List (List (Gen (Fin n → ℝ)))) (glob : List (Gen (Volts n)))
    (h : ∀ g ∈ loc.flatten.dropLast, g.objective = []) (u : Volts n) (c : ℝ) (hsol : solve solver loc glob = .ok (u, c)) :
    u.length = loc.length ∧ Satisfies loc glob u ∧ c = totalObjective loc glob u ∧
    ∀ w : Volts n, w.length = loc.length → Satisfies loc glob w → c ≤ totalObjective loc glob w := by
  unfold solve at hsol
  simp only at hsol
  split at hsol
  · cases hsol
  · next u' hu' =>
    simp only [Except.ok.injEq, Prod.mk.injEq] at hsol
    obtain ⟨rfl, rfl⟩ := hsol
    obtain ⟨h1, h2, h3⟩ := hs _ _ _ _ hu'
    refine ⟨h1, (c40_constraints loc glob u').1 h2, c40_objective_partial loc glob h u', fun w hw hsat => ?_⟩
    rw [← c40_objective_partial loc glob h w]
    exact h3 w hw ((c40_constraints loc glob w).2 hsat)

/-- C40: the constraints are fulfilled whatever the objective terms are. -/
theorem c40_feasible {n : Nat} (solver : (Volts n → ℝ) → List (Volts n → Prop) → Nat → Option (Volts n))
    (hs : Minimises solver) (loc : List (List (Gen (Fin n → ℝ)))) (glob : List (Gen (Volts n))) (u : Volts n) (c : ℝ)
    (hsol : solve solver loc glob = .ok (u, c)) : u.length = loc.length ∧ Satisfies loc glob u := by
  unfold solve at hsol
  simp only at hsol
  split at hsol
  · cases hsol
  · next u' hu' =>
    simp only [Except.ok.injEq, Prod.mk.injEq] at hsol
    obtain ⟨rfl, rfl⟩ := hsol
    obtain ⟨h1, h2, _⟩ := hs _ _ _ _ hu'
    exact ⟨h1, (c40_constraints loc glob u').1 h2⟩

/-- C40: a solver that fails ends in `ValueError`. -/
theorem c40_failure {n : Nat} (solver : (Volts n → ℝ) → List (Volts n → Prop) → Nat → Option (Volts n))
    (loc : List (List (Gen (Fin n → ℝ)))) (glob : List (Gen (Volts n)))
    (hn : solver (solveProblem loc glob).1 (solveProblem loc glob).2 loc.length = none) :
    solve solver loc glob = .error .valueError := by
  unfold solve
  simp only [hn]

/-- two sets of local constraints and a global one, of which only the last local one and the global one have terms -/
example : ∀ g ∈ ([[⟨[], [fun v => 0 ≤ v 0]⟩], [⟨[], []⟩, ⟨[(fun v => v 0, 2)], []⟩]] : List (List (Gen (Fin 1 → ℝ)))).flatten.dropLast,
    g.objective = [] := by simp

end Electrode
