import Verif.Props.Shims
import Mathlib.Topology.Order.Compact
import Mathlib.Topology.Algebra.Monoid

/-
C38 and C39: when `optimize` and `shims` succeed.
-/
namespace Electrode
open Spec Set

namespace Spec
/-- What is assumed of a solver that does its work: it finds a best pattern whenever there is one. -/
def Finds (solver : Solver) : Prop := ∀ g ctrs n, (∃ p, Optimal g ctrs n p) → ∃ p, solver g ctrs n = some p

/-- no bounds and no offset are demanded besides the value -/
def OnlyValue (o : SVC) : Prop := o.sv.min = none ∧ o.sv.max = none ∧ o.sv.offset = none
end Spec

namespace ShimOk

theorem pair_sum (n : Nat) (r : List ℝ) (f : Fin n → ℝ) : pair r (List.ofFn f) = ∑ j : Fin n, r.getD j 0 * f j := by
  induction n generalizing r with
  | zero => simp [pair]
  | succ n ih =>
    cases r with
    | nil => simp [pair]
    | cons a r =>
      rw [Fin.sum_univ_succ, List.ofFn_succ]
      have := ih r fun j => f j.succ
      unfold pair at this ⊢
      simp only [List.zipWith_cons_cons, List.sum_cons, this]
      simp

theorem range_box {lo hi : ℝ} {n : Nat} {l : List LinCtr} (hl : rangeConstraints (some lo) (some hi) none n = .ok l) (p : List ℝ) (hp : p.length = n) :
    Fulfils l p ↔ ∀ j < n, lo ≤ p.getD j 0 ∧ p.getD j 0 ≤ hi := by
  rw [c46_range _ _ _ _ _ hl _ hp]
  refine forall_congr' fun j => forall_congr' fun hj => ?_
  constructor
  · intro h
    exact ⟨(h trivial).1 _ rfl, (h trivial).2 _ rfl⟩
  · rintro ⟨h1, h2⟩ -
    exact ⟨by rintro m ⟨rfl⟩; exact h1, by rintro m ⟨rfl⟩; exact h2⟩

/-- a linear problem with bounded variables that the zero pattern fulfils has a best solution -/
theorem lp_exists (g : List ℝ) (rows : List (List ℝ)) (n : Nat) {lo hi : ℝ} (h1 : lo ≤ 0) (h2 : 0 ≤ hi) {l : List LinCtr}
    (hl : rangeConstraints (some lo) (some hi) none n = .ok l) : ∃ p, Optimal g (l ++ rows.map fun r => ⟨r, .eq, 0⟩) n p := by
  let S : Set (Fin n → ℝ) := (univ.pi fun _ => Icc lo hi) ∩ {f | ∀ r ∈ rows, pair r (List.ofFn f) = 0}
  have hS : ∀ f : Fin n → ℝ, f ∈ S ↔ Fulfils (l ++ rows.map fun r => ⟨r, .eq, 0⟩) (List.ofFn f) := by
    intro f
    rw [fulfils_append, fulfils_eqs, range_box hl _ (by simp)]
    constructor
    · rintro ⟨ha, hb⟩
      exact ⟨fun j hj => by simpa [List.getD_eq_getElem?_getD, hj] using ha ⟨j, hj⟩ trivial, hb⟩
    · rintro ⟨ha, hb⟩
      exact ⟨fun j _ => by simpa [List.getD_eq_getElem?_getD, j.2] using ha j j.2, hb⟩
  have hcont : ∀ r : List ℝ, Continuous fun f : Fin n → ℝ => pair r (List.ofFn f) := fun r => by
    simp only [pair_sum]
    exact continuous_finset_sum _ fun j _ => continuous_const.mul (continuous_apply j)
  have hclosed : IsClosed {f : Fin n → ℝ | ∀ r ∈ rows, pair r (List.ofFn f) = 0} := by
    simp only [Set.ofPred_forall]
    exact isClosed_iInter fun r => isClosed_iInter fun _ => isClosed_eq (hcont r) continuous_const
  have hcomp : IsCompact S := (isCompact_univ_pi fun _ => isCompact_Icc).inter_right hclosed
  have h0 : (0 : Fin n → ℝ) ∈ S := ⟨fun _ _ => ⟨h1, h2⟩, fun r _ => by rw [pair_sum]; simp⟩
  obtain ⟨f, hf, hmax⟩ := hcomp.exists_isMaxOn ⟨0, h0⟩ (hcont g).continuousOn
  refine ⟨List.ofFn f, by simp, (hS f).1 hf, fun q hq hfq => ?_⟩
  have e : q = List.ofFn fun j : Fin n => q.getD j 0 := by
    apply List.ext_getElem
    · simp [hq]
    · intro k ha hb; simp [ha]
  have hq' := (hS fun j : Fin n => q.getD j 0).2 (e ▸ hfq)
  have h3 := hmax hq'
  simp only [mem_setOf_eq] at h3
  rwa [← e] at h3

theorem collect_singles (s : List Elec) (obj : List SVC) (hv : ∀ o ∈ obj, OnlyValue o ∧ (∃ b, o.sv.value = some b) ∧ ∃ r, o.get s = .ok (some r)) :
    collect s (obj.map .single) = .ok ((objectives s (obj.map .single)).map fun q => (some q.1, q.2), []) := by
  induction obj with
  | nil => rfl
  | cons o obj ih =>
    obtain ⟨⟨m1, m2, m3⟩, ⟨b, hb⟩, r, hr⟩ := hv o (by simp)
    have h0 : asked s (.single o) = some (r, b) := by simp [asked, hb, hr]
    have hc : o.constraints s = .ok [] := by simp [SVC.constraints, m1, m2, m3]
    have ho : o.objective s = .ok [(some r, b)] := by simp [SVC.objective, hb, hr, Except.map]
    have := ih fun o ho => hv o (by simp [ho])
    unfold objectives at this ⊢
    rw [List.map_cons, List.filterMap_cons_some h0]
    simp only [collect, Ctr.objective, Ctr.constraints, ho, hc, this, List.map_cons, List.nil_append, List.singleton_append]

end ShimOk
open ShimOk

/-- C38: `optimize` does not fail without need: if the patterns are confined to a range around zero, the objectives can be met at all and
ask for something, and the solver finds best patterns, then a pattern with a positive strength is returned. -/
theorem c38_succeeds (pinv : Pinv) (hp : IsPinv pinv) (solver : Solver) (hs : Correct solver) (hf : Finds solver) (s : List Elec)
    (lo hi : ℝ) (h1 : lo < 0) (h2 : 0 < hi) (obj : List SVC)
    (hv : ∀ o ∈ obj, OnlyValue o ∧ (∃ b, o.sv.value = some b) ∧ ∃ r, o.get s = .ok (some r))
    (hask : ∃ q ∈ objectives s (obj.map .single), q.2 ≠ 0)
    (u : List ℝ) (hu : u.length = s.length) (hr : ∀ q ∈ objectives s (obj.map .single), pair q.1 u = q.2) :
    ∃ p c, optimize pinv solver s (.range (some lo) (some hi) none :: obj.map .single) = .ok (p, c) ∧ 0 < c := by
  have eo : objectives s (.range (some lo) (some hi) none :: obj.map .single) = objectives s (obj.map .single) := by
    unfold objectives
    rw [List.filterMap_cons_none rfl]
  have hcol := collect_singles s obj hv
  obtain ⟨q0, hq0, hq0'⟩ := hask
  have hne : objectives s (obj.map .single) ≠ [] := List.ne_nil_of_mem hq0
  obtain ⟨hg, -⟩ := pinv_facts pinv hp s (.range (some lo) (some hi) none :: obj.map .single) (by rw [eo]; exact hne) u hu (by rw [eo]; exact hr)
  rw [eo] at hg
  have hgl := gOf_length pinv hp s (.range (some lo) (some hi) none :: obj.map .single) (by rw [eo]; exact hne)
  set g := gOf pinv s (.range (some lo) (some hi) none :: obj.map .single) with hgdef
  have hgof : g = apply (pinv ((objectives s (obj.map .single)).map (·.1))) ((objectives s (obj.map .single)).map (·.2)) := by
    rw [hgdef]; unfold gOf; rw [eo]
  have hsum : pair g g = ∑ j : Fin s.length, g.getD j 0 ^ 2 := by
    have e : g = List.ofFn fun j : Fin s.length => g.getD j 0 := by
      apply List.ext_getElem
      · simp [hgl]
      · intro k ha hb; simp [ha]
    conv_lhs => rw [e, pair_ofFn]
    exact Finset.sum_congr rfl fun j _ => by ring
  have hg2 : 0 < pair g g := by
    rw [hsum]
    refine lt_of_le_of_ne (Finset.sum_nonneg fun j _ => sq_nonneg _) fun h0 => hq0' ?_
    have hz := (Finset.sum_eq_zero_iff_of_nonneg fun j _ => sq_nonneg _).1 h0.symm
    have hz' : ∀ x ∈ g, x = 0 := fun x hx => by
      obtain ⟨k, hk, rfl⟩ := List.getElem_of_mem hx
      have := hz ⟨k, hgl ▸ hk⟩ (Finset.mem_univ _)
      simpa [List.getD_eq_getElem?_getD, hk] using this
    rw [← hg q0 hq0]
    exact pair_zeros _ _ hz'
  obtain ⟨l, hl⟩ : ∃ l, rangeConstraints (some lo) (some hi) none s.length = .ok l := by
    rcases c46_index (some lo) (some hi) none s.length with ⟨h, _⟩ | ⟨_, i, hi', _⟩
    · exact h
    · cases hi'
  have hcol' : collect s (.range (some lo) (some hi) none :: obj.map .single)
      = .ok ((objectives s (obj.map .single)).map fun q => (some q.1, q.2), l) := by
    simp only [collect, Ctr.objective, Ctr.constraints, hl, hcol, List.nil_append, List.append_nil]
  have hrows : objRows ((objectives s (obj.map .single)).map fun q => (some q.1, q.2)) = .ok ((objectives s (obj.map .single)).map (·.1)) := by
    unfold objRows
    rw [if_neg (by simpa using hne), List.map_map]
    exact pySeq_map_ok _ _ _ fun a _ => rfl
  have hb : ((objectives s (obj.map .single)).map fun q => (some q.1, q.2)).map (·.2) = (objectives s (obj.map .single)).map (·.2) := by
    rw [List.map_map]; rfl
  obtain ⟨p, hsol⟩ := hf g (l ++ (((objectives s (obj.map .single)).map (projOf g)).dropLast.map fun r => ⟨r, .eq, 0⟩)) s.length
    (lp_exists g _ s.length h1.le h2.le hl)
  have hopt := hs _ _ _ _ hsol
  refine ⟨p, pair p g / pair g g, ?_, div_pos ?_ hg2⟩
  · unfold optimize
    simp only [hcol', hrows, hb, matVec_eq, dotL_eq, ← hgof, projRows_eq, if_neg hg2.ne', hsol]
  · -- a small multiple of `g` fulfils the constraints
    obtain ⟨m, hm0, hm⟩ : ∃ m : ℝ, 0 < m ∧ ∀ x ∈ g, |x| ≤ m := by
      refine ⟨(g.map fun x => |x|).sum + 1, ?_, fun x hx => ?_⟩
      · have : 0 ≤ (g.map fun x => |x|).sum := List.sum_nonneg fun y hy => by
          obtain ⟨x, -, rfl⟩ := List.mem_map.1 hy; exact abs_nonneg _
        linarith
      · have := List.single_le_sum (l := g.map fun x => |x|) (fun y hy => by
          obtain ⟨x, -, rfl⟩ := List.mem_map.1 hy; exact abs_nonneg _) |x| (List.mem_map.2 ⟨x, hx, rfl⟩)
        linarith
    set k : ℝ := min (-lo) hi / m with hk
    have hk0 : 0 < k := div_pos (lt_min (by linarith) h2) hm0
    have hkm : k * m = min (-lo) hi := by rw [hk]; field_simp
    have hscale : ∀ r : List ℝ, pair r (g.map fun x => k * x) = k * pair r g := fun r => by
      have := pair_div r g (1 / k)
      simp only [div_div_eq_mul_div, div_one] at this
      rw [mul_comm k, ← this]
      congr 1
      exact List.map_congr_left fun x _ => mul_comm _ _
    have hful : Fulfils (l ++ (((objectives s (obj.map .single)).map (projOf g)).dropLast.map fun r => ⟨r, .eq, 0⟩)) (g.map fun x => k * x) := by
      rw [fulfils_append, fulfils_eqs, range_box hl _ (by simp [hgl])]
      constructor
      · intro j hj
        have hj' : j < g.length := hgl ▸ hj
        have e : (g.map fun x => k * x).getD j 0 = k * g[j] := by simp [List.getD_eq_getElem?_getD, hj']
        have ha := abs_le.1 (hm g[j] (List.getElem_mem hj'))
        rw [e]
        have m1 := min_le_left (-lo) hi
        have m2 := min_le_right (-lo) hi
        constructor <;> nlinarith [ha.1, ha.2]
      · intro r hr'
        obtain ⟨q, hq, rfl⟩ := List.mem_map.1 (List.mem_of_mem_dropLast hr')
        have hql : q.1.length = s.length := objectives_length s _ q hq
        rw [hscale]
        unfold projOf
        rw [proj_dot _ _ _ _ _ (by rw [hql, hgl]), hg q hq, div_self hg2.ne']
        ring
    have := hopt.2.2 _ (by simp [hgl]) hful
    rw [hscale] at this
    rw [pair_comm]
    exact lt_of_lt_of_le (mul_pos hk0 hg2) this

namespace ShimOk

theorem loop_ok (pinv : Pinv) (solver : Solver) (s : List Elec) (cs : List Ctr) (obj : List SVC) (hz : ∀ o ∈ obj, o.sv.value = some 0) (is : List Nat)
    (h : ∀ i ∈ is, ∃ p c, optimize pinv solver s (cs ++ (obj.modify i (SVC.setValue 1)).map .single) = .ok (p, c) ∧ 0 < c) :
    ∃ vs : List (List ℝ), shimLoop pinv solver s cs obj is = (obj, .ok (vs.map some)) ∧ vs.length = is.length := by
  induction is with
  | nil => exact ⟨[], rfl, rfl⟩
  | cons i is ih =>
    obtain ⟨p, c, ho, hc⟩ := h i (by simp)
    obtain ⟨vs, h1, h2⟩ := ih fun i hi => h i (by simp [hi])
    refine ⟨(p.map fun v => v / c) :: vs, ?_, by simp [h2]⟩
    simp only [shimLoop, shimStep, ho, modify_back obj hz i, hc.ne', if_false, h1, List.map_cons]

end ShimOk

/-- C39: with the default constraints `shims` returns one vector of finite voltages per objective if the objectives are independent, that is
if for each of them there are voltages that change it and no other objective. -/
theorem c39_succeeds (pinv : Pinv) (hp : IsPinv pinv) (solver : Solver) (hs : Correct solver) (hf : Finds solver) (s : List Elec)
    (xcd : List (V3 × Option (Matrix Axis Axis ℝ) × Name)) (objs o : List SVC)
    (ho : shimObjectives xcd = .ok o) (hz : ∀ q ∈ objs, q.sv.value = some 0 ∧ OnlyValue q)
    (rs : List (List ℝ)) (hr : (o ++ objs).map (SVC.get s) = rs.map fun r => .ok (some r))
    (hind : ∀ i < rs.length, ∃ u : List ℝ, u.length = s.length ∧ ∀ (j : Nat) (r : List ℝ), rs[j]? = some r → pair r u = if j = i then 1 else 0) :
    ∃ vs : List (List ℝ), (shims pinv solver s xcd objs none).2 = .ok (vs.map some) ∧ vs.length = rs.length := by
  have hov : ∀ q ∈ o, q.sv.value = some 0 ∧ OnlyValue q := by
    intro q hq
    obtain ⟨j, hj, rfl⟩ := List.getElem_of_mem hq
    obtain ⟨e1, e2⟩ := pySeq_map_inv xcd _ o ho
    obtain ⟨b, hb, hb'⟩ := e2 j xcd[j] (by simp [← e1, hj])
    rw [List.getElem?_eq_getElem hj] at hb
    injection hb with hb
    subst hb
    unfold potentialObjective at hb'
    split at hb'
    · cases hb'
    · injection hb' with hb'
      rw [← hb']
      exact ⟨rfl, rfl, rfl, rfl⟩
  have hall : ∀ q ∈ o ++ objs, q.sv.value = some 0 ∧ OnlyValue q := fun q hq => (List.mem_append.1 hq).elim (hov q) (hz q)
  have hlen : (o ++ objs).length = rs.length := by simpa using congrArg List.length hr
  obtain ⟨vs, h1, h2⟩ := loop_ok pinv solver s [.range (some (-1)) (some 1) none] (o ++ objs) (fun q hq => (hall q hq).1)
    (List.range (o ++ objs).length) fun i hi => by
      have hi' : i < rs.length := by rw [List.mem_range, hlen] at hi; exact hi
      have hobj := objectives_shim s (o ++ objs) rs hr (fun q hq => (hall q hq).1) i
      obtain ⟨u, hu, hur⟩ := hind i hi'
      refine c38_succeeds pinv hp solver hs hf s (-1) 1 (by norm_num) one_pos _ ?_ ?_ u hu ?_
      · intro q hq
        obtain ⟨j, hj, rfl⟩ := List.getElem_of_mem hq
        rw [List.length_modify] at hj
        have hmem := List.getElem_mem hj
        have hget : ∃ r, SVC.get s (o ++ objs)[j] = .ok (some r) := by
          have := List.getElem_of_eq hr (i := j) (by simpa using hj)
          rw [List.getElem_map, List.getElem_map] at this
          exact ⟨_, this⟩
        rw [List.getElem_modify]
        split
        · refine ⟨?_, ⟨1, setValue_sv _ _⟩, by rw [get_setValue]; exact hget⟩
          have := (hall _ hmem).2
          revert this
          cases (o ++ objs)[j] <;> exact id
        · exact ⟨(hall _ hmem).2, ⟨0, (hall _ hmem).1⟩, hget⟩
      · rw [hobj]
        exact ⟨(rs[i], 1), List.mem_iff_getElem.2 ⟨i, by simpa [shimRows] using hi', by simp [shimRows]⟩, one_ne_zero⟩
      · rw [hobj]
        intro q hq
        obtain ⟨j, hj, rfl⟩ := List.getElem_of_mem hq
        have hj' : j < rs.length := by simpa [shimRows] using hj
        simp only [shimRows, List.getElem_mapIdx]
        exact hur j _ (List.getElem?_eq_getElem hj')
  refine ⟨vs, ?_, by rw [h2, List.length_range, hlen]⟩
  unfold shims
  simp only [ho, Option.getD_none, h1]

/-- a solver as assumed exists -/
theorem exists_finds : ∃ solver : Solver, Correct solver ∧ Finds solver := by
  classical
  refine ⟨fun g ctrs n => if h : ∃ p, Optimal g ctrs n p then some h.choose else none, fun g ctrs n p h => ?_, fun g ctrs n h => ⟨h.choose, dif_pos h⟩⟩
  dsimp only at h
  by_cases h' : ∃ p, Optimal g ctrs n p
  · rw [dif_pos h'] at h
    obtain rfl := Option.some.inj h
    exact h'.choose_spec
  · rw [dif_neg h'] at h
    cases h

/-- the hypotheses are met for the fields along x and y of two electrodes -/
example : ∃ pinv solver, IsPinv pinv ∧ Correct solver ∧ Finds solver ∧
    ∃ vs : List (List ℝ), (shims pinv solver exSys [(⟨0, 0, 1⟩, none, ['x']), (⟨0, 0, 1⟩, none, ['y'])] [] none).2 = .ok (vs.map some) ∧ vs.length = 2 := by
  obtain ⟨pinv, hp⟩ := exists_isPinv
  obtain ⟨solver, hs, hf⟩ := exists_finds
  have e1 : derivToReducedIdx ['x'] = .ok (.one 0) := by decide
  have e2 : derivToReducedIdx ['y'] = .ok (.one 1) := by decide
  refine ⟨pinv, solver, hp, hs, hf, c39_succeeds pinv hp solver hs hf exSys _ [] [exObj 0 0, exObj 0 1] ?_ (by simp) [[1, 0], [0, 1]] ?_ ?_⟩
  · simp [shimObjectives, potentialObjective, e1, e2, pySeq, exObj]
  · simp [exObj_get]
  · intro i hi
    have : i = 0 ∨ i = 1 := by simp at hi; omega
    rcases this with rfl | rfl
    · refine ⟨[1, 0], rfl, fun j r hj => ?_⟩
      match j with
      | 0 => simp at hj; subst hj; simp [pair]
      | 1 => simp at hj; subst hj; simp [pair]
      | j + 2 => simp at hj
    · refine ⟨[0, 1], rfl, fun j r hj => ?_⟩
      match j with
      | 0 => simp at hj; subst hj; simp [pair]
      | 1 => simp at hj; subst hj; simp [pair]
      | j + 2 => simp at hj

end Electrode
