import Verif.Props.Optimize

/-
C39: `shims`, and the counterexample to C38 and C39.
-/
namespace Electrode
open Spec

theorem get_setValue (s : List Elec) (v : ℝ) (o : SVC) : SVC.get s (o.setValue v) = SVC.get s o := by
  cases o <;> simp only [SVC.setValue, SVC.get]

theorem setValue_sv (v : ℝ) (o : SVC) : (o.setValue v).sv.value = some v := by cases o <;> rfl

theorem setValue_setValue (v w : ℝ) (o : SVC) (h : o.sv.value = some v) : (o.setValue w).setValue v = o := by
  cases o with
  | pot x n i r sv =>
    simp only [SVC.setValue]
    congr
    simp only [SVC.sv] at h
    rw [← h]
  | multi c sv =>
    simp only [SVC.setValue]
    congr
    simp only [SVC.sv] at h
    rw [← h]

theorem modify_back (obj : List SVC) (hz : ∀ o ∈ obj, o.sv.value = some 0) (i : Nat) :
    (obj.modify i (SVC.setValue 1)).modify i (SVC.setValue 0) = obj := by
  induction obj generalizing i with
  | nil => simp
  | cons o obj ih =>
    cases i with
    | zero => simp [setValue_setValue 0 1 o (hz o (by simp))]
    | succ i => simp [ih (fun o ho => hz o (by simp [ho]))]

/-- rows and values of the objectives while objective `i` is set to one -/
def shimRows (rs : List (List ℝ)) (i : Nat) : List (List ℝ × ℝ) := rs.mapIdx fun j r => (r, if j = i then 1 else 0)

theorem objectives_append (s : List Elec) (a b : List Ctr) : objectives s (a ++ b) = objectives s a ++ objectives s b :=
  List.filterMap_append

theorem objectives_values (s : List Elec) (obj : List SVC) (rs : List (List ℝ))
    (hr : obj.map (SVC.get s) = rs.map fun r => .ok (some r)) (hz : ∀ o ∈ obj, o.sv.value = some 0) :
    objectives s (obj.map .single) = rs.map fun r => (r, 0) := by
  induction obj generalizing rs with
  | nil =>
    cases rs with
    | nil => rfl
    | cons => simp at hr
  | cons o obj ih =>
    cases rs with
    | nil => simp at hr
    | cons r rs =>
      simp only [List.map_cons, List.cons.injEq] at hr
      have h0 : asked s (.single o) = some (r, 0) := by simp [asked, hz o (by simp), hr.1]
      have := ih rs hr.2 fun o ho => hz o (by simp [ho])
      unfold objectives at this ⊢
      rw [List.map_cons, List.filterMap_cons_some h0, this]
      rfl

theorem objectives_shim (s : List Elec) (obj : List SVC) (rs : List (List ℝ))
    (hr : obj.map (SVC.get s) = rs.map fun r => .ok (some r)) (hz : ∀ o ∈ obj, o.sv.value = some 0) (i : Nat) :
    objectives s ((obj.modify i (SVC.setValue 1)).map .single) = shimRows rs i := by
  induction obj generalizing rs i with
  | nil =>
    cases rs with
    | nil => simp [objectives, shimRows]
    | cons => simp at hr
  | cons o obj ih =>
    cases rs with
    | nil => simp at hr
    | cons r rs =>
      simp only [List.map_cons, List.cons.injEq] at hr
      have hz' : ∀ o ∈ obj, o.sv.value = some 0 := fun o ho => hz o (by simp [ho])
      unfold shimRows
      rw [List.mapIdx_cons]
      cases i with
      | zero =>
        have h0 : asked s (.single (o.setValue 1)) = some (r, 1) := by
          simp [asked, setValue_sv, get_setValue, hr.1]
        have := objectives_values s obj rs hr.2 hz'
        unfold objectives at this ⊢
        rw [List.modify_zero_cons, List.map_cons, List.filterMap_cons_some h0, this]
        simp only [if_true, Nat.add_eq_zero_iff, one_ne_zero, and_false, if_false]
        congr 1
        apply List.ext_getElem <;> simp
      | succ i =>
        have h0 : asked s (.single o) = some (r, 0) := by simp [asked, hz o (by simp), hr.1]
        have := ih rs hr.2 hz' i
        unfold objectives at this ⊢
        rw [List.modify_succ_cons, List.map_cons, List.filterMap_cons_some h0, this]
        simp [shimRows]

theorem shimLoop_inv (pinv : Pinv) (solver : Solver) (s : List Elec) (cs : List Ctr) (obj : List SVC)
    (hz : ∀ o ∈ obj, o.sv.value = some 0) (is : List Nat) (obj' : List SVC) (vs : List (Option (List ℝ)))
    (h : shimLoop pinv solver s cs obj is = (obj', .ok vs)) :
    obj' = obj ∧ vs.length = is.length ∧ ∀ (k i : Nat), is[k]? = some i → ∃ p c,
      optimize pinv solver s (cs ++ (obj.modify i (SVC.setValue 1)).map .single) = .ok (p, c) ∧
      ((c = 0 ∧ vs[k]? = some none) ∨ (c ≠ 0 ∧ vs[k]? = some (some (p.map fun v => v / c)))) := by
  induction is generalizing vs obj' with
  | nil =>
    simp only [shimLoop, Prod.mk.injEq, Except.ok.injEq] at h
    obtain ⟨rfl, rfl⟩ := h
    simp
  | cons i is ih =>
    simp only [shimLoop] at h
    unfold shimStep at h
    cases ho : optimize pinv solver s (cs ++ (obj.modify i (SVC.setValue 1)).map .single) with
    | error e => simp [ho] at h
    | ok r =>
      obtain ⟨p, c⟩ := r
      simp only [ho, modify_back obj hz i] at h
      split at h
      · next obj1 e' he' => injection h with _ h; cases h
      · next obj2 vs' hvs =>
        simp only [Prod.mk.injEq, Except.ok.injEq] at h
        obtain ⟨rfl, rfl⟩ := h
        obtain ⟨h1, h2, h3⟩ := ih _ _ hvs
        refine ⟨h1, by simp [h2], fun k j hk => ?_⟩
        cases k with
        | zero =>
          simp at hk
          subst hk
          refine ⟨p, c, ho, ?_⟩
          by_cases hc : c = 0
          · exact Or.inl ⟨hc, by simp [hc]⟩
          · exact Or.inr ⟨hc, by simp [hc]⟩
        | succ k => simpa using h3 k j (by simpa using hk)

theorem pair_div (r p : List ℝ) (c : ℝ) : pair r (p.map fun x => x / c) = pair r p / c := by
  unfold pair
  induction r generalizing p with
  | nil => simp
  | cons a r ih =>
    cases p with
    | nil => simp
    | cons b p => simp only [List.map_cons, List.zipWith_cons_cons, List.sum_cons, ih]; ring

theorem shimObjectives_values (xcd : List (V3 × Option (Matrix Axis Axis ℝ) × Name)) (o : List SVC)
    (h : shimObjectives xcd = .ok o) : ∀ q ∈ o, q.sv.value = some 0 := by
  intro q hq
  obtain ⟨j, hj, rfl⟩ := List.getElem_of_mem hq
  obtain ⟨h1, h2⟩ := pySeq_map_inv xcd _ o h
  have hj' : j < xcd.length := by rw [← h1]; exact hj
  obtain ⟨b, hb, hb'⟩ := h2 j xcd[j] (by simp [hj'])
  rw [List.getElem?_eq_getElem hj] at hb
  injection hb with hb
  subst hb
  unfold potentialObjective at hb'
  split at hb'
  · cases hb'
  · injection hb' with hb'
    rw [← hb']
    rfl

/-- what a successful call of `shims` has done -/
theorem shims_inv (pinv : Pinv) (solver : Solver) (s : List Elec) (xcd : List (V3 × Option (Matrix Axis Axis ℝ) × Name))
    (objs o : List SVC) (cs : Option (List Ctr)) (ho : shimObjectives xcd = .ok o) (hz : ∀ q ∈ objs, q.sv.value = some 0)
    (rs : List (List ℝ)) (hr : (o ++ objs).map (SVC.get s) = rs.map fun r => .ok (some r))
    (hc : objectives s (cs.getD [.range (some (-1)) (some 1) none]) = [])
    (vs : List (Option (List ℝ))) (h : (shims pinv solver s xcd objs cs).2 = .ok vs) :
    (shims pinv solver s xcd objs cs).1 = objs ∧ vs.length = rs.length ∧ ∀ i < rs.length, ∃ ctrs p c,
      optimize pinv solver s ctrs = .ok (p, c) ∧ objectives s ctrs = shimRows rs i ∧
      ((c = 0 ∧ vs[i]? = some none) ∨ (c ≠ 0 ∧ vs[i]? = some (some (p.map fun v => v / c)))) := by
  have hz' : ∀ q ∈ o ++ objs, q.sv.value = some 0 := by
    intro q hq
    rw [List.mem_append] at hq
    rcases hq with hq | hq
    · exact shimObjectives_values xcd o ho q hq
    · exact hz q hq
  have hlen : (o ++ objs).length = rs.length := by
    have := congrArg List.length hr
    simpa using this
  unfold shims at h ⊢
  simp only [ho] at h ⊢
  obtain ⟨h1, h2, h3⟩ := shimLoop_inv pinv solver s _ (o ++ objs) hz' (List.range (o ++ objs).length) _ vs (Prod.ext rfl h)
  refine ⟨(congrArg (List.drop o.length) h1).trans (by simp), by rw [h2, List.length_range, hlen], fun i hi => ?_⟩
  obtain ⟨p, c, hp, hv⟩ := h3 i i (List.getElem?_range (by omega))
  refine ⟨_, p, c, hp, ?_, hv⟩
  rw [objectives_append, hc, List.nil_append]
  exact objectives_shim s _ rs hr hz' i

/-- C39, the part that holds: shim vector `i` changes objective `i` by one and no other objective, except possibly the
last objective in the list.  The objectives given by the caller must have `value = 0` and the constraints must not
bring objectives of their own. -/
theorem c39_shims_partial (pinv : Pinv) (hp : IsPinv pinv) (solver : Solver) (hs : Correct solver) (s : List Elec)
    (xcd : List (V3 × Option (Matrix Axis Axis ℝ) × Name)) (objs o : List SVC) (cs : Option (List Ctr))
    (ho : shimObjectives xcd = .ok o) (hz : ∀ q ∈ objs, q.sv.value = some 0)
    (rs : List (List ℝ)) (hr : (o ++ objs).map (SVC.get s) = rs.map fun r => .ok (some r))
    (hc : objectives s (cs.getD [.range (some (-1)) (some 1) none]) = [])
    (vs : List (Option (List ℝ))) (h : (shims pinv solver s xcd objs cs).2 = .ok vs) :
    vs.length = rs.length ∧ ∀ (i j : Nat) (v r : List ℝ), vs[i]? = some (some v) → rs[j]? = some r → j + 1 < rs.length →
      pair r v = if i = j then 1 else 0 := by
  obtain ⟨_, h2, h3⟩ := shims_inv pinv solver s xcd objs o cs ho hz rs hr hc vs h
  refine ⟨h2, fun i j v r hv hrj hj => ?_⟩
  have hi : i < rs.length := by
    rw [← h2]
    by_contra hn
    rw [List.getElem?_eq_none (by omega)] at hv
    cases hv
  obtain ⟨ctrs, p, c, hopt, hobj, hcase⟩ := h3 i hi
  rcases hcase with ⟨_, h0⟩ | ⟨hc0, h0⟩
  · rw [hv] at h0; simp at h0
  · rw [hv] at h0
    simp only [Option.some.injEq] at h0
    subst h0
    have hmem : (r, if j = i then (1 : ℝ) else 0) ∈ (objectives s ctrs).dropLast := by
      rw [hobj, List.dropLast_eq_take]
      refine List.mem_of_getElem? (i := j) ?_
      rw [List.getElem?_take_of_lt (by simp [shimRows]; omega)]
      simp [shimRows, hrj]
    have := c38_proportional_partial pinv hp solver hs s ctrs p c hopt _ hmem
    rw [pair_div, this]
    by_cases hij : j = i
    · simp [hij, hc0]
    · simp [hij, Ne.symm hij]

/-- C39, another part: the last shim vector changes the last objective by one, if that can be achieved at all without
changing the others. -/
theorem c39_last_partial (pinv : Pinv) (hp : IsPinv pinv) (solver : Solver) (hs : Correct solver) (s : List Elec)
    (xcd : List (V3 × Option (Matrix Axis Axis ℝ) × Name)) (objs o : List SVC) (cs : Option (List Ctr))
    (ho : shimObjectives xcd = .ok o) (hz : ∀ q ∈ objs, q.sv.value = some 0)
    (rs : List (List ℝ)) (r : List ℝ) (hr : (o ++ objs).map (SVC.get s) = (rs ++ [r]).map fun r => .ok (some r))
    (hc : objectives s (cs.getD [.range (some (-1)) (some 1) none]) = [])
    (vs : List (Option (List ℝ))) (h : (shims pinv solver s xcd objs cs).2 = .ok vs)
    (u : List ℝ) (hu : u.length = s.length) (hu0 : ∀ r' ∈ rs, pair r' u = 0) (hu1 : pair r u = 1)
    (v : List ℝ) (hv : vs[rs.length]? = some (some v)) : pair r v = 1 := by
  obtain ⟨_, h2, h3⟩ := shims_inv pinv solver s xcd objs o cs ho hz _ hr hc vs h
  obtain ⟨ctrs, p, c, hopt, hobj, hcase⟩ := h3 rs.length (by simp)
  rcases hcase with ⟨_, h0⟩ | ⟨hc0, h0⟩
  · rw [hv] at h0; simp at h0
  · rw [hv] at h0
    simp only [Option.some.injEq] at h0
    subst h0
    have hrows : shimRows (rs ++ [r]) rs.length = rs.map (fun r => (r, (0 : ℝ))) ++ [(r, 1)] := by
      unfold shimRows
      rw [List.mapIdx_append]
      congr 1
      · apply List.ext_getElem
        · simp
        · intro k h1 h2
          simp at h1
          simp; omega
      · simp
    have hreach : ∀ q ∈ objectives s ctrs, pair q.1 u = q.2 := by
      rw [hobj, hrows]
      intro q hq
      simp only [List.mem_append, List.mem_map, List.mem_singleton] at hq
      rcases hq with ⟨r', hr', rfl⟩ | rfl
      · exact hu0 r' hr'
      · exact hu1
    obtain ⟨ls, _, hsol, hg2, _, hne⟩ := optimize_inv pinv solver s ctrs p c hopt
    obtain ⟨hg, y, hyl, hy⟩ := pinv_facts pinv hp s ctrs hne u hu hreach
    have hlast : ∀ q ∈ objectives s ctrs, pair q.1 p = c * q.2 := by
      refine c38_all_proportional_partial pinv hp solver hs s ctrs p c hopt u hu hreach (gOf pinv s ctrs)
        (gOf_length pinv hp s ctrs hne) ?_ hg2
      intro q hq
      rw [hg q (List.mem_of_mem_dropLast hq)]
      rw [hobj, hrows] at hq
      simp at hq
      obtain ⟨r', _, rfl⟩ := hq
      rfl
    have := hlast (r, 1) (by rw [hobj, hrows]; simp)
    rw [pair_div, this]
    simp [hc0]

/-- C39: `shims` leaves the objectives of the caller with `value = 0`. -/
theorem c39_values_reset (pinv : Pinv) (solver : Solver) (s : List Elec)
    (xcd : List (V3 × Option (Matrix Axis Axis ℝ) × Name)) (objs o : List SVC) (cs : Option (List Ctr))
    (ho : shimObjectives xcd = .ok o) (hz : ∀ q ∈ objs, q.sv.value = some 0)
    (rs : List (List ℝ)) (hr : (o ++ objs).map (SVC.get s) = rs.map fun r => .ok (some r))
    (hc : objectives s (cs.getD [.range (some (-1)) (some 1) none]) = [])
    (vs : List (Option (List ℝ))) (h : (shims pinv solver s xcd objs cs).2 = .ok vs) :
    (shims pinv solver s xcd objs cs).1 = objs :=
  (shims_inv pinv solver s xcd objs o cs ho hz rs hr hc vs h).1

/-! ### counterexample -/

/-- an electrode made from sampled data whose field is one volt per length along axis `a` everywhere -/
def uniform (a : Nat) : Elec :=
  ⟨"", 0, 0, .grid [⟨1, 1, 1, 1, fun _ _ _ _ => 0⟩, ⟨1, 1, 1, 3, fun _ _ _ i => if i = a then 1 else 0⟩] ⟨0, 0, 0⟩ ⟨1, 1, 1⟩⟩

theorem interp1_one (f : Nat → ℝ) (c : ℝ) : interp1 1 f c = f 0 := by
  have : clampCoord 1 c = 0 := by simp [clampCoord]
  simp [interp1, this]

theorem uniform_row (a : Nat) (p : V3) : unitRowOf (uniform a) 1 p = [if a = 0 then 1 else 0, if a = 1 then 1 else 0, if a = 2 then 1 else 0] := by
  simp [unitRowOf, uniform, Shape.contrib, mapCoordinates, interp1_one, List.range_succ, eq_comm]

theorem uniform_avail (a : Nat) : (uniform a).shape.Avail 1 := ⟨_, rfl, by norm_num⟩

/-- two electrodes with fields along x and y -/
def exSys : List Elec := [uniform 0, uniform 1]

theorem exSys_individual (p : V3) : individualPotential exSys [p] 1 = .ok [[[1, 0, 0]], [[0, 1, 0]]] := by
  have h : ∀ e ∈ exSys, e.potential [p] 1 1 (some (zeroRows 1 1)) = .ok [unitRowOf e 1 p] := by
    intro e he
    have ha : e.shape.Avail 1 := by
      simp only [exSys, List.mem_cons, List.not_mem_nil, or_false] at he
      rcases he with rfl | rfl <;> exact uniform_avail _
    rw [zeroRows_eq]
    have := Elec.potential_new e [p] 1 1 ha
    rw [Elec.potential_none] at this
    simpa [unitRowOf] using this
  unfold individualPotential
  have := pySeq_map_ok exSys (fun e => e.potential [p] 1 1 (some (zeroRows [p].length 1))) (fun e => [unitRowOf e 1 p]) h
  rw [this]
  simp [exSys, uniform_row]

/-- the objectives "field along x" and "field along y" -/
def exObj (value : ℝ) (a : Nat) : SVC := .pot ⟨0, 0, 1⟩ 1 (.one a) none ⟨some value, none, none, none⟩

theorem exObj_get (v : ℝ) : (exObj v 0).get exSys = .ok (some [1, 0]) ∧ (exObj v 1).get exSys = .ok (some [0, 1]) := by
  constructor <;>
    simp [exObj, SVC.get, potGet, exSys_individual, rowInFrame, pySeq, reducedEntry, pyGet, Except.map]

/-- the constraints of a call of `optimize` for these objectives -/
def exCtrs (a b : ℝ) : List Ctr := .range (some (-1)) (some 1) none :: [exObj a 0, exObj b 1].map .single

theorem exCtrs_objectives (a b : ℝ) : objectives exSys (exCtrs a b) = [([1, 0], a), ([0, 1], b)] := by
  have h1 : asked exSys (.single (exObj a 0)) = some ([1, 0], a) := by
    simp only [asked, (exObj_get a).1]; rfl
  have h2 : asked exSys (.single (exObj b 1)) = some ([0, 1], b) := by
    simp only [asked, (exObj_get b).2]; rfl
  have h0 : asked exSys (.range (some (-1)) (some 1) none) = none := rfl
  simp only [objectives, exCtrs, List.map_cons, List.map_nil, List.filterMap_cons, h0, h1, h2, List.filterMap_nil]

/-- a solver that knows two patterns -/
noncomputable def exSolver : Solver := fun g ctrs n =>
  open Classical in
  if Optimal g ctrs n [1, 1] then some [1, 1] else if Optimal g ctrs n [0, 1] then some [0, 1] else none

theorem exSolver_correct : Correct exSolver := by
  intro g ctrs n p h
  unfold exSolver at h
  split_ifs at h with h1 h2 <;> simp at h <;> subst h <;> assumption

theorem exPinv (pinv : Pinv) (hp : IsPinv pinv) (a b : ℝ) : apply (pinv [[1, 0], [0, 1]]) [a, b] = [a, b] := by
  obtain ⟨h1, _, h3, _⟩ := hp [[1, 0], [0, 1]] 2 (by simp) (by simp)
  have := h3 [a, b] rfl
  have hid : ∀ u : List ℝ, u.length = 2 → apply [[1, 0], [0, 1]] u = u := by
    intro u hu
    obtain ⟨x, y, rfl⟩ := List.length_eq_two.1 hu
    simp [apply, pair]
  rw [hid [a, b] rfl] at this
  rwa [hid _ (by simp [apply, h1])] at this

theorem exRange : ∃ l, rangeConstraints (some (-1)) (some 1) none 2 = .ok l ∧ ∀ x y : ℝ, Fulfils l [x, y] ↔
    (-1 ≤ x ∧ x ≤ 1) ∧ (-1 ≤ y ∧ y ≤ 1) := by
  rcases c46_index (some (-1)) (some 1) none 2 with ⟨⟨l, hl⟩, _⟩ | ⟨_, i, hi, _⟩
  · refine ⟨l, hl, fun x y => ?_⟩
    rw [c46_range _ _ _ _ _ hl _ rfl]
    constructor
    · intro H
      have h0 := H 0 (by norm_num) trivial
      have h1 := H 1 (by norm_num) trivial
      exact ⟨⟨h0.1 _ rfl, h0.2 _ rfl⟩, ⟨h1.1 _ rfl, h1.2 _ rfl⟩⟩
    · rintro ⟨⟨a, b⟩, c, d⟩ j hj _
      have : j = 0 ∨ j = 1 := by omega
      rcases this with rfl | rfl <;> constructor <;> (rintro m ⟨rfl⟩; simpa)
  · cases hi

theorem exObj_constraints (v : ℝ) (a : Nat) : (exObj v a).constraints exSys = .ok [] := by
  simp [SVC.constraints, exObj, SVC.sv]

theorem exCollect (a b : ℝ) (l : List LinCtr) (hl : rangeConstraints (some (-1)) (some 1) none 2 = .ok l) :
    collect exSys (exCtrs a b) = .ok ([(some [1, 0], a), (some [0, 1], b)], l) := by
  have e : exSys.length = 2 := rfl
  have o1 : (exObj a 0).objective exSys = .ok [(some [1, 0], a)] := by
    simp only [SVC.objective, (exObj_get a).1, Except.map]; rfl
  have o2 : (exObj b 1).objective exSys = .ok [(some [0, 1], b)] := by
    simp only [SVC.objective, (exObj_get b).2, Except.map]; rfl
  simp [exCtrs, collect, Ctr.objective, Ctr.constraints, e, hl, exObj_constraints, o1, o2]

theorem exOptimize (pinv : Pinv) (hp : IsPinv pinv) :
    optimize pinv exSolver exSys (exCtrs 1 0) = .ok ([1, 1], 1) ∧
    optimize pinv exSolver exSys (exCtrs 0 1) = .ok ([0, 1], 1) := by
  obtain ⟨l, hl, hf⟩ := exRange
  have e : exSys.length = 2 := rfl
  have key : ∀ a b : ℝ, optimize pinv exSolver exSys (exCtrs a b)
      = if pair [a, b] [a, b] = 0 then .error .valueError
        else match exSolver [a, b] (l ++ [⟨projOf [a, b] ([1, 0], a), .eq, 0⟩]) 2 with
          | none => .error .valueError
          | some p => .ok (p, pair p [a, b] / pair [a, b] [a, b]) := by
    intro a b
    unfold optimize
    rw [exCollect a b l hl]
    simp only [objRows, List.isEmpty_cons, Bool.false_eq_true, if_false, List.map_cons, List.map_nil, pySeq, matVec_eq,
      exPinv pinv hp, dotL_eq, e]
    have := projRows_eq [([1, 0], a), ([0, 1], b)] [a, b]
    simp only [List.map_cons, List.map_nil] at this
    rw [this]
    rfl
  have ful : ∀ (a b x y : ℝ), Fulfils (l ++ [⟨projOf [a, b] ([1, 0], a), .eq, 0⟩]) [x, y] ↔
      ((-1 ≤ x ∧ x ≤ 1) ∧ (-1 ≤ y ∧ y ≤ 1)) ∧ pair (projOf [a, b] ([1, 0], a)) [x, y] = 0 := by
    intro a b x y
    rw [fulfils_append, hf]
    have := fulfils_eqs [projOf [a, b] ([1, 0], a)] [x, y]
    simp only [List.map_cons, List.map_nil, List.mem_singleton, forall_eq] at this
    rw [this]
  constructor
  · rw [key]
    have ho : Optimal [1, 0] (l ++ [⟨projOf [1, 0] ([1, 0], 1), .eq, 0⟩]) 2 [1, 1] := by
      refine ⟨rfl, ?_, ?_⟩
      · rw [ful]; norm_num [projOf, pair]
      · intro q hq hfq
        obtain ⟨x, y, rfl⟩ := List.length_eq_two.1 hq
        rw [ful] at hfq
        simp [pair, hfq.1.1.2]
    have hs : exSolver [1, 0] (l ++ [⟨projOf [1, 0] ([1, 0], 1), .eq, 0⟩]) 2 = some [1, 1] := by
      unfold exSolver; rw [if_pos ho]
    rw [hs]
    simp [pair]
  · rw [key]
    have hn : ¬ Optimal [0, 1] (l ++ [⟨projOf [0, 1] ([1, 0], 0), .eq, 0⟩]) 2 [1, 1] := by
      rintro ⟨_, h, _⟩
      rw [ful] at h
      have := h.2
      norm_num [projOf, pair] at this
    have ho : Optimal [0, 1] (l ++ [⟨projOf [0, 1] ([1, 0], 0), .eq, 0⟩]) 2 [0, 1] := by
      refine ⟨rfl, ?_, ?_⟩
      · rw [ful]; norm_num [projOf, pair]
      · intro q hq hfq
        obtain ⟨x, y, rfl⟩ := List.length_eq_two.1 hq
        rw [ful] at hfq
        simp [pair, hfq.1.2.2]
    have hs : exSolver [0, 1] (l ++ [⟨projOf [0, 1] ([1, 0], 0), .eq, 0⟩]) 2 = some [0, 1] := by
      unfold exSolver; rw [if_neg hn, if_pos ho]
    rw [hs]
    simp [pair]

/-- C38 fails for the last objective: `optimize` drops the last row of its equation (the comment in the code takes
it to be redundant).  Two electrodes make fields along x and y; asked for field 1 along x and 0 along y, the
best solution of the problem handed to the solver drives both electrodes, so the returned pattern has a field
along y as strong as the one along x. -/
theorem c38_last_objective_ignored : ∃ (s : List Elec) (ctrs : List Ctr), ∀ pinv, IsPinv pinv →
    ∃ solver, Correct solver ∧ ∃ p c, optimize pinv solver s ctrs = .ok (p, c) ∧
      ∃ q ∈ objectives s ctrs, pair q.1 p ≠ c * q.2 := by
  refine ⟨exSys, exCtrs 1 0, fun pinv hp => ⟨exSolver, exSolver_correct, [1, 1], 1, (exOptimize pinv hp).1,
    ([0, 1], 0), ?_, ?_⟩⟩
  · rw [exCtrs_objectives]; simp
  · norm_num [pair]

theorem exShims (pinv : Pinv) (hp : IsPinv pinv) :
    (shims pinv exSolver exSys [(⟨0, 0, 1⟩, none, ['x']), (⟨0, 0, 1⟩, none, ['y'])] [] none).2
      = .ok [some [1, 1], some [0, 1]] := by
  have e1 : derivToReducedIdx ['x'] = .ok (.one 0) := by decide
  have e2 : derivToReducedIdx ['y'] = .ok (.one 1) := by decide
  have ho : shimObjectives [(⟨0, 0, 1⟩, none, ['x']), (⟨0, 0, 1⟩, none, ['y'])] = .ok [exObj 0 0, exObj 0 1] := by
    simp [shimObjectives, potentialObjective, e1, e2, pySeq, exObj]
  obtain ⟨h1, h2⟩ := exOptimize pinv hp
  have c1 : [Ctr.range (some (-1)) (some 1) none] ++ ([exObj 0 0, exObj 0 1].modify 0 (SVC.setValue 1)).map .single
      = exCtrs 1 0 := rfl
  have c2 : [Ctr.range (some (-1)) (some 1) none] ++ ([exObj 0 0, exObj 0 1].modify 1 (SVC.setValue 1)).map .single
      = exCtrs 0 1 := rfl
  have b1 : ([exObj 0 0, exObj 0 1].modify 0 (SVC.setValue 1)).modify 0 (SVC.setValue 0) = [exObj 0 0, exObj 0 1] := rfl
  have b2 : ([exObj 0 0, exObj 0 1].modify 1 (SVC.setValue 1)).modify 1 (SVC.setValue 0) = [exObj 0 0, exObj 0 1] := rfl
  unfold shims
  rw [ho]
  have hr : List.range ([exObj 0 0, exObj 0 1] : List SVC).length = [0, 1] := rfl
  simp only [List.append_nil, Option.getD_none]
  rw [hr]
  simp only [shimLoop, shimStep, c1, c2, h1, h2, b1, b2]
  simp

/-- C39 fails for the last objective, for the same reason: the shim vector for the field along x also changes the
field along y by one. -/
theorem c39_last_objective_leaks : ∃ (s : List Elec) (x : V3), ∀ pinv, IsPinv pinv → ∃ solver, Correct solver ∧
    ∃ v w, (shims pinv solver s [(x, none, ['x']), (x, none, ['y'])] [] none).2 = .ok [some v, some w] ∧
      electricalAt (withDc s v) .dc [0] x = 1 ∧ electricalAt (withDc s v) .dc [1] x = 1 := by
  refine ⟨exSys, ⟨0, 0, 1⟩, fun pinv hp => ⟨exSolver, exSolver_correct, [1, 1], [0, 1], exShims pinv hp, ?_, ?_⟩⟩
  · obtain ⟨o, c, h1, _, h3, _, h5⟩ := c48_derivative exSys ⟨0, 0, 1⟩ [0] (by simp) ⟨some 0, none, none, none⟩ _
      (exSys_individual _)
    have e1 : derivToReducedIdx ([0].map axisLetter) = .ok (.one 0) := by decide
    simp only [potentialObjective, e1, Except.ok.injEq] at h1
    subst h1
    have := (exObj_get 0).1
    rw [show SVC.pot ⟨0, 0, 1⟩ ([0].map axisLetter).length (.one 0) none ⟨some 0, none, none, none⟩ = exObj 0 0 from rfl,
      this] at h3
    simp only [Except.ok.injEq, Option.some.injEq] at h3
    subst h3
    rw [← h5 [1, 1] rfl]
    simp [pair]
  · obtain ⟨o, c, h1, _, h3, _, h5⟩ := c48_derivative exSys ⟨0, 0, 1⟩ [1] (by simp) ⟨some 0, none, none, none⟩ _
      (exSys_individual _)
    have e1 : derivToReducedIdx ([1].map axisLetter) = .ok (.one 1) := by decide
    simp only [potentialObjective, e1, Except.ok.injEq] at h1
    subst h1
    have := (exObj_get 0).2
    rw [show SVC.pot ⟨0, 0, 1⟩ ([1].map axisLetter).length (.one 1) none ⟨some 0, none, none, none⟩ = exObj 0 1 from rfl,
      this] at h3
    simp only [Except.ok.injEq, Option.some.injEq] at h3
    subst h3
    rw [← h5 [1, 1] rfl]
    simp [pair]

/-- the hypotheses of `c39_shims_partial` and `c39_last_partial` are met in this case -/
example : ∃ o, shimObjectives [(⟨0, 0, 1⟩, none, ['x']), (⟨0, 0, 1⟩, none, ['y'])] = .ok o ∧
    (o ++ []).map (SVC.get exSys) = ([[1, 0]] ++ [[0, 1]] : List (List ℝ)).map (fun r => .ok (some r)) ∧
    objectives exSys ((none : Option (List Ctr)).getD [.range (some (-1)) (some 1) none]) = [] ∧
    pair [1, 0] [0, 1] = 0 ∧ pair [0, 1] [0, 1] = 1 := by
  have e1 : derivToReducedIdx ['x'] = .ok (.one 0) := by decide
  have e2 : derivToReducedIdx ['y'] = .ok (.one 1) := by decide
  refine ⟨[exObj 0 0, exObj 0 1], ?_, ?_, ?_, ?_, ?_⟩
  · simp [shimObjectives, potentialObjective, e1, e2, pySeq, exObj]
  · simp [exObj_get]
  · simp [objectives, asked]
  · norm_num [pair]
  · norm_num [pair]

/-- the hypotheses of the theorems about `optimize` and `shims` are met: there are a pseudoinverse and a solver as
assumed, and both functions succeed with them -/
example : ∃ pinv solver, IsPinv pinv ∧ Correct solver ∧ optimize pinv solver exSys (exCtrs 0 1) = .ok ([0, 1], 1) ∧
    (shims pinv solver exSys [(⟨0, 0, 1⟩, none, ['x']), (⟨0, 0, 1⟩, none, ['y'])] [] none).2
      = .ok [some [1, 1], some [0, 1]] := by
  obtain ⟨pinv, hp⟩ := exists_isPinv
  exact ⟨pinv, exSolver, hp, exSolver_correct, (exOptimize pinv hp).2, exShims pinv hp⟩

end Electrode
