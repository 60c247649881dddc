import Verif.Props.TraitCon

/-
C109, continued: `smooth`, wrong arguments, and the constraints of potential, force and curvature.
-/
namespace Electrode

open Spec

/-! ### mirrored ends -/

theorem pyGetInt_nat {α : Type} (l : List α) {i : Nat} (h : i < l.length) : pyGetInt l (i : Int) = .ok l[i] := by
  simp [pyGetInt, pyGet, h]

theorem pyGetInt_end {α : Type} (l : List α) {i : Nat} (h : i < l.length) :
    pyGetInt l (-(i : Int) - 1) = .ok (l[l.length - 1 - i]'(by omega)) := by
  unfold pyGetInt pyGet
  rw [if_neg (by omega), if_pos (by omega)]
  have e : (-(i : Int) - 1 + l.length).toNat = l.length - 1 - i := by omega
  rw [e, List.getElem?_eq_getElem (by omega)]

theorem along_neg {m : Nat} (vars : List (Fin m → ℝ)) (e : Fin m) {i : Nat} (h0 : 0 < i) (h : i < vars.length) :
    along vars e (-(i : Int)) = vars[i] e := by
  unfold along
  rw [if_pos (by omega)]
  simp [List.getD_eq_getElem?_getD, h]

theorem along_over {m : Nat} (vars : List (Fin m → ℝ)) (e : Fin m) {i : Nat} (h0 : 0 < i) (h : i < vars.length) :
    along vars e ((vars.length - 1 + i : Nat) : Int) = (vars[vars.length - 1 - i]'(by omega)) e := by
  unfold along
  rw [if_neg (by omega), if_neg (by omega)]
  have : (2 * ((vars.length : Int) - 1) - (vars.length - 1 + i : Nat)).toNat = vars.length - 1 - i := by omega
  rw [this]
  simp [List.getD_eq_getElem?_getD, show vars.length - 1 - i < vars.length by omega]

/-- C109: with `smooth` and order 2 the windows about the first and the last point of the mirrored path are added. -/
theorem c109_smooth_2 {m : Nat} (hm : 0 < m) {c : VoltCon} (ho : c.order = 2) (hd : 0 < c.delta) (hs : c.smooth = true)
    (hw : c.weight = 0) (he : c.equal = false) (hf : 0 < c.factor) {r : ℝ} (hr : c.range = some r) (hv : c.elec = none)
    (hn : c.norm ≠ .one) {vars : List (Fin m → ℝ)} (hl : c.delta < vars.length) :
    AllSat (traitConstraints c.weight c.equal (voltValues c vars)) ↔
      ∀ i : Int, i = -c.delta ∨ (0 ≤ i ∧ i + 2 * c.delta < vars.length) ∨ i = (vars.length : Int) - 1 - c.delta →
        ∀ e, |fdiff c.delta 2 (along vars e) i| ≤ r := by
  obtain ⟨d, hde⟩ : ∃ d, d = c.delta := ⟨_, rfl⟩
  rw [← hde] at hd hl ⊢
  have h0 : voltObj c.order d true vars = .ok (.convex, wins vars d 2 ++
      [fun e => |fdiff d 2 (along vars e) (-(d : Int))|, fun e => |fdiff d 2 (along vars e) ((vars.length : Int) - 1 - d)|]) := by
    have hp := voltObj_plain hd (show 2 ≤ 4 by norm_num) vars
    have g0 := pyGetInt_nat vars (i := 0) (by omega)
    have g1 := pyGetInt_nat vars hl
    have g2 := pyGetInt_end vars (i := 0) (by omega)
    have g3 := pyGetInt_end vars hl
    simp only [Nat.cast_zero, neg_zero, zero_sub] at g0 g2
    rw [ho]
    simp only [voltObj] at hp ⊢
    norm_num at hp ⊢
    rw [hp, g0, g1, g2, g3]
    simp only [Except.ok.injEq, Prod.mk.injEq, List.append_cancel_left_eq, List.cons.injEq, and_true, true_and]
    constructor
    · funext e
      rw [fd2, along_neg vars e hd hl, show -(d : Int) + d = ((0 : Nat) : Int) by push_cast; ring,
        show -(d : Int) + 2 * d = (d : Nat) by push_cast; ring, along_nat vars e (by omega), along_nat vars e hl, abs_sub_comm]
      congr 1
      ring
    · funext e
      have e1 : (vars.length : Int) - 1 - d = ((vars.length - 1 - d : Nat) : Int) := by omega
      have e2 : (vars.length : Int) - 1 - d + d = ((vars.length - 1 : Nat) : Int) := by omega
      have e3 : (vars.length : Int) - 1 - d + 2 * d = ((vars.length - 1 + d : Nat) : Int) := by omega
      rw [fd2, e2, e3, along_over vars e hd hl, e1, along_nat vars e (by omega), along_nat vars e (by omega), abs_sub_comm]
      congr 1
      simp only [Nat.sub_zero]
      ring
  have h1 : voltValues c vars = .ok ((wins vars d 2 ++
      [fun e => |fdiff d 2 (along vars e) (-(d : Int))|, fun e => |fdiff d 2 (along vars e) ((vars.length : Int) - 1 - d)|]).map
        (voltEntry c .convex)) := by
    unfold voltValues
    rw [hv, hs, ← hde, h0]
  rw [hw, he, allSat_le h1 fun v hv => ?_]
  · simp only [List.forall_mem_map, voltEntry_le hm hf hr, wins, if_neg hn, List.forall_mem_append, List.mem_range, List.mem_cons,
      List.not_mem_nil, or_false, forall_eq_or_imp, forall_eq]
    constructor
    · rintro ⟨h, ha, hb⟩
      refine ⟨ha, ?_⟩
      rintro i (⟨hi, hi'⟩ | rfl)
      · obtain ⟨j, rfl⟩ := Int.eq_ofNat_of_zero_le hi
        exact h j (by omega)
      · exact hb
    · rintro ⟨ha, h⟩
      exact ⟨fun i hi => h i (.inl ⟨by omega, by omega⟩), ha, h _ (.inr rfl)⟩
  · obtain ⟨w, -, rfl⟩ := List.mem_map.1 hv
    exact voltEntry_convex hf (by simp) w

/-- C109: with step 1 these are all windows about a point of the path -/
theorem c109_smooth {m : Nat} (hm : 0 < m) {c : VoltCon} (ho : c.order = 2) (hd : c.delta = 1) (hs : c.smooth = true)
    (hw : c.weight = 0) (he : c.equal = false) (hf : 0 < c.factor) {r : ℝ} (hr : c.range = some r) (hv : c.elec = none)
    (hn : c.norm ≠ .one) {vars : List (Fin m → ℝ)} (hl : 1 < vars.length) :
    AllSat (traitConstraints c.weight c.equal (voltValues c vars)) ↔
      ∀ i : Int, -1 ≤ i → i + 1 < vars.length → ∀ e, |fdiff 1 2 (along vars e) i| ≤ r := by
  rw [c109_smooth_2 hm ho (by omega) hs hw he hf hr hv hn (by omega), hd]
  constructor
  · intro h i h1 h2
    refine h i ?_
    push_cast
    omega
  · intro h i hi
    push_cast at hi
    exact h i (by omega) (by omega)

/-- C109: with `smooth` and order 4 the windows about the first and the last point of the mirrored path are added. -/
theorem c109_smooth_4 {m : Nat} (hm : 0 < m) {c : VoltCon} (ho : c.order = 4) (hd : 0 < c.delta) (hs : c.smooth = true)
    (hw : c.weight = 0) (he : c.equal = false) (hf : 0 < c.factor) {r : ℝ} (hr : c.range = some r) (hv : c.elec = none)
    (hn : c.norm ≠ .one) {vars : List (Fin m → ℝ)} (hl : 2 * c.delta < vars.length) :
    AllSat (traitConstraints c.weight c.equal (voltValues c vars)) ↔
      ∀ i : Int, i = -(2 * c.delta) ∨ (0 ≤ i ∧ i + 4 * c.delta < vars.length) ∨ i = (vars.length : Int) - 1 - 2 * c.delta →
        ∀ e, |fdiff c.delta 4 (along vars e) i| ≤ r := by
  obtain ⟨d, hde⟩ : ∃ d, d = c.delta := ⟨_, rfl⟩
  rw [← hde] at hd hl ⊢
  have h0 : voltObj c.order d true vars = .ok (.convex, wins vars d 4 ++
      [fun e => |fdiff d 4 (along vars e) (-(2 * d : Int))|, fun e => |fdiff d 4 (along vars e) ((vars.length : Int) - 1 - 2 * d)|]) := by
    have hp := voltObj_plain hd (show 4 ≤ 4 by norm_num) vars
    have g0 := pyGetInt_nat vars (i := 0) (by omega)
    have g1 := pyGetInt_nat vars (i := d) (by omega)
    have g2 := pyGetInt_nat vars hl
    have g3 := pyGetInt_end vars (i := 0) (by omega)
    have g4 := pyGetInt_end vars (i := d) (by omega)
    have g5 := pyGetInt_end vars hl
    simp only [Nat.cast_zero, neg_zero, zero_sub] at g0 g3
    push_cast at g2 g5
    rw [ho]
    simp only [voltObj] at hp ⊢
    norm_num at hp ⊢
    rw [hp, g0, g1, g2, g3, g4, g5]
    simp only [Except.ok.injEq, Prod.mk.injEq, List.append_cancel_left_eq, List.cons.injEq, and_true, true_and]
    constructor
    · funext e
      rw [fd4, show -(2 * (d : Int)) = -((2 * d : Nat) : Int) by push_cast; ring, along_neg vars e (by omega) hl,
        show -((2 * d : Nat) : Int) + d = -((d : Nat) : Int) by push_cast; ring,
        show -((2 * d : Nat) : Int) + 2 * d = ((0 : Nat) : Int) by push_cast; ring,
        show -((2 * d : Nat) : Int) + 3 * d = (d : Nat) by push_cast; ring,
        show -((2 * d : Nat) : Int) + 4 * d = (2 * d : Nat) by push_cast; ring,
        along_neg vars e hd (by omega), along_nat vars e hl, along_nat vars e (i := 0) (by omega), along_nat vars e (i := d) (by omega)]
      congr 1
      ring
    · funext e
      have e1 : (vars.length : Int) - 1 - 2 * d = ((vars.length - 1 - 2 * d : Nat) : Int) := by omega
      have e2 : (vars.length : Int) - 1 - 2 * d + d = ((vars.length - 1 - d : Nat) : Int) := by omega
      have e3 : (vars.length : Int) - 1 - 2 * d + 2 * d = ((vars.length - 1 : Nat) : Int) := by omega
      have e4 : (vars.length : Int) - 1 - 2 * d + 3 * d = ((vars.length - 1 + d : Nat) : Int) := by omega
      have e5 : (vars.length : Int) - 1 - 2 * d + 4 * d = ((vars.length - 1 + 2 * d : Nat) : Int) := by omega
      rw [fd4, e2, e3, e4, e5, along_over vars e (by omega) hl, along_over vars e hd (by omega), e1, along_nat vars e (by omega),
        along_nat vars e (by omega), along_nat vars e (by omega)]
      congr 1
      simp only [Nat.sub_zero]
      ring
  have h1 : voltValues c vars = .ok ((wins vars d 4 ++
      [fun e => |fdiff d 4 (along vars e) (-(2 * d : Int))|,
        fun e => |fdiff d 4 (along vars e) ((vars.length : Int) - 1 - 2 * d)|]).map (voltEntry c .convex)) := by
    unfold voltValues
    rw [hv, hs, ← hde, h0]
  rw [hw, he, allSat_le h1 fun v hv => ?_]
  · simp only [List.forall_mem_map, voltEntry_le hm hf hr, wins, if_neg hn, List.forall_mem_append, List.mem_range, List.mem_cons,
      List.not_mem_nil, or_false, forall_eq_or_imp, forall_eq]
    constructor
    · rintro ⟨h, ha, hb⟩
      refine ⟨ha, ?_⟩
      rintro i (⟨hi, hi'⟩ | rfl)
      · obtain ⟨j, rfl⟩ := Int.eq_ofNat_of_zero_le hi
        exact h j (by omega)
      · exact hb
    · rintro ⟨ha, h⟩
      exact ⟨fun i hi => h i (.inl ⟨by omega, by omega⟩), ha, h _ (.inr rfl)⟩
  · obtain ⟨w, -, rfl⟩ := List.mem_map.1 hv
    exact voltEntry_convex hf (by simp) w

/-- C109: for order 4, and for order 2 with a greater step, windows about other points near the ends are left out: here the
constraint allows no differences but there is one. -/
theorem c109_smooth_gap :
    (∃ vars : List (Fin 1 → ℝ), AllSat (traitConstraints 0 false (voltValues
        { weight := 0, order := 4, smooth := true, range := some 0 } vars)) ∧ fdiff 1 4 (along vars 0) (-1) ≠ 0) ∧
    ∃ vars : List (Fin 1 → ℝ), AllSat (traitConstraints 0 false (voltValues
        { weight := 0, order := 2, delta := 2, smooth := true, range := some 0 } vars)) ∧ fdiff 2 2 (along vars 0) (-1) ≠ 0 := by
  constructor
  · refine ⟨[fun _ => 0, fun _ => 1, fun _ => 4, fun _ => 5], ?_, ?_⟩
    · rw [c109_smooth_4 (c := { weight := 0, order := 4, smooth := true, range := some 0 }) (r := 0) (by norm_num) rfl (by norm_num) rfl rfl rfl
        (by norm_num) rfl rfl (by simp) (by simp)]
      rintro i (h | h | h) e
      · simp at h
        subst h
        simp [fd4, along]
      · simp at h
        omega
      · simp at h
        subst h
        simp [fd4, along]
        norm_num
    · simp [fd4, along]
      norm_num
  · refine ⟨[fun _ => 0, fun _ => 0, fun _ => 0, fun _ => 1, fun _ => 0], ?_, ?_⟩
    · rw [c109_smooth_2 (c := { weight := 0, order := 2, delta := 2, smooth := true, range := some 0 }) (r := 0) (by norm_num) rfl (by norm_num)
        rfl rfl rfl (by norm_num) rfl rfl (by simp) (by simp)]
      rintro i (h | h | h) e
      · simp at h
        subst h
        simp [fd2, along]
      · simp at h
        obtain rfl : i = 0 := by omega
        simp [fd2, along]
      · simp at h
        subst h
        simp [fd2, along]
    · simp [fd2, along]

/-- C109: other orders are not refused when the constraint is made, and fail when it is used -/
theorem c109_bad_order {m : Nat} {c : VoltCon} (h : c.order < -1 ∨ 4 < c.order) (hv : c.elec = none) (vars : List (Fin m → ℝ)) :
    voltValues c vars = .error .unboundLocalError := by
  unfold voltValues voltObj
  rw [hv]
  simp only [show c.order ≠ -1 by omega, show c.order ≠ 0 by omega, show c.order ≠ 1 by omega, show c.order ≠ 2 by omega,
    show c.order ≠ 3 by omega, show c.order ≠ 4 by omega, if_false]

/-- C109: a step of zero is accepted, and then nothing is constrained; a negative weight has neither constraint nor objective -/
theorem c109_ignored {m : Nat} {c : VoltCon} (vars : List (Fin m → ℝ)) (hw : c.weight = 0) :
    (c.delta = 0 → c.smooth = false → 1 ≤ c.order → c.order ≤ 4 → c.elec = none → AllSat (traitConstraints c.weight c.equal (voltValues c vars))) ∧
    ∀ (w : ℝ) (values : Py (List CvxExpr)), w < 0 → traitConstraints w c.equal values = .ok [] ∧ traitObjective w values = .ok [] := by
  constructor
  · intro hd hs h1 h4 hv
    have : voltValues c vars = .ok [] := by
      unfold voltValues voltObj
      rw [hv]
      obtain h | h | h | h : c.order = 1 ∨ c.order = 2 ∨ c.order = 3 ∨ c.order = 4 := by omega
      all_goals simp [h, hd, hs, sliceTo]
    rw [this, hw]
    refine ⟨[], ?_, by simp⟩
    simp [traitConstraints, pySeq]
  · intro w values hw
    constructor
    · unfold traitConstraints
      rw [if_neg hw.ne]
    · unfold traitObjective
      rw [if_neg (by linarith)]

end Electrode
