import Verif.Model.Dynamics
import Verif.Props.Pseudo
import Mathlib.Data.List.GetD

/-
C44, C74: what `trajectory` yields, and the acceleration it uses.
-/
namespace Electrode

namespace Spec

/-- speed and position after `k` calls of the integrator for intervals of length `dt`, from time `t`, speed `p` and
position `q` -/
noncomputable def integrated (integ : Integ) (force : ℝ → List ℝ → Py (List ℝ)) (nsteps : Nat) (dt : ℝ) :
    Nat → ℝ → List ℝ → List ℝ → Py (List ℝ × List ℝ)
  | 0, _, p, q => .ok (p, q)
  | k + 1, t, p, q =>
    match integ force nsteps t p q (t + dt) with
    | .error e => .error e
    | .ok r => integrated integ force nsteps dt k (t + dt) r.1 r.2.1

end Spec
open Spec

/-! ### arrays -/

theorem set_foldl_getElem? (ws : List (Fin 3 × ℝ)) (a : List ℝ) (i : Nat) (hi : ∀ w ∈ ws, w.1.val ≠ i) :
    (ws.foldl (fun a p => a.set p.1 p.2) a)[i]? = a[i]? := by
  induction ws generalizing a with
  | nil => rfl
  | cons w ws ih =>
    rw [List.foldl_cons, ih _ fun w' hw' => hi w' (by simp [hw']), List.getElem?_set_ne (hi w (by simp))]

theorem set_foldl_length (ws : List (Fin 3 × ℝ)) (a : List ℝ) : (ws.foldl (fun a p => a.set p.1 p.2) a).length = a.length := by
  induction ws generalizing a with
  | nil => rfl
  | cons w ws ih => rw [List.foldl_cons, ih]; simp

theorem set_foldl_congr (ws : List (Fin 3 × ℝ)) (a b : List ℝ) (hl : a.length = b.length)
    (h : ∀ i : Nat, (∀ w ∈ ws, w.1.val ≠ i) → a[i]? = b[i]?) :
    ws.foldl (fun a p => a.set p.1 p.2) a = ws.foldl (fun a p => a.set p.1 p.2) b := by
  induction ws generalizing a b with
  | nil => exact List.ext_getElem? fun i => h i (by simp)
  | cons w ws ih =>
    rw [List.foldl_cons, List.foldl_cons]
    refine ih _ _ (by simp [hl]) fun i hi => ?_
    by_cases hw : w.1.val = i
    · subst hw
      by_cases hlt : w.1.val < a.length
      · rw [List.getElem?_set_self hlt, List.getElem?_set_self (by omega)]
      · rw [List.getElem?_eq_none (by simp; omega), List.getElem?_eq_none (by simp; omega)]
    · rw [List.getElem?_set_ne hw, List.getElem?_set_ne hw]
      refine h i fun w' hw' => ?_
      rcases List.mem_cons.1 hw' with rfl | hw'
      · exact hw
      · exact hi w' hw'

/-- same contents except on the axes -/
def SameOff (axis : List (Fin 3)) (a b : List ℝ) : Prop :=
  a.length = b.length ∧ ∀ i : Nat, (∀ k ∈ axis, k.val ≠ i) → a[i]? = b[i]?

theorem putAxes_same (axis : List (Fin 3)) (a b q : List ℝ) (hq : q.length = axis.length) (h : SameOff axis a b) :
    putAxes a axis q = putAxes b axis q := by
  refine set_foldl_congr _ _ _ h.1 fun i hi => h.2 i fun k hk => ?_
  have hm : (axis.zip q).map Prod.fst = axis := List.map_fst_zip (by omega)
  rw [← hm] at hk
  obtain ⟨w, hw, rfl⟩ := List.mem_map.1 hk
  exact hi w hw

theorem putAxes_off (axis : List (Fin 3)) (a q : List ℝ) : SameOff axis (putAxes a axis q) a := by
  refine ⟨set_foldl_length _ _, fun i hi => set_foldl_getElem? _ _ _ fun w hw => hi w.1 ?_⟩
  exact (List.of_mem_zip hw).1

theorem SameOff.trans {axis : List (Fin 3)} {a b c : List ℝ} (h : SameOff axis a b) (h' : SameOff axis b c) : SameOff axis a c :=
  ⟨h.1.trans h'.1, fun i hi => (h.2 i hi).trans (h'.2 i hi)⟩

theorem trajectoryDdx_same (s : List Elec) (axis : List (Fin 3)) (a b : List ℝ) (h : SameOff axis a b) :
    trajectoryDdx s a axis = trajectoryDdx s b axis := by
  funext t q
  unfold trajectoryDdx
  split
  · rename_i hq
    rw [putAxes_same axis a b q hq h]
  · rfl

theorem read_set_ne (h : Arrays) (r r' : Nat) (v : List ℝ) (hne : r ≠ r') : Arrays.read (h.set r v) r' = h.read r' := by
  unfold Arrays.read
  rw [List.getD_eq_getElem?_getD, List.getD_eq_getElem?_getD, List.getElem?_set_ne hne]

theorem read_set_self (h : Arrays) (r : Nat) (v : List ℝ) (hr : r < h.length) : Arrays.read (h.set r v) r = v := by
  unfold Arrays.read
  rw [List.getD_eq_getElem _ _ (by simpa using hr), List.getElem_set_self]

theorem read_new_old (h : Arrays) (v : List ℝ) (r : Nat) (hr : r < h.length) : (h.new v).1.read r = h.read r := by
  unfold Arrays.read Arrays.new
  rw [List.getD_append _ _ _ _ hr]

theorem read_new_self (h : Arrays) (v : List ℝ) : (h.new v).1.read (h.new v).2 = v := by
  unfold Arrays.read Arrays.new
  simp

theorem new_length (h : Arrays) (v : List ℝ) : (h.new v).1.length = h.length + 1 := by simp [Arrays.new]

theorem integWrites_length (axis : List (Fin 3)) (h : Arrays) (st : TState) (p q : List ℝ) (last) :
    (integWrites axis h st p q last).length = h.length := by
  unfold integWrites
  cases last <;> simp

theorem integWrites_read (axis : List (Fin 3)) (h : Arrays) (st : TState) (p q : List ℝ) (last)
    (hd : st.p ≠ st.q ∧ st.p ≠ st.x0 ∧ st.q ≠ st.x0) (hl : st.p < h.length ∧ st.q < h.length ∧ st.x0 < h.length) :
    (integWrites axis h st p q last).read st.p = p ∧ (integWrites axis h st p q last).read st.q = q ∧
      SameOff axis ((integWrites axis h st p q last).read st.x0) (h.read st.x0) ∧
      ∀ r, r ≠ st.p → r ≠ st.q → r ≠ st.x0 → (integWrites axis h st p q last).read r = h.read r := by
  have h1 : Arrays.read ((h.set st.p p).set st.q q) st.x0 = h.read st.x0 := by
    rw [read_set_ne _ _ _ _ hd.2.2, read_set_ne _ _ _ _ hd.2.1]
  unfold integWrites
  cases last with
  | none =>
    refine ⟨?_, ?_, ?_, fun r a b c => ?_⟩
    · simp only; rw [read_set_ne _ _ _ _ (Ne.symm hd.1), read_set_self _ _ _ hl.1]
    · simp only; rw [read_set_self _ _ _ (by simpa using hl.2.1)]
    · simp only; rw [h1]; exact ⟨rfl, fun _ _ => rfl⟩
    · simp only; rw [read_set_ne _ _ _ _ (Ne.symm b), read_set_ne _ _ _ _ (Ne.symm a)]
  | some ql =>
    refine ⟨?_, ?_, ?_, fun r a b c => ?_⟩
    · simp only; rw [read_set_ne _ _ _ _ (Ne.symm hd.2.1), read_set_ne _ _ _ _ (Ne.symm hd.1), read_set_self _ _ _ hl.1]
    · simp only; rw [read_set_ne _ _ _ _ (Ne.symm hd.2.2), read_set_self _ _ _ (by simpa using hl.2.1)]
    · simp only; rw [read_set_self _ _ _ (by simpa using hl.2.2), h1]; exact putAxes_off _ _ _
    · simp only; rw [read_set_ne _ _ _ _ (Ne.symm c), read_set_ne _ _ _ _ (Ne.symm b), read_set_ne _ _ _ _ (Ne.symm a)]

/-! ### the generator -/

/-- what is known after `k` values were asked for from a state in the loop -/
structure Taken (integ : Integ) (s : List Elec) (axis : List (Fin 3)) (dt t1 : ℝ) (nsteps : Nat) (X0 : List ℝ)
    (k : Nat) (h : Arrays) (st : TState) (r : List (ℝ × Nat × Nat) × Arrays × GenEnd) : Prop where
  len : h.length ≤ r.2.1.length
  old : ∀ i, i < h.length → i ≠ st.p → i ≠ st.q → i ≠ st.x0 → r.2.1.read i = h.read i
  time : ∀ (j : Nat) (hj : j < r.1.length), r.1[j].1 = st.t + (j + 1) * dt ∧ st.t + j * dt < t1
  val : ∀ (j : Nat) (hj : j < r.1.length), h.length ≤ r.1[j].2.1 ∧ h.length ≤ r.1[j].2.2 ∧
    integrated integ (trajectoryDdx s X0 axis) nsteps dt (j + 1) st.t (h.read st.p) (h.read st.q) =
      .ok (r.2.1.read r.1[j].2.2, r.2.1.read r.1[j].2.1)
  fin : match r.2.2 with
    | .more => r.1.length = k
    | .exhausted => r.1.length < k ∧ t1 ≤ st.t + r.1.length * dt
    | .raised e => r.1.length < k ∧ st.t + r.1.length * dt < t1 ∧
        integrated integ (trajectoryDdx s X0 axis) nsteps dt (r.1.length + 1) st.t (h.read st.p) (h.read st.q) = .error e

theorem take_spec (integ : Integ) (s : List Elec) (axis : List (Fin 3)) (dt t1 : ℝ) (nsteps : Nat) (X0 : List ℝ)
    (k : Nat) (h : Arrays) (st : TState) (hd : st.p ≠ st.q ∧ st.p ≠ st.x0 ∧ st.q ≠ st.x0)
    (hl : st.p < h.length ∧ st.q < h.length ∧ st.x0 < h.length) (hX : SameOff axis (h.read st.x0) X0) :
    Taken integ s axis dt t1 nsteps X0 k h st (trajectoryTake integ s axis dt t1 nsteps k h st) := by
  induction k generalizing h st with
  | zero =>
    exact ⟨le_rfl, fun _ _ _ _ _ => rfl, fun j hj => absurd hj (by simp [trajectoryTake]),
      fun j hj => absurd hj (by simp [trajectoryTake]), rfl⟩
  | succ k ih =>
    rw [trajectoryTake]
    by_cases ht : st.t < t1
    · have hforce := trajectoryDdx_same s axis _ _ hX
      cases hi : integ (trajectoryDdx s X0 axis) nsteps st.t (h.read st.p) (h.read st.q) (st.t + dt) with
      | error e =>
        have hn : trajectoryNext integ s axis dt t1 nsteps h st = some (.error e) := by
          unfold trajectoryNext; rw [if_pos ht, hforce, hi]
        rw [hn]
        refine ⟨le_rfl, fun _ _ _ _ _ => rfl, fun j hj => absurd hj (by simp), fun j hj => absurd hj (by simp), ?_⟩
        refine ⟨by simp, by simpa using ht, ?_⟩
        simp only [integrated, hi]
      | ok res =>
        obtain ⟨p, q, last⟩ := res
        set h1 := integWrites axis h st p q last with hh1
        set st' : TState := { st with t := st.t + dt } with hst'
        have hn : trajectoryNext integ s axis dt t1 nsteps h st =
            some (.ok ((yieldCopies h1 st).1, st', (st.t + dt, (yieldCopies h1 st).2))) := by
          unfold trajectoryNext; rw [if_pos ht, hforce, hi]
        rw [hn]
        simp only
        obtain ⟨rp, rq, rx, ro⟩ := integWrites_read axis h st p q last hd hl
        rw [← hh1] at rp rq rx ro
        have l1 : h1.length = h.length := integWrites_length _ _ _ _ _ _
        -- the two copies
        set c1 := h1.new (h1.read st.q) with hc1
        set c2 := c1.1.new (c1.1.read st.p) with hc2
        have hy : yieldCopies h1 st = (c2.1, c1.2, c2.2) := rfl
        have lc1 : c1.1.length = h.length + 1 := by rw [hc1, new_length, l1]
        have lc2 : c2.1.length = h.length + 2 := by rw [hc2, new_length, lc1]
        have p1 : c1.2 = h.length := by rw [hc1]; exact l1
        have p2 : c2.2 = h.length + 1 := by rw [hc2]; exact lc1
        have old2 : ∀ i, i < h.length → c2.1.read i = h1.read i := by
          intro i hi'
          rw [hc2, read_new_old _ _ _ (by omega), hc1, read_new_old _ _ _ (by omega)]
        have vq : c2.1.read h.length = q := by
          have := read_new_self h1 (h1.read st.q)
          rw [← hc1, p1] at this
          rw [hc2, read_new_old _ _ _ (by omega), this, rq]
        have vp : c2.1.read (h.length + 1) = p := by
          have := read_new_self c1.1 (c1.1.read st.p)
          rw [← hc2, p2] at this
          rw [this, hc1, read_new_old _ _ _ (by omega), rp]
        rw [hy]
        have IH := ih c2.1 st' hd ⟨by have := hl.1; show st.p < _; omega, by have := hl.2.1; show st.q < _; omega,
          by have := hl.2.2; show st.x0 < _; omega⟩ (by
            show SameOff axis (c2.1.read st.x0) X0
            rw [old2 _ hl.2.2]; exact rx.trans hX)
        have i1 : c2.1.read st'.p = p := by show c2.1.read st.p = p; rw [old2 _ hl.1, rp]
        have i2 : c2.1.read st'.q = q := by show c2.1.read st.q = q; rw [old2 _ hl.2.1, rq]
        have hstep : ∀ m, integrated integ (trajectoryDdx s X0 axis) nsteps dt (m + 1) st.t (h.read st.p) (h.read st.q) =
            integrated integ (trajectoryDdx s X0 axis) nsteps dt m (st.t + dt) p q := by
          intro m; simp only [integrated, hi]
        have hp' : st.p < h.length := hl.1
        have hq' : st.q < h.length := hl.2.1
        have hx' : st.x0 < h.length := hl.2.2
        simp only
        generalize trajectoryTake integ s axis dt t1 nsteps k c2.1 st' = R at IH ⊢
        have IHold : ∀ i, i < h.length + 2 → i ≠ st.p → i ≠ st.q → i ≠ st.x0 → R.2.1.read i = c2.1.read i := by
          intro i hi'
          exact IH.old i (by omega)
        refine ⟨by have := IH.len; show h.length ≤ R.2.1.length; omega, fun i hi' a b c => ?_, fun j hj => ?_, fun j hj => ?_, ?_⟩
        · show R.2.1.read i = _
          rw [IHold i (by omega) a b c, old2 i hi', ro i a b c]
        · cases j with
          | zero => simpa using ht
          | succ j =>
            have := IH.time j (by simpa using hj)
            simp only [List.getElem_cons_succ]
            rw [this.1]
            refine ⟨?_, ?_⟩
            · show st.t + dt + _ = _; push_cast; ring
            · refine lt_of_eq_of_lt ?_ this.2
              show _ = st.t + dt + _; push_cast; ring
        · cases j with
          | zero =>
            simp only [List.getElem_cons_zero]
            refine ⟨by omega, by omega, ?_⟩
            rw [hstep]
            show Except.ok (p, q) = .ok (R.2.1.read c2.2, R.2.1.read c1.2)
            rw [p1, p2, IHold _ (by omega) (by omega) (by omega) (by omega), IHold _ (by omega) (by omega) (by omega) (by omega), vq, vp]
          | succ j =>
            obtain ⟨a, b, c⟩ := IH.val j (by simpa using hj)
            simp only [List.getElem_cons_succ]
            refine ⟨by omega, by omega, ?_⟩
            rw [hstep]
            rw [i1, i2] at c
            exact c
        · have := IH.fin
          have e : st.t + ((R.1.length + 1 : ℕ) : ℝ) * dt = st'.t + (R.1.length : ℝ) * dt := by
            show _ = st.t + dt + _; push_cast; ring
          simp only [List.length_cons]
          rw [i1, i2] at this
          cases hR : R.2.2 with
          | more => rw [hR] at this; simp only at this ⊢; omega
          | exhausted => rw [hR] at this; simp only at this ⊢; rw [e]; exact ⟨by omega, this.2⟩
          | raised e' =>
            rw [hR] at this; simp only at this ⊢
            rw [e, hstep]
            exact ⟨by omega, this.2⟩
    · have hn : trajectoryNext integ s axis dt t1 nsteps h st = none := by
        unfold trajectoryNext; rw [if_neg ht]
      rw [hn]
      refine ⟨le_rfl, fun _ _ _ _ _ => rfl, fun j hj => absurd hj (by simp), fun j hj => absurd hj (by simp), ?_⟩
      exact ⟨by simp, by simpa using ht⟩

/-- everything at once -/
theorem trajectory_spec (integ : Integ) (s : List Elec) (h : Arrays) (x0 v0 : Nat) (hx : x0 < h.length)
    (axis : List (Fin 3)) (t0 dt t1 : ℝ) (nsteps k : Nat) :
    let r := trajectory integ s h x0 v0 axis t0 dt t1 nsteps k
    (∀ i, i < h.length → r.2.1.read i = h.read i) ∧
    (∀ (j : Nat) (hj : j < r.1.length), r.1[j].1 = t0 + (j + 1) * dt ∧ t0 + j * dt < t1) ∧
    (∀ (j : Nat) (hj : j < r.1.length),
      integrated integ (trajectoryDdx s (h.read x0) axis) nsteps dt (j + 1) t0 (pickAxes (h.read v0) axis) (pickAxes (h.read x0) axis) =
        .ok (r.2.1.read r.1[j].2.2, r.2.1.read r.1[j].2.1)) ∧
    match r.2.2 with
    | .more => r.1.length = k
    | .exhausted => r.1.length < k ∧ t1 ≤ t0 + r.1.length * dt
    | .raised e => r.1.length < k ∧ t0 + r.1.length * dt < t1 ∧
        integrated integ (trajectoryDdx s (h.read x0) axis) nsteps dt (r.1.length + 1) t0 (pickAxes (h.read v0) axis)
          (pickAxes (h.read x0) axis) = .error e := by
  set p := h.new (pickAxes (h.read v0) axis) with hp
  set q := p.1.new (pickAxes (p.1.read x0) axis) with hq
  set x := q.1.new (q.1.read x0) with hxx
  have lp : p.1.length = h.length + 1 := new_length _ _
  have lq : q.1.length = h.length + 2 := by rw [hq, new_length, lp]
  have lx : x.1.length = h.length + 3 := by rw [hxx, new_length, lq]
  have ep : p.2 = h.length := rfl
  have eq' : q.2 = h.length + 1 := lp
  have ex : x.2 = h.length + 2 := lq
  have old : ∀ i, i < h.length → x.1.read i = h.read i := by
    intro i hi
    rw [hxx, read_new_old _ _ _ (by omega), hq, read_new_old _ _ _ (by omega), hp, read_new_old _ _ _ (by omega)]
  have px0 : p.1.read x0 = h.read x0 := read_new_old _ _ _ hx
  have qx0 : q.1.read x0 = h.read x0 := by rw [hq, read_new_old _ _ _ (by omega), px0]
  have rp : x.1.read p.2 = pickAxes (h.read v0) axis := by
    rw [hxx, read_new_old _ _ _ (by omega), hq, read_new_old _ _ _ (by omega)]
    exact read_new_self _ _
  have rq : x.1.read q.2 = pickAxes (h.read x0) axis := by
    rw [hxx, read_new_old _ _ _ (by omega)]
    exact (read_new_self p.1 _).trans (by rw [px0])
  have rx : x.1.read x.2 = h.read x0 := (read_new_self q.1 _).trans qx0
  have T := take_spec integ s axis dt t1 nsteps (h.read x0) k x.1 ⟨t0, p.2, q.2, x.2⟩
    ⟨by show p.2 ≠ q.2; omega, by show p.2 ≠ x.2; omega, by show q.2 ≠ x.2; omega⟩
    ⟨by show p.2 < _; omega, by show q.2 < _; omega, by show x.2 < _; omega⟩ (by
      show SameOff axis (x.1.read x.2) _
      rw [rx]; exact ⟨rfl, fun _ _ => rfl⟩)
  have hr : trajectory integ s h x0 v0 axis t0 dt t1 nsteps k = trajectoryTake integ s axis dt t1 nsteps k x.1 ⟨t0, p.2, q.2, x.2⟩ := rfl
  intro r
  rw [show r = _ from hr]
  obtain ⟨-, T2, T3, T4, T5⟩ := T
  simp only [rp, rq] at T4 T5
  exact ⟨fun i hi => (T2 i (by omega) (by show i ≠ p.2; omega) (by show i ≠ q.2; omega) (by show i ≠ x.2; omega)).trans (old i hi),
    T3, fun j hj => (T4 j hj).2.2, T5⟩

/-- **C44.** The times yielded are `t0 + dt`, `t0 + 2 dt`, ...; a value is yielded only as long as the previous time is before
`t1`. -/
theorem c44_times (integ : Integ) (s : List Elec) (h : Arrays) (x0 v0 : Nat) (hx : x0 < h.length)
    (axis : List (Fin 3)) (t0 dt t1 : ℝ) (nsteps k j : Nat)
    (hj : j < (trajectory integ s h x0 v0 axis t0 dt t1 nsteps k).1.length) :
    (trajectory integ s h x0 v0 axis t0 dt t1 nsteps k).1[j].1 = t0 + (j + 1) * dt ∧ t0 + j * dt < t1 :=
  (trajectory_spec integ s h x0 v0 hx axis t0 dt t1 nsteps k).2.1 j hj

/-- **C44.** However many values have been asked for, all positions and speeds yielded so far are those after one call of
the integrator per value, starting from the coordinates of `x0` and `v0` on the axes: values yielded before are not
altered by later steps. -/
theorem c44_values (integ : Integ) (s : List Elec) (h : Arrays) (x0 v0 : Nat) (hx : x0 < h.length)
    (axis : List (Fin 3)) (t0 dt t1 : ℝ) (nsteps k j : Nat)
    (hj : j < (trajectory integ s h x0 v0 axis t0 dt t1 nsteps k).1.length) :
    let r := trajectory integ s h x0 v0 axis t0 dt t1 nsteps k
    integrated integ (trajectoryDdx s (h.read x0) axis) nsteps dt (j + 1) t0 (axis.map fun i => (h.read v0).getD i 0)
      (axis.map fun i => (h.read x0).getD i 0) =
        .ok (r.2.1.read r.1[j].2.2, r.2.1.read r.1[j].2.1) :=
  (trajectory_spec integ s h x0 v0 hx axis t0 dt t1 nsteps k).2.2.1 j hj

/-- The arrays of the caller keep their contents. -/
theorem c44_arguments (integ : Integ) (s : List Elec) (h : Arrays) (x0 v0 : Nat) (hx : x0 < h.length)
    (axis : List (Fin 3)) (t0 dt t1 : ℝ) (nsteps k i : Nat) (hi : i < h.length) :
    (trajectory integ s h x0 v0 axis t0 dt t1 nsteps k).2.1.read i = h.read i :=
  (trajectory_spec integ s h x0 v0 hx axis t0 dt t1 nsteps k).1 i hi

/-- **C44.** When the generator is exhausted, the last time `t0 + n dt` (`t0` if nothing was yielded) is not before `t1`, and
it is less than one step after it. -/
theorem c44_end (integ : Integ) (s : List Elec) (h : Arrays) (x0 v0 : Nat) (hx : x0 < h.length)
    (axis : List (Fin 3)) (t0 dt t1 : ℝ) (nsteps k : Nat)
    (he : (trajectory integ s h x0 v0 axis t0 dt t1 nsteps k).2.2 = .exhausted) :
    let n := (trajectory integ s h x0 v0 axis t0 dt t1 nsteps k).1.length
    n < k ∧ t1 ≤ t0 + n * dt ∧ (0 < n → t0 + n * dt < t1 + dt) := by
  obtain ⟨-, h2, -, h4⟩ := trajectory_spec integ s h x0 v0 hx axis t0 dt t1 nsteps k
  rw [he] at h4
  refine ⟨h4.1, h4.2, fun hn => ?_⟩
  have := (h2 ((trajectory integ s h x0 v0 axis t0 dt t1 nsteps k).1.length - 1) (by omega)).2
  have e : (((trajectory integ s h x0 v0 axis t0 dt t1 nsteps k).1.length - 1 : ℕ) : ℝ) =
      (trajectory integ s h x0 v0 axis t0 dt t1 nsteps k).1.length - 1 := by
    push_cast [Nat.cast_sub (show 1 ≤ (trajectory integ s h x0 v0 axis t0 dt t1 nsteps k).1.length by omega)]; ring
  rw [e] at this
  linarith

/-- **C44.** As long as the generator can be asked for more, it has yielded all values asked for; for `dt > 0` it cannot be
asked for more than `(t1 - t0) / dt` and one values. -/
theorem c44_progress (integ : Integ) (s : List Elec) (h : Arrays) (x0 v0 : Nat) (hx : x0 < h.length)
    (axis : List (Fin 3)) (t0 dt t1 : ℝ) (hdt : 0 < dt) (nsteps k : Nat)
    (he : (trajectory integ s h x0 v0 axis t0 dt t1 nsteps k).2.2 = .more) :
    (trajectory integ s h x0 v0 axis t0 dt t1 nsteps k).1.length = k ∧ (0 < k → (k : ℝ) < (t1 - t0) / dt + 1) := by
  obtain ⟨-, h2, -, h4⟩ := trajectory_spec integ s h x0 v0 hx axis t0 dt t1 nsteps k
  rw [he] at h4
  refine ⟨h4, fun hk => ?_⟩
  have := (h2 (k - 1) (by omega)).2
  have e : ((k - 1 : ℕ) : ℝ) = (k : ℝ) - 1 := by
    push_cast [Nat.cast_sub (show 1 ≤ k by omega)]; ring
  rw [e] at this
  have : (k : ℝ) - 1 < (t1 - t0) / dt := by rw [lt_div_iff₀ hdt]; linarith
  linarith

/-- An exception is one of the integrator, in the step after those yielded. -/
theorem c44_raises (integ : Integ) (s : List Elec) (h : Arrays) (x0 v0 : Nat) (hx : x0 < h.length)
    (axis : List (Fin 3)) (t0 dt t1 : ℝ) (nsteps k : Nat) (e : PyErr)
    (he : (trajectory integ s h x0 v0 axis t0 dt t1 nsteps k).2.2 = .raised e) :
    let n := (trajectory integ s h x0 v0 axis t0 dt t1 nsteps k).1.length
    n < k ∧ t0 + n * dt < t1 ∧
      integrated integ (trajectoryDdx s (h.read x0) axis) nsteps dt (n + 1) t0 (axis.map fun i => (h.read v0).getD i 0)
        (axis.map fun i => (h.read x0).getD i 0) = .error e := by
  obtain ⟨-, -, -, h4⟩ := trajectory_spec integ s h x0 v0 hx axis t0 dt t1 nsteps k
  rw [he] at h4
  exact h4

/-! ### C74 -/

theorem putAxes_get (axis : List (Fin 3)) (a q : List ℝ) (ha : a.length = 3) (hq : q.length = axis.length) (hnd : axis.Nodup)
    (j : Nat) (hj : j < axis.length) : (putAxes a axis q).getD axis[j] 0 = q.getD j 0 := by
  induction axis generalizing a q j with
  | nil => simp at hj
  | cons k axis ih =>
    cases q with
    | nil => simp at hq
    | cons v q =>
      simp only [List.nodup_cons] at hnd
      show (putAxes (a.set k v) axis q).getD (k :: axis)[j] 0 = _
      cases j with
      | zero =>
        simp only [List.getElem_cons_zero, List.getD_cons_zero]
        have := (putAxes_off axis (a.set k v) q).2 k fun k' hk' e => hnd.1 (by rwa [Fin.ext e] at hk')
        rw [List.getD_eq_getElem?_getD, this, List.getElem?_set_self (by omega)]
        rfl
      | succ j =>
        simp only [List.getElem_cons_succ, List.getD_cons_succ]
        exact ih _ _ (by simpa using ha) (by simpa using hq) hnd.2 j (by simpa using hj)

theorem coord_getD (l : List ℝ) (i : Fin 3) : (![l.getD 0 0, l.getD 1 0, l.getD 2 0] : Fin 3 → ℝ) i = l.getD i 0 := by
  fin_cases i <;> rfl

theorem toNArr_at2 (f : List (List ℝ)) (a : Fin 3) : toNArr (f.getD 0 []) [a] = at2 f 0 (rowMajor [a]) := by
  unfold toNArr
  rw [idxToNidx_eq]
  rfl

theorem electricalAt_at2 (s : List Elec) (typ : VTyp) (x : V3) (u) (a : Fin 3) (h : electricalPotential s [x] 1 typ true = .ok u) :
    electricalAt s typ [a] x = at2 u 0 (rowMajor [a]) := by
  unfold electricalAt
  rw [show [a].length = 1 from rfl, h]
  rfl

/-- **C74 (partial).** The second derivative handed to the integrator is, on the axes chosen, the gradient of the electrical
potential at that instant, at the position with the coordinates `q` on the axes and those of `x0` elsewhere.  Missing: the
sign.  An ion is accelerated down the gradient, but the code uses the gradient itself, see `c74_uphill`. -/
theorem c74_acceleration_partial (s : List Elec) (x0 : List ℝ) (hx0 : x0.length = 3) (axis : List (Fin 3)) (t : ℝ) (q f : List ℝ)
    (h : trajectoryDdx s x0 axis t q = .ok f) :
    ∃ x : V3, (∀ i, i ∉ axis → ![x.x, x.y, x.z] i = x0.getD i 0) ∧
      (axis.Nodup → ∀ (j : Nat) (hj : j < axis.length), ![x.x, x.y, x.z] axis[j] = q.getD j 0) ∧
      f = axis.map fun a => electricalAt s .dc [a] x + Real.cos t * electricalAt s .rf [a] x := by
  unfold trajectoryDdx at h
  split at h
  · rename_i hq
    simp only at h
    cases hp : timePotential s [⟨(putAxes x0 axis q).getD 0 0, (putAxes x0 axis q).getD 1 0, (putAxes x0 axis q).getD 2 0⟩] 1 t true with
    | error e => rw [hp] at h; cases h
    | ok r =>
      rw [hp] at h
      injection h with h
      refine ⟨⟨(putAxes x0 axis q).getD 0 0, (putAxes x0 axis q).getD 1 0, (putAxes x0 axis q).getD 2 0⟩, fun i hi => ?_,
        fun hnd j hj => ?_, ?_⟩
      · rw [coord_getD, List.getD_eq_getElem?_getD, List.getD_eq_getElem?_getD,
          (putAxes_off axis x0 q).2 i fun k hk e => hi (by rwa [Fin.ext e] at hk)]
      · rw [coord_getD, putAxes_get axis x0 q hx0 hq hnd j hj]
      · obtain ⟨⟨u, hu⟩, w, hw⟩ := (c31_time_potential s _ 1 t true).2 r hp
        obtain ⟨r', hr', -, hv⟩ := (c31_time_potential s _ 1 t true).1 u w hu hw
        rw [hp] at hr'
        injection hr' with hr'
        subst hr'
        rw [← h]
        refine List.map_congr_left fun a _ => ?_
        rw [toNArr_at2, hv, electricalAt_at2 s .dc _ u a hu, electricalAt_at2 s .rf _ w a hw]
  · cases h

/-- when the function for the second derivative can be evaluated -/
theorem ddx_ok (s : List Elec) (x0 : List ℝ) (axis : List (Fin 3)) (t : ℝ) (q : List ℝ) (hq : q.length = axis.length)
    (hd : AvailAll s 1 .dc) (hr : AvailAll s 1 .rf) : ∃ f, trajectoryDdx s x0 axis t q = .ok f := by
  unfold trajectoryDdx
  rw [if_pos hq]
  simp only
  obtain ⟨r, hr', -⟩ := (c31_time_potential s [⟨(putAxes x0 axis q).getD 0 0, (putAxes x0 axis q).getD 1 0,
    (putAxes x0 axis q).getD 2 0⟩] 1 t true).1 _ _ (electrical_expand_eq s _ 1 (by norm_num) .dc hd)
    (electrical_expand_eq s _ 1 (by norm_num) .rf hr)
  rw [hr']
  exact ⟨_, rfl⟩

/-- The sign: in a static potential the acceleration points up the gradient, never down: its product with the gradient on
the axes is the square of that gradient. -/
theorem c74_uphill (s : List Elec) (hs : ∀ e ∈ s, e.rf = 0) (x0 : List ℝ) (hx0 : x0.length = 3) (axis : List (Fin 3)) (t : ℝ)
    (q f : List ℝ) (h : trajectoryDdx s x0 axis t q = .ok f) :
    ∃ x : V3, (∀ i, i ∉ axis → ![x.x, x.y, x.z] i = x0.getD i 0) ∧
      (axis.Nodup → ∀ (j : Nat) (hj : j < axis.length), ![x.x, x.y, x.z] axis[j] = q.getD j 0) ∧
      (List.zipWith (· * ·) f (axis.map fun a => electricalAt s .dc [a] x)).sum =
        (axis.map fun a => electricalAt s .dc [a] x ^ 2).sum := by
  obtain ⟨x, h1, h2, rfl⟩ := c74_acceleration_partial s x0 hx0 axis t q f h
  refine ⟨x, h1, h2, ?_⟩
  have hz : ∀ a, electricalAt s .rf [a] x = 0 := by
    intro a
    rw [electricalAt_eq s .rf [a] (by simp) x fun e he hne => absurd (hs e he) hne, sysTens_eq]
    refine List.sum_eq_zero fun y hy => ?_
    obtain ⟨e, he, rfl⟩ := List.mem_map.1 hy
    rw [show e.voltD .rf = 0 from hs e he, zero_mul]
  simp only [hz, mul_zero, add_zero]
  rw [List.zipWith_map_left, List.zipWith_map_right, List.zipWith_self]
  simp only [sq]

/-- **C74 does not hold**: between a plane at zero and a plane at one volt, an ion is accelerated towards the higher
potential. -/
theorem c74_wrong_sign : ∃ (s : List Elec) (x0 : List ℝ) (f : ℝ), 0 < f ∧
    trajectoryDdx s x0 [2] 0 [1] = .ok [f] ∧ f = electricalAt s .dc [2] ⟨0, 0, 1⟩ + Real.cos 0 * electricalAt s .rf [2] ⟨0, 0, 1⟩ := by
  have hav : ∀ typ, AvailAll [⟨"a", 1, 0, .cover 2⟩] 1 typ := fun typ e he _ => by
    simp only [List.mem_singleton] at he
    subst he
    trivial
  obtain ⟨f, hf⟩ := ddx_ok [⟨"a", 1, 0, .cover 2⟩] [0, 0, 0] [2] 0 [1] rfl (hav _) (hav _)
  obtain ⟨x, h1, h2, h3⟩ := c74_acceleration_partial _ _ rfl _ _ _ _ hf
  have hx : x = ⟨0, 0, 1⟩ := by
    have a := h1 0 (by decide)
    have b := h1 1 (by decide)
    have c := h2 (by decide) 0 (by decide)
    ext
    · simpa using a
    · simpa using b
    · simpa using c
  subst hx
  refine ⟨_, _, _, ?_, by rw [hf, h3]; rfl, rfl⟩
  have e1 : ∀ typ, electricalAt [⟨"a", 1, 0, .cover 2⟩] typ [2] ⟨0, 0, 1⟩ = (⟨"a", 1, 0, .cover 2⟩ : Elec).voltD typ * (1 / 2) := by
    intro typ
    rw [electricalAt_eq _ typ [2] (by simp) _ (hav typ), sysTens_eq]
    have hsel : entrySel 1 [2] = .one 2 := by decide
    have hc : coverContrib 2 1 ⟨0, 0, 1⟩ 2 = 1 / 2 := by simp [coverContrib]
    simp [tens, hsel, selVal, Shape.contrib, hc]
  rw [e1, e1]
  simp [Elec.voltD, Elec.volt]

/-! ### a run -/

/-- an integrator that makes explicit Euler steps -/
noncomputable def eulerInteg : Integ := fun f _ t p q t' =>
  match f t q with
  | .error e => .error e
  | .ok a => .ok (List.zipWith (fun p a => p + (t' - t) * a) p a, List.zipWith (fun q p => q + (t' - t) * p) q p, some q)

/-- a case: no electrodes, two axes, free motion; two of three values asked for are yielded, then the generator is
exhausted -/
example : ∃ h : Arrays, trajectory eulerInteg [] [[1, 2, 3], [4, 5, 6]] 0 1 [0, 2] 0 1 2 1 3 =
    ([(1, 5, 6), (2, 7, 8)], h, .exhausted) ∧ h.read 5 = [5, 9] ∧ h.read 7 = [9, 15] ∧ h.read 0 = [1, 2, 3] := by
  have hav : ∀ typ, AvailAll [] 1 typ := fun typ e he => absurd he (by simp)
  have hf : ∀ (x : List ℝ) (t a b : ℝ), x.length = 3 → trajectoryDdx [] x [0, 2] t [a, b] = .ok [0, 0] := by
    intro x t a b hx
    obtain ⟨f, hf⟩ := ddx_ok [] x [0, 2] t [a, b] rfl (hav _) (hav _)
    obtain ⟨y, -, -, h3⟩ := c74_acceleration_partial [] x hx [0, 2] t [a, b] f hf
    have e1 : ∀ typ i, electricalAt [] typ [i] y = 0 := by
      intro typ i
      rw [electricalAt_eq _ typ [i] (by simp) _ (hav typ), sysTens_eq]
      rfl
    rw [hf, h3]
    simp [e1]
  have hE : ∀ (x : List ℝ) (n : Nat) (t a b c d t' : ℝ), x.length = 3 → eulerInteg (trajectoryDdx [] x [0, 2]) n t [a, b] [c, d] t' =
      .ok ([a, b], [c + (t' - t) * a, d + (t' - t) * b], some [c, d]) := by
    intro x n t a b c d t' hx
    simp only [eulerInteg, hf x t c d hx]
    simp
  have hE' := fun (x y z : ℝ) n t a b c d t' => hE [x, y, z] n t a b c d t' rfl
  norm_num [trajectory, Arrays.new, Arrays.read, pickAxes, trajectoryTake, trajectoryNext, integWrites, putAxes, yieldCopies, hE']

end Electrode
