import Verif.Props.AdjustMove

/-
C115: the positions of the moves of `Adjust` are minima of the total potential in all three directions.
-/
namespace Electrode

namespace Spec
/-- the total potential at a position -/
noncomputable def restEnergy (s : Sys) (q : V3) : Py ℝ :=
  match s.potential [q] 0 .tot with
  | .error e => .error e
  | .ok rows => .ok ((rows.getD 0 []).getD 0 0)

/-- nowhere around `p` is the total potential lower than at `p` -/
def RestsAt (s : Sys) (p : V3) : Prop :=
  ∃ ε > 0, ∀ q : V3, |q.x - p.x| < ε → |q.y - p.y| < ε → |q.z - p.z| < ε → ∀ v w, restEnergy s p = .ok v → restEnergy s q = .ok w → v ≤ w

/-- nowhere around the argument list `r` is the value of `f` lower than at `r` -/
def ListMin (f : List ℝ → Py ℝ) (r : List ℝ) : Prop :=
  ∃ ε > 0, ∀ r', List.Forall₂ (fun b a => |b - a| < ε) r' r → ∀ v w, f r = .ok v → f r' = .ok w → v ≤ w

/-- what is asked of `scipy.optimize.minimize`: it reports success only at local minima of the function -/
def FindsMinima (lib : MoveLib) : Prop :=
  ∀ m f g h x r, lib.minimize m f g h x = .ok (true, r) → r.length = x.length ∧ ListMin f r
end Spec
open Spec

theorem moveMin_rests (lib : MoveLib) (hl : FindsMinima lib) (m : String) (s : Sys) (x p : V3) (h : moveMin lib m s x = .ok p) : RestsAt s p := by
  unfold moveMin minimum at h
  have hf : ∀ a b c : ℝ, minimumF s 1 .float ![x.x, x.y, x.z] [0, 1, 2] [a, b, c] = restEnergy s ⟨a, b, c⟩ := by
    intro a b c
    have : coordPos 1 (setAxes .float ![x.x, x.y, x.z] [0, 1, 2] [a, b, c]) = ⟨a, b, c⟩ := by
      simp [coordPos, setAxes, Dtype.store, Function.update]
    unfold minimumF optF restEnergy
    rw [this]
    cases s.potential [⟨a, b, c⟩] 0 .tot <;> rfl
  split at h
  · cases h
  · rename_i q hq
    split at hq
    · cases hq
    · cases hq
    · rename_i r hr
      obtain ⟨h1, ε, h2, h3⟩ := hl _ _ _ _ _ _ hr
      match r, h1 with
      | [a, b, c], _ =>
        have hq := Except.ok.inj hq
        subst hq
        have hp := Except.ok.inj h
        have : p = ⟨a, b, c⟩ := by
          rw [← hp]
          simp [setAxes, Dtype.store, Function.update]
        subst this
        refine ⟨ε, h2, fun q hx hy hz v w hv hw => ?_⟩
        refine h3 [q.x, q.y, q.z] (.cons hx (.cons hy (.cons hz .nil))) v w ?_ ?_
        · rw [hf]; exact hv
        · rw [hf]; exact hw

/-- **C115.** With a minimiser that reports success only at local minima, `set_move_init` without a position starts from a local
minimum of the total potential in all three directions. -/
theorem c115_start_rests (lib : MoveLib) (hl : FindsMinima lib) (config : List (List String)) (order : OrderArg) (a a' : Adj) (p : V3)
    (labels : List (String × List ℝ)) (h : setMoveInit lib config .none order a = (.ok (p, labels), a')) : RestsAt a'.sys p ∧ a'.sys = a.sys := by
  unfold setMoveInit at h
  split at h
  · simp at h
  · rename_i q hq
    split at h
    · simp at h
    · split at h
      · simp at h
      · simp only [Prod.mk.injEq, Except.ok.injEq] at h
        obtain ⟨⟨rfl, -⟩, rfl⟩ := h
        exact ⟨moveMin_rests lib hl _ _ _ _ hq, rfl⟩

/-- **C115.** The position a successful `propose_move` returns is a local minimum, in all three directions, of the total potential with
the proposed voltages. -/
theorem c115_move_rests (lib : MoveLib) (hl : FindsMinima lib) (axis : Nat) (l dis : ℝ) (same : Bool) (method : MoveMethod) (a a' : Adj)
    (hr : Ready a) (dV : List ℝ) (m : Moved) (h : proposeMove lib axis l dis same method a = (.ok (dV, m), a')) : RestsAt a'.sys m.xm := by
  unfold proposeMove at h
  split at h
  · simp at h
  · rename_i dW hv
    cases hx : a.xms.getLast? with
    | none => simp [xmFreqChange, hx] at h
    | some old =>
      obtain ⟨b, h1, -⟩ := xmFreqChange_state lib a dW hr old hx
      rw [h1] at h
      cases hm : moveResult lib b old with
      | error e => rw [hm] at h; simp at h
      | ok m' =>
        rw [hm] at h
        simp only [Prod.mk.injEq, Except.ok.injEq] at h
        obtain ⟨⟨-, rfl⟩, rfl⟩ := h
        show RestsAt b.sys m'.xm
        unfold moveResult at hm
        split at hm
        · cases hm
        · rename_i p hp
          have hrest := moveMin_rests lib hl _ _ _ _ hp
          split at hm
          · cases hm
          · simp only at hm
            split at hm
            · cases hm
            · split at hm
              · cases hm
              · split at hm
                · cases hm
                · have := Except.ok.inj hm
                  subst this
                  exact hrest

/-- such a library, and a move it accepts: a field along `z` is compensated -/
noncomputable def exRestLib (eigh : Eigh) (argsort : Argsort) : MoveLib :=
  open Classical in
  ⟨fun _ f _ _ x => .ok (decide (ListMin f x), x), eigh, argsort, exSolveZ⟩

theorem exRestLib_finds (eigh : Eigh) (argsort : Argsort) : FindsMinima (exRestLib eigh argsort) := by
  intro m f g h x r hr
  simp only [exRestLib, Except.ok.injEq, Prod.mk.injEq, decide_eq_true_eq] at hr
  obtain ⟨h1, rfl⟩ := hr
  exact ⟨rfl, h1⟩

theorem exLift_total (q : V3) : restEnergy ⟨[⟨"a", 0, 0, .cover 50⟩], some 1⟩ q = .ok 0 := by
  unfold restEnergy Sys.potential
  rw [electrical_expand_eq _ [q] 0 (by norm_num) .dc (exLift_avail 0 0 .dc), exLift_pseudo 0 q 0 (by norm_num)]
  simp [flatten, productIdx, psT, addRows, sysTens_eq, Elec.voltD, Elec.volt]

theorem exRest_min (eigh : Eigh) (argsort : Argsort) (m : String) (x : V3) :
    ∃ p, moveMin (exRestLib eigh argsort) m ⟨[⟨"a", 0, 0, .cover 50⟩], some 1⟩ x = .ok p := by
  have : ListMin (minimumF ⟨[⟨"a", 0, 0, .cover 50⟩], some 1⟩ 1 .float ![x.x, x.y, x.z] [0, 1, 2]) [x.x, x.y, x.z] := by
    refine ⟨1, one_pos, fun r' _ v w hv hw => ?_⟩
    have key : ∀ q, minimumF ⟨[⟨"a", 0, 0, .cover 50⟩], some 1⟩ 1 .float ![x.x, x.y, x.z] [0, 1, 2] q = .ok 0 := by
      intro q
      have := exLift_total (coordPos 1 (setAxes .float ![x.x, x.y, x.z] [0, 1, 2] q))
      unfold minimumF optF
      unfold restEnergy at this
      rw [← this]
      cases Sys.potential ⟨[⟨"a", 0, 0, .cover 50⟩], some 1⟩ [coordPos 1 (setAxes .float ![x.x, x.y, x.z] [0, 1, 2] q)] 0 .tot <;> rfl
    rw [key] at hv hw
    rw [← Except.ok.inj hv, ← Except.ok.inj hw]
  unfold moveMin minimum
  simp [exRestLib, this]

example : ∃ lib : MoveLib, FindsMinima lib ∧ Ready (exLift 1 none) ∧
    (∃ r a', proposeMove lib 0 1 1 false .position (exLift 1 none) = (.ok r, a')) ∧
    ∃ r a', setMoveInit lib [["a"]] .none .none (exLift 0 none) = (.ok r, a') := by
  obtain ⟨eigh, he⟩ := exists_isEigh
  obtain ⟨argsort, hs⟩ := exists_isArgsort
  refine ⟨exRestLib eigh argsort, exRestLib_finds eigh argsort, exLift_ready _ _, ?_, ?_⟩
  · have hv : voltChange (exRestLib eigh argsort).solve (exLift 1 none) 0 1 1 false .position = .ok [50 * -(1 / 50)] := by
      unfold voltChange
      simp only [exLift, List.getLast?_singleton, pyGet, List.getElem?_cons_zero, exLift_grad, exLift_column]
      simp [exRestLib, exSolveZ]
    obtain ⟨b, h1, h2, h3, h4, h5⟩ := xmFreqChange_state (exRestLib eigh argsort) (exLift 1 none) [50 * -(1 / 50)] (exLift_ready 1 none)
      ⟨0, 0, 1⟩ rfl
    have hb : b = exLift 0 none := by
      rw [h3]
      simp [exLift, setFirst, moveConfig, histOf]
    subst hb
    have hm : ∃ m, moveResult (exRestLib eigh argsort) (exLift 0 none) ⟨0, 0, 1⟩ = .ok m := by
      unfold moveResult
      obtain ⟨p, hp⟩ := exRest_min eigh argsort "Nelder-Mead" ⟨0 + 0.01, 0 + 0.01, 1 + 0.01⟩
      have hp' : moveMin (exRestLib eigh argsort) "Nelder-Mead" (exLift 0 none).sys ⟨0 + 0.01, 0 + 0.01, 1 + 0.01⟩ = .ok p := hp
      rw [hp']
      obtain ⟨ew, cols, hmod⟩ := exLift_modes eigh argsort 0 p
      have hmod' : modes (exRestLib eigh argsort).eigh (exRestLib eigh argsort).argsort (exLift 0 none).sys p true = .ok (ew, cols) := hmod
      obtain ⟨k1, k2, -, k3, k4⟩ := modes_core eigh he argsort hs _ _ true ew cols hmod
      have hax := axes_perm _ _ ew cols _ k1 k2 k3 k4 (xOrder_perm argsort hs cols k2)
      simp only [hmod']
      have e1 : (takeIdx ew (xOrder (exRestLib eigh argsort).argsort cols)).length = 3 := hax.curves
      have e2 : ((takeIdx cols (xOrder (exRestLib eigh argsort).argsort cols)).map vecRow).length = 3 := hax.rows
      simp [exLift, pyGet, freqChange, e1, vecChange]
      simp only [List.length_map] at e2
      simp [e2]
    obtain ⟨m, hm⟩ := hm
    refine ⟨([50 * -(1 / 50)], m), exLift 0 (some ([50 * -(1 / 50)], m.xm, m.curves)), ?_⟩
    unfold proposeMove
    simp only [hv, h1, hm]
    rfl
  · obtain ⟨p, hp⟩ := exRest_min eigh argsort "Newton-CG" ⟨0, 0, 0⟩
    obtain ⟨ew, cols, hmod⟩ := exLift_modes eigh argsort 0 p
    have hp' : moveMin (exRestLib eigh argsort) "Newton-CG" (exLift 0 none).sys ⟨0, 0, 0⟩ = .ok p := hp
    have hmod' : modes (exRestLib eigh argsort).eigh (exRestLib eigh argsort).argsort (exLift 0 none).sys p true = .ok (ew, cols) := hmod
    simp only [setMoveInit, hp', hmod', orderAxes]
    exact ⟨_, _, rfl⟩

end Electrode
