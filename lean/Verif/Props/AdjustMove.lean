import Verif.Model.AdjustMove
import Verif.Props.VoltChange
import Verif.Props.Modes

/-
C115: the moves of `Adjust`.
-/
namespace Electrode
open Spec

section lemmas

/-- the dc voltages of the first electrode of each name, from a dictionary -/
def setFirst (f : String → Option ℝ) : List String → List Elec → List Elec
  | _, [] => []
  | seen, e :: t => if e.name ∈ seen then e :: setFirst f seen t
      else { e with dc := (f e.name).getD e.dc } :: setFirst f (e.name :: seen) t

theorem setFirst_comp (f g : String → Option ℝ) (els : List Elec) : ∀ seen,
    setFirst g seen (setFirst f seen els) = setFirst (fun n => (g n).or (f n)) seen els := by
  induction els with
  | nil => intro _; rfl
  | cons e t ih =>
    intro seen
    unfold setFirst
    split_ifs with h
    · simp only [setFirst, if_pos h, ih]
    · simp only [setFirst, if_neg h, ih, List.cons.injEq, and_true]
      cases g e.name <;> simp

theorem setFirst_none (f : String → Option ℝ) (els : List Elec) : ∀ seen, (∀ n ∉ seen, f n = none) → setFirst f seen els = els := by
  induction els with
  | nil => intro _ _; rfl
  | cons e t ih =>
    intro seen h
    unfold setFirst
    split_ifs with hs
    · rw [ih seen h]
    · rw [h _ hs, ih _ fun n hn => h n fun hn' => hn (List.mem_cons_of_mem _ hn')]
      rfl

theorem setDcByName_first (name : String) (v : ℝ) (els : List Elec) : ∀ (els' : List Elec) seen, name ∉ seen →
    setDcByName name v els = some els' → els' = setFirst (fun n => if n = name then some v else none) seen els := by
  induction els with
  | nil => intro els' seen _ h; simp [setDcByName] at h
  | cons e t ih =>
    intro els' seen hs h
    unfold setDcByName at h
    split_ifs at h with hn
    · obtain rfl := Option.some.inj h
      have hes : e.name ∉ seen := by rw [hn]; exact hs
      simp only [setFirst, if_neg hes, if_pos hn, Option.getD_some]
      rw [setFirst_none]
      intro n hn'
      rw [if_neg]
      rintro rfl
      exact hn' (by rw [← hn]; exact List.mem_cons_self)
    · cases ht : setDcByName name v t with
      | none => rw [ht] at h; cases h
      | some t' =>
        rw [ht] at h
        obtain rfl := Option.some.inj h
        unfold setFirst
        split_ifs with hes
        · rw [ih t' seen hs ht]
        · rw [← ih t' _ (by
            intro hc
            rcases List.mem_cons.1 hc with rfl | hc
            · exact hn rfl
            · exact hs hc) ht]
          simp [hn]

theorem steps_setOne_first (cfg : List (String × ℝ)) : ∀ (a a' : Adj), (cfg.map Prod.fst).Nodup → steps setOne cfg a = (none, a') →
    a' = { a with sys := { a.sys with els := setFirst (fun n => cfg.lookup n) [] a.sys.els } } := by
  induction cfg with
  | nil =>
    intro a a' _ h
    obtain rfl : a = a' := by simpa [steps] using h
    have := setFirst_none (fun n => List.lookup n ([] : List (String × ℝ))) a.sys.els [] fun n _ => rfl
    rw [this]
  | cons p t ih =>
    intro a a' hk h
    obtain ⟨name, v⟩ := p
    unfold steps at h
    cases hd : setDcByName name v a.sys.els with
    | none => simp [setOne, hd] at h
    | some els =>
      simp only [setOne, hd] at h
      have hkt : (t.map Prod.fst).Nodup := (List.nodup_cons.1 hk).2
      have hnt : name ∉ t.map Prod.fst := (List.nodup_cons.1 hk).1
      rw [ih _ _ hkt h]
      simp only [setDcByName_first name v a.sys.els els [] (by simp) hd, setFirst_comp]
      congr 3
      funext n
      rw [List.lookup_cons]
      by_cases hn : n = name
      · subst hn
        rw [(lookup_none_iff t n).2 hnt]
        simp
      · rw [if_neg hn, show (n == name) = false from by simpa using hn]
        simp

/-- the system after `set_volts` without saving -/
theorem setVolts_first (cfg : List (String × ℝ)) (a a' : Adj) (hk : (cfg.map Prod.fst).Nodup) (h : setVolts cfg false a = (none, a')) :
    a' = { a with sys := { a.sys with els := setFirst (fun n => cfg.lookup n) [] a.sys.els } } := by
  unfold setVolts at h
  cases hs : steps setOne cfg a with
  | mk e b =>
    rw [hs] at h
    cases e with
    | some e => simp at h
    | none =>
      simp only [Bool.false_eq_true, if_false, Prod.mk.injEq, true_and] at h
      subst h
      exact steps_setOne_first cfg a b hk hs

theorem coefColumn_congr (x : V3) (els els' : List Elec)
    (h : els'.map (fun e => ({ e with dc := 0 } : Elec)) = els.map (fun e => ({ e with dc := 0 } : Elec))) (g : List String) :
    coefColumn els' x g = coefColumn els x g := by
  have hfind : ∀ (els els' : List Elec), els'.map (fun e => ({ e with dc := 0 } : Elec)) = els.map (fun e => ({ e with dc := 0 } : Elec)) →
      ∀ n : String, (els'.find? fun e => e.name = n).map (·.shape) = (els.find? fun e => e.name = n).map (·.shape) := by
    intro els
    induction els with
    | nil => intro els' h n; simp at h; rw [h]
    | cons e t ih =>
      intro els' h n
      cases els' with
      | nil => simp at h
      | cons e' t' =>
        simp only [List.map_cons, List.cons.injEq, Elec.mk.injEq] at h
        obtain ⟨⟨h1, -, -, h4⟩, h5⟩ := h
        simp only [List.find?_cons, h1]
        by_cases hn : e.name = n
        · simp [hn, h4]
        · simp only [hn, decide_false]
          exact ih t' h5 n
  induction g with
  | nil => rfl
  | cons n g ih =>
    unfold coefColumn
    have := hfind els els' h n
    cases h1 : els.find? fun e => e.name = n with
    | none =>
      rw [h1] at this
      cases h2 : els'.find? fun e => e.name = n with
      | none => rfl
      | some e' => rw [h2] at this; simp at this
    | some e =>
      rw [h1] at this
      cases h2 : els'.find? fun e => e.name = n with
      | none => rw [h2] at this; simp at this
      | some e' =>
        rw [h2] at this
        have hsh : e'.shape = e.shape := by simpa using this
        have : e'.potential [x] 1 1 none = e.potential [x] 1 1 none := by
          unfold Elec.potential
          rw [hsh]
        simp only [this, ih]

/-- what `xm_freq_change` does to the object, whether it raises or not -/
theorem xmFreqChange_state (lib : MoveLib) (a : Adj) (dV : List ℝ) (hr : Ready a) (old : V3) (hx : a.xms.getLast? = some old) :
    ∃ b, xmFreqChange lib dV a = (moveResult lib b old, b) ∧ setVolts (moveConfig a dV) false a = (none, b) ∧
      b = { a with sys := { a.sys with els := setFirst (fun n => (moveConfig a dV).lookup n) [] a.sys.els } } ∧
      sameOtherwise a b ∧ (∀ n, dcOf b n = ((moveConfig a dV).lookup n).or (dcOf a n)) := by
  obtain ⟨hs, hc⟩ := Ready_savable a dV hr
  obtain ⟨b, h1, h2, h3, h4⟩ := c64_nosave a _ hs.keys hs.known
  refine ⟨b, ?_, h1, setVolts_first _ a b hs.keys h1, h2, h3⟩
  unfold xmFreqChange
  simp only [hx, hc, h1]

theorem els_names (els els' : List Elec)
    (h : els'.map (fun e => ({ e with dc := 0 } : Elec)) = els.map (fun e => ({ e with dc := 0 } : Elec))) :
    els'.map (·.name) = els.map (·.name) := by
  have := congrArg (List.map fun e : Elec => e.name) h
  simpa [List.map_map, Function.comp_def] using this

theorem Ready_same (a b : Adj) (hr : Ready a) (h : sameOtherwise a b) (hv : b.volts = a.volts) : Ready b := by
  have hn : sysNames b = sysNames a := els_names _ _ h.2.2.2.2.2.2
  refine ⟨by rw [h.1]; exact hr.disjoint, ?_, by simp only [histNames, hv]; exact hr.histKeys, ?_⟩
  · rw [h.1, hn]
    simp only [histNames, hv]
    exact hr.known
  · intro n k hk
    exact hr.started n k (by simpa only [histOf, hv] using hk)

theorem zip_mem_of_get {α β : Type*} (l : List α) (m : List β) (i : Nat) (x : α) (y : β) (hx : l[i]? = some x) (hy : m[i]? = some y) :
    (x, y) ∈ l.zip m := by
  refine List.mem_of_getElem? (i := i) ?_
  rw [List.getElem?_zip_eq_some]
  exact ⟨hx, hy⟩

/-- the voltages a move sets -/
theorem moveConfig_lookup (a : Adj) (dV : List ℝ) (hr : Ready a) :
    (∀ (i : Nat) (g : List String) (n : String) (d : ℝ) (k : List ℝ) (v : ℝ), a.config[i]? = some g → dV[i]? = some d → n ∈ g → histOf a n = some k → k.getLast? = some v →
      (moveConfig a dV).lookup n = some (v + d)) ∧
    ∀ n, n ∉ a.config.flatten → (moveConfig a dV).lookup n = none := by
  have hsub : List.Sublist ((a.config.zip dV).map Prod.fst).flatten a.config.flatten := (zip_fst_sublist _ _).flatten
  refine ⟨?_, ?_⟩
  · intro i g n d k v hg hd hn hk hv
    have hl := (lookup_flat a n d (a.config.zip dV) (hr.disjoint.sublist hsub)).1 g (zip_mem_of_get _ _ i g d hg hd) hn
    have e : ((histOf a n).getD []).getLastD 0 = v := by simp [hk, List.getLastD_eq_getLast?, hv]
    rw [e] at hl
    exact hl
  · intro n hn
    exact (lookup_flat a n 0 (a.config.zip dV) (hr.disjoint.sublist hsub)).2 fun hm => hn (hsub.subset hm)

theorem moveConfig_dom (a : Adj) (dV dW : List ℝ) (h : dV.length = dW.length) (n : String) :
    (moveConfig a dV).lookup n = none ↔ (moveConfig a dW).lookup n = none := by
  rw [lookup_none_iff, lookup_none_iff, moveConfig_keys, moveConfig_keys]
  have : ∀ (c : List (List String)) (l m : List ℝ), l.length = m.length → (c.zip l).map Prod.fst = (c.zip m).map Prod.fst := by
    intro c
    induction c with
    | nil => intro l m _; simp
    | cons g t ih =>
      intro l m h
      cases l <;> cases m <;> simp at h
      · rfl
      · simp [ih _ _ h]
  rw [this a.config dV dW h]

end lemmas

namespace Spec
/-- three axes of the total potential at `x`: orthonormal vectors, the rows of `bs`, each an eigenvector of the matrix of
second derivatives for the entry of `cv` with the same number -/
structure Axes (s : Sys) (x : V3) (cv : List ℝ) (bs : List (List ℝ)) : Prop where
  curves : cv.length = 3
  rows : bs.length = 3
  eig : ∀ j < 3, ∀ i : Fin 3, ∑ k : Fin 3, totalAt s [i, k] x * (bs.getD j []).getD k 0 = cv.getD j 0 * (bs.getD j []).getD i 0
  ortho : ∀ j < 3, ∀ j' < 3, ∑ i : Fin 3, (bs.getD j []).getD i 0 * (bs.getD j' []).getD i 0 = if j = j' then 1 else 0

/-- a call of the user in the course of a sequence of moves -/
inductive MoveOp
  | propose (axis : Nat) (l dis : ℝ) (sameScale : Bool) (method : MoveMethod)
  | accept
  | reject

/-- a sequence of calls; the user catches every exception and goes on.  Counts the accepted moves that did not raise. -/
noncomputable def runMoves (lib : MoveLib) : List MoveOp → Adj → Nat × Adj
  | [], a => (0, a)
  | .propose axis l dis same method :: t, a => runMoves lib t (proposeMove lib axis l dis same method a).2
  | .accept :: t, a =>
    match nextStep none true a with
    | (none, b) => ((runMoves lib t b).1 + 1, (runMoves lib t b).2)
    | (some _, b) => runMoves lib t b
  | .reject :: t, a => runMoves lib t (nextStep none false a).2
end Spec

/-! ### the axes -/

theorem vecRow_get (v : Fin 3 → ℝ) (i : Fin 3) : (vecRow v).getD i 0 = v i := by fin_cases i <;> rfl

theorem axes_perm (s : Sys) (x : V3) (ew : List ℝ) (cols : List (Fin 3 → ℝ)) (o : List Nat) (h1 : ew.length = 3) (h2 : cols.length = 3)
    (h3 : ∀ (j : Nat) (i : Fin 3), j < 3 → ∑ k, totalAt s [i, k] x * cols.getD j 0 k = ew.getD j 0 * cols.getD j 0 i)
    (h4 : ∀ j j' : Nat, j < 3 → j' < 3 → ∑ i, cols.getD j 0 i * cols.getD j' 0 i = if j = j' then 1 else 0)
    (ho : o.Perm (List.range 3)) : Axes s x (takeIdx ew o) ((takeIdx cols o).map vecRow) := by
  have hmem : ∀ k ∈ o, k < 3 := fun k hk => by simpa using ho.mem_iff.1 hk
  have hlen : o.length = 3 := by rw [ho.length_eq, List.length_range]
  have hnd : o.Nodup := ho.nodup_iff.2 List.nodup_range
  rw [takeIdx_eq ew 0 o (by rw [h1]; exact hmem), takeIdx_eq cols 0 o (by rw [h2]; exact hmem)]
  have e1 : ∀ (j : Nat) (hj : j < 3), (o.map fun k => ew.getD k 0).getD j 0 = ew.getD (o[j]'(by omega)) 0 := by
    intro j hj
    rw [List.getD_eq_getElem _ _ (by simpa [hlen] using hj), List.getElem_map]
  have e2 : ∀ (j : Nat) (hj : j < 3), ((o.map fun k => cols.getD k 0).map vecRow).getD j [] = vecRow (cols.getD (o[j]'(by omega)) 0) := by
    intro j hj
    rw [List.getD_eq_getElem _ _ (by simpa [hlen] using hj), List.getElem_map, List.getElem_map]
  refine ⟨by simp [hlen], by simp [hlen], fun j hj i => ?_, fun j hj j' hj' => ?_⟩
  · rw [e1 j hj, e2 j hj]
    simp only [vecRow_get]
    exact h3 _ i (hmem _ (List.getElem_mem _))
  · rw [e2 j hj, e2 j' hj']
    simp only [vecRow_get]
    rw [h4 _ _ (hmem _ (List.getElem_mem _)) (hmem _ (List.getElem_mem _))]
    simp only [hnd.getElem_inj_iff]

theorem xOrder_perm (argsort : Argsort) (hsort : IsArgsort argsort) (cols : List (Fin 3 → ℝ)) (h : cols.length = 3) :
    (xOrder argsort cols).Perm (List.range 3) := by
  have := (hsort (cols.map fun v => v 0)).1
  rw [List.length_map, h] at this
  exact (List.reverse_perm _).trans this

theorem xOrder_sorted (argsort : Argsort) (hsort : IsArgsort argsort) (cols : List (Fin 3 → ℝ)) (h : cols.length = 3) :
    ((takeIdx cols (xOrder argsort cols)).map fun v => v 0).Pairwise (· ≥ ·) := by
  have hp := xOrder_perm argsort hsort cols h
  rw [takeIdx_eq cols 0 _ (by intro k hk; rw [h]; simpa using hp.mem_iff.1 hk), List.map_map]
  have h2 := (hsort (cols.map fun v => v 0)).2
  have e : ((argsort (cols.map fun v => v 0)).map fun k => (cols.map fun v => v 0).getD k 0)
      = (argsort (cols.map fun v => v 0)).map ((fun v => v 0) ∘ fun k => cols.getD k 0) := by
    refine List.map_congr_left fun k hk => ?_
    simp only [Function.comp, List.getD_eq_getElem?_getD, List.getElem?_map]
    cases cols[k]? <;> rfl
  rw [e] at h2
  unfold xOrder
  rw [List.map_reverse, List.pairwise_reverse]
  exact h2

/-- **C115.** After `set_move_init` with the default order the basis consists of the three orthonormal axes of the total
potential at the minimum, ordered by decreasing `x` component, with their curvatures in the same order; the returned labels
`axial`, `radial1`, `radial2` belong to them in this order.  The histories of minima and curvatures start anew. -/
theorem c115_axes (lib : MoveLib) (he : IsEigh lib.eigh) (hs : IsArgsort lib.argsort) (config : List (List String)) (xm : XmArg)
    (a a' : Adj) (p : V3) (labels : List (String × List ℝ)) (h : setMoveInit lib config xm .none a = (.ok (p, labels), a')) :
    ∃ cv, a'.xms = [p] ∧ a'.curves = [cv] ∧ a'.config = config ∧ Axes a.sys p cv a'.basis ∧
      (a'.basis.map fun b => b.getD 0 0).Pairwise (· ≥ ·) ∧ labels.map Prod.fst = ["axial", "radial1", "radial2"] ∧
      labels.map Prod.snd = a'.basis ∧ a'.sys = a.sys ∧ a'.volts = a.volts ∧ a'.propose = a.propose ∧
      (∀ q, xm = .seq q → p = q) ∧ (xm = .none → moveMin lib "Newton-CG" a.sys ⟨0, 0, 0⟩ = .ok p) := by
  unfold setMoveInit at h
  split at h
  · simp at h
  · rename_i q hq
    split at h
    · simp at h
    · rename_i ew cols hm
      simp only [orderAxes, Prod.mk.injEq, Except.ok.injEq] at h
      obtain ⟨⟨rfl, rfl⟩, rfl⟩ := h
      obtain ⟨h1, h2, -, h3, h4⟩ := modes_core lib.eigh he lib.argsort hs a.sys q true ew cols hm
      have ho := xOrder_perm lib.argsort hs cols h2
      have hax := axes_perm a.sys q ew cols _ h1 h2 h3 h4 ho
      refine ⟨_, rfl, rfl, rfl, hax, ?_, ?_, ?_, rfl, rfl, rfl, ?_, ?_⟩
      · have := xOrder_sorted lib.argsort hs cols h2
        simpa [List.map_map, Function.comp_def, vecRow] using this
      · rw [List.map_fst_zip (by rw [hax.rows]; simp)]
      · rw [List.map_snd_zip (by rw [hax.rows]; simp)]
      · rintro q' rfl
        simpa using hq.symm
      · rintro rfl
        simpa using hq

/-- C115: a list `axis_order` chooses among the axes in the order of ascending curvature. -/
theorem c115_order (lib : MoveLib) (he : IsEigh lib.eigh) (hs : IsArgsort lib.argsort) (config : List (List String)) (xm : XmArg)
    (o : List Nat) (ho : o.Perm (List.range 3)) (a a' : Adj) (p : V3) (labels : List (String × List ℝ))
    (h : setMoveInit lib config xm (.list (o.map Int.ofNat)) a = (.ok (p, labels), a')) :
    ∃ cv ew bs, a'.xms = [p] ∧ a'.curves = [cv] ∧ a'.config = config ∧ Axes a.sys p ew bs ∧ ew.Pairwise (· ≤ ·) ∧
      Axes a.sys p cv a'.basis ∧ ∀ j < 3, cv.getD j 0 = ew.getD (o.getD j 0) 0 ∧ a'.basis.getD j [] = bs.getD (o.getD j 0) [] := by
  have hmem : ∀ k ∈ o, k < 3 := fun k hk => by simpa using ho.mem_iff.1 hk
  have hlen : o.length = 3 := by rw [ho.length_eq, List.length_range]
  have htake : ∀ {α : Type} (l : List α), l.length = 3 → takeInts l (o.map Int.ofNat) = .ok (takeIdx l o) := by
    intro α l hl
    unfold takeInts
    clear ho h hlen
    induction o with
    | nil => rfl
    | cons k t ih =>
      have hk : k < l.length := by rw [hl]; exact hmem k List.mem_cons_self
      have := ih fun k' hk' => hmem k' (List.mem_cons_of_mem _ hk')
      simp only [List.map_cons, pySeq, this]
      have e : pyGetInt l (Int.ofNat k) = .ok l[k] := by
        simp [pyGetInt, pyGet, List.getElem?_eq_getElem hk]
      rw [e]
      simp [takeIdx, List.getElem?_eq_getElem hk]
  unfold setMoveInit at h
  split at h
  · simp at h
  · rename_i q hq
    split at h
    · simp at h
    · rename_i ew cols hm
      obtain ⟨h1, h2, hasc, h3, h4⟩ := modes_core lib.eigh he lib.argsort hs a.sys q true ew cols hm
      simp only [orderAxes, htake ew h1, htake cols h2, Prod.mk.injEq, Except.ok.injEq] at h
      obtain ⟨⟨rfl, rfl⟩, rfl⟩ := h
      have hid : ∀ {α : Type} (l : List α), l.length = 3 → takeIdx l (List.range 3) = l := by
        intro α l hl
        match l, hl with
        | [u, v, w], _ => rfl
      have hax0 := axes_perm a.sys q ew cols (List.range 3) h1 h2 h3 h4 (List.Perm.refl _)
      rw [hid ew h1, hid cols h2] at hax0
      refine ⟨_, ew, _, rfl, rfl, rfl, hax0, hasc, axes_perm a.sys q ew cols o h1 h2 h3 h4 ho, fun j hj => ?_⟩
      have hjo : o.getD j 0 < 3 := by
        rw [List.getD_eq_getElem _ _ (by omega)]
        exact hmem _ (List.getElem_mem _)
      rw [takeIdx_eq ew 0 o (by rw [h1]; exact hmem), takeIdx_eq cols 0 o (by rw [h2]; exact hmem)]
      rw [List.getD_eq_getElem _ _ (by simpa [hlen] using hj), List.getElem_map, List.getD_eq_getElem (List.map vecRow _) _ (by simpa [hlen] using hj),
        List.getElem_map, List.getElem_map, List.getD_eq_getElem (List.map vecRow _) _ (by simpa [h2] using hjo), List.getElem_map]
      have hoj : o[j]'(by omega) = o.getD j 0 := (List.getD_eq_getElem o _ (by omega)).symm
      rw [hoj]
      refine ⟨rfl, ?_⟩
      rw [List.getD_eq_getElem cols _ (by rw [h2]; exact hjo)]

/-- C115 fails for arrays and tuples: a position given as an array (as `System.minimum` returns it) raises `ValueError` and
changes nothing; an order given as an array raises `ValueError`, as a tuple `IndexError`, and the history of minima has
been replaced by then. -/
theorem c115_array (lib : MoveLib) (config : List (List String)) (order : OrderArg) (p : V3) (a : Adj) :
    setMoveInit lib config (.array p) order a = (.error .valueError, a) ∧
      ∀ o ew cols, modes lib.eigh lib.argsort a.sys p true = .ok (ew, cols) →
        setMoveInit lib config (.seq p) (.array o) a = (.error .valueError, { a with xms := [p] }) ∧
          setMoveInit lib config (.seq p) (.tuple o) a = (.error .indexError, { a with xms := [p] }) := by
  refine ⟨rfl, fun o ew cols h => ⟨?_, ?_⟩⟩ <;> simp only [setMoveInit, h, orderAxes]

/-! ### the sign of the eigenvectors -/

/-- multiplying the columns by signs -/
theorem IsEigh_flip (e : Eigh) (he : IsEigh e) (σ : (N : Nat) → Matrix (Fin N) (Fin N) ℝ → Fin N → ℝ) (hσ : ∀ N A j, σ N A j * σ N A j = 1) :
    IsEigh fun N A => ((e N A).1, fun i j => σ N A j * (e N A).2 i j) := by
  intro N A hA
  obtain ⟨h1, h2, h3, h4⟩ := he N A hA
  refine ⟨h1, h2, fun i j => ?_, fun j j' => ?_⟩
  · have := h3 i j
    calc ∑ k, A i k * (σ N A j * (e N A).2 k j) = σ N A j * ∑ k, A i k * (e N A).2 k j := by
          rw [Finset.mul_sum]; exact Finset.sum_congr rfl fun k _ => by ring
      _ = _ := by rw [this]; ring
  · calc ∑ i, σ N A j * (e N A).2 i j * (σ N A j' * (e N A).2 i j')
        = σ N A j * σ N A j' * ∑ i, (e N A).2 i j * (e N A).2 i j' := by
          rw [Finset.mul_sum]; exact Finset.sum_congr rfl fun k _ => by ring
      _ = _ := by
          rw [h4]
          split_ifs with h
          · subst h; rw [hσ]; ring
          · ring

theorem exists_signed (e : Eigh) (he : IsEigh e) (s : ℝ) (hs : s = 1 ∨ s = -1) :
    ∃ e', IsEigh e' ∧ ∀ (A : Matrix (Fin 3) (Fin 3) ℝ) (j : Fin 3), 0 ≤ s * (e' 3 A).2 0 j := by
  classical
  let σ : (N : Nat) → Matrix (Fin N) (Fin N) ℝ → Fin N → ℝ := fun N A j =>
    if h : 0 < N then (if 0 ≤ (e N A).2 ⟨0, h⟩ j then s else -s) else 1
  refine ⟨_, IsEigh_flip e he σ ?_, fun A j => ?_⟩
  · intro N A j
    simp only [σ]
    rcases hs with rfl | rfl <;> split_ifs <;> norm_num
  · simp only [σ]
    rw [dif_pos (by norm_num)]
    have hss : s * s = 1 := by rcases hs with rfl | rfl <;> norm_num
    have e0 : (⟨0, by norm_num⟩ : Fin 3) = 0 := rfl
    rw [e0]
    split_ifs with h
    · rw [← mul_assoc, hss, one_mul]; exact h
    · have : s * (-s * (e 3 A).2 0 j) = -(e 3 A).2 0 j := by linear_combination (-(e 3 A).2 0 j) * hss
      rw [this]
      linarith [not_le.1 h]

theorem modes_signed (e : Eigh) (s : ℝ) (hs : ∀ (A : Matrix (Fin 3) (Fin 3) ℝ) (j : Fin 3), 0 ≤ s * (e 3 A).2 0 j) (argsort : Argsort)
    (sys : Sys) (x : V3) (ew : List ℝ) (cols : List (Fin 3 → ℝ)) (h : modes e argsort sys x true = .ok (ew, cols)) :
    ∀ v ∈ cols, 0 ≤ s * v 0 := by
  unfold modes at h
  cases hp : sys.potential [x] 2 .tot with
  | error e => rw [hp] at h; cases h
  | ok p =>
    rw [hp] at h
    simp only [if_true, Except.ok.injEq, Prod.mk.injEq] at h
    obtain ⟨-, rfl⟩ := h
    intro v hv
    unfold takeIdx at hv
    obtain ⟨k, -, hk⟩ := List.mem_filterMap.1 hv
    obtain ⟨j, -, rfl⟩ := List.mem_map.1 (List.mem_of_getElem? hk)
    exact hs _ j

theorem init_signed (lib : MoveLib) (s : ℝ)
    (hs : ∀ (A : Matrix (Fin 3) (Fin 3) ℝ) (j : Fin 3), 0 ≤ s * (lib.eigh 3 A).2 0 j) (config : List (List String)) (xm : XmArg)
    (a a' : Adj) (r : V3 × List (String × List ℝ)) (h : setMoveInit lib config xm .none a = (.ok r, a')) :
    ∀ b ∈ a'.basis, 0 ≤ s * b.getD 0 0 := by
  unfold setMoveInit at h
  split at h
  · simp at h
  · rename_i q hq
    split at h
    · simp at h
    · rename_i ew cols hm
      simp only [orderAxes, Prod.mk.injEq, Except.ok.injEq] at h
      obtain ⟨-, rfl⟩ := h
      intro b hb
      obtain ⟨v, hv, rfl⟩ := List.mem_map.1 hb
      have := modes_signed lib.eigh s hs lib.argsort a.sys q ew cols hm v (by
        unfold takeIdx at hv
        obtain ⟨k, -, hk⟩ := List.mem_filterMap.1 hv
        exact List.mem_of_getElem? hk)
      simpa [vecRow] using this

theorem head_ge (l : List ℝ) (h : l.Pairwise (· ≥ ·)) (x : ℝ) (hx : x ∈ l) : x ≤ l.getD 0 0 := by
  cases l with
  | nil => cases hx
  | cons y t =>
    rcases List.mem_cons.1 hx with rfl | ht
    · exact le_refl _
    · exact (List.pairwise_cons.1 h).1 x ht

/-- C115, the label `axial`: when `eigh` gives all eigenvectors a nonnegative `x` component (this is one valid choice of the
signs), the first axis is the one closest to the `x` axis.  (A statement for every valid `eigh` is false, see `c115_sign`.) -/
theorem c115_label_partial (lib : MoveLib) (he : IsEigh lib.eigh) (hs : IsArgsort lib.argsort) :
    ∃ e, IsEigh e ∧ ∀ config xm a a' r, setMoveInit { lib with eigh := e } config xm .none a = (.ok r, a') →
      ∀ b ∈ a'.basis, |b.getD 0 0| ≤ |(a'.basis.getD 0 []).getD 0 0| := by
  obtain ⟨e, h1, h2⟩ := exists_signed lib.eigh he 1 (Or.inl rfl)
  refine ⟨e, h1, fun config xm a a' r h b hb => ?_⟩
  have hsg := init_signed { lib with eigh := e } 1 h2 config xm a a' r h
  obtain ⟨cv, -, -, -, hax, hd, -⟩ := c115_axes { lib with eigh := e } h1 hs config xm a a' r.1 r.2 h
  have h0 : (a'.basis.map fun b => b.getD 0 0).getD 0 0 = (a'.basis.getD 0 []).getD 0 0 := by
    have := hax.rows
    cases hbs : a'.basis with
    | nil => rw [hbs] at this; simp at this
    | cons => rfl
  have hle := head_ge _ hd (b.getD 0 0) (List.mem_map.2 ⟨b, hb, rfl⟩)
  rw [h0] at hle
  rw [abs_of_nonneg (by simpa using hsg b hb)]
  exact hle.trans (le_abs_self _)

/-- C115 fails: which axis is called `axial` depends on the signs of the eigenvectors, which `eigh` may choose.  There is a
valid `eigh` for which the axis called `axial` is always the one farthest from the `x` axis. -/
theorem c115_sign (lib : MoveLib) (he : IsEigh lib.eigh) (hs : IsArgsort lib.argsort) :
    ∃ e, IsEigh e ∧ ∀ config xm a a' r, setMoveInit { lib with eigh := e } config xm .none a = (.ok r, a') →
      ∀ b ∈ a'.basis, |(a'.basis.getD 0 []).getD 0 0| ≤ |b.getD 0 0| := by
  obtain ⟨e, h1, h2⟩ := exists_signed lib.eigh he (-1) (Or.inr rfl)
  refine ⟨e, h1, fun config xm a a' r h b hb => ?_⟩
  have hsg := init_signed { lib with eigh := e } (-1) h2 config xm a a' r h
  obtain ⟨cv, -, -, -, hax, hd, -⟩ := c115_axes { lib with eigh := e } h1 hs config xm a a' r.1 r.2 h
  have h0 : (a'.basis.map fun b => b.getD 0 0).getD 0 0 = (a'.basis.getD 0 []).getD 0 0 ∧ (a'.basis.getD 0 []) ∈ a'.basis := by
    have := hax.rows
    cases hbs : a'.basis with
    | nil => rw [hbs] at this; simp at this
    | cons => exact ⟨rfl, List.mem_cons_self⟩
  have hle := head_ge _ hd (b.getD 0 0) (List.mem_map.2 ⟨b, hb, rfl⟩)
  rw [h0.1] at hle
  have hb0 := hsg b hb
  have hf0 := hsg _ h0.2
  rw [abs_of_nonpos (by linarith), abs_of_nonpos (by linarith)]
  linarith

/-! ### proposals -/

theorem pySeq_length {α : Type} : ∀ (l : List (Py α)) (r : List α), pySeq l = .ok r → r.length = l.length := by
  intro l
  induction l with
  | nil => intro r h; cases h; rfl
  | cons p t ih =>
    intro r h
    unfold pySeq at h
    cases p with
    | error e => cases h
    | ok p =>
      cases ht : pySeq t with
      | error e => rw [ht] at h; cases h
      | ok t' =>
        rw [ht] at h
        cases h
        simp [ih t' ht]

theorem voltChange_length (solve : List (List ℝ) → List ℝ → Py (List ℝ)) (hsolve : Solves solve) (a : Adj) (axis : Nat) (l dis : ℝ)
    (same : Bool) (method : MoveMethod) (dV : List ℝ) (hv : voltChange solve a axis l dis same method = .ok dV) :
    dV.length = a.config.length := by
  unfold voltChange at hv
  split at hv
  · cases hv
  · split at hv
    · cases hv
    · simp only at hv
      split at hv
      · cases hv
      · split at hv
        · cases hv
        · rename_i coef hcoef
          rw [(hsolve _ _ _ hv).1, pySeq_length _ _ hcoef, List.length_map]

/-- **C115.** A successful `propose_move` sets every electrode of group number `i` to its last recorded voltage plus entry `i` of
the returned changes and no other electrode; it records nothing in the histories of voltages, minima and curvatures, and keeps
changes, new minimum and new curvatures as the proposal.  The returned curvatures belong to three orthonormal axes of the
changed system at the returned position. -/
theorem c115_propose (lib : MoveLib) (hsolve : Solves lib.solve) (he : IsEigh lib.eigh) (hs : IsArgsort lib.argsort) (axis : Nat)
    (l dis : ℝ) (same : Bool) (method : MoveMethod) (a a' : Adj) (hr : Ready a) (dV : List ℝ) (m : Moved)
    (h : proposeMove lib axis l dis same method a = (.ok (dV, m), a')) :
    dV.length = a.config.length ∧ a'.propose = some (dV, m.xm, m.curves) ∧ a'.volts = a.volts ∧ a'.xms = a.xms ∧
      a'.curves = a.curves ∧ a'.basis = a.basis ∧ a'.config = a.config ∧
      (∀ (i : Nat) (g : List String) (n : String) (k : List ℝ) (v : ℝ), a.config[i]? = some g → n ∈ g → histOf a n = some k →
        k.getLast? = some v → dcOf a' n = some (v + dV.getD i 0)) ∧
      (∀ n, n ∉ a.config.flatten → dcOf a' n = dcOf a n) ∧
      (∃ old, a.xms.getLast? = some old ∧ m.offset = ⟨m.xm.x - old.x, m.xm.y - old.y, m.xm.z - old.z⟩) ∧
      ∃ bs, Axes a'.sys m.xm m.curves bs ∧ (bs.map fun b => b.getD 0 0).Pairwise (· ≥ ·) ∧ (∀ b ∈ bs, b.length = 3) ∧
        vecChange bs a.basis = .ok m.vec ∧ ∃ cv, a.curves[0]? = some cv ∧ freqChange m.curves cv = .ok m.freq := by
  unfold proposeMove at h
  cases hv : voltChange lib.solve a axis l dis same method with
  | error e => rw [hv] at h; simp at h
  | ok dW =>
    rw [hv] at h
    simp only at h
    cases hx : a.xms.getLast? with
    | none => simp [xmFreqChange, hx] at h
    | some old =>
      obtain ⟨b, h1, h2, h3, h4, h5⟩ := xmFreqChange_state lib a dW hr old hx
      rw [h1] at h
      cases hm : moveResult lib b old with
      | error e => rw [hm] at h; simp at h
      | ok m' =>
        rw [hm] at h
        simp only [Prod.mk.injEq, Except.ok.injEq] at h
        obtain ⟨⟨rfl, rfl⟩, rfl⟩ := h
        have hlen := voltChange_length lib.solve hsolve a axis l dis same method dW hv
        obtain ⟨g1, g2⟩ := moveConfig_lookup a dW hr
        have hvol : b.volts = a.volts := by rw [h3]
        refine ⟨hlen, rfl, hvol, h4.2.1, h4.2.2.1, h4.2.2.2.1, h4.1, ?_, ?_, ⟨old, rfl, ?_⟩, ?_⟩
        · intro i g n k v hg hn hk hv
          have hi : i < dW.length := by
            rw [hlen]; exact (List.getElem?_eq_some_iff.1 hg).1
          have := g1 i g n dW[i] k v hg (List.getElem?_eq_getElem hi) hn hk hv
          show dcOf b n = _
          rw [h5, this, List.getD_eq_getElem _ _ hi]
          rfl
        · intro n hn
          show dcOf b n = _
          rw [h5, g2 n hn]
          rfl
        · unfold moveResult at hm
          split at hm
          · cases hm
          · split at hm
            · cases hm
            · simp only at hm
              split at hm
              · cases hm
              · split at hm
                · cases hm
                · split at hm
                  · cases hm
                  · obtain rfl := Except.ok.inj hm
                    rfl
        · unfold moveResult at hm
          split at hm
          · cases hm
          · split at hm
            · cases hm
            · rename_i ew cols hmod
              simp only at hm
              split at hm
              · cases hm
              · rename_i cv hcv
                split at hm
                · cases hm
                · rename_i fr hfr
                  split at hm
                  · cases hm
                  · rename_i hvec
                    obtain rfl := Except.ok.inj hm
                    obtain ⟨k1, k2, -, k3, k4⟩ := modes_core lib.eigh he lib.argsort hs b.sys _ true ew cols hmod
                    refine ⟨_, axes_perm b.sys _ ew cols _ k1 k2 k3 k4 (xOrder_perm lib.argsort hs cols k2), ?_, ?_, ?_, cv, ?_, hfr⟩
                    · have := xOrder_sorted lib.argsort hs cols k2
                      simpa [List.map_map, Function.comp_def, vecRow] using this
                    · intro b hb
                      obtain ⟨c, -, rfl⟩ := List.mem_map.1 hb
                      simp [vecRow]
                    · rw [← h4.2.2.2.1]; exact hvec
                    · rw [← h4.2.2.1]
                      unfold pyGet at hcv
                      split at hcv
                      · rename_i y hy
                        rw [hy, Except.ok.inj hcv]
                      · cases hcv

/-- **C115.** The changes that `propose_move` reports: for each axis the new frequency (square root of the curvature) minus the one
before the first move, nan if one of the curvatures is negative; and the new axis minus the one before the first move. -/
theorem c115_changes (lib : MoveLib) (hsolve : Solves lib.solve) (he : IsEigh lib.eigh) (hs : IsArgsort lib.argsort) (axis : Nat)
    (l dis : ℝ) (same : Bool) (method : MoveMethod) (a a' : Adj) (hr : Ready a) (dV : List ℝ) (m : Moved)
    (h : proposeMove lib axis l dis same method a = (.ok (dV, m), a')) (cv : List ℝ) (hc : a.curves.head? = some cv) (hl : cv.length = 3)
    (hb : a.basis.length = 3) (hb' : ∀ b ∈ a.basis, b.length = 3) :
    ∃ bs, Axes a'.sys m.xm m.curves bs ∧ (bs.map fun b => b.getD 0 0).Pairwise (· ≥ ·) ∧ ∀ j < 3,
      (0 ≤ m.curves.getD j 0 → 0 ≤ cv.getD j 0 → m.freq.getD j none = some (√(m.curves.getD j 0) - √(cv.getD j 0))) ∧
      (m.curves.getD j 0 < 0 ∨ cv.getD j 0 < 0 → m.freq.getD j (some 0) = none) ∧
      ∀ k < 3, (m.vec.getD j []).getD k 0 = (bs.getD j []).getD k 0 - (a.basis.getD j []).getD k 0 := by
  obtain ⟨-, -, -, -, -, -, -, -, -, -, bs, h1, h2, h3, h4, cv', h5, h6⟩ := c115_propose lib hsolve he hs axis l dis same method a a' hr dV m h
  have : cv' = cv := by
    rw [← List.head?_eq_getElem?, hc] at h5
    exact (Option.some.inj h5).symm
  subst this
  refine ⟨bs, h1, h2, ?_⟩
  unfold freqChange at h6
  simp only at h6
  rw [if_pos (by rw [h1.curves, hl])] at h6
  unfold vecChange at h4
  rw [if_pos (by rw [h1.rows, hb])] at h4
  have h6 := Except.ok.inj h6
  have h4 := Except.ok.inj h4
  have c1 := h1.curves
  have c2 := h1.rows
  intro j hj
  rw [← h6, ← h4]
  generalize m.curves = C at c1 ⊢
  generalize a.basis = A at hb hb' ⊢
  match C, c1, cv', hl, bs, c2, A, hb with
  | [x0, x1, x2], _, [y0, y1, y2], _, [b0, b1, b2], _, [d0, d1, d2], _ =>
    have l1 : ∀ b ∈ [b0, b1, b2], b.length = 3 := h3
    have key : ∀ b d : List ℝ, b.length = 3 → d.length = 3 → ∀ k < 3, (List.zipWith (· - ·) b d).getD k 0 = b.getD k 0 - d.getD k 0 := by
      intro b d hb hd k hk
      match b, hb, d, hd with
      | [p0, p1, p2], _, [q0, q1, q2], _ => interval_cases k <;> simp
    refine ⟨?_, ?_, ?_⟩
    · intro g1 g2
      interval_cases j <;> simp at g1 g2 <;> simp [sqrtNan, g1, g2]
    · intro g
      interval_cases j <;> simp at g <;> rcases g with g | g <;> simp [sqrtNan, not_le.2 g]
    · interval_cases j <;> simp only [List.zipWith_cons_cons, List.getD_cons_zero, List.getD_cons_succ] <;>
        exact key _ _ (l1 _ (by simp)) (hb' _ (by simp))

/-- C115: a second change of the voltages replaces the first one instead of adding to it, as long as nothing is accepted in
between: after `xm_freq_change` with two lists of changes the system is the one after the second list alone. -/
theorem c115_override (lib : MoveLib) (a : Adj) (hr : Ready a) (dV dW : List ℝ) (h : dV.length = dW.length) :
    (xmFreqChange lib dW (xmFreqChange lib dV a).2).2 = (xmFreqChange lib dW a).2 := by
  cases hx : a.xms.getLast? with
  | none => simp [xmFreqChange, hx]
  | some old =>
    obtain ⟨b, h1, h2, h3, h4, h5⟩ := xmFreqChange_state lib a dV hr old hx
    obtain ⟨b', k1, k2, k3, -, -⟩ := xmFreqChange_state lib a dW hr old hx
    have hrb : Ready b := Ready_same a b hr h4 (by rw [h3])
    have hcfg : moveConfig b dW = moveConfig a dW := by rw [h3]; rfl
    obtain ⟨c, c1, c2, c3, -, -⟩ := xmFreqChange_state lib b dW hrb old (by rw [h4.2.1]; exact hx)
    rw [h1, k1, c1, c3, k3, hcfg, h3]
    simp only [setFirst_comp]
    congr 3
    funext n
    cases hn : (moveConfig a dW).lookup n with
    | some v => rfl
    | none => rw [(moveConfig_dom a dV dW h n).2 hn]; rfl

/-- C115 fails: a proposal whose search of the minimum (or of the modes) raises is not taken back.  The changed voltages stay in
the system, no proposal is recorded for them, and a proposal from before is still there for `next_step`. -/
theorem c115_failed (lib : MoveLib) (axis : Nat) (l dis : ℝ) (same : Bool) (method : MoveMethod) (a : Adj) (hr : Ready a) (old : V3)
    (hx : a.xms.getLast? = some old) (dV : List ℝ) (hv : voltChange lib.solve a axis l dis same method = .ok dV)
    (e : PyErr) (hmin : ∀ s, moveMin lib "Nelder-Mead" s ⟨old.x + 0.01, old.y + 0.01, old.z + 0.01⟩ = .error e) :
    ∃ a', proposeMove lib axis l dis same method a = (.error e, a') ∧ a'.propose = a.propose ∧
      ∀ (i : Nat) (g : List String) (n : String) (d : ℝ) (k : List ℝ) (v : ℝ), a.config[i]? = some g → dV[i]? = some d → n ∈ g →
        histOf a n = some k → k.getLast? = some v → dcOf a' n = some (v + d) := by
  obtain ⟨b, h1, h2, h3, h4, h5⟩ := xmFreqChange_state lib a dV hr old hx
  refine ⟨b, ?_, h4.2.2.2.2.1, fun i g n d k v hg hd hn hk hv => ?_⟩
  · unfold proposeMove
    simp only [hv, h1]
    have : moveResult lib b old = .error e := by
      unfold moveResult
      rw [hmin]
    rw [this]
  · rw [h5, (moveConfig_lookup a dV hr).1 i g n d k v hg hd hn hk hv]
    rfl

theorem gradAt_sys (a b : Adj) (h : a.sys = b.sys) (x : V3) (i : Nat) : gradAt a x i = gradAt b x i := by
  unfold gradAt
  rw [h]

/-- C115 fails: proposing the same move by position a second time, without accepting the first, undoes the first.  The gradient
at the target vanishes after the first proposal; the second proposal computes voltage changes from the system with the first
proposal but adds them to the recorded voltages, and the gradient at the target is the one before the first proposal. -/
theorem c115_repeat (lib : MoveLib) (hsolve : Solves lib.solve) (axis : Nat) (l dis : ℝ) (same : Bool) (a a1 a2 : Adj)
    (hr : Ready a) (ht : Tracks a) (hf : FirstDerivs a) (xm : V3) (b0 b1 b2 : ℝ) (hx : a.xms.getLast? = some xm)
    (hb : a.basis[axis]? = some [b0, b1, b2]) (r1 r2 : List ℝ × Moved)
    (h1 : proposeMove lib axis l dis same .position a = (.ok r1, a1)) (h2 : proposeMove lib axis l dis same .position a1 = (.ok r2, a2))
    (i : Nat) (hi : i < 3) :
    gradAt a1 ⟨xm.x + dis / l * b0, xm.y + dis / l * b1, xm.z + dis / l * b2⟩ i = 0 ∧
      gradAt a2 ⟨xm.x + dis / l * b0, xm.y + dis / l * b1, xm.z + dis / l * b2⟩ i
        = gradAt a ⟨xm.x + dis / l * b0, xm.y + dis / l * b1, xm.z + dis / l * b2⟩ i := by
  have hbas : pyGet a.basis axis = .ok [b0, b1, b2] := by simp [pyGet, hb]
  set x : V3 := ⟨xm.x + dis / l * b0, xm.y + dis / l * b1, xm.z + dis / l * b2⟩ with hxdef
  -- the first proposal
  unfold proposeMove at h1
  cases hv1 : voltChange lib.solve a axis l dis same .position with
  | error e => rw [hv1] at h1; simp at h1
  | ok dV =>
  rw [hv1] at h1
  simp only at h1
  obtain ⟨b, e1, e2, e3, e4, e5⟩ := xmFreqChange_state lib a dV hr xm hx
  rw [e1] at h1
  cases hm1 : moveResult lib b xm with
  | error e => rw [hm1] at h1; simp at h1
  | ok m1 =>
  rw [hm1] at h1
  simp only [Prod.mk.injEq, Except.ok.injEq] at h1
  obtain ⟨-, rfl⟩ := h1
  have hzero : ∀ i < 3, gradAt b x i = 0 := fun i hi =>
    c79_position lib.solve hsolve a b axis l dis same dV _ xm b0 b1 b2 hr ht hf hx hb hv1 (Ready_savable a dV hr).2 e2 i hi
  refine ⟨hzero i hi, ?_⟩
  -- the second proposal
  have hvol : b.volts = a.volts := by rw [e3]
  have hrb : Ready { b with propose := some (dV, m1.xm, m1.curves) } := by
    have := Ready_same a b hr e4 hvol
    exact ⟨this.disjoint, this.known, this.histKeys, this.started⟩
  unfold proposeMove at h2
  cases hv2 : voltChange lib.solve { b with propose := some (dV, m1.xm, m1.curves) } axis l dis same .position with
  | error e => rw [hv2] at h2; simp at h2
  | ok dW =>
  rw [hv2] at h2
  simp only at h2
  obtain ⟨c, f1, f2, f3, f4, f5⟩ := xmFreqChange_state lib { b with propose := some (dV, m1.xm, m1.curves) } dW hrb xm (by
    show b.xms.getLast? = _
    rw [e4.2.1]; exact hx)
  rw [f1] at h2
  cases hm2 : moveResult lib c xm with
  | error e => rw [hm2] at h2; simp at h2
  | ok m2 =>
  rw [hm2] at h2
  simp only [Prod.mk.injEq, Except.ok.injEq] at h2
  obtain ⟨-, rfl⟩ := h2
  -- the lengths of the two solutions, and the second system of equations
  have hels := e4.2.2.2.2.2.2
  unfold voltChange at hv1 hv2
  rw [hx, hbas] at hv1
  rw [show ({ b with propose := some (dV, m1.xm, m1.curves) } : Adj).xms = a.xms from e4.2.1,
    show ({ b with propose := some (dV, m1.xm, m1.curves) } : Adj).basis = a.basis from e4.2.2.2.1,
    show ({ b with propose := some (dV, m1.xm, m1.curves) } : Adj).config = a.config from e4.1, hx, hbas] at hv2
  have hcol : (a.config.map (coefColumn b.sys.els x)) = a.config.map (coefColumn a.sys.els x) :=
    List.map_congr_left fun g _ => coefColumn_congr x a.sys.els b.sys.els hels g
  simp only [List.getD_cons_zero, List.getD_cons_succ, ← hxdef] at hv1 hv2
  cases hg1 : firstRow (a.sys.potential [x] 1 .tot) with
  | error e => rw [hg1] at hv1; simp at hv1
  | ok g1 =>
  cases hg2 : firstRow (b.sys.potential [x] 1 .tot) with
  | error e => rw [hg2] at hv2; simp at hv2
  | ok g2 =>
  rw [hg1] at hv1
  rw [hg2] at hv2
  simp only [hcol] at hv1 hv2
  cases hp : pySeq (a.config.map (coefColumn a.sys.els x)) with
  | error e => rw [hp] at hv1; cases hv1
  | ok cols =>
  rw [hp] at hv1 hv2
  simp only at hv1 hv2
  have hl : dV.length = dW.length := (hsolve _ _ _ hv1).1.trans (hsolve _ _ _ hv2).1.symm
  have hg2' : ∀ i < 3, g2.getD i 0 = 0 := by
    intro i hi
    refine Eq.trans ?_ (hzero i hi)
    have hfb : FirstDerivs b := avail_congr _ _ 1 hels hf
    unfold gradAt
    unfold Sys.potential at hg2 ⊢
    rw [electrical_one b.sys.els x .dc fun e he _ => hfb e he] at hg2 ⊢
    simp only at hg2 ⊢
    cases hw : pseudoPotential b.sys [x] 1 with
    | error e => rw [hw] at hg2; simp [firstRow] at hg2
    | ok w =>
      rw [hw] at hg2
      simp only [firstRow, addRows] at hg2
      cases w with
      | nil => simp [pyGet] at hg2
      | cons r t =>
        simp only [List.zipWith_cons_cons, List.zipWith_nil_left, pyGet, List.getElem?_cons_zero, Except.ok.injEq] at hg2
        simp only [addRows, List.zipWith_cons_cons, List.zipWith_nil_left]
        rw [hg2]
  have hsum : (List.zipWith (fun c v => v * c.getD i 0) cols dW).sum = 0 := by
    rw [(hsolve _ _ _ hv2).2 i hi]
    have := hg2' i hi
    rw [List.getD_eq_getElem?_getD] at this ⊢
    rw [List.getElem?_map]
    cases hgi : g2[i]? with
    | none => rfl
    | some y => rw [hgi] at this; simpa using this
  -- the system after the second proposal is the one after the second changes alone
  obtain ⟨d, k1, k2, k3, -, -⟩ := xmFreqChange_state lib a dW hr xm hx
  have hcfg : moveConfig { b with propose := some (dV, m1.xm, m1.curves) } dW = moveConfig a dW := by rw [e3]; rfl
  have hcd : c.sys = d.sys := by
    rw [f3, k3, hcfg, e3]
    simp only [setFirst_comp]
    congr 2
    funext n
    cases hn : (moveConfig a dW).lookup n with
    | some v => rfl
    | none => rw [(moveConfig_dom a dV dW hl n).2 hn]; rfl
  have hw : ∃ w, pseudoPotential a.sys [x] 1 = .ok w := by
    cases hw : pseudoPotential a.sys [x] 1 with
    | ok w => exact ⟨w, rfl⟩
    | error e =>
      unfold Sys.potential at hg1
      rw [electrical_one a.sys.els x .dc fun e he _ => hf e he, hw] at hg1
      simp [firstRow] at hg1
  refine (gradAt_sys _ d hcd x i).trans ?_
  rw [grad_after a d dW x hr ht hf hw k2 i hi cols hp, hsum, add_zero]

/-! ### sequences of moves -/

theorem proposeMove_keeps (lib : MoveLib) (axis : Nat) (l dis : ℝ) (same : Bool) (method : MoveMethod) (a : Adj) (hr : Ready a) :
    Ready (proposeMove lib axis l dis same method a).2 ∧ (proposeMove lib axis l dis same method a).2.volts = a.volts ∧
      (proposeMove lib axis l dis same method a).2.xms = a.xms ∧ (proposeMove lib axis l dis same method a).2.curves = a.curves ∧
      (proposeMove lib axis l dis same method a).2.config = a.config ∧ (proposeMove lib axis l dis same method a).2.basis = a.basis ∧
      ∀ n, n ∉ a.config.flatten → dcOf (proposeMove lib axis l dis same method a).2 n = dcOf a n := by
  unfold proposeMove
  cases hv : voltChange lib.solve a axis l dis same method with
  | error e => exact ⟨hr, rfl, rfl, rfl, rfl, rfl, fun _ _ => rfl⟩
  | ok dV =>
    simp only
    cases hx : a.xms.getLast? with
    | none => simp [voltChange, hx] at hv
    | some old =>
      obtain ⟨b, h1, h2, h3, h4, h5⟩ := xmFreqChange_state lib a dV hr old hx
      have hvol : b.volts = a.volts := by rw [h3]
      have hrb := Ready_same a b hr h4 hvol
      have hdc : ∀ n, n ∉ a.config.flatten → dcOf b n = dcOf a n := by
        intro n hn
        rw [h5, (moveConfig_lookup a dV hr).2 n hn]
        rfl
      rw [h1]
      cases moveResult lib b old with
      | error e => exact ⟨hrb, hvol, h4.2.1, h4.2.2.1, h4.1, h4.2.2.2.1, hdc⟩
      | ok m => exact ⟨⟨hrb.disjoint, hrb.known, hrb.histKeys, hrb.started⟩, hvol, h4.2.1, h4.2.2.1, h4.1, h4.2.2.2.1, hdc⟩

theorem accept_keeps (a : Adj) (hr : Ready a) :
    (nextStep none true a = (some .typeError, a)) ∨
    ∃ p a', nextStep none true a = (none, a') ∧ a.propose = some p ∧ Ready a' ∧ a'.xms = a.xms ++ [p.2.1] ∧
      a'.curves = a.curves ++ [p.2.2] ∧ a'.config = a.config ∧ a'.basis = a.basis ∧
      (∀ n k, histOf a n = some k → ∃ v, histOf a' n = some (k ++ [v])) ∧ ∀ n, n ∉ a.config.flatten → dcOf a' n = dcOf a n := by
  cases hp : a.propose with
  | none => exact Or.inl (c64_no_propose a hp)
  | some p =>
    obtain ⟨dV, xm, ev⟩ := p
    refine Or.inr ?_
    obtain ⟨hs, hc⟩ := Ready_savable a dV hr
    obtain ⟨a1, h1, h2, h3, h4, h5, h6⟩ := c64_save a _ hs
    have hh : ∀ n k, histOf a n = some k → ∃ v, histOf a1 n = some (k ++ [v]) := fun n k hk => by
      obtain ⟨v, hv, -⟩ := h6 n k hk
      exact ⟨v, hv⟩
    refine ⟨(dV, xm, ev), { a1 with xms := a1.xms ++ [xm], curves := a1.curves ++ [ev], propose := none }, ?_, rfl, ?_, ?_, ?_, h2.1,
      h2.2.2.2.1, hh, ?_⟩
    · simp only [nextStep, if_true, hp, hc, h1]
    · refine ⟨by show a1.config.flatten.Nodup; rw [h2.1]; exact hr.disjoint, ?_, ?_, ?_⟩
      · intro n hn
        show n ∈ sysNames a1 ∧ n ∈ histNames a1
        rw [h3, h4]
        exact hr.known n (by rw [← h2.1]; exact hn)
      · show (histNames a1).Nodup
        rw [h4]; exact hr.histKeys
      · intro n k hk
        have hk1 : histOf a1 n = some k := hk
        have hm : n ∈ histNames a := by rw [← h4]; exact mem_of_lookup_some _ _ _ hk1
        obtain ⟨k0, hk0⟩ := lookup_some_of_mem a.volts n hm
        obtain ⟨v, hv⟩ := hh n k0 hk0
        rw [hk1] at hv
        obtain rfl := Option.some.inj hv
        simp
    · simp only [h2.2.1]
    · simp only [h2.2.2.1]
    · intro n hn
      show dcOf a1 n = _
      rw [h5, (moveConfig_lookup a dV hr).2 n hn]
      rfl

/-- **C115.** In any sequence of proposed, accepted and rejected moves, whatever raises in between, the histories of all
electrodes, of the minima and of the curvatures grow together: each by one entry for every move accepted without an exception,
at its end.  Groups, axes and the voltages of electrodes outside of the groups never change. -/
theorem c115_history (lib : MoveLib) (ops : List MoveOp) : ∀ (a : Adj), Ready a →
    Ready (runMoves lib ops a).2 ∧
      (∃ t, (runMoves lib ops a).2.xms = a.xms ++ t ∧ t.length = (runMoves lib ops a).1) ∧
      (∃ t, (runMoves lib ops a).2.curves = a.curves ++ t ∧ t.length = (runMoves lib ops a).1) ∧
      (∀ n k, histOf a n = some k → ∃ t, histOf (runMoves lib ops a).2 n = some (k ++ t) ∧ t.length = (runMoves lib ops a).1) ∧
      (runMoves lib ops a).2.config = a.config ∧ (runMoves lib ops a).2.basis = a.basis ∧
      ∀ n, n ∉ a.config.flatten → dcOf (runMoves lib ops a).2 n = dcOf a n := by
  induction ops with
  | nil => exact fun a hr => ⟨hr, ⟨[], by simp [runMoves]⟩, ⟨[], by simp [runMoves]⟩, fun n k hk => ⟨[], by simpa [runMoves] using hk⟩, rfl, rfl,
      fun _ _ => rfl⟩
  | cons op t ih =>
    intro a hr
    cases op with
    | propose axis l dis same method =>
      obtain ⟨h1, h2, h3, h4, h5, h6, h7⟩ := proposeMove_keeps lib axis l dis same method a hr
      obtain ⟨k1, k2, k3, k4, k5, k6, k7⟩ := ih _ h1
      simp only [runMoves]
      rw [h3] at k2
      rw [h4] at k3
      simp only [histOf, h2] at k4
      rw [h5] at k5 k7
      rw [h6] at k6
      exact ⟨k1, k2, k3, k4, k5, k6, fun n hn => (k7 n hn).trans (h7 n hn)⟩
    | reject =>
      simp only [runMoves, c64_reject_fails]
      exact ih a hr
    | accept =>
      rcases accept_keeps a hr with h | ⟨p, b, h, -, h1, h2, h3, h4, h5, h6, h7⟩
      · simp only [runMoves, h]
        exact ih a hr
      · obtain ⟨k1, ⟨t2, k2, l2⟩, ⟨t3, k3, l3⟩, k4, k5, k6, k7⟩ := ih b h1
        simp only [runMoves, h]
        refine ⟨k1, ⟨p.2.1 :: t2, by rw [k2, h2]; simp, by simp [l2]⟩, ⟨p.2.2 :: t3, by rw [k3, h3]; simp, by simp [l3]⟩, ?_, k5.trans h4,
          k6.trans h5, ?_⟩
        · intro n k hk
          obtain ⟨v, hv⟩ := h6 n k hk
          obtain ⟨t4, k4, l4⟩ := k4 n _ hv
          exact ⟨v :: t4, by rw [k4]; simp, by simp [l4]⟩
        · intro n hn
          rw [← h7 n hn]
          exact k7 n (by rw [h4]; exact hn)

theorem runMoves_proposal (lib : MoveLib) (hsolve : Solves lib.solve) (ops : List MoveOp) : ∀ (a : Adj), Ready a →
    (∀ p, a.propose = some p → p.1.length = a.config.length) →
    ∀ p, (runMoves lib ops a).2.propose = some p → p.1.length = (runMoves lib ops a).2.config.length := by
  induction ops with
  | nil => exact fun a _ h => h
  | cons op t ih =>
    intro a hr hp
    cases op with
    | propose axis l dis same method =>
      simp only [runMoves]
      obtain ⟨h1, -⟩ := proposeMove_keeps lib axis l dis same method a hr
      refine ih _ h1 ?_
      unfold proposeMove
      cases hv : voltChange lib.solve a axis l dis same method with
      | error e => exact hp
      | ok dV =>
        have hlen := voltChange_length lib.solve hsolve a axis l dis same method dV hv
        cases hx : a.xms.getLast? with
        | none => simp [voltChange, hx] at hv
        | some old =>
          obtain ⟨b, h1, h2, h3, h4, h5⟩ := xmFreqChange_state lib a dV hr old hx
          simp only [h1]
          cases moveResult lib b old with
          | error e =>
            intro p hpp
            have hpp' : b.propose = some p := hpp
            rw [h4.2.2.2.2.1] at hpp'
            show p.1.length = b.config.length
            rw [h4.1]
            exact hp p hpp'
          | ok m =>
            intro p hpp
            obtain rfl : (dV, m.xm, m.curves) = p := Option.some.inj hpp
            show dV.length = b.config.length
            rw [h4.1, hlen]
    | reject =>
      simp only [runMoves, c64_reject_fails]
      exact ih a hr hp
    | accept =>
      cases hq : a.propose with
      | none =>
        simp only [runMoves, c64_no_propose a hq]
        exact ih a hr hp
      | some q =>
        rcases accept_keeps a hr with h | ⟨p, b, h, -, h1, -⟩
        · simp only [runMoves, h]
          exact ih a hr hp
        · simp only [runMoves, h]
          refine ih b h1 ?_
          obtain ⟨b', g1, g2, -⟩ := c64_accept a q.1 q.2.1 q.2.2 (by rw [hq]) hr
          rw [h] at g1
          obtain rfl : b = b' := by simpa using g1
          rw [g2]
          intro p hp
          cases hp

/-- C115: whatever happened before, after an accepted move the histories of the electrodes in the groups end with the voltages
the system has. -/
theorem c115_recorded (lib : MoveLib) (hsolve : Solves lib.solve) (ops : List MoveOp) (a b : Adj) (hr : Ready a) (hp : a.propose = none)
    (h : nextStep none true (runMoves lib ops a).2 = (none, b)) : Tracks b := by
  obtain ⟨hr', -⟩ := c115_history lib ops a hr
  have hlen := runMoves_proposal lib hsolve ops a hr (by rw [hp]; intro p hp; cases hp)
  set c := (runMoves lib ops a).2
  cases hq : c.propose with
  | none => rw [c64_no_propose c hq] at h; simp at h
  | some q =>
    obtain ⟨b', g1, -, -, -, g5, -, g7, -⟩ := c64_accept c q.1 q.2.1 q.2.2 (by rw [hq]) hr'
    rw [h] at g1
    obtain rfl : b = b' := by simpa using g1
    intro n hn
    rw [g5] at hn
    obtain ⟨g, hg, hng⟩ := List.mem_flatten.1 hn
    obtain ⟨i, hi, rfl⟩ := List.mem_iff_getElem.1 hg
    have hi' : i < q.1.length := by rw [hlen q hq]; exact hi
    obtain ⟨k, hk⟩ := lookup_some_of_mem c.volts n (hr'.known n hn).2
    have hk' : histOf c n = some k := hk
    obtain ⟨e1, e2⟩ := g7 c.config[i] q.1[i] n k (k.getLast (hr'.started n k hk'))
      (zip_mem_of_get _ _ i _ _ (List.getElem?_eq_getElem hi) (List.getElem?_eq_getElem hi')) hng hk' (List.getLast?_eq_some_getLast _)
    rw [e1, e2]
    simp

/-! ### the theorems apply -/

/-- one electrode above the plane, with a field along `z`; one group; the first axis is `z` -/
noncomputable def exLift (dc : ℝ) (pr : Option (List ℝ × V3 × List ℝ)) : Adj where
  sys := ⟨[⟨"a", dc, 0, .cover 50⟩], some 1⟩
  volts := [("a", [1])]
  config := [["a"]]
  xms := [⟨0, 0, 1⟩]
  curves := [[1, 2, 3]]
  basis := [[0, 0, 1], [0, 1, 0], [1, 0, 0]]
  propose := pr

/-- solves one equation along `z` -/
noncomputable def exSolveZ (cols : List (List ℝ)) (rhs : List ℝ) : Py (List ℝ) :=
  open Classical in
  if cols = [[0, 0, 1 / 50]] ∧ rhs.getD 0 0 = 0 ∧ rhs.getD 1 0 = 0 then .ok [50 * rhs.getD 2 0] else .error (.user 0)

theorem exSolveZ_solves : Solves exSolveZ := by
  intro cols rhs x h
  unfold exSolveZ at h
  split at h
  · rename_i hc
    obtain ⟨rfl, h0, h1⟩ := hc
    obtain rfl := Except.ok.inj h
    refine ⟨rfl, fun i hi => ?_⟩
    interval_cases i
    · rw [h0]; simp
    · rw [h1]; simp
    · simp only [List.zipWith_cons_cons, List.zipWith_nil_left, List.sum_cons, List.sum_nil, List.getD_cons_succ, List.getD_cons_zero]
      ring
  · cases h

theorem exLift_ready (dc : ℝ) (pr) : Ready (exLift dc pr) := by
  refine ⟨by simp [exLift], ?_, by simp [exLift, histNames], ?_⟩
  · intro n hn
    simp only [exLift, List.flatten_cons, List.flatten_nil, List.append_nil, List.mem_singleton] at hn
    subst hn
    simp [exLift, sysNames, histNames]
  · intro n h hh
    simp only [histOf, exLift, List.lookup_cons, List.lookup_nil] at hh
    split at hh
    · obtain rfl := Option.some.inj hh; simp
    · cases hh

theorem exLift_avail (dc : ℝ) (d : Nat) (typ : VTyp) : AvailAll [⟨"a", dc, 0, .cover 50⟩] d typ := fun e he _ => by
  simp only [List.mem_singleton] at he
  subst he
  trivial

theorem exLift_pseudo (dc : ℝ) (x : V3) (d : Nat) (hd : d ≤ 4) : pseudoPotential ⟨[⟨"a", dc, 0, .cover 50⟩], some 1⟩ [x] d
    = .ok [flatten d (psT fun l => 1 * sysTens [⟨"a", dc, 0, .cover 50⟩] .rf l x)] :=
  pseudo_eq _ 1 [x] d hd fun i _ _ => exLift_avail dc i .rf

theorem exLift_rf (dc : ℝ) (x : V3) (l : Idx) : sysTens [⟨"a", dc, 0, .cover 50⟩] .rf l x = 0 := by
  rw [sysTens_eq]
  simp [Elec.voltD, Elec.volt]

theorem exLift_modes (eigh : Eigh) (argsort : Argsort) (dc : ℝ) (x : V3) :
    ∃ ew cols, modes eigh argsort ⟨[⟨"a", dc, 0, .cover 50⟩], some 1⟩ x true = .ok (ew, cols) := by
  unfold modes Sys.potential
  rw [electrical_expand_eq _ [x] 2 (by norm_num) .dc (exLift_avail dc 2 .dc), exLift_pseudo dc x 2 (by norm_num)]
  exact ⟨_, _, rfl⟩

theorem exLift_grad (dc : ℝ) (x : V3) : firstRow (Sys.potential ⟨[⟨"a", dc, 0, .cover 50⟩], some 1⟩ [x] 1 .tot) = .ok [0, 0, dc / 50] := by
  unfold Sys.potential
  rw [electrical_one _ x .dc (exLift_avail dc 1 .dc), exLift_pseudo dc x 1 (by norm_num)]
  have e1 : (List.range 3).map (fun i => sysContrib [⟨"a", dc, 0, .cover 50⟩] .dc 1 i x) = [0, 0, dc / 50] := by
    simp [sysContrib, Shape.contrib, coverContrib, List.range_succ, Elec.voltD, Elec.volt, div_eq_mul_inv]
  have e2 : flatten 1 (psT fun l => 1 * sysTens [⟨"a", dc, 0, .cover 50⟩] .rf l x) = [0, 0, 0] := by
    simp [flatten, productIdx, psT, exLift_rf]
  rw [e1, e2]
  simp [addRows, firstRow, pyGet]

theorem exLift_column (dc : ℝ) (x : V3) : pySeq ([["a"]].map (coefColumn [⟨"a", dc, 0, .cover 50⟩] x)) = .ok [[0, 0, 1 / 50]] := by
  have h : (⟨"a", dc, 0, .cover 50⟩ : Elec).potential [x] 1 1 none = .ok [[0, 0, 1 / 50]] := by
    rw [Elec.potential_new ⟨"a", dc, 0, .cover 50⟩ [x] 1 1 trivial]
    simp [Shape.contrib, coverContrib, List.range_succ]
  simp [coefColumn, firstRow, h, pyGet, pySeq]

/-- a library whose search of the minimum stays where it is -/
noncomputable def exLib (eigh : Eigh) (argsort : Argsort) : MoveLib := ⟨fun _ _ _ _ x => .ok (true, x), eigh, argsort, exSolveZ⟩

theorem exLift_propose (eigh : Eigh) (he : IsEigh eigh) (argsort : Argsort) (hs : IsArgsort argsort) (dc : ℝ) (pr) :
    ∃ r dc' pr', proposeMove (exLib eigh argsort) 0 1 1 false .position (exLift dc pr) = (.ok r, exLift dc' pr') := by
  have hv : voltChange (exLib eigh argsort).solve (exLift dc pr) 0 1 1 false .position = .ok [50 * -(dc / 50)] := by
    unfold voltChange
    simp only [exLift, List.getLast?_singleton, pyGet, List.getElem?_cons_zero, exLift_grad, exLift_column]
    simp [exLib, exSolveZ]
  obtain ⟨b, h1, h2, h3, h4, h5⟩ := xmFreqChange_state (exLib eigh argsort) (exLift dc pr) [50 * -(dc / 50)] (exLift_ready dc pr)
    ⟨0, 0, 1⟩ rfl
  obtain ⟨dc', rfl⟩ : ∃ dc', b = exLift dc' pr := by
    rw [h3]
    exact ⟨_, rfl⟩
  have hm : ∃ m, moveResult (exLib eigh argsort) (exLift dc' pr) ⟨0, 0, 1⟩ = .ok m := by
    unfold moveResult
    have : ∃ p, moveMin (exLib eigh argsort) "Nelder-Mead" (exLift dc' pr).sys ⟨0 + 0.01, 0 + 0.01, 1 + 0.01⟩ = .ok p := by
      simp [moveMin, minimum, exLib]
    obtain ⟨p, hp⟩ := this
    rw [hp]
    obtain ⟨ew, cols, hmod⟩ := exLift_modes eigh argsort dc' p
    have hmod' : modes (exLib eigh argsort).eigh (exLib eigh argsort).argsort (exLift dc' pr).sys p true = .ok (ew, cols) := hmod
    obtain ⟨k1, k2, -, k3, k4⟩ := modes_core eigh he argsort hs _ _ true ew cols hmod
    have hax := axes_perm _ _ ew cols _ k1 k2 k3 k4 (xOrder_perm argsort hs cols k2)
    simp only [hmod']
    have e1 : (takeIdx ew (xOrder (exLib eigh argsort).argsort cols)).length = 3 := hax.curves
    have e2 : ((takeIdx cols (xOrder (exLib eigh argsort).argsort cols)).map vecRow).length = 3 := hax.rows
    simp [exLift, pyGet, freqChange, e1, vecChange]
    simp only [List.length_map] at e2
    simp [e2]
  obtain ⟨m, hm⟩ := hm
  refine ⟨([50 * -(dc / 50)], m), dc', some ([50 * -(dc / 50)], m.xm, m.curves), ?_⟩
  unfold proposeMove
  simp only [hv, h1, hm]
  rfl

/-- the hypotheses of `c115_changes` about the first axes -/
example : ∃ cv, (exLift 1 none).curves.head? = some cv ∧ cv.length = 3 ∧ (exLift 1 none).basis.length = 3 ∧
    ∀ b ∈ (exLift 1 none).basis, b.length = 3 := by
  simp [exLift]

/-- the same move proposed twice, then accepted; and the axes of a new start -/
example : ∃ lib : MoveLib, Solves lib.solve ∧ IsEigh lib.eigh ∧ IsArgsort lib.argsort ∧ Ready (exLift 1 none) ∧ Tracks (exLift 1 none) ∧
    FirstDerivs (exLift 1 none) ∧
    (∃ r1 r2 a1 a2, proposeMove lib 0 1 1 false .position (exLift 1 none) = (.ok r1, a1) ∧
      proposeMove lib 0 1 1 false .position a1 = (.ok r2, a2)) ∧
    (runMoves lib [.propose 0 1 1 false .position, .propose 0 1 1 false .position, .reject, .accept, .accept] (exLift 1 none)).1 = 1 ∧
    ∃ r a', setMoveInit lib [["a"]] (.seq ⟨0, 0, 1⟩) .none (exLift 1 none) = (.ok r, a') := by
  obtain ⟨eigh, he⟩ := exists_isEigh
  obtain ⟨argsort, hs⟩ := exists_isArgsort
  obtain ⟨r1, d1, p1, h1⟩ := exLift_propose eigh he argsort hs 1 none
  obtain ⟨r2, d2, p2, h2⟩ := exLift_propose eigh he argsort hs d1 p1
  refine ⟨exLib eigh argsort, exSolveZ_solves, he, hs, exLift_ready _ _, ?_, ?_, ⟨r1, r2, _, _, h1, h2⟩, ?_, ?_⟩
  · intro n hn
    simp only [exLift, List.flatten_cons, List.flatten_nil, List.append_nil, List.mem_singleton] at hn
    subst hn
    simp [exLift, histOf, dcOf]
  · intro e he'
    simp only [exLift, List.mem_singleton] at he'
    subst he'
    trivial
  · simp only [runMoves, h1, h2, c64_reject_fails]
    have hp2 := (c115_propose (exLib eigh argsort) exSolveZ_solves he hs 0 1 1 false .position _ _ (exLift_ready _ _) r2.1 r2.2 h2).2.1
    obtain ⟨a', g1, g2, -⟩ := c64_accept (exLift d2 p2) _ _ _ hp2 (exLift_ready _ _)
    rw [g1]
    simp only [c64_no_propose a' g2]
  · obtain ⟨ew, cols, hmod⟩ := exLift_modes eigh argsort 1 ⟨0, 0, 1⟩
    have hmod' : modes (exLib eigh argsort).eigh (exLib eigh argsort).argsort (exLift 1 none).sys ⟨0, 0, 1⟩ true = .ok (ew, cols) := hmod
    simp only [setMoveInit, hmod', orderAxes]
    exact ⟨_, _, rfl⟩

end Electrode
