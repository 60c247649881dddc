import Verif.Model.Adjust
import Mathlib.Tactic.Linarith
import Mathlib.Tactic.NormNum
import Mathlib.Data.List.Lookmap

/-
C64: the voltage history of `Adjust`.
-/
namespace Electrode

namespace Spec
/-- the dc voltage of the electrode with this name -/
def dcOf (a : Adj) (n : String) : Option ℝ := (a.sys.els.find? fun e => e.name = n).map (·.dc)
/-- the voltage history of the electrode with this name -/
def histOf (a : Adj) (n : String) : Option (List ℝ) := a.volts.lookup n
/-- names of the electrodes of the system, and names in the history -/
def sysNames (a : Adj) : List String := a.sys.els.map (·.name)
def histNames (a : Adj) : List String := a.volts.map Prod.fst
/-- `d` with everything about it but the dc voltages of the system and the history -/
def sameOtherwise (a b : Adj) : Prop :=
  b.config = a.config ∧ b.xms = a.xms ∧ b.curves = a.curves ∧ b.basis = a.basis ∧ b.propose = a.propose ∧
    b.sys.rfCoeff = a.sys.rfCoeff ∧
    b.sys.els.map (fun e => ({ e with dc := 0 } : Elec)) = a.sys.els.map (fun e => ({ e with dc := 0 } : Elec))
end Spec
open Spec

section lemmas

theorem sameOtherwise_rfl (a : Adj) : sameOtherwise a a := ⟨rfl, rfl, rfl, rfl, rfl, rfl, rfl⟩

theorem sameOtherwise_trans {a b c : Adj} (h : sameOtherwise a b) (k : sameOtherwise b c) : sameOtherwise a c :=
  ⟨k.1.trans h.1, k.2.1.trans h.2.1, k.2.2.1.trans h.2.2.1, k.2.2.2.1.trans h.2.2.2.1, k.2.2.2.2.1.trans h.2.2.2.2.1,
    k.2.2.2.2.2.1.trans h.2.2.2.2.2.1, k.2.2.2.2.2.2.trans h.2.2.2.2.2.2⟩

theorem setDcByName_some (name : String) (v : ℝ) (els : List Elec) (h : name ∈ els.map (·.name)) :
    ∃ els', setDcByName name v els = some els' ∧
      (∀ n, (els'.find? fun e => e.name = n).map (·.dc)
        = if n = name then some v else (els.find? fun e => e.name = n).map (·.dc)) ∧
      els'.map (fun e => ({ e with dc := 0 } : Elec)) = els.map (fun e => ({ e with dc := 0 } : Elec)) ∧
      els'.map (·.name) = els.map (·.name) := by
  induction els with
  | nil => simp at h
  | cons e t ih =>
    by_cases he : e.name = name
    · refine ⟨{ e with dc := v } :: t, by simp [setDcByName, he], ?_, by simp, by simp⟩
      intro n
      by_cases hn : n = name
      · subst hn; simp [List.find?_cons, he]
      · have h1 : e.name ≠ n := fun h => hn (h.symm.trans he)
        simp [List.find?_cons, h1, hn]
    · have ht : name ∈ t.map (·.name) := by
        rcases List.mem_cons.1 h with h | h
        · exact absurd h.symm he
        · exact h
      obtain ⟨els', h1, h2, h3, h4⟩ := ih ht
      refine ⟨e :: els', by simp [setDcByName, he, h1], ?_, by simp [h3], by simp [h4]⟩
      intro n
      by_cases hn : e.name = n
      · have : n ≠ name := fun h => he (hn.trans h)
        simp [List.find?_cons, hn, this]
      · simp only [List.find?_cons, hn, decide_false, h2 n]

theorem setDcByName_none (name : String) (v : ℝ) (els : List Elec) (h : name ∉ els.map (·.name)) :
    setDcByName name v els = none := by
  induction els with
  | nil => rfl
  | cons e t ih =>
    simp only [List.map_cons, List.mem_cons, not_or] at h
    simp [setDcByName, Ne.symm h.1, ih h.2]

/-- the first loop of `set_volts` -/
theorem steps_setOne (cfg : List (String × ℝ)) (hk : (cfg.map Prod.fst).Nodup) : ∀ a : Adj,
    (∀ n ∈ cfg.map Prod.fst, n ∈ sysNames a) →
    ∃ a', steps setOne cfg a = (none, a') ∧ (∀ n, dcOf a' n = (cfg.lookup n).or (dcOf a n)) ∧ a'.volts = a.volts ∧
      sameOtherwise a a' ∧ sysNames a' = sysNames a := by
  induction cfg with
  | nil => intro a _; exact ⟨a, rfl, fun n => by simp, rfl, sameOtherwise_rfl a, rfl⟩
  | cons p t ih =>
    intro a hs
    obtain ⟨name, v⟩ := p
    obtain ⟨hnot, hnd⟩ := List.nodup_cons.1 hk
    obtain ⟨els', h1, h2, h3, h4⟩ := setDcByName_some name v a.sys.els (hs name (by simp))
    have e : setOne (name, v) a = (none, { a with sys := { a.sys with els := els' } }) := by simp [setOne, h1]
    obtain ⟨a', g1, g2, g3, g4, g5⟩ := ih hnd { a with sys := { a.sys with els := els' } } (by
      intro n hn
      have := hs n (by simp only [List.map_cons, List.mem_cons]; exact Or.inr hn)
      simpa [sysNames, h4] using this)
    refine ⟨a', by simp [steps, e, g1], ?_, g3, sameOtherwise_trans (b := { a with sys := { a.sys with els := els' } }) ⟨rfl, rfl, rfl, rfl, rfl, rfl, h3⟩ g4,
      by rw [g5]; exact h4⟩
    intro n
    rw [g2 n]
    have h2' := h2 n
    by_cases hn : n = name
    · subst hn
      have : t.lookup n = none := by
        rw [List.lookup_eq_none_iff]
        intro p hp
        have : n ≠ p.1 := fun h => hnot (List.mem_map.2 ⟨p, hp, h.symm⟩)
        simpa using this
      simp [this, dcOf, h2', List.lookup_cons]
    · have hb : (n == name) = false := by simpa using hn
      simp only [List.lookup_cons, hb, dcOf, h2', hn, if_false]

theorem appendHist_ok (name : String) (f : List ℝ → Py (List ℝ)) (d : List (String × List ℝ)) (h h' : List ℝ)
    (hl : d.lookup name = some h) (hf : f h = .ok h') :
    ∃ d', appendHist name f d = .ok d' ∧ d'.map Prod.fst = d.map Prod.fst ∧
      ∀ n, d'.lookup n = if n = name then some h' else d.lookup n := by
  induction d with
  | nil => simp at hl
  | cons p t ih =>
    obtain ⟨m, k⟩ := p
    by_cases hm : m = name
    · subst hm
      simp only [List.lookup_cons, beq_self_eq_true, Option.some.injEq] at hl
      subst hl
      refine ⟨(m, h') :: t, by simp [appendHist, hf], rfl, fun n => ?_⟩
      by_cases hn : n = m
      · subst hn; simp [List.lookup_cons]
      · have hb : (n == m) = false := by simpa using hn
        simp [List.lookup_cons, hb, hn]
    · have hb : (name == m) = false := by simpa using Ne.symm hm
      simp only [List.lookup_cons, hb] at hl
      obtain ⟨d', h1, h2, h3⟩ := ih hl
      refine ⟨(m, k) :: d', by simp [appendHist, hm, h1], by simp [h2], fun n => ?_⟩
      by_cases hn : n = m
      · subst hn; simp [List.lookup_cons, hm]
      · have hb : (n == m) = false := by simpa using hn
        simp only [List.lookup_cons, hb, h3 n]

theorem histStep_ok (name : String) (f : List ℝ → Py (List ℝ)) (a : Adj) (h h' : List ℝ)
    (hl : histOf a name = some h) (hf : f h = .ok h') :
    ∃ a', histStep name f a = (none, a') ∧ a'.sys = a.sys ∧ sameOtherwise a a' ∧ histNames a' = histNames a ∧
      ∀ n, histOf a' n = if n = name then some h' else histOf a n := by
  obtain ⟨d', h1, h2, h3⟩ := appendHist_ok name f a.volts h h' hl hf
  exact ⟨{ a with volts := d' }, by simp [histStep, h1], rfl, ⟨rfl, rfl, rfl, rfl, rfl, rfl, rfl⟩, h2, h3⟩

/-- the second loop of `set_volts` -/
theorem steps_saveOne (cfg : List (String × ℝ)) (hk : (cfg.map Prod.fst).Nodup) : ∀ a : Adj,
    (∀ n ∈ cfg.map Prod.fst, ∃ h, histOf a n = some h) →
    ∃ a', steps saveOne cfg a = (none, a') ∧ a'.sys = a.sys ∧ sameOtherwise a a' ∧ histNames a' = histNames a ∧
      ∀ n, histOf a' n = match cfg.lookup n with
        | some v => (histOf a n).map (· ++ [v])
        | none => histOf a n := by
  induction cfg with
  | nil => intro a _; exact ⟨a, rfl, rfl, sameOtherwise_rfl a, rfl, fun n => rfl⟩
  | cons p t ih =>
    intro a hs
    obtain ⟨name, v⟩ := p
    obtain ⟨hnot, hnd⟩ := List.nodup_cons.1 hk
    obtain ⟨h, hh⟩ := hs name (by simp)
    obtain ⟨a1, h1, h2, h3, h4, h5⟩ := histStep_ok name (fun h => .ok (h ++ [v])) a h _ hh rfl
    obtain ⟨a', g1, g2, g3, g4, g5⟩ := ih hnd a1 (by
      intro n hn
      obtain ⟨k, hk⟩ := hs n (by simp only [List.map_cons, List.mem_cons]; exact Or.inr hn)
      rw [h5 n]
      split
      · exact ⟨_, rfl⟩
      · exact ⟨k, hk⟩)
    refine ⟨a', by simp [steps, saveOne, h1] ; exact g1, g2.trans h2, sameOtherwise_trans h3 g3, g4.trans h4, fun n => ?_⟩
    rw [g5 n]
    by_cases hn : n = name
    · subst hn
      have : t.lookup n = none := by
        rw [List.lookup_eq_none_iff]
        intro p hp
        have : n ≠ p.1 := fun h => hnot (List.mem_map.2 ⟨p, hp, h.symm⟩)
        simpa using this
      simp [this, h5, List.lookup_cons, hh]
    · have hb : (n == name) = false := by simpa using hn
      simp only [List.lookup_cons, hb, h5 n, hn, if_false]

/-- the third loop of `set_volts` -/
theorem steps_keepOne (ns : List String) (hk : ns.Nodup) : ∀ a : Adj,
    (∀ n ∈ ns, ∃ h v, histOf a n = some h ∧ h.getLast? = some v) →
    ∃ a', steps keepOne ns a = (none, a') ∧ a'.sys = a.sys ∧ sameOtherwise a a' ∧ histNames a' = histNames a ∧
      ∀ n, histOf a' n = if n ∈ ns then (histOf a n).map (fun h => h ++ h.getLast?.toList) else histOf a n := by
  induction ns with
  | nil => intro a _; exact ⟨a, rfl, rfl, sameOtherwise_rfl a, rfl, fun n => by simp⟩
  | cons name t ih =>
    intro a hs
    obtain ⟨hnot, hnd⟩ := List.nodup_cons.1 hk
    obtain ⟨h, v, hh, hv⟩ := hs name (by simp)
    obtain ⟨a1, h1, h2, h3, h4, h5⟩ := histStep_ok name (fun h => match h.getLast? with
      | none => .error .indexError
      | some v => .ok (h ++ [v])) a h (h ++ [v]) hh (by simp [hv])
    obtain ⟨a', g1, g2, g3, g4, g5⟩ := ih hnd a1 (by
      intro n hn
      obtain ⟨k, w, hk, hw⟩ := hs n (List.mem_cons_of_mem _ hn)
      have : n ≠ name := fun h => hnot (h ▸ hn)
      exact ⟨k, w, by rw [h5 n, if_neg this]; exact hk, hw⟩)
    refine ⟨a', by
      have e : keepOne name a = (none, a1) := h1
      simp only [steps, e]; exact g1, g2.trans h2, sameOtherwise_trans h3 g3, g4.trans h4, fun n => ?_⟩
    rw [g5 n]
    by_cases hn : n = name
    · subst hn
      simp [hnot, h5, hh, hv]
    · simp [h5, hn]

theorem lookup_some_of_mem {β : Type*} (d : List (String × β)) (n : String) (h : n ∈ d.map Prod.fst) :
    ∃ v, d.lookup n = some v := by
  cases hl : d.lookup n with
  | some v => exact ⟨v, rfl⟩
  | none =>
    rw [List.lookup_eq_none_iff] at hl
    obtain ⟨p, hp, rfl⟩ := List.mem_map.1 h
    have := hl p hp
    simp at this

theorem mem_of_lookup_some {β : Type*} (d : List (String × β)) (n : String) (v : β) (h : d.lookup n = some v) :
    n ∈ d.map Prod.fst := by
  by_contra hn
  have : d.lookup n = none := by
    rw [List.lookup_eq_none_iff]
    intro p hp
    have : n ≠ p.1 := fun h => hn (List.mem_map.2 ⟨p, hp, h.symm⟩)
    simpa using this
  rw [this] at h; cases h

theorem lookup_none_iff {β : Type*} (d : List (String × β)) (n : String) : d.lookup n = none ↔ n ∉ d.map Prod.fst := by
  constructor
  · intro h hn
    obtain ⟨v, hv⟩ := lookup_some_of_mem d n hn
    rw [hv] at h; cases h
  · intro h
    cases hl : d.lookup n with
    | none => rfl
    | some v => exact absurd (mem_of_lookup_some d n v hl) h

end lemmas

namespace Spec
/-- `cfg` is a dictionary of known electrodes, and every other electrode has a history to continue -/
structure Savable (a : Adj) (cfg : List (String × ℝ)) : Prop where
  keys : (cfg.map Prod.fst).Nodup
  known : ∀ n ∈ cfg.map Prod.fst, n ∈ sysNames a
  knownHist : ∀ n ∈ cfg.map Prod.fst, n ∈ histNames a
  histKeys : (histNames a).Nodup
  others : ∀ n h, histOf a n = some h → n ∉ cfg.map Prod.fst → h ≠ []
end Spec

/-- C64: `set_volts` with `save` sets the given voltages, leaves the others, and appends exactly one entry to every history: the
new voltage, or the last one again.  Nothing else changes. -/
theorem c64_save (a : Adj) (cfg : List (String × ℝ)) (h : Savable a cfg) :
    ∃ a', setVolts cfg true a = (none, a') ∧ sameOtherwise a a' ∧ sysNames a' = sysNames a ∧ histNames a' = histNames a ∧
      (∀ n, dcOf a' n = (cfg.lookup n).or (dcOf a n)) ∧
      ∀ n k, histOf a n = some k → ∃ v, histOf a' n = some (k ++ [v]) ∧ ((cfg.lookup n).or k.getLast?) = some v := by
  obtain ⟨a1, h1, h2, h3, h4, h5⟩ := steps_setOne cfg h.keys a h.known
  have e3 : ∀ n, histOf a1 n = histOf a n := fun n => by simp [histOf, h3]
  obtain ⟨a2, g1, g2, g3, g4, g5⟩ := steps_saveOne cfg h.keys a1 (by
    intro n hn
    obtain ⟨k, hk⟩ := lookup_some_of_mem a.volts n (h.knownHist n hn)
    exact ⟨k, (e3 n).trans hk⟩)
  have hnames : histNames a2 = histNames a := by rw [g4]; simp [histNames, h3]
  obtain ⟨a3, k1, k2, k3, k4, k5⟩ := steps_keepOne ((a2.volts.map Prod.fst).filter fun n => !decide (n ∈ cfg.map Prod.fst))
    ((show (a2.volts.map Prod.fst).Nodup from by rw [show a2.volts.map Prod.fst = histNames a from hnames]; exact h.histKeys).filter _)
    a2 (by
      intro n hn
      obtain ⟨hn1, hn2⟩ := List.mem_filter.1 hn
      have hn2' : n ∉ cfg.map Prod.fst := by simpa only [Bool.not_eq_true', decide_eq_false_iff_not] using hn2
      obtain ⟨k, hk⟩ := lookup_some_of_mem a2.volts n hn1
      have hk' : histOf a2 n = some k := hk
      have hlk : cfg.lookup n = none := (lookup_none_iff _ _).2 hn2'
      have hk2 := g5 n
      rw [hlk] at hk2
      simp only at hk2
      rw [hk', e3 n] at hk2
      have hne := h.others n k hk2.symm hn2'
      exact ⟨k, k.getLast hne, hk', List.getLast?_eq_some_getLast hne⟩)
  refine ⟨a3, by simp only [setVolts, h1, if_true, g1]; exact k1, sameOtherwise_trans (sameOtherwise_trans h4 g3) k3, ?_, k4.trans hnames, ?_, ?_⟩
  · rw [sysNames, k2, g2]; exact h5
  · intro n
    rw [← h2 n]; simp only [dcOf, k2, g2]
  · intro n k hk
    have hmem : n ∈ a2.volts.map Prod.fst := by
      rw [show a2.volts.map Prod.fst = histNames a from hnames]; exact mem_of_lookup_some _ _ _ hk
    have hk5 := k5 n
    cases hlk : cfg.lookup n with
    | some v =>
      have hin : n ∈ cfg.map Prod.fst := mem_of_lookup_some _ _ _ hlk
      have : n ∉ (a2.volts.map Prod.fst).filter fun n => !decide (n ∈ cfg.map Prod.fst) := by
        rw [List.mem_filter]; rintro ⟨-, h2⟩
        simp only [Bool.not_eq_true', decide_eq_false_iff_not] at h2
        exact h2 hin
      rw [if_neg this, g5 n, hlk] at hk5
      simp only [e3, hk, Option.map_some] at hk5
      exact ⟨v, hk5, rfl⟩
    | none =>
      have hin : n ∉ cfg.map Prod.fst := (lookup_none_iff _ _).1 hlk
      have : n ∈ (a2.volts.map Prod.fst).filter fun n => !decide (n ∈ cfg.map Prod.fst) := by
        rw [List.mem_filter]
        exact ⟨hmem, by simp only [Bool.not_eq_true', decide_eq_false_iff_not]; exact hin⟩
      have hne := h.others n k hk hin
      rw [if_pos this, g5 n, hlk] at hk5
      simp only [e3, hk, Option.map_some, List.getLast?_eq_some_getLast hne, Option.toList_some] at hk5
      exact ⟨k.getLast hne, hk5, by simp [List.getLast?_eq_some_getLast hne]⟩

/-- C64: without `save` the voltages are set and no history changes. -/
theorem c64_nosave (a : Adj) (cfg : List (String × ℝ)) (hk : (cfg.map Prod.fst).Nodup)
    (hs : ∀ n ∈ cfg.map Prod.fst, n ∈ sysNames a) :
    ∃ a', setVolts cfg false a = (none, a') ∧ sameOtherwise a a' ∧ (∀ n, dcOf a' n = (cfg.lookup n).or (dcOf a n)) ∧
      a'.volts = a.volts := by
  obtain ⟨a1, h1, h2, h3, h4, -⟩ := steps_setOne cfg hk a hs
  exact ⟨a1, by simp [setVolts, h1], h4, h2, h3⟩

/-- C64: if the histories end with the voltages of the system, they still do after every saved change. -/
theorem c64_tracks (a a' : Adj) (cfg : List (String × ℝ)) (h : Savable a cfg) (hrun : setVolts cfg true a = (none, a'))
    (ht : ∀ n k, histOf a n = some k → n ∉ cfg.map Prod.fst → k.getLast? = dcOf a n)
    (n : String) (k : List ℝ) (hk : histOf a n = some k) :
    ∃ k', histOf a' n = some k' ∧ k'.getLast? = dcOf a' n ∧ k'.length = k.length + 1 := by
  obtain ⟨b, h1, -, -, -, h5, h6⟩ := c64_save a cfg h
  rw [hrun] at h1
  obtain rfl : a' = b := by simpa using h1
  obtain ⟨v, hv, hl⟩ := h6 n k hk
  refine ⟨k ++ [v], hv, ?_, by simp⟩
  rw [h5 n]
  cases hc : cfg.lookup n with
  | some w => rw [hc] at hl; simpa using hl.symm
  | none =>
    rw [hc] at hl
    have := ht n k hk ((lookup_none_iff _ _).1 hc)
    rw [List.getLast?_append]
    simp only [List.getLast?_singleton, Option.some_or, Option.none_or] at hl ⊢
    rw [← hl]; exact this

/-- a sequence of saved changes -/
def saveAll : List (List (String × ℝ)) → Adj → Option PyErr × Adj := steps fun cfg a => setVolts cfg true a

/-- C64: after any sequence of saved changes of known electrodes, on electrodes that have a history, every history has grown by
the number of changes, and the entry after each change is the voltage it set, or the previous entry. -/
theorem c64_sequence (cfgs : List (List (String × ℝ))) : ∀ (a : Adj), (histNames a).Nodup →
    (∀ n h, histOf a n = some h → h ≠ []) →
    (∀ c ∈ cfgs, (c.map Prod.fst).Nodup ∧ ∀ n ∈ c.map Prod.fst, n ∈ sysNames a ∧ n ∈ histNames a) →
    ∃ a', saveAll cfgs a = (none, a') ∧ sameOtherwise a a' ∧
      ∀ n h, histOf a n = some h → ∃ new : List ℝ, histOf a' n = some (h ++ new) ∧ new.length = cfgs.length ∧
        ∀ (i : ℕ) (c : List (String × ℝ)), cfgs[i]? = some c → new[i]? = (c.lookup n).or ((h ++ new)[h.length + i - 1]?) := by
  induction cfgs with
  | nil =>
    intro a _ _ _
    exact ⟨a, rfl, sameOtherwise_rfl a, fun n h hh => ⟨[], by simpa using hh, rfl, by simp⟩⟩
  | cons c t ih =>
    intro a hnd hne hc
    obtain ⟨hc1, hc2⟩ := hc c List.mem_cons_self
    obtain ⟨a1, h1, h2, h3, h4, h5, h6⟩ := c64_save a c ⟨hc1, fun n hn => (hc2 n hn).1, fun n hn => (hc2 n hn).2, hnd,
      fun n h hh _ => hne n h hh⟩
    obtain ⟨a', g1, g2, g3⟩ := ih a1 (by rw [h4]; exact hnd) (by
      intro n h hh
      have hm : n ∈ histNames a := by rw [← h4]; exact mem_of_lookup_some _ _ _ hh
      obtain ⟨k, hk⟩ := lookup_some_of_mem a.volts n hm
      obtain ⟨v, hv, -⟩ := h6 n k hk
      rw [hh] at hv
      rw [Option.some.inj hv]; simp) (by
      intro d hd
      obtain ⟨e1, e2⟩ := hc d (List.mem_cons_of_mem _ hd)
      rw [h3, h4]; exact ⟨e1, e2⟩)
    refine ⟨a', by simp only [saveAll, steps, h1]; exact g1, sameOtherwise_trans h2 g2, fun n h hh => ?_⟩
    obtain ⟨v, hv, hl⟩ := h6 n h hh
    obtain ⟨new, k1, k2, k3⟩ := g3 n _ hv
    refine ⟨v :: new, by rw [k1]; simp, by simp [k2], ?_⟩
    intro i d hi
    cases i with
    | zero =>
      simp only [List.getElem?_cons_zero, Option.some.injEq] at hi
      subst hi
      have hlen : 0 < h.length := List.length_pos_of_ne_nil (hne n h hh)
      rw [List.getElem?_append_left (by omega), List.getElem?_cons_zero, Nat.add_zero, ← List.getLast?_eq_getElem?]
      exact hl.symm
    | succ i =>
      simp only [List.getElem?_cons_succ] at hi
      have := k3 i d hi
      rw [List.getElem?_cons_succ, this]
      have e : h ++ [v] ++ new = h ++ v :: new := by simp
      rw [e]
      congr 2
      simp only [List.length_append, List.length_singleton]
      omega


theorem appendHist_err (name : String) (f : List ℝ → Py (List ℝ)) (d : List (String × List ℝ)) (h : List ℝ) (e : PyErr)
    (hl : d.lookup name = some h) (hf : f h = .error e) : appendHist name f d = .error e := by
  induction d with
  | nil => cases hl
  | cons p t ih =>
    obtain ⟨m, k⟩ := p
    by_cases hm : m = name
    · subst hm
      simp only [List.lookup_cons, beq_self_eq_true, Option.some.injEq] at hl
      subst hl
      simp [appendHist, hf]
    · have hb : (name == m) = false := by simpa using Ne.symm hm
      simp only [List.lookup_cons, hb] at hl
      simp [appendHist, hm, ih hl]

theorem zip_fst_sublist {α β : Type*} (l : List α) (m : List β) : List.Sublist ((l.zip m).map Prod.fst) l := by
  induction l generalizing m with
  | nil => simp
  | cons a t ih =>
    cases m with
    | nil => simp
    | cons b m => simp [ih m]

theorem steps_keepOne_fail (ns : List String) (hk : ns.Nodup) : ∀ a : Adj, (∀ n ∈ ns, ∃ h, histOf a n = some h) →
    (∃ n ∈ ns, histOf a n = some []) → ∃ a', steps keepOne ns a = (some .indexError, a') ∧ a'.sys = a.sys := by
  induction ns with
  | nil => rintro a - ⟨n, hn, -⟩; cases hn
  | cons name t ih =>
    intro a hs hex
    obtain ⟨hnot, hnd⟩ := List.nodup_cons.1 hk
    obtain ⟨h, hh⟩ := hs name List.mem_cons_self
    cases hl : h.getLast? with
    | none =>
      have hnil : h = [] := by simpa using hl
      subst hnil
      refine ⟨a, ?_, rfl⟩
      have e : keepOne name a = (some .indexError, a) := by
        unfold keepOne histStep
        rw [appendHist_err name _ a.volts [] .indexError hh rfl]
      simp [steps, e]
    | some v =>
      obtain ⟨a1, h1, h2, -, -, h5⟩ := histStep_ok name (fun h => match h.getLast? with
        | none => .error .indexError
        | some v => .ok (h ++ [v])) a h (h ++ [v]) hh (by simp [hl])
      have e : keepOne name a = (none, a1) := h1
      obtain ⟨a', g1, g2⟩ := ih hnd a1 (by
        intro n hn
        obtain ⟨k, hk⟩ := hs n (List.mem_cons_of_mem _ hn)
        exact ⟨k, by rw [h5 n, if_neg (fun e : n = name => hnot (e ▸ hn))]; exact hk⟩) (by
        obtain ⟨n, hn, hn2⟩ := hex
        rcases List.mem_cons.1 hn with rfl | hn
        · rw [hh] at hn2
          obtain rfl := Option.some.inj hn2
          cases hl
        · exact ⟨n, hn, by rw [h5 n, if_neg (fun e : n = name => hnot (e ▸ hn))]; exact hn2⟩)
      exact ⟨a', by simp only [steps, e]; exact g1, g2.trans h2⟩

/-- C64: a saved change that leaves out an electrode without history raises `IndexError`, after the voltages have been set. -/
theorem c64_first_save (a : Adj) (cfg : List (String × ℝ)) (hk : (cfg.map Prod.fst).Nodup)
    (known : ∀ n ∈ cfg.map Prod.fst, n ∈ sysNames a ∧ n ∈ histNames a) (hkeys : (histNames a).Nodup)
    (n : String) (hn : histOf a n = some []) (hout : n ∉ cfg.map Prod.fst) :
    ∃ a', setVolts cfg true a = (some .indexError, a') ∧ ∀ n, dcOf a' n = (cfg.lookup n).or (dcOf a n) := by
  obtain ⟨a1, h1, h2, h3, h4, h5⟩ := steps_setOne cfg hk a fun n hn => (known n hn).1
  have e3 : ∀ n, histOf a1 n = histOf a n := fun n => by simp [histOf, h3]
  obtain ⟨a2, g1, g2, g3, g4, g5⟩ := steps_saveOne cfg hk a1 (by
    intro n hn
    obtain ⟨k, hk⟩ := lookup_some_of_mem a.volts n (known n hn).2
    exact ⟨k, (e3 n).trans hk⟩)
  have hnames : histNames a2 = histNames a := by rw [g4]; simp [histNames, h3]
  have hn2 : histOf a2 n = some [] := by
    rw [g5 n, (lookup_none_iff _ _).2 hout]
    exact (e3 n).trans hn
  obtain ⟨a3, k1, k2⟩ := steps_keepOne_fail ((a2.volts.map Prod.fst).filter fun n => !decide (n ∈ cfg.map Prod.fst))
    ((show (a2.volts.map Prod.fst).Nodup from by rw [show a2.volts.map Prod.fst = histNames a from hnames]; exact hkeys).filter _)
    a2 (fun m hm => lookup_some_of_mem a2.volts m (List.mem_filter.1 hm).1)
    ⟨n, List.mem_filter.2 ⟨mem_of_lookup_some _ _ _ hn2, by
      simp only [Bool.not_eq_true', decide_eq_false_iff_not]; exact hout⟩, hn2⟩
  refine ⟨a3, by simp only [setVolts, h1, if_true, g1]; exact k1, fun m => ?_⟩
  rw [← h2 m]; simp only [dcOf, k2, g2]

theorem initVolts_keys (els : List Elec) : ∀ d : List (String × List ℝ), (d.map Prod.fst).Nodup → (∀ p ∈ d, p.2 = []) →
    ((els.foldl (fun d e => if e.name ∈ d.map Prod.fst then d else d ++ [(e.name, [])]) d).map Prod.fst).Nodup ∧
    (∀ p ∈ els.foldl (fun d e => if e.name ∈ d.map Prod.fst then d else d ++ [(e.name, [])]) d, p.2 = []) ∧
    ∀ n, n ∈ (els.foldl (fun d e => if e.name ∈ d.map Prod.fst then d else d ++ [(e.name, [])]) d).map Prod.fst ↔
      n ∈ d.map Prod.fst ∨ n ∈ els.map (·.name) := by
  induction els with
  | nil => intro d h1 h2; exact ⟨h1, h2, by simp⟩
  | cons e t ih =>
    intro d h1 h2
    rw [List.foldl_cons]
    by_cases he : e.name ∈ d.map Prod.fst
    · rw [if_pos he]
      obtain ⟨g1, g2, g3⟩ := ih d h1 h2
      refine ⟨g1, g2, fun n => (g3 n).trans ?_⟩
      simp only [List.map_cons, List.mem_cons]
      constructor
      · rintro (h | h)
        · exact Or.inl h
        · exact Or.inr (Or.inr h)
      · rintro (h | h | h)
        · exact Or.inl h
        · exact Or.inl (h ▸ he)
        · exact Or.inr h
    · rw [if_neg he]
      obtain ⟨g1, g2, g3⟩ := ih (d ++ [(e.name, [])]) (by
        rw [List.map_append, List.nodup_append]
        refine ⟨h1, by simp, ?_⟩
        intro a ha b hb
        simp only [List.map_cons, List.map_nil, List.mem_singleton] at hb
        subst hb
        exact fun h => he (h ▸ ha)) (by
        intro p hp
        rcases List.mem_append.1 hp with hp | hp
        · exact h2 p hp
        · simp only [List.mem_singleton] at hp; subst hp; rfl)
      refine ⟨g1, g2, fun n => (g3 n).trans ?_⟩
      simp only [List.map_cons, List.mem_cons, List.map_append, List.mem_append, List.map_nil, List.mem_singleton, List.not_mem_nil,
        or_false, or_assoc]

/-- C64: a new object has one empty history for each name of the system. -/
theorem c64_init (els : List Elec) : ((initVolts els).map Prod.fst).Nodup ∧
    ∀ n, (initVolts els).lookup n = if n ∈ els.map (·.name) then some [] else none := by
  obtain ⟨h1, h2, h3⟩ := initVolts_keys els [] (by simp) (by simp)
  refine ⟨h1, fun n => ?_⟩
  have h3' : n ∈ (initVolts els).map Prod.fst ↔ n ∈ els.map (·.name) := (h3 n).trans (by simp)
  by_cases hn : n ∈ els.map (·.name)
  · rw [if_pos hn]
    obtain ⟨v, hv⟩ := lookup_some_of_mem _ n (h3'.2 hn)
    rw [hv]
    have hmem : (n, v) ∈ initVolts els := by
      have : ∀ d : List (String × List ℝ), d.lookup n = some v → (n, v) ∈ d := by
        intro d
        induction d with
        | nil => intro h; cases h
        | cons p t ih =>
          obtain ⟨m, k⟩ := p
          intro hd
          by_cases hm : n = m
          · subst hm
            simp only [List.lookup_cons, beq_self_eq_true, Option.some.injEq] at hd
            subst hd
            exact List.mem_cons_self
          · have hb : (n == m) = false := by simpa using hm
            simp only [List.lookup_cons, hb] at hd
            exact List.mem_cons_of_mem _ (ih hd)
      exact this _ hv
    rw [show v = [] from h2 _ hmem]
  · rw [if_neg hn, lookup_none_iff, h3']; exact hn

/-! ### next_step -/

/-- the configuration of a move: each electrode of a group with its last voltage plus the change of the group -/
def Spec.moveConfig (a : Adj) (dV : List ℝ) : List (String × ℝ) :=
  (a.config.zip dV).flatMap fun p => p.1.map fun n => (n, ((histOf a n).getD []).getLastD 0 + p.2)

theorem dictSet_new (d : List (String × ℝ)) (k : String) (v : ℝ) (h : k ∉ d.map Prod.fst) : dictSet d k v = d ++ [(k, v)] := by
  induction d with
  | nil => rfl
  | cons p t ih =>
    obtain ⟨m, w⟩ := p
    simp only [List.map_cons, List.mem_cons, not_or] at h
    simp [dictSet, Ne.symm h.1, ih h.2]

theorem configOne_group (a : Adj) (dV : ℝ) (g : List String) : ∀ c : List (String × ℝ),
    (c.map Prod.fst ++ g).Nodup → (∀ n ∈ g, ∃ h v, histOf a n = some h ∧ h.getLast? = some v) →
    g.foldl (configOne a.volts dV) (.ok c) = .ok (c ++ g.map fun n => (n, ((histOf a n).getD []).getLastD 0 + dV)) := by
  induction g with
  | nil => intro c _ _; simp
  | cons n t ih =>
    intro c hc hg
    obtain ⟨h, v, hh, hv⟩ := hg n List.mem_cons_self
    have hn : n ∉ c.map Prod.fst := by
      intro hn
      exact (List.nodup_append.1 hc).2.2 n hn n List.mem_cons_self rfl
    have e : configOne a.volts dV (.ok c) n = .ok (c ++ [(n, v + dV)]) := by
      have : a.volts.lookup n = some h := hh
      simp [configOne, this, hv, dictSet_new _ _ _ hn]
    rw [List.foldl_cons, e, ih _ (by simpa using hc) fun m hm => hg m (List.mem_cons_of_mem _ hm)]
    simp [hh, List.getLastD_eq_getLast?, hv]

/-- the configuration the code builds, when the groups are disjoint and their electrodes have histories -/
theorem constructConfig_eq (a : Adj) (dV : List ℝ) (hd : a.config.flatten.Nodup)
    (hg : ∀ n ∈ a.config.flatten, ∃ h v, histOf a n = some h ∧ h.getLast? = some v) :
    constructConfig a dV = .ok (moveConfig a dV) := by
  have key : ∀ (z : List (List String × ℝ)) (c : List (String × ℝ)), (c.map Prod.fst ++ (z.map Prod.fst).flatten).Nodup →
      (∀ n ∈ (z.map Prod.fst).flatten, ∃ h v, histOf a n = some h ∧ h.getLast? = some v) →
      z.foldl (fun c p => p.1.foldl (configOne a.volts p.2) c) (.ok c)
        = .ok (c ++ z.flatMap fun p => p.1.map fun n => (n, ((histOf a n).getD []).getLastD 0 + p.2)) := by
    intro z
    induction z with
    | nil => intro c _ _; simp
    | cons p t ih =>
      intro c hc hz
      obtain ⟨g, v⟩ := p
      simp only [List.map_cons, List.flatten_cons] at hc hz
      have hc1 : (c.map Prod.fst ++ g).Nodup := by
        rw [← List.append_assoc] at hc; exact (List.nodup_append.1 hc).1
      rw [List.foldl_cons]
      simp only
      rw [configOne_group a v g c hc1 fun n hn => hz n (List.mem_append_left _ hn), ih _ (by
        simpa [List.map_append, List.map_map, Function.comp_def] using hc) fun n hn => hz n (List.mem_append_right _ hn)]
      simp
  have hsub : List.Sublist ((a.config.zip dV).map Prod.fst).flatten a.config.flatten := by
    exact (zip_fst_sublist _ _).flatten
  have := key (a.config.zip dV) [] (by simpa using hd.sublist hsub) fun n hn => hg n (hsub.subset hn)
  simpa [constructConfig, moveConfig] using this

theorem moveConfig_keys (a : Adj) (dV : List ℝ) : (moveConfig a dV).map Prod.fst = ((a.config.zip dV).map Prod.fst).flatten := by
  unfold moveConfig
  generalize a.config.zip dV = z
  induction z with
  | nil => rfl
  | cons p t ih => simp only [List.flatMap_cons, List.map_append, ih, List.map_cons, List.flatten_cons, List.map_map, Function.comp_def, List.map_id']

namespace Spec
/-- the object is ready for a move: the groups are disjoint and known, and all histories have an entry -/
structure Ready (a : Adj) : Prop where
  disjoint : a.config.flatten.Nodup
  known : ∀ n ∈ a.config.flatten, n ∈ sysNames a ∧ n ∈ histNames a
  histKeys : (histNames a).Nodup
  started : ∀ n h, histOf a n = some h → h ≠ []
end Spec

theorem Ready_savable (a : Adj) (dV : List ℝ) (h : Ready a) : Savable a (moveConfig a dV) ∧
    constructConfig a dV = .ok (moveConfig a dV) := by
  have hsub : List.Sublist ((a.config.zip dV).map Prod.fst).flatten a.config.flatten := by
    exact (zip_fst_sublist _ _).flatten
  refine ⟨⟨?_, ?_, ?_, h.histKeys, fun n k hk _ => h.started n k hk⟩, constructConfig_eq a dV h.disjoint ?_⟩
  · rw [moveConfig_keys]; exact h.disjoint.sublist hsub
  · rw [moveConfig_keys]; intro n hn; exact (h.known n (hsub.subset hn)).1
  · rw [moveConfig_keys]; intro n hn; exact (h.known n (hsub.subset hn)).2
  · intro n hn
    obtain ⟨k, hk⟩ := lookup_some_of_mem a.volts n (h.known n hn).2
    have := h.started n k hk
    exact ⟨k, k.getLast this, hk, List.getLast?_eq_some_getLast this⟩

theorem lookup_flat (a : Adj) (n : String) (d : ℝ) (z : List (List String × ℝ)) (hd : ((z.map Prod.fst).flatten).Nodup) :
    (∀ g, (g, d) ∈ z → n ∈ g → (z.flatMap fun p => p.1.map fun n => (n, ((histOf a n).getD []).getLastD 0 + p.2)).lookup n
      = some (((histOf a n).getD []).getLastD 0 + d)) ∧
    (n ∉ (z.map Prod.fst).flatten → (z.flatMap fun p => p.1.map fun n => (n, ((histOf a n).getD []).getLastD 0 + p.2)).lookup n
      = none) := by
  have key : ∀ (g : List String) (v : ℝ), (g.map fun n => (n, ((histOf a n).getD []).getLastD 0 + v)).lookup n
      = if n ∈ g then some (((histOf a n).getD []).getLastD 0 + v) else none := by
    intro g v
    induction g with
    | nil => simp
    | cons m t ih =>
      by_cases hm : n = m
      · subst hm; simp
      · have hb : (n == m) = false := by simpa using hm
        simp only [List.map_cons, List.lookup_cons, hb, ih, List.mem_cons, hm, false_or]
  induction z with
  | nil => exact ⟨fun g hg => absurd hg (by simp), fun _ => rfl⟩
  | cons p t ih =>
    obtain ⟨g, v⟩ := p
    simp only [List.map_cons, List.flatten_cons] at hd
    obtain ⟨h1, h2, h3⟩ := List.nodup_append.1 hd
    obtain ⟨i1, i2⟩ := ih h2
    simp only [List.flatMap_cons, List.lookup_append, key, List.map_cons, List.flatten_cons, List.mem_append, not_or]
    refine ⟨?_, ?_⟩
    · intro g' hg' hn
      rcases List.mem_cons.1 hg' with e | ht
      · obtain ⟨rfl, rfl⟩ := Prod.mk.inj e
        simp [hn]
      · have : n ∉ g := fun hng => h3 n hng n (List.mem_flatten.2 ⟨g', List.mem_map.2 ⟨_, ht, rfl⟩, hn⟩) rfl
        rw [if_neg this, Option.none_or]; exact i1 g' ht hn
    · rintro ⟨hn1, hn2⟩
      rw [if_neg hn1, Option.none_or]; exact i2 hn2

/-- C64: accepting a proposed move appends one entry to every history: the last one plus the change of the group of the
electrode, or the last one again.  The proposed minimum and curvatures are appended, and the proposal is gone. -/
theorem c64_accept (a : Adj) (dV : List ℝ) (xm : V3) (ev : List ℝ) (hp : a.propose = some (dV, xm, ev)) (h : Ready a) :
    ∃ a', nextStep none true a = (none, a') ∧ a'.propose = none ∧ a'.xms = a.xms ++ [xm] ∧ a'.curves = a.curves ++ [ev] ∧
      a'.config = a.config ∧ a'.basis = a.basis ∧
      (∀ g d n k v, (g, d) ∈ a.config.zip dV → n ∈ g → histOf a n = some k → k.getLast? = some v →
        histOf a' n = some (k ++ [v + d]) ∧ dcOf a' n = some (v + d)) ∧
      (∀ n k v, n ∉ a.config.flatten → histOf a n = some k → k.getLast? = some v →
        histOf a' n = some (k ++ [v]) ∧ dcOf a' n = dcOf a n) := by
  obtain ⟨hs, hc⟩ := Ready_savable a dV h
  obtain ⟨a1, h1, h2, h3, h4, h5, h6⟩ := c64_save a _ hs
  have hsub : List.Sublist ((a.config.zip dV).map Prod.fst).flatten a.config.flatten := by
    exact (zip_fst_sublist _ _).flatten
  refine ⟨{ a1 with xms := a1.xms ++ [xm], curves := a1.curves ++ [ev], propose := none }, ?_, rfl, ?_, ?_, h2.1, h2.2.2.2.1, ?_, ?_⟩
  · simp only [nextStep, if_true, hp, hc, h1]
  · simp only [h2.2.1]
  · simp only [h2.2.2.1]
  · intro g d n k v hg hn hk hv
    have hl := (lookup_flat a n d (a.config.zip dV) (h.disjoint.sublist hsub)).1 g hg hn
    have hl' : (moveConfig a dV).lookup n = some (v + d) := by
      have e : ((histOf a n).getD []).getLastD 0 = v := by simp [hk, List.getLastD_eq_getLast?, hv]
      rw [e] at hl
      exact hl
    obtain ⟨w, hw, hw2⟩ := h6 n k hk
    rw [hl'] at hw2
    obtain rfl : v + d = w := by simpa using hw2
    exact ⟨hw, (h5 n).trans (by rw [hl']; rfl)⟩
  · intro n k v hn hk hv
    have hl : (moveConfig a dV).lookup n = none :=
      (lookup_flat a n 0 (a.config.zip dV) (h.disjoint.sublist hsub)).2 fun hm => hn (hsub.subset hm)
    obtain ⟨w, hw, hw2⟩ := h6 n k hk
    rw [hl, hv] at hw2
    obtain rfl : v = w := by simpa using hw2
    exact ⟨hw, (h5 n).trans (by rw [hl]; rfl)⟩

/-- C64 fails for a rejected move: `next_step` with `accept=False` always raises, and the voltages are not reset. -/
theorem c64_reject_fails (dV : Option (List ℝ)) (a : Adj) : nextStep dV false a = (some .attributeError, a) := by
  simp [nextStep]

/-- C64 fails for voltages of the user: they are set and saved, then `next_step` raises; the minimum is not recorded, so the
histories of voltages and of minima no longer have the same length. -/
theorem c64_userown_fails (dV : List ℝ) (a : Adj) (h : Ready a) :
    ∃ a', nextStep (some dV) true a = (some .unboundLocalError, a') ∧ a'.xms = a.xms ∧ a'.propose = a.propose ∧
      ∀ n k, histOf a n = some k → ∃ v, histOf a' n = some (k ++ [v]) := by
  obtain ⟨hs, hc⟩ := Ready_savable a dV h
  obtain ⟨a1, h1, h2, h3, h4, h5, h6⟩ := c64_save a _ hs
  refine ⟨a1, ?_, h2.2.1, h2.2.2.2.2.1, fun n k hk => ?_⟩
  · simp only [nextStep, if_true, hc, h1]
  · obtain ⟨v, hv, -⟩ := h6 n k hk
    exact ⟨v, hv⟩

/-- C64: without a proposal `next_step` raises and changes nothing. -/
theorem c64_no_propose (a : Adj) (h : a.propose = none) : nextStep none true a = (some .typeError, a) := by
  simp [nextStep, h]

/-! ### failures halfway and electrodes in several groups -/

theorem steps_append {β : Type*} (f : β → Adj → Option PyErr × Adj) (l m : List β) : ∀ a a' : Adj, steps f l a = (none, a') →
    steps f (l ++ m) a = steps f m a' := by
  induction l with
  | nil =>
    intro a a' h
    simp only [steps, Prod.mk.injEq, true_and] at h
    rw [h, List.nil_append]
  | cons b l ih =>
    intro a a' h
    simp only [steps, List.cons_append] at h ⊢
    split at h
    · cases h
    · exact ih _ _ h

/-- C64: a name that is not in the system ends `set_volts` with an exception; the voltages given before it are set and stay, those after it
are not set, and no history changes. -/
theorem c64_unknown (a : Adj) (pre post : List (String × ℝ)) (n : String) (v : ℝ) (save : Bool) (hk : (pre.map Prod.fst).Nodup)
    (hs : ∀ m ∈ pre.map Prod.fst, m ∈ sysNames a) (hn : n ∉ sysNames a) :
    ∃ a', setVolts (pre ++ (n, v) :: post) save a = (some .attributeError, a') ∧ sameOtherwise a a' ∧
      (∀ m, dcOf a' m = (pre.lookup m).or (dcOf a m)) ∧ a'.volts = a.volts := by
  obtain ⟨a1, h1, h2, h3, h4, h5⟩ := steps_setOne pre hk a hs
  refine ⟨a1, ?_, h4, h2, h3⟩
  have e : setOne (n, v) a1 = (some .attributeError, a1) := by
    have : n ∉ a1.sys.els.map (·.name) := by rw [show a1.sys.els.map (·.name) = sysNames a from h5]; exact hn
    simp [setOne, setDcByName_none n v _ this]
  have : steps setOne (pre ++ (n, v) :: post) a = (some .attributeError, a1) := by
    rw [steps_append _ _ _ _ _ h1]
    simp only [steps, e]
  simp only [setVolts, this]

theorem dictSet_lookup (d : List (String × ℝ)) (k : String) (v : ℝ) (n : String) :
    (dictSet d k v).lookup n = if n = k then some v else d.lookup n := by
  induction d with
  | nil =>
    by_cases h : n = k
    · simp [dictSet, h]
    · have hb : (n == k) = false := by simpa using h
      simp [dictSet, h, List.lookup_cons, hb]
  | cons p t ih =>
    obtain ⟨m, w⟩ := p
    unfold dictSet
    by_cases hm : m = k
    · subst hm
      by_cases h : n = m
      · simp [h]
      · have hb : (n == m) = false := by simpa using h
        simp [h, List.lookup_cons, hb]
    · rw [if_neg hm]
      by_cases h : n = m
      · subst h; simp [hm]
      · have hb : (n == m) = false := by simpa using h
        simp only [List.lookup_cons, hb, ih]

theorem configOne_lookup (a : Adj) (dV : ℝ) (n : String) (g : List String) : ∀ c : List (String × ℝ),
    (∀ m ∈ g, ∃ h v, histOf a m = some h ∧ h.getLast? = some v) →
    ∃ c', g.foldl (configOne a.volts dV) (.ok c) = .ok c' ∧
      c'.lookup n = if n ∈ g then some (((histOf a n).getD []).getLastD 0 + dV) else c.lookup n := by
  induction g with
  | nil => intro c _; exact ⟨c, rfl, by simp⟩
  | cons m t ih =>
    intro c hg
    obtain ⟨h, v, hh, hv⟩ := hg m List.mem_cons_self
    have e : configOne a.volts dV (.ok c) m = .ok (dictSet c m (v + dV)) := by
      have : a.volts.lookup m = some h := hh
      simp [configOne, this, hv]
    obtain ⟨c', h1, h2⟩ := ih (dictSet c m (v + dV)) fun k hk => hg k (List.mem_cons_of_mem _ hk)
    refine ⟨c', by rw [List.foldl_cons, e, h1], ?_⟩
    rw [h2, dictSet_lookup]
    by_cases hn : n = m
    · subst hn
      simp [hh, List.getLastD_eq_getLast?, hv]
    · simp [hn]

/-- C64: an electrode in several groups gets the change of the last of these groups, not the sum; an electrode in no group gets none. -/
theorem c64_shared (a : Adj) (dV : List ℝ) (hg : ∀ n ∈ a.config.flatten, ∃ h v, histOf a n = some h ∧ h.getLast? = some v) :
    ∃ c, constructConfig a dV = .ok c ∧
      (∀ pre g d post n, a.config.zip dV = pre ++ (g, d) :: post → n ∈ g → (∀ p ∈ post, n ∉ p.1) →
        c.lookup n = some (((histOf a n).getD []).getLastD 0 + d)) ∧
      ∀ n, (∀ p ∈ a.config.zip dV, n ∉ p.1) → c.lookup n = none := by
  have key : ∀ (z : List (List String × ℝ)) (n : String) (c : List (String × ℝ)),
      (∀ m ∈ (z.map Prod.fst).flatten, ∃ h v, histOf a m = some h ∧ h.getLast? = some v) →
      ∃ c', z.foldl (fun c p => p.1.foldl (configOne a.volts p.2) c) (.ok c) = .ok c' ∧
        ((∀ p ∈ z, n ∉ p.1) → c'.lookup n = c.lookup n) ∧
        ∀ pre g d post, z = pre ++ (g, d) :: post → n ∈ g → (∀ p ∈ post, n ∉ p.1) → c'.lookup n = some (((histOf a n).getD []).getLastD 0 + d) := by
    intro z n
    induction z with
    | nil => intro c _; exact ⟨c, rfl, fun _ => rfl, fun pre g d post h => by simp at h⟩
    | cons p t ih =>
      intro c hz
      simp only [List.map_cons, List.flatten_cons, List.mem_append] at hz
      obtain ⟨c1, h1, h2⟩ := configOne_lookup a p.2 n p.1 c fun m hm => hz m (.inl hm)
      obtain ⟨c', h3, h4, h5⟩ := ih c1 fun m hm => hz m (.inr hm)
      refine ⟨c', by rw [List.foldl_cons, h1, h3], fun h => ?_, fun pre g d post he hn hp => ?_⟩
      · rw [h4 fun q hq => h q (List.mem_cons_of_mem _ hq), h2, if_neg (h p List.mem_cons_self)]
      · cases pre with
        | nil =>
          simp only [List.nil_append, List.cons.injEq] at he
          obtain ⟨rfl, rfl⟩ := he
          rw [h4 hp, h2, if_pos hn]
        | cons q pre =>
          simp only [List.cons_append, List.cons.injEq] at he
          exact h5 pre g d post he.2 hn hp
  have hsub : List.Sublist ((a.config.zip dV).map Prod.fst).flatten a.config.flatten := (zip_fst_sublist _ _).flatten
  have hz : ∀ m ∈ ((a.config.zip dV).map Prod.fst).flatten, ∃ h v, histOf a m = some h ∧ h.getLast? = some v := fun m hm => hg m (hsub.subset hm)
  obtain ⟨c, hc, -⟩ := key (a.config.zip dV) "" [] hz
  refine ⟨c, hc, fun pre g d post n he hn hp => ?_, fun n hn => ?_⟩
  · obtain ⟨c', h1, -, h3⟩ := key (a.config.zip dV) n [] hz
    obtain rfl : c' = c := by rw [hc] at h1; exact (Except.ok.inj h1).symm
    exact h3 pre g d post he hn hp
  · obtain ⟨c', h1, h2, -⟩ := key (a.config.zip dV) n [] hz
    obtain rfl : c' = c := by rw [hc] at h1; exact (Except.ok.inj h1).symm
    rw [h2 hn]
    rfl

/-! ### the theorems apply -/

/-- two electrodes, one group, two saved changes so far, a proposal -/
noncomputable def exAdj : Adj where
  sys := ⟨[⟨"a", 1, 0, .cover 50⟩, ⟨"b", 2, 0, .cover 50⟩], some 1⟩
  volts := [("a", [0, 1]), ("b", [2, 2])]
  config := [["a"]]
  xms := [⟨0, 0, 1⟩]
  curves := [[1, 2, 3]]
  basis := [[1, 0, 0], [0, 1, 0], [0, 0, 1]]
  propose := some ([(1 : ℝ) / 2], ⟨0, 0, 2⟩, [1, 2, 4])

theorem exAdj_hist (n : String) (h : List ℝ) (hh : histOf exAdj n = some h) :
    (n = "a" ∧ h = [0, 1]) ∨ (n = "b" ∧ h = [2, 2]) := by
  simp only [histOf, exAdj, List.lookup_cons, List.lookup_nil] at hh
  split at hh
  · rename_i h1; left; exact ⟨by simpa using h1, (Option.some.inj hh).symm⟩
  · split at hh
    · rename_i h1; right; exact ⟨by simpa using h1, (Option.some.inj hh).symm⟩
    · cases hh

theorem exAdj_ready : Ready exAdj := by
  refine ⟨by simp [exAdj], ?_, by simp [exAdj, histNames], ?_⟩
  · intro n hn
    simp only [exAdj, List.flatten_cons, List.flatten_nil, List.append_nil, List.mem_singleton] at hn
    subst hn
    simp [exAdj, sysNames, histNames]
  · intro n h hh
    rcases exAdj_hist n h hh with ⟨-, rfl⟩ | ⟨-, rfl⟩ <;> simp

/-- after the move electrode `a` has the history 0, 1, 3/2 and electrode `b` the history 2, 2, 2 -/
example : ∃ a', nextStep none true exAdj = (none, a') ∧ histOf a' "a" = some [0, 1, 1 + 1 / 2] ∧ histOf a' "b" = some [2, 2, 2] ∧
    dcOf a' "a" = some (1 + 1 / 2) ∧ dcOf a' "b" = some 2 := by
  obtain ⟨a', h1, -, -, -, -, -, h2, h3⟩ := c64_accept exAdj _ _ _ rfl exAdj_ready
  have e1 := h2 ["a"] (1 / 2) "a" [0, 1] 1 (by simp [exAdj]) (by simp) (by simp [histOf, exAdj]) (by simp)
  have e2 := h3 "b" [2, 2] 2 (by simp [exAdj]) (by simp [histOf, exAdj, List.lookup]) (by simp)
  exact ⟨a', h1, by simpa using e1.1, by simpa using e2.1, e1.2, by rw [e2.2]; simp [dcOf, exAdj, List.find?_cons]⟩

example : Savable exAdj [("b", 7)] :=
  ⟨by simp, by simp [sysNames, exAdj], by simp [histNames, exAdj], exAdj_ready.histKeys, fun n h hh _ => exAdj_ready.started n h hh⟩

/-- a new object, saving a voltage of one of two electrodes -/
example : ∃ a', setVolts [("a", 5)] true { exAdj with volts := initVolts exAdj.sys.els } = (some .indexError, a') ∧
    dcOf a' "a" = some 5 := by
  obtain ⟨h1, h2⟩ := c64_init exAdj.sys.els
  obtain ⟨a', g1, g2⟩ := c64_first_save { exAdj with volts := initVolts exAdj.sys.els } [("a", 5)] (by simp)
    (by
      intro n hn
      simp only [List.map_cons, List.map_nil, List.mem_singleton] at hn
      subst hn
      refine ⟨by simp [sysNames, exAdj], ?_⟩
      exact mem_of_lookup_some _ _ [] (by rw [h2 "a"]; simp [exAdj])) h1 "b" (by
        show (initVolts exAdj.sys.els).lookup "b" = some []
        rw [h2 "b"]; simp [exAdj]) (by simp)
  exact ⟨a', g1, by rw [g2]; simp⟩

/-- two groups share electrode `a`: the second change counts -/
example : ∃ c, constructConfig { exAdj with config := [["a", "b"], ["a"]] } [5, 7] = .ok c ∧ c.lookup "a" = some (1 + 7) ∧ c.lookup "b" = some (2 + 5) := by
  obtain ⟨c, h1, h2, -⟩ := c64_shared { exAdj with config := [["a", "b"], ["a"]] } [5, 7] fun n hn => by
    simp only [List.flatten_cons, List.flatten_nil, List.append_nil, List.mem_append, List.mem_cons, List.not_mem_nil, or_false] at hn
    rcases hn with (rfl | rfl) | rfl
    · exact ⟨[0, 1], 1, by simp [histOf, exAdj], by simp⟩
    · exact ⟨[2, 2], 2, by simp [histOf, exAdj, List.lookup], by simp⟩
    · exact ⟨[0, 1], 1, by simp [histOf, exAdj], by simp⟩
  refine ⟨c, h1, ?_, ?_⟩
  · have := h2 [(["a", "b"], 5)] ["a"] 7 [] "a" rfl (by simp) (by simp)
    simpa [histOf, exAdj] using this
  · have := h2 [] ["a", "b"] 5 [(["a"], 7)] "b" rfl (by simp) (by simp)
    simpa [histOf, exAdj, List.lookup] using this

/-- an unknown electrode after a known one -/
example : ∃ a', setVolts [("a", 5), ("x", 1), ("b", 9)] true exAdj = (some .attributeError, a') ∧ dcOf a' "a" = some 5 ∧ dcOf a' "b" = some 2 := by
  obtain ⟨a', h1, -, h2, -⟩ := c64_unknown exAdj [("a", 5)] [("b", 9)] "x" 1 true (by simp) (by simp [sysNames, exAdj]) (by simp [sysNames, exAdj])
  exact ⟨a', h1, by rw [h2]; simp, by rw [h2]; simp [List.lookup, dcOf, exAdj, List.find?_cons]⟩

end Electrode
