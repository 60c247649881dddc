import Verif.Spec.System
import Verif.Lemmas.System

/-
C36 and C37: combining the electrodes of a system by their voltages.
-/
namespace Electrode
open Spec

namespace Spec
/-- voltage `v` belongs to group `i`: `ts[i-1] ≤ v < ts[i]`, without a lower limit for the first and without
an upper limit for the last group -/
def inGroup (ts : List ℝ) (i : Nat) (v : ℝ) : Prop :=
  (∀ a, 1 ≤ i → ts[i - 1]? = some a → a ≤ v) ∧ ∀ b, ts[i]? = some b → v < b

/-- the boundaries of a polygon electrode -/
def pathsOf (e : Elec) : List (List V2) := match e.shape with | .polygons paths _ _ => paths | _ => []

def IsPolygon (e : Elec) : Prop := ∃ paths ch cn, e.shape = .polygons paths ch cn

open Classical in
/-- the electrodes whose voltage belongs to group `i`, in the order of the system -/
noncomputable def members (s : List Elec) (voltages ts : List ℝ) (i : Nat) : List Elec :=
  ((s.zip voltages).filter fun e => inGroup ts i e.2).map (·.1)

/-- arithmetic mean -/
noncomputable def average (l : List ℝ) : ℝ := l.sum / l.length
end Spec

theorem pySeq_error_mem {α β : Type*} (L : List α) (f : α → Py β) (e : PyErr) (h : pySeq (L.map f) = .error e) :
    ∃ a ∈ L, f a = .error e := by
  induction L with
  | nil => simp [pySeq] at h
  | cons a L ih =>
    rw [List.map_cons] at h
    cases hf : f a with
    | error e' =>
      rw [hf] at h
      simp only [pySeq, Except.error.injEq] at h
      exact ⟨a, by simp, by rw [hf, h]⟩
    | ok v =>
      rw [hf] at h
      cases hr : pySeq (L.map f) with
      | error e' =>
        simp only [pySeq, hr, Except.error.injEq] at h
        subst h
        obtain ⟨b, hb, hb'⟩ := ih hr
        exact ⟨b, by simp [hb], hb'⟩
      | ok r => simp [pySeq, hr] at h

theorem groupBins_length (ts : List ℝ) : (groupBins ts).length = ts.length + 1 := by simp [groupBins]

theorem groupBins_get (ts : List ℝ) (i : Nat) (hi : i < ts.length + 1) :
    (groupBins ts)[i]? = some ((if i = 0 then none else ts[i - 1]?), ts[i]?) := by
  unfold groupBins
  rw [List.getElem?_zip_eq_some]
  constructor
  · cases i with
    | zero => simp
    | succ n =>
      have : n < ts.length := by omega
      simp [this]
  · by_cases h : i < ts.length
    · simp [List.getElem?_append, h]
    · have : i = ts.length := by omega
      subst this
      simp

theorem inBin_iff (ts : List ℝ) (i : Nat) (v : ℝ) : inBin (if i = 0 then none else ts[i - 1]?) ts[i]? v ↔ inGroup ts i v := by
  unfold inBin inGroup
  cases i with
  | zero => simp
  | succ n => simp

/-- C36: for ascending thresholds every voltage belongs to exactly one of the `len(thresholds) + 1` groups. -/
theorem c36_exactly_one (ts : List ℝ) (hs : ts.Pairwise (· ≤ ·)) (v : ℝ) :
    ∃! i, i ≤ ts.length ∧ inGroup ts i v := by
  have mono : ∀ i j (hj : j < ts.length) (hij : i ≤ j), ts[i]'(by omega) ≤ ts[j] := by
    intro i j hj hij
    rcases Nat.lt_or_eq_of_le hij with h | h
    · exact List.pairwise_iff_getElem.1 hs i j (by omega) hj h
    · subst h; exact le_rfl
  have ex : ∃ i, i = ts.length ∨ ∃ h : i < ts.length, v < ts[i] := ⟨ts.length, .inl rfl⟩
  classical
  let n := Nat.find ex
  have hn := Nat.find_spec ex
  have hmin : ∀ k < n, ¬ (k = ts.length ∨ ∃ h : k < ts.length, v < ts[k]) := fun k hk => Nat.find_min ex hk
  have hle : n ≤ ts.length := by
    rcases hn with h | ⟨h, _⟩
    · exact h.le
    · exact h.le
  refine ⟨n, ⟨hle, ?_, ?_⟩, ?_⟩
  · intro a h1 ha
    have hk := hmin (n - 1) (by omega)
    have hlt : n - 1 < ts.length := by omega
    rw [List.getElem?_eq_getElem hlt] at ha
    injection ha with ha
    subst ha
    by_contra hc
    exact hk (.inr ⟨hlt, lt_of_not_ge hc⟩)
  · intro b hb
    rcases hn with h | ⟨h, hv⟩
    · change n = ts.length at h
      rw [h] at hb; simp at hb
    · change n < ts.length at h
      rw [List.getElem?_eq_getElem h] at hb
      injection hb with hb
      subst hb
      exact hv
  · rintro m ⟨hm, hm1, hm2⟩
    rcases Nat.lt_trichotomy m n with h | h | h
    · exact absurd (.inr ⟨by omega, hm2 _ (List.getElem?_eq_getElem (by omega))⟩) (hmin m h)
    · exact h
    · exfalso
      have h3 : n < ts.length := by omega
      have h4 := hm1 _ (by omega) (List.getElem?_eq_getElem (show m - 1 < ts.length by omega))
      rcases hn with h5 | ⟨h5, h6⟩
      · change n = ts.length at h5; omega
      · have := mono n (m - 1) (by omega) (by omega)
        change v < ts[n] at h6
        linarith

theorem zip_eq_range (s : List Elec) (vs : List ℝ) (h : vs.length = s.length) (d : Elec) :
    s.zip vs = (List.range vs.length).map fun j => (s.getD j d, vs.getD j 0) := by
  apply List.ext_getElem
  · simp [h]
  · intro i h1 h2
    simp at h1
    simp [h1.1, h1.2]

/-- what one group becomes -/
noncomputable def merged (l : List Elec) : Elec :=
  ⟨"", average (l.map (·.dc)), average (l.map (·.rf)), .polygons (l.flatMap pathsOf) 50 0⟩

theorem groupBin_eq (s : List Elec) (vs ts : List ℝ) (h : vs.length = s.length) (hp : ∀ e ∈ s, IsPolygon e) (i : Nat) :
    groupBin s vs ((if i = 0 then none else ts[i - 1]?), ts[i]?) = .ok (merged (members s vs ts i)) := by
  classical
  unfold groupBin
  let d : Elec := ⟨"", 0, 0, .cover 0⟩
  have h1 : pySeq ((binIndices vs (if i = 0 then none else ts[i - 1]?) ts[i]?).map (groupMember s)) = .ok ((binIndices vs (if i = 0 then none else ts[i - 1]?) ts[i]?).map fun j =>
        (pathsOf (s.getD j d), (s.getD j d).dc, (s.getD j d).rf)) := by
    apply pySeq_map_ok
    intro j hj
    have hj' : j < s.length := by
      simp only [binIndices, List.mem_filter, List.mem_range] at hj
      omega
    have hg : pyGet s j = .ok s[j] := by simp [pyGet, hj']
    have hd : s.getD j d = s[j] := by simp [hj']
    obtain ⟨paths, ch, cn, hs⟩ := hp s[j] (List.getElem_mem _)
    unfold groupMember
    rw [hg, hd]
    simp only [hs, pathsOf]
  simp only [h1]
  have hm : members s vs ts i = (binIndices vs (if i = 0 then none else ts[i - 1]?) ts[i]?).map fun j => s.getD j d := by
    unfold members binIndices
    rw [zip_eq_range s vs h d, List.filter_map, List.map_map]
    have : ∀ j, decide (inBin (if i = 0 then none else ts[i - 1]?) ts[i]? (vs.getD j 0)) = decide (inGroup ts i (vs.getD j 0)) := by
      intro j
      exact decide_eq_decide.2 (inBin_iff ts i _)
    simp only [this]
    rfl
  unfold merged
  rw [hm]
  simp only [List.map_map, List.flatMap_map]
  rfl

theorem group_eq (s : List Elec) (vs ts : List ℝ) (h : vs.length = s.length) (hp : ∀ e ∈ s, IsPolygon e) :
    group s (some ts) (some vs) = .ok ((List.range (ts.length + 1)).map fun i => merged (members s vs ts i)) := by
  unfold group
  have hb : groupBins ts = (List.range (ts.length + 1)).map fun i => ((if i = 0 then none else ts[i - 1]?), ts[i]?) := by
    apply List.ext_getElem?
    intro i
    by_cases hi : i < ts.length + 1
    · rw [groupBins_get ts i hi]; simp [hi]
    · rw [List.getElem?_eq_none (by rw [groupBins_length]; omega), List.getElem?_eq_none (by simp; omega)]
  simp only [Option.getD_some]
  rw [hb, List.map_map]
  apply pySeq_map_ok
  intro i _
  exact groupBin_eq s vs ts h hp i

theorem group_default (s : List Elec) (ts : Option (List ℝ)) : group s ts none = group s ts (some (s.map (·.dc))) := rfl

/-- C36: `group` of a system of polygon electrodes gives one electrode for each of the
`len(thresholds) + 1` groups. Electrode `i` has all boundaries of the members of the group, in
order, and the average voltages of the members. -/
theorem c36_groups (s : List Elec) (vs ts : List ℝ) (h : vs.length = s.length) (hp : ∀ e ∈ s, IsPolygon e) :
    ∃ g, group s (some ts) (some vs) = .ok g ∧ g.length = ts.length + 1 ∧
      ∀ i ≤ ts.length, ∃ e, g[i]? = some e ∧ e.shape = .polygons ((members s vs ts i).flatMap pathsOf) 50 0 ∧
        e.dc = average ((members s vs ts i).map (·.dc)) ∧ e.rf = average ((members s vs ts i).map (·.rf)) := by
  refine ⟨_, group_eq s vs ts h hp, by simp, ?_⟩
  intro i hi
  refine ⟨merged (members s vs ts i), ?_, rfl, rfl, rfl⟩
  simp [Nat.lt_succ_of_le hi]

/-- C36: without voltages the dc voltages of the electrodes are used. -/
theorem c36_default_voltages (s : List Elec) (ts : Option (List ℝ)) :
    group s ts none = group s ts (some (s.map (·.dc))) := rfl

open Classical in
theorem sum_members (s : List Elec) (vs ts : List ℝ) (i : Nat) (F : Elec → ℝ) :
    ((members s vs ts i).map F).sum = ((s.zip vs).map fun e => if inGroup ts i e.2 then F e.1 else 0).sum := by
  unfold members
  induction s.zip vs with
  | nil => simp
  | cons e l ih =>
    by_cases hc : inGroup ts i e.2
    · simp only [List.filter_cons, hc, decide_true, if_true, List.map_cons, List.sum_cons, ih]
    · simp only [List.filter_cons, hc, decide_false, Bool.false_eq_true, if_false, List.map_cons, List.sum_cons, ih, zero_add]

theorem list_sum_comm {α β : Type*} (A : List α) (B : List β) (f : α → β → ℝ) :
    (A.map fun a => (B.map fun b => f a b).sum).sum = (B.map fun b => (A.map fun a => f a b).sum).sum := by
  induction A with
  | nil => simp
  | cons a A ih => simp [ih, List.sum_map_add]

open Classical in
theorem sum_all_members (s : List Elec) (vs ts : List ℝ) (h : vs.length = s.length) (hs : ts.Pairwise (· ≤ ·)) (F : Elec → ℝ) :
    ((List.range (ts.length + 1)).map fun i => ((members s vs ts i).map F).sum).sum = (s.map F).sum := by
  simp only [sum_members]
  rw [list_sum_comm]
  have : ∀ e : Elec × ℝ, ((List.range (ts.length + 1)).map fun i => if inGroup ts i e.2 then F e.1 else 0).sum = F e.1 := by
    intro e
    obtain ⟨n, ⟨hn, hg⟩, hu⟩ := c36_exactly_one ts hs e.2
    have h1 : ((List.range (ts.length + 1)).map fun i => if inGroup ts i e.2 then F e.1 else 0)
        = (List.range (ts.length + 1)).map fun i => if i = n then F e.1 else 0 := by
      apply List.map_congr_left
      intro i hi
      rw [List.mem_range] at hi
      by_cases hc : inGroup ts i e.2
      · have := hu i ⟨by omega, hc⟩
        rw [if_pos hc, if_pos this]
      · have : i ≠ n := by rintro rfl; exact hc hg
        rw [if_neg hc, if_neg this]
    rw [h1]
    change ∑ i ∈ Finset.range (ts.length + 1), (if i = n then F e.1 else 0) = F e.1
    rw [Finset.sum_ite_eq', if_pos (Finset.mem_range.2 (by omega))]
  simp only [this]
  have h2 : (s.zip vs).map (fun e => F e.1) = ((s.zip vs).map (·.1)).map F := by rw [List.map_map]; rfl
  rw [h2, List.map_fst_zip (by omega)]

/-- C36: for ascending thresholds the groups together have exactly the boundaries of the system, each as often
as before. -/
theorem c36_partition (s : List Elec) (vs ts : List ℝ) (h : vs.length = s.length) (hp : ∀ e ∈ s, IsPolygon e)
    (hs : ts.Pairwise (· ≤ ·)) (g : List Elec) (hg : group s (some ts) (some vs) = .ok g) :
    (g.flatMap pathsOf).Perm (s.flatMap pathsOf) := by
  classical
  rw [group_eq s vs ts h hp] at hg
  injection hg with hg
  subst hg
  rw [List.perm_iff_count]
  intro a
  have h1 := sum_all_members s vs ts h hs fun e => (List.count a (pathsOf e) : ℝ)
  have h2 : ∀ l : List Elec, ((List.count a (l.flatMap pathsOf) : Nat) : ℝ) = (l.map fun e => (List.count a (pathsOf e) : ℝ)).sum := by
    intro l
    induction l with
    | nil => simp
    | cons e l ih => simp [List.count_append, ih]
  have h3 : ∀ i, pathsOf (merged (members s vs ts i)) = (members s vs ts i).flatMap pathsOf := fun i => rfl
  have h4 : ((List.count a (((List.range (ts.length + 1)).map fun i => merged (members s vs ts i)).flatMap pathsOf) : Nat) : ℝ)
      = ((List.count a (s.flatMap pathsOf) : Nat) : ℝ) := by
    rw [h2, h2, ← h1, List.map_map]
    congr 1
    apply List.map_congr_left
    intro i _
    simp only [Function.comp, h3, h2]
  exact_mod_cast h4

/-- C36: for ascending thresholds the call succeeds exactly for systems of polygon electrodes, and otherwise raises
`AttributeError`. -/
theorem c36_only_polygons (s : List Elec) (vs ts : List ℝ) (h : vs.length = s.length) (hs : ts.Pairwise (· ≤ ·))
    (hp : ¬ ∀ e ∈ s, IsPolygon e) : group s (some ts) (some vs) = .error .attributeError := by
  classical
  push Not at hp
  obtain ⟨e, he, hne⟩ := hp
  have errs : ∀ (j : Nat), j < s.length → ∀ e', groupMember s j = .error e' → e' = .attributeError := by
    intro j hj e' h'
    have hg : pyGet s j = .ok s[j] := by simp [pyGet, hj]
    unfold groupMember at h'
    rw [hg] at h'
    cases hs : s[j].shape <;> simp only [hs] at h' <;> simp_all
  have errs' : ∀ bin e', groupBin s vs bin = .error e' → e' = .attributeError := by
    intro bin e' h'
    unfold groupBin at h'
    split at h'
    · rename_i e2 h2
      injection h' with h'
      subst h'
      obtain ⟨j, hj, hj'⟩ := pySeq_error_mem _ _ _ h2
      simp only [binIndices, List.mem_filter, List.mem_range] at hj
      exact errs j (by omega) _ hj'
    · cases h'
  obtain ⟨j, hj, rfl⟩ := List.getElem_of_mem he
  obtain ⟨n, ⟨hn, hgn⟩, _⟩ := c36_exactly_one ts hs (vs.getD j 0)
  unfold group
  simp only [Option.getD_some]
  refine pySeq_map_err _ _ _ (fun bin _ e' h' => errs' bin e' h') ((if n = 0 then none else ts[n - 1]?), ts[n]?) ?_ ?_
  · exact List.mem_of_getElem? (groupBins_get ts n (by omega))
  · unfold groupBin
    rw [pySeq_map_err _ _ .attributeError ?_ j ?_ ?_]
    · intro k hk e' h'
      simp only [binIndices, List.mem_filter, List.mem_range] at hk
      exact errs k (by omega) e' h'
    · simp only [binIndices, List.mem_filter, List.mem_range, decide_eq_true_eq]
      exact ⟨by omega, (inBin_iff ts n _).2 hgn⟩
    · have hg : pyGet s j = .ok s[j] := by simp [pyGet, hj]
      unfold groupMember
      rw [hg]
      cases hs : s[j].shape with
      | polygons paths ch cn => exact absurd ⟨paths, ch, cn, hs⟩ hne
      | _ => simp only [hs]

/-- a system of two electrodes split at 0 -/
example : members [⟨"a", 1, 0, .polygons [[⟨0, 0⟩, ⟨1, 0⟩, ⟨0, 1⟩]] 50 0⟩, ⟨"b", -1, 0, .polygons [[⟨0, 0⟩, ⟨0, 1⟩, ⟨-1, 0⟩]] 50 0⟩]
    [1, -1] [0] 1 = [⟨"a", 1, 0, .polygons [[⟨0, 0⟩, ⟨1, 0⟩, ⟨0, 1⟩]] 50 0⟩] := by
  classical
  have h1 : inGroup [0] 1 1 := by simp [inGroup]
  have h2 : ¬ inGroup [0] 1 (-1) := by simp [inGroup]
  simp [members, h1, h2]

/-! ### C37 -/

theorem average_const (l : List ℝ) (c : ℝ) (hl : l ≠ []) (h : ∀ v ∈ l, v = c) : average l = c := by
  have h1 : l.sum = l.length * c := by
    clear hl
    induction l with
    | nil => simp
    | cons v l ih =>
      rw [List.sum_cons, ih fun w hw => h w (by simp [hw]), h v (by simp)]
      simp; ring
  have h2 : (l.length : ℝ) ≠ 0 := by
    simp [hl]
  unfold average
  rw [h1]
  field_simp

theorem images0 (h : ℝ) (p : V3) : images 0 h p = [p] := by
  simp [images, coverRange, V3.lift]

/-- C37: if the members of each group have the same voltage, a system of polygon electrodes without cover expansion
(`cover_nmax=0`, the default) has after grouping the same potential as before, at all positions and orders. -/
theorem c37_same_potential (s : List Elec) (vs ts : List ℝ) (h : vs.length = s.length) (hs : ts.Pairwise (· ≤ ·))
    (hp : ∀ e ∈ s, ∃ paths ch, e.shape = .polygons paths ch 0) (typ : VTyp) (htyp : typ ≠ .other)
    (heq : ∀ i, ∀ e ∈ members s vs ts i, ∀ e' ∈ members s vs ts i, e.volt typ = e'.volt typ)
    (g : List Elec) (hg : group s (some ts) (some vs) = .ok g) (x : List V3) (d : Nat) :
    electricalPotential g x d typ false = electricalPotential s x d typ false := by
  rw [group_eq s vs ts h fun e he => by obtain ⟨p, c, hh⟩ := hp e he; exact ⟨p, c, 0, hh⟩] at hg
  injection hg with hg
  subst hg
  rw [electrical_eq _ x d typ (by
      intro e he _
      simp only [List.mem_map] at he
      obtain ⟨i, _, rfl⟩ := he
      trivial), electrical_eq s x d typ (by
      intro e he _
      obtain ⟨p, c, hh⟩ := hp e he
      rw [hh]; trivial)]
  congr 1
  apply List.map_congr_left
  intro p _
  apply List.map_congr_left
  intro k _
  unfold sysContrib
  rw [← sum_all_members s vs ts h hs, List.map_map]
  congr 1
  apply List.map_congr_left
  intro i _
  have hmem : ∀ e ∈ members s vs ts i, e ∈ s := by
    intro e he
    unfold members at he
    rw [List.mem_map] at he
    obtain ⟨q, hq, rfl⟩ := he
    exact (List.of_mem_zip (a := q.1) (b := q.2) (List.mem_filter.1 hq).1).1
  simp only [Function.comp]
  have hc : (merged (members s vs ts i)).shape.contrib d p k = ((members s vs ts i).map fun e => e.shape.contrib d p k).sum := by
    have : ∀ l : List Elec, (∀ e ∈ l, e ∈ s) → polyContrib d 0 50 (l.flatMap pathsOf) p k = (l.map fun e => e.shape.contrib d p k).sum := by
      intro l
      induction l with
      | nil => intro _; simp [polyContrib]
      | cons e l ih =>
        intro hl
        obtain ⟨paths, ch, hh⟩ := hp e (hl e (by simp))
        have h1 : polyContrib d 0 50 ((e :: l).flatMap pathsOf) p k
            = polyContrib d 0 50 (pathsOf e) p k + polyContrib d 0 50 (l.flatMap pathsOf) p k := by
          simp [polyContrib]
        rw [h1, ih fun e' he' => hl e' (by simp [he'])]
        simp only [List.map_cons, List.sum_cons, pathsOf, hh, Shape.contrib, polyContrib, images0]
    exact this _ hmem
  rw [hc]
  cases hm : members s vs ts i with
  | nil => simp
  | cons e0 l =>
    rw [← hm]
    have hv : (merged (members s vs ts i)).voltD typ = e0.voltD typ := by
      have hall : ∀ e ∈ members s vs ts i, e.volt typ = e0.volt typ := fun e he => heq i e he e0 (by rw [hm]; simp)
      cases typ with
      | dc =>
        simp only [Elec.voltD, Elec.volt, Option.getD_some, merged]
        refine average_const _ _ (by rw [hm]; simp) ?_
        intro v hv
        rw [List.mem_map] at hv
        obtain ⟨e, he, rfl⟩ := hv
        simpa [Elec.volt] using hall e he
      | rf =>
        simp only [Elec.voltD, Elec.volt, Option.getD_some, merged]
        refine average_const _ _ (by rw [hm]; simp) ?_
        intro v hv
        rw [List.mem_map] at hv
        obtain ⟨e, he, rfl⟩ := hv
        simpa [Elec.volt] using hall e he
      | other => exact absurd rfl htyp
    rw [hv, ← List.sum_map_mul_left]
    congr 1
    apply List.map_congr_left
    intro e he
    have := heq i e he e0 (by rw [hm]; simp)
    simp only [Elec.voltD, this]

/-- two electrodes with equal voltage in one group -/
example : ∀ i, ∀ e ∈ members [⟨"a", 1, 0, .polygons [[⟨0, 0⟩, ⟨1, 0⟩, ⟨0, 1⟩]] 50 0⟩,
      ⟨"b", 1, 0, .polygons [[⟨0, 0⟩, ⟨0, 1⟩, ⟨-1, 0⟩]] 50 0⟩] [1, 1] [0] i,
    ∀ e' ∈ members [⟨"a", 1, 0, .polygons [[⟨0, 0⟩, ⟨1, 0⟩, ⟨0, 1⟩]] 50 0⟩,
      ⟨"b", 1, 0, .polygons [[⟨0, 0⟩, ⟨0, 1⟩, ⟨-1, 0⟩]] 50 0⟩] [1, 1] [0] i, e.volt .dc = e'.volt .dc := by
  have key : ∀ i, ∀ e ∈ members [⟨"a", 1, 0, .polygons [[⟨0, 0⟩, ⟨1, 0⟩, ⟨0, 1⟩]] 50 0⟩,
      ⟨"b", 1, 0, .polygons [[⟨0, 0⟩, ⟨0, 1⟩, ⟨-1, 0⟩]] 50 0⟩] [1, 1] [0] i, e.volt .dc = some 1 := by
    intro i e he
    unfold members at he
    rw [List.mem_map] at he
    obtain ⟨q, hq, rfl⟩ := he
    have := (List.mem_filter.1 hq).1
    simp at this
    rcases this with rfl | rfl <;> rfl
  intro i e he e' he'
  rw [key i e he, key i e' he']

end Electrode
