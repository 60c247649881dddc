import Verif.Model.Polygons
import Mathlib.Tactic.NormNum
import Mathlib.Tactic.Linarith

/-
C77: `unify_by_name`.  C78: `filter`.
-/
namespace Electrode

/-! ### unify_by_name -/

section lemmas
variable {G : Type*}

theorem setdefaultAppend_map (ks : List String) (L : String → List G) (n : String) (g : G) (hk : ks.Nodup) :
    setdefaultAppend (ks.map fun m => (m, L m)) n g
      = (ks.map fun m => (m, if m = n then L m ++ [g] else L m)) ++ if n ∈ ks then [] else [(n, [g])] := by
  induction ks with
  | nil => simp [setdefaultAppend]
  | cons m t ih =>
    obtain ⟨hm, ht⟩ := List.nodup_cons.1 hk
    by_cases h : m = n
    · subst h
      have e : t.map (fun k => (k, if k = m then L k ++ [g] else L k)) = t.map fun k => (k, L k) := by
        apply List.map_congr_left
        intro k hk
        have : k ≠ m := fun h => hm (h ▸ hk)
        simp [this]
      simp [setdefaultAppend, e]
    · have hn : (n ∈ m :: t) ↔ n ∈ t := by simp [Ne.symm h]
      simp [setdefaultAppend, h, ih ht, hn, Ne.symm h]

/-- names in order of first appearance -/
def firstNames : List String → List String → List String
  | acc, [] => acc
  | acc, n :: t => firstNames (if n ∈ acc then acc else acc ++ [n]) t

theorem unify_fold (ps : List (String × G)) : ∀ (ks : List String) (L : String → List G), ks.Nodup →
    (∀ m, m ∉ ks → L m = []) →
    ps.foldl (fun d p => setdefaultAppend d p.1 p.2) (ks.map fun m => (m, L m))
      = (firstNames ks (ps.map Prod.fst)).map fun m => (m, L m ++ (ps.filter fun p => p.1 = m).map Prod.snd) := by
  induction ps with
  | nil => intro ks L _ _; simp [firstNames]
  | cons p t ih =>
    intro ks L hk hL
    obtain ⟨n, g⟩ := p
    rw [List.foldl_cons]
    simp only
    rw [setdefaultAppend_map ks L n g hk]
    have hstep : (ks.map fun m => (m, if m = n then L m ++ [g] else L m)) ++ (if n ∈ ks then [] else [(n, [g])])
        = (if n ∈ ks then ks else ks ++ [n]).map fun m => (m, if m = n then L m ++ [g] else L m) := by
      by_cases h : n ∈ ks
      · simp [h]
      · simp [h, hL n h]
    have hnd : (if n ∈ ks then ks else ks ++ [n]).Nodup := by
      split
      · exact hk
      · rename_i h
        rw [List.nodup_append]
        exact ⟨hk, by simp, fun a ha b hb => by simp only [List.mem_singleton] at hb; subst hb; exact fun e => h (e ▸ ha)⟩
    rw [hstep, ih _ (fun m => if m = n then L m ++ [g] else L m) hnd (by
      intro m hm
      have h1 : m ≠ n := by
        rintro rfl
        apply hm
        split
        · assumption
        · simp
      have h2 : m ∉ ks := by
        intro h
        apply hm
        split
        · exact h
        · simp [h]
      simp [h1, hL m h2])]
    rw [List.map_cons, firstNames]
    apply List.map_congr_left
    intro m _
    by_cases h : m = n
    · subst h; simp
    · simp [h, Ne.symm h]

theorem firstNames_spec (l : List String) : ∀ acc : List String, acc.Nodup →
    (firstNames acc l).Nodup ∧ (∀ n, n ∈ firstNames acc l ↔ n ∈ acc ∨ n ∈ l) ∧
    (firstNames acc l).Pairwise (fun a b => (acc ++ l).idxOf a < (acc ++ l).idxOf b) := by
  induction l with
  | nil =>
    intro acc h
    refine ⟨h, by simp [firstNames], ?_⟩
    simp only [firstNames, List.append_nil]
    rw [List.pairwise_iff_getElem]
    intro i j hi hj hij
    rw [h.idxOf_getElem i hi, h.idxOf_getElem j hj]
    exact hij
  | cons n t ih =>
    intro acc h
    by_cases hn : n ∈ acc
    · obtain ⟨h1, h2, h3⟩ := ih acc h
      refine ⟨by simp only [firstNames, hn, if_true]; exact h1, ?_, ?_⟩
      · intro m
        simp only [firstNames, hn, if_true, h2 m, List.mem_cons]
        constructor
        · rintro (h | h)
          · exact Or.inl h
          · exact Or.inr (Or.inr h)
        · rintro (h | h | h)
          · exact Or.inl h
          · exact Or.inl (h ▸ hn)
          · exact Or.inr h
      · simp only [firstNames, hn, if_true]
        refine h3.imp_of_mem ?_
        intro a b ha hb hab
        have key : ∀ a, (acc ++ n :: t).idxOf a = if a ∈ acc then acc.idxOf a else (n :: t).idxOf a + acc.length := fun a => by
          rw [List.idxOf_append]
        have key2 : ∀ a, (acc ++ t).idxOf a = if a ∈ acc then acc.idxOf a else t.idxOf a + acc.length := fun a => by
          rw [List.idxOf_append]
        rw [key2, key2] at hab
        rw [key, key]
        have hcons : ∀ a, a ∉ acc → (n :: t).idxOf a = t.idxOf a + 1 := by
          intro a ha
          rw [List.idxOf_cons_ne _ (fun e : n = a => ha (e ▸ hn))]
        by_cases ha' : a ∈ acc
        · by_cases hb' : b ∈ acc
          · simpa [ha', hb'] using hab
          · have := List.idxOf_lt_length_iff.2 ha'
            simp only [ha', hb', if_true, if_false]
            omega
        · by_cases hb' : b ∈ acc
          · have := List.idxOf_lt_length_iff.2 hb'
            simp only [ha', hb', if_true, if_false] at hab
            omega
          · simp only [ha', hb', if_false] at hab ⊢
            rw [hcons a ha', hcons b hb']
            omega
    · obtain ⟨h1, h2, h3⟩ := ih (acc ++ [n]) (by
        rw [List.nodup_append]
        exact ⟨h, by simp, fun a ha b hb => by simp only [List.mem_singleton] at hb; subst hb; exact fun e => hn (e ▸ ha)⟩)
      refine ⟨by simp only [firstNames, hn, if_false]; exact h1, ?_, ?_⟩
      · intro m
        simp only [firstNames, hn, if_false, h2 m, List.mem_cons, List.mem_append, List.not_mem_nil, or_false, or_assoc]
      · simp only [firstNames, hn, if_false]
        simpa using h3

end lemmas

/-- C77: `unify_by_name` has one electrode for each name, in the order in which the names first appear. -/
theorem c77_names {G : Type*} (U : List G → G) (ps : List (String × G)) :
    ((unifyByName U ps).map Prod.fst).Nodup ∧ (∀ n, n ∈ (unifyByName U ps).map Prod.fst ↔ n ∈ ps.map Prod.fst) ∧
      ((unifyByName U ps).map Prod.fst).Pairwise fun a b => (ps.map Prod.fst).idxOf a < (ps.map Prod.fst).idxOf b := by
  have e : (unifyByName U ps).map Prod.fst = firstNames [] (ps.map Prod.fst) := by
    unfold unifyByName
    have := unify_fold ps [] (fun _ => []) (by simp) (by simp)
    simp only [List.map_nil] at this
    rw [this]
    simp [List.map_map, Function.comp_def]
  rw [e]
  obtain ⟨h1, h2, h3⟩ := firstNames_spec (ps.map Prod.fst) [] (by simp)
  exact ⟨h1, fun n => by simpa using h2 n, by simpa using h3⟩

/-- C77: the shape under a name is the union of all shapes with that name, in their order. -/
theorem c77_union {G : Type*} (U : List G → G) (ps : List (String × G)) (n : String) (g : G) (h : (n, g) ∈ unifyByName U ps) :
    g = U ((ps.filter fun p => p.1 = n).map Prod.snd) := by
  unfold unifyByName at h
  have := unify_fold ps [] (fun _ => []) (by simp) (by simp)
  simp only [List.map_nil, List.nil_append] at this
  rw [this, List.map_map] at h
  obtain ⟨m, -, hm⟩ := List.mem_map.1 h
  simp only [Function.comp_apply, Prod.mk.injEq] at hm
  obtain ⟨rfl, rfl⟩ := hm
  rfl

/-- C77: with unions of sets, the total area covered does not change. -/
theorem c77_region {α : Type*} (ps : List (String × Set α)) :
    {x | ∃ p ∈ unifyByName (fun l : List (Set α) => {x | ∃ s ∈ l, x ∈ s}) ps, x ∈ p.2} = {x | ∃ p ∈ ps, x ∈ p.2} := by
  ext x
  constructor
  · rintro ⟨⟨n, g⟩, hp, hx⟩
    rw [c77_union _ ps n g hp] at hx
    obtain ⟨s, hs, hxs⟩ := hx
    obtain ⟨p, hp, rfl⟩ := List.mem_map.1 hs
    exact ⟨p, (List.mem_filter.1 hp).1, hxs⟩
  · rintro ⟨p, hp, hx⟩
    obtain ⟨q, hq, hqn⟩ := List.mem_map.1 ((c77_names (fun l : List (Set α) => {x | ∃ s ∈ l, x ∈ s}) ps).2.1 p.1 |>.2
      (List.mem_map.2 ⟨p, hp, rfl⟩))
    refine ⟨q, hq, ?_⟩
    rw [c77_union _ ps q.1 q.2 hq]
    exact ⟨p.2, List.mem_map.2 ⟨p, List.mem_filter.2 ⟨hp, by simp [hqn]⟩, rfl⟩, hx⟩

example : unifyByName List.flatten [("b", [1]), ("a", [2]), ("b", [3])] = [("b", [1, 3]), ("a", [2])] := by decide

/-! ### filter -/

theorem filterMap_fst_sublist {α β γ : Type*} (f : α × β → Option (α × γ)) (hf : ∀ p b, f p = some b → b.1 = p.1) (ps : List (α × β)) :
    List.Sublist ((ps.filterMap f).map Prod.fst) (ps.map Prod.fst) := by
  induction ps with
  | nil => exact List.Sublist.refl _
  | cons p t ih =>
    rw [List.filterMap_cons]
    cases h : f p with
    | none => exact List.Sublist.cons _ ih
    | some b =>
      simp only [List.map_cons, hf p b h]
      exact List.Sublist.cons_cons _ ih

/-- C78: `filter` with a test of boundaries keeps exactly the polygons whose exterior passes, each with the holes that pass, and
drops the electrodes of which nothing is left.  Order is kept. -/
theorem c78_deep (area : List V2 → ℝ) (tr : String → List V2 → Bool) (tp : String → GPoly → Bool) (ps : List (String × List GPoly)) :
    ∃ r, polyFilter area (some (tr, tp)) true ps = .ok r ∧
      List.Sublist (r.map Prod.fst) (ps.map Prod.fst) ∧
      (∀ n qs, (n, qs) ∈ r → qs ≠ [] ∧ ∀ q ∈ qs, tr n q.ext = true ∧ ∀ i ∈ q.ints, tr n i = true) ∧
      (∀ n qs, (n, qs) ∈ ps → ∀ q ∈ qs, tr n q.ext = true → ∃ qs', (n, qs') ∈ r ∧ ∃ q' ∈ qs', q'.ext = q.ext ∧
        List.Sublist q'.ints q.ints ∧ ∀ i ∈ q.ints, tr n i = true → i ∈ q'.ints) ∧
      (∀ n qs', (n, qs') ∈ r → ∃ qs, (n, qs) ∈ ps ∧ List.Sublist (qs'.map GPoly.ext) (qs.map GPoly.ext)) := by
  refine ⟨_, rfl, ?_, ?_, ?_, ?_⟩
  · refine filterMap_fst_sublist _ (fun p b h => ?_) ps
    simp only [if_true] at h
    split at h
    · cases h
    · rw [← Option.some.inj h]
  · intro n qs h
    obtain ⟨p, hp, he⟩ := List.mem_filterMap.1 h
    simp only [if_true] at he
    split at he
    · cases he
    · rename_i hne
      obtain ⟨rfl, rfl⟩ := Prod.mk.inj (Option.some.inj he)
      refine ⟨hne, fun q hq => ?_⟩
      obtain ⟨q0, -, h0⟩ := List.mem_filterMap.1 hq
      split at h0
      · rename_i hx
        obtain rfl := Option.some.inj h0
        exact ⟨hx, fun i hi => (List.mem_filter.1 hi).2⟩
      · cases h0
  · intro n qs h q hq hx
    have hmem : (⟨q.ext, q.ints.filter (tr n)⟩ : GPoly) ∈
        qs.filterMap fun q => if tr n q.ext then some (⟨q.ext, q.ints.filter (tr n)⟩ : GPoly) else none :=
      List.mem_filterMap.2 ⟨q, hq, if_pos hx⟩
    refine ⟨_, List.mem_filterMap.2 ⟨(n, qs), h, ?_⟩, _, hmem, rfl, List.filter_sublist, fun i hi hx => List.mem_filter.2 ⟨hi, hx⟩⟩
    simp only [if_true]
    rw [if_neg (List.ne_nil_of_mem hmem)]
  · intro n qs' h
    obtain ⟨p, hp, he⟩ := List.mem_filterMap.1 h
    simp only [if_true] at he
    split at he
    · cases he
    · obtain ⟨rfl, rfl⟩ := Prod.mk.inj (Option.some.inj he)
      refine ⟨p.2, hp, ?_⟩
      generalize p.2 = l
      induction l with
      | nil => simp
      | cons q t ih =>
        rw [List.filterMap_cons]
        split
        · rw [List.map_cons]; exact List.Sublist.cons _ ih
        · rename_i b hb
          split at hb
          · obtain rfl := Option.some.inj hb
            simp only [List.map_cons]
            exact List.Sublist.cons_cons _ ih
          · cases hb

/-- C78: with `deep=False` the polygons that pass are kept unchanged. -/
theorem c78_polygons (area : List V2 → ℝ) (tr : String → List V2 → Bool) (tp : String → GPoly → Bool) (ps : List (String × List GPoly)) :
    ∃ r, polyFilter area (some (tr, tp)) false ps = .ok r ∧
      List.Sublist (r.map Prod.fst) (ps.map Prod.fst) ∧
      (∀ n qs', (n, qs') ∈ r → qs' ≠ [] ∧ ∃ qs, (n, qs) ∈ ps ∧ qs' = qs.filter (tp n)) ∧
      (∀ n qs, (n, qs) ∈ ps → ∀ q ∈ qs, tp n q = true → ∃ qs', (n, qs') ∈ r ∧ q ∈ qs') := by
  refine ⟨_, rfl, ?_, ?_, ?_⟩
  · refine filterMap_fst_sublist _ (fun p b h => ?_) ps
    simp only [Bool.false_eq_true, if_false] at h
    split at h
    · cases h
    · rw [← Option.some.inj h]
  · intro n qs h
    obtain ⟨p, hp, he⟩ := List.mem_filterMap.1 h
    simp only [Bool.false_eq_true, if_false] at he
    split at he
    · cases he
    · rename_i hne
      obtain ⟨rfl, rfl⟩ := Prod.mk.inj (Option.some.inj he)
      exact ⟨hne, p.2, hp, rfl⟩
  · intro n qs h q hq hx
    have hmem : q ∈ qs.filter (tp n) := List.mem_filter.2 ⟨hq, hx⟩
    refine ⟨_, List.mem_filterMap.2 ⟨(n, qs), h, ?_⟩, hmem⟩
    simp only [Bool.false_eq_true, if_false]
    rw [if_neg (List.ne_nil_of_mem hmem)]

/-- C78: filtering twice with the same test is filtering once. -/
theorem c78_idempotent (tr : String → List V2 → Bool) (tp : String → GPoly → Bool) (deep : Bool) (ps : List (String × List GPoly)) :
    filterPolys tr tp deep (filterPolys tr tp deep ps) = filterPolys tr tp deep ps := by
  unfold filterPolys
  rw [List.filterMap_filterMap]
  apply List.filterMap_congr
  intro p hp
  simp only
  cases deep with
  | true =>
    simp only [if_true]
    split
    · rfl
    · rename_i hne
      have e : (p.2.filterMap fun q => if tr p.1 q.ext then some (⟨q.ext, q.ints.filter (tr p.1)⟩ : GPoly) else none).filterMap
          (fun q => if tr p.1 q.ext then some (⟨q.ext, q.ints.filter (tr p.1)⟩ : GPoly) else none)
          = p.2.filterMap fun q => if tr p.1 q.ext then some (⟨q.ext, q.ints.filter (tr p.1)⟩ : GPoly) else none := by
        rw [List.filterMap_filterMap]
        apply List.filterMap_congr
        intro q _
        by_cases h : tr p.1 q.ext = true
        · simp [h, List.filter_filter]
        · simp [h]
      simp only [Option.bind_some, e, if_neg hne]
  | false =>
    simp only [Bool.false_eq_true, if_false]
    split
    · rfl
    · rename_i hne
      simp only [Option.bind_some, List.filter_filter, Bool.and_self, if_neg hne]

/-- C78: without a test, boundaries around an area of at most 1/100 are dropped; with `deep=False` there is no default test, so any
polygon raises `TypeError`. -/
theorem c78_default (area : List V2 → ℝ) (ps : List (String × List GPoly)) :
    (∃ r, polyFilter area none true ps = .ok r ∧ (∀ n qs, (n, qs) ∈ r → ∀ q ∈ qs, 1 / 100 < |area q.ext| ∧ ∀ i ∈ q.ints, 1 / 100 < |area i|) ∧
      ∀ n qs, (n, qs) ∈ ps → ∀ q ∈ qs, 1 / 100 < |area q.ext| → ∃ qs', (n, qs') ∈ r ∧ ∃ q' ∈ qs', q'.ext = q.ext) ∧
    ((∃ p ∈ ps, p.2 ≠ []) → polyFilter area none false ps = .error .typeError) := by
  classical
  constructor
  · obtain ⟨r, h1, -, h3, h4, -⟩ := c78_deep area (fun _ r => decide (1 / 100 < |area r|)) (fun _ _ => true) ps
    refine ⟨r, ?_, ?_, ?_⟩
    · rw [← h1]
      unfold polyFilter
      simp only [if_true]
    · intro n qs h q hq
      obtain ⟨-, h⟩ := h3 n qs h
      obtain ⟨k1, k2⟩ := h q hq
      exact ⟨of_decide_eq_true k1, fun i hi => of_decide_eq_true (k2 i hi)⟩
    · intro n qs h q hq hx
      obtain ⟨qs', g1, q', g2, g3, -⟩ := h4 n qs h q hq (decide_eq_true hx)
      exact ⟨qs', g1, q', g2, g3⟩
  · rintro ⟨p, hp, hne⟩
    unfold polyFilter
    simp only [Bool.false_eq_true, if_false]
    rw [if_neg fun h => hne (h p hp)]

/-- an electrode with two polygons, one with a hole -/
def exPolys : List (String × List GPoly) :=
  [("a", [⟨[⟨0, 0⟩, ⟨9, 0⟩, ⟨0, 9⟩], [[⟨1, 1⟩, ⟨2, 1⟩, ⟨1, 2⟩], [⟨3, 3⟩]]⟩, ⟨[⟨5, 5⟩], []⟩]), ("b", [⟨[⟨7, 7⟩], []⟩])]

example : filterPolys (fun _ r => r.length = 3) (fun _ _ => true) true exPolys
    = [("a", [⟨[⟨0, 0⟩, ⟨9, 0⟩, ⟨0, 9⟩], [[⟨1, 1⟩, ⟨2, 1⟩, ⟨1, 2⟩]]⟩])] := by
  simp [filterPolys, exPolys]

end Electrode
