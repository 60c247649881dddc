import Verif.Model.Polygons
import Mathlib.Tactic.Ring
import Mathlib.Tactic.Linarith
import Mathlib.Tactic.FieldSimp
import Mathlib.Tactic.NormNum
import Mathlib.Tactic.IntervalCases
import Mathlib.Data.List.GetD

/-
C60: `assign_to_pad` gives every polygon once and every pad to its first polygon.
C63: `square_pads` puts the pads on the sides of the square.
-/
namespace Electrode

section lemmas

variable {hit : Nat → Nat → Bool}

theorem padLoop_some {f : Nat → Bool} {polys rest : List Nat} {i : Nat} (h : padLoop f polys = (some i, rest)) :
    f i = true ∧ i ∈ polys ∧ rest = polys.erase i ∧ (polys.Pairwise (· < ·) → ∀ j ∈ polys, j < i → f j = false) := by
  unfold padLoop at h
  split at h
  · rename_i a ha
    simp only [Prod.mk.injEq, Option.some.injEq] at h
    obtain ⟨rfl, rfl⟩ := h
    refine ⟨List.find?_some ha, List.mem_of_find?_eq_some ha, rfl, ?_⟩
    intro hs j hj hji
    obtain ⟨_, l, m, hp, hl⟩ := List.find?_eq_some_iff_append.1 ha
    rw [hp] at hj hs
    rcases List.mem_append.1 hj with hj | hj
    · simpa using hl j hj
    · rcases List.mem_cons.1 hj with rfl | hj
      · omega
      · have := (List.pairwise_cons.1 (List.pairwise_append.1 hs).2.1).1 j hj
        omega
  · simp at h

theorem padLoop_none {f : Nat → Bool} {polys rest : List Nat} (h : padLoop f polys = (none, rest)) :
    rest = polys ∧ ∀ j ∈ polys, f j = false := by
  unfold padLoop at h
  split at h
  · simp at h
  · rename_i ha
    simp only [Prod.mk.injEq, true_and] at h
    exact ⟨h.symm, fun j hj => by simpa using List.find?_eq_none.1 ha j hj⟩

/-- everything about the loop over the pads -/
theorem padsLoop_spec (k : Nat) : ∀ (pad : Nat) (polys : List Nat), polys.Pairwise (· < ·) →
    ((padsLoop hit pad k polys).1.map Prod.snd ++ (padsLoop hit pad k polys).2).Perm polys ∧
    (padsLoop hit pad k polys).2.Sublist polys ∧
    (∃ ps : List Nat, (padsLoop hit pad k polys).1.map Prod.fst = ps.map some ∧ ps.Pairwise (· < ·) ∧
      ∀ p ∈ ps, pad ≤ p ∧ p < pad + k) ∧
    (∀ p i, (some p, i) ∈ (padsLoop hit pad k polys).1 → hit p i = true ∧ i ∈ polys ∧
      ∀ j ∈ polys, j < i → hit p j = true → ∃ q < p, (some q, j) ∈ (padsLoop hit pad k polys).1) ∧
    (∀ i ∈ (padsLoop hit pad k polys).2, ∀ p, pad ≤ p → p < pad + k → hit p i = true →
      ∃ j < i, (some p, j) ∈ (padsLoop hit pad k polys).1) := by
  induction k with
  | zero =>
    intro pad polys _
    refine ⟨by simp [padsLoop], by simp [padsLoop], ⟨[], by simp [padsLoop]⟩, by simp [padsLoop], ?_⟩
    intro i _ p h1 h2; omega
  | succ k ih =>
    intro pad polys hs
    rcases hl : padLoop (hit pad) polys with ⟨o, rest⟩
    cases o with
    | none =>
      obtain ⟨rfl, hn⟩ := padLoop_none hl
      by_cases hr : rest = []
      · subst hr
        simp only [padsLoop, hl, if_true]
        refine ⟨by simp, by simp, ⟨[], by simp⟩, by simp, by simp⟩
      · simp only [padsLoop, hl, hr, if_false]
        obtain ⟨h1, h2, ⟨ps, h3, h4, h5⟩, h6, h7⟩ := ih (pad + 1) rest hs
        refine ⟨h1, h2, ⟨ps, h3, h4, fun p hp => ?_⟩, h6, ?_⟩
        · have := h5 p hp; omega
        · intro i hi p hp1 hp2 hh
          rcases Nat.eq_or_lt_of_le hp1 with rfl | hp1
          · rw [hn i (h2.subset hi)] at hh; cases hh
          · exact h7 i hi p hp1 (by omega) hh
    | some a =>
      obtain ⟨ha1, ha2, rfl, ha3⟩ := padLoop_some hl
      by_cases hr : polys.erase a = []
      · simp only [padsLoop, hl, hr, if_true]
        have hp : polys.Perm [a] := by
          have := List.perm_cons_erase ha2
          rwa [hr] at this
        refine ⟨by simpa using hp.symm, by simp, ⟨[pad], by simp⟩, ?_, by simp⟩
        intro p i hpi
        simp only [List.mem_singleton, Prod.mk.injEq, Option.some.injEq] at hpi
        obtain ⟨rfl, rfl⟩ := hpi
        refine ⟨ha1, ha2, fun j hj hji hh => ?_⟩
        rw [ha3 hs j hj hji] at hh; cases hh
      · simp only [padsLoop, hl, hr, if_false]
        have hs' : (polys.erase a).Pairwise (· < ·) := hs.sublist List.erase_sublist
        obtain ⟨h1, h2, ⟨ps, h3, h4, h5⟩, h6, h7⟩ := ih (pad + 1) (polys.erase a) hs'
        refine ⟨?_, h2.trans List.erase_sublist, ⟨pad :: ps, ?_, ?_, ?_⟩, ?_, ?_⟩
        · simp only [List.map_cons, List.cons_append]
          exact (h1.cons a).trans (List.perm_cons_erase ha2).symm
        · simp [h3]
        · refine List.pairwise_cons.2 ⟨fun p hp => ?_, h4⟩
          have := h5 p hp; omega
        · intro p hp
          rcases List.mem_cons.1 hp with rfl | hp
          · omega
          · have := h5 p hp; omega
        · intro p i hpi
          rcases List.mem_cons.1 hpi with e | hpi
          · simp only [Prod.mk.injEq, Option.some.injEq] at e
            obtain ⟨rfl, rfl⟩ := e
            refine ⟨ha1, ha2, fun j hj hji hh => ?_⟩
            rw [ha3 hs j hj hji] at hh; cases hh
          · obtain ⟨g1, g2, g3⟩ := h6 p i hpi
            refine ⟨g1, List.mem_of_mem_erase g2, fun j hj hji hh => ?_⟩
            by_cases hja : j = a
            · subst hja
              refine ⟨pad, ?_, by simp⟩
              have : some p ∈ ps.map some := by
                rw [← h3]; exact List.mem_map.2 ⟨_, hpi, rfl⟩
              obtain ⟨p', hp', e⟩ := List.mem_map.1 this
              obtain rfl := Option.some.inj e
              have := h5 p' hp'; omega
            · obtain ⟨q, hq, hm⟩ := g3 j ((List.mem_erase_of_ne hja).2 hj) hji hh
              exact ⟨q, hq, List.mem_cons_of_mem _ hm⟩
        · intro i hi p hp1 hp2 hh
          rcases Nat.eq_or_lt_of_le hp1 with rfl | hp1
          · refine ⟨a, ?_, by simp⟩
            have hia : i ∈ polys.erase a := h2.subset hi
            have hnd : polys.Nodup := hs.imp (fun h => Nat.ne_of_lt h)
            have hne : i ≠ a := fun e => by subst e; exact (hnd.not_mem_erase) hia
            by_contra hlt
            have hai : i < a := by omega
            rw [ha3 hs i (List.mem_of_mem_erase hia) hai] at hh; cases hh
          · obtain ⟨j, hj, hm⟩ := h7 i hi p hp1 (by omega) hh
            exact ⟨j, hj, List.mem_cons_of_mem _ hm⟩

theorem range_lt (n : Nat) : (List.range n).Pairwise (· < ·) := List.pairwise_lt_range

theorem mem_matched {k n p i : Nat} (h : (some p, i) ∈ assignToPad hit k n) :
    (some p, i) ∈ (padsLoop hit 0 k (List.range n)).1 := by
  rcases List.mem_append.1 h with h | h
  · exact h
  · obtain ⟨j, _, e⟩ := List.mem_map.1 h; cases e

theorem mem_unmatched {k n i : Nat} (h : (none, i) ∈ assignToPad hit k n) :
    i ∈ (padsLoop hit 0 k (List.range n)).2 := by
  obtain ⟨ps, h3, -, -⟩ := (padsLoop_spec (hit := hit) k 0 _ (range_lt n)).2.2.1
  rcases List.mem_append.1 h with h | h
  · have : (none : Option Nat) ∈ ps.map some := by rw [← h3]; exact List.mem_map.2 ⟨_, h, rfl⟩
    simp at this
  · obtain ⟨j, hj, e⟩ := List.mem_map.1 h; cases e; exact hj

end lemmas

/-- C60: every polygon is yielded exactly once. -/
theorem c60_each_once (hit : Nat → Nat → Bool) (k n : Nat) :
    ((assignToPad hit k n).map Prod.snd).Perm (List.range n) := by
  have := (padsLoop_spec (hit := hit) k 0 _ (range_lt n)).1
  simpa [assignToPad, Function.comp_def] using this

/-- C60: the pads come in order, each at most once, before the polygons without a pad, which come in order. -/
theorem c60_order (hit : Nat → Nat → Bool) (k n : Nat) :
    ∃ ps is : List Nat, (assignToPad hit k n).map Prod.fst = ps.map some ++ is.map (fun _ => none) ∧
      ps.Pairwise (· < ·) ∧ (∀ p ∈ ps, p < k) ∧
      is = (assignToPad hit k n).filterMap (fun r => if r.1.isNone then some r.2 else none) ∧ is.Pairwise (· < ·) := by
  obtain ⟨-, h2, ⟨ps, h3, h4, h5⟩, -, -⟩ := padsLoop_spec (hit := hit) k 0 _ (range_lt n)
  refine ⟨ps, (padsLoop hit 0 k (List.range n)).2, ?_, h4, fun p hp => by have := h5 p hp; omega, ?_,
    (range_lt n).sublist h2⟩
  · simp [assignToPad, h3, Function.comp_def]
  · have e : (padsLoop hit 0 k (List.range n)).1.filterMap
        (fun r : Option Nat × Nat => if r.1.isNone then some r.2 else none) = [] := by
      rw [List.filterMap_eq_nil_iff]
      rintro ⟨o, i⟩ hm
      have : o ∈ ps.map some := by rw [← h3]; exact List.mem_map.2 ⟨_, hm, rfl⟩
      obtain ⟨p, _, rfl⟩ := List.mem_map.1 this
      rfl
    rw [assignToPad, List.filterMap_append, e, List.nil_append, List.filterMap_map]
    simp [Function.comp_def]

/-- C60: a pad is assigned to a polygon it lies on, and to the first of them that no earlier pad has taken. -/
theorem c60_match (hit : Nat → Nat → Bool) (k n p i : Nat) (h : (some p, i) ∈ assignToPad hit k n) :
    p < k ∧ i < n ∧ hit p i = true ∧
      ∀ j < i, hit p j = true → ∃ q < p, (some q, j) ∈ assignToPad hit k n := by
  obtain ⟨-, -, ⟨ps, h3, -, h5⟩, h6, -⟩ := padsLoop_spec (hit := hit) k 0 _ (range_lt n)
  have hm := mem_matched h
  obtain ⟨g1, g2, g3⟩ := h6 p i hm
  have hp : some p ∈ ps.map some := by rw [← h3]; exact List.mem_map.2 ⟨_, hm, rfl⟩
  obtain ⟨p', hp', e⟩ := List.mem_map.1 hp
  obtain rfl := Option.some.inj e
  have hi : i < n := List.mem_range.1 g2
  refine ⟨by have := h5 p' hp'; omega, hi, g1, fun j hj hh => ?_⟩
  obtain ⟨q, hq, hm'⟩ := g3 j (List.mem_range.2 (by omega)) hj hh
  exact ⟨q, hq, List.mem_append_left _ hm'⟩

/-- C60: a polygon stays without a pad only if every pad that lies on it was assigned to an earlier polygon. -/
theorem c60_unmatched (hit : Nat → Nat → Bool) (k n i : Nat) (h : (none, i) ∈ assignToPad hit k n) (p : Nat) (hp : p < k)
    (hh : hit p i = true) : ∃ j < i, (some p, j) ∈ assignToPad hit k n := by
  obtain ⟨-, -, -, -, h7⟩ := padsLoop_spec (hit := hit) k 0 _ (range_lt n)
  obtain ⟨j, hj, hm⟩ := h7 i (mem_unmatched h) p (Nat.zero_le _) (by omega) hh
  exact ⟨j, hj, List.mem_append_left _ hm⟩

/-- C60: naming the fragments by pads keeps every fragment once and changes only names. -/
theorem c60_names {G : Type*} (hit : Nat → Nat → Bool) (names : List String) (frags : List (String × G)) :
    ((nameFragments hit names frags).map Prod.snd).Perm (frags.map Prod.snd) := by
  unfold nameFragments
  split
  · rfl
  · have e1 : ∀ l : List (Option Nat × Nat), (l.filterMap fun p => (frags[p.2]?).map fun f =>
        ((p.1.bind fun i => names[i]?).getD f.1, f.2)).map Prod.snd
        = (l.map Prod.snd).filterMap fun j => (frags[j]?).map Prod.snd := by
      intro l
      rw [List.map_filterMap, List.filterMap_map]
      congr 1
      funext p
      simp only [Option.map_map, Function.comp_def]
    rw [e1]
    refine ((c60_each_once hit names.length frags.length).filterMap _).trans (List.Perm.of_eq ?_)
    have e2 : ∀ l : List (String × G), (List.range l.length).filterMap (fun j => (l[j]?).map Prod.snd) = l.map Prod.snd := by
      intro l
      induction l with
      | nil => rfl
      | cons a l ih =>
        rw [List.length_cons, List.range_succ_eq_map, List.filterMap_cons]
        simp only [List.getElem?_cons_zero, Option.map_some, List.filterMap_map, List.map_cons]
        congr 1
    exact e2 frags

/-- C60: a fragment gets the name given for its pad, and keeps its own name without a pad. -/
theorem c60_named {G : Type*} (hit : Nat → Nat → Bool) (names : List String) (frags : List (String × G)) (hn : names ≠ [])
    (j : Nat) (f : String × G) (hf : frags[j]? = some f) :
    (∀ p name, (some p, j) ∈ assignToPad hit names.length frags.length → names[p]? = some name →
      (name, f.2) ∈ nameFragments hit names frags) ∧
    ((none, j) ∈ assignToPad hit names.length frags.length → f ∈ nameFragments hit names frags) := by
  unfold nameFragments
  rw [if_neg hn]
  refine ⟨fun p name hm hp => List.mem_filterMap.2 ⟨_, hm, by simp [hf, hp]⟩,
    fun hm => List.mem_filterMap.2 ⟨_, hm, by simp [hf]⟩⟩

/-- Three polygons, three pads: the first two pads lie on the last polygon, the third on the first and the last. -/
example : assignToPad (fun p i => p < 2 && i == 2 || p == 2 && (i == 0 || i == 2)) 3 3 = [(some 0, 2), (some 2, 0), (none, 1)] := by
  decide

example : nameFragments (fun p i => p == i) ["a"] [("x", 7), ("y", 8)] = [("a", 7), ("y", 8)] := by decide

/-! ### C63 -/

namespace Spec
/-- the four sides, counter clockwise from the top left corner: `side i t` is the point at distance `t` from the middle of
side `i`, on the square with half edge `q` -/
def side (q : ℝ) (i : Nat) (t : ℝ) : V2 :=
  match i with
  | 0 => ⟨-q, -t⟩
  | 1 => ⟨t, -q⟩
  | 2 => ⟨q, t⟩
  | _ => ⟨-t, q⟩
end Spec
open Spec

theorem squarePads_eq (step edge : ℝ) (odd : Bool) (c : Nat) (hc : c < 4) (n : Nat) (hs : step ≠ 0)
    (hn : (if odd then pyInt (edge / step) + (pyInt (edge / step) % 2 + 1) else pyInt (edge / step)) = n) :
    squarePads step edge odd c = .ok ((List.range 4).flatMap fun i => (List.range n).map fun k : Nat =>
      side (edge / 2 - step / 2) ((c + i) % 4) (((k : ℝ) - ((n : ℝ) - 1) / 2) * step)) := by
  unfold squarePads
  simp only [hs, if_false, hn, Int.toNat_natCast, List.length_map, List.length_range, ne_eq, not_true_eq_false,
    List.map_map, Function.comp_def, Int.cast_natCast]
  have e : ∀ k : Nat, (-(n : ℝ) / 2 + 1 / 2 + (k : ℝ)) * step = ((k : ℝ) - ((n : ℝ) - 1) / 2) * step := fun k => by ring
  simp only [e]
  interval_cases c <;> simp [sliceRotate, side, List.range_succ, List.flatMap_append]

/-- C63: without `odd`, there are `floor(edge/step)` pads along each side, at multiples of the pitch centred on the side, on
the square placed inwards by half a pitch, counter clockwise from the start corner. -/
theorem c63_pads (step edge : ℝ) (c : Nat) (hc : c < 4) (hs : 0 < step) (he : 0 ≤ edge) :
    squarePads step edge false c = .ok ((List.range 4).flatMap fun i => (List.range ⌊edge / step⌋₊).map fun k : Nat =>
      side (edge / 2 - step / 2) ((c + i) % 4) (((k : ℝ) - ((⌊edge / step⌋₊ : ℝ) - 1) / 2) * step)) := by
  have h : 0 ≤ edge / step := div_nonneg he hs.le
  refine squarePads_eq step edge false c hc _ hs.ne' ?_
  simp only [pyInt, h, if_true, Bool.false_eq_true, if_false]
  exact (Int.natCast_floor_eq_floor h).symm

/-- C63: without `odd`, all pads lie inside the square, at least half a pitch from its sides, so that they fit. -/
theorem c63_inside (step edge : ℝ) (c : Nat) (hc : c < 4) (hs : 0 < step) (he : 0 ≤ edge) (l : List V2)
    (h : squarePads step edge false c = .ok l) (v : V2) (hv : v ∈ l) :
    |v.x| ≤ edge / 2 - step / 2 ∧ |v.y| ≤ edge / 2 - step / 2 := by
  rw [c63_pads step edge c hc hs he] at h
  cases h
  simp only [List.mem_flatMap, List.mem_range, List.mem_map] at hv
  obtain ⟨i, hi, k, hk, rfl⟩ := hv
  set n := ⌊edge / step⌋₊
  have hq : 0 ≤ edge / step := div_nonneg he hs.le
  have hn : (n : ℝ) ≤ edge / step := Nat.floor_le hq
  have hns : (n : ℝ) * step ≤ edge := by rwa [le_div_iff₀ hs] at hn
  have hk0 : (0 : ℝ) ≤ k := Nat.cast_nonneg k
  have hk1 : (k : ℝ) + 1 ≤ n := by exact_mod_cast hk
  have hn1 : (1 : ℝ) ≤ n := by linarith
  have hq0 : 0 ≤ edge / 2 - step / 2 := by nlinarith
  have ht : |((k : ℝ) - ((n : ℝ) - 1) / 2) * step| ≤ edge / 2 - step / 2 := by
    rw [abs_le]; constructor <;> nlinarith
  have hqq : |edge / 2 - step / 2| ≤ edge / 2 - step / 2 := (abs_of_nonneg hq0).le
  have : (c + i) % 4 = 0 ∨ (c + i) % 4 = 1 ∨ (c + i) % 4 = 2 ∨ (c + i) % 4 = 3 := by omega
  rcases this with e | e | e | e <;> rw [e] <;> simp only [side, abs_neg] <;> constructor <;> assumption

/-- C63, the number of pads with `odd`: it is odd, but exceeds the number of pads that fit, by one or by two. -/
theorem c63_odd (step edge : ℝ) (c : Nat) (hc : c < 4) (hs : 0 < step) (he : 0 ≤ edge) :
    ∃ n : Nat, n % 2 = 1 ∧ ⌊edge / step⌋₊ < n ∧ n ≤ ⌊edge / step⌋₊ + 2 ∧
      squarePads step edge true c = .ok ((List.range 4).flatMap fun i => (List.range n).map fun k : Nat =>
        side (edge / 2 - step / 2) ((c + i) % 4) (((k : ℝ) - ((n : ℝ) - 1) / 2) * step)) := by
  have h : 0 ≤ edge / step := div_nonneg he hs.le
  refine ⟨⌊edge / step⌋₊ + (⌊edge / step⌋₊ % 2 + 1), by omega, by omega, by omega,
    squarePads_eq step edge true c hc _ hs.ne' ?_⟩
  simp only [pyInt, h, if_true]
  rw [← Int.natCast_floor_eq_floor h]
  push_cast
  rfl

/-- C63 fails with `odd`: the outermost pads stick out of the square, whatever the pitch and the edge. -/
theorem c63_odd_outside (step edge : ℝ) (c : Nat) (hc : c < 4) (hs : 0 < step) (he : 0 ≤ edge) (l : List V2)
    (h : squarePads step edge true c = .ok l) :
    ∃ v ∈ l, edge / 2 - step / 2 < |v.x| ∨ edge / 2 - step / 2 < |v.y| := by
  obtain ⟨n, h1, h2, -, h4⟩ := c63_odd step edge c hc hs he
  rw [h4] at h
  cases h
  have hn : edge / step < n := lt_of_lt_of_le (Nat.lt_floor_add_one _) (by exact_mod_cast h2)
  have hns : edge < n * step := by rwa [div_lt_iff₀ hs] at hn
  refine ⟨_, List.mem_flatMap.2 ⟨0, by simp, List.mem_map.2 ⟨n - 1, List.mem_range.2 (by omega), rfl⟩⟩, ?_⟩
  have e : (((n - 1 : Nat) : ℝ) - ((n : ℝ) - 1) / 2) * step = (n * step - step) / 2 := by
    rw [Nat.cast_sub (by omega)]; push_cast; ring
  rw [e]
  have hb : edge / 2 - step / 2 < |(n * step - step) / 2| := lt_of_lt_of_le (by linarith) (le_abs_self _)
  have : (c + 0) % 4 = 0 ∨ (c + 0) % 4 = 1 ∨ (c + 0) % 4 = 2 ∨ (c + 0) % 4 = 3 := by omega
  rcases this with e | e | e | e <;> rw [e] <;> simp only [side, abs_neg]
  · exact Or.inr hb
  · exact Or.inl hb
  · exact Or.inr hb
  · exact Or.inl hb

/-- C63: a negative edge, or a negative pitch, is refused, and so is the pitch zero. -/
theorem c63_refused (step edge : ℝ) (c : Int) (h : edge / step ≤ -1 ∨ step = 0) :
    squarePads step edge false c = .error .assertionError ∨ squarePads step edge false c = .error .zeroDivisionError := by
  unfold squarePads
  by_cases h0 : step = 0
  · right; simp [h0]
  · left
    have hn : edge / step ≤ -1 := h.resolve_right h0
    have hneg : ¬ 0 ≤ edge / step := by linarith
    have hc : ⌈edge / step⌉ ≤ -1 := Int.ceil_le.2 (by push_cast; exact hn)
    simp only [h0, if_false, Bool.false_eq_true, pyInt, hneg, List.length_map, List.length_range]
    rw [if_pos]
    intro e
    have := Int.natCast_nonneg (⌈edge / step⌉.toNat)
    omega

/-- Four pads along each side of a square of edge 40. -/
example : squarePads 10 40 false 1 = .ok [⟨-15, -15⟩, ⟨-5, -15⟩, ⟨5, -15⟩, ⟨15, -15⟩, ⟨15, -15⟩, ⟨15, -5⟩, ⟨15, 5⟩, ⟨15, 15⟩,
    ⟨15, 15⟩, ⟨5, 15⟩, ⟨-5, 15⟩, ⟨-15, 15⟩, ⟨-15, 15⟩, ⟨-15, 5⟩, ⟨-15, -5⟩, ⟨-15, -15⟩] := by
  have e : ⌊(40 / 10 : ℝ)⌋₊ = 4 := by norm_num
  have := c63_pads 10 40 1 (by norm_num) (by norm_num) (by norm_num)
  rw [e] at this
  rw [show (1 : Int) = ((1 : Nat) : Int) from rfl, this]
  simp [List.range_succ, side]
  norm_num

end Electrode
