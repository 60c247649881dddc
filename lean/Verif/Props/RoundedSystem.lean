import Verif.Spec.RoundedSystem
import Verif.Props.Rounding
import Verif.Props.Pseudo
import Verif.Props.Robust

/-
C134: rounding errors of the pseudopotential and of the combined potential.
-/
namespace Electrode
open Spec

namespace Rounding

section
variable {o : FloatOps} {u : ℝ} (ho : Accurate o u)
include ho

theorem add_app {j k : Nat} (hjk : j ≤ k) {x y m x' y' m' : ℝ} (h : App (1 - u)⁻¹ k x y m) (h' : App (1 - u)⁻¹ j x' y' m') :
    App (1 - u)⁻¹ (k + 1) (o.add x x') (y + y') (m + m') :=
  (h.add (hbase ho) (h'.mono (hbase ho) hjk le_rfl)).round (hbase ho) (rel_add ho _ _)

theorem two_app {k : Nat} {x y m : ℝ} (h : App (1 - u)⁻¹ k x y m) : App (1 - u)⁻¹ (k + 1) (o.mul 2 x) (2 * y) (2 * m) := by
  have hb := hbase ho
  have h2 : App (1 - u)⁻¹ 0 2 2 2 := (Rel.refl hb _ _).app hb (by norm_num)
  have := (h2.mul hb h).round hb (rel_mul ho _ _)
  rwa [zero_add] at this

theorem scale_app (c : ℝ) {k : Nat} {x y m : ℝ} (h : App (1 - u)⁻¹ k x y m) : App (1 - u)⁻¹ (k + 1) (o.mul c x) (c * y) (|c| * m) := by
  have hb := hbase ho
  have h2 : App (1 - u)⁻¹ 0 c c |c| := (Rel.refl hb _ _).app hb le_rfl
  have := (h2.mul hb h).round hb (rel_mul ho _ _)
  rwa [zero_add] at this

theorem dot_app {dot : (Axis → ℝ) → (Axis → ℝ) → ℝ} (hd : AccurateDot dot u) {K : Nat} {a b a' b' : Axis → ℝ} {m n : ℝ} (ha : ∀ j, App (1 - u)⁻¹ K (a j) (a' j) m)
    (hb : ∀ j, App (1 - u)⁻¹ K (b j) (b' j) n) : App (1 - u)⁻¹ (2 * K + 4) (dot a b) (∑ j, a' j * b' j) (3 * (m * n)) := by
  have hbase := hbase ho
  have h1 : ∀ j, App (1 - u)⁻¹ (2 * K) (a j * b j) (a' j * b' j) (m * n) := fun j => by
    have := (ha j).mul hbase (hb j)
    rwa [← two_mul] at this
  have h2 : |∑ j, a' j * b' j| ≤ 3 * (m * n) := by
    refine (Finset.abs_sum_le_sum_abs _ _).trans ((Finset.sum_le_sum fun j _ => (h1 j).size).trans (le_of_eq ?_))
    simp
  refine ⟨h2, ?_⟩
  have h3 : |(∑ j, a j * b j) - ∑ j, a' j * b' j| ≤ ((1 - u)⁻¹ ^ (2 * K) - 1) * (3 * (m * n)) := by
    rw [← Finset.sum_sub_distrib]
    refine (Finset.abs_sum_le_sum_abs _ _).trans ((Finset.sum_le_sum fun j _ => (h1 j).err).trans (le_of_eq ?_))
    simp
    ring
  have h4 : ∑ j, |a j * b j| ≤ (1 - u)⁻¹ ^ (2 * K) * (3 * (m * n)) := by
    refine (Finset.sum_le_sum fun j _ => (h1 j).bound).trans (le_of_eq ?_)
    simp
    ring
  have h5 := hd a b
  have h6 : 0 ≤ (1 - u)⁻¹ ^ 4 - 1 := by linarith [pow_ge hbase 4]
  calc |dot a b - ∑ j, a' j * b' j| ≤ |dot a b - ∑ j, a j * b j| + |(∑ j, a j * b j) - ∑ j, a' j * b' j| := abs_sub_le _ _ _
    _ ≤ ((1 - u)⁻¹ ^ 4 - 1) * ((1 - u)⁻¹ ^ (2 * K) * (3 * (m * n))) + ((1 - u)⁻¹ ^ (2 * K) - 1) * (3 * (m * n)) :=
      add_le_add (h5.trans (mul_le_mul_of_nonneg_left h4 h6)) h3
    _ = _ := by rw [pow_add]; ring

/-- entries of the derivatives of the pseudopotential -/
theorem ps_app {dot : (Axis → ℝ) → (Axis → ℝ) → ℝ} (hdot : AccurateDot dot u) {d : Nat} (hd : d ≤ 4) {K : Nat} {p : Nat → NArr ℝ} {T : NArr ℝ} {M : Nat → ℝ}
    (h : ∀ i ≤ d, ∀ l : Idx, l.length = i + 1 → App (1 - u)⁻¹ K (p i l) (T l) (M (i + 1))) :
    ∃ r, flPseudoRow o dot d p = some r ∧ r.length = 3 ^ d ∧ ∀ l : Idx, l.length = d →
      App (1 - u)⁻¹ (2 * K + 12) (entry r l) (psT T l) (3 * ∑ k ∈ Finset.range (d + 1), d.choose k * M (k + 1) * M (d - k + 1)) := by
  have hb := hbase ho
  have hlen : ∀ (k : Nat) (t : NArr ℝ), (flatten k t).length = 3 ^ k := fun k t => by simp [flatten, productIdx_eq, tuples_length]
  have hd' : d = 0 ∨ d = 1 ∨ d = 2 ∨ d = 3 ∨ d = 4 := by omega
  rcases hd' with rfl | rfl | rfl | rfl | rfl
  · refine ⟨_, rfl, hlen _ _, fun l hl => ?_⟩
    rw [entry_flatten _ _ _ hl]
    obtain rfl := List.length_eq_zero_iff.1 hl
    have g0 : ∀ j, App (1 - u)⁻¹ K (p 0 [j]) (T [j]) (M 1) := fun j => h 0 le_rfl [j] rfl
    refine (dot_app ho hdot g0 g0).mono hb (by omega) (le_of_eq ?_)
    simp
  · refine ⟨_, rfl, hlen _ _, fun l hl => ?_⟩
    rw [entry_flatten _ _ _ hl]
    obtain ⟨k, rfl⟩ := List.length_eq_one_iff.1 hl
    have g0 : ∀ j, App (1 - u)⁻¹ K (p 0 [j]) (T [j]) (M 1) := fun j => h 0 (by norm_num) [j] rfl
    have g1 : ∀ k j, App (1 - u)⁻¹ K (p 1 [j, k]) (T [j, k]) (M 2) := fun k j => h 1 (by norm_num) [j, k] rfl
    refine (two_app ho (dot_app ho hdot g0 (g1 k))).mono hb (by omega) (le_of_eq ?_)
    simp [Finset.sum_range_succ]
    ring
  · refine ⟨_, rfl, hlen _ _, fun l hl => ?_⟩
    rw [entry_flatten _ _ _ hl]
    obtain ⟨k, l, rfl⟩ := List.length_eq_two.1 hl
    have g0 : ∀ j, App (1 - u)⁻¹ K (p 0 [j]) (T [j]) (M 1) := fun j => h 0 (by norm_num) [j] rfl
    have g1 : ∀ k j, App (1 - u)⁻¹ K (p 1 [j, k]) (T [j, k]) (M 2) := fun k j => h 1 (by norm_num) [j, k] rfl
    have g2 : ∀ k l j, App (1 - u)⁻¹ K (p 2 [j, k, l]) (T [j, k, l]) (M 3) := fun k l j => h 2 (by norm_num) [j, k, l] rfl
    refine (two_app ho (add_app ho le_rfl (dot_app ho hdot (g1 k) (g1 l)) (dot_app ho hdot g0 (g2 k l)))).mono hb (by omega) (le_of_eq ?_)
    simp [Finset.sum_range_succ]
    ring
  · refine ⟨_, rfl, hlen _ _, fun l hl => ?_⟩
    rw [entry_flatten _ _ _ hl]
    obtain ⟨k, l, m, rfl⟩ := List.length_eq_three.1 hl
    have g0 : ∀ j, App (1 - u)⁻¹ K (p 0 [j]) (T [j]) (M 1) := fun j => h 0 (by norm_num) [j] rfl
    have g1 : ∀ k j, App (1 - u)⁻¹ K (p 1 [j, k]) (T [j, k]) (M 2) := fun k j => h 1 (by norm_num) [j, k] rfl
    have g2 : ∀ k l j, App (1 - u)⁻¹ K (p 2 [j, k, l]) (T [j, k, l]) (M 3) := fun k l j => h 2 (by norm_num) [j, k, l] rfl
    have g3 : ∀ k l m j, App (1 - u)⁻¹ K (p 3 [j, k, l, m]) (T [j, k, l, m]) (M 4) := fun k l m j => h 3 (by norm_num) [j, k, l, m] rfl
    refine (two_app ho (add_app ho (by omega) (add_app ho (by omega) (add_app ho le_rfl (dot_app ho hdot g0 (g3 k l m)) (dot_app ho hdot (g1 k) (g2 l m)))
      (dot_app ho hdot (g1 l) (g2 k m))) (dot_app ho hdot (g1 m) (g2 l k)))).mono hb (by omega) (le_of_eq ?_)
    simp [Finset.sum_range_succ, Nat.choose]
    ring
  · refine ⟨_, rfl, hlen _ _, fun l hl => ?_⟩
    rw [entry_flatten _ _ _ hl]
    obtain ⟨k, l, rfl⟩ : ∃ k l', l = k :: l' := by cases l with | nil => simp at hl | cons k l => exact ⟨k, l, rfl⟩
    obtain ⟨l, m, n, rfl⟩ := List.length_eq_three.1 (by simpa using hl)
    have g0 : ∀ j, App (1 - u)⁻¹ K (p 0 [j]) (T [j]) (M 1) := fun j => h 0 (by norm_num) [j] rfl
    have g1 : ∀ k j, App (1 - u)⁻¹ K (p 1 [j, k]) (T [j, k]) (M 2) := fun k j => h 1 (by norm_num) [j, k] rfl
    have g2 : ∀ k l j, App (1 - u)⁻¹ K (p 2 [j, k, l]) (T [j, k, l]) (M 3) := fun k l j => h 2 (by norm_num) [j, k, l] rfl
    have g3 : ∀ k l m j, App (1 - u)⁻¹ K (p 3 [j, k, l, m]) (T [j, k, l, m]) (M 4) := fun k l m j => h 3 (by norm_num) [j, k, l, m] rfl
    have g4 : ∀ k l m n j, App (1 - u)⁻¹ K (p 4 [j, k, l, m, n]) (T [j, k, l, m, n]) (M 5) := fun k l m n j => h 4 (by norm_num) [j, k, l, m, n] rfl
    refine (two_app ho (add_app ho (by omega) (add_app ho (by omega) (add_app ho (by omega) (add_app ho (by omega) (add_app ho (by omega) (add_app ho (by omega)
      (add_app ho le_rfl (dot_app ho hdot g0 (g4 k l m n)) (dot_app ho hdot (g1 k) (g3 l m n)))
      (dot_app ho hdot (g1 n) (g3 l m k))) (dot_app ho hdot (g1 m) (g3 l k n))) (dot_app ho hdot (g1 l) (g3 k m n)))
      (dot_app ho hdot (g2 k l) (g2 m n))) (dot_app ho hdot (g2 k n) (g2 m l))) (dot_app ho hdot (g2 k m) (g2 l n)))).mono hb (by omega) (le_of_eq ?_)
    simp [Finset.sum_range_succ, Nat.choose]
    ring

/-- an entry of the expanded tensor -/
def flSel (o : FloatOps) (c : List ℝ) : Sel → ℝ
  | .one i => c.getD i 0
  | .lap i j => o.sub (-c.getD i 0) (c.getD j 0)

omit ho in
theorem flExpand_full (k : Nat) (hk : k < 6) (c : List ℝ) (hc : c.length = 2 * k + 1) : flExpandTensor o c = .ok ((tuples k).map fun l => flSel o c (entrySel k l)) := by
  have hk' : (c.length - 1) / 2 = k := by omega
  unfold flExpandTensor
  simp only [hk']
  by_cases h0 : k = 0
  · subst h0
    obtain ⟨a, rfl⟩ := List.length_eq_one_iff.1 hc
    simp [tuples, pyGet, Except.map]
    rfl
  by_cases h1 : k = 1
  · subst h1
    obtain ⟨a, b, d, rfl⟩ := List.length_eq_three.1 hc
    simp
    rfl
  simp only [h0, h1, if_false, expandMap_get k hk]
  rw [List.map_map]
  apply pySeq_map_ok
  intro l hl
  have := table_in_range k hk l (by rw [productIdx_eq]; exact hl)
  rw [← hc] at this
  simp only [Function.comp]
  cases hs : entrySel k l with
  | one i => rw [hs] at this; simp only [selInRange, decide_eq_true_eq] at this; simp [flSelValue, flSel, pyGet_ok c i 0 this]
  | lap i j =>
    rw [hs] at this
    simp only [selInRange, Bool.and_eq_true, decide_eq_true_eq] at this
    simp [flSelValue, flSel, pyGet_ok c i 0 this.1, pyGet_ok c j 0 this.2]

theorem flSel_app {K : Nat} {m : ℝ} {t t' : List ℝ} (h : RowApp (1 - u)⁻¹ K m t t') (s : Sel) : App (1 - u)⁻¹ (K + 1) (flSel o t s) (selVal t' s) (2 * m) := by
  have hb := hbase ho
  have hm := (h.app 0).nonneg
  cases s with
  | one i => exact (h.app i).mono hb (by omega) (by linarith)
  | lap i j =>
    have := (((h.app i).neg hb).sub hb (h.app j)).round hb (rel_sub ho _ _)
    rwa [← two_mul] at this

omit ho in
theorem avail_of_placed {κ : Nat} {els : List Elec} {typ : VTyp} {p : V3} (hw : ∀ e ∈ els, e.volt typ ≠ none → e.volt typ ≠ some 0 → WellPlaced κ p e.shape) (d : Nat) :
    AvailAll els d typ := by
  intro e he hv
  have h1 := hw e he (fun h => hv (by simp [Elec.voltD, h])) fun h => hv (by simp [Elec.voltD, h])
  unfold Shape.Avail
  split
  · next h => rw [h] at h1; exact h1.elim
  · trivial

omit ho in
theorem fold_length {α : Type*} {n : Nat} (f : List (List ℝ) → α → List (List ℝ)) (hf : ∀ w a, w.length = n → (f w a).length = n) (l : List α) (w : List (List ℝ))
    (hw : w.length = n) : (l.foldl f w).length = n := by
  induction l generalizing w with
  | nil => exact hw
  | cons a l ih => exact ih _ (hf w a hw)

omit ho in
theorem step_length (compiled : Bool) {κ : Nat} {x : List V3} {d : Nat} {typ : VTyp} {p : V3} {e : Elec}
    (hw : e.volt typ ≠ none → e.volt typ ≠ some 0 → WellPlaced κ p e.shape) {out w : List (List ℝ)} (hl : out.length = x.length)
    (h : flElectricalStep o compiled x d typ out e = .ok w) : w.length = x.length := by
  unfold flElectricalStep at h
  split at h
  · rw [← Except.ok.inj h]; exact hl
  next v hv =>
    split at h
    · rw [← Except.ok.inj h]; exact hl
    next hv0 =>
      have hp := hw (by rw [hv]; simp) (by rw [hv]; simpa using hv0)
      unfold Elec.flPotential at h
      split at h
      · rw [← Except.ok.inj h]
        unfold flCoverPotential
        simp only [Option.getD_some]
        split_ifs <;> simp [hl]
      · rw [← Except.ok.inj h]
        exact fold_length _ (fun w a hw => by simp [hw]) _ _ hl
      · rw [← Except.ok.inj h]
        exact fold_length _ (fun w a hw => by simp [hw]) _ _ hl
      · rw [← Except.ok.inj h]
        exact fold_length _ (fun w a hw => by simp [hw]) _ _ hl
      · next h2 => rw [h2] at hp; exact hp.elim

omit ho in
theorem system_length (compiled : Bool) {κ : Nat} {x : List V3} {d : Nat} {typ : VTyp} {p : V3} (s : List Elec)
    (hw : ∀ e ∈ s, e.volt typ ≠ none → e.volt typ ≠ some 0 → WellPlaced κ p e.shape) {out w : List (List ℝ)} (hl : out.length = x.length)
    (h : s.foldlM (flElectricalStep o compiled x d typ) out = .ok w) : w.length = x.length := by
  induction s generalizing out with
  | nil =>
    rw [← Except.ok.inj (show Except.ok out = Except.ok w from h)]; exact hl
  | cons e s ih =>
    rw [List.foldlM_cons] at h
    cases h1 : flElectricalStep o compiled x d typ out e with
    | error e => rw [h1] at h; cases h
    | ok a =>
      rw [h1] at h
      exact ih (fun e he => hw e (List.mem_cons_of_mem _ he)) (step_length compiled (hw e (by simp)) hl h1) h

/-- the expanded tensors of a system -/
theorem expanded_app (compiled : Bool) {κ : Nat} {N : Nat} (hu : (700 * (κ + 1)) * u ≤ 1 / 2) (s : List Elec) (x : List V3) (d : Nat) (hd : d ≤ 5) (typ : VTyp)
    (hz : ∀ p ∈ x, p.z ≠ 0) (hw : ∀ p ∈ x, ∀ e ∈ s, e.volt typ ≠ none → e.volt typ ≠ some 0 → WellPlaced κ p e.shape)
    (hN : (s.map fun e => e.roundings typ).sum ≤ N) (hx : x ≠ []) :
    ∃ w, flExpanded o compiled s x d typ = .ok w ∧ ∀ (j : Nat) (p : V3), x[j]? = some p → ∃ t, w[j]? = some t ∧ t.length = 3 ^ d ∧ ∀ l : Idx, l.length = d →
      App (1 - u)⁻¹ (701 * (κ + 1) + N + 1) (entry t l) (sysTens s typ l p) (entrySize s typ d p) := by
  have hb := hbase ho
  obtain ⟨p0, hp0⟩ := List.exists_mem_of_ne_nil x hx
  have hav : AvailAll s d typ := avail_of_placed (hw p0 hp0) d
  have hex := electrical_eq s x d typ hav
  have key : ∀ (j : Nat) (p : V3), x[j]? = some p → ∃ w t, flElectricalPotential o compiled s x d typ = .ok w ∧ w[j]? = some t
      ∧ RowApp (1 - u)⁻¹ (701 * (κ + 1) + N) (s.map fun e => e.size d typ p).sum t ((List.range (2 * d + 1)).map fun i => sysContrib s typ d i p) := by
    intro j p hp
    have hpx := List.mem_of_getElem? hp
    have hj : j < x.length := (List.getElem?_eq_some_iff.1 hp).1
    have hr : (zeroRows x.length d)[j]? = some (List.replicate (d * 2 + 1) 0) := by simp [zeroRows, hj]
    obtain ⟨w, w', t, t', h1, h2, h3, h4, h5⟩ := system_rows ho compiled hu s x d hd typ j hp (hz p hpx) (hw p hpx)
      (k := 701 * (κ + 1)) (by omega) hr hr (zero_row ho _ _)
    rw [zero_add] at h5
    unfold electricalPotential at hex
    rw [h2] at hex
    simp only [Bool.false_eq_true, if_false, Except.ok.injEq] at hex
    rw [hex, List.getElem?_map, hp] at h4
    simp only [Option.map_some, Option.some.injEq] at h4
    rw [← h4] at h5
    exact ⟨w, t, h1, h3, h5.len, fun i => (h5.app i).mono hb (by omega) le_rfl⟩
  obtain ⟨j0, hj0⟩ := List.getElem?_of_mem hp0
  obtain ⟨w, -, h1, -⟩ := key j0 p0 hj0
  have hlen : w.length = x.length := system_length compiled s (hw p0 hp0) (by simp [zeroRows]) h1
  have hrow : ∀ t ∈ w, t.length = 2 * d + 1 := fun t ht => by
    obtain ⟨j, hj⟩ := List.getElem?_of_mem ht
    have hjl : j < x.length := by rw [← hlen]; exact (List.getElem?_eq_some_iff.1 hj).1
    obtain ⟨w2, t2, e1, e2, e3⟩ := key j x[j] (List.getElem?_eq_getElem hjl)
    rw [h1] at e1
    obtain rfl := Except.ok.inj e1
    rw [hj] at e2
    obtain rfl := Option.some.inj e2
    simpa using e3.len
  refine ⟨w.map fun c => (tuples d).map fun l => flSel o c (entrySel d l), ?_, fun j p hp => ?_⟩
  · unfold flExpanded
    rw [h1]
    simp only
    unfold flExpandRows
    rw [if_neg (by rw [expandMap_length]; omega)]
    exact pySeq_map_ok _ _ _ fun c hc => flExpand_full d (by omega) c (hrow c hc)
  · obtain ⟨w2, t, e1, e2, e3⟩ := key j p hp
    rw [h1] at e1
    obtain rfl := Except.ok.inj e1
    refine ⟨_, by rw [List.getElem?_map, e2]; rfl, by simp [tuples_length], fun l hl => ?_⟩
    have e4 : entry ((tuples d).map fun l => flSel o t (entrySel d l)) l = flSel o t (entrySel d l) := by
      simp [entry, List.getD_eq_getElem?_getD, tuples_get d l hl]
    rw [e4]
    have := flSel_app ho e3 (entrySel d l)
    have e5 : sysTens s typ l p = selVal ((List.range (2 * d + 1)).map fun i => sysContrib s typ d i p) (entrySel d l) := by
      unfold sysTens tens
      rw [hl]
    rw [e5]
    exact this

/-- the pseudopotential of a system -/
theorem pseudo_app {dot : (Axis → ℝ) → (Axis → ℝ) → ℝ} (hdot : AccurateDot dot u) (compiled : Bool) {κ : Nat} {N : Nat} (hu : (700 * (κ + 1)) * u ≤ 1 / 2)
    (s : List Elec) (c : ℝ) (x : List V3) (d : Nat) (hd : d ≤ 4) (hz : ∀ p ∈ x, p.z ≠ 0)
    (hw : ∀ p ∈ x, ∀ e ∈ s, e.volt .rf ≠ none → e.volt .rf ≠ some 0 → WellPlaced κ p e.shape) (hN : (s.map fun e => e.roundings .rf).sum ≤ N) (hx : x ≠ []) :
    ∃ w, flPseudoPotential o dot compiled ⟨s, some c⟩ x d = .ok w ∧ ∀ (j : Nat) (p : V3), x[j]? = some p → ∃ t, w[j]? = some t ∧ t.length = 3 ^ d ∧
      ∀ l : Idx, l.length = d → App (1 - u)⁻¹ (2 * (701 * (κ + 1) + N) + 16) (entry t l) (pseudoAt ⟨s, some c⟩ l p) (pseudoSize s c d p) := by
  have hb := hbase ho
  have hE := fun (i : Nat) (hi : i ≤ 4) => expanded_app ho compiled hu s x (i + 1) (by omega) .rf hz hw hN hx
  have hE' : ∀ i, ∃ w, i ≤ 4 → flExpanded o compiled s x (i + 1) .rf = .ok w ∧ ∀ (j : Nat) (p : V3), x[j]? = some p → ∃ t, w[j]? = some t ∧ t.length = 3 ^ (i + 1) ∧
      ∀ l : Idx, l.length = i + 1 → App (1 - u)⁻¹ (701 * (κ + 1) + N + 1) (entry t l) (sysTens s .rf l p) (entrySize s .rf (i + 1) p) := fun i => by
    by_cases hi : i ≤ 4
    · obtain ⟨w, hw⟩ := hE i hi
      exact ⟨w, fun _ => hw⟩
    · exact ⟨[], fun h => absurd h hi⟩
  choose W hW using hE'
  have h1 : pySeq ((List.range (d + 1)).map fun i => (flExpanded o compiled s x (i + 1) .rf).map fun a => a.map fun r => r.map fun v => o.mul c v)
      = .ok ((List.range (d + 1)).map fun i => (W i).map fun r => r.map fun v => o.mul c v) := by
    refine pySeq_map_ok _ _ _ fun i hi => ?_
    rw [List.mem_range] at hi
    rw [(hW i (by omega)).1]
    rfl
  refine ⟨_, by unfold flPseudoPotential; simp only [h1, if_pos hd]; rfl, fun j p hp => ?_⟩
  have hj : j < x.length := (List.getElem?_eq_some_iff.1 hp).1
  obtain ⟨r, hr, hrl, hra⟩ := ps_app ho hdot hd (K := 701 * (κ + 1) + N + 2)
    (p := fun i => toNArr ((((List.range (d + 1)).map fun i => (W i).map fun r => r.map fun v => o.mul c v).getD i []).getD j []))
    (T := fun l => c * sysTens s .rf l p) (M := fun k => |c| * entrySize s .rf k p) fun i hi l hl => by
      obtain ⟨t, ht, htl, hta⟩ := (hW i (by omega)).2 j p hp
      have e1 : ((List.range (d + 1)).map fun i => (W i).map fun r => r.map fun v => o.mul c v).getD i [] = (W i).map fun r => r.map fun v => o.mul c v := by
        rw [List.getD_eq_getElem?_getD, List.getElem?_map, List.getElem?_range (by omega)]
        rfl
      have e2 : ((W i).map fun r => r.map fun v => o.mul c v).getD j [] = t.map fun v => o.mul c v := by
        rw [List.getD_eq_getElem?_getD, List.getElem?_map, ht]
        rfl
      rw [e1, e2]
      unfold toNArr
      rw [idxToNidx_eq]
      have hlt : rowMajor l < t.length := by
        rw [htl, ← hl]
        exact rowMajor_lt l
      have e3 : (t.map fun v => o.mul c v).getD (rowMajor l) 0 = o.mul c (entry t l) := by
        unfold entry
        rw [List.getD_eq_getElem?_getD, List.getElem?_map, List.getD_eq_getElem?_getD, List.getElem?_eq_getElem hlt]
        rfl
      rw [e3]
      exact scale_app ho c (hta l hl)
  refine ⟨r, ?_, hrl, fun l hl => ?_⟩
  · rw [List.getElem?_map, List.getElem?_range hj]
    simp only [Option.map_some, Option.some.injEq]
    rw [hr]
    rfl
  · have hpx := List.mem_of_getElem? hp
    rw [pseudoAt_eq s c l (by omega) p fun i _ _ => avail_of_placed (hw p hpx) i]
    refine (hra l hl).mono hb (by omega) (le_of_eq ?_)
    unfold pseudoSize
    rw [mul_assoc]
    congr 1
    rw [Finset.mul_sum]
    refine Finset.sum_congr rfl fun k _ => ?_
    rw [← sq_abs c]
    ring

end
end Rounding
open Rounding

/-- C134: the loop from left to right has the accuracy that is assumed of `numpy.einsum`. -/
theorem c134_loop {o : FloatOps} {u : ℝ} (ho : Accurate o u) : AccurateDot (loopDot o) u := by
  have hb := hbase ho
  intro a b
  have g : ∀ j, App (1 - u)⁻¹ 1 (o.mul (a j) (b j)) (a j * b j) |a j * b j| := fun j => (rel_mul ho _ _).app hb le_rfl
  have h0 : App (1 - u)⁻¹ 1 0 0 0 := (Rel.refl hb _ _).app hb (by simp)
  have := add_app ho (by omega) (add_app ho (by omega) (add_app ho le_rfl h0 (g 0)) (g 1)) (g 2)
  have h := this.err
  rw [zero_add, zero_add] at h
  rw [Fin.sum_univ_three, Fin.sum_univ_three]
  exact h

/-- C134: rounding errors of `pseudo_potential`. Off the plane, below the covers and clear of the sides of the polygons, an entry of the derivatives of order
`d` differs from its exact value by at most `2 (2 (701 (κ + 1) + N) + 16) u` times the size of what it is made of. -/
theorem c134_pseudo {o : FloatOps} {u : ℝ} (ho : Accurate o u) {dot : (Axis → ℝ) → (Axis → ℝ) → ℝ} (hdot : AccurateDot dot u) (compiled : Bool) (s : List Elec)
    (c : ℝ) (x : List V3) (d : Nat) (hd : d ≤ 4) (κ : Nat) (hz : ∀ p ∈ x, p.z ≠ 0)
    (hw : ∀ p ∈ x, ∀ e ∈ s, e.volt .rf ≠ none → e.volt .rf ≠ some 0 → WellPlaced κ p e.shape) (N : Nat) (hN : (s.map fun e => e.roundings .rf).sum ≤ N)
    (hu : (2 * (701 * (κ + 1) + N) + 16) * u ≤ 1 / 2) (hx : x ≠ []) :
    ∃ computed, flPseudoPotential o dot compiled ⟨s, some c⟩ x d = .ok computed ∧ ∀ (j : Nat) (p : V3), x[j]? = some p → ∀ l : Idx, l.length = d →
      |entry (computed.getD j []) l - pseudoAt ⟨s, some c⟩ l p| ≤ 2 * (2 * (701 * (κ + 1) + N) + 16) * u * pseudoSize s c d p := by
  have hu0 := ho.nonneg
  have hNu : 0 ≤ (N : ℝ) * u := by positivity
  have hκu : 0 ≤ (κ : ℝ) * u := by positivity
  obtain ⟨w, h1, h2⟩ := pseudo_app ho hdot compiled (κ := κ) (N := N) (by linarith) s c x d hd hz hw hN hx
  refine ⟨w, h1, fun j p hp l hl => ?_⟩
  obtain ⟨t, ht, -, hta⟩ := h2 j p hp
  rw [List.getD_eq_getElem?_getD, ht, Option.getD_some]
  have hKc : ((2 * (701 * (κ + 1) + N) + 16 : ℕ) : ℝ) = 2 * (701 * (κ + 1) + N) + 16 := by push_cast; ring
  have hg := growth hu0 ho.lt_one (k := 2 * (701 * (κ + 1) + N) + 16) (by rw [hKc]; exact hu)
  rw [hKc] at hg
  exact (hta l hl).err.trans (mul_le_mul_of_nonneg_right hg (hta l hl).nonneg)

/-- C134: rounding errors of `potential`, the sum of the static potential and the pseudopotential. -/
theorem c134_potential {o : FloatOps} {u : ℝ} (ho : Accurate o u) {dot : (Axis → ℝ) → (Axis → ℝ) → ℝ} (hdot : AccurateDot dot u) (compiled : Bool) (s : List Elec)
    (c : ℝ) (x : List V3) (d : Nat) (hd : d ≤ 4) (κ : Nat) (hz : ∀ p ∈ x, p.z ≠ 0)
    (hw : ∀ typ, ∀ p ∈ x, ∀ e ∈ s, e.volt typ ≠ none → e.volt typ ≠ some 0 → WellPlaced κ p e.shape) (N : Nat)
    (hN : ∀ typ, (s.map fun e => e.roundings typ).sum ≤ N) (hu : (2 * (701 * (κ + 1) + N) + 17) * u ≤ 1 / 2) (hx : x ≠ []) :
    ∃ computed, Sys.flPotential o dot compiled ⟨s, some c⟩ x d .tot = .ok computed ∧ ∀ (j : Nat) (p : V3), x[j]? = some p → ∀ l : Idx, l.length = d →
      |entry (computed.getD j []) l - totalAt ⟨s, some c⟩ l p| ≤ 2 * (2 * (701 * (κ + 1) + N) + 17) * u * (entrySize s .dc d p + pseudoSize s c d p) := by
  have hb := hbase ho
  have hu0 := ho.nonneg
  have hNu : 0 ≤ (N : ℝ) * u := by positivity
  have hκu : 0 ≤ (κ : ℝ) * u := by positivity
  obtain ⟨v, g1, g2⟩ := expanded_app ho compiled (κ := κ) (N := N) (by linarith) s x d (by omega) .dc hz (hw .dc) (hN .dc) hx
  obtain ⟨w, h1, h2⟩ := pseudo_app ho hdot compiled (κ := κ) (N := N) (by linarith) s c x d hd hz (hw .rf) (hN .rf) hx
  refine ⟨_, by unfold Sys.flPotential; simp only [g1, h1]; rfl, fun j p hp l hl => ?_⟩
  obtain ⟨t, ht, htl, hta⟩ := h2 j p hp
  obtain ⟨r, hr, hrl, hra⟩ := g2 j p hp
  have hlt : rowMajor l < 3 ^ d := by rw [← hl]; exact rowMajor_lt l
  have e1 : entry ((List.zipWith (fun r t => List.zipWith o.add r t) v w).getD j []) l = o.add (entry r l) (entry t l) := by
    unfold entry
    rw [List.getD_eq_getElem?_getD (l := List.zipWith _ v w), List.getElem?_zipWith, hr, ht]
    simp only [Option.getD_some]
    rw [List.getD_eq_getElem?_getD, List.getElem?_zipWith, List.getD_eq_getElem?_getD, List.getD_eq_getElem?_getD,
      List.getElem?_eq_getElem (show rowMajor l < r.length by rw [hrl]; exact hlt), List.getElem?_eq_getElem (show rowMajor l < t.length by rw [htl]; exact hlt)]
    rfl
  have hpx := List.mem_of_getElem? hp
  have e2 : totalAt ⟨s, some c⟩ l p = sysTens s .dc l p + pseudoAt ⟨s, some c⟩ l p := by
    rw [total_split s c l (by omega) p fun d typ => avail_of_placed (hw typ p hpx) d, pseudoAt_eq s c l (by omega) p fun i _ _ => avail_of_placed (hw .rf p hpx) i]
  rw [e1, e2]
  have hA : App (1 - u)⁻¹ (2 * (701 * (κ + 1) + N) + 17) (o.add (entry r l) (entry t l)) (sysTens s .dc l p + pseudoAt ⟨s, some c⟩ l p)
      (entrySize s .dc d p + pseudoSize s c d p) :=
    add_app ho le_rfl ((hra l hl).mono hb (by omega) le_rfl) (hta l hl)
  have hKc : ((2 * (701 * (κ + 1) + N) + 17 : ℕ) : ℝ) = 2 * (701 * (κ + 1) + N) + 17 := by push_cast; ring
  have hg := growth hu0 ho.lt_one (k := 2 * (701 * (κ + 1) + N) + 17) (by rw [hKc]; exact hu)
  rw [hKc] at hg
  exact hA.err.trans (mul_le_mul_of_nonneg_right hg hA.nonneg)

/-- C134: where the computed gradient of the combined potential is at most `ε` long, the true minimum is not further away than `ε` and the rounding errors allow:
minimisers that work with rounded numbers find minima up to these errors. -/
theorem c134_minimum {o : FloatOps} {u : ℝ} (ho : Accurate o u) {dot : (Axis → ℝ) → (Axis → ℝ) → ℝ} (hdot : AccurateDot dot u) (compiled : Bool) (s : List Elec)
    (c : ℝ) (K : Set (Fin 3 → ℝ)) (hK : Convex ℝ K) (hc : clearOf ⟨s, some c⟩ K) (lam : ℝ) (hl : 0 < lam) (hs : Stiff ⟨s, some c⟩ lam K) (x0 : Fin 3 → ℝ)
    (h0 : x0 ∈ K) (hg : slopeAt ⟨s, some c⟩ x0 = 0) (x : Fin 3 → ℝ) (hxK : x ∈ K) (κ : Nat) (hz : x 2 ≠ 0)
    (hw : ∀ typ, ∀ e ∈ s, e.volt typ ≠ none → e.volt typ ≠ some 0 → WellPlaced κ (toV3 x) e.shape) (N : Nat)
    (hN : ∀ typ, (s.map fun e => e.roundings typ).sum ≤ N) (hu : (2 * (701 * (κ + 1) + N) + 17) * u ≤ 1 / 2) (g : List (List ℝ))
    (hcomp : Sys.flPotential o dot compiled ⟨s, some c⟩ [toV3 x] 1 .tot = .ok g) (ε : ℝ) (hε : vlen (fun a => entry (g.getD 0 []) [a]) ≤ ε) :
    vlen (x - x0) ≤ (ε + √3 * (2 * (2 * (701 * (κ + 1) + N) + 17) * u * (entrySize s .dc 1 (toV3 x) + pseudoSize s c 1 (toV3 x)))) / lam := by
  set B := 2 * (2 * (701 * (κ + 1) + N) + 17) * u * (entrySize s .dc 1 (toV3 x) + pseudoSize s c 1 (toV3 x)) with hB
  obtain ⟨g', h1, h2⟩ := c134_potential ho hdot compiled s c [toV3 x] 1 (by norm_num) κ (by simpa [toV3] using hz)
    (fun typ p hp => by rw [List.mem_singleton] at hp; rw [hp]; exact hw typ) N hN hu (by simp)
  rw [hcomp] at h1
  obtain rfl := Except.ok.inj h1
  have h3 : ∀ a, |entry (g.getD 0 []) [a] - slopeAt ⟨s, some c⟩ x a| ≤ B := fun a => h2 0 (toV3 x) rfl [a] rfl
  have hB0 : 0 ≤ B := (abs_nonneg _).trans (h3 0)
  have h4 : vlen (fun a => slopeAt ⟨s, some c⟩ x a - entry (g.getD 0 []) [a]) ≤ √3 * B := by
    unfold vlen
    rw [← Real.sqrt_sq hB0, ← Real.sqrt_mul (by norm_num)]
    refine Real.sqrt_le_sqrt ?_
    have : ∀ a, (slopeAt ⟨s, some c⟩ x a - entry (g.getD 0 []) [a]) ^ 2 ≤ B ^ 2 := fun a => by
      rw [← sq_abs, abs_sub_comm]
      exact pow_le_pow_left₀ (abs_nonneg _) (h3 a) 2
    rw [Fin.sum_univ_three]
    linarith [this 0, this 1, this 2]
  have h5 : vlen (slopeAt ⟨s, some c⟩ x) ≤ ε + √3 * B := by
    have e : slopeAt ⟨s, some c⟩ x = (fun a => entry (g.getD 0 []) [a]) + fun a => slopeAt ⟨s, some c⟩ x a - entry (g.getD 0 []) [a] := by
      funext a
      simp
    rw [e]
    refine (Rob.vlen_add _ _).trans (add_le_add hε h4)
  exact ((c130_distance s c K hK hc lam hl hs x0 h0 hg x hxK).1).trans (div_le_div_of_nonneg_right h5 hl.le)

/-- The hypotheses are met with doubles: a triangle with a static and an rf voltage, and a pixel. -/
example (compiled : Bool) : ∃ computed, Sys.flPotential (binary 52) (loopDot (binary 52)) compiled
      ⟨[⟨"p", 0, 2, .points [⟨3, 4⟩] [2] 50 0⟩, ⟨"t", 3, 5, .polygons [[⟨1, 0⟩, ⟨0, 1⟩, ⟨0, 0⟩]] 50 2⟩], some 7⟩ [⟨0, 0, 1⟩] 2 .tot = .ok computed := by
  obtain ⟨w, h, -⟩ := c134_potential (c122_binary 52) (c134_loop (c122_binary 52)) compiled
    [⟨"p", 0, 2, .points [⟨3, 4⟩] [2] 50 0⟩, ⟨"t", 3, 5, .polygons [[⟨1, 0⟩, ⟨0, 1⟩, ⟨0, 0⟩]] 50 2⟩] 7 [⟨0, 0, 1⟩] 2 (by norm_num) 2 (by simp)
    (fun typ p hp e he _ _ => by
      have tri := c122_clear ⟨0, 0, 1⟩ (by norm_num) [⟨1, 0⟩, ⟨0, 1⟩, ⟨0, 0⟩] 2 50 (by norm_num) 2 (by norm_num)
      simp only [List.mem_singleton] at hp
      subst hp
      simp only [List.mem_cons, List.not_mem_nil, or_false] at he
      rcases he with rfl | rfl
      · simp [WellPlaced]
      · refine ⟨by norm_num, fun poly hpoly => ?_⟩
        simp only [List.mem_singleton] at hpoly
        subst hpoly
        exact tri) 16 (fun typ => by cases typ <;> simp [Elec.roundings, Elec.volt, Shape.roundings]) (by norm_num) (by simp)
  exact ⟨w, h⟩

/-- `c134_minimum` for two pixels with doubles: there is a ball around the minimum in which it applies -/
example (compiled : Bool) : ∃ R lam : ℝ, 0 < R ∧ 0 < lam ∧ ∀ x ∈ rball ![0, 0, 1] R, x 2 ≠ 0 → ∀ g ε,
    Sys.flPotential (binary 52) (loopDot (binary 52)) compiled ⟨twoPixels, some 1⟩ [toV3 x] 1 .tot = .ok g → vlen (fun a => entry (g.getD 0 []) [a]) ≤ ε →
    vlen (x - ![0, 0, 1]) ≤ (ε + √3 * (2 * (2 * (701 * ((0 : ℕ) + 1) + (2 : ℕ)) + 17) * (1 / 2 ^ (52 + 1)) *
      (entrySize twoPixels .dc 1 (toV3 x) + pseudoSize twoPixels 1 1 (toV3 x)))) / lam := by
  obtain ⟨R, lam, hR, hl, hc, hs, hg⟩ := twoPixels_well
  refine ⟨R, lam, hR, hl, fun x hx hz g ε hcomp hε => ?_⟩
  refine c134_minimum (c122_binary 52) (c134_loop (c122_binary 52)) compiled twoPixels 1 _ (Rob.rball_convex _ R) hc lam hl hs _ (Rob.center_mem _ hR) hg x hx 0 hz
    (fun typ e he _ _ => ?_) 2 (fun typ => ?_) (by norm_num) g hcomp ε hε
  · simp only [twoPixels, List.mem_singleton] at he
    subst he
    simp [WellPlaced]
  · cases typ <;> simp [twoPixels, Elec.roundings, Elec.volt, Shape.roundings]

end Electrode
