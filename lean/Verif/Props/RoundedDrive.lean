import Verif.Props.RoundedSystem
import Verif.Props.Earnshaw

/-
C134: rounding errors of the potential at an instant of the rf cycle.
-/
namespace Electrode
open Spec Rounding Real

/-- C134: rounding errors of `time_potential`. The sum of the static potential and of the rf potential at the phase `t` has the error of both and of two more operations
and of the cosine. -/
theorem c134_instant {o : FloatOps} {u : ℝ} (ho : Accurate o u) (cosine : ℝ → ℝ) (hcos : ∀ t, |cosine t - cos t| ≤ u * |cos t|) (compiled : Bool) (s : List Elec)
    (x : List V3) (d : Nat) (hd : d ≤ 5) (t : ℝ) (κ : Nat) (hz : ∀ p ∈ x, p.z ≠ 0)
    (hw : ∀ typ, ∀ p ∈ x, ∀ e ∈ s, e.volt typ ≠ none → e.volt typ ≠ some 0 → WellPlaced κ p e.shape) (N : Nat)
    (hN : ∀ typ, (s.map fun e => e.roundings typ).sum ≤ N) (hu : (701 * (κ + 1) + N + 4) * u ≤ 1 / 2) (hx : x ≠ []) :
    ∃ computed, flTimePotential o cosine compiled s x d t = .ok computed ∧ ∀ (j : Nat) (p : V3), x[j]? = some p → ∀ l : Idx, l.length = d →
      |entry (computed.getD j []) l - timeAt s t l p| ≤ 2 * (701 * (κ + 1) + N + 4) * u * (entrySize s .dc d p + |cos t| * entrySize s .rf d p) := by
  have hb := hbase ho
  have hu0 := ho.nonneg
  have hNu : 0 ≤ (N : ℝ) * u := by positivity
  have hκu : 0 ≤ (κ : ℝ) * u := by positivity
  obtain ⟨v, g1, g2⟩ := expanded_app ho compiled (κ := κ) (N := N) (by linarith) s x d hd .dc hz (hw .dc) (hN .dc) hx
  obtain ⟨w, h1, h2⟩ := expanded_app ho compiled (κ := κ) (N := N) (by linarith) s x d hd .rf hz (hw .rf) (hN .rf) hx
  refine ⟨_, by unfold flTimePotential; simp only [g1, h1]; rfl, fun j p hp l hl => ?_⟩
  obtain ⟨q, hq, hql, hqa⟩ := h2 j p hp
  obtain ⟨r, hr, hrl, hra⟩ := g2 j p hp
  have hlt : rowMajor l < 3 ^ d := by rw [← hl]; exact rowMajor_lt l
  have e1 : entry ((List.zipWith (fun r t => List.zipWith o.add r t) v (w.map fun r => r.map fun v => o.mul (cosine t) v)).getD j []) l
      = o.add (entry r l) (o.mul (cosine t) (entry q l)) := by
    unfold entry
    rw [List.getD_eq_getElem?_getD (l := List.zipWith _ v _), List.getElem?_zipWith, List.getElem?_map, hr, hq]
    simp only [Option.map_some, Option.getD_some]
    rw [List.getD_eq_getElem?_getD, List.getElem?_zipWith, List.getElem?_map, List.getD_eq_getElem?_getD, List.getD_eq_getElem?_getD,
      List.getElem?_eq_getElem (show rowMajor l < r.length by rw [hrl]; exact hlt), List.getElem?_eq_getElem (show rowMajor l < q.length by rw [hql]; exact hlt)]
    rfl
  have hpx := List.mem_of_getElem? hp
  have e2 : timeAt s t l p = sysTens s .dc l p + cos t * sysTens s .rf l p := by
    have k1 := electrical_expand_eq s [p] l.length (by omega) .dc (avail_of_placed (hw .dc p hpx) _)
    have k2 := electrical_expand_eq s [p] l.length (by omega) .rf (avail_of_placed (hw .rf p hpx) _)
    obtain ⟨r, hr, -, hv⟩ := (c31_time_potential s [p] l.length t true).1 _ _ k1 k2
    have e1 := entry_flatten l.length (fun l => sysTens s .dc l p) l rfl
    have e2 := entry_flatten l.length (fun l => sysTens s .rf l p) l rfl
    have := hv 0 (rowMajor l)
    unfold timeAt
    simp only [hr, entryOf, entry, at2] at this e1 e2 ⊢
    simp only [List.map_cons, List.map_nil, List.getD_cons_zero] at this
    rw [this, e1, e2]
  rw [e1, e2]
  have hc : App (1 - u)⁻¹ 1 (cosine t) (cos t) |cos t| := (rel_of_err ho.nonneg ho.lt_one (hcos t)).app hb le_rfl
  have hm := (hc.mul hb (hqa l hl)).round hb (rel_mul ho _ _)
  have hA : App (1 - u)⁻¹ (701 * (κ + 1) + N + 4) (o.add (entry r l) (o.mul (cosine t) (entry q l))) (sysTens s .dc l p + cos t * sysTens s .rf l p)
      (entrySize s .dc d p + |cos t| * entrySize s .rf d p) :=
    add_app ho le_rfl ((hra l hl).mono hb (by omega) le_rfl) (hm.mono hb (by omega) le_rfl)
  have hKc : ((701 * (κ + 1) + N + 4 : ℕ) : ℝ) = 701 * (κ + 1) + N + 4 := by push_cast; ring
  have hg := growth hu0 ho.lt_one (k := 701 * (κ + 1) + N + 4) (by rw [hKc]; exact hu)
  rw [hKc] at hg
  exact hA.err.trans (mul_le_mul_of_nonneg_right hg hA.nonneg)

/-- The hypotheses are met with doubles and a cosine that is rounded to the nearest double: a triangle with a static and an rf voltage, and a pixel. -/
example (compiled : Bool) (t : ℝ) : ∃ computed, flTimePotential (binary 52) (fun t => roundTo 52 (cos t)) compiled
      [⟨"p", 0, 2, .points [⟨3, 4⟩] [2] 50 0⟩, ⟨"t", 3, 5, .polygons [[⟨1, 0⟩, ⟨0, 1⟩, ⟨0, 0⟩]] 50 2⟩] [⟨0, 0, 1⟩] 5 t = .ok computed := by
  obtain ⟨w, h, -⟩ := c134_instant (c122_binary 52) (fun t => roundTo 52 (cos t)) (fun t => by simpa [binary] using (c122_binary 52).add (cos t) 0) compiled
    [⟨"p", 0, 2, .points [⟨3, 4⟩] [2] 50 0⟩, ⟨"t", 3, 5, .polygons [[⟨1, 0⟩, ⟨0, 1⟩, ⟨0, 0⟩]] 50 2⟩] [⟨0, 0, 1⟩] 5 (by norm_num) t 2 (by simp)
    (fun typ p hp e he _ _ => by
      have tri := c122_clear ⟨0, 0, 1⟩ (by norm_num) [⟨1, 0⟩, ⟨0, 1⟩, ⟨0, 0⟩] 2 50 (by norm_num) 2 (by norm_num)
      simp only [List.mem_singleton] at hp
      subst hp
      simp only [List.mem_cons, List.not_mem_nil, or_false] at he
      rcases he with rfl | rfl
      · simp [WellPlaced]
      · refine ⟨by norm_num, fun poly hpoly => ?_⟩
        simp only [List.mem_singleton] at hpoly
        subst hpoly
        exact tri) 16 (fun typ => by cases typ <;> simp [Elec.roundings, Elec.volt, Shape.roundings]) (by norm_num) (by simp)
  exact ⟨w, h⟩

end Electrode
