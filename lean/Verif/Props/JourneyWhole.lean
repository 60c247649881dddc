import Verif.Props.Journey

/-
C147: the legs of a journey make up one motion.
-/
namespace Electrode
open Spec Knob Wave Set Rob Ramp Mot

namespace Ramp
/-- joining two functions with a derivative -/
theorem joinD {E : Type*} [NormedAddCommGroup E] [NormedSpace ℝ E] {F : ℝ → E} {T1 T2 : ℝ} (h0 : 0 ≤ T1) (h1 : T1 ≤ T2) {γ β : ℝ → E}
    (hγ : ∀ t ∈ Icc 0 T1, HasDerivWithinAt γ (F t) (Icc 0 T1) t) (hβ : ∀ t ∈ Icc T1 T2, HasDerivWithinAt β (F t) (Icc T1 T2) t)
    (he : β T1 = γ T1) : ∀ t ∈ Icc 0 T2, HasDerivWithinAt (fun t => if t ≤ T1 then γ t else β t) (F t) (Icc 0 T2) t := by
  intro t ht
  have eβ : ∀ t, T1 ≤ t → (if t ≤ T1 then γ t else β t) = β t := fun t h => by
    split
    · next h2 => rw [le_antisymm h2 h, he]
    · rfl
  rw [← Icc_union_Icc_eq_Icc h0 h1]
  refine HasDerivWithinAt.union ?_ ?_
  · by_cases h : t ≤ T1
    · exact (hγ t ⟨ht.1, h⟩).congr (fun s hs => if_pos hs.2) (if_pos h)
    · refine HasFDerivWithinAt.of_notMem_closure ?_
      rw [isClosed_Icc.closure_eq]
      exact fun h2 => h h2.2
  · by_cases h : T1 ≤ t
    · exact (hβ t ⟨h, ht.2⟩).congr (fun s hs => eβ s hs.1) (eβ t h)
    · refine HasFDerivWithinAt.of_notMem_closure ?_
      rw [isClosed_Icc.closure_eq]
      exact fun h2 => h h2.1

/-- one leg after a motion -/
theorem extendLeg {s : List Elec} {c κ T1 T : ℝ} (h0 : 0 ≤ T1) (hT : 0 ≤ T) {w w' : ℝ → Fin s.length → ℝ} {x v x' v' : ℝ → Fin 3 → ℝ} (hp : RampPath s c κ T1 w x v)
    (hp' : RampPath s c κ T w' x' v') (ew : w' 0 = w T1) (ex : x' 0 = x T1) (ev : v' 0 = v T1) :
    RampPath s c κ (T1 + T) (fun t => if t ≤ T1 then w t else w' (t - T1)) (fun t => if t ≤ T1 then x t else x' (t - T1))
      (fun t => if t ≤ T1 then v t else v' (t - T1)) := by
  have late : ∀ {α : Type} (f g : ℝ → α), g 0 = f T1 → ∀ t, T1 ≤ t → (if t ≤ T1 then f t else g (t - T1)) = g (t - T1) := fun f g e t h => by
    split
    · next h2 => rw [le_antisymm h2 h, sub_self, e]
    · rfl
  have hmaps : ∀ t ∈ Icc T1 (T1 + T), t - T1 ∈ Icc 0 T := fun t ht => ⟨by linarith [ht.1], by linarith [ht.2]⟩
  have shift : ∀ {f : ℝ → Fin 3 → ℝ} {f' : Fin 3 → ℝ} {t : ℝ}, HasDerivWithinAt f f' (Icc 0 T) (t - T1) →
      HasDerivWithinAt (fun t => f (t - T1)) f' (Icc T1 (T1 + T)) t := fun {f f' t} h => by
    have h2 := HasDerivWithinAt.scomp (h := fun t => t - T1) (h' := 1) t h ((hasDerivWithinAt_id t (Icc T1 (T1 + T))).sub_const T1) hmaps
    rwa [one_smul] at h2
  refine ⟨joinD h0 (by linarith) (fun t ht => ?_) (fun t ht => ?_) (by simp [ex]), joinD h0 (by linarith) (fun t ht => ?_) (fun t ht => ?_) (by simp [ev])⟩
  · rw [if_pos ht.2]
    exact hp.velocity t ht
  · rw [late v v' ev t ht.1]
    exact shift (hp'.velocity _ (hmaps t ht))
  · simp only [if_pos ht.2]
    exact hp.force t ht
  · simp only [late w w' ew t ht.1, late x x' ex t ht.1]
    exact shift (hp'.force _ (hmaps t ht))
end Ramp

/-- **C147.** The legs of a journey make up one motion, during which the voltages go straight from row to row. -/
theorem c147_whole (s : List Elec) (c κ T : ℝ) (hT : 0 < T) (n : Nat) (u : Nat → Fin s.length → ℝ) (x v : Nat → ℝ → Fin 3 → ℝ) (hj : Journey s c κ T n u x v) :
    ∃ w X Y, RampPath s c κ (n * T) w X Y ∧ ∀ k < n, ∀ t ∈ Icc 0 T,
      w (k * T + t) = u k + (t / T) • (u (k + 1) - u k) ∧ X (k * T + t) = x k t ∧ Y (k * T + t) = v k t := by
  suffices h : ∀ N ≤ n, ∃ w X Y, RampPath s c κ (N * T) w X Y ∧ (w (N * T) = u N ∧ X (N * T) = x N 0 ∧ Y (N * T) = v N 0) ∧ ∀ k < N, ∀ t ∈ Icc 0 T,
      w (k * T + t) = u k + (t / T) • (u (k + 1) - u k) ∧ X (k * T + t) = x k t ∧ Y (k * T + t) = v k t by
    obtain ⟨w, X, Y, h1, -, h2⟩ := h n le_rfl
    exact ⟨w, X, Y, h1, h2⟩
  intro N
  induction N with
  | zero =>
    intro _
    refine ⟨fun _ => u 0, fun _ => x 0 0, fun _ => v 0 0, ?_, ⟨rfl, rfl, rfl⟩, fun k hk => absurd hk (by omega)⟩
    rw [Nat.cast_zero, zero_mul]
    exact ⟨fun t _ => HasFDerivWithinAt.of_subsingleton (by simp), fun t _ => HasFDerivWithinAt.of_subsingleton (by simp)⟩
  | succ N ih =>
    intro hN
    obtain ⟨w, X, Y, h1, ⟨e1, e2, e3⟩, h2⟩ := ih (by omega)
    obtain ⟨j1, j2, j3⟩ := hj N (by omega)
    have hNT : (0 : ℝ) ≤ N * T := by positivity
    have hx := Ramp.extendLeg hNT hT.le h1 j1 (by simp [e1]) e2.symm e3.symm
    have hlate : ∀ {α : Type} (f g : ℝ → α), g 0 = f (N * T) → ∀ t ∈ Icc 0 T, (if N * T + t ≤ N * T then f (N * T + t) else g (N * T + t - N * T)) = g t := fun f g e t ht => by
      split
      · next h =>
        obtain rfl : t = 0 := le_antisymm (by linarith) ht.1
        rw [add_zero, e]
      · rw [add_sub_cancel_left]
    have eN : ((N + 1 : ℕ) : ℝ) * T = N * T + T := by push_cast; ring
    have l1 := hlate w (fun t => u N + (t / T) • (u (N + 1) - u N)) (by simp [e1])
    have l2 := hlate X (x N) e2.symm
    have l3 := hlate Y (v N) e3.symm
    have hTT : T ∈ Icc 0 T := ⟨hT.le, le_rfl⟩
    refine ⟨_, _, _, by rw [eN]; exact hx, ⟨?_, ?_, ?_⟩, fun k hk t ht => ?_⟩
    · rw [eN, l1 T hTT, div_self hT.ne', one_smul, add_sub_cancel]
    · rw [eN, l2 T hTT, j2]
    · rw [eN, l3 T hTT, j3]
    · rcases Nat.lt_succ_iff_lt_or_eq.1 hk with h | rfl
      · have hle : (k : ℝ) * T + t ≤ N * T := by
          have : ((k : ℝ) + 1) * T ≤ N * T := mul_le_mul_of_nonneg_right (by exact_mod_cast h) hT.le
          linarith [ht.2]
        simp only [if_pos hle]
        exact h2 k h t ht
      · exact ⟨l1 t ht, l2 t ht, l3 t ht⟩

/-- One motion in the ring trap, with a velocity, while the voltage of the centre is raised and lowered again and again. -/
example (n : Nat) (T : ℝ) (hT : 0 < T) : ∃ (Δ : ℝ) (w : ℝ → Fin Ring.trap.length → ℝ) (X Y : ℝ → Fin 3 → ℝ), 0 < Δ ∧ RampPath Ring.trap 1 1 ((n + 1 : ℕ) * T) w X Y ∧
    Y 0 ≠ 0 ∧ ∀ k : Nat, k ≤ n → w (k * T) = (if k % 2 = 0 then 0 else Δ) • raise := by
  obtain ⟨Δ, R, m, x, v, h1, h2, h3, -⟩ := Ramp.ring_journey (n + 1) T hT
  obtain ⟨w, X, Y, k1, k2⟩ := c147_whole Ring.trap 1 1 T hT (n + 1) _ x v h3
  refine ⟨Δ, w, X, Y, h1, k1, ?_, fun k hk => ?_⟩
  · have := (k2 0 (by omega) 0 ⟨le_rfl, hT.le⟩).2.2
    rw [Nat.cast_zero, zero_mul, add_zero] at this
    rw [this]
    exact h2
  · have := (k2 k (by omega) 0 ⟨le_rfl, hT.le⟩).1
    rw [add_zero, zero_div, zero_smul, add_zero] at this
    exact this

end Electrode
