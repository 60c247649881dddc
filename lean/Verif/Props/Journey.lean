import Verif.Props.RampsLast

/-
C147: an ion follows all rows of a table of voltages, one after the other.
-/
namespace Electrode
open Spec Knob Wave Set Rob Ramp Mot

namespace Spec
/-- the voltages go straight from row to row, each time in the time `T`; the ion is at `x k t` with the velocity `v k t` at the time `t` after it was at row `k` -/
def Journey (s : List Elec) (c κ T : ℝ) (n : Nat) (u : Nat → Fin s.length → ℝ) (x v : Nat → ℝ → Fin 3 → ℝ) : Prop :=
  ∀ k < n, RampPath s c κ T (fun t => u k + (t / T) • (u (k + 1) - u k)) (x k) (v k) ∧ x (k + 1) 0 = x k T ∧ v (k + 1) 0 = v k T

/-- each of the rows `0, …, n` has a well at `m k`, and the wells are not far apart -/
structure Wells (s : List Elec) (c : ℝ) (n : Nat) (u : Nat → Fin s.length → ℝ) (m : Nat → Fin 3 → ℝ) (R lam a : ℝ) : Prop where
  rest : ∀ k ≤ n, slopeAt (drivenBy s c (u k)) (m k) = 0
  above : ∀ k ≤ n, ∀ y ∈ rball (m k) R, 0 < y 2
  stiff : ∀ k ≤ n, Stiff (drivenBy s c (u k)) lam (rball (m k) R)
  near : ∀ k < n, vlen (m (k + 1) - m k) ≤ a
end Spec

/-- **C147.** A whole table of voltages: each row has a well, no voltage differs by more than `δ` between a row and the next, and no well is further than `a` from the
next. An ion whose energy above the minimum of the first row, plus `2 κ δ` for each step, is less than the height of the wells at the distance `R - a` is carried
along: a motion exists for the whole journey, in every motion the ion stays within `R` of the well of the row, and at the end its energy has changed by at most
`κ δ` for each step. -/
theorem c147_journey (s : List Elec) (H : ℝ) (htr : polygonTrap H 0 s) (hsep : separate s) (c κ : ℝ) (hκ : 0 < κ) (T : ℝ) (hT : 0 < T) (n : Nat)
    (u : Nat → Fin s.length → ℝ) (δ : ℝ) (h0 : 0 ≤ δ) (hd : ∀ k < n, ∀ j, |u (k + 1) j - u k j| ≤ δ) (m : Nat → Fin 3 → ℝ) (R lam a : ℝ) (hl : 0 < lam)
    (ha : 0 ≤ a) (haR : a < R) (hw : Wells s c n u m R lam a) (x1 v1 : Fin 3 → ℝ) (h1 : vlen (x1 - m 0) < R)
    (hE : energyAt (drivenBy s c (u 0)) κ x1 v1 - κ * valueAt (drivenBy s c (u 0)) (m 0) + n * (2 * κ * δ) < κ * lam * (R - a) ^ 2 / 2) :
    (∃ x v, Journey s c κ T n u x v ∧ x 0 0 = x1 ∧ v 0 0 = v1) ∧
    ∀ x v, Journey s c κ T n u x v → x 0 0 = x1 → v 0 0 = v1 →
      (∀ k < n, ∀ t ∈ Icc 0 T, vlen (x k t - m k) < R) ∧ vlen (x n 0 - m n) < R ∧
      |energyAt (drivenBy s c (u n)) κ (x n 0) (v n 0) - energyAt (drivenBy s c (u 0)) κ x1 v1| ≤ n * (κ * δ) := by
  have hR : 0 < R := ha.trans_lt haR
  have hκδ : 0 ≤ κ * δ := mul_nonneg hκ.le h0
  have hRR : κ * lam * (R - a) ^ 2 / 2 ≤ κ * lam * R ^ 2 / 2 := by
    have : (R - a) ^ 2 ≤ R ^ 2 := by nlinarith
    have := mul_le_mul_of_nonneg_left this (mul_pos hκ hl).le
    linarith
  set e0 := energyAt (drivenBy s c (u 0)) κ x1 v1 - κ * valueAt (drivenBy s c (u 0)) (m 0) with he0
  -- the state at the start of a leg
  let Ok : Nat → (Fin 3 → ℝ) → (Fin 3 → ℝ) → Prop := fun k x v => vlen (x - m k) < R ∧
    energyAt (drivenBy s c (u k)) κ x v - κ * valueAt (drivenBy s c (u k)) (m k) ≤ e0 + k * (2 * κ * δ) ∧
    |energyAt (drivenBy s c (u k)) κ x v - energyAt (drivenBy s c (u 0)) κ x1 v1| ≤ k * (κ * δ)
  have hok0 : Ok 0 x1 v1 := ⟨h1, by simp [he0], by simp⟩
  have step : ∀ k < n, ∀ x v, Ok k x v →
      (∃ y w, RampPath s c κ T (fun t => u k + (t / T) • (u (k + 1) - u k)) y w ∧ y 0 = x ∧ w 0 = v) ∧
      ∀ y w, RampPath s c κ T (fun t => u k + (t / T) • (u (k + 1) - u k)) y w → y 0 = x → w 0 = v →
        (∀ t ∈ Icc 0 T, vlen (y t - m k) < R) ∧ Ok (k + 1) (y T) (w T) := by
    intro k hk x v ⟨o1, o2, o3⟩
    have hkn : ((k : ℝ) + 1) * (2 * κ * δ) ≤ n * (2 * κ * δ) := by
      refine mul_le_mul_of_nonneg_right ?_ (by linarith)
      exact_mod_cast hk
    have hE' : energyAt (drivenBy s c (u k)) κ x v - κ * valueAt (drivenBy s c (u k)) (m k) + 2 * κ * δ < κ * lam * (R - a) ^ 2 / 2 := by linarith
    obtain ⟨g1, g2⟩ := Ramp.leg s H htr hsep c κ hκ T hT (u k) (u (k + 1)) δ h0 (hd k hk) (m k) (hw.rest k hk.le) R hR (hw.above k hk.le) lam hl (hw.stiff k hk.le)
      x v o1 (hE'.trans_le hRR)
    refine ⟨g1, fun y w hp e1 e2 => ?_⟩
    obtain ⟨k1, k2, k3⟩ := g2 y w hp e1 e2
    refine ⟨k1, ?_, ?_, ?_⟩
    · have h3 : vlen (y T - m k) ^ 2 < (R - a) ^ 2 := by
        refine k2.trans_lt ?_
        rw [div_lt_iff₀ (mul_pos hκ hl)]
        linarith
      have h4 := lt_of_pow_lt_pow_left₀ 2 (by linarith) h3
      have h5 := Rob.vlen_add (y T - m k) (m k - m (k + 1))
      rw [sub_add_sub_cancel] at h5
      have h6 : vlen (m k - m (k + 1)) = vlen (m (k + 1) - m k) := by rw [← neg_sub, Rob.vlen_neg]
      linarith [hw.near k hk]
    · have hin : m (k + 1) ∈ rball (m k) R := ((hw.near k hk).trans haR.le : vlen (m (k + 1) - m k) ≤ R)
      have hoff : ∀ y : Fin 3 → ℝ, 0 < y 2 → offSystem s (toV3 y) := fun y hy => Limit.trap_off htr (Limit.images_ne (p := toV3 y) hy (.inl rfl))
      have h3 := (c130_unique _ c _ (Rob.rball_convex (m k) R) (fun y hy => Knob.off_withDc s _ (hoff y (hw.above k hk.le y hy))) lam hl (hw.stiff k hk.le) (m k)
        (Rob.center_mem (m k) hR) (hw.rest k hk.le)).1 (m (k + 1)) hin
      have h4 := (abs_le.1 (c147_switch s H htr hsep c κ hκ.le (u k) (u (k + 1)) δ h0 (hd k hk) (m (k + 1)) 0 (hw.above k hk.le _ hin))).1
      have h5 := (abs_le.1 k3).2
      have h6 : κ * valueAt (drivenBy s c (u k)) (m k) ≤ κ * valueAt (drivenBy s c (u k)) (m (k + 1)) := by
        have h7 : 0 ≤ lam / 2 * vlen (m (k + 1) - m k) ^ 2 := by positivity
        exact mul_le_mul_of_nonneg_left ((le_add_of_nonneg_right h7).trans h3) hκ.le
      simp only [energyAt] at h4 h5 o2 ⊢
      push_cast
      linarith
    · have h5 := abs_sub_le (energyAt (drivenBy s c (u (k + 1))) κ (y T) (w T)) (energyAt (drivenBy s c (u k)) κ x v) (energyAt (drivenBy s c (u 0)) κ x1 v1)
      push_cast
      linarith
  refine ⟨?_, fun x v hj e1 e2 => ?_⟩
  · -- the states at the rows, chosen one after the other
    have next : ∀ k (z : (ℝ → Fin 3 → ℝ) × (ℝ → Fin 3 → ℝ)), ∃ z' : (ℝ → Fin 3 → ℝ) × (ℝ → Fin 3 → ℝ), z'.1 0 = z.1 T ∧ z'.2 0 = z.2 T ∧
        (k < n → Ok k (z.1 T) (z.2 T) → RampPath s c κ T (fun t => u k + (t / T) • (u (k + 1) - u k)) z'.1 z'.2) := fun k z => by
      by_cases h : k < n ∧ Ok k (z.1 T) (z.2 T)
      · obtain ⟨y, w, g1, g2, g3⟩ := (step k h.1 _ _ h.2).1
        exact ⟨(y, w), g2, g3, fun _ _ => g1⟩
      · exact ⟨(fun _ => z.1 T, fun _ => z.2 T), rfl, rfl, fun a b => absurd ⟨a, b⟩ h⟩
    choose f f1 f2 f3 using next
    let z : Nat → (ℝ → Fin 3 → ℝ) × (ℝ → Fin 3 → ℝ) := fun k => Nat.rec (f 0 (fun _ => x1, fun _ => v1)) (fun k z => f (k + 1) z) k
    have hz : ∀ k, z (k + 1) = f (k + 1) (z k) := fun _ => rfl
    have hz0 : z 0 = f 0 (fun _ => x1, fun _ => v1) := rfl
    have hx0 : (z 0).1 0 = x1 ∧ (z 0).2 0 = v1 := ⟨by rw [hz0, f1], by rw [hz0, f2]⟩
    have hall : ∀ k < n, RampPath s c κ T (fun t => u k + (t / T) • (u (k + 1) - u k)) (z k).1 (z k).2 ∧ Ok k ((z k).1 0) ((z k).2 0) := by
      intro k
      induction k with
      | zero =>
        intro hk
        exact ⟨f3 0 _ hk hok0, by rw [hx0.1, hx0.2]; exact hok0⟩
      | succ k ih =>
        intro hk
        obtain ⟨i1, i2⟩ := ih (by omega)
        have h3 := ((step k (by omega) _ _ i2).2 _ _ i1 rfl rfl).2
        refine ⟨f3 (k + 1) _ hk h3, ?_⟩
        rw [hz, f1, f2]
        exact h3
    exact ⟨fun k => (z k).1, fun k => (z k).2, fun k hk => ⟨(hall k hk).1, by beta_reduce; rw [hz, f1], by beta_reduce; rw [hz, f2]⟩, hx0.1, hx0.2⟩
  · have hall : ∀ k ≤ n, Ok k (x k 0) (v k 0) := by
      intro k
      induction k with
      | zero => intro _; rw [e1, e2]; exact hok0
      | succ k ih =>
        intro hk
        obtain ⟨j1, j2, j3⟩ := hj k (by omega)
        rw [j2, j3]
        exact ((step k (by omega) _ _ (ih (by omega))).2 _ _ j1 rfl rfl).2
    exact ⟨fun k hk => ((step k hk _ _ (hall k hk.le)).2 _ _ (hj k hk).1 rfl rfl).1, (hall n le_rfl).1, (hall n le_rfl).2.2⟩

/-- **C147.** The table of voltages comes from `solve`, with a `VoltageDerivativeConstraint` of `order=1` and `max=δ`, and each of its rows has a well: the ion is
carried along the whole table. -/
theorem c147_carried (s : List Elec) (solver : (Volts s.length → ℝ) → List (Volts s.length → Prop) → Nat → Option (Volts s.length)) (hs : Minimises solver)
    (wants : List (List Want)) (loc : List (List Ctr)) (h : Demands wants loc) (hf : ∀ ws ∈ wants, ∀ w ∈ ws, w.fits s)
    (glob : List VDC) (hg : ∀ c ∈ glob, VDC.plain c) (u : Volts s.length) (cost : ℝ) (hsol : solveSets s solver loc glob = .ok (u, cost))
    (δ : ℝ) (h0 : 0 ≤ δ) (b : VDC) (hb : b ∈ glob) (hb1 : b.order = 1 ∧ b.delta = 1 ∧ b.abs = true ∧ b.max = some δ)
    (H : ℝ) (htr : polygonTrap H 0 s) (hsep : separate s) (c κ : ℝ) (hκ : 0 < κ) (T : ℝ) (hT : 0 < T) (n : Nat) (hn : n + 1 = wants.length)
    (m : Nat → Fin 3 → ℝ) (R lam a : ℝ) (hl : 0 < lam) (ha : 0 ≤ a) (haR : a < R) (hw : Wells s c n (fun k => u.getD k 0) m R lam a)
    (x1 v1 : Fin 3 → ℝ) (h1 : vlen (x1 - m 0) < R)
    (hE : energyAt (drivenBy s c (u.getD 0 0)) κ x1 v1 - κ * valueAt (drivenBy s c (u.getD 0 0)) (m 0) + n * (2 * κ * δ) < κ * lam * (R - a) ^ 2 / 2) :
    (∃ x v, Journey s c κ T n (fun k => u.getD k 0) x v ∧ x 0 0 = x1 ∧ v 0 0 = v1) ∧
    ∀ x v, Journey s c κ T n (fun k => u.getD k 0) x v → x 0 0 = x1 → v 0 0 = v1 →
      (∀ k < n, ∀ t ∈ Icc 0 T, vlen (x k t - m k) < R) ∧ vlen (x n 0 - m n) < R ∧
      |energyAt (drivenBy s c (u.getD n 0)) κ (x n 0) (v n 0) - energyAt (drivenBy s c (u.getD 0 0)) κ x1 v1| ≤ n * (κ * δ) := by
  obtain ⟨hl1, -, h3, -⟩ := c146_met s solver hs wants loc h hf glob hg u cost hsol
  have h4 := h3 b hb
  unfold VDC.kept at h4
  rw [hb1.1, hb1.2.1, hb1.2.2.1] at h4
  exact c147_journey s H htr hsep c κ hκ T hT n (fun k => u.getD k 0) δ h0
    (fun k hk j => (entry_le _ _ j).trans (h4 _ (step_mem b.smooth u k (by omega)) δ hb1.2.2.2)) m R lam a hl ha haR hw x1 v1 h1 hE

namespace Ramp
/-- other voltages change curvatures little -/
theorem curve_near {s : List Elec} {H : ℝ} (htr : polygonTrap H 0 s) (hsep : separate s) (c : ℝ) {w u : Fin s.length → ℝ} {Δ : ℝ} (h0 : 0 ≤ Δ)
    (hd : ∀ j, |u j - w j| ≤ Δ) {z0 : ℝ} (hz : 0 < z0) {x : Fin 3 → ℝ} (hx : z0 ≤ x 2) (a b : Fin 3) :
    |totalAt (drivenBy s c u) [a, b] (toV3 x) - totalAt (drivenBy s c w) [a, b] (toV3 x)| ≤ 36 * Δ / z0 ^ 2 := by
  have hzx : 0 < (toV3 x).z := hz.trans_le hx
  have hoff : offSystem s (toV3 x) := Limit.trap_off htr (Limit.images_ne hzx (.inl rfl))
  have hu : (List.ofFn u).length = s.length := by simp
  have hw : (List.ofFn w).length = s.length := by simp
  obtain ⟨n1, -⟩ := near_withDc s (List.ofFn w) (List.ofFn u) Δ hw hu fun j hj => by
    rw [List.getD_eq_getElem _ _ (by simpa using hj), List.getD_eq_getElem _ _ (by simpa using hj), List.getElem_ofFn, List.getElem_ofFn]
    exact hd _
  have h1 := (c133_errors _ _ H 0 (trap_withDc hw htr) (separate_withDc hw hsep) .dc (by simp) Δ h0 n1 (toV3 x) hzx (.inl rfl)).2.2 [a, b] (by simp) (by simp)
  simp only [Nat.cast_zero, neg_zero, Finset.Icc_self, Finset.sum_singleton, Int.cast_zero, mul_zero, zero_mul, add_zero, abs_of_pos hzx] at h1
  rw [electricalAt_eq _ .dc [a, b] (by simp) _ (avail_of_off (off_withDc s _ hoff) _ _),
    electricalAt_eq _ .dc [a, b] (by simp) _ (avail_of_off (off_withDc s _ hoff) _ _)] at h1
  unfold drivenBy
  rw [total_split _ c [a, b] (by simp) _ fun _ _ => avail_of_off (off_withDc s _ hoff) _ _, total_split _ c [a, b] (by simp) _ fun _ _ => avail_of_off (off_withDc s _ hoff) _ _]
  simp only [rf_withDc s _ hu, rf_withDc s _ hw]
  rw [add_sub_add_right_eq_sub]
  refine h1.trans ?_
  have e : 2 * [1, 4, 18, 150, 1620, 17100].getD [a, b].length 0 * Δ = 36 * Δ := by
    show 2 * (18 : ℝ) * Δ = _
    ring
  rw [e]
  exact div_le_div_of_nonneg_left (by positivity) (by positivity) (pow_le_pow_left₀ hz.le hx _)
end Ramp

/-- **C147.** One well suffices: if the voltages with the well differ by at most `Δ` from those of each row, then each row has a well, with half the radius and half
the curvature, at most `2 Δ / (z0 lam)` away from it. -/
theorem c147_wells (s : List Elec) (H : ℝ) (htr : polygonTrap H 0 s) (hsep : separate s) (c : ℝ) (n : Nat) (u : Nat → Fin s.length → ℝ) (w : Fin s.length → ℝ) (Δ : ℝ)
    (h0 : 0 ≤ Δ) (hd : ∀ k ≤ n, ∀ j, |u k j - w j| ≤ Δ) (x0 : Fin 3 → ℝ) (R : ℝ) (hR : 0 < R) (z0 : ℝ) (hz : 0 < z0) (hz0 : ∀ y ∈ rball x0 R, z0 ≤ y 2) (lam : ℝ)
    (hl : 0 < lam) (hst : Stiff (drivenBy s c w) lam (rball x0 R)) (hg : slopeAt (drivenBy s c w) x0 = 0) (h1 : 4 * Δ / z0 ≤ lam * R)
    (h2 : 216 * Δ / z0 ^ 2 ≤ lam) :
    ∃ m, Wells s c n u m (R / 2) (lam / 2) (4 * Δ / (z0 * lam)) ∧ ∀ k ≤ n, vlen (m k - x0) ≤ 2 * Δ / (z0 * lam) := by
  have hw : (List.ofFn w).length = s.length := by simp
  have hmin : ∀ k, ∃ m, k ≤ n → slopeAt (drivenBy s c (u k)) m = 0 ∧ vlen (m - x0) ≤ 2 * Δ / (z0 * lam) := fun k => by
    by_cases hk : k ≤ n
    · obtain ⟨n1, n2⟩ := near_withDc s (List.ofFn w) (List.ofFn (u k)) Δ hw (by simp) fun j hj => by
        rw [List.getD_eq_getElem _ _ (by simpa using hj), List.getD_eq_getElem _ _ (by simpa using hj), List.getElem_ofFn, List.getElem_ofFn]
        exact hd k hk _
      obtain ⟨⟨m, g1, g2, -⟩, g3⟩ := c133_minimum _ _ H (trap_withDc hw htr) (separate_withDc hw hsep) Δ h0 n1 n2 c x0 R hR z0 hz hz0 lam hl hst hg (by
        have e : 4 * Δ / z0 = 2 * (2 * Δ / z0) := by ring
        have : 0 < lam * R := mul_pos hl hR
        rw [e] at h1
        linarith)
      exact ⟨m, fun _ => ⟨g2, g3 m g1 g2⟩⟩
    · exact ⟨0, fun h => absurd h hk⟩
  choose m hm using hmin
  have hhalf : 2 * Δ / (z0 * lam) ≤ R / 2 := by
    rw [div_le_iff₀ (mul_pos hz hl)]
    rw [div_le_iff₀ hz] at h1
    linarith
  have hin : ∀ k ≤ n, ∀ y ∈ rball (m k) (R / 2), y ∈ rball x0 R := fun k hk y hy => by
    have h5 := Rob.vlen_add (y - m k) (m k - x0)
    rw [sub_add_sub_cancel] at h5
    have h6 : vlen (y - m k) ≤ R / 2 := hy
    show vlen (y - x0) ≤ R
    linarith [(hm k hk).2]
  refine ⟨m, ⟨fun k hk => (hm k hk).1, fun k hk y hy => hz.trans_le (hz0 y (hin k hk y hy)), fun k hk y hy v => ?_, fun k hk => ?_⟩, fun k hk => (hm k hk).2⟩
  · have h3 := hst y (hin k hk y hy) v
    have h4 : ∀ a b, v a * totalAt (drivenBy s c w) [a, b] (toV3 y) * v b - |v a| * |v b| * (lam / 6) ≤ v a * totalAt (drivenBy s c (u k)) [a, b] (toV3 y) * v b := by
      intro a b
      have h5 := Ramp.curve_near htr hsep c h0 (hd k hk) hz (hz0 y (hin k hk y hy)) a b
      have h6 : 36 * Δ / z0 ^ 2 ≤ lam / 6 := by
        have e : 216 * Δ / z0 ^ 2 = 6 * (36 * Δ / z0 ^ 2) := by ring
        linarith
      have h7 : |v a * (totalAt (drivenBy s c (u k)) [a, b] (toV3 y) - totalAt (drivenBy s c w) [a, b] (toV3 y)) * v b| ≤ |v a| * |v b| * (lam / 6) := by
        rw [abs_mul, abs_mul, mul_right_comm]
        exact mul_le_mul_of_nonneg_left (h5.trans h6) (by positivity)
      have h8 := (abs_le.1 h7).1
      linarith
    have h9 := Finset.sum_le_sum fun a (_ : a ∈ Finset.univ) => Finset.sum_le_sum fun b (_ : b ∈ Finset.univ) => h4 a b
    refine le_trans ?_ h9
    simp only [Finset.sum_sub_distrib]
    have h10 : ∑ a, ∑ b, |v a| * |v b| * (lam / 6) ≤ lam / 2 * ∑ a, v a ^ 2 := by
      simp only [Fin.sum_univ_three, ← sq_abs (v 0), ← sq_abs (v 1), ← sq_abs (v 2)]
      nlinarith [mul_nonneg hl.le (sq_nonneg (|v 0| - |v 1|)), mul_nonneg hl.le (sq_nonneg (|v 0| - |v 2|)), mul_nonneg hl.le (sq_nonneg (|v 1| - |v 2|))]
    linarith
  · have h5 := Rob.vlen_add (m (k + 1) - x0) (x0 - m k)
    rw [sub_add_sub_cancel] at h5
    have h6 : vlen (x0 - m k) = vlen (m k - x0) := by rw [← neg_sub, Rob.vlen_neg]
    have e : 4 * Δ / (z0 * lam) = 2 * Δ / (z0 * lam) + 2 * Δ / (z0 * lam) := by ring
    rw [e]
    linarith [(hm k hk.le).2, (hm (k + 1) hk).2]

/-- Any number of rows of voltages for the ring trap, with the voltage of the centre raised and lowered again and again: an ion with a velocity is carried along. -/
theorem Ramp.ring_journey (n : Nat) (T : ℝ) (hT : 0 < T) : ∃ (Δ R : ℝ) (m : Nat → Fin 3 → ℝ) (x v : Nat → ℝ → Fin 3 → ℝ), 0 < Δ ∧ v 0 0 ≠ 0 ∧
    Journey Ring.trap 1 1 T n (fun k => (if k % 2 = 0 then 0 else Δ) • raise) x v ∧ ∀ k < n, ∀ t ∈ Icc 0 T, vlen (x k t - m k) < R := by
  obtain ⟨R, lam, hR, hl, hR1, hc, hs, hg⟩ := Ring.trap_well
  set Δ := lam * R ^ 2 / (512 * (n + 1)) with hΔ
  have hn : (0 : ℝ) ≤ n := Nat.cast_nonneg n
  have hΔ0 : 0 < Δ := by positivity
  have hΔe : Δ * (n + 1) = lam * R ^ 2 / 512 := by
    rw [hΔ]
    field_simp
  have hΔn : n * Δ ≤ lam * R ^ 2 / 512 := by linarith
  have hΔ1 : Δ ≤ lam * R ^ 2 / 512 := by nlinarith
  have hRR : lam * R ^ 2 ≤ lam * R := mul_le_mul_of_nonneg_left (by nlinarith) hl.le
  have hRl : lam * R ≤ lam := mul_le_of_le_one_right hl.le hR1
  have hlR : 0 < lam * R := mul_pos hl hR
  have hraise : ∀ j, |raise j| ≤ 1 := fun j => by unfold raise; split <;> simp
  let u : Nat → Fin Ring.trap.length → ℝ := fun k => (if k % 2 = 0 then 0 else Δ) • raise
  have hu : ∀ k j, |u k j - (0 : Fin Ring.trap.length → ℝ) j| ≤ Δ := fun k j => by
    simp only [u, Pi.smul_apply, smul_eq_mul, Pi.zero_apply, sub_zero, abs_mul]
    refine (mul_le_of_le_one_right (abs_nonneg _) (hraise j)).trans ?_
    split
    · simp [hΔ0.le]
    · rw [abs_of_pos hΔ0]
  have hstep : ∀ k < n, ∀ j, |u (k + 1) j - u k j| ≤ Δ := fun k _ j => by
    simp only [u, Pi.smul_apply, smul_eq_mul, ← sub_mul, abs_mul]
    refine (mul_le_of_le_one_right (abs_nonneg _) (hraise j)).trans ?_
    split <;> split
    · simp [hΔ0.le]
    · simp [abs_of_pos hΔ0]
    · simp [abs_of_pos hΔ0]
    · simp [hΔ0.le]
  obtain ⟨m, hw, -⟩ := c147_wells Ring.trap 50 Ring.trap_is Ring.trap_separate 1 n u 0 Δ hΔ0.le (fun k _ => hu k) ![0, 0, 7] R hR 6 (by norm_num) (fun y hy => by
      have h1 := (Ring.abs_le_vlen (y - ![0, 0, 7]) 2).trans hy
      have e2 : ∀ a b c : ℝ, ![a, b, c] 2 = c := fun _ _ _ => rfl
      rw [Pi.sub_apply, e2] at h1
      linarith [(abs_le.1 h1).1]) lam hl (by rw [ring_at_rest]; exact hs) (by rw [ring_at_rest]; exact hg) (by linarith) (by linarith)
  set a := 4 * Δ / (6 * lam) with ha
  have ha0 : 0 ≤ a := by positivity
  have ha1 : a ≤ R / 4 := by
    rw [ha, div_le_iff₀ (by positivity)]
    linarith
  have hpos : 0 < √lam * (R / 8) / 2 := by positivity
  obtain ⟨⟨x, v, k1, k2, k3⟩, k4⟩ := c147_journey Ring.trap 50 Ring.trap_is Ring.trap_separate 1 1 one_pos T hT n u Δ hΔ0.le hstep m (R / 2) (lam / 2) a (by linarith)
    ha0 (by linarith) hw (m 0) ![√lam * (R / 8) / 2, 0, 0] (by rw [sub_self, (Rob.vlen_zero_iff 0).2 rfl]; linarith) (by
      have h3 : (R / 4) ^ 2 ≤ (R / 2 - a) ^ 2 := pow_le_pow_left₀ (by linarith) (by linarith) 2
      have h4 := mul_le_mul_of_nonneg_left h3 hl.le
      have h5 : 0 < lam * R ^ 2 := by positivity
      rw [energyAt, ring_speed hl]
      linarith)
  exact ⟨Δ, R / 2, m, x, v, hΔ0, fun h => hpos.ne' (by rw [k3] at h; simpa using congrFun h 0), k1, (k4 x v k1 k2 k3).1⟩

/-- Two rows of voltages from `solve` for the ring trap, which carry an ion with a velocity along. -/
example (T : ℝ) (hT : 0 < T) : ∃ solver, Minimises solver ∧ ∃ (δ R : ℝ) (loc : List (List Ctr)) (u : Volts Ring.trap.length) (cost : ℝ) (m : Nat → Fin 3 → ℝ)
    (x v : Nat → ℝ → Fin 3 → ℝ), 0 < δ ∧ v 0 0 ≠ 0 ∧ solveSets Ring.trap solver loc [⟨1, 1, some δ, none, false, 1, .inf, true⟩] = .ok (u, cost) ∧
    (∀ j, δ / 2 ≤ u.getD 1 0 j) ∧ Journey Ring.trap 1 1 T 1 (fun k => u.getD k 0) x v ∧ vlen (x 1 0 - m 1) < R := by
  obtain ⟨R, lam, hR, hl, hR1, hc, hs, hg⟩ := Ring.trap_well
  set δ := lam * R ^ 2 / 1024 with hδ
  have h5 : 0 < lam * R ^ 2 := by positivity
  have hδ0 : 0 < δ := by positivity
  have hRR : lam * R ^ 2 ≤ lam * R := mul_le_mul_of_nonneg_left (by nlinarith) hl.le
  have hRl : lam * R ≤ lam := mul_le_of_le_one_right hl.le hR1
  obtain ⟨solver, hmin, wants, loc, u, cost, hlen, hdem, hfits, hu, hrow0, hrow1⟩ := ring_table δ hδ0
  obtain ⟨m, hw, -⟩ := c147_wells Ring.trap 50 Ring.trap_is Ring.trap_separate 1 1 (fun k => u.getD k 0) 0 δ hδ0.le (fun k hk j => by
      have hk' : k = 0 ∨ k = 1 := by omega
      rcases hk' with rfl | rfl
      · rw [hrow0, sub_self, abs_zero]
        exact hδ0.le
      · rw [Pi.zero_apply, sub_zero, abs_of_nonneg (by linarith [(hrow1 j).1])]
        exact (hrow1 j).2) ![0, 0, 7] R hR 6 (by norm_num) (fun y hy => by
      have h1 := (Ring.abs_le_vlen (y - ![0, 0, 7]) 2).trans hy
      have e2 : ∀ a b c : ℝ, ![a, b, c] 2 = c := fun _ _ _ => rfl
      rw [Pi.sub_apply, e2] at h1
      linarith [(abs_le.1 h1).1]) lam hl (by rw [ring_at_rest]; exact hs) (by rw [ring_at_rest]; exact hg) (by linarith) (by linarith)
  set a := 4 * δ / (6 * lam) with ha
  have ha0 : 0 ≤ a := by positivity
  have ha1 : a ≤ R / 4 := by
    rw [ha, div_le_iff₀ (by positivity)]
    linarith
  have hpos : 0 < √lam * (R / 8) / 2 := by positivity
  obtain ⟨⟨x, v, k1, k2, k3⟩, k4⟩ := c147_carried Ring.trap solver hmin wants loc hdem hfits _ (ring_plain δ) u cost hu δ hδ0.le _ (List.mem_singleton.2 rfl)
    ⟨rfl, rfl, rfl, rfl⟩ 50 Ring.trap_is Ring.trap_separate 1 1 one_pos T hT 1 hlen.symm m (R / 2) (lam / 2) a (by linarith)
    ha0 (by linarith) hw (m 0) ![√lam * (R / 8) / 2, 0, 0] (by rw [sub_self, (Rob.vlen_zero_iff 0).2 rfl]; linarith) (by
      have h3 : (R / 4) ^ 2 ≤ (R / 2 - a) ^ 2 := pow_le_pow_left₀ (by linarith) (by linarith) 2
      have h4 := mul_le_mul_of_nonneg_left h3 hl.le
      rw [energyAt, ring_speed hl, Nat.cast_one]
      linarith)
  exact ⟨solver, hmin, δ, R / 2, loc, u, cost, m, x, v, hδ0, fun h => hpos.ne' (by rw [k3] at h; simpa using congrFun h 0), hu, fun j => (hrow1 j).1, k1,
    (k4 x v k1 k2 k3).2.1⟩

end Electrode
