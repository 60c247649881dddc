import Verif.Props.Journey
import Verif.Props.WaveformTrap

/-
C133, C147: how large a well is, from the curvatures at its minimum and the largest voltages.
-/
namespace Electrode
open Spec Knob Wave Set Rob Ramp Mot

namespace Spec
/-- bound for third derivatives of the combined potential at a height of at least `z0`, for dc voltages of at most `V` and rf voltages of at most `W` -/
noncomputable def thirdBound (c V W z0 : ℝ) : ℝ := 300 * V / z0 ^ 3 + 349920 * (c * W) ^ 2 / z0 ^ 5
end Spec

namespace Ramp
theorem thirdBound_nonneg (c : ℝ) {V W z0 : ℝ} (hV : 0 ≤ V) (hz : 0 < z0) : 0 ≤ thirdBound c V W z0 := by
  unfold thirdBound
  positivity

/-- third derivatives of the combined potential are bounded -/
theorem third_le {els : List Elec} {h : ℝ} (ht : polygonTrap h 0 els) (hs : separate els) (c : ℝ) {V W : ℝ} (hV : 0 ≤ V) (hW : 0 ≤ W)
    (hdc : ∀ e ∈ els, |e.dc| ≤ V) (hrf : ∀ e ∈ els, |e.rf| ≤ W) {z0 : ℝ} (hz : 0 < z0) {x : Fin 3 → ℝ} (hx : z0 ≤ x 2) (k l m : Fin 3) :
    |totalAt ⟨els, some c⟩ [k, l, m] (toV3 x)| ≤ thirdBound c V W z0 := by
  have hzx : 0 < (toV3 x).z := hz.trans_le hx
  have hoff : offSystem els (toV3 x) := Limit.trap_off ht (Limit.images_ne hzx (.inl rfl))
  have key : ∀ (typ : VTyp) (U : ℝ), 0 ≤ U → (∀ e ∈ els, |(e.volt typ).getD 0| ≤ U) → ∀ l : Idx, 1 ≤ l.length → l.length ≤ 5 →
      |sysTens els typ l (toV3 x)| ≤ 2 * [1, 4, 18, 150, 1620, 17100].getD l.length 0 * U / z0 ^ l.length := by
    intro typ U hU hv l h1 h2
    have hb := c133_derivatives els h 0 ht typ U (Limit.map_bound els typ hU hv hs) l h1 h2 (toV3 x) (Limit.images_ne hzx (.inl rfl))
    simp only [Nat.cast_zero, neg_zero, Finset.Icc_self, Finset.sum_singleton, Int.cast_zero, mul_zero, zero_mul, add_zero, abs_of_pos hzx] at hb
    rw [electricalAt_eq _ typ l (by omega) _ (avail_of_off hoff _ _)] at hb
    refine hb.trans (div_le_div_of_nonneg_left ?_ (by positivity) (pow_le_pow_left₀ hz.le hx _))
    have : (0 : ℝ) ≤ [1, 4, 18, 150, 1620, 17100].getD l.length 0 := by
      have hl : l.length = 1 ∨ l.length = 2 ∨ l.length = 3 ∨ l.length = 4 ∨ l.length = 5 := by omega
      rcases hl with e | e | e | e | e <;> rw [e] <;> simp
    positivity
  have hd := key .dc V hV (fun e he => by simpa [Elec.volt] using hdc e he) [k, l, m] (by simp) (by simp)
  have hr := key .rf W hW (fun e he => by simpa [Elec.volt] using hrf e he)
  have r1 : ∀ j, |c * sysTens els .rf [j] (toV3 x)| ≤ |c| * W / z0 * 8 := fun j => by
    have h1 : |sysTens els .rf [j] (toV3 x)| ≤ 2 * 4 * W / z0 ^ 1 := hr [j] (by simp) (by simp)
    rw [abs_mul]
    refine (mul_le_mul_of_nonneg_left h1 (abs_nonneg c)).trans (le_of_eq ?_)
    ring
  have r2 : ∀ j k, |c * sysTens els .rf [j, k] (toV3 x)| ≤ |c| * W / z0 ^ 2 * 36 := fun j k => by
    have h1 : |sysTens els .rf [j, k] (toV3 x)| ≤ 2 * 18 * W / z0 ^ 2 := hr [j, k] (by simp) (by simp)
    rw [abs_mul]
    refine (mul_le_mul_of_nonneg_left h1 (abs_nonneg c)).trans (le_of_eq ?_)
    ring
  have r3 : ∀ j k l, |c * sysTens els .rf [j, k, l] (toV3 x)| ≤ |c| * W / z0 ^ 3 * 300 := fun j k l => by
    have h1 : |sysTens els .rf [j, k, l] (toV3 x)| ≤ 2 * 150 * W / z0 ^ 3 := hr [j, k, l] (by simp) (by simp)
    rw [abs_mul]
    refine (mul_le_mul_of_nonneg_left h1 (abs_nonneg c)).trans (le_of_eq ?_)
    ring
  have r4 : ∀ j k l m, |c * sysTens els .rf [j, k, l, m] (toV3 x)| ≤ |c| * W / z0 ^ 4 * 3240 := fun j k l m => by
    have h1 : |sysTens els .rf [j, k, l, m] (toV3 x)| ≤ 2 * 1620 * W / z0 ^ 4 := hr [j, k, l, m] (by simp) (by simp)
    rw [abs_mul]
    refine (mul_le_mul_of_nonneg_left h1 (abs_nonneg c)).trans (le_of_eq ?_)
    ring
  have hsum : ∀ (f g : Fin 3 → ℝ) (A B : ℝ), (∀ j, |f j| ≤ A) → (∀ j, |g j| ≤ B) → |∑ j, f j * g j| ≤ 3 * (A * B) := by
    intro f g A B hf hg
    refine (Finset.abs_sum_le_sum_abs _ _).trans ?_
    refine (Finset.sum_le_sum fun j _ => (abs_mul (f j) (g j)).le.trans (mul_le_mul (hf j) (hg j) (abs_nonneg _) ((abs_nonneg _).trans (hf j)))).trans (le_of_eq ?_)
    simp
  rw [total_split els c [k, l, m] (by simp) _ fun _ _ => avail_of_off hoff _ _]
  have hd' : |sysTens els .dc [k, l, m] (toV3 x)| ≤ 300 * V / z0 ^ 3 := by
    have h1 : |sysTens els .dc [k, l, m] (toV3 x)| ≤ 2 * 150 * V / z0 ^ 3 := hd
    linarith [show (2 : ℝ) * 150 * V / z0 ^ 3 = 300 * V / z0 ^ 3 by ring]
  have hp : |psT (fun l => c * sysTens els .rf l (toV3 x)) [k, l, m]| ≤ 349920 * (c * W) ^ 2 / z0 ^ 5 := by
    have a1 := hsum _ _ _ _ r1 fun j => r4 j k l m
    have a2 := hsum _ _ _ _ (fun j => r2 j k) fun j => r3 j l m
    have a3 := hsum _ _ _ _ (fun j => r2 j l) fun j => r3 j k m
    have a4 := hsum _ _ _ _ (fun j => r2 j m) fun j => r3 j l k
    simp only [psT]
    rw [abs_mul, abs_two]
    have e1 : |c| * W / z0 * 8 * (|c| * W / z0 ^ 4 * 3240) = 25920 * ((c * W) ^ 2 / z0 ^ 5) := by
      rw [mul_pow, ← sq_abs c]
      field_simp
      ring
    have e2 : |c| * W / z0 ^ 2 * 36 * (|c| * W / z0 ^ 3 * 300) = 10800 * ((c * W) ^ 2 / z0 ^ 5) := by
      rw [mul_pow, ← sq_abs c]
      field_simp
      ring
    rw [e1] at a1
    rw [e2] at a2 a3 a4
    have e3 : 349920 * (c * W) ^ 2 / z0 ^ 5 = 349920 * ((c * W) ^ 2 / z0 ^ 5) := by ring
    rw [e3]
    refine (mul_le_mul_of_nonneg_left ((abs_add_le _ _).trans (add_le_add ((abs_add_le _ _).trans (add_le_add ((abs_add_le _ _).trans (add_le_add a1 a2)) a3)) a4))
      (by norm_num : (0 : ℝ) ≤ 2)).trans (le_of_eq ?_)
    ring
  exact (abs_add_le _ _).trans (add_le_add hd' hp)
end Ramp

/-- **C133.** How far a well reaches: if the curvatures at `x0` are at least `lam`, those within the distance `R` are at least `lam` minus `9 R` times the bound of the
third derivatives, which follows from the largest voltages and the smallest height. -/
theorem c133_well (els : List Elec) (h : ℝ) (ht : polygonTrap h 0 els) (hs : separate els) (c V W : ℝ) (hV : 0 ≤ V) (hW : 0 ≤ W) (hdc : ∀ e ∈ els, |e.dc| ≤ V)
    (hrf : ∀ e ∈ els, |e.rf| ≤ W) (x0 : Fin 3 → ℝ) (R : ℝ) (hR : 0 < R) (z0 : ℝ) (hz : 0 < z0) (hz0 : ∀ y ∈ rball x0 R, z0 ≤ y 2) (lam : ℝ)
    (hc : ∀ v : Fin 3 → ℝ, lam * ∑ a, v a ^ 2 ≤ ∑ a, ∑ b, v a * totalAt ⟨els, some c⟩ [a, b] (toV3 x0) * v b) :
    Stiff ⟨els, some c⟩ (lam - 9 * R * thirdBound c V W z0) (rball x0 R) := by
  intro y hy v
  set B := thirdBound c V W z0 with hB
  have hB0 : 0 ≤ B := thirdBound_nonneg c hV hz
  have hclear : ∀ y ∈ rball x0 R, offSystem els (toV3 y) := fun y hy =>
    Limit.trap_off ht (Limit.images_ne (p := toV3 y) (hz.trans_le (hz0 y hy)) (.inl rfl))
  have hent : ∀ a b, |totalAt ⟨els, some c⟩ [a, b] (toV3 y) - totalAt ⟨els, some c⟩ [a, b] (toV3 x0)| ≤ 3 * R * B := by
    intro a b
    set d := y - x0 with hd
    have hseg := fun (t : ℝ) (ht : t ∈ Icc (0 : ℝ) 1) => seg (rball_convex x0 R) (center_mem x0 hR) hy ht.1 ht.2
    have hder : ∀ t ∈ Icc (0:ℝ) 1, HasDerivAt (fun t : ℝ => totalAt ⟨els, some c⟩ [a, b] (toV3 (x0 + t • d)))
        (∑ k, d k * totalAt ⟨els, some c⟩ [a, b, k] (toV3 (x0 + t • d))) t := fun t ht => line x0 d t [a, b] (by simp) (hclear _ (hseg t ht))
    obtain ⟨t, ht', he⟩ := exists_hasDerivAt_eq_slope _ _ zero_lt_one (fun t ht => (hder t ht).continuousAt.continuousWithinAt)
      fun t ht => hder t (Ioo_subset_Icc_self ht)
    have e1 : x0 + (1:ℝ) • d = y := by simp [hd]
    have e0 : x0 + (0:ℝ) • d = x0 := by simp
    simp only [sub_zero, div_one, e1, e0] at he
    rw [← he]
    have hk : ∀ k, |d k * totalAt ⟨els, some c⟩ [a, b, k] (toV3 (x0 + t • d))| ≤ R * B := fun k => by
      rw [abs_mul]
      exact mul_le_mul ((Ring.abs_le_vlen d k).trans hy) (third_le ht hs c hV hW hdc hrf hz (hz0 _ (hseg t (Ioo_subset_Icc_self ht'))) a b k) (abs_nonneg _) hR.le
    refine (Finset.abs_sum_le_sum_abs _ _).trans ((Finset.sum_le_sum fun k _ => hk k).trans (le_of_eq ?_))
    simp
    ring
  have h4 : ∀ a b, v a * totalAt ⟨els, some c⟩ [a, b] (toV3 x0) * v b - |v a| * |v b| * (3 * R * B) ≤ v a * totalAt ⟨els, some c⟩ [a, b] (toV3 y) * v b := by
    intro a b
    have h7 : |v a * (totalAt ⟨els, some c⟩ [a, b] (toV3 y) - totalAt ⟨els, some c⟩ [a, b] (toV3 x0)) * v b| ≤ |v a| * |v b| * (3 * R * B) := by
      rw [abs_mul, abs_mul, mul_right_comm]
      exact mul_le_mul_of_nonneg_left (hent a b) (by positivity)
    have h8 := (abs_le.1 h7).1
    linarith
  have h9 := Finset.sum_le_sum fun a (_ : a ∈ Finset.univ) => Finset.sum_le_sum fun b (_ : b ∈ Finset.univ) => h4 a b
  refine le_trans ?_ h9
  simp only [Finset.sum_sub_distrib]
  have hRB : 0 ≤ R * B := mul_nonneg hR.le hB0
  have h10 : ∑ a, ∑ b, |v a| * |v b| * (3 * R * B) ≤ 9 * R * B * ∑ a, v a ^ 2 := by
    simp only [Fin.sum_univ_three, ← sq_abs (v 0), ← sq_abs (v 1), ← sq_abs (v 2)]
    nlinarith [mul_nonneg hRB (sq_nonneg (|v 0| - |v 1|)), mul_nonneg hRB (sq_nonneg (|v 0| - |v 2|)), mul_nonneg hRB (sq_nonneg (|v 1| - |v 2|))]
  have := hc v
  linarith

namespace Ramp
/-- a symmetric form with axes and curvatures of at least `lam` is at least `lam` everywhere -/
theorem form_ge (M : Fin 3 → Fin 3 → ℝ) (r : Matrix (Fin 3) (Fin 3) ℝ) (hr : r * r.transpose = 1) (curv : Fin 3 → ℝ) (hM : ∀ a i, ∑ k, M i k * r k a = curv a * r i a)
    (lam : ℝ) (hl : ∀ a, lam ≤ curv a) (v : Fin 3 → ℝ) : lam * ∑ a, v a ^ 2 ≤ ∑ a, ∑ b, v a * M a b * v b := by
  set w : Fin 3 → ℝ := fun a => ∑ i, r i a * v i with hw
  have hv : ∀ i, v i = ∑ a, r i a * w a := fun i => by
    have h1 : ∀ j, ∑ a, r i a * r j a = if i = j then 1 else 0 := fun j => by
      have := congrFun (congrFun hr i) j
      rw [Matrix.mul_apply, Matrix.one_apply] at this
      exact this
    have h2 : ∑ a, r i a * w a = ∑ j, (∑ a, r i a * r j a) * v j := by
      simp only [hw, Finset.mul_sum, Finset.sum_mul]
      rw [Finset.sum_comm]
      exact Finset.sum_congr rfl fun j _ => Finset.sum_congr rfl fun a _ => by ring
    rw [h2]
    simp [h1]
  have hquad : ∀ (N : Fin 3 → Fin 3 → ℝ) (c : Fin 3 → ℝ), (∀ a i, ∑ k, N i k * r k a = c a * r i a) → ∑ a, ∑ b, v a * N a b * v b = ∑ a, c a * w a ^ 2 := by
    intro N c hN
    have h3 : ∀ i, ∑ k, N i k * v k = ∑ a, c a * r i a * w a := fun i => by
      have h4 : ∑ k, N i k * v k = ∑ a, (∑ k, N i k * r k a) * w a := by
        simp only [Finset.sum_mul]
        rw [Finset.sum_comm]
        refine Finset.sum_congr rfl fun k _ => ?_
        conv_lhs => rw [hv k, Finset.mul_sum]
        exact Finset.sum_congr rfl fun a _ => by ring
      rw [h4]
      exact Finset.sum_congr rfl fun a _ => by rw [hN]
    have h5 : ∑ a, ∑ b, v a * N a b * v b = ∑ a, v a * ∑ b, N a b * v b :=
      Finset.sum_congr rfl fun a _ => by rw [Finset.mul_sum]; exact Finset.sum_congr rfl fun b _ => by ring
    rw [h5]
    simp only [h3, Finset.mul_sum]
    rw [Finset.sum_comm]
    refine Finset.sum_congr rfl fun a _ => ?_
    rw [sq]
    have h6 : c a * (w a * w a) = ∑ i : Fin 3, r i a * v i * (c a * w a) := by
      rw [← Finset.sum_mul]
      change _ = w a * _
      ring
    rw [h6]
    exact Finset.sum_congr rfl fun i _ => by ring
  have h1 := hquad (fun i k => if i = k then 1 else 0) (fun _ => 1) fun a i => by simp
  have h2 : ∑ a, v a ^ 2 = ∑ a, w a ^ 2 := by
    have : ∑ a, ∑ b, v a * (if a = b then (1 : ℝ) else 0) * v b = ∑ a, v a ^ 2 := Finset.sum_congr rfl fun a _ => by simp [sq]
    rw [← this, h1]
    simp
  rw [h2, hquad M curv hM, Finset.mul_sum]
  exact Finset.sum_le_sum fun a _ => mul_le_mul_of_nonneg_right (hl a) (sq_nonneg _)

theorem mem_withDc {s : List Elec} {u : Fin s.length → ℝ} {e : Elec} (he : e ∈ withDc s (List.ofFn u)) : (∃ j, e.dc = u j) ∧ ∃ f ∈ s, e.rf = f.rf := by
  obtain ⟨i, hi, rfl⟩ := List.getElem_of_mem he
  have hi' : i < s.length := by simpa [withDc] using hi
  refine ⟨⟨⟨i, hi'⟩, by simp [withDc]⟩, s[i], List.getElem_mem _, by simp [withDc]⟩
end Ramp

/-- **C148.** Transport from what is asked for: at each of `n + 1` points, no force, curvatures of at least `lam` along the axes of a frame and voltages of at most `V`, and
a `VoltageDerivativeConstraint` of `order=1` and `max=δ`. If rf voltages are at most `W`, the points are at most `a` apart, and within the distance
`R` of them, above the height `z0`, the curvatures cannot fall below `lam / 2` (the condition on `R`), then the voltages from `solve`, gone through in straight
lines in any time, carry an ion along: with the energy of the last condition it has a motion for the whole journey, and none that gets further than `R` from the
point of the row. -/
theorem c148_carries (s : List Elec) (solver : (Volts s.length → ℝ) → List (Volts s.length → Prop) → Nat → Option (Volts s.length)) (hs : Minimises solver)
    (wants : List (List Want)) (loc : List (List Ctr)) (h : Demands wants loc) (hf : ∀ ws ∈ wants, ∀ w ∈ ws, w.fits s)
    (glob : List VDC) (hg : ∀ c ∈ glob, VDC.plain c) (u : Volts s.length) (cost : ℝ) (hsol : solveSets s solver loc glob = .ok (u, cost))
    (δ : ℝ) (h0 : 0 ≤ δ) (b : VDC) (hb : b ∈ glob) (hb1 : b.order = 1 ∧ b.delta = 1 ∧ b.abs = true ∧ b.max = some δ)
    (H : ℝ) (htr : polygonTrap H 0 s) (hsep : separate s) (c κ : ℝ) (hκ : 0 < κ) (T : ℝ) (hT : 0 < T) (n : Nat) (hn : n + 1 = wants.length)
    (m : Nat → Fin 3 → ℝ) (r : Nat → Matrix (Fin 3) (Fin 3) ℝ) (curv : Nat → Fin 3 → ℝ) (R lam a V W z0 : ℝ) (hl : 0 < lam) (ha : 0 ≤ a) (haR : a < R)
    (hV : 0 ≤ V) (hW : 0 ≤ W) (hrf : ∀ e ∈ s, |e.rf| ≤ W) (hz : 0 < z0)
    (hrow : ∀ k ≤ n, r k * (r k).transpose = 1 ∧ (∀ a, lam ≤ curv k a) ∧ (∑ a, curv k a = ∑ i, pseudoAt ⟨s, some c⟩ [i, i] (toV3 (m k))) ∧
      (∀ y ∈ rball (m k) R, z0 ≤ y 2) ∧ ∃ ws, wants[k]? = some ws ∧ (∀ w ∈ trapWants s c (m k) (r k) (curv k), w ∈ ws) ∧ .volts (some (-V)) (some V) none ∈ ws)
    (hnear : ∀ k < n, vlen (m (k + 1) - m k) ≤ a) (hRB : 18 * R * thirdBound c V W z0 ≤ lam) (x1 v1 : Fin 3 → ℝ) (h1 : vlen (x1 - m 0) < R)
    (hE : energyAt (drivenBy s c (u.getD 0 0)) κ x1 v1 - κ * valueAt (drivenBy s c (u.getD 0 0)) (m 0) + n * (2 * κ * δ) < κ * (lam / 2) * (R - a) ^ 2 / 2) :
    (∃ x v, Journey s c κ T n (fun k => u.getD k 0) x v ∧ x 0 0 = x1 ∧ v 0 0 = v1) ∧
    ∀ x v, Journey s c κ T n (fun k => u.getD k 0) x v → x 0 0 = x1 → v 0 0 = v1 →
      (∀ k < n, ∀ t ∈ Icc 0 T, vlen (x k t - m k) < R) ∧ vlen (x n 0 - m n) < R ∧
      |energyAt (drivenBy s c (u.getD n 0)) κ (x n 0) (v n 0) - energyAt (drivenBy s c (u.getD 0 0)) κ x1 v1| ≤ n * (κ * δ) := by
  have hR : 0 < R := ha.trans_lt haR
  obtain ⟨-, m2, -⟩ := c146_met s solver hs wants loc h hf glob hg u cost hsol
  have hoff : ∀ k ≤ n, offSystem s (toV3 (m k)) := fun k hk =>
    Limit.trap_off htr (Limit.images_ne (p := toV3 (m k)) (hz.trans_le ((hrow k hk).2.2.2.1 _ (center_mem _ hR))) (.inl rfl))
  refine c147_carried s solver hs wants loc h hf glob hg u cost hsol δ h0 b hb hb1 H htr hsep c κ hκ T hT n hn m R (lam / 2) a (by linarith) ha haR
    ⟨fun k hk => ?_, fun k hk y hy => hz.trans_le ((hrow k hk).2.2.2.1 y hy), fun k hk => ?_, hnear⟩ x1 v1 h1 hE
  · obtain ⟨-, -, -, -, ws, w1, w2, -⟩ := hrow k hk
    exact c146_equilibrium s solver hs wants loc h hf glob hg u cost hsol c k ws w1 (m k) (hoff k hk) fun a => w2 _ (by
      refine List.mem_append_right _ (List.mem_map.2 ⟨a, ?_, rfl⟩)
      fin_cases a <;> simp)
  · obtain ⟨r1, r2, r3, r4, ws, w1, w2, w3⟩ := hrow k hk
    have hax := c148_axes s solver hs wants loc h hf glob hg u cost hsol c k ws w1 (toV3 (m k)) (hoff k hk) (r k) r1 (curv k) r3
      fun w hw => w2 w (List.mem_append_left _ hw)
    have hform := form_ge (fun i j => totalAt ⟨withDc s (rowOf u k), some c⟩ [i, j] (toV3 (m k))) (r k) r1 (curv k) hax lam r2
    have hlen : (rowOf u k).length = s.length := by simp [rowOf]
    have hst := c133_well (withDc s (rowOf u k)) H (trap_withDc hlen htr) (separate_withDc hlen hsep) c V W hV hW (fun e he => by
        obtain ⟨⟨j, hj⟩, -⟩ := mem_withDc he
        have h2 := m2 k ws w1 _ w3 j.val j.isLt trivial
        rw [row_getD u k j.val j.isLt] at h2
        rw [hj]
        exact abs_le.2 ⟨h2.1 _ rfl, h2.2 _ rfl⟩) (fun e he => by
        obtain ⟨-, f, hf1, hf2⟩ := mem_withDc he
        rw [hf2]
        exact hrf f hf1) (m k) R hR z0 hz r4 lam hform
    intro y hy v
    refine le_trans (mul_le_mul_of_nonneg_right ?_ (Finset.sum_nonneg fun _ _ => sq_nonneg _)) (hst y hy v)
    linarith

/-- The hypotheses are met for the ring trap, with two rows and the same point and curvatures in both. -/
example (T : ℝ) (hT : 0 < T) : ∃ solver, Minimises solver ∧ ∃ (δ R : ℝ) (loc : List (List Ctr)) (u : Volts Ring.trap.length) (cost : ℝ)
    (x v : Nat → ℝ → Fin 3 → ℝ), 0 < δ ∧ v 0 0 ≠ 0 ∧ solveSets Ring.trap solver loc [⟨1, 1, some δ, none, false, 1, .inf, true⟩] = .ok (u, cost) ∧
    Journey Ring.trap 1 1 T 1 (fun k => u.getD k 0) x v ∧ vlen (x 1 0 - ![0, 0, 7]) < R := by
  obtain ⟨solver, hs, hfind⟩ := exists_findsOptimum Ring.trap.length
  obtain ⟨eigh, argsort, ew, ev, he, ha, hm, hpos⟩ := Ring.trap_modes 1 one_ne_zero
  have e7 : toV3 ![0, 0, 7] = ⟨0, 0, 7⟩ := by simp [toV3]
  have hx : offSystem Ring.trap (toV3 ![0, 0, 7]) := by rw [e7]; exact Ring.trap_off7
  have e0 : withDc Ring.trap [0, 0] = Ring.trap := rfl
  have hsl : slopeAt ⟨Ring.trap, some 1⟩ ![0, 0, 7] = 0 := Ring.trap_slope 1
  -- what is asked for
  set r : Matrix (Fin 3) (Fin 3) ℝ := Matrix.of fun i a => ev.getD a 0 i with hr0
  set curv : Fin 3 → ℝ := fun a => ew.getD a 0 with hcurv
  have hE := ModeShift.eigs he ha hm
  have hr' : r.transpose * r = 1 := by
    ext a b
    rw [Matrix.mul_apply, Matrix.one_apply]
    exact hE.ortho a b
  have hr := mul_eq_one_comm.1 hr'
  have hfr := WaveModes.vec_frame (fun ks => totalAt ⟨Ring.trap, some 1⟩ ks ⟨0, 0, 7⟩) _ hr' curv fun a i => hE.vec a i
  have hsum : ∑ a : Fin 3, curv a = ∑ i, pseudoAt ⟨Ring.trap, some 1⟩ [i, i] (toV3 ![0, 0, 7]) := by
    rw [← WaveModes.trace_with Ring.trap [0, 0] rfl 1 (toV3 ![0, 0, 7]) hx, e0, e7, ← WaveModes.frame_sum (fun ks => totalAt ⟨Ring.trap, some 1⟩ ks ⟨0, 0, 7⟩) _ hr]
    exact Finset.sum_congr rfl fun a _ => by rw [hfr]; simp
  obtain ⟨hl3, -⟩ := c43_modes eigh he argsort ha _ _ ew ev hm
  have hcp : 0 < curv 0 := hpos _ (by
    rw [hcurv]
    beta_reduce
    rw [List.getD_eq_getElem _ _ (by rw [hl3]; norm_num)]
    exact List.getElem_mem _)
  set lam := curv 0 with hlam
  have hmono : ∀ a, lam ≤ curv a := fun a => hE.mono (Fin.zero_le a)
  set B := thirdBound 1 1 748 6 with hB
  have hB0 : 0 < B := by rw [hB, thirdBound]; norm_num
  set R := min 1 (lam / (18 * B)) with hRd
  have hR : 0 < R := lt_min one_pos (by positivity)
  have hRB : 18 * R * B ≤ lam := by
    have h1 : R ≤ lam / (18 * B) := min_le_right _ _
    rw [le_div_iff₀ (by positivity)] at h1
    linarith
  set δ := lam * R ^ 2 / 64 with hδ
  have h5 : 0 < lam * R ^ 2 := by positivity
  have hδ0 : 0 < δ := by positivity
  let row : List Want := trapWants Ring.trap 1 ![0, 0, 7] r curv ++ [.volts (some (-1)) (some 1) none]
  let wants : List (List Want) := [row, row]
  have hfr' : ∀ w ∈ row, w.fits Ring.trap := by
    intro w hw
    simp only [row, trapWants, List.mem_append, List.mem_singleton] at hw
    rcases hw with (hw | hw) | rfl
    · unfold curvatureWants at hw
      obtain ⟨q, -, rfl⟩ := List.mem_map.1 hw
      exact ⟨hr, by simp, Knob.off_avail hx _⟩
    · obtain ⟨a, -, rfl⟩ := List.mem_map.1 hw
      exact ⟨by simp, Knob.off_avail hx _⟩
    · intro j hj; cases hj
  have hfits : ∀ ws ∈ wants, ∀ w ∈ ws, w.fits Ring.trap := by
    intro ws h1
    simp only [wants, List.mem_cons, List.not_mem_nil, or_false, or_self] at h1
    subst h1
    exact hfr'
  obtain ⟨loc, hloc⟩ := WaveModes.demands_exist Ring.trap wants hfits
  have hmet : ∀ w ∈ row, w.met Ring.trap [0, 0] := by
    intro w hw
    simp only [row, trapWants, List.mem_append, List.mem_singleton] at hw
    rcases hw with (hw | hw) | rfl
    · refine (WaveModes.wants_met Ring.trap [0, 0] rfl 1 (toV3 ![0, 0, 7]) hx r hr curv hsum).2 ?_ w hw
      rw [e0, e7]
      exact hfr
    · obtain ⟨a, -, rfl⟩ := List.mem_map.1 hw
      have h1 : totalAt ⟨withDc Ring.trap [0, 0], some 1⟩ [a] (toV3 ![0, 0, 7]) = 0 := congrFun hsl a
      rw [WaveModes.total_with Ring.trap _ rfl 1 _ hx [a] (by simp)] at h1
      refine ⟨fun m hm => ?_, by simp, by simp⟩
      rw [← Option.some.inj hm]
      exact eq_neg_of_add_eq_zero_left h1
    · intro j hj _
      have hj' : j = 0 ∨ j = 1 := by have : j < 2 := hj; omega
      rcases hj' with rfl | rfl <;> simp
  let u0 : Volts Ring.trap.length := [fun _ => 0, fun _ => 0]
  have hall : AllMet Ring.trap wants u0 := by
    intro k ws hk w hw
    match k, hk with
    | 0, hk =>
      simp only [wants, List.getElem?_cons_zero, Option.some.injEq] at hk
      subst hk
      exact hmet w hw
    | 1, hk =>
      simp only [wants, List.getElem?_cons_zero, List.getElem?_cons_succ, Option.some.injEq] at hk
      subst hk
      exact hmet w hw
  have hkept : ∀ c ∈ [(⟨1, 1, some δ, none, false, 1, .inf, true⟩ : VDC)], VDC.kept c u0 := by
    intro c hc
    rw [List.mem_singleton] at hc
    subst hc
    intro v hv m hm
    simp only [Option.some.injEq] at hm
    subst hm
    have : v = fun _ => 0 := by
      have h1 : v ∈ voltDeriv 1 false 1 u0 := hv
      simp only [voltDeriv, diffLoop, diffStep, u0] at h1
      simp at h1
      rw [h1]
      funext j
      simp
    subst this
    have : Nonempty (Fin Ring.trap.length) := ⟨⟨0, by simp [Ring.trap]⟩⟩
    simp [sliceNorm, hδ0.le]
  obtain ⟨u, cost, hu⟩ := c146_succeeds Ring.trap solver hfind wants loc hloc hfits _ (ring_plain δ) (by
    intro ws hws
    simp only [wants, List.mem_cons, List.not_mem_nil, or_false, or_self] at hws
    exact ⟨-1, 1, by rw [hws]; simp [row]⟩) u0 rfl hall hkept
  have hpos' : 0 < √lam * (R / 2) / 2 := by positivity
  obtain ⟨⟨x, v, k1, k2, k3⟩, k4⟩ := c148_carries Ring.trap solver hs wants loc hloc hfits _ (ring_plain δ) u cost hu δ hδ0.le _ (List.mem_singleton.2 rfl)
    ⟨rfl, rfl, rfl, rfl⟩ 50 Ring.trap_is Ring.trap_separate 1 1 one_pos T hT 1 rfl (fun _ => ![0, 0, 7]) (fun _ => r) (fun _ => curv) R lam 0 1 748 6 hcp le_rfl hR
    zero_le_one (by norm_num) (by intro e he; simp only [Ring.trap, List.mem_cons, List.not_mem_nil, or_false] at he; rcases he with rfl | rfl <;> norm_num)
    (by norm_num) (fun k hk => ⟨hr, hmono, hsum, fun y hy => by
      have h1 := ((Ring.abs_le_vlen (y - ![0, 0, 7]) 2).trans hy).trans (min_le_left _ _)
      have e2 : ∀ a b c : ℝ, ![a, b, c] 2 = c := fun _ _ _ => rfl
      rw [Pi.sub_apply, e2] at h1
      linarith [(abs_le.1 h1).1], row, by
        have hk' : k = 0 ∨ k = 1 := by omega
        rcases hk' with rfl | rfl <;> rfl, fun w hw => List.mem_append_left _ hw, by simp [row]⟩)
    (fun k _ => by rw [sub_self, (Rob.vlen_zero_iff 0).2 rfl]) hRB ![0, 0, 7] ![√lam * (R / 2) / 2, 0, 0] (by rw [sub_self, (Rob.vlen_zero_iff 0).2 rfl]; exact hR)
    (by
      rw [energyAt, ring_speed hcp, Nat.cast_one, sub_zero]
      linarith)
  exact ⟨solver, hs, δ, R, loc, u, cost, x, v, hδ0, fun h => hpos'.ne' (by rw [k3] at h; simpa using congrFun h 0), hu, k1, (k4 x v k1 k2 k3).2.1⟩

end Electrode
