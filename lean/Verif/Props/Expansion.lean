import Verif.Spec.Expansion
import Verif.Props.Limits
import Mathlib.Analysis.Calculus.MeanValue

/-
C135: derivatives predict the potential nearby.
-/
namespace Electrode
open Spec Set Limit
open scoped Nat

namespace Expan

/-- derivatives along a line, from those along the axes -/
noncomputable def along (T : Idx → ℝ) (d : Fin 3 → ℝ) : Nat → Idx → ℝ
  | 0, l => T l
  | k + 1, l => ∑ a, d a * along T d k (l ++ [a])

theorem along_eq (T : Idx → ℝ) (d : Fin 3 → ℝ) (k : Nat) (l : Idx) : along T d k l = ∑ i : Fin k → Fin 3, T (l ++ List.ofFn i) * ∏ m, d (i m) := by
  induction k generalizing l with
  | zero => simp [along]
  | succ k ih =>
    rw [along, ← (Fin.consEquiv fun _ : Fin (k + 1) => Fin 3).sum_comp, Fintype.sum_prod_type]
    refine Finset.sum_congr rfl fun a _ => ?_
    rw [ih, Finset.mul_sum]
    refine Finset.sum_congr rfl fun i _ => ?_
    have e : ((Fin.consEquiv fun _ : Fin (k + 1) => Fin 3) (a, i)) = Fin.cons a i := rfl
    rw [e, Fin.prod_univ_succ, List.ofFn_succ]
    simp only [Fin.cons_zero, Fin.cons_succ, List.append_assoc, List.cons_append, List.nil_append]
    ring

theorem expansion_eq (T : Idx → ℝ) (l : Idx) (n : Nat) (d : Fin 3 → ℝ) : expansion T l n d = ∑ k ∈ Finset.range (n + 1), along T d k l / k ! := by
  simp only [expansion, along_eq]

theorem along_bound {T : Idx → ℝ} {M : ℝ} (d : Fin 3 → ℝ) (k : Nat) (l : Idx) (h : ∀ i : Idx, i.length = l.length + k → |T i| ≤ M) :
    |along T d k l| ≤ M * (∑ a, |d a|) ^ k := by
  induction k generalizing l with
  | zero => simpa [along] using h l rfl
  | succ k ih =>
    rw [along, pow_succ, ← mul_assoc, Finset.mul_sum]
    refine (Finset.abs_sum_le_sum_abs _ _).trans (Finset.sum_le_sum fun a _ => ?_)
    rw [abs_mul, mul_comm]
    refine mul_le_mul_of_nonneg_right (ih _ fun i hi => h i ?_) (abs_nonneg _)
    rw [hi, List.length_append, List.length_singleton]
    omega

/-- Taylor's theorem for a chain of derivatives -/
theorem chain (n : Nat) (F : Nat → ℝ → ℝ) (hF : ∀ k ≤ n, ∀ t ∈ Icc (0 : ℝ) 1, HasDerivAt (F k) (F (k + 1) t) t) {M : ℝ}
    (hM : ∀ t ∈ Icc (0 : ℝ) 1, |F (n + 1) t| ≤ M) (t : ℝ) (ht : t ∈ Icc (0 : ℝ) 1) :
    |F 0 t - ∑ k ∈ Finset.range (n + 1), F k 0 * t ^ k / k !| ≤ M * t ^ (n + 1) / (n + 1)! := by
  have step : ∀ n : Nat, ∀ B B' : ℝ → ℝ, (∀ t, HasDerivAt B (B' t) t) → B 0 = 0 → ∀ G : ℝ → ℝ, ∀ G' : ℝ → ℝ, (∀ t ∈ Icc (0 : ℝ) 1, HasDerivAt G (G' t) t) →
      G 0 = 0 → (∀ t ∈ Icc (0 : ℝ) 1, |G' t| ≤ B' t) → ∀ t ∈ Icc (0 : ℝ) 1, |G t| ≤ B t := by
    intro n B B' hB hB0 G G' hG hG0 hle t ht
    have := image_norm_le_of_norm_deriv_right_le_deriv_boundary (f := G) (f' := G') (a := 0) (b := 1) (B := B) (B' := B')
      (fun s hs => (hG s hs).continuousAt.continuousWithinAt) (fun s hs => (hG s ⟨hs.1, hs.2.le⟩).hasDerivWithinAt) (by simp [hG0, hB0]) hB
      (fun s hs => hle s ⟨hs.1, hs.2.le⟩)
    exact this ht
  induction n generalizing F t with
  | zero =>
    have := step 0 (fun t => M * t ^ 1 / (1 : ℕ)!) (fun _ => M) (fun t => by simpa using (hasDerivAt_id t).const_mul M) (by simp) (fun t => F 0 t - F 0 0) (F 1)
      (fun t ht => (hF 0 le_rfl t ht).sub_const _) (by simp) hM t ht
    simpa using this
  | succ n ih =>
    refine step 0 (fun t => M * t ^ (n + 1 + 1) / (n + 1 + 1)!) (fun t => M * t ^ (n + 1) / (n + 1)!) (fun t => ?_) (by simp)
      (fun t => F 0 t - ∑ k ∈ Finset.range (n + 1 + 1), F k 0 * t ^ k / k !) (fun t => F 1 t - ∑ k ∈ Finset.range (n + 1), F (k + 1) 0 * t ^ k / k !)
      (fun t ht => ?_) ?_ (fun t ht => ?_) t ht
    · refine (((hasDerivAt_pow (n + 1 + 1) t).const_mul M).div_const _).congr_deriv ?_
      rw [Nat.factorial_succ (n + 1)]
      have : (0 : ℝ) < ((n + 1)! : ℕ) := by positivity
      push_cast
      field_simp
    · refine (hF 0 (by omega) t ht).sub ?_
      have hs : HasDerivAt (fun t => ∑ k ∈ Finset.range (n + 1 + 1), F k 0 * t ^ k / (k ! : ℝ)) (∑ k ∈ Finset.range (n + 1 + 1), F k 0 * (k * t ^ (k - 1)) / (k ! : ℝ)) t :=
        HasDerivAt.fun_sum fun k _ => ((hasDerivAt_pow k t).const_mul _).div_const _
      refine hs.congr_deriv ?_
      rw [Finset.sum_range_succ']
      simp only [Nat.cast_zero, zero_mul, mul_zero, zero_div, add_zero]
      refine Finset.sum_congr rfl fun k _ => ?_
      rw [Nat.factorial_succ]
      have : (0 : ℝ) < (k ! : ℕ) := by positivity
      push_cast
      field_simp
    · rw [Finset.sum_range_succ']
      simp
    · exact ih (fun k => F (k + 1)) (fun k hk t ht => hF (k + 1) (by omega) t ht) hM t ht

/-- the same for quantities whose derivatives along lines are known -/
theorem along_taylor {T : Idx → (Fin 3 → ℝ) → ℝ} (x d : Fin 3 → ℝ) (l : Idx) (n N : Nat) (hN : l.length + n + 1 ≤ N)
    (hT : ∀ t ∈ Icc (0 : ℝ) 1, ∀ i : Idx, i.length < N → HasDerivAt (fun t : ℝ => T i (x + t • d)) (∑ a, d a * T (i ++ [a]) (x + t • d)) t) {M : ℝ}
    (hM : ∀ t ∈ Icc (0 : ℝ) 1, ∀ i : Idx, i.length = l.length + n + 1 → |T i (x + t • d)| ≤ M) :
    |T l (x + d) - expansion (fun i => T i x) l n d| ≤ M * (∑ a, |d a|) ^ (n + 1) / (n + 1)! := by
  have hd : ∀ k : Nat, ∀ l : Idx, l.length + k < N → ∀ t ∈ Icc (0 : ℝ) 1,
      HasDerivAt (fun t : ℝ => along (fun i => T i (x + t • d)) d k l) (along (fun i => T i (x + t • d)) d (k + 1) l) t := by
    intro k
    induction k with
    | zero => exact fun l hl t ht => hT t ht l (by omega)
    | succ k ih =>
      intro l hl t ht
      show HasDerivAt (fun t => ∑ a, d a * along (fun i => T i (x + t • d)) d k (l ++ [a])) (∑ a, d a * along (fun i => T i (x + t • d)) d (k + 1) (l ++ [a])) t
      exact HasDerivAt.fun_sum fun a _ => (ih (l ++ [a]) (by simp; omega) t ht).const_mul _
  have h := chain n (fun k t => along (fun i => T i (x + t • d)) d k l) (fun k hk t ht => hd k l (by omega) t ht)
    (fun t ht => along_bound d (n + 1) l fun i hi => hM t ht i (by omega)) 1 (by simp)
  simp only [one_smul, one_pow, mul_one, zero_smul, add_zero] at h
  rw [expansion_eq]
  exact h

/-- derivative of an entry of the electrical potential along a line -/
theorem eline (els : List Elec) (typ : VTyp) (x d : Fin 3 → ℝ) (t : ℝ) (l : Idx) (hl : l.length ≤ 4) (h : offSystem els (toV3 (x + t • d))) :
    HasDerivAt (fun t : ℝ => electricalAt els typ l (toV3 (x + t • d))) (∑ a, d a * electricalAt els typ (l ++ [a]) (toV3 (x + t • d))) t := by
  have hs : HasDerivAt (fun t : ℝ => sysTens els typ l (toV (x + t • d))) (∑ a, d a * sysTens els typ (l ++ [a]) (toV (x + t • d))) t :=
    line_deriv (sysTens_smooth els typ l (by omega)) (fun a => sysTens els typ (l ++ [a]) (toV (x + t • d))) (x + t • d) h
      (fun a => sys_step els typ l a (by omega) _ h) d (fun t => x + t • d) t (by
        have h := ((hasDerivAt_id t).smul_const d).const_add x
        rwa [one_smul] at h) rfl
  have e : ∀ l : Idx, l.length ≤ 5 → ∀ p, offSystem els p → electricalAt els typ l p = sysTens els typ l p := fun l hl p hp =>
    electricalAt_eq els typ l (by omega) p (avail_of_off hp _ _)
  have hopen : ∀ᶠ s in nhds t, offSystem els (toV3 (x + s • d)) := by
    have hc : Continuous fun s : ℝ => x + s • d := by fun_prop
    exact hc.continuousAt.eventually ((offSystem_open els).mem_nhds h)
  refine (hs.congr_of_eventuallyEq (hopen.mono fun s hs => e l (by omega) _ hs)).congr_deriv ?_
  exact Finset.sum_congr rfl fun a _ => by rw [e (l ++ [a]) (by simp; omega) _ h]; rfl

theorem sum_abs_le (d : Fin 3 → ℝ) : ∑ a, |d a| ≤ √3 * vlen d := by
  rw [vlen, ← Real.sqrt_mul (by norm_num)]
  refine Real.le_sqrt_of_sq_le ?_
  rw [Fin.sum_univ_three, Fin.sum_univ_three, ← sq_abs (d 0), ← sq_abs (d 1), ← sq_abs (d 2)]
  nlinarith [sq_nonneg (|d 0| - |d 1|), sq_nonneg (|d 0| - |d 2|), sq_nonneg (|d 1| - |d 2|)]

end Expan

open Expan

/-- **C135.** The derivatives that `electrical_potential` returns at a position predict the potential and its derivatives nearby: the error of the expansion
up to the order `n` is at most that of its next term, with derivatives from somewhere between. -/
theorem c135_electrical (els : List Elec) (typ : VTyp) (l : Idx) (n : Nat) (hn : l.length + n + 1 ≤ 5) (x d : Fin 3 → ℝ)
    (hx : ∀ t ∈ Icc (0 : ℝ) 1, offSystem els (toV3 (x + t • d))) (M : ℝ)
    (hM : ∀ t ∈ Icc (0 : ℝ) 1, ∀ i : Idx, i.length = l.length + n + 1 → |electricalAt els typ i (toV3 (x + t • d))| ≤ M) :
    |electricalAt els typ l (toV3 (x + d)) - expansion (fun i => electricalAt els typ i (toV3 x)) l n d| ≤ M * (∑ a, |d a|) ^ (n + 1) / (n + 1)! :=
  along_taylor (T := fun i w => electricalAt els typ i (toV3 w)) x d l n 5 hn (fun t ht i hi => eline els typ x d t i (by omega) (hx t ht)) hM

/-- **C135.** The same for the combined potential. -/
theorem c135_total (els : List Elec) (c : ℝ) (l : Idx) (n : Nat) (hn : l.length + n + 1 ≤ 4) (x d : Fin 3 → ℝ)
    (hx : ∀ t ∈ Icc (0 : ℝ) 1, offSystem els (toV3 (x + t • d))) (M : ℝ)
    (hM : ∀ t ∈ Icc (0 : ℝ) 1, ∀ i : Idx, i.length = l.length + n + 1 → |totalAt ⟨els, some c⟩ i (toV3 (x + t • d))| ≤ M) :
    |totalAt ⟨els, some c⟩ l (toV3 (x + d)) - expansion (fun i => totalAt ⟨els, some c⟩ i (toV3 x)) l n d| ≤ M * (∑ a, |d a|) ^ (n + 1) / (n + 1)! :=
  along_taylor (T := fun i w => totalAt ⟨els, some c⟩ i (toV3 w)) x d l n 4 hn (fun t ht i hi => Rob.line x d t i (by omega) (hx t ht)) hM

/-- **C135.** For polygon electrodes that do not overlap, with voltages up to `V` and positions at least `z0` above the plane, the errors are known beforehand. -/
theorem c135_polygons (els : List Elec) (h : ℝ) (ht : polygonTrap h 0 els) (hs : separate els) (typ : VTyp) (V : ℝ) (h0 : 0 ≤ V)
    (hv : ∀ e ∈ els, |(e.volt typ).getD 0| ≤ V) (l : Idx) (n : Nat) (hn : l.length + n + 1 ≤ 5) (x d : Fin 3 → ℝ) (z0 : ℝ) (hz : 0 < z0) (hx : z0 ≤ x 2)
    (hxd : z0 ≤ x 2 + d 2) :
    |electricalAt els typ l (toV3 (x + d)) - expansion (fun i => electricalAt els typ i (toV3 x)) l n d|
      ≤ 2 * [1, 4, 18, 150, 1620, 17100].getD (l.length + n + 1) 0 * V / z0 ^ (l.length + n + 1) * (√3 * vlen d) ^ (n + 1) / (n + 1)! := by
  have hz' : ∀ t ∈ Icc (0 : ℝ) 1, z0 ≤ (toV3 (x + t • d)).z := fun t ht => by
    show z0 ≤ x 2 + t * d 2
    nlinarith [ht.1, ht.2]
  have hc : 0 ≤ ([1, 4, 18, 150, 1620, 17100] : List ℝ).getD (l.length + n + 1) 0 := by
    generalize l.length + n + 1 = k at hn
    interval_cases k <;> norm_num
  refine (c135_electrical els typ l n hn x d (fun t ht' => trap_off ht (images_ne (hz.trans_le (hz' t ht')) (.inl rfl)))
    (2 * [1, 4, 18, 150, 1620, 17100].getD (l.length + n + 1) 0 * V / z0 ^ (l.length + n + 1)) fun t ht' i hi => ?_).trans ?_
  · have hp := hz' t ht'
    refine (c133_derivatives els h 0 ht typ V (map_bound els typ h0 hv hs) i (by omega) (by omega) _ (images_ne (hz.trans_le hp) (.inl rfl))).trans ?_
    rw [hi]
    simp only [Nat.cast_zero, neg_zero, Finset.Icc_self, Finset.sum_singleton, Int.cast_zero, mul_zero, zero_mul, add_zero]
    rw [abs_of_pos (hz.trans_le hp)]
    gcongr
  · gcongr
    exact sum_abs_le d

namespace Expan

theorem sum_abs_nonneg (d : Fin 3 → ℝ) : 0 ≤ ∑ a, |d a| := Finset.sum_nonneg fun _ _ => abs_nonneg _

/-- around positions off the electrodes the derivatives are bounded -/
theorem bounded (els : List Elec) (c : ℝ) (N : Nat) (hN : N ≤ 4) (x : Fin 3 → ℝ) (hx : offSystem els (toV3 x)) :
    ∃ R M, 0 < R ∧ 0 ≤ M ∧ clearOf ⟨els, some c⟩ (rball x R) ∧ ∀ y ∈ rball x R, ∀ i : Idx, i.length = N → |totalAt ⟨els, some c⟩ i (toV3 y)| ≤ M := by
  have hopen : IsOpen {w : Fin 3 → ℝ | offSystem els (toV3 w)} := offSystem_open els
  obtain ⟨δ, hδ, hball⟩ := Metric.isOpen_iff.1 hopen x hx
  have hsub : clearOf ⟨els, some c⟩ (rball x (δ / 2)) := fun y hy => by
    apply hball
    have h0 : (0 : ℝ) ≤ δ / 2 := by positivity
    rw [Metric.mem_ball, dist_eq_norm]
    refine lt_of_le_of_lt ?_ (half_lt_self hδ)
    rw [pi_norm_le_iff_of_nonneg h0]
    intro a
    refine le_trans ?_ hy
    rw [Real.norm_eq_abs]
    exact Real.abs_le_sqrt (Finset.single_le_sum (f := fun a => (y - x) a ^ 2) (fun _ _ => sq_nonneg _) (Finset.mem_univ a))
  have hb : ∀ i : Fin N → Fin 3, ∃ M, ∀ y ∈ rball x (δ / 2), |totalAt ⟨els, some c⟩ (List.ofFn i) (toV3 y)| ≤ M := fun i => by
    have hcont : ContinuousOn (fun y => totalAt ⟨els, some c⟩ (List.ofFn i) (toV3 y)) (rball x (δ / 2)) := fun y hy =>
      ((total_smooth els c (List.ofFn i) (by simpa using hN)) y (hsub y hy)).continuousAt.continuousWithinAt
    obtain ⟨M, hM⟩ := (Rob.rball_compact x (δ / 2)).exists_bound_of_continuousOn hcont
    exact ⟨M, fun y hy => hM y hy⟩
  choose M hM using hb
  refine ⟨δ / 2, ∑ i, |M i|, by positivity, Finset.sum_nonneg fun _ _ => abs_nonneg _, hsub, fun y hy i hi => ?_⟩
  subst hi
  have := hM i.get y hy
  rw [List.ofFn_get] at this
  exact (this.trans (le_abs_self _)).trans (Finset.single_le_sum (f := fun i => |M i|) (fun _ _ => abs_nonneg _) (Finset.mem_univ i.get))

theorem line_mem {x d : Fin 3 → ℝ} {R : ℝ} (hd : vlen d ≤ R) {t : ℝ} (ht : t ∈ Icc (0 : ℝ) 1) : x + t • d ∈ rball x R := by
  show vlen (x + t • d - x) ≤ R
  rw [add_sub_cancel_left, Rob.vlen_smul, abs_of_nonneg ht.1]
  nlinarith [ht.1, ht.2, Rob.vlen_nonneg d]

end Expan

/-- **C135.** Near any position off the electrodes the error of the expansion of the combined potential up to the order `n` falls with the power `n + 1` of
the distance. -/
theorem c135_order (els : List Elec) (c : ℝ) (l : Idx) (n : Nat) (hn : l.length + n + 1 ≤ 4) (x : Fin 3 → ℝ) (hx : offSystem els (toV3 x)) :
    ∃ R C, 0 < R ∧ ∀ d, vlen d ≤ R →
      |totalAt ⟨els, some c⟩ l (toV3 (x + d)) - expansion (fun i => totalAt ⟨els, some c⟩ i (toV3 x)) l n d| ≤ C * vlen d ^ (n + 1) := by
  obtain ⟨R, M, hR, hM0, hc, hM⟩ := bounded els c (l.length + n + 1) hn x hx
  refine ⟨R, M * √3 ^ (n + 1) / (n + 1)!, hR, fun d hd => ?_⟩
  refine (c135_total els c l n hn x d (fun t ht => hc _ (line_mem hd ht)) M fun t ht i hi => hM _ (line_mem hd ht) i hi).trans ?_
  rw [div_mul_eq_mul_div, mul_assoc, ← mul_pow]
  gcongr
  exact sum_abs_le d

/-- **C135.** Around a point without force the potential is that of springs: the curvatures that `potential(x, 2)` returns give it up to the third order. -/
theorem c135_harmonic (els : List Elec) (c : ℝ) (x0 : Fin 3 → ℝ) (hg : slopeAt ⟨els, some c⟩ x0 = 0) (d : Fin 3 → ℝ)
    (hx : ∀ t ∈ Icc (0 : ℝ) 1, offSystem els (toV3 (x0 + t • d))) (M : ℝ)
    (hM : ∀ t ∈ Icc (0 : ℝ) 1, ∀ i : Idx, i.length = 3 → |totalAt ⟨els, some c⟩ i (toV3 (x0 + t • d))| ≤ M) :
    |valueAt ⟨els, some c⟩ (x0 + d) - (valueAt ⟨els, some c⟩ x0 + (∑ a, ∑ b, d a * totalAt ⟨els, some c⟩ [a, b] (toV3 x0) * d b) / 2)|
        ≤ M * (∑ a, |d a|) ^ 3 / 6 ∧
      ∀ a, |slopeAt ⟨els, some c⟩ (x0 + d) a - ∑ b, totalAt ⟨els, some c⟩ [a, b] (toV3 x0) * d b| ≤ M * (∑ a, |d a|) ^ 2 / 2 := by
  have hg' : ∀ a, totalAt ⟨els, some c⟩ [a] (toV3 x0) = 0 := fun a => congrFun hg a
  refine ⟨?_, fun a => ?_⟩
  · have h := c135_total els c [] 2 (by simp) x0 d hx M hM
    rw [show expansion (fun i => totalAt ⟨els, some c⟩ i (toV3 x0)) [] 2 d
        = valueAt ⟨els, some c⟩ x0 + (∑ a, ∑ b, d a * totalAt ⟨els, some c⟩ [a, b] (toV3 x0) * d b) / 2 by
      rw [expansion_eq]
      simp only [Finset.sum_range_succ, Finset.sum_range_zero, along, hg', List.nil_append, valueAt, List.singleton_append, Finset.mul_sum]
      simp [Nat.factorial, mul_comm, mul_left_comm]] at h
    simpa [Nat.factorial, valueAt] using h
  · have h := c135_total els c [a] 1 (by simp) x0 d hx M hM
    rw [show expansion (fun i => totalAt ⟨els, some c⟩ i (toV3 x0)) [a] 1 d = ∑ b, totalAt ⟨els, some c⟩ [a, b] (toV3 x0) * d b by
      rw [expansion_eq]
      simp only [Finset.sum_range_succ, Finset.sum_range_zero, along, hg', List.singleton_append]
      simp [Nat.factorial, mul_comm]] at h
    simpa [Nat.factorial, slopeAt] using h

/-- The hypotheses are met: two squares with static voltages. -/
example (d : Fin 3 → ℝ) (hd : -1 ≤ d 2) : |electricalAt squarePair .dc [] (toV3 (![0, 0, 2] + d))
    - expansion (fun i => electricalAt squarePair .dc i (toV3 ![0, 0, 2])) [] 4 d| ≤ 570 * (√3 * vlen d) ^ 5 := by
  refine (c135_polygons squarePair 50 squarePair_trap squarePair_separate .dc 2 (by norm_num) (by simp [squarePair, Elec.volt]) [] 4 (by simp) ![0, 0, 2] d 1
    (by norm_num) (by simp) ?_).trans (le_of_eq ?_)
  · show (1 : ℝ) ≤ 2 + d 2
    linarith
  · simp [Nat.factorial]
    ring

/-- The hypotheses are met at the minimum of two pixels. -/
example : ∃ R C, 0 < R ∧ ∀ d, vlen d ≤ R → |valueAt ⟨twoPixels, some 1⟩ (![0, 0, 1] + d)
    - (valueAt ⟨twoPixels, some 1⟩ ![0, 0, 1] + (∑ a, ∑ b, d a * totalAt ⟨twoPixels, some 1⟩ [a, b] (toV3 ![0, 0, 1]) * d b) / 2)| ≤ C * (∑ a, |d a|) ^ 3 / 6 := by
  obtain ⟨R', lam, hR', -, hc', -, hg⟩ := twoPixels_well
  obtain ⟨R, M, hR, -, hc, hM⟩ := bounded twoPixels 1 3 (by norm_num) ![0, 0, 1] (hc' _ (Rob.center_mem _ hR'))
  exact ⟨R, M, hR, fun d hd => (c135_harmonic twoPixels 1 _ hg d (fun t ht => hc _ (line_mem hd ht)) M fun t ht i hi => hM _ (line_mem hd ht) i hi).1⟩

end Electrode
