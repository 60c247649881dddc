import Verif.Props.Limits

/-
A trap of polygons: a square ring with rf around a square with the opposite rf. It has a minimum at the height 7 with positive curvatures; so the hypotheses
of the properties of minima and of the motion of ions can be met by polygon electrodes.
-/
namespace Electrode
open Spec Real Filter

namespace Ring

/-- the square with the corners (±s, ±s) -/
def sq (s : ℝ) : List V2 := [⟨-s, -s⟩, ⟨s, -s⟩, ⟨s, s⟩, ⟨-s, s⟩]

/-- the same in the other sense -/
def hole (s : ℝ) : List V2 := [⟨-s, s⟩, ⟨s, s⟩, ⟨s, -s⟩, ⟨-s, -s⟩]

/-- the ring and the square inside -/
noncomputable def trap : List Elec := [⟨"ring", 0, 748, .polygons [sq 6, hole 4] 50 0⟩, ⟨"centre", 0, -305, .polygons [sq 4] 50 0⟩]

theorem sqrt81 : √(4 ^ 2 + 4 ^ 2 + 7 ^ 2 : ℝ) = 9 := by
  rw [show (4 ^ 2 + 4 ^ 2 + 7 ^ 2 : ℝ) = 9 ^ 2 by norm_num]; exact Real.sqrt_sq (by norm_num)

theorem sqrt121 : √(6 ^ 2 + 6 ^ 2 + 7 ^ 2 : ℝ) = 11 := by
  rw [show (6 ^ 2 + 6 ^ 2 + 7 ^ 2 : ℝ) = 11 ^ 2 by norm_num]; exact Real.sqrt_sq (by norm_num)

theorem sq4_one (i : Fin 3) : polyComp 1 i (sq 4) ⟨0, 0, 7⟩ = ![0, 0, -(64 / 585)] i / π := by
  have := sqrt81
  have hpi := pi_pos.ne'
  fin_cases i <;> simp [polyComp, sq, boundaryEdges, edgesFrom, segComp, edgeTerm, edgeNum, edgeNum1, edgeNum1_0, edgeNum1_1, edgeNum1_2, PExpr.eval,
    edgeEnv, edgeNorm, this] <;> field_simp <;> norm_num

theorem hole_one (i : Fin 3) : polyComp 1 i (hole 4) ⟨0, 0, 7⟩ = ![0, 0, 64 / 585] i / π := by
  have := sqrt81
  have hpi := pi_pos.ne'
  fin_cases i <;> simp [polyComp, hole, boundaryEdges, edgesFrom, segComp, edgeTerm, edgeNum, edgeNum1, edgeNum1_0, edgeNum1_1, edgeNum1_2, PExpr.eval,
    edgeEnv, edgeNorm, this] <;> field_simp <;> norm_num

theorem sq6_one (i : Fin 3) : polyComp 1 i (sq 6) ⟨0, 0, 7⟩ = ![0, 0, -(144 / 935)] i / π := by
  have := sqrt121
  have hpi := pi_pos.ne'
  fin_cases i <;> simp [polyComp, sq, boundaryEdges, edgesFrom, segComp, edgeTerm, edgeNum, edgeNum1, edgeNum1_0, edgeNum1_1, edgeNum1_2, PExpr.eval,
    edgeEnv, edgeNorm, this] <;> field_simp <;> norm_num

theorem sq4_two (i : Fin 5) : polyComp 2 i (sq 4) ⟨0, 0, 7⟩ = ![-(50848 / 3080025), 0, 0, -(50848 / 3080025), 0] i / π := by
  have := sqrt81
  have hpi := pi_pos.ne'
  fin_cases i <;> simp [polyComp, sq, boundaryEdges, edgesFrom, segComp, edgeTerm, edgeNum, edgeNum2, edgeNum2_0, edgeNum2_1, edgeNum2_2, edgeNum2_3,
    edgeNum2_4, PExpr.eval, edgeEnv, edgeNorm, this] <;> field_simp <;> norm_num

theorem hole_two (i : Fin 5) : polyComp 2 i (hole 4) ⟨0, 0, 7⟩ = ![50848 / 3080025, 0, 0, 50848 / 3080025, 0] i / π := by
  have := sqrt81
  have hpi := pi_pos.ne'
  fin_cases i <;> simp [polyComp, hole, boundaryEdges, edgesFrom, segComp, edgeTerm, edgeNum, edgeNum2, edgeNum2_0, edgeNum2_1, edgeNum2_2, edgeNum2_3,
    edgeNum2_4, PExpr.eval, edgeEnv, edgeNorm, this] <;> field_simp <;> norm_num

theorem sq6_two (i : Fin 5) : polyComp 2 i (sq 6) ⟨0, 0, 7⟩ = ![-(164808 / 9616475), 0, 0, -(164808 / 9616475), 0] i / π := by
  have := sqrt121
  have hpi := pi_pos.ne'
  fin_cases i <;> simp [polyComp, sq, boundaryEdges, edgesFrom, segComp, edgeTerm, edgeNum, edgeNum2, edgeNum2_0, edgeNum2_1, edgeNum2_2, edgeNum2_3,
    edgeNum2_4, PExpr.eval, edgeEnv, edgeNorm, this] <;> field_simp <;> norm_num

theorem trap_contrib (d i : Nat) : sysContrib trap .rf d i ⟨0, 0, 7⟩ =
    748 * (polyComp d i (sq 6) ⟨0, 0, 7⟩ + polyComp d i (hole 4) ⟨0, 0, 7⟩) - 305 * polyComp d i (sq 4) ⟨0, 0, 7⟩ := by
  simp [sysContrib, trap, Elec.voltD, Elec.volt, Shape.contrib, polyContrib, images, coverRange, V3.lift]
  ring

theorem trap_dc (l : Idx) (p : V3) : sysTens trap .dc l p = 0 := by
  rw [sysTens_eq]; simp [trap, Elec.voltD, Elec.volt]

theorem trap_one (i : Fin 3) : sysContrib trap .rf 1 i ⟨0, 0, 7⟩ = 0 := by
  rw [trap_contrib, sq4_one, hole_one, sq6_one]
  fin_cases i <;> simp <;> field_simp <;> norm_num

/-- the curvature of the rf potential -/
noncomputable def kap : ℝ := 27464192 / 6016725 / π

theorem trap_two (i : Fin 5) : sysContrib trap .rf 2 i ⟨0, 0, 7⟩ = ![kap, 0, 0, kap, 0] i := by
  rw [trap_contrib, sq4_two, hole_two, sq6_two]
  unfold kap
  fin_cases i <;> simp <;> field_simp <;> norm_num

theorem trap_tens1 (j : Axis) : sysTens trap .rf [j] ⟨0, 0, 7⟩ = 0 := by
  have h1 : entrySel 1 [j] = .one j.val := by revert j; decide
  unfold sysTens tens
  simp only [List.length_singleton, h1, selVal]
  have := trap_one j
  fin_cases j <;> simpa [List.range_succ] using this

theorem trap_tens2 (j k : Axis) : sysTens trap .rf [j, k] ⟨0, 0, 7⟩ = if j = k then ![kap, kap, -2 * kap] j else 0 := by
  have s00 : entrySel 2 [0, 0] = .one 0 := by decide
  have s01 : entrySel 2 [0, 1] = .one 1 := by decide
  have s02 : entrySel 2 [0, 2] = .one 2 := by decide
  have s10 : entrySel 2 [1, 0] = .one 1 := by decide
  have s11 : entrySel 2 [1, 1] = .one 3 := by decide
  have s12 : entrySel 2 [1, 2] = .one 4 := by decide
  have s20 : entrySel 2 [2, 0] = .one 2 := by decide
  have s21 : entrySel 2 [2, 1] = .one 4 := by decide
  have s22 : entrySel 2 [2, 2] = .lap 0 3 := by decide
  have h0 := trap_two 0
  have h1 := trap_two 1
  have h2 := trap_two 2
  have h3 := trap_two 3
  have h4 := trap_two 4
  simp at h0 h1 h2 h3 h4
  unfold sysTens tens
  simp only [List.length_cons, List.length_nil, Nat.reduceAdd]
  fin_cases j <;> fin_cases k <;> simp [s00, s01, s02, s10, s11, s12, s20, s21, s22, selVal, h0, h1, h2, h3, h4] <;> ring

theorem trap_is : polygonTrap 50 0 trap := by
  intro e he
  simp only [trap, List.mem_cons, List.not_mem_nil, or_false] at he
  rcases he with rfl | rfl <;> exact ⟨_, rfl⟩

theorem winding_sq (s : ℝ) (hs : 0 < s) (q : ℝ × ℝ) : winding (sq s) q = if -s ≤ q.1 ∧ q.1 < s ∧ -s ≤ q.2 ∧ q.2 < s then 1 else 0 :=
  winding_rect q (-s) s (-s) s (by linarith) (by linarith)

theorem trap_separate : separate trap := by
  refine Eventually.of_forall fun q => ?_
  have h3 : winding (hole 4) q = -winding (sq 4) q := by
    simp only [winding, hole, sq, List.rotate_cons_succ, List.rotate_zero, List.cons_append, List.nil_append, List.zipWith_cons_cons, List.zipWith_nil_left,
      List.sum_cons, List.sum_nil]
    rw [PolyInt.crossing_swap q ⟨-4, 4⟩ ⟨4, 4⟩, PolyInt.crossing_swap q ⟨4, 4⟩ ⟨4, -4⟩, PolyInt.crossing_swap q ⟨4, -4⟩ ⟨-4, -4⟩,
      PolyInt.crossing_swap q ⟨-4, -4⟩ ⟨-4, 4⟩]
    ring
  simp only [trap, List.map_cons, List.map_nil, List.sum_cons, List.sum_nil, coverage, covered, add_zero, h3, winding_sq 4 (by norm_num), winding_sq 6 (by norm_num)]
  split_ifs with a b
  · norm_num
  · norm_num
  · next h => exact absurd ⟨by linarith [h.1], by linarith [h.2.1], by linarith [h.2.2.1], by linarith [h.2.2.2]⟩ a
  · norm_num

theorem trap_off7 : offSystem trap ⟨0, 0, 7⟩ := Limit.trap_off trap_is (Limit.images_ne (by norm_num) (.inl rfl))

theorem trap_hessian (c : ℝ) (i k : Axis) : totalAt ⟨trap, some c⟩ [i, k] ⟨0, 0, 7⟩ = if i = k then 2 * (c * kap) ^ 2 * ![1, 1, 4] i else 0 := by
  rw [total_split trap c [i, k] (by simp) _ fun d typ => avail_of_off trap_off7 d typ, trap_dc]
  simp only [psT, trap_tens1, trap_tens2, mul_zero, zero_mul, Finset.sum_const_zero, add_zero, zero_add, Fin.sum_univ_three]
  fin_cases i <;> fin_cases k <;> simp <;> ring

theorem trap_slope (c : ℝ) : slopeAt ⟨trap, some c⟩ ![0, 0, 7] = 0 := by
  funext i
  have e : toV3 ![0, 0, 7] = ⟨0, 0, 7⟩ := by simp [toV3]
  rw [slopeAt, e, total_split trap c [i] (by simp) _ fun d typ => avail_of_off trap_off7 d typ, trap_dc]
  simp [psT, trap_tens1]

theorem abs_le_vlen (x : Fin 3 → ℝ) (i : Fin 3) : |x i| ≤ vlen x :=
  Real.abs_le_sqrt (Finset.single_le_sum (f := fun a => x a ^ 2) (fun a _ => sq_nonneg _) (Finset.mem_univ i))

theorem kap_pos : 0 < kap := by unfold kap; positivity

theorem trap_modes (c : ℝ) (hc : c ≠ 0) : ∃ (eigh : Eigh) (argsort : Argsort) (ew : List ℝ) (ev : List (Fin 3 → ℝ)), IsEigh eigh ∧ IsArgsort argsort ∧
    modes eigh argsort ⟨trap, some c⟩ ⟨0, 0, 7⟩ true = .ok (ew, ev) ∧ ∀ w ∈ ew, 0 < w := by
  obtain ⟨eigh, h1⟩ := exists_isEigh
  obtain ⟨argsort, h2⟩ := exists_isArgsort
  have hav : ∀ d typ, AvailAll trap d typ := fun d typ => avail_of_off trap_off7 d typ
  have hp : ∃ r, (⟨trap, some c⟩ : Sys).potential [⟨0, 0, 7⟩] 2 .tot = .ok r :=
    (c34_errors _ _ _ _).2 ⟨by decide, ⟨_, electrical_expand_eq _ _ 2 (by norm_num) .dc (hav _ _)⟩,
      _, pseudo_eq _ c _ 2 (by norm_num) fun i _ _ => hav i .rf⟩
  obtain ⟨⟨ew, ev⟩, hr⟩ := (c43_fails eigh argsort _ ⟨0, 0, 7⟩ true).2 hp
  refine ⟨eigh, argsort, ew, ev, h1, h2, hr, ?_⟩
  obtain ⟨hl, -, -, heq, hort⟩ := c43_modes eigh h1 argsort h2 _ _ ew ev hr
  intro w hw
  obtain ⟨j, hj, rfl⟩ := List.getElem_of_mem hw
  have hj3 : j < 3 := by omega
  have hne := hort j j hj3 hj3
  have e0 := heq j 0 hj3
  have e1 := heq j 1 hj3
  have e2 := heq j 2 hj3
  simp only [trap_hessian, Fin.sum_univ_three, List.getD_eq_getElem _ _ hj] at e0 e1 e2 hne
  have hk : 0 < (c * kap) ^ 2 := by have := kap_pos; positivity
  generalize (c * kap) ^ 2 = n at *
  simp only [Fin.isValue, ↓reduceIte, Matrix.cons_val_zero, Matrix.cons_val_one, Matrix.cons_val, mul_one, Fin.reduceEq, zero_mul, add_zero, zero_add,
    one_ne_zero, zero_ne_one] at e0 e1 e2
  have hne' : (ev.getD j 0) 0 * (ev.getD j 0) 0 + (ev.getD j 0) 1 * (ev.getD j 0) 1 + (ev.getD j 0) 2 * (ev.getD j 0) 2 = 1 := by simpa using hne
  generalize ev.getD j 0 = v at *
  have key : ew[j] = 2 * n * (v 0 ^ 2 + v 1 ^ 2 + 4 * v 2 ^ 2) := by
    linear_combination (-ew[j]) * hne' - v 0 * e0 - v 1 * e1 - v 2 * e2
  rw [key]
  have : 0 < v 0 ^ 2 + v 1 ^ 2 + 4 * v 2 ^ 2 := by nlinarith [sq_nonneg (v 0), sq_nonneg (v 1), sq_nonneg (v 2)]
  positivity

/-- the minimum, with a ball of positive curvatures above the height `6` -/
theorem trap_well : ∃ R lam, 0 < R ∧ 0 < lam ∧ R ≤ 1 ∧ clearOf ⟨trap, some 1⟩ (rball ![0, 0, 7] R) ∧ Stiff ⟨trap, some 1⟩ lam (rball ![0, 0, 7] R) ∧
    slopeAt ⟨trap, some 1⟩ ![0, 0, 7] = 0 := by
  obtain ⟨eigh, argsort, ew, ev, h1, h2, h3, h4⟩ := trap_modes 1 one_ne_zero
  have e : toV3 ![0, 0, 7] = ⟨0, 0, 7⟩ := by simp [toV3]
  obtain ⟨R, lam, a, b, d, f⟩ := c130_near eigh h1 argsort h2 trap 1 ![0, 0, 7] (by rw [e]; exact trap_off7) ew ev (by rw [e]; exact h3) h4
  have hsub : rball ![0, 0, 7] (min R 1) ⊆ rball ![0, 0, 7] R := fun x hx => (show vlen _ ≤ min R 1 from hx).trans (min_le_left _ _)
  exact ⟨min R 1, lam, lt_min a one_pos, b, min_le_right _ _, fun x hx => d x (hsub hx), fun x hx => f x (hsub hx), trap_slope 1⟩

end Ring

/-- `c133_minimum`: small dc voltages on the ring and the square move the minimum at the height 7 by a little -/
example : ∃ R lam : ℝ, 0 < R ∧ 0 < lam ∧ ∀ δ u v : ℝ, 0 ≤ δ → 2 * δ / 6 < lam * R → |u| ≤ δ → |v| ≤ δ →
    let els' : List Elec := [⟨"ring", u, 748, .polygons [Ring.sq 6, Ring.hole 4] 50 0⟩, ⟨"centre", v, -305, .polygons [Ring.sq 4] 50 0⟩]
    ∃ x1, slopeAt ⟨els', some 1⟩ x1 = 0 ∧ vlen (x1 - ![0, 0, 7]) ≤ 2 * δ / (6 * lam) := by
  obtain ⟨R, lam, hR, hl, h1, -, hst, hg⟩ := Ring.trap_well
  refine ⟨R, lam, hR, hl, fun δ u v h0 hδ hu hv => ?_⟩
  intro els'
  have hz : ∀ x ∈ rball ![0, 0, 7] R, 6 ≤ x 2 := fun x hx => by
    have h2 : vlen (x - ![0, 0, 7]) ≤ 1 := (show vlen _ ≤ R from hx).trans h1
    have h4 := (abs_le.1 ((Ring.abs_le_vlen (x - ![0, 0, 7]) 2).trans h2)).1
    simp at h4
    linarith
  obtain ⟨⟨x1, hx1, hs, -⟩, hb⟩ := c133_minimum Ring.trap els' 50 Ring.trap_is Ring.trap_separate δ h0
    (.cons ⟨rfl, by simpa [Elec.volt] using hu⟩ (.cons ⟨rfl, by simpa [Elec.volt] using hv⟩ .nil)) (.cons rfl (.cons rfl .nil)) 1 ![0, 0, 7] R hR 6 (by norm_num)
    hz lam hl hst hg hδ
  exact ⟨x1, hs, hb x1 hx1 hs⟩

end Electrode
