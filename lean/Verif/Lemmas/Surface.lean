import Verif.Lemmas.PolySmooth

/-
Antisymmetry of the edge terms, translation and scaling.
-/
namespace Electrode
open Spec PExpr Real

/-! ### antisymmetry -/

theorem seg_swap0 (p : V3) (v1 v2 : V2) : segComp 0 0 p v2 v1 = -segComp 0 0 p v1 v2 := by
  simp only [segComp, edgeTerm, List.getD_cons_zero]
  rw [← neg_mul, ← arctan_neg]
  congr 2
  rw [← neg_div]
  congr 1 <;> ring

theorem len2_swap (v1 v2 : V2) (p : V3) : EdgeId.len2 v2 v1 p = EdgeId.len2 v1 v2 p := by
  unfold EdgeId.len2; ring

theorem edgeNorm_swap (k : Nat) (r1 r2 l a : ℝ) : edgeNorm k r2 r1 l a = edgeNorm k r1 r2 l a := by
  unfold edgeNorm
  split <;> simp only [mul_comm r2 r1, add_comm r2 r1]

theorem seg_swap1 (i : Nat) (hi : i < 3) (p : V3) (v1 v2 : V2) : segComp 1 i p v2 v1 = -segComp 1 i p v1 v2 := by
  rw [segComp_pos_eq 1 i le_rfl, segComp_pos_eq 1 i le_rfl, len2_swap, edgeNorm_swap, ← neg_mul]
  congr 1
  interval_cases i
  · simp only [edgeNum, edgeNum1, List.getD_cons_zero, edgeNum1_0, eval, EdgeId.env, edgeEnv]; ring
  · simp only [edgeNum, edgeNum1, List.getD_cons_zero, List.getD_cons_succ, edgeNum1_1, eval, EdgeId.env, edgeEnv]; ring
  · simp only [edgeNum, edgeNum1, List.getD_cons_zero, List.getD_cons_succ, edgeNum1_2, eval, EdgeId.env, edgeEnv]; ring

/-- derivatives of functions that are opposite off the plane are opposite -/
theorem partial_opp {a : Axis} {f g : V3 → ℝ} {c d : ℝ} {p : V3} (hp : OffPlane p)
    (h : ∀ q, OffPlane q → f q = -g q) (hf : HasPartial a f c p) (hg : HasPartial a g d p) : c = -d := by
  unfold HasPartial at hf hg
  refine hf.unique (hg.neg.congr_of_eventuallyEq ?_)
  have hne : ∀ᶠ t in nhds (0 : ℝ), (shift p a t).z ≠ 0 :=
    (EdgeId.shift_z_continuous p a).continuousAt.eventually_ne (by simp only [EdgeId.shift_zero]; exact hp)
  filter_upwards [hne] with t ht
  exact h _ ht

theorem seg_swap_le (k : Nat) (hk : k ≤ 5) : ∀ i < 2 * k + 1, ∀ (p : V3), OffPlane p → ∀ v1 v2 : V2,
    segComp k i p v2 v1 = -segComp k i p v1 v2 := by
  induction k with
  | zero =>
    intro i hi p _ v1 v2
    have : i = 0 := by omega
    subst this
    exact seg_swap0 p v1 v2
  | succ k ih =>
    intro i hi p hp v1 v2
    rcases Nat.eq_zero_or_pos k with rfl | hpos
    · exact seg_swap1 i (by omega) p v1 v2
    · rcases parents_cover k (by omega) hpos i hi with he | ⟨r, hr, e1, e2⟩
      · simp only [Prod.mk.injEq] at he
        obtain ⟨rfl, rfl⟩ := he
        have h36 : ∀ q, OffPlane q → segComp 3 6 q v2 v1 = -segComp 3 6 q v1 v2 := by
          intro q hq
          have hr : (2, 6, 1, 2) ∈ EdgeId.parents := by decide
          have h21 : ∀ q, OffPlane q → segComp 2 1 q v2 v1 = -segComp 2 1 q v1 v2 := by
            intro q hq
            have hr : (1, 1, 0, 1) ∈ EdgeId.parents := by decide
            exact partial_opp hq (fun q _ => seg_swap1 0 (by norm_num) q v1 v2)
              (EdgeId.seg_step v2 v1 q hq 1 1 0 1 hr) (EdgeId.seg_step v1 v2 q hq 1 1 0 1 hr)
          exact partial_opp hq h21 (EdgeId.seg_step v2 v1 q hq 2 6 1 2 hr) (EdgeId.seg_step v1 v2 q hq 2 6 1 2 hr)
        have hx : ∀ q, OffPlane q → EdgeId.segXyyz v2 v1 q = -EdgeId.segXyyz v1 v2 q := fun q hq =>
          partial_opp hq h36 (EdgeId.seg_xyyz v2 v1 q hq) (EdgeId.seg_xyyz v1 v2 q hq)
        exact partial_opp hp hx (EdgeId.seg_xyyzz v2 v1 p hp) (EdgeId.seg_xyyzz v1 v2 p hp)
      · obtain ⟨r1, r2, r3, r4⟩ := r
        simp only at e1 e2
        subst e1 e2
        have hj := (parents_name _ hr).1
        simp only at hj
        exact partial_opp hp (fun q hq => ih (by omega) r3 hj q hq v1 v2)
          (EdgeId.seg_step v2 v1 p hp r1 r2 r3 r4 hr) (EdgeId.seg_step v1 v2 p hp r1 r2 r3 r4 hr)

theorem seg_high (k i : Nat) (hk : 6 ≤ k) (p : V3) (v1 v2 : V2) : segComp k i p v1 v2 = 0 := by
  rw [segComp_pos_eq k i (by omega), edgeNum_high k hk]
  simp [eval]

theorem seg_swap (k i : Nat) (hi : i < 2 * k + 1) (p : V3) (hp : OffPlane p) (v1 v2 : V2) :
    segComp k i p v2 v1 = -segComp k i p v1 v2 := by
  rcases Nat.lt_or_ge k 6 with h | h
  · exact seg_swap_le k (by omega) i hi p hp v1 v2
  · rw [seg_high k i h, seg_high k i h, neg_zero]

theorem seg_degenerate (k i : Nat) (hi : i < 2 * k + 1) (p : V3) (hp : OffPlane p) (v : V2) :
    segComp k i p v v = 0 := by
  have := seg_swap k i hi p hp v v
  linarith

/-! ### translation and scaling -/

/-- moved sideways -/
def V2.move (d v : V2) : V2 := ⟨v.x + d.x, v.y + d.y⟩
def V3.move (d : V2) (p : V3) : V3 := ⟨p.x + d.x, p.y + d.y, p.z⟩

theorem seg_move (k i : Nat) (p : V3) (v1 v2 d : V2) :
    segComp k i (p.move d) (d.move v1) (d.move v2) = segComp k i p v1 v2 := by
  simp only [segComp, V3.move, V2.move, add_sub_add_right_eq_sub]

theorem pixel_move (k i : Nat) (p : V3) (q d : V2) :
    pixelComp k i (d.move q) (p.move d) = pixelComp k i q p := by
  simp only [pixelComp, V3.move, V2.move, add_sub_add_right_eq_sub]

/-- scaled -/
def V2.scale (s : ℝ) (v : V2) : V2 := ⟨s * v.x, s * v.y⟩
def V3.scale (s : ℝ) (p : V3) : V3 := ⟨s * p.x, s * p.y, s * p.z⟩

theorem relR_scale {s : ℝ} (hs : 0 < s) (q : V2) (p : V3) : relR (q.scale s) (p.scale s) = s * relR q p := by
  unfold relR V2.scale V3.scale
  simp only
  have : (s * p.x - s * q.x) ^ 2 + (s * p.y - s * q.y) ^ 2 + (s * p.z) ^ 2
      = s ^ 2 * ((p.x - q.x) ^ 2 + (p.y - q.y) ^ 2 + p.z ^ 2) := by ring
  rw [this, sqrt_mul (by positivity), sqrt_sq hs.le]

/-- weights of the edge variables -/
def edgeWt (i : Nat) : Nat := if i = 6 then 2 else if i < 8 then 1 else 0

theorem edge_deg : ∀ k < 6, 1 ≤ k → ∀ i < 2 * k + 1,
    homDeg edgeWt ((edgeNum k).getD i (.c 0)) = some (if k = 1 then 2 else 5 * k - 2) := by decide +kernel

theorem env_scale {s : ℝ} (hs : 0 < s) (v1 v2 : V2) (p : V3) :
    EdgeId.env (v1.scale s) (v2.scale s) (p.scale s) = fun i => s ^ edgeWt i * EdgeId.env v1 v2 p i := by
  funext i
  unfold EdgeId.env
  rw [relR_scale hs, relR_scale hs]
  unfold edgeEnv edgeWt EdgeId.len2
  rcases i with _ | _ | _ | _ | _ | _ | _ | _ | i
  all_goals simp [V2.scale, V3.scale]
  all_goals ring

theorem edgeNorm_scale {s : ℝ} (hs : 0 < s) (k : Nat) (hk : 1 ≤ k) (hk6 : k < 6) (r1 r2 l : ℝ) :
    s ^ (if k = 1 then 2 else 5 * k - 2) * edgeNorm k (s * r1) (s * r2) (s ^ 2 * l) 1
      = s⁻¹ ^ k * edgeNorm k r1 r2 l 1 := by
  have e : (s * r1 + s * r2) ^ 2 - s ^ 2 * l = s ^ 2 * ((r1 + r2) ^ 2 - l) := by ring
  have e2 : s * r1 * (s * r2) = s ^ 2 * (r1 * r2) := by ring
  have hs' := hs.ne'
  interval_cases k
  all_goals
    simp only [edgeNorm, e, e2, if_true, Nat.reduceEqDiff, if_false, Nat.reduceMul, Nat.reduceSub, div_eq_mul_inv, mul_inv,
      mul_pow, inv_pow]
    generalize ((r1 + r2) ^ 2 - l)⁻¹ = E
    generalize (r1 * r2)⁻¹ = R
    field_simp

theorem seg_scale {s : ℝ} (hs : 0 < s) (k i : Nat) (hi : i < 2 * k + 1) (p : V3) (v1 v2 : V2) :
    segComp k i (p.scale s) (v1.scale s) (v2.scale s) = s⁻¹ ^ k * segComp k i p v1 v2 := by
  rcases Nat.eq_zero_or_pos k with rfl | hk
  · have : i = 0 := by omega
    subst this
    have h1 := relR_scale hs v1 p
    have h2 := relR_scale hs v2 p
    unfold relR at h1 h2
    simp only [segComp, edgeTerm, List.getD_cons_zero, pow_zero, one_mul]
    rw [h1, h2]
    simp only [V2.scale, V3.scale, abs_mul, abs_of_pos hs]
    congr 2
    conv_rhs => rw [← mul_div_mul_left _ _ (pow_ne_zero 3 hs.ne')]
    congr 1 <;> ring
  · rcases Nat.lt_or_ge k 6 with h6 | h6
    · rw [segComp_pos_eq k i hk, segComp_pos_eq k i hk, env_scale hs,
        homDeg_eval edgeWt s (EdgeId.env v1 v2 p) _ _ (edge_deg k h6 hk i hi), relR_scale hs, relR_scale hs]
      have : EdgeId.len2 (v1.scale s) (v2.scale s) (p.scale s) = s ^ 2 * EdgeId.len2 v1 v2 p := by
        simp only [EdgeId.len2, V2.scale, V3.scale]; ring
      rw [this]
      have := edgeNorm_scale hs k hk h6 (relR v1 p) (relR v2 p) (EdgeId.len2 v1 v2 p)
      calc _ = (s ^ (if k = 1 then 2 else 5 * k - 2) * edgeNorm k (s * relR v1 p) (s * relR v2 p) (s ^ 2 * EdgeId.len2 v1 v2 p) 1)
            * eval (EdgeId.env v1 v2 p) ((edgeNum k).getD i (.c 0)) := by ring
        _ = _ := by rw [this]; ring
    · rw [seg_high k i h6, seg_high k i h6, mul_zero]

/-- weights of the pixel variables -/
def pointWt (i : Nat) : Nat := if i < 4 then 1 else 0

theorem point_deg : ∀ k < 6, ∀ i < 2 * k + 1,
    homDeg pointWt ((pointNum k).getD i (.c 0)) = some (k + 1) := by decide +kernel

theorem pixelComp_num (k i : Nat) (q : V2) (p : V3) :
    pixelComp k i q p = ((pointNum k).getD i (.c 0)).eval (relEnv q p) * pointNorm k (relR q p) 1 := by
  unfold pixelComp pointTerm
  simp only [List.getD_eq_getElem?_getD, List.getElem?_map]
  cases (pointNum k)[i]? with
  | none => simp [eval]
  | some e => rfl

theorem pixel_high (k i : Nat) (hk : 6 ≤ k) (q : V2) (p : V3) : pixelComp k i q p = 0 := by
  rw [pixelComp_num, pointNum_high k hk]
  simp [eval]

theorem pointNorm_scale {s : ℝ} (hs : 0 < s) (k : Nat) (hk6 : k < 6) (r : ℝ) :
    s ^ (k + 1) * pointNorm k (s * r) 1 * s ^ 2 = s⁻¹ ^ k * pointNorm k r 1 := by
  have hs' := hs.ne'
  interval_cases k
  all_goals
    simp only [pointNorm, div_eq_mul_inv, mul_inv, mul_pow, inv_pow]
    generalize (r ^ _)⁻¹ = R
    field_simp
    try ring

theorem pixel_scale {s : ℝ} (hs : 0 < s) (k i : Nat) (hi : i < 2 * k + 1) (q : V2) (p : V3) :
    s ^ 2 * pixelComp k i (q.scale s) (p.scale s) = s⁻¹ ^ k * pixelComp k i q p := by
  rcases Nat.lt_or_ge k 6 with h6 | h6
  · have he : relEnv (q.scale s) (p.scale s) = fun i => s ^ pointWt i * relEnv q p i := by
      funext j
      unfold relEnv
      rw [relR_scale hs]
      unfold pointEnv pointWt
      rcases j with _ | _ | _ | _ | j
      all_goals simp [V2.scale, V3.scale]
      all_goals ring
    rw [pixelComp_num, pixelComp_num, he, homDeg_eval pointWt s (relEnv q p) _ _ (point_deg k h6 i hi), relR_scale hs]
    have := pointNorm_scale hs k h6 (relR q p)
    calc _ = (s ^ (k + 1) * pointNorm k (s * relR q p) 1 * s ^ 2) * eval (relEnv q p) ((pointNum k).getD i (.c 0)) := by ring
      _ = _ := by rw [this]; ring
  · rw [pixel_high k i h6, pixel_high k i h6, mul_zero, mul_zero]

end Electrode
