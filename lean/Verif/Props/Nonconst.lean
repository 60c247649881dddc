import Verif.Props.Determine
import Verif.Props.Distant
import Verif.Props.AreaRegion
import Verif.Props.Earnshaw

/-
C142, continued: no potential of polygon electrodes is constant in a region, unless all voltages are zero.
-/
namespace Electrode
open Spec MeasureTheory Filter Topology Real

namespace Determ

/-! ### Far to the left all potentials vanish -/

theorem covered_left (polys : List (List V2)) : ∃ L : ℝ, ∀ q : ℝ × ℝ, covered polys q ≠ 0 → -L ≤ q.1 := by
  induction polys with
  | nil => exact ⟨0, fun q hq => by simp [covered] at hq⟩
  | cons a l ih =>
    obtain ⟨L, hL⟩ := ih
    obtain ⟨M, hM⟩ := AreaReg.exists_left a
    refine ⟨max L M, fun q hq => ?_⟩
    by_contra hn
    push Not at hn
    have h1 : winding a q = 0 := AreaReg.winding_left a q fun v hv => by linarith [hM v hv, le_max_right L M]
    have h2 : covered l q = 0 := by
      by_contra h3
      linarith [hL q h3, le_max_left L M]
    refine hq ?_
    have : covered (a :: l) q = winding a q + covered l q := by simp [covered]
    rw [this, h1, h2, add_zero]

theorem polys_left (polys : List (List V2)) (h : ℝ) (n : Nat) (y : ℝ) {z : ℝ} (hz : offPlanes h n ⟨0, 0, z⟩) :
    Tendsto (fun x => (Shape.polygons polys h n).contrib 0 ⟨x, y, z⟩ 0) atBot (𝓝 0) := by
  obtain ⟨L, hL⟩ := covered_left polys
  set E := extent (.polygons polys h n) with hE
  have hE0 : 0 ≤ E := ShapeErr.extent_nonneg _
  have hb : ∀ᶠ x in atBot, ‖(Shape.polygons polys h n).contrib 0 ⟨x, y, z⟩ 0‖ ≤ E * ((2 * n + 1) * (1 / (2 * π * (-L - x) ^ 2))) := by
    filter_upwards [eventually_lt_atBot (-L)] with x hx
    have hρ : 0 < -L - x := by linarith
    rw [Real.norm_eq_abs]
    refine (ShapeErr.contrib_far (ρ := -L - x) (p := ⟨x, y, z⟩) (s := .polygons polys h n) ⟨hz, fun q hq => ?_⟩ 0 (by norm_num) 0 (by norm_num)).trans
      (mul_le_mul_of_nonneg_left ?_ hE0)
    · have := hL q hq
      nlinarith [sq_nonneg (y - q.2)]
    · unfold farSize
      refine (Finset.sum_le_card_nsmul _ _ (1 / (2 * π * (-L - x) ^ 2)) fun m _ => ?_).trans (le_of_eq ?_)
      · simp only [elementSize, List.getD_cons_zero, zero_add, imageCount, sq_abs]
        rw [Real.sq_sqrt (by positivity)]
        gcongr
        nlinarith [sq_nonneg (z + 2 * m * h)]
      · rw [nsmul_eq_mul, Int.card_Icc, imageCount]
        have : ((n : ℤ) + 1 - -(n : ℤ)).toNat = 2 * n + 1 := by omega
        rw [this]
        push_cast
        ring
  refine squeeze_zero_norm' hb ?_
  have h1 : Tendsto (fun x : ℝ => -L - x) atBot atTop := tendsto_atTop_add_const_left _ (-L) tendsto_neg_atBot_atTop
  have h2 : Tendsto (fun x : ℝ => 2 * π * (-L - x) ^ 2) atBot atTop :=
    Tendsto.const_mul_atTop (by positivity) ((tendsto_pow_atTop two_ne_zero).comp h1)
  have := ((h2.inv_tendsto_atTop).const_mul ((2 * (n : ℝ) + 1))).const_mul E
  simpa using this

theorem trap_left {h : ℝ} {n : Nat} (typ : VTyp) (y : ℝ) {z : ℝ} (hz : offPlanes h n ⟨0, 0, z⟩) : ∀ els : List Elec, polygonTrap h n els →
    Tendsto (fun x => sysContrib els typ 0 0 ⟨x, y, z⟩) atBot (𝓝 0)
  | [], _ => by simpa [sysContrib] using tendsto_const_nhds
  | e :: L, ht => by
    have ih := trap_left typ y hz L fun e he => ht e (List.mem_cons_of_mem _ he)
    obtain ⟨polys, hs⟩ := ht e (by simp)
    have := ((polys_left polys h n y hz).const_mul (e.voltD typ)).add ih
    simp only [mul_zero, add_zero] at this
    simp only [sysContrib, List.map_cons, List.sum_cons, hs]
    exact this

/-! ### Functions with constant derivatives -/

theorem close_iff (p q : V3) (r : ℝ) : closeTo p r q ↔ ∀ a, |MaxP.co a q - MaxP.co a p| < r := by
  rw [Fin.forall_fin_succ, Fin.forall_fin_two]
  rfl

theorem co_shift (q : V3) (a b : Fin 3) (t : ℝ) : MaxP.co b (shift q a t) = MaxP.co b q + if b = a then t else 0 := by
  fin_cases a <;> fin_cases b <;> simp [MaxP.co, shift]

theorem box_line {f : V3 → ℝ} {p : V3} {r : ℝ} {a : Fin 3} (hf : ∀ q, closeTo p r q → HasPartial a f 0 q) {q : V3} {t : ℝ} (hq : closeTo p r q)
    (hq' : closeTo p r (shift q a t)) : f (shift q a t) = f q := by
  set S : Set ℝ := Set.Ioo (MaxP.co a p - r - MaxP.co a q) (MaxP.co a p + r - MaxP.co a q) with hS
  have hin : ∀ s ∈ S, closeTo p r (shift q a s) := fun s hs => by
    rw [close_iff] at hq ⊢
    intro b
    rw [co_shift]
    split_ifs with hb
    · subst hb
      rw [abs_lt]
      constructor <;> linarith [hs.1, hs.2]
    · simpa using hq b
  have hd : ∀ s ∈ S, HasDerivAt (fun t => f (shift q a t)) 0 s := fun s hs => MaxP.partial_at (hf _ (hin s hs))
  have h0 : (0 : ℝ) ∈ S := by
    have := abs_lt.1 ((close_iff _ _ _).1 hq a)
    constructor <;> linarith [this.1, this.2]
  have ht : t ∈ S := by
    have := (close_iff _ _ _).1 hq' a
    rw [co_shift, if_pos rfl, abs_lt] at this
    constructor <;> linarith [this.1, this.2]
  have := isOpen_Ioo.is_const_of_deriv_eq_zero isPreconnected_Ioo (f := fun t => f (shift q a t))
    (fun s hs => (hd s hs).differentiableAt.differentiableWithinAt) (fun s hs => (hd s hs).deriv) ht h0
  have e : shift q a 0 = q := by fin_cases a <;> simp [shift]
  simpa only [e] using this

theorem box_const {f : V3 → ℝ} {p : V3} {r : ℝ} (hr : 0 < r) (hf : ∀ a q, closeTo p r q → HasPartial a f 0 q) {q : V3} (hq : closeTo p r q) : f q = f p := by
  obtain ⟨h0, h1, h2⟩ := hq
  have c0 : closeTo p r p := by simp [closeTo, hr]
  have c1 : closeTo p r (shift p 0 (q.x - p.x)) := by simp [closeTo, shift, hr, h0]
  have c2 : closeTo p r (shift (shift p 0 (q.x - p.x)) 1 (q.y - p.y)) := by simp [closeTo, shift, hr, h0, h1]
  have c3 : closeTo p r (shift (shift (shift p 0 (q.x - p.x)) 1 (q.y - p.y)) 2 (q.z - p.z)) := by simp [closeTo, shift, h0, h1, h2]
  have e : shift (shift (shift p 0 (q.x - p.x)) 1 (q.y - p.y)) 2 (q.z - p.z) = q := by simp [shift]
  rw [← e, box_line (hf 2) c2 c3, box_line (hf 1) c1 c2, box_line (hf 0) c0 c1]

theorem shrink {h : ℝ} {n : Nat} {p : V3} (hz : 0 < p.z) (hzh : n = 0 ∨ p.z < h) {r : ℝ} (hr : 0 < r) :
    ∃ r' > 0, ∀ q, closeTo p r' q → closeTo p r q ∧ 0 < q.z ∧ (n = 0 ∨ q.z < h) := by
  rcases hzh with h0 | h0
  · refine ⟨min r p.z, lt_min hr hz, fun q ⟨h1, h2, h3⟩ => ⟨⟨h1.trans_le (min_le_left _ _), h2.trans_le (min_le_left _ _), h3.trans_le (min_le_left _ _)⟩, ?_, .inl h0⟩⟩
    have := (abs_lt.1 (h3.trans_le (min_le_right _ _))).1
    linarith
  · refine ⟨min r (min p.z (h - p.z)), lt_min hr (lt_min hz (by linarith)), fun q ⟨h1, h2, h3⟩ =>
      ⟨⟨h1.trans_le (min_le_left _ _), h2.trans_le (min_le_left _ _), h3.trans_le (min_le_left _ _)⟩, ?_, .inr ?_⟩⟩
    · have := (abs_lt.1 (h3.trans_le ((min_le_right _ _).trans (min_le_left _ _)))).1
      linarith
    · have := (abs_lt.1 (h3.trans_le ((min_le_right _ _).trans (min_le_right _ _)))).2
      linarith

/-- two potentials whose difference is affine in a region agree -/
theorem affine_zero {h : ℝ} {n : Nat} {els els' : List Elec} (ht : polygonTrap h n els) (ht' : polygonTrap h n els') (typ : VTyp) {p : V3} (hz : 0 < p.z)
    (hzh : n = 0 ∨ p.z < h) {r : ℝ} (hr : 0 < r) (c : ℝ) (g : Fin 3 → ℝ)
    (heq : ∀ q, closeTo p r q → sysContrib els typ 0 0 q - sysContrib els' typ 0 0 q = c + g 0 * q.x + g 1 * q.y + g 2 * q.z) (q : V3) (hq : 0 < q.z)
    (hqh : n = 0 ∨ q.z < h) : sysContrib els typ 0 0 q = sysContrib els' typ 0 0 q := by
  have ho : ∀ w ∈ room h n, offPlanes h n (toV w) := fun w hw => Limit.images_ne (p := toV w) hw.1 hw.2
  set D : W → ℝ := fun w => sysContrib els typ 0 0 (toV w) - sysContrib els' typ 0 0 (toV w) with hD
  set A : W → ℝ := fun w => c + g 0 * w 0 + g 1 * w 1 + g 2 * w 2 with hA
  have hDa : AnalyticOnNhd ℝ D (room h n) := fun w hw => (an_trap ht typ w (ho w hw)).sub (an_trap ht' typ w (ho w hw))
  have hAa : AnalyticOnNhd ℝ A (room h n) := fun w _ => by
    have hc : ∀ i : Fin 3, AnalyticAt ℝ (fun w : W => w i) w := fun i => (ContinuousLinearMap.proj (R := ℝ) (φ := fun _ : Fin 3 => ℝ) i).analyticAt w
    exact ((analyticAt_const.add (analyticAt_const.mul (hc 0))).add (analyticAt_const.mul (hc 1))).add (analyticAt_const.mul (hc 2))
  have hp0 : ofV p ∈ room h n := ⟨by simpa [ofV] using hz, by simpa [ofV] using hzh⟩
  have hall : Set.EqOn D A (room h n) :=
    AnalyticOnNhd.eqOn_of_preconnected_of_eventuallyEq hDa hAa (room_convex h n).isPreconnected hp0
      (by filter_upwards [close_nhds p hr] with w hw using heq _ hw)
  have hline : ∀ x, sysContrib els typ 0 0 ⟨x, q.y, q.z⟩ - sysContrib els' typ 0 0 ⟨x, q.y, q.z⟩ = (c + g 1 * q.y + g 2 * q.z) + g 0 * x := fun x => by
    have := hall (x := ofV ⟨x, q.y, q.z⟩) ⟨by simpa [ofV] using hq, by simpa [ofV] using hqh⟩
    simp only [hD, hA, toV_ofV] at this
    rw [this]
    simp only [ofV, Matrix.cons_val_zero, Matrix.cons_val_one, Matrix.cons_val_two, Matrix.tail_cons, Matrix.head_cons]
    ring
  have hoff : offPlanes h n ⟨0, 0, q.z⟩ := Limit.images_ne (p := ⟨0, 0, q.z⟩) hq hqh
  have hlim : Tendsto (fun x => (c + g 1 * q.y + g 2 * q.z) + g 0 * x) atBot (𝓝 0) := by
    have := (trap_left typ q.y hoff els ht).sub (trap_left typ q.y hoff els' ht')
    rw [sub_zero] at this
    exact this.congr hline
  have hg : g 0 = 0 := by
    by_contra hn
    have h1 : Tendsto (fun x => ((c + g 1 * q.y + g 2 * q.z) + g 0 * (x - 1)) - ((c + g 1 * q.y + g 2 * q.z) + g 0 * x)) atBot (𝓝 (0 - 0)) :=
      (hlim.comp (tendsto_atBot_add_const_right _ (-1) tendsto_id)).sub hlim
    have h2 : (fun x => ((c + g 1 * q.y + g 2 * q.z) + g 0 * (x - 1)) - ((c + g 1 * q.y + g 2 * q.z) + g 0 * x)) = fun _ : ℝ => -g 0 := by
      funext x; ring
    rw [h2] at h1
    have := tendsto_nhds_unique h1 tendsto_const_nhds
    exact hn (by linarith)
  have hk : c + g 1 * q.y + g 2 * q.z = 0 := by
    simp only [hg, zero_mul, add_zero] at hlim
    exact tendsto_nhds_unique tendsto_const_nhds hlim
  have := hline q.x
  rw [hg, hk, zero_mul, add_zero] at this
  exact sub_eq_zero.1 this

theorem tens_off {h : ℝ} {n : Nat} {els : List Elec} (ht : polygonTrap h n els) (typ : VTyp) (l : Idx) (hl : l.length < 6) {p : V3} (hz : 0 < p.z)
    (hzh : n = 0 ∨ p.z < h) : electricalAt els typ l p = sysTens els typ l p :=
  electricalAt_eq els typ l hl p (avail_of_off (Limit.trap_off ht (Limit.images_ne hz hzh)) _ _)

theorem diff_step {h : ℝ} {n : Nat} {els els' : List Elec} (ht : polygonTrap h n els) (ht' : polygonTrap h n els') (typ : VTyp) (l : Idx) (a : Fin 3)
    (hl : l.length ≤ 4) {p : V3} (hz : 0 < p.z) (hzh : n = 0 ∨ p.z < h) :
    HasPartial a (fun q => sysTens els typ l q - sysTens els' typ l q) (sysTens els typ (l ++ [a]) p - sysTens els' typ (l ++ [a]) p) p :=
  (sys_step els typ l a hl p (Limit.trap_off ht (Limit.images_ne hz hzh))).sub (sys_step els' typ l a hl p (Limit.trap_off ht' (Limit.images_ne hz hzh)))

end Determ
open Determ

/-- **C142.** The field in a region is enough, with a cover, too: if two systems of polygon electrodes have the same field in a region, however
small, they have the same potential everywhere above the plane (and below the cover). -/
theorem c142_field_cover (els els' : List Elec) (h : ℝ) (n : Nat) (ht : polygonTrap h n els) (ht' : polygonTrap h n els') (typ : VTyp) (p : V3)
    (hz : 0 < p.z) (hzh : n = 0 ∨ p.z < h) (r : ℝ) (hr : 0 < r)
    (heq : ∀ q, closeTo p r q → ∀ a : Fin 3, electricalAt els typ [a] q = electricalAt els' typ [a] q)
    (q : V3) (hq : 0 < q.z) (hqh : n = 0 ∨ q.z < h) : electricalAt els typ [] q = electricalAt els' typ [] q := by
  obtain ⟨r', hr', hin⟩ := shrink hz hzh hr
  rw [order0 ht typ (Limit.images_ne hq hqh), order0 ht' typ (Limit.images_ne hq hqh)]
  refine affine_zero ht ht' typ hz hzh hr' (sysContrib els typ 0 0 p - sysContrib els' typ 0 0 p) 0 (fun u hu => ?_) q hq hqh
  have := box_const (f := fun q => sysTens els typ [] q - sysTens els' typ [] q) hr' (fun a u hu => by
    obtain ⟨h1, h2, h3⟩ := hin u hu
    have e := heq u h1 a
    rw [tens_off ht typ [a] (by simp) h2 h3, tens_off ht' typ [a] (by simp) h2 h3] at e
    have := diff_step ht ht' typ [] a (by simp) h2 h3
    rwa [List.nil_append, e, sub_self] at this) hu
  simp only [sysTens, List.length_nil, tens_zero] at this
  simpa using this

/-- **C142.** So are the second derivatives: they determine the potential everywhere. -/
theorem c142_curvature (els els' : List Elec) (h : ℝ) (n : Nat) (ht : polygonTrap h n els) (ht' : polygonTrap h n els') (typ : VTyp) (p : V3)
    (hz : 0 < p.z) (hzh : n = 0 ∨ p.z < h) (r : ℝ) (hr : 0 < r)
    (heq : ∀ q, closeTo p r q → ∀ a b : Fin 3, electricalAt els typ [a, b] q = electricalAt els' typ [a, b] q)
    (q : V3) (hq : 0 < q.z) (hqh : n = 0 ∨ q.z < h) : electricalAt els typ [] q = electricalAt els' typ [] q := by
  obtain ⟨r', hr', hin⟩ := shrink hz hzh hr
  rw [order0 ht typ (Limit.images_ne hq hqh), order0 ht' typ (Limit.images_ne hq hqh)]
  set g : Fin 3 → ℝ := fun a => sysTens els typ [a] p - sysTens els' typ [a] p with hg
  have h1 : ∀ a u, closeTo p r' u → sysTens els typ [a] u - sysTens els' typ [a] u = g a := fun a u hu =>
    box_const (f := fun q => sysTens els typ [a] q - sysTens els' typ [a] q) hr' (fun b u hu => by
      obtain ⟨h1, h2, h3⟩ := hin u hu
      have e := heq u h1 a b
      rw [tens_off ht typ [a, b] (by simp) h2 h3, tens_off ht' typ [a, b] (by simp) h2 h3] at e
      have := diff_step ht ht' typ [a] b (by simp) h2 h3
      rwa [show [a] ++ [b] = [a, b] from rfl, e, sub_self] at this) hu
  have hlin : ∀ (a : Fin 3) (u : V3), HasPartial a (fun q : V3 => g 0 * q.x + g 1 * q.y + g 2 * q.z) (g a) u := fun a u => by
    have hd : ∀ k c : ℝ, HasDerivAt (fun t : ℝ => k * (c + t)) k 0 := fun k c => by
      simpa using ((hasDerivAt_id (0 : ℝ)).const_add c).const_mul k
    unfold HasPartial
    fin_cases a
    · simpa [shift] using ((hd (g 0) u.x).add_const (g 1 * u.y)).add_const (g 2 * u.z)
    · simpa [shift] using ((hd (g 1) u.y).const_add (g 0 * u.x)).add_const (g 2 * u.z)
    · simpa [shift] using (hd (g 2) u.z).const_add (g 0 * u.x + g 1 * u.y)
  refine affine_zero ht ht' typ hz hzh hr' ((sysContrib els typ 0 0 p - sysContrib els' typ 0 0 p) - (g 0 * p.x + g 1 * p.y + g 2 * p.z)) g
    (fun u hu => ?_) q hq hqh
  have := box_const (f := fun q => (sysTens els typ [] q - sysTens els' typ [] q) - (g 0 * q.x + g 1 * q.y + g 2 * q.z)) hr' (fun a u hu => by
    obtain ⟨-, h2, h3⟩ := hin u hu
    have := HasDerivAt.sub (diff_step ht ht' typ [] a (by simp) h2 h3) (hlin a u)
    rw [List.nil_append, h1 a u hu, sub_self] at this
    exact this) hu
  simp only [sysTens, List.length_nil, tens_zero] at this
  linarith

namespace Determ

theorem nil_trap (h : ℝ) (n : Nat) : polygonTrap h n [] := fun e he => by simp at he

theorem nil_zero (typ : VTyp) (l : Idx) (hl : l.length < 6) (p : V3) : electricalAt [] typ l p = 0 := by
  rw [electricalAt_eq [] typ l hl p (fun e he => by simp at he), sysTens_eq]
  simp

theorem zero_volts {h : ℝ} {n : Nat} {els : List Elec} (ht : polygonTrap h n els) (hs : separate els) (ha : ∀ e ∈ els, hasArea e) (typ : VTyp)
    (h0 : ∀ q : V3, 0 < q.z → (n = 0 ∨ q.z < h) → electricalAt els typ [] q = 0) {p : V3} (hz : 0 < p.z) (hzh : n = 0 ∨ p.z < h) :
    ∀ e ∈ els, (e.volt typ).getD 0 = 0 := by
  by_cases hn : typ = .other
  · subst hn; intro e _; rfl
  obtain ⟨r', hr', hin⟩ := shrink hz hzh one_pos
  have hv := c142_voltages els (atVolts typ els 0) h n ht hs ha (atVolts_shapes typ els 0).symm typ p hz hzh r' hr' fun q hq => by
    obtain ⟨-, h2, h3⟩ := hin q hq
    rw [h0 q h2 h3, atVolts_sum ht hn 0 (Limit.images_ne h2 h3)]
    simp
  intro e he
  have h1 : e.volt typ ∈ els.map (Elec.volt · typ) := List.mem_map_of_mem he
  rw [hv] at h1
  obtain ⟨e', he', h2⟩ := List.mem_map.1 h1
  unfold atVolts at he'
  rw [List.mem_ofFn] at he'
  obtain ⟨i, rfl⟩ := he'
  rw [← h2]
  exact atVolt_voltD hn _ _

theorem near3 {p : V3} {P : V3 → Prop} (h : ∀ᶠ t in 𝓝 ((p.x, p.y, p.z) : ℝ × ℝ × ℝ), P (at3 t)) : ∃ r > 0, ∀ q, closeTo p r q → P q := by
  obtain ⟨r, hr, hb⟩ := Metric.eventually_nhds_iff.1 h
  refine ⟨r, hr, fun q hq => ?_⟩
  have := hb (y := (q.x, q.y, q.z)) (by
    rw [Prod.dist_eq, Prod.dist_eq, Real.dist_eq, Real.dist_eq, Real.dist_eq]
    exact max_lt hq.1 (max_lt hq.2.1 hq.2.2))
  exact this

end Determ

/-- **C142.** Static voltages, or the potential of the rf voltages, have no minimum and no maximum above the plane (and below the cover), not even a
flat one, unless all voltages are zero. -/
theorem c142_no_extremum (els : List Elec) (h : ℝ) (n : Nat) (ht : polygonTrap h n els) (hs : separate els) (ha : ∀ e ∈ els, hasArea e) (typ : VTyp)
    (hv : ∃ e ∈ els, (e.volt typ).getD 0 ≠ 0) (p : V3) (hz : 0 < p.z) (hzh : n = 0 ∨ p.z < h) :
    ¬ IsLocalExtr (fun t : ℝ × ℝ × ℝ => electricalAt els typ [] ⟨t.1, t.2.1, t.2.2⟩) (p.x, p.y, p.z) := by
  intro hm
  have hoff : offSystem els p := Limit.trap_off ht (Limit.images_ne hz hzh)
  obtain ⟨r, hr, hc⟩ := near3 (P := fun q => electricalAt els typ [] q = electricalAt els typ [] p) (c125_no_extremum els typ (p.x, p.y, p.z) hoff hm)
  obtain ⟨r', hr', hin⟩ := shrink hz hzh hr
  have h0 : ∀ q : V3, 0 < q.z → (n = 0 ∨ q.z < h) → electricalAt els typ [] q = 0 := fun q hq hqh => by
    have := affine_zero ht (nil_trap h n) typ hz hzh hr' (electricalAt els typ [] p) 0 (fun u hu => by
      obtain ⟨h1, h2, h3⟩ := hin u hu
      rw [← order0 ht typ (Limit.images_ne h2 h3), hc u h1]
      simp [sysContrib]) q hq hqh
    rw [order0 ht typ (Limit.images_ne hq hqh), this]
    simp [sysContrib]
  obtain ⟨e, he, hne⟩ := hv
  exact hne (zero_volts ht hs ha typ h0 hz hzh e he)

/-- **C142.** The pseudopotential vanishes in no region, however small, unless all rf voltages are zero. -/
theorem c142_pseudo (els : List Elec) (h : ℝ) (n : Nat) (ht : polygonTrap h n els) (hs : separate els) (ha : ∀ e ∈ els, hasArea e) (c : ℝ) (hc : c ≠ 0)
    (p : V3) (hz : 0 < p.z) (hzh : n = 0 ∨ p.z < h) (r : ℝ) (hr : 0 < r) (heq : ∀ q, closeTo p r q → pseudoAt ⟨els, some c⟩ [] q = 0) :
    ∀ e ∈ els, e.rf = 0 := by
  obtain ⟨r', hr', hin⟩ := shrink hz hzh hr
  refine zero_volts ht hs ha .rf (fun q hq hqh => ?_) hz hzh
  rw [← nil_zero .rf [] (by simp) q]
  refine c142_field_cover els [] h n ht (nil_trap h n) .rf p hz hzh r' hr' (fun u hu a => ?_) q hq hqh
  obtain ⟨h1, h2, h3⟩ := hin u hu
  have e := heq u h1
  rw [pseudoAt_eq els c [] (by simp) u fun i _ _ => avail_of_off (Limit.trap_off ht (Limit.images_ne h2 h3)) i .rf] at e
  simp only [psT, ← sq] at e
  have := (Finset.sum_eq_zero_iff_of_nonneg fun i _ => sq_nonneg _).1 e a (Finset.mem_univ a)
  rw [nil_zero .rf [a] (by simp), tens_off ht .rf [a] (by simp) h2 h3]
  exact (mul_eq_zero.1 (pow_eq_zero_iff two_ne_zero |>.1 this)).resolve_left hc

/-- **C142.** The combined potential is constant in no region, however small, unless all dc and all rf voltages are zero. -/
theorem c142_total (els : List Elec) (h : ℝ) (n : Nat) (ht : polygonTrap h n els) (hs : separate els) (ha : ∀ e ∈ els, hasArea e) (c : ℝ) (hc : c ≠ 0)
    (p : V3) (hz : 0 < p.z) (hzh : n = 0 ∨ p.z < h) (r : ℝ) (hr : 0 < r)
    (heq : ∀ q, closeTo p r q → totalAt ⟨els, some c⟩ [] q = totalAt ⟨els, some c⟩ [] p) : ∀ e ∈ els, e.dc = 0 ∧ e.rf = 0 := by
  obtain ⟨r', hr', hin⟩ := shrink hz hzh hr
  have hoff : ∀ u, closeTo p r' u → offSystem els u := fun u hu => Limit.trap_off ht (Limit.images_ne (hin u hu).2.1 (hin u hu).2.2)
  -- the derivatives vanish
  have open' : ∀ u, closeTo p r' u → ∀ a, ∀ᶠ t in 𝓝 (0 : ℝ), closeTo p r' (shift u a t) := fun u hu a => by
    have hc : ∀ b, Continuous fun t : ℝ => |MaxP.co b (shift u a t) - MaxP.co b p| := fun b => by
      simp only [co_shift]
      split_ifs <;> fun_prop
    have e : shift u a 0 = u := by fin_cases a <;> simp [shift]
    have : ∀ b, ∀ᶠ t in 𝓝 (0 : ℝ), |MaxP.co b (shift u a t) - MaxP.co b p| < r' := fun b =>
      (hc b).continuousAt.eventually_lt_const (by simpa only [e] using (close_iff p u r').1 hu b)
    filter_upwards [this 0, this 1, this 2] with t h0 h1 h2
    exact ⟨h0, h1, h2⟩
  have flat : ∀ (f : V3 → ℝ) (k : ℝ) (a : Fin 3) (f' : ℝ) (u : V3), closeTo p r' u → (∀ q, closeTo p r' q → f q = k) → HasPartial a f f' u → f' = 0 := by
    intro f k a f' u hu hk hf
    refine HasDerivAt.unique hf ((hasDerivAt_const (0 : ℝ) k).congr_of_eventuallyEq ?_)
    filter_upwards [open' u hu a] with t h using hk _ h
  have d1 : ∀ a u, closeTo p r' u → totalAt ⟨els, some c⟩ [a] u = 0 := fun a u hu =>
    flat _ _ a _ u hu (fun q hq => heq q (hin q hq).1) (total_step els c [] a (by simp) u (hoff u hu))
  have d2 : ∀ a b u, closeTo p r' u → totalAt ⟨els, some c⟩ [a, b] u = 0 := fun a b u hu =>
    flat _ 0 b _ u hu (fun q hq => d1 a q hq) (total_step els c [a] b (by simp) u (hoff u hu))
  -- so do those of the rf potential
  have hrf : ∀ q : V3, 0 < q.z → (n = 0 ∨ q.z < h) → electricalAt els .rf [] q = 0 := fun q hq hqh => by
    rw [← nil_zero .rf [] (by simp) q]
    refine c142_curvature els [] h n ht (nil_trap h n) .rf p hz hzh r' hr' (fun u hu a b => ?_) q hq hqh
    have hav := fun d typ => avail_of_off (hoff u hu) d typ
    have h1 := sysTens_trace els .dc u
    have h2 := psT_trace (fun l => c * sysTens els .rf l u) fun j => by rw [← Finset.mul_sum, sysTens_trace3, mul_zero]
    have h3 : ∑ i, totalAt ⟨els, some c⟩ [i, i] u = 0 := Finset.sum_eq_zero fun i _ => d2 i i u hu
    simp only [total_split els c [_, _] (by simp) u hav, Finset.sum_add_distrib, h1, h2, zero_add] at h3
    have h4 : ∑ j, ∑ k, (c * sysTens els .rf [j, k] u) ^ 2 = 0 := by linarith
    have h5 := (Finset.sum_eq_zero_iff_of_nonneg fun i _ => Finset.sum_nonneg fun k _ => sq_nonneg _).1 h4 a (Finset.mem_univ a)
    have h6 := (Finset.sum_eq_zero_iff_of_nonneg fun i _ => sq_nonneg _).1 h5 b (Finset.mem_univ b)
    rw [nil_zero .rf [a, b] (by simp), tens_off ht .rf [a, b] (by simp) (hin u hu).2.1 (hin u hu).2.2]
    exact (mul_eq_zero.1 (pow_eq_zero_iff two_ne_zero |>.1 h6)).resolve_left hc
  have hrf1 : ∀ a u, closeTo p r' u → sysTens els .rf [a] u = 0 := fun a u hu =>
    flat (sysTens els .rf []) 0 a _ u hu (fun q hq => by
      rw [← tens_off ht .rf [] (by simp) (hin q hq).2.1 (hin q hq).2.2]; exact hrf q (hin q hq).2.1 (hin q hq).2.2)
      (sys_step els .rf [] a (by simp) u (hoff u hu))
  have hdc : ∀ q : V3, 0 < q.z → (n = 0 ∨ q.z < h) → electricalAt els .dc [] q = 0 := fun q hq hqh => by
    rw [← nil_zero .dc [] (by simp) q]
    refine c142_field_cover els [] h n ht (nil_trap h n) .dc p hz hzh r' hr' (fun u hu a => ?_) q hq hqh
    have h1 := d1 a u hu
    rw [total_split els c [a] (by simp) u fun d typ => avail_of_off (hoff u hu) d typ] at h1
    simp only [psT, hrf1 _ u hu, mul_zero, zero_mul, Finset.sum_const_zero, add_zero] at h1
    rw [nil_zero .dc [a] (by simp), tens_off ht .dc [a] (by simp) (hin u hu).2.1 (hin u hu).2.2, h1]
  intro e he
  exact ⟨zero_volts ht hs ha .dc hdc hz hzh e he, zero_volts ht hs ha .rf hrf hz hzh e he⟩

/-- **C142.** The combined potential has no maximum above the plane (and below the cover), not even a flat one, unless all voltages are zero. -/
theorem c142_no_maximum (els : List Elec) (h : ℝ) (n : Nat) (ht : polygonTrap h n els) (hs : separate els) (ha : ∀ e ∈ els, hasArea e) (c : ℝ) (hc : c ≠ 0)
    (hv : ∃ e ∈ els, e.dc ≠ 0 ∨ e.rf ≠ 0) (p : V3) (hz : 0 < p.z) (hzh : n = 0 ∨ p.z < h) :
    ¬ IsLocalMax (fun t : ℝ × ℝ × ℝ => totalAt ⟨els, some c⟩ [] ⟨t.1, t.2.1, t.2.2⟩) (p.x, p.y, p.z) := by
  intro hm
  have hoff : offSystem els p := Limit.trap_off ht (Limit.images_ne hz hzh)
  obtain ⟨r, hr, hcst⟩ := near3 (P := fun q => totalAt ⟨els, some c⟩ [] q = totalAt ⟨els, some c⟩ [] p)
    (c125_total_no_maximum els c (p.x, p.y, p.z) hoff hm)
  obtain ⟨e, he, hne⟩ := hv
  obtain ⟨h1, h2⟩ := c142_total els h n ht hs ha c hc p hz hzh r hr hcst e he
  exact hne.elim (fun h => h h1) fun h => h h2

/-- the two squares at 1 V and -2 V: no extremum anywhere above the plane -/
example (p : V3) (hz : 0 < p.z) : ¬ IsLocalExtr (fun t : ℝ × ℝ × ℝ => electricalAt squarePair .dc [] ⟨t.1, t.2.1, t.2.2⟩) (p.x, p.y, p.z) :=
  c142_no_extremum squarePair 50 0 squarePair_trap squarePair_separate squarePair_area .dc
    ⟨_, List.mem_cons_self, by norm_num [Elec.volt]⟩ p hz (.inl rfl)

/-- and no maximum of the combined potential -/
example (p : V3) (hz : 0 < p.z) : ¬ IsLocalMax (fun t : ℝ × ℝ × ℝ => totalAt ⟨squarePair, some 1⟩ [] ⟨t.1, t.2.1, t.2.2⟩) (p.x, p.y, p.z) :=
  c142_no_maximum squarePair 50 0 squarePair_trap squarePair_separate squarePair_area 1 one_ne_zero
    ⟨_, List.mem_cons_self, .inl (by norm_num)⟩ p hz (.inl rfl)

end Electrode
