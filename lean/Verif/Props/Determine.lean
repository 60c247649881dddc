import Verif.Spec.Determine
import Verif.Lemmas.PolyAnalytic
import Mathlib.LinearAlgebra.Matrix.NonsingularInverse
import Mathlib.Analysis.Calculus.MeanValue

/-
C142: the potential in a region however small determines the voltages of the electrodes, and the electrodes can set any
potentials at suitable positions of the region.
-/
namespace Electrode
open Spec MeasureTheory Filter Topology

namespace Determ

theorem order0 {h : ℝ} {n : Nat} {els : List Elec} (ht : polygonTrap h n els) (typ : VTyp) {p : V3} (hp : offPlanes h n p) :
    electricalAt els typ [] p = sysContrib els typ 0 0 p := by
  rw [electricalAt_eq els typ [] (by simp) p (avail_of_off (Limit.trap_off ht hp) _ _)]
  exact tens_zero _ p

/-- the space above the plane and below the cover -/
def room (h : ℝ) (n : Nat) : Set W := {w | 0 < w 2 ∧ (n = 0 ∨ w 2 < h)}

theorem room_convex (h : ℝ) (n : Nat) : Convex ℝ (room h n) := by
  intro u hu v hv a b ha hb hab
  obtain ⟨h1, h2⟩ := hu
  obtain ⟨h3, h4⟩ := hv
  simp only [room, Set.mem_setOf_eq, Pi.add_apply, Pi.smul_apply, smul_eq_mul]
  constructor
  · rcases eq_or_lt_of_le ha with rfl | ha'
    · rw [show b = 1 by linarith]; simpa using h3
    · have := mul_pos ha' h1
      have := mul_nonneg hb h3.le
      linarith
  · rcases h2 with h2 | h2
    · exact .inl h2
    · rcases h4 with h4 | h4
      · exact .inl h4
      · right
        rcases eq_or_lt_of_le ha with rfl | ha'
        · rw [show b = 1 by linarith]; simpa using h4
        · have e1 := mul_lt_mul_of_pos_left h2 ha'
          have e2 := mul_le_mul_of_nonneg_left h4.le hb
          have : a * h + b * h = h := by rw [← add_mul, hab, one_mul]
          linarith

theorem close_nhds (p : V3) {r : ℝ} (hr : 0 < r) : ∀ᶠ w : W in 𝓝 (ofV p), closeTo p r (toV w) := by
  have h : ∀ i : Fin 3, ∀ᶠ w : W in 𝓝 (ofV p), |w i - ofV p i| < r := fun i => by
    have : Tendsto (fun w : W => |w i - ofV p i|) (𝓝 (ofV p)) (𝓝 |ofV p i - ofV p i|) :=
      ((continuous_apply i).sub continuous_const).abs.tendsto _
    rw [sub_self, abs_zero] at this
    exact this.eventually_lt_const hr
  filter_upwards [h 0, h 1, h 2] with w h0 h1 h2
  exact ⟨h0, h1, h2⟩

/-- the limit of the potential at the plane -/
theorem limit {h : ℝ} {n : Nat} (hh : h ≠ 0 ∨ n = 0) (typ : VTyp) (q : ℝ × ℝ) : ∀ els : List Elec, polygonTrap h n els → offEdges els q →
    Tendsto (fun z => sysContrib els typ 0 0 ⟨q.1, q.2, z⟩) (𝓝[>] 0) (𝓝 (voltageMap els typ q))
  | [], _, _ => by simpa [sysContrib, voltageMap] using tendsto_const_nhds
  | e :: L, ht, ho => by
    have ih := limit hh typ q L (fun e he => ht e (List.mem_cons_of_mem _ he)) (fun e he => ho e (List.mem_cons_of_mem _ he))
    obtain ⟨polys, hs⟩ := ht e (by simp)
    have h1 := image_limit polys h n hh q (ho e (by simp) polys h n hs)
    have := (h1.const_mul (e.voltD typ)).add ih
    simp only [sysContrib, voltageMap, List.map_cons, List.sum_cons, hs]
    exact this

theorem edges_ae : ∀ els : List Elec, ∀ᵐ q : ℝ × ℝ, offEdges els q
  | [] => Eventually.of_forall fun q e he => by simp at he
  | e :: L => by
    have h1 : ∀ᵐ q : ℝ × ℝ, ∀ polys h n, e.shape = .polygons polys h n → ∀ poly ∈ polys, offBoundary poly q := by
      by_cases hp : ∃ polys h n, e.shape = .polygons polys h n
      · obtain ⟨polys, h, n, hs⟩ := hp
        have : ∀ polys : List (List V2), ∀ᵐ q : ℝ × ℝ, ∀ poly ∈ polys, offBoundary poly q := by
          intro polys
          induction polys with
          | nil => simp
          | cons a l ih =>
            filter_upwards [boundary_ae a, ih] with q h1 h2 poly hp
            rcases List.mem_cons.1 hp with rfl | hp
            · exact h1
            · exact h2 poly hp
        filter_upwards [this polys] with q hq polys' h' n' hs'
        rw [hs] at hs'
        injection hs' with h1 h2 h3
        subst h1
        exact hq
      · exact Eventually.of_forall fun q polys h n hs => absurd ⟨polys, h, n, hs⟩ hp
    filter_upwards [h1, edges_ae L] with q h2 h3 e' he'
    rcases List.mem_cons.1 he' with rfl | he'
    · exact h2
    · exact h3 e' he'

end Determ
open Determ

/-- **C142.** If the electrical potentials of two systems of polygon electrodes agree in a region around `p`, however small, they agree
everywhere above the plane (and below the cover), and the voltages of the plane agree at every point of it on no edge. -/
theorem c142_layout (els els' : List Elec) (h : ℝ) (n : Nat) (ht : polygonTrap h n els) (ht' : polygonTrap h n els') (typ : VTyp) (p : V3)
    (hz : 0 < p.z) (hzh : n = 0 ∨ p.z < h) (r : ℝ) (hr : 0 < r) (heq : ∀ q, closeTo p r q → electricalAt els typ [] q = electricalAt els' typ [] q) :
    (∀ q : V3, 0 < q.z → (n = 0 ∨ q.z < h) → electricalAt els typ [] q = electricalAt els' typ [] q) ∧
      ∀ q : ℝ × ℝ, offEdges els q → offEdges els' q → voltageMap els typ q = voltageMap els' typ q := by
  have ho : ∀ w ∈ room h n, offPlanes h n (toV w) := fun w hw => Limit.images_ne (p := toV w) hw.1 hw.2
  have hp0 : ofV p ∈ room h n := ⟨by simpa [ofV] using hz, by simpa [ofV] using hzh⟩
  have hev : (fun w => sysContrib els typ 0 0 (toV w)) =ᶠ[𝓝 (ofV p)] fun w => sysContrib els' typ 0 0 (toV w) := by
    have h1 : ∀ᶠ w : W in 𝓝 (ofV p), 0 < w 2 := (continuous_apply 2).continuousAt.eventually_const_lt hp0.1
    have h2 : ∀ᶠ w : W in 𝓝 (ofV p), n = 0 ∨ w 2 < h := by
      rcases hp0.2 with h0 | h0
      · exact Eventually.of_forall fun _ => .inl h0
      · filter_upwards [(continuous_apply 2).continuousAt.eventually_lt_const h0] with w hw using .inr hw
    filter_upwards [close_nhds p hr, h1, h2] with w hw h1 h2
    have := heq _ hw
    rwa [order0 ht typ (ho w ⟨h1, h2⟩), order0 ht' typ (ho w ⟨h1, h2⟩)] at this
  have hall : Set.EqOn (fun w => sysContrib els typ 0 0 (toV w)) (fun w => sysContrib els' typ 0 0 (toV w)) (room h n) :=
    AnalyticOnNhd.eqOn_of_preconnected_of_eventuallyEq (fun w hw => an_trap ht typ w (ho w hw)) (fun w hw => an_trap ht' typ w (ho w hw))
      (room_convex h n).isPreconnected hp0 hev
  have key : ∀ q : V3, 0 < q.z → (n = 0 ∨ q.z < h) → sysContrib els typ 0 0 q = sysContrib els' typ 0 0 q := fun q h1 h2 => by
    have := hall (x := ofV q) ⟨by simpa [ofV] using h1, by simpa [ofV] using h2⟩
    simpa only [toV_ofV] using this
  refine ⟨fun q h1 h2 => ?_, fun q h1 h2 => ?_⟩
  · rw [order0 ht typ (Limit.images_ne h1 h2), order0 ht' typ (Limit.images_ne h1 h2)]
    exact key q h1 h2
  · have hh : h ≠ 0 ∨ n = 0 := by
      rcases hzh with h0 | h0
      · exact .inr h0
      · exact .inl (by linarith)
    have l1 := limit hh typ q els ht h1
    have l2 := limit hh typ q els' ht' h2
    refine tendsto_nhds_unique (l1.congr' ?_) l2
    have hs : ∀ᶠ z : ℝ in 𝓝[>] 0, n = 0 ∨ z < h := by
      rcases hzh with h0 | h0
      · exact Eventually.of_forall fun _ => .inl h0
      · filter_upwards [nhdsWithin_le_nhds (eventually_lt_nhds (show (0 : ℝ) < h by linarith))] with z hz using .inr hz
    filter_upwards [self_mem_nhdsWithin, hs] with z h1 h2
    exact key ⟨q.1, q.2, z⟩ h1 h2

namespace Determ

/-- a point of the plane that only this electrode covers -/
theorem own {els : List Elec} (hs : separate els) (i : Nat) (hi : i < els.length) (ha : hasArea els[i]) (P : ℝ × ℝ → Prop) (hP : ∀ᵐ q, P q) :
    ∃ q, P q ∧ coverage q els[i].shape ≠ 0 ∧ ∀ j (hj : j < els.length), j ≠ i → coverage q els[j].shape = 0 := by
  by_contra hno
  push Not at hno
  refine ha ?_
  filter_upwards [hs, hP] with q h1 h2
  by_contra h3
  obtain ⟨j, hj, hji, hc⟩ := hno q h2 h3
  have e : ∀ (L : List ℤ) (a b : Nat) (ha : a < L.length) (hb : b < L.length), a ≠ b → (∀ x ∈ L, 0 ≤ x) → L[a] + L[b] ≤ L.sum := by
    intro L
    induction L with
    | nil => intro a b ha; simp at ha
    | cons x L ih =>
      intro a b ha hb hab hx
      have hL : ∀ x ∈ L, 0 ≤ x := fun y hy => hx y (List.mem_cons_of_mem _ hy)
      have h0 := hx x (by simp)
      match a, b with
      | 0, 0 => exact absurd rfl hab
      | 0, b + 1 =>
        have := List.single_le_sum hL (L[b]'(by simpa using hb)) (List.getElem_mem _)
        simp; linarith
      | a + 1, 0 =>
        have := List.single_le_sum hL (L[a]'(by simpa using ha)) (List.getElem_mem _)
        simp; linarith
      | a + 1, b + 1 =>
        have := ih a b (by simpa using ha) (by simpa using hb) (by omega) hL
        simp; linarith
  have h4 := e (els.map fun e => |coverage q e.shape|) i j (by simpa using hi) (by simpa using hj) (Ne.symm hji) (by simp)
  simp only [List.getElem_map] at h4
  have h5 : 1 ≤ |coverage q els[i].shape| := Int.one_le_abs h3
  have h6 : 1 ≤ |coverage q els[j].shape| := Int.one_le_abs hc
  omega

theorem map_own {els : List Elec} (typ : VTyp) (q : ℝ × ℝ) (i : Nat) (hi : i < els.length)
    (h : ∀ j (hj : j < els.length), j ≠ i → coverage q els[j].shape = 0) :
    voltageMap els typ q = (els[i].volt typ).getD 0 * (coverage q els[i].shape : ℝ) := by
  unfold voltageMap
  rw [← Fin.sum_univ_fun_getElem els fun e => (e.volt typ).getD 0 * (coverage q e.shape : ℝ)]
  rw [Finset.sum_eq_single ⟨i, hi⟩]
  · intro j _ hj
    have := h j j.2 (fun h => hj (Fin.ext h))
    simp only [this]
    simp
  · simp

end Determ

/-- **C142.** The electrical potential in a region, however small, determines the voltages of electrodes that do not overlap: if it is the same for
two sets of voltages, the voltages are the same. -/
theorem c142_voltages (els els' : List Elec) (h : ℝ) (n : Nat) (ht : polygonTrap h n els) (hs : separate els) (ha : ∀ e ∈ els, hasArea e)
    (hsame : els.map Elec.shape = els'.map Elec.shape) (typ : VTyp) (p : V3)
    (hz : 0 < p.z) (hzh : n = 0 ∨ p.z < h) (r : ℝ) (hr : 0 < r) (heq : ∀ q, closeTo p r q → electricalAt els typ [] q = electricalAt els' typ [] q) :
    els.map (Elec.volt · typ) = els'.map (Elec.volt · typ) := by
  have hlen : els.length = els'.length := by simpa using congrArg List.length hsame
  have hsh : ∀ i (hi : i < els.length), els[i].shape = (els'[i]'(hlen ▸ hi)).shape := fun i hi => by
    have := List.getElem_of_eq hsame (i := i) (by simpa using hi)
    simpa using this
  have ht' : polygonTrap h n els' := fun e he => by
    obtain ⟨i, hi, rfl⟩ := List.getElem_of_mem he
    rw [← hsh i (hlen ▸ hi)]
    exact ht _ (List.getElem_mem _)
  have hmap := (c142_layout els els' h n ht ht' typ p hz hzh r hr heq).2
  refine List.ext_getElem (by simpa using hlen) fun i h1 h2 => ?_
  have hi : i < els.length := by simpa using h1
  obtain ⟨q, ⟨q1, q2⟩, q3, q4⟩ := own hs i hi (ha _ (List.getElem_mem _)) (fun q => offEdges els q ∧ offEdges els' q) ((edges_ae els).and (edges_ae els'))
  have := hmap q q1 q2
  rw [map_own typ q i hi q4, map_own typ q i (hlen ▸ hi) (fun j hj hji => by rw [← hsh j (hlen ▸ hj)]; exact q4 j (hlen ▸ hj) hji), ← hsh i hi] at this
  have h3 := mul_right_cancel₀ (by exact_mod_cast q3) this
  simp only [List.getElem_map]
  cases typ with
  | dc => simpa [Elec.volt] using h3
  | rf => simpa [Elec.volt] using h3
  | other => rfl

namespace Determ

theorem atVolt_shape (typ : VTyp) (v : ℝ) (e : Elec) : (atVolt typ v e).shape = e.shape := by cases typ <;> rfl

theorem atVolt_voltD {typ : VTyp} (hn : typ ≠ .other) (v : ℝ) (e : Elec) : (atVolt typ v e).voltD typ = v := by
  cases typ with
  | dc => rfl
  | rf => rfl
  | other => exact absurd rfl hn

theorem atVolts_shapes (typ : VTyp) (els : List Elec) (v : Fin els.length → ℝ) : (atVolts typ els v).map Elec.shape = els.map Elec.shape := by
  unfold atVolts
  rw [List.map_ofFn]
  have : (Elec.shape ∘ fun i => atVolt typ (v i) (els.get i)) = fun i => (els.get i).shape := funext fun i => atVolt_shape typ _ _
  rw [this]
  refine List.ext_getElem (by simp) fun i h1 h2 => by simp

theorem atVolts_trap {h : ℝ} {n : Nat} {els : List Elec} (ht : polygonTrap h n els) (typ : VTyp) (v : Fin els.length → ℝ) :
    polygonTrap h n (atVolts typ els v) := by
  intro e he
  unfold atVolts at he
  rw [List.mem_ofFn] at he
  obtain ⟨i, rfl⟩ := he
  rw [atVolt_shape]
  exact ht _ (List.get_mem _ _)

theorem atVolts_sum {h : ℝ} {n : Nat} {els : List Elec} (ht : polygonTrap h n els) {typ : VTyp} (hn : typ ≠ .other) (v : Fin els.length → ℝ) {p : V3}
    (hp : offPlanes h n p) : electricalAt (atVolts typ els v) typ [] p = ∑ i, v i * (els.get i).shape.contrib 0 p 0 := by
  rw [order0 (atVolts_trap ht typ v) typ hp]
  unfold sysContrib atVolts
  rw [List.map_ofFn, List.sum_ofFn]
  refine Finset.sum_congr rfl fun i _ => ?_
  simp only [Function.comp_apply, atVolt_voltD hn, atVolt_shape]

end Determ

/-- **C142.** In every region above the plane (and below the cover), however small, there are as many positions as electrodes so that the voltages can
give these positions any potentials, in exactly one way. -/
theorem c142_prescribe (els : List Elec) (h : ℝ) (n : Nat) (ht : polygonTrap h n els) (hs : separate els) (ha : ∀ e ∈ els, hasArea e)
    (typ : VTyp) (hn : typ ≠ .other) (p : V3) (hz : 0 < p.z) (hzh : n = 0 ∨ p.z < h) (r : ℝ) (hr : 0 < r) :
    ∃ x : Fin els.length → V3, (∀ k, closeTo p r (x k) ∧ 0 < (x k).z ∧ (n = 0 ∨ (x k).z < h)) ∧
      ∀ u : Fin els.length → ℝ, ∃! v : Fin els.length → ℝ, ∀ k, electricalAt (atVolts typ els v) typ [] (x k) = u k := by
  let F : V3 → Fin els.length → ℝ := fun q i => (els.get i).shape.contrib 0 q 0
  let S : Set (Fin els.length → ℝ) := F '' {q | closeTo p r q ∧ 0 < q.z ∧ (n = 0 ∨ q.z < h)}
  -- a region in which all positions are between the planes
  obtain ⟨r', hr', hin⟩ : ∃ r' > 0, ∀ q, closeTo p r' q → closeTo p r q ∧ 0 < q.z ∧ (n = 0 ∨ q.z < h) := by
    rcases hzh with h0 | h0
    · refine ⟨min r p.z, lt_min hr hz, fun q ⟨h1, h2, h3⟩ => ⟨⟨h1.trans_le (min_le_left _ _), h2.trans_le (min_le_left _ _), h3.trans_le (min_le_left _ _)⟩, ?_, .inl h0⟩⟩
      have := (abs_lt.1 (h3.trans_le (min_le_right _ _))).1
      linarith
    · refine ⟨min r (min p.z (h - p.z)), lt_min hr (lt_min hz (by linarith)), fun q ⟨h1, h2, h3⟩ =>
        ⟨⟨h1.trans_le (min_le_left _ _), h2.trans_le (min_le_left _ _), h3.trans_le (min_le_left _ _)⟩, ?_, .inr ?_⟩⟩
      · have := (abs_lt.1 (h3.trans_le ((min_le_right _ _).trans (min_le_left _ _)))).1
        linarith
      · have := (abs_lt.1 (h3.trans_le ((min_le_right _ _).trans (min_le_right _ _)))).2
        linarith
  have hspan : Submodule.span ℝ S = ⊤ := by
    by_contra hne
    obtain ⟨f, hf0, hf⟩ := Submodule.exists_le_ker_of_lt_top _ (lt_top_iff_ne_top.2 hne)
    refine hf0 ?_
    set v : Fin els.length → ℝ := fun i => f (Pi.single i 1) with hv
    have hfv : ∀ w, f w = ∑ i, v i * w i := fun w => by
      conv_lhs => rw [LinearMap.pi_apply_eq_sum_univ f w]
      refine Finset.sum_congr rfl fun i _ => ?_
      rw [smul_eq_mul, mul_comm, hv]
      congr 2
      funext j
      simp [Pi.single_apply, eq_comm]
    have hzero : ∀ q, closeTo p r' q → electricalAt (atVolts typ els v) typ [] q = electricalAt (atVolts typ els 0) typ [] q := fun q hq => by
      obtain ⟨h1, h2, h3⟩ := hin q hq
      have ho : offPlanes h n q := Limit.images_ne h2 h3
      rw [atVolts_sum ht hn v ho, atVolts_sum ht hn 0 ho]
      have : f (F q) = 0 := hf (Submodule.subset_span ⟨q, hin q hq, rfl⟩)
      rw [hfv] at this
      simpa [F] using this
    have hsh := atVolts_shapes typ els v
    have hsep : separate (atVolts typ els v) := by
      unfold separate at hs ⊢
      have e : ∀ (L : List Elec) (q : ℝ × ℝ), (L.map fun e => |coverage q e.shape|) = (L.map Elec.shape).map fun s => |coverage q s| := fun L q => by simp
      simp only [e, hsh]
      simpa only [e] using hs
    have harea : ∀ e ∈ atVolts typ els v, hasArea e := fun e he => by
      unfold atVolts at he
      rw [List.mem_ofFn] at he
      obtain ⟨i, rfl⟩ := he
      unfold hasArea
      rw [atVolt_shape]
      exact ha _ (List.get_mem _ _)
    have hvolt := c142_voltages _ _ h n (atVolts_trap ht typ v) hsep harea (hsh.trans (atVolts_shapes typ els 0).symm) typ p hz hzh r' hr' hzero
    have hv0 : v = 0 := by
      funext i
      have := List.getElem_of_eq hvolt (i := i) (by simp [atVolts])
      simp only [atVolts, List.getElem_map, List.getElem_ofFn] at this
      have h2 : (atVolt typ (v i) (els.get i)).voltD typ = (atVolt typ 0 (els.get i)).voltD typ := by
        unfold Elec.voltD
        exact congrArg (Option.getD · 0) this
      rwa [atVolt_voltD hn, atVolt_voltD hn] at h2
    ext i
    have := hfv (Pi.single i 1)
    rw [hv0] at this
    simpa using this
  have hfin : Module.finrank ℝ (Submodule.span ℝ S) = els.length := by rw [hspan]; simp
  obtain ⟨g, hg, hli⟩ : ∃ g : Fin els.length → Fin els.length → ℝ, (∀ i, g i ∈ S) ∧ LinearIndependent ℝ g := by
    obtain ⟨g, hg, -, hli⟩ := Submodule.exists_fun_fin_finrank_span_eq ℝ S
    exact ⟨g ∘ finCongr hfin.symm, fun i => hg _, hli.comp _ (finCongr hfin.symm).injective⟩
  choose x hx hxg using hg
  refine ⟨x, hx, fun u => ?_⟩
  have hsum : ∀ v k, electricalAt (atVolts typ els v) typ [] (x k) = (Matrix.of g).mulVec v k := fun v k => by
    rw [atVolts_sum ht hn v (Limit.images_ne (hx k).2.1 (hx k).2.2)]
    simp only [Matrix.mulVec, dotProduct, Matrix.of_apply, ← hxg k, F]
    exact Finset.sum_congr rfl fun i _ => mul_comm _ _
  have hu : IsUnit (Matrix.of g) := Matrix.linearIndependent_rows_iff_isUnit.1 hli
  simp only [hsum]
  refine ⟨(Matrix.of g)⁻¹.mulVec u, fun k => ?_, fun v hv => ?_⟩
  · rw [Matrix.mulVec_mulVec, Matrix.mul_nonsing_inv _ ((Matrix.isUnit_iff_isUnit_det _).1 hu), Matrix.one_mulVec]
  · have : (Matrix.of g).mulVec v = u := funext hv
    rw [← this, Matrix.mulVec_mulVec, Matrix.nonsing_inv_mul _ ((Matrix.isUnit_iff_isUnit_det _).1 hu), Matrix.one_mulVec]

namespace Determ

theorem ball_close (p : V3) (r : ℝ) (hr : 0 < r) (w : W) : w ∈ Metric.ball (ofV p) r ↔ closeTo p r (toV w) := by
  rw [Metric.mem_ball, dist_pi_lt_iff hr, Fin.forall_fin_succ, Fin.forall_fin_two]
  simp [Real.dist_eq, ofV, toV, closeTo]

theorem far {h : ℝ} (typ : VTyp) (x y : ℝ) : ∀ els : List Elec, polygonTrap h 0 els →
    Tendsto (fun z => sysContrib els typ 0 0 ⟨x, y, z⟩) atTop (𝓝 0)
  | [], _ => by simpa [sysContrib] using tendsto_const_nhds
  | e :: L, ht => by
    have ih := far typ x y L fun e he => ht e (List.mem_cons_of_mem _ he)
    obtain ⟨polys, hs⟩ := ht e (by simp)
    have h1 := c86_far e.name e.dc e.rf polys h (e.voltD typ) x y
    simp only [compAt_polygons _ _ _ _ _ _ _ _ _ (show 0 < 2 * 0 + 1 by norm_num)] at h1
    have := h1.add ih
    rw [add_zero] at this
    simp only [sysContrib, List.map_cons, List.sum_cons, hs]
    exact this

end Determ

/-- **C142.** Without a cover the field in a region is enough: if two systems of polygon electrodes have the same field in a region, however small, they have the same
potential everywhere above the plane. -/
theorem c142_field (els els' : List Elec) (h : ℝ) (ht : polygonTrap h 0 els) (ht' : polygonTrap h 0 els') (typ : VTyp) (p : V3)
    (hz : 0 < p.z) (r : ℝ) (hr : 0 < r) (heq : ∀ q, closeTo p r q → ∀ a : Fin 3, electricalAt els typ [a] q = electricalAt els' typ [a] q)
    (q : V3) (hq : 0 < q.z) : electricalAt els typ [] q = electricalAt els' typ [] q := by
  have ho : ∀ w ∈ room h 0, offPlanes h 0 (toV w) := fun w hw => Limit.images_ne (p := toV w) hw.1 hw.2
  set r' := min r p.z with hr'
  have hpos : 0 < r' := lt_min hr hz
  have hin : ∀ w ∈ Metric.ball (ofV p) r', closeTo p r (toV w) ∧ w ∈ room h 0 := fun w hw => by
    obtain ⟨h1, h2, h3⟩ := (ball_close p r' hpos w).1 hw
    refine ⟨⟨h1.trans_le (min_le_left _ _), h2.trans_le (min_le_left _ _), h3.trans_le (min_le_left _ _)⟩, ?_, .inl rfl⟩
    have := (abs_lt.1 (h3.trans_le (min_le_right _ _))).1
    simp only [toV] at this
    linarith
  set D : W → ℝ := fun w => sysContrib els typ 0 0 (toV w) - sysContrib els' typ 0 0 (toV w) with hD
  have hDa : AnalyticOnNhd ℝ D (room h 0) := fun w hw => (an_trap ht typ w (ho w hw)).sub (an_trap ht' typ w (ho w hw))
  have hDd : DifferentiableOn ℝ D (Metric.ball (ofV p) r') := fun w hw => (hDa w (hin w hw).2).differentiableAt.differentiableWithinAt
  have hDf : Set.EqOn (fderiv ℝ D) 0 (Metric.ball (ofV p) r') := by
    intro w hw
    obtain ⟨h1, h2⟩ := hin w hw
    have hoff := ho w h2
    have hd := (hDa w h2).differentiableAt.hasFDerivAt
    have hax : ∀ a : Fin 3, fderiv ℝ D w (Pi.single a 1) = 0 := fun a => by
      have e1 : HasDerivAt (fun t : ℝ => w + t • (Pi.single a (1 : ℝ) : W)) (Pi.single a 1) 0 := by
        simpa using ((hasDerivAt_id (0 : ℝ)).smul_const (Pi.single a (1 : ℝ) : W)).const_add w
      have e2 : HasDerivAt (fun t : ℝ => D (w + t • (Pi.single a (1 : ℝ) : W))) (fderiv ℝ D w (Pi.single a 1)) 0 := by
        have hd' : HasFDerivAt D (fderiv ℝ D w) (w + (0 : ℝ) • (Pi.single a (1 : ℝ) : W)) := by simpa using hd
        exact hd'.comp_hasDerivAt 0 e1
      have hs := Limit.trap_off ht hoff
      have hs' := Limit.trap_off ht' hoff
      have e3 := (sys_step els typ [] a (by simp) (toV w) hs).sub (sys_step els' typ [] a (by simp) (toV w) hs')
      have e4 := heq _ h1 a
      rw [electricalAt_eq els typ [a] (by simp) _ (avail_of_off hs _ _), electricalAt_eq els' typ [a] (by simp) _ (avail_of_off hs' _ _)] at e4
      rw [List.nil_append, e4, sub_self] at e3
      refine e2.unique (e3.congr_of_eventuallyEq (Eventually.of_forall fun t => ?_))
      simp only [hD, toV_shift]
      exact (congrArg₂ (· - ·) (tens_zero _ _) (tens_zero _ _)).symm
    refine ContinuousLinearMap.coe_injective (LinearMap.pi_ext' fun a => LinearMap.ext_ring ?_)
    simpa using hax a
  have hconst : ∀ w ∈ Metric.ball (ofV p) r', D w = D (ofV p) := fun w hw =>
    IsOpen.is_const_of_fderiv_eq_zero Metric.isOpen_ball (convex_ball _ _).isPreconnected hDd hDf hw (Metric.mem_ball_self hpos)
  have hp0 : ofV p ∈ room h 0 := (hin _ (Metric.mem_ball_self hpos)).2
  have hall : Set.EqOn D (fun _ => D (ofV p)) (room h 0) :=
    AnalyticOnNhd.eqOn_of_preconnected_of_eventuallyEq hDa (fun w _ => analyticAt_const) (room_convex h 0).isPreconnected hp0
      (by filter_upwards [Metric.ball_mem_nhds _ hpos] with w hw using hconst w hw)
  have hlim : Tendsto (fun z => D (ofV ⟨0, 0, z⟩)) atTop (𝓝 0) := by
    have := (far typ 0 0 els ht).sub (far typ 0 0 els' ht')
    simpa only [hD, toV_ofV, sub_zero] using this
  have hc : D (ofV p) = 0 := by
    refine tendsto_nhds_unique (tendsto_const_nhds.congr' ?_) hlim
    filter_upwards [eventually_gt_atTop 0] with z hz
    exact (hall (x := ofV ⟨0, 0, z⟩) ⟨by simpa [ofV] using hz, .inl rfl⟩).symm
  have h1 := (hall (x := ofV q) ⟨by simpa [ofV] using hq, .inl rfl⟩).trans hc
  simp only [hD, toV_ofV] at h1
  rw [order0 ht typ (Limit.images_ne hq (.inl rfl)), order0 ht' typ (Limit.images_ne hq (.inl rfl))]
  linarith

/-- the two squares cover some area -/
theorem squarePair_area : ∀ e ∈ squarePair, hasArea e := by
  have key : ∀ (a b : ℝ) (S : Shape), a < b → (∀ q : ℝ × ℝ, coverage q S = if a ≤ q.1 ∧ q.1 < b ∧ 0 ≤ q.2 ∧ q.2 < 1 then 1 else 0) →
      ¬ ∀ᵐ q : ℝ × ℝ, coverage q S = 0 := by
    intro a b S hab hS h
    have h1 : volume (Set.Ico a b ×ˢ Set.Ico (0 : ℝ) 1) = 0 := by
      refine measure_mono_null (fun q hq => ?_) h
      have : coverage q S = 1 := by
        rw [hS, if_pos ⟨hq.1.1, hq.1.2, hq.2.1, hq.2.2⟩]
      simp [this]
    rw [Measure.volume_eq_prod, Measure.prod_prod, Real.volume_Ico, Real.volume_Ico] at h1
    simp at h1
    linarith
  intro e he
  simp only [squarePair, List.mem_cons, List.not_mem_nil, or_false] at he
  rcases he with rfl | rfl
  · exact key 0 1 _ (by norm_num) fun q => covered_square q
  · refine key 1 2 _ (by norm_num) fun q => ?_
    simp only [coverage, covered, List.map_cons, List.map_nil, List.sum_cons, List.sum_nil, add_zero]
    exact winding_rect q 1 2 0 1 (by norm_num) (by norm_num)

/-- two positions less than a thousandth away from `(3, 4, 5)` at which the two squares can set any two potentials -/
example : ∃ x : Fin 2 → V3, (∀ k, closeTo ⟨3, 4, 5⟩ (1 / 1000) (x k)) ∧
    ∀ u : Fin 2 → ℝ, ∃! v : Fin 2 → ℝ, ∀ k, electricalAt (atVolts .dc squarePair v) .dc [] (x k) = u k := by
  obtain ⟨x, h1, h2⟩ := c142_prescribe squarePair 50 0 squarePair_trap squarePair_separate squarePair_area .dc (by simp) ⟨3, 4, 5⟩ (by norm_num) (.inl rfl)
    (1 / 1000) (by norm_num)
  exact ⟨x, fun k => (h1 k).1, h2⟩

/-- the squares at other voltages have another potential, and another field, somewhere in the same region -/
example (v : Fin 2 → ℝ) (hv : v ≠ ![1, -2]) : (∃ q, closeTo ⟨3, 4, 5⟩ (1 / 1000) q ∧ electricalAt squarePair .dc [] q ≠ electricalAt (atVolts .dc squarePair v) .dc [] q) ∧
    ∃ q, closeTo ⟨3, 4, 5⟩ (1 / 1000) q ∧ ∃ a, electricalAt squarePair .dc [a] q ≠ electricalAt (atVolts .dc squarePair v) .dc [a] q := by
  have key : ∀ r > 0, ¬ ∀ q, closeTo ⟨3, 4, 5⟩ r q → electricalAt squarePair .dc [] q = electricalAt (atVolts .dc squarePair v) .dc [] q := by
    intro r hr h
    have := c142_voltages squarePair (atVolts .dc squarePair v) 50 0 squarePair_trap squarePair_separate squarePair_area (atVolts_shapes .dc squarePair v).symm .dc ⟨3, 4, 5⟩
      (by norm_num) (.inl rfl) r hr h
    refine hv ?_
    have e : (atVolts .dc squarePair v).map (Elec.volt · .dc) = [some (v 0), some (v 1)] := rfl
    rw [e] at this
    simp only [squarePair, List.map_cons, List.map_nil, Elec.volt, List.cons.injEq, Option.some.injEq, and_true] at this
    funext i
    fin_cases i
    · exact this.1.symm
    · exact this.2.symm
  constructor
  · by_contra hno
    push Not at hno
    exact key _ (by norm_num) hno
  · by_contra hno
    push Not at hno
    have := c142_field squarePair (atVolts .dc squarePair v) 50 squarePair_trap (atVolts_trap squarePair_trap .dc v) .dc ⟨3, 4, 5⟩ (by norm_num) _ (by norm_num) hno
    refine key 1 one_pos fun q hq => this q ?_
    have := (abs_lt.1 hq.2.2).1
    norm_num at this
    linarith

end Electrode
