import Verif.Props.Dirichlet
import Verif.Lemmas.MaxPrinciple
import Mathlib.Analysis.Real.Pi.Bounds

/-
The potential of polygons without images as a field: continuous off the plane and up to the
plane off the edges, bounded, and small far away.
-/
namespace Electrode.Field
open Spec Real Filter Topology Set PolyInt

theorem tendsto_list_sum {α ι : Type*} {F : Filter α} (L : List ι) (f : ι → α → ℝ) (g : ι → ℝ)
    (h : ∀ a ∈ L, Tendsto (f a) F (𝓝 (g a))) :
    Tendsto (fun t => (L.map fun a => f a t).sum) F (𝓝 ((L.map g).sum)) := by
  induction L with
  | nil => exact tendsto_const_nhds
  | cons a L ih =>
    simp only [List.map_cons, List.sum_cons]
    exact (h a (by simp)).add (ih fun b hb => h b (by simp [hb]))

theorem relE_cont {t : ℝ × ℝ × ℝ} {a b : V2}
    (hd : 0 < √((a.x - t.1) ^ 2 + (a.y - t.2.1) ^ 2 + t.2.2 ^ 2) * √((b.x - t.1) ^ 2 + (b.y - t.2.1) ^ 2 + t.2.2 ^ 2)
        + (a.x - t.1) * (b.x - t.1) + (a.y - t.2.1) * (b.y - t.2.1)
        + t.2.2 * (t.2.2 + √((a.x - t.1) ^ 2 + (a.y - t.2.1) ^ 2 + t.2.2 ^ 2)
          + √((b.x - t.1) ^ 2 + (b.y - t.2.1) ^ 2 + t.2.2 ^ 2))) :
    ContinuousAt (fun t => relE (at3 t) a b) t := by
  simp only [relE, edgeE, at3]
  refine continuousAt_const.mul (Real.continuous_arctan.continuousAt.comp' ?_)
  exact ContinuousAt.div (Continuous.continuousAt (by fun_prop)) (Continuous.continuousAt (by fun_prop)) hd.ne'

theorem relE_cont_above {t : ℝ × ℝ × ℝ} (ht : 0 < t.2.2) (a b : V2) : ContinuousAt (fun t => relE (at3 t) a b) t :=
  relE_cont (edge_den_pos _ _ _ _ _ ht)

theorem relE_cont_plane {q : ℝ × ℝ} {a b : V2} (h : ¬ onSegment q a b) :
    ContinuousAt (fun t => relE (at3 t) a b) (q.1, q.2, 0) := by
  refine relE_cont ?_
  have := (relE_zero h).2
  simpa using this

theorem poly_sum {p : V3} (hz : 0 < p.z) (poly : List V2) :
    polyComp 0 0 poly p = ((List.zip poly (poly.rotate 1)).map fun e => relE p e.1 e.2).sum :=
  (poly_relE poly (p.x, p.y) p.z hz).symm

theorem poly_cont {t : ℝ × ℝ × ℝ} (ht : t.2.2 ≠ 0) (poly : List V2) : ContinuousAt (fun t => polyComp 0 0 poly (at3 t)) t := by
  have up : ∀ t : ℝ × ℝ × ℝ, 0 < t.2.2 → ContinuousAt (fun t => polyComp 0 0 poly (at3 t)) t := by
    intro t ht
    have h1 : ContinuousAt (fun t => ((List.zip poly (poly.rotate 1)).map fun e => relE (at3 t) e.1 e.2).sum) t :=
      tendsto_list_sum _ (fun (e : V2 × V2) t => relE (at3 t) e.1 e.2) _ fun e _ => relE_cont_above ht e.1 e.2
    refine h1.congr ?_
    have : ∀ᶠ s : ℝ × ℝ × ℝ in 𝓝 t, 0 < s.2.2 := (continuous_snd.comp continuous_snd).continuousAt.eventually_const_lt ht
    filter_upwards [this] with s hs
    exact (poly_sum (p := at3 s) hs poly).symm
  rcases lt_or_gt_of_ne ht with h | h
  · have e : (fun t : ℝ × ℝ × ℝ => polyComp 0 0 poly (at3 t)) = fun t => -polyComp 0 0 poly (at3 (t.1, t.2.1, -t.2.2)) := by
      funext t
      rw [← polyComp0_mirror]
      simp [at3, V3.mirror]
    rw [e]
    have h1 := up (t.1, t.2.1, -t.2.2) (by simpa using h)
    have h2 : ContinuousAt (fun t : ℝ × ℝ × ℝ => (t.1, t.2.1, -t.2.2)) t := by fun_prop
    exact (ContinuousAt.comp' (f := fun t : ℝ × ℝ × ℝ => (t.1, t.2.1, -t.2.2)) h1 h2).neg
  · exact up t h

theorem poly_plane {q : ℝ × ℝ} {poly : List V2} (h : offBoundary poly q) :
    Tendsto (fun t => polyComp 0 0 poly (at3 t)) (𝓝[above] (q.1, q.2, 0)) (𝓝 (winding poly q : ℝ)) := by
  rw [winding_relE poly q h]
  have h1 : Tendsto (fun t => ((List.zip poly (poly.rotate 1)).map fun e => relE (at3 t) e.1 e.2).sum) (𝓝 (q.1, q.2, 0))
      (𝓝 ((List.zip poly (poly.rotate 1)).map fun e => relE ⟨q.1, q.2, 0⟩ e.1 e.2).sum) :=
    tendsto_list_sum _ (fun (e : V2 × V2) t => relE (at3 t) e.1 e.2) _ fun e he => relE_cont_plane (h e he)
  refine (h1.mono_left nhdsWithin_le_nhds).congr' ?_
  filter_upwards [self_mem_nhdsWithin] with t ht
  exact (poly_sum (p := at3 t) ht poly).symm

theorem arctan_abs_pi (x : ℝ) : |arctan x| ≤ π := by
  have := pi_pos
  exact abs_le.mpr ⟨by linarith [neg_pi_div_two_lt_arctan x], by linarith [arctan_lt_pi_div_two x]⟩

theorem relE_le (p : V3) (a b : V2) : |relE p a b| ≤ 1 := by
  have hpi := pi_pos
  unfold relE edgeE
  rw [abs_mul, abs_of_pos (by positivity : 0 < 1 / π)]
  rw [one_div, inv_mul_le_iff₀ hpi, mul_one]
  exact arctan_abs_pi _

theorem abs_list_sum_le {ι : Type*} (L : List ι) (f : ι → ℝ) (c : ℝ) (h : ∀ l ∈ L, |f l| ≤ c) : |(L.map f).sum| ≤ L.length * c := by
  induction L with
  | nil => simp
  | cons x L ih =>
    simp only [List.map_cons, List.sum_cons, List.length_cons]
    push_cast
    have h1 := h x (by simp)
    have h2 := ih fun l hl => h l (by simp [hl])
    have := abs_add_le (f x) (L.map f).sum
    linarith

theorem poly_bound {p : V3} (hz : p.z ≠ 0) (poly : List V2) : |polyComp 0 0 poly p| ≤ poly.length := by
  have up : ∀ p : V3, 0 < p.z → |polyComp 0 0 poly p| ≤ poly.length := by
    intro p hp
    rw [poly_sum hp]
    refine (abs_list_sum_le _ _ 1 fun e _ => relE_le p e.1 e.2).trans ?_
    simp
  rcases lt_or_gt_of_ne hz with h | h
  · have := up p.mirror (by simpa [V3.mirror] using h)
    rwa [polyComp0_mirror, abs_neg] at this
  · exact up p h

theorem arctan_abs_le (x : ℝ) : |arctan x| ≤ |x| := by
  have h : ∀ x : ℝ, 0 ≤ x → arctan x ≤ x := by
    intro x hx
    by_cases h2 : x < π / 2
    · rw [← Real.arctan_tan (by linarith [pi_pos]) h2]
      conv_lhs => rw [Real.arctan_tan (by linarith [pi_pos]) h2]
      exact (Real.arctan_le_arctan_iff.mpr (Real.le_tan hx h2)).trans_eq (by rw [Real.arctan_tan (by linarith [pi_pos]) h2])
    · linarith [arctan_lt_pi_div_two x]
  rcases le_total 0 x with h0 | h0
  · rw [abs_of_nonneg h0, abs_of_nonneg (by simpa using Real.arctan_le_arctan_iff.mpr h0)]
    exact h x h0
  · have := h (-x) (by linarith)
    rw [Real.arctan_neg] at this
    rw [abs_of_nonpos h0, abs_of_nonpos (by simpa using Real.arctan_le_arctan_iff.mpr h0)]
    exact this

theorem far_alg {z ax ay dx dy r1 r2 L : ℝ} (hz : 0 < z) (h1 : 0 ≤ r1) (h2 : 0 ≤ r2) (hL : 0 ≤ L)
    (q1 : r1 ^ 2 = ax ^ 2 + ay ^ 2 + z ^ 2) (q2 : r2 ^ 2 = (ax + dx) ^ 2 + (ay + dy) ^ 2 + z ^ 2) (qL : L ^ 2 = dx ^ 2 + dy ^ 2)
    (hr : 2 * L < r1) :
    |(ax * (ay + dy) - ay * (ax + dx)) / (r1 * r2 + ax * (ax + dx) + ay * (ay + dy) + z * (z + r1 + r2))| ≤ 3 * L / r1 := by
  have hr1 : 0 < r1 := by linarith
  have hn : |ax * (ay + dy) - ay * (ax + dx)| ≤ L * r1 := by
    apply abs_le_of_sq_le_sq _ (by positivity)
    rw [mul_pow, q1, qL]
    nlinarith [sq_nonneg (ax * dx + ay * dy), sq_nonneg (dx * z), sq_nonneg (dy * z)]
  have hd : 3 / 8 * r1 ^ 2 ≤ r1 * r2 + ax * (ax + dx) + ay * (ay + dy) + z * (z + r1 + r2) := by
    have e : 2 * (ax * (ax + dx) + ay * (ay + dy) + z ^ 2) = r1 ^ 2 + r2 ^ 2 - L ^ 2 := by rw [q1, q2, qL]; ring
    have h4 : 4 * L ^ 2 ≤ r1 ^ 2 := by nlinarith
    nlinarith [mul_nonneg h1 h2, mul_nonneg hz.le h1, mul_nonneg hz.le h2, sq_nonneg r2]
  have hd0 : 0 < r1 * r2 + ax * (ax + dx) + ay * (ay + dy) + z * (z + r1 + r2) := lt_of_lt_of_le (by positivity) hd
  rw [abs_div, abs_of_pos hd0, div_le_div_iff₀ hd0 hr1]
  calc _ ≤ L * r1 * r1 := by gcongr
    _ ≤ 3 * L * (3 / 8 * r1 ^ 2) := by nlinarith [mul_nonneg hL (sq_nonneg r1)]
    _ ≤ _ := by gcongr

theorem relE_far_le {p : V3} (hz : 0 < p.z) (a b : V2)
    (hr : 2 * √((b.x - a.x) ^ 2 + (b.y - a.y) ^ 2) < √((a.x - p.x) ^ 2 + (a.y - p.y) ^ 2 + p.z ^ 2)) :
    |relE p a b| ≤ 3 * √((b.x - a.x) ^ 2 + (b.y - a.y) ^ 2) / √((a.x - p.x) ^ 2 + (a.y - p.y) ^ 2 + p.z ^ 2) := by
  have hpi := pi_pos
  have h := far_alg (z := p.z) (ax := a.x - p.x) (ay := a.y - p.y) (dx := b.x - a.x) (dy := b.y - a.y)
    (r1 := √((a.x - p.x) ^ 2 + (a.y - p.y) ^ 2 + p.z ^ 2)) (r2 := √((b.x - p.x) ^ 2 + (b.y - p.y) ^ 2 + p.z ^ 2))
    (L := √((b.x - a.x) ^ 2 + (b.y - a.y) ^ 2)) hz (by positivity) (by positivity) (by positivity)
    (Real.sq_sqrt (by positivity)) (by rw [Real.sq_sqrt (by positivity)]; ring) (Real.sq_sqrt (by positivity)) hr
  refine le_trans ?_ h
  rw [show a.x - p.x + (b.x - a.x) = b.x - p.x by ring, show a.y - p.y + (b.y - a.y) = b.y - p.y by ring]
  unfold relE edgeE
  rw [abs_mul, abs_of_pos (by positivity : 0 < 1 / π)]
  refine le_trans ?_ (arctan_abs_le _)
  rw [one_div, inv_mul_le_iff₀ hpi]
  generalize arctan _ = x
  nlinarith [abs_nonneg x, Real.pi_gt_three]

theorem dist_far (a : V2) : Tendsto (fun t : ℝ × ℝ × ℝ => √((a.x - t.1) ^ 2 + (a.y - t.2.1) ^ 2 + t.2.2 ^ 2)) (cocompact _) atTop := by
  have h1 : Tendsto (fun t : ℝ × ℝ × ℝ => ‖t‖ - (|a.x| + |a.y|)) (cocompact _) atTop :=
    tendsto_atTop_add_const_right _ _ tendsto_norm_cocompact_atTop
  refine tendsto_atTop_mono (fun t => ?_) h1
  have e1 := abs_le_r (a.x - t.1) (a.y - t.2.1) t.2.2
  have e2 : |a.y - t.2.1| ≤ √((a.x - t.1) ^ 2 + (a.y - t.2.1) ^ 2 + t.2.2 ^ 2) := by
    rw [← Real.sqrt_sq_eq_abs]
    exact Real.sqrt_le_sqrt (by nlinarith [sq_nonneg (a.x - t.1), sq_nonneg t.2.2])
  have e3 := z_le_r (a.x - t.1) (a.y - t.2.1) t.2.2
  have f1 : |t.1| ≤ |a.x - t.1| + |a.x| := by
    have := abs_sub_abs_le_abs_sub t.1 a.x
    rw [abs_sub_comm] at this; linarith
  have f2 : |t.2.1| ≤ |a.y - t.2.1| + |a.y| := by
    have := abs_sub_abs_le_abs_sub t.2.1 a.y
    rw [abs_sub_comm] at this; linarith
  have g1 := abs_nonneg a.x
  have g2 := abs_nonneg a.y
  have : ‖t‖ ≤ √((a.x - t.1) ^ 2 + (a.y - t.2.1) ^ 2 + t.2.2 ^ 2) + (|a.x| + |a.y|) := by
    rw [Prod.norm_def, Prod.norm_def]
    simp only [Real.norm_eq_abs]
    refine max_le (by linarith) (max_le (by linarith) (by linarith))
  linarith

theorem poly_far (poly : List V2) :
    Tendsto (fun t => polyComp 0 0 poly (at3 t)) (cocompact (ℝ × ℝ × ℝ) ⊓ 𝓟 {t | t.2.2 ≠ 0}) (𝓝 0) := by
  -- a bound by a function that tends to zero
  have hb : ∀ a b : V2, ∃ β : ℝ × ℝ × ℝ → ℝ, Tendsto β (cocompact _) (𝓝 0) ∧
      (∀ t, 0 < t.2.2 → |relE (at3 t) a b| ≤ β t) ∧ ∀ t : ℝ × ℝ × ℝ, β (t.1, t.2.1, -t.2.2) = β t := by
    intro a b
    classical
    refine ⟨fun t => if 2 * √((b.x - a.x) ^ 2 + (b.y - a.y) ^ 2) < √((a.x - t.1) ^ 2 + (a.y - t.2.1) ^ 2 + t.2.2 ^ 2)
      then 3 * √((b.x - a.x) ^ 2 + (b.y - a.y) ^ 2) / √((a.x - t.1) ^ 2 + (a.y - t.2.1) ^ 2 + t.2.2 ^ 2) else 1, ?_, ?_, ?_⟩
    · refine ((dist_far a).const_div_atTop (3 * √((b.x - a.x) ^ 2 + (b.y - a.y) ^ 2))).congr' ?_
      filter_upwards [(dist_far a).eventually_gt_atTop (2 * √((b.x - a.x) ^ 2 + (b.y - a.y) ^ 2))] with t ht
      rw [if_pos ht]
    · intro t ht
      dsimp only
      split_ifs with h
      · exact relE_far_le (p := at3 t) ht a b h
      · exact relE_le _ a b
    · intro t
      simp
  choose β hβ1 hβ2 hβ3 using hb
  have hs : Tendsto (fun t => ((List.zip poly (poly.rotate 1)).map fun e => β e.1 e.2 t).sum) (cocompact _) (𝓝 0) := by
    have := tendsto_list_sum (F := cocompact (ℝ × ℝ × ℝ)) (List.zip poly (poly.rotate 1)) (fun e t => β e.1 e.2 t) (fun _ => 0)
      fun e _ => hβ1 e.1 e.2
    simpa using this
  have up : ∀ t : ℝ × ℝ × ℝ, 0 < t.2.2 →
      |polyComp 0 0 poly (at3 t)| ≤ ((List.zip poly (poly.rotate 1)).map fun e => β e.1 e.2 t).sum := by
    intro t ht
    rw [poly_sum (p := at3 t) ht]
    induction List.zip poly (poly.rotate 1) with
    | nil => simp
    | cons e l ih =>
      simp only [List.map_cons, List.sum_cons]
      exact (abs_add_le _ _).trans (add_le_add (hβ2 e.1 e.2 t ht) ih)
  refine squeeze_zero_norm' ?_ (hs.mono_left inf_le_left)
  rw [eventually_inf_principal]
  refine Eventually.of_forall fun t ht => ?_
  rw [Real.norm_eq_abs]
  rcases lt_or_gt_of_ne (show t.2.2 ≠ 0 from ht) with h | h
  · have h1 := up (t.1, t.2.1, -t.2.2) (by simpa using h)
    simp only [hβ3] at h1
    have e : at3 (t.1, t.2.1, -t.2.2) = (at3 t).mirror := rfl
    rwa [e, polyComp0_mirror, abs_neg] at h1
  · exact up t h

end Electrode.Field
