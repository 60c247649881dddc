import Verif.Spec.Layout
import Verif.Lemmas.SysSmooth
import Verif.Lemmas.Rotate
import Verif.Props.Surface
import Mathlib.Tactic.LinearCombination

/-
How derivative tensors change when positions are turned.
-/
namespace Electrode
open Spec Real PlaneMotion

theorem Spec.PlaneMotion.sign_sq (M : PlaneMotion) : M.sign ^ 2 = 1 := by unfold sign; split <;> norm_num
theorem Spec.PlaneMotion.sign_mul (M : PlaneMotion) : M.sign * M.sign = 1 := by rw [← sq]; exact M.sign_sq

theorem Spec.PlaneMotion.dist_eq (M : PlaneMotion) (p : V3) (q : V2) :
    ((M.on3 p).x - (M.on2 q).x) ^ 2 + ((M.on3 p).y - (M.on2 q).y) ^ 2 = (p.x - q.x) ^ 2 + (p.y - q.y) ^ 2 := by
  have h1 := M.unit
  have h2 := M.sign_sq
  simp only [on3, on2]
  linear_combination ((p.x - q.x) ^ 2 + M.sign ^ 2 * (p.y - q.y) ^ 2) * h1 + (p.y - q.y) ^ 2 * h2

theorem Spec.PlaneMotion.dot_eq (M : PlaneMotion) (p : V3) (q r : V2) :
    ((M.on3 p).x - (M.on2 q).x) * ((M.on3 p).x - (M.on2 r).x) + ((M.on3 p).y - (M.on2 q).y) * ((M.on3 p).y - (M.on2 r).y) =
      (p.x - q.x) * (p.x - r.x) + (p.y - q.y) * (p.y - r.y) := by
  have h1 := M.unit
  have h2 := M.sign_sq
  simp only [on3, on2]
  linear_combination ((p.x - q.x) * (p.x - r.x) + M.sign ^ 2 * (p.y - q.y) * (p.y - r.y)) * h1 + (p.y - q.y) * (p.y - r.y) * h2

theorem Spec.PlaneMotion.cross_eq (M : PlaneMotion) (p : V3) (q r : V2) :
    ((M.on3 p).x - (M.on2 q).x) * ((M.on3 p).y - (M.on2 r).y) - ((M.on3 p).y - (M.on2 q).y) * ((M.on3 p).x - (M.on2 r).x) =
      M.sign * ((p.x - q.x) * (p.y - r.y) - (p.y - q.y) * (p.x - r.x)) := by
  have h1 := M.unit
  simp only [on3, on2]
  linear_combination M.sign * ((p.x - q.x) * (p.y - r.y) - (p.y - q.y) * (p.x - r.x)) * h1

theorem Spec.PlaneMotion.z_eq (M : PlaneMotion) (p : V3) : (M.on3 p).z = p.z := rfl
theorem Spec.PlaneMotion.lift_eq (M : PlaneMotion) (p : V3) (c : ℝ) : (M.on3 p).lift c = M.on3 (p.lift c) := rfl

theorem seg_motion (M : PlaneMotion) (p : V3) (a b : V2) : segComp 0 0 (M.on3 p) (M.on2 a) (M.on2 b) = M.sign * segComp 0 0 p a b := by
  have hd := M.dot_eq p a b
  have hc := M.cross_eq p a b
  simp only [segComp, edgeTerm, List.getD_cons_zero, M.dist_eq, M.z_eq, add_assoc, hd]
  rw [hc]
  unfold sign
  split
  · rw [show p.z * (-1 * ((p.x - a.x) * (p.y - b.y) - (p.y - a.y) * (p.x - b.x))) =
      -(p.z * ((p.x - a.x) * (p.y - b.y) - (p.y - a.y) * (p.x - b.x))) by ring, neg_div, arctan_neg]
    ring
  · simp

theorem pixel_motion (M : PlaneMotion) (p : V3) (q : V2) : pixelComp 0 0 (M.on2 q) (M.on3 p) = pixelComp 0 0 q p := by
  simp only [pixelComp, pointTerm, pointNum, pointNum0, List.map_cons, List.map_nil, List.getD_cons_zero, M.dist_eq, M.z_eq]
  rfl

theorem images_motion (M : PlaneMotion) (n : Nat) (h : ℝ) (p : V3) : images n h (M.on3 p) = (images n h p).map M.on3 := by
  simp [images, M.lift_eq, Function.comp_def]


theorem poly_motion (M : PlaneMotion) (p : V3) (hp : p.z ≠ 0) (path : List V2) :
    polyComp 0 0 (if M.mirror then (path.map M.on2).reverse else path.map M.on2) (M.on3 p) = polyComp 0 0 path p := by
  have h1 : polyComp 0 0 (path.map M.on2) (M.on3 p) = M.sign * polyComp 0 0 path p := by
    rw [EdgeId.polyComp_cyc, EdgeId.polyComp_cyc, cycSum_map]
    simp only [seg_motion]
    exact cycSum_hom (AddMonoidHom.mulLeft M.sign) (fun a b => segComp 0 0 p a b) path
  cases hm : M.mirror with
  | false => simp only [Bool.false_eq_true, if_false, h1, sign, hm, one_mul]
  | true =>
    simp only [if_true]
    rw [EdgeId.polyComp_cyc, cycSum_reverse _ (fun a b => seg_swap0 (M.on3 p) a b), ← EdgeId.polyComp_cyc, h1]
    simp [sign, hm]

theorem contrib_motion (M : PlaneMotion) (e : Elec) (p : V3) (hp : offElectrode e p) :
    (M.elec e).shape.contrib 0 (M.on3 p) 0 = e.shape.contrib 0 p 0 := by
  unfold PlaneMotion.elec
  unfold offElectrode at hp
  cases hs : e.shape with
  | cover h => simp [PlaneMotion.shape, Shape.contrib, coverContrib, M.z_eq]
  | points ps as h n =>
    simp only [PlaneMotion.shape, Shape.contrib, pointContrib, images_motion, List.zip_map_left, List.map_map]
    congr 1
    refine List.map_congr_left fun q _ => ?_
    simp only [Function.comp_def, Prod.map, id, pixel_motion]
  | polygons paths h n =>
    rw [hs] at hp
    simp only [PlaneMotion.shape, Shape.contrib, polyContrib, images_motion, List.map_map]
    congr 1
    refine List.map_congr_left fun path _ => ?_
    simp only [Function.comp_def]
    congr 1
    refine List.map_congr_left fun q hq => poly_motion M q ?_ path
    exact mem_images hp hq
  | mesh => rw [hs] at hp; exact hp.elim
  | grid => rw [hs] at hp; exact hp.elim

theorem off_motion (M : PlaneMotion) (s : List Elec) (p : V3) (hp : offSystem s p) : offSystem (s.map M.elec) (M.on3 p) := by
  intro e' he'
  obtain ⟨e, he, rfl⟩ := List.mem_map.1 he'
  have h := hp e he
  unfold offElectrode at h ⊢
  unfold PlaneMotion.elec
  cases hs : e.shape with
  | cover h => trivial
  | points ps as ch n =>
    rw [hs] at h
    simp only [PlaneMotion.shape]
    replace h : offPixels ps ch n p := h
    rw [offPixels_iff] at h ⊢
    intro q' hq' m hm hc
    obtain ⟨q, hq, rfl⟩ := List.mem_map.1 hq'
    refine h q hq m hm ?_
    have hd := M.dist_eq p q
    rw [hc.1, hc.2.1] at hd
    simp only [sub_self, ne_eq, OfNat.ofNat_ne_zero, not_false_eq_true, zero_pow, add_zero] at hd
    have hx : p.x - q.x = 0 := by nlinarith [sq_nonneg (p.x - q.x), sq_nonneg (p.y - q.y)]
    have hy : p.y - q.y = 0 := by nlinarith [sq_nonneg (p.x - q.x), sq_nonneg (p.y - q.y)]
    exact ⟨sub_eq_zero.1 hx, sub_eq_zero.1 hy, hc.2.2⟩
  | polygons paths ch n =>
    rw [hs] at h
    exact h
  | mesh => rw [hs] at h; exact h.elim
  | grid => rw [hs] at h; exact h.elim

theorem sysTens_motion0 (M : PlaneMotion) (s : List Elec) (typ : VTyp) (p : V3) (hp : offSystem s p) :
    sysTens (s.map M.elec) typ [] (M.on3 p) = sysTens s typ [] p := by
  have h0 : ∀ (s : List Elec) (p : V3), sysTens s typ [] p = (s.map fun e => e.voltD typ * e.shape.contrib 0 p 0).sum := by
    intro s p
    have : entrySel 0 [] = .one 0 := by decide
    simp [sysTens, tens, this, selVal, sysContrib]
  rw [h0, h0, List.map_map]
  congr 1
  refine List.map_congr_left fun e he => ?_
  simp only [Function.comp_def, contrib_motion M e p (hp e he)]
  rfl

/-! ### tensors -/

theorem contractRec_deriv (r : Matrix Axis Axis ℝ) (T : ℝ → Idx → ℝ) (T' : Idx → ℝ) (t0 : ℝ) (l : Idx)
    (h : ∀ ks : Idx, ks.length = l.length → HasDerivAt (fun t => T t ks) (T' ks) t0) :
    HasDerivAt (fun t => contractRec r (T t) l) (contractRec r T' l) t0 := by
  induction l generalizing T T' with
  | nil => exact h [] rfl
  | cons j l ih =>
    simp only [contractRec]
    refine HasDerivAt.fun_sum fun k _ => HasDerivAt.const_mul _ ?_
    exact ih (fun t l => T t (k :: l)) (fun l => T' (k :: l)) fun ks hk => h (k :: ks) (by simp [hk])

theorem contractRec_snoc {R : Type*} [CommRing R] (r : Matrix Axis Axis R) (T : Idx → R) (l : Idx) (b : Axis) :
    contractRec r T (l ++ [b]) = contractRec r (fun ks => ∑ a, r a b * T (ks ++ [a])) l := by
  induction l generalizing T with
  | nil => simp [contractRec]
  | cons j l ih =>
    simp only [List.cons_append, contractRec]
    exact Finset.sum_congr rfl fun k _ => by rw [ih]

theorem shift_motion (M : PlaneMotion) (p : V3) (b : Axis) (t : ℝ) :
    shift (M.on3 p) b t = M.on3 (toV (ofV p + t • fun a => M.matrix b a)) := by
  have h1 := M.unit
  have h2 := M.sign_mul
  fin_cases b <;> simp [shift, on3, toV, ofV, PlaneMotion.matrix]
  · constructor
    · linear_combination (-t) * h1 + (-t * M.s ^ 2) * h2
    · linear_combination (M.c * t * M.s) * h2
  · constructor
    · linear_combination (M.c * t * M.s) * h2
    · linear_combination (-t) * h1 + (-t * M.c ^ 2) * h2

/-- If one function is another one turned, its derivative tensors are the turned ones. -/
theorem turn_tensors (N : Nat) (U U' : V3 → Prop) (M : PlaneMotion) (hUo : IsOpen {w | U (toV w)}) (F F' : Idx → V3 → ℝ)
    (hU' : ∀ p, U p → U' (M.on3 p)) (hF : ∀ l : Idx, l.length ≤ N → Smooth U (F l))
    (step : ∀ (l : Idx) (a : Axis), l.length < N → ∀ p, U p → HasPartial a (F l) (F (l ++ [a]) p) p)
    (step' : ∀ (l : Idx) (a : Axis), l.length < N → ∀ p, U' p → HasPartial a (F' l) (F' (l ++ [a]) p) p)
    (h0 : ∀ p, U p → F' [] (M.on3 p) = F [] p) (l : Idx) (hl : l.length ≤ N) :
    ∀ p, U p → F' l (M.on3 p) = contractRec M.matrix.transpose (fun m => F m p) l := by
  induction l using List.reverseRecOn with
  | nil => exact h0
  | append_singleton l b ih =>
    simp only [List.length_append, List.length_singleton] at hl
    intro p hp
    have h1 := step' l b (by omega) (M.on3 p) (hU' p hp)
    unfold HasPartial at h1
    simp only [shift_motion] at h1
    set v : W := fun a => M.matrix b a with hv
    have hγ : HasDerivAt (fun t : ℝ => ofV p + t • v) v 0 := by
      simpa using ((hasDerivAt_id (0 : ℝ)).smul_const v).const_add (ofV p)
    have hγ0 : ofV p + (0 : ℝ) • v = ofV p := by simp
    have h2 : HasDerivAt (fun t : ℝ => contractRec M.matrix.transpose (fun m => F m (toV (ofV p + t • v))) l)
        (contractRec M.matrix.transpose (fun ks => ∑ a, v a * F (ks ++ [a]) p) l) 0 := by
      refine contractRec_deriv _ (fun t m => F m (toV (ofV p + t • v))) _ 0 l fun ks hk => ?_
      exact line_deriv (hF ks (by omega)) (fun a => F (ks ++ [a]) p) (ofV p) (by rw [toV_ofV]; exact hp)
        (fun a => by rw [toV_ofV]; exact step ks a (by omega) p hp) v _ 0 hγ hγ0
    have hev : (fun t : ℝ => F' l (M.on3 (toV (ofV p + t • v)))) =ᶠ[nhds 0]
        fun t : ℝ => contractRec M.matrix.transpose (fun m => F m (toV (ofV p + t • v))) l := by
      have : ∀ᶠ t : ℝ in nhds 0, U (toV (ofV p + t • v)) := by
        refine hγ.continuousAt.eventually (p := fun w => U (toV w)) ?_
        show ∀ᶠ w in nhds (ofV p + (0 : ℝ) • v), U (toV w)
        rw [hγ0]
        exact hUo.mem_nhds (by show U (toV (ofV p)); rw [toV_ofV]; exact hp)
      filter_upwards [this] with t ht using ih (by omega) _ ht
    rw [contractRec_snoc]
    exact h1.unique (h2.congr_of_eventuallyEq hev)

end Electrode
