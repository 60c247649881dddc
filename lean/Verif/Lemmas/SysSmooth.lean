import Verif.Props.Pseudo

/-
The potentials of systems of cover, point and polygon electrodes are smooth off the electrodes;
chain rule for straight lines.
-/
namespace Electrode
open Spec
open scoped ContDiff

theorem open_forall_list {ι : Type*} (L : List ι) (P : ι → W → Prop) (h : ∀ i ∈ L, IsOpen {w | P i w}) :
    IsOpen {w | ∀ i ∈ L, P i w} := by
  induction L with
  | nil => simp
  | cons i L ih =>
    have : {w | ∀ j ∈ i :: L, P j w} = {w | P i w} ∩ {w | ∀ j ∈ L, P j w} := by ext w; simp
    rw [this]
    exact (h i (by simp)).inter (ih fun j hj => h j (by simp [hj]))

theorem offPlanes_iff (h : ℝ) (n : Nat) (p : V3) : offPlanes h n p ↔ ∀ m ∈ coverRange n, p.z + 2 * (m : ℝ) * h ≠ 0 := by
  unfold offPlanes
  constructor
  · intro H m hm; rw [mem_coverRange] at hm; exact H m hm.1 hm.2
  · intro H m h1 h2; exact H m (mem_coverRange.2 ⟨h1, h2⟩)

theorem offPixels_iff (ps : List V2) (h : ℝ) (n : Nat) (p : V3) :
    offPixels ps h n p ↔ ∀ q ∈ ps, ∀ m ∈ coverRange n, ¬ (p.x = q.x ∧ p.y = q.y ∧ p.z + 2 * (m : ℝ) * h = 0) := by
  unfold offPixels
  constructor
  · intro H q hq m hm; rw [mem_coverRange] at hm; exact H q hq m hm.1 hm.2
  · intro H q hq m h1 h2; exact H q hq m (mem_coverRange.2 ⟨h1, h2⟩)

theorem offElectrode_open (e : Elec) : IsOpen {w | offElectrode e (toV w)} := by
  unfold offElectrode
  cases hs : e.shape with
  | cover _ => simp
  | points ps as ch cn =>
    simp only [offPixels_iff]
    apply open_forall_list ps (fun q w => ∀ m ∈ coverRange cn, ¬ ((toV w).x = q.x ∧ (toV w).y = q.y ∧ (toV w).z + 2 * (m : ℝ) * ch = 0))
    intro q _
    apply open_forall_list (coverRange cn) (fun m w => ¬ ((toV w).x = q.x ∧ (toV w).y = q.y ∧ (toV w).z + 2 * (m : ℝ) * ch = 0))
    intro m _
    have : {w : W | ¬ ((toV w).x = q.x ∧ (toV w).y = q.y ∧ (toV w).z + 2 * (m : ℝ) * ch = 0)}
        = ({w : W | w 0 = q.x} ∩ ({w : W | w 1 = q.y} ∩ {w : W | w 2 + 2 * (m : ℝ) * ch = 0}))ᶜ := by
      ext w; simp [toV]
    rw [this]
    refine IsClosed.isOpen_compl (self := ?_)
    exact (isClosed_eq (by fun_prop) (by fun_prop)).inter
      ((isClosed_eq (by fun_prop) (by fun_prop)).inter (isClosed_eq (by fun_prop) (by fun_prop)))
  | polygons paths ch cn =>
    simp only [offPlanes_iff]
    apply open_forall_list (coverRange cn) (fun m w => (toV w).z + 2 * (m : ℝ) * ch ≠ 0)
    intro m _
    exact isOpen_ne_fun (f := fun w : W => w 2 + 2 * (m : ℝ) * ch) (by fun_prop) continuous_const
  | mesh _ _ _ _ _ _ => simp
  | grid _ _ _ => simp

theorem offSystem_open (s : List Elec) : IsOpen {w | offSystem s (toV w)} :=
  open_forall_list s (fun e w => offElectrode e (toV w)) fun e _ => offElectrode_open e

section
variable {U : V3 → Prop}

theorem Smooth.mono {V : V3 → Prop} {f : V3 → ℝ} (h : Smooth V f) (hUV : ∀ p, U p → V p) : Smooth U f :=
  fun w hw => h w (hUV _ hw)

theorem Smooth.const_mul {f : V3 → ℝ} (h : Smooth U f) (c : ℝ) : Smooth U fun p => c * f p :=
  fun w hw => contDiffAt_const.mul (h w hw)

theorem Smooth.mul {f g : V3 → ℝ} (hf : Smooth U f) (hg : Smooth U g) : Smooth U fun p => f p * g p :=
  fun w hw => (hf w hw).mul (hg w hw)

theorem Smooth.sum3 {f : Axis → V3 → ℝ} (h : ∀ j, Smooth U (f j)) : Smooth U fun p => ∑ j, f j p := by
  simp only [Fin.sum_univ_three]
  exact smooth_add (smooth_add (h 0) (h 1)) (h 2)

theorem Smooth.congr' (hU : IsOpen {w | U (toV w)}) {f g : V3 → ℝ} (h : Smooth U f) (e : ∀ p, U p → f p = g p) :
    Smooth U g := by
  intro w hw
  refine (h w hw).congr_of_eventuallyEq ?_
  filter_upwards [hU.mem_nhds hw] with w' hw'
  exact (e _ hw').symm

theorem Smooth.lift {V : V3 → Prop} {f : V3 → ℝ} (h : Smooth V f) (c : ℝ) (hUV : ∀ p, U p → V (p.lift c)) :
    Smooth U fun p => f (p.lift c) := by
  intro w hw
  have h1 : ∀ w : W, (toV w).lift c = toV (w + c • Pi.single 2 (1 : ℝ)) := by
    intro w
    rw [toV_shift]
    rfl
  have h2 := h (w + c • Pi.single 2 (1 : ℝ)) (by rw [← h1]; exact hUV _ hw)
  have h3 : ContDiffAt ℝ ∞ (fun w : W => w + c • Pi.single 2 (1 : ℝ)) w := by fun_prop
  have h4 := h2.comp w h3
  refine h4.congr_of_eventuallyEq ?_
  filter_upwards with w'
  simp only [Function.comp, h1]

theorem pixel0_smooth (q : V2) : Smooth (OffPixel q) (pixelComp 0 0 q) := by
  intro w hw
  have hq := relQ_pos hw
  have hr : ContDiffAt ℝ ∞ (fun w : W => √((w 0 - q.x) ^ 2 + (w 1 - q.y) ^ 2 + (w 2) ^ 2)) w := by
    refine ContDiffAt.sqrt ?_ hq.ne'
    have h0 := (contDiff_coord 0).contDiffAt (x := w)
    have h1 := (contDiff_coord 1).contDiffAt (x := w)
    have h2 := (contDiff_coord 2).contDiffAt (x := w)
    exact (((h0.sub contDiffAt_const).pow 2).add ((h1.sub contDiffAt_const).pow 2)).add (h2.pow 2)
  have hrne : √((w 0 - q.x) ^ 2 + (w 1 - q.y) ^ 2 + (w 2) ^ 2) ≠ 0 := (Real.sqrt_pos.2 hq).ne'
  have hN : ContDiffAt ℝ ∞ (fun w : W => pointNorm 0 (√((w 0 - q.x) ^ 2 + (w 1 - q.y) ^ 2 + (w 2) ^ 2)) 1) w := by
    unfold pointNorm
    refine contDiffAt_const.div (contDiffAt_const.mul (hr.pow 3)) ?_
    exact mul_ne_zero (by positivity) (pow_ne_zero _ hrne)
  have h2 := (contDiff_coord 2).contDiffAt (x := w)
  refine (hN.mul h2).congr_of_eventuallyEq ?_
  filter_upwards with w'
  simp [pixelComp, pointTerm, pointNum, pointNum0, PExpr.eval, pointEnv, toV]
  ring
end

/-- the potential of an electrode is smooth -/
theorem elec0_smooth (e : Elec) : Smooth (offElectrode e) fun p => e.shape.contrib 0 p 0 := by
  intro w hw
  have hw' := hw
  unfold offElectrode at hw
  cases hs : e.shape with
  | cover height =>
    have : ContDiffAt ℝ ∞ (fun w : W => w 2 / height) w := (contDiff_coord 2).contDiffAt.div_const _
    exact this
  | points ps as ch cn =>
    rw [hs] at hw
    refine (smooth_list_sum (offPixels ps ch cn) (ps.zip as)
      (fun q p => ((images cn ch p).map fun p' => q.2 * pixelComp 0 0 q.1 p').sum) ?_) w hw
    intro q hq
    have hq' : q.1 ∈ ps := (List.of_mem_zip (a := q.1) (b := q.2) hq).1
    simp only [images, List.map_map, Function.comp_def]
    refine smooth_list_sum _ _ _ ?_
    intro m hm
    refine Smooth.const_mul ((pixel0_smooth q.1).lift (2 * (m : ℝ) * ch) ?_) q.2
    intro p hp
    rw [mem_coverRange] at hm
    exact hp q.1 hq' m hm.1 hm.2
  | polygons paths ch cn =>
    rw [hs] at hw
    refine (smooth_list_sum (offPlanes ch cn) paths
      (fun path p => ((images cn ch p).map fun p' => polyComp 0 0 path p').sum) ?_) w hw
    intro path _
    simp only [images, List.map_map, Function.comp_def]
    refine smooth_list_sum _ _ _ ?_
    intro m hm
    refine Smooth.lift (V := OffPlane) (f := fun p => polyComp 0 0 path p) ?_ (2 * (m : ℝ) * ch) ?_
    · exact smooth_list_sum _ _ (fun (e : V2 × V2) p => segComp 0 0 p e.1 e.2) fun e _ => seg0_smooth e.1 e.2
    · intro p hp
      rw [mem_coverRange] at hm
      exact hp m hm.1 hm.2
  | mesh _ _ _ _ _ _ => rw [hs] at hw; exact hw.elim
  | grid _ _ _ => rw [hs] at hw; exact hw.elim

theorem sysTens_smooth (s : List Elec) (typ : VTyp) (l : Idx) (hl : l.length ≤ 5) :
    Smooth (offSystem s) (sysTens s typ l) := by
  induction l using List.reverseRecOn with
  | nil =>
    have h0 : Smooth (offSystem s) fun p => (s.map fun e => e.voltD typ * e.shape.contrib 0 p 0).sum := by
      refine smooth_list_sum _ s (fun e p => e.voltD typ * e.shape.contrib 0 p 0) ?_
      intro e he
      exact ((elec0_smooth e).mono fun p hp => hp e he).const_mul _
    refine h0.congr' (offSystem_open s) ?_
    intro p _
    have : entrySel 0 [] = .one 0 := by decide
    simp [sysTens, tens, this, selVal, sysContrib]
  | append_singleton l a ih =>
    simp only [List.length_append, List.length_singleton] at hl
    have h1 := ih (by omega)
    refine (h1.pd a).congr' (offSystem_open s) ?_
    intro p hp
    exact h1.pd_eq hp (sys_step s typ l a (by omega) p hp)

theorem psT_smooth {U : V3 → Prop} (T : V3 → NArr ℝ) (l : Idx) (hT : ∀ m : Idx, m.length ≤ l.length + 1 → Smooth U fun p => T p m) :
    Smooth U fun p => psT (T p) l := by
  rcases l with _ | ⟨k1, _ | ⟨k2, _ | ⟨k3, _ | ⟨k4, _ | ⟨k5, r⟩⟩⟩⟩⟩
  · exact Smooth.sum3 fun j => (hT _ (by simp)).mul (hT _ (by simp))
  · exact Smooth.const_mul (Smooth.sum3 fun j => (hT _ (by simp)).mul (hT _ (by simp))) 2
  · refine Smooth.const_mul ?_ 2
    repeat' first
      | exact Smooth.sum3 fun j => (hT _ (by simp)).mul (hT _ (by simp))
      | apply smooth_add
  · refine Smooth.const_mul ?_ 2
    repeat' first
      | exact Smooth.sum3 fun j => (hT _ (by simp)).mul (hT _ (by simp))
      | apply smooth_add
  · refine Smooth.const_mul ?_ 2
    repeat' first
      | exact Smooth.sum3 fun j => (hT _ (by simp)).mul (hT _ (by simp))
      | apply smooth_add
  · intro w _
    exact contDiffAt_const

theorem total_smooth (els : List Elec) (c : ℝ) (l : Idx) (hl : l.length ≤ 4) :
    Smooth (offSystem els) (totalAt ⟨els, some c⟩ l) := by
  have h1 := sysTens_smooth els .dc l (by omega)
  have h2 := psT_smooth (U := offSystem els) (fun p l => c * sysTens els .rf l p) l fun m hm =>
    (sysTens_smooth els .rf m (by omega)).const_mul c
  refine (smooth_add h1 h2).congr' (offSystem_open els) ?_
  intro p hp
  exact (total_split els c l hl p fun d typ => avail_of_off hp d typ).symm

/-- derivative along a line with direction `v`, from the partial derivatives -/
theorem line_deriv {U : V3 → Prop} {f : V3 → ℝ} (hf : Smooth U f) (g : Axis → ℝ) (w : W) (hw : U (toV w))
    (hg : ∀ a, HasPartial a f (g a) (toV w)) (v : W) (γ : ℝ → W) (t0 : ℝ) (hγ : HasDerivAt γ v t0) (h0 : γ t0 = w) :
    HasDerivAt (fun t => f (toV (γ t))) (∑ a, v a * g a) t0 := by
  have h1 : HasFDerivAt (fun w => f (toV w)) (fderiv ℝ (fun w => f (toV w)) w) (γ t0) := by
    rw [h0]; exact (hf.diff hw).hasFDerivAt
  have h2 := h1.comp_hasDerivAt t0 hγ
  have h3 : fderiv ℝ (fun w => f (toV w)) w v = ∑ a, v a * g a := by
    have hv : v = ∑ a, v a • (Pi.single a (1 : ℝ) : W) := by
      funext i
      simp [Finset.sum_apply, Pi.single_apply]
    conv_lhs => rw [hv]
    rw [map_sum]
    refine Finset.sum_congr rfl fun a _ => ?_
    rw [map_smul, smul_eq_mul, ← pd_toV, hf.pd_eq hw (hg a)]
  rw [h3] at h2
  exact h2

end Electrode
