import Verif.Lemmas.EdgeDeriv
import Mathlib.Analysis.Calculus.FDeriv.Symmetric
import Mathlib.Analysis.Calculus.ContDiff.Comp
import Mathlib.Analysis.Calculus.LineDeriv.Basic

/-
Iterated partial derivatives of a smooth function commute, so one chain of first derivatives per
component settles all entries of the expanded tensors.
-/
namespace Electrode
open Spec
open scoped ContDiff

/-- coordinates -/
abbrev W := Fin 3 → ℝ

def toV (w : W) : V3 := ⟨w 0, w 1, w 2⟩
def ofV (p : V3) : W := ![p.x, p.y, p.z]

theorem toV_ofV (p : V3) : toV (ofV p) = p := by simp [toV, ofV]

theorem toV_shift (w : W) (a : Axis) (t : ℝ) : toV (w + t • Pi.single a (1 : ℝ)) = shift (toV w) a t := by
  fin_cases a <;> simp [toV, shift]

section
variable (U : V3 → Prop)

/-- smooth on the region `U` -/
def Smooth (f : V3 → ℝ) : Prop := ∀ w, U (toV w) → ContDiffAt ℝ ∞ (fun w => f (toV w)) w

/-- partial derivative -/
noncomputable def pd (a : Axis) (f : V3 → ℝ) (p : V3) : ℝ :=
  fderiv ℝ (fun w => f (toV w)) (ofV p) (Pi.single a (1 : ℝ))

/-- iterated partial derivative -/
noncomputable def pds (l : Idx) (f : V3 → ℝ) : V3 → ℝ := l.foldl (fun g a => pd a g) f

theorem pds_append (l m : Idx) (f : V3 → ℝ) : pds (l ++ m) f = pds m (pds l f) := by simp [pds]

theorem pds_snoc (l : Idx) (a : Axis) (f : V3 → ℝ) : pds (l ++ [a]) f = pd a (pds l f) := by simp [pds]

theorem ofV_toV (w : W) : ofV (toV w) = w := by
  funext i; fin_cases i <;> simp [toV, ofV]

theorem pd_toV (a : Axis) (f : V3 → ℝ) (w : W) :
    pd a f (toV w) = fderiv ℝ (fun w => f (toV w)) w (Pi.single a (1 : ℝ)) := by
  unfold pd; rw [ofV_toV]

variable {U}

theorem Smooth.pd {f : V3 → ℝ} (h : Smooth U f) (a : Axis) : Smooth U (pd a f) := by
  intro w hw
  have h1 : ContDiffAt ℝ ∞ (fderiv ℝ (fun w => f (toV w))) w := (h w hw).fderiv_right (by simp)
  have h2 := h1.clm_apply (contDiffAt_const (c := (Pi.single a (1 : ℝ) : W)))
  have : (fun w => Electrode.pd a f (toV w)) = fun w => fderiv ℝ (fun w => f (toV w)) w (Pi.single a (1 : ℝ)) := by
    funext w; exact pd_toV a f w
  rw [this]; exact h2

theorem Smooth.pds {f : V3 → ℝ} (h : Smooth U f) (l : Idx) : Smooth U (pds l f) := by
  induction l generalizing f with
  | nil => exact h
  | cons a l ih => exact ih (h.pd a)

theorem Smooth.diff {f : V3 → ℝ} (h : Smooth U f) {w : W} (hw : U (toV w)) :
    DifferentiableAt ℝ (fun w => f (toV w)) w := (h w hw).differentiableAt (by simp)

theorem Smooth.hasPartial {f : V3 → ℝ} (h : Smooth U f) (a : Axis) (p : V3) (hp : U p) :
    HasPartial a f (Electrode.pd a f p) p := by
  have h1 := (h.diff (w := ofV p) (by rwa [toV_ofV])).hasFDerivAt.hasLineDerivAt (Pi.single a (1 : ℝ))
  unfold HasLineDerivAt at h1
  simp only [toV_shift, toV_ofV] at h1
  exact h1

theorem Smooth.pd_eq {f : V3 → ℝ} (h : Smooth U f) {a : Axis} {p : V3} {c : ℝ} (hp : U p)
    (hc : HasPartial a f c p) : Electrode.pd a f p = c := HasDerivAt.unique (h.hasPartial a p hp) hc

theorem pd_congr (hU : IsOpen {w | U (toV w)}) {f g : V3 → ℝ} (h : ∀ p, U p → f p = g p) (a : Axis) :
    ∀ p, U p → pd a f p = pd a g p := by
  intro p hp
  unfold pd
  have : (fun w => f (toV w)) =ᶠ[nhds (ofV p)] fun w => g (toV w) := by
    filter_upwards [hU.mem_nhds (show ofV p ∈ {w | U (toV w)} by simpa [toV_ofV] using hp)] with w hw
    exact h _ hw
  rw [this.fderiv_eq]

theorem pds_congr (hU : IsOpen {w | U (toV w)}) {f g : V3 → ℝ} (h : ∀ p, U p → f p = g p) (l : Idx) :
    ∀ p, U p → pds l f p = pds l g p := by
  induction l generalizing f g with
  | nil => exact h
  | cons a l ih => exact ih (pd_congr hU h a)

theorem pd_comm {f : V3 → ℝ} (h : Smooth U f) (a b : Axis) : ∀ p, U p → pd a (pd b f) p = pd b (pd a f) p := by
  intro p hp
  have hw : U (toV (ofV p)) := by rwa [toV_ofV]
  have hs := (h _ hw).isSymmSndFDerivAt (by rw [minSmoothness_of_isRCLikeNormedField]; exact WithTop.coe_le_coe.2 (le_top : (2 : ℕ∞) ≤ ⊤))
  have h1 : ContDiffAt ℝ ∞ (fderiv ℝ (fun w => f (toV w))) (ofV p) := (h _ hw).fderiv_right (by simp)
  have hd : DifferentiableAt ℝ (fderiv ℝ (fun w => f (toV w))) (ofV p) := h1.differentiableAt (by simp)
  have key : ∀ a b : Axis, pd a (pd b f) p
      = fderiv ℝ (fderiv ℝ (fun w => f (toV w))) (ofV p) (Pi.single a 1) (Pi.single b 1) := by
    intro a b
    unfold pd
    have : (fun w => fderiv ℝ (fun w => f (toV w)) (ofV (toV w)) (Pi.single b (1 : ℝ)))
        = fun w => fderiv ℝ (fun w => f (toV w)) w (Pi.single b (1 : ℝ)) := by
      funext w; rw [ofV_toV]
    rw [this, fderiv_clm_apply hd (differentiableAt_const _)]
    simp
  rw [key, key]
  exact hs _ _

theorem pds_perm (hU : IsOpen {w | U (toV w)}) {l m : Idx} (hp : l.Perm m) : ∀ {f : V3 → ℝ}, Smooth U f →
    ∀ p, U p → pds l f p = pds m f p := by
  induction hp with
  | nil => intro f _ p _; rfl
  | cons a _ ih => intro f h p hp; exact ih (h.pd a) p hp
  | swap a b l =>
    intro f h p hp
    exact pds_congr hU (fun q hq => pd_comm h a b q hq) l p hp
  | trans _ _ ih1 ih2 => intro f h p hp; exact (ih1 h p hp).trans (ih2 h p hp)

theorem smooth_add {f g : V3 → ℝ} (hf : Smooth U f) (hg : Smooth U g) : Smooth U fun p => f p + g p :=
  fun w hw => (hf w hw).add (hg w hw)

theorem pd_add {f g : V3 → ℝ} (hf : Smooth U f) (hg : Smooth U g) (a : Axis) (p : V3) (hp : U p) :
    pd a (fun p => f p + g p) p = pd a f p + pd a g p :=
  (smooth_add hf hg).pd_eq hp ((hf.hasPartial a p hp).add (hg.hasPartial a p hp))

theorem pds_add (hU : IsOpen {w | U (toV w)}) (l : Idx) : ∀ {f g : V3 → ℝ}, Smooth U f → Smooth U g →
    ∀ p, U p → pds l (fun p => f p + g p) p = pds l f p + pds l g p := by
  induction l with
  | nil => intro f g _ _ p _; rfl
  | cons a l ih =>
    intro f g hf hg p hp
    have h1 := pds_congr hU (fun q hq => pd_add hf hg a q hq) l p hp
    exact h1.trans (ih (hf.pd a) (hg.pd a) p hp)

theorem pds_zero (l : Idx) (p : V3) : pds l (fun _ => 0) p = 0 := by
  have h0 : ∀ a, pd a (fun _ => (0 : ℝ)) = fun _ => 0 := by
    intro a; funext p
    simp [pd]
  induction l generalizing p with
  | nil => rfl
  | cons a l ih =>
    have : pds (a :: l) (fun _ => (0 : ℝ)) = pds l (pd a fun _ => 0) := rfl
    rw [this, h0]; exact ih p

/-- harmonic functions have traceless derivatives -/
theorem pds_traceless (hU : IsOpen {w | U (toV w)}) {f : V3 → ℝ} (hf : Smooth U f)
    (hl : ∀ p, U p → pds [0, 0] f p + pds [1, 1] f p + pds [2, 2] f p = 0) (k : Nat) (p : V3) (hp : U p) :
    Traceless k fun l => pds l f p := by
  intro a b c _
  have h1 : ∀ i : Axis, pds (a ++ i :: (b ++ i :: c)) f p = pds (a ++ (b ++ c)) (pds [i, i] f) p := by
    intro i
    rw [← pds_append]
    refine pds_perm hU ?_ hf p hp
    have : (a ++ i :: (b ++ i :: c)).Perm (i :: (a ++ (b ++ i :: c))) := List.perm_middle
    refine this.trans ?_
    show (i :: (a ++ (b ++ i :: c))).Perm (i :: i :: (a ++ (b ++ c)))
    refine List.Perm.cons i ?_
    rw [← List.append_assoc, ← List.append_assoc]
    exact List.perm_middle
  simp only [h1, Fin.sum_univ_three]
  rw [← pds_add hU _ (hf.pds _) (hf.pds _) p hp,
    ← pds_add hU _ (smooth_add (hf.pds _) (hf.pds _)) (hf.pds _) p hp]
  rw [pds_congr hU hl _ p hp]
  exact pds_zero _ p

end

theorem parents_name : ∀ r ∈ EdgeId.parents, r.2.2.1 < 2 * r.1 + 1 ∧ r.2.1 < 2 * (r.1 + 1) + 1 ∧
    sortIdx (nameIdx r.1 r.2.2.1 ++ [r.2.2.2]) = sortIdx (nameIdx (r.1 + 1) r.2.1) := by decide +kernel

theorem parents_cover : ∀ k < 5, 1 ≤ k → ∀ i < 2 * (k + 1) + 1, (k, i) = (4, 8) ∨
    ∃ r ∈ EdgeId.parents, r.1 = k ∧ r.2.1 = i := by decide +kernel

theorem name1 : ∀ a : Axis, nameIdx 1 a.val = [a] := by decide

theorem perm_of_sort {l m : Idx} (h : sortIdx l = sortIdx m) : l.Perm m :=
  ((sortIdx_perm l).symm.trans (h ▸ List.Perm.refl _)).trans (sortIdx_perm m)

/-- the assembly: one derivative identity per component, smoothness and Laplace's equation give
all first derivatives of all components -/
theorem assemble (U : V3 → Prop) (hU : IsOpen {w | U (toV w)}) (F : Nat → Nat → V3 → ℝ) (G : V3 → ℝ)
    (hs : Smooth U (F 0 0))
    (h1 : ∀ (a : Axis) p, U p → HasPartial a (F 0 0) (F 1 a.val p) p)
    (hrow : ∀ k i j a, (k, i, j, a) ∈ EdgeId.parents → ∀ p, U p → HasPartial a (F k j) (F (k + 1) i p) p)
    (hG1 : ∀ p, U p → HasPartial 1 (F 3 6) (G p) p)
    (hG2 : ∀ p, U p → HasPartial 2 G (F 5 8 p) p)
    (hlap : ∀ p, U p → HasPartial 2 (F 1 2) (-F 2 0 p - F 2 3 p) p) :
    ∀ k < 5, ∀ i < 2 * k + 1, ∀ a p, U p → HasPartial a (F k i) (tens F (k + 1) (nameIdx k i ++ [a]) p) p := by
  have step : ∀ (g g' : V3 → ℝ) (l : Idx) (a : Axis), (∀ p, U p → g p = pds l (F 0 0) p) →
      (∀ p, U p → HasPartial a g (g' p) p) → ∀ p, U p → g' p = pds (l ++ [a]) (F 0 0) p := by
    intro g g' l a hg hg' p hp
    rw [pds_snoc]
    rw [← pd_congr hU hg a p hp]
    have hsg : Smooth U g := by
      intro w hw
      refine ((hs.pds l) w hw).congr_of_eventuallyEq ?_
      filter_upwards [hU.mem_nhds (show w ∈ {w | U (toV w)} from hw)] with w hw
      exact hg _ hw
    exact (hsg.pd_eq hp (hg' p hp)).symm
  -- every stored component is the named derivative
  have comp : ∀ k, k ≤ 5 → ∀ i < 2 * k + 1, ∀ p, U p → F k i p = pds (nameIdx k i) (F 0 0) p := by
    intro k
    induction k with
    | zero =>
      intro _ i hi p _
      have : i = 0 := by omega
      subst this
      have : nameIdx 0 0 = [] := by decide
      rw [this]; rfl
    | succ k ih =>
      intro hk i hi
      rcases Nat.eq_zero_or_pos k with rfl | hpos
      · intro p hp
        have h := step (F 0 0) (F 1 i) [] ⟨i, by omega⟩ (fun p _ => rfl) (h1 ⟨i, by omega⟩) p hp
        have hn := name1 ⟨i, by omega⟩
        simp only at hn
        rw [hn]; exact h
      · rcases parents_cover k (by omega) hpos i hi with he | ⟨r, hr, e1, e2⟩
        · simp only [Prod.mk.injEq] at he
          obtain ⟨rfl, rfl⟩ := he
          intro p hp
          -- component xyyzz through xyyz
          have hx : ∀ p, U p → F 3 6 p = pds (nameIdx 3 6) (F 0 0) p := by
            have hr : (2, 6, 1, 2) ∈ EdgeId.parents := by decide
            have h20 : ∀ p, U p → F 2 1 p = pds (nameIdx 2 1) (F 0 0) p := by
              have hr : (1, 1, 0, 1) ∈ EdgeId.parents := by decide
              have h10 : ∀ p, U p → F 1 0 p = pds [0] (F 0 0) p :=
                step (F 0 0) (F 1 0) [] 0 (fun p _ => rfl) (h1 0)
              intro p hp
              rw [step (F 1 0) (F 2 1) [0] 1 h10 (hrow 1 1 0 1 hr) p hp]
              exact pds_perm hU (perm_of_sort (by decide)) hs p hp
            intro p hp
            rw [step (F 2 1) (F 3 6) _ 2 h20 (hrow 2 6 1 2 hr) p hp]
            exact pds_perm hU (perm_of_sort (by decide)) hs p hp
          have hg := step (F 3 6) G _ 1 hx hG1
          rw [step G (F 5 8) _ 2 hg hG2 p hp]
          exact pds_perm hU (perm_of_sort (by decide)) hs p hp
        · intro p hp
          obtain ⟨r1, r2, r3, r4⟩ := r
          simp only at e1 e2
          subst e1 e2
          obtain ⟨hj, _, hsort⟩ := parents_name _ hr
          simp only at hj hsort
          rw [step (F r1 r3) (F (r1 + 1) r2) _ r4 (ih (by omega) r3 hj) (hrow r1 r2 r3 r4 hr) p hp]
          exact pds_perm hU (perm_of_sort hsort) hs p hp
  have harm : ∀ p, U p → pds [0, 0] (F 0 0) p + pds [1, 1] (F 0 0) p + pds [2, 2] (F 0 0) p = 0 := by
    intro p hp
    have e0 := comp 2 (by norm_num) 0 (by norm_num) p hp
    have e3 := comp 2 (by norm_num) 3 (by norm_num) p hp
    have n0 : nameIdx 2 0 = [0, 0] := by decide
    have n3 : nameIdx 2 3 = [1, 1] := by decide
    rw [n0] at e0; rw [n3] at e3
    have h10 : ∀ p, U p → F 1 2 p = pds [2] (F 0 0) p := step (F 0 0) (F 1 2) [] 2 (fun p _ => rfl) (h1 2)
    have e2 := step (F 1 2) (fun p => -F 2 0 p - F 2 3 p) [2] 2 h10 hlap p hp
    simp only [List.cons_append, List.nil_append] at e2
    rw [← e0, ← e3, ← e2]; ring
  -- every entry of the expanded tensor is the iterated derivative
  have ent : ∀ k, k ≤ 5 → ∀ l : Idx, l.length = k → ∀ p, U p → tens F k l p = pds l (F 0 0) p := by
    intro k hk l hl p hp
    have hm : l ∈ productIdx k := by rw [productIdx_eq, mem_tuples]; exact hl
    have hr := table_in_range k (by omega) l hm
    have hme := table_means k (by omega) l hm
    unfold tens
    cases hsel : entrySel k l with
    | one i =>
      rw [hsel] at hr hme
      simp only [selInRange, decide_eq_true_eq] at hr
      simp only [selMeans, beq_iff_eq] at hme
      simp only [selVal]
      rw [getD_range_map, if_pos hr, comp k hk i hr p hp]
      exact pds_perm hU (by rw [hme]; exact sortIdx_perm l) hs p hp
    | lap i j =>
      rw [hsel] at hr hme
      simp only [selInRange, Bool.and_eq_true, decide_eq_true_eq] at hr
      simp only [selMeans, List.contains_iff_mem] at hme
      simp only [selVal]
      rw [getD_range_map, getD_range_map, if_pos hr.1, if_pos hr.2, comp k hk i hr.1 p hp, comp k hk j hr.2 p hp]
      have := findLaplace_sum (T := fun m => pds m (F 0 0) p)
        (by intro m m' _ hpm; exact pds_perm hU hpm hs p hp)
        (pds_traceless hU hs harm _ p hp) hme
      linarith
  intro k hk i hi a p hp
  have hlen := (table_select k (by omega) i hi).1
  rw [ent (k + 1) (by omega) (nameIdx k i ++ [a]) (by simp [hlen]) p hp, pds_snoc]
  rw [← pd_congr hU (comp k (by omega) i hi) a p hp]
  have hsg : Smooth U (F k i) := by
    intro w hw
    refine ((hs.pds (nameIdx k i)) w hw).congr_of_eventuallyEq ?_
    filter_upwards [hU.mem_nhds (show w ∈ {w | U (toV w)} from hw)] with w hw
    exact comp k (by omega) i hi _ hw
  exact hsg.hasPartial a p hp

end Electrode
