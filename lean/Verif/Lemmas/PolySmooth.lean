import Verif.Lemmas.Partials
import Verif.Lemmas.EdgeArctan
import Mathlib.Analysis.SpecialFunctions.Sqrt

/-
The polygon potential is smooth off the electrode plane, and its components satisfy the
derivative identities of the edges.
-/
namespace Electrode
open Spec PExpr Real
open scoped ContDiff

/-- positions off the electrode plane -/
def OffPlane (p : V3) : Prop := p.z ≠ 0

theorem offPlane_open : IsOpen {w | OffPlane (toV w)} :=
  isOpen_ne_fun (continuous_apply 2) continuous_const

theorem contDiffAt_eval (ρ : W → Nat → ℝ) (w : W) (h : ∀ i, ContDiffAt ℝ ∞ (fun w => ρ w i) w) (e : PExpr) :
    ContDiffAt ℝ ∞ (fun w => e.eval (ρ w)) w := by
  induction e with
  | c n => exact contDiffAt_const
  | v i => exact h i
  | neg a ih => exact ih.neg
  | add a b ha hb => exact ha.add hb
  | sub a b ha hb => exact ha.sub hb
  | mul a b ha hb => exact ha.mul hb
  | pow a n ih => exact ih.pow n

theorem contDiff_coord (i : Fin 3) : ContDiff ℝ ∞ fun w : W => w i := contDiff_apply ℝ ℝ i

theorem contDiffAt_relR (q : V2) (w : W) (h : OffPlane (toV w)) : ContDiffAt ℝ ∞ (fun w => relR q (toV w)) w := by
  unfold relR
  have h0 := (contDiff_coord 0).contDiffAt (x := w)
  have h1 := (contDiff_coord 1).contDiffAt (x := w)
  have h2 := (contDiff_coord 2).contDiffAt (x := w)
  refine ContDiffAt.sqrt (((h0.sub contDiffAt_const).pow 2).add ((h1.sub contDiffAt_const).pow 2) |>.add (h2.pow 2)) ?_
  have : 0 < (toV w).z ^ 2 := by
    have : (toV w).z ≠ 0 := h
    positivity
  simp only [toV] at this
  positivity

theorem contDiffAt_env (v1 v2 : V2) (w : W) (h : OffPlane (toV w)) (i : Nat) :
    ContDiffAt ℝ ∞ (fun w => EdgeId.env v1 v2 (toV w) i) w := by
  have h0 := (contDiff_coord 0).contDiffAt (x := w)
  have h1 := (contDiff_coord 1).contDiffAt (x := w)
  have h2 := (contDiff_coord 2).contDiffAt (x := w)
  unfold EdgeId.env edgeEnv
  rcases i with _ | _ | _ | _ | _ | _ | _ | _ | i
  · exact h0.sub contDiffAt_const
  · exact h0.sub contDiffAt_const
  · exact h1.sub contDiffAt_const
  · exact h1.sub contDiffAt_const
  · exact contDiffAt_relR v1 w h
  · exact contDiffAt_relR v2 w h
  · unfold EdgeId.len2
    exact (((h0.sub contDiffAt_const).sub (h0.sub contDiffAt_const)).pow 2).add
      (((h1.sub contDiffAt_const).sub (h1.sub contDiffAt_const)).pow 2)
  · exact h2
  · exact contDiffAt_const

theorem seg0_smooth_pos (v1 v2 : V2) (w : W) (h : 0 < w 2) :
    ContDiffAt ℝ ∞ (fun w => segComp 0 0 (toV w) v1 v2) w := by
  have hoff : OffPlane (toV w) := h.ne'
  have hn := contDiffAt_eval _ w (contDiffAt_env v1 v2 w hoff) EdgeId.nE
  have hd := contDiffAt_eval _ w (contDiffAt_env v1 v2 w hoff) EdgeId.dE
  have := ((hn.div hd (EdgeId.dE_pos (p := toV w) h v1 v2).ne').arctan).mul (contDiffAt_const (c := 1 / π))
  refine this.congr_of_eventuallyEq ?_
  have hpos : ∀ᶠ w' : W in nhds w, 0 < w' 2 :=
    (continuous_apply 2).continuousAt.eventually_const_lt h
  filter_upwards [hpos] with w' hw'
  exact EdgeId.seg0_pos (p := toV w') hw' v1 v2

/-- reflection in coordinates -/
def mirW (w : W) : W := fun i => if i = 2 then -w i else w i

theorem toV_mirW (w : W) : toV (mirW w) = (toV w).mirror := by simp [toV, mirW, V3.mirror]

theorem contDiff_mirW : ContDiff ℝ ∞ mirW := by
  rw [contDiff_pi]
  intro i
  unfold mirW
  by_cases h : i = 2
  · simp only [h, if_true]; exact (contDiff_coord 2).neg
  · simp only [h, if_false]; exact contDiff_coord i

theorem seg0_smooth (v1 v2 : V2) : Smooth OffPlane fun p => segComp 0 0 p v1 v2 := by
  intro w hw
  have hz : w 2 ≠ 0 := hw
  rcases lt_or_gt_of_ne hz with h | h
  · have h1 : ContDiffAt ℝ ∞ (fun w => segComp 0 0 (toV w) v1 v2) (mirW w) :=
      seg0_smooth_pos v1 v2 (mirW w) (by simpa [mirW] using h)
    have h2 := (h1.comp w contDiff_mirW.contDiffAt).neg
    refine h2.congr_of_eventuallyEq (Filter.Eventually.of_forall fun w' => ?_)
    simp only [Function.comp_def]
    rw [toV_mirW, seg_mirror 0 0 (by norm_num)]
    have : compOdd 0 0 = true := by decide
    rw [this]; simp [sgn]
  · exact seg0_smooth_pos v1 v2 w h

theorem smooth_list_sum {ι : Type*} (U : V3 → Prop) (L : List ι) (f : ι → V3 → ℝ) (h : ∀ s ∈ L, Smooth U (f s)) :
    Smooth U fun p => (L.map fun s => f s p).sum := by
  induction L with
  | nil => intro w _; simpa using contDiffAt_const
  | cons s L ih =>
    simp only [List.map_cons, List.sum_cons]
    exact smooth_add (h s (by simp)) (ih fun s hs => h s (by simp [hs]))

theorem poly_first (poly : List V2) : ∀ k < 5, ∀ i < 2 * k + 1, ∀ a p, OffPlane p →
    HasPartial a (polyComp k i poly)
      (tens (fun k i p => polyComp k i poly p) (k + 1) (nameIdx k i ++ [a]) p) p := by
  refine assemble OffPlane offPlane_open (fun k i p => polyComp k i poly p)
    (fun p => ((boundaryEdges poly).map fun e => EdgeId.segXyyz e.1 e.2 p).sum) ?_ ?_ ?_ ?_ ?_ ?_
  · exact smooth_list_sum _ _ (fun (e : V2 × V2) p => segComp 0 0 p e.1 e.2) fun e _ => seg0_smooth e.1 e.2
  · intro a p hp
    exact EdgeId.poly_gradient poly hp a
  · intro k i j a hr p hp
    exact HasPartial.list_sum _ (fun (e : V2 × V2) p => segComp k j p e.1 e.2) _ p
      fun e _ => EdgeId.seg_step e.1 e.2 p hp k i j a hr
  · intro p hp
    exact HasPartial.list_sum _ (fun (e : V2 × V2) p => segComp 3 6 p e.1 e.2) _ p
      fun e _ => EdgeId.seg_xyyz e.1 e.2 p hp
  · intro p hp
    exact HasPartial.list_sum _ (fun (e : V2 × V2) p => EdgeId.segXyyz e.1 e.2 p) _ p
      fun e _ => EdgeId.seg_xyyzz e.1 e.2 p hp
  · intro p hp
    have := HasPartial.list_sum (boundaryEdges poly) (fun (e : V2 × V2) p => segComp 1 2 p e.1 e.2) _ p
      fun e _ => EdgeId.seg_laplace e.1 e.2 p hp
    have e : ∀ L : List (V2 × V2), (L.map fun e => -segComp 2 0 p e.1 e.2 - segComp 2 3 p e.1 e.2).sum
        = -(L.map fun e => segComp 2 0 p e.1 e.2).sum - (L.map fun e => segComp 2 3 p e.1 e.2).sum := by
      intro L
      induction L with
      | nil => simp
      | cons s L ih => simp only [List.map_cons, List.sum_cons, ih]; ring
    rw [e] at this
    exact this

end Electrode
