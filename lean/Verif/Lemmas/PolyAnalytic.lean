import Verif.Props.Limits
import Mathlib.Analysis.Analytic.Uniqueness
import Mathlib.MeasureTheory.Measure.Lebesgue.EqHaar
import Mathlib.LinearAlgebra.AffineSpace.FiniteDimensional

/-
The polygon potential is analytic off the electrode plane, so that it is determined by its values in any ball.
-/
namespace Electrode
open Spec PExpr Real
open scoped ContDiff

theorem an_eval (ρ : W → Nat → ℝ) (w : W) (h : ∀ i, ContDiffAt ℝ ω (fun w => ρ w i) w) (e : PExpr) :
    ContDiffAt ℝ ω (fun w => e.eval (ρ w)) w := by
  induction e with
  | c n => exact contDiffAt_const
  | v i => exact h i
  | neg a ih => exact ih.neg
  | add a b ha hb => exact ha.add hb
  | sub a b ha hb => exact ha.sub hb
  | mul a b ha hb => exact ha.mul hb
  | pow a n ih => exact ih.pow n

theorem an_coord (i : Fin 3) : ContDiff ℝ ω fun w : W => w i := contDiff_apply ℝ ℝ i

theorem an_relR (q : V2) (w : W) (h : OffPlane (toV w)) : ContDiffAt ℝ ω (fun w => relR q (toV w)) w := by
  unfold relR
  have h0 := (an_coord 0).contDiffAt (x := w)
  have h1 := (an_coord 1).contDiffAt (x := w)
  have h2 := (an_coord 2).contDiffAt (x := w)
  refine ContDiffAt.sqrt (((h0.sub contDiffAt_const).pow 2).add ((h1.sub contDiffAt_const).pow 2) |>.add (h2.pow 2)) ?_
  have : 0 < (toV w).z ^ 2 := by
    have : (toV w).z ≠ 0 := h
    positivity
  simp only [toV] at this
  positivity

theorem an_env (v1 v2 : V2) (w : W) (h : OffPlane (toV w)) (i : Nat) :
    ContDiffAt ℝ ω (fun w => EdgeId.env v1 v2 (toV w) i) w := by
  have h0 := (an_coord 0).contDiffAt (x := w)
  have h1 := (an_coord 1).contDiffAt (x := w)
  have h2 := (an_coord 2).contDiffAt (x := w)
  unfold EdgeId.env edgeEnv
  rcases i with _ | _ | _ | _ | _ | _ | _ | _ | i
  · exact h0.sub contDiffAt_const
  · exact h0.sub contDiffAt_const
  · exact h1.sub contDiffAt_const
  · exact h1.sub contDiffAt_const
  · exact an_relR v1 w h
  · exact an_relR v2 w h
  · unfold EdgeId.len2
    exact (((h0.sub contDiffAt_const).sub (h0.sub contDiffAt_const)).pow 2).add
      (((h1.sub contDiffAt_const).sub (h1.sub contDiffAt_const)).pow 2)
  · exact h2
  · exact contDiffAt_const

theorem an_seg_pos (v1 v2 : V2) (w : W) (h : 0 < w 2) :
    ContDiffAt ℝ ω (fun w => segComp 0 0 (toV w) v1 v2) w := by
  have hoff : OffPlane (toV w) := h.ne'
  have hn := an_eval _ w (an_env v1 v2 w hoff) EdgeId.nE
  have hd := an_eval _ w (an_env v1 v2 w hoff) EdgeId.dE
  have := (Real.contDiff_arctan.contDiffAt.comp w (hn.div hd (EdgeId.dE_pos (p := toV w) h v1 v2).ne')).mul (contDiffAt_const (c := 1 / π))
  refine this.congr_of_eventuallyEq ?_
  have hpos : ∀ᶠ w' : W in nhds w, 0 < w' 2 :=
    (continuous_apply 2).continuousAt.eventually_const_lt h
  filter_upwards [hpos] with w' hw'
  exact EdgeId.seg0_pos (p := toV w') hw' v1 v2

theorem an_mirror : ContDiff ℝ ω mirW := by
  rw [contDiff_pi]
  intro i
  unfold mirW
  by_cases h : i = 2
  · simp only [h, if_true]; exact (an_coord 2).neg
  · simp only [h, if_false]; exact an_coord i

theorem an_seg (v1 v2 : V2) (w : W) (hw : OffPlane (toV w)) : ContDiffAt ℝ ω (fun w => segComp 0 0 (toV w) v1 v2) w := by
  have hz : w 2 ≠ 0 := hw
  rcases lt_or_gt_of_ne hz with h | h
  · have h1 : ContDiffAt ℝ ω (fun w => segComp 0 0 (toV w) v1 v2) (mirW w) :=
      an_seg_pos v1 v2 (mirW w) (by simpa [mirW] using h)
    have h2 := (h1.comp w an_mirror.contDiffAt).neg
    refine h2.congr_of_eventuallyEq (Filter.Eventually.of_forall fun w' => ?_)
    simp only [Function.comp_def]
    rw [toV_mirW, seg_mirror 0 0 (by norm_num)]
    have : compOdd 0 0 = true := by decide
    rw [this]; simp [sgn]
  · exact an_seg_pos v1 v2 w h

theorem an_list_sum {ι : Type*} (L : List ι) (f : ι → W → ℝ) (w : W) (h : ∀ s ∈ L, ContDiffAt ℝ ω (f s) w) :
    ContDiffAt ℝ ω (fun w => (L.map fun s => f s w).sum) w := by
  induction L with
  | nil => simpa using contDiffAt_const
  | cons s L ih =>
    simp only [List.map_cons, List.sum_cons]
    exact (h s (by simp)).add (ih fun s hs => h s (by simp [hs]))

theorem an_poly (poly : List V2) (w : W) (hw : OffPlane (toV w)) : ContDiffAt ℝ ω (fun w => polyComp 0 0 poly (toV w)) w :=
  an_list_sum (boundaryEdges poly) (fun (e : V2 × V2) w => segComp 0 0 (toV w) e.1 e.2) w fun e _ => an_seg e.1 e.2 w hw

theorem an_polys (polys : List (List V2)) (h : ℝ) (n : Nat) (w : W) (hw : offPlanes h n (toV w)) :
    ContDiffAt ℝ ω (fun w => polyContrib 0 n h polys (toV w) 0) w := by
  simp only [polyContrib_swap]
  refine an_list_sum _ (fun (m : ℤ) w => (polys.map fun poly => polyComp 0 0 poly ((toV w).lift (2 * (m : ℝ) * h))).sum) w fun m hm => ?_
  rw [mem_coverRange] at hm
  refine an_list_sum _ (fun poly w => polyComp 0 0 poly ((toV w).lift (2 * (m : ℝ) * h))) w fun poly _ => ?_
  have h1 : ContDiff ℝ ω fun w : W => w + (![0, 0, 2 * (m : ℝ) * h] : W) := contDiff_id.add contDiff_const
  have e : ∀ w : W, (toV w).lift (2 * (m : ℝ) * h) = toV (w + ![0, 0, 2 * (m : ℝ) * h]) := fun w => by simp [toV, V3.lift]
  simp only [e]
  refine ContDiffAt.comp w (g := fun w => polyComp 0 0 poly (toV w)) (an_poly poly _ ?_) h1.contDiffAt
  have := hw m hm.1 hm.2
  simpa [OffPlane, toV] using this

/-- the potential of a system of polygons is analytic above the plane, below the cover -/
theorem an_trap {h : ℝ} {n : Nat} {els : List Elec} (ht : polygonTrap h n els) (typ : VTyp) (w : W) (hw : offPlanes h n (toV w)) :
    AnalyticAt ℝ (fun w => sysContrib els typ 0 0 (toV w)) w := by
  refine ContDiffAt.analyticAt (an_list_sum els (fun e w => e.voltD typ * e.shape.contrib 0 (toV w) 0) w fun e he => ?_)
  obtain ⟨polys, hs⟩ := ht e he
  rw [hs]
  exact contDiffAt_const.mul (an_polys polys h n w hw)

/-- segments have no area -/
theorem segment_ae (a b : V2) : ∀ᵐ q : ℝ × ℝ, ¬ onSegment q a b := by
  have h1 : {q : ℝ × ℝ | onSegment q a b} ⊆ (line[ℝ, ((a.x, a.y) : ℝ × ℝ), (b.x, b.y)] : AffineSubspace ℝ (ℝ × ℝ)) := by
    rintro ⟨u, v⟩ ⟨t, -, -, h1, h2⟩
    have : (u, v) = AffineMap.lineMap ((a.x, a.y) : ℝ × ℝ) (b.x, b.y) t := by
      simp only at h1 h2
      rw [AffineMap.lineMap_apply]
      ext <;> simp [h1, h2] <;> ring
    rw [this]
    exact AffineMap.lineMap_mem_affineSpan_pair t _ _
  have h2 : (line[ℝ, ((a.x, a.y) : ℝ × ℝ), (b.x, b.y)] : AffineSubspace ℝ (ℝ × ℝ)) ≠ ⊤ := by
    intro h
    have h3 := collinear_iff_finrank_le_one.1 (collinear_pair ℝ ((a.x, a.y) : ℝ × ℝ) (b.x, b.y))
    rw [← direction_affineSpan, h, AffineSubspace.direction_top, finrank_top, Module.finrank_prod] at h3
    norm_num at h3
  haveI : (MeasureTheory.volume : MeasureTheory.Measure (ℝ × ℝ)).IsAddHaarMeasure :=
    MeasureTheory.Measure.prod.instIsAddHaarMeasure MeasureTheory.volume MeasureTheory.volume
  exact MeasureTheory.measure_mono_null (fun q hq => h1 (not_not.1 hq)) (MeasureTheory.Measure.addHaar_affineSubspace _ _ h2)

theorem boundary_ae (poly : List V2) : ∀ᵐ q : ℝ × ℝ, offBoundary poly q := by
  unfold offBoundary
  generalize List.zip poly (poly.rotate 1) = L
  induction L with
  | nil => simp
  | cons e L ih =>
    filter_upwards [segment_ae e.1 e.2, ih] with q h1 h2 e' he'
    rcases List.mem_cons.1 he' with rfl | he'
    · exact h1
    · exact h2 e' he'

end Electrode
