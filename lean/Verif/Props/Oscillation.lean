import Verif.Spec.Oscillation
import Verif.Props.Expansion
import Verif.Props.Averaging
import Verif.Props.Layout
import Verif.Props.Analyze

/-
C136: ions oscillate with the frequencies of the modes.
-/
namespace Electrode
open Spec Set

namespace Osc

/-- an oscillator with a small additional force -/
theorem oscillator {ω F T : ℝ} (hω : 0 < ω) {u w f : ℝ → ℝ} (hu : ∀ t ∈ Icc 0 T, HasDerivWithinAt u (w t) (Icc 0 T) t)
    (hw : ∀ t ∈ Icc 0 T, HasDerivWithinAt w (-ω ^ 2 * u t + f t) (Icc 0 T) t) (hf : ∀ t ∈ Icc 0 T, |f t| ≤ F) (t : ℝ) (ht : t ∈ Icc 0 T) :
    |u t - swing ω (u 0) (w 0) t| ≤ F * t / ω := by
  have hsub : Icc 0 t ⊆ Icc 0 T := Icc_subset_Icc_right ht.2
  have hF : 0 ≤ F := (abs_nonneg _).trans (hf t ht)
  have hc : ∀ s : ℝ, HasDerivAt (fun s => Real.cos (ω * (t - s))) (ω * Real.sin (ω * (t - s))) s := fun s => by
    refine ((((hasDerivAt_id s).const_sub t).const_mul ω).cos).congr_deriv ?_
    simp
    ring
  have hsn : ∀ s : ℝ, HasDerivAt (fun s => Real.sin (ω * (t - s))) (-(ω * Real.cos (ω * (t - s)))) s := fun s => by
    refine ((((hasDerivAt_id s).const_sub t).const_mul ω).sin).congr_deriv ?_
    simp
    ring
  have hg : ∀ s ∈ Icc 0 t, HasDerivWithinAt (fun s => u s * (ω * Real.cos (ω * (t - s))) + w s * Real.sin (ω * (t - s))) (f s * Real.sin (ω * (t - s))) (Icc 0 t) s := by
    intro s hs
    refine ((((hu s (hsub hs)).mono hsub).mul ((hc s).const_mul ω).hasDerivWithinAt).add (((hw s (hsub hs)).mono hsub).mul (hsn s).hasDerivWithinAt)).congr_deriv ?_
    ring
  have h := norm_image_sub_le_of_norm_deriv_le_segment' hg (C := F) (fun s hs => by
    rw [Real.norm_eq_abs, abs_mul]
    have h1 := hf s (hsub ⟨hs.1, hs.2.le⟩)
    have h2 := Real.abs_sin_le_one (ω * (t - s))
    nlinarith [abs_nonneg (f s), abs_nonneg (Real.sin (ω * (t - s)))]) t ⟨ht.1, le_rfl⟩
  simp only [sub_self, mul_zero, Real.cos_zero, mul_one, Real.sin_zero, add_zero, sub_zero, Real.norm_eq_abs] at h
  rw [le_div_iff₀ hω, ← abs_of_pos hω, ← abs_mul, abs_of_pos hω]
  refine le_trans (le_of_eq ?_) h
  congr 1
  unfold swing
  field_simp

variable {els : List Elec} {c : ℝ}

theorem coord_deriv {s : Set ℝ} {x : ℝ → Fin 3 → ℝ} {x' : Fin 3 → ℝ} {t : ℝ} (e : Fin 3 → ℝ) (h : HasDerivWithinAt x x' s t) :
    HasDerivWithinAt (fun t => coordAlong e (x t)) (coordAlong e x') s t :=
  HasDerivWithinAt.fun_sum fun a _ => ((hasDerivWithinAt_pi.1 h) a).const_mul (e a)

end Osc

open Osc Expan

/-- **C136.** The modes are those of the motion: near a minimum, the coordinate of an ion along an eigenvector that `modes` returns is that of a harmonic
oscillator with the angular frequency from its eigenvalue. The deviation grows at most linearly with time, and is of second order in the
distance from the minimum. -/
theorem c136_modes (eigh : Eigh) (heigh : IsEigh eigh) (argsort : Argsort) (hsort : IsArgsort argsort) (els : List Elec) (c : ℝ) (x0 : Fin 3 → ℝ)
    (ew : List ℝ) (ev : List (Fin 3 → ℝ)) (h : modes eigh argsort ⟨els, some c⟩ (toV3 x0) true = .ok (ew, ev)) (hg : slopeAt ⟨els, some c⟩ x0 = 0)
    (r : ℝ) (hr : 0 < r) (hc : clearOf ⟨els, some c⟩ (rball x0 r)) (M : ℝ)
    (hM : ∀ y ∈ rball x0 r, ∀ i : Idx, i.length = 3 → |totalAt ⟨els, some c⟩ i (toV3 y)| ≤ M) (κ T : ℝ) (hκ : 0 < κ) (x v : ℝ → Fin 3 → ℝ)
    (hm : IonPath ⟨els, some c⟩ κ T x v) (hx : ∀ t ∈ Icc 0 T, x t ∈ rball x0 r) (j : Nat) (hj : j < 3) (hw : 0 < ew.getD j 0) (t : ℝ) (ht : t ∈ Icc 0 T) :
    |coordAlong (ev.getD j 0) (x t - x0) - swing √(κ * ew.getD j 0) (coordAlong (ev.getD j 0) (x 0 - x0)) (coordAlong (ev.getD j 0) (v 0)) t|
      ≤ κ * (3 * √3 / 2 * M * r ^ 2) * t / √(κ * ew.getD j 0) := by
  obtain ⟨-, -, -, he, ho⟩ := c43_modes eigh heigh argsort hsort _ _ ew ev h
  set e := ev.getD j 0 with hedef
  set lam := ew.getD j 0 with hlam
  have hx0 : x0 ∈ rball x0 r := Rob.center_mem x0 hr
  have hM0 : 0 ≤ M := (abs_nonneg _).trans (hM x0 hx0 [0, 0, 0] rfl)
  have hω : √(κ * lam) ^ 2 = κ * lam := Real.sq_sqrt (by positivity)
  have hlen : vlen e = 1 := by
    have := ho j j hj hj
    rw [if_pos rfl] at this
    rw [vlen, Real.sqrt_eq_one, ← this]
    exact Finset.sum_congr rfl fun a _ => sq _
  have hse : ∑ a, |e a| ≤ √3 := by
    have := sum_abs_le e
    rwa [hlen, mul_one] at this
  set f : ℝ → ℝ := fun t => -κ * coordAlong e (slopeAt ⟨els, some c⟩ (x t)) + κ * lam * coordAlong e (x t - x0) with hf
  refine oscillator (ω := √(κ * lam)) (F := κ * (3 * √3 / 2 * M * r ^ 2)) (T := T) (u := fun t => coordAlong e (x t - x0)) (w := fun t => coordAlong e (v t)) (f := f)
    (Real.sqrt_pos.2 (by positivity)) (fun t ht => ?_) (fun t ht => ?_) (fun t ht => ?_) t ht
  · exact coord_deriv e ((hm.velocity t ht).sub_const x0)
  · refine (coord_deriv e (hm.force t ht)).congr_deriv ?_
    have e1 : coordAlong e (fun a => -κ * slopeAt ⟨els, some c⟩ (x t) a) = -κ * coordAlong e (slopeAt ⟨els, some c⟩ (x t)) := by
      rw [coordAlong, coordAlong, Finset.mul_sum]
      exact Finset.sum_congr rfl fun a _ => by ring
    rw [e1, hf, neg_mul, hω]
    ring
  · set d := x t - x0 with hd
    have hdr : vlen d ≤ r := hx t ht
    have hxd : x t = x0 + d := by rw [hd]; abel
    have hh := (c135_harmonic els c x0 hg d (fun s hs => hc _ (line_mem hdr hs)) M fun s hs i hi => hM _ (line_mem hdr hs) i hi).2
    rw [← hxd] at hh
    have hlin : lam * coordAlong e d = ∑ a, e a * ∑ b, totalAt ⟨els, some c⟩ [a, b] (toV3 x0) * d b := by
      have h1 : ∀ b, lam * e b = ∑ a, totalAt ⟨els, some c⟩ [a, b] (toV3 x0) * e a := fun b => by
        rw [← he j b hj]
        exact Finset.sum_congr rfl fun a _ => by rw [total_symm2 els c _ (hc x0 hx0) b a]
      simp only [coordAlong, Finset.mul_sum, ← mul_assoc, h1, Finset.sum_mul]
      rw [Finset.sum_comm]
      exact Finset.sum_congr rfl fun a _ => Finset.sum_congr rfl fun b _ => by ring
    have hfe : f t = -κ * ∑ a, e a * (slopeAt ⟨els, some c⟩ (x t) a - ∑ b, totalAt ⟨els, some c⟩ [a, b] (toV3 x0) * d b) := by
      simp only [mul_sub, Finset.sum_sub_distrib]
      rw [← hlin, hf]
      simp only [coordAlong]
      ring
    have hS : (∑ a, |d a|) ^ 2 ≤ 3 * r ^ 2 := by
      have h1 := sum_abs_le d
      have h2 : ∑ a, |d a| ≤ √3 * r := h1.trans (by gcongr)
      calc (∑ a, |d a|) ^ 2 ≤ (√3 * r) ^ 2 := pow_le_pow_left₀ (sum_abs_nonneg d) h2 2
        _ = 3 * r ^ 2 := by rw [mul_pow, Real.sq_sqrt (by norm_num)]
    rw [hfe, abs_mul, abs_neg, abs_of_pos hκ]
    refine mul_le_mul_of_nonneg_left ?_ hκ.le
    calc |∑ a, e a * (slopeAt ⟨els, some c⟩ (x t) a - ∑ b, totalAt ⟨els, some c⟩ [a, b] (toV3 x0) * d b)|
        ≤ ∑ a, |e a| * (M * (3 * r ^ 2) / 2) := by
          refine (Finset.abs_sum_le_sum_abs _ _).trans (Finset.sum_le_sum fun a _ => ?_)
          rw [abs_mul]
          refine mul_le_mul_of_nonneg_left ((hh a).trans ?_) (abs_nonneg _)
          gcongr
      _ = (∑ a, |e a|) * (M * (3 * r ^ 2) / 2) := by rw [Finset.sum_mul]
      _ ≤ √3 * (M * (3 * r ^ 2) / 2) := by gcongr
      _ = 3 * √3 / 2 * M * r ^ 2 := by ring

/-- **C136.** The ion stays near the minimum and oscillates: if its energy does not suffice to get to the distance `r` from the
minimum, there is a motion for any time, and each motion is the one predicted by `modes`. -/
theorem c136_well (eigh : Eigh) (heigh : IsEigh eigh) (argsort : Argsort) (hsort : IsArgsort argsort) (els : List Elec) (c : ℝ) (x0 : Fin 3 → ℝ)
    (ew : List ℝ) (ev : List (Fin 3 → ℝ)) (h : modes eigh argsort ⟨els, some c⟩ (toV3 x0) true = .ok (ew, ev)) (hg : slopeAt ⟨els, some c⟩ x0 = 0)
    (r : ℝ) (hr : 0 < r) (hc : clearOf ⟨els, some c⟩ (rball x0 r)) (M : ℝ)
    (hM : ∀ y ∈ rball x0 r, ∀ i : Idx, i.length = 3 → |totalAt ⟨els, some c⟩ i (toV3 y)| ≤ M) (κ : ℝ) (hκ : 0 < κ)
    (hlam : 0 < ew.getD 0 0 - 3 * √3 * M * r) (x1 v1 : Fin 3 → ℝ) (h1 : vlen (x1 - x0) < r)
    (hE : energyAt ⟨els, some c⟩ κ x1 v1 - κ * valueAt ⟨els, some c⟩ x0 < κ * (ew.getD 0 0 - 3 * √3 * M * r) * r ^ 2 / 2) (T : ℝ) :
    (∃ x v, IonPath ⟨els, some c⟩ κ T x v ∧ x 0 = x1 ∧ v 0 = v1) ∧
    ∀ x v, IonPath ⟨els, some c⟩ κ T x v → x 0 = x1 → v 0 = v1 → ∀ j < 3, ∀ t ∈ Icc 0 T,
      |coordAlong (ev.getD j 0) (x t - x0) - swing √(κ * ew.getD j 0) (coordAlong (ev.getD j 0) (x1 - x0)) (coordAlong (ev.getD j 0) v1) t|
        ≤ κ * (3 * √3 / 2 * M * r ^ 2) * t / √(κ * ew.getD j 0) := by
  have hst := c130_modes eigh heigh argsort hsort els c x0 r hr hc ew ev h M fun y hy a b d => hM y hy [a, b, d] rfl
  obtain ⟨l1, -, sorted, -, -⟩ := c43_modes eigh heigh argsort hsort _ _ ew ev h
  refine ⟨?_, fun x v hm hx0 hv0 j hj t ht => ?_⟩
  · obtain ⟨x, v, a, b, d, -⟩ := c131_well els c κ hκ x0 r hr hc _ hlam hst hg x1 v1 h1 hE T
    exact ⟨x, v, a, b, d⟩
  · have hin : ∀ t ∈ Icc 0 T, x t ∈ rball x0 r := fun t ht => by
      have := c131_amplitude els c κ T hκ x v hm x0 r hr hc _ hlam hst hg (by rw [hx0]; exact h1) (by rw [hx0, hv0]; exact hE) t ht
      rw [hx0, hv0] at this
      have h2 : 2 * (energyAt ⟨els, some c⟩ κ x1 v1 - κ * valueAt ⟨els, some c⟩ x0) / (κ * (ew.getD 0 0 - 3 * √3 * M * r)) ≤ r ^ 2 := by
        rw [div_le_iff₀ (by positivity)]
        nlinarith
      exact abs_le_of_sq_le_sq' (this.trans h2) hr.le |>.2
    have hM0 : 0 ≤ M := (abs_nonneg _).trans (hM x0 (Rob.center_mem x0 hr) [0, 0, 0] rfl)
    have hpos : 0 < ew.getD 0 0 := by
      have : 0 ≤ 3 * √3 * M * r := by positivity
      linarith
    have hw : 0 < ew.getD j 0 := by
      rcases Nat.eq_zero_or_pos j with rfl | h0
      · exact hpos
      · have := (List.pairwise_iff_getElem.1 sorted) 0 j (by omega) (by omega) h0
        rw [List.getD_eq_getElem _ _ (by omega)] at hpos ⊢
        exact hpos.trans_le this
    have := c136_modes eigh heigh argsort hsort els c x0 ew ev h hg r hr hc M hM κ T hκ x v hm hin j hj hw t ht
    rwa [hx0, hv0] at this

/-- **C136.** The frequencies in the report of `analyze_static`: near a point without force, the coordinate of an ion along a mode of the
pseudopotential oscillates with the frequency `f` in the line (in MHz). -/
theorem c136_report (k : PhysConst) (hamu : k.amu ≠ 0) (hqe : k.qe ≠ 0) (lib : AnalyzeLib) (heigh : IsEigh lib.eigh) (hsort : IsArgsort lib.argsort)
    (els : List Elec) (c : ℝ) (x0 : Fin 3 → ℝ) (A : AnalyzeArgs) (hm : 0 < A.m) (hq : 0 < A.q) (hl : 0 < A.l) (hh : k.h ≠ 0) (lines : List Line)
    (h : analyzeStatic k lib ⟨els, some c⟩ x0 A = (lines, none)) (j : Nat) (f : ℝ) (e : Fin 3 → ℝ) (hline : Line.mode .pseudo j (some f) e ∈ lines) (hf : f ≠ 0)
    (hg : slopeAt ⟨els, some c⟩ x0 = 0) (r : ℝ) (hr : 0 < r) (hc : clearOf ⟨els, some c⟩ (rball x0 r)) (M : ℝ)
    (hM : ∀ y ∈ rball x0 r, ∀ i : Idx, i.length = 3 → |totalAt ⟨els, some c⟩ i (toV3 y)| ≤ M) (T : ℝ) (x v : ℝ → Fin 3 → ℝ)
    (hp : IonPath ⟨els, some c⟩ (A.q / (A.m * A.l ^ 2)) T x v) (hx : ∀ t ∈ Icc 0 T, x t ∈ rball x0 r) (t : ℝ) (ht : t ∈ Icc 0 T) :
    |coordAlong e (x t - x0) - swing (2 * Real.pi * (f * 1e6)) (coordAlong e (x 0 - x0)) (coordAlong e (v 0)) t|
      ≤ A.q / (A.m * A.l ^ 2) * (3 * √3 / 2 * M * r ^ 2) * t / (2 * Real.pi * (f * 1e6)) := by
  obtain ⟨c', F, hc', hF, hall⟩ := c89_report_partial k hamu hqe lib ⟨els, some c⟩ x0 A hm hq hl hh lines h
  obtain rfl : c = c' := Option.some.inj hc'
  obtain ⟨w, hw, he, hpos, hneg⟩ := hall _ hline
  have hw0 : 0 ≤ w := by
    by_contra hn
    simpa using hneg (not_le.1 hn)
  obtain ⟨g, hgf, hg0, hgw⟩ := hpos hw0
  obtain rfl : f = g := Option.some.inj hgf
  have hω0 : 0 < 2 * Real.pi * (f * 1e6) := by
    have : 0 < f := lt_of_le_of_ne hg0 (Ne.symm hf)
    positivity
  have hκw : A.q / (A.m * A.l ^ 2) * w = (2 * Real.pi * (f * 1e6)) ^ 2 := by
    field_simp
    field_simp at hgw
    linarith
  have hwpos : 0 < w := by
    rcases hw0.lt_or_eq with h | h
    · exact h
    · rw [← h, mul_zero] at hκw
      exact absurd hκw.symm (by positivity)
  have hj : j < 3 := by
    obtain ⟨l1, -⟩ := c43_modes _ heigh _ hsort _ _ _ _ hF.modes
    rw [← l1]
    exact (List.getElem?_eq_some_iff.1 hw).1
  have hwj : F.ew.getD j 0 = w := by rw [List.getD_eq_getElem?_getD, hw, Option.getD_some]
  have hej : F.ev.getD j 0 = e := by rw [List.getD_eq_getElem?_getD, he, Option.getD_some]
  have := c136_modes lib.eigh heigh lib.argsort hsort els c x0 F.ew F.ev hF.modes hg r hr hc M hM (A.q / (A.m * A.l ^ 2)) T (by positivity) x v hp hx j hj
    (by rw [hwj]; exact hwpos) t ht
  rwa [hwj, hej, hκw, Real.sqrt_sq hω0.le] at this

/-- **C136.** The same for the motion in the oscillating rf field, up to an error that falls with the frequency of the drive. -/
theorem c136_driven (eigh : Eigh) (heigh : IsEigh eigh) (argsort : Argsort) (hsort : IsArgsort argsort) (els : List Elec) (m q l : ℝ) (hm : 0 < m) (hq : 0 < q)
    (hl : 0 < l) (x0 : Fin 3 → ℝ) (ew : List ℝ) (ev : List (Fin 3 → ℝ)) (s : Sys) (hs : s = (Sys.rfScale ⟨els, none⟩ m q l 1).1)
    (h : modes eigh argsort s (toV3 x0) true = .ok (ew, ev)) (hg : slopeAt s x0 = 0) (r R : ℝ) (hr : 0 < r) (hrR : r < R) (hc : clearOf ⟨els, none⟩ (rball x0 R))
    (M : ℝ) (hM : ∀ y ∈ rball x0 r, ∀ i : Idx, i.length = 3 → |totalAt s i (toV3 y)| ≤ M)
    (T V : ℝ) (hT : 0 ≤ T) (j : Nat) (hj : j < 3) (hw : 0 < ew.getD j 0) :
    ∃ C, 0 ≤ C ∧ ∀ X U, IonPath s (q / (m * l ^ 2)) T X U → vlen (U 0) ≤ V → (∀ t ∈ Icc 0 T, X t ∈ rball x0 r) →
      ∀ Ω > 0, C < Ω * (R - r) → ∀ x v, DrivenPath (withRf Ω els) (q / (m * l ^ 2)) Ω T x v → x 0 = X 0 → v 0 = U 0 → ∀ t ∈ Icc 0 T,
        |coordAlong (ev.getD j 0) (x t - x0)
            - swing √(q / (m * l ^ 2) * ew.getD j 0) (coordAlong (ev.getD j 0) (x 0 - x0)) (coordAlong (ev.getD j 0) (v 0)) t|
          ≤ q / (m * l ^ 2) * (3 * √3 / 2 * M * r ^ 2) * t / √(q / (m * l ^ 2) * ew.getD j 0) + C / Ω := by
  subst hs
  obtain ⟨C, hC, hall⟩ := c132_stays els m q l hm hq hl x0 r R T V hrR hT hc
  refine ⟨C, hC, fun X U hX hU hin Ω hΩ hbig x v hx hx0 hv0 t ht => ?_⟩
  have hsys : (Sys.rfScale ⟨els, none⟩ m q l 1).1 = ⟨els, some (√(q / m) / (2 * l * 1))⟩ := rfl
  have h1 := ((hall X U hX hU hin Ω hΩ hbig).2 x v hx hx0 hv0 t ht).2
  have h2 := c136_modes eigh heigh argsort hsort els _ x0 ew ev (by rw [← hsys]; exact h) (by rw [← hsys]; exact hg) r hr
    (fun y hy => hc y (hy.trans hrR.le)) M (by rw [← hsys]; exact hM) (q / (m * l ^ 2)) T (by positivity) X U (by rw [← hsys]; exact hX) hin j hj hw t ht
  rw [hx0, hv0]
  have h3 : coordAlong (ev.getD j 0) (x t - x0) = coordAlong (ev.getD j 0) (X t - x0) + coordAlong (ev.getD j 0) (x t - X t) := by
    simp only [coordAlong, ← Finset.sum_add_distrib, Pi.sub_apply]
    exact Finset.sum_congr rfl fun a _ => by ring
  have h4 : |coordAlong (ev.getD j 0) (x t - X t)| ≤ C / Ω := by
    obtain ⟨-, -, -, -, ho⟩ := c43_modes eigh heigh argsort hsort _ _ ew ev h
    have hlen : vlen (ev.getD j 0) = 1 := by
      have := ho j j hj hj
      rw [if_pos rfl] at this
      rw [vlen, Real.sqrt_eq_one, ← this]
      exact Finset.sum_congr rfl fun a _ => sq _
    have ha := Rob.cs (ev.getD j 0) (x t - X t)
    have hb := Rob.cs' (ev.getD j 0) (x t - X t)
    rw [hlen, one_mul] at ha hb
    exact (abs_le.2 ⟨hb, ha⟩).trans h1
  rw [h3, add_sub_right_comm]
  exact (abs_add_le _ _).trans (add_le_add h2 h4)

/-- **C136.** At any point without force and with positive curvatures: there are a range and a constant such that motions of the amplitude `r` within the range exist for any
time and follow the modes up to an error of at most `C r² t`. -/
theorem c136_small (eigh : Eigh) (heigh : IsEigh eigh) (argsort : Argsort) (hsort : IsArgsort argsort) (els : List Elec) (c : ℝ) (x0 : Fin 3 → ℝ)
    (hoff : offSystem els (toV3 x0)) (ew : List ℝ) (ev : List (Fin 3 → ℝ)) (h : modes eigh argsort ⟨els, some c⟩ (toV3 x0) true = .ok (ew, ev))
    (hw : ∀ w ∈ ew, 0 < w) (hg : slopeAt ⟨els, some c⟩ x0 = 0) (κ : ℝ) (hκ : 0 < κ) :
    ∃ r0 > 0, ∃ C, ∀ r, 0 < r → r ≤ r0 → ∀ x1 v1 : Fin 3 → ℝ, vlen (x1 - x0) < r →
      energyAt ⟨els, some c⟩ κ x1 v1 - κ * valueAt ⟨els, some c⟩ x0 < κ * (ew.getD 0 0 / 2) * r ^ 2 / 2 → ∀ T,
      (∃ x v, IonPath ⟨els, some c⟩ κ T x v ∧ x 0 = x1 ∧ v 0 = v1) ∧
      ∀ x v, IonPath ⟨els, some c⟩ κ T x v → x 0 = x1 → v 0 = v1 → ∀ j < 3, ∀ t ∈ Icc 0 T,
        |coordAlong (ev.getD j 0) (x t - x0) - swing √(κ * ew.getD j 0) (coordAlong (ev.getD j 0) (x1 - x0)) (coordAlong (ev.getD j 0) v1) t| ≤ C * r ^ 2 * t := by
  obtain ⟨l1, -, sorted, -, -⟩ := c43_modes eigh heigh argsort hsort _ _ ew ev h
  have hj0 : ∀ j < 3, 0 < ew.getD j 0 ∧ ew.getD 0 0 ≤ ew.getD j 0 := fun j hj => by
    rw [List.getD_eq_getElem _ _ (by omega), List.getD_eq_getElem _ _ (by omega)]
    refine ⟨hw _ (List.getElem_mem _), ?_⟩
    rcases Nat.eq_zero_or_pos j with rfl | h0
    · exact le_rfl
    · exact (List.pairwise_iff_getElem.1 sorted) 0 j (by omega) (by omega) h0
  have hpos := (hj0 0 (by norm_num)).1
  obtain ⟨R, M, hR, hM0, hc, hM⟩ := bounded els c 3 (by norm_num) x0 hoff
  refine ⟨min R (ew.getD 0 0 / (6 * √3 * (M + 1))), by positivity, κ * (3 * √3 / 2 * M) / √(κ * ew.getD 0 0), fun r hr hr0 x1 v1 h1 hE T => ?_⟩
  have hrR : r ≤ R := hr0.trans (min_le_left _ _)
  have hrM : 3 * √3 * M * r ≤ ew.getD 0 0 / 2 := by
    have h2 : r ≤ ew.getD 0 0 / (6 * √3 * (M + 1)) := hr0.trans (min_le_right _ _)
    rw [le_div_iff₀ (by positivity)] at h2
    have h3 : 0 ≤ √3 * r := by positivity
    nlinarith
  have hlam : 0 < ew.getD 0 0 - 3 * √3 * M * r := by linarith
  have hsub : rball x0 r ⊆ rball x0 R := fun y hy => hy.trans hrR
  obtain ⟨ha, hb⟩ := c136_well eigh heigh argsort hsort els c x0 ew ev h hg r hr (fun y hy => hc y (hsub hy)) M (fun y hy => hM y (hsub hy)) κ hκ hlam x1 v1 h1
    (hE.trans_le (by
      have : 0 ≤ κ * r ^ 2 := by positivity
      nlinarith)) T
  refine ⟨ha, fun x v hp e1 e2 j hj t ht => (hb x v hp e1 e2 j hj t ht).trans ?_⟩
  have ht0 : 0 ≤ t := ht.1
  have hs : √(κ * ew.getD 0 0) ≤ √(κ * ew.getD j 0) := Real.sqrt_le_sqrt (mul_le_mul_of_nonneg_left (hj0 j hj).2 hκ.le)
  have hs0 : 0 < √(κ * ew.getD 0 0) := Real.sqrt_pos.2 (by positivity)
  calc κ * (3 * √3 / 2 * M * r ^ 2) * t / √(κ * ew.getD j 0) ≤ κ * (3 * √3 / 2 * M * r ^ 2) * t / √(κ * ew.getD 0 0) := by gcongr
    _ = κ * (3 * √3 / 2 * M) / √(κ * ew.getD 0 0) * r ^ 2 * t := by ring

/-- The hypotheses are met: an ion over two pixels that starts with a small velocity. -/
example : ∃ (ew : List ℝ) (ev : List (Fin 3 → ℝ)) (v1 : Fin 3 → ℝ) (r C : ℝ), v1 ≠ 0 ∧ ∀ T, ∃ x v, IonPath ⟨twoPixels, some 1⟩ 1 T x v ∧ v 0 = v1 ∧ ∀ j < 3, ∀ t ∈ Icc 0 T,
    |coordAlong (ev.getD j 0) (x t - ![0, 0, 1]) - swing √(1 * ew.getD j 0) 0 (coordAlong (ev.getD j 0) v1) t| ≤ C * r ^ 2 * t := by
  obtain ⟨eigh, argsort, ew, ev, h1, h2, h3, h4⟩ := twoPixels_modes
  obtain ⟨R, lam, hR, hl, hc, hs, hg⟩ := twoPixels_well
  obtain ⟨r, hr, C, hall⟩ := c136_small eigh h1 argsort h2 twoPixels 1 ![0, 0, 1] (hc _ (Rob.center_mem _ hR)) ew ev h3 h4 hg 1 one_pos
  obtain ⟨l1, -⟩ := c43_modes eigh h1 argsort h2 _ _ ew ev h3
  have hw : 0 < ew.getD 0 0 := by
    rw [List.getD_eq_getElem _ _ (by omega)]
    exact h4 _ (List.getElem_mem _)
  have hq : 0 < √(ew.getD 0 0 / 2) * r / 2 := by positivity
  have hv : vlen ![√(ew.getD 0 0 / 2) * r / 2, 0, 0] ^ 2 = ew.getD 0 0 / 8 * r ^ 2 := by
    rw [Rob.vlen_sq, Fin.sum_univ_three]
    simp only [Matrix.cons_val_zero, Matrix.cons_val_one, Matrix.cons_val]
    rw [div_pow, mul_pow, Real.sq_sqrt (by positivity)]
    ring
  refine ⟨ew, ev, ![√(ew.getD 0 0 / 2) * r / 2, 0, 0], r, C, fun h0 => hq.ne' (by simpa using congrFun h0 0), fun T => ?_⟩
  obtain ⟨⟨x, v, e1, e2, e3⟩, hb⟩ := hall r hr le_rfl ![0, 0, 1] ![√(ew.getD 0 0 / 2) * r / 2, 0, 0] (by simpa [vlen] using hr) (by
    rw [energyAt, hv]
    have : 0 < ew.getD 0 0 * r ^ 2 := by positivity
    linarith) T
  refine ⟨x, v, e1, e3, fun j hj t ht => ?_⟩
  have := hb x v e1 e2 e3 j hj t ht
  simpa [coordAlong] using this

end Electrode
