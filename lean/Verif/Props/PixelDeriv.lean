import Verif.Props.Tolerance
import Verif.Props.Pixels
import Verif.Lemmas.SysSmooth

/-
C93 for derivatives: points instead of polygons.
-/
namespace Electrode
open Spec Real MeasureTheory ShapeErr Pixels

namespace ShapeErr

theorem pixT_sys (l : Idx) (p : V3) (q : ℝ × ℝ) : sysTens [⟨"", 1, 0, .points [⟨q.1, q.2⟩] [1] 0 0⟩] .dc l p = pixT l p q := by
  rw [sysTens_eq]
  simp only [List.map_cons, List.map_nil, List.sum_cons, List.sum_nil, add_zero, Elec.voltD, Elec.volt, Option.getD_some, one_mul, pixT]
  congr 1
  funext k i p
  simp [Shape.contrib, pointContrib, images, coverRange, V3.lift]

theorem pixT_smooth (l : Idx) (hl : l.length ≤ 5) (q : ℝ × ℝ) : Smooth (fun p : V3 => p.z ≠ 0) fun p => pixT l p q := by
  have h := sysTens_smooth [⟨"", 1, 0, .points [⟨q.1, q.2⟩] [1] 0 0⟩] .dc l hl
  have h2 : Smooth (fun p : V3 => p.z ≠ 0) (sysTens [⟨"", 1, 0, .points [⟨q.1, q.2⟩] [1] 0 0⟩] .dc l) := h.mono fun p hp => by
    intro e he
    rw [List.mem_singleton] at he
    subst he
    simp only [offElectrode]
    intro r _ m _ _ hc
    apply hp
    simpa using hc.2.2
  simpa only [funext fun p => pixT_sys l p q] using h2

theorem pixT_move (l : Idx) (p : V3) (q : ℝ × ℝ) : pixT l p q = pixT l ⟨p.x - q.1, p.y - q.2, p.z⟩ (0, 0) := by
  unfold pixT
  unfold tens
  simp only [pixelComp, sub_zero]

/-- the tensor of a surface element that moves in the plane -/
theorem pixT_line (l : Idx) (hl : l.length < 5) (p : V3) (hz : p.z ≠ 0) (c : V2) (u w t : ℝ) :
    HasDerivAt (fun t => pixT l p (c.x + t * u, c.y + t * w))
      (-(u * pixT (l ++ [0]) p (c.x + t * u, c.y + t * w) + w * pixT (l ++ [1]) p (c.x + t * u, c.y + t * w))) t := by
  have hγ : HasDerivAt (fun t : ℝ => (![p.x - (c.x + t * u), p.y - (c.y + t * w), p.z] : W)) ![-u, -w, 0] t := by
    rw [hasDerivAt_pi]
    intro i
    have hi := hasDerivAt_id' t
    fin_cases i
    · exact (((hi.mul_const u).const_add c.x).const_sub p.x).congr_deriv (by simp)
    · exact (((hi.mul_const w).const_add c.y).const_sub p.y).congr_deriv (by simp)
    · exact hasDerivAt_const t p.z
  have h := line_deriv (pixT_smooth l (by omega) (0, 0)) (fun a => pixT (l ++ [a]) (toV ![p.x - (c.x + t * u), p.y - (c.y + t * w), p.z]) (0, 0))
    ![p.x - (c.x + t * u), p.y - (c.y + t * w), p.z] (by simpa [toV] using hz)
    (fun a => pixT_step l hl a (by simpa [toV] using hz) (0, 0)) _ _ t hγ rfl
  have e : (fun t => pixT l p (c.x + t * u, c.y + t * w)) = fun t => pixT l (toV ![p.x - (c.x + t * u), p.y - (c.y + t * w), p.z]) (0, 0) := by
    funext t
    rw [pixT_move]
    rfl
  rw [e]
  refine h.congr_deriv ?_
  rw [pixT_move (l ++ [0]), pixT_move (l ++ [1])]
  simp only [Fin.sum_univ_three, toV]
  simp
  ring

theorem pixT_taylor (l : Idx) (hl : l.length ≤ 3) (p : V3) (hz : p.z ≠ 0) (c : V2) (q : ℝ × ℝ) :
    |pixT l p q - pixT l p (c.x, c.y) - -((q.1 - c.x) * pixT (l ++ [0]) p (c.x, c.y) + (q.2 - c.y) * pixT (l ++ [1]) p (c.x, c.y))|
      ≤ 2 * elementSize (l.length + 2) p.z * ((q.1 - c.x) ^ 2 + (q.2 - c.y) ^ 2) := by
  set u := q.1 - c.x with hu
  set w := q.2 - c.y with hw
  have hlen : ∀ a, (l ++ [a]).length < 5 := fun a => by simp; omega
  have h1 := fun t => pixT_line l (by omega) p hz c u w t
  have h2 := fun t => (((pixT_line (l ++ [0]) (hlen 0) p hz c u w t).const_mul u).add ((pixT_line (l ++ [1]) (hlen 1) p hz c u w t).const_mul w)).neg
  have hB : ∀ a b t, |pixT (l ++ [a] ++ [b]) p (c.x + t * u, c.y + t * w)| ≤ 2 * elementSize (l.length + 2) p.z := fun a b t => by
    have := pixT_le (l ++ [a] ++ [b]) (by simp; omega) hz (c.x + t * u, c.y + t * w)
    rw [show (l ++ [a] ++ [b]).length = l.length + 2 by simp] at this
    exact this
  have key := taylor2 _ _ _ (4 * elementSize (l.length + 2) p.z * (u ^ 2 + w ^ 2)) h1 h2 (fun t => by
    have b00 := abs_le.1 (hB 0 0 t)
    have b01 := abs_le.1 (hB 0 1 t)
    have b10 := abs_le.1 (hB 1 0 t)
    have b11 := abs_le.1 (hB 1 1 t)
    set E := elementSize (l.length + 2) p.z
    have hE : 0 ≤ E := div_nonneg (wgt_nonneg _) (by positivity)
    set x := pixT (l ++ [0] ++ [0]) p (c.x + t * u, c.y + t * w)
    set y := pixT (l ++ [0] ++ [1]) p (c.x + t * u, c.y + t * w)
    set y' := pixT (l ++ [1] ++ [0]) p (c.x + t * u, c.y + t * w)
    set x' := pixT (l ++ [1] ++ [1]) p (c.x + t * u, c.y + t * w)
    have e1 : -(u * -(u * x + w * y) + w * -(u * y' + w * x')) = u ^ 2 * x + u * w * y + u * w * y' + w ^ 2 * x' := by ring
    rw [e1]
    have s1 : |u ^ 2 * x| ≤ u ^ 2 * (2 * E) := by rw [abs_mul, abs_of_nonneg (sq_nonneg u)]; exact mul_le_mul_of_nonneg_left (hB 0 0 t) (sq_nonneg u)
    have s2 : |w ^ 2 * x'| ≤ w ^ 2 * (2 * E) := by rw [abs_mul, abs_of_nonneg (sq_nonneg w)]; exact mul_le_mul_of_nonneg_left (hB 1 1 t) (sq_nonneg w)
    have huw : |u * w| ≤ (u ^ 2 + w ^ 2) / 2 := by
      rw [abs_le]
      constructor <;> nlinarith [sq_nonneg (u + w), sq_nonneg (u - w)]
    have s3 : |u * w * y| ≤ (u ^ 2 + w ^ 2) / 2 * (2 * E) := by rw [abs_mul]; exact mul_le_mul huw (hB 0 1 t) (abs_nonneg _) (by positivity)
    have s4 : |u * w * y'| ≤ (u ^ 2 + w ^ 2) / 2 * (2 * E) := by rw [abs_mul]; exact mul_le_mul huw (hB 1 0 t) (abs_nonneg _) (by positivity)
    refine (abs_add_le _ _).trans ((add_le_add_left ((abs_add_le _ _).trans (add_le_add_left (abs_add_le _ _) _)) _).trans ?_)
    linarith)
  simp only [one_mul, zero_mul, add_zero] at key
  have e2 : (c.x + u, c.y + w) = q := by rw [hu, hw]; ext <;> simp
  rw [e2] at key
  refine (le_of_eq ?_).trans (key.trans (le_of_eq (by ring)))
  rfl

/-- regions seen from far away: any function with a second order remainder -/
theorem path_moment (path : List V2) (hA : (areaCentroid path).1 ≠ 0) (k : ℝ × ℝ → ℝ) (hk : Integrable fun q : ℝ × ℝ => (winding path q : ℝ) * k q)
    (β γ M : ℝ) (hM : 0 ≤ M) (ht : ∀ q : ℝ × ℝ, |k q - k ((areaCentroid path).2.x, (areaCentroid path).2.y) -
      (β * (q.1 - (areaCentroid path).2.x) + γ * (q.2 - (areaCentroid path).2.y))|
        ≤ M * ((q.1 - (areaCentroid path).2.x) ^ 2 + (q.2 - (areaCentroid path).2.y) ^ 2)) (D : ℝ)
    (hD : ∀ q : ℝ × ℝ, winding path q ≠ 0 → (q.1 - (areaCentroid path).2.x) ^ 2 + (q.2 - (areaCentroid path).2.y) ^ 2 ≤ D ^ 2) :
    |(∫ q : ℝ × ℝ, (winding path q : ℝ) * k q) - (areaCentroid path).1 * k ((areaCentroid path).2.x, (areaCentroid path).2.y)|
      ≤ M * D ^ 2 * ∫ q : ℝ × ℝ, |(winding path q : ℝ)| := by
  obtain ⟨hi0, hA0⟩ := c10_area_region path
  obtain ⟨hcx, hcy⟩ := c10_centroid_region path hA
  rw [← hA0] at hcx hcy
  have hix := AreaReg.winding_aff path 0 1 0
  have hiy := AreaReg.winding_aff path 0 0 1
  simp only [AreaReg.aff, zero_mul, add_zero, zero_add, one_mul] at hix hiy
  set c := (areaCentroid path).2 with hc
  set A := (areaCentroid path).1 with hAA
  have hmx : ∫ q : ℝ × ℝ, (winding path q : ℝ) * q.1 = A * c.x := by rw [hcx]; field_simp
  have hmy : ∫ q : ℝ × ℝ, (winding path q : ℝ) * q.2 = A * c.y := by rw [hcy]; field_simp
  set K := k (c.x, c.y) with hK
  have hlin : Integrable (fun q : ℝ × ℝ => (winding path q : ℝ) * (K + (β * (q.1 - c.x) + γ * (q.2 - c.y)))) ∧
      ∫ q : ℝ × ℝ, (winding path q : ℝ) * (K + (β * (q.1 - c.x) + γ * (q.2 - c.y))) = A * K := by
    have e : (fun q : ℝ × ℝ => (winding path q : ℝ) * (K + (β * (q.1 - c.x) + γ * (q.2 - c.y))))
        = fun q => (K - β * c.x - γ * c.y) * (winding path q : ℝ) + (β * ((winding path q : ℝ) * q.1) + γ * ((winding path q : ℝ) * q.2)) := by
      funext q; ring
    rw [e]
    have j0 := hi0.const_mul (K - β * c.x - γ * c.y)
    have j1 := hix.1.const_mul β
    have j2 := hiy.1.const_mul γ
    have j3 : Integrable fun q : ℝ × ℝ => β * ((winding path q : ℝ) * q.1) + γ * ((winding path q : ℝ) * q.2) := j1.add j2
    refine ⟨j0.add j3, ?_⟩
    rw [integral_add j0 j3, integral_add j1 j2, integral_const_mul, integral_const_mul, integral_const_mul, hmx, hmy, ← hA0]
    ring
  rw [← hlin.2, ← integral_sub hk hlin.1, ← integral_const_mul]
  rw [← Real.norm_eq_abs]
  refine (norm_integral_le_integral_norm _).trans ?_
  refine integral_mono (hk.sub hlin.1).norm (hi0.norm.const_mul _) fun q => ?_
  simp only [Real.norm_eq_abs]
  rw [← mul_sub, abs_mul, mul_comm]
  by_cases hq : winding path q = 0
  · simp [hq]
  · refine mul_le_mul_of_nonneg_right ?_ (abs_nonneg _)
    have e2 : k q - (K + (β * (q.1 - c.x) + γ * (q.2 - c.y))) = k q - K - (β * (q.1 - c.x) + γ * (q.2 - c.y)) := by ring
    rw [e2]
    exact (ht q).trans (mul_le_mul_of_nonneg_left (hD q hq) hM)

/-- one path, one image -/
theorem path_deriv (path : List V2) (hA : (areaCentroid path).1 ≠ 0) (d : Nat) (hd : d ≤ 3) (i : Nat) (hi : i < 2 * d + 1) (p : V3) (hz : p.z ≠ 0)
    (D : ℝ)
    (hD : ∀ q : ℝ × ℝ, winding path q ≠ 0 → (q.1 - (areaCentroid path).2.x) ^ 2 + (q.2 - (areaCentroid path).2.y) ^ 2 ≤ D ^ 2) :
    |polyComp d i path p - (areaCentroid path).1 * pixelComp d i (areaCentroid path).2 p|
      ≤ 2 * elementSize (d + 2) p.z * D ^ 2 * ∫ q : ℝ × ℝ, |(winding path q : ℝ)| := by
  have hc : ∀ q : ℝ × ℝ, (covered [path] q : ℝ) = (winding path q : ℝ) := fun q => by simp [covered]
  have h1 := comp_integral [path] d (by omega) i hi hz
  have h2 := comp_integrable [path] d (by omega) i hz
  simp only [hc, List.map_cons, List.map_nil, List.sum_cons, List.sum_nil, add_zero] at h1 h2
  have hlen := nameIdx_length d i (by omega) hi
  have hk : ∀ q : ℝ × ℝ, pixT (nameIdx d i) p q = pixelComp d i ⟨q.1, q.2⟩ p := fun q => by
    unfold pixT
    rw [hlen, tens_nameIdx _ d i (by omega) hi]
  have hE : 0 ≤ elementSize (d + 2) p.z := div_nonneg (wgt_nonneg _) (by positivity)
  rw [h1]
  simp only [← hk]
  have h3 := path_moment path hA (fun q => pixT (nameIdx d i) p q) (by simpa only [hk] using h2)
    (-pixT (nameIdx d i ++ [0]) p ((areaCentroid path).2.x, (areaCentroid path).2.y))
    (-pixT (nameIdx d i ++ [1]) p ((areaCentroid path).2.x, (areaCentroid path).2.y)) (2 * elementSize (d + 2) p.z) (by positivity)
    (fun q => by
      have := pixT_taylor (nameIdx d i) (by omega) p hz (areaCentroid path).2 q
      rw [hlen] at this
      refine (le_of_eq ?_).trans this
      congr 1
      ring) D hD
  simp only [hk] at h3 ⊢
  exact h3

end ShapeErr

/-- **C93.** The derivatives up to order three of the electrode returned by `to_points` differ from those of the polygons by an error of
second order in the extent `D` of the paths. -/
theorem c93_derivatives (e : Elec) (paths : List (List V2)) (h : ℝ) (n : Nat) (he : e.shape = .polygons paths h n) (D : ℝ)
    (hp : ∀ path ∈ paths, (areaCentroid path).1 ≠ 0 ∧ (∃ s : ℤ, (s = 1 ∨ s = -1) ∧ ∀ q, 0 ≤ s * winding path q) ∧
      ∃ x0 x1 y0 y1 : ℝ, (x1 - x0) ^ 2 + (y1 - y0) ^ 2 ≤ D ^ 2 ∧ ∀ v ∈ path, (x0 ≤ v.x ∧ v.x ≤ x1) ∧ y0 ≤ v.y ∧ v.y ≤ y1)
    (d : Nat) (hd : d ≤ 3) (i : Nat) (hi : i < 2 * d + 1) (v : ℝ) (p : V3) (hz : offPlanes h n p) :
    ∃ e', e.toPoints = .ok e' ∧
      |compAt e d i v p - compAt e' d i v p|
        ≤ |v| * (2 * D ^ 2 * imagesSize (d + 2) n h p.z) * (paths.map fun path => |(areaCentroid path).1|).sum := by
  obtain ⟨name, dc, rf, shape⟩ := e
  simp only at he
  subst he
  refine ⟨_, rfl, ?_⟩
  have hz' : ∀ m ∈ Finset.Icc (-(n : ℤ)) n, p.z + 2 * m * h ≠ 0 := fun m hm => by
    rw [Finset.mem_Icc] at hm
    exact hz m hm.1 hm.2
  rw [compAt_polygons _ _ _ _ _ _ _ _ _ hi, polyContrib_swap, coverRange_Icc,
    compAt_eq ⟨name, dc, rf, .points ((paths.map areaCentroid).map (·.2)) ((paths.map areaCentroid).map (·.1)) h n⟩ d i v p trivial hi,
    ← mul_sub, abs_mul, mul_assoc]
  refine mul_le_mul_of_nonneg_left ?_ (abs_nonneg v)
  have e1 : ((paths.map areaCentroid).map (·.2)).zip ((paths.map areaCentroid).map (·.1)) = paths.map fun path => ((areaCentroid path).2, (areaCentroid path).1) := by
    clear hp
    induction paths with
    | nil => rfl
    | cons a t ih =>
      simp only [List.map_cons, List.zip_cons_cons]
      rw [ih]
  have e2 : (Shape.points ((paths.map areaCentroid).map (·.2)) ((paths.map areaCentroid).map (·.1)) h n).contrib d p i
      = ∑ m ∈ Finset.Icc (-(n : ℤ)) n, (paths.map fun path => (areaCentroid path).1 * pixelComp d i (areaCentroid path).2 (p.lift (2 * m * h))).sum := by
    simp only [Shape.contrib, pointContrib]
    rw [e1, List.map_map, sum_map_finset paths (Finset.Icc (-(n : ℤ)) n) fun m path => (areaCentroid path).1 * pixelComp d i (areaCentroid path).2 (p.lift (2 * m * h))]
    congr 1
    refine List.map_congr_left fun q _ => ?_
    unfold images
    simp only [Function.comp_def, List.map_map]
    rw [← coverRange_Icc n fun m => (areaCentroid q).1 * pixelComp d i (areaCentroid q).2 (p.lift (2 * m * h))]
  rw [e2, ← Finset.sum_sub_distrib, imagesSize, Finset.mul_sum, Finset.sum_mul]
  refine (Finset.abs_sum_le_sum_abs _ _).trans (Finset.sum_le_sum fun m hm => ?_)
  rw [← sum_map_sub_list, ← List.sum_map_mul_left]
  refine sum_abs_le paths _ _ fun path hpath => ?_
  obtain ⟨hA, ⟨s, hs, hw⟩, x0, x1, y0, y1, hdd, hbox⟩ := hp path hpath
  have hpz : (p.lift (2 * m * h)).z ≠ 0 := hz' m hm
  have hc := c93_centroid path hA s hs hw x0 x1 y0 y1 hbox
  have hmain := path_deriv path hA d hd i hi (p.lift (2 * m * h)) hpz D fun q hq => by
    have hb := winding_box path x0 x1 y0 y1 hbox q hq
    have d1 : (q.1 - (areaCentroid path).2.x) ^ 2 ≤ (x1 - x0) ^ 2 := by
      rw [sq_le_sq, abs_of_nonneg (by linarith [hb.1.1, hb.1.2] : (0 : ℝ) ≤ x1 - x0), abs_le]
      constructor <;> linarith [hb.1.1, hb.1.2, hc.1.1, hc.1.2]
    have d2 : (q.2 - (areaCentroid path).2.y) ^ 2 ≤ (y1 - y0) ^ 2 := by
      rw [sq_le_sq, abs_of_nonneg (by linarith [hb.2.1, hb.2.2] : (0 : ℝ) ≤ y1 - y0), abs_le]
      constructor <;> linarith [hb.2.1, hb.2.2, hc.2.1, hc.2.2]
    linarith
  have habs : ∫ q : ℝ × ℝ, |(winding path q : ℝ)| = |(areaCentroid path).1| := by
    have hsr : |(s : ℝ)| = 1 := by rcases hs with rfl | rfl <;> norm_num
    have e2 : (fun q : ℝ × ℝ => |(winding path q : ℝ)|) = fun q => (s : ℝ) * (winding path q : ℝ) := by
      funext q
      have : (0 : ℝ) ≤ (s : ℝ) * (winding path q : ℝ) := by exact_mod_cast hw q
      rw [← abs_of_nonneg this, abs_mul, hsr, one_mul]
    have e3 : (s : ℝ) * (areaCentroid path).1 = ∫ q : ℝ × ℝ, |(winding path q : ℝ)| := by
      rw [e2, integral_const_mul, (c10_area_region path).2]
    have h0 : 0 ≤ (s : ℝ) * (areaCentroid path).1 := by
      rw [e3]; exact integral_nonneg fun q => abs_nonneg _
    rw [← e3, ← abs_of_nonneg h0, abs_mul, hsr, one_mul]
  rw [habs] at hmain
  refine hmain.trans (le_of_eq ?_)
  show 2 * elementSize (d + 2) (p.z + 2 * m * h) * D ^ 2 * _ = _
  ring

/-- the field of the unit square, seen from `z` away, is that of a point up to this -/
example (i : Nat) (hi : i < 3) (v : ℝ) (p : V3) (hz : p.z ≠ 0) :
    ∃ e', Elec.toPoints ⟨"", 0, 0, .polygons [unitSquare] 50 0⟩ = .ok e' ∧
      |compAt ⟨"", 0, 0, .polygons [unitSquare] 50 0⟩ 1 i v p - compAt e' 1 i v p| ≤ |v| * (4 * (150 / (2 * π * |p.z| ^ 5))) := by
  have hA : (areaCentroid unitSquare).1 = 1 := by
    simp [unitSquare, areaCentroid, rollLeft]
  obtain ⟨e', h1, h2⟩ := c93_derivatives ⟨"", 0, 0, .polygons [unitSquare] 50 0⟩ [unitSquare] 50 0 rfl (√2) (fun path hp => by
    rw [List.mem_singleton] at hp
    subst hp
    refine ⟨by rw [hA]; norm_num, ⟨1, Or.inl rfl, fun q => ?_⟩, 0, 1, 0, 1, ?_, ?_⟩
    · have := covered_square q
      simp only [covered, List.map_cons, List.map_nil, List.sum_cons, List.sum_nil, add_zero] at this
      rw [this, one_mul]
      split <;> norm_num
    · rw [Real.sq_sqrt (by norm_num)]; norm_num
    · intro v hv
      simp only [unitSquare, List.mem_cons, List.not_mem_nil, or_false] at hv
      rcases hv with rfl | rfl | rfl | rfl <;> norm_num) 1 (by norm_num) i hi v p (fun m h1 h2 => by
    have : m = 0 := by simp at h1 h2; omega
    subst this; simpa using hz)
  refine ⟨e', h1, h2.trans (le_of_eq ?_)⟩
  simp [hA, imagesSize, elementSize]
  left
  norm_num

end Electrode
