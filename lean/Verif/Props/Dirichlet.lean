import Verif.Lemmas.PolyLimit
import Verif.Props.Surface
import Verif.Props.Points

/-
C86: a polygon electrode is an equipotential in a grounded plane.  Its potential is the integral
of the potential of surface elements over the covered region, tends to the voltage above the
region and to zero above the rest of the plane, lies between these values, and depends on the
region only.
-/
namespace Electrode
open Spec Real MeasureTheory Set Filter Topology

/-! ### Sums over images and polygons -/

theorem coverRange_Icc (n : Nat) (g : ℤ → ℝ) :
    ((coverRange n).map g).sum = ∑ m ∈ Finset.Icc (-(n : ℤ)) n, g m := by
  have h1 : (coverRange n).Nodup := by
    unfold coverRange
    refine List.Nodup.map (fun a b hab => ?_) List.nodup_range
    have : (a : ℤ) - n = b - n := hab
    omega
  have h2 : (coverRange n).toFinset = Finset.Icc (-(n : ℤ)) n := by
    ext m
    rw [List.mem_toFinset, mem_coverRange, Finset.mem_Icc]
  rw [← h2, List.sum_toFinset g h1]

theorem pixelAt_mirror (p : V3) (q : ℝ × ℝ) : pixelAt p.mirror q = -pixelAt p q := by
  simp only [pixelAt, V3.mirror, neg_sq, neg_div]

theorem polyComp0_mirror (poly : List V2) (p : V3) : polyComp 0 0 poly p.mirror = -polyComp 0 0 poly p := by
  rw [EdgeId.poly_mirror 0 0 (by norm_num)]
  have : compOdd 0 0 = true := by decide +kernel
  rw [this, PExpr.sgn, if_pos rfl, neg_one_mul]

theorem winding_integral' {p : V3} (hz : p.z ≠ 0) (poly : List V2) :
    Integrable (fun q : ℝ × ℝ => (winding poly q : ℝ) * pixelAt p q) ∧
    ∫ q : ℝ × ℝ, (winding poly q : ℝ) * pixelAt p q = polyComp 0 0 poly p := by
  rcases lt_or_gt_of_ne hz with h | h
  · have h1 : 0 < p.mirror.z := by simpa [V3.mirror] using h
    obtain ⟨h2, h3⟩ := PolyInt.winding_integral h1 poly
    simp only [pixelAt_mirror, mul_neg] at h2 h3
    rw [integral_neg, polyComp0_mirror, neg_inj] at h3
    exact ⟨by simpa using h2.neg, h3⟩
  · exact PolyInt.winding_integral h poly

theorem covered_integral {p : V3} (hz : p.z ≠ 0) (polys : List (List V2)) :
    Integrable (fun q : ℝ × ℝ => (covered polys q : ℝ) * pixelAt p q) ∧
    ∫ q : ℝ × ℝ, (covered polys q : ℝ) * pixelAt p q = (polys.map fun poly => polyComp 0 0 poly p).sum := by
  induction polys with
  | nil => simp [covered]
  | cons a l ih =>
    have e : ∀ q, (covered (a :: l) q : ℝ) * pixelAt p q
        = (winding a q : ℝ) * pixelAt p q + (covered l q : ℝ) * pixelAt p q := by
      intro q
      simp only [covered, List.map_cons, List.sum_cons]
      push_cast
      ring
    obtain ⟨h1, h2⟩ := winding_integral' hz a
    simp only [e, List.map_cons, List.sum_cons]
    exact ⟨h1.add ih.1, by rw [integral_add h1 ih.1, h2, ih.2]⟩

theorem polyContrib_swap (d n : Nat) (h : ℝ) (polys : List (List V2)) (p : V3) (i : Nat) :
    polyContrib d n h polys p i
      = ((coverRange n).map fun m : ℤ => (polys.map fun poly => polyComp d i poly (p.lift (2 * (m : ℝ) * h))).sum).sum := by
  unfold polyContrib
  simp only [images, List.map_map, Function.comp_def]
  induction polys with
  | nil => simp
  | cons a l ih => simp only [List.map_cons, List.sum_cons, ih, ← List.sum_map_add]

theorem compAt_polygons (name : String) (dc rf : ℝ) (polys : List (List V2)) (h : ℝ) (n : Nat) (v : ℝ) (d i : Nat)
    (hi : i < 2 * d + 1) (p : V3) :
    compAt ⟨name, dc, rf, .polygons polys h n⟩ d i v p = v * polyContrib d n h polys p i :=
  compAt_eq ⟨name, dc, rf, .polygons polys h n⟩ d i v p trivial hi

/-! ### The integral -/

/-- C86: the potential of a polygon electrode at voltage `v` is `v` times the integral, over the
electrode plane, of the potential of surface elements, each counted as often as the electrode
covers it; with a cover plane, the same for all images.  The integral exists. -/
theorem c86_integral (name : String) (dc rf : ℝ) (polys : List (List V2)) (h : ℝ) (n : Nat) (v : ℝ) (p : V3)
    (hp : offPlanes h n p) :
    (∀ m ∈ Finset.Icc (-(n : ℤ)) n,
      Integrable fun q : ℝ × ℝ => (covered polys q : ℝ) * pixelAt ⟨p.x, p.y, p.z + 2 * m * h⟩ q) ∧
    compAt ⟨name, dc, rf, .polygons polys h n⟩ 0 0 v p
      = v * ∑ m ∈ Finset.Icc (-(n : ℤ)) n, ∫ q : ℝ × ℝ, (covered polys q : ℝ) * pixelAt ⟨p.x, p.y, p.z + 2 * m * h⟩ q := by
  have h1 : ∀ m ∈ Finset.Icc (-(n : ℤ)) n, p.z + 2 * m * h ≠ 0 := fun m hm => by
    rw [Finset.mem_Icc] at hm
    exact hp m hm.1 hm.2
  refine ⟨fun m hm => (covered_integral (p := ⟨p.x, p.y, p.z + 2 * m * h⟩) (h1 m hm) polys).1, ?_⟩
  rw [compAt_polygons _ _ _ _ _ _ _ _ _ (by norm_num)]
  rw [polyContrib_swap, coverRange_Icc]
  congr 1
  refine Finset.sum_congr rfl fun m hm => ?_
  exact (covered_integral (p := ⟨p.x, p.y, p.z + 2 * m * h⟩) (h1 m hm) polys).2.symm

/-- C86: a point pixel is a surface element with the given area. -/
theorem c86_point (name : String) (dc rf : ℝ) (ps : List V2) (as : List ℝ) (h : ℝ) (n : Nat) (v : ℝ) (p : V3) :
    compAt ⟨name, dc, rf, .points ps as h n⟩ 0 0 v p
      = v * ((ps.zip as).map fun q => ∑ m ∈ Finset.Icc (-(n : ℤ)) n,
          q.2 * pixelAt ⟨p.x, p.y, p.z + 2 * m * h⟩ (q.1.x, q.1.y)).sum := by
  rw [compAt_eq ⟨name, dc, rf, .points ps as h n⟩ 0 0 v p trivial (by norm_num)]
  simp only [Shape.contrib, pointContrib, images, List.map_map, Function.comp_def]
  congr 2
  apply List.map_congr_left
  intro q _
  rw [coverRange_Icc]
  refine Finset.sum_congr rfl fun m _ => ?_
  congr 1
  simp only [pixelComp, pointTerm, pointNum, pointNum0, pixelAt, V3.lift, pointNorm, List.map_cons, List.map_nil,
    List.getD_cons_zero, PExpr.eval, pointEnv]
  ring

/-- C86: the plane as a whole has unit potential: surface elements of unit voltage add up to one. -/
theorem c86_unit (p : V3) (hz : 0 < p.z) : Integrable (pixelAt p) ∧ ∫ q, pixelAt p q = 1 :=
  ⟨PolyInt.pixel_integrable hz, PolyInt.pixel_total hz⟩

/-! ### The boundary values -/

theorem polyComp_continuous (poly : List V2) {p : V3} (hz : p.z ≠ 0) :
    Tendsto (fun t => polyComp 0 0 poly ⟨p.x, p.y, p.z + t⟩) (𝓝 0) (𝓝 (polyComp 0 0 poly p)) := by
  have h := (EdgeId.poly_gradient poly hz 2).continuousAt.tendsto
  simpa [shift] using h

theorem image_limit (polys : List (List V2)) (h : ℝ) (n : Nat) (hh : h ≠ 0 ∨ n = 0) (q : ℝ × ℝ)
    (hq : ∀ poly ∈ polys, offBoundary poly q) :
    Tendsto (fun z => polyContrib 0 n h polys ⟨q.1, q.2, z⟩ 0) (𝓝[>] 0) (𝓝 (covered polys q : ℝ)) := by
  simp only [polyContrib_swap]
  -- limit of each image
  set L : ℤ → ℝ := fun m => if m = 0 then (covered polys q : ℝ)
    else (polys.map fun poly => polyComp 0 0 poly ⟨q.1, q.2, 2 * (m : ℝ) * h⟩).sum with hL
  have h1 : ∀ m ∈ coverRange n, Tendsto (fun z => (polys.map fun poly =>
      polyComp 0 0 poly ((⟨q.1, q.2, z⟩ : V3).lift (2 * (m : ℝ) * h))).sum) (𝓝[>] 0) (𝓝 (L m)) := by
    intro m hm
    by_cases h0 : m = 0
    · subst h0
      simp only [hL, if_pos]
      have e : (covered polys q : ℝ) = (polys.map fun poly => (winding poly q : ℝ)).sum := by
        unfold covered
        exact (map_list_sum (Int.castRingHom ℝ) _).trans (by rw [List.map_map]; rfl)
      rw [e]
      refine PolyInt.tendsto_map_sum polys (fun poly z => polyComp 0 0 poly ((⟨q.1, q.2, z⟩ : V3).lift (2 * ((0 : ℤ) : ℝ) * h)))
        _ fun poly hpo => ?_
      refine (PolyInt.poly_tendsto poly q (hq poly hpo)).congr fun z => ?_
      simp [V3.lift]
    · simp only [hL, if_neg h0]
      rw [mem_coverRange] at hm
      have hne : 2 * (m : ℝ) * h ≠ 0 := by
        rcases hh with hh | hh
        · have : (m : ℝ) ≠ 0 := by exact_mod_cast h0
          positivity
        · subst hh; simp at hm; omega
      refine PolyInt.tendsto_map_sum polys (fun poly z => polyComp 0 0 poly ((⟨q.1, q.2, z⟩ : V3).lift (2 * (m : ℝ) * h)))
        _ fun poly _ => ?_
      have := (polyComp_continuous poly (p := ⟨q.1, q.2, 2 * (m : ℝ) * h⟩) hne).mono_left
        (nhdsWithin_le_nhds (s := Ioi 0))
      refine this.congr fun z => ?_
      simp only [V3.lift]
      rw [add_comm]
  have h2 := PolyInt.tendsto_map_sum (coverRange n) (fun (m : ℤ) z => (polys.map fun poly =>
      polyComp 0 0 poly ((⟨q.1, q.2, z⟩ : V3).lift (2 * (m : ℝ) * h))).sum) L h1
  have h3 : ((coverRange n).map L).sum = (covered polys q : ℝ) := by
    clear h1 h2 hh
    induction n with
    | zero => simp [coverRange, hL]
    | succ n ih =>
      rw [coverRange_succ_sum, ih]
      have e1 : L (-(n : ℤ) - 1) = -L (n + 1) := by
        simp only [hL]
        rw [if_neg (by omega), if_neg (by omega), ← neg_one_mul (List.sum _), ← List.sum_map_mul_left]
        congr 1
        apply List.map_congr_left
        intro poly _
        rw [neg_one_mul, ← polyComp0_mirror]
        congr 1
        simp only [V3.mirror]
        congr 1
        push_cast
        ring
      rw [e1]; ring
  rwa [h3] at h2

/-- C86: close to the electrode plane the potential tends to the voltage times the number of
times the electrode covers the point below: to the voltage above the electrode, to zero above the
rest of the plane.  With and without cover planes. -/
theorem c86_boundary (name : String) (dc rf : ℝ) (polys : List (List V2)) (h : ℝ) (n : Nat) (hh : h ≠ 0 ∨ n = 0) (v : ℝ)
    (q : ℝ × ℝ) (hq : ∀ poly ∈ polys, offBoundary poly q) :
    Tendsto (fun z => compAt ⟨name, dc, rf, .polygons polys h n⟩ 0 0 v ⟨q.1, q.2, z⟩) (𝓝[>] 0)
      (𝓝 (v * (covered polys q : ℝ))) := by
  have e : (fun z => compAt ⟨name, dc, rf, .polygons polys h n⟩ 0 0 v ⟨q.1, q.2, z⟩)
      = fun z => v * polyContrib 0 n h polys ⟨q.1, q.2, z⟩ 0 := by
    funext z
    rw [compAt_polygons _ _ _ _ _ _ _ _ _ (by norm_num)]
  rw [e]
  exact (image_limit polys h n hh q hq).const_mul v

/-! ### Bounds -/

/-- C86: above the plane, without cover, the potential lies between the extreme values on the
plane. -/
theorem c86_bounds (name : String) (dc rf : ℝ) (polys : List (List V2)) (h v lo hi : ℝ) (p : V3) (hz : 0 < p.z)
    (hw : ∀ᵐ q : ℝ × ℝ, lo ≤ v * (covered polys q : ℝ) ∧ v * (covered polys q : ℝ) ≤ hi) :
    lo ≤ compAt ⟨name, dc, rf, .polygons polys h 0⟩ 0 0 v p ∧ compAt ⟨name, dc, rf, .polygons polys h 0⟩ 0 0 v p ≤ hi := by
  obtain ⟨h1, h2⟩ := c86_integral name dc rf polys h 0 v p (fun m h1 h2 => by
    have : m = 0 := by simp at h1 h2; omega
    subst this; simpa using hz.ne')
  have hI := h1 0 (by simp)
  rw [h2]
  simp only [Nat.cast_zero, neg_zero, Finset.Icc_self, Finset.sum_singleton, Int.cast_zero, mul_zero, zero_mul,
    add_zero] at hI ⊢
  obtain ⟨hk, hk1⟩ := c86_unit p hz
  have e : v * ∫ q : ℝ × ℝ, (covered polys q : ℝ) * pixelAt p q
      = ∫ q : ℝ × ℝ, (v * (covered polys q : ℝ)) * pixelAt p q := by
    rw [← integral_const_mul]; congr 1; funext q; ring
  have hI' : Integrable fun q : ℝ × ℝ => (v * (covered polys q : ℝ)) * pixelAt p q := by
    have := hI.const_mul v
    refine this.congr (Eventually.of_forall fun q => ?_)
    simp only [mul_assoc]
  have e2 : ∀ c : ℝ, c = ∫ q, c * pixelAt p q := fun c => by rw [integral_const_mul, hk1, mul_one]
  rw [show (⟨p.x, p.y, p.z⟩ : V3) = p from rfl, e]
  constructor
  · rw [e2 lo]
    refine integral_mono_ae (hk.const_mul lo) hI' ?_
    filter_upwards [hw] with q hq
    exact mul_le_mul_of_nonneg_right hq.1 (PolyInt.pixel_pos hz q).le
  · rw [e2 hi]
    refine integral_mono_ae hI' (hk.const_mul hi) ?_
    filter_upwards [hw] with q hq
    exact mul_le_mul_of_nonneg_right hq.2 (PolyInt.pixel_pos hz q).le

theorem relE_far (a b : V2) (x y : ℝ) : Tendsto (fun z => PolyInt.relE ⟨x, y, z⟩ a b) atTop (𝓝 0) := by
  simp only [PolyInt.relE, PolyInt.edgeE]
  rw [show (0 : ℝ) = 1 / π * arctan 0 by simp]
  refine ((Real.continuous_arctan.tendsto 0).comp ?_).const_mul _
  refine tendsto_const_nhds.div_atTop ?_
  refine tendsto_atTop_mono' atTop ?_ (tendsto_pow_atTop (α := ℝ) (n := 2) (by norm_num))
  filter_upwards [eventually_gt_atTop 0] with z hz
  have h1 : 0 ≤ √((a.x - x) ^ 2 + (a.y - y) ^ 2 + z ^ 2) := Real.sqrt_nonneg _
  have h2 : 0 ≤ √((b.x - x) ^ 2 + (b.y - y) ^ 2 + z ^ 2) := Real.sqrt_nonneg _
  have q1 := Real.sq_sqrt (show 0 ≤ (a.x - x) ^ 2 + (a.y - y) ^ 2 + z ^ 2 by positivity)
  have q2 := Real.sq_sqrt (show 0 ≤ (b.x - x) ^ 2 + (b.y - y) ^ 2 + z ^ 2 by positivity)
  generalize √((a.x - x) ^ 2 + (a.y - y) ^ 2 + z ^ 2) = r1 at *
  generalize √((b.x - x) ^ 2 + (b.y - y) ^ 2 + z ^ 2) = r2 at *
  generalize a.x - x = ax at *
  generalize a.y - y = ay at *
  generalize b.x - x = bx at *
  generalize b.y - y = b' at *
  have h3 : |ax * bx + ay * b'| ≤ r1 * r2 := by
    apply abs_le_of_sq_le_sq _ (by positivity)
    rw [mul_pow, q1, q2]
    nlinarith [sq_nonneg (ax * b' - ay * bx), sq_nonneg (z * ax), sq_nonneg (z * ay), sq_nonneg (z * bx),
      sq_nonneg (z * b'), sq_nonneg (z * z)]
  have h4 := neg_abs_le (ax * bx + ay * b')
  have h5 : 0 ≤ z * r1 := by positivity
  have h6 : 0 ≤ z * r2 := by positivity
  nlinarith

/-- C86: far above the plane the potential tends to zero. -/
theorem c86_far (name : String) (dc rf : ℝ) (polys : List (List V2)) (h v x y : ℝ) :
    Tendsto (fun z => compAt ⟨name, dc, rf, .polygons polys h 0⟩ 0 0 v ⟨x, y, z⟩) atTop (𝓝 0) := by
  have e : (fun z => compAt ⟨name, dc, rf, .polygons polys h 0⟩ 0 0 v ⟨x, y, z⟩)
      = fun z => v * (polys.map fun poly => polyComp 0 0 poly ⟨x, y, z⟩).sum := by
    funext z
    rw [compAt_polygons _ _ _ _ _ _ _ _ _ (by norm_num), polyContrib_swap]
    simp [coverRange, V3.lift]
  rw [e]
  have h1 := PolyInt.tendsto_map_sum (F := atTop) polys (fun poly z => polyComp 0 0 poly ⟨x, y, z⟩) (fun _ => 0)
    fun poly _ => by
      have h2 := PolyInt.tendsto_map_sum (F := atTop) (List.zip poly (poly.rotate 1))
        (fun e z => PolyInt.relE ⟨x, y, z⟩ e.1 e.2) (fun _ => 0) fun e _ => relE_far e.1 e.2 x y
      rw [List.map_const', List.sum_replicate, smul_zero] at h2
      refine h2.congr' ?_
      filter_upwards [eventually_gt_atTop 0] with z hz
      exact PolyInt.poly_relE poly (x, y) z hz
  rw [List.map_const', List.sum_replicate, smul_zero] at h1
  simpa using h1.const_mul v

/-! ### Only the region matters -/

theorem IsIterated_unique_on {U : V3 → Prop} (hU : ∀ p, U p → ∀ a, ∀ᶠ t in 𝓝 (0 : ℝ), U (shift p a t)) :
    ∀ (l : List (Fin 3)) {f f' g g' : V3 → ℝ}, (∀ p, U p → f p = f' p) → IsIterated U l f g →
    IsIterated U l f' g' → ∀ p, U p → g p = g' p := by
  intro l
  induction l with
  | nil => intro f f' g g' hf h h' p hp; rw [← h p hp, ← h' p hp, hf p hp]
  | cons a l ih =>
    rintro f f' g g' hf ⟨f1, h1, h2⟩ ⟨f2, h3, h4⟩
    refine ih ?_ h2 h4
    intro p hp
    have e1 := h1 p hp
    have e2 := h3 p hp
    unfold HasPartial at e1 e2
    refine e1.unique (e2.congr_of_eventuallyEq ?_)
    filter_upwards [hU p hp a] with t ht
    exact hf _ ht

theorem table_names : ∀ k < 6, ∀ i < 2 * k + 1, ∃ s l, derivToName k i = .ok s ∧ nameToIdx s = .ok l := by
  have h : ∀ k < 6, ∀ i < 2 * k + 1, (match derivToName k i with
    | .ok s => (match nameToIdx s with | .ok _ => true | .error _ => false)
    | .error _ => false) = true := by decide +kernel
  intro k hk i hi
  have := h k hk i hi
  split at this
  · next s hs =>
    split at this
    · next l hl => exact ⟨s, l, hs, hl⟩
    · cases this
  · cases this

theorem offPlanes_open (p : V3) (hp : offPlanes 0 0 p) (a : Fin 3) : ∀ᶠ t in 𝓝 (0 : ℝ), offPlanes 0 0 (shift p a t) := by
  have h0 : p.z ≠ 0 := by simpa using hp 0 (by simp) (by simp)
  have hc := (EdgeId.shift_z_continuous p a).continuousAt (x := 0)
  have h1 : (shift p a 0).z ≠ 0 := by rwa [EdgeId.shift_zero]
  filter_upwards [hc.eventually_ne h1] with t ht
  intro m _ _
  simpa using ht

theorem region_comp (polys polys' : List (List V2)) (hw : ∀ᵐ q : ℝ × ℝ, covered polys' q = covered polys q) (k i : Nat)
    (hi : i < 2 * k + 1) (p : V3) (hp : p.z ≠ 0) :
    (polys'.map fun poly => polyComp k i poly p).sum = (polys.map fun poly => polyComp k i poly p).sum := by
  have h0 : ∀ p : V3, p.z ≠ 0 →
      (polys'.map fun poly => polyComp 0 0 poly p).sum = (polys.map fun poly => polyComp 0 0 poly p).sum := by
    intro p hp
    rw [← (covered_integral hp polys).2, ← (covered_integral hp polys').2]
    refine integral_congr_ae ?_
    filter_upwards [hw] with q hq
    rw [hq]
  by_cases hk : k < 6
  · obtain ⟨s, l, hs, hl⟩ := table_names k hk i hi
    have c : ∀ (P : List (List V2)) (d j : Nat), j < 2 * d + 1 → ∀ p : V3,
        compAt ⟨"", 0, 0, .polygons P 0 0⟩ d j 1 p = (P.map fun poly => polyComp d j poly p).sum := by
      intro P d j hj p
      rw [compAt_polygons _ _ _ _ _ _ _ _ _ hj, one_mul]
      rw [polyContrib_swap]
      simp [coverRange, V3.lift]
    have a1 := c13_polygon_component "" 0 0 polys' 0 0 1 k i s l hs hl
    have a2 := c13_polygon_component "" 0 0 polys 0 0 1 k i s l hs hl
    have := IsIterated_unique_on offPlanes_open l (fun p hp => by
      rw [c polys' 0 0 (by norm_num), c polys 0 0 (by norm_num)]
      exact h0 p (by simpa using hp 0 (by simp) (by simp))) a1 a2 p (fun m _ _ => by simpa using hp)
    rwa [c polys' k i hi, c polys k i hi] at this
  · have z : ∀ P : List (List V2), (P.map fun poly => polyComp k i poly p) = P.map fun _ => (0 : ℝ) := by
      intro P
      apply List.map_congr_left
      intro poly _
      unfold polyComp
      simp [seg_high k i (by omega)]
    rw [z, z]
    simp

/-- C86: two polygon electrodes that cover almost every point of the plane equally often give the
same result of every potential evaluation, for all positions and derivative orders. -/
theorem c86_region (name : String) (dc rf : ℝ) (polys polys' : List (List V2)) (h : ℝ) (n : Nat) (x : List V3) (d : Nat)
    (v : ℝ) (hx : ∀ p ∈ x, offPlanes h n p) (hw : ∀ᵐ q : ℝ × ℝ, covered polys' q = covered polys q) :
    Elec.potential ⟨name, dc, rf, .polygons polys' h n⟩ x d v none
      = Elec.potential ⟨name, dc, rf, .polygons polys h n⟩ x d v none := by
  refine potential_same _ _ x d v trivial trivial ?_
  intro p hp i hi
  simp only [Shape.contrib]
  rw [polyContrib_swap, polyContrib_swap]
  congr 1
  apply List.map_congr_left
  intro m hm
  rw [mem_coverRange] at hm
  exact region_comp polys polys' hw d i hi _ (hx p hp m hm.1 hm.2)

/-! ### Instances -/

/-- the unit square, counter clockwise -/
def unitSquare : List V2 := [⟨0, 0⟩, ⟨1, 0⟩, ⟨1, 1⟩, ⟨0, 1⟩]

theorem crossing_horizontal (q : ℝ × ℝ) (a b c : ℝ) : crossing q ⟨a, c⟩ ⟨b, c⟩ = 0 := by
  unfold crossing
  rw [if_neg (fun h => absurd h.1 (not_le.mpr h.2.1)), if_neg (fun h => absurd h.1 (not_le.mpr h.2.1))]

theorem crossing_vertical (q : ℝ × ℝ) (a b c : ℝ) (h : b < c) :
    crossing q ⟨a, b⟩ ⟨a, c⟩ = if q.1 < a ∧ b ≤ q.2 ∧ q.2 < c then 1 else 0 := by
  unfold crossing
  simp only [sub_self, zero_mul, zero_sub, Left.neg_pos_iff, Left.neg_neg_iff]
  have h1 : (c - b) * (q.1 - a) < 0 ↔ q.1 < a := by
    constructor
    · intro h2; by_contra h3; have := mul_nonneg (sub_nonneg.mpr h.le) (sub_nonneg.mpr (not_lt.mp h3)); linarith
    · intro h2; exact mul_neg_of_pos_of_neg (sub_pos.mpr h) (sub_neg.mpr h2)
  rw [if_neg (c := c ≤ q.2 ∧ _) (fun h' => by linarith [h'.1, h'.2.1])]
  simp only [h1]
  congr 1
  rw [eq_iff_iff]
  tauto

theorem winding_rect (q : ℝ × ℝ) (a b c d : ℝ) (hab : a ≤ b) (hcd : c < d) :
    winding [⟨a, c⟩, ⟨b, c⟩, ⟨b, d⟩, ⟨a, d⟩] q = if a ≤ q.1 ∧ q.1 < b ∧ c ≤ q.2 ∧ q.2 < d then 1 else 0 := by
  simp only [winding, List.rotate_cons_succ, List.rotate_zero, List.cons_append, List.nil_append,
    List.zipWith_cons_cons, List.zipWith_nil_left, List.sum_cons, List.sum_nil]
  rw [crossing_horizontal, crossing_vertical _ _ _ _ hcd, crossing_horizontal, PolyInt.crossing_swap,
    crossing_vertical _ _ _ _ hcd]
  by_cases h3 : c ≤ q.2 ∧ q.2 < d
  · by_cases h1 : q.1 < a
    · rw [if_pos ⟨by linarith, h3⟩, if_pos ⟨h1, h3⟩, if_neg (fun h => by linarith [h.1])]; norm_num
    · by_cases h2 : q.1 < b
      · rw [if_pos ⟨h2, h3⟩, if_neg (fun h => h1 h.1), if_pos ⟨not_lt.mp h1, h2, h3⟩]; norm_num
      · rw [if_neg (fun h => h2 h.1), if_neg (fun h => h1 h.1), if_neg (fun h => h2 h.2.1)]; norm_num
  · rw [if_neg (fun h => h3 h.2), if_neg (fun h => h3 h.2), if_neg (fun h => h3 h.2.2)]; norm_num

theorem covered_square (q : ℝ × ℝ) :
    covered [unitSquare] q = if 0 ≤ q.1 ∧ q.1 < 1 ∧ 0 ≤ q.2 ∧ q.2 < 1 then 1 else 0 := by
  simp only [covered, List.map_cons, List.map_nil, List.sum_cons, List.sum_nil, add_zero, unitSquare]
  exact winding_rect q 0 1 0 1 (by norm_num) (by norm_num)

theorem square_off (q : ℝ × ℝ) (h1 : q.1 ≠ 0) (h2 : q.1 ≠ 1) (h3 : q.2 ≠ 0) (h4 : q.2 ≠ 1) : offBoundary unitSquare q := by
  intro e he
  simp only [unitSquare, List.rotate_cons_succ, List.rotate_zero, List.cons_append, List.nil_append,
    List.zip_cons_cons, List.zip_nil_left, List.mem_cons, List.not_mem_nil, or_false] at he
  rcases he with rfl | rfl | rfl | rfl <;> rintro ⟨t, _, _, e1, e2⟩ <;> simp at e1 e2
  · exact h3 e2
  · exact h2 e1
  · exact h4 e2
  · exact h1 e1

/-- above the middle of the square the potential tends to the voltage, beside it to zero -/
example : Tendsto (fun z => compAt ⟨"", 0, 0, .polygons [unitSquare] 50 3⟩ 0 0 2 ⟨1 / 2, 1 / 2, z⟩) (𝓝[>] 0) (𝓝 2) ∧
    Tendsto (fun z => compAt ⟨"", 0, 0, .polygons [unitSquare] 50 3⟩ 0 0 2 ⟨3, 1 / 2, z⟩) (𝓝[>] 0) (𝓝 0) := by
  constructor
  · have := c86_boundary "" 0 0 [unitSquare] 50 3 (Or.inl (by norm_num)) 2 (1 / 2, 1 / 2)
      (by simpa using square_off (1 / 2, 1 / 2) (by norm_num) (by norm_num) (by norm_num) (by norm_num))
    rw [covered_square, if_pos (by norm_num)] at this
    simpa using this
  · have := c86_boundary "" 0 0 [unitSquare] 50 3 (Or.inl (by norm_num)) 2 (3, 1 / 2)
      (by simpa using square_off (3, 1 / 2) (by norm_num) (by norm_num) (by norm_num) (by norm_num))
    rw [covered_square, if_neg (by norm_num)] at this
    simpa using this

/-- everywhere above, the potential of the square is between zero and the voltage -/
example (v : ℝ) (hv : 0 ≤ v) (p : V3) (hz : 0 < p.z) :
    0 ≤ compAt ⟨"", 0, 0, .polygons [unitSquare] 50 0⟩ 0 0 v p ∧ compAt ⟨"", 0, 0, .polygons [unitSquare] 50 0⟩ 0 0 v p ≤ v := by
  refine c86_bounds "" 0 0 [unitSquare] 50 v 0 v p hz (Eventually.of_forall fun q => ?_)
  rw [covered_square]
  split_ifs <;> simp [hv]

/-- the square and its two halves are the same electrode -/
example (x : List V3) (d : Nat) (v : ℝ) (hx : ∀ p ∈ x, offPlanes 50 2 p) :
    Elec.potential ⟨"", 0, 0, .polygons [[⟨0, 0⟩, ⟨1 / 2, 0⟩, ⟨1 / 2, 1⟩, ⟨0, 1⟩], [⟨1 / 2, 0⟩, ⟨1, 0⟩, ⟨1, 1⟩, ⟨1 / 2, 1⟩]] 50 2⟩
      x d v none = Elec.potential ⟨"", 0, 0, .polygons [unitSquare] 50 2⟩ x d v none := by
  refine c86_region "" 0 0 _ _ 50 2 x d v hx (Eventually.of_forall fun q => ?_)
  rw [covered_square]
  simp only [covered, List.map_cons, List.map_nil, List.sum_cons, List.sum_nil, add_zero]
  rw [winding_rect q 0 (1 / 2) 0 1 (by norm_num) (by norm_num), winding_rect q (1 / 2) 1 0 1 (by norm_num) (by norm_num)]
  by_cases h3 : 0 ≤ q.2 ∧ q.2 < 1
  · by_cases h1 : q.1 < 1 / 2
    · rw [if_neg (c := 1 / 2 ≤ q.1 ∧ _) (fun h => by linarith [h.1])]
      by_cases h0 : 0 ≤ q.1
      · rw [if_pos ⟨h0, h1, h3⟩, if_pos ⟨h0, by linarith, h3⟩]; norm_num
      · rw [if_neg (fun h => h0 h.1), if_neg (fun h => h0 h.1)]; norm_num
    · rw [if_neg (c := 0 ≤ q.1 ∧ q.1 < 1 / 2 ∧ _) (fun h => h1 h.2.1)]
      by_cases h2 : q.1 < 1
      · rw [if_pos ⟨not_lt.mp h1, h2, h3⟩, if_pos ⟨by linarith, h2, h3⟩]; norm_num
      · rw [if_neg (fun h => h2 h.2.1), if_neg (fun h => h2 h.2.1)]; norm_num
  · rw [if_neg (fun h => h3 h.2.2), if_neg (fun h => h3 h.2.2), if_neg (fun h => h3 h.2.2)]; norm_num

/-- a position off the planes -/
example : offPlanes 50 2 ⟨0, 0, 1⟩ := by
  intro m h1 h2
  simp only
  have : m = -2 ∨ m = -1 ∨ m = 0 ∨ m = 1 ∨ m = 2 := by simp at h1 h2; omega
  rcases this with rfl | rfl | rfl | rfl | rfl <;> norm_num

end Electrode
