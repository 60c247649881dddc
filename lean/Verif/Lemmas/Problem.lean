import Verif.Lemmas.PolyField
import Verif.Props.Cover

/-
Uniqueness of the solution of the electrostatic problem, and the potential of polygon electrodes
with and without images as a candidate.
-/
namespace Electrode.Field
open Spec Real Filter Topology Set PolyInt MaxP

/-! ### Differences of solutions -/

theorem harmonic_lin {U : Set (ℝ × ℝ × ℝ)} {f g : V3 → ℝ} (hf : ObeysLaplace U f) (hg : ObeysLaplace U g) (a b c : ℝ) :
    ObeysLaplace U fun p => a * f p + b * g p + c := by
  obtain ⟨f0, f2, hf1, hf2⟩ := hf
  obtain ⟨g0, g2, hg1, hg2⟩ := hg
  refine ⟨((f0.const_mul a).add (g0.const_mul b)).add continuousOn_const, fun i p => a * f2 i p + b * g2 i p, fun i => ?_, fun p hp => ?_⟩
  · obtain ⟨f', h1, f'', h2, h3⟩ := hf1 i
    obtain ⟨g', h4, g'', h5, h6⟩ := hg1 i
    refine ⟨fun p => a * f' p + b * g' p, fun p hp => ?_, fun p => a * f'' p + b * g'' p, fun p hp => ?_, fun p hp => ?_⟩
    · exact (HasDerivAt.add ((h1 p hp).const_mul a) ((h4 p hp).const_mul b)).add_const c
    · exact HasDerivAt.add ((h2 p hp).const_mul a) ((h5 p hp).const_mul b)
    · show a * f'' p + b * g'' p = _
      rw [h3 p hp, h6 p hp]
  · have e1 := hf2 p hp
    have e2 := hg2 p hp
    linear_combination a * e1 + b * e2

/-- the straight line through a segment -/
theorem line_of (a b : V2) : ∃ l : Line, ∀ q : ℝ × ℝ, onSegment q a b → l.d (at3 (q.1, q.2, 0)) = 0 := by
  by_cases h : (b.x - a.x) ^ 2 + (b.y - a.y) ^ 2 = 0
  · have h1 : b.x - a.x = 0 := by nlinarith [sq_nonneg (b.x - a.x), sq_nonneg (b.y - a.y)]
    have h2 : b.y - a.y = 0 := by nlinarith [sq_nonneg (b.x - a.x), sq_nonneg (b.y - a.y)]
    refine ⟨⟨a.x, a.y, 1, 0, by norm_num⟩, fun q ⟨t, _, _, hx, hy⟩ => ?_⟩
    simp only [Line.d, Line.s, at3, hx, hy, h1, h2]
    ring
  · have hp : 0 < (b.x - a.x) ^ 2 + (b.y - a.y) ^ 2 := lt_of_le_of_ne (by positivity) (Ne.symm h)
    have hs := Real.sq_sqrt hp.le
    have hs0 := Real.sqrt_pos.mpr hp
    refine ⟨⟨a.x, a.y, (b.y - a.y) / √((b.x - a.x) ^ 2 + (b.y - a.y) ^ 2), -(b.x - a.x) / √((b.x - a.x) ^ 2 + (b.y - a.y) ^ 2), ?_⟩,
      fun q ⟨t, _, _, hx, hy⟩ => ?_⟩
    · rw [div_pow, div_pow, hs]
      field_simp
      ring
    · simp only [Line.d, Line.s, at3, hx, hy]
      field_simp
      ring

theorem lines_of (E : List (V2 × V2)) : ∃ Ls : List Line, ∀ e ∈ E, ∀ q : ℝ × ℝ, onSegment q e.1 e.2 →
    ∃ l ∈ Ls, l.d (at3 (q.1, q.2, 0)) = 0 := by
  choose l hl using line_of
  refine ⟨E.map fun e => l e.1 e.2, fun e he q hq => ⟨_, List.mem_map.mpr ⟨e, he, rfl⟩, hl e.1 e.2 q hq⟩⟩

theorem above_open : IsOpen above := isOpen_lt continuous_const (continuous_snd.comp continuous_snd)
theorem slab_open (h : ℝ) : IsOpen (slab h) :=
  above_open.inter (isOpen_lt (continuous_snd.comp continuous_snd) continuous_const)

theorem above_edge {t : ℝ × ℝ × ℝ} (h : t ∈ closure above) (h' : t ∉ above) : t.2.2 = 0 := by
  have : above ⊆ {t : ℝ × ℝ × ℝ | 0 ≤ t.2.2} := fun t ht => le_of_lt (show 0 < t.2.2 from ht)
  have h1 : 0 ≤ t.2.2 :=
    closure_minimal this (isClosed_le continuous_const (continuous_snd.comp continuous_snd)) h
  exact le_antisymm (not_lt.mp h') h1

theorem slab_edge {H : ℝ} {t : ℝ × ℝ × ℝ} (h : t ∈ closure (slab H)) (h' : t ∉ slab H) : t.2.2 = 0 ∨ t.2.2 = H := by
  have s1 : slab H ⊆ {t : ℝ × ℝ × ℝ | 0 ≤ t.2.2} := fun t ht => le_of_lt ht.1
  have s2 : slab H ⊆ {t : ℝ × ℝ × ℝ | t.2.2 ≤ H} := fun t ht => le_of_lt ht.2
  have h1 : 0 ≤ t.2.2 :=
    closure_minimal s1 (isClosed_le continuous_const (continuous_snd.comp continuous_snd)) h
  have h2 : t.2.2 ≤ H :=
    closure_minimal s2 (isClosed_le (continuous_snd.comp continuous_snd) continuous_const) h
  by_contra hn
  push Not at hn
  exact h' ⟨lt_of_le_of_ne h1 (Ne.symm hn.1), lt_of_le_of_ne h2 hn.2⟩

/-- the difference of two candidates, one way -/
theorem compare_le {U : Set (ℝ × ℝ × ℝ)} (hU : IsOpen U) (hz : ∀ t ∈ U, 0 < t.2.2) (E : List (V2 × V2)) {f g : V3 → ℝ}
    (hf : ObeysLaplace U f) (hg : ObeysLaplace U g) (hfd : Decays U f) (hgd : Decays U g) {δ : ℝ} (hδ : 0 ≤ δ)
    (hbd : ∀ t ∈ closure U, t ∉ U → (∃ e ∈ E, t.2.2 = 0 ∧ onSegment (t.1, t.2.1) e.1 e.2) ∨
      ∃ c d, BoundaryValue U f t c ∧ BoundaryValue U g t d ∧ c - d ≤ δ) (t : ℝ × ℝ × ℝ) (ht : t ∈ U) :
    f (at3 t) - g (at3 t) ≤ δ := by
  obtain ⟨Ls, hLs⟩ := lines_of E
  obtain ⟨⟨M, hM⟩, hf0⟩ := hfd
  obtain ⟨⟨N, hN⟩, hg0⟩ := hgd
  have hw := harmonic_lin hf hg 1 (-1) (-δ)
  have e : ∀ s, 1 * f (at3 s) + -1 * g (at3 s) + -δ = f (at3 s) - g (at3 s) - δ := fun s => by ring
  have key := max_principle hU hz hw (M := M + N) (fun t ht => ?_) (fun ε hε => ?_) Ls (fun t ht htU => ?_) t ht
  · rw [e] at key; linarith
  · rw [e]
    have h1 := abs_le.mp (hM t ht)
    have h2 := abs_le.mp (hN t ht)
    linarith
  · have h1 := (hf0.sub hg0).sub_const δ
    filter_upwards [h1.eventually_le_const (show 0 - 0 - δ < ε by linarith)] with s hs
    rw [e]; exact hs
  · rcases hbd t ht htU with ⟨e', he', h0, hs⟩ | ⟨c, d, hc, hd, hcd⟩
    · right
      obtain ⟨l, hl, hl0⟩ := hLs e' he' _ hs
      refine ⟨l, hl, ?_⟩
      rw [← hl0]
      congr 1
      simp only [at3, h0]
    · left
      intro ε hε
      have h1 := (hc.sub hd).sub_const δ
      filter_upwards [h1.eventually_le_const (show c - d - δ < ε by linarith)] with s hs
      rw [e]; exact hs

/-! ### The potential of polygon electrodes -/

/-- sum over the polygons -/
noncomputable def polysField (polys : List (List V2)) (p : V3) : ℝ := (polys.map fun poly => polyComp 0 0 poly p).sum

theorem contrib_eq (n : Nat) (h : ℝ) (polys : List (List V2)) (p : V3) :
    polyContrib 0 n h polys p 0 = ((coverRange n).map fun m : ℤ => polysField polys (p.lift (2 * (m : ℝ) * h))).sum :=
  polyContrib_swap 0 n h polys p 0

theorem polysField_cont (polys : List (List V2)) {t : ℝ × ℝ × ℝ} (ht : t.2.2 ≠ 0) :
    ContinuousAt (fun t => polysField polys (at3 t)) t :=
  tendsto_list_sum polys (fun poly t => polyComp 0 0 poly (at3 t)) _ fun poly _ => poly_cont ht poly

theorem polysField_plane (polys : List (List V2)) {q : ℝ × ℝ} (hq : ∀ poly ∈ polys, offBoundary poly q) :
    Tendsto (fun t => polysField polys (at3 t)) (𝓝[above] (q.1, q.2, 0)) (𝓝 (covered polys q : ℝ)) := by
  have e : (covered polys q : ℝ) = (polys.map fun poly => (winding poly q : ℝ)).sum := by
    unfold covered
    exact (map_list_sum (Int.castRingHom ℝ) _).trans (by rw [List.map_map]; rfl)
  rw [e]
  exact tendsto_list_sum polys (fun poly t => polyComp 0 0 poly (at3 t)) _ fun poly hp => poly_plane (hq poly hp)

theorem polysField_bound (polys : List (List V2)) : ∃ M, ∀ p : V3, p.z ≠ 0 → |polysField polys p| ≤ M := by
  induction polys with
  | nil => exact ⟨0, fun p _ => by simp [polysField]⟩
  | cons a l ih =>
    obtain ⟨M, hM⟩ := ih
    refine ⟨a.length + M, fun p hp => ?_⟩
    have e : polysField (a :: l) p = polyComp 0 0 a p + polysField l p := by simp [polysField]
    rw [e]
    exact (abs_add_le _ _).trans (add_le_add (poly_bound hp a) (hM p hp))

theorem polysField_far (polys : List (List V2)) :
    Tendsto (fun t => polysField polys (at3 t)) (cocompact (ℝ × ℝ × ℝ) ⊓ 𝓟 {t | t.2.2 ≠ 0}) (𝓝 0) := by
  have := tendsto_list_sum polys (fun poly t => polyComp 0 0 poly (at3 t)) (fun _ => 0) fun poly _ => poly_far poly
  simpa [polysField] using this

theorem polysField_mirror (polys : List (List V2)) (p : V3) : polysField polys p.mirror = -polysField polys p := by
  unfold polysField
  simp only [polyComp0_mirror]
  rw [← neg_one_mul (List.sum _), ← List.sum_map_mul_left]
  simp

/-- adding a height -/
def up (c : ℝ) (t : ℝ × ℝ × ℝ) : ℝ × ℝ × ℝ := (t.1, t.2.1, t.2.2 + c)

theorem lift_at3 (c : ℝ) (t : ℝ × ℝ × ℝ) : (at3 t).lift c = at3 (up c t) := rfl
theorem up_cont (c : ℝ) : Continuous (up c) := by unfold up; fun_prop
theorem up_cocompact (c : ℝ) : Tendsto (up c) (cocompact _) (cocompact _) := by
  have := (Homeomorph.addRight ((0, 0, c) : ℝ × ℝ × ℝ)).isClosedEmbedding.tendsto_cocompact
  convert this using 1
  funext t
  simp [up, Prod.ext_iff]

section
variable (name : String) (dc rf : ℝ) (polys : List (List V2)) (h : ℝ) (n : Nat) (v : ℝ)

theorem comp_eq (p : V3) : compAt ⟨name, dc, rf, .polygons polys h n⟩ 0 0 v p
    = v * ((coverRange n).map fun m : ℤ => polysField polys (p.lift (2 * (m : ℝ) * h))).sum := by
  rw [compAt_polygons _ _ _ _ _ _ _ _ _ (by norm_num), contrib_eq]

theorem iterated_mono {U U' : V3 → Prop} (hU : ∀ p, U' p → U p) : ∀ (l : List (Fin 3)) {f g : V3 → ℝ},
    IsIterated U l f g → IsIterated U' l f g
  | [], _, _, h => fun p hp => h p (hU p hp)
  | _ :: l, _, _, ⟨f', h1, h2⟩ => ⟨f', fun p hp => h1 p (hU p hp), iterated_mono hU l h2⟩

variable {U : Set (ℝ × ℝ × ℝ)}

theorem comp_harmonic (hU : ∀ t ∈ U, offPlanes h n (at3 t)) : ObeysLaplace U (compAt ⟨name, dc, rf, .polygons polys h n⟩ 0 0 v) := by
  constructor
  · intro t ht
    refine ContinuousAt.continuousWithinAt ?_
    simp only [comp_eq]
    refine continuousAt_const.mul ?_
    refine tendsto_list_sum (coverRange n) (fun (m : ℤ) t => polysField polys ((at3 t).lift (2 * (m : ℝ) * h))) _ fun m hm => ?_
    rw [mem_coverRange] at hm
    exact ContinuousAt.comp' (f := up (2 * (m : ℝ) * h)) (polysField_cont polys (hU t ht m hm.1 hm.2)) (up_cont _).continuousAt
  · obtain ⟨g, h1, h2⟩ := c14_polygon_laplace name dc rf polys h n v
    exact ⟨g, fun a => iterated_mono (fun p hp => hU _ hp) _ (h1 a), fun p hp => h2 p (hU _ hp)⟩

theorem comp_decays (hU : ∀ t ∈ U, offPlanes h n (at3 t)) : Decays U (compAt ⟨name, dc, rf, .polygons polys h n⟩ 0 0 v) := by
  constructor
  · obtain ⟨M, hM⟩ := polysField_bound polys
    refine ⟨|v| * ((coverRange n).length * M), fun t ht => ?_⟩
    rw [comp_eq, abs_mul]
    refine mul_le_mul_of_nonneg_left (abs_list_sum_le _ _ M fun m hm => hM _ ?_) (abs_nonneg v)
    rw [mem_coverRange] at hm
    exact hU t ht m hm.1 hm.2
  · simp only [comp_eq]
    have key := tendsto_list_sum (F := cocompact (ℝ × ℝ × ℝ) ⊓ 𝓟 U) (coverRange n)
      (fun (m : ℤ) t => polysField polys ((at3 t).lift (2 * (m : ℝ) * h))) (fun _ => 0) fun m hm => by
        rw [mem_coverRange] at hm
        have hu : Tendsto (up (2 * (m : ℝ) * h)) (cocompact (ℝ × ℝ × ℝ) ⊓ 𝓟 U) (cocompact (ℝ × ℝ × ℝ) ⊓ 𝓟 {t | t.2.2 ≠ 0}) := by
          refine tendsto_inf.mpr ⟨(up_cocompact (2 * (m : ℝ) * h)).mono_left inf_le_left, ?_⟩
          refine tendsto_principal.mpr ?_
          rw [eventually_inf_principal]
          exact Eventually.of_forall fun t ht => hU t ht m hm.1 hm.2
        have h1 := (polysField_far polys).comp hu
        simpa only [Function.comp_def, ← lift_at3] using h1
    have := key.const_mul v
    simpa using this

theorem comp_plane (hU : U ⊆ above) (hh : h ≠ 0 ∨ n = 0) {q : ℝ × ℝ} (hq : ∀ poly ∈ polys, offBoundary poly q) :
    BoundaryValue U (compAt ⟨name, dc, rf, .polygons polys h n⟩ 0 0 v) (q.1, q.2, 0) (v * covered polys q) := by
  refine Tendsto.mono_left ?_ (nhdsWithin_mono _ hU)
  simp only [comp_eq]
  refine Tendsto.const_mul v ?_
  set L : ℤ → ℝ := fun m => if m = 0 then (covered polys q : ℝ) else polysField polys ⟨q.1, q.2, 2 * (m : ℝ) * h⟩ with hL
  have h1 : ∀ m ∈ coverRange n, Tendsto (fun t => polysField polys ((at3 t).lift (2 * (m : ℝ) * h))) (𝓝[above] (q.1, q.2, 0)) (𝓝 (L m)) := by
    intro m hm
    by_cases h0 : m = 0
    · subst h0
      simp only [hL, if_pos]
      refine (polysField_plane polys hq).congr fun t => ?_
      simp [V3.lift]
    · simp only [hL, if_neg h0]
      rw [mem_coverRange] at hm
      have hne : 2 * (m : ℝ) * h ≠ 0 := by
        rcases hh with hh | hh
        · have : (m : ℝ) ≠ 0 := by exact_mod_cast h0
          positivity
        · subst hh; simp at hm; omega
      refine Tendsto.mono_left ?_ nhdsWithin_le_nhds
      have h2 : up (2 * (m : ℝ) * h) (q.1, q.2, 0) = (q.1, q.2, 2 * (m : ℝ) * h) := by simp [up]
      have h3 := polysField_cont polys (t := up (2 * (m : ℝ) * h) (q.1, q.2, 0)) (by rw [h2]; exact hne)
      have h4 := ContinuousAt.comp' (f := up (2 * (m : ℝ) * h)) h3 (up_cont _).continuousAt
      have h5 := h4.tendsto
      simp only [h2] at h5
      exact h5
  have h2 := tendsto_list_sum (coverRange n) (fun (m : ℤ) t => polysField polys ((at3 t).lift (2 * (m : ℝ) * h))) L h1
  have h3 : ((coverRange n).map L).sum = (covered polys q : ℝ) := by
    clear h1 h2 hh
    induction n with
    | zero => simp [coverRange, hL]
    | succ n ih =>
      rw [coverRange_succ_sum, ih]
      have e1 : L (-(n : ℤ) - 1) = -L (n + 1) := by
        simp only [hL]
        rw [if_neg (by omega), if_neg (by omega), ← polysField_mirror]
        congr 1
        simp only [V3.mirror]
        congr 1
        push_cast
        ring
      rw [e1]; ring
  rwa [h3] at h2

/-- on the cover all images cancel but one -/
theorem comp_cover (x y : ℝ) : compAt ⟨name, dc, rf, .polygons polys h n⟩ 0 0 v ⟨x, y, h⟩ = v * polysField polys ⟨x, y, (2 * n + 1) * h⟩ := by
  rw [comp_eq]
  congr 1
  induction n with
  | zero => simp [coverRange, V3.lift]
  | succ n ih =>
    rw [coverRange_succ_sum, ih]
    have e : polysField polys ((⟨x, y, h⟩ : V3).lift (2 * ((-(n : ℤ) - 1 : ℤ) : ℝ) * h)) = -polysField polys ⟨x, y, (2 * n + 1) * h⟩ := by
      rw [← polysField_mirror]
      congr 1
      simp only [V3.mirror, V3.lift]
      congr 1
      push_cast
      ring
    have e' : (⟨x, y, h⟩ : V3).lift (2 * (((n : ℤ) + 1 : ℤ) : ℝ) * h) = ⟨x, y, (2 * ((n + 1 : ℕ) : ℝ) + 1) * h⟩ := by
      simp only [V3.lift]
      congr 1
      push_cast
      ring
    rw [e, e']
    ring

theorem polysField_small {z : ℝ} (hz : z ≠ 0) (x y : ℝ) :
    |polysField polys ⟨x, y, z⟩| ≤ (∫ q : ℝ × ℝ, |(covered polys q : ℝ)|) / (2 * π * z ^ 2) := by
  have h1 := (covered_integral (p := ⟨x, y, z⟩) hz polys).2
  unfold polysField
  rw [← h1, ← Real.norm_eq_abs]
  have h2 : ∀ q : ℝ × ℝ, ‖(covered polys q : ℝ) * pixelAt ⟨x, y, z⟩ q‖ ≤ |(covered polys q : ℝ)| * (1 / (2 * π * z ^ 2)) := fun q => by
    rw [norm_mul, Real.norm_eq_abs, Real.norm_eq_abs]
    exact mul_le_mul_of_nonneg_left (Cover.pixel_le x y hz q) (abs_nonneg _)
  have h3 := MeasureTheory.norm_integral_le_of_norm_le ((Cover.covered_integrable' polys).abs.mul_const _) (Eventually.of_forall h2)
  rw [MeasureTheory.integral_mul_const] at h3
  refine h3.trans_eq ?_
  ring

theorem comp_cover_value (hh : 0 < h) (q : ℝ × ℝ) :
    BoundaryValue U (compAt ⟨name, dc, rf, .polygons polys h n⟩ 0 0 v) (q.1, q.2, h) (v * polysField polys ⟨q.1, q.2, (2 * n + 1) * h⟩) := by
  refine Tendsto.mono_left ?_ nhdsWithin_le_nhds
  have hc := comp_cover name dc rf polys h n v q.1 q.2
  rw [← hc]
  simp only [comp_eq]
  refine Tendsto.const_mul v ?_
  refine tendsto_list_sum (coverRange n) (fun (m : ℤ) t => polysField polys ((at3 t).lift (2 * (m : ℝ) * h))) _ fun m hm => ?_
  have hne : (up (2 * (m : ℝ) * h) (q.1, q.2, h)).2.2 ≠ 0 := by
    intro h0
    have h1 : h + 2 * (m : ℝ) * h = 0 := h0
    have h2 : (1 + 2 * (m : ℝ)) * h = 0 := by linarith
    rcases mul_eq_zero.mp h2 with h3 | h3
    · have : (1 + 2 * m : ℤ) = 0 := by exact_mod_cast h3
      omega
    · exact hh.ne' h3
  exact (ContinuousAt.comp' (f := up (2 * (m : ℝ) * h)) (polysField_cont polys hne) (up_cont _).continuousAt).tendsto

end
end Electrode.Field
