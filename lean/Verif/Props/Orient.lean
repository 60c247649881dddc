import Verif.Model.Orient
import Verif.Props.Pixels

/-
C118: orientations tell the signs of potentials.
-/
namespace Electrode
open Spec Real MeasureTheory Set Filter Topology

namespace Orient

theorem offPlanes0 (h : ℝ) {p : V3} (hz : p.z ≠ 0) : offPlanes h 0 p := fun m h1 h2 => by
  have : m = 0 := by simp at h1 h2; omega
  subst this; simpa using hz

/-- the potential of one path without cover -/
theorem single (name : String) (dc rf h v : ℝ) (path : List V2) (p : V3) :
    compAt ⟨name, dc, rf, .polygons [path] h 0⟩ 0 0 v p = v * polyComp 0 0 path p := by
  rw [compAt_polygons _ _ _ _ _ _ _ _ _ (by norm_num), polyContrib_swap]
  simp [coverRange, V3.lift]

/-- integrals of a nonnegative function with two positive weights are positive together -/
theorem weigh {f k : ℝ × ℝ → ℝ} (hf : Integrable f) (hg : Integrable fun q => f q * k q) (h0 : ∀ q, 0 ≤ f q) (hk : ∀ q, 0 < k q) :
    (0 < ∫ q, f q) ↔ 0 < ∫ q, f q * k q := by
  rw [integral_pos_iff_support_of_nonneg h0 hf,
    integral_pos_iff_support_of_nonneg (fun q => mul_nonneg (h0 q) (hk q).le) hg]
  have : (Function.support fun q => f q * k q) = Function.support f := by
    ext q
    simp [(hk q).ne']
  rw [this]

/-- above the plane the potential of a path that runs around its region in one sense has the sign of its area -/
theorem path_sign (path : List V2) (s : ℤ) (hs : s = 1 ∨ s = -1) (hw : ∀ q, 0 ≤ s * winding path q) {p : V3} (hz : 0 < p.z) :
    SignType.sign (polyComp 0 0 path p) = SignType.sign (areaCentroid path).1 := by
  obtain ⟨i1, e1⟩ := c10_area_region path
  obtain ⟨i2, e2⟩ := winding_integral' hz.ne' path
  have h0 : ∀ q : ℝ × ℝ, 0 ≤ (s : ℝ) * (winding path q : ℝ) := fun q => by exact_mod_cast hw q
  have key := weigh (f := fun q => (s : ℝ) * (winding path q : ℝ)) (k := pixelAt p) (i1.const_mul s)
    (by simpa only [mul_assoc] using i2.const_mul (s : ℝ)) h0 (PolyInt.pixel_pos hz)
  have n1 : 0 ≤ ∫ q, (s : ℝ) * (winding path q : ℝ) := integral_nonneg h0
  have n2 : 0 ≤ ∫ q, (s : ℝ) * (winding path q : ℝ) * pixelAt p q :=
    integral_nonneg fun q => mul_nonneg (h0 q) (PolyInt.pixel_pos hz q).le
  simp only [mul_assoc] at key n2
  rw [integral_const_mul, ← e1] at key n1
  rw [integral_const_mul, e2] at key n2
  rcases hs with rfl | rfl
  · simp only [Int.cast_one, one_mul] at key n1 n2
    rcases n1.eq_or_lt with h | h
    · rcases n2.eq_or_lt with h' | h'
      · rw [← h, ← h']
      · exact absurd (key.2 h') (by rw [← h]; exact lt_irrefl _)
    · rw [sign_pos h, sign_pos (key.1 h)]
  · simp only [Int.cast_neg, Int.cast_one, neg_mul, one_mul] at key n1 n2
    rcases n1.eq_or_lt with h | h
    · rcases n2.eq_or_lt with h' | h'
      · rw [neg_eq_zero.1 h.symm, neg_eq_zero.1 h'.symm]
      · exact absurd (key.2 h') (by rw [← h]; exact lt_irrefl _)
    · rw [sign_neg (neg_pos.1 (key.1 h)), sign_neg (neg_pos.1 h)]

theorem path_sign' (path : List V2) (s : ℤ) (hs : s = 1 ∨ s = -1) (hw : ∀ q, 0 ≤ s * winding path q) {p : V3} (hz : p.z ≠ 0) :
    SignType.sign (polyComp 0 0 path p) = SignType.sign (areaCentroid path).1 * SignType.sign p.z := by
  rcases lt_or_gt_of_ne hz with h | h
  · have h1 : 0 < p.mirror.z := by simpa [V3.mirror] using h
    have := path_sign path s hs hw h1
    rw [polyComp0_mirror, Left.sign_neg] at this
    rw [sign_neg h, ← this]
    simp
  · rw [path_sign path s hs hw h, sign_pos h, mul_one]

end Orient
open Orient

/-- C118: for a polygon electrode without cover, whose paths each run around their region in one sense (`s`), there is one orientation per
path, 1, -1 or 0.  The potential is the sum of the potentials of the paths, and that of a path has, everywhere off the plane, the sign of
the voltage times the orientation, times the side of the plane: above the plane, a positive voltage gives a positive potential for
positive orientation. -/
theorem c118_orientations (name : String) (dc rf h : ℝ) (paths : List (List V2))
    (hp : ∀ path ∈ paths, ∃ s : ℤ, (s = 1 ∨ s = -1) ∧ ∀ q, 0 ≤ s * winding path q) (v : ℝ) (p : V3) (hz : p.z ≠ 0) :
    compAt ⟨name, dc, rf, .polygons paths h 0⟩ 0 0 v p
      = (paths.map fun path => compAt ⟨name, dc, rf, .polygons [path] h 0⟩ 0 0 v p).sum ∧
    List.Forall₂ (fun o path => (o = 1 ∨ o = -1 ∨ o = 0) ∧
        (SignType.sign (compAt ⟨name, dc, rf, .polygons [path] h 0⟩ 0 0 v p) : ℝ) = SignType.sign v * o * SignType.sign p.z)
      (Elec.orientations ⟨name, dc, rf, .polygons paths h 0⟩) paths := by
  constructor
  · simp only [single]
    rw [compAt_polygons _ _ _ _ _ _ _ _ _ (by norm_num), polyContrib_swap, List.sum_map_mul_left]
    simp [coverRange, V3.lift]
  · simp only [Elec.orientations, Electrode.orientations, List.forall₂_map_left_iff, List.forall₂_same]
    intro path hpath
    obtain ⟨s, hs, hw⟩ := hp path hpath
    constructor
    · rcases SignType.trichotomy (SignType.sign (areaCentroid path).1) with h | h | h <;> simp [h]
    · rw [single, sign_mul, path_sign' path s hs hw hz]
      push_cast
      ring

/-- C118: in particular, if all orientations are positive, the electrode has the sign of its voltage everywhere above the plane, whatever
its paths cover. -/
theorem c118_positive (name : String) (dc rf h : ℝ) (paths : List (List V2)) (hne : paths ≠ [])
    (hp : ∀ path ∈ paths, ∃ s : ℤ, (s = 1 ∨ s = -1) ∧ ∀ q, 0 ≤ s * winding path q)
    (ho : ∀ o ∈ Elec.orientations ⟨name, dc, rf, .polygons paths h 0⟩, o = 1) (v : ℝ) (p : V3) (hz : 0 < p.z) :
    SignType.sign (compAt ⟨name, dc, rf, .polygons paths h 0⟩ 0 0 v p) = SignType.sign v := by
  have h1 : ∀ path ∈ paths, 0 < polyComp 0 0 path p := by
    intro path hpath
    obtain ⟨s, hs, hw⟩ := hp path hpath
    have := ho _ (List.mem_map_of_mem (f := fun p => (SignType.sign (areaCentroid p).1 : ℝ)) hpath)
    have h2 : SignType.sign (areaCentroid path).1 = 1 := by
      rcases SignType.trichotomy (SignType.sign (areaCentroid path).1) with h | h | h
      · rw [h] at this; norm_num at this
      · rw [h] at this; norm_num at this
      · exact h
    rw [← sign_eq_one_iff, path_sign path s hs hw hz, h2]
  rw [(c118_orientations name dc rf h paths hp v p hz.ne').1]
  simp only [single]
  rw [List.sum_map_mul_left, sign_mul]
  have h2 : 0 < (paths.map fun path => polyComp 0 0 path p).sum := by
    refine List.sum_pos _ (fun x hx => ?_) (by simpa using hne)
    obtain ⟨path, hpath, rfl⟩ := List.mem_map.1 hx
    exact h1 path hpath
  rw [sign_pos h2, mul_one]

/-- C118: point pixels of positive area have orientation 1, and their potential has the sign of the voltage above the plane. -/
theorem c118_points (name : String) (dc rf h : ℝ) (points : List V2) (areas : List ℝ) (hl : points.length = areas.length)
    (hne : areas ≠ []) (ha : ∀ a ∈ areas, 0 < a) (v : ℝ) (p : V3) (hz : 0 < p.z) :
    Elec.orientations ⟨name, dc, rf, .points points areas h 0⟩ = areas.map (fun _ => 1) ∧
    SignType.sign (compAt ⟨name, dc, rf, .points points areas h 0⟩ 0 0 v p) = SignType.sign v := by
  refine ⟨rfl, ?_⟩
  rw [c86_point, sign_mul]
  have h2 : 0 < ((points.zip areas).map fun q => ∑ m ∈ Finset.Icc (-((0 : Nat) : ℤ)) (0 : Nat),
          q.2 * pixelAt ⟨p.x, p.y, p.z + 2 * m * h⟩ (q.1.x, q.1.y)).sum := by
    refine List.sum_pos _ (fun x hx => ?_) ?_
    · obtain ⟨q, hq, rfl⟩ := List.mem_map.1 hx
      simp only [Nat.cast_zero, neg_zero, Finset.Icc_self, Finset.sum_singleton, Int.cast_zero, mul_zero, zero_mul, add_zero]
      exact mul_pos (ha _ (List.of_mem_zip hq).2) (PolyInt.pixel_pos hz _)
    · intro h0
      have h1 := congrArg List.length h0
      rw [List.length_map, List.length_zip, hl, min_self, List.length_nil] at h1
      exact hne (List.length_eq_zero_iff.1 h1)
  rw [sign_pos h2, mul_one]

/-- C118, what is missing: points made from a clockwise path have orientation 1, but keep the negative potential of the path. -/
theorem c118_to_points_counterexample (name : String) (dc rf h : ℝ) (path : List V2) (ha : (areaCentroid path).1 < 0) (p : V3) (hz : 0 < p.z) :
    Elec.orientations ⟨name, dc, rf, .polygons [path] h 0⟩ = [-1] ∧
    ∃ e, Elec.toPoints ⟨name, dc, rf, .polygons [path] h 0⟩ = .ok e ∧ e.orientations = [1] ∧ compAt e 0 0 1 p < 0 := by
  refine ⟨by simp [Elec.orientations, Electrode.orientations, sign_neg ha], _, rfl, by simp [Elec.orientations], ?_⟩
  rw [c86_point]
  simp only [List.map_cons, List.map_nil, List.zip_cons_cons, List.zip_nil_left, Nat.cast_zero, neg_zero, Finset.Icc_self,
    Finset.sum_singleton, Int.cast_zero, mul_zero, zero_mul, add_zero, List.sum_cons, List.sum_nil, one_mul]
  exact mul_neg_of_neg_of_pos ha (PolyInt.pixel_pos hz _)

/-- a clockwise unit square meets the hypothesis -/
example : (areaCentroid unitSquare.reverse).1 < 0 := by
  rw [c10_area_reverse]; simp [unitSquare, areaCentroid, rollLeft]

/-- a path around a large square counter clockwise and around a small one clockwise -/
def exEight : List V2 := [⟨0, 0⟩, ⟨2, 0⟩, ⟨2, 2⟩, ⟨0, 2⟩, ⟨0, 0⟩, ⟨0, -1⟩, ⟨-1, -1⟩, ⟨-1, 0⟩]

/-- C118, what is missing: the orientation of a path that runs around parts of its region in different senses is that of the larger part;
above the other one the potential has the wrong sign. -/
theorem c118_eight_counterexample (name : String) (dc rf h : ℝ) :
    Elec.orientations ⟨name, dc, rf, .polygons [exEight] h 0⟩ = [1] ∧
    ∃ p : V3, 0 < p.z ∧ compAt ⟨name, dc, rf, .polygons [exEight] h 0⟩ 0 0 1 p < 0 := by
  constructor
  · have : (areaCentroid exEight).1 = 3 := by
      rw [area_eq]; norm_num [exEight, cycSum, chain, crossE]
    simp [Elec.orientations, Electrode.orientations, this]
  · have hb := c86_boundary name dc rf [exEight] h 0 (Or.inr rfl) 1 (-1 / 2, -1 / 2) (by
      intro poly hpoly
      rw [List.mem_singleton] at hpoly
      subst hpoly
      intro e he
      simp only [exEight, List.rotate_cons_succ, List.rotate_zero, List.cons_append, List.nil_append,
        List.zip_cons_cons, List.zip_nil_left, List.mem_cons, List.not_mem_nil, or_false] at he
      rcases he with rfl | rfl | rfl | rfl | rfl | rfl | rfl | rfl <;> rintro ⟨t, h0, h1, e1, e2⟩ <;> simp at e1 e2 <;> linarith)
    have hc : covered [exEight] (-1 / 2, -1 / 2) = -1 := by
      simp only [covered, List.map_cons, List.map_nil, List.sum_cons, List.sum_nil, add_zero, PolyInt.winding_cyc]
      norm_num [exEight, cycSum, chain, crossing]
    rw [hc] at hb
    have h1 : ∀ᶠ z in 𝓝[>] (0 : ℝ), compAt ⟨name, dc, rf, .polygons [exEight] h 0⟩ 0 0 1 ⟨-1 / 2, -1 / 2, z⟩ < 0 :=
      hb.eventually_lt_const (by norm_num)
    obtain ⟨z, hz, hz'⟩ := (h1.and self_mem_nhdsWithin).exists
    exact ⟨⟨-1 / 2, -1 / 2, z⟩, hz', hz⟩

/-- C118: covers, meshes and grids do not tell their orientation. -/
theorem c118_other (e : Elec) (h : ∀ ps as ch cn, e.shape ≠ .points ps as ch cn) (h' : ∀ ps ch cn, e.shape ≠ .polygons ps ch cn) :
    e.orientations = [] := by
  obtain ⟨name, dc, rf, shape⟩ := e
  cases shape with
  | points ps as ch cn => exact absurd rfl (h ps as ch cn)
  | polygons ps ch cn => exact absurd rfl (h' ps ch cn)
  | _ => rfl

/-- both hypotheses are met by a mesh -/
example : Elec.orientations ⟨"", 0, 0, .mesh [⟨0, 0⟩] [(0, 0)] [0] [1] 50 0⟩ = [] :=
  c118_other _ (by simp) (by simp)

/-- the unit square, everywhere above the plane -/
example (v : ℝ) (p : V3) (hz : 0 < p.z) :
    SignType.sign (compAt ⟨"", 0, 0, .polygons [unitSquare] 50 0⟩ 0 0 v p) = SignType.sign v := by
  have hA : (areaCentroid unitSquare).1 = 1 := by simp [unitSquare, areaCentroid, rollLeft]
  refine c118_positive "" 0 0 50 [unitSquare] (by simp) (fun path hp => ?_) (fun o ho => ?_) v p hz
  · rw [List.mem_singleton] at hp
    subst hp
    refine ⟨1, Or.inl rfl, fun q => ?_⟩
    have := covered_square q
    simp only [covered, List.map_cons, List.map_nil, List.sum_cons, List.sum_nil, add_zero] at this
    rw [this, one_mul]
    split <;> norm_num
  · simpa [Elec.orientations, Electrode.orientations, hA] using ho

end Electrode
