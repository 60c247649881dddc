import Verif.Lemmas.CoverSeries
import Verif.Props.Pseudo

/-
C123: the potential of polygon electrodes is the only solution of the electrostatic problem above
the plane.  C124: with a cover, the images approximate the only solution of the problem between the
two planes, and the error is known.
-/
namespace Electrode
open Spec Real Filter Topology Set

namespace Spec
/-- The closed paths of a polygon electrode. -/
def paths (e : Elec) : List (List V2) :=
  match e.shape with
  | .polygons polys _ _ => polys
  | _ => []

/-- The electrode is a polygon electrode without cover. -/
def Uncovered (e : Elec) : Prop := ∃ polys h, e.shape = .polygons polys h 0

/-- The voltage at a point of the electrode plane: voltages of all electrodes that cover it. -/
noncomputable def planeVoltage (s : List Elec) (v : Elec → ℝ) (q : ℝ × ℝ) : ℝ := (s.map fun e => v e * (covered (paths e) q : ℝ)).sum
end Spec

open Field

theorem off_of_edges {polys : List (List V2)} {q : ℝ × ℝ} (h : ∀ e ∈ edgesOf polys, ¬ onSegment q e.1 e.2) :
    ∀ poly ∈ polys, offBoundary poly q := fun poly hp e he =>
  h e (List.mem_flatMap.mpr ⟨poly, hp, he⟩)

theorem above_off (h : ℝ) : ∀ t ∈ above, offPlanes h 0 (at3 t) := fun t ht m h1 h2 => by
  have h0 : 0 < t.2.2 := ht
  have : m = 0 := by simp at h1 h2; omega
  subst this
  simpa [at3] using h0.ne'

/-- C123: the potential of a polygon electrode without cover at voltage `v` obeys the Laplace
equation above the plane, is bounded, tends to zero far away in every direction, and tends to `v`
times the number of coverings at every point of the plane off the edges, however it is
approached. -/
theorem c123_solution (name : String) (dc rf : ℝ) (polys : List (List V2)) (h v : ℝ) :
    SolvesAbove (edgesOf polys) (fun q => v * covered polys q) (compAt ⟨name, dc, rf, .polygons polys h 0⟩ 0 0 v) where
  harmonic := comp_harmonic name dc rf polys h 0 v (above_off h)
  decays := comp_decays name dc rf polys h 0 v (above_off h)
  plane _ hq := comp_plane name dc rf polys h 0 v Subset.rfl (Or.inr rfl) (off_of_edges hq)

/-- C123: a solution lies between the extreme values on the plane, zero included. -/
theorem c123_extremes {E : List (V2 × V2)} {V : ℝ × ℝ → ℝ} {f : V3 → ℝ} (hf : SolvesAbove E V f) {lo hi : ℝ} (hlo : lo ≤ 0) (hhi : 0 ≤ hi)
    (hV : ∀ q, (∀ e ∈ E, ¬ onSegment q e.1 e.2) → lo ≤ V q ∧ V q ≤ hi) (p : V3) (hp : 0 < p.z) : lo ≤ f p ∧ f p ≤ hi := by
  have h0 : ObeysLaplace above fun _ => (0 : ℝ) := ⟨continuousOn_const, fun _ _ => 0, fun a =>
    ⟨fun _ => 0, fun p _ => hasDerivAt_const _ _, fun _ => 0, fun p _ => hasDerivAt_const _ _, fun _ _ => rfl⟩, fun p _ => by norm_num⟩
  have hd : Decays above fun _ => (0 : ℝ) := ⟨⟨0, fun _ _ => by simp⟩, tendsto_const_nhds⟩
  have hb : ∀ t ∈ closure above, t ∉ above → (∃ e ∈ E, t.2.2 = 0 ∧ onSegment (t.1, t.2.1) e.1 e.2) ∨
      ∃ c, BoundaryValue above f t c ∧ lo ≤ c ∧ c ≤ hi := by
    intro t ht htU
    have hz := above_edge ht htU
    by_cases hE : ∀ e ∈ E, ¬ onSegment (t.1, t.2.1) e.1 e.2
    · right
      have := hf.plane (t.1, t.2.1) hE
      rw [show ((t.1, t.2.1).1, (t.1, t.2.1).2, (0 : ℝ)) = t from by rw [← hz]] at this
      exact ⟨_, this, hV _ hE⟩
    · left
      push Not at hE
      obtain ⟨e, he, h1⟩ := hE
      exact ⟨e, he, hz, h1⟩
  constructor
  · have := compare_le above_open (fun t ht => ht) E h0 hf.harmonic hd hf.decays (δ := -lo) (by linarith)
      (fun t ht htU => (hb t ht htU).imp_right fun ⟨c, h1, h2, _⟩ => ⟨0, c, tendsto_const_nhds, h1, by linarith⟩) (p.x, p.y, p.z) hp
    have h2 : 0 - f p ≤ -lo := this
    linarith
  · have := compare_le above_open (fun t ht => ht) E hf.harmonic h0 hf.decays hd (δ := hi) hhi
      (fun t ht htU => (hb t ht htU).imp_right fun ⟨c, h1, _, h2⟩ => ⟨c, 0, h1, tendsto_const_nhds, by linarith⟩) (p.x, p.y, p.z) hp
    have h2 : f p - 0 ≤ hi := this
    linarith

/-- C123: two solutions of the same problem agree above the plane. -/
theorem c123_unique {E : List (V2 × V2)} {V : ℝ × ℝ → ℝ} {f g : V3 → ℝ} (hf : SolvesAbove E V f) (hg : SolvesAbove E V g)
    (p : V3) (hp : 0 < p.z) : f p = g p := by
  have h := fun (f g : V3 → ℝ) (hf : SolvesAbove E V f) (hg : SolvesAbove E V g) =>
    compare_le above_open (fun t ht => ht) E hf.harmonic hg.harmonic hf.decays hg.decays le_rfl (fun t ht htU => by
      have hz := above_edge ht htU
      by_cases hE : ∀ e ∈ E, ¬ onSegment (t.1, t.2.1) e.1 e.2
      · right
        have h1 := hf.plane (t.1, t.2.1) hE
        have h2 := hg.plane (t.1, t.2.1) hE
        rw [show ((t.1, t.2.1).1, (t.1, t.2.1).2, (0 : ℝ)) = t from by rw [← hz]] at h1 h2
        exact ⟨_, _, h1, h2, (sub_self _).le⟩
      · left
        push Not at hE
        obtain ⟨e, he, h1⟩ := hE
        exact ⟨e, he, hz, h1⟩) (p.x, p.y, p.z) hp
  exact le_antisymm (sub_nonpos.mp (h f g hf hg)) (sub_nonpos.mp (h g f hg hf))

/-- C123: whatever solves the electrostatic problem of a polygon electrode is the potential the
electrode reports. -/
theorem c123_only (name : String) (dc rf : ℝ) (polys : List (List V2)) (h v : ℝ) {f : V3 → ℝ}
    (hf : SolvesAbove (edgesOf polys) (fun q => v * covered polys q) f) (p : V3) (hp : 0 < p.z) :
    compAt ⟨name, dc, rf, .polygons polys h 0⟩ 0 0 v p = f p :=
  c123_unique (c123_solution name dc rf polys h v) hf p hp

theorem iterated_congr {U : V3 → Prop} (hU : ∀ p, U p → ∀ a, ∀ᶠ t in 𝓝 (0 : ℝ), U (shift p a t)) :
    ∀ (l : List (Fin 3)) {f f' g : V3 → ℝ}, (∀ p, U p → f p = f' p) → IsIterated U l f g → IsIterated U l f' g
  | [], _, _, _, h, h1 => fun p hp => (h p hp).symm.trans (h1 p hp)
  | a :: l, f, f', g, h, ⟨f1, h1, h2⟩ => ⟨f1, fun p hp => by
      have := h1 p hp
      unfold HasPartial at this ⊢
      refine this.congr_of_eventuallyEq ?_
      filter_upwards [hU p hp a] with t ht
      exact (h _ ht).symm, h2⟩

/-- C123: every component of every order the electrode reports is the derivative, by its name, of whatever
solves its electrostatic problem. -/
theorem c123_derivatives (name : String) (dc rf : ℝ) (polys : List (List V2)) (h v : ℝ) {f : V3 → ℝ}
    (hf : SolvesAbove (edgesOf polys) (fun q => v * covered polys q) f) (d i : Nat) (s : List Char) (l : List (Fin 3))
    (hs : derivToName d i = .ok s) (hl : nameToIdx s = .ok l) :
    IsIterated (fun p => 0 < p.z) l f (compAt ⟨name, dc, rf, .polygons polys h 0⟩ d i v) := by
  refine iterated_congr (fun p hp a => ?_) l (fun p hp => c123_only name dc rf polys h v hf p hp)
    (iterated_mono (fun p hp => above_off h (p.x, p.y, p.z) hp) l (c13_polygon_component name dc rf polys h 0 v d i s l hs hl))
  exact (EdgeId.shift_z_continuous p a).continuousAt.eventually_const_lt (by simpa only [EdgeId.shift_zero] using hp)

/-! ### Systems -/

theorem solves_add {E E' : List (V2 × V2)} {V V' : ℝ × ℝ → ℝ} {f f' : V3 → ℝ} (h : SolvesAbove E V f) (h' : SolvesAbove E' V' f') :
    SolvesAbove (E ++ E') (fun q => V q + V' q) (fun p => f p + f' p) where
  harmonic := by simpa using harmonic_lin h.harmonic h'.harmonic 1 1 0
  decays := by
    obtain ⟨⟨M, hM⟩, h1⟩ := h.decays
    obtain ⟨⟨N, hN⟩, h2⟩ := h'.decays
    refine ⟨⟨M + N, fun t ht => (abs_add_le _ _).trans (add_le_add (hM t ht) (hN t ht))⟩, ?_⟩
    simpa using h1.add h2
  plane q hq := (h.plane q fun e he => hq e (by simp [he])).add (h'.plane q fun e he => hq e (by simp [he]))

theorem electricalAt_order0 (s : List Elec) (typ : VTyp) (ha : ∀ e ∈ s, e.shape.Avail 0) (v : Elec → ℝ)
    (hv : (typ = .dc ∧ v = Elec.dc) ∨ (typ = .rf ∧ v = Elec.rf)) (p : V3) :
    electricalAt s typ [] p = (s.map fun e => compAt e 0 0 (v e) p).sum := by
  rw [electricalAt_eq s typ [] (by simp) p fun e he _ => ha e he, sysTens_eq]
  congr 1
  refine List.map_congr_left fun e he => ?_
  rw [compAt_eq e 0 0 (v e) p (ha e he) (by norm_num)]
  have : e.voltD typ = v e := by rcases hv with ⟨rfl, rfl⟩ | ⟨rfl, rfl⟩ <;> rfl
  rw [this]
  rfl

/-- C123: the electrical potential of a system of polygon electrodes without cover solves the
problem in which every point of the plane has the voltages of the electrodes that cover it, for the
dc and for the rf voltages. -/
theorem c123_system (s : List Elec) (typ : VTyp) (hs : ∀ e ∈ s, Uncovered e) (v : Elec → ℝ)
    (hv : (typ = .dc ∧ v = Elec.dc) ∨ (typ = .rf ∧ v = Elec.rf)) :
    SolvesAbove (edgesOf (s.flatMap paths)) (planeVoltage s v) (electricalAt s typ []) := by
  have e : electricalAt s typ [] = fun p => (s.map fun e => compAt e 0 0 (v e) p).sum :=
    funext fun p => electricalAt_order0 s typ (fun e he => by
      obtain ⟨polys, h, h1⟩ := hs e he
      rw [h1]; trivial) v hv p
  rw [e]
  clear e hv
  induction s with
  | nil =>
    exact ⟨⟨continuousOn_const, fun _ _ => 0, fun a => ⟨fun _ => 0, fun p _ => hasDerivAt_const _ _, fun _ => 0,
      fun p _ => hasDerivAt_const _ _, fun _ _ => rfl⟩, fun p _ => by norm_num⟩, ⟨⟨0, fun _ _ => by simp⟩, tendsto_const_nhds⟩,
      fun q _ => tendsto_const_nhds⟩
  | cons a l ih =>
    have h1 := ih fun e he => hs e (by simp [he])
    obtain ⟨polys, h, ha⟩ := hs a (by simp)
    have h2 := c123_solution a.name a.dc a.rf polys h (v a)
    have h3 := solves_add h2 h1
    have e1 : edgesOf ((a :: l).flatMap paths) = edgesOf polys ++ edgesOf (l.flatMap paths) := by
      simp [edgesOf, paths, ha]
    have e2 : (⟨a.name, a.dc, a.rf, .polygons polys h 0⟩ : Elec) = a := by
      cases a; simp only at ha; rw [ha]
    have e3 : paths a = polys := by simp [paths, ha]
    rw [e1]
    rw [e2] at h3
    have e4 : planeVoltage (a :: l) v = fun q => v a * (covered polys q : ℝ) + planeVoltage l v q := by
      funext q
      simp [planeVoltage, e3]
    rw [e4]
    simp only [List.map_cons, List.sum_cons]
    exact h3

/-- C123: whatever solves the problem of a system is the electrical potential it reports. -/
theorem c123_system_only (s : List Elec) (typ : VTyp) (hs : ∀ e ∈ s, Uncovered e) (v : Elec → ℝ)
    (hv : (typ = .dc ∧ v = Elec.dc) ∨ (typ = .rf ∧ v = Elec.rf)) {f : V3 → ℝ}
    (hf : SolvesAbove (edgesOf (s.flatMap paths)) (planeVoltage s v) f) (p : V3) (hp : 0 < p.z) : electricalAt s typ [] p = f p :=
  c123_unique (c123_system s typ hs v hv) hf p hp

/-- A square at one volt, and a potential that is neither zero nor one above it. -/
example : SolvesAbove (edgesOf [unitSquare]) (fun q => 1 * covered [unitSquare] q) (compAt ⟨"a", 1, 0, .polygons [unitSquare] 50 0⟩ 0 0 1) :=
  c123_solution "a" 1 0 [unitSquare] 50 1

/-- two squares side by side with opposite voltages -/
def twoSquares : List Elec :=
  [⟨"a", 1, 0, .polygons [unitSquare] 50 0⟩, ⟨"b", -1, 0, .polygons [[⟨1, 0⟩, ⟨2, 0⟩, ⟨2, 1⟩, ⟨1, 1⟩]] 50 0⟩]

example : SolvesAbove (edgesOf (twoSquares.flatMap paths)) (planeVoltage twoSquares Elec.dc) (electricalAt twoSquares .dc []) :=
  c123_system twoSquares .dc (fun e he => by
    simp only [twoSquares, List.mem_cons, List.not_mem_nil, or_false] at he
    rcases he with rfl | rfl <;> exact ⟨_, _, rfl⟩) Elec.dc (Or.inl ⟨rfl, rfl⟩)

/-! ### With a cover -/

theorem slab_off {h : ℝ} (n : Nat) : ∀ t ∈ slab h, offPlanes h n (at3 t) := fun t ht =>
  Cover.below (p := at3 t) ht.1 ht.2 n

/-- C124: two solutions of the same problem with a grounded cover agree between the planes. -/
theorem c124_unique {h : ℝ} {E : List (V2 × V2)} {V : ℝ × ℝ → ℝ} {f g : V3 → ℝ} (hf : SolvesBetween h E V f) (hg : SolvesBetween h E V g)
    (p : V3) (hz : 0 < p.z) (hzh : p.z < h) : f p = g p := by
  have key := fun (f g : V3 → ℝ) (hf : SolvesBetween h E V f) (hg : SolvesBetween h E V g) =>
    compare_le (slab_open h) (fun t ht => ht.1) E hf.harmonic hg.harmonic hf.decays hg.decays le_rfl (fun t ht htU => by
      rcases slab_edge ht htU with hz | hz
      · by_cases hE : ∀ e ∈ E, ¬ onSegment (t.1, t.2.1) e.1 e.2
        · right
          have h1 := hf.plane (t.1, t.2.1) hE
          have h2 := hg.plane (t.1, t.2.1) hE
          rw [show ((t.1, t.2.1).1, (t.1, t.2.1).2, (0 : ℝ)) = t from by rw [← hz]] at h1 h2
          exact ⟨_, _, h1, h2, (sub_self _).le⟩
        · left
          push Not at hE
          obtain ⟨e, he, h1⟩ := hE
          exact ⟨e, he, hz, h1⟩
      · right
        have h1 := hf.cover (t.1, t.2.1)
        have h2 := hg.cover (t.1, t.2.1)
        rw [show ((t.1, t.2.1).1, (t.1, t.2.1).2, h) = t from by rw [← hz]] at h1 h2
        exact ⟨_, _, h1, h2, (sub_self _).le⟩) (p.x, p.y, p.z) ⟨hz, hzh⟩
  exact le_antisymm (sub_nonpos.mp (key f g hf hg)) (sub_nonpos.mp (key g f hg hf))

/-- C124: with `n` images the potential of a polygon electrode differs from the true potential
below a grounded cover at most by `|v| * area / (2 π ((2 n + 1) h)²)`, everywhere between the
planes. -/
theorem c124_error (name : String) (dc rf : ℝ) (polys : List (List V2)) (h v : ℝ) (n : Nat) {f : V3 → ℝ}
    (hf : SolvesBetween h (edgesOf polys) (fun q => v * covered polys q) f) (p : V3) (hz : 0 < p.z) (hzh : p.z < h) :
    |compAt ⟨name, dc, rf, .polygons polys h n⟩ 0 0 v p - f p|
      ≤ |v| * (∫ q : ℝ × ℝ, |(covered polys q : ℝ)|) / (2 * π * ((2 * n + 1) * h) ^ 2) := by
  have hh : 0 < h := hz.trans hzh
  have hpi := pi_pos
  set δ := |v| * (∫ q : ℝ × ℝ, |(covered polys q : ℝ)|) / (2 * π * ((2 * n + 1) * h) ^ 2) with hδ
  have hδ0 : 0 ≤ δ := by
    have : 0 ≤ ∫ q : ℝ × ℝ, |(covered polys q : ℝ)| := MeasureTheory.integral_nonneg fun q => abs_nonneg _
    rw [hδ]; positivity
  set φ := compAt ⟨name, dc, rf, .polygons polys h n⟩ 0 0 v with hφ
  have a1 : ObeysLaplace (slab h) φ := comp_harmonic name dc rf polys h n v (slab_off n)
  have a2 : Decays (slab h) φ := comp_decays name dc rf polys h n v (slab_off n)
  have hsub : slab h ⊆ above := fun t ht => ht.1
  have bd : ∀ t ∈ closure (slab h), t ∉ slab h → (∃ e ∈ edgesOf polys, t.2.2 = 0 ∧ onSegment (t.1, t.2.1) e.1 e.2) ∨
      ∃ c d, BoundaryValue (slab h) φ t c ∧ BoundaryValue (slab h) f t d ∧ |c - d| ≤ δ := by
    intro t ht htU
    rcases slab_edge ht htU with hz | hz
    · by_cases hE : ∀ e ∈ edgesOf polys, ¬ onSegment (t.1, t.2.1) e.1 e.2
      · right
        have h1 := comp_plane name dc rf polys h n v hsub (Or.inl hh.ne') (off_of_edges hE)
        have h2 := hf.plane (t.1, t.2.1) hE
        rw [show ((t.1, t.2.1).1, (t.1, t.2.1).2, (0 : ℝ)) = t from by rw [← hz]] at h1 h2
        exact ⟨_, _, h1, h2, by rw [sub_self, abs_zero]; exact hδ0⟩
      · left
        push Not at hE
        obtain ⟨e, he, h1⟩ := hE
        exact ⟨e, he, hz, h1⟩
    · right
      have h1 := comp_cover_value (U := slab h) name dc rf polys h n v hh (t.1, t.2.1)
      have h2 := hf.cover (t.1, t.2.1)
      rw [show ((t.1, t.2.1).1, (t.1, t.2.1).2, h) = t from by rw [← hz]] at h1 h2
      refine ⟨_, _, h1, h2, ?_⟩
      have h3 : ((2 * (n : ℝ) + 1) * h) ≠ 0 := by positivity
      rw [sub_zero, abs_mul, hδ, mul_div_assoc]
      exact mul_le_mul_of_nonneg_left (polysField_small polys h3 _ _) (abs_nonneg v)
  rw [abs_le]
  constructor
  · have := compare_le (slab_open h) (fun t ht => ht.1) (edgesOf polys) hf.harmonic a1 hf.decays a2 hδ0
      (fun t ht htU => (bd t ht htU).imp_right fun ⟨c, d, h1, h2, h3⟩ => ⟨d, c, h2, h1, by linarith [(abs_le.mp h3).1]⟩)
      (p.x, p.y, p.z) ⟨hz, hzh⟩
    have h2 : f p - φ p ≤ δ := this
    linarith
  · exact compare_le (slab_open h) (fun t ht => ht.1) (edgesOf polys) a1 hf.harmonic a2 hf.decays hδ0
      (fun t ht htU => (bd t ht htU).imp_right fun ⟨c, d, h1, h2, h3⟩ => ⟨c, d, h1, h2, (abs_le.mp h3).2⟩)
      (p.x, p.y, p.z) ⟨hz, hzh⟩

/-- C124: there is a solution of the problem of a polygon electrode below a grounded cover, and with
more and more images the potential the electrode reports tends to it. -/
theorem c124_solution (name : String) (dc rf : ℝ) (polys : List (List V2)) (h v : ℝ) (hh : 0 < h) :
    ∃ Φ : V3 → ℝ, SolvesBetween h (edgesOf polys) (fun q => v * covered polys q) Φ ∧
      ∀ p : V3, 0 < p.z → p.z < h → Tendsto (fun n => compAt ⟨name, dc, rf, .polygons polys h n⟩ 0 0 v p) atTop (𝓝 (Φ p)) := by
  set A := ∫ q : ℝ × ℝ, |(covered polys q : ℝ)| with hA
  have hA0 : 0 ≤ A := area_nonneg polys
  have d1 : ∀ (a : Fin 3) (p : V3), p.z ≠ 0 → |D1 polys a p| ≤ A / |p.z| ^ 3 := fun a p hp => (D1_le polys a hp).trans_eq (by ring)
  have d2 : ∀ (a : Fin 3) (p : V3), p.z ≠ 0 → |D2 polys a p| ≤ A * 6 / |p.z| ^ 4 := fun a p hp => (D2_le polys a hp).trans_eq (by ring)
  have hsub : slab h ⊆ above := fun t ht => ht.1
  have hS : SolvesBetween h (edgesOf polys) (fun q => v * covered polys q) fun p => v * series h (polysField polys) p := by
    refine ⟨⟨?_, fun a p => v * series h (D2 polys a) p, fun a => ?_, fun p hp => ?_⟩, ⟨?_, ?_⟩, fun q hq => ?_, fun q => ?_⟩
    · intro t ht
      have h1 := series_tendsto polys hh ((slab_open h).mem_nhds ht) (polysField_cont polys (t := t) ht.1.ne').tendsto
        fun k => pair_cont polys hh k ht.1.le ht.2.le
      exact (ContinuousAt.const_mul (f := fun t => series h (polysField polys) (at3 t)) h1 v).continuousWithinAt
    · refine ⟨fun p => v * series h (D1 polys a) p, fun p hp => ?_, fun p => v * series h (D2 polys a) p, fun p hp => ?_, fun p _ => rfl⟩
      · exact HasDerivAt.const_mul v (series_partial (fun p hp => field1 polys a hp) hA0 hA0 le_rfl (by norm_num)
          (fun p hp => field_le polys hp) (d1 a) hp.1 hp.2)
      · exact HasDerivAt.const_mul v (series_partial (fun p hp => field2 polys a hp) hA0 (by positivity) (by norm_num) (by norm_num)
          (d1 a) (d2 a) hp.1 hp.2)
    · have := series_lap polys hp.1 hp.2
      linear_combination v * this
    · obtain ⟨M, hM⟩ := polysField_bound polys
      refine ⟨|v| * (M + ∑' k : ℕ, 2 * A / h ^ 2 * (1 / ((k + 1 : ℕ) : ℝ) ^ 2)), fun t ht => ?_⟩
      rw [abs_mul]
      refine mul_le_mul_of_nonneg_left ((abs_add_le _ _).trans (add_le_add (hM _ ht.1.ne') ?_)) (abs_nonneg v)
      exact tsum_of_norm_bounded (f := fun k => pair h (polysField polys) k (at3 t)) (pair_summable A h le_rfl).hasSum fun k =>
        pair_le hh hA0 (fun p hp => field_le polys hp) k ht.1.le ht.2.le
    · have hm : (cocompact (ℝ × ℝ × ℝ) ⊓ 𝓟 (slab h)) ≤ cocompact (ℝ × ℝ × ℝ) ⊓ 𝓟 {t | t.2.2 ≠ 0} :=
        inf_le_inf_left _ (principal_mono.mpr fun t ht => ht.1.ne')
      have h1 := series_tendsto polys hh (F := cocompact (ℝ × ℝ × ℝ) ⊓ 𝓟 (slab h))
        (eventually_inf_principal.mpr (Eventually.of_forall fun t ht => ht)) ((polysField_far polys).mono_left hm)
        fun k => pair_far polys hh k
      simpa using h1.const_mul v
    · have h1 := series_tendsto polys hh (F := 𝓝[slab h] (q.1, q.2, 0)) self_mem_nhdsWithin
        ((polysField_plane polys (off_of_edges hq)).mono_left (nhdsWithin_mono _ hsub))
        fun k => (pair_cont polys hh k (t := (q.1, q.2, 0)) le_rfl hh.le).mono_left nhdsWithin_le_nhds
      have e : ∀ k, pair h (polysField polys) k (at3 (q.1, q.2, 0)) = 0 := fun k => pair_plane polys h k q.1 q.2
      simp only [e, tsum_zero, add_zero] at h1
      exact h1.const_mul v
    · have h1 := series_tendsto polys hh (F := 𝓝[slab h] (q.1, q.2, h)) self_mem_nhdsWithin
        ((polysField_cont polys (t := (q.1, q.2, h)) hh.ne').tendsto.mono_left nhdsWithin_le_nhds)
        fun k => (pair_cont polys hh k (t := (q.1, q.2, h)) hh.le le_rfl).mono_left nhdsWithin_le_nhds
      rw [show polysField polys (at3 (q.1, q.2, h)) + ∑' k, pair h (polysField polys) k (at3 (q.1, q.2, h)) = 0 from
        cover_series polys hh q.1 q.2] at h1
      simpa [BoundaryValue] using h1.const_mul v
  refine ⟨_, hS, fun p hz hzh => ?_⟩
  simp only [comp_eq, images_pairs]
  have hs : Summable fun k => pair h (polysField polys) k p :=
    Summable.of_norm_bounded (pair_summable A h le_rfl) fun k => pair_le hh hA0 (fun p hp => field_le polys hp) k hz.le hzh.le
  exact (hs.hasSum.tendsto_sum_nat.const_add (polysField polys p)).const_mul v

/-! ### Systems below a cover -/

namespace Spec
/-- The electrode is a polygon electrode below a cover at height `h`, with some number of images. -/
def Covered (h : ℝ) (e : Elec) : Prop := ∃ polys n, e.shape = .polygons polys h n

/-- How many images the electrode uses. -/
def imagesOf (e : Elec) : Nat :=
  match e.shape with
  | .polygons _ _ n => n
  | _ => 0
end Spec

theorem solves_between_add {h : ℝ} {E E' : List (V2 × V2)} {V V' : ℝ × ℝ → ℝ} {f f' : V3 → ℝ} (a : SolvesBetween h E V f)
    (b : SolvesBetween h E' V' f') : SolvesBetween h (E ++ E') (fun q => V q + V' q) (fun p => f p + f' p) where
  harmonic := by simpa using harmonic_lin a.harmonic b.harmonic 1 1 0
  decays := by
    obtain ⟨⟨M, hM⟩, h1⟩ := a.decays
    obtain ⟨⟨N, hN⟩, h2⟩ := b.decays
    refine ⟨⟨M + N, fun t ht => (abs_add_le _ _).trans (add_le_add (hM t ht) (hN t ht))⟩, ?_⟩
    simpa using h1.add h2
  plane q hq := (a.plane q fun e he => hq e (by simp [he])).add (b.plane q fun e he => hq e (by simp [he]))
  cover q := by simpa [BoundaryValue] using (a.cover q).add (b.cover q)

theorem covered_system (s : List Elec) (h : ℝ) (hh : 0 < h) (hs : ∀ e ∈ s, Covered h e) (v : Elec → ℝ) :
    ∃ Φ : V3 → ℝ, SolvesBetween h (edgesOf (s.flatMap paths)) (planeVoltage s v) Φ ∧
      ∀ p : V3, 0 < p.z → p.z < h → |(s.map fun e => compAt e 0 0 (v e) p).sum - Φ p|
        ≤ (s.map fun e => |v e| * (∫ q : ℝ × ℝ, |(covered (paths e) q : ℝ)|) / (2 * π * ((2 * imagesOf e + 1) * h) ^ 2)).sum := by
  induction s with
  | nil =>
    refine ⟨fun _ => 0, ⟨⟨continuousOn_const, fun _ _ => 0, fun a => ⟨fun _ => 0, fun p _ => hasDerivAt_const _ _, fun _ => 0,
      fun p _ => hasDerivAt_const _ _, fun _ _ => rfl⟩, fun p _ => by norm_num⟩, ⟨⟨0, fun _ _ => by simp⟩, tendsto_const_nhds⟩,
      fun q _ => tendsto_const_nhds, fun q => tendsto_const_nhds⟩, fun p _ _ => by simp⟩
  | cons a l ih =>
    obtain ⟨Φ, h1, h2⟩ := ih fun e he => hs e (by simp [he])
    obtain ⟨polys, n, ha⟩ := hs a (by simp)
    obtain ⟨Ψ, h3, -⟩ := c124_solution a.name a.dc a.rf polys h (v a) hh
    have e2 : (⟨a.name, a.dc, a.rf, .polygons polys h n⟩ : Elec) = a := by
      cases a; simp only at ha; rw [ha]
    have e3 : paths a = polys := by simp [paths, ha]
    have e5 : imagesOf a = n := by simp [imagesOf, ha]
    have e1 : edgesOf ((a :: l).flatMap paths) = edgesOf polys ++ edgesOf (l.flatMap paths) := by
      simp [edgesOf, paths, ha]
    have e4 : planeVoltage (a :: l) v = fun q => v a * (covered polys q : ℝ) + planeVoltage l v q := by
      funext q
      simp [planeVoltage, e3]
    refine ⟨fun p => Ψ p + Φ p, by rw [e1, e4]; exact solves_between_add h3 h1, fun p hz hzh => ?_⟩
    have h4 := c124_error a.name a.dc a.rf polys h (v a) n h3 p hz hzh
    have h5 := h2 p hz hzh
    rw [e2] at h4
    simp only [List.map_cons, List.sum_cons, e3, e5]
    rw [add_sub_add_comm]
    exact (abs_add_le _ _).trans (add_le_add h4 h5)

/-- C124: the electrical potential of a system of polygon electrodes below a common cover differs
from the true potential at most by the sum of the errors of the electrodes, each of which falls with
the square of its number of images. -/
theorem c124_system (s : List Elec) (typ : VTyp) (h : ℝ) (hs : ∀ e ∈ s, Covered h e) (v : Elec → ℝ)
    (hv : (typ = .dc ∧ v = Elec.dc) ∨ (typ = .rf ∧ v = Elec.rf)) {f : V3 → ℝ}
    (hf : SolvesBetween h (edgesOf (s.flatMap paths)) (planeVoltage s v) f) (p : V3) (hz : 0 < p.z) (hzh : p.z < h) :
    |electricalAt s typ [] p - f p|
      ≤ (s.map fun e => |v e| * (∫ q : ℝ × ℝ, |(covered (paths e) q : ℝ)|) / (2 * π * ((2 * imagesOf e + 1) * h) ^ 2)).sum := by
  obtain ⟨Φ, h1, h2⟩ := covered_system s h (hz.trans hzh) hs v
  have ha : ∀ e ∈ s, e.shape.Avail 0 := fun e he => by
    obtain ⟨polys, n, h1⟩ := hs e he
    rw [h1]; trivial
  rw [electricalAt_order0 s typ ha v hv, c124_unique hf h1 p hz hzh]
  exact h2 p hz hzh

/-- The problem of a square below a cover has a solution, and it is not trivial: it is one on the square
and zero beside it. -/
example : ∃ Φ : V3 → ℝ, SolvesBetween 5 (edgesOf [unitSquare]) (fun q => 1 * covered [unitSquare] q) Φ ∧
    (∀ p : V3, 0 < p.z → p.z < 5 → |compAt ⟨"a", 1, 0, .polygons [unitSquare] 5 3⟩ 0 0 1 p - Φ p|
      ≤ |1| * (∫ q : ℝ × ℝ, |(covered [unitSquare] q : ℝ)|) / (2 * π * ((2 * (3 : ℕ) + 1) * 5) ^ 2)) := by
  obtain ⟨Φ, h1, -⟩ := c124_solution "a" 1 0 [unitSquare] 5 1 (by norm_num)
  exact ⟨Φ, h1, fun p hz hzh => c124_error "a" 1 0 [unitSquare] 5 1 3 h1 p hz hzh⟩

end Electrode
