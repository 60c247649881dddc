import Verif.Spec.Tolerance
import Verif.Lemmas.Corners
import Verif.Props.Gds
import Verif.Props.Pseudo

/-
C127: small errors of the corners of electrodes cause small errors of their potentials.
-/
namespace Electrode
open Spec Real MeasureTheory ShapeErr

/-- **C127.** Every component of every derivative of a polygon electrode is the integral, over the plane, of that of surface
elements, each counted as often as the electrode covers it; with a cover, for all images. -/
theorem c127_integral (name : String) (dc rf : ℝ) (polys : List (List V2)) (h : ℝ) (n : Nat) (d : Nat) (hd : d ≤ 5) (i : Nat)
    (hi : i < 2 * d + 1) (v : ℝ) (p : V3) (hp : offPlanes h n p) :
    compAt ⟨name, dc, rf, .polygons polys h n⟩ d i v p = v * ∑ m ∈ Finset.Icc (-(n : ℤ)) n, ∫ q : ℝ × ℝ,
      (covered polys q : ℝ) * compAt ⟨name, dc, rf, .points [⟨q.1, q.2⟩] [1] h 0⟩ d i 1 ⟨p.x, p.y, p.z + 2 * m * h⟩ := by
  have e : ∀ (q : ℝ × ℝ) (p : V3), compAt ⟨name, dc, rf, .points [⟨q.1, q.2⟩] [1] h 0⟩ d i 1 p = pixelComp d i ⟨q.1, q.2⟩ p := by
    intro q p
    rw [compAt_eq ⟨name, dc, rf, .points [⟨q.1, q.2⟩] [1] h 0⟩ d i 1 p trivial hi]
    simp [Shape.contrib, pointContrib, images, coverRange, V3.lift]
  rw [compAt_polygons _ _ _ _ _ _ _ _ _ hi, polyContrib_swap, coverRange_Icc]
  congr 1
  refine Finset.sum_congr rfl fun m hm => ?_
  simp only [e]
  rw [Finset.mem_Icc] at hm
  exact comp_integral polys d hd i hi (p := p.lift (2 * m * h)) (hp m hm.1 hm.2)

theorem contrib_diff (polys polys' : List (List V2)) (h : ℝ) (n : Nat) (d : Nat) (hd : d ≤ 5) (i : Nat) (hi : i < 2 * d + 1) (p : V3)
    (hp : offPlanes h n p) : |polyContrib d n h polys' p i - polyContrib d n h polys p i|
      ≤ (∫ q : ℝ × ℝ, |(covered polys' q : ℝ) - covered polys q|) * imagesSize d n h p.z := by
  rw [polyContrib_swap, coverRange_Icc, polyContrib_swap, coverRange_Icc, ← Finset.sum_sub_distrib, imagesSize, Finset.mul_sum]
  refine (Finset.abs_sum_le_sum_abs _ _).trans (Finset.sum_le_sum fun m hm => ?_)
  rw [Finset.mem_Icc] at hm
  exact comp_diff polys polys' d hd i hi (p := p.lift (2 * m * h)) (hp m hm.1 hm.2)

/-- **C127.** Two polygon electrodes at the same voltage differ in no component of any derivative by more than the voltage times the
area in which they differ times the size of the derivatives of a surface element. -/
theorem c127_regions (name : String) (dc rf : ℝ) (polys polys' : List (List V2)) (h : ℝ) (n : Nat) (d : Nat) (hd : d ≤ 5) (i : Nat)
    (hi : i < 2 * d + 1) (v : ℝ) (p : V3) (hp : offPlanes h n p) :
    |compAt ⟨name, dc, rf, .polygons polys' h n⟩ d i v p - compAt ⟨name, dc, rf, .polygons polys h n⟩ d i v p|
      ≤ |v| * (∫ q : ℝ × ℝ, |(covered polys' q : ℝ) - covered polys q|) * imagesSize d n h p.z := by
  rw [compAt_polygons _ _ _ _ _ _ _ _ _ hi, compAt_polygons _ _ _ _ _ _ _ _ _ hi, ← mul_sub, abs_mul, mul_assoc]
  exact mul_le_mul_of_nonneg_left (contrib_diff polys polys' h n d hd i hi p hp) (abs_nonneg _)

theorem perimeter_cyc (path : List V2) : perimeter path = cycSum gap path := sum_zipWith_roll gap path

theorem covered_near (δ : ℝ) (polys polys' : List (List V2)) (h : List.Forall₂ (nearPath δ) polys polys') :
    ∫ q : ℝ × ℝ, |(covered polys' q : ℝ) - covered polys q| ≤ δ / 2 * ((polys.map perimeter).sum + (polys'.map perimeter).sum) := by
  have := covered_corners δ polys polys' h
  simpa only [funext perimeter_cyc] using this

theorem imagesSize_nonneg (d n : Nat) (h z : ℝ) : 0 ≤ imagesSize d n h z :=
  Finset.sum_nonneg fun m _ => div_nonneg (wgt_nonneg d) (by positivity)

/-- **C127.** If no corner of an electrode is off by more than `δ`, no component of its potential and its derivatives is off by more
than the voltage times `δ` times the mean length of the boundaries times the size of the derivatives of a surface element. -/
theorem c127_corners (name : String) (dc rf : ℝ) (polys polys' : List (List V2)) (δ : ℝ) (hδ : List.Forall₂ (nearPath δ) polys polys')
    (h : ℝ) (n : Nat) (d : Nat) (hd : d ≤ 5) (i : Nat) (hi : i < 2 * d + 1) (v : ℝ) (p : V3) (hp : offPlanes h n p) :
    |compAt ⟨name, dc, rf, .polygons polys' h n⟩ d i v p - compAt ⟨name, dc, rf, .polygons polys h n⟩ d i v p|
      ≤ |v| * (δ / 2 * ((polys.map perimeter).sum + (polys'.map perimeter).sum)) * imagesSize d n h p.z := by
  refine (c127_regions name dc rf polys polys' h n d hd i hi v p hp).trans ?_
  have := covered_near δ polys polys' hδ
  have := imagesSize_nonneg d n h p.z
  gcongr

theorem tens_sub_le {F G : Nat → Nat → V3 → ℝ} {k : Nat} {p : V3} {B : ℝ} (hB : 0 ≤ B)
    (h : ∀ i < 2 * k + 1, |F k i p - G k i p| ≤ B) (l : Idx) : |tens F k l p - tens G k l p| ≤ 2 * B := by
  have h' : ∀ i, |((List.range (2 * k + 1)).map fun i => F k i p).getD i 0 - ((List.range (2 * k + 1)).map fun i => G k i p).getD i 0| ≤ B :=
    fun i => by
      rw [getD_range_map, getD_range_map]
      split
      · next hi => exact h i hi
      · simpa using hB
  unfold tens
  cases entrySel k l with
  | one i => simp only [selVal]; linarith [h' i]
  | lap i j =>
    simp only [selVal]
    have a := abs_le.1 (h' i)
    have b := abs_le.1 (h' j)
    rw [abs_le]
    constructor <;> linarith [a.1, a.2, b.1, b.2]

theorem near_entry {δ : ℝ} {e e' : Elec} (h : nearElec δ e e') {p : V3} (hp : offElectrode e p) {d : Nat} (hd : d ≤ 5) (l : Idx) :
    |tens (fun k i p => e'.shape.contrib k p i) d l p - tens (fun k i p => e.shape.contrib k p i) d l p|
      ≤ δ * (sides d p.z e.shape + sides d p.z e'.shape) := by
  obtain ⟨n, dc, rf, sh⟩ := e
  obtain ⟨n', dc', rf', sh'⟩ := e'
  obtain ⟨-, -, h⟩ := h
  simp only at h hp ⊢
  unfold offElectrode at hp
  cases sh with
  | polygons a h0 m =>
    cases sh' with
    | polygons b h1 m' =>
      obtain ⟨rfl, rfl, h⟩ := h
      have hr := covered_near δ a b h
      have hB := imagesSize_nonneg d m h0 p.z
      refine (tens_sub_le (B := (∫ q : ℝ × ℝ, |(covered b q : ℝ) - covered a q|) * imagesSize d m h0 p.z)
        (mul_nonneg (integral_nonneg fun _ => abs_nonneg _) hB) (fun i hi => contrib_diff a b h0 m d hd i hi p hp) l).trans ?_
      simp only [sides]
      nlinarith [mul_le_mul_of_nonneg_right hr hB]
    | _ => cases h
  | cover h0 => obtain rfl : Shape.cover h0 = sh' := by cases sh' <;> exact h
                simp [sides]
  | points a b c d => obtain rfl : Shape.points a b c d = sh' := by cases sh' <;> exact h
                      simp [sides]
  | _ => exact hp.elim

theorem near_off {δ : ℝ} {s s' : List Elec} (hs : List.Forall₂ (nearElec δ) s s') {p : V3} (hp : offSystem s p) : offSystem s' p := by
  induction hs with
  | nil => exact hp
  | @cons e e' s s' h _ ih =>
    intro x hx
    rcases List.mem_cons.1 hx with rfl | hx
    · have := hp e (by simp)
      obtain ⟨n, dc, rf, sh⟩ := e
      obtain ⟨n', dc', rf', sh'⟩ := x
      obtain ⟨-, -, h⟩ := h
      unfold offElectrode at this ⊢
      simp only at h this ⊢
      cases sh <;> cases sh' <;> simp_all
    · exact ih (fun y hy => hp y (by simp [hy])) x hx

/-- **C127.** The same for whole systems: for every entry of the tensors that the system returns. -/
theorem c127_system (s s' : List Elec) (δ : ℝ) (hs : List.Forall₂ (nearElec δ) s s') (typ : VTyp) (l : Idx) (hl : l.length ≤ 5) (p : V3)
    (hp : offSystem s p) :
    |electricalAt s' typ l p - electricalAt s typ l p| ≤ δ * (List.zipWith (fun e e' => |(e.volt typ).getD 0| *
      (sides l.length p.z e.shape + sides l.length p.z e'.shape)) s s').sum := by
  rw [electricalAt_eq s typ l (by omega) p (avail_of_off hp _ _), electricalAt_eq s' typ l (by omega) p (avail_of_off (near_off hs hp) _ _),
    sysTens_eq, sysTens_eq]
  induction hs with
  | nil => simp
  | @cons e e' s s' h _ ih =>
    have i1 := ih fun y hy => hp y (by simp [hy])
    have i2 := near_entry h (hp e (by simp)) hl l
    have hv : e'.voltD typ = e.voltD typ := by
      unfold Elec.voltD Elec.volt
      cases typ <;> simp [h.1, h.2.1]
    simp only [List.map_cons, List.sum_cons, List.zipWith_cons_cons, hv]
    have hv' : |(e.volt typ).getD 0| = |e.voltD typ| := rfl
    rw [hv']
    set A := tens (fun k i p => e'.shape.contrib k p i) l.length l p
    set B := tens (fun k i p => e.shape.contrib k p i) l.length l p
    set A' := (s'.map fun e => e.voltD typ * tens (fun k i p => e.shape.contrib k p i) l.length l p).sum
    set B' := (s.map fun e => e.voltD typ * tens (fun k i p => e.shape.contrib k p i) l.length l p).sum
    have e1 : e.voltD typ * A + A' - (e.voltD typ * B + B') = e.voltD typ * (A - B) + (A' - B') := by ring
    rw [e1]
    refine (abs_add_le _ _).trans ?_
    rw [abs_mul, mul_add]
    refine add_le_add ?_ i1
    rw [mul_left_comm]
    exact mul_le_mul_of_nonneg_left i2 (abs_nonneg _)

/-- **C127.** The pseudopotential: if no component of the rf field is off by more than `η`, the pseudopotential is off by no more than
this. With `c127_system` this bounds it for systems whose corners are off. -/
theorem c127_pseudo (s s' : List Elec) (c : ℝ) (p : V3) (hp : offSystem s p) (hp' : offSystem s' p) (η : ℝ)
    (hη : ∀ a, |electricalAt s' .rf [a] p - electricalAt s .rf [a] p| ≤ η) :
    |pseudoAt ⟨s', some c⟩ [] p - pseudoAt ⟨s, some c⟩ [] p| ≤ c ^ 2 * η * (2 * ∑ a, |electricalAt s .rf [a] p| + 3 * η) := by
  have e : ∀ s : List Elec, offSystem s p → pseudoAt ⟨s, some c⟩ [] p = ∑ a, (c * electricalAt s .rf [a] p) ^ 2 := by
    intro s hp
    rw [pseudoAt_eq s c [] (by simp) p fun i _ _ => avail_of_off hp _ _]
    have := fun a : Fin 3 => electricalAt_eq s .rf [a] (by simp) p (avail_of_off hp _ _)
    simp only [this]
    simp [psT, Fin.sum_univ_three]
    try ring
  rw [e s hp, e s' hp', ← Finset.sum_sub_distrib]
  have h0 : 0 ≤ η := (abs_nonneg _).trans (hη 0)
  have key : ∀ a, |(c * electricalAt s' .rf [a] p) ^ 2 - (c * electricalAt s .rf [a] p) ^ 2|
      ≤ c ^ 2 * η * (2 * |electricalAt s .rf [a] p| + η) := by
    intro a
    set E := electricalAt s .rf [a] p
    set E' := electricalAt s' .rf [a] p
    have e1 : (c * E') ^ 2 - (c * E) ^ 2 = c ^ 2 * (E' - E) * (2 * E + (E' - E)) := by ring
    rw [e1, abs_mul, abs_mul, abs_of_nonneg (sq_nonneg c)]
    have h2 : |2 * E + (E' - E)| ≤ 2 * |E| + η := (abs_add_le _ _).trans (by
      rw [abs_mul, abs_two]; exact add_le_add_right (hη a) _)
    have := hη a
    gcongr
  refine (Finset.abs_sum_le_sum_abs _ _).trans ((Finset.sum_le_sum fun a _ => key a).trans (le_of_eq ?_))
  simp only [Fin.sum_univ_three]
  ring

/-- **C127.** Errors of the areas of the pixels of point electrodes. -/
theorem c127_areas (name : String) (dc rf : ℝ) (ps : List V2) (as as' : List ℝ) (hl : as.length = as'.length) (h : ℝ) (n : Nat) (d : Nat)
    (hd : d ≤ 5) (i : Nat) (hi : i < 2 * d + 1) (v : ℝ) (p : V3) (hp : offPlanes h n p) :
    |compAt ⟨name, dc, rf, .points ps as' h n⟩ d i v p - compAt ⟨name, dc, rf, .points ps as h n⟩ d i v p|
      ≤ |v| * (List.zipWith (fun a a' => |a' - a|) as as').sum * imagesSize d n h p.z := by
  rw [compAt_eq ⟨name, dc, rf, .points ps as' h n⟩ d i v p trivial hi, compAt_eq ⟨name, dc, rf, .points ps as h n⟩ d i v p trivial hi,
    ← mul_sub, abs_mul, mul_assoc]
  refine mul_le_mul_of_nonneg_left ?_ (abs_nonneg _)
  simp only [Shape.contrib, pointContrib]
  have hS := imagesSize_nonneg d n h p.z
  have hpix : ∀ q : V2, |((images n h p).map fun p' => pixelComp d i q p').sum| ≤ imagesSize d n h p.z := by
    intro q
    unfold images
    rw [List.map_map]
    change |((coverRange n).map fun k : ℤ => pixelComp d i q (p.lift (2 * (k : ℝ) * h))).sum| ≤ _
    rw [coverRange_Icc]
    refine (Finset.abs_sum_le_sum_abs _ _).trans (Finset.sum_le_sum fun m hm => ?_)
    rw [Finset.mem_Icc] at hm
    exact pixelComp_le d hd i q (p := p.lift (2 * m * h)) (hp m hm.1 hm.2)
  induction ps generalizing as as' with
  | nil =>
    simp only [List.zip_nil_left, List.map_nil, List.sum_nil, sub_zero, abs_zero]
    refine mul_nonneg (List.sum_nonneg fun x hx => ?_) hS
    obtain ⟨k, hk, rfl⟩ := List.mem_iff_getElem.1 hx
    rw [List.getElem_zipWith]
    exact abs_nonneg _
  | cons q ps ih =>
    cases as with
    | nil => cases as' with
      | nil => simp
      | cons => simp at hl
    | cons a as => cases as' with
      | nil => simp at hl
      | cons a' as' =>
        have i1 := ih as as' (by simpa using hl)
        simp only [List.zip_cons_cons, List.map_cons, List.sum_cons, List.zipWith_cons_cons, List.sum_map_mul_left]
        simp only [List.sum_map_mul_left] at i1
        set X := ((images n h p).map fun p' => pixelComp d i q p').sum with hX
        rw [add_sub_add_comm, ← sub_mul, add_mul]
        refine (abs_add_le _ _).trans (add_le_add ?_ i1)
        rw [abs_mul]
        exact mul_le_mul_of_nonneg_left (hpix q) (abs_nonneg _)

/-- **C127.** A layout that is written to a GDS file and read again has almost the same potentials: if the file keeps coordinates up to
`δ` of its units, every polygon of the file has, as an electrode, the potential of the polygon that was written, up to this. -/
theorem c127_gds (valid empty : GPoly → Bool) (A : GdsArgs) (hclip : A.clip = none) (hname : asciiName A.name) (lp lg lt : Int × Int)
    (hlp : A.polyLayer = some lp) (hlg : A.gapLayer = some lg) (hlt : A.textLayer = some lt) (ps : List (String × List GPoly))
    (hn : ∀ p ∈ ps, asciiName p.1) (hv : ∀ p ∈ ps, ∀ q ∈ p.2, valid q = true ∧ empty q = false ∧ q.ext ≠ []) (S : GdsSelect)
    (hS : S.name = none ∨ S.name = some A.name) (hsp : inLayers S.polyLayers lp) (hsg : inLayers S.gapLayers lg)
    (hst : inLayers S.nameLayers lt.1) (r : ℝ → ℝ) (δ : ℝ) (hr : ∀ x, |r x - x| ≤ δ) (hscale : S.scale = A.scale) (hs0 : A.scale ≠ 0)
    (hu0 : A.physUnit ≠ 0) :
    ∃ lib d, toGds valid empty A ps = .ok lib ∧ gdsRead S (storeLib r lib) = .ok d ∧
      List.Forall₂ (fun written read => read.1 = written.1 ∧ ∀ (name : String) (dc rf h : ℝ) (n k : Nat), k ≤ 5 → ∀ i < 2 * k + 1,
          ∀ (v : ℝ) (p : V3), offPlanes h n p →
        |compAt ⟨name, dc, rf, .polygons [read.2] h n⟩ k i v p - compAt ⟨name, dc, rf, .polygons [written.2.ext] h n⟩ k i v p|
          ≤ |v| * (√2 * δ * |A.physUnit / A.scale| / 2 * (perimeter written.2.ext + perimeter read.2)) * imagesSize k n h p.z)
        (allPolys ps) d.polys := by
  obtain ⟨lib, h1, h2⟩ := c91_round_trip valid empty A hclip hname lp lg lt hlp hlg hlt ps hn hv S hS hsp hsg hst r
  refine ⟨lib, _, h1, h2, ?_⟩
  rw [List.forall₂_map_right_iff]
  refine List.forall₂_same.2 fun w hw => ⟨rfl, fun name dc rf h n k hk i hi v p hp => ?_⟩
  have hδ : 0 ≤ δ := (abs_nonneg _).trans (hr 0)
  refine (c127_corners name dc rf [w.2.ext] [_] (√2 * δ * |A.physUnit / A.scale|) (.cons ?_ .nil) h n k hk i hi v p hp).trans
    (le_of_eq (by simp only [List.map_cons, List.map_nil, List.sum_cons, List.sum_nil, add_zero]))
  unfold nearPath
  rw [List.forall₂_map_right_iff]
  refine List.forall₂_same.2 fun u _ => ?_
  rw [hscale]
  have hx := c91_error r δ A.scale A.physUnit hs0 hu0 hr u.x
  have hy := c91_error r δ A.scale A.physUnit hs0 hu0 hr u.y
  unfold gapOf
  rw [abs_sub_comm] at hx hy
  have hb : 0 ≤ δ * |A.physUnit / A.scale| := by positivity
  rw [mul_assoc, ← Real.sqrt_sq hb, ← Real.sqrt_mul (by norm_num)]
  refine Real.sqrt_le_sqrt ?_
  simp only
  have hx2 := sq_le_sq' (by linarith [(abs_le.1 hx).1]) (abs_le.1 hx).2
  have hy2 := sq_le_sq' (by linarith [(abs_le.1 hy).1]) (abs_le.1 hy).2
  linarith

/-- a square and the square with one corner off by 1/100 -/
example : nearPath (1 / 100) [⟨0, 0⟩, ⟨1, 0⟩, ⟨1, 1⟩, ⟨0, 1⟩] [⟨0, 0⟩, ⟨1, 0⟩, ⟨1 + 1 / 100, 1⟩, ⟨0, 1⟩] := by
  have h0 : ∀ a : V2, gapOf a a ≤ 1 / 100 := fun a => by simp [gapOf]
  refine .cons (h0 _) (.cons (h0 _) (.cons ?_ (.cons (h0 _) .nil)))
  rw [gapOf, Real.sqrt_le_left (by norm_num)]
  norm_num

example : perimeter [⟨0, 0⟩, ⟨1, 0⟩, ⟨1, 1⟩, ⟨0, 1⟩] = 4 := by
  simp [perimeter, gapOf]
  norm_num

/-- a position above the plane, without a cover and below a cover -/
example : offPlanes 0 0 ⟨0, 0, 1⟩ ∧ offPlanes 50 3 ⟨0, 0, 1⟩ := by
  refine ⟨fun m h1 h2 => ?_, fun m h1 h2 => ?_⟩
  · simp
  · simp only
    have : (1 : ℤ) + 2 * m * 50 ≠ 0 := by omega
    exact_mod_cast this

/-- systems with an electrode that is off -/
example : List.Forall₂ (nearElec (1 / 100)) [⟨"a", 1, 2, .polygons [[⟨0, 0⟩, ⟨1, 0⟩, ⟨1, 1⟩]] 0 0⟩, ⟨"c", 1, 0, .cover 50⟩]
    [⟨"a", 1, 2, .polygons [[⟨0, 0⟩, ⟨1 + 1 / 100, 0⟩, ⟨1, 1⟩]] 0 0⟩, ⟨"c", 1, 0, .cover 50⟩] := by
  have h0 : ∀ a : V2, gapOf a a ≤ 1 / 100 := fun a => by simp [gapOf]
  refine .cons ⟨rfl, rfl, rfl, rfl, .cons (.cons (h0 _) (.cons ?_ (.cons (h0 _) .nil))) .nil⟩ (.cons ⟨rfl, rfl, rfl⟩ .nil)
  rw [gapOf, Real.sqrt_le_left (by norm_num)]
  norm_num

end Electrode
