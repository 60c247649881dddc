import Verif.Model.Plot
import Verif.Props.Dirichlet

/-
C96: what the plots of electrodes show.
-/
namespace Electrode
open Spec

/-! ### Specification -/

/-- The rest of the line that is being drawn, and the lines after it: a new line starts at each `moveto`. -/
def Spec.linesFrom : List (V2 × PathCode) → List V2 × List (List V2)
  | [] => ([], [])
  | (v, .lineto) :: t => (v :: (linesFrom t).1, (linesFrom t).2)
  | (v, .moveto) :: t => ([], (v :: (linesFrom t).1) :: (linesFrom t).2)

/-- the lines that a path describes -/
def Spec.polylines (vertices : List V2) (codes : List PathCode) : List (List V2) := (linesFrom (vertices.zip codes)).2

/-- How often the lines of a path wind around a point: what is filled are the points where this is not zero. -/
noncomputable def Spec.pathWinding (vertices : List V2) (codes : List PathCode) (q : ℝ × ℝ) : ℤ :=
  ((polylines vertices codes).map fun l => (List.zipWith (crossing q) l l.tail).sum).sum

namespace Plot

theorem lines_lineto (l : List V2) (rest : List (V2 × PathCode)) :
    linesFrom (l.zip (List.replicate l.length .lineto) ++ rest) = (l ++ (linesFrom rest).1, (linesFrom rest).2) := by
  induction l with
  | nil => simp
  | cons a t ih => simp only [List.length_cons, List.replicate_succ, List.zip_cons_cons, List.cons_append, linesFrom, ih]

theorem lines_all (paths : List (List V2)) (h : ∀ p ∈ paths, p ≠ []) :
    linesFrom ((paths.flatMap fun p => p ++ p.take 1).zip (paths.flatMap fun p => PathCode.moveto :: List.replicate p.length .lineto))
      = ([], paths.map fun p => p ++ p.take 1) := by
  induction paths with
  | nil => simp [linesFrom]
  | cons p t ih =>
    have ih := ih fun q hq => h q (by simp [hq])
    obtain ⟨a, l, rfl⟩ : ∃ a l, p = a :: l := by
      cases p with
      | nil => exact absurd rfl (h [] (by simp))
      | cons a l => exact ⟨a, l, rfl⟩
    simp only [List.flatMap_cons, List.map_cons]
    have hl : ((a :: l) ++ (a :: l).take 1).length = (PathCode.moveto :: List.replicate (a :: l).length .lineto).length := by simp
    rw [List.zip_append hl]
    have e : ((a :: l) ++ (a :: l).take 1).zip (PathCode.moveto :: List.replicate (a :: l).length .lineto)
        = (a, .moveto) :: (l ++ [a]).zip (List.replicate (l ++ [a]).length .lineto) := by
      simp
    rw [e, List.cons_append]
    simp only [linesFrom, lines_lineto, ih, List.append_nil]
    simp

theorem flat_length (paths : List (List V2)) (h : ∀ p ∈ paths, p ≠ []) :
    (paths.flatMap fun p => p ++ p.take 1).length
      = (paths.flatMap fun p => PathCode.moveto :: List.replicate p.length .lineto).length := by
  induction paths with
  | nil => rfl
  | cons p t ih =>
    have ih := ih fun q hq => h q (by simp [hq])
    have hp := h p (by simp)
    simp only [List.flatMap_cons, List.length_append, ih, List.length_cons, List.length_replicate, List.length_take]
    have := List.length_pos_iff.2 hp
    omega

theorem closed_winding (p : List V2) (h : p ≠ []) (q : ℝ × ℝ) :
    (List.zipWith (crossing q) (p ++ p.take 1) (p ++ p.take 1).tail).sum = winding p q := by
  cases p with
  | nil => exact absurd rfl h
  | cons a l =>
    unfold winding
    simp only [List.take_succ_cons, List.take_zero, List.cons_append, List.tail_cons, List.rotate_cons_succ, List.rotate_zero]
    have : List.zipWith (crossing q) (a :: (l ++ [a])) (l ++ [a]) = List.zipWith (crossing q) (a :: l) (l ++ [a]) := by
      rw [← List.cons_append, ← List.append_nil (l ++ [a]), List.zipWith_append (by simp)]
      simp
    rw [this]

theorem polygonPath_ok {paths : List (List V2)} {vc : List V2 × List PathCode} (h : polygonPath paths = .ok vc) :
    paths ≠ [] ∧ (∀ p ∈ paths, p ≠ []) ∧
      vc = (paths.flatMap fun p => p ++ p.take 1, paths.flatMap fun p => .moveto :: List.replicate p.length .lineto) := by
  unfold polygonPath at h
  split at h
  · cases h
  · next h1 =>
    split at h
    · cases h
    · next h2 =>
      refine ⟨fun h0 => h2 (by simp [h0]), fun p hp h0 => h1 ?_, (Except.ok.inj h).symm⟩
      rw [List.any_eq_true]
      exact ⟨p, hp, by simp [h0]⟩

theorem plotAll_ok {χ : Type} (label : Option String) (l : List (Elec × χ)) (ds : List (List (Drawing χ))) :
    plotAll label l = .ok ds ↔ List.Forall₂ (fun p d => p.1.plot label p.2 = .ok d) l ds := by
  induction l generalizing ds with
  | nil =>
    constructor
    · intro h
      obtain rfl := Except.ok.inj h
      exact .nil
    · intro h
      cases h
      rfl
  | cons p t ih =>
    obtain ⟨e, c⟩ := p
    unfold plotAll
    constructor
    · intro h
      split at h
      · cases h
      · next d hd =>
        split at h
        · cases h
        · next ds' hds =>
          obtain rfl := Except.ok.inj h
          exact .cons hd ((ih ds').1 hds)
    · intro h
      cases h with
      | cons h1 h2 =>
        rw [h1]
        simp only [(ih _).2 h2]

theorem plotAll_get {χ : Type} {label : Option String} {l : List (Elec × χ)} {ds : List (List (Drawing χ))}
    (h : plotAll label l = .ok ds) : ds.length = l.length ∧
      ∀ (i : Nat) e c, l[i]? = some (e, c) → ∃ d, ds[i]? = some d ∧ e.plot label c = .ok d := by
  have h := (plotAll_ok _ _ _).1 h
  refine ⟨h.length_eq.symm, fun i e c hi => ?_⟩
  obtain ⟨h1, h2⟩ := List.getElem?_eq_some_iff.1 hi
  have h3 : i < ds.length := by rw [← h.length_eq]; exact h1
  refine ⟨ds[i], List.getElem?_eq_getElem h3, ?_⟩
  have := (List.forall₂_iff_get.1 h).2 i h1 h3
  rw [List.get_eq_getElem, List.get_eq_getElem, h2] at this
  exact this

end Plot
open Plot

/-! ### One electrode -/

/-- C96: for a polygon electrode one patch is drawn.  Its lines are the closed outlines of the paths, in their order, and it covers the
points that the electrode covers: its lines wind around every point as often as the paths of the electrode. -/
theorem c96_polygons {χ : Type} (name : String) (dc rf h : ℝ) (n : Nat) (paths : List (List V2)) (label : Option String) (color : χ)
    (d : List (Drawing χ)) (hd : Elec.plot ⟨name, dc, rf, .polygons paths h n⟩ label color = .ok d) :
    ∃ vertices codes texts, d = .patch vertices codes color :: texts ∧ vertices.length = codes.length ∧
      polylines vertices codes = paths.map (fun p => p ++ p.take 1) ∧
      ∀ q, pathWinding vertices codes q = covered paths q := by
  simp only [Elec.plot] at hd
  split at hd
  · cases hd
  · next vc hvc =>
    obtain ⟨-, hne, rfl⟩ := polygonPath_ok hvc
    refine ⟨_, _, _, (Except.ok.inj hd).symm, flat_length paths hne, ?_, fun q => ?_⟩
    · unfold polylines
      rw [lines_all paths hne]
    · unfold pathWinding polylines covered
      rw [lines_all paths hne, List.map_map]
      congr 1
      apply List.map_congr_left
      intro p hp
      exact closed_winding p (hne p hp) q

/-- C96: the plot of a polygon electrode succeeds exactly if it has paths and all of them have points. -/
theorem c96_polygons_ok {χ : Type} (name : String) (dc rf h : ℝ) (n : Nat) (paths : List (List V2)) (label : Option String) (color : χ) :
    (∃ d, Elec.plot ⟨name, dc, rf, .polygons paths h n⟩ label color = .ok d) ↔ paths ≠ [] ∧ ∀ p ∈ paths, p ≠ [] := by
  constructor
  · rintro ⟨d, hd⟩
    simp only [Elec.plot] at hd
    split at hd
    · cases hd
    · next vc hvc =>
      obtain ⟨h1, h2, -⟩ := polygonPath_ok hvc
      exact ⟨h1, h2⟩
  · rintro ⟨h1, h2⟩
    have : polygonPath paths = .ok (paths.flatMap fun p => p ++ p.take 1, paths.flatMap fun p => .moveto :: List.replicate p.length .lineto) := by
      unfold polygonPath
      rw [if_neg, if_neg]
      · simpa using h1
      · intro h0
        rw [List.any_eq_true] at h0
        obtain ⟨p, hp, h3⟩ := h0
        exact h2 p hp (by simpa using h3)
    simp only [Elec.plot, this]
    exact ⟨_, rfl⟩

/-- C96: for a point electrode discs of the areas given are drawn at the points given. -/
theorem c96_points {χ : Type} (name : String) (dc rf h : ℝ) (n : Nat) (ps : List V2) (as : List ℝ) (label : Option String) (color : χ)
    (d : List (Drawing χ)) (hd : Elec.plot ⟨name, dc, rf, .points ps as h n⟩ label color = .ok d) :
    ∃ widths texts, d = .discs ps widths color :: texts ∧ widths.length = as.length ∧
      ∀ (i : Nat) a, as[i]? = some a → 0 ≤ a → ∃ w, widths[i]? = some (some w) ∧ 0 ≤ w ∧ Real.pi * (w / 2) ^ 2 = a := by
  simp only [Elec.plot] at hd
  split at hd
  · cases hd
  · refine ⟨_, _, (Except.ok.inj hd).symm, by simp, fun i a ha h0 => ?_⟩
    refine ⟨√(a / Real.pi) * 2, by simp [ha, discWidth, not_lt.2 h0], by positivity, ?_⟩
    rw [mul_div_assoc, div_self two_ne_zero, mul_one, Real.sq_sqrt (by positivity)]
    field_simp

/-- Not so: for a point with a negative area, a hole, nothing can be drawn: the width is not a number. -/
theorem c96_negative (a : ℝ) (h : a < 0) : discWidth a = none := if_pos h

/-- C96: the label is the one given, or else the name; an empty one is not drawn.  It is placed at the mean of the points of each path
(or of all points). -/
theorem c96_labels {χ : Type} (e : Elec) (label : Option String) (color : χ) (d : List (Drawing χ)) (hd : e.plot label color = .ok d) :
    let l := label.getD e.name
    ∀ t, t ∈ d.filterMap (fun x => match x with | .text p s => some (p, s) | _ => none) ↔
      l ≠ "" ∧ t.2 = l ∧ ((∃ ps as h n, e.shape = .points ps as h n ∧ t.1 = ⟨(ps.map (·.x)).sum / ps.length, (ps.map (·.y)).sum / ps.length⟩) ∨
        ∃ paths h n, e.shape = .polygons paths h n ∧ ∃ p ∈ paths, t.1 = ⟨(p.map (·.x)).sum / p.length, (p.map (·.y)).sum / p.length⟩) := by
  change let l := label.getD e.name
    ∀ t, t ∈ d.filterMap (fun x => match x with | .text p s => some (p, s) | _ => none) ↔
      l ≠ "" ∧ t.2 = l ∧ ((∃ ps as h n, e.shape = .points ps as h n ∧ t.1 = meanPoint ps) ∨
        ∃ paths h n, e.shape = .polygons paths h n ∧ ∃ p ∈ paths, t.1 = meanPoint p)
  obtain ⟨name, dc, rf, shape⟩ := e
  intro l t
  obtain ⟨tp, ts⟩ := t
  have hpl : plotLabel name label = if l = "" then none else some l := rfl
  cases shape with
  | points ps as h n =>
    simp only [Elec.plot] at hd
    split at hd
    · cases hd
    · obtain rfl := (Except.ok.inj hd).symm
      rw [hpl]
      by_cases hl : l = ""
      · simp [hl]
      · simp only [if_neg hl, List.filterMap_cons, List.filterMap_nil, List.mem_singleton, Prod.mk.injEq]
        constructor
        · rintro ⟨rfl, rfl⟩
          exact ⟨hl, rfl, Or.inl ⟨ps, as, h, n, rfl, rfl⟩⟩
        · rintro ⟨-, h2, ⟨ps', as', h', n', h3, h4⟩ | ⟨paths, h', n', h3, -⟩⟩
          · cases h3
            exact ⟨h4, h2⟩
          · cases h3
  | polygons paths h n =>
    simp only [Elec.plot] at hd
    split at hd
    · cases hd
    · obtain rfl := (Except.ok.inj hd).symm
      rw [hpl]
      by_cases hl : l = ""
      · simp [hl]
      · simp only [if_neg hl, List.filterMap_cons, List.filterMap_map, Function.comp_def, List.filterMap_some, List.mem_filterMap,
          Option.some.injEq, Prod.mk.injEq]
        constructor
        · rintro ⟨p, hp, rfl, rfl⟩
          exact ⟨hl, rfl, Or.inr ⟨paths, h, n, rfl, p, hp, rfl⟩⟩
        · rintro ⟨-, h2, ⟨ps', as', h', n', h3, -⟩ | ⟨paths', h', n', h3, p, hp, h4⟩⟩
          · cases h3
          · cases h3
            exact ⟨p, hp, h4.symm, h2.symm⟩
  | _ =>
    simp only [Elec.plot] at hd
    obtain rfl := (Except.ok.inj hd).symm
    simp

/-! ### Systems -/

/-- C96: `System.plot` draws every electrode, in order, with the twelve colors in turn; two electrodes have the same color exactly if
their positions differ by a multiple of twelve. -/
theorem c96_system (s : Sys) (label : Option String) (ds : List (List (Drawing (ℝ × ℝ × ℝ)))) (h : s.plot label = .ok ds) :
    ∃ color : Nat → ℝ × ℝ × ℝ, ds.length = s.els.length ∧
      (∀ (i : Nat) e, s.els[i]? = some e → ∃ d, ds[i]? = some d ∧ e.plot label (color i) = .ok d) ∧
      ∀ i j, color i = color j ↔ i % 12 = j % 12 := by
  let color : Nat → ℝ × ℝ × ℝ := fun i => let c := set3.getD (i % 12) (0, 0, 0)
    ((c.1 : ℝ) / 255, (c.2.1 : ℝ) / 255, (c.2.2 : ℝ) / 255)
  unfold Sys.plot at h
  obtain ⟨h1, h2⟩ := plotAll_get h
  refine ⟨color, by simpa using h1, fun i e he => h2 i e _ (by simp [he, color]), fun i j => ?_⟩
  constructor
  · intro hc
    have key : ∀ a < 12, ∀ b < 12, set3.getD a (0, 0, 0) = set3.getD b (0, 0, 0) → a = b := by decide
    refine key _ (Nat.mod_lt _ (by norm_num)) _ (Nat.mod_lt _ (by norm_num)) ?_
    simp only [color, Prod.mk.injEq] at hc
    obtain ⟨c1, c2, c3⟩ := hc
    have f : ∀ a b : Nat, (a : ℝ) / 255 = (b : ℝ) / 255 → a = b := fun a b hab => by
      have : (a : ℝ) = b := by linarith
      exact_mod_cast this
    exact Prod.ext (f _ _ c1) (Prod.ext (f _ _ c2) (f _ _ c3))
  · intro hm
    simp only [color, hm]

namespace Plot

theorem foldl_max (l : List ℝ) (m : ℝ) : m ≤ l.foldl (fun m x => max m |x|) m ∧ (∀ x ∈ l, |x| ≤ l.foldl (fun m x => max m |x|) m) ∧
    (l.foldl (fun m x => max m |x|) m = m ∨ ∃ x ∈ l, l.foldl (fun m x => max m |x|) m = |x|) := by
  induction l generalizing m with
  | nil => simp
  | cons a t ih =>
    obtain ⟨h1, h2, h3⟩ := ih (max m |a|)
    simp only [List.foldl_cons]
    refine ⟨(le_max_left _ _).trans h1, fun x hx => ?_, ?_⟩
    · rcases List.mem_cons.1 hx with rfl | hx
      · exact (le_max_right _ _).trans h1
      · exact h2 x hx
    · rcases h3 with h3 | ⟨x, hx, h3⟩
      · rcases max_choice m |a| with h4 | h4
        · left; rw [h3, h4]
        · right; exact ⟨a, by simp, by rw [h3, h4]⟩
      · right; exact ⟨x, by simp [hx], h3⟩

theorem maxAbs_spec {l : List ℝ} {m : ℝ} (h : maxAbs l = .ok m) : (∀ x ∈ l, |x| ≤ m) ∧ ∃ x ∈ l, m = |x| := by
  cases l with
  | nil => cases h
  | cons a t =>
    obtain rfl := (Except.ok.inj h).symm
    obtain ⟨h1, h2, h3⟩ := foldl_max t |a|
    refine ⟨fun x hx => ?_, ?_⟩
    · rcases List.mem_cons.1 hx with rfl | hx
      · exact h1
      · exact h2 x hx
    · rcases h3 with h3 | ⟨x, hx, h3⟩
      · exact ⟨a, by simp, h3⟩
      · exact ⟨x, by simp [hx], h3⟩

end Plot

/-- C96: `plot_voltages` draws each electrode in the color of a number between zero and one: one half plus a positive multiple of
its voltage, such that the largest voltage has the number one or zero. -/
theorem c96_voltages {χ : Type} (s : Sys) (u : Option (List ℝ)) (cmap : ℝ → χ) (label : Option String) (ds : List (List (Drawing χ)))
    (hu : (u.getD (s.els.map (·.dc))).length = s.els.length) (h : s.plotVoltages u none cmap label = .ok ds) :
    ∃ level : ℝ → ℝ, ds.length = s.els.length ∧
      (∀ (i : Nat) e v, s.els[i]? = some e → (u.getD (s.els.map (·.dc)))[i]? = some v →
        ∃ d, ds[i]? = some d ∧ e.plot label (cmap (level v)) = .ok d) ∧
      (∃ c > 0, ∀ v, level v = 1 / 2 + c * v) ∧
      (∀ v ∈ u.getD (s.els.map (·.dc)), 0 ≤ level v ∧ level v ≤ 1) ∧
      ((∃ v ∈ u.getD (s.els.map (·.dc)), v ≠ 0) → ∃ v ∈ u.getD (s.els.map (·.dc)), level v = 0 ∨ level v = 1) := by
  unfold Sys.plotVoltages at h
  generalize u.getD (s.els.map (·.dc)) = U at *
  simp only [voltageScale] at h
  cases hm : maxAbs U with
  | error e => rw [hm] at h; cases h
  | ok m =>
    rw [hm] at h
    simp only at h
    obtain ⟨b1, w, hw, b2⟩ := maxAbs_spec hm
    set k : ℝ := if m = 0 then 1 else m with hk
    have hm0 : 0 ≤ m := by rw [b2]; exact abs_nonneg w
    have hkp : 0 < k := by
      rw [hk]; split
      · norm_num
      · next h0 => exact lt_of_le_of_ne hm0 (Ne.symm h0)
    have hmk : m ≤ k := by
      rw [hk]; split
      · next h0 => rw [h0]; norm_num
      · exact le_refl m
    obtain ⟨h1, h2⟩ := plotAll_get h
    refine ⟨fun v => (v / k + 1) / 2, by simpa [hu] using h1, fun i e v he hv => h2 i e _ ?_,
      ⟨1 / (2 * k), by positivity, fun v => by field_simp; ring⟩, ?_, ?_⟩
    · rw [List.getElem?_zip_eq_some]
      exact ⟨he, by simp [hv]⟩
    · intro v hv
      have h3 := (b1 v hv).trans hmk
      rw [abs_le] at h3
      have h4 : -1 ≤ v / k := by rw [le_div_iff₀ hkp]; linarith [h3.1]
      have h5 : v / k ≤ 1 := by rw [div_le_iff₀ hkp]; linarith [h3.2]
      constructor <;> linarith
    · rintro ⟨v, hv, hv0⟩
      have hmp : m ≠ 0 := fun h0 => hv0 (abs_nonpos_iff.1 (h0 ▸ b1 v hv))
      have hkm : k = m := by rw [hk, if_neg hmp]
      refine ⟨w, hw, ?_⟩
      rw [hkm]
      have hw0 : w ≠ 0 := fun h0 => hmp (by rw [b2, h0, abs_zero])
      rcases abs_cases w with ⟨h3, -⟩ | ⟨h3, -⟩
      · right; simp only; rw [b2, h3, div_self hw0]; norm_num
      · left; simp only; rw [b2, h3, div_neg, div_self hw0]; norm_num

/-- C96: with a scale given, that voltage has the number one, and its negative the number zero. -/
theorem c96_scale {χ : Type} (s : Sys) (u : Option (List ℝ)) (um : ℝ) (hum : 0 < um) (cmap : ℝ → χ) (label : Option String)
    (ds : List (List (Drawing χ))) (h : s.plotVoltages u (some um) cmap label = .ok ds) :
    ∃ level : ℝ → ℝ, (∀ (i : Nat) e v, s.els[i]? = some e → (u.getD (s.els.map (·.dc)))[i]? = some v →
        ∃ d, ds[i]? = some d ∧ e.plot label (cmap (level v)) = .ok d) ∧
      ∀ v, level v = 1 / 2 + v / (2 * um) := by
  unfold Sys.plotVoltages at h
  simp only [voltageScale] at h
  obtain ⟨-, h2⟩ := plotAll_get h
  refine ⟨fun v => (v / um + 1) / 2, fun i e v he hv => h2 i e _ ?_, fun v => by field_simp; ring⟩
  rw [List.getElem?_zip_eq_some]
  exact ⟨he, by simp [hv]⟩

/-- Not so: electrodes for which there is no voltage are not drawn. -/
theorem c96_short {χ : Type} (s : Sys) (u : List ℝ) (um : Option ℝ) (cmap : ℝ → χ) (label : Option String)
    (ds : List (List (Drawing χ))) (h : s.plotVoltages (some u) um cmap label = .ok ds) : ds.length = min s.els.length u.length := by
  unfold Sys.plotVoltages at h
  simp only at h
  split at h
  · cases h
  · simpa using (plotAll_get h).1

/-- Not so: `plot_voltages` of a system without electrodes raises `ValueError`, while `plot` draws nothing. -/
theorem c96_empty {χ : Type} (c : Option ℝ) (cmap : ℝ → χ) (label : Option String) :
    Sys.plotVoltages ⟨[], c⟩ none none cmap label = .error .valueError ∧ Sys.plot ⟨[], c⟩ label = .ok [] := ⟨rfl, rfl⟩

/-- a square with a hole, and an electrode of two points -/
noncomputable def exPlot : Sys := ⟨[⟨"a", 2, 0, .polygons [[⟨0, 0⟩, ⟨3, 0⟩, ⟨3, 3⟩, ⟨0, 3⟩], [⟨1, 1⟩, ⟨1, 2⟩, ⟨2, 2⟩, ⟨2, 1⟩]] 50 0⟩,
  ⟨"b", -1, 0, .points [⟨0, 0⟩, ⟨1, 1⟩] [1, 2] 50 0⟩, ⟨"c", 0, 0, .cover 3⟩], none⟩

theorem exPlot_all {χ : Type} (label : Option String) (c1 c2 c3 : χ) :
    ∃ ds, plotAll label (exPlot.els.zip [c1, c2, c3]) = .ok ds := by
  obtain ⟨d, hd⟩ := (c96_polygons_ok "a" 2 0 50 0 [[⟨0, 0⟩, ⟨3, 0⟩, ⟨3, 3⟩, ⟨0, 3⟩], [⟨1, 1⟩, ⟨1, 2⟩, ⟨2, 2⟩, ⟨2, 1⟩]] label c1).2 (by simp)
  refine ⟨_, (plotAll_ok _ _ _).2 (.cons hd (.cons rfl (.cons rfl .nil)))⟩

example : ∃ ds, exPlot.plot (none : Option String) = .ok ds := exPlot_all none _ _ _

example : ∃ ds, exPlot.plotVoltages none none (fun x => x) (none : Option String) = .ok ds := by
  unfold Sys.plotVoltages
  exact exPlot_all none _ _ _

example : (Option.getD none (exPlot.els.map (·.dc))).length = exPlot.els.length := rfl

end Electrode
