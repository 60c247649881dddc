import Verif.Model.Contour
import Verif.Lemmas.System
import Verif.Props.Grid

/-
Property C70: `plot_contour` draws the potential on the requested plane.
-/
namespace Electrode
open Spec

/-- the point of the plane `slc = at` with coordinates `a`, `b` along the two other axes, in the order x, y, z -/
def Spec.planePoint (slc : Char) (at_ a b : ℝ) : V3 :=
  if slc = 'x' then ⟨at_, a, b⟩ else if slc = 'y' then ⟨a, at_, b⟩ else ⟨a, b, at_⟩

/-- the two other axes -/
def Spec.planeAxes (slc : Char) : Nat × Nat := if slc = 'x' then (1, 2) else if slc = 'y' then (0, 2) else (0, 1)

/-- everything a successful call tells -/
theorem contour_inv {old : Bool} {s : Sys} {grid : Option Grid} {typ : PTyp} {slc : Char} {slcAt : ℝ} {fill : Bool} {divideMax : ℝ}
    {lineNum : Nat} {levels : Option (List ℝ)} {vmin : Option ℝ} {r : Contour}
    (h : plotContour old s grid typ slc slcAt fill divideMax lineNum levels vmin = .ok r) :
    ∃ g xyz sec axis v t, contourGridArg s grid = .ok g ∧ contourXyz old g = .ok xyz ∧
      contourSec slc = .ok (sec, axis) ∧ pyGet xyz sec.1 = .ok r.x ∧ pyGet xyz sec.2 = .ok r.y ∧
      pySeq (r.y.map fun e2 => pySeq (r.x.map fun e1 => contourValue s typ axis e1 e2 slcAt)) = .ok r.z ∧
      r.z.flatten = v :: t ∧ r.maxp = t.foldl max v ∧ r.minp = t.foldl min v ∧
      r.levels = levels.getD ((List.range lineNum).map fun i => linspaceEntry ((contourLimits r.maxp r.minp divideMax).1,
        (contourLimits r.maxp r.minp divideMax).2, lineNum) i) ∧
      r.vmin = vmin.getD ((contourLimits r.maxp r.minp divideMax).2 / 2) ∧ r.filled = fill ∧
      (r.xlabel, r.ylabel) = contourLabels slc := by
  unfold plotContour at h
  split at h
  · cases h
  rename_i g hg
  split at h
  · cases h
  rename_i xyz hx
  split at h
  · cases h
  rename_i sec axis hs
  split at h
  · rename_i xs ys h1 h2
    split at h
    · cases h
    rename_i pot hp
    split at h
    · cases h
    rename_i v t hv
    injection h with h
    subst h
    exact ⟨g, xyz, sec, axis, v, t, hg, hx, hs, h1, h2, hp, hv, rfl, rfl, rfl, rfl, rfl, rfl⟩
  · cases h
  · cases h

theorem linspace_slice (a : GridAxis) (i : Nat) (hi : i < a.shape) :
    linspaceEntry a.slice i = a.center + a.step * ((i : ℝ) - ((a.shape : ℝ) - 1) / 2) := by
  rw [← mgridEntry_slice a i hi]
  unfold linspaceEntry mgridEntry
  simp only [GridAxis.slice]
  by_cases h1 : 1 < a.shape
  · have h2 : a.shape ≠ 1 := by omega
    simp [h1, h2]
  · have h2 : a.shape = 1 := by omega
    have h3 : i = 0 := by omega
    simp [h2, h3]

theorem contourXyz_axis {old : Bool} {g : Grid} {xyz : List (List ℝ)} (h : contourXyz old g = .ok xyz) {k : Nat} {xs : List ℝ}
    (hx : pyGet xyz k = .ok xs) : ∃ a, g[k]? = some a ∧
      xs = (List.range a.shape).map fun i : Nat => a.center + a.step * ((i : ℝ) - ((a.shape : ℝ) - 1) / 2) := by
  have e : xyz = g.map fun a => (List.range a.shape).map fun i : Nat => a.center + a.step * ((i : ℝ) - ((a.shape : ℝ) - 1) / 2) := by
    unfold contourXyz at h
    split at h
    · injection h with h
      rw [← h]
      exact List.map_congr_left fun a _ => List.map_congr_left fun i hi => linspace_slice a i (List.mem_range.1 hi)
    · exact (c51_xyz g xyz h).2
  unfold pyGet at hx
  rw [e, List.getElem?_map] at hx
  cases hk : g[k]? with
  | none => simp [hk] at hx
  | some a =>
    simp only [hk, Option.map_some] at hx
    injection hx with hx
    exact ⟨a, rfl, hx.symm⟩

theorem contourSec_cases {slc : Char} {sec : Nat × Nat} {axis : Nat × Nat × Nat} (h : contourSec slc = .ok (sec, axis)) :
    (slc = 'x' ∧ sec = (1, 2) ∧ axis = (2, 0, 1)) ∨ (slc = 'y' ∧ sec = (0, 2) ∧ axis = (0, 2, 1)) ∨
      (slc = 'z' ∧ sec = (0, 1) ∧ axis = (0, 1, 2)) := by
  unfold contourSec at h
  split at h <;> simp_all

/-- C70.  The drawn value in row `j`, column `i` is the potential, of the requested kind, at the point of the plane whose two
coordinates are the `i`-th entry of the horizontal and the `j`-th entry of the vertical axis; these are the grid's coordinates along
the two other axes, and the labels name these axes. -/
theorem c70_plane {old : Bool} {s : Sys} {grid : Option Grid} {typ : PTyp} {slc : Char} {slcAt : ℝ} {fill : Bool} {divideMax : ℝ}
    {lineNum : Nat} {levels : Option (List ℝ)} {vmin : Option ℝ} {r : Contour}
    (h : plotContour old s grid typ slc slcAt fill divideMax lineNum levels vmin = .ok r) :
    r.filled = fill ∧ r.z.length = r.y.length ∧
    [r.xlabel, r.ylabel] = [['x', 'y', 'z'].getD (planeAxes slc).1 ' ', ['x', 'y', 'z'].getD (planeAxes slc).2 ' '] ∧
    (∀ g, grid = some g → ∃ a b, g[(planeAxes slc).1]? = some a ∧ g[(planeAxes slc).2]? = some b ∧
      r.x = (List.range a.shape).map (fun i : Nat => a.center + a.step * ((i : ℝ) - ((a.shape : ℝ) - 1) / 2)) ∧
      r.y = (List.range b.shape).map (fun i : Nat => b.center + b.step * ((i : ℝ) - ((b.shape : ℝ) - 1) / 2))) ∧
    ∀ (j : Nat) (e2 : ℝ), r.y[j]? = some e2 → ∃ row, r.z[j]? = some row ∧ row.length = r.x.length ∧
      ∀ (i : Nat) (e1 : ℝ), r.x[i]? = some e1 → ∃ v rows, row[i]? = some v ∧
        s.potential [planePoint slc slcAt e1 e2] 0 typ = .ok rows ∧ (rows.getD 0 []).getD 0 0 = v := by
  obtain ⟨g, xyz, sec, axis, v, t, hg, hx, hs, h1, h2, hp, -, -, -, -, -, hf, hl⟩ := contour_inv h
  have hc := contourSec_cases hs
  have hz := pySeq_map_inv _ _ _ hp
  have hsec : sec = planeAxes slc := by
    rcases hc with ⟨rfl, rfl, -⟩ | ⟨rfl, rfl, -⟩ | ⟨rfl, rfl, -⟩ <;> rfl
  refine ⟨hf, hz.1, ?_, ?_, ?_⟩
  · have := Prod.mk.inj hl
    rw [this.1, this.2]
    rcases hc with ⟨rfl, -, -⟩ | ⟨rfl, -, -⟩ | ⟨rfl, -, -⟩ <;> rfl
  · intro g' e
    subst e
    obtain rfl := Except.ok.inj hg
    obtain ⟨a, ha, hxa⟩ := contourXyz_axis hx h1
    obtain ⟨b, hb, hyb⟩ := contourXyz_axis hx h2
    exact ⟨a, b, hsec ▸ ha, hsec ▸ hb, hxa, hyb⟩
  · intro j e2 he2
    obtain ⟨row, hr, hrow⟩ := hz.2 j e2 he2
    have hrow' := pySeq_map_inv _ _ _ hrow
    refine ⟨row, hr, hrow'.1, fun i e1 he1 => ?_⟩
    obtain ⟨w, hw, hval⟩ := hrow'.2 i e1 he1
    unfold contourValue at hval
    have hpt : (⟨[e1, e2, slcAt].getD axis.1 0, [e1, e2, slcAt].getD axis.2.1 0, [e1, e2, slcAt].getD axis.2.2 0⟩ : V3) =
        planePoint slc slcAt e1 e2 := by
      rcases hc with ⟨rfl, -, rfl⟩ | ⟨rfl, -, rfl⟩ | ⟨rfl, -, rfl⟩ <;> rfl
    simp only [hpt] at hval
    cases hpot : s.potential [planePoint slc slcAt e1 e2] 0 typ with
    | error e => simp [hpot] at hval
    | ok rows =>
      simp only [hpot] at hval
      exact ⟨w, rows, hw, rfl, Except.ok.inj hval⟩

theorem foldl_max (t : List ℝ) : ∀ v, (t.foldl max v ∈ v :: t) ∧ ∀ w ∈ v :: t, w ≤ t.foldl max v := by
  induction t with
  | nil => intro v; simp
  | cons a t ih =>
    intro v
    obtain ⟨h1, h2⟩ := ih (max v a)
    refine ⟨?_, ?_⟩
    · rw [List.foldl_cons]
      rcases List.mem_cons.1 h1 with h | h
      · rw [h]
        rcases max_choice v a with h' | h' <;> simp [h']
      · simp [h]
    · intro w hw
      rw [List.foldl_cons]
      have hm := h2 (max v a) (by simp)
      rcases List.mem_cons.1 hw with rfl | hw
      · exact (le_max_left _ _).trans hm
      rcases List.mem_cons.1 hw with rfl | hw
      · exact (le_max_right _ _).trans hm
      · exact h2 w (List.mem_cons_of_mem _ hw)

theorem foldl_min (t : List ℝ) : ∀ v, (t.foldl min v ∈ v :: t) ∧ ∀ w ∈ v :: t, t.foldl min v ≤ w := by
  induction t with
  | nil => intro v; simp
  | cons a t ih =>
    intro v
    obtain ⟨h1, h2⟩ := ih (min v a)
    refine ⟨?_, ?_⟩
    · rw [List.foldl_cons]
      rcases List.mem_cons.1 h1 with h | h
      · rw [h]
        rcases min_choice v a with h' | h' <;> simp [h']
      · simp [h]
    · intro w hw
      rw [List.foldl_cons]
      have hm := h2 (min v a) (by simp)
      rcases List.mem_cons.1 hw with rfl | hw
      · exact hm.trans (min_le_left _ _)
      rcases List.mem_cons.1 hw with rfl | hw
      · exact hm.trans (min_le_right _ _)
      · exact h2 w (List.mem_cons_of_mem _ hw)

/-- C70.  The returned pair is the largest and the smallest drawn value. -/
theorem c70_range {old : Bool} {s : Sys} {grid : Option Grid} {typ : PTyp} {slc : Char} {slcAt : ℝ} {fill : Bool} {divideMax : ℝ}
    {lineNum : Nat} {levels : Option (List ℝ)} {vmin : Option ℝ} {r : Contour}
    (h : plotContour old s grid typ slc slcAt fill divideMax lineNum levels vmin = .ok r) :
    (∃ row ∈ r.z, r.maxp ∈ row) ∧ (∃ row ∈ r.z, r.minp ∈ row) ∧ ∀ row ∈ r.z, ∀ v ∈ row, r.minp ≤ v ∧ v ≤ r.maxp := by
  obtain ⟨g, xyz, sec, axis, v, t, -, -, -, -, -, -, hv, hmax, hmin, -⟩ := contour_inv h
  have h1 := foldl_max t v
  have h2 := foldl_min t v
  rw [← hv, ← hmax] at h1
  rw [← hv, ← hmin] at h2
  refine ⟨List.mem_flatten.1 h1.1, List.mem_flatten.1 h2.1, fun row hr w hw => ?_⟩
  have hm : w ∈ r.z.flatten := List.mem_flatten.2 ⟨row, hr, hw⟩
  exact ⟨h2.2 w hm, h1.2 w hm⟩

/-- levels and color limit given by the caller are passed on -/
theorem c70_given {old : Bool} {s : Sys} {grid : Option Grid} {typ : PTyp} {slc : Char} {slcAt : ℝ} {fill : Bool} {divideMax : ℝ}
    {lineNum : Nat} {levels : List ℝ} {vmin : ℝ} {r : Contour}
    (h : plotContour old s grid typ slc slcAt fill divideMax lineNum (some levels) (some vmin) = .ok r) :
    r.levels = levels ∧ r.vmin = vmin := by
  obtain ⟨g, xyz, sec, axis, v, t, -, -, -, -, -, -, -, -, -, h1, h2, -⟩ := contour_inv h
  exact ⟨h1, h2⟩

/-- C70.  The levels offered by default: `line_num` of them, starting at the smallest value, and increasing by equal steps unless the
potential is the same everywhere; for `divide_max ≥ 1` and a positive maximum they do not exceed the largest value. -/
theorem c70_levels {old : Bool} {s : Sys} {grid : Option Grid} {typ : PTyp} {slc : Char} {slcAt : ℝ} {fill : Bool} {divideMax : ℝ}
    {lineNum : Nat} {vmin : Option ℝ} {r : Contour}
    (h : plotContour old s grid typ slc slcAt fill divideMax lineNum none vmin = .ok r) (hl : 2 ≤ lineNum) (hr : r.minp < r.maxp) :
    r.levels.length = lineNum ∧ r.levels.head? = some r.minp ∧
      (∃ step > 0, ∀ (i : Nat) (v w : ℝ), r.levels[i]? = some v → r.levels[i + 1]? = some w → w = v + step) ∧
      (1 ≤ divideMax → 0 ≤ r.maxp → ∀ v ∈ r.levels, r.minp ≤ v ∧ v ≤ r.maxp) := by
  obtain ⟨g, xyz, sec, axis, v, t, -, -, -, -, -, -, -, -, -, h1, -⟩ := contour_inv h
  rw [Option.getD_none] at h1
  set M := (contourLimits r.maxp r.minp divideMax).2 with hM
  have hm : (contourLimits r.maxp r.minp divideMax).1 = r.minp := rfl
  rw [hm] at h1
  have hgt : r.minp < M := by
    rw [hM]; unfold contourLimits
    simp only
    split_ifs with hc
    · linarith
    · exact not_le.1 hc
  have hn : (0 : ℝ) < (lineNum : ℝ) - 1 := by
    have : (2 : ℝ) ≤ lineNum := by exact_mod_cast hl
    linarith
  have hent : ∀ i, linspaceEntry (r.minp, M, lineNum) i = i * ((M - r.minp) / ((lineNum : ℝ) - 1)) + r.minp := by
    intro i; unfold linspaceEntry; rw [if_pos (show 1 < lineNum by omega)]
  have hget : ∀ (i : Nat) (v : ℝ), r.levels[i]? = some v ↔ i < lineNum ∧ v = i * ((M - r.minp) / ((lineNum : ℝ) - 1)) + r.minp := by
    intro i v
    rw [h1, List.getElem?_map]
    by_cases hi : i < lineNum
    · simp [hi, hent, eq_comm]
    · simp [hi]
  have hstep : 0 < (M - r.minp) / ((lineNum : ℝ) - 1) := div_pos (by linarith) hn
  refine ⟨by rw [h1]; simp, ?_, ⟨_, hstep, fun i v w hv hw => ?_⟩, fun hd h0 v hv => ?_⟩
  · rw [List.head?_eq_getElem?, hget]
    exact ⟨by omega, by simp⟩
  · rw [((hget _ _).1 hv).2, ((hget _ _).1 hw).2]; push_cast; ring
  · obtain ⟨i, hi⟩ := List.getElem?_of_mem hv
    obtain ⟨hlt, e⟩ := (hget i v).1 hi
    have hMle : M ≤ r.maxp := by
      rw [hM]; unfold contourLimits
      simp only
      split_ifs with hc
      · linarith
      · exact div_le_self h0 hd
    have hi' : (i : ℝ) ≤ (lineNum : ℝ) - 1 := by
      have : ((i + 1 : Nat) : ℝ) ≤ lineNum := by exact_mod_cast hlt
      push_cast at this; linarith
    have hle : (i : ℝ) * ((M - r.minp) / ((lineNum : ℝ) - 1)) ≤ M - r.minp := by
      calc (i : ℝ) * ((M - r.minp) / ((lineNum : ℝ) - 1)) ≤ ((lineNum : ℝ) - 1) * ((M - r.minp) / ((lineNum : ℝ) - 1)) :=
            mul_le_mul_of_nonneg_right hi' hstep.le
        _ = M - r.minp := by field_simp
    have hnn : 0 ≤ (i : ℝ) * ((M - r.minp) / ((lineNum : ℝ) - 1)) := by positivity
    exact ⟨by linarith, by linarith⟩

/-- For a potential that is the same, nonnegative number on the whole plane all levels offered are equal: matplotlib rejects them. -/
theorem c70_flat {old : Bool} {s : Sys} {grid : Option Grid} {typ : PTyp} {slc : Char} {slcAt : ℝ} {fill : Bool} {divideMax : ℝ}
    {lineNum : Nat} {vmin : Option ℝ} {r : Contour}
    (h : plotContour old s grid typ slc slcAt fill divideMax lineNum none vmin = .ok r) (hd : 1 ≤ divideMax) (hr : r.minp = r.maxp)
    (h0 : 0 ≤ r.minp) : ∀ v ∈ r.levels, v = r.minp := by
  obtain ⟨g, xyz, sec, axis, v, t, -, -, -, -, -, -, -, -, -, h1, -⟩ := contour_inv h
  rw [Option.getD_none] at h1
  have hm : (contourLimits r.maxp r.minp divideMax).1 = r.minp := rfl
  have hM : (contourLimits r.maxp r.minp divideMax).2 = r.minp := by
    unfold contourLimits
    simp only
    rw [← hr, if_pos (div_le_self h0 hd)]; ring
  rw [hm, hM] at h1
  intro v hv
  rw [h1, List.mem_map] at hv
  obtain ⟨i, -, rfl⟩ := hv
  unfold linspaceEntry
  simp

/-- Without a grid the first electrode's data points are used: position `i` along an axis is `origin + i * spacing`. -/
theorem c70_default_grid {old : Bool} {s : Sys} {typ : PTyp} {slc : Char} {slcAt : ℝ} {fill : Bool} {divideMax : ℝ} {lineNum : Nat}
    {levels : Option (List ℝ)} {vmin : Option ℝ} {r : Contour}
    (h : plotContour old s none typ slc slcAt fill divideMax lineNum levels vmin = .ok r) :
    ∃ e els data d origin spacing, s.els = e :: els ∧ e.shape = .grid (d :: data) origin spacing ∧
      r.x = (List.range ([d.n, d.m, d.k].getD (planeAxes slc).1 0)).map (fun i : Nat =>
        [origin.x, origin.y, origin.z].getD (planeAxes slc).1 0 + i * [spacing.x, spacing.y, spacing.z].getD (planeAxes slc).1 0) ∧
      r.y = (List.range ([d.n, d.m, d.k].getD (planeAxes slc).2 0)).map (fun i : Nat =>
        [origin.x, origin.y, origin.z].getD (planeAxes slc).2 0 + i * [spacing.x, spacing.y, spacing.z].getD (planeAxes slc).2 0) := by
  obtain ⟨g, xyz, sec, axis, v, t, hg, hx, hs, h1, h2, -⟩ := contour_inv h
  unfold contourGridArg contourGrid at hg
  cases hels : s.els with
  | nil => simp [hels] at hg
  | cons e els =>
    simp only [hels] at hg
    split at hg
    · rename_i data origin spacing hsh
      cases data with
      | nil => cases hg
      | cons d data =>
        simp only at hg
        injection hg with hg
        subst hg
        obtain ⟨a, ha, hxa⟩ := contourXyz_axis hx h1
        obtain ⟨b, hb, hyb⟩ := contourXyz_axis hx h2
        refine ⟨e, els, data, d, origin, spacing, rfl, hsh, ?_, ?_⟩
        · rw [hxa]
          rcases contourSec_cases hs with ⟨rfl, rfl, -⟩ | ⟨rfl, rfl, -⟩ | ⟨rfl, rfl, -⟩ <;> obtain rfl := Option.some.inj ha <;>
            refine List.map_congr_left fun i _ => ?_ <;> simp [planeAxes] <;> ring
        · rw [hyb]
          rcases contourSec_cases hs with ⟨rfl, rfl, -⟩ | ⟨rfl, rfl, -⟩ | ⟨rfl, rfl, -⟩ <;> obtain rfl := Option.some.inj hb <;>
            refine List.map_congr_left fun i _ => ?_ <;> simp [planeAxes] <;> ring
    · cases hg

/-- With a recent numpy a grid with different numbers of points per dimension cannot be plotted. -/
theorem c70_not_cubic (s : Sys) (g : Grid) (a b : GridAxis) (ha : a ∈ g) (hb : b ∈ g) (h : a.shape ≠ b.shape) (typ : PTyp) (slc : Char)
    (slcAt : ℝ) (fill : Bool) (divideMax : ℝ) (lineNum : Nat) (levels : Option (List ℝ)) (vmin : Option ℝ) :
    plotContour false s (some g) typ slc slcAt fill divideMax lineNum levels vmin = .error .valueError := by
  unfold plotContour
  simp only [contourGridArg, contourXyz, Bool.false_eq_true, if_false, c51_xyz_fails g a b ha hb h]

/-! A system with a cover electrode at one volt, drawn between the plane and the cover. -/

noncomputable def coverSys : Sys := ⟨[⟨"cover", 1, 0, .cover 1⟩], some 1⟩

theorem coverSys_potential (p : V3) : coverSys.potential [p] 0 .dc = .ok [[p.z]] := by
  have h0 : selectMap.length = 6 := by decide +kernel
  simp [coverSys, Sys.potential, electricalPotential, electricalStep, Elec.volt, Elec.potential, coverPotential, zeroRows, expandRows,
    expandTensor, pyGet, pySeq, pseudoPotential, Except.map, List.range_succ, scaleRows, pseudoRow, flatten, productIdx, toNArr]

example : ∃ r, plotContour false coverSys (some [⟨0, 1, 2⟩, ⟨0, 1, 2⟩, ⟨1 / 2, 1, 2⟩]) .dc 'x' 0 false 8 50 none none = .ok r ∧
    r.minp < r.maxp ∧ r.z = [[0, 0], [1, 1]] := by
  have hv : ∀ e1 e2, contourValue coverSys .dc (2, 0, 1) e1 e2 0 = .ok e2 := by
    intro e1 e2
    simp [contourValue, coverSys_potential]
  refine ⟨_, by
    simp [plotContour, contourGridArg, contourXyz, Grid.toXyz, contourSec, pyGet, List.range_succ, linspaceEntry, GridAxis.slice, hv, pySeq]
    rfl, ?_⟩
  norm_num

end Electrode
