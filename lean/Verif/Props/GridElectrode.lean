import Verif.Model.Grid
import Verif.Lemmas.Calculus
import Verif.Props.Tensor
import Verif.Props.Grid
import Mathlib.Analysis.Calculus.Deriv.MeanValue
import Mathlib.Topology.Algebra.Order.Floor
import Mathlib.Topology.Order.Lattice
import Mathlib.Data.List.GetD
import Mathlib.Analysis.Calculus.Deriv.Shift
import Verif.Lemmas.System

/-
C52: interpolation of grid data; C53: generation of derivative data.
-/
namespace Electrode

namespace Spec
/-- position of the voxel `(a, b, c)` -/
def node (origin spacing : V3) (a b c : Nat) : V3 :=
  ⟨origin.x + a * spacing.x, origin.y + b * spacing.y, origin.z + c * spacing.z⟩

/-- between the outermost of `n` samples -/
def between (o s : ℝ) (n : Nat) (x : ℝ) : Prop := o ≤ x ∧ x ≤ o + ((n : ℝ) - 1) * s

/-- within the box spanned by the samples -/
def InBox (origin spacing : V3) (d : Arr4) (p : V3) : Prop :=
  between origin.x spacing.x d.n p.x ∧ between origin.y spacing.y d.m p.y ∧ between origin.z spacing.z d.k p.z

/-- nearest coordinate between the outermost of `n` samples -/
noncomputable def nearest (o s : ℝ) (n : Nat) (x : ℝ) : ℝ := max o (min x (o + ((n : ℝ) - 1) * s))
end Spec
open Spec

/-! ### one dimension -/

theorem clamp_mem {n : Nat} (hn : 0 < n) (c : ℝ) : 0 ≤ clampCoord n c ∧ clampCoord n c ≤ (n : ℝ) - 1 := by
  have h1 : (1 : ℝ) ≤ n := by exact_mod_cast hn
  exact ⟨le_max_left _ _, max_le (by linarith) (min_le_right _ _)⟩

theorem clamp_of_mem {n : Nat} {c : ℝ} (h0 : 0 ≤ c) (h1 : c ≤ (n : ℝ) - 1) : clampCoord n c = c := by
  unfold clampCoord
  rw [min_eq_left h1, max_eq_right h0]

theorem floor_lt {n : Nat} (hn : 0 < n) (c : ℝ) : ⌊clampCoord n c⌋₊ < n := by
  obtain ⟨h0, h1⟩ := clamp_mem hn c
  rw [Nat.floor_lt h0]
  linarith

theorem interp1_congr {n : Nat} (hn : 0 < n) (f g : Nat → ℝ) (h : ∀ i < n, f i = g i) (c : ℝ) : interp1 n f c = interp1 n g c := by
  unfold interp1
  simp only
  rw [h _ (floor_lt hn c), h _ (by omega)]

theorem interp1_node {n : Nat} (f : Nat → ℝ) (a : Nat) (ha : a < n) : interp1 n f a = f a := by
  have h1 : (a : ℝ) ≤ (n : ℝ) - 1 := by
    have : ((a + 1 : ℕ) : ℝ) ≤ n := by exact_mod_cast ha
    push_cast at this; linarith
  unfold interp1
  simp only [clamp_of_mem (Nat.cast_nonneg a) h1, Nat.floor_natCast]
  ring

theorem interp1_affine {n : Nat} (hn : 0 < n) (al be : ℝ) (f : Nat → ℝ) (hf : ∀ i < n, f i = al + be * i) (c : ℝ) (h0 : 0 ≤ c)
    (h1 : c ≤ (n : ℝ) - 1) : interp1 n f c = al + be * c := by
  have hfl := floor_lt hn c
  unfold interp1
  rw [clamp_of_mem h0 h1] at hfl ⊢
  simp only
  rw [hf _ hfl, hf _ (by omega)]
  by_cases hi : ⌊c⌋₊ + 1 < n
  · rw [min_eq_left (by omega)]
    push_cast
    ring
  · have e : ⌊c⌋₊ = n - 1 := by omega
    have e2 : c = (⌊c⌋₊ : ℝ) := by
      refine le_antisymm ?_ (Nat.floor_le h0)
      rw [e, Nat.cast_sub (by omega)]
      simpa using h1
    rw [← e2]
    ring

theorem interp1_range {n : Nat} (hn : 0 < n) (f : Nat → ℝ) (lo hi : ℝ) (h : ∀ i < n, lo ≤ f i ∧ f i ≤ hi) (c : ℝ) :
    lo ≤ interp1 n f c ∧ interp1 n f c ≤ hi := by
  obtain ⟨c0, c1⟩ := clamp_mem hn c
  have hw0 : 0 ≤ clampCoord n c - ⌊clampCoord n c⌋₊ := sub_nonneg.2 (Nat.floor_le c0)
  have hw1 : clampCoord n c - ⌊clampCoord n c⌋₊ ≤ 1 := by linarith [Nat.lt_floor_add_one (clampCoord n c)]
  obtain ⟨a1, a2⟩ := h _ (floor_lt hn c)
  obtain ⟨b1, b2⟩ := h (min (⌊clampCoord n c⌋₊ + 1) (n - 1)) (by omega)
  unfold interp1
  simp only
  constructor <;> nlinarith

theorem interp1_clamp {n : Nat} (hn : 0 < n) (f : Nat → ℝ) (c : ℝ) : interp1 n f c = interp1 n f (clampCoord n c) := by
  obtain ⟨c0, c1⟩ := clamp_mem hn c
  unfold interp1
  rw [clamp_of_mem c0 c1]

/-- the part of the way from sample `i` to the next that lies below `c` -/
noncomputable def ramp (i : Nat) (c : ℝ) : ℝ := max 0 (min (c - i) 1)

theorem interp1_ramps {n : Nat} (hn : 0 < n) (f : Nat → ℝ) (c : ℝ) :
    interp1 n f c = f 0 + ∑ i ∈ Finset.range (n - 1), (f (i + 1) - f i) * ramp i (clampCoord n c) := by
  obtain ⟨c0, c1⟩ := clamp_mem hn c
  have hfl := floor_lt hn c
  unfold interp1
  simp only
  generalize clampCoord n c = c' at *
  have hle := Nat.floor_le c0
  have hlt := Nat.lt_floor_add_one c'
  generalize ⌊c'⌋₊ = k at *
  have low : ∀ i < k, ramp i c' = 1 := by
    intro i hi
    have : ((i + 1 : ℕ) : ℝ) ≤ k := by exact_mod_cast hi
    push_cast at this
    unfold ramp
    rw [min_eq_right (by linarith), max_eq_right zero_le_one]
  have tel : ∑ i ∈ Finset.range k, (f (i + 1) - f i) * ramp i c' = f k - f 0 := by
    rw [Finset.sum_congr rfl fun i hi => by rw [low i (Finset.mem_range.1 hi), mul_one]]
    exact Finset.sum_range_sub f k
  by_cases hk : k + 1 < n
  · obtain ⟨r, hr⟩ : ∃ r, n - 1 = k + (1 + r) := ⟨n - 1 - k - 1, by omega⟩
    rw [hr, Finset.sum_range_add, tel, Finset.sum_range_add]
    have high : ∀ i, ramp (k + (1 + i)) c' = 0 := by
      intro i
      unfold ramp
      push_cast
      refine max_eq_left (min_le_of_left_le ?_)
      have : (0 : ℝ) ≤ i := Nat.cast_nonneg i
      linarith
    have here : ramp k c' = c' - k := by
      unfold ramp
      rw [min_eq_left (by linarith), max_eq_right (by linarith)]
    simp only [high, mul_zero, Finset.sum_const_zero, add_zero, Finset.sum_range_one, here]
    rw [min_eq_left (by omega)]
    ring
  · have e : n - 1 = k := by omega
    rw [e, tel, min_eq_right (by omega)]
    ring

theorem interp1_continuous {X : Type*} [TopologicalSpace X] {n : Nat} (hn : 0 < n) (F : Nat → X → ℝ) (hF : ∀ i, Continuous (F i))
    (c : X → ℝ) (hc : Continuous c) : Continuous fun x => interp1 n (fun i => F i x) (c x) := by
  simp only [interp1_ramps hn]
  unfold ramp clampCoord
  fun_prop

/-! ### C52 -/

section C52
variable (name : String) (dc rf : ℝ) (data : List Arr4) (origin spacing : V3) (d i : Nat) (v : ℝ)

theorem compAt_grid (dat : Arr4) (hd : data[d]? = some dat) (hl : 2 * d + 1 ≤ dat.l) (hi : i < 2 * d + 1) (p : V3) :
    compAt ⟨name, dc, rf, .grid data origin spacing⟩ d i v p = v * mapCoordinates dat i (gridCoord origin spacing p) := by
  rw [compAt_eq ⟨name, dc, rf, .grid data origin spacing⟩ d i v p (show ∃ dat, data[d]? = some dat ∧ 2 * d + 1 ≤ dat.l from ⟨dat, hd, hl⟩) hi]
  simp only [Shape.contrib, hd, if_pos hi]

/-- **C52.** At a voxel the potential is the value stored there, times the voltage. -/
theorem c52_nodes (dat : Arr4) (hd : data[d]? = some dat) (hl : 2 * d + 1 ≤ dat.l) (hi : i < 2 * d + 1)
    (hs : spacing.x ≠ 0 ∧ spacing.y ≠ 0 ∧ spacing.z ≠ 0) (a b c : Nat) (ha : a < dat.n) (hb : b < dat.m) (hc : c < dat.k) :
    compAt ⟨name, dc, rf, .grid data origin spacing⟩ d i v (node origin spacing a b c) = v * dat.val a b c i := by
  rw [compAt_grid _ _ _ _ _ _ _ _ _ dat hd hl hi]
  obtain ⟨h1, h2, h3⟩ := hs
  simp only [gridCoord, node, add_sub_cancel_left, mul_div_assoc, div_self h1, div_self h2, div_self h3, mul_one, mapCoordinates]
  rw [interp1_node _ a ha, interp1_node _ b hb, interp1_node _ c hc]

theorem coord_mem {o s : ℝ} {n : Nat} (hs : 0 < s) {x : ℝ} (h : between o s n x) : 0 ≤ (x - o) / s ∧ (x - o) / s ≤ (n : ℝ) - 1 := by
  obtain ⟨h1, h2⟩ := h
  exact ⟨div_nonneg (by linarith) hs.le, by rw [div_le_iff₀ hs]; linarith⟩

/-- **C52.** Data that are an affine function of position are reproduced everywhere between the voxels. -/
theorem c52_affine (dat : Arr4) (hd : data[d]? = some dat) (hl : 2 * d + 1 ≤ dat.l) (hi : i < 2 * d + 1)
    (hs : 0 < spacing.x ∧ 0 < spacing.y ∧ 0 < spacing.z) (hn : 0 < dat.n ∧ 0 < dat.m ∧ 0 < dat.k) (f0 fx fy fz : ℝ)
    (hf : ∀ a b c : Nat, a < dat.n → b < dat.m → c < dat.k → let q := node origin spacing a b c
      dat.val a b c i = f0 + fx * q.x + fy * q.y + fz * q.z)
    (p : V3) (hp : InBox origin spacing dat p) :
    compAt ⟨name, dc, rf, .grid data origin spacing⟩ d i v p = v * (f0 + fx * p.x + fy * p.y + fz * p.z) := by
  rw [compAt_grid _ _ _ _ _ _ _ _ _ dat hd hl hi]
  obtain ⟨h1, h2, h3⟩ := hs
  obtain ⟨n1, n2, n3⟩ := hn
  obtain ⟨p1, p2, p3⟩ := hp
  congr 1
  obtain ⟨x0, x1⟩ := coord_mem h1 p1
  obtain ⟨y0, y1⟩ := coord_mem h2 p2
  obtain ⟨z0, z1⟩ := coord_mem h3 p3
  unfold mapCoordinates
  simp only [gridCoord]
  rw [interp1_affine n1 (f0 + fx * origin.x + fy * p.y + fz * p.z) (fx * spacing.x) _ ?_ _ x0 x1]
  · field_simp; ring
  intro a ha
  rw [interp1_affine n2 (f0 + fx * (origin.x + a * spacing.x) + fy * origin.y + fz * p.z) (fy * spacing.y) _ ?_ _ y0 y1]
  · field_simp; ring
  intro b hb
  rw [interp1_affine n3 (f0 + fx * (origin.x + a * spacing.x) + fy * (origin.y + b * spacing.y) + fz * origin.z) (fz * spacing.z) _ ?_ _ z0 z1]
  · field_simp; ring
  intro c hc
  rw [hf a b c ha hb hc]
  simp only [node]
  ring

/-- **C52.** The interpolated value never leaves the range of the stored values. -/
theorem c52_range (dat : Arr4) (hd : data[d]? = some dat) (hl : 2 * d + 1 ≤ dat.l) (hi : i < 2 * d + 1)
    (hn : 0 < dat.n ∧ 0 < dat.m ∧ 0 < dat.k) (lo hi' : ℝ)
    (hf : ∀ a b c : Nat, a < dat.n → b < dat.m → c < dat.k → lo ≤ dat.val a b c i ∧ dat.val a b c i ≤ hi') (p : V3) :
    ∃ w, lo ≤ w ∧ w ≤ hi' ∧ compAt ⟨name, dc, rf, .grid data origin spacing⟩ d i v p = v * w := by
  obtain ⟨n1, n2, n3⟩ := hn
  refine ⟨_, ?_, ?_, compAt_grid _ _ _ _ _ _ _ _ _ dat hd hl hi p⟩
  all_goals
    unfold mapCoordinates
    have := interp1_range n1 _ lo hi' (fun a ha => interp1_range n2 _ lo hi' (fun b hb =>
      interp1_range n3 _ lo hi' (fun c hc => hf a b c ha hb hc) (gridCoord origin spacing p).z) (gridCoord origin spacing p).y)
      (gridCoord origin spacing p).x
    tauto

theorem clamp_coord {o s : ℝ} (hs : 0 < s) (n : Nat) (x : ℝ) : (nearest o s n x - o) / s = clampCoord n ((x - o) / s) := by
  unfold nearest clampCoord
  rw [← max_sub_sub_right, ← min_sub_sub_right, ← max_div_div_right hs.le, ← min_div_div_right hs.le, sub_self, zero_div,
    add_sub_cancel_left, mul_div_assoc, div_self hs.ne', mul_one]

/-- **C52.** Outside the box of the voxels the potential is that of the nearest position in it. -/
theorem c52_edge (dat : Arr4) (hd : data[d]? = some dat) (hl : 2 * d + 1 ≤ dat.l) (hi : i < 2 * d + 1)
    (hs : 0 < spacing.x ∧ 0 < spacing.y ∧ 0 < spacing.z) (hn : 0 < dat.n ∧ 0 < dat.m ∧ 0 < dat.k) (p : V3) :
    compAt ⟨name, dc, rf, .grid data origin spacing⟩ d i v p = compAt ⟨name, dc, rf, .grid data origin spacing⟩ d i v
      ⟨nearest origin.x spacing.x dat.n p.x, nearest origin.y spacing.y dat.m p.y, nearest origin.z spacing.z dat.k p.z⟩ := by
  rw [compAt_grid _ _ _ _ _ _ _ _ _ dat hd hl hi, compAt_grid _ _ _ _ _ _ _ _ _ dat hd hl hi]
  obtain ⟨h1, h2, h3⟩ := hs
  obtain ⟨n1, n2, n3⟩ := hn
  congr 1
  unfold mapCoordinates
  simp only [gridCoord, clamp_coord h1, clamp_coord h2, clamp_coord h3]
  rw [← interp1_clamp n1]
  refine interp1_congr n1 _ _ (fun a _ => ?_) _
  rw [← interp1_clamp n2]
  refine interp1_congr n2 _ _ (fun b _ => ?_) _
  rw [← interp1_clamp n3]

theorem mapCoordinates_continuous (dat : Arr4) (hn : 0 < dat.n ∧ 0 < dat.m ∧ 0 < dat.k) :
    Continuous fun q : ℝ × ℝ × ℝ => mapCoordinates dat i ⟨q.1, q.2.1, q.2.2⟩ := by
  obtain ⟨n1, n2, n3⟩ := hn
  have h3 : ∀ a b, Continuous fun q : ℝ × ℝ × ℝ => interp1 dat.k (fun e => dat.val a b e i) q.2.2 := fun a b =>
    interp1_continuous n3 (fun e _ => dat.val a b e i) (fun _ => continuous_const) (fun q : ℝ × ℝ × ℝ => q.2.2) (by fun_prop)
  have h2 : ∀ a, Continuous fun q : ℝ × ℝ × ℝ => interp1 dat.m (fun b => interp1 dat.k (fun e => dat.val a b e i) q.2.2) q.2.1 :=
    fun a => interp1_continuous n2 (fun b (q : ℝ × ℝ × ℝ) => interp1 dat.k (fun e => dat.val a b e i) q.2.2) (h3 a) (fun q : ℝ × ℝ × ℝ => q.2.1) (by fun_prop)
  exact interp1_continuous n1 (fun a (q : ℝ × ℝ × ℝ) => interp1 dat.m (fun b => interp1 dat.k (fun e => dat.val a b e i) q.2.2) q.2.1) h2
    (fun q : ℝ × ℝ × ℝ => q.1) (by fun_prop)

/-- **C52.** The potential is a continuous function of position. -/
theorem c52_continuous (dat : Arr4) (hd : data[d]? = some dat) (hl : 2 * d + 1 ≤ dat.l) (hi : i < 2 * d + 1)
    (hn : 0 < dat.n ∧ 0 < dat.m ∧ 0 < dat.k) :
    Continuous fun q : ℝ × ℝ × ℝ => compAt ⟨name, dc, rf, .grid data origin spacing⟩ d i v ⟨q.1, q.2.1, q.2.2⟩ := by
  have e : (fun q : ℝ × ℝ × ℝ => compAt ⟨name, dc, rf, .grid data origin spacing⟩ d i v ⟨q.1, q.2.1, q.2.2⟩) =
      fun q => v * (fun q : ℝ × ℝ × ℝ => mapCoordinates dat i ⟨q.1, q.2.1, q.2.2⟩)
        ((q.1 - origin.x) / spacing.x, (q.2.1 - origin.y) / spacing.y, (q.2.2 - origin.z) / spacing.z) := by
    funext q
    rw [compAt_grid _ _ _ _ _ _ _ _ _ dat hd hl hi]
    rfl
  rw [e]
  refine continuous_const.mul ((mapCoordinates_continuous i dat hn).comp ?_)
  fun_prop

/-- a grid of two by two by two voxels with potential `x` -/
noncomputable def exGrid : Arr4 := ⟨2, 2, 2, 1, fun a _ _ _ => a⟩

/-- it meets the hypotheses -/
example : compAt ⟨"", 0, 0, .grid [exGrid] ⟨0, 0, 0⟩ ⟨1, 1, 1⟩⟩ 0 0 3 ⟨1 / 2, 0, 7⟩ = 3 / 2 := by
  have h1 : ([exGrid] : List Arr4)[0]? = some exGrid := rfl
  have h2 : 2 * 0 + 1 ≤ exGrid.l := le_refl 1
  have hn : 0 < exGrid.n ∧ 0 < exGrid.m ∧ 0 < exGrid.k := ⟨Nat.two_pos, Nat.two_pos, Nat.two_pos⟩
  have hs : (0 : ℝ) < 1 ∧ (0 : ℝ) < 1 ∧ (0 : ℝ) < 1 := ⟨one_pos, one_pos, one_pos⟩
  rw [c52_edge "" 0 0 [exGrid] ⟨0, 0, 0⟩ ⟨1, 1, 1⟩ 0 0 3 exGrid h1 h2 Nat.one_pos hs hn,
    c52_affine "" 0 0 [exGrid] ⟨0, 0, 0⟩ ⟨1, 1, 1⟩ 0 0 3 exGrid h1 h2 Nat.one_pos hs hn 0 1 0 0]
  · norm_num [nearest, exGrid]
  · intro a b c _ _ _; simp [node, exGrid]
  · norm_num [InBox, between, nearest, exGrid]

end C52

/-! ### C53 -/

theorem genStep_inv (spacing : V3) (data data' : List Arr4) (d : Nat) (h : gridGenStep spacing data d = .ok data') :
    (d < data.length ∧ data' = data ∨
      d = data.length ∧ ∃ new, gridDerive data spacing d = .ok new ∧ data' = data ++ [new]) ∧
    ∃ dat, data'[d]? = some dat ∧ dat.l = 2 * d + 1 ∧
      (0 < d → ∃ p, data'[d - 1]? = some p ∧ (dat.n, dat.m, dat.k) = (p.n, p.m, p.k)) := by
  have tail : ∀ D : List Arr4, (match D[d]? with
      | none => (Except.error PyErr.indexError : Py (List Arr4))
      | some e =>
        if e.l ≠ 2 * d + 1 then .error .assertionError
        else if d = 0 then .ok D
        else match D[d - 1]? with
          | none => .error .indexError
          | some p => if (e.n, e.m, e.k) = (p.n, p.m, p.k) then .ok D else .error .assertionError) = .ok data' →
      D = data' ∧ ∃ dat, D[d]? = some dat ∧ dat.l = 2 * d + 1 ∧
        (0 < d → ∃ p, D[d - 1]? = some p ∧ (dat.n, dat.m, dat.k) = (p.n, p.m, p.k)) := by
    intro D hD
    cases he : D[d]? with
    | none => rw [he] at hD; cases hD
    | some e =>
      rw [he] at hD
      simp only at hD
      split at hD
      · cases hD
      · rename_i hl
        split at hD
        · rename_i h0
          injection hD with hD
          exact ⟨hD, e, rfl, not_not.1 hl, fun h => by omega⟩
        · cases hp : D[d - 1]? with
          | none => rw [hp] at hD; cases hD
          | some p =>
            rw [hp] at hD
            simp only at hD
            split at hD
            · rename_i heq
              injection hD with hD
              exact ⟨hD, e, rfl, not_not.1 hl, fun _ => ⟨p, rfl, heq⟩⟩
            · cases hD
  unfold gridGenStep at h
  by_cases hd : data.length < d + 1
  · rw [if_pos hd] at h
    cases hg : gridDerive data spacing d with
    | error e => rw [hg] at h; cases h
    | ok new =>
      rw [hg] at h
      simp only at h
      obtain ⟨rfl, dat, h1, h2, h3⟩ := tail (data ++ [new]) h
      have hlen : d < (data ++ [new]).length := (List.getElem?_eq_some_iff.1 h1).1
      rw [List.length_append, List.length_singleton] at hlen
      exact ⟨Or.inr ⟨by omega, new, rfl, rfl⟩, dat, h1, h2, h3⟩
  · rw [if_neg hd] at h
    obtain ⟨rfl, dat, h1, h2, h3⟩ := tail data h
    exact ⟨Or.inl ⟨by omega, rfl⟩, dat, h1, h2, h3⟩

theorem generate_succ (data : List Arr4) (spacing : V3) (M : Nat) (data' : List Arr4)
    (h : gridGenerate data spacing (M + 1) = .ok data') :
    ∃ D, gridGenerate data spacing M = .ok D ∧ gridGenStep spacing D M = .ok data' := by
  unfold gridGenerate at h ⊢
  rw [List.range_succ, List.foldlM_append] at h
  cases hD : (List.range M).foldlM (gridGenStep spacing) data with
  | error e => rw [hD] at h; cases h
  | ok D =>
    rw [hD] at h
    refine ⟨D, rfl, ?_⟩
    have h' : [M].foldlM (gridGenStep spacing) D = .ok data' := h
    rw [List.foldlM_cons] at h'
    cases hs : gridGenStep spacing D M with
    | error e => rw [hs] at h'; cases h'
    | ok E =>
      rw [hs] at h'
      have h'' : [].foldlM (gridGenStep spacing) E = .ok data' := h'
      rw [List.foldlM_nil] at h''
      exact h''

theorem generate_inv (data : List Arr4) (spacing : V3) (M : Nat) (data' : List Arr4)
    (h : gridGenerate data spacing M = .ok data') :
    data <+: data' ∧ data'.length = max data.length M ∧
      ∀ d < M, ∃ dat, data'[d]? = some dat ∧ dat.l = 2 * d + 1 ∧
        (0 < d → ∃ p, data'[d - 1]? = some p ∧ (dat.n, dat.m, dat.k) = (p.n, p.m, p.k)) ∧
        (data.length ≤ d → gridDerive (data'.take d) spacing d = .ok dat) := by
  induction M generalizing data' with
  | zero =>
    have h' : data = data' := by
      have : (Except.ok data : Py (List Arr4)) = .ok data' := h
      injection this
    subst h'
    exact ⟨List.prefix_refl _, by simp, fun d hd => absurd hd (by omega)⟩
  | succ M ih =>
    obtain ⟨D, h1, h2⟩ := generate_succ data spacing M data' h
    obtain ⟨i1, i2, i3⟩ := ih D h1
    obtain ⟨hc, dat, e1, e2, e3⟩ := genStep_inv spacing D data' M h2
    have hpre : D <+: data' := by
      rcases hc with ⟨_, rfl⟩ | ⟨_, new, _, rfl⟩
      · exact List.prefix_refl _
      · exact List.prefix_append _ _
    refine ⟨i1.trans hpre, ?_, fun d hd => ?_⟩
    · rcases hc with ⟨hlt, rfl⟩ | ⟨heq, new, _, rfl⟩
      · omega
      · rw [List.length_append, List.length_singleton]; omega
    · by_cases hdM : d = M
      · subst hdM
        refine ⟨dat, e1, e2, e3, fun hle => ?_⟩
        rcases hc with ⟨hlt, rfl⟩ | ⟨heq, new, hnew, rfl⟩
        · omega
        · rw [List.take_append_of_le_length heq.le, List.take_of_length_le heq.ge, hnew]
          rw [heq] at e1
          rw [List.getElem?_append_right (le_refl _)] at e1
          simp at e1
          rw [e1]
      · have hd' : d < M := by omega
        obtain ⟨q, q1, q2, q3, q4⟩ := i3 d hd'
        have hDlen : M ≤ D.length := by rw [i2]; exact le_max_right _ _
        have get : ∀ k < D.length, data'[k]? = D[k]? := fun k hk => by
          obtain ⟨t, rfl⟩ := hpre
          rw [List.getElem?_append_left hk]
        refine ⟨q, by rw [get d (by omega), q1], q2, fun h0 => ?_, fun hle => ?_⟩
        · rw [get (d - 1) (by omega)]
          exact q3 h0
        · rw [← q4 hle]
          congr 1
          obtain ⟨t, rfl⟩ := hpre
          rw [List.take_append_of_le_length (by omega)]

/-- **C53 (partial).** After `generate(maxderiv)` every derivative order *below* `maxderiv` is available with its `2 order + 1`
components on the same grid, and the orders that were there are kept.  Missing: the order `maxderiv` itself, see
`c53_last_order_missing`. -/
theorem c53_orders_partial (data : List Arr4) (spacing : V3) (maxderiv : Nat) (data' : List Arr4)
    (h : gridGenerate data spacing maxderiv = .ok data') :
    (∀ (d : Nat) dat, data[d]? = some dat → data'[d]? = some dat) ∧
      ∀ d < maxderiv, ∃ dat d0, data'[d]? = some dat ∧ data[0]? = some d0 ∧ dat.l = 2 * d + 1 ∧
        dat.n = d0.n ∧ dat.m = d0.m ∧ dat.k = d0.k := by
  obtain ⟨h1, h2, h3⟩ := generate_inv data spacing maxderiv data' h
  have keep : ∀ (d : Nat) dat, data[d]? = some dat → data'[d]? = some dat := by
    intro d dat hd
    obtain ⟨t, rfl⟩ := h1
    rw [List.getElem?_append_left (List.getElem?_eq_some_iff.1 hd).1, hd]
  refine ⟨keep, fun d hd => ?_⟩
  have base : 0 < maxderiv → ∃ d0, data[0]? = some d0 ∧ data'[0]? = some d0 := by
    intro hM
    obtain ⟨dat, e1, -, -, e4⟩ := h3 0 hM
    cases hd0 : data[0]? with
    | some d0 => exact ⟨d0, rfl, keep 0 d0 hd0⟩
    | none =>
      have : data.length ≤ 0 := List.getElem?_eq_none_iff.1 hd0
      have h := e4 this
      cases h
  obtain ⟨d0, b1, b2⟩ := base (by omega)
  induction d with
  | zero =>
    obtain ⟨dat, e1, e2, -, -⟩ := h3 0 hd
    rw [b2] at e1
    injection e1 with e1
    subst e1
    exact ⟨d0, d0, b2, b1, e2, rfl, rfl, rfl⟩
  | succ d ih =>
    obtain ⟨p, d1, p1, p2, -, p4, p5, p6⟩ := ih (by omega)
    rw [b1] at p2
    injection p2 with p2
    subst p2
    obtain ⟨dat, e1, e2, e3, -⟩ := h3 (d + 1) hd
    obtain ⟨p', q1, q2⟩ := e3 (by omega)
    rw [Nat.add_sub_cancel, p1] at q1
    injection q1 with q1
    subst q1
    simp only [Prod.mk.injEq] at q2
    exact ⟨dat, d0, e1, b1, e2, q2.1.trans p4, q2.2.1.trans p5, q2.2.2.trans p6⟩

/-- **The order `maxderiv` is not generated**: asking the electrode for it fails. -/
theorem c53_last_order_missing (name : String) (dc rf : ℝ) (origin : V3) (data : List Arr4) (spacing : V3) (maxderiv : Nat)
    (data' : List Arr4) (h : gridGenerate data spacing maxderiv = .ok data') (hl : data.length ≤ maxderiv) (x : List V3) (v : ℝ)
    (out : Option (List (List ℝ))) :
    Elec.potential ⟨name, dc, rf, .grid data' origin spacing⟩ x maxderiv v out = .error .indexError := by
  obtain ⟨-, h2, -⟩ := generate_inv data spacing maxderiv data' h
  refine Elec.potential_err _ x maxderiv v out ?_
  rintro ⟨dat, hd, -⟩
  have := (List.getElem?_eq_some_iff.1 hd).1
  omega

theorem foldlM_ok {α β : Type} (f : β → α → Py β) (l : List α) (b : β) (h : ∀ a ∈ l, f b a = .ok b) : l.foldlM f b = .ok b := by
  induction l with
  | nil => rfl
  | cons a l ih =>
    rw [List.foldlM_cons, h a (List.mem_cons_self ..)]
    exact ih fun a' h' => h a' (List.mem_cons_of_mem _ h')

/-- **C53.** Repeating `generate` changes nothing. -/
theorem c53_repeat (data : List Arr4) (spacing : V3) (maxderiv : Nat) (data' : List Arr4)
    (h : gridGenerate data spacing maxderiv = .ok data') : gridGenerate data' spacing maxderiv = .ok data' := by
  obtain ⟨-, h2, h3⟩ := generate_inv data spacing maxderiv data' h
  refine foldlM_ok _ _ _ fun d hd => ?_
  have hd := List.mem_range.1 hd
  obtain ⟨dat, e1, e2, e3, -⟩ := h3 d hd
  unfold gridGenStep
  rw [if_neg (by omega)]
  simp only [e1, e2]
  by_cases h0 : d = 0
  · simp [h0]
  · obtain ⟨p, p1, p2⟩ := e3 (by omega)
    simp [h0, p1, p2]

/-- without data nothing can be generated -/
theorem c53_empty (spacing : V3) (maxderiv : Nat) (hM : 0 < maxderiv) : ∀ data', gridGenerate [] spacing maxderiv ≠ .ok data' := by
  intro data' h
  obtain ⟨-, -, h3⟩ := generate_inv [] spacing maxderiv data' h
  obtain ⟨dat, -, -, -, e4⟩ := h3 0 hM
  have h := e4 (Nat.le_refl 0)
  cases h

theorem gridDerive_eq (data : List Arr4) (spacing : V3) (d : Nat) (h1 : 1 ≤ d) (h5 : d ≤ 5) (o : Arr4) (ho : data[d - 1]? = some o)
    (hl : o.l = 2 * (d - 1) + 1) (hn : 2 ≤ o.n ∧ 2 ≤ o.m ∧ 2 ≤ o.k) :
    ∃ new, gridDerive data spacing d = .ok new ∧ new.n = o.n ∧ new.m = o.m ∧ new.k = o.k ∧ new.l = 2 * d + 1 ∧
      ∀ i < 2 * d + 1, ∃ j a, constructDerivative d i = .ok ((d - 1, j), a) ∧
        ∀ x y z, new.val x y z i = gradient3 o spacing j a x y z := by
  have hget : pyGetInt data ((d : Int) - 1) = .ok o := by
    unfold pyGetInt
    rw [if_pos (by omega)]
    have : ((d : Int) - 1).toNat = d - 1 := by omega
    rw [this, pyGet, ho]
  have hf : ∀ i < 2 * d + 1, ∃ ja : Nat × Nat, constructDerivative d i = .ok ((d - 1, ja.1), ja.2) ∧ ja.1 < o.l := by
    intro i hi
    obtain ⟨j, a, s, s', l, l', c1, -, -, c4, -⟩ := c06_construct_derivative (R := ℝ) d i h1 h5 hi
    refine ⟨(j, a.val), c1, ?_⟩
    rw [hl]
    by_contra hcon
    have := (c05_deriv_to_name_domain (d - 1) j).2 (by omega)
    rw [this] at c4
    cases c4
  choose! f hf1 hf2 using hf
  unfold gridDerive
  rw [hget]
  simp only
  have hseq : pySeq ((List.range (2 * d + 1)).map (deriveSource o d)) = .ok ((List.range (2 * d + 1)).map f) := by
    refine pySeq_map_ok _ _ f fun i hi => ?_
    have hi := List.mem_range.1 hi
    unfold deriveSource
    simp only [hf1 i hi]
    rw [if_neg (by have := hf2 i hi; omega), if_neg (by omega)]
  rw [hseq]
  refine ⟨_, rfl, rfl, rfl, rfl, rfl, fun i hi => ⟨(f i).1, (f i).2, hf1 i hi, fun x y z => ?_⟩⟩
  have : ((List.range (2 * d + 1)).map f).getD i (0, 0) = f i := by
    rw [List.getD_eq_getElem _ _ (by simpa using hi)]
    simp
  simp only [this]

/-- **C53.** Generation succeeds for the orders 0 to 5, from any number of given orders on a common grid with at least two
samples along each axis. -/
theorem c53_succeeds (data : List Arr4) (spacing : V3) (maxderiv : Nat) (hM : maxderiv ≤ 6) (n m k : Nat)
    (hn : 2 ≤ n ∧ 2 ≤ m ∧ 2 ≤ k) (h0 : 0 < data.length)
    (hdat : ∀ (d : Nat) dat, data[d]? = some dat → dat.l = 2 * d + 1 ∧ dat.n = n ∧ dat.m = m ∧ dat.k = k) :
    ∃ data', gridGenerate data spacing maxderiv = .ok data' := by
  suffices h : ∃ data', gridGenerate data spacing maxderiv = .ok data' ∧ maxderiv ≤ data'.length ∧ 0 < data'.length ∧
      ∀ (d : Nat) dat, data'[d]? = some dat → dat.l = 2 * d + 1 ∧ dat.n = n ∧ dat.m = m ∧ dat.k = k by
    obtain ⟨data', h, -⟩ := h
    exact ⟨data', h⟩
  induction maxderiv with
  | zero => exact ⟨data, rfl, Nat.zero_le _, h0, hdat⟩
  | succ M ih =>
    obtain ⟨D, hD, hlen, hpos, hall⟩ := ih (by omega)
    have hstep : ∃ E, gridGenStep spacing D M = .ok E ∧ M + 1 ≤ E.length ∧ 0 < E.length ∧
        ∀ (d : Nat) dat, E[d]? = some dat → dat.l = 2 * d + 1 ∧ dat.n = n ∧ dat.m = m ∧ dat.k = k := by
      have tail : ∀ E : List Arr4, M < E.length →
          (∀ (d : Nat) dat, E[d]? = some dat → dat.l = 2 * d + 1 ∧ dat.n = n ∧ dat.m = m ∧ dat.k = k) →
          (match E[M]? with
          | none => (Except.error PyErr.indexError : Py (List Arr4))
          | some e =>
            if e.l ≠ 2 * M + 1 then .error .assertionError
            else if M = 0 then .ok E
            else match E[M - 1]? with
              | none => .error .indexError
              | some p => if (e.n, e.m, e.k) = (p.n, p.m, p.k) then .ok E else .error .assertionError) = .ok E := by
        intro E hE hall
        obtain ⟨e, he⟩ : ∃ e, E[M]? = some e := ⟨_, List.getElem?_eq_getElem hE⟩
        obtain ⟨p, hp⟩ : ∃ p, E[M - 1]? = some p := ⟨_, List.getElem?_eq_getElem (by omega)⟩
        obtain ⟨e1, e2, e3, e4⟩ := hall M e he
        obtain ⟨-, p2, p3, p4⟩ := hall (M - 1) p hp
        simp only [he, hp, e1, e2, e3, e4, p2, p3, p4]
        by_cases hM0 : M = 0 <;> simp [hM0]
      unfold gridGenStep
      by_cases hl : D.length < M + 1
      · have hM1 : 1 ≤ M := by omega
        obtain ⟨o, ho⟩ : ∃ o, D[M - 1]? = some o := ⟨_, List.getElem?_eq_getElem (by omega)⟩
        obtain ⟨o1, o2, o3, o4⟩ := hall (M - 1) o ho
        obtain ⟨new, hnew, w1, w2, w3, w4, -⟩ := gridDerive_eq D spacing M hM1 (by omega) o ho o1 (by rw [o2, o3, o4]; exact hn)
        have hall' : ∀ (d : Nat) dat, (D ++ [new])[d]? = some dat → dat.l = 2 * d + 1 ∧ dat.n = n ∧ dat.m = m ∧ dat.k = k := by
          intro d dat hd
          by_cases hlt : d < D.length
          · rw [List.getElem?_append_left hlt] at hd
            exact hall d dat hd
          · have h1 := (List.getElem?_eq_some_iff.1 hd).1
            rw [List.length_append, List.length_singleton] at h1
            have h2 : d = D.length := by omega
            subst h2
            rw [List.getElem?_append_right (le_refl _)] at hd
            simp at hd
            subst hd
            exact ⟨by omega, by omega, by omega, by omega⟩
        rw [if_pos hl, hnew]
        simp only
        refine ⟨D ++ [new], tail _ (by simp; omega) hall', by simp; omega, by simp, hall'⟩
      · rw [if_neg hl]
        exact ⟨D, tail D (by omega) hall, by omega, hpos, hall⟩
    obtain ⟨E, hE, r⟩ := hstep
    refine ⟨E, ?_, r⟩
    unfold gridGenerate at hD ⊢
    rw [List.range_succ, List.foldlM_append, hD]
    show [M].foldlM (gridGenStep spacing) D = .ok E
    rw [List.foldlM_cons, hE]
    rfl

/-! ### generated values are derivatives near by -/

theorem gradient1_mean_value (n i : Nat) (hn : 2 ≤ n) (hi : i < n) (h : ℝ) (hh : 0 < h) (F F' : ℝ → ℝ)
    (hF : ∀ t, -(i * h) ≤ t → t ≤ ((n : ℝ) - 1 - i) * h → HasDerivAt F (F' t) t) (f : Nat → ℝ)
    (hf : ∀ j < n, f j = F (((j : ℝ) - i) * h)) :
    ∃ t, |t| ≤ h ∧ -(i * h) ≤ t ∧ t ≤ ((n : ℝ) - 1 - i) * h ∧ gradient1 n h f i = F' t := by
  have mv : ∀ a b : ℝ, a < b → -(i * h) ≤ a → b ≤ ((n : ℝ) - 1 - i) * h → ∃ t, a ≤ t ∧ t ≤ b ∧ F' t = (F b - F a) / (b - a) := by
    intro a b hab ha hb
    obtain ⟨c, hc, e⟩ := exists_hasDerivAt_eq_slope F F' hab
      (fun x hx => (hF x (by linarith [hx.1]) (by linarith [hx.2])).continuousAt.continuousWithinAt)
      (fun x hx => hF x (by linarith [hx.1]) (by linarith [hx.2]))
    exact ⟨c, hc.1.le, hc.2.le, e⟩
  have hn2 : (2 : ℝ) ≤ n := by exact_mod_cast hn
  unfold gradient1
  by_cases h0 : i = 0
  · subst h0
    simp only [if_true]
    obtain ⟨t, t1, t2, t3⟩ := mv 0 h hh (by simp) (by push_cast; nlinarith)
    refine ⟨t, by rw [abs_of_nonneg t1]; exact t2, by simpa using t1, by push_cast; nlinarith, ?_⟩
    rw [t3, hf 1 (by omega), hf 0 (by omega)]
    simp
  · rw [if_neg h0]
    have hi1 : (1 : ℝ) ≤ i := by exact_mod_cast (by omega : 1 ≤ i)
    have em : ((i - 1 : ℕ) : ℝ) = (i : ℝ) - 1 := by rw [Nat.cast_sub (by omega)]; simp
    by_cases h1 : i + 1 = n
    · rw [if_pos h1]
      have hin : (i : ℝ) + 1 = n := by exact_mod_cast h1
      obtain ⟨t, t1, t2, t3⟩ := mv (-h) 0 (by linarith) (by nlinarith) (by nlinarith)
      refine ⟨t, by rw [abs_of_nonpos t2]; linarith, by nlinarith, by nlinarith, ?_⟩
      rw [t3, hf i hi, hf (i - 1) (by omega), em]
      have e1 : ((i : ℝ) - i) * h = 0 := by ring
      have e2 : ((i : ℝ) - 1 - i) * h = -h := by ring
      rw [e1, e2]
      congr 1
      ring
    · rw [if_neg h1]
      have hin : (i : ℝ) + 2 ≤ n := by exact_mod_cast (by omega : i + 2 ≤ n)
      obtain ⟨t, t1, t2, t3⟩ := mv (-h) h (by linarith) (by nlinarith) (by nlinarith)
      refine ⟨t, abs_le.2 ⟨t1, t2⟩, by nlinarith, by nlinarith, ?_⟩
      rw [t3, hf (i + 1) (by omega), hf (i - 1) (by omega), em]
      push_cast
      have e1 : ((i : ℝ) + 1 - i) * h = h := by ring
      have e2 : ((i : ℝ) - 1 - i) * h = -h := by ring
      rw [e1, e2]
      congr 1
      ring

theorem shift_shift (p : V3) (a : Fin 3) (s t : ℝ) : shift (shift p a s) a t = shift p a (s + t) := by
  fin_cases a <;> simp [shift, add_assoc]

theorem partial_at (a : Fin 3) (f : V3 → ℝ) (f' : V3 → ℝ) (p : V3) (t : ℝ) (h : HasPartial a f (f' (shift p a t)) (shift p a t)) :
    HasDerivAt (fun s => f (shift p a s)) (f' (shift p a t)) t := by
  unfold HasPartial at h
  simp only [shift_shift] at h
  have h2 : HasDerivAt (fun s => f (shift p a (t + s))) (f' (shift p a t)) (t - t) := by rw [sub_self]; exact h
  have h3 := HasDerivAt.comp_sub_const t t h2
  simpa using h3

theorem gridDerive_inv (data : List Arr4) (spacing : V3) (d : Nat) (new o : Arr4) (h1 : 1 ≤ d) (ho : data[d - 1]? = some o)
    (h : gridDerive data spacing d = .ok new) : d ≤ 5 ∧ 2 ≤ o.n ∧ 2 ≤ o.m ∧ 2 ≤ o.k := by
  have hget : pyGetInt data ((d : Int) - 1) = .ok o := by
    unfold pyGetInt
    rw [if_pos (by omega)]
    have : ((d : Int) - 1).toNat = d - 1 := by omega
    rw [this, pyGet, ho]
  unfold gridDerive at h
  rw [hget] at h
  simp only at h
  cases hseq : pySeq ((List.range (2 * d + 1)).map (deriveSource o d)) with
  | error e => rw [hseq] at h; cases h
  | ok r =>
    obtain ⟨b, -, hb⟩ := (pySeq_map_inv _ _ _ hseq).2 0 0 (by rw [List.getElem?_range (by omega)])
    unfold deriveSource at hb
    cases hc : constructDerivative d 0 with
    | error e => rw [hc] at hb; cases hb
    | ok q =>
      obtain ⟨⟨q1, q2⟩, q3⟩ := q
      rw [hc] at hb
      simp only at hb
      split at hb
      · cases hb
      · split at hb
        · cases hb
        · rename_i hne
          refine ⟨?_, by omega, by omega, by omega⟩
          by_contra hcon
          rw [c06_construct_derivative_error d 0 (by omega)] at hc
          cases hc

theorem nodeBetween (o s : ℝ) (hs : 0 < s) (n a : Nat) (ha : a < n) (t : ℝ) (h1 : -(a * s) ≤ t) (h2 : t ≤ ((n : ℝ) - 1 - a) * s) :
    between o s n (o + a * s + t) := by
  unfold between
  constructor <;> nlinarith

theorem node_between0 (o s : ℝ) (hs : 0 < s) (n a : Nat) (ha : a < n) : between o s n (o + a * s) := by
  have h1 : ((a + 1 : ℕ) : ℝ) ≤ n := by exact_mod_cast ha
  push_cast at h1
  have h2 : (0 : ℝ) ≤ a := Nat.cast_nonneg a
  unfold between
  constructor <;> nlinarith

/-- **C53.** A generated value is a value of the derivative its component stands for, within one step of its voxel: let `D l` be
the derivative of the potential along the axes in `l`, and let the order below hold the values of these derivatives at the voxels.
Then component `i` of the generated order, whose name stands for the axes `l`, has at each voxel the value of `D l` at a position
that differs from the voxel by at most the spacing, along a single axis. -/
theorem c53_mean_value (data : List Arr4) (origin spacing : V3) (maxderiv : Nat) (data' : List Arr4)
    (h : gridGenerate data spacing maxderiv = .ok data') (hs : 0 < spacing.x ∧ 0 < spacing.y ∧ 0 < spacing.z)
    (D : List (Fin 3) → V3 → ℝ) (hperm : ∀ m m' p, m.Perm m' → D m p = D m' p)
    (d : Nat) (h1 : 1 ≤ d) (hd : data.length ≤ d) (hdM : d < maxderiv) (o : Arr4) (ho : data'[d - 1]? = some o)
    (hD : ∀ l a p, l.length = d - 1 → InBox origin spacing o p → HasPartial a (D l) (D (l ++ [a]) p) p)
    (hval : ∀ j s l, derivToName (d - 1) j = .ok s → nameToIdx s = .ok l → ∀ a b c, a < o.n → b < o.m → c < o.k →
      o.val a b c j = D l (node origin spacing a b c)) :
    ∃ new, data'[d]? = some new ∧ new.n = o.n ∧ new.m = o.m ∧ new.k = o.k ∧
      ∀ i s l, derivToName d i = .ok s → nameToIdx s = .ok l → ∀ a b c, a < new.n → b < new.m → c < new.k →
        ∃ (e : Fin 3) (t : ℝ), |t| ≤ (![spacing.x, spacing.y, spacing.z] e) ∧
          InBox origin spacing o (shift (node origin spacing a b c) e t) ∧
          new.val a b c i = D l (shift (node origin spacing a b c) e t) := by
  obtain ⟨-, -, h3⟩ := generate_inv data spacing maxderiv data' h
  obtain ⟨dat, e1, -, -, e4⟩ := h3 d hdM
  obtain ⟨o', f1, f2, -, -⟩ := h3 (d - 1) (by omega)
  rw [ho] at f1
  injection f1 with f1
  subst f1
  have ho' : (data'.take d)[d - 1]? = some o := by rw [List.getElem?_take_of_lt (by omega), ho]
  obtain ⟨h5, n1, n2, n3⟩ := gridDerive_inv _ spacing d dat o h1 ho' (e4 hd)
  obtain ⟨new, g1, g2, g3, g4, -, g6⟩ := gridDerive_eq _ spacing d h1 h5 o ho' f2 ⟨n1, n2, n3⟩
  rw [e4 hd] at g1
  injection g1 with g1
  subst g1
  obtain ⟨s1, s2, s3⟩ := hs
  refine ⟨dat, e1, g2, g3, g4, fun i s l hname hidx a b c ha hb hc => ?_⟩
  rw [g2] at ha
  rw [g3] at hb
  rw [g4] at hc
  have hi : i < 2 * d + 1 := by
    by_contra hcon
    rw [(c05_deriv_to_name_domain d i).2 (by omega)] at hname
    cases hname
  obtain ⟨j, e, s0, s', l0, l', c1, c2, c3, c4, c5, c6⟩ := c06_construct_derivative (R := ℝ) d i h1 h5 hi
  rw [hname] at c2
  injection c2 with c2
  subst c2
  rw [hidx] at c3
  injection c3 with c3
  subst c3
  obtain ⟨j', e', q1, q2⟩ := g6 i hi
  rw [c1] at q1
  simp only [Except.ok.injEq, Prod.mk.injEq, true_and] at q1
  obtain ⟨rfl, rfl⟩ := q1
  have hlen : l'.length = d - 1 := by
    obtain ⟨s2, h6, h7⟩ := (c05_deriv_to_name_domain (d - 1) j).1 (by
      by_contra hcon
      rw [(c05_deriv_to_name_domain (d - 1) j).2 hcon] at c4
      cases c4)
    rw [c4] at h6
    injection h6 with h6
    rw [← h7, ← h6, nameToIdx_ok c5, List.length_map]
  have hl : ∀ p, D (l' ++ [e]) p = D l p := fun p => c6 (fun m => D m p) fun m m' hm => hperm m m' p hm
  have b1 := node_between0 origin.x spacing.x s1 o.n a ha
  have b2 := node_between0 origin.y spacing.y s2 o.m b hb
  have b3 := node_between0 origin.z spacing.z s3 o.k c hc
  refine ⟨e, ?_⟩
  simp only [q2, ← hl]
  obtain rfl | rfl | rfl : e = 0 ∨ e = 1 ∨ e = 2 := by fin_cases e <;> simp
  · have box : ∀ t, -(a * spacing.x) ≤ t → t ≤ ((o.n : ℝ) - 1 - a) * spacing.x →
        InBox origin spacing o (shift (node origin spacing a b c) 0 t) := fun t t1 t2 =>
      ⟨nodeBetween origin.x spacing.x s1 o.n a ha t t1 t2, b2, b3⟩
    obtain ⟨t, t1, t2, t3, t4⟩ := gradient1_mean_value o.n a n1 ha spacing.x s1
      (fun t => D l' (shift (node origin spacing a b c) 0 t)) (fun t => D (l' ++ [0]) (shift (node origin spacing a b c) 0 t))
      (fun t t1 t2 => partial_at 0 _ _ _ t (hD l' 0 _ hlen (box t t1 t2))) (fun t => o.val t b c j) (fun k hk => by
        rw [hval j s' l' c4 c5 k b c hk hb hc]
        congr 1
        simp only [node, shift, V3.mk.injEq, and_true]
        ring)
    exact ⟨t, t1, box t t2 t3, t4⟩
  · have box : ∀ t, -(b * spacing.y) ≤ t → t ≤ ((o.m : ℝ) - 1 - b) * spacing.y →
        InBox origin spacing o (shift (node origin spacing a b c) 1 t) := fun t t1 t2 =>
      ⟨b1, nodeBetween origin.y spacing.y s2 o.m b hb t t1 t2, b3⟩
    obtain ⟨t, t1, t2, t3, t4⟩ := gradient1_mean_value o.m b n2 hb spacing.y s2
      (fun t => D l' (shift (node origin spacing a b c) 1 t)) (fun t => D (l' ++ [1]) (shift (node origin spacing a b c) 1 t))
      (fun t t1 t2 => partial_at 1 _ _ _ t (hD l' 1 _ hlen (box t t1 t2))) (fun t => o.val a t c j) (fun k hk => by
        rw [hval j s' l' c4 c5 a k c ha hk hc]
        congr 1
        simp only [node, shift, V3.mk.injEq, and_true, true_and]
        ring)
    exact ⟨t, t1, box t t2 t3, t4⟩
  · have box : ∀ t, -(c * spacing.z) ≤ t → t ≤ ((o.k : ℝ) - 1 - c) * spacing.z →
        InBox origin spacing o (shift (node origin spacing a b c) 2 t) := fun t t1 t2 =>
      ⟨b1, b2, nodeBetween origin.z spacing.z s3 o.k c hc t t1 t2⟩
    obtain ⟨t, t1, t2, t3, t4⟩ := gradient1_mean_value o.k c n3 hc spacing.z s3
      (fun t => D l' (shift (node origin spacing a b c) 2 t)) (fun t => D (l' ++ [2]) (shift (node origin spacing a b c) 2 t))
      (fun t t1 t2 => partial_at 2 _ _ _ t (hD l' 2 _ hlen (box t t1 t2))) (fun t => o.val a b t j) (fun k hk => by
        rw [hval j s' l' c4 c5 a b k ha hb hk]
        congr 1
        simp only [node, shift, V3.mk.injEq, true_and]
        ring)
    exact ⟨t, t1, box t t2 t3, t4⟩

/-- the potential `x y` on two by two by two voxels: order 1 is generated -/
example : ∃ data', gridGenerate [⟨2, 2, 2, 1, fun a b _ _ => (a : ℝ) * b⟩] ⟨1, 1, 1⟩ 2 = .ok data' := by
  refine c53_succeeds _ _ 2 (by norm_num) 2 2 2 ⟨le_refl _, le_refl _, le_refl _⟩ Nat.one_pos fun d dat hd => ?_
  cases d with
  | zero => simp at hd; subst hd; exact ⟨rfl, rfl, rfl, rfl⟩
  | succ d => simp at hd

/-! ### from_result -/

/-- **C52.** An electrode made from a result has at each position of the grid of the result the potential of the result. -/
theorem c52_from_result (gx gy gz : GridAxis) (hs : gx.step ≠ 0 ∧ gy.step ≠ 0 ∧ gz.step ≠ 0) (pot : Nat → Nat → Nat → ℝ)
    (field : Option (Nat → Nat → Nat → Nat → ℝ)) (maxderiv : Nat) (e : Elec) (h : gridFromResult gx gy gz pot field maxderiv = .ok e)
    (a b c : Nat) (ha : a < gx.shape) (hb : b < gy.shape) (hc : c < gz.shape) (v x y z : ℝ)
    (hx : Grid.mgridAt [gx, gy, gz] [a, b, c] = [x, y, z]) : compAt e 0 0 v ⟨x, y, z⟩ = v * pot a b c := by
  unfold gridFromResult at h
  simp only at h
  split at h
  · cases h
  · rename_i data' hg
    injection h with h
    subst h
    obtain ⟨⟨t, ht⟩, -, -⟩ := generate_inv _ _ _ _ hg
    have h0 : data'[0]? = some ⟨gx.shape, gy.shape, gz.shape, 1, fun a b c _ => pot a b c⟩ := by
      rw [← ht]
      cases field <;> rfl
    have hpos : (⟨x, y, z⟩ : V3) = node ⟨gx.center - ((gx.shape : ℝ) - 1) / 2 * gx.step, gy.center - ((gy.shape : ℝ) - 1) / 2 * gy.step,
        gz.center - ((gz.shape : ℝ) - 1) / 2 * gz.step⟩ ⟨gx.step, gy.step, gz.step⟩ a b c := by
      have := c51_mgrid [gx, gy, gz] [a, b, c] (.cons ha (.cons hb (.cons hc .nil)))
      rw [hx] at this
      simp only [Grid.indicesToCoordinates, List.map_cons, List.map_nil, List.zipWith_cons_cons, List.zipWith_nil_left, List.cons.injEq,
        and_true] at this
      obtain ⟨rfl, rfl, rfl⟩ := this
      simp only [node, V3.mk.injEq]
      refine ⟨?_, ?_, ?_⟩ <;> ring
    rw [hpos]
    exact c52_nodes _ _ _ _ _ _ 0 0 v _ h0 (le_refl _) Nat.one_pos hs a b c ha hb hc

/-- **C52.** If the result has a field, the first derivatives of the electrode at each position of the grid are the components of
that field. -/
theorem c52_from_result_field (gx gy gz : GridAxis) (hs : gx.step ≠ 0 ∧ gy.step ≠ 0 ∧ gz.step ≠ 0) (pot : Nat → Nat → Nat → ℝ)
    (field : Nat → Nat → Nat → Nat → ℝ) (maxderiv : Nat) (e : Elec) (h : gridFromResult gx gy gz pot (some field) maxderiv = .ok e)
    (a b c : Nat) (ha : a < gx.shape) (hb : b < gy.shape) (hc : c < gz.shape) (v x y z : ℝ)
    (hx : Grid.mgridAt [gx, gy, gz] [a, b, c] = [x, y, z]) (i : Nat) (hi : i < 3) :
    compAt e 1 i v ⟨x, y, z⟩ = v * field i a b c := by
  unfold gridFromResult at h
  simp only at h
  split at h
  · cases h
  · rename_i data' hg
    injection h with h
    subst h
    obtain ⟨⟨t, ht⟩, -, -⟩ := generate_inv _ _ _ _ hg
    have h0 : data'[1]? = some ⟨gx.shape, gy.shape, gz.shape, 3, fun a b c i => field i a b c⟩ := by
      rw [← ht]
      rfl
    have hpos : (⟨x, y, z⟩ : V3) = node ⟨gx.center - ((gx.shape : ℝ) - 1) / 2 * gx.step, gy.center - ((gy.shape : ℝ) - 1) / 2 * gy.step,
        gz.center - ((gz.shape : ℝ) - 1) / 2 * gz.step⟩ ⟨gx.step, gy.step, gz.step⟩ a b c := by
      have := c51_mgrid [gx, gy, gz] [a, b, c] (.cons ha (.cons hb (.cons hc .nil)))
      rw [hx] at this
      simp only [Grid.indicesToCoordinates, List.map_cons, List.map_nil, List.zipWith_cons_cons, List.zipWith_nil_left, List.cons.injEq,
        and_true] at this
      obtain ⟨rfl, rfl, rfl⟩ := this
      simp only [node, V3.mk.injEq]
      refine ⟨?_, ?_, ?_⟩ <;> ring
    rw [hpos]
    exact c52_nodes _ _ _ _ _ _ 1 i v _ h0 (le_refl _) hi hs a b c ha hb hc

end Electrode
