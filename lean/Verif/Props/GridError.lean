import Verif.Props.GridElectrode
import Verif.Props.Limits
import Mathlib.Analysis.Convex.Deriv

/-
C143: how far the potential of a grid electrode is from the potential its data were sampled from.
-/
namespace Electrode
open Spec

namespace GridErr

theorem interp1_near {n : Nat} (hn : 0 < n) (f g : Nat → ℝ) (ε : ℝ) (h : ∀ i < n, |f i - g i| ≤ ε) (c : ℝ) :
    |interp1 n f c - interp1 n g c| ≤ ε := by
  have e : interp1 n f c - interp1 n g c = interp1 n (fun i => f i - g i) c := by
    simp only [interp1]; ring
  rw [e, abs_le]
  exact interp1_range hn _ (-ε) ε (fun i hi => abs_le.1 (h i hi)) c

theorem between_le {o s : ℝ} {n : Nat} {x y t : ℝ} (hx : between o s n x) (hy : between o s n y) (h1 : x ≤ t) (h2 : t ≤ y) :
    between o s n t := ⟨hx.1.trans h1, h2.trans hy.2⟩

theorem chord {a b M : ℝ} {F F' F'' : ℝ → ℝ} (h1 : ∀ t, a ≤ t → t ≤ b → HasDerivAt F (F' t) t)
    (h2 : ∀ t, a ≤ t → t ≤ b → HasDerivAt F' (F'' t) t) (hM : ∀ t, a ≤ t → t ≤ b → F'' t ≤ M) (hab : a ≤ b) (θ : ℝ)
    (h0 : 0 ≤ θ) (hθ : θ ≤ 1) : F (a + θ * (b - a)) ≥ (1 - θ) * F a + θ * F b - M * (b - a) ^ 2 * (θ * (1 - θ)) / 2 := by
  have hc : ConvexOn ℝ (Set.Icc a b) fun t => M * t ^ 2 / 2 - F t := by
    refine convexOn_of_hasDerivWithinAt2_nonneg (f' := fun t => M * t - F' t) (f'' := fun t => M - F'' t) (convex_Icc a b)
      (fun t ht => ?_) (fun t ht => ?_) (fun t ht => ?_) (fun t ht => ?_)
    · have hd : HasDerivAt (fun t => M * t ^ 2 / 2) (M * (2 * t) / 2) t := by
        simpa using (((hasDerivAt_id t).pow 2).const_mul M).div_const 2
      exact (hd.sub (h1 t ht.1 ht.2)).continuousAt.continuousWithinAt
    · have ht := interior_subset ht
      have hd : HasDerivAt (fun t => M * t ^ 2 / 2) (M * t) t := by
        have := (((hasDerivAt_id t).pow 2).const_mul M).div_const 2
        refine this.congr_deriv ?_
        simp; ring
      exact (hd.sub (h1 t ht.1 ht.2)).hasDerivWithinAt
    · have ht := interior_subset ht
      have hd : HasDerivAt (fun t => M * t) M t := by simpa using (hasDerivAt_id t).const_mul M
      exact (hd.sub (h2 t ht.1 ht.2)).hasDerivWithinAt
    · have ht := interior_subset ht
      have := hM t ht.1 ht.2
      linarith
  have := hc.2 (Set.left_mem_Icc.2 hab) (Set.right_mem_Icc.2 hab) (show (0 : ℝ) ≤ 1 - θ by linarith) h0 (by ring)
  simp only [smul_eq_mul] at this
  have e : (1 - θ) * a + θ * b = a + θ * (b - a) := by ring
  rw [e] at this
  nlinarith [this]

theorem interp_err {n : Nat} (hn : 0 < n) {o s : ℝ} (hs : 0 < s) {M : ℝ} {F F' F'' : ℝ → ℝ}
    (h1 : ∀ t, between o s n t → HasDerivAt F (F' t) t) (h2 : ∀ t, between o s n t → HasDerivAt F' (F'' t) t)
    (hM : ∀ t, between o s n t → |F'' t| ≤ M) {x : ℝ} (hx : between o s n x) :
    |interp1 n (fun j => F (o + j * s)) ((x - o) / s) - F x| ≤ M * s ^ 2 / 8 := by
  obtain ⟨c0, c1⟩ := coord_mem hs hx
  have hM0 : 0 ≤ M := (abs_nonneg _).trans (hM x hx)
  set c := (x - o) / s with hc
  have hxc : x = o + c * s := by rw [hc]; field_simp; ring
  simp only [interp1, clamp_of_mem c0 c1]
  have f0 := Nat.floor_le c0
  have f1 := Nat.lt_floor_add_one c
  set i := ⌊c⌋₊ with hi
  by_cases hlast : i + 1 < n
  · rw [Nat.min_eq_left (by omega : i + 1 ≤ n - 1)]
    have ba := node_between0 o s hs n i (by omega)
    have bb := node_between0 o s hs n (i + 1) hlast
    have eb : o + ((i + 1 : ℕ) : ℝ) * s - (o + i * s) = s := by push_cast; ring
    have ex : o + (i : ℝ) * s + (c - i) * s = x := by rw [hxc]; ring
    have hab : o + (i : ℝ) * s ≤ o + ((i + 1 : ℕ) : ℝ) * s := by linarith
    have k1 := chord (a := o + i * s) (b := o + ((i + 1 : ℕ) : ℝ) * s) (fun t t1 t2 => h1 t (between_le ba bb t1 t2))
      (fun t t1 t2 => h2 t (between_le ba bb t1 t2)) (fun t t1 t2 => (abs_le.1 (hM t (between_le ba bb t1 t2))).2) hab (c - i)
      (by linarith) (by linarith)
    have k2 := chord (a := o + i * s) (b := o + ((i + 1 : ℕ) : ℝ) * s) (fun t t1 t2 => (h1 t (between_le ba bb t1 t2)).neg)
      (fun t t1 t2 => (h2 t (between_le ba bb t1 t2)).neg)
      (fun t t1 t2 => show -F'' t ≤ M by linarith [(abs_le.1 (hM t (between_le ba bb t1 t2))).1]) hab (c - i)
      (by linarith) (by linarith)
    rw [eb, ex] at k1 k2
    simp only [Pi.neg_apply] at k2
    have hq : (c - i) * (1 - (c - i)) ≤ 1 / 4 := by nlinarith [sq_nonneg (c - i - 1 / 2)]
    have hb : M * s ^ 2 * ((c - i) * (1 - (c - i))) / 2 ≤ M * s ^ 2 / 8 := by
      have : 0 ≤ M * s ^ 2 := by positivity
      nlinarith
    rw [abs_le]
    constructor <;> nlinarith
  · have hin : (i : ℝ) = (n : ℝ) - 1 := by
      have : (i : ℝ) ≤ (n : ℝ) - 1 := f0.trans c1
      have h' : (n : ℝ) ≤ i + 1 := by exact_mod_cast Nat.le_of_not_lt hlast
      linarith
    have hci : c = i := le_antisymm (by linarith) f0
    have e0 : c - (i : ℝ) = 0 := by linarith
    rw [e0, hxc, hci]
    simp only [sub_zero, one_mul, zero_mul, add_zero, sub_self, abs_zero]
    positivity

theorem line {f : V3 → ℝ} {f' : V3 → ℝ} (a : Fin 3) (p : V3) (h : HasPartial a f (f' p) p) :
    HasDerivAt (fun t => f (match a with | 0 => ⟨t, p.y, p.z⟩ | 1 => ⟨p.x, t, p.z⟩ | 2 => ⟨p.x, p.y, t⟩)) (f' p)
      (match a with | 0 => p.x | 1 => p.y | 2 => p.z) := by
  unfold HasPartial at h
  obtain rfl | rfl | rfl : a = 0 ∨ a = 1 ∨ a = 2 := by fin_cases a <;> simp
  · simp only [shift] at h ⊢
    have h2 : HasDerivAt (fun s => f ⟨p.x + s, p.y, p.z⟩) (f' p) (p.x - p.x) := by rw [sub_self]; exact h
    simpa using HasDerivAt.comp_sub_const p.x p.x h2
  · simp only [shift] at h ⊢
    have h2 : HasDerivAt (fun s => f ⟨p.x, p.y + s, p.z⟩) (f' p) (p.y - p.y) := by rw [sub_self]; exact h
    simpa using HasDerivAt.comp_sub_const p.y p.y h2
  · simp only [shift] at h ⊢
    have h2 : HasDerivAt (fun s => f ⟨p.x, p.y, p.z + s⟩) (f' p) (p.z - p.z) := by rw [sub_self]; exact h
    simpa using HasDerivAt.comp_sub_const p.z p.z h2

theorem map_err (dat : Arr4) (origin spacing : V3) (i : Nat) (hs : 0 < spacing.x ∧ 0 < spacing.y ∧ 0 < spacing.z)
    (hn : 0 < dat.n ∧ 0 < dat.m ∧ 0 < dat.k) (f : V3 → ℝ) (f1 f2 : Fin 3 → V3 → ℝ) (M : Fin 3 → ℝ) (ε : ℝ)
    (h1 : ∀ a q, InBox origin spacing dat q → HasPartial a f (f1 a q) q)
    (h2 : ∀ a q, InBox origin spacing dat q → HasPartial a (f1 a) (f2 a q) q)
    (hM : ∀ a q, InBox origin spacing dat q → |f2 a q| ≤ M a)
    (hval : ∀ a b c, a < dat.n → b < dat.m → c < dat.k → |dat.val a b c i - f (node origin spacing a b c)| ≤ ε)
    (p : V3) (hp : InBox origin spacing dat p) :
    |mapCoordinates dat i (gridCoord origin spacing p) - f p|
      ≤ ε + (M 0 * spacing.x ^ 2 + M 1 * spacing.y ^ 2 + M 2 * spacing.z ^ 2) / 8 := by
  obtain ⟨s1, s2, s3⟩ := hs
  obtain ⟨n1, n2, n3⟩ := hn
  obtain ⟨x, y, z⟩ := p
  obtain ⟨p1, p2, p3⟩ := hp
  simp only at p1 p2 p3
  simp only [mapCoordinates, gridCoord]
  have nx := fun a (ha : a < dat.n) => node_between0 origin.x spacing.x s1 dat.n a ha
  have ny := fun a (ha : a < dat.m) => node_between0 origin.y spacing.y s2 dat.m a ha
  have kz : ∀ a < dat.n, ∀ b < dat.m, |interp1 dat.k (fun e => dat.val a b e i) ((z - origin.z) / spacing.z)
      - f ⟨origin.x + a * spacing.x, origin.y + b * spacing.y, z⟩| ≤ ε + M 2 * spacing.z ^ 2 / 8 := by
    intro a ha b hb
    have e1 := interp1_near n3 (fun e => dat.val a b e i)
      (fun e => f ⟨origin.x + a * spacing.x, origin.y + b * spacing.y, origin.z + e * spacing.z⟩) ε
      (fun c hc => hval a b c ha hb hc) ((z - origin.z) / spacing.z)
    have e2 := interp_err n3 s3 (F := fun t => f ⟨origin.x + a * spacing.x, origin.y + b * spacing.y, t⟩)
      (F' := fun t => f1 2 ⟨origin.x + a * spacing.x, origin.y + b * spacing.y, t⟩)
      (F'' := fun t => f2 2 ⟨origin.x + a * spacing.x, origin.y + b * spacing.y, t⟩) (M := M 2)
      (fun t ht => line 2 ⟨origin.x + a * spacing.x, origin.y + b * spacing.y, t⟩ (h1 2 _ ⟨nx a ha, ny b hb, ht⟩))
      (fun t ht => line 2 ⟨origin.x + a * spacing.x, origin.y + b * spacing.y, t⟩ (h2 2 _ ⟨nx a ha, ny b hb, ht⟩))
      (fun t ht => hM 2 _ ⟨nx a ha, ny b hb, ht⟩) p3
    exact (abs_sub_le _ _ _).trans (add_le_add e1 e2)
  have ky : ∀ a < dat.n, |interp1 dat.m (fun b => interp1 dat.k (fun e => dat.val a b e i) ((z - origin.z) / spacing.z))
      ((y - origin.y) / spacing.y) - f ⟨origin.x + a * spacing.x, y, z⟩|
      ≤ ε + M 2 * spacing.z ^ 2 / 8 + M 1 * spacing.y ^ 2 / 8 := by
    intro a ha
    have e1 := interp1_near n2 _ (fun b => f ⟨origin.x + a * spacing.x, origin.y + b * spacing.y, z⟩) _
      (fun b hb => kz a ha b hb) ((y - origin.y) / spacing.y)
    have e2 := interp_err n2 s2 (F := fun t => f ⟨origin.x + a * spacing.x, t, z⟩)
      (F' := fun t => f1 1 ⟨origin.x + a * spacing.x, t, z⟩)
      (F'' := fun t => f2 1 ⟨origin.x + a * spacing.x, t, z⟩) (M := M 1)
      (fun t ht => line 1 ⟨origin.x + a * spacing.x, t, z⟩ (h1 1 _ ⟨nx a ha, ht, p3⟩))
      (fun t ht => line 1 ⟨origin.x + a * spacing.x, t, z⟩ (h2 1 _ ⟨nx a ha, ht, p3⟩))
      (fun t ht => hM 1 _ ⟨nx a ha, ht, p3⟩) p2
    exact (abs_sub_le _ _ _).trans (add_le_add e1 e2)
  have e1 := interp1_near n1 _ (fun a => f ⟨origin.x + a * spacing.x, y, z⟩) _
    (fun a ha => ky a ha) ((x - origin.x) / spacing.x)
  have e2 := interp_err n1 s1 (F := fun t => f ⟨t, y, z⟩) (F' := fun t => f1 0 ⟨t, y, z⟩) (F'' := fun t => f2 0 ⟨t, y, z⟩) (M := M 0)
    (fun t ht => line 0 ⟨t, y, z⟩ (h1 0 _ ⟨ht, p2, p3⟩)) (fun t ht => line 0 ⟨t, y, z⟩ (h2 0 _ ⟨ht, p2, p3⟩))
    (fun t ht => hM 0 _ ⟨ht, p2, p3⟩) p1
  exact ((abs_sub_le _ _ _).trans (add_le_add e1 e2)).trans (le_of_eq (by ring))

end GridErr
open GridErr

/-- **C143.** Let component `i` of the data of order `d` be, at each voxel, within `ε` of the value of a function `f` there, and let the second
derivatives of `f` along the axes be at most `M 0`, `M 1`, `M 2` in the box of the voxels. Then inside the box the potential of the grid
electrode is the voltage times `f`, up to the voltage times `ε` and an eighth of the sum of these bounds times the squares of the spacings. -/
theorem c143_interpolation (name : String) (dc rf : ℝ) (data : List Arr4) (origin spacing : V3) (d i : Nat) (v : ℝ) (dat : Arr4)
    (hd : data[d]? = some dat) (hl : 2 * d + 1 ≤ dat.l) (hi : i < 2 * d + 1)
    (hs : 0 < spacing.x ∧ 0 < spacing.y ∧ 0 < spacing.z) (hn : 0 < dat.n ∧ 0 < dat.m ∧ 0 < dat.k)
    (f : V3 → ℝ) (f1 f2 : Fin 3 → V3 → ℝ) (M : Fin 3 → ℝ) (ε : ℝ)
    (h1 : ∀ a q, InBox origin spacing dat q → HasPartial a f (f1 a q) q)
    (h2 : ∀ a q, InBox origin spacing dat q → HasPartial a (f1 a) (f2 a q) q)
    (hM : ∀ a q, InBox origin spacing dat q → |f2 a q| ≤ M a)
    (hval : ∀ a b c, a < dat.n → b < dat.m → c < dat.k → |dat.val a b c i - f (node origin spacing a b c)| ≤ ε)
    (p : V3) (hp : InBox origin spacing dat p) :
    |compAt ⟨name, dc, rf, .grid data origin spacing⟩ d i v p - v * f p|
      ≤ |v| * (ε + (M 0 * spacing.x ^ 2 + M 1 * spacing.y ^ 2 + M 2 * spacing.z ^ 2) / 8) := by
  rw [compAt_grid _ _ _ _ _ _ _ _ _ dat hd hl hi, ← mul_sub, abs_mul]
  exact mul_le_mul_of_nonneg_left (map_err dat origin spacing i hs hn f f1 f2 M ε h1 h2 hM hval p hp) (abs_nonneg v)

namespace GridErr

theorem trap_step {h : ℝ} {n : Nat} {els : List Elec} (ht : polygonTrap h n els) (typ : VTyp) (l : Idx) (a : Fin 3) (hl : l.length ≤ 4)
    {p : V3} (hp : offPlanes h n p) : HasPartial a (electricalAt els typ l) (electricalAt els typ (l ++ [a]) p) p := by
  have ho := Limit.trap_off ht hp
  rw [electricalAt_eq els typ (l ++ [a]) (by simp; omega) p (avail_of_off ho _ _)]
  exact (sys_step els typ l a hl p ho).congr fun q => (electricalAt_eq els typ l (by omega) q (avail_of_off ho _ _)).symm

theorem trap_bound {h : ℝ} {n : Nat} {els : List Elec} (ht : polygonTrap h n els) (typ : VTyp) {V : ℝ}
    (hv : ∀ᵐ q : ℝ × ℝ, |voltageMap els typ q| ≤ V) (hV : 0 ≤ V) (l : Idx) (h1 : 1 ≤ l.length) (hl : l.length ≤ 5) {z0 : ℝ} (hz0 : 0 < z0)
    {p : V3} (hp : ∀ m : ℤ, -(n : ℤ) ≤ m → m ≤ n → z0 ≤ |p.z + 2 * m * h|) :
    |electricalAt els typ l p| ≤ (2 * n + 1) * (2 * [1, 4, 18, 150, 1620, 17100].getD l.length 0 * V / z0 ^ l.length) := by
  refine (c133_derivatives els h n ht typ V hv l h1 hl p fun m m1 m2 hm => ?_).trans ?_
  · have := hp m m1 m2
    rw [hm, abs_zero] at this
    linarith
  · refine (Finset.sum_le_card_nsmul _ _ (2 * [1, 4, 18, 150, 1620, 17100].getD l.length 0 * V / z0 ^ l.length) fun m hm => ?_).trans
      (le_of_eq ?_)
    · rw [Finset.mem_Icc] at hm
      have := hp m hm.1 hm.2
      have hw : (0 : ℝ) ≤ [1, 4, 18, 150, 1620, 17100].getD l.length 0 := ShapeErr.wgt_nonneg l.length
      gcongr
    · rw [nsmul_eq_mul, Int.card_Icc]
      congr 1
      have : ((n : ℤ) + 1 - -(n : ℤ)).toNat = 2 * n + 1 := by omega
      rw [this]
      push_cast; ring

end GridErr

/-- **C143.** The potential of a trap, sampled on a grid and loaded as a grid electrode, is the potential of the trap up to a known
error: let all electrodes be polygons under one cover, let the voltages on the plane be at most `V`, and let the voxels hold what
`electrical_potential(voxels, d, typ, expand=False)` returns, in a box that keeps the distance `z0` from the electrodes and all their images.
Then at all positions of the box each entry of the derivative of order `d` differs from that of the trap by at most a number that
falls with the square of the spacing, and with the power `d + 2` of the distance. -/
theorem c143_resampled (els : List Elec) (h : ℝ) (n : Nat) (ht : polygonTrap h n els) (typ : VTyp) (V : ℝ)
    (hv : ∀ᵐ q : ℝ × ℝ, |voltageMap els typ q| ≤ V) (data : List Arr4) (origin spacing : V3) (d : Nat) (hd3 : d ≤ 3) (dat : Arr4)
    (hd : data[d]? = some dat) (hl : 2 * d + 1 ≤ dat.l) (hs : 0 < spacing.x ∧ 0 < spacing.y ∧ 0 < spacing.z)
    (hn : 0 < dat.n ∧ 0 < dat.m ∧ 0 < dat.k) (z0 : ℝ) (hz0 : 0 < z0)
    (hbox : ∀ q, InBox origin spacing dat q → ∀ m : ℤ, -(n : ℤ) ≤ m → m ≤ n → z0 ≤ |q.z + 2 * m * h|)
    (hval : ∀ a b c, a < dat.n → b < dat.m → c < dat.k → ∃ row,
      electricalPotential els [node origin spacing a b c] d typ false = .ok [row] ∧ ∀ i < 2 * d + 1, dat.val a b c i = row.getD i 0)
    (name : String) (v rf : ℝ) (l : Idx) (hld : l.length = d) (p : V3) (hp : InBox origin spacing dat p) :
    |electricalAt [⟨name, v, rf, .grid data origin spacing⟩] .dc l p - v * electricalAt els typ l p|
      ≤ 2 * (|v| * ((2 * n + 1) * (2 * [1, 4, 18, 150, 1620, 17100].getD (d + 2) 0 * V / z0 ^ (d + 2))
        * (spacing.x ^ 2 + spacing.y ^ 2 + spacing.z ^ 2) / 8)) := by
  subst hld
  have hV : 0 ≤ V := by
    obtain ⟨q, hq⟩ := hv.exists
    exact (abs_nonneg _).trans hq
  have hoff : ∀ q, InBox origin spacing dat q → offPlanes h n q := fun q hq m m1 m2 hm => by
    have := hbox q hq m m1 m2
    rw [hm, abs_zero] at this
    linarith
  have hav : AvailAll els l.length typ := avail_of_off (Limit.trap_off ht (hoff p hp)) _ _
  have hag : AvailAll [⟨name, v, rf, .grid data origin spacing⟩] l.length .dc := by
    intro e he _
    rw [List.mem_singleton] at he
    subst he
    exact ⟨dat, hd, hl⟩
  rw [electricalAt_eq _ _ l (by omega) p hag, electricalAt_eq _ _ l (by omega) p hav]
  unfold sysTens
  rw [← tens_smul]
  refine tens_sub_le (by have := ShapeErr.wgt_nonneg (l.length + 2); unfold ShapeErr.wgt at this; positivity) (fun i hi => ?_) l
  have e1 : sysContrib [⟨name, v, rf, .grid data origin spacing⟩] .dc l.length i p
      = v * mapCoordinates dat i (gridCoord origin spacing p) := by
    simp only [sysContrib, List.map_cons, List.map_nil, List.sum_cons, List.sum_nil, add_zero, Shape.contrib, hd, if_pos hi]
    rfl
  rw [e1, ← mul_sub, abs_mul]
  refine mul_le_mul_of_nonneg_left ?_ (abs_nonneg v)
  have hlen := nameIdx_length l.length i (by omega) hi
  have hcomp : ∀ q, electricalAt els typ (nameIdx l.length i) q = sysContrib els typ l.length i q := fun q => by
    rw [electricalAt_eq els typ _ (by omega) q (by rw [hlen]; exact hav)]
    unfold sysTens
    rw [hlen, tens_nameIdx _ _ _ (by omega) hi]
  rw [← hcomp]
  have hB : ∀ a q, InBox origin spacing dat q → |electricalAt els typ (nameIdx l.length i ++ [a] ++ [a]) q|
      ≤ (2 * n + 1) * (2 * [1, 4, 18, 150, 1620, 17100].getD (l.length + 2) 0 * V / z0 ^ (l.length + 2)) := fun a q hq => by
    have h2 : (nameIdx l.length i ++ [a] ++ [a]).length = l.length + 2 := by simp [hlen]
    have := trap_bound ht typ hv hV (nameIdx l.length i ++ [a] ++ [a]) (by omega) (by omega) hz0 (hbox q hq)
    rwa [h2] at this
  refine (map_err dat origin spacing i hs hn _ (fun a => electricalAt els typ (nameIdx l.length i ++ [a]))
    (fun a => electricalAt els typ (nameIdx l.length i ++ [a] ++ [a])) (fun _ => _) 0
    (fun a q hq => trap_step ht typ _ a (by omega) (hoff q hq))
    (fun a q hq => trap_step ht typ _ a (by simp; omega) (hoff q hq)) hB (fun a b c ha hb hc => ?_) p hp).trans (le_of_eq (by ring))
  obtain ⟨row, r1, r2⟩ := hval a b c ha hb hc
  rw [electrical_eq els _ _ typ hav] at r1
  simp only [List.map_cons, List.map_nil, Except.ok.injEq, List.cons.injEq, and_true] at r1
  rw [r2 i hi, ← r1, hcomp, getD_range_map, if_pos hi, sub_self, abs_zero]

namespace GridErr

theorem between_mid {o s : ℝ} {n : Nat} {x t u : ℝ} (h0 : between o s n x) (h1 : between o s n (x + t)) (hu : u ∈ Set.uIcc 0 t) :
    between o s n (x + u) := by
  rcases Set.mem_uIcc.1 hu with ⟨u1, u2⟩ | ⟨u1, u2⟩
  · exact ⟨by linarith [h0.1], by linarith [h1.2]⟩
  · exact ⟨by linarith [h1.1], by linarith [h0.2]⟩

theorem box_mid {origin spacing : V3} {dat : Arr4} {p : V3} {a : Fin 3} {t u : ℝ} (h0 : InBox origin spacing dat p)
    (h1 : InBox origin spacing dat (shift p a t)) (hu : u ∈ Set.uIcc 0 t) : InBox origin spacing dat (shift p a u) := by
  obtain ⟨a1, a2, a3⟩ := h0
  obtain ⟨b1, b2, b3⟩ := h1
  obtain rfl | rfl | rfl : a = 0 ∨ a = 1 ∨ a = 2 := by fin_cases a <;> simp
  · exact ⟨between_mid a1 b1 hu, a2, a3⟩
  · exact ⟨a1, between_mid a2 b2 hu, a3⟩
  · exact ⟨a1, a2, between_mid a3 b3 hu⟩

theorem step_bound {origin spacing : V3} {dat : Arr4} {f f' : V3 → ℝ} {p : V3} {a : Fin 3} {t M : ℝ}
    (h0 : InBox origin spacing dat p) (h1 : InBox origin spacing dat (shift p a t))
    (hf : ∀ q, InBox origin spacing dat q → HasPartial a f (f' q) q) (hM : ∀ q, InBox origin spacing dat q → |f' q| ≤ M) :
    |f (shift p a t) - f p| ≤ M * |t| := by
  have := Convex.norm_image_sub_le_of_norm_hasDerivWithin_le (f := fun s => f (shift p a s)) (f' := fun s => f' (shift p a s))
    (s := Set.uIcc 0 t) (C := M) (x := 0) (y := t)
    (fun u hu => (partial_at a f f' p u (hf _ (box_mid h0 h1 hu))).hasDerivWithinAt) (fun u hu => hM _ (box_mid h0 h1 hu))
    (convex_uIcc 0 t) Set.left_mem_uIcc Set.right_mem_uIcc
  have e0 : shift p a 0 = p := by fin_cases a <;> simp [shift]
  simpa [e0] using this

end GridErr

/-- **C143.** Derivatives that the grid electrode generates from the data of the order below approximate the derivatives of the sampled
function: let `D l` be the derivative along the axes `l`, let the order below hold the values of these derivatives at the voxels, and let
the derivatives of the next two orders be at most `M1` and `M2`. Then each generated component is, everywhere in the box, the derivative its
name stands for, up to `M1` times the largest spacing and an eighth of `M2` times the squares of the spacings. -/
theorem c143_generated (data : List Arr4) (origin spacing : V3) (maxderiv : Nat) (data' : List Arr4)
    (h : gridGenerate data spacing maxderiv = .ok data') (hs : 0 < spacing.x ∧ 0 < spacing.y ∧ 0 < spacing.z)
    (D : List (Fin 3) → V3 → ℝ) (hperm : ∀ m m' p, m.Perm m' → D m p = D m' p)
    (d : Nat) (h1 : 1 ≤ d) (hd : data.length ≤ d) (hdM : d < maxderiv) (o : Arr4) (ho : data'[d - 1]? = some o)
    (hD : ∀ l a p, d - 1 ≤ l.length → l.length ≤ d + 1 → InBox origin spacing o p → HasPartial a (D l) (D (l ++ [a]) p) p)
    (hval : ∀ j s l, derivToName (d - 1) j = .ok s → nameToIdx s = .ok l → ∀ a b c, a < o.n → b < o.m → c < o.k →
      o.val a b c j = D l (node origin spacing a b c))
    (M1 M2 S : ℝ) (hM1 : ∀ m p, m.length = d + 1 → InBox origin spacing o p → |D m p| ≤ M1)
    (hM2 : ∀ m p, m.length = d + 2 → InBox origin spacing o p → |D m p| ≤ M2)
    (hS : spacing.x ≤ S ∧ spacing.y ≤ S ∧ spacing.z ≤ S)
    (name : String) (dc rf v : ℝ) (i : Nat) (s : List Char) (l : List (Fin 3)) (hname : derivToName d i = .ok s)
    (hidx : nameToIdx s = .ok l) (p : V3) (hp : InBox origin spacing o p) :
    |compAt ⟨name, dc, rf, .grid data' origin spacing⟩ d i v p - v * D l p|
      ≤ |v| * (M1 * S + M2 * (spacing.x ^ 2 + spacing.y ^ 2 + spacing.z ^ 2) / 8) := by
  obtain ⟨new, e1, e2, e3, e4, e5⟩ := c53_mean_value data origin spacing maxderiv data' h hs D hperm d h1 hd hdM o ho
    (fun l a p hl hp => hD l a p (by omega) (by omega) hp) hval
  have hi : i < 2 * d + 1 := by
    by_contra hcon
    rw [(c05_deriv_to_name_domain d i).2 (by omega)] at hname
    cases hname
  have hlen : l.length = d := by
    obtain ⟨s2, h6, h7⟩ := (c05_deriv_to_name_domain d i).1 (by
      by_contra hcon
      rw [(c05_deriv_to_name_domain d i).2 hcon] at hname
      cases hname)
    rw [hname] at h6
    injection h6 with h6
    rw [← h7, ← h6, nameToIdx_ok hidx, List.length_map]
  obtain ⟨-, -, g3⟩ := generate_inv data spacing maxderiv data' h
  obtain ⟨new', k1, k2, -, -⟩ := g3 d hdM
  rw [e1] at k1
  injection k1 with k1
  subst k1
  have box : ∀ q, InBox origin spacing new q ↔ InBox origin spacing o q := fun q => by
    unfold InBox; rw [e2, e3, e4]
  have hb := (box p).2 hp
  have hpos : ∀ {o s x : ℝ} {n : Nat}, 0 < s → between o s n x → 0 < n := fun {o s x n} hs hb => by
    rcases Nat.eq_zero_or_pos n with rfl | hn
    · have := hb.1.trans hb.2
      push_cast at this
      linarith
    · exact hn
  refine (c143_interpolation name dc rf data' origin spacing d i v new e1 k2.ge hi hs ⟨hpos hs.1 hb.1, hpos hs.2.1 hb.2.1, hpos hs.2.2 hb.2.2⟩
    (D l) (fun a => D (l ++ [a])) (fun a => D (l ++ [a] ++ [a])) (fun _ => M2) (M1 * S)
    (fun a q hq => hD l a q (by omega) (by omega) ((box q).1 hq))
    (fun a q hq => hD (l ++ [a]) a q (by simp; omega) (by simp; omega) ((box q).1 hq))
    (fun a q hq => hM2 _ q (by simp; omega) ((box q).1 hq)) (fun a b c ha hb hc => ?_) p hb).trans (le_of_eq (by ring))
  obtain ⟨e, t, t1, t2, t3⟩ := e5 i s l hname hidx a b c ha hb hc
  rw [t3]
  have hnode : InBox origin spacing o (node origin spacing a b c) :=
    (box _).1 ⟨node_between0 _ _ hs.1 _ _ ha, node_between0 _ _ hs.2.1 _ _ hb, node_between0 _ _ hs.2.2 _ _ hc⟩
  have hM0 : 0 ≤ M1 := (abs_nonneg _).trans (hM1 (l ++ [0]) p (by simp; omega) hp)
  refine (step_bound hnode t2 (fun q hq => hD l e q (by omega) (by omega) hq) fun q hq => hM1 _ q (by simp; omega) hq).trans ?_
  refine mul_le_mul_of_nonneg_left (t1.trans ?_) hM0
  obtain ⟨S1, S2, S3⟩ := hS
  fin_cases e
  · exact S1
  · exact S2
  · exact S3

/-- The bound of `c143_interpolation` cannot be improved: for the samples 0 and 1 of the square of `x` at `x = 0` and `x = 1` the error in the
middle is the whole of it. -/
example : let e : Elec := ⟨"g", 1, 0, .grid [⟨2, 2, 2, 1, fun a _ _ _ => (a : ℝ) ^ 2⟩] ⟨0, 0, 0⟩ ⟨1, 1, 1⟩⟩
    (∀ p, InBox ⟨0, 0, 0⟩ ⟨1, 1, 1⟩ ⟨2, 2, 2, 1, fun a _ _ _ => (a : ℝ) ^ 2⟩ p → |compAt e 0 0 1 p - 1 * p.x ^ 2| ≤ |1| * (0 + (2 * 1 ^ 2 + 0 * 1 ^ 2 + 0 * 1 ^ 2) / 8)) ∧
      |compAt e 0 0 1 ⟨1 / 2, 0, 0⟩ - 1 * (1 / 2) ^ 2| = |1| * (0 + (2 * 1 ^ 2 + 0 * 1 ^ 2 + 0 * 1 ^ 2) / 8) := by
  constructor
  · intro p hp
    refine c143_interpolation "g" 1 0 [⟨2, 2, 2, 1, fun a _ _ _ => (a : ℝ) ^ 2⟩] ⟨0, 0, 0⟩ ⟨1, 1, 1⟩ 0 0 1 ⟨2, 2, 2, 1, fun a _ _ _ => (a : ℝ) ^ 2⟩
      rfl (by norm_num) (by norm_num) (by norm_num) (by norm_num) (fun p => p.x ^ 2) (fun a p => ![2 * p.x, 0, 0] a) (fun a _ => ![2, 0, 0] a)
      ![2, 0, 0] 0 ?_ ?_ ?_ ?_ p hp
    · intro a q _
      unfold HasPartial
      fin_cases a
      · have := ((hasDerivAt_id (0 : ℝ)).const_add q.x).pow 2
        simp only [shift]
        refine this.congr_deriv ?_
        simp
      · simpa [shift] using hasDerivAt_const (0 : ℝ) (q.x ^ 2)
      · simpa [shift] using hasDerivAt_const (0 : ℝ) (q.x ^ 2)
    · intro a q _
      unfold HasPartial
      fin_cases a
      · have := ((hasDerivAt_id (0 : ℝ)).const_add q.x).const_mul 2
        simpa [shift] using this
      · simpa [shift] using hasDerivAt_const (0 : ℝ) (0 : ℝ)
      · simpa [shift] using hasDerivAt_const (0 : ℝ) (0 : ℝ)
    · intro a q _
      fin_cases a <;> simp
    · intro a b c _ _ _
      simp [node]
  · rw [compAt_grid _ _ _ _ _ _ _ _ _ ⟨2, 2, 2, 1, fun a _ _ _ => (a : ℝ) ^ 2⟩ rfl (by norm_num) (by norm_num)]
    have hf : ⌊(1 / 2 : ℝ)⌋₊ = 0 := by rw [Nat.floor_eq_zero]; norm_num
    have hm : max (0 : ℝ) (min (1 / 2) 1) = 1 / 2 := by rw [min_eq_left (by norm_num), max_eq_right (by norm_num)]
    simp only [mapCoordinates, gridCoord, interp1, clampCoord]
    norm_num [hf, hm]

/-- The squares of C133, sampled with spacing 1/10 at heights of 1 to 2, as a grid electrode. -/
example : ∃ dat : Arr4, dat.n = 11 ∧ ∀ (l : Idx) (p : V3), l.length = 1 → InBox ⟨0, 0, 1⟩ ⟨1 / 10, 1 / 10, 1 / 10⟩ dat p →
    |electricalAt [⟨"g", 1, 0, .grid [dat, dat] ⟨0, 0, 1⟩ ⟨1 / 10, 1 / 10, 1 / 10⟩⟩] .dc l p - 1 * electricalAt squarePair .dc l p|
      ≤ 2 * (|1| * ((2 * (0 : Nat) + 1) * (2 * [1, 4, 18, 150, 1620, 17100].getD (1 + 2) 0 * 2 / 1 ^ (1 + 2))
        * ((1 / 10) ^ 2 + (1 / 10) ^ 2 + (1 / 10) ^ 2) / 8)) := by
  refine ⟨⟨11, 11, 11, 3, fun a b c i => sysContrib squarePair .dc 1 i (node ⟨0, 0, 1⟩ ⟨1 / 10, 1 / 10, 1 / 10⟩ a b c)⟩, rfl, fun l p hl hp => ?_⟩
  have hz : ∀ q : V3, 1 ≤ q.z → ∀ m : ℤ, -((0 : Nat) : ℤ) ≤ m → m ≤ (0 : Nat) → 1 ≤ |q.z + 2 * m * 50| := fun q hq m m1 m2 => by
    have : m = 0 := by simp at m1 m2; omega
    subst this
    simpa using hq.trans (le_abs_self _)
  refine c143_resampled squarePair 50 0 squarePair_trap .dc 2 (Limit.map_bound squarePair .dc (by norm_num) (by simp [squarePair, Elec.volt]) squarePair_separate) _ ⟨0, 0, 1⟩ ⟨1 / 10, 1 / 10, 1 / 10⟩ 1 (by norm_num)
    ⟨11, 11, 11, 3, fun a b c i => sysContrib squarePair .dc 1 i (node ⟨0, 0, 1⟩ ⟨1 / 10, 1 / 10, 1 / 10⟩ a b c)⟩ rfl (by norm_num)
    (by norm_num) (by norm_num) 1 (by norm_num) (fun q hq => hz q hq.2.2.1) (fun a b c ha hb hc => ?_) "g" 1 0 l hl p hp
  · have hq : offPlanes 50 0 (node ⟨0, 0, 1⟩ ⟨1 / 10, 1 / 10, 1 / 10⟩ a b c) := fun m m1 m2 hm => by
      have := hz (node ⟨0, 0, 1⟩ ⟨1 / 10, 1 / 10, 1 / 10⟩ a b c) (by simp [node]) m m1 m2
      rw [hm] at this
      norm_num at this
    refine ⟨_, electrical_eq squarePair _ 1 .dc (avail_of_off (Limit.trap_off squarePair_trap hq) _ _), fun i hi => ?_⟩
    rw [getD_range_map, if_pos hi]

/-- The derivatives of `x * y`. -/
def xyDeriv (c0 c1 c2 : Nat) (p : V3) : ℝ :=
  match c0, c1, c2 with
  | 0, 0, 0 => p.x * p.y
  | 1, 0, 0 => p.y
  | 0, 1, 0 => p.x
  | 1, 1, 0 => 1
  | _, _, _ => 0

theorem xyDeriv_step (c0 c1 c2 : Nat) (p : V3) : HasPartial 0 (xyDeriv c0 c1 c2) (xyDeriv (c0 + 1) c1 c2 p) p ∧
    HasPartial 1 (xyDeriv c0 c1 c2) (xyDeriv c0 (c1 + 1) c2 p) p ∧ HasPartial 2 (xyDeriv c0 c1 c2) (xyDeriv c0 c1 (c2 + 1) p) p := by
  have hx : HasDerivAt (fun t : ℝ => p.x + t) 1 0 := by simpa using (hasDerivAt_id (0 : ℝ)).const_add p.x
  have hy : HasDerivAt (fun t : ℝ => p.y + t) 1 0 := by simpa using (hasDerivAt_id (0 : ℝ)).const_add p.y
  have hxy : HasDerivAt (fun t : ℝ => (p.x + t) * p.y) p.y 0 := by simpa using hx.mul_const p.y
  have hyx : HasDerivAt (fun t : ℝ => p.x * (p.y + t)) p.x 0 := by simpa using hy.const_mul p.x
  unfold HasPartial
  rcases c0 with _ | _ | c0 <;> rcases c1 with _ | _ | c1 <;> rcases c2 with _ | c2 <;> simp only [xyDeriv, shift] <;>
    refine ⟨?_, ?_, ?_⟩ <;> first | exact hx | exact hy | exact hxy | exact hyx | exact hasDerivAt_const _ _

/-- The field that a grid electrode generates from samples of `x * y`. -/
example : ∃ data', gridGenerate [⟨2, 2, 2, 1, fun a b _ _ => (a : ℝ) * b⟩] ⟨1, 1, 1⟩ 2 = .ok data' ∧
    ∀ p : V3, (0 ≤ p.x ∧ p.x ≤ 1) → (0 ≤ p.y ∧ p.y ≤ 1) → (0 ≤ p.z ∧ p.z ≤ 1) →
      |compAt ⟨"g", 1, 0, .grid data' ⟨0, 0, 0⟩ ⟨1, 1, 1⟩⟩ 1 0 1 p - 1 * p.y| ≤ |1| * (1 * 1 + 0 * (1 ^ 2 + 1 ^ 2 + 1 ^ 2) / 8) := by
  obtain ⟨data', hg⟩ : ∃ data', gridGenerate [⟨2, 2, 2, 1, fun a b _ _ => (a : ℝ) * b⟩] ⟨1, 1, 1⟩ 2 = .ok data' := by
    refine c53_succeeds _ _ 2 (by norm_num) 2 2 2 ⟨le_refl _, le_refl _, le_refl _⟩ Nat.one_pos fun d dat hd => ?_
    cases d with
    | zero => simp at hd; subst hd; exact ⟨rfl, rfl, rfl, rfl⟩
    | succ d => simp at hd
  refine ⟨data', hg, fun p hx hy hz => ?_⟩
  have h0 : data'[0]? = some ⟨2, 2, 2, 1, fun a b _ _ => (a : ℝ) * b⟩ := by
    obtain ⟨⟨t, ht⟩, -, -⟩ := generate_inv _ _ _ _ hg
    rw [← ht]; rfl
  refine c143_generated _ ⟨0, 0, 0⟩ ⟨1, 1, 1⟩ 2 data' hg (by norm_num) (fun l => xyDeriv (l.count 0) (l.count 1) (l.count 2))
    (fun m m' p hm => by simp only [hm.count_eq]) 1 (le_refl _) (le_refl _) (by norm_num) _ h0 (fun l a p _ _ _ => ?_)
    (fun j s l hj hl a b c _ _ _ => ?_) 1 0 1 (fun m p hm _ => ?_) (fun m p hm _ => ?_) (by norm_num) "g" 1 0 1 0 ['x'] [0] rfl rfl p
    ⟨⟨?_, ?_⟩, ⟨?_, ?_⟩, ⟨?_, ?_⟩⟩
  · have := xyDeriv_step (l.count 0) (l.count 1) (l.count 2) p
    obtain rfl | rfl | rfl : a = 0 ∨ a = 1 ∨ a = 2 := by fin_cases a <;> simp
    · simpa [List.count_append] using this.1
    · simpa [List.count_append] using this.2.1
    · simpa [List.count_append] using this.2.2
  · have hj0 : j = 0 := by
      by_contra hcon
      rw [(c05_deriv_to_name_domain (1 - 1) j).2 (by omega)] at hj
      cases hj
    subst hj0
    have : l = [] := by
      have e : derivToName (1 - 1) 0 = .ok [] := rfl
      rw [e] at hj
      injection hj with hj
      subst hj
      injection hl with hl
      exact hl.symm
    subst this
    simp [xyDeriv, node]
  · obtain ⟨a, b, rfl⟩ := List.length_eq_two.1 hm
    fin_cases a <;> fin_cases b <;> first | (show |(0 : ℝ)| ≤ 1; norm_num) | (show |(1 : ℝ)| ≤ 1; norm_num)
  · obtain ⟨a, b, c, rfl⟩ := List.length_eq_three.1 hm
    fin_cases a <;> fin_cases b <;> fin_cases c <;> (show |(0 : ℝ)| ≤ 0; norm_num)
  all_goals norm_num
  · exact hx.1
  · exact hx.2
  · exact hy.1
  · exact hy.2
  · exact hz.1
  · exact hz.2

end Electrode
