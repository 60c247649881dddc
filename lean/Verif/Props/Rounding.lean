import Verif.Lemmas.RoundLoop
import Mathlib.Analysis.Real.Pi.Bounds

/-
C122: in floating-point arithmetic the potentials of points and their derivatives are right up to a few roundings.
-/
namespace Electrode
open Spec Real Rounding

namespace Rounding

/-- rounding to nearest is accurate -/
theorem roundTo_err (t : Nat) (x : ℝ) : |roundTo t x - x| ≤ 1 / 2 ^ (t + 1) * |x| := by
  unfold roundTo
  by_cases hx : x = 0
  · subst hx; simp
  have hpos := abs_pos.2 hx
  set e := Int.log 2 |x| with he
  set s : ℝ := 2 ^ (e - t) with hs
  have hs0 : 0 < s := by positivity
  have h1 : |(round (x / s) : ℝ) - x / s| ≤ 1 / 2 := by
    rw [abs_sub_comm]; exact abs_sub_round _
  have h2 : ((2 : ℕ) : ℝ) ^ e ≤ |x| := Int.zpow_log_le_self (by norm_num) hpos
  have h3 : s * 2 ^ t = 2 ^ e := by
    rw [hs, ← zpow_natCast, ← zpow_add₀ (by norm_num)]; congr 1; ring
  rw [show (round (x / s) : ℝ) * s - x = ((round (x / s) : ℝ) - x / s) * s by field_simp, abs_mul, abs_of_pos hs0]
  calc |(round (x / s) : ℝ) - x / s| * s ≤ 1 / 2 * s := by gcongr
    _ = 1 / 2 ^ (t + 1) * 2 ^ e := by rw [← h3, pow_succ]; field_simp
    _ ≤ _ := by
      have : (2 : ℝ) ^ e ≤ |x| := by exact_mod_cast h2
      gcongr

end Rounding

/-- C122: in an arithmetic whose operations have a relative error of at most `u`, every component of every derivative of the
potential of points differs from the exact one by a small multiple of `u` times the size of the contributions.  The multiple is the
number of points and images, plus a constant.  With a cover this is so for all positions between the plane and the cover. -/
theorem c122_points {o : FloatOps} {u : ℝ} (ho : Accurate o u) (x : List V3) (points : List V2) (areas : List ℝ) (v : ℝ) (d : Nat)
    (hd : d ≤ 5) (nmax : Nat) (h : ℝ) (hz : ∀ p ∈ x, p.z ≠ 0 ∧ (nmax ≠ 0 → |p.z| ≤ h)) (N : Nat)
    (hN : N = (points.zip areas).length * (2 * nmax + 1)) (hu : (300 + N) * u ≤ 1 / 2) (j i : Nat) {p : V3} (hp : x[j]? = some p) :
    |((flPointPotential o x points areas v d nmax h none).getD j []).getD i 0
        - ((pointPotential x points areas v d nmax h none).getD j []).getD i 0|
      ≤ 2 * (300 + N) * u * ((points.zip areas).map fun q =>
          ((coverRange nmax).map fun k => patchSize d (q.2 * v) (imageDist p q.1 h k)).sum).sum := by
  have hb := hbase ho
  have hu0 := ho.nonneg
  have hu1 : u ≤ 1 / 534 := by
    have : 0 ≤ (N : ℝ) * u := by positivity
    linarith
  obtain ⟨hz0, hzh⟩ := hz p (List.mem_of_getElem? hp)
  have hj : j < x.length := (List.getElem?_eq_some_iff.1 hp).1
  have hr : (zeroRows x.length d)[j]? = some (List.replicate (d * 2 + 1) 0) := by simp [zeroRows, hj]
  obtain ⟨s, s', e1, e2, key⟩ := point_rows ho x points areas v d nmax h 300 j hp (fun q k => patchSize d (q.2 * v) (imageDist p q.1 h k))
    (fun q _ k _ => patchSize_nonneg d hd _ (Real.sqrt_nonneg _)) (fun q _ k hk i hi => point_app ho hu1 hz0 hzh d hd q v hk i hi)
    le_rfl hr hr (zero_row ho _ _)
  rw [zero_add] at key
  have e1' : (flPointPotential o x points areas v d nmax h none).getD j [] = s := by
    rw [List.getD_eq_getElem?_getD]; exact congrArg (·.getD []) e1
  have e2' : (pointPotential x points areas v d nmax h none).getD j [] = s' := by
    rw [List.getD_eq_getElem?_getD]; exact congrArg (·.getD []) e2
  rw [e1', e2']
  rw [← hN] at key
  have h1 := (key.app i).err
  have hg := growth hu0 ho.lt_one (k := 300 + N) (by push_cast; exact hu)
  refine h1.trans (mul_le_mul_of_nonneg_right (hg.trans (le_of_eq (by push_cast; ring))) ((abs_nonneg _).trans (key.app i).size))

/-- C122: the potential of points of positive area is right up to a relative error: nothing cancels. -/
theorem c122_relative {o : FloatOps} {u : ℝ} (ho : Accurate o u) (x : List V3) (points : List V2) (areas : List ℝ)
    (ha : ∀ a ∈ areas, 0 ≤ a) (v h : ℝ) (hz : ∀ p ∈ x, p.z ≠ 0) (N : Nat) (hN : N = (points.zip areas).length)
    (hu : (24 + N) * u ≤ 1 / 2) (j : Nat) (hj : j < x.length) :
    |((flPointPotential o x points areas v 0 0 h none).getD j []).getD 0 0
        - ((pointPotential x points areas v 0 0 h none).getD j []).getD 0 0|
      ≤ 2 * (24 + N) * u * |((pointPotential x points areas v 0 0 h none).getD j []).getD 0 0| := by
  have hb := hbase ho
  obtain ⟨p, hp⟩ : ∃ p, x[j]? = some p := ⟨x[j], by simp [hj]⟩
  have hz0 := hz p (List.mem_of_getElem? hp)
  set f : V2 × ℝ → ℝ := fun q => q.2 / (2 * π * √((p.x - q.1.x) ^ 2 + (p.y - q.1.y) ^ 2 + p.z ^ 2) ^ 3) with hf
  have hcr : coverRange 0 = [0] := by simp [coverRange]
  have hval : ((pointPotential x points areas v 0 0 h none).getD j []).getD 0 0 = p.z * v * ((points.zip areas).map f).sum := by
    have e : pointPotential x points areas v 0 0 h none = pointPotential x points areas v 0 0 h (some (zeroRows x.length 0)) := rfl
    rw [e, pointPotential_eq _ _ _ _ _ _ _ _ (by simp [zeroRows])]
    have e2 : (List.zipWith (fun p row => addFn row fun i => v * pointContrib 0 0 h points areas p i) x (zeroRows x.length 0))[j]?
        = some (addFn [0] fun i => v * pointContrib 0 0 h points areas p i) := by
      rw [List.getElem?_zipWith, hp]
      simp [zeroRows, hj]
    rw [show (List.zipWith (fun p row => addFn row fun i => v * pointContrib 0 0 h points areas p i) x (zeroRows x.length 0)).getD j []
      = _ from by rw [List.getD_eq_getElem?_getD, e2, Option.getD_some]]
    simp only [addFn, List.mapIdx_cons, List.getD_cons_zero, zero_add, pointContrib, images, hcr, List.map_cons,
      List.map_nil, List.sum_cons, List.sum_nil, add_zero, V3.lift, Int.cast_zero, mul_zero, zero_mul]
    rw [mul_assoc, mul_comm p.z, mul_assoc, ← List.sum_map_mul_right]
    congr 2
    apply List.map_congr_left
    intro q _
    simp only [pixelComp, pointTerm, pointNum, pointNum0, List.map_cons, List.map_nil, List.getD_cons_zero, PExpr.eval, pointEnv,
      pointNorm, hf]
    ring
  have hf0 : ∀ q ∈ points.zip areas, 0 ≤ f q := by
    intro q hq
    have := ha q.2 (List.of_mem_zip hq).2
    exact div_nonneg this (by positivity)
  have hr : (zeroRows x.length 0)[j]? = some (List.replicate (0 * 2 + 1) 0) := by simp [zeroRows, hj]
  obtain ⟨s, s', e1, e2, key⟩ := point_rows ho x points areas v 0 0 h 24 j hp (fun q _ => |p.z * v| * f q)
    (fun q hq k _ => mul_nonneg (abs_nonneg _) (hf0 q hq)) (fun q hq k hk i hi => by
      have hk0 : k = 0 := mem_coverRange hk rfl
      subst hk0
      have hi0 : i = 0 := by simpa [pointNum, pointNum0] using hi
      subst hi0
      have hz1 : Rel (1 - u)⁻¹ 1 (o.add p.z (o.mul (2 * (0 : ℤ)) h)) p.z := by
        have e : o.mul (2 * ((0 : ℤ) : ℝ)) h = 0 := by simpa using ho.mul (2 * ((0 : ℤ) : ℝ)) h
        rw [e]
        simpa using rel_add ho p.z 0
      have hr := dist_rel ho (rel_sub ho p.x q.1.x) (rel_sub ho p.y q.1.y) hz1
      have hr0 : √((p.x - q.1.x) ^ 2 + (p.y - q.1.y) ^ 2 + p.z ^ 2) ≠ 0 := (Real.sqrt_pos.2 (by positivity)).ne'
      have hn := flPointNorm_rel ho 0 (by norm_num) hr0 hr (rel_mul ho q.2 v)
      have h1 := (rel_mul ho (o.add p.z (o.mul (2 * (0 : ℤ)) h)) _).trans hb (hz1.mul hb hn)
      have e : p.z + 2 * ((0 : ℤ) : ℝ) * h = p.z := by simp
      simp only [flPointTerm, pointTerm, pointNum, pointNum0, List.map_cons, List.map_nil, List.getD_cons_zero, PExpr.eval,
        PExpr.flEval, pointEnv, e]
      refine (h1.mono hb (by norm_num)).app hb (le_of_eq ?_)
      rw [← abs_of_nonneg (hf0 q hq), ← abs_mul]
      congr 1
      simp only [pointNorm, hf]
      ring) le_rfl hr hr (zero_row ho _ _)
  rw [zero_add] at key
  have e1' : (flPointPotential o x points areas v 0 0 h none).getD j [] = s := by
    rw [List.getD_eq_getElem?_getD]; exact congrArg (·.getD []) e1
  have e2' : (pointPotential x points areas v 0 0 h none).getD j [] = s' := by
    rw [List.getD_eq_getElem?_getD]; exact congrArg (·.getD []) e2
  rw [e1', e2']
  rw [e2'] at hval
  have hS : 0 ≤ ((points.zip areas).map f).sum := List.sum_nonneg fun y hy => by
    obtain ⟨q, hq, rfl⟩ := List.mem_map.1 hy
    exact hf0 q hq
  have e3 : ((points.zip areas).map fun q => ((coverRange 0).map fun _ => |p.z * v| * f q).sum).sum
      = |p.z * v * ((points.zip areas).map f).sum| := by
    rw [abs_mul (p.z * v), abs_of_nonneg hS, ← List.sum_map_mul_left]
    simp [hcr]
  rw [e3, ← hval] at key
  have h1 := (key.app 0).err
  have hg := growth ho.nonneg ho.lt_one (k := 24 + N) (by push_cast; exact hu)
  rw [show (points.zip areas).length * (2 * 0 + 1) = N by omega] at h1
  exact h1.trans (mul_le_mul_of_nonneg_right (hg.trans (le_of_eq (by push_cast; ring))) (abs_nonneg _))

/-- C122: the same for polygons, as computed by the Python functions and by the compiled ones.  `κ` says how far from the sides the
positions are; near a side everything is inaccurate. -/
theorem c122_polygons {o : FloatOps} {u : ℝ} (ho : Accurate o u) (compiled : Bool) (x : List V3) (polygons : List (List V2)) (v : ℝ)
    (d : Nat) (hd : d ≤ 5) (nmax : Nat) (h : ℝ) (hz : ∀ p ∈ x, p.z ≠ 0 ∧ (nmax ≠ 0 → |p.z| ≤ h)) (κ : Nat)
    (hκ : ∀ p ∈ x, ∀ poly ∈ polygons, ∀ k ∈ coverRange nmax, ∀ e ∈ boundaryEdges poly, ClearOf κ p h k e) (N : Nat)
    (hN : N = (2 * nmax + 1) * (polygons.map List.length).sum) (hu : (700 * (κ + 1) + N) * u ≤ 1 / 2) (j i : Nat) {p : V3}
    (hp : x[j]? = some p) :
    |((flPolygonPotential o compiled x polygons v d nmax h none).getD j []).getD i 0
        - ((polygonPotential x polygons v d nmax h none).getD j []).getD i 0|
      ≤ 2 * (700 * (κ + 1) + N) * u * (polygons.map fun poly => ((coverRange nmax).map fun k => ((boundaryEdges poly).map fun e =>
          sideSize d v (imageDist p e.1 h k) (imageDist p e.2 h k) (sideLength e)).sum).sum).sum := by
  have hb := hbase ho
  have hu0 := ho.nonneg
  have hNu : 0 ≤ (N : ℝ) * u := by positivity
  have hκu : 0 ≤ (κ : ℝ) * u := by positivity
  have hu1 : u ≤ 1 / 534 := by linarith
  have hpx := List.mem_of_getElem? hp
  obtain ⟨hz0, hzh⟩ := hz p hpx
  have hj : j < x.length := (List.getElem?_eq_some_iff.1 hp).1
  have hr : (zeroRows x.length d)[j]? = some (List.replicate (d * 2 + 1) 0) := by simp [zeroRows, hj]
  have huK : (700 * (κ + 1)) * u ≤ 1 / 2 := by linarith
  obtain ⟨s, s', e1, e2, key⟩ := polygon_rows ho compiled x polygons v d nmax h (700 * (κ + 1)) j hp
      (fun e k => sideSize d v (imageDist p e.1 h k) (imageDist p e.2 h k) (sideLength e))
      (fun poly hpoly e he k hk => side_nonneg ho huK hz0 hzh d hd v e hk (hκ p hpx poly hpoly k hk e he))
      (fun poly hpoly e he k hk i hi => side_app ho huK hz0 hzh compiled d hd v e hk (hκ p hpx poly hpoly k hk e he) i hi)
      le_rfl hr hr (zero_row ho _ _)
  rw [zero_add, ← hN] at key
  have e1' : (flPolygonPotential o compiled x polygons v d nmax h none).getD j [] = s := by
    rw [List.getD_eq_getElem?_getD]; exact congrArg (·.getD []) e1
  have e2' : (polygonPotential x polygons v d nmax h none).getD j [] = s' := by
    rw [List.getD_eq_getElem?_getD]; exact congrArg (·.getD []) e2
  rw [e1', e2']
  have h1 := (key.app i).err
  have hKc : ((700 * (κ + 1) + N : ℕ) : ℝ) = 700 * (κ + 1) + N := by push_cast; ring
  have hg := growth hu0 ho.lt_one (k := 700 * (κ + 1) + N) (by rw [hKc]; exact hu)
  rw [hKc] at hg
  exact h1.trans (mul_le_mul_of_nonneg_right hg ((abs_nonneg _).trans (key.app i).size))

/-- a side joins two points of the list -/
theorem mem_of_edgesFrom {prev : V2} {poly : List V2} {e : V2 × V2} (he : e ∈ edgesFrom prev poly) :
    (e.1 = prev ∨ e.1 ∈ poly) ∧ e.2 ∈ poly := by
  induction poly generalizing prev with
  | nil => simp [edgesFrom] at he
  | cons q poly ih =>
    simp only [edgesFrom, List.mem_cons] at he
    rcases he with rfl | he
    · simp
    · obtain ⟨h1, h2⟩ := ih he
      exact ⟨Or.inr (List.mem_cons.2 h1), List.mem_cons_of_mem _ h2⟩

theorem mem_of_boundaryEdges {poly : List V2} {e : V2 × V2} (he : e ∈ boundaryEdges poly) : e.1 ∈ poly ∧ e.2 ∈ poly := by
  unfold boundaryEdges at he
  split at he
  · simp at he
  · rename_i last hlast
    obtain ⟨h1, h2⟩ := mem_of_edgesFrom he
    refine ⟨h1.elim (fun h => ?_) id, h2⟩
    rw [h]
    exact List.mem_of_getLast? hlast

/-- the images are not nearer than the position -/
theorem image_height {z h : ℝ} {nmax : Nat} (hzh : nmax ≠ 0 → |z| ≤ h) {k : ℤ} (hk : k ∈ coverRange nmax) :
    z ^ 2 ≤ (z + 2 * k * h) ^ 2 := by
  by_cases hk0 : k = 0
  · simp [hk0]
  · have hn : nmax ≠ 0 := fun hn => hk0 (mem_coverRange hk hn)
    have hh := hzh hn
    have hk1 : (1 : ℝ) ≤ |(k : ℝ)| := by exact_mod_cast Int.one_le_abs hk0
    have h0 : 0 ≤ h := (abs_nonneg _).trans hh
    rw [sq_le_sq]
    have h1 : 2 * h ≤ |2 * k * h| := by
      rw [abs_mul, abs_mul, abs_two, abs_of_nonneg h0]
      nlinarith
    have h2 : |2 * (k : ℝ) * h| - |z| ≤ |z + 2 * k * h| := by
      have := abs_sub_abs_le_abs_sub (2 * (k : ℝ) * h) (-z)
      rw [abs_neg, sub_neg_eq_add, add_comm (2 * (k : ℝ) * h)] at this
      exact this
    linarith

theorem clear_real {a b c d z w κ : ℝ} (hκ : 1 ≤ κ) (hw : w ^ 2 ≤ z ^ 2) (h1 : a ^ 2 + b ^ 2 + w ^ 2 ≤ κ * w ^ 2)
    (h2 : c ^ 2 + d ^ 2 + w ^ 2 ≤ κ * w ^ 2) :
    (√(a ^ 2 + b ^ 2 + z ^ 2) + √(c ^ 2 + d ^ 2 + z ^ 2)) ^ 2
      ≤ κ * ((√(a ^ 2 + b ^ 2 + z ^ 2) + √(c ^ 2 + d ^ 2 + z ^ 2)) ^ 2 - ((c - a) ^ 2 + (d - b) ^ 2)) := by
  have s1 : √(a ^ 2 + b ^ 2 + z ^ 2) ^ 2 = a ^ 2 + b ^ 2 + z ^ 2 := Real.sq_sqrt (by positivity)
  have s2 : √(c ^ 2 + d ^ 2 + z ^ 2) ^ 2 = c ^ 2 + d ^ 2 + z ^ 2 := Real.sq_sqrt (by positivity)
  generalize hr1 : √(a ^ 2 + b ^ 2 + z ^ 2) = r1 at *
  generalize hr2 : √(c ^ 2 + d ^ 2 + z ^ 2) = r2 at *
  have hr1' : 0 ≤ r1 := hr1 ▸ Real.sqrt_nonneg _
  have hr2' : 0 ≤ r2 := hr2 ▸ Real.sqrt_nonneg _
  have hcs : z ^ 2 - (a * c + b * d) ≤ r1 * r2 := by
    refine le_trans (le_abs_self _) (abs_le_of_sq_le_sq ?_ (by positivity))
    rw [mul_pow, s1, s2]
    nlinarith [sq_nonneg (a * d - b * c), sq_nonneg (z * (a + c)), sq_nonneg (z * (b + d))]
  have hlow : 4 * z ^ 2 ≤ (r1 + r2) ^ 2 - ((c - a) ^ 2 + (d - b) ^ 2) := by linarith
  have hm : (κ - 1) * w ^ 2 ≤ (κ - 1) * z ^ 2 := mul_le_mul_of_nonneg_left hw (by linarith)
  have hup : (r1 + r2) ^ 2 ≤ κ * (4 * z ^ 2) := by linarith [sq_nonneg (r1 - r2)]
  exact hup.trans (mul_le_mul_of_nonneg_left hlow (by linarith))

/-- C122: a position is clear of the sides of a polygon if no vertex is far away compared with the height. -/
theorem c122_clear (p : V3) (hp : p.z ≠ 0) (poly : List V2) (nmax : Nat) (h : ℝ) (hzh : nmax ≠ 0 → |p.z| ≤ h) (κ : Nat)
    (hq : ∀ q ∈ poly, (p.x - q.x) ^ 2 + (p.y - q.y) ^ 2 + p.z ^ 2 ≤ κ * p.z ^ 2) :
    ∀ k ∈ coverRange nmax, ∀ e ∈ boundaryEdges poly, ClearOf κ p h k e := by
  intro k hk e he
  obtain ⟨h1, h2⟩ := mem_of_boundaryEdges he
  have hz := image_height hzh hk
  have hq1 := hq _ h1
  have hz0 : 0 < p.z ^ 2 := by positivity
  have hκ1 : (1 : ℝ) ≤ κ := by
    by_contra hn
    nlinarith [sq_nonneg (p.x - e.1.x), sq_nonneg (p.y - e.1.y)]
  have := clear_real hκ1 hz hq1 (hq _ h2)
  unfold ClearOf imageDist sideLength
  rw [Real.sq_sqrt (by positivity), show e.1.x - e.2.x = p.x - e.2.x - (p.x - e.1.x) by ring,
    show e.1.y - e.2.y = p.y - e.2.y - (p.y - e.1.y) by ring]
  exact this

/-- C122: in volts, the error of the potential of polygons. -/
theorem c122_volts {o : FloatOps} {u : ℝ} (ho : Accurate o u) (compiled : Bool) (x : List V3) (polygons : List (List V2)) (v : ℝ)
    (nmax : Nat) (h : ℝ) (hz : ∀ p ∈ x, p.z ≠ 0 ∧ (nmax ≠ 0 → |p.z| ≤ h)) (κ : Nat)
    (hq : ∀ p ∈ x, ∀ poly ∈ polygons, ∀ q ∈ poly, (p.x - q.x) ^ 2 + (p.y - q.y) ^ 2 + p.z ^ 2 ≤ κ * p.z ^ 2) (N : Nat)
    (hN : N = (2 * nmax + 1) * (polygons.map List.length).sum) (hu : (700 * (κ + 1) + N) * u ≤ 1 / 2) (j i : Nat) {p : V3}
    (hp : x[j]? = some p) :
    |((flPolygonPotential o compiled x polygons v 0 nmax h none).getD j []).getD i 0
        - ((polygonPotential x polygons v 0 nmax h none).getD j []).getD i 0|
      ≤ 2 * (700 * (κ + 1) + N) * u * (N * (2 * |v| / Real.pi)) := by
  have := c122_polygons ho compiled x polygons v 0 (by norm_num) nmax h hz κ
    (fun p hp poly hpoly => c122_clear p (hz p hp).1 poly nmax h (hz p hp).2 κ (hq p hp poly hpoly)) N hN hu j i hp
  refine this.trans (le_of_eq ?_)
  congr 1
  have hl : ∀ poly : List V2, (boundaryEdges poly).length = poly.length := by
    have : ∀ (poly : List V2) prev, (edgesFrom prev poly).length = poly.length := by
      intro poly
      induction poly with
      | nil => intro _; rfl
      | cons q poly ih => intro _; simp [edgesFrom, ih]
    intro poly
    unfold boundaryEdges
    split
    · rename_i h0
      simp [List.getLast?_eq_none_iff.1 h0]
    · exact this _ _
  simp only [sideSize, if_pos, List.map_const', List.sum_replicate, hl]
  rw [show (coverRange nmax).length = 2 * nmax + 1 by simp [coverRange], hN]
  clear this hN hu hq
  simp only [nsmul_eq_mul]
  push_cast
  induction polygons with
  | nil => simp
  | cons poly l ih =>
    simp only [List.map_cons, List.sum_cons, ih]
    push_cast
    ring

/-- C122: the same for a system of electrodes: the electrical potential and its derivatives for static or rf voltages. -/
theorem c122_system {o : FloatOps} {u : ℝ} (ho : Accurate o u) (compiled : Bool) (s : List Elec) (x : List V3) (d : Nat) (hd : d ≤ 5)
    (typ : VTyp) (κ : Nat) (hz : ∀ p ∈ x, p.z ≠ 0)
    (hw : ∀ p ∈ x, ∀ e ∈ s, e.volt typ ≠ none → e.volt typ ≠ some 0 → WellPlaced κ p e.shape) (N : Nat)
    (hN : N = (s.map fun e => e.roundings typ).sum) (hu : (701 * (κ + 1) + N) * u ≤ 1 / 2) (hx : x ≠ []) :
    ∃ computed exact', flElectricalPotential o compiled s x d typ = .ok computed ∧ electricalPotential s x d typ false = .ok exact'
      ∧ ∀ j p, x[j]? = some p → ∀ i, |(computed.getD j []).getD i 0 - (exact'.getD j []).getD i 0|
        ≤ 2 * (701 * (κ + 1) + N) * u * (s.map fun e => e.size d typ p).sum := by
  have hb := hbase ho
  have hu0 := ho.nonneg
  have hNu : 0 ≤ (N : ℝ) * u := by positivity
  have hκu : 0 ≤ (κ : ℝ) * u := by positivity
  have huK : (700 * (κ + 1)) * u ≤ 1 / 2 := by linarith
  have key : ∀ (j : Nat) (p : V3), x[j]? = some p → ∃ w w' t t', flElectricalPotential o compiled s x d typ = .ok w
      ∧ electricalPotential s x d typ false = .ok w' ∧ w[j]? = some t ∧ w'[j]? = some t'
      ∧ RowApp (1 - u)⁻¹ (701 * (κ + 1) + N) (s.map fun e => e.size d typ p).sum t t' := by
    intro j p hp
    have hpx := List.mem_of_getElem? hp
    have hj : j < x.length := (List.getElem?_eq_some_iff.1 hp).1
    have hr : (zeroRows x.length d)[j]? = some (List.replicate (d * 2 + 1) 0) := by simp [zeroRows, hj]
    obtain ⟨w, w', t, t', h1, h2, h3, h4, h5⟩ := system_rows ho compiled huK s x d hd typ j hp (hz p hpx) (hw p hpx)
      (k := 701 * (κ + 1)) (by omega) hr hr (zero_row ho _ _)
    rw [zero_add, ← hN] at h5
    refine ⟨w, w', t, t', h1, ?_, h3, h4, h5⟩
    unfold electricalPotential
    rw [h2]
    rfl
  obtain ⟨p0, hp0⟩ := List.exists_mem_of_ne_nil x hx
  obtain ⟨j0, hj0⟩ := List.getElem?_of_mem hp0
  obtain ⟨w, w', _, _, h1, h2, -⟩ := key j0 p0 hj0
  refine ⟨w, w', h1, h2, fun j p hp i => ?_⟩
  obtain ⟨a, a', t, t', g1, g2, g3, g4, g5⟩ := key j p hp
  obtain rfl : a = w := by rw [h1] at g1; exact (Except.ok.inj g1).symm
  obtain rfl : a' = w' := by rw [h2] at g2; exact (Except.ok.inj g2).symm
  rw [List.getD_eq_getElem?_getD (l := a), List.getD_eq_getElem?_getD (l := a'), g3, g4, Option.getD_some, Option.getD_some]
  have hKc : ((701 * (κ + 1) + N : ℕ) : ℝ) = 701 * (κ + 1) + N := by push_cast; ring
  have hg := growth hu0 ho.lt_one (k := 701 * (κ + 1) + N) (by rw [hKc]; exact hu)
  rw [hKc] at hg
  exact (g5.app i).err.trans (mul_le_mul_of_nonneg_right hg ((abs_nonneg _).trans (g5.app i).size))

/-- C122: rounding to the nearest number with 53 digits is such an arithmetic, with `u = 2 ^ -53`. -/
theorem c122_binary (t : Nat) : Accurate (binary t) (1 / 2 ^ (t + 1)) where
  nonneg := by positivity
  lt_one := by
    rw [div_lt_one (by positivity)]
    exact one_lt_pow₀ (by norm_num) (by omega)
  add _ _ := roundTo_err t _
  sub _ _ := roundTo_err t _
  mul _ _ := roundTo_err t _
  div _ _ _ := roundTo_err t _
  pow _ _ := roundTo_err t _
  sqrt x _ := by simpa [binary, abs_of_nonneg (Real.sqrt_nonneg x)] using roundTo_err t √x
  atan _ := roundTo_err t _
  atan2 y x hx := by simpa [binary, hx] using roundTo_err t (arctan (y / x))
  pi := by simpa [binary, abs_of_pos Real.pi_pos] using roundTo_err t π

/-- The hypotheses are met: a million points with doubles, relative error below 10⁻⁹. -/
example (points : List V2) (areas : List ℝ) (ha : ∀ a ∈ areas, 0 ≤ a) (hl : (points.zip areas).length = 10 ^ 6) (v : ℝ) :
    |((flPointPotential (binary 52) [⟨0, 0, 1⟩] points areas v 0 0 1 none).getD 0 []).getD 0 0
        - ((pointPotential [⟨0, 0, 1⟩] points areas v 0 0 1 none).getD 0 []).getD 0 0|
      ≤ 1 / 10 ^ 9 * |((pointPotential [⟨0, 0, 1⟩] points areas v 0 0 1 none).getD 0 []).getD 0 0| := by
  refine (c122_relative (c122_binary 52) [⟨0, 0, 1⟩] points areas ha v 1 (by simp) (10 ^ 6) hl.symm (by norm_num) 0 (by simp)).trans ?_
  gcongr
  norm_num

/-- The hypotheses are met with a cover: the gradient of one point with eleven images. -/
example :
    |((flPointPotential (binary 52) [⟨0, 0, 1⟩] [⟨1, 0⟩] [2] 3 1 5 10 none).getD 0 []).getD 2 0
        - ((pointPotential [⟨0, 0, 1⟩] [⟨1, 0⟩] [2] 3 1 5 10 none).getD 0 []).getD 2 0|
      ≤ 1 / 10 ^ 13 * ((coverRange 5).map fun k => patchSize 1 (2 * 3) (imageDist ⟨0, 0, 1⟩ ⟨1, 0⟩ 10 k)).sum := by
  have := c122_points (c122_binary 52) [⟨0, 0, 1⟩] [⟨1, 0⟩] [2] 3 1 (by norm_num) 5 10 (by simp) 11 (by simp) (by norm_num) 0 2 rfl
  refine this.trans ?_
  simp only [List.zip_cons_cons, List.zip_nil_right, List.map_cons, List.map_nil, List.sum_cons, List.sum_nil, add_zero]
  gcongr
  · refine List.sum_nonneg (fun y hy => ?_)
    obtain ⟨k, _, rfl⟩ := List.mem_map.1 hy
    exact div_nonneg (by norm_num) (mul_nonneg (by positivity) (pow_nonneg (Real.sqrt_nonneg _) _))
  · norm_num

/-- The hypotheses are met: a square under a cover, seen from above its centre, with doubles. -/
example (compiled : Bool) :
    |((flPolygonPotential (binary 52) compiled [⟨0, 0, 1⟩] [[⟨1, 1⟩, ⟨-1, 1⟩, ⟨-1, -1⟩, ⟨1, -1⟩]] 3 0 5 10 none).getD 0 []).getD 0 0
        - ((polygonPotential [⟨0, 0, 1⟩] [[⟨1, 1⟩, ⟨-1, 1⟩, ⟨-1, -1⟩, ⟨1, -1⟩]] 3 0 5 10 none).getD 0 []).getD 0 0| ≤ 1 / 10 ^ 10 := by
  have := c122_volts (c122_binary 52) compiled [⟨0, 0, 1⟩] [[⟨1, 1⟩, ⟨-1, 1⟩, ⟨-1, -1⟩, ⟨1, -1⟩]] 3 5 10 (by norm_num) 3
    (by norm_num) 44 (by simp) (by norm_num) 0 0 rfl
  refine this.trans ?_
  have hpi : 2 * |(3 : ℝ)| / Real.pi ≤ 2 := by
    rw [abs_of_pos (by norm_num), div_le_iff₀ Real.pi_pos]
    linarith [Real.pi_gt_three]
  calc _ ≤ 2 * (700 * ((3 : ℕ) + 1) + (44 : ℕ)) * (1 / 2 ^ (52 + 1)) * ((44 : ℕ) * (2 : ℝ)) := by gcongr
    _ ≤ _ := by norm_num

/-- The hypotheses are met: the second derivatives of the potential of a triangle. -/
example (compiled : Bool) (i : Nat) :
    |((flPolygonPotential (binary 52) compiled [⟨0, 0, 1⟩] [[⟨1, 0⟩, ⟨0, 1⟩, ⟨0, 0⟩]] 3 2 0 1 none).getD 0 []).getD i 0
        - ((polygonPotential [⟨0, 0, 1⟩] [[⟨1, 0⟩, ⟨0, 1⟩, ⟨0, 0⟩]] 3 2 0 1 none).getD 0 []).getD i 0|
      ≤ 2 * (700 * ((2 : ℕ) + 1) + (3 : ℕ)) * (1 / 2 ^ (52 + 1))
        * (([[⟨1, 0⟩, ⟨0, 1⟩, ⟨0, 0⟩]] : List (List V2)).map fun poly => ((coverRange 0).map fun k => ((boundaryEdges poly).map fun e =>
          sideSize 2 3 (imageDist ⟨0, 0, 1⟩ e.1 1 k) (imageDist ⟨0, 0, 1⟩ e.2 1 k) (sideLength e)).sum).sum).sum :=
  c122_polygons (c122_binary 52) compiled [⟨0, 0, 1⟩] [[⟨1, 0⟩, ⟨0, 1⟩, ⟨0, 0⟩]] 3 2 (by norm_num) 0 1 (by norm_num) 2
    (fun p hp poly hpoly => by
      simp only [List.mem_singleton] at hp hpoly
      subst hp hpoly
      exact c122_clear _ (by norm_num) _ 0 1 (by simp) 2 (by norm_num)) 3 (by simp) (by norm_num) 0 i rfl

/-- The hypotheses are met: a cover, a pixel and a triangle that carry rf voltages, and a square without. -/
example (compiled : Bool) : ∃ computed exact',
    flElectricalPotential (binary 52) compiled
      [⟨"c", 0, 1, .cover 50⟩, ⟨"p", 0, 2, .points [⟨3, 4⟩] [2] 50 0⟩, ⟨"t", 0, 5, .polygons [[⟨1, 0⟩, ⟨0, 1⟩, ⟨0, 0⟩]] 50 2⟩,
        ⟨"m", 0, 5, .mesh [⟨1, 0⟩, ⟨0, 1⟩, ⟨0, 0⟩] [(2, 0), (0, 1), (1, 2)] [0, 0, 0] [3] 50 0⟩,
        ⟨"s", 7, 0, .polygons [[⟨1, 1⟩, ⟨-1, 1⟩, ⟨-1, -1⟩, ⟨1, -1⟩]] 50 0⟩] [⟨0, 0, 1⟩] 1 .rf = .ok computed
    ∧ electricalPotential
      [⟨"c", 0, 1, .cover 50⟩, ⟨"p", 0, 2, .points [⟨3, 4⟩] [2] 50 0⟩, ⟨"t", 0, 5, .polygons [[⟨1, 0⟩, ⟨0, 1⟩, ⟨0, 0⟩]] 50 2⟩,
        ⟨"m", 0, 5, .mesh [⟨1, 0⟩, ⟨0, 1⟩, ⟨0, 0⟩] [(2, 0), (0, 1), (1, 2)] [0, 0, 0] [3] 50 0⟩,
        ⟨"s", 7, 0, .polygons [[⟨1, 1⟩, ⟨-1, 1⟩, ⟨-1, -1⟩, ⟨1, -1⟩]] 50 0⟩] [⟨0, 0, 1⟩] 1 .rf false = .ok exact'
    ∧ ∀ j p, [(⟨0, 0, 1⟩ : V3)][j]? = some p → ∀ i, |(computed.getD j []).getD i 0 - (exact'.getD j []).getD i 0|
        ≤ 2 * (701 * ((2 : ℕ) + 1) + (20 : ℕ)) * (1 / 2 ^ (52 + 1)) * (([⟨"c", 0, 1, .cover 50⟩, ⟨"p", 0, 2, .points [⟨3, 4⟩] [2] 50 0⟩,
        ⟨"t", 0, 5, .polygons [[⟨1, 0⟩, ⟨0, 1⟩, ⟨0, 0⟩]] 50 2⟩,
        ⟨"m", 0, 5, .mesh [⟨1, 0⟩, ⟨0, 1⟩, ⟨0, 0⟩] [(2, 0), (0, 1), (1, 2)] [0, 0, 0] [3] 50 0⟩,
        ⟨"s", 7, 0, .polygons [[⟨1, 1⟩, ⟨-1, 1⟩, ⟨-1, -1⟩, ⟨1, -1⟩]] 50 0⟩] : List Elec).map fun e => e.size 1 .rf p).sum := by
  refine c122_system (c122_binary 52) compiled _ [⟨0, 0, 1⟩] 1 (by norm_num) .rf 2 (by simp) ?_ 20 ?_ (by norm_num) (by simp)
  · have tri := c122_clear ⟨0, 0, 1⟩ (by norm_num) [⟨1, 0⟩, ⟨0, 1⟩, ⟨0, 0⟩] 2 50 (by norm_num) 2 (by norm_num)
    intro p hp e he h1 h2
    simp only [List.mem_singleton] at hp
    subst hp
    simp only [List.mem_cons, List.not_mem_nil, or_false] at he
    rcases he with rfl | rfl | rfl | rfl | rfl
    · simp [WellPlaced]
    · simp [WellPlaced]
    · refine ⟨by norm_num, fun poly hpoly => ?_⟩
      simp only [List.mem_singleton] at hpoly
      subst hpoly
      exact tri
    · have tri' := c122_clear ⟨0, 0, 1⟩ (by norm_num) [⟨1, 0⟩, ⟨0, 1⟩, ⟨0, 0⟩] 0 50 (by norm_num) 2 (by norm_num)
      refine ⟨by norm_num, fun e he k hk => tri' k hk _ ?_⟩
      simp only [List.zip_cons_cons, List.zip_nil_right, List.mem_cons, List.not_mem_nil, or_false] at he
      rcases he with rfl | rfl | rfl <;> simp [boundaryEdges, edgesFrom]
    · exact absurd rfl h2
  · simp [Elec.roundings, Elec.volt, Shape.roundings]

end Electrode
