import Verif.Lemmas.RoundEdge

/-
Rounding errors of the loops over the parts of an electrode, and of the electrodes of a system.
-/
namespace Electrode
namespace Rounding
open Spec Real

theorem mem_coverRange {n : Nat} {k : ℤ} (h : k ∈ coverRange n) : n = 0 → k = 0 := by
  rintro rfl
  simpa [coverRange] using h

/-- the height of an image -/
theorem height_rel {o : FloatOps} {u : ℝ} (ho : Accurate o u) (hu1 : u ≤ 1 / 534) {p : V3} {h : ℝ} {nmax : Nat} (hz0 : p.z ≠ 0)
    (hzh : nmax ≠ 0 → |p.z| ≤ h) {k : ℤ} (hk : k ∈ coverRange nmax) :
    p.z + 2 * k * h ≠ 0 ∧ Rel (1 - u)⁻¹ 12 (o.add p.z (o.mul (2 * k) h)) (p.z + 2 * k * h) := by
  have hb := hbase ho
  have hbd : 2 * ((3 : ℕ) : ℝ) * ((1 - u)⁻¹ ^ 2 - 1) ≤ 1 := by
    have h1 : (1 - u)⁻¹ ≤ 534 / 533 := by
      rw [inv_le_comm₀ (by linarith) (by norm_num)]; linarith
    have h2 : (1 - u)⁻¹ ^ 2 ≤ (534 / 533) ^ 2 := by gcongr
    norm_num at h2 ⊢
    linarith
  have hZ : p.z + 2 * k * h ≠ 0 ∧ |p.z| + |2 * k * h| ≤ 3 * |p.z + 2 * k * h| := by
    by_cases hk0 : k = 0
    · subst hk0
      simp only [Int.cast_zero, mul_zero, zero_mul, add_zero, abs_zero]
      exact ⟨hz0, by linarith [abs_nonneg p.z]⟩
    · have hn : nmax ≠ 0 := fun hn => hk0 (mem_coverRange hk hn)
      have h1 := hzh hn
      have hpz := abs_pos.2 hz0
      have hh : 0 < h := hpz.trans_le h1
      have h2 : (1 : ℝ) ≤ |(k : ℝ)| := by
        have := Int.one_le_abs hk0
        exact_mod_cast this
      have h3 : |2 * k * h| = 2 * |(k : ℝ)| * h := by
        rw [abs_mul, abs_mul, abs_of_pos hh]; norm_num
      have h4 : |2 * k * h| - |p.z| ≤ |p.z + 2 * k * h| := by
        have := abs_sub_abs_le_abs_sub (2 * k * h) (-p.z)
        rw [abs_neg] at this
        rwa [show 2 * (k : ℝ) * h - -p.z = p.z + 2 * k * h by ring] at this
      have h5 : h ≤ |(k : ℝ)| * h := le_mul_of_one_le_left hh.le h2
      refine ⟨fun h0 => ?_, by linarith⟩
      rw [h0, abs_zero] at h4
      linarith
  have hz1 : Rel (1 - u)⁻¹ 12 (o.add p.z (o.mul (2 * k) h)) (p.z + 2 * k * h) := by
    have h1 : App (1 - u)⁻¹ 1 p.z p.z |p.z| := (Rel.refl hb _ _).app hb le_rfl
    have h2 : App (1 - u)⁻¹ 1 (o.mul (2 * k) h) (2 * k * h) |2 * k * h| := (rel_mul ho _ _).app hb le_rfl
    exact ((h1.add hb h2).round hb (rel_add ho _ _)).rel hb 3 (by exact_mod_cast hZ.2) hbd
  exact ⟨hZ.1, hz1⟩


section
variable {o : FloatOps} {u : ℝ} (ho : Accurate o u)
include ho

/-- nothing was added yet -/
theorem zero_row (K d : Nat) : RowApp (1 - u)⁻¹ K 0 (List.replicate (d * 2 + 1) (0 : ℝ)) (List.replicate (d * 2 + 1) 0) :=
  ⟨rfl, fun i => (Rel.refl (hbase ho) _ K).app (hbase ho) (by
    rw [List.getD_eq_getElem?_getD, List.getElem?_replicate]; split <;> simp)⟩

/-! ### Points -/

/-- the loops over points, given the errors of the increments -/
theorem point_rows (x : List V3) (points : List V2) (areas : List ℝ) (v : ℝ)
    (d nmax : Nat) (h : ℝ) (K : Nat) (j : Nat) {p : V3} (hp : x[j]? = some p) (m : V2 × ℝ → ℤ → ℝ)
    (hm : ∀ q ∈ points.zip areas, ∀ k ∈ coverRange nmax, 0 ≤ m q k)
    (ht : ∀ q ∈ points.zip areas, ∀ k ∈ coverRange nmax, ∀ i < (pointNum d).length,
      let x0 := o.sub p.x q.1.x
      let y0 := o.sub p.y q.1.y
      let z0 := o.add p.z (o.mul (2 * k) h)
      App (1 - u)⁻¹ K
        ((flPointTerm o d x0 y0 z0 (o.sqrt (o.add (o.add (o.pow x0 2) (o.pow y0 2)) (o.pow z0 2))) (o.mul q.2 v)).getD i 0)
        ((pointTerm d (p.x - q.1.x) (p.y - q.1.y) (p.z + 2 * k * h)
          √((p.x - q.1.x) ^ 2 + (p.y - q.1.y) ^ 2 + (p.z + 2 * k * h) ^ 2) (q.2 * v)).getD i 0) (m q k))
    {k : Nat} (hk : K ≤ k) {M : ℝ} {out out' : List (List ℝ)} {r r' : List ℝ} (hr : out[j]? = some r) (hr' : out'[j]? = some r')
    (h0 : RowApp (1 - u)⁻¹ k M r r') :
    ∃ s s', (flPointPotential o x points areas v d nmax h (some out))[j]? = some s
      ∧ (pointPotential x points areas v d nmax h (some out'))[j]? = some s'
      ∧ RowApp (1 - u)⁻¹ (k + (points.zip areas).length * (2 * nmax + 1))
        (M + ((points.zip areas).map fun q => ((coverRange nmax).map fun k => m q k).sum).sum) s s' := by
  have hb := hbase ho
  refine ⟨_, _, foldl_zipWith _ _ (fun (q : V2 × ℝ) p row => (coverRange nmax).foldl (flPointStep o d h q.1 (o.mul q.2 v) p) row) _ j hp hr,
    foldl_zipWith _ _ (fun (q : V2 × ℝ) p row => (coverRange nmax).foldl (pointStep d h q.1 (q.2 * v) p) row) _ j hp hr', ?_⟩
  have hlen : (coverRange nmax).length = 2 * nmax + 1 := by simp [coverRange]
  exact RowApp.foldl' (K := K) (c := 2 * nmax + 1) (points.zip areas)
    (fun row q => (coverRange nmax).foldl (flPointStep o d h q.1 (o.mul q.2 v) p) row)
    (fun row q => (coverRange nmax).foldl (pointStep d h q.1 (q.2 * v) p) row)
    (fun q => ((coverRange nmax).map fun k => m q k).sum) (fun q hq k M r s hk hrs => by
      rw [← hlen]
      refine RowApp.foldl hb (K := K) (coverRange nmax) _ _ (m q) (hm q hq) (fun c hc k' M' r' s' hk' hrs' => ?_) hk hrs
      refine hrs'.step ho le_rfl (hm q hq c hc) (by simp [flPointTerm, pointTerm]) (fun i hi => ?_)
      have hi' : i < (pointNum d).length := by simpa [flPointTerm] using hi
      exact (ht q hq c hc i hi').mono hb hk' le_rfl) hk h0

omit ho in
theorem patchSize_nonneg (d : Nat) (hd : d ≤ 5) (a : ℝ) {r : ℝ} (hr : 0 ≤ r) : 0 ≤ patchSize d a r := by
  have h1 : (0 : ℝ) ≤ [1, 4, 18, 150, 1620, 17100].getD d 0 := by
    interval_cases d <;> norm_num
  exact div_nonneg (mul_nonneg h1 (abs_nonneg _)) (mul_nonneg (by positivity) (pow_nonneg hr _))

/-- one image of one point -/
theorem point_app (hu1 : u ≤ 1 / 534) {p : V3} (hz0 : p.z ≠ 0) {nmax : Nat} {h : ℝ} (hzh : nmax ≠ 0 → |p.z| ≤ h) (d : Nat) (hd : d ≤ 5)
    (q : V2 × ℝ) (v : ℝ) {k : ℤ} (hk : k ∈ coverRange nmax) (i : Nat) (hi : i < (pointNum d).length) :
      let x0 := o.sub p.x q.1.x
      let y0 := o.sub p.y q.1.y
      let z0 := o.add p.z (o.mul (2 * k) h)
      App (1 - u)⁻¹ 300
        ((flPointTerm o d x0 y0 z0 (o.sqrt (o.add (o.add (o.pow x0 2) (o.pow y0 2)) (o.pow z0 2))) (o.mul q.2 v)).getD i 0)
        ((pointTerm d (p.x - q.1.x) (p.y - q.1.y) (p.z + 2 * k * h)
          √((p.x - q.1.x) ^ 2 + (p.y - q.1.y) ^ 2 + (p.z + 2 * k * h) ^ 2) (q.2 * v)).getD i 0)
        (patchSize d (q.2 * v) (imageDist p q.1 h k)) := by
  have hb := hbase ho
  obtain ⟨hZ, hz1⟩ := height_rel ho hu1 hz0 hzh hk
  have := flPointTerm_app ho d hd (kz := 12) (K := 300) (by norm_num) (rel_sub ho p.x q.1.x) (rel_sub ho p.y q.1.y) hz1
    (rel_mul ho q.2 v) hZ (by
      have : ∀ d ≤ 5, ∀ e ∈ pointNum d, cost (pointCost 12 (12 + 3)) e + (2 * d + 3) * (12 + 3) + 8 ≤ 300 := by decide +kernel
      exact this d hd) i hi
  refine this.mono hb le_rfl (le_of_eq ?_)
  rw [patchSize, imageDist]
  congr 2
  interval_cases d <;> norm_num [pointWt]

/-! ### Sides -/

/-- what is computed for one side of a polygon -/
noncomputable def flSideTerm (o : FloatOps) (c : Bool) (d : Nat) (h v : ℝ) (p : V3) (e : V2 × V2) (k : ℤ) : List ℝ :=
  let x1 := o.sub p.x e.1.x
  let y1 := o.sub p.y e.1.y
  let x2 := o.sub p.x e.2.x
  let y2 := o.sub p.y e.2.y
  let z := o.add p.z (o.mul (2 * k) h)
  flEdgeTerm o c d x1 x2 y1 y2 (flDist o x1 y1 z) (flDist o x2 y2 z) (o.add (o.pow (o.sub x1 x2) 2) (o.pow (o.sub y1 y2) 2)) z v

/-- what should be computed -/
noncomputable def sideTerm (d : Nat) (h v : ℝ) (p : V3) (e : V2 × V2) (k : ℤ) : List ℝ :=
  let z := p.z + 2 * k * h
  edgeTerm d (p.x - e.1.x) (p.x - e.2.x) (p.y - e.1.y) (p.y - e.2.y)
    √((p.x - e.1.x) ^ 2 + (p.y - e.1.y) ^ 2 + z ^ 2) √((p.x - e.2.x) ^ 2 + (p.y - e.2.y) ^ 2 + z ^ 2)
    ((p.x - e.1.x - (p.x - e.2.x)) ^ 2 + (p.y - e.1.y - (p.y - e.2.y)) ^ 2) z v

omit ho in
theorem sideTerm_length (d : Nat) (h v : ℝ) (p : V3) (e : V2 × V2) (k : ℤ) :
    (sideTerm d h v p e k).length = (edgeTerm d 0 0 0 0 0 0 0 0 0).length := by
  cases d <;> simp [sideTerm, edgeTerm]

omit ho in
theorem flSideTerm_length (c : Bool) (d : Nat) (h v : ℝ) (p : V3) (e : V2 × V2) (k : ℤ) :
    (flSideTerm o c d h v p e k).length = (edgeTerm d 0 0 0 0 0 0 0 0 0).length := by
  cases d <;> simp [flSideTerm, flEdgeTerm, edgeTerm]

/-- one image of one side -/
theorem side_app {κ : Nat} (hu : (700 * (κ + 1)) * u ≤ 1 / 2) {p : V3} (hz0 : p.z ≠ 0) {nmax : Nat} {h : ℝ}
    (hzh : nmax ≠ 0 → |p.z| ≤ h) (c : Bool) (d : Nat) (hd : d ≤ 5) (v : ℝ) (e : V2 × V2) {k : ℤ} (hk : k ∈ coverRange nmax)
    (hclear : ClearOf κ p h k e) (i : Nat) (hi : i < (edgeTerm d 0 0 0 0 0 0 0 0 0).length) :
    App (1 - u)⁻¹ (700 * (κ + 1)) ((flSideTerm o c d h v p e k).getD i 0) ((sideTerm d h v p e k).getD i 0)
      (sideSize d v (imageDist p e.1 h k) (imageDist p e.2 h k) (sideLength e)) := by
  have hb := hbase ho
  have hu0 := ho.nonneg
  have hκu : 0 ≤ (κ : ℝ) * u := by positivity
  have hu1 : u ≤ 1 / 534 := by linarith
  set z := p.z + 2 * k * h with hzd
  set zc := o.add p.z (o.mul (2 * k) h) with hzc
  obtain ⟨hZ, hz1⟩ := height_rel ho hu1 hz0 hzh hk
  have hr : ∀ q : V2, Rel (1 - u)⁻¹ 15 (flDist o (o.sub p.x q.x) (o.sub p.y q.y) zc) √((p.x - q.x) ^ 2 + (p.y - q.y) ^ 2 + z ^ 2) :=
    fun q => dist_rel ho ((rel_sub ho _ _).mono hb (by norm_num)) ((rel_sub ho _ _).mono hb (by norm_num)) hz1
  have s : Side u (o.sub p.x e.1.x) (o.sub p.x e.2.x) (o.sub p.y e.1.y) (o.sub p.y e.2.y)
      (flDist o (o.sub p.x e.1.x) (o.sub p.y e.1.y) zc) (flDist o (o.sub p.x e.2.x) (o.sub p.y e.2.y) zc) zc
      (p.x - e.1.x) (p.x - e.2.x) (p.y - e.1.y) (p.y - e.2.y)
      √((p.x - e.1.x) ^ 2 + (p.y - e.1.y) ^ 2 + z ^ 2) √((p.x - e.2.x) ^ 2 + (p.y - e.2.y) ^ 2 + z ^ 2) z :=
    ⟨rel_sub ho _ _, rel_sub ho _ _, rel_sub ho _ _, rel_sub ho _ _, hz1, hr e.1, hr e.2, hZ, rfl, rfl⟩
  have hl : (e.1.x - e.2.x) ^ 2 + (e.1.y - e.2.y) ^ 2 = (p.x - e.1.x - (p.x - e.2.x)) ^ 2 + (p.y - e.1.y - (p.y - e.2.y)) ^ 2 := by
    ring
  rw [ClearOf, sideLength, Real.sq_sqrt (by positivity), hl] at hclear
  have hme : sideSize d v (imageDist p e.1 h k) (imageDist p e.2 h k) (sideLength e)
      = sideSize d v √((p.x - e.1.x) ^ 2 + (p.y - e.1.y) ^ 2 + z ^ 2) √((p.x - e.2.x) ^ 2 + (p.y - e.2.y) ^ 2 + z ^ 2)
      √((p.x - e.1.x - (p.x - e.2.x)) ^ 2 + (p.y - e.1.y - (p.y - e.2.y)) ^ 2) := by
    simp only [imageDist, sideLength, hl, hzd]
  rw [hme]
  by_cases hd0 : d = 0
  · subst hd0
    have hi0 : i = 0 := by simpa [edgeTerm] using hi
    subst hi0
    rw [sideSize, if_pos rfl]
    exact s.pot_app ho hclear (by linarith) (by linarith) c v 0 0
  · have hi' : i < (edgeNum d).length := by
      obtain ⟨n, rfl⟩ : ∃ n, d = n + 1 := ⟨d - 1, by omega⟩
      simpa [edgeTerm] using hi
    exact s.deriv_app ho hclear (by linarith) (by linarith) c d (by omega) hd v i hi'

theorem side_nonneg {κ : Nat} (hu : (700 * (κ + 1)) * u ≤ 1 / 2) {p : V3} (hz0 : p.z ≠ 0) {nmax : Nat} {h : ℝ}
    (hzh : nmax ≠ 0 → |p.z| ≤ h) (d : Nat) (hd : d ≤ 5) (v : ℝ) (e : V2 × V2) {k : ℤ} (hk : k ∈ coverRange nmax)
    (hclear : ClearOf κ p h k e) : 0 ≤ sideSize d v (imageDist p e.1 h k) (imageDist p e.2 h k) (sideLength e) := by
  have hne : 0 < (edgeTerm d 0 0 0 0 0 0 0 0 0).length := by
    interval_cases d <;> decide +revert
  exact (side_app ho hu hz0 hzh false d hd v e hk hclear 0 hne).nonneg

/-- a wrong voltage makes a wrong potential -/
theorem side_app' {κ : Nat} (hu : (700 * (κ + 1)) * u ≤ 1 / 2) {p : V3} (hz0 : p.z ≠ 0) {nmax : Nat} {h : ℝ}
    (hzh : nmax ≠ 0 → |p.z| ≤ h) (c : Bool) (d : Nat) (hd : d ≤ 5) {v v' : ℝ} (hv : Rel (1 - u)⁻¹ 1 v v') (e : V2 × V2) {k : ℤ}
    (hk : k ∈ coverRange nmax)
    (hclear : ClearOf κ p h k e) (i : Nat) (hi : i < (edgeTerm d 0 0 0 0 0 0 0 0 0).length) :
    App (1 - u)⁻¹ (700 * (κ + 1) + 1) ((flSideTerm o c d h v p e k).getD i 0) ((sideTerm d h v' p e k).getD i 0)
      (sideSize d v' (imageDist p e.1 h k) (imageDist p e.2 h k) (sideLength e)) := by
  have hb := hbase ho
  have h1 := side_app ho hu hz0 hzh c d hd v e hk hclear i hi
  have h2 := side_app ho hu hz0 hzh c d hd v' e hk hclear i hi
  obtain ⟨t, rfl, ht1, ht2⟩ := hv
  have ht := Rel.pos_factor hb ht1
  have e1 : (sideTerm d h (v' * t) p e k).getD i 0 = (sideTerm d h v' p e k).getD i 0 * t := by
    have : sideTerm d h (v' * t) p e k = (sideTerm d h v' p e k).map (· * t) := by
      rcases d with _ | d
      · simp [sideTerm, edgeTerm]; ring
      · simp only [sideTerm, edgeTerm, List.map_map]
        refine List.map_congr_left (fun a _ => ?_)
        have hn : ∀ r1 r2 l, edgeNorm (d + 1) r1 r2 l (v' * t) = edgeNorm (d + 1) r1 r2 l v' * t := by
          intro r1 r2 l
          have hd4 : d ≤ 4 := by omega
          clear hclear hi h1 h2 hd
          interval_cases d <;> simp only [edgeNorm] <;> ring
        simp only [Function.comp, hn]
        ring
    rw [this, List.getD_eq_getElem?_getD, List.getElem?_map, List.getD_eq_getElem?_getD]
    cases (sideTerm d h v' p e k)[i]? <;> simp
  have e2 : sideSize d (v' * t) (imageDist p e.1 h k) (imageDist p e.2 h k) (sideLength e)
      = sideSize d v' (imageDist p e.1 h k) (imageDist p e.2 h k) (sideLength e) * t := by
    unfold sideSize
    rw [abs_mul, abs_of_pos ht]
    split <;> ring
  rw [e1, e2] at h1
  have h3 : Rel (1 - u)⁻¹ 1 ((sideTerm d h v' p e k).getD i 0 * t) ((sideTerm d h v' p e k).getD i 0) := ⟨t, rfl, ht1, ht2⟩
  have h4 := (h3.app hb h2.size).err
  have h5 := h1.err
  have h0 := h2.nonneg
  have hK := pow_ge hb (700 * (κ + 1))
  refine ⟨h2.size, ?_⟩
  set m := sideSize d v' (imageDist p e.1 h k) (imageDist p e.2 h k) (sideLength e)
  set X := (flSideTerm o c d h (v' * t) p e k).getD i 0
  set Y := (sideTerm d h v' p e k).getD i 0
  rw [pow_one] at ht2 h4
  calc |X - Y| ≤ |X - Y * t| + |Y * t - Y| := by
        rw [show X - Y = (X - Y * t) + (Y * t - Y) by ring]; exact abs_add_le _ _
    _ ≤ ((1 - u)⁻¹ ^ (700 * (κ + 1)) - 1) * (m * t) + ((1 - u)⁻¹ - 1) * m := add_le_add h5 h4
    _ ≤ ((1 - u)⁻¹ ^ (700 * (κ + 1)) - 1) * (m * (1 - u)⁻¹) + ((1 - u)⁻¹ - 1) * m := by
        gcongr
    _ = _ := by rw [pow_succ]; ring

/-! ### Polygons and meshes -/

/-- the loops over polygons, given the errors of the increments -/
theorem polygon_rows (c : Bool) (x : List V3) (polygons : List (List V2)) (v : ℝ) (d nmax : Nat) (h : ℝ) (K j : Nat) {p : V3}
    (hp : x[j]? = some p) (m : V2 × V2 → ℤ → ℝ)
    (hm : ∀ poly ∈ polygons, ∀ e ∈ boundaryEdges poly, ∀ k ∈ coverRange nmax, 0 ≤ m e k)
    (ht : ∀ poly ∈ polygons, ∀ e ∈ boundaryEdges poly, ∀ k ∈ coverRange nmax, ∀ i < (edgeTerm d 0 0 0 0 0 0 0 0 0).length,
      App (1 - u)⁻¹ K ((flSideTerm o c d h v p e k).getD i 0) ((sideTerm d h v p e k).getD i 0) (m e k))
    {k : Nat} (hk : K ≤ k) {M : ℝ} {out out' : List (List ℝ)} {r r' : List ℝ} (hr : out[j]? = some r) (hr' : out'[j]? = some r')
    (h0 : RowApp (1 - u)⁻¹ k M r r') :
    ∃ s s', (flPolygonPotential o c x polygons v d nmax h (some out))[j]? = some s
      ∧ (polygonPotential x polygons v d nmax h (some out'))[j]? = some s'
      ∧ RowApp (1 - u)⁻¹ (k + (2 * nmax + 1) * (polygons.map List.length).sum)
        (M + (polygons.map fun poly => ((coverRange nmax).map fun k => ((boundaryEdges poly).map fun e => m e k).sum).sum).sum) s s' := by
  have hlen : (coverRange nmax).length = 2 * nmax + 1 := by simp [coverRange]
  refine ⟨_, _, foldl_zipWith _ _ (fun poly p row => (coverRange nmax).foldl (flImageStep o c d v h poly p) row) _ j hp hr,
    foldl_zipWith _ _ (fun poly p row => (coverRange nmax).foldl (polyImageStep d v h poly p) row) _ j hp hr', ?_⟩
  rw [show (2 * nmax + 1) * (polygons.map List.length).sum = (polygons.map fun poly => (2 * nmax + 1) * poly.length).sum by
    rw [← List.sum_map_mul_left]]
  exact RowApp.foldlN (K := K) (fun poly => (2 * nmax + 1) * poly.length) polygons
    (fun row poly => (coverRange nmax).foldl (flImageStep o c d v h poly p) row)
    (fun row poly => (coverRange nmax).foldl (polyImageStep d v h poly p) row)
    (fun poly => ((coverRange nmax).map fun k => ((boundaryEdges poly).map fun e => m e k).sum).sum) (fun poly hpoly k M r s hk hrs => by
      have := RowApp.foldlN (K := K) (fun _ => poly.length) (coverRange nmax) (flImageStep o c d v h poly p)
        (polyImageStep d v h poly p) (fun k => ((boundaryEdges poly).map fun e => m e k).sum) (fun l hl k' M' r' s' hk' hrs' => by
          unfold flImageStep polyImageStep
          rcases hlast : poly.getLast? with _ | last
          · have : poly = [] := List.getLast?_eq_none_iff.1 hlast
            subst this
            simpa [boundaryEdges] using hrs'
          · have hbe : boundaryEdges poly = edgesFrom last poly := by simp [boundaryEdges, hlast]
            rw [hbe]
            exact vertex_fold ho (fun e => m e l) poly last (fun e he => hm poly hpoly e (hbe ▸ he) l hl)
              (fun e he i hi => ht poly hpoly e (hbe ▸ he) l hl i hi) hk' hrs') hk hrs
      rwa [List.map_const', List.sum_replicate, hlen, smul_eq_mul] at this) hk h0

/-- the ends of a side of a mesh -/
def meshSide (points : List V2) (e : (Nat × Nat) × Nat) : V2 × V2 := (points.getD e.1.1 ⟨0, 0⟩, points.getD e.1.2 ⟨0, 0⟩)

/-- the loops over meshes, given the errors of the increments -/
theorem mesh_rows (c : Bool) (x : List V3) (points : List V2) (edges : List (Nat × Nat)) (polys : List Nat) (pots pots' : List ℝ)
    (d nmax : Nat) (h : ℝ) (K j : Nat) {p : V3}
    (hp : x[j]? = some p) (m : (Nat × Nat) × Nat → ℤ → ℝ)
    (hm : ∀ e ∈ edges.zip polys, ∀ k ∈ coverRange nmax, 0 ≤ m e k)
    (ht : ∀ e ∈ edges.zip polys, ∀ k ∈ coverRange nmax, ∀ i < (edgeTerm d 0 0 0 0 0 0 0 0 0).length,
      App (1 - u)⁻¹ K ((flSideTerm o c d h (pots.getD e.2 0) p (meshSide points e) k).getD i 0)
        ((sideTerm d h (pots'.getD e.2 0) p (meshSide points e) k).getD i 0) (m e k))
    {k : Nat} (hk : K ≤ k) {M : ℝ} {out out' : List (List ℝ)} {r r' : List ℝ} (hr : out[j]? = some r) (hr' : out'[j]? = some r')
    (h0 : RowApp (1 - u)⁻¹ k M r r') :
    ∃ s s', (flMeshPotential o c x points edges polys pots d nmax h (some out))[j]? = some s
      ∧ (meshPotential x points edges polys pots' d nmax h (some out'))[j]? = some s'
      ∧ RowApp (1 - u)⁻¹ (k + (edges.zip polys).length * (2 * nmax + 1))
        (M + ((edges.zip polys).map fun e => ((coverRange nmax).map fun k => m e k).sum).sum) s s' := by
  have hb := hbase ho
  have hlen : (coverRange nmax).length = 2 * nmax + 1 := by simp [coverRange]
  refine ⟨_, _, foldl_zipWith _ _ (fun (e : (Nat × Nat) × Nat) p row => (coverRange nmax).foldl (flMeshStep o c d h (points.getD e.1.1 ⟨0, 0⟩)
      (points.getD e.1.2 ⟨0, 0⟩) (pots.getD e.2 0) p) row) _ j hp hr,
    foldl_zipWith _ _ (fun (e : (Nat × Nat) × Nat) p row => (coverRange nmax).foldl (meshStep d h (points.getD e.1.1 ⟨0, 0⟩)
      (points.getD e.1.2 ⟨0, 0⟩) (pots'.getD e.2 0) p) row) _ j hp hr', ?_⟩
  exact RowApp.foldl' (K := K) (c := 2 * nmax + 1) (edges.zip polys) _ _
    (fun q => ((coverRange nmax).map fun k => m q k).sum) (fun q hq k M r s hk hrs => by
      rw [← hlen]
      refine RowApp.foldl hb (K := K) (coverRange nmax) _ _ (m q) (hm q hq) (fun l hl k' M' r' s' hk' hrs' => ?_) hk hrs
      exact hrs'.step ho le_rfl (hm q hq l hl) (edge_lengths ho c d _ _ _ _ _ _ _ _ _ _ _ _ _ _ _ _ _ _) (fun i hi =>
        (ht q hq l hl i (by rwa [edge_lengths ho c d _ _ _ _ _ _ _ _ _ 0 0 0 0 0 0 0 0 0] at hi)).mono hb hk' le_rfl)) hk h0

/-! ### Systems -/

/-- `out[:, i] += t` for one position -/
theorem modify_row {k : Nat} {M n t t' : ℝ} {r r' : List ℝ} (h0 : RowApp (1 - u)⁻¹ k M r r') (i : Nat) (hn : 0 ≤ n)
    (ht : App (1 - u)⁻¹ k t t' n) :
    RowApp (1 - u)⁻¹ (k + 1) (M + n) (r.modify i fun s => o.add s t) (r'.modify i fun s => s + t') := by
  have hb := hbase ho
  refine ⟨by simp [h0.len], fun l => ?_⟩
  have e1 : ∀ (w : List ℝ) (f : ℝ → ℝ), (w.modify i f).getD l 0 = if i = l ∧ l < w.length then f (w.getD l 0) else w.getD l 0 := by
    intro w f
    rw [List.getD_eq_getElem?_getD, List.getElem?_modify, List.getD_eq_getElem?_getD]
    by_cases hl : l < w.length
    · by_cases hi : i = l <;> simp [hl, hi]
    · simp [hl, List.getElem?_eq_none (not_lt.1 hl)]
  rw [e1, e1, ← h0.len]
  split
  · exact ((h0.app l).add hb ht).round hb (rel_add ho _ _)
  · exact (h0.app l).mono hb (Nat.le_succ _) (by linarith)

/-- one electrode -/
theorem elec_rows (c : Bool) {κ : Nat} (hu : (700 * (κ + 1)) * u ≤ 1 / 2) (x : List V3) (d : Nat) (hd : d ≤ 5) (e : Elec) (v : ℝ)
    (j : Nat) {p : V3} (hp : x[j]? = some p) (hz0 : p.z ≠ 0) (hw : WellPlaced κ p e.shape)
    {k : Nat} (hk : 700 * (κ + 1) + 1 ≤ k) {M : ℝ} {out out' : List (List ℝ)} {r r' : List ℝ} (hr : out[j]? = some r)
    (hr' : out'[j]? = some r') (h0 : RowApp (1 - u)⁻¹ k M r r') :
    ∃ w w' s s', e.flPotential o c x d v (some out) = .ok w ∧ e.potential x d v (some out') = .ok w' ∧ w[j]? = some s ∧ w'[j]? = some s'
      ∧ RowApp (1 - u)⁻¹ (k + e.shape.roundings) (M + e.shape.size d v p) s s' := by
  have hb := hbase ho
  have hu0 := ho.nonneg
  have hκu : 0 ≤ (κ : ℝ) * u := by positivity
  have hu1 : u ≤ 1 / 534 := by linarith
  rcases e with ⟨name, dc, rf, sh⟩
  rcases sh with height | ⟨ps, as, ch, cn⟩ | ⟨paths, ch, cn⟩ | ⟨ps, es, pg, pots, ch, cn⟩ | ⟨data, origin, spacing⟩
  · have hh : height ≠ 0 := hw
    simp only [Elec.flPotential, Elec.potential, Except.ok.injEq, exists_and_left, exists_eq_left', Shape.roundings, Shape.size,
      flCoverPotential, coverPotential, Option.getD_some]
    by_cases h1 : d = 0
    · simp only [h1, if_true, List.getElem?_zipWith, hp, hr, hr', Option.some.injEq, exists_eq_left']
      refine modify_row ho h0 0 (abs_nonneg _) ?_
      have := (rel_div ho (o.mul v p.z) hh).trans hb ((rel_mul ho v p.z).div hb (Rel.refl hb height 0))
      exact (this.mono hb (by omega)).app hb le_rfl
    · by_cases h2 : d = 1
      · simp only [h2, one_ne_zero, if_true, if_false, List.getElem?_zipWith, hp, hr, hr', Option.some.injEq, exists_eq_left']
        refine modify_row ho h0 2 (abs_nonneg _) ?_
        exact ((rel_div ho v hh).mono hb (by omega)).app hb le_rfl
      · simp only [h1, h2, if_false]
        exact ⟨_, hr, _, hr', h0.len, fun i => (h0.app i).mono hb (Nat.le_succ _) (by simp)⟩
  · obtain ⟨s, s', h1, h2, h3⟩ := point_rows ho x ps as v d cn ch 300 j hp (fun q k => patchSize d (q.2 * v) (imageDist p q.1 ch k))
      (fun q _ k _ => patchSize_nonneg d hd _ (Real.sqrt_nonneg _))
      (fun q _ k hk i hi => point_app ho hu1 hz0 hw d hd q v hk i hi) (by omega) hr hr' h0
    exact ⟨_, _, s, s', rfl, rfl, h1, h2, h3⟩
  · obtain ⟨hzh, hcl⟩ := hw
    obtain ⟨s, s', h1, h2, h3⟩ := polygon_rows ho c x paths v d cn ch (700 * (κ + 1)) j hp
      (fun e k => sideSize d v (imageDist p e.1 ch k) (imageDist p e.2 ch k) (sideLength e))
      (fun poly hpoly e he k hk => side_nonneg ho hu hz0 hzh d hd v e hk (hcl poly hpoly k hk e he))
      (fun poly hpoly e he k hk i hi => side_app ho hu hz0 hzh c d hd v e hk (hcl poly hpoly k hk e he) i hi) (by omega) hr hr' h0
    exact ⟨_, _, s, s', rfl, rfl, h1, h2, h3⟩
  · obtain ⟨hzh, hcl⟩ := hw
    have hv : ∀ n : Nat, Rel (1 - u)⁻¹ 1 ((pots.map (o.mul · v)).getD n 0) (pots.getD n 0 * v)
        ∧ (pots.map (· * v)).getD n 0 = pots.getD n 0 * v := by
      intro n
      simp only [List.getD_eq_getElem?_getD, List.getElem?_map]
      cases pots[n]? with
      | none => simpa using Rel.refl hb 0 1
      | some w => simpa using rel_mul ho w v
    obtain ⟨s, s', h1, h2, h3⟩ := mesh_rows ho c x ps es pg (pots.map (o.mul · v)) (pots.map (· * v)) d cn ch (700 * (κ + 1) + 1) j hp
      (fun e k => sideSize d (pots.getD e.2 0 * v) (imageDist p (ps.getD e.1.1 ⟨0, 0⟩) ch k) (imageDist p (ps.getD e.1.2 ⟨0, 0⟩) ch k)
        (sideLength (ps.getD e.1.1 ⟨0, 0⟩, ps.getD e.1.2 ⟨0, 0⟩)))
      (fun e he k hk => side_nonneg ho hu hz0 hzh d hd _ (meshSide ps e) hk (hcl e he k hk))
      (fun e he k hk i hi => by
        rw [(hv e.2).2]
        exact side_app' ho hu hz0 hzh c d hd (hv e.2).1 (meshSide ps e) hk (hcl e he k hk) i hi) hk hr hr' h0
    exact ⟨_, _, s, s', rfl, rfl, h1, h2, h3⟩
  · exact hw.elim

/-- all electrodes -/
theorem system_rows (c : Bool) {κ : Nat} (hu : (700 * (κ + 1)) * u ≤ 1 / 2) (s : List Elec) (x : List V3) (d : Nat) (hd : d ≤ 5)
    (typ : VTyp) (j : Nat) {p : V3} (hp : x[j]? = some p) (hz0 : p.z ≠ 0)
    (hw : ∀ e ∈ s, e.volt typ ≠ none → e.volt typ ≠ some 0 → WellPlaced κ p e.shape)
    {k : Nat} (hk : 700 * (κ + 1) + 1 ≤ k) {M : ℝ} {out out' : List (List ℝ)} {r r' : List ℝ} (hr : out[j]? = some r)
    (hr' : out'[j]? = some r') (h0 : RowApp (1 - u)⁻¹ k M r r') :
    ∃ w w' t t', s.foldlM (flElectricalStep o c x d typ) out = .ok w ∧ s.foldlM (electricalStep x d typ) out' = .ok w'
      ∧ w[j]? = some t ∧ w'[j]? = some t'
      ∧ RowApp (1 - u)⁻¹ (k + (s.map fun e => e.roundings typ).sum) (M + (s.map fun e => e.size d typ p).sum) t t' := by
  have hb := hbase ho
  induction s generalizing k M out out' r r' with
  | nil => exact ⟨out, out', r, r', rfl, rfl, hr, hr', by simpa using h0⟩
  | cons e s ih =>
    have step : ∃ w w' t t', flElectricalStep o c x d typ out e = .ok w ∧ electricalStep x d typ out' e = .ok w'
      ∧ w[j]? = some t ∧ w'[j]? = some t' ∧ RowApp (1 - u)⁻¹ (k + e.roundings typ) (M + e.size d typ p) t t' := by
      unfold flElectricalStep electricalStep Elec.roundings Elec.size
      have hwe := hw e List.mem_cons_self
      rcases hv : e.volt typ with _ | v
      · exact ⟨_, _, _, _, rfl, rfl, hr, hr', by simpa using h0⟩
      · by_cases h1 : v = 0
        · simp only [h1, if_true]
          exact ⟨_, _, _, _, rfl, rfl, hr, hr', by simpa using h0⟩
        · simp only [h1, if_false]
          exact elec_rows ho c hu x d hd e v j hp hz0 (hwe (by simp [hv]) (by simp [hv, h1])) hk hr hr' h0
    obtain ⟨w, w', t, t', h1, h2, h3, h4, h5⟩ := step
    obtain ⟨a, a', b, b', g1, g2, g3, g4, g5⟩ := ih (fun e he => hw e (List.mem_cons_of_mem _ he)) (Nat.le_add_right_of_le hk) h3 h4 h5
    refine ⟨a, a', b, b', ?_, ?_, g3, g4, ?_⟩
    · rw [List.foldlM_cons, h1]; exact g1
    · rw [List.foldlM_cons, h2]; exact g2
    · simpa [add_assoc] using g5

end

end Rounding

end Electrode
