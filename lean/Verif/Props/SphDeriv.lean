import Verif.Lemmas.SphDeriv
import Mathlib.LinearAlgebra.FiniteDimensional.Basic

/-
Property C69: `cartesian_to_spherical_harmonics` gives the coefficients of the real solid harmonics.
-/
namespace Electrode
open Spec

/-- the row of order `l ≤ 5` after the branch of the code -/
theorem cartToSph_ok (l : Nat) (hl : l ≤ 5) (c : List ℝ) (hc : c.length = 2 * l + 1) :
    ∃ d, cartToSph c = .ok d ∧ d.length = 2 * l + 1 ∧ ∀ p, taylorTerm l (entry (fullOf l c)) p =
      ∑ i ∈ Finset.range (2 * l + 1), d.getD i 0 * solidY l ((i : Int) - l) p := by
  have ho : sphOrder c = l := by unfold sphOrder; omega
  unfold cartToSph
  simp only [ho]
  interval_cases l
  · obtain ⟨c0, rfl⟩ : ∃ c0, c = [c0] := by
      match c, hc with
      | [c0], _ => exact ⟨_, rfl⟩
    refine ⟨_, rfl, rfl, fun p => ?_⟩
    have h := sph_term_zero 0 (1 / 2) c0 p
    rw [zPoly_0_0] at h
    norm_num [Nat.factorial] at h
    simp [taylorTerm, tuples, entry, fullOf, rowMajor, show entrySel 0 [] = .one 0 by decide, selVal]
    linarith [h]
  · obtain ⟨c0, c1, c2, rfl⟩ : ∃ c0 c1 c2, c = [c0, c1, c2] := by
      match c, hc with
      | [c0, c1, c2], _ => exact ⟨_, _, _, rfl⟩
    refine ⟨_, rfl, rfl, fun p => ?_⟩
    rw [sph_sum_1]
    simp only [Finset.sum_range_succ, Finset.sum_range_zero, List.map_cons, List.map_nil, List.getD_cons_zero, List.getD_cons_succ]
    norm_num
    try ring
  · obtain ⟨c0, c1, c2, c3, c4, rfl⟩ : ∃ c0 c1 c2 c3 c4, c = [c0, c1, c2, c3, c4] := by
      match c, hc with
      | [c0, c1, c2, c3, c4], _ => exact ⟨_, _, _, _, _, rfl⟩
    refine ⟨_, rfl, rfl, fun p => ?_⟩
    rw [sph_sum_2]
    simp only [Finset.sum_range_succ, Finset.sum_range_zero, List.map_cons, List.map_nil, List.getD_cons_zero, List.getD_cons_succ]
    norm_num
    try ring
  · obtain ⟨c0, c1, c2, c3, c4, c5, c6, rfl⟩ : ∃ c0 c1 c2 c3 c4 c5 c6, c = [c0, c1, c2, c3, c4, c5, c6] := by
      match c, hc with
      | [c0, c1, c2, c3, c4, c5, c6], _ => exact ⟨_, _, _, _, _, _, _, rfl⟩
    refine ⟨_, rfl, rfl, fun p => ?_⟩
    rw [sph_sum_3]
    simp only [Finset.sum_range_succ, Finset.sum_range_zero, List.map_cons, List.map_nil, List.getD_cons_zero, List.getD_cons_succ]
    norm_num
    try ring
  · obtain ⟨c0, c1, c2, c3, c4, c5, c6, c7, c8, rfl⟩ : ∃ c0 c1 c2 c3 c4 c5 c6 c7 c8, c = [c0, c1, c2, c3, c4, c5, c6, c7, c8] := by
      match c, hc with
      | [c0, c1, c2, c3, c4, c5, c6, c7, c8], _ => exact ⟨_, _, _, _, _, _, _, _, _, rfl⟩
    refine ⟨_, rfl, rfl, fun p => ?_⟩
    rw [sph_sum_4]
    simp only [Finset.sum_range_succ, Finset.sum_range_zero, List.map_cons, List.map_nil, List.getD_cons_zero, List.getD_cons_succ]
    norm_num
    try ring
  · obtain ⟨c0, c1, c2, c3, c4, c5, c6, c7, c8, c9, c10, rfl⟩ : ∃ c0 c1 c2 c3 c4 c5 c6 c7 c8 c9 c10, c = [c0, c1, c2, c3, c4, c5, c6, c7, c8, c9, c10] := by
      match c, hc with
      | [c0, c1, c2, c3, c4, c5, c6, c7, c8, c9, c10], _ => exact ⟨_, _, _, _, _, _, _, _, _, _, _, rfl⟩
    refine ⟨_, rfl, rfl, fun p => ?_⟩
    rw [sph_sum_5]
    simp only [Finset.sum_range_succ, Finset.sum_range_zero, List.map_cons, List.map_nil, List.getD_cons_zero, List.getD_cons_succ]
    norm_num
    try ring

/-- C69.  For every order up to five and every row of reduced derivatives, `cartesian_to_spherical_harmonics` succeeds and returns the
coefficients of the expansion of the Taylor term of that order in the real solid harmonics, from `m = -l` to `m = l`. -/
theorem c69_taylor (l : Nat) (hl : l ≤ 5) (c : List ℝ) (hc : c.length = 2 * l + 1) :
    ∃ d t, cartToSph c = .ok d ∧ d.length = 2 * l + 1 ∧ expandTensor c = .ok t ∧ ∀ p : V3, taylorTerm l (entry t) p =
      ∑ i ∈ Finset.range (2 * l + 1), d.getD i 0 * solidY l ((i : Int) - l) p := by
  obtain ⟨d, h1, h2, h3⟩ := cartToSph_ok l hl c hc
  exact ⟨d, _, h1, h2, expandTensor_full l (by omega) c hc, h3⟩

theorem nameIdx_length (l i : Nat) (hl : l < 6) (hi : i < 2 * l + 1) : (nameIdx l i).length = l := by
  have : ∀ l < 6, ∀ i < 2 * l + 1, (nameIdx l i).length = l := by decide +kernel
  exact this l hl i hi

theorem entry_nameIdx (l : Nat) (hl : l < 6) (c : List ℝ) (hc : c.length = 2 * l + 1) (i : Nat) (hi : i < 2 * l + 1) :
    entry (fullOf l c) (nameIdx l i) = c.getD i 0 := by
  have h := selOf_fullOf l hl c hc
  have h2 : (selOf l (fullOf l c)).getD i 0 = c.getD i 0 := by rw [h]
  rw [← h2]
  simp [selOf, List.getD_eq_getElem?_getD, hi]

/-- C69.  The sum of the solid harmonics with these coefficients has exactly the derivatives given to the function. -/
theorem c69_derivatives (l : Nat) (hl : l ≤ 5) (c d : List ℝ) (hc : c.length = 2 * l + 1) (hd : cartToSph c = .ok d)
    (i : Nat) (hi : i < 2 * l + 1) (s : Name) (ax : Idx) (hs : derivToName l i = .ok s) (hax : nameToIdx s = .ok ax) :
    IsIterated (fun _ => True) ax (fun p => ∑ i ∈ Finset.range (2 * l + 1), d.getD i 0 * solidY l ((i : Int) - l) p)
      fun _ => c.getD i 0 := by
  obtain ⟨d', h1, _, h3⟩ := cartToSph_ok l hl c hc
  obtain rfl := Except.ok.inj (h1.symm.trans hd)
  have e : ax = nameIdx l i := (derivToName_idx hs hax).2.2.symm
  have hlen := nameIdx_length l i (by omega) hi
  have := taylorTerm_iterated (fun _ => True) (nameIdx l i) (T := entry (fullOf l c)) (by rw [hlen]; exact fullOf_symmetric l c)
  rw [hlen, entry_nameIdx l (by omega) c hc i hi] at this
  rw [e]
  exact this.congr (fun p => h3 p) fun _ => rfl

/-! ### the map is linear, hence a bijection -/

theorem cartToSph_comb (l : Nat) (hl : l ≤ 5) (a : ℝ) (c c' d d' : List ℝ) (hc : c.length = 2 * l + 1) (hc' : c'.length = 2 * l + 1)
    (h : cartToSph c = .ok d) (h' : cartToSph c' = .ok d') :
    cartToSph (List.zipWith (fun x y => a * x + y) c c') = .ok (List.zipWith (fun x y => a * x + y) d d') := by
  have ho : sphOrder c = l := by unfold sphOrder; omega
  have ho' : sphOrder c' = l := by unfold sphOrder; omega
  have ho'' : sphOrder (List.zipWith (fun x y => a * x + y) c c') = l := by unfold sphOrder; simp; omega
  unfold cartToSph at h h' ⊢
  simp only [ho] at h
  simp only [ho'] at h'
  simp only [ho'']
  interval_cases l
  · obtain ⟨c0, rfl⟩ : ∃ c0, c = [c0] := by
      match c, hc with
      | [c0], _ => exact ⟨_, rfl⟩
    obtain ⟨e0, rfl⟩ : ∃ e0, c' = [e0] := by
      match c', hc' with
      | [e0], _ => exact ⟨_, rfl⟩
    obtain rfl := Except.ok.inj h
    obtain rfl := Except.ok.inj h'
    simp [List.zipWith]
    try refine ⟨?_⟩ 
    all_goals ring
  · obtain ⟨c0, c1, c2, rfl⟩ : ∃ c0 c1 c2, c = [c0, c1, c2] := by
      match c, hc with
      | [c0, c1, c2], _ => exact ⟨_, _, _, rfl⟩
    obtain ⟨e0, e1, e2, rfl⟩ : ∃ e0 e1 e2, c' = [e0, e1, e2] := by
      match c', hc' with
      | [e0, e1, e2], _ => exact ⟨_, _, _, rfl⟩
    obtain rfl := Except.ok.inj h
    obtain rfl := Except.ok.inj h'
    simp [List.zipWith, sphRow1]
    try refine ⟨?_, ?_, ?_⟩ 
    all_goals ring
  · obtain ⟨c0, c1, c2, c3, c4, rfl⟩ : ∃ c0 c1 c2 c3 c4, c = [c0, c1, c2, c3, c4] := by
      match c, hc with
      | [c0, c1, c2, c3, c4], _ => exact ⟨_, _, _, _, _, rfl⟩
    obtain ⟨e0, e1, e2, e3, e4, rfl⟩ : ∃ e0 e1 e2 e3 e4, c' = [e0, e1, e2, e3, e4] := by
      match c', hc' with
      | [e0, e1, e2, e3, e4], _ => exact ⟨_, _, _, _, _, rfl⟩
    obtain rfl := Except.ok.inj h
    obtain rfl := Except.ok.inj h'
    simp [List.zipWith, sphRow2]
    try refine ⟨?_, ?_, ?_, ?_, ?_⟩ 
    all_goals ring
  · obtain ⟨c0, c1, c2, c3, c4, c5, c6, rfl⟩ : ∃ c0 c1 c2 c3 c4 c5 c6, c = [c0, c1, c2, c3, c4, c5, c6] := by
      match c, hc with
      | [c0, c1, c2, c3, c4, c5, c6], _ => exact ⟨_, _, _, _, _, _, _, rfl⟩
    obtain ⟨e0, e1, e2, e3, e4, e5, e6, rfl⟩ : ∃ e0 e1 e2 e3 e4 e5 e6, c' = [e0, e1, e2, e3, e4, e5, e6] := by
      match c', hc' with
      | [e0, e1, e2, e3, e4, e5, e6], _ => exact ⟨_, _, _, _, _, _, _, rfl⟩
    obtain rfl := Except.ok.inj h
    obtain rfl := Except.ok.inj h'
    simp [List.zipWith, sphRow3]
    try refine ⟨?_, ?_, ?_, ?_, ?_, ?_, ?_⟩ 
    all_goals ring
  · obtain ⟨c0, c1, c2, c3, c4, c5, c6, c7, c8, rfl⟩ : ∃ c0 c1 c2 c3 c4 c5 c6 c7 c8, c = [c0, c1, c2, c3, c4, c5, c6, c7, c8] := by
      match c, hc with
      | [c0, c1, c2, c3, c4, c5, c6, c7, c8], _ => exact ⟨_, _, _, _, _, _, _, _, _, rfl⟩
    obtain ⟨e0, e1, e2, e3, e4, e5, e6, e7, e8, rfl⟩ : ∃ e0 e1 e2 e3 e4 e5 e6 e7 e8, c' = [e0, e1, e2, e3, e4, e5, e6, e7, e8] := by
      match c', hc' with
      | [e0, e1, e2, e3, e4, e5, e6, e7, e8], _ => exact ⟨_, _, _, _, _, _, _, _, _, rfl⟩
    obtain rfl := Except.ok.inj h
    obtain rfl := Except.ok.inj h'
    simp [List.zipWith, sphRow4]
    try refine ⟨?_, ?_, ?_, ?_, ?_, ?_, ?_, ?_, ?_⟩ 
    all_goals ring
  · obtain ⟨c0, c1, c2, c3, c4, c5, c6, c7, c8, c9, c10, rfl⟩ : ∃ c0 c1 c2 c3 c4 c5 c6 c7 c8 c9 c10, c = [c0, c1, c2, c3, c4, c5, c6, c7, c8, c9, c10] := by
      match c, hc with
      | [c0, c1, c2, c3, c4, c5, c6, c7, c8, c9, c10], _ => exact ⟨_, _, _, _, _, _, _, _, _, _, _, rfl⟩
    obtain ⟨e0, e1, e2, e3, e4, e5, e6, e7, e8, e9, e10, rfl⟩ : ∃ e0 e1 e2 e3 e4 e5 e6 e7 e8 e9 e10, c' = [e0, e1, e2, e3, e4, e5, e6, e7, e8, e9, e10] := by
      match c', hc' with
      | [e0, e1, e2, e3, e4, e5, e6, e7, e8, e9, e10], _ => exact ⟨_, _, _, _, _, _, _, _, _, _, _, rfl⟩
    obtain rfl := Except.ok.inj h
    obtain rfl := Except.ok.inj h'
    simp [List.zipWith, sphRow5]
    try refine ⟨?_, ?_, ?_, ?_, ?_, ?_, ?_, ?_, ?_, ?_, ?_⟩ 
    all_goals ring

/-- `cartesian_to_spherical_harmonics` of order `l` on vectors -/
noncomputable def sphMap (l : Nat) (v : Fin (2 * l + 1) → ℝ) : Fin (2 * l + 1) → ℝ :=
  fun i => match cartToSph (List.ofFn v) with
    | .ok d => d.getD i 0
    | .error _ => 0

theorem sphMap_eq (l : Nat) {v : Fin (2 * l + 1) → ℝ} {d : List ℝ} (h : cartToSph (List.ofFn v) = .ok d) (i : Fin (2 * l + 1)) :
    sphMap l v i = d.getD i 0 := by simp only [sphMap, h]

theorem ofFn_getD {n : Nat} (v : Fin n → ℝ) (i : Fin n) : (List.ofFn v).getD i 0 = v i := by
  rw [List.getD_eq_getElem _ _ (by simp), List.getElem_ofFn]

theorem ofFn_comb (n : Nat) (a : ℝ) (v w : Fin n → ℝ) : List.ofFn (a • v + w) =
    List.zipWith (fun x y => a * x + y) (List.ofFn v) (List.ofFn w) := by
  apply List.ext_getElem <;> simp

theorem sphMap_comb (l : Nat) (hl : l ≤ 5) (a : ℝ) (v w : Fin (2 * l + 1) → ℝ) : sphMap l (a • v + w) = a • sphMap l v + sphMap l w := by
  obtain ⟨d, h1, h2, _⟩ := cartToSph_ok l hl (List.ofFn v) (by simp)
  obtain ⟨d', h1', h2', _⟩ := cartToSph_ok l hl (List.ofFn w) (by simp)
  have h := cartToSph_comb l hl a _ _ _ _ (by simp) (by simp) h1 h1'
  rw [← ofFn_comb] at h
  funext i
  rw [sphMap_eq l h, Pi.add_apply, Pi.smul_apply, sphMap_eq l h1, sphMap_eq l h1', List.getD_eq_getElem _ _ (by rw [List.length_zipWith, h2, h2', min_self]; exact i.2),
    List.getD_eq_getElem _ _ (by omega), List.getD_eq_getElem _ _ (by omega)]
  simp

theorem sphMap_zero (l : Nat) (hl : l ≤ 5) {v : Fin (2 * l + 1) → ℝ} (h : sphMap l v = 0) : v = 0 := by
  obtain ⟨d, h1, h2, h3⟩ := cartToSph_ok l hl (List.ofFn v) (by simp)
  funext i
  have hlen := nameIdx_length l i (by omega) i.2
  have hT := taylorTerm_iterated (fun _ => True) (nameIdx l i) (T := entry (fullOf l (List.ofFn v))) (by
    rw [hlen]; exact fullOf_symmetric l _)
  rw [hlen, entry_nameIdx l (by omega) _ (by simp) i i.2] at hT
  have hz : IsIterated (fun _ => True) (nameIdx l i) (taylorTerm l (entry (fullOf l (List.ofFn v)))) fun _ => 0 := by
    have h0 := IsIterated_smul 0 _ hT
    refine h0.congr (fun p => ?_) fun p => by simp
    rw [h3 p, zero_mul, Finset.sum_eq_zero]
    intro j hj
    have := sphMap_eq l h1 ⟨j, Finset.mem_range.1 hj⟩
    rw [h] at this
    simp only [Pi.zero_apply] at this
    rw [← this, zero_mul]
  have := congrFun (IsIterated_unique _ hT hz) ⟨0, 0, 0⟩
  rw [ofFn_getD] at this
  exact this

/-- the map as a linear map -/
noncomputable def sphLin (l : Nat) (hl : l ≤ 5) : (Fin (2 * l + 1) → ℝ) →ₗ[ℝ] (Fin (2 * l + 1) → ℝ) where
  toFun := sphMap l
  map_add' v w := by
    have := sphMap_comb l hl 1 v w
    simpa using this
  map_smul' a v := by
    have h0 : sphMap l (0 : Fin (2 * l + 1) → ℝ) = 0 := by
      have := sphMap_comb l hl (-1) 0 0
      simpa using this
    have := sphMap_comb l hl a v 0
    simpa [h0] using this

theorem list_ofFn_getD (n : Nat) (c : List ℝ) (hc : c.length = n) : List.ofFn (fun i : Fin n => c.getD i 0) = c := by
  subst hc
  apply List.ext_getElem
  · simp
  · intro i h1 h2; simp [List.getD_eq_getElem?_getD, h2]

/-- C69.  No information is lost: every list of `2l+1` coefficients comes from exactly one row of derivatives. -/
theorem c69_bijective (l : Nat) (hl : l ≤ 5) (d : List ℝ) (hd : d.length = 2 * l + 1) :
    ∃! c : List ℝ, c.length = 2 * l + 1 ∧ cartToSph c = .ok d := by
  have hinj : Function.Injective (sphLin l hl) := by
    rw [injective_iff_map_eq_zero]
    exact fun v hv => sphMap_zero l hl hv
  have hsurj := LinearMap.injective_iff_surjective.1 hinj
  have hback : ∀ (c : List ℝ), c.length = 2 * l + 1 → (cartToSph c = .ok d ↔
      sphLin l hl (fun i => c.getD i 0) = fun i : Fin (2 * l + 1) => d.getD i 0) := by
    intro c hc
    obtain ⟨d', h1, h2, _⟩ := cartToSph_ok l hl c hc
    have h1' := h1
    rw [← list_ofFn_getD _ c hc] at h1'
    have e : sphLin l hl (fun i => c.getD i 0) = fun i : Fin (2 * l + 1) => d'.getD i 0 := by
      funext i; exact sphMap_eq l h1' i
    rw [e, h1]
    constructor
    · intro h; rw [Except.ok.inj h]
    · intro h
      rw [← list_ofFn_getD _ d hd, ← list_ofFn_getD _ d' h2, h]
  obtain ⟨v, hv⟩ := hsurj fun i => d.getD i 0
  refine ⟨List.ofFn v, ⟨by simp, ?_⟩, ?_⟩
  · rw [hback _ (by simp), ← hv]
    congr 1
    funext i; exact ofFn_getD v i
  · rintro c ⟨hc, h⟩
    rw [hback c hc, ← hv] at h
    rw [← list_ofFn_getD _ c hc, hinj h]

/-- C69.  The row of derivatives of the solid harmonic of degree `l` and index `m` is mapped to the unit vector of `m`. -/
theorem c69_unit (l : Nat) (hl : l ≤ 5) (m : Int) (hm : m.natAbs ≤ l) (c : List ℝ) (hc : c.length = 2 * l + 1)
    (hder : ∀ i < 2 * l + 1, ∀ (s : Name) (ax : Idx), derivToName l i = .ok s → nameToIdx s = .ok ax →
      IsIterated (fun _ => True) ax (solidY l m) fun _ => c.getD i 0) :
    cartToSph c = .ok ((List.range (2 * l + 1)).map fun i : Nat => if (i : Int) - l = m then 1 else 0) := by
  set d : List ℝ := (List.range (2 * l + 1)).map fun i : Nat => if (i : Int) - l = m then 1 else 0 with hd
  obtain ⟨c', ⟨hc', h'⟩, _⟩ := c69_bijective l hl d (by simp [hd])
  have hsum : ∀ p, ∑ i ∈ Finset.range (2 * l + 1), d.getD i 0 * solidY l ((i : Int) - l) p = solidY l m p := by
    intro p
    rw [Finset.sum_eq_single (m + l).toNat]
    · have e : (((m + l).toNat : Nat) : Int) - l = m := by omega
      have hlt : (m + l).toNat < 2 * l + 1 := by omega
      have : d.getD (m + l).toNat 0 = 1 := by
        simp only [hd, List.getD_eq_getElem?_getD]
        simp [hlt, e]
        omega
      rw [e, this, one_mul]
    · intro i hi hne
      have hlt := Finset.mem_range.1 hi
      have : d.getD i 0 = 0 := by
        simp only [hd, List.getD_eq_getElem?_getD]
        simp [hlt]
        omega
      rw [this, zero_mul]
    · intro hn
      exact absurd (Finset.mem_range.2 (by omega)) hn
  have hcc : c = c' := by
    rw [← list_ofFn_getD _ c hc, ← list_ofFn_getD _ c' hc']
    congr 1
    funext i
    have htab : ∀ l < 6, ∀ i < 2 * l + 1, ∃ s ax, derivToName l i = .ok s ∧ nameToIdx s = .ok ax := by
      intro l hl i hi
      have h1 : ∀ l < 6, ∀ i < 2 * l + 1, (match derivToName l i with
        | .ok s => match nameToIdx s with
          | .ok _ => true
          | _ => false
        | _ => false) = true := by decide +kernel
      have h2 := h1 l hl i hi
      revert h2
      cases derivToName l i with
      | error e => simp
      | ok s =>
        cases hn : nameToIdx s with
        | error e => simp [hn]
        | ok ax => intro _; exact ⟨s, ax, rfl, hn⟩
    obtain ⟨s, ax, hs, hax⟩ := htab l (by omega) i i.2
    have ha := hder i i.2 s ax hs hax
    have hb := c69_derivatives l hl c' d hc' h' i i.2 s ax hs hax
    have hb' := hb.congr hsum fun _ => rfl
    exact congrFun (IsIterated_unique ax ha hb') ⟨0, 0, 0⟩
  rw [hcc]
  exact h'

/-- such rows exist for every solid harmonic of degree up to five -/
theorem c69_unit_row (l : Nat) (hl : l ≤ 5) (m : Int) (hm : m.natAbs ≤ l) : ∃ c : List ℝ, c.length = 2 * l + 1 ∧
    ∀ i < 2 * l + 1, ∀ (s : Name) (ax : Idx), derivToName l i = .ok s → nameToIdx s = .ok ax →
      IsIterated (fun _ => True) ax (solidY l m) fun _ => c.getD i 0 := by
  set d : List ℝ := (List.range (2 * l + 1)).map fun i : Nat => if (i : Int) - l = m then 1 else 0 with hd
  obtain ⟨c', ⟨hc', h'⟩, _⟩ := c69_bijective l hl d (by simp [hd])
  refine ⟨c', hc', fun i hi s ax hs hax => (c69_derivatives l hl c' d hc' h' i hi s ax hs hax).congr (fun p => ?_) fun _ => rfl⟩
  rw [Finset.sum_eq_single (m + l).toNat]
  · have e : (((m + l).toNat : Nat) : Int) - l = m := by omega
    have hlt : (m + l).toNat < 2 * l + 1 := by omega
    have : d.getD (m + l).toNat 0 = 1 := by
      simp only [hd, List.getD_eq_getElem?_getD]
      simp [hlt, e]
      omega
    rw [e, this, one_mul]
  · intro i hi hne
    have hlt := Finset.mem_range.1 hi
    have : d.getD i 0 = 0 := by
      simp only [hd, List.getD_eq_getElem?_getD]
      simp [hlt]
      omega
    rw [this, zero_mul]
  · intro hn
    exact absurd (Finset.mem_range.2 (by omega)) hn

/-- C69 for the electrodes: the coefficients of the potential's derivatives at a position expand the Taylor term there. -/
theorem c69_electrode (e : Elec) (v : ℝ) (x : V3) (l : Nat) (hl : l ≤ 5)
    (hg : ∀ data o sp, e.shape = .grid data o sp → ∃ dat, data[l]? = some dat ∧ 2 * l + 1 ≤ dat.l) :
    ∃ row d, e.potential [x] l v none = .ok [row] ∧ cartToSph row = .ok d ∧
      ∀ p, taylorTerm l (fun ax => tensorAt e v ax x) p = ∑ i ∈ Finset.range (2 * l + 1), d.getD i 0 * solidY l ((i : Int) - l) p := by
  have ha : e.shape.Avail l := by
    unfold Shape.Avail
    split
    · exact hg _ _ _ ‹_›
    · trivial
  have h := Elec.potential_new e [x] l v ha
  simp only [List.map_cons, List.map_nil] at h
  set row := (List.range (2 * l + 1)).map fun i => v * e.shape.contrib l x i with hrow
  have hlen : row.length = 2 * l + 1 := by simp [hrow]
  obtain ⟨d, h1, _, h3⟩ := cartToSph_ok l hl row hlen
  refine ⟨row, d, h, h1, fun p => ?_⟩
  rw [← h3 p]
  unfold taylorTerm
  congr 2
  apply List.map_congr_left
  intro ks hk
  have hks := mem_tuples.1 hk
  congr 1
  simp only [tensorAt, hks, h, expandTensor_full l (by omega) row hlen]

example : ∃ row d, (⟨"p", 1, 0, .points [⟨0, 0⟩] [1] 1 0⟩ : Elec).potential [⟨1, 2, 3⟩] 3 1 none = .ok [row] ∧ cartToSph row = .ok d :=
  have ⟨row, d, h1, h2, _⟩ := c69_electrode ⟨"p", 1, 0, .points [⟨0, 0⟩] [1] 1 0⟩ 1 ⟨1, 2, 3⟩ 3 (by norm_num) (by simp)
  ⟨row, d, h1, h2⟩

/-- rows with one number too many are rejected for the orders one to five -/
theorem c69_wrong_length (l : Nat) (h1 : 1 ≤ l) (hl : l ≤ 5) (c : List ℝ) (hc : c.length = 2 * l + 2) :
    cartToSph c = .error .valueError := by
  have ho : sphOrder c = l := by unfold sphOrder; omega
  unfold cartToSph
  simp only [ho]
  interval_cases l
  · match c, hc with
    | [_, _, _, _], _ => rfl
  · match c, hc with
    | [_, _, _, _, _, _], _ => rfl
  · match c, hc with
    | [_, _, _, _, _, _, _, _], _ => rfl
  · match c, hc with
    | [_, _, _, _, _, _, _, _, _, _], _ => rfl
  · match c, hc with
    | [_, _, _, _, _, _, _, _, _, _, _, _], _ => rfl

example : ∃ d, cartToSph [1, 2, 3, 4, 5] = .ok d ∧ d.length = 5 :=
  have ⟨d, _, h1, h2, _⟩ := c69_taylor 2 (by norm_num) [1, 2, 3, 4, 5] rfl
  ⟨d, h1, h2⟩

/-- orders above five are not converted: the row comes back multiplied by one number -/
theorem c69_high (c : List ℝ) (hc : 13 ≤ c.length) : cartToSph c = .ok (c.map fun x => sphFactor ((c.length - 1) / 2) * x) := by
  have ho : sphOrder c = (c.length - 1) / 2 := rfl
  have h6 : 6 ≤ (c.length - 1) / 2 := by omega
  unfold cartToSph
  simp only [ho]
  generalize (c.length - 1) / 2 = l at h6
  rw [if_neg (by omega), if_neg (by omega), if_neg (by omega), if_neg (by omega), if_neg (by omega), if_neg (by omega)]

end Electrode
