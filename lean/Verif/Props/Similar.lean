import Verif.Spec.Similar
import Verif.Props.Surface
import Verif.Props.Modes
import Mathlib.LinearAlgebra.Matrix.Charpoly.Basic

/-
C129: units of length do not matter, and similar traps behave alike.
-/
namespace Electrode
open Spec

namespace Simil

theorem avail_grid {e : Elec} (h : ∀ data origin spacing, e.shape ≠ .grid data origin spacing) (s : ℝ) (d : Nat) :
    e.shape.Avail d ∧ (enlarge s e.shape).Avail d := by
  cases hs : e.shape with
  | grid a b c => exact absurd hs (h a b c)
  | _ => exact ⟨trivial, trivial⟩

theorem contrib_scale (sh : Shape) (hgr : ∀ data origin spacing, sh ≠ .grid data origin spacing) {s : ℝ} (hs : 0 < s) (k i : Nat) (hi : i < 2 * k + 1)
    (p : V3) : (enlarge s sh).contrib k (scale3 s p) i = s⁻¹ ^ k * sh.contrib k p i := by
  cases sh with
  | grid a b c => exact absurd rfl (hgr a b c)
  | cover h =>
    simp only [enlarge, Shape.contrib, coverContrib, scale3]
    have := hs.ne'
    split
    · next h0 =>
      subst h0
      split
      · rw [pow_zero, one_mul, mul_div_mul_left _ _ this]
      · simp
    · split
      · next h0 =>
        subst h0
        split
        · rw [pow_one, one_div, mul_inv, one_div]
        · simp
      · simp
  | points ps as h n =>
    have := c19_scale_points "" 0 0 ps as h n 1 s hs k i hi p
    rw [compAt_eq ⟨"", 0, 0, .points ps as h n⟩ _ _ _ _ trivial hi,
      compAt_eq ⟨"", 0, 0, .points (ps.map (scale2 s)) (as.map (s ^ 2 * ·)) (s * h) n⟩ _ _ _ _ trivial hi, one_mul, one_mul, ← inv_pow] at this
    exact this
  | polygons polys h n =>
    have := c19_scale "" 0 0 polys h n 1 s hs k i hi p
    rw [compAt_eq ⟨"", 0, 0, .polygons polys h n⟩ _ _ _ _ trivial hi,
      compAt_eq ⟨"", 0, 0, .polygons (polys.map (List.map (scale2 s))) (s * h) n⟩ _ _ _ _ trivial hi, one_mul, one_mul, ← inv_pow] at this
    exact this
  | mesh ps es pg pots h n =>
    simp only [enlarge, Shape.contrib, meshContrib, images_scale, List.map_map, Function.comp_def, ← List.sum_map_mul_left]
    congr 1
    apply List.map_congr_left
    intro e _
    congr 1
    apply List.map_congr_left
    intro q _
    have hd : ∀ m, (ps.map (scale2 s)).getD m ⟨0, 0⟩ = scale2 s (ps.getD m ⟨0, 0⟩) := fun m => by
      simp only [List.getD_eq_getElem?_getD, List.getElem?_map]
      cases ps[m]? <;> simp [scale2]
    rw [hd, hd]
    have := seg_scale hs k i hi q (ps.getD e.1.1 ⟨0, 0⟩) (ps.getD e.1.2 ⟨0, 0⟩)
    rw [show scale3 s q = q.scale s from rfl, show ∀ v, scale2 s v = v.scale s from fun _ => rfl, show ∀ v, scale2 s v = v.scale s from fun _ => rfl, this]
    ring

theorem tens_scale {F G : Nat → Nat → V3 → ℝ} {k : Nat} {p p' : V3} {c : ℝ} (h : ∀ i < 2 * k + 1, F k i p' = c * G k i p) (l : Idx) :
    tens F k l p' = c * tens G k l p := by
  have h' : ∀ i, ((List.range (2 * k + 1)).map fun i => F k i p').getD i 0 = c * ((List.range (2 * k + 1)).map fun i => G k i p).getD i 0 :=
    fun i => by
      rw [getD_range_map, getD_range_map]
      split
      · next hi => exact h i hi
      · simp
  unfold tens
  cases entrySel k l with
  | one i => simp only [selVal]; exact h' i
  | lap i j => simp only [selVal]; rw [h', h']; ring

/-- factor of the voltages -/
def factor (j k : ℝ) : VTyp → ℝ
  | .dc => k
  | .rf => j
  | .other => 1

theorem sysTens_scale (els : List Elec) (hg : gridFree els) {s : ℝ} (hs : 0 < s) (j k : ℝ) (typ : VTyp) (l : Idx) (p : V3) :
    sysTens (similar s j k els) typ l (scale3 s p) = factor j k typ * s⁻¹ ^ l.length * sysTens els typ l p := by
  rw [sysTens_eq, sysTens_eq, similar, List.map_map, ← List.sum_map_mul_left]
  congr 1
  refine List.map_congr_left fun e he => ?_
  simp only [Function.comp_def]
  rw [tens_scale (G := fun k i p => e.shape.contrib k p i) (p := p) (c := s⁻¹ ^ l.length) fun i hi => contrib_scale e.shape (hg e he) hs l.length i hi p]
  have hv : Elec.voltD ⟨e.name, k * e.dc, j * e.rf, enlarge s e.shape⟩ typ = factor j k typ * e.voltD typ := by
    cases typ <;> simp [Elec.voltD, Elec.volt, factor]
  rw [hv]
  ring

theorem similar_avail (els : List Elec) (hg : gridFree els) (s j k : ℝ) (d : Nat) (typ : VTyp) :
    AvailAll els d typ ∧ AvailAll (similar s j k els) d typ := by
  refine ⟨fun e he _ => (avail_grid (hg e he) s d).1, fun e he _ => ?_⟩
  obtain ⟨e', he', rfl⟩ := List.mem_map.1 he
  exact (avail_grid (hg e' he') s d).2

/-- products of tensors -/
theorem psT_scale (T : NArr ℝ) (c r : ℝ) (l : Idx) : psT (fun m => c * r ^ m.length * T m) l = c ^ 2 * r ^ (l.length + 2) * psT T l := by
  match l with
  | [] => simp only [psT, Fin.sum_univ_three, List.length_cons, List.length_nil]; ring
  | [_] => simp only [psT, Fin.sum_univ_three, List.length_cons, List.length_nil]; ring
  | [_, _] => simp only [psT, Fin.sum_univ_three, List.length_cons, List.length_nil]; ring
  | [_, _, _] => simp only [psT, Fin.sum_univ_three, List.length_cons, List.length_nil]; ring
  | [_, _, _, _] => simp only [psT, Fin.sum_univ_three, List.length_cons, List.length_nil]; ring
  | _ :: _ :: _ :: _ :: _ :: _ => simp [psT]

end Simil
open Simil

/-- **C129.** Enlarge all electrodes and the position by `s` and multiply the voltages: the tensors of order `n` are multiplied by the
factor of the voltages and by `1/s^n`. -/
theorem c129_fields (els : List Elec) (hg : gridFree els) (s : ℝ) (hs : 0 < s) (j k : ℝ) (l : Idx) (hl : l.length ≤ 5) (p : V3) :
    electricalAt (similar s j k els) .dc l (scale3 s p) = k / s ^ l.length * electricalAt els .dc l p ∧
    electricalAt (similar s j k els) .rf l (scale3 s p) = j / s ^ l.length * electricalAt els .rf l p := by
  constructor <;>
  · rw [electricalAt_eq _ _ l (by omega) _ (similar_avail els hg s j k _ _).2, electricalAt_eq _ _ l (by omega) _ (similar_avail els hg s j k _ _).1,
      sysTens_scale els hg hs j k]
    simp [factor, div_eq_mul_inv]

/-- **C129.** The pseudopotential is multiplied by the square of the factor of the rf field; if the dc voltages are multiplied by this
as well, so is the combined potential. -/
theorem c129_potential (els : List Elec) (hg : gridFree els) (s : ℝ) (hs : 0 < s) (j k c c' κ : ℝ) (hκ : c' * j / s = κ * c) (l : Idx)
    (hl : l.length ≤ 4) (p : V3) :
    pseudoAt ⟨similar s j k els, some c'⟩ l (scale3 s p) = κ ^ 2 / s ^ l.length * pseudoAt ⟨els, some c⟩ l p ∧
    (k = κ ^ 2 → totalAt ⟨similar s j k els, some c'⟩ l (scale3 s p) = κ ^ 2 / s ^ l.length * totalAt ⟨els, some c⟩ l p) := by
  have key : psT (fun m => c' * sysTens (similar s j k els) .rf m (scale3 s p)) l
      = κ ^ 2 / s ^ l.length * psT (fun m => c * sysTens els .rf m p) l := by
    have e1 : (fun m : Idx => c' * sysTens (similar s j k els) .rf m (scale3 s p)) = fun m => κ * s * s⁻¹ ^ m.length * (c * sysTens els .rf m p) := by
      funext m
      rw [sysTens_scale els hg hs j k, factor]
      have : c' * j = κ * c * s := by rw [← hκ]; field_simp
      linear_combination (s⁻¹ ^ m.length * sysTens els .rf m p) * this
    rw [e1, psT_scale]
    congr 1
    have := hs.ne'
    rw [pow_add, inv_pow, inv_pow]
    field_simp
  refine ⟨?_, fun hk => ?_⟩
  · rw [pseudoAt_eq _ _ l hl _ fun i _ _ => (similar_avail els hg s j k _ _).2, pseudoAt_eq _ _ l hl _ fun i _ _ => (similar_avail els hg s j k _ _).1, key]
  · rw [total_split _ _ l hl _ fun d typ => (similar_avail els hg s j k _ _).2, total_split _ _ l hl _ fun d typ => (similar_avail els hg s j k _ _).1,
      key, sysTens_scale els hg hs j k, factor, hk]
    simp only [div_eq_mul_inv, inv_pow]
    ring

/-- **C129.** The unit of length does not matter: measured in a unit that is `s` times smaller, all coordinates are `s` times larger, the
argument `l` of `rf_scale` is `s` times smaller, and the potentials are the same, their derivatives of order `n` divided by `s^n`. -/
theorem c129_units (els : List Elec) (hg : gridFree els) (s : ℝ) (hs : 0 < s) (m q u o : ℝ) (l : Idx) (hl : l.length ≤ 4) (p : V3)
    (c0 c0' : Option ℝ) :
    totalAt (Sys.rfScale ⟨similar s 1 1 els, c0'⟩ m q (u / s) o).1 l (scale3 s p) = totalAt (Sys.rfScale ⟨els, c0⟩ m q u o).1 l p / s ^ l.length := by
  have h := (c129_potential els hg s hs 1 1 (√(q / m) / (2 * u * o)) (√(q / m) / (2 * (u / s) * o)) 1 (by
    have := hs.ne'
    rw [mul_one, one_mul, div_div]
    congr 1
    field_simp) l hl p).2 (by norm_num)
  simp only [Sys.rfScale]
  rw [h]
  ring

namespace Simil

/-- sorted eigenvalues are determined by the matrix -/
theorem eigen_unique (H : Matrix (Fin 3) (Fin 3) ℝ) (a b : List ℝ) (va vb : List (Fin 3 → ℝ)) (ha : a.length = 3) (hb : b.length = 3)
    (sa : a.Pairwise (· ≤ ·)) (sb : b.Pairwise (· ≤ ·))
    (ea : ∀ (j : Nat) (i : Fin 3), j < 3 → ∑ k, H i k * va.getD j 0 k = a.getD j 0 * va.getD j 0 i)
    (eb : ∀ (j : Nat) (i : Fin 3), j < 3 → ∑ k, H i k * vb.getD j 0 k = b.getD j 0 * vb.getD j 0 i)
    (oa : ∀ j j' : Nat, j < 3 → j' < 3 → ∑ i, va.getD j 0 i * va.getD j' 0 i = if j = j' then 1 else 0)
    (ob : ∀ j j' : Nat, j < 3 → j' < 3 → ∑ i, vb.getD j 0 i * vb.getD j' 0 i = if j = j' then 1 else 0) : a = b := by
  have key : ∀ (a : List ℝ) (va : List (Fin 3 → ℝ)), a.length = 3 →
      (∀ (j : Nat) (i : Fin 3), j < 3 → ∑ k, H i k * va.getD j 0 k = a.getD j 0 * va.getD j 0 i) →
      (∀ j j' : Nat, j < 3 → j' < 3 → ∑ i, va.getD j 0 i * va.getD j' 0 i = if j = j' then 1 else 0) →
      H.charpoly.roots = (a : Multiset ℝ) := by
    intro a va ha ea oa
    let P : Matrix (Fin 3) (Fin 3) ℝ := fun i j => va.getD j 0 i
    let D : Matrix (Fin 3) (Fin 3) ℝ := Matrix.diagonal fun j => a.getD j.val 0
    have hP : P.transpose * P = 1 := by
      ext i j
      rw [Matrix.mul_apply, Matrix.one_apply]
      refine (oa i j i.2 j.2).trans ?_
      simp [Fin.ext_iff]
    have hP' : P * P.transpose = 1 := mul_eq_one_comm.1 hP
    have hHP : H * P = P * D := by
      ext i j
      rw [Matrix.mul_apply, Matrix.mul_diagonal]
      simp only [P]
      rw [ea j i j.2]
      ring
    have hH : H = P * (D * P.transpose) := by
      rw [← mul_assoc, ← hHP, mul_assoc, hP', mul_one]
    rw [hH, Matrix.charpoly_mul_comm, mul_assoc, hP, mul_one, Matrix.charpoly_diagonal]
    obtain ⟨x, y, z, rfl⟩ := List.length_eq_three.1 ha
    have e := Polynomial.roots_multiset_prod_X_sub_C ((([x, y, z] : List ℝ)) : Multiset ℝ)
    simp only [Multiset.map_coe, Multiset.prod_coe, List.map_cons, List.map_nil, List.prod_cons, List.prod_nil, mul_one] at e
    rw [Fin.prod_univ_three]
    simpa [mul_assoc] using e
  have h := (key a va ha ea oa).symm.trans (key b vb hb eb ob)
  rw [Multiset.coe_eq_coe] at h
  exact h.eq_of_pairwise' sa sb

theorem modes_ok (eigh : Eigh) (argsort : Argsort) (els : List Elec) (hg : gridFree els) (c : ℝ) (x : V3) (b : Bool) :
    ∃ r, modes eigh argsort ⟨els, some c⟩ x b = .ok r := by
  rw [c43_fails]
  have ha := fun d typ => (similar_avail els hg 1 1 1 d typ).1
  have h1 := electrical_expand_eq els [x] 2 (by norm_num) .dc (ha _ _)
  have h2 := pseudo_eq els c [x] 2 (by norm_num) fun i _ _ => ha i .rf
  obtain ⟨⟨r, hr, _⟩, _⟩ := c34_potential ⟨els, some c⟩ [x] 2 _ _ h1 h2
  exact ⟨r, hr⟩

end Simil

/-- **C129.** The curvatures are those of the small trap times `κ²/s²`. -/
theorem c129_modes (eigh : Eigh) (heigh : IsEigh eigh) (argsort : Argsort) (hsort : IsArgsort argsort) (els : List Elec) (hg : gridFree els)
    (s : ℝ) (hs : 0 < s) (j c c' κ : ℝ) (hκ : c' * j / s = κ * c) (x : V3) :
    ∃ ew ev ev', modes eigh argsort ⟨els, some c⟩ x true = .ok (ew, ev) ∧
      modes eigh argsort ⟨similar s j (κ ^ 2) els, some c'⟩ (scale3 s x) true = .ok (ew.map (κ ^ 2 / s ^ 2 * ·), ev') := by
  have hg' : gridFree (similar s j (κ ^ 2) els) := by
    intro e he a b d
    obtain ⟨e', he', rfl⟩ := List.mem_map.1 he
    have := hg e' he'
    cases hs : e'.shape with
    | grid a b c => exact absurd hs (this a b c)
    | _ => simp [hs, enlarge]
  obtain ⟨⟨ew, ev⟩, h⟩ := modes_ok eigh argsort els hg c x true
  obtain ⟨⟨ew', ev'⟩, h'⟩ := modes_ok eigh argsort _ hg' c' (scale3 s x) true
  refine ⟨ew, ev, ev', h, ?_⟩
  rw [h']
  obtain ⟨l1, l2, s1, e1, o1⟩ := c43_modes eigh heigh argsort hsort _ x ew ev h
  obtain ⟨l1', l2', s1', e1', o1'⟩ := c43_modes eigh heigh argsort hsort _ _ ew' ev' h'
  have hf : 0 ≤ κ ^ 2 / s ^ 2 := by positivity
  have ht : ∀ i k : Fin 3, totalAt ⟨similar s j (κ ^ 2) els, some c'⟩ [i, k] (scale3 s x) = κ ^ 2 / s ^ 2 * totalAt ⟨els, some c⟩ [i, k] x :=
    fun i k => (c129_potential els hg s hs j (κ ^ 2) c c' κ hκ [i, k] (by simp) x).2 rfl
  have := eigen_unique (fun i k => totalAt ⟨similar s j (κ ^ 2) els, some c'⟩ [i, k] (scale3 s x)) ew' (ew.map (κ ^ 2 / s ^ 2 * ·)) ev' ev l1'
    (by simpa using l1) s1' (s1.map _ fun a b hab => mul_le_mul_of_nonneg_left hab hf) e1' (fun m i hm => by
      have hmap : (ew.map (κ ^ 2 / s ^ 2 * ·)).getD m 0 = κ ^ 2 / s ^ 2 * ew.getD m 0 := by
        simp only [List.getD_eq_getElem?_getD, List.getElem?_map]
        cases ew[m]? <;> simp
      simp only [ht]
      rw [hmap, mul_assoc, ← e1 m i hm, Finset.mul_sum]
      exact Finset.sum_congr rfl fun k _ => by ring) o1' o1
  rw [this]

/-- **C129.** The motion with the rf drive: if voltages and the scale of `mathieu` change so that the product of voltage and squared scale
grows with the square of the size, `mathieu` returns the very same exponents and vectors. -/
theorem c129_mathieu (eig : Eig) (argsort : Argsort) (els : List Elec) (hg : gridFree els) (s : ℝ) (hs : 0 < s) (j σ σ' : ℝ)
    (h : σ' ^ 2 * j = σ ^ 2 * s ^ 2) (x : V3) (r : Nat) (sorted : Bool) :
    sysMathieu eig argsort (similar s j j els) (scale3 s x) σ' r sorted = sysMathieu eig argsort els x σ r sorted := by
  have a1 := fun typ => electrical_expand_eq els [x] 2 (by norm_num) typ (similar_avail els hg s j j _ _).1
  have a2 := fun typ => electrical_expand_eq (similar s j j els) [scale3 s x] 2 (by norm_num) typ (similar_avail els hg s j j _ _).2
  have m1 := fun typ => row0Matrix_electrical els typ x _ (a1 typ)
  have m2 := fun typ => row0Matrix_electrical (similar s j j els) typ (scale3 s x) _ (a2 typ)
  have hd : ∀ i k : Fin 3, σ' ^ 2 * electricalAt (similar s j j els) .dc [i, k] (scale3 s x) = σ ^ 2 * electricalAt els .dc [i, k] x := fun i k => by
    rw [(c129_fields els hg s hs j j [i, k] (by simp) x).1]
    have := hs.ne'
    simp only [List.length_cons, List.length_nil]
    field_simp
    linear_combination (electricalAt els .dc [i, k] x) * h
  have hr : ∀ i k : Fin 3, σ' ^ 2 * electricalAt (similar s j j els) .rf [i, k] (scale3 s x) = σ ^ 2 * electricalAt els .rf [i, k] x := fun i k => by
    rw [(c129_fields els hg s hs j j [i, k] (by simp) x).2]
    have := hs.ne'
    simp only [List.length_cons, List.length_nil]
    field_simp
    linear_combination (electricalAt els .rf [i, k] x) * h
  unfold sysMathieu
  rw [a1, a1, a2, a2]
  simp only [m1, m2]
  have e1 : (fun i k : Fin 3 => ((16 * σ' ^ 2 * electricalAt (similar s j j els) .dc [i, k] (scale3 s x) : ℝ) : ℂ))
      = fun i k => ((16 * σ ^ 2 * electricalAt els .dc [i, k] x : ℝ) : ℂ) := by
    funext i k
    rw [mul_assoc, hd, ← mul_assoc]
  have e2 : (fun i k : Fin 3 => ((8 * σ' ^ 2 * electricalAt (similar s j j els) .rf [i, k] (scale3 s x) : ℝ) : ℂ))
      = fun i k => ((8 * σ ^ 2 * electricalAt els .rf [i, k] x : ℝ) : ℂ) := by
    funext i k
    rw [mul_assoc, hr, ← mul_assoc]
  rw [e1, e2]

/-- a small trap with an rf electrode, a mesh and a cover -/
def smallTrap : List Elec :=
  [⟨"r", 0, 100, .polygons [[⟨-1, -2⟩, ⟨1, -2⟩, ⟨1, -1⟩, ⟨-1, -1⟩], [⟨-1, 1⟩, ⟨1, 1⟩, ⟨1, 2⟩, ⟨-1, 2⟩]] 0 0⟩,
    ⟨"a", 1, 0, .points [⟨0, 0⟩] [1] 0 0⟩, ⟨"m", 2, 0, .mesh [⟨0, 0⟩, ⟨1, 0⟩, ⟨0, 1⟩] [(0, 1), (1, 2), (2, 0)] [0, 0, 0] [1] 0 0⟩,
    ⟨"c", 1, 0, .cover 50⟩]

example : gridFree smallTrap := by
  simp [gridFree, smallTrap]

/-- micrometres instead of millimetres -/
example (m q o : ℝ) (p : V3) (c0 c0' : Option ℝ) : totalAt (Sys.rfScale ⟨similar 1000 1 1 smallTrap, c0'⟩ m q (1e-3 / 1000) o).1 [] (scale3 1000 p)
    = totalAt (Sys.rfScale ⟨smallTrap, c0⟩ m q 1e-3 o).1 [] p / 1000 ^ 0 :=
  c129_units smallTrap (by simp [gridFree, smallTrap]) 1000 (by norm_num) m q 1e-3 o [] (by simp) p c0 c0'

/-- twice the size with four times the voltages moves ions the same way -/
example (eig : Eig) (argsort : Argsort) (x : V3) : sysMathieu eig argsort (similar 2 4 4 smallTrap) (scale3 2 x) 1 3 true
    = sysMathieu eig argsort smallTrap x 1 3 true :=
  c129_mathieu eig argsort smallTrap (by simp [gridFree, smallTrap]) 2 (by norm_num) 4 1 1 (by norm_num) x 3 true

/-- twice the size with twice the rf voltages and the same scale: the same curvatures, divided by four -/
example (eigh : Eigh) (heigh : IsEigh eigh) (argsort : Argsort) (hsort : IsArgsort argsort) (x : V3) :
    ∃ ew ev ev', modes eigh argsort ⟨smallTrap, some 1⟩ x true = .ok (ew, ev) ∧
      modes eigh argsort ⟨similar 2 2 (1 ^ 2) smallTrap, some 1⟩ (scale3 2 x) true = .ok (ew.map (1 ^ 2 / 2 ^ 2 * ·), ev') :=
  c129_modes eigh heigh argsort hsort smallTrap (by simp [gridFree, smallTrap]) 2 (by norm_num) 2 1 1 1 (by norm_num) x

end Electrode
