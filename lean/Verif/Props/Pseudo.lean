import Verif.Props.System

/-
C32 to C34: the pseudopotential and the combined potential.
-/
namespace Electrode
open Spec Real

/-! ### closed forms of the values read off -/

theorem entry_flatten (k : Nat) (t : NArr ℝ) (l : Idx) (hl : l.length = k) : entry (flatten k t) l = t l := by
  have := toNArr_flatten k t l hl
  unfold toNArr at this
  rw [idxToNidx_eq] at this
  exact this

theorem electricalAt_eq (s : List Elec) (typ : VTyp) (l : Idx) (hl : l.length < 6) (p : V3) (ha : AvailAll s l.length typ) :
    electricalAt s typ l p = sysTens s typ l p := by
  unfold electricalAt
  rw [electrical_expand_eq s [p] l.length hl typ ha]
  simp only [entryOf, List.map_cons, List.map_nil, List.getD_cons_zero]
  rw [entry_flatten _ _ _ rfl]

theorem pseudoAt_eq (els : List Elec) (c : ℝ) (l : Idx) (hl : l.length ≤ 4) (p : V3)
    (ha : ∀ i, 1 ≤ i → i ≤ l.length + 1 → AvailAll els i .rf) :
    pseudoAt ⟨els, some c⟩ l p = psT (fun l => c * sysTens els .rf l p) l := by
  unfold pseudoAt
  rw [pseudo_eq els c [p] l.length hl ha]
  simp only [entryOf, List.map_cons, List.map_nil, List.getD_cons_zero]
  rw [entry_flatten _ _ _ rfl]

theorem pseudo_avail (els : List Elec) (c : ℝ) (x : List V3) (d : Nat) (r : List (List ℝ))
    (h : pseudoPotential ⟨els, some c⟩ x d = .ok r) : d ≤ 4 ∧ ∀ i, 1 ≤ i → i ≤ d + 1 → AvailAll els i .rf := by
  have h5 : d ≤ 4 := by
    by_contra hn; rw [pseudo_high els c x d (by omega)] at h; cases h
  refine ⟨h5, fun i h1 h2 => ?_⟩
  by_contra hn
  rw [pseudo_err els c x d i h1 h2 hn] at h; cases h

theorem pseudo_coeff (s : Sys) (x : List V3) (d : Nat) (r : List (List ℝ)) (h : pseudoPotential s x d = .ok r) :
    ∃ c, s = ⟨s.els, some c⟩ := by
  cases s with
  | mk els rc =>
    cases rc with
    | none => simp [pseudoPotential] at h
    | some c => exact ⟨c, rfl⟩

/-! ### C32 -/

/-- C32: where it can be evaluated, the pseudopotential is nonnegative. -/
theorem c32_nonneg (s : Sys) (x : List V3) (r : List (List ℝ)) (h : pseudoPotential s x 0 = .ok r) :
    hasShape r x.length 1 ∧ ∀ n, 0 ≤ at2 r n 0 := by
  obtain ⟨c, hc⟩ := pseudo_coeff s x 0 r h
  rw [hc] at h
  obtain ⟨_, ha⟩ := pseudo_avail s.els c x 0 r h
  rw [pseudo_eq s.els c x 0 (by norm_num) ha] at h
  injection h with h
  subst h
  refine ⟨⟨by simp, by simp [flatten, productIdx]⟩, fun n => ?_⟩
  unfold at2
  rw [List.getD_eq_getElem?_getD (l := List.map _ _), List.getElem?_map]
  cases x[n]? with
  | none => simp
  | some p =>
    simp only [Option.map_some, Option.getD_some, flatten, productIdx, List.map_cons, List.map_nil, List.getD_cons_zero,
      psT]
    exact Finset.sum_nonneg fun j _ => mul_self_nonneg _

theorem psT_smul (k : ℝ) (T : NArr ℝ) (l : Idx) : psT (fun l => k * T l) l = k ^ 2 * psT T l := by
  rcases l with _ | ⟨k1, _ | ⟨k2, _ | ⟨k3, _ | ⟨k4, _ | ⟨k5, r⟩⟩⟩⟩⟩ <;>
    simp only [psT, Fin.sum_univ_three] <;> ring

/-- C32: the pseudopotential and its derivatives scale with the square of a common factor of the
rf voltages. -/
theorem c32_scale_voltages (s : Sys) (k : ℝ) (x : List V3) (d : Nat) (r : List (List ℝ))
    (h : pseudoPotential s x d = .ok r) :
    pseudoPotential { s with els := s.els.map fun e => { e with rf := k * e.rf } } x d
      = .ok (r.map fun row => row.map fun v => k ^ 2 * v) := by
  obtain ⟨c, hc⟩ := pseudo_coeff s x d r h
  rw [hc] at h ⊢
  obtain ⟨hd, ha⟩ := pseudo_avail s.els c x d r h
  rw [pseudo_eq s.els c x d hd ha] at h
  injection h with h
  subst h
  have ha' : ∀ i, 1 ≤ i → i ≤ d + 1 → AvailAll (s.els.map fun e => { e with rf := k * e.rf }) i .rf := by
    intro i h1 h2 e he hv
    rw [List.mem_map] at he
    obtain ⟨e', he', rfl⟩ := he
    refine ha i h1 h2 e' he' ?_
    intro h0
    apply hv
    simp only [Elec.voltD, Elec.volt, Option.getD_some] at h0 ⊢
    rw [h0, mul_zero]
  rw [pseudo_eq _ c x d hd ha']
  have ht : ∀ l p, sysTens (s.els.map fun e => { e with rf := k * e.rf }) .rf l p = k * sysTens s.els .rf l p := by
    intro l p
    rw [sysTens_eq, sysTens_eq, List.map_map, ← List.sum_map_mul_left]
    congr 1
    apply List.map_congr_left
    intro e _
    simp only [Function.comp, Elec.voltD, Elec.volt, Option.getD_some]
    ring
  congr 1
  rw [List.map_map]
  apply List.map_congr_left
  intro p _
  simp only [Function.comp, flatten, List.map_map]
  apply List.map_congr_left
  intro l _
  simp only [ht, Function.comp]
  rw [← psT_smul]
  congr 1
  funext l
  ring

/-- C32: … and with the square of `rf_coeff`. -/
theorem c32_scale_coeff (els : List Elec) (c k : ℝ) (x : List V3) (d : Nat) (r : List (List ℝ))
    (h : pseudoPotential ⟨els, some c⟩ x d = .ok r) :
    pseudoPotential ⟨els, some (k * c)⟩ x d = .ok (r.map fun row => row.map fun v => k ^ 2 * v) := by
  obtain ⟨hd, ha⟩ := pseudo_avail els c x d r h
  rw [pseudo_eq els c x d hd ha] at h
  injection h with h
  subst h
  rw [pseudo_eq els _ x d hd ha]
  congr 1
  rw [List.map_map]
  apply List.map_congr_left
  intro p _
  simp only [Function.comp, flatten, List.map_map]
  apply List.map_congr_left
  intro l _
  simp only [Function.comp]
  rw [← psT_smul]
  congr 1
  funext l
  ring

/-- C32: names and dc voltages of the electrodes do not matter. -/
theorem c32_ignores_dc (els els' : List Elec) (rc : Option ℝ) (x : List V3) (d : Nat)
    (h : els.map (fun e => (e.rf, e.shape)) = els'.map fun e => (e.rf, e.shape)) :
    pseudoPotential ⟨els, rc⟩ x d = pseudoPotential ⟨els', rc⟩ x d := by
  have key : ∀ (i : Nat) (b : Bool), electricalPotential els x i .rf b = electricalPotential els' x i .rf b := by
    intro i b
    unfold electricalPotential
    have : ∀ out, els.foldlM (electricalStep x i .rf) out = els'.foldlM (electricalStep x i .rf) out := by
      induction els generalizing els' with
      | nil => cases els' with
        | nil => intro _; rfl
        | cons e t => simp at h
      | cons e s ih => cases els' with
        | nil => simp at h
        | cons e' t =>
          simp only [List.map_cons, List.cons.injEq, Prod.mk.injEq] at h
          intro out
          have h1 : electricalStep x i .rf out e = electricalStep x i .rf out e' := by
            unfold electricalStep Elec.potential Elec.volt
            simp only [h.1.1, h.1.2]
          rw [List.foldlM_cons, List.foldlM_cons, h1]
          congr 1
          funext o
          exact ih t h.2 o
    rw [this]
  unfold pseudoPotential
  simp only [key]

/-- C32: with `rf_coeff ≠ 0` the pseudopotential vanishes exactly where the rf field vanishes. -/
theorem c32_zero_iff_field_zero (els : List Elec) (c : ℝ) (hc : c ≠ 0) (p : V3) (r f : List (List ℝ))
    (h : pseudoPotential ⟨els, some c⟩ [p] 0 = .ok r) (hf : electricalPotential els [p] 1 .rf false = .ok f) :
    at2 r 0 0 = 0 ↔ at2 f 0 0 = 0 ∧ at2 f 0 1 = 0 ∧ at2 f 0 2 = 0 := by
  obtain ⟨_, ha⟩ := pseudo_avail els c [p] 0 r h
  rw [pseudo_eq els c [p] 0 (by norm_num) ha] at h
  rw [electrical_eq els [p] 1 .rf (ha 1 le_rfl le_rfl)] at hf
  injection h with h
  injection hf with hf
  subst h hf
  have h1 : ∀ j : Axis, sysTens els .rf [j] p = sysContrib els .rf 1 j.val p := by
    intro j
    have : entrySel 1 [j] = .one j.val := by revert j; decide
    unfold sysTens tens
    simp only [List.length_singleton, this, selVal]
    rw [getD_range_map, if_pos (by have := j.isLt; omega)]
  have h2 : at2 (List.map (fun p => flatten 0 (psT fun l => c * sysTens els .rf l p)) [p]) 0 0
      = c ^ 2 * (sysContrib els .rf 1 0 p ^ 2 + sysContrib els .rf 1 1 p ^ 2 + sysContrib els .rf 1 2 p ^ 2) := by
    simp only [at2, List.map_cons, List.map_nil, List.getD_cons_zero, flatten, productIdx, psT, Fin.sum_univ_three, h1]
    simp only [Fin.val_zero, Fin.val_one, Fin.val_two]
    ring
  rw [h2]
  have h3 : ∀ i < 3, at2 (List.map (fun p => (List.range (2 * 1 + 1)).map fun i => sysContrib els .rf 1 i p) [p]) 0 i
      = sysContrib els .rf 1 i p := by
    intro i hi
    rw [at2_table [p] (fun p i => sysContrib els .rf 1 i p)]
    simp [hi]
  rw [h3 0 (by norm_num), h3 1 (by norm_num), h3 2 (by norm_num)]
  constructor
  · intro h
    have h4 := (mul_eq_zero.1 h).resolve_left (pow_ne_zero 2 hc)
    have e0 := sq_nonneg (sysContrib els .rf 1 0 p)
    have e1 := sq_nonneg (sysContrib els .rf 1 1 p)
    have e2 := sq_nonneg (sysContrib els .rf 1 2 p)
    refine ⟨?_, ?_, ?_⟩ <;> apply pow_eq_zero_iff (two_ne_zero) |>.1 <;> linarith
  · rintro ⟨a, b, c⟩
    rw [a, b, c]; ring

/-- C32: without a call of `rf_scale` the pseudopotential, and with it every combined potential,
raises `AttributeError` or an error of an electrode. -/
theorem c32_needs_rf_scale (els : List Elec) (x : List V3) (d : Nat) :
    pseudoPotential ⟨els, none⟩ x d = .error .attributeError := rfl

/-- C32: what `rf_scale` sets -/
theorem c32_rf_scale (s : Sys) (m q l o : ℝ) :
    (s.rfScale m q l o).2 = √(q / m) / (2 * l * o) ∧ (s.rfScale m q l o).1.els = s.els ∧
      (s.rfScale m q l o).1.rfCoeff = some (√(q / m) / (2 * l * o)) := ⟨rfl, rfl, rfl⟩

theorem avail_of_off {s : List Elec} {p : V3} (h : offSystem s p) (d : Nat) (typ : VTyp) : AvailAll s d typ := by
  intro e he _
  have := h e he
  unfold offElectrode at this
  cases hs : e.shape <;> rw [hs] at this <;> trivial

/-- an rf cover electrode has a pseudopotential, and it is not zero -/
example : pseudoAt ⟨[⟨"c", 0, 3, .cover 50⟩], some 2⟩ [] ⟨0, 0, 1⟩ = (2 * (3 * (1 / 50))) ^ 2 := by
  rw [pseudoAt_eq _ _ _ (by simp) _ fun i _ _ => avail_of_off (p := ⟨0, 0, 1⟩) (by
    intro e he; simp at he; subst he; trivial) i .rf]
  have h1 : ∀ j : Axis, entrySel 1 [j] = .one j.val := by decide
  simp [psT, Fin.sum_univ_three, sysTens, tens, h1, selVal, sysContrib, Elec.voltD, Elec.volt,
    Shape.contrib, coverContrib]
  norm_num

/-! ### C33 -/

/-- C33: whenever, on a region, the rf tensors of order 1 to 5 of a system can be evaluated and each is
the gradient of the previous one, the pseudopotential tensors up to order 4 are the iterated partial
derivatives of the pseudopotential. -/
theorem c33_derivatives (els : List Elec) (c : ℝ) (U : V3 → Prop)
    (hok : ∀ i, 1 ≤ i → i ≤ 5 → ∃ r, electricalPotential els [] i .rf true = .ok r)
    (hder : ∀ (l : Idx) (a : Axis), 1 ≤ l.length → l.length ≤ 4 → ∀ p, U p →
      HasPartial a (electricalAt els .rf l) (electricalAt els .rf (l ++ [a]) p) p)
    (l : Idx) (hl : l.length ≤ 4) :
    IsIterated U l (pseudoAt ⟨els, some c⟩ []) (pseudoAt ⟨els, some c⟩ l) := by
  have ha : ∀ i, 1 ≤ i → i ≤ 5 → AvailAll els i .rf := by
    intro i h1 h2
    by_contra hn
    obtain ⟨r, hr⟩ := hok i h1 h2
    rw [electrical_err els [] i .rf true hn] at hr
    cases hr
  have step : ∀ (l : Idx) (a : Axis), l.length ≤ 3 → ∀ p, U p →
      HasPartial a (pseudoAt ⟨els, some c⟩ l) (pseudoAt ⟨els, some c⟩ (l ++ [a]) p) p := by
    intro l a hl p hp
    have := psT_step (fun q l => c * sysTens els .rf l q) a p (fun q l l' h => by
      unfold sysTens
      rw [h.length_eq, tens_perm _ _ h]) (fun l h1 h2 => by
      have := (hder l a h1 h2 p hp).const_mul c
      rw [electricalAt_eq els .rf (l ++ [a]) (by simp; omega) p (ha _ (by simp) (by simp; omega))] at this
      exact this.congr fun q => by rw [electricalAt_eq els .rf l (by omega) q (ha _ h1 (by omega))]) l hl
    rw [pseudoAt_eq els c (l ++ [a]) (by simp; omega) p fun i h1 h2 => ha i h1 (by simp at h2; omega)]
    exact this.congr fun q => (pseudoAt_eq els c l (by omega) q fun i h1 h2 => ha i h1 (by omega)).symm
  have main : ∀ (l m : Idx), m.length + l.length ≤ 4 →
      IsIterated U l (pseudoAt ⟨els, some c⟩ m) (pseudoAt ⟨els, some c⟩ (m ++ l)) := by
    intro l
    induction l with
    | nil => intro m _ p _; simp
    | cons a l ih =>
      intro m hm
      simp only [List.length_cons] at hm
      refine ⟨pseudoAt ⟨els, some c⟩ (m ++ [a]), fun p hp => step m a (by omega) p hp, ?_⟩
      have := ih (m ++ [a]) (by simp; omega)
      simpa using this
  simpa using main l [] (by simpa using hl)

/-- first derivatives of the components of cover, point and polygon electrodes -/
theorem elec_first (e : Elec) (p : V3) (h : offElectrode e p) (k : Nat) (hk : k < 5) (i : Nat) (hi : i < 2 * k + 1) (a : Axis) :
    HasPartial a (fun p => e.shape.contrib k p i)
      (tens (fun k i p => e.shape.contrib k p i) (k + 1) (nameIdx k i ++ [a]) p) p := by
  unfold offElectrode at h
  cases hs : e.shape with
  | cover height =>
    cases k with
    | zero =>
      have hi0 : i = 0 := by omega
      subst hi0
      have hn : nameIdx 0 0 = [] := by decide
      rw [hn, List.nil_append]
      have h1 : entrySel 1 [a] = .one a.val := by revert a; decide
      have ht : tens (fun k i p => (Shape.cover height).contrib k p i) (0 + 1) [a] p = coverContrib height 1 p a.val := by
        simp only [tens, Nat.zero_add, h1, selVal]
        rw [getD_range_map, if_pos (by have := a.isLt; omega)]
        rfl
      rw [ht]
      unfold HasPartial
      obtain rfl | rfl | rfl := EdgeId.axis_cases a
      · simpa [shift, Shape.contrib, coverContrib] using hasDerivAt_const (0 : ℝ) (p.z / height)
      · simpa [shift, Shape.contrib, coverContrib] using hasDerivAt_const (0 : ℝ) (p.z / height)
      · have := ((hasDerivAt_id (0 : ℝ)).const_add p.z).div_const height
        simpa [shift, Shape.contrib, coverContrib] using this
    | succ k =>
      have hz : ∀ q j, (Shape.cover height).contrib (k + 1 + 1) q j = 0 := by
        intro q j; simp [Shape.contrib, coverContrib]
      have ht : tens (fun k i p => (Shape.cover height).contrib k p i) (k + 1 + 1) (nameIdx (k + 1) i ++ [a]) p = 0 := by
        unfold tens
        cases entrySel (k + 1 + 1) (nameIdx (k + 1) i ++ [a]) with
        | one j => simp only [selVal, getD_range_map, hz]; simp
        | lap j j' => simp only [selVal, getD_range_map, hz]; simp
      rw [ht]
      refine (HasPartial.const a ((Shape.cover height).contrib (k + 1) p i) p).congr ?_
      intro q; simp [Shape.contrib, coverContrib]
  | points ps as ch cn =>
    rw [hs] at h
    exact point_step ps as ch cn k hk i hi a p h
  | polygons paths ch cn =>
    rw [hs] at h
    exact poly_step paths ch cn k hk i hi a p h
  | mesh ps es pg pots ch cn => rw [hs] at h; exact h.elim
  | grid data o sp => rw [hs] at h; exact h.elim

/-- the expanded tensors of a system are derivatives of each other off the electrodes -/
theorem sys_step (s : List Elec) (typ : VTyp) (l : Idx) (a : Axis) (hl : l.length ≤ 4) (p : V3) (hp : offSystem s p) :
    HasPartial a (sysTens s typ l) (sysTens s typ (l ++ [a]) p) p := by
  have := HasPartial.list_sum (a := a) s (fun e q => e.voltD typ * tens (fun k i p => e.shape.contrib k p i) l.length l q)
    (fun e => e.voltD typ * tens (fun k i p => e.shape.contrib k p i) (l.length + 1) (l ++ [a]) p) p (by
    intro e he
    apply HasPartial.const_mul
    exact tens_step _ l.length (by omega) a p (fun i hi => elec_first e p (hp e he) l.length (by omega) i hi a) l rfl)
  rw [sysTens_eq]
  simp only [List.length_append, List.length_singleton]
  exact this.congr fun q => (sysTens_eq s typ l q).symm

/-- C33: for systems of cover, point and polygon electrodes the hypotheses of `c33_derivatives` hold:
the pseudopotential tensors up to order 4 are the iterated partial derivatives of the
pseudopotential at all positions off the electrodes. -/
theorem c33_surface_systems (els : List Elec) (c : ℝ) (l : Idx) (hl : l.length ≤ 4) :
    IsIterated (offSystem els) l (pseudoAt ⟨els, some c⟩ []) (pseudoAt ⟨els, some c⟩ l) := by
  by_cases hU : ∃ p, offSystem els p
  · obtain ⟨p0, hp0⟩ := hU
    refine c33_derivatives els c (offSystem els)
      (fun i h1 h2 => ⟨_, electrical_expand_eq els [] i (by omega) .rf (avail_of_off hp0 i .rf)⟩) ?_ l hl
    intro l a h1 h2 p hp
    rw [electricalAt_eq els .rf (l ++ [a]) (by simp; omega) p (avail_of_off hp _ _)]
    exact (sys_step els .rf l a h2 p hp).congr fun q =>
      (electricalAt_eq els .rf l (by omega) q (avail_of_off hp _ _)).symm
  · have hU' : ∀ p, ¬ offSystem els p := fun p hp => hU ⟨p, hp⟩
    have : ∀ (l : Idx) (f g : V3 → ℝ), IsIterated (offSystem els) l f g := by
      intro l
      induction l with
      | nil => intro f g p hp; exact absurd hp (hU' p)
      | cons a l ih => intro f g; exact ⟨fun _ => 0, fun p hp => absurd hp (hU' p), ih _ _⟩
    exact this _ _ _

/-- a polygon and a cover: positions off the plane are off the system -/
example : offSystem [⟨"p", 0, 1, .polygons [[⟨1, 1⟩, ⟨-1, 1⟩, ⟨-1, -1⟩, ⟨1, -1⟩]] 50 0⟩, ⟨"c", 0, 0, .cover 50⟩] ⟨0, 0, 1⟩ := by
  intro e he
  simp at he
  rcases he with rfl | rfl
  · intro m h1 h2 h3
    have : m = 0 := by omega
    subst this
    norm_num at h3
  · trivial

/-! ### C34 -/

theorem electrical_shape (s : List Elec) (x : List V3) (d : Nat) (typ : VTyp) (u : List (List ℝ))
    (h : electricalPotential s x d typ true = .ok u) : hasShape u x.length (3 ^ d) := by
  have ha : AvailAll s d typ := by
    by_contra hn; rw [electrical_err s x d typ _ hn] at h; cases h
  have hd : d < 6 := by
    by_contra hn; rw [electrical_expand_high s x d (by omega) typ] at h; cases h
  rw [electrical_expand_eq s x d hd typ ha] at h
  injection h with h
  subst h
  refine ⟨by simp, ?_⟩
  intro row hrow
  simp only [List.mem_map] at hrow
  obtain ⟨p, _, rfl⟩ := hrow
  simp [flatten, productIdx_eq, tuples_length]

theorem pseudo_shape (s : Sys) (x : List V3) (d : Nat) (r : List (List ℝ)) (h : pseudoPotential s x d = .ok r) :
    hasShape r x.length (3 ^ d) := by
  obtain ⟨c, hc⟩ := pseudo_coeff s x d r h
  rw [hc] at h
  obtain ⟨hd, ha⟩ := pseudo_avail s.els c x d r h
  rw [pseudo_eq s.els c x d hd ha] at h
  injection h with h
  subst h
  refine ⟨by simp, ?_⟩
  intro row hrow
  simp only [List.mem_map] at hrow
  obtain ⟨p, _, rfl⟩ := hrow
  simp [flatten, productIdx_eq, tuples_length]

theorem at2_addRows (u w : List (List ℝ)) (n m : Nat) (hu : hasShape u n m) (hw : hasShape w n m) (a b : Nat) :
    at2 (addRows u w) a b = at2 u a b + at2 w a b := by
  unfold at2 addRows
  by_cases hn : a < n
  · have hu' : u[a]? = some (u[a]'(by rw [hu.1]; exact hn)) := List.getElem?_eq_getElem _
    have hw' : w[a]? = some (w[a]'(by rw [hw.1]; exact hn)) := List.getElem?_eq_getElem _
    have q1 := hu.2 (u[a]'(by rw [hu.1]; exact hn)) (List.getElem_mem _)
    have q2 := hw.2 (w[a]'(by rw [hw.1]; exact hn)) (List.getElem_mem _)
    simp only [List.getD_eq_getElem?_getD, List.getElem?_zipWith, hu', hw', Option.getD_some]
    by_cases hi : b < m
    · have e1 : (u[a]'(by rw [hu.1]; exact hn))[b]? = some ((u[a]'(by rw [hu.1]; exact hn))[b]'(by omega)) :=
        List.getElem?_eq_getElem _
      have e2 : (w[a]'(by rw [hw.1]; exact hn))[b]? = some ((w[a]'(by rw [hw.1]; exact hn))[b]'(by omega)) :=
        List.getElem?_eq_getElem _
      simp [e1, e2]
    · have e1 : (u[a]'(by rw [hu.1]; exact hn))[b]? = none := List.getElem?_eq_none (by omega)
      have e2 : (w[a]'(by rw [hw.1]; exact hn))[b]? = none := List.getElem?_eq_none (by omega)
      simp [e1, e2]
  · have hu' : u[a]? = none := List.getElem?_eq_none (by rw [hu.1]; omega)
    have hw' : w[a]? = none := List.getElem?_eq_none (by rw [hw.1]; omega)
    simp [List.getD_eq_getElem?_getD, List.getElem?_zipWith, hu', hw']

/-- C34: `potential` is the sum of the expanded dc tensor and of the pseudopotential tensor, one row of
`3^d` numbers for each position; `typ='dc'` and `typ='rf'` select one of the two. -/
theorem c34_potential (s : Sys) (x : List V3) (d : Nat) (u w : List (List ℝ))
    (hu : electricalPotential s.els x d .dc true = .ok u) (hw : pseudoPotential s x d = .ok w) :
    (∃ r, s.potential x d .tot = .ok r ∧ hasShape r x.length (3 ^ d) ∧ ∀ n i, at2 r n i = at2 u n i + at2 w n i) ∧
      s.potential x d .dc = .ok u ∧ s.potential x d .rf = .ok w ∧ s.potential x d .other = .error .valueError := by
  have h1 := electrical_shape s.els x d .dc u hu
  have h2 := pseudo_shape s x d w hw
  unfold Sys.potential
  simp only [hu, hw]
  refine ⟨⟨addRows u w, rfl, ⟨?_, ?_⟩, at2_addRows u w _ _ h1 h2⟩, trivial, trivial, trivial⟩
  · simp [addRows, h1.1, h2.1]
  · intro row hrow
    unfold addRows at hrow
    obtain ⟨j, hj, rfl⟩ := List.getElem_of_mem hrow
    simp only [List.length_zipWith] at hj
    simp only [List.getElem_zipWith, List.length_zipWith]
    rw [h1.2 _ (List.getElem_mem _), h2.2 _ (List.getElem_mem _), min_self]

/-- C34: it fails exactly if one of the two fails or `typ` is unknown, also for `typ='dc'`, which needs
no pseudopotential. -/
theorem c34_errors (s : Sys) (x : List V3) (d : Nat) (typ : PTyp) :
    (∃ r, s.potential x d typ = .ok r) ↔
      typ ≠ .other ∧ (∃ u, electricalPotential s.els x d .dc true = .ok u) ∧ ∃ w, pseudoPotential s x d = .ok w := by
  unfold Sys.potential
  cases h1 : electricalPotential s.els x d .dc true with
  | error e => simp
  | ok u =>
    cases h2 : pseudoPotential s x d with
    | error e => simp
    | ok w => cases typ <;> simp

theorem total_split (els : List Elec) (c : ℝ) (l : Idx) (hl : l.length ≤ 4) (p : V3) (ha : ∀ d typ, AvailAll els d typ) :
    totalAt ⟨els, some c⟩ l p = sysTens els .dc l p + psT (fun l => c * sysTens els .rf l p) l := by
  unfold totalAt
  have h1 := electrical_expand_eq els [p] l.length (by omega) .dc (ha _ _)
  have h2 := pseudo_eq els c [p] l.length hl fun i _ _ => ha i .rf
  obtain ⟨⟨r, hr, _, hv⟩, _⟩ := c34_potential ⟨els, some c⟩ [p] l.length _ _ h1 h2
  rw [hr]
  have := hv 0 (rowMajor l)
  have e1 := entry_flatten l.length (fun l => sysTens els .dc l p) l rfl
  have e2 := entry_flatten l.length (psT fun l => c * sysTens els .rf l p) l rfl
  simp only [entryOf, entry] at e1 e2 ⊢
  simp only [at2, List.map_cons, List.map_nil, List.getD_cons_zero] at this
  rw [this, e1, e2]

theorem total_step (els : List Elec) (c : ℝ) (l : Idx) (a : Axis) (hl : l.length ≤ 3) (p : V3) (hp : offSystem els p) :
    HasPartial a (totalAt ⟨els, some c⟩ l) (totalAt ⟨els, some c⟩ (l ++ [a]) p) p := by
  have ha := fun d typ => avail_of_off hp d typ
  have h1 := sys_step els .dc l a (by omega) p hp
  have h2 := psT_step (fun q l => c * sysTens els .rf l q) a p (fun q l l' h => by
    unfold sysTens
    rw [h.length_eq, tens_perm _ _ h]) (fun l h1 h2 => (sys_step els .rf l a h2 p hp).const_mul c) l hl
  rw [total_split els c (l ++ [a]) (by simp; omega) p ha]
  exact (h1.add h2).congr fun q => (total_split els c l (by omega) q ha).symm

/-- C34: for systems of cover, point and polygon electrodes, the combined potential tensors up to
order 4 are the iterated partial derivatives of the combined potential, off the electrodes. -/
theorem c34_derivatives (els : List Elec) (c : ℝ) (l : Idx) (hl : l.length ≤ 4) :
    IsIterated (offSystem els) l (totalAt ⟨els, some c⟩ []) (totalAt ⟨els, some c⟩ l) := by
  have main : ∀ (l m : Idx), m.length + l.length ≤ 4 →
      IsIterated (offSystem els) l (totalAt ⟨els, some c⟩ m) (totalAt ⟨els, some c⟩ (m ++ l)) := by
    intro l
    induction l with
    | nil => intro m _ p _; simp
    | cons a l ih =>
      intro m hm
      simp only [List.length_cons] at hm
      refine ⟨totalAt ⟨els, some c⟩ (m ++ [a]), fun p hp => total_step els c m a (by omega) p hp, ?_⟩
      have := ih (m ++ [a]) (by simp; omega)
      simpa using this
  simpa using main l [] (by simpa using hl)

/-- the two parts can be evaluated for a cover electrode -/
example : ∃ u w, electricalPotential [⟨"c", 1, 3, .cover 50⟩] [⟨0, 0, 1⟩] 2 .dc true = .ok u ∧
    pseudoPotential ⟨[⟨"c", 1, 3, .cover 50⟩], some 2⟩ [⟨0, 0, 1⟩] 2 = .ok w := by
  have h : offSystem [⟨"c", 1, 3, .cover 50⟩] ⟨0, 0, 1⟩ := by intro e he; simp at he; subst he; trivial
  exact ⟨_, _, electrical_expand_eq _ _ _ (by norm_num) _ (avail_of_off h _ _),
    pseudo_eq _ _ _ _ (by norm_num) fun i _ _ => avail_of_off h i .rf⟩

/-! ### C71: unsupported orders of the pseudopotential -/

/-- C71 fails: for order 5 and above the documented `ValueError` is never reached, the call ends in an
`IndexError` from the expansion of the rf tensor of order 6. -/
theorem c71_index_error (els : List Elec) (c : ℝ) (x : List V3) (d : Nat) (hd : 5 ≤ d) :
    pseudoPotential ⟨els, some c⟩ x d = .error .indexError := pseudo_high els c x d hd

/-- The part of C71 that holds: no value is returned for order 5 and above. -/
theorem c71_no_value_partial (s : Sys) (x : List V3) (d : Nat) (hd : 5 ≤ d) :
    ∃ e, pseudoPotential s x d = .error e := by
  cases s with
  | mk els rc =>
    cases rc with
    | none => exact ⟨_, rfl⟩
    | some c => exact ⟨_, c71_index_error els c x d hd⟩

end Electrode
