import Verif.Spec.System
import Verif.Lemmas.Pseudo

/-
C26, C27, C31 to C34: potentials of systems of electrodes.
-/
namespace Electrode
open Spec Real

/-! ### C26 -/

theorem individual_eq (s : List Elec) (x : List V3) (d : Nat) (ind : List (List (List ℝ)))
    (h : individualPotential s x d = .ok ind) :
    (∀ e ∈ s, e.shape.Avail d) ∧
      ind = s.map fun e => x.map fun p => (List.range (2 * d + 1)).map fun i => e.shape.contrib d p i := by
  unfold individualPotential at h
  obtain ⟨h1, h2⟩ := pySeq_map_inv s _ ind h
  have ha : ∀ e ∈ s, e.shape.Avail d := by
    intro e he
    obtain ⟨j, hj, rfl⟩ := List.getElem_of_mem he
    obtain ⟨b, _, hb⟩ := h2 j s[j] (by simp [hj])
    by_contra hn
    rw [Elec.potential_err _ x d 1 _ hn] at hb
    cases hb
  refine ⟨ha, ?_⟩
  have h3 := pySeq_map_ok s (fun e => e.potential x d 1 (some (zeroRows x.length d)))
    (fun e => x.map fun p => (List.range (2 * d + 1)).map fun i => e.shape.contrib d p i) (by
      intro e he
      rw [zeroRows_eq, ← Elec.potential_none, Elec.potential_new e x d 1 (ha e he)]
      simp only [one_mul])
  rw [h] at h3
  injection h3

theorem at2_table (x : List V3) (f : V3 → Nat → ℝ) (m n i : Nat) :
    at2 (x.map fun p => (List.range m).map (f p)) n i
      = match x[n]? with
        | some p => if i < m then f p i else 0
        | none => 0 := by
  have h : (x.map fun p => (List.range m).map (f p)).getD n [] = (x[n]?.map fun p => (List.range m).map (f p)).getD [] := by
    rw [List.getD_eq_getElem?_getD, List.getElem?_map]
  unfold at2
  rw [h]
  cases x[n]? with
  | none => simp
  | some p => simp only [Option.map_some, Option.getD_some]; rw [getD_range_map]

/-- C26: `electrical_potential` is the sum over the electrodes of their voltage times
`individual_potential`, for the dc and for the rf voltages. -/
theorem c26_superposition (s : List Elec) (x : List V3) (d : Nat) (typ : VTyp) (v : Elec → ℝ)
    (hv : (typ = .dc ∧ v = Elec.dc) ∨ (typ = .rf ∧ v = Elec.rf))
    (ind : List (List (List ℝ))) (h : individualPotential s x d = .ok ind) :
    ∃ pot, electricalPotential s x d typ false = .ok pot ∧ hasShape pot x.length (2 * d + 1) ∧
      ∀ n i, at2 pot n i = (List.zipWith (fun e u => v e * at2 u n i) s ind).sum := by
  obtain ⟨ha, rfl⟩ := individual_eq s x d ind h
  have hvd : ∀ e : Elec, e.voltD typ = v e := by
    intro e
    rcases hv with ⟨rfl, rfl⟩ | ⟨rfl, rfl⟩ <;> rfl
  refine ⟨_, electrical_eq s x d typ fun e he _ => ha e he, ⟨by simp, by simp⟩, ?_⟩
  intro n i
  rw [at2_table x (fun p i => sysContrib s typ d i p), List.zipWith_map_right]
  simp only [at2_table x (fun p i => Shape.contrib _ d p i)]
  rw [List.zipWith_self]
  unfold sysContrib
  simp only [hvd]
  cases x[n]? with
  | none => simp
  | some p =>
    simp only
    split
    · rfl
    · simp

/-- C26: an electrode at zero voltage has no influence at all, even if it could not be evaluated. -/
theorem c26_zero_voltage (s t : List Elec) (e : Elec) (x : List V3) (d : Nat) (typ : VTyp) (b : Bool)
    (he : (typ = .dc → e.dc = 0) ∧ (typ = .rf → e.rf = 0)) :
    electricalPotential (s ++ e :: t) x d typ b = electricalPotential (s ++ t) x d typ b := by
  have h0 : ∀ out, electricalStep x d typ out e = .ok out := by
    intro out
    unfold electricalStep
    cases typ with
    | dc => simp [Elec.volt, he.1 rfl]
    | rf => simp [Elec.volt, he.2 rfl]
    | other => simp [Elec.volt]
  have : ∀ out, (s ++ e :: t).foldlM (electricalStep x d typ) out = (s ++ t).foldlM (electricalStep x d typ) out := by
    intro out
    rw [List.foldlM_append, List.foldlM_append]
    congr 1
    funext o
    rw [List.foldlM_cons, h0]
    rfl
  unfold electricalPotential
  rw [this]

/-- C26: a voltage attribute the electrodes do not have gives the zero potential. -/
theorem c26_unknown_typ (s : List Elec) (x : List V3) (d : Nat) :
    electricalPotential s x d .other false = .ok (List.replicate x.length (List.replicate (2 * d + 1) 0)) := by
  rw [electrical_eq s x d .other (fun e _ h => absurd rfl h)]
  congr 1
  apply List.ext_getElem
  · simp
  · intro n h1 h2
    apply List.ext_getElem <;> simp [sysContrib, Elec.voltD, Elec.volt]

/-- two cover electrodes can be evaluated individually -/
example : ∃ ind, individualPotential [⟨"a", 1, 0, .cover 50⟩, ⟨"b", 2, 3, .cover 70⟩] [⟨0, 0, 1⟩] 0 = .ok ind :=
  ⟨_, rfl⟩

/-! ### C27 -/

theorem AvailAll_perm {s t : List Elec} (h : s.Perm t) (d : Nat) (typ : VTyp) : AvailAll s d typ ↔ AvailAll t d typ :=
  ⟨fun H e he => H e (h.mem_iff.2 he), fun H e he => H e (h.mem_iff.1 he)⟩

theorem sysContrib_perm {s t : List Elec} (h : s.Perm t) (typ : VTyp) (d i : Nat) (p : V3) :
    sysContrib s typ d i p = sysContrib t typ d i p := (h.map _).sum_eq

/-- expanding is the same function of the reduced result -/
theorem electrical_of_reduced (s t : List Elec) (x : List V3) (d : Nat) (typ : VTyp)
    (h : electricalPotential s x d typ false = electricalPotential t x d typ false) (b : Bool) :
    electricalPotential s x d typ b = electricalPotential t x d typ b := by
  cases b with
  | false => exact h
  | true =>
    unfold electricalPotential at h ⊢
    cases h1 : List.foldlM (electricalStep x d typ) (zeroRows x.length d) s with
    | error e =>
      cases h2 : List.foldlM (electricalStep x d typ) (zeroRows x.length d) t with
      | error e' => rw [h1, h2] at h; simpa using h
      | ok u => rw [h1, h2] at h; simp at h
    | ok w =>
      cases h2 : List.foldlM (electricalStep x d typ) (zeroRows x.length d) t with
      | error e' => rw [h1, h2] at h; simp at h
      | ok u =>
        rw [h1, h2] at h
        simp only [Bool.false_eq_true, if_false, Except.ok.injEq] at h
        rw [h]

/-- C27: the order of the electrodes does not matter. -/
theorem c27_permutation (s t : List Elec) (h : s.Perm t) (x : List V3) (d : Nat) (typ : VTyp) (b : Bool) :
    electricalPotential s x d typ b = electricalPotential t x d typ b := by
  apply electrical_of_reduced
  by_cases ha : AvailAll s d typ
  · rw [electrical_eq s x d typ ha, electrical_eq t x d typ ((AvailAll_perm h d typ).1 ha)]
    simp only [sysContrib_perm h]
  · rw [electrical_err s x d typ _ ha, electrical_err t x d typ _ fun h' => ha ((AvailAll_perm h d typ).2 h')]

/-- C27: the potential of two systems joined is the sum of their potentials. -/
theorem c27_concat (s t : List Elec) (x : List V3) (d : Nat) (typ : VTyp) (u w : List (List ℝ))
    (hu : electricalPotential s x d typ false = .ok u) (hw : electricalPotential t x d typ false = .ok w) :
    ∃ r, electricalPotential (s ++ t) x d typ false = .ok r ∧ hasShape r x.length (2 * d + 1) ∧
      ∀ n i, at2 r n i = at2 u n i + at2 w n i := by
  have h1 : AvailAll s d typ := by
    by_contra h; rw [electrical_err s x d typ _ h] at hu; cases hu
  have h2 : AvailAll t d typ := by
    by_contra h; rw [electrical_err t x d typ _ h] at hw; cases hw
  rw [electrical_eq s x d typ h1] at hu
  rw [electrical_eq t x d typ h2] at hw
  injection hu with hu
  injection hw with hw
  refine ⟨_, electrical_eq (s ++ t) x d typ fun e he => ?_, ⟨by simp, by simp⟩, ?_⟩
  · rcases List.mem_append.1 he with he | he
    · exact h1 e he
    · exact h2 e he
  · intro n i
    rw [← hu, ← hw, at2_table x (fun p i => sysContrib s typ d i p), at2_table x (fun p i => sysContrib t typ d i p),
      at2_table x (fun p i => sysContrib (s ++ t) typ d i p)]
    cases x[n]? with
    | none => simp
    | some p =>
      simp only
      split
      · simp [sysContrib]
      · simp

/-- C27: and it fails if one of them fails. -/
theorem c27_concat_error (s t : List Elec) (x : List V3) (d : Nat) (typ : VTyp) (b : Bool)
    (h : (∃ e, electricalPotential s x d typ false = .error e) ∨ ∃ e, electricalPotential t x d typ false = .error e) :
    ∃ e, electricalPotential (s ++ t) x d typ b = .error e := by
  refine ⟨.indexError, electrical_err _ _ _ _ _ fun ha => ?_⟩
  rcases h with ⟨e, h⟩ | ⟨e, h⟩
  · rw [electrical_eq s x d typ fun e' he => ha e' (by simp [he])] at h; cases h
  · rw [electrical_eq t x d typ fun e' he => ha e' (by simp [he])] at h; cases h

example : ([⟨"a", 1, 0, .cover 50⟩, ⟨"b", 2, 3, .cover 70⟩] : List Elec).Perm
    [⟨"b", 2, 3, .cover 70⟩, ⟨"a", 1, 0, .cover 50⟩] := List.Perm.swap _ _ _
example : ∃ u, electricalPotential [⟨"a", 1, 0, .cover 50⟩] [⟨0, 0, 1⟩] 0 .dc false = .ok u :=
  ⟨_, electrical_eq _ _ _ _ fun e he _ => by simp at he; subst he; trivial⟩

/-! ### C31 -/

/-- C31: `time_potential` is the dc potential plus `cos(t)` times the rf potential; it fails if one
of them fails. -/
theorem c31_time_potential (s : List Elec) (x : List V3) (d : Nat) (t : ℝ) (b : Bool) :
    (∀ u w, electricalPotential s x d .dc b = .ok u → electricalPotential s x d .rf b = .ok w →
      ∃ r, timePotential s x d t b = .ok r ∧ r.length = x.length ∧
        ∀ n i, at2 r n i = at2 u n i + cos t * at2 w n i) ∧
    ∀ r, timePotential s x d t b = .ok r →
      (∃ u, electricalPotential s x d .dc b = .ok u) ∧ ∃ w, electricalPotential s x d .rf b = .ok w := by
  have shape : ∀ typ u, electricalPotential s x d typ b = .ok u →
      u.length = x.length ∧ ∃ m, ∀ row ∈ u, row.length = m ∧ (m = if b then 3 ^ d else 2 * d + 1) := by
    intro typ u h
    have ha : AvailAll s d typ := by
      by_contra hn; rw [electrical_err s x d typ _ hn] at h; cases h
    cases b with
    | false =>
      rw [electrical_eq s x d typ ha] at h
      injection h with h
      subst h
      exact ⟨by simp, 2 * d + 1, by simp⟩
    | true =>
      have hd : d < 6 := by
        by_contra hn; rw [electrical_expand_high s x d (by omega) typ] at h; cases h
      rw [electrical_expand_eq s x d hd typ ha] at h
      injection h with h
      subst h
      refine ⟨by simp, 3 ^ d, ?_⟩
      intro row hrow
      simp only [List.mem_map] at hrow
      obtain ⟨p, _, rfl⟩ := hrow
      simp [flatten, productIdx_eq, tuples_length]
  constructor
  · intro u w hu hw
    obtain ⟨l1, m1, r1⟩ := shape .dc u hu
    obtain ⟨l2, m2, r2⟩ := shape .rf w hw
    refine ⟨addRows u (scaleRows (cos t) w), ?_, ?_, ?_⟩
    · unfold timePotential; rw [hu, hw]
    · simp [addRows, scaleRows, l1, l2]
    · intro n i
      unfold at2 addRows scaleRows
      by_cases hn : n < x.length
      · have hu' : u[n]? = some u[n] := List.getElem?_eq_getElem (by omega)
        have hw' : w[n]? = some w[n] := List.getElem?_eq_getElem (by omega)
        have q1 := r1 u[n] (List.getElem_mem _)
        have q2 := r2 w[n] (List.getElem_mem _)
        simp only [List.getD_eq_getElem?_getD, List.getElem?_zipWith, List.getElem?_map, hu', hw', Option.map_some,
          Option.getD_some]
        by_cases hi : i < u[n].length
        · have e1 : u[n][i]? = some u[n][i] := List.getElem?_eq_getElem hi
          have e2 : w[n][i]? = some w[n][i] := List.getElem?_eq_getElem (by omega)
          simp [e1, e2]
        · have e1 : u[n][i]? = none := List.getElem?_eq_none (by omega)
          have e2 : w[n][i]? = none := List.getElem?_eq_none (by omega)
          simp [e1, e2]
      · have hu' : u[n]? = none := List.getElem?_eq_none (by omega)
        have hw' : w[n]? = none := List.getElem?_eq_none (by omega)
        simp [List.getD_eq_getElem?_getD, List.getElem?_zipWith, hu', hw']
  · intro r hr
    unfold timePotential at hr
    cases h1 : electricalPotential s x d .dc b with
    | error e => rw [h1] at hr; simp at hr
    | ok u =>
      cases h2 : electricalPotential s x d .rf b with
      | error e => rw [h1, h2] at hr; simp at hr
      | ok w => exact ⟨⟨u, rfl⟩, ⟨w, rfl⟩⟩

example : ∃ u w, electricalPotential [⟨"a", 1, 2, .cover 50⟩] [⟨0, 0, 1⟩] 0 .dc false = .ok u ∧
    electricalPotential [⟨"a", 1, 2, .cover 50⟩] [⟨0, 0, 1⟩] 0 .rf false = .ok w :=
  ⟨_, _, electrical_eq _ _ _ _ fun e he _ => by simp at he; subst he; trivial,
    electrical_eq _ _ _ _ fun e he _ => by simp at he; subst he; trivial⟩

end Electrode
