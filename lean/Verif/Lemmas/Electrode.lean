import Verif.Model.Electrode
import Verif.Lemmas.Expressions

/-
Every electrode class adds `potential *` (its unit contribution) to each row of `out`.
-/
namespace Electrode
open Real

theorem modify_eq_addFn (row : List ℝ) (j : Nat) (c : ℝ) :
    (row.modify j fun o => o + c) = addFn row fun i => if i = j then c else 0 := by
  apply List.ext_getElem
  · simp [addFn]
  · intro i h1 h2
    rw [List.getElem_modify, addFn_getElem]
    by_cases h : j = i
    · simp [h]
    · simp [h, Ne.symm h]

/-- unit contribution of a cover electrode -/
noncomputable def coverContrib (height : ℝ) (d : Nat) (p : V3) (i : Nat) : ℝ :=
  if d = 0 then (if i = 0 then p.z / height else 0) else if d = 1 then (if i = 2 then 1 / height else 0) else 0

theorem coverPotential_eq (height : ℝ) (x : List V3) (d : Nat) (v : ℝ) (out : List (List ℝ))
    (hl : x.length = out.length) :
    coverPotential height x d v (some out)
      = List.zipWith (fun p row => addFn row fun i => v * coverContrib height d p i) x out := by
  unfold coverPotential
  simp only [Option.getD_some]
  split
  · apply zipWith_congr
    intro p row
    rw [modify_eq_addFn]
    apply addFn_congr
    intro i _
    subst_vars
    simp only [coverContrib, if_true, mul_ite, mul_zero, mul_div_assoc]
  · split
    · apply zipWith_congr
      intro p row
      rw [modify_eq_addFn]
      apply addFn_congr
      intro i _
      subst_vars
      simp [coverContrib, div_eq_mul_inv]
    · rename_i h0 h1
      conv_lhs => rw [← zipWith_id_right x out hl]
      apply zipWith_congr
      intro p row
      simp [coverContrib, h0, h1, addFn_zero]

/-- position in units of the grid -/
noncomputable def gridCoord (origin spacing p : V3) : V3 :=
  ⟨(p.x - origin.x) / spacing.x, (p.y - origin.y) / spacing.y, (p.z - origin.z) / spacing.z⟩

theorem sum_map_ite_range (n i : Nat) (f : Nat → ℝ) :
    ((List.range n).map fun j => if i = j then f j else 0).sum = if i < n then f i else 0 := by
  induction n with
  | zero => simp
  | succ n ih =>
    rw [List.range_succ, List.map_append, List.sum_append, ih]
    simp only [List.map_cons, List.map_nil, List.sum_cons, List.sum_nil, add_zero]
    by_cases h : i = n
    · subst h; simp
    · by_cases h2 : i < n
      · simp [h, h2, Nat.lt_succ_of_lt h2]
      · have : ¬ i < n + 1 := by omega
        simp [h, h2, this]

/-- does the electrode provide the derivative order at all -/
def Shape.Avail (s : Shape) (d : Nat) : Prop :=
  match s with
  | .grid data _ _ => ∃ dat, data[d]? = some dat ∧ 2 * d + 1 ≤ dat.l
  | _ => True

/-- contribution of an electrode at unit voltage: component `i` of derivative order `d` at `p` -/
noncomputable def Shape.contrib (s : Shape) (d : Nat) (p : V3) (i : Nat) : ℝ :=
  match s with
  | .cover height => coverContrib height d p i
  | .points ps as ch cn => pointContrib d cn ch ps as p i
  | .polygons paths ch cn => polyContrib d cn ch paths p i
  | .mesh ps es pg pots ch cn => meshContrib d cn ch ps es pg pots p i
  | .grid data origin spacing =>
    match data[d]? with
    | some dat => if i < 2 * d + 1 then mapCoordinates dat i (gridCoord origin spacing p) else 0
    | none => 0

theorem gridPotential_eq (data : List Arr4) (origin spacing : V3) (x : List V3) (d : Nat) (v : ℝ)
    (out : List (List ℝ)) (hl : x.length = out.length) (ha : (Shape.grid data origin spacing).Avail d) :
    gridPotential data origin spacing x d v (some out)
      = .ok (List.zipWith (fun p row => addFn row fun i => v * (Shape.grid data origin spacing).contrib d p i) x out) := by
  obtain ⟨dat, h1, h2⟩ := ha
  unfold gridPotential
  simp only [Option.getD_some, pyGet, h1]
  rw [if_neg (by omega)]
  simp only [modify_eq_addFn]
  rw [foldl_rows (List.range (2 * d + 1)) _ out (by simpa using hl)
    fun j c i => if i = j then v * mapCoordinates dat j c else 0, List.zipWith_map_left]
  congr 1
  apply zipWith_congr
  intro p row
  apply addFn_congr
  intro i _
  rw [sum_map_ite_range]
  simp only [Shape.contrib, h1, gridCoord]
  split <;> simp

theorem gridPotential_err (data : List Arr4) (origin spacing : V3) (x : List V3) (d : Nat) (v : ℝ)
    (out : Option (List (List ℝ))) (ha : ¬ (Shape.grid data origin spacing).Avail d) :
    gridPotential data origin spacing x d v out = .error .indexError := by
  unfold gridPotential
  simp only [pyGet]
  cases h1 : data[d]? with
  | none => rfl
  | some dat =>
    simp only
    rw [if_pos]
    by_contra h
    exact ha ⟨dat, h1, by omega⟩

theorem Elec.potential_eq (e : Elec) (x : List V3) (d : Nat) (v : ℝ) (out : List (List ℝ))
    (hl : x.length = out.length) (ha : e.shape.Avail d) :
    e.potential x d v (some out)
      = .ok (List.zipWith (fun p row => addFn row fun i => v * e.shape.contrib d p i) x out) := by
  unfold Elec.potential
  cases hs : e.shape with
  | cover height => simp only [coverPotential_eq _ _ _ _ _ hl, Shape.contrib]
  | points ps as ch cn => simp only [pointPotential_eq _ _ _ _ _ _ _ _ hl, Shape.contrib]
  | polygons paths ch cn => simp only [polygonPotential_eq _ _ _ _ _ _ _ hl, Shape.contrib]
  | mesh ps es pg pots ch cn =>
    simp only [meshPotential_eq _ _ _ _ _ _ _ _ _ hl, Shape.contrib]
    congr 1
    apply zipWith_congr
    intro p row
    apply addFn_congr
    intro i _
    unfold meshContrib
    simp only [← List.sum_map_mul_left]
    congr 1
    apply List.map_congr_left
    intro q _
    congr 1
    apply List.map_congr_left
    intro p' _
    have : (pots.map (· * v)).getD q.2 0 = v * pots.getD q.2 0 := by
      simp only [List.getD_eq_getElem?_getD, List.getElem?_map]
      cases pots[q.2]? <;> simp [mul_comm]
    rw [this]; ring
  | grid data origin spacing =>
    exact gridPotential_eq _ _ _ _ _ _ _ hl (by rw [hs] at ha; exact ha)

theorem Elec.potential_err (e : Elec) (x : List V3) (d : Nat) (v : ℝ) (out : Option (List (List ℝ)))
    (ha : ¬ e.shape.Avail d) : e.potential x d v out = .error .indexError := by
  unfold Elec.potential
  cases hs : e.shape with
  | grid data origin spacing => exact gridPotential_err _ _ _ _ _ _ _ (by rw [hs] at ha; exact ha)
  | _ => rw [hs] at ha; exact absurd trivial ha

theorem Elec.potential_none (e : Elec) (x : List V3) (d : Nat) (v : ℝ) :
    e.potential x d v none = e.potential x d v (some (List.replicate x.length (List.replicate (2 * d + 1) 0))) := by
  unfold Elec.potential
  cases e.shape <;> simp [coverPotential, pointPotential, polygonPotential, meshPotential, gridPotential, zeroRows,
    Nat.mul_comm]

/-- value with no `out` given: one row of `2 d + 1` components per position -/
theorem Elec.potential_new (e : Elec) (x : List V3) (d : Nat) (v : ℝ) (ha : e.shape.Avail d) :
    e.potential x d v none
      = .ok (x.map fun p => (List.range (2 * d + 1)).map fun i => v * e.shape.contrib d p i) := by
  rw [Elec.potential_none, Elec.potential_eq e x d v _ (by simp) ha]
  congr 1
  apply List.ext_getElem
  · simp
  · intro j h1 h2
    simp only [List.getElem_zipWith, List.getElem_replicate, List.getElem_map]
    apply List.ext_getElem
    · simp [addFn_length]
    · intro i h3 h4
      rw [addFn_getElem]
      simp

end Electrode
