import Verif.Props.TraitCon2
import Mathlib.Tactic.IntervalCases

/-
C109, continued: symmetry, potential, force and curvature at the points of a path.
-/
namespace Electrode

open Spec

/-! ### specification -/

/-- the voltage of an electrode, zero for a negative number -/
def Spec.voltOrZero {m : Nat} (v : Fin m → ℝ) (a : Int) : ℝ := if h : 0 ≤ a ∧ a.toNat < m then v ⟨a.toNat, h.2⟩ else 0

/-- the potential, force and curvature at a point: fixed part and what the voltages add -/
def Spec.totalP {m : Nat} (only : Bool) (s : Pots m) (v : Fin m → ℝ) : ℝ := (if only then 0 else s.p0) + ∑ e, v e * s.p e

/-- see `totalP` -/
def Spec.totalF {m : Nat} (only : Bool) (s : Pots m) (v : Fin m → ℝ) (i : Fin 3) : ℝ := (if only then 0 else s.f0 i) + ∑ e, v e * s.f i e

/-- see `totalP` -/
def Spec.totalC {m : Nat} (only : Bool) (s : Pots m) (v : Fin m → ℝ) (i j : Fin 3) : ℝ :=
  (if only then 0 else s.c0 i j) + ∑ e, v e * s.c i j e

/-- the vector `f` in the axes that are the columns of `r` -/
def Spec.inAxes (r : Fin 3 → Fin 3 → ℝ) (f : Fin 3 → ℝ) (i : Fin 3) : ℝ := ∑ k, r k i * f k

/-! ### visiting the points -/

theorem go_values {m : Nat} {single : (Fin m → ℝ) → Pots m → Py (List CvxExpr × Pots m)} {out : (Fin m → ℝ) → Pots m → List CvxExpr}
    {upd : Pots m → Pots m} (vars : List (Fin m → ℝ)) (pots : List (Pots m)) (hlen : pots.length = vars.length)
    (hs : ∀ v ∈ vars, ∀ s, single v s = .ok (out v s, upd s)) (ho : ∀ v s, out v (upd s) = out v s)
    (l : List Int) (hl : ∀ i ∈ l, 0 ≤ i ∧ i < vars.length) (cur : List (Pots m)) (hc : cur.length = pots.length)
    (hcur : ∀ (i : Nat) (h : i < pots.length) v, out v (cur[i]'(by omega)) = out v pots[i]) :
    ∃ s', singleValues.go single vars l cur =
      .ok (l.flatMap (fun i => out (vars.getD i.toNat 0) (pots.getD i.toNat ⟨true, 0, 0, 0, 0, 0, 0⟩)), s') := by
  induction l generalizing cur with
  | nil => exact ⟨cur, by simp [singleValues.go]⟩
  | cons i l ih =>
    obtain ⟨hi0, hi1⟩ := hl i (by simp)
    obtain ⟨j, rfl⟩ := Int.eq_ofNat_of_zero_le hi0
    have hj : j < vars.length := by omega
    rw [singleValues.go, pyGetInt_nat vars hj, pyGetInt_nat cur (by omega)]
    dsimp only
    rw [hs _ (List.getElem_mem _)]
    dsimp only
    obtain ⟨s', hs'⟩ := ih (fun i hi => hl i (by simp [hi])) (cur.set j (upd (cur[j]'(by omega)))) (by simp [hc]) (by
      intro i h v
      rw [List.getElem_set]
      split
      · subst_vars
        rw [ho, hcur _ h]
      · exact hcur i h v)
    refine ⟨s', ?_⟩
    rw [if_pos (by omega)]
    simp only [Int.toNat_natCast]
    rw [hs']
    simp only [List.flatMap_cons, Int.toNat_natCast, Except.ok.injEq, Prod.mk.injEq, and_true]
    rw [hcur j (by omega)]
    simp [List.getD_eq_getElem?_getD, hj, show j < pots.length by omega]

/-- the points a constraint is for -/
def Spec.points {m : Nat} (index : Option (List Int)) (vars : List (Fin m → ℝ)) (i : Nat) : Prop :=
  match index with
  | none => i < vars.length
  | some l => (i : Int) ∈ l

theorem single_all {m : Nat} {single : (Fin m → ℝ) → Pots m → Py (List CvxExpr × Pots m)} {out : (Fin m → ℝ) → Pots m → List CvxExpr}
    {upd : Pots m → Pots m} {vars : List (Fin m → ℝ)} {pots : List (Pots m)} (hlen : pots.length = vars.length)
    (hs : ∀ v ∈ vars, ∀ s, single v s = .ok (out v s, upd s)) (ho : ∀ v s, out v (upd s) = out v s)
    {index : Option (List Int)} (hi : ∀ l, index = some l → ∀ i ∈ l, 0 ≤ i ∧ i < vars.length) :
    ∃ vs, (singleValues index single vars pots).map Prod.fst = .ok vs ∧
      ∀ P : CvxExpr → Prop, (∀ w ∈ vs, P w) ↔ ∀ (i : Nat) (h : i < vars.length), points index vars i → ∀ w ∈ out vars[i] pots[i], P w := by
  obtain ⟨l, hl⟩ : ∃ l, l = (match index with
    | some l => l
    | none => (List.range vars.length).map Int.ofNat) := ⟨_, rfl⟩
  have hl1 : ∀ i ∈ l, 0 ≤ i ∧ i < vars.length := by
    cases index with
    | none =>
      subst hl
      intro i hi
      obtain ⟨j, hj, rfl⟩ := List.mem_map.1 hi
      have := List.mem_range.1 hj
      simp only [Int.ofNat_eq_natCast]
      omega
    | some _ =>
      subst hl
      exact hi _ rfl
  have hl2 : ∀ i : Nat, i < vars.length → ((i : Int) ∈ l ↔ points index vars i) := by
    intro i h
    cases index with
    | none => subst hl; simp [points]
    | some _ => subst hl; simp [points]
  obtain ⟨s', e⟩ := go_values vars pots hlen hs ho l hl1 pots rfl fun _ _ _ => rfl
  refine ⟨l.flatMap (fun i => out (vars.getD i.toNat 0) (pots.getD i.toNat ⟨true, 0, 0, 0, 0, 0, 0⟩)), ?_, ?_⟩
  · have hsv : singleValues index single vars pots = singleValues.go single vars l pots := by
      subst hl
      cases index <;> rfl
    rw [hsv, e]
    rfl
  · intro P
    constructor
    · intro h i hi hp w hw
      refine h w (List.mem_flatMap.2 ⟨i, (hl2 i hi).2 hp, ?_⟩)
      simpa [List.getD_eq_getElem?_getD, hi, show i < pots.length by omega] using hw
    · intro h w hw
      obtain ⟨i, hi, hw⟩ := List.mem_flatMap.1 hw
      obtain ⟨h0, h1⟩ := hl1 i hi
      obtain ⟨j, rfl⟩ := Int.eq_ofNat_of_zero_le h0
      have hj : j < vars.length := by omega
      refine h j hj ((hl2 j hj).1 hi) w ?_
      simpa [List.getD_eq_getElem?_getD, hj, show j < pots.length by omega] using hw

/-- C109: symmetric electrodes get the same voltage at every point the constraint is for, and a negative number means that the
voltage of the other one is zero. -/
theorem c109_symmetry {m : Nat} {sym : List (Int × Int)} (hsym : ∀ ab ∈ sym, ab.1 < m ∧ ab.2 < m) {index : Option (List Int)}
    {vars : List (Fin m → ℝ)} {pots : List (Pots m)} (hlen : pots.length = vars.length)
    (hi : ∀ l, index = some l → ∀ i ∈ l, 0 ≤ i ∧ i < vars.length) :
    AllSat (traitConstraints 0 true
      ((singleValues index (fun v s => (symmetryValue sym v).map fun o => (o, s)) vars pots).map Prod.fst)) ↔
      ∀ (i : Nat) (h : i < vars.length), points index vars i → ∀ ab ∈ sym, voltOrZero vars[i] ab.1 = voltOrZero vars[i] ab.2 := by
  have hget : ∀ (v : Fin m → ℝ) (a : Int), a < m → (if 0 ≤ a then pyGetInt (List.ofFn v) a else .ok 0) = .ok (voltOrZero v a) := by
    intro v a ha
    unfold voltOrZero
    split
    · rename_i h
      rw [dif_pos ⟨h, by omega⟩]
      obtain ⟨j, rfl⟩ := Int.eq_ofNat_of_zero_le h
      rw [pyGetInt_nat _ (by simp; omega)]
      simp
    · rename_i h
      rw [dif_neg (by tauto)]
  have hv : ∀ v : Fin m → ℝ, symmetryValue sym v = .ok (sym.map fun ab => ⟨.affine, [voltOrZero v ab.1 - voltOrZero v ab.2]⟩) := by
    intro v
    unfold symmetryValue
    rw [← pySeq_oks]
    congr 1
    refine List.map_congr_left fun ab hab => ?_
    rw [hget v _ (hsym ab hab).1, hget v _ (hsym ab hab).2]
  obtain ⟨vs, e, h⟩ := single_all (single := fun v s => (symmetryValue sym v).map fun o => (o, s))
    (out := fun v _ => sym.map fun ab => ⟨.affine, [voltOrZero v ab.1 - voltOrZero v ab.2]⟩) (upd := fun s => s)
    hlen (fun v _ s => by rw [hv]; rfl) (fun _ _ => rfl) hi
  rw [allSat_eq e, h]
  · simp only [List.forall_mem_map, List.mem_singleton, forall_eq, sub_eq_zero]
  · rw [h]
    simp only [List.forall_mem_map, implies_true]

/-- C109: the potential at every point is within the limits -/
theorem c109_potential {m : Nat} {only : Bool} {pmin pmax : Option ℝ} {index : Option (List Int)}
    {vars : List (Fin m → ℝ)} {pots : List (Pots m)} (hlen : pots.length = vars.length)
    (hi : ∀ l, index = some l → ∀ i ∈ l, 0 ≤ i ∧ i < vars.length) :
    AllSat (traitConstraints 0 false
      ((singleValues index (fun v s => .ok (potentialValue only pmin pmax v s)) vars pots).map Prod.fst)) ↔
      ∀ (i : Nat) (h : i < vars.length), points index vars i →
        (∀ b, pmax = some b → totalP only pots[i] vars[i] ≤ b) ∧ ∀ a, pmin = some a → a ≤ totalP only pots[i] vars[i] := by
  have ht : ∀ (v : Fin m → ℝ) (s : Pots m), (if only then 0 else s.p0) + ∑ e, s.p e * v e = totalP only s v := by
    intro v s
    simp [totalP, mul_comm]
  obtain ⟨vs, e, h⟩ := single_all (single := fun v s => .ok (potentialValue only pmin pmax v s))
    (out := fun v s => (potentialValue only pmin pmax v s).1) (upd := fun s => if only && s.arr0 then { s with p0 := 0 } else s)
    hlen (fun v _ s => rfl) (fun v s => by
      cases only <;> cases h : s.arr0 <;> simp [potentialValue, h]) hi
  rw [allSat_le e, h]
  · simp only [potentialValue, ht]
    refine forall_congr' fun i => forall_congr' fun hi => forall_congr' fun _ => ?_
    cases pmin <;> cases pmax <;> simp [optYield]
  · rw [h]
    intro i hi _ w hw
    simp only [potentialValue] at hw
    cases pmin <;> cases pmax <;> simp [optYield] at hw
    · simp [hw]
    · simp [hw]
    · rcases hw with rfl | rfl <;> simp

/-- C109: without `coord` the force at every point is within the limits -/
theorem c109_force {m : Nat} {only : Bool} {fmax : Fin 3 → ℝ} {index : Option (List Int)}
    {vars : List (Fin m → ℝ)} {pots : List (Pots m)} (hlen : pots.length = vars.length)
    (hi : ∀ l, index = some l → ∀ i ∈ l, 0 ≤ i ∧ i < vars.length) :
    AllSat (traitConstraints 0 false
      ((singleValues index (forceValue only (some fmax) none) vars pots).map Prod.fst)) ↔
      ∀ (i : Nat) (h : i < vars.length), points index vars i → ∀ k, |totalF only pots[i] vars[i] k| ≤ fmax k := by
  have ht : ∀ (v : Fin m → ℝ) (s : Pots m) (k : Fin 3), (if only then { s with f0 := fun _ => 0 } else s).f0 k +
      ∑ e, (if only then { s with f0 := fun _ => 0 } else s).f k e * v e = totalF only s v k := by
    intro v s k
    cases only <;> simp [totalF, mul_comm]
  obtain ⟨vs, e, h⟩ := single_all (single := forceValue only (some fmax) none)
    (out := fun v s => [⟨.convex, List.ofFn fun k => |totalF only s v k| - fmax k⟩])
    (upd := fun s => if only then { s with f0 := fun _ => 0 } else s)
    hlen (fun v _ s => by simp only [forceValue, ht]) (fun v s => by cases only <;> simp [totalF]) hi
  rw [allSat_le e, h]
  · simp [Fin.forall_fin_succ]
  · rw [h]
    simp

/-- C109: without `coord` and `fmax` the force at every point is zero if `equal` is set -/
theorem c109_force_zero {m : Nat} {only : Bool} {index : Option (List Int)}
    {vars : List (Fin m → ℝ)} {pots : List (Pots m)} (hlen : pots.length = vars.length)
    (hi : ∀ l, index = some l → ∀ i ∈ l, 0 ≤ i ∧ i < vars.length) :
    AllSat (traitConstraints 0 true
      ((singleValues index (forceValue only none none) vars pots).map Prod.fst)) ↔
      ∀ (i : Nat) (h : i < vars.length), points index vars i → ∀ k, totalF only pots[i] vars[i] k = 0 := by
  have ht : ∀ (v : Fin m → ℝ) (s : Pots m) (k : Fin 3), (if only then { s with f0 := fun _ => 0 } else s).f0 k +
      ∑ e, (if only then { s with f0 := fun _ => 0 } else s).f k e * v e = totalF only s v k := by
    intro v s k
    cases only <;> simp [totalF, mul_comm]
  obtain ⟨vs, e, h⟩ := single_all (single := forceValue only none none)
    (out := fun v s => [⟨.affine, List.ofFn fun k => totalF only s v k⟩])
    (upd := fun s => if only then { s with f0 := fun _ => 0 } else s)
    hlen (fun v _ s => by simp only [forceValue, ht]) (fun v s => by cases only <;> simp [totalF]) hi
  rw [allSat_eq e, h]
  · simp [Fin.forall_fin_succ]
  · rw [h]
    simp

/-- C109: without `coord` the six different curvatures at every point are within the limits -/
theorem c109_curvature {m : Nat} {only : Bool} {cmin cmax : Option (Fin 6 → ℝ)} {index : Option (List Int)}
    {vars : List (Fin m → ℝ)} {pots : List (Pots m)} (hlen : pots.length = vars.length)
    (hi : ∀ l, index = some l → ∀ i ∈ l, 0 ≤ i ∧ i < vars.length) :
    AllSat (traitConstraints 0 false
      ((singleValues index (curvatureValue only cmin cmax none) vars pots).map Prod.fst)) ↔
      ∀ (i : Nat) (h : i < vars.length), points index vars i → ∀ k : Fin 6,
        let t := totalC only pots[i] vars[i] (![0, 0, 0, 1, 1, 2] k) (![0, 1, 2, 1, 2, 2] k)
        (∀ a, cmin = some a → a k ≤ t) ∧ ∀ b, cmax = some b → t ≤ b k := by
  have ht : ∀ (v : Fin m → ℝ) (s : Pots m) (k l : Fin 3), (if only then { s with c0 := fun _ _ => 0 } else s).c0 k l +
      ∑ e, (if only then { s with c0 := fun _ _ => 0 } else s).c k l e * v e = totalC only s v k l := by
    intro v s k l
    cases only <;> simp [totalC, mul_comm]
  obtain ⟨vs, e, h⟩ := single_all (single := curvatureValue only cmin cmax none)
    (out := fun v s => optYield cmin (fun a => ⟨.affine, List.zipWith (· - ·) (List.ofFn a) (triu3.map fun ab => totalC only s v ab.1 ab.2)⟩) ++
      optYield cmax (fun b => ⟨.affine, List.zipWith (· - ·) (triu3.map fun ab => totalC only s v ab.1 ab.2) (List.ofFn b)⟩))
    (upd := fun s => if only then { s with c0 := fun _ _ => 0 } else s)
    hlen (fun v _ s => by simp only [curvatureValue, ht]) (fun v s => by cases only <;> simp [totalC]) hi
  rw [allSat_le e, h]
  · refine forall_congr' fun i => forall_congr' fun hi => forall_congr' fun _ => ?_
    cases cmin <;> cases cmax <;> simp [optYield, triu3, Fin.forall_fin_succ, List.ofFn_succ] <;> tauto
  · rw [h]
    intro i hi _ w hw
    cases cmin <;> cases cmax <;> simp [optYield] at hw
    · simp [hw]
    · simp [hw]
    · rcases hw with rfl | rfl <;> simp

/-! ### where it goes wrong -/

/-- C109: with `coord` the constraints of force and curvature fail unless there are exactly three electrodes -/
theorem c109_coord_refused {m : Nat} (hm : m ≠ 3) (only : Bool) (fmax : Option (Fin 3 → ℝ)) (cmin cmax : Option (Fin 6 → ℝ))
    (r : Fin 3 → Fin 3 → ℝ) (v : Fin m → ℝ) (s : Pots m) :
    forceValue only fmax (some r) v s = .error .valueError ∧ curvatureValue only cmin cmax (some r) v s = .error .valueError := by
  constructor <;> simp [forceValue, curvatureValue, dotCols, hm]

/-- a change of the axes, x to y to z -/
def cyc : Fin 3 → Fin 3 → ℝ := fun k i => if i = k + 1 then 1 else 0

/-- C109: with three electrodes, the wrong axis is rotated: the force is found to be zero, but it is not in any axes -/
theorem c109_coord_wrong : ∃ (s : Pots 3) (v : Fin 3 → ℝ),
    AllSat (traitConstraints 0 false
      ((singleValues none (forceValue false (some 0) (some cyc)) [v] [s]).map Prod.fst)) ∧
    ∃ i, inAxes cyc (totalF false s v) i ≠ 0 := by
  refine ⟨⟨true, 0, 0, 0, 0, fun i e => if i = 0 ∧ e = 0 then 1 else 0, 0⟩, fun e => if e = 0 then 1 else 0, ?_, 1, ?_⟩
  · rw [allSat_le (vs := [⟨.convex, [0, 0, 0]⟩])]
    · simp
    · simp [singleValues, singleValues.go, forceValue, dotCols, cyc, pyGetInt, pyGet, Fin.sum_univ_three, Except.map]
    · simp
  · simp [inAxes, totalF, cyc, Fin.sum_univ_three]

/-- C109: a constraint with `only_variable` changes the arrays, so that another one after it sees no fixed force -/
theorem c109_alias : ∃ (s : Pots 1) (v : Fin 1 → ℝ) (vs : List CvxExpr) (s' : List (Pots 1)),
    singleValues none (forceValue true (some 1) none) [v] [s] = .ok (vs, s') ∧
    AllSat (traitConstraints 0 false ((singleValues none (forceValue false (some 1) none) [v] s').map Prod.fst)) ∧
    ¬ AllSat (traitConstraints 0 false ((singleValues none (forceValue false (some 1) none) [v] [s]).map Prod.fst)) := by
  refine ⟨⟨true, 0, fun _ => 2, 0, 0, 0, 0⟩, 0, _, _, rfl, ?_, ?_⟩
  · rw [c109_force rfl (by simp)]
    simp [forceValue, totalF]
  · rw [c109_force rfl (by simp)]
    simp [points, totalF]

/-! the hypotheses can be met -/

/-- two points, where the second has a force, and one electrode that cancels it -/
example : AllSat (traitConstraints 0 true
    ((singleValues none (forceValue false none none) [fun _ => 0, fun _ => 3]
      [(⟨true, 0, 0, 0, 0, 0, 0⟩ : Pots 1), ⟨true, 0, fun k => if k = 0 then 6 else 0, 0, 0, fun k _ => if k = 0 then -2 else 0, 0⟩]).map Prod.fst)) := by
  rw [c109_force_zero rfl (by simp)]
  intro i h _ k
  simp at h
  interval_cases i <;> fin_cases k <;> simp [totalF] <;> norm_num

/-- a path of three points and its second difference -/
example : (∃ c : VoltCon, AllSat (traitConstraints 0 false (voltValues { c with weight := 0, order := 2, range := some 1 }
      [fun _ : Fin 1 => 0, fun _ => 1, fun _ => 3]))) ∧
    ¬ AllSat (traitConstraints 0 false (voltValues { weight := 0, order := 2, range := some (1 / 2) }
      [fun _ : Fin 1 => 0, fun _ => 1, fun _ => 3])) := by
  constructor
  · refine ⟨{}, ?_⟩
    rw [c109_limit (c := { weight := 0, order := 2, range := some 1 }) (k := 2) (r := 1) (by norm_num) (by norm_num) rfl (by norm_num) rfl rfl rfl
      (by norm_num) rfl rfl]
    intro i hi
    simp at hi
    obtain rfl : i = 0 := by omega
    simp [fd2, along]
    norm_num
  · rw [c109_limit (c := { weight := 0, order := 2, range := some (1 / 2) }) (k := 2) (r := 1 / 2) (by norm_num) (by norm_num) rfl (by norm_num) rfl
      rfl rfl (by norm_num) rfl rfl]
    intro h
    have := h 0 (by simp)
    simp [fd2, along] at this
    norm_num at this

end Electrode
