import Verif.Model.TraitCon
import Mathlib.Tactic.Ring
import Mathlib.Tactic.Linarith
import Mathlib.Tactic.NormNum
import Mathlib.Tactic.FinCases

/-
C109: what the constraints of `electrode/constraints.py` mean.
-/
namespace Electrode

/-! ### specification -/

/-- the voltage of electrode `e` along the path, mirrored at the first and at the last point -/
def Spec.along {m : Nat} (vars : List (Fin m → ℝ)) (e : Fin m) (i : Int) : ℝ :=
  let n : Int := vars.length
  if i < 0 then vars.getD (-i).toNat 0 e
  else if i < n then vars.getD i.toNat 0 e
  else vars.getD (2 * (n - 1) - i).toNat 0 e

/-- the difference of order `k` with step `d`, starting at `i` -/
def Spec.fdiff (d : Nat) : Nat → (Int → ℝ) → Int → ℝ
  | 0, y, i => y i
  | k + 1, y, i => Spec.fdiff d k y (i + d) - Spec.fdiff d k y i

/-- all constraints are accepted and hold -/
def Spec.AllSat (r : Py (List CvxCtr)) : Prop := ∃ l, r = .ok l ∧ ∀ c ∈ l, c.sat

open Spec

/-! ### lists -/

theorem pySeq_oks {α β : Type} (l : List α) (f : α → β) : pySeq (l.map fun a => (.ok (f a) : Py β)) = .ok (l.map f) := by
  induction l with
  | nil => rfl
  | cons a l ih => simp [pySeq, ih]

theorem foldl_max_le (l : List ℝ) (a r : ℝ) : l.foldl max a ≤ r ↔ a ≤ r ∧ ∀ x ∈ l, x ≤ r := by
  induction l generalizing a with
  | nil => simp
  | cons b l ih =>
    simp only [List.foldl_cons, List.mem_cons, forall_eq_or_imp]
    rw [ih, max_le_iff, and_assoc]

theorem maxL_le {l : List ℝ} (hl : l ≠ []) (r : ℝ) : maxL l ≤ r ↔ ∀ x ∈ l, x ≤ r := by
  match l, hl with
  | a :: l, _ =>
    simp only [maxL, List.mem_cons, forall_eq_or_imp]
    exact foldl_max_le l a r

/-- the windows of the code are those of the specification -/
def wins {m : Nat} (vars : List (Fin m → ℝ)) (d k : Nat) : List (Fin m → ℝ) :=
  (List.range (vars.length - k * d)).map fun (i : Nat) e => |fdiff d k (along vars e) i|

theorem along_nat {m : Nat} (vars : List (Fin m → ℝ)) (e : Fin m) {i : Nat} (h : i < vars.length) :
    along vars e i = vars[i] e := by
  unfold along
  rw [if_neg (by omega), if_pos (by omega)]
  simp [List.getD_eq_getElem?_getD, h]

theorem sliceTo_length {α : Type} (l : List α) (a b : Nat) (hb : 0 < b) : (sliceTo l a b).length = l.length - b - a := by
  unfold sliceTo
  rw [if_neg (by omega)]
  simp

theorem sliceTo_get {α : Type} (l : List α) (a b : Nat) (hb : 0 < b) (i : Nat) (h : i < (sliceTo l a b).length) :
    (sliceTo l a b)[i] = l[a + i]'(by rw [sliceTo_length l a b hb] at h; omega) := by
  unfold sliceTo at h ⊢
  simp only [if_neg (show ¬ b = 0 by omega)] at h ⊢
  simp

theorem fd1 {m : Nat} (vars : List (Fin m → ℝ)) (d i : Nat) (e : Fin m) (h : d + i < vars.length) :
    fdiff d 1 (along vars e) i = vars[d + i] e - vars[i] e := by
  simp only [fdiff]
  rw [show (i : Int) + d = ((d + i : Nat) : Int) by push_cast; ring, along_nat vars e h, along_nat vars e (by omega)]

theorem fd2 (d : Nat) (y : Int → ℝ) (i : Int) : fdiff d 2 y i = y i - 2 * y (i + d) + y (i + 2 * d) := by
  simp only [fdiff]
  rw [show i + d + d = i + 2 * d by ring]
  ring

theorem fd3 (d : Nat) (y : Int → ℝ) (i : Int) :
    fdiff d 3 y i = y (i + 3 * d) - 3 * y (i + 2 * d) + 3 * y (i + d) - y i := by
  rw [fdiff, fd2, fd2]
  rw [show i + d + 2 * d = i + 3 * d by ring, show i + d + d = i + 2 * d by ring]
  ring

theorem fd4 (d : Nat) (y : Int → ℝ) (i : Int) :
    fdiff d 4 y i = y (i + 4 * d) - 4 * y (i + 3 * d) + 6 * y (i + 2 * d) - 4 * y (i + d) + y i := by
  rw [fdiff, fd3, fd3]
  rw [show i + d + 3 * d = i + 4 * d by ring, show i + d + 2 * d = i + 3 * d by ring, show i + d + d = i + 2 * d by ring]
  ring

theorem zidx {α : Type} (l : List α) (i : Nat) (h : 0 + i < l.length) : l[0 + i] = l[i]'(by omega) :=
  getElem_congr_idx (Nat.zero_add i)

/-- the vectors of a constraint without `smooth` -/
theorem voltObj_plain {m : Nat} {k d : Nat} (hd : 0 < d) (hk : k ≤ 4) (vars : List (Fin m → ℝ)) :
    voltObj k d false vars = .ok (.convex, wins vars d k) := by
  have cast (i j : Nat) : (i : Int) + j = ((j + i : Nat) : Int) := by push_cast; ring
  have cast2 (i c : Nat) : (i : Int) + (c : Int) * d = ((c * d + i : Nat) : Int) := by push_cast; ring
  have h2 (i : Nat) : (i : Int) + 2 * d = ((2 * d + i : Nat) : Int) := cast2 i 2
  have h3 (i : Nat) : (i : Int) + 3 * d = ((3 * d + i : Nat) : Int) := cast2 i 3
  have h4 (i : Nat) : (i : Int) + 4 * d = ((4 * d + i : Nat) : Int) := cast2 i 4
  obtain rfl | rfl | rfl | rfl | rfl : k = 0 ∨ k = 1 ∨ k = 2 ∨ k = 3 ∨ k = 4 := by omega
  · simp only [voltObj]
    norm_num
    refine List.ext_getElem (by simp [wins]) fun i hi _ => ?_
    simp only [List.length_map] at hi
    simp only [wins, List.getElem_map, List.getElem_range, fdiff]
    funext e
    rw [along_nat vars e hi]
  · simp only [voltObj]
    norm_num
    refine List.ext_getElem (by simp [wins, sliceTo_length _ _ _ hd]) fun i hi hi' => ?_
    simp only [wins, List.length_map, List.length_range] at hi'
    simp only [wins, List.getElem_map, List.getElem_range, List.getElem_zipWith, List.getElem_drop, sliceTo_get _ _ _ hd]
    funext e
    rw [fd1 vars d i e (by omega)]
    rw [zidx vars i]
  · simp only [voltObj]
    norm_num
    refine List.ext_getElem (by simp [wins, sliceTo_length _ _ _ hd, sliceTo_length _ _ (2 * d) (by omega)]; omega) fun i hi hi' => ?_
    simp only [wins, List.length_map, List.length_range] at hi'
    simp only [wins, List.getElem_map, List.getElem_range, List.getElem_zipWith, List.getElem_zip, List.getElem_drop, sliceTo_get _ _ _ hd,
      sliceTo_get _ _ (2 * d) (by omega)]
    funext e
    rw [fd2, cast, h2, along_nat vars e (by omega), along_nat vars e (by omega), along_nat vars e (by omega)]
    rw [zidx vars i]
  · simp only [voltObj]
    norm_num
    refine List.ext_getElem (by simp [wins, sliceTo_length _ _ _ hd, sliceTo_length _ _ (2 * d) (by omega),
      sliceTo_length _ _ (3 * d) (by omega)]; omega) fun i hi hi' => ?_
    simp only [wins, List.length_map, List.length_range] at hi'
    simp only [wins, List.getElem_map, List.getElem_range, List.getElem_zipWith, List.getElem_zip, List.getElem_drop, sliceTo_get _ _ _ hd,
      sliceTo_get _ _ (2 * d) (by omega), sliceTo_get _ _ (3 * d) (by omega)]
    funext e
    rw [fd3, cast, h2, h3, along_nat vars e (by omega), along_nat vars e (by omega), along_nat vars e (by omega),
      along_nat vars e (by omega)]
    rw [zidx vars i]
  · simp only [voltObj]
    norm_num
    refine List.ext_getElem (by simp [wins, sliceTo_length _ _ _ hd, sliceTo_length _ _ (2 * d) (by omega),
      sliceTo_length _ _ (3 * d) (by omega), sliceTo_length _ _ (4 * d) (by omega)]; omega) fun i hi hi' => ?_
    simp only [wins, List.length_map, List.length_range] at hi'
    simp only [wins, List.getElem_map, List.getElem_range, List.getElem_zipWith, List.getElem_zip, List.getElem_drop, sliceTo_get _ _ _ hd,
      sliceTo_get _ _ (2 * d) (by omega), sliceTo_get _ _ (3 * d) (by omega), sliceTo_get _ _ (4 * d) (by omega)]
    funext e
    rw [fd4, cast, h2, h3, h4, along_nat vars e (by omega), along_nat vars e (by omega), along_nat vars e (by omega),
      along_nat vars e (by omega), along_nat vars e (by omega)]
    rw [zidx vars i]

theorem pySeq_le {vs : List CvxExpr} (h : ∀ v ∈ vs, v.curv ≠ .concave) :
    pySeq (vs.flatMap fun v => [cvxLe v]) = .ok (vs.map fun v => .le v.val) := by
  induction vs with
  | nil => rfl
  | cons v vs ih =>
    have hv := h v (by simp)
    have e : cvxLe v = .ok (.le v.val) := by simp [cvxLe, hv]
    simp only [List.flatMap_cons, List.singleton_append, List.map_cons, pySeq, e, ih fun w hw => h w (by simp [hw])]

/-- inequalities are accepted if the expressions are convex -/
theorem allSat_le {values : Py (List CvxExpr)} {vs : List CvxExpr} (hv : values = .ok vs) (h : ∀ v ∈ vs, v.curv ≠ .concave) :
    AllSat (traitConstraints 0 false values) ↔ ∀ v ∈ vs, ∀ x ∈ v.val, x ≤ 0 := by
  unfold AllSat traitConstraints
  rw [hv]
  simp only [if_true, Bool.false_eq_true, if_false]
  rw [pySeq_le h]
  constructor
  · rintro ⟨l, e, hl⟩ v hv
    cases e
    exact hl (.le v.val) (List.mem_map.2 ⟨v, hv, rfl⟩)
  · intro hh
    refine ⟨_, rfl, fun c hc => ?_⟩
    obtain ⟨v, hv, rfl⟩ := List.mem_map.1 hc
    exact hh v hv

theorem pySeq_eq {vs : List CvxExpr} (h : ∀ v ∈ vs, v.curv = .affine) :
    pySeq (vs.flatMap fun v => [cvxLe v, cvxGe v]) = .ok (vs.flatMap fun v => [.le v.val, .ge v.val]) := by
  induction vs with
  | nil => rfl
  | cons v vs ih =>
    have hv := h v (by simp)
    have e : cvxLe v = .ok (.le v.val) := by simp [cvxLe, hv]
    have e' : cvxGe v = .ok (.ge v.val) := by simp [cvxGe, hv]
    simp only [List.flatMap_cons, List.cons_append, List.nil_append, pySeq, e, e', ih fun w hw => h w (by simp [hw])]

/-- equations are accepted if the expressions are affine -/
theorem allSat_eq {values : Py (List CvxExpr)} {vs : List CvxExpr} (hv : values = .ok vs) (h : ∀ v ∈ vs, v.curv = .affine) :
    AllSat (traitConstraints 0 true values) ↔ ∀ v ∈ vs, ∀ x ∈ v.val, x = 0 := by
  unfold AllSat traitConstraints
  rw [hv]
  simp only [if_true]
  rw [pySeq_eq h]
  constructor
  · rintro ⟨l, e, hl⟩ v hv x hx
    cases e
    have h1 := hl (.le v.val) (List.mem_flatMap.2 ⟨v, hv, by simp⟩)
    have h2 := hl (.ge v.val) (List.mem_flatMap.2 ⟨v, hv, by simp⟩)
    exact le_antisymm (h1 x hx) (h2 x hx)
  · intro hh
    refine ⟨_, rfl, fun c hc => ?_⟩
    obtain ⟨v, hv, hc⟩ := List.mem_flatMap.1 hc
    simp only [List.mem_cons, List.not_mem_nil, or_false] at hc
    rcases hc with rfl | rfl
    · exact fun x hx => (hh v hv x hx).le
    · exact fun x hx => (hh v hv x hx).ge

theorem voltEntry_convex {m : Nat} {c : VoltCon} (hf : 0 < c.factor) {k : Curv} (hk : k ≠ .concave) (v : Fin m → ℝ) :
    (voltEntry c k v).curv ≠ .concave := by
  unfold voltEntry Curv.scale
  simp only [if_neg hf.ne', if_pos hf]
  cases c.norm <;> simp [hk]

theorem scaled_le {f x r : ℝ} (hf : 0 < f) : (x - r) * f ≤ 0 ↔ x ≤ r := by
  constructor
  · intro h
    by_contra hh
    have : 0 < (x - r) * f := mul_pos (by linarith) hf
    linarith
  · intro h
    exact mul_nonpos_of_nonpos_of_nonneg (by linarith) hf.le

/-- what an entry says -/
theorem voltEntry_le {m : Nat} (hm : 0 < m) {c : VoltCon} (hf : 0 < c.factor) {r : ℝ} (hr : c.range = some r) (k : Curv) (v : Fin m → ℝ) :
    (∀ x ∈ (voltEntry c k v).val, x ≤ 0) ↔ if c.norm = .one then ∑ e, v e ≤ r else ∀ e, v e ≤ r := by
  unfold voltEntry
  simp only [hr]
  have hne : List.ofFn v ≠ [] := by
    intro h
    have := congrArg List.length h
    simp at this
    omega
  cases hn : c.norm
  · simp [scaled_le hf]
  · simp [scaled_le hf, List.sum_ofFn]
  · simp [scaled_le hf, maxL_le hne]

/-- C109: the constraint of a `VoltageConstraint` says that all differences of the given order and step along the path are within
the range, for every electrode or for the sum over the electrodes. -/
theorem c109_limit {m : Nat} (hm : 0 < m) {c : VoltCon} {k : Nat} (hk : k ≤ 4) (ho : c.order = k) (hd : 0 < c.delta) (hs : c.smooth = false)
    (hw : c.weight = 0) (he : c.equal = false) (hf : 0 < c.factor) {r : ℝ} (hr : c.range = some r) (hv : c.elec = none)
    (vars : List (Fin m → ℝ)) :
    AllSat (traitConstraints c.weight c.equal (voltValues c vars)) ↔
      ∀ i : Nat, i + k * c.delta < vars.length →
        if c.norm = .one then ∑ e, |fdiff c.delta k (along vars e) i| ≤ r else ∀ e, |fdiff c.delta k (along vars e) i| ≤ r := by
  have h1 : voltValues c vars = .ok ((wins vars c.delta k).map (voltEntry c .convex)) := by
    unfold voltValues
    rw [hv, ho, hs, voltObj_plain hd hk]
  rw [hw, he, allSat_le h1 fun v hv => ?_]
  · simp only [List.forall_mem_map, voltEntry_le hm hf hr, wins, List.mem_range]
    exact ⟨fun h i hi => h i (by omega), fun h i hi => h i (by omega)⟩
  · obtain ⟨w, -, rfl⟩ := List.mem_map.1 hv
    exact voltEntry_convex hf (by simp) w

/-- C109: with order -1 the voltages themselves are limited -/
theorem c109_signed {m : Nat} (hm : 0 < m) {c : VoltCon} (ho : c.order = -1) (hw : c.weight = 0) (he : c.equal = false) (hf : 0 < c.factor)
    {r : ℝ} (hr : c.range = some r) (hv : c.elec = none) (hn : c.norm ≠ .one) (vars : List (Fin m → ℝ)) :
    AllSat (traitConstraints c.weight c.equal (voltValues c vars)) ↔ ∀ v ∈ vars, ∀ e, v e ≤ r := by
  have h1 : voltValues c vars = .ok (vars.map (voltEntry c .affine)) := by
    unfold voltValues
    rw [hv, ho]
    simp [voltObj]
  rw [hw, he, allSat_le h1 fun v hv => ?_]
  · simp only [List.forall_mem_map, voltEntry_le hm hf hr, if_neg hn]
  · obtain ⟨w, -, rfl⟩ := List.mem_map.1 hv
    exact voltEntry_convex hf (by simp) w

/-- C109: with `variable` only this electrode counts -/
theorem c109_electrode {m : Nat} {c : VoltCon} {j : Nat} (hj : j < m) (hv : c.elec = some (j : Int)) (vars : List (Fin m → ℝ)) :
    voltValues c vars = voltValues { c with elec := none } (vars.map fun v (_ : Fin 1) => v ⟨j, hj⟩) := by
  unfold voltValues
  rw [hv]
  have : (vars.map fun v => pyGetInt (List.ofFn v) (j : Int)) = vars.map fun v => .ok (v ⟨j, hj⟩) := by
    refine List.map_congr_left fun v _ => ?_
    simp [pyGetInt, pyGet, hj]
  dsimp only
  rw [this, pySeq_oks]
  dsimp only
  rw [List.map_map]
  have e : ((fun x (_ : Fin 1) => x) ∘ fun v : Fin m → ℝ => v ⟨j, hj⟩) = fun v _ => v ⟨j, hj⟩ := rfl
  rw [e]
  cases voltObj c.order c.delta c.smooth (vars.map fun v (_ : Fin 1) => v ⟨j, hj⟩) <;> rfl

theorem maxL_sup {m : Nat} (hm : 0 < m) (v : Fin m → ℝ) :
    maxL (List.ofFn v) = Finset.univ.sup' (by haveI : Nonempty (Fin m) := ⟨⟨0, hm⟩⟩; exact Finset.univ_nonempty) v := by
  have hne : List.ofFn v ≠ [] := by
    intro h
    have := congrArg List.length h
    simp at this
    omega
  refine eq_of_forall_ge_iff fun r => ?_
  rw [maxL_le hne, Finset.sup'_le_iff]
  simp

theorem list_range_sum (n : Nat) (f : Nat → ℝ) : ((List.range n).map f).sum = ∑ i ∈ Finset.range n, f i := by
  induction n with
  | zero => simp
  | succ n ih => simp [List.range_succ, Finset.sum_range_succ, ih]

/-- C109: the objective of a `VoltageConstraint` is the sum of all differences, or of the greatest one at each point -/
theorem c109_objective {m : Nat} (hm : 0 < m) {c : VoltCon} {k : Nat} (hk : k ≤ 4) (ho : c.order = k) (hd : 0 < c.delta) (hs : c.smooth = false)
    (hw : 0 < c.weight) (hr : c.range = none) (hv : c.elec = none) (vars : List (Fin m → ℝ)) :
    ∃ l, traitObjective c.weight (voltValues c vars) = .ok l ∧
      l.sum = c.weight * c.factor * ∑ i ∈ Finset.range (vars.length - k * c.delta),
        if c.norm = .inf then Finset.univ.sup' (by haveI : Nonempty (Fin m) := ⟨⟨0, hm⟩⟩; exact Finset.univ_nonempty)
          fun e => |fdiff c.delta k (along vars e) i| else ∑ e, |fdiff c.delta k (along vars e) i| := by
  have h1 : voltValues c vars = .ok ((wins vars c.delta k).map (voltEntry c .convex)) := by
    unfold voltValues
    rw [hv, ho, hs, voltObj_plain hd hk]
  unfold traitObjective
  rw [if_pos hw, h1]
  refine ⟨_, rfl, ?_⟩
  rw [List.map_map, wins, List.map_map, Finset.mul_sum, list_range_sum]
  refine Finset.sum_congr rfl fun i _ => ?_
  simp only [Function.comp, voltEntry, hr]
  cases hn : c.norm
  · simp [List.sum_ofFn, ← Finset.sum_mul]
    ring
  · simp [List.sum_ofFn]
    ring
  · simp [maxL_sup hm]
    ring

end Electrode
