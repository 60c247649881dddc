import Verif.Model.Helpers
import Mathlib.Data.List.GetD
import Mathlib.Tactic.NormNum
import Mathlib.Tactic.Ring
import Mathlib.Tactic.Linarith

/-
C119: the helpers do what they stand in for.
-/
namespace Electrode
open Real

namespace Spec
/-- a valid index into an array of the given shape -/
def InNd (idx shape : List Nat) : Prop := List.Forall₂ (· < ·) idx shape
end Spec
open Spec

namespace Helpers

theorem place_lt {idx s : List Nat} (h : InNd idx s) : ndPlace s idx < s.prod := by
  unfold InNd at h
  induction h with
  | nil => simp [ndPlace]
  | @cons i n is t h1 _ ih =>
    simp only [ndPlace, List.prod_cons]
    calc i * t.prod + ndPlace t is < i * t.prod + t.prod := by omega
      _ = (i + 1) * t.prod := by ring
      _ ≤ n * t.prod := Nat.mul_le_mul_right _ h1

theorem place_append {idx s : List Nat} (h : InNd idx s) (jdx t : List Nat) :
    ndPlace (s ++ t) (idx ++ jdx) = ndPlace s idx * t.prod + ndPlace t jdx := by
  unfold InNd at h
  induction h with
  | nil => simp [ndPlace]
  | @cons i n is s h1 _ ih =>
    simp only [List.cons_append, ndPlace, ih, List.prod_append]
    ring

theorem getD_map_range {α : Type*} (f : Nat → α) (n k : Nat) (d : α) (h : k < n) : ((List.range n).map f).getD k d = f k := by
  rw [List.getD_eq_getElem _ _ (by simpa using h)]
  simp

theorem getD_flatMap {α : Type*} (l : List α) (f : α → List ℝ) (m : Nat) (hf : ∀ a ∈ l, (f a).length = m) (k j : Nat) (hj : j < m)
    (hk : k < l.length) : (l.flatMap f).getD (k * m + j) 0 = (f l[k]).getD j 0 := by
  induction l generalizing k with
  | nil => simp at hk
  | cons a t ih =>
    rw [List.flatMap_cons]
    have ha := hf a (by simp)
    cases k with
    | zero =>
      rw [zero_mul, zero_add, List.getD_append _ _ _ _ (by omega)]
      rfl
    | succ k =>
      have e : (k + 1) * m + j = (f a).length + (k * m + j) := by rw [ha]; ring
      rw [e, List.getD_append_right _ _ _ _ (by omega), Nat.add_sub_cancel_left]
      exact ih (fun b hb => hf b (by simp [hb])) k (by simpa using hk)

theorem shaped_cons (f : List (List ℝ) → Py NdArr) (n m : Nat) (t : List Nat) (data : List ℝ) :
    shaped f ⟨n :: m :: t, data⟩ = if n = 0 then .error .valueError else
      match f ((List.range (data.length / n)).map fun j => (List.range n).map fun i => data.getD (i * (data.length / n) + j) 0) with
      | .error e => .error e
      | .ok v => v.reshape ((m :: t) ++ v.shape.tail) := rfl

end Helpers
open Helpers

/-- C119: a function wrapped by `shaped` is called once, with a list of points.  For an array of coordinates with at least two dimensions,
there is one point for each index into the dimensions after the first, and its coordinates are the entries along the first.  The result
has these dimensions, followed by those of the values of the function; the entries at an index are the values for that point. -/
theorem c119_shaped (f : List (List ℝ) → Py NdArr) (xyz : NdArr) (hw : xyz.Wf) (n m : Nat) (t : List Nat) (hs : xyz.shape = n :: m :: t)
    (hn : 0 < n) :
    ∃ pts : List (List ℝ), pts.length = (m :: t).prod ∧
      (∀ idx, InNd idx (m :: t) → pts.getD (ndPlace (m :: t) idx) [] = (List.range n).map fun i => xyz.get (i :: idx)) ∧
      (∀ e, f pts = .error e → shaped f xyz = .error e) ∧
      ∀ v r, f pts = .ok v → v.Wf → v.shape = (m :: t).prod :: r →
        ∃ w, shaped f xyz = .ok w ∧ w.shape = m :: t ++ r ∧ w.Wf ∧
          ∀ idx jdx, InNd idx (m :: t) → InNd jdx r → w.get (idx ++ jdx) = v.get (ndPlace (m :: t) idx :: jdx) := by
  obtain ⟨s, data⟩ := xyz
  simp only at hs
  subst hs
  have hl : data.length / n = (m :: t).prod := by
    have : data.length = n * (m :: t).prod := hw
    rw [this, Nat.mul_div_cancel_left _ hn]
  refine ⟨(List.range (m :: t).prod).map fun j => (List.range n).map fun i => data.getD (i * (m :: t).prod + j) 0, by simp, ?_, ?_, ?_⟩
  · intro idx hi
    rw [getD_map_range _ _ _ _ (place_lt hi)]
    rfl
  · intro e he
    rw [shaped_cons, if_neg hn.ne', hl, he]
  · intro v r hv hvw hvs
    have hlen : v.data.length = ((m :: t) ++ r).prod := by
      rw [List.prod_append, hvw, hvs, List.prod_cons]
    refine ⟨⟨(m :: t) ++ r, v.data⟩, ?_, rfl, hlen, ?_⟩
    · rw [shaped_cons, if_neg hn.ne', hl, hv]
      simp only [List.tail_cons, hvs, NdArr.reshape]
      rw [if_pos hlen]
    · intro idx jdx hi hj
      unfold NdArr.get
      rw [place_append hi, hvs]
      rfl

/-- C119: in particular, a function `φ` of a single point with values of shape `r`, such as a potential, is applied to each point of the
array by itself. -/
theorem c119_pointwise (φ : List ℝ → List ℝ) (r : List Nat) (hφ : ∀ x, (φ x).length = r.prod) (xyz : NdArr) (hw : xyz.Wf) (n m : Nat)
    (t : List Nat) (hs : xyz.shape = n :: m :: t) (hn : 0 < n) :
    ∃ w, shaper (fun pts => .ok ⟨pts.length :: r, pts.flatMap φ⟩) xyz = .ok w ∧ w.shape = m :: t ++ r ∧
      ∀ idx jdx, InNd idx (m :: t) → InNd jdx r →
        w.get (idx ++ jdx) = (φ ((List.range n).map fun i => xyz.get (i :: idx))).getD (ndPlace r jdx) 0 := by
  obtain ⟨pts, h1, h2, -, h4⟩ := c119_shaped (fun pts => .ok ⟨pts.length :: r, pts.flatMap φ⟩) xyz hw n m t hs hn
  obtain ⟨w, e1, e2, -, e3⟩ := h4 _ r rfl (by
    simp only [NdArr.Wf, List.prod_cons, List.length_flatMap, hφ]
    simp) (by rw [h1])
  refine ⟨w, e1, e2, fun idx jdx hi hj => ?_⟩
  have hp : ndPlace (m :: t) idx < pts.length := by rw [h1]; exact place_lt hi
  rw [e3 idx jdx hi hj, ← h2 idx hi, List.getD_eq_getElem _ _ hp]
  exact getD_flatMap pts φ r.prod (fun a _ => hφ a) _ _ (place_lt hj) hp

/-- two coordinates on a grid of one by two points: sums and differences -/
example : ∃ w, shaper (fun pts => .ok ⟨pts.length :: [2], pts.flatMap fun x => [x.getD 0 0 + x.getD 1 0, x.getD 0 0 - x.getD 1 0]⟩)
      ⟨[2, 1, 2], [1, 2, 3, 5]⟩ = .ok w ∧ w.shape = [1, 2, 2] ∧ w.get [0, 1, 0] = 7 ∧ w.get [0, 1, 1] = -3 := by
  obtain ⟨w, h1, h2, h3⟩ := c119_pointwise (fun x => [x.getD 0 0 + x.getD 1 0, x.getD 0 0 - x.getD 1 0]) [2] (by simp)
    ⟨[2, 1, 2], [1, 2, 3, 5]⟩ (by simp [NdArr.Wf]) 2 1 [2] rfl (by norm_num)
  refine ⟨w, h1, h2, ?_, ?_⟩
  · have := h3 [0, 1] [0] (by simp [InNd]) (by simp [InNd])
    rw [show [0, 1] ++ [0] = [0, 1, 0] from rfl] at this
    rw [this]
    norm_num [List.range_succ, NdArr.get, ndPlace]
  · have := h3 [0, 1] [1] (by simp [InNd]) (by simp [InNd])
    rw [show [0, 1] ++ [1] = [0, 1, 1] from rfl] at this
    rw [this]
    norm_num [List.range_succ, NdArr.get, ndPlace]

/-- C119, what is missing: a single point, given as an array with one dimension, is taken for as many points with one coordinate each. -/
theorem c119_one_point_counterexample (f : List (List ℝ) → Py NdArr) (x y z : ℝ) :
    shaped f ⟨[3], [x, y, z]⟩ = (match f [[x], [y], [z]] with
      | .error e => .error e
      | .ok v => v.reshape (3 :: v.shape.tail)) := by
  have e : ((List.range ([x, y, z].length / 1)).map fun j => (List.range 1).map fun i => [x, y, z].getD (i * ([x, y, z].length / 1) + j) 0)
      = [[x], [y], [z]] := by simp [List.range_succ]
  simp only [shaped, NdArr.atLeast2d, List.headD_cons, one_ne_zero, if_false]
  rw [e]
  cases f [[x], [y], [z]] <;> rfl

/-! ### Norms -/

/-- C119: the entries of `norm(a)` are the lengths of the vectors along the last dimension. -/
theorem c119_norm (a : NdArr) (s : List Nat) (k : Nat) (hs : a.shape = s ++ [k]) :
    ∃ w, ndNorm a = .ok w ∧ w.shape = s ∧ w.Wf ∧
      ∀ idx, InNd idx s → w.get idx = √(∑ j ∈ Finset.range k, a.get (idx ++ [j]) ^ 2) := by
  obtain ⟨sh, data⟩ := a
  simp only at hs
  subst hs
  refine ⟨⟨s, (List.range s.prod).map fun i : Nat =>
      √((List.range k).map fun j : Nat => data.getD (i * k + j) 0 * data.getD (i * k + j) 0).sum⟩, ?_, rfl, by simp [NdArr.Wf], ?_⟩
  · unfold ndNorm
    split
    · rename_i h; simp at h
    · simp
  · intro idx hi
    unfold NdArr.get
    simp only
    rw [getD_map_range _ _ _ _ (place_lt hi)]
    congr 1
    rw [Finset.sum_range]
    rw [show (List.range k).map (fun j : Nat => data.getD (ndPlace s idx * k + j) 0 * data.getD (ndPlace s idx * k + j) 0)
      = List.ofFn fun j : Fin k => data.getD (ndPlace s idx * k + j) 0 * data.getD (ndPlace s idx * k + j) 0 by
        rw [List.ofFn_eq_map, ← List.map_coe_finRange_eq_range, List.map_map]; rfl, List.sum_ofFn]
    refine Finset.sum_congr rfl fun j _ => ?_
    rw [place_append hi, sq]
    simp [ndPlace]

/-- C119, what is missing: the argument `axis` has no effect.  The columns of this array have the lengths 5 and 0. -/
theorem c119_norm_axis_counterexample : ∀ axis : Int, ndNorm ⟨[2, 2], [3, 0, 4, 0]⟩ axis = .ok ⟨[2], [3, 4]⟩ := by
  intro axis
  have h3 : √(3 * 3 : ℝ) = 3 := Real.sqrt_mul_self (by norm_num)
  have h4 : √(4 * 4 : ℝ) = 4 := Real.sqrt_mul_self (by norm_num)
  simp [ndNorm, List.range_succ, h3, h4]

/-! ### The pool -/

namespace Spec
/-- the calls that were asked for, in the order of asking: `ts` have been handed in before -/
def askedFor {σ α : Type} : List (PoolOp σ α) → List (Task σ α) → List (Task σ α)
  | [], _ => []
  | .submit t :: ops, ts => askedFor ops (ts ++ [t])
  | .get k :: ops, ts => (match ts[k]? with | none => [] | some t => [t]) ++ askedFor ops ts

/-- plain calls, one after the other -/
def callAll {σ α : Type} : List (Task σ α) → σ → σ × List (Py α)
  | [], w => (w, [])
  | t :: ts, w => ((callAll ts (t w).2).1, (t w).1 :: (callAll ts (t w).2).2)
end Spec

/-- C119: for every sequence of handing in and asking, results and effects are those of making the calls that were asked for, when they
were asked for, one by one. -/
theorem c119_pool {σ α : Type} (ops : List (PoolOp σ α)) (ts : List (Task σ α)) (w : σ) (rs : List (Py α)) :
    (dummyPool ops (ts, w, rs)).2 = ((callAll (askedFor ops ts) w).1, rs ++ (callAll (askedFor ops ts) w).2) := by
  induction ops generalizing ts w rs with
  | nil => simp [dummyPool, askedFor, callAll]
  | cons op ops ih =>
    cases op with
    | submit t => simp only [dummyPool, askedFor, ih]
    | get k =>
      simp only [dummyPool, askedFor]
      cases h : ts[k]? with
      | none => simp only [ih, List.nil_append]
      | some t =>
        simp only [ih, List.singleton_append, callAll, List.append_assoc]

/-- C119: calls that change nothing give what they would have given at the time they were handed in, as with a real pool, in whatever
order and however often the results are asked for. -/
theorem c119_pool_pure {σ α : Type} (ts : List (Task σ α)) (ks : List Nat) (w : σ) (hk : ∀ k ∈ ks, k < ts.length)
    (hp : ∀ t ∈ ts, ∀ w, (t w).2 = w) :
    (dummyPool (ts.map .submit ++ ks.map .get) ([], w, [])).2 = (w, ks.map fun k => ((ts.getD k fun w => (.error .indexError, w)) w).1) := by
  have h1 : ∀ (us acc : List (Task σ α)) (ops : List (PoolOp σ α)),
      dummyPool (us.map .submit ++ ops) (acc, w, []) = dummyPool ops (acc ++ us, w, []) := by
    intro us
    induction us with
    | nil => simp
    | cons u us ih => intro acc ops; simp only [List.map_cons, List.cons_append, dummyPool, ih]; simp
  have h2 : ∀ (ks : List Nat), (∀ k ∈ ks, k < ts.length) → ∀ rs, (dummyPool (ks.map .get) (ts, w, rs)).2
      = (w, rs ++ ks.map fun k => ((ts.getD k fun w => (.error .indexError, w)) w).1) := by
    intro ks
    induction ks with
    | nil => intro _ rs; simp [dummyPool]
    | cons k ks ih =>
      intro hk rs
      have hk0 := hk k (by simp)
      simp only [List.map_cons, dummyPool, List.getElem?_eq_getElem hk0]
      rw [hp _ (List.getElem_mem hk0), ih (fun j hj => hk j (by simp [hj])), List.getD_eq_getElem _ _ hk0]
      simp
  rw [h1, List.nil_append, h2 ks hk]
  simp

/-- C119, what is missing: a call whose result nobody asks for is never made, and one whose result is asked for twice is made twice;
here the calls count themselves. -/
theorem c119_pool_counterexample :
    (dummyPool [.submit fun n : Nat => (Except.ok n, n + 1)] ([], 0, [])).2 = ((0 : Nat), ([] : List (Py Nat))) ∧
    (dummyPool [.submit fun n : Nat => (Except.ok n, n + 1), .get 0, .get 0] ([], 0, [])).2 = (2, [.ok 0, .ok 1]) := by
  constructor <;> rfl

/-! ### The substitute for `minimize` -/

/-- C119: with the substitute for `scipy.optimize.minimize`, `System.minimum` returns the position that `fmin_ncg` finds if its flag is zero,
raises ValueError if it is not, and lets exceptions through; other methods are refused. -/
theorem c119_minimum (ncg : (List ℝ → Py ℝ) → List ℝ → (List ℝ → Py (List ℝ)) → (List ℝ → Py (List (List ℝ))) → Py (List ℝ × Nat))
    (method : Option String) (s : Sys) (coord : Matrix (Fin 3) (Fin 3) ℝ) (dt : Dtype) (x0 : Fin 3 → ℝ) (axis : List (Fin 3)) :
    (method = none ∨ method = some "Newton-CG" →
      minimum (minimizeFallback ncg method) s coord dt x0 axis =
        (match ncg (minimumF s coord dt x0 axis) (axis.map x0) (minimumG s coord dt x0 axis) (minimumH s coord dt x0 axis) with
        | .error e => .error e
        | .ok (x, 0) => .ok (setAxes dt x0 axis x)
        | .ok (_, _ + 1) => .error .valueError)) ∧
    (∀ m, method = some m → m ≠ "Newton-CG" → minimum (minimizeFallback ncg method) s coord dt x0 axis = .error .assertionError) := by
  constructor
  · intro h
    have hm : method.getD "Newton-CG" = "Newton-CG" := by rcases h with rfl | rfl <;> rfl
    unfold minimum minimizeFallback
    rw [if_pos hm]
    cases ncg (minimumF s coord dt x0 axis) (axis.map x0) (minimumG s coord dt x0 axis) (minimumH s coord dt x0 axis) with
    | error e => rfl
    | ok r =>
      obtain ⟨x, flag⟩ := r
      cases flag <;> rfl
  · rintro m rfl hm
    unfold minimum minimizeFallback
    rw [if_neg (by simpa using hm)]

/-! ### Replacing functions by compiled ones -/

namespace Helpers

theorem starts_prefix (n : String) : strStarts ("_py_" ++ n) "_" = true := by
  simp [strStarts, String.toList_append]

theorem set_eq {V : Type} (g : Globals V) (a : String) (v : V) : g.set a v a = some v := by simp [Globals.set]
theorem set_ne {V : Type} (g : Globals V) {a b : String} (v : V) (h : b ≠ a) : g.set a v b = g b := by simp [Globals.set, h]

theorem py_inj {a b : String} (h : "_py_" ++ a = "_py_" ++ b) : a = b := by
  have := congrArg String.toList h
  simp only [String.toList_append, List.append_cancel_left_eq] at this
  exact String.toList_injective this

/-- one name -/
theorem attr_step {V : Type} (warn : Bool) (getattr : String → V) (s : Globals V × List String) (a : String) :
    (strStarts a "_" = true → importAttr warn "_py_" "_" getattr s a = s) ∧
    (strStarts a "_" = false → (importAttr warn "_py_" "_" getattr s a).1 a = some (getattr a) ∧
      (∀ v, s.1 a = some v → (importAttr warn "_py_" "_" getattr s a).1 ("_py_" ++ a) = some v) ∧
      (∀ n, n ≠ a → (n ≠ "_py_" ++ a ∨ s.1 a = none) → (importAttr warn "_py_" "_" getattr s a).1 n = s.1 n)) := by
  constructor
  · intro h
    unfold importAttr
    rw [if_pos ⟨by decide, h⟩]
  · intro h
    have hne : "_py_" ++ a ≠ a := fun e => by
      have := starts_prefix a
      rw [e, h] at this
      cases this
    unfold importAttr
    rw [if_neg (by rw [h]; simp)]
    simp only
    rw [if_pos (by decide)]
    cases hs : s.1 a with
    | none =>
      simp only
      refine ⟨set_eq _ _ _, (fun v hv => by cases hv), fun n hn _ => ?_⟩
      rw [set_ne _ _ hn]
      cases warn <;> rfl
    | some v =>
      simp only
      refine ⟨set_eq _ _ _, fun v' hv' => ?_, fun n hn h' => ?_⟩
      · rw [set_ne _ _ hne, set_eq, hv']
      · rw [set_ne _ _ hn, set_ne]
        rcases h' with h' | h'
        · exact h'
        · cases h'

theorem import_fold {V : Type} (warn : Bool) (getattr : String → V) (dir : List String) (hd : dir.Nodup) (s : Globals V × List String) :
    let g' := (dir.foldl (importAttr warn "_py_" "_" getattr) s).1
    (∀ n ∈ dir, strStarts n "_" = false → g' n = some (getattr n) ∧ ∀ v, s.1 n = some v → g' ("_py_" ++ n) = some v) ∧
    (∀ n, (n ∉ dir ∨ strStarts n "_" = true) → (∀ a ∈ dir, strStarts a "_" = false → n = "_py_" ++ a → s.1 a = none) → g' n = s.1 n) := by
  induction dir generalizing s with
  | nil => simp
  | cons a t ih =>
    obtain ⟨ha, ht⟩ := List.nodup_cons.1 hd
    simp only [List.foldl_cons]
    obtain ⟨i1, i2⟩ := ih ht (importAttr warn "_py_" "_" getattr s a)
    obtain ⟨s1, s2⟩ := attr_step warn getattr s a
    by_cases hu : strStarts a "_" = true
    · rw [s1 hu] at i1 i2 ⊢
      refine ⟨fun n hn hp => ?_, fun n hn hp => ?_⟩
      · rcases List.mem_cons.1 hn with rfl | hn
        · rw [hu] at hp; cases hp
        · exact i1 n hn hp
      · exact i2 n (hn.imp_left fun h h' => h (List.mem_cons_of_mem _ h')) fun b hb => hp b (List.mem_cons_of_mem _ hb)
    · replace hu : strStarts a "_" = false := by simpa using hu
      obtain ⟨t1, t2, t3⟩ := s2 hu
      refine ⟨fun n hn hp => ?_, fun n hn hp => ?_⟩
      · rcases List.mem_cons.1 hn with rfl | hn
        · constructor
          · rw [i2 n (Or.inl ha), t1]
            intro b _ _ e
            rw [e, starts_prefix] at hp
            cases hp
          · intro v hv
            rw [i2 _ (Or.inr (starts_prefix n)), t2 v hv]
            intro b hb hb' e
            have := py_inj e
            subst this
            exact absurd hb ha
        · have hna : n ≠ a := fun e => ha (e ▸ hn)
          refine ⟨(i1 n hn hp).1, fun v hv => (i1 n hn hp).2 v ?_⟩
          rw [t3 n hna (Or.inl fun e => by rw [e, starts_prefix] at hp; cases hp), hv]
      · have hna : n ≠ a := by
          rintro rfl
          rcases hn with h | h
          · exact h (by simp)
          · rw [hu] at h; cases h
        have e0 : (importAttr warn "_py_" "_" getattr s a).1 n = s.1 n := by
          refine t3 n hna ?_
          by_cases e : n = "_py_" ++ a
          · exact Or.inr (hp a (by simp) hu e)
          · exact Or.inl e
        rw [i2 n (hn.imp_left fun h h' => h (List.mem_cons_of_mem _ h')), e0]
        intro b hb hb' e
        have hba : b ≠ a := fun e => ha (e ▸ hb)
        rw [t3 b hba (Or.inl fun e' => by rw [e', starts_prefix] at hb'; cases hb')]
        exact hp b (List.mem_cons_of_mem _ hb) hb' e

end Helpers

/-- C119: importing the compiled module replaces exactly its public names: each gets the compiled value, the Python value it had is kept
under the name with `_py_` in front, and no other name changes.  If the import fails nothing changes. -/
theorem c119_import {V : Type} (name : String) (warn : Bool) (g : Globals V) :
    (∀ dir getattr, dir.Nodup → ∃ g' warnings, importModule name (some (dir, getattr)) warn "_py_" "_" g = (some true, g', warnings) ∧
      (∀ n ∈ dir, strStarts n "_" = false → g' n = some (getattr n) ∧ ∀ v, g n = some v → g' ("_py_" ++ n) = some v) ∧
      (∀ n, (n ∉ dir ∨ strStarts n "_" = true) → (∀ a ∈ dir, strStarts a "_" = false → n = "_py_" ++ a → g a = none) → g' n = g n)) ∧
    (∃ warnings, importModule name none warn "_py_" "_" g = (none, g, warnings) ∧ (warn = false → warnings = [])) := by
  refine ⟨fun dir getattr hd => ?_, _, rfl, fun h => by simp [h]⟩
  obtain ⟨h1, h2⟩ := import_fold warn getattr dir hd (g, [])
  exact ⟨_, _, rfl, h1, h2⟩

/-- C119, what is missing: after importing twice the Python values are lost. -/
theorem c119_import_twice_counterexample {V : Type} (name : String) (warn : Bool) (g : Globals V) (dir : List String) (getattr : String → V)
    (hd : dir.Nodup) (n : String) (hn : n ∈ dir) (hp : strStarts n "_" = false) :
    (importModule name (some (dir, getattr)) warn "_py_" "_"
      (importModule name (some (dir, getattr)) warn "_py_" "_" g).2.1).2.1 ("_py_" ++ n) = some (getattr n) := by
  obtain ⟨h1, -⟩ := import_fold warn getattr dir hd (g, [])
  obtain ⟨h2, -⟩ := import_fold warn getattr dir hd ((dir.foldl (importAttr warn "_py_" "_" getattr) (g, [])).1, [])
  exact (h2 n hn hp).2 _ (h1 n hn hp).1

/-- a module with one public and one private function -/
example : ∃ g' w, importModule "_transformations" (some (["__doc__", "unit_vector"], fun _ => 2)) true "_py_" "_"
      (fun n => if n = "unit_vector" ∨ n = "__doc__" then some 1 else none) = (some true, g', w) ∧
    g' "unit_vector" = some 2 ∧ g' ("_py_" ++ "unit_vector") = some 1 ∧ g' "__doc__" = some 1 := by
  obtain ⟨g', w, h0, h1, h2⟩ := (c119_import "_transformations" true (fun n => if n = "unit_vector" ∨ n = "__doc__" then some 1 else none)).1
    ["__doc__", "unit_vector"] (fun _ => 2) (by decide)
  have h3 := h1 "unit_vector" (by simp) (by decide)
  refine ⟨g', w, h0, h3.1, h3.2 1 (by simp), ?_⟩
  rw [h2 "__doc__" (Or.inr (by decide))]
  · simp
  · intro a ha hu e
    simp only [List.mem_cons, List.not_mem_nil, or_false] at ha
    rcases ha with rfl | rfl
    · exact absurd hu (by decide)
    · exact absurd e (by decide)

end Electrode
