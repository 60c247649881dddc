import Verif.Model.Rotate
import Verif.Lemmas.Tensor
import Mathlib.LinearAlgebra.Matrix.Orthogonal

namespace Electrode
open Spec

variable {R : Type*} [CommRing R]

/-- recursive form of the full contraction -/
def contractRec (r : Matrix Axis Axis R) : (Idx → R) → Idx → R
  | T, [] => T []
  | T, j :: js => ∑ k, r k j * contractRec r (fun l => T (k :: l)) js

theorem contractRec_eq (T : Idx → R) (r : Matrix Axis Axis R) (js : Idx) :
    contraction T r js = contractRec r T js := by
  induction js generalizing T with
  | nil => simp [contraction, tuples, contractRec]
  | cons j js ih =>
    simp only [contractRec, Fin.sum_univ_three]
    rw [← ih, ← ih, ← ih]
    simp only [contraction, List.length_cons, tuples, List.flatMap_cons, List.flatMap_nil, List.append_nil,
      List.map_append, List.map_map, List.sum_append]
    have key : ∀ (k : Axis) (L : List Idx),
        (L.map ((fun ks => T ks * (List.zipWith (fun k j => r k j) ks (j :: js)).prod) ∘ fun x => k :: x)).sum
        = r k j * (L.map fun ks => T (k :: ks) * (List.zipWith (fun k j => r k j) ks js).prod).sum := by
      intro k L
      induction L with
      | nil => simp
      | cons a L ih =>
        simp only [List.map_cons, List.sum_cons, mul_add, ← ih]
        simp; ring
    rw [key, key, key]; ring

theorem getD_mid (pre post : Idx) (j d : Axis) : (pre ++ j :: post).getD pre.length d = j := by
  simp [List.getD_eq_getElem?_getD]

theorem set_append_mid (pre post : Idx) (j k : Axis) :
    (pre ++ j :: post).set pre.length k = pre ++ k :: post := by
  simp

theorem swapIdx_self (p : Nat) (idx : Idx) : swapIdx p p idx = idx := by
  unfold swapIdx
  apply List.ext_getElem
  · simp
  intro i h1 h2
  simp only [List.getElem_set]
  split_ifs with h
  · subst h; simp [List.getD_eq_getElem?_getD, h2]
  · rfl

/-- swapping the middle entry with the last one -/
theorem swapIdx_mid (pre mid : Idx) (j m : Axis) :
    swapIdx pre.length (pre.length + mid.length + 1) (pre ++ j :: (mid ++ [m])) = pre ++ m :: (mid ++ [j]) := by
  unfold swapIdx
  have g1 : (pre ++ j :: (mid ++ [m])).getD (pre.length + mid.length + 1) 0 = m := by
    have : pre ++ j :: (mid ++ [m]) = (pre ++ j :: mid) ++ [m] := by simp
    have e : pre.length + mid.length + 1 = (pre ++ j :: mid).length := by simp; omega
    rw [this, e, getD_mid]
  have g2 : (pre ++ j :: (mid ++ [m])).getD pre.length 0 = j := by
    rw [getD_mid]
  rw [g1, g2, set_append_mid]
  have : pre ++ m :: (mid ++ [m]) = (pre ++ m :: mid) ++ [m] := by simp
  rw [this]
  have e : pre.length + mid.length + 1 = (pre ++ m :: mid).length := by simp; omega
  rw [e]
  simp

theorem rotateStep_eq (r : Matrix Axis Axis R) (c : NArr R) (pre post : Idx) (j : Axis) :
    rotateStep (pre.length + post.length) post.length r c (pre ++ j :: post)
      = ∑ k, c (pre ++ k :: post) * r k j := by
  unfold rotateStep swapAxes dotLast
  have hp : pre.length + post.length - post.length = pre.length := by omega
  rw [hp]
  rcases List.eq_nil_or_concat post with rfl | ⟨mid, m, rfl⟩
  · simp only [List.length_nil, Nat.add_zero, swapIdx_self]
    refine Finset.sum_congr rfl fun k _ => ?_
    rw [set_append_mid]
    rw [getD_mid]
  · have hl : pre.length + (mid.concat m).length = pre.length + mid.length + 1 := by simp; omega
    rw [hl]
    simp only [List.concat_eq_append]
    rw [swapIdx_mid]
    have e : pre ++ m :: (mid ++ [j]) = (pre ++ m :: mid) ++ [j] := by simp
    have g : (pre ++ m :: (mid ++ [j])).getD (pre.length + mid.length + 1) 0 = j := by
      have e3 : pre.length + mid.length + 1 = (pre ++ m :: mid).length := by simp; omega
      rw [e, e3, getD_mid]
    rw [g]
    refine Finset.sum_congr rfl fun k _ => ?_
    have : (pre ++ m :: (mid ++ [j])).set (pre.length + mid.length + 1) k = pre ++ m :: (mid ++ [k]) := by
      rw [e]
      have e3 : pre.length + mid.length + 1 = (pre ++ m :: mid).length := by simp; omega
      rw [e3]; simp
    rw [this, swapIdx_mid]

/-- after `i` steps the last `i` axes are contracted -/
theorem rotate_steps (r : Matrix Axis Axis R) (c : NArr R) (i : Nat) (pre js : Idx) (hj : js.length = i)
    (n : Nat) (hn : pre.length + js.length = n + 1) :
    (List.range i).foldl (fun c i => rotateStep n i r c) c (pre ++ js)
      = contractRec r (fun ks => c (pre ++ ks)) js := by
  induction i generalizing pre js with
  | zero =>
    have : js = [] := List.length_eq_zero_iff.1 hj
    subst this; simp [contractRec]
  | succ i ih =>
    cases js with
    | nil => simp at hj
    | cons j js =>
      have hj' : js.length = i := by simpa using hj
      rw [List.range_succ, List.foldl_append]
      simp only [List.foldl_cons, List.foldl_nil]
      have hn' : n = pre.length + js.length := by simp at hn; omega
      subst hn'
      subst hj'
      rw [rotateStep_eq]
      simp only [contractRec]
      refine Finset.sum_congr rfl fun k _ => ?_
      have := ih (pre ++ [k]) js rfl (by simp; omega)
      simp only [List.append_assoc, List.cons_append, List.nil_append] at this
      rw [this, mul_comm]

theorem contractRec_congr (r : Matrix Axis Axis R) {T T' : Idx → R} (js : Idx)
    (h : ∀ ks : Idx, ks.length = js.length → T ks = T' ks) : contractRec r T js = contractRec r T' js := by
  induction js generalizing T T' with
  | nil => exact h [] rfl
  | cons j js ih =>
    simp only [contractRec]
    refine Finset.sum_congr rfl fun k _ => ?_
    rw [ih fun ks hks => h (k :: ks) (by simp [hks])]

theorem contractRec_sum (r : Matrix Axis Axis R) (f : Axis → Idx → R) (g : Axis → R) (js : Idx) :
    contractRec r (fun l => ∑ k, g k * f k l) js = ∑ k, g k * contractRec r (f k) js := by
  induction js generalizing f with
  | nil => simp [contractRec]
  | cons j js ih =>
    simp only [contractRec]
    simp only [ih, Finset.mul_sum]
    rw [Finset.sum_comm]
    refine Finset.sum_congr rfl fun k _ => Finset.sum_congr rfl fun l _ => ?_
    ring

theorem contractRec_comp (r s : Matrix Axis Axis R) (T : Idx → R) (js : Idx) :
    contractRec s (contractRec r T) js = contractRec (r * s) T js := by
  induction js generalizing T with
  | nil => rfl
  | cons j js ih =>
    simp only [contractRec]
    have : ∀ k : Axis, contractRec s (fun l => ∑ m, r m k * contractRec r (fun l => T (m :: l)) l) js
        = ∑ m, r m k * contractRec (r * s) (fun l => T (m :: l)) js := by
      intro k
      rw [contractRec_sum s (fun m => contractRec r fun l => T (m :: l))]
      refine Finset.sum_congr rfl fun m _ => ?_
      rw [ih]
    simp only [this, Finset.mul_sum, Matrix.mul_apply, Finset.sum_mul]
    rw [Finset.sum_comm]
    refine Finset.sum_congr rfl fun m _ => Finset.sum_congr rfl fun k _ => ?_
    ring

theorem contractRec_one (T : Idx → R) (js : Idx) : contractRec 1 T js = T js := by
  induction js generalizing T with
  | nil => rfl
  | cons j js ih =>
    simp only [contractRec]
    rw [Finset.sum_eq_single j]
    · simp [ih]
    · intro k _ hk; simp [Matrix.one_apply_ne hk]
    · simp

omit [CommRing R] in
theorem symmetric_cons {n : Nat} {T : Idx → R} (h : Spec.Symmetric (n + 1) T) (k : Axis) :
    Spec.Symmetric n fun l => T (k :: l) := fun l l' hl hp => h _ _ (by simp [hl]) (hp.cons k)

theorem contractRec_symmetric (r : Matrix Axis Axis R) (n : Nat) (T : Idx → R) (h : Spec.Symmetric n T) :
    Spec.Symmetric n (contractRec r T) := by
  intro l l' hl hp
  induction hp generalizing n T with
  | nil => rfl
  | cons x _ ih =>
    cases n with
    | zero => simp at hl
    | succ n =>
      simp only [contractRec]
      refine Finset.sum_congr rfl fun k _ => ?_
      rw [ih n _ (symmetric_cons h k) (by simpa using hl)]
  | swap x y l =>
    simp only [contractRec, Finset.mul_sum]
    rw [Finset.sum_comm]
    refine Finset.sum_congr rfl fun k _ => Finset.sum_congr rfl fun m _ => ?_
    rw [contractRec_congr r l (T := fun l => T (m :: k :: l)) (T' := fun l => T (k :: m :: l))]
    · ring
    · intro ks hks
      exact h _ _ (by simp at hl ⊢; omega) (List.Perm.swap k m ks)
  | trans h1 _ ih1 ih2 =>
    rw [ih1 n T h hl, ih2 n T h (by rw [← h1.length_eq]; exact hl)]

theorem contractRec_traceless (r : Matrix Axis Axis R) (hr : r * r.transpose = 1) (n : Nat) (T : Idx → R)
    (hs : Spec.Symmetric n T) (h : Traceless n T) : Traceless n (contractRec r T) := by
  apply traceless_of_head (contractRec_symmetric r n T hs)
  intro l hl
  simp only [contractRec, Finset.mul_sum]
  rw [Finset.sum_comm]
  have e : ∀ k m : Axis, ∑ i, r k i * r m i = if k = m then 1 else 0 := by
    intro k m
    have := congrFun (congrFun hr k) m
    simpa [Matrix.mul_apply, Matrix.one_apply] using this
  have : ∀ k : Axis, ∑ i, ∑ m, r k i * (r m i * contractRec r (fun l => T (k :: m :: l)) l)
      = contractRec r (fun l => T (k :: k :: l)) l := by
    intro k
    rw [Finset.sum_comm]
    have : ∀ m : Axis, ∑ i, r k i * (r m i * contractRec r (fun l => T (k :: m :: l)) l)
        = (if k = m then 1 else 0) * contractRec r (fun l => T (k :: m :: l)) l := by
      intro m; rw [← e, Finset.sum_mul]
      refine Finset.sum_congr rfl fun i _ => ?_
      ring
    simp only [this]
    simp
  simp only [this]
  have h2 := contractRec_sum r (fun k l => T (k :: k :: l)) (fun _ => 1) l
  simp only [one_mul] at h2
  rw [← h2]
  rw [contractRec_congr r l (T' := fun _ => 0 * (0:R))]
  · have : ∀ l : Idx, contractRec r (fun _ => 0 * (0:R)) l = 0 := by
      intro l
      induction l with
      | nil => simp [contractRec]
      | cons j l ih => simp only [contractRec, ih]; simp
    exact this l
  · intro ks hks
    have := h [] [] ks (by simp; omega)
    simpa using this

end Electrode
