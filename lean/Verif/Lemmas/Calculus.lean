import Verif.Spec.Calculus
import Verif.Lemmas.Tensor
import Verif.Lemmas.Electrode
import Verif.Lemmas.Kronecker
import Mathlib.Analysis.Calculus.Deriv.Add
import Mathlib.Analysis.Calculus.Deriv.Mul
import Mathlib.Analysis.Calculus.Deriv.Pow

/-
From first derivatives of the stored components to all entries of the expanded tensors, and
derivatives of polynomial expressions.
-/
namespace Electrode
open Spec

/-! ### expanded tensors -/

/-- entry `l` of the expanded tensor of order `k` of a family of components -/
def tens (F : Nat → Nat → V3 → ℝ) (k : Nat) (l : Idx) (p : V3) : ℝ :=
  selVal ((List.range (2 * k + 1)).map fun i => F k i p) (entrySel k l)

theorem getD_range_map (n i : Nat) (f : Nat → ℝ) :
    ((List.range n).map f).getD i 0 = if i < n then f i else 0 := by
  rw [List.getD_eq_getElem?_getD, List.getElem?_map]
  by_cases h : i < n
  · simp [h]
  · simp [h]

theorem tens_perm (F : Nat → Nat → V3 → ℝ) (k : Nat) {l l' : Idx} (h : l.Perm l') (p : V3) :
    tens F k l p = tens F k l' p := by
  unfold tens; rw [entrySel_perm k h]

theorem tens_traceless (F : Nat → Nat → V3 → ℝ) (k : Nat) (hk : k < 6) (p : V3) :
    Traceless k fun l => tens F k l p := by
  intro a b c h
  have := fullOf_traceless k hk ((List.range (2 * k + 1)).map fun i => F k i p) (by simp) a b c h
  rw [← this]
  apply Finset.sum_congr rfl
  intro i _
  rw [entry_fullOf k _ _ (by simp; omega)]
  rfl

theorem Spec.HasPartial.congr {a : Axis} {f g : V3 → ℝ} {f' : ℝ} {p : V3} (h : HasPartial a f f' p) (e : ∀ q, f q = g q) :
    HasPartial a g f' p := by
  have : f = g := funext e
  rwa [← this]

theorem tens_step (F : Nat → Nat → V3 → ℝ) (k : Nat) (hk : k < 5) (a : Axis) (p : V3)
    (H : ∀ i < 2 * k + 1, HasPartial a (F k i) (tens F (k + 1) (nameIdx k i ++ [a]) p) p)
    (l : Idx) (hl : l.length = k) : HasPartial a (tens F k l) (tens F (k + 1) (l ++ [a]) p) p := by
  have hm : l ∈ productIdx k := by rw [productIdx_eq, mem_tuples]; exact hl
  have h1 := table_in_range k (by omega) l hm
  have h2 := table_means k (by omega) l hm
  cases hs : entrySel k l with
  | one i =>
    rw [hs] at h1 h2
    simp only [selInRange, decide_eq_true_eq] at h1
    simp only [selMeans, beq_iff_eq] at h2
    have hp : (nameIdx k i ++ [a]).Perm (l ++ [a]) := by
      rw [h2]; exact (sortIdx_perm l).append_right _
    rw [← tens_perm F (k + 1) hp]
    refine (H i h1).congr ?_
    intro q
    simp only [tens, hs, selVal]
    rw [getD_range_map, if_pos h1]
  | lap i j =>
    rw [hs] at h1 h2
    simp only [selInRange, Bool.and_eq_true, decide_eq_true_eq] at h1
    simp only [selMeans, List.contains_iff_mem] at h2
    have hsum := findLaplace_sum (T := fun m => tens F (k + 1) (m ++ [a]) p)
      (by intro m m' _ hp; exact tens_perm F (k + 1) (hp.append_right _) p)
      (by
        intro a' b' c' h
        have := tens_traceless F (k + 1) (by omega) p a' b' (c' ++ [a]) (by simp; omega)
        simpa using this) h2
    have hval : tens F (k + 1) (l ++ [a]) p
        = -tens F (k + 1) (nameIdx k i ++ [a]) p - tens F (k + 1) (nameIdx k j ++ [a]) p := by
      linarith
    rw [hval]
    have hd := (H i h1.1).neg.sub (H j h1.2)
    refine HasPartial.congr (f := fun q => -F k i q - F k j q) hd ?_
    intro q
    simp only [tens, hs, selVal]
    rw [getD_range_map, getD_range_map, if_pos h1.1, if_pos h1.2]

theorem isIterated_tens (U : V3 → Prop) (F : Nat → Nat → V3 → ℝ)
    (H : ∀ k < 5, ∀ i < 2 * k + 1, ∀ a p, U p → HasPartial a (F k i) (tens F (k + 1) (nameIdx k i ++ [a]) p) p)
    (l m : Idx) (h : m.length + l.length ≤ 5) :
    IsIterated U l (tens F m.length m) (tens F (m.length + l.length) (m ++ l)) := by
  induction l generalizing m with
  | nil => intro p _; simp
  | cons a l ih =>
    refine ⟨tens F (m.length + 1) (m ++ [a]), ?_, ?_⟩
    · intro p hp
      simp only [List.length_cons] at h
      exact tens_step F m.length (by omega) a p (fun i hi => H m.length (by omega) i hi a p hp) m rfl
    · have := ih (m ++ [a]) (by simp only [List.length_cons, List.length_append, List.length_nil] at h ⊢; omega)
      simpa [Nat.add_assoc, Nat.add_comm 1] using this

theorem tens_zero (F : Nat → Nat → V3 → ℝ) (p : V3) : tens F 0 [] p = F 0 0 p := by
  have : entrySel 0 [] = .one 0 := by decide
  simp [tens, this, selVal]

theorem compAt_eq (e : Elec) (d i : Nat) (v : ℝ) (p : V3) (ha : e.shape.Avail d) (hi : i < 2 * d + 1) :
    compAt e d i v p = v * e.shape.contrib d p i := by
  unfold compAt
  rw [Elec.potential_new e [p] d v ha]
  simp only [List.map_cons, List.map_nil]
  rw [getD_range_map, if_pos hi]

theorem tensorAt_eq (e : Elec) (v : ℝ) (l : Idx) (hl : l.length < 6) (p : V3) (ha : e.shape.Avail l.length) :
    tensorAt e v l p = tens (fun k i p => v * e.shape.contrib k p i) l.length l p := by
  unfold tensorAt
  rw [Elec.potential_new e [p] _ v ha]
  simp only [List.map_cons, List.map_nil]
  rw [expandTensor_full l.length hl _ (by simp)]
  simp only
  rw [entry_fullOf _ _ _ rfl]
  rfl

theorem tens_smul (F : Nat → Nat → V3 → ℝ) (v : ℝ) (k : Nat) (l : Idx) (p : V3) :
    tens (fun k i p => v * F k i p) k l p = v * tens F k l p := by
  unfold tens
  cases entrySel k l with
  | one i => simp only [selVal, getD_range_map]; split <;> simp
  | lap i j => simp only [selVal, getD_range_map]; split <;> split <;> ring

theorem tens_sum {ι : Type*} (L : List ι) (F : ι → Nat → Nat → V3 → ℝ) (k : Nat) (l : Idx) (p : V3) :
    tens (fun k i p => (L.map fun s => F s k i p).sum) k l p = (L.map fun s => tens (F s) k l p).sum := by
  induction L with
  | nil =>
    unfold tens
    cases entrySel k l with
    | one i => simp only [selVal, getD_range_map]; split <;> simp
    | lap i j => simp only [selVal, getD_range_map]; split <;> split <;> simp
  | cons s L ih =>
    rw [List.map_cons, List.sum_cons, ← ih]
    unfold tens
    cases entrySel k l with
    | one i => simp only [selVal, getD_range_map]; split <;> simp
    | lap i j => simp only [selVal, getD_range_map]; split <;> split <;> simp <;> ring

theorem Spec.HasPartial.const_mul {a : Axis} {f : V3 → ℝ} {f' : ℝ} {p : V3} (v : ℝ) (h : HasPartial a f f' p) :
    HasPartial a (fun q => v * f q) (v * f') p := HasDerivAt.const_mul v h

theorem Spec.HasPartial.add {a : Axis} {f g : V3 → ℝ} {f' g' : ℝ} {p : V3} (h : HasPartial a f f' p)
    (h2 : HasPartial a g g' p) : HasPartial a (fun q => f q + g q) (f' + g') p := HasDerivAt.add h h2

theorem Spec.HasPartial.const (a : Axis) (c : ℝ) (p : V3) : HasPartial a (fun _ => c) 0 p :=
  hasDerivAt_const (0 : ℝ) c

theorem Spec.HasPartial.list_sum {ι : Type*} {a : Axis} (L : List ι) (f : ι → V3 → ℝ) (f' : ι → ℝ) (p : V3)
    (h : ∀ s ∈ L, HasPartial a (f s) (f' s) p) :
    HasPartial a (fun q => (L.map fun s => f s q).sum) (L.map f').sum p := by
  induction L with
  | nil => simpa using HasPartial.const a 0 p
  | cons s L ih =>
    simp only [List.map_cons, List.sum_cons]
    exact (h s (by simp)).add (ih fun s hs => h s (by simp [hs]))

/-- partial derivatives at a lifted position -/
theorem Spec.HasPartial.lift {a : Axis} {f : V3 → ℝ} {f' : ℝ} {p : V3} (d : ℝ) (h : HasPartial a f f' (p.lift d)) :
    HasPartial a (fun q => f (q.lift d)) f' p := by
  unfold HasPartial at h ⊢
  have : ∀ t, (shift p a t).lift d = shift (p.lift d) a t := by
    intro t
    fin_cases a <;> simp [shift, V3.lift]; ring
  simp only [this]
  exact h

/-! ### polynomial expressions -/

namespace PExpr

/-- derivative, given the derivative `δ i` of each variable -/
def diff (δ : Nat → PExpr) : PExpr → PExpr
  | c _ => c 0
  | v i => δ i
  | neg a => neg (diff δ a)
  | add a b => add (diff δ a) (diff δ b)
  | sub a b => sub (diff δ a) (diff δ b)
  | mul a b => add (mul (diff δ a) b) (mul a (diff δ b))
  | pow a n => mul (mul (c n) (pow a (n - 1))) (diff δ a)

theorem hasDerivAt_eval (δ : Nat → PExpr) (ρ : ℝ → Nat → ℝ) (t : ℝ)
    (h : ∀ i, HasDerivAt (fun s => ρ s i) ((δ i).eval (ρ t)) t) (e : PExpr) :
    HasDerivAt (fun s => e.eval (ρ s)) ((e.diff δ).eval (ρ t)) t := by
  induction e with
  | c n => simpa [eval, diff] using hasDerivAt_const t (n : ℝ)
  | v i => exact h i
  | neg a ih => exact ih.neg
  | add a b ha hb => exact ha.add hb
  | sub a b ha hb => exact ha.sub hb
  | mul a b ha hb => exact ha.mul hb
  | pow a n ih => exact ih.pow n

/-- value of a selected entry -/
def selExpr (nums : List PExpr) : Sel → PExpr
  | .one i => nums.getD i (c 0)
  | .lap i j => sub (neg (nums.getD i (c 0))) (nums.getD j (c 0))

end PExpr

end Electrode

namespace Electrode
open Spec

theorem derivToName_idx {k i : Nat} {s : Name} {l : Idx} (h : derivToName k i = .ok s) (hl : nameToIdx s = .ok l) :
    k < 6 ∧ i < 2 * k + 1 ∧ nameIdx k i = l := by
  unfold derivToName at h
  cases hn : derivativeNames[k]? with
  | none => simp [hn] at h
  | some names =>
    have hk : k < 6 := by
      have := (List.getElem?_eq_some_iff.1 hn).1
      exact this
    have hlen := table_names_length k hk
    have hnames : derivativeNames.getD k [] = names := by simp [List.getD_eq_getElem?_getD, hn]
    rw [hnames] at hlen
    cases hi : names[i]? with
    | none => simp [hn, hi] at h
    | some s' =>
      simp only [hn, hi] at h
      injection h with h
      subst h
      refine ⟨hk, ?_, ?_⟩
      · have := (List.getElem?_eq_some_iff.1 hi).1; omega
      · unfold nameIdx
        rw [hnames, List.getD_eq_getElem?_getD, hi, Option.getD_some, hl]

theorem tens_nameIdx (F : Nat → Nat → V3 → ℝ) (k i : Nat) (hk : k < 6) (hi : i < 2 * k + 1) (p : V3) :
    tens F k (nameIdx k i) p = F k i p := by
  unfold tens
  rw [(table_select k hk i hi).2]
  simp only [selVal]
  rw [getD_range_map, if_pos hi]

theorem Spec.IsIterated.congr {U : V3 → Prop} {l : List (Fin 3)} {f g f' g' : V3 → ℝ} (h : IsIterated U l f g)
    (hf : ∀ p, f p = f' p) (hg : ∀ p, g p = g' p) : IsIterated U l f' g' := by
  have e1 : f = f' := funext hf
  have e2 : g = g' := funext hg
  rw [← e1, ← e2]; exact h

/-- everything about the higher derivatives of an electrode follows from the first derivatives of
its components -/
theorem elec_iterated (U : V3 → Prop) (e : Elec) (ha : ∀ d, e.shape.Avail d)
    (H : ∀ k < 5, ∀ i < 2 * k + 1, ∀ a p, U p → HasPartial a (fun p => e.shape.contrib k p i)
      (tens (fun k i p => e.shape.contrib k p i) (k + 1) (nameIdx k i ++ [a]) p) p)
    (v : ℝ) (l : Idx) (hl : l.length ≤ 5) :
    IsIterated U l (compAt e 0 0 v) (tensorAt e v l) := by
  have h := isIterated_tens U (fun k i p => v * e.shape.contrib k p i) (by
    intro k hk i hi a p hp
    have := (H k hk i hi a p hp).const_mul v
    rw [← tens_smul] at this
    exact this) l [] (by simpa using hl)
  simp only [List.length_nil, Nat.zero_add, List.nil_append] at h
  refine h.congr ?_ ?_
  · intro p
    rw [tens_zero, compAt_eq e 0 0 v p (ha 0) (by norm_num)]
  · intro p
    rw [tensorAt_eq e v l (by omega) p (ha _)]

theorem elec_gradient (U : V3 → Prop) (e : Elec) (ha : ∀ d, e.shape.Avail d)
    (H : ∀ k < 5, ∀ i < 2 * k + 1, ∀ a p, U p → HasPartial a (fun p => e.shape.contrib k p i)
      (tens (fun k i p => e.shape.contrib k p i) (k + 1) (nameIdx k i ++ [a]) p) p)
    (v : ℝ) (l : Idx) (a : Axis) (hl : l.length ≤ 4) (p : V3) (hp : U p) :
    HasPartial a (tensorAt e v l) (tensorAt e v (l ++ [a]) p) p := by
  have h := tens_step (fun k i p => v * e.shape.contrib k p i) l.length (by omega) a p (by
    intro i hi
    have := (H l.length (by omega) i hi a p hp).const_mul v
    rw [← tens_smul] at this
    exact this) l rfl
  rw [tensorAt_eq e v (l ++ [a]) (by simp; omega) p (ha _)]
  simp only [List.length_append, List.length_singleton]
  exact h.congr fun q => (tensorAt_eq e v l (by omega) q (ha _)).symm

theorem elec_component (U : V3 → Prop) (e : Elec) (ha : ∀ d, e.shape.Avail d) (v : ℝ)
    (H : ∀ l : Idx, l.length ≤ 5 → IsIterated U l (compAt e 0 0 v) (tensorAt e v l))
    (k i : Nat) (s : Name) (l : Idx) (hs : derivToName k i = .ok s) (hl : nameToIdx s = .ok l) :
    IsIterated U l (compAt e 0 0 v) (compAt e k i v) := by
  obtain ⟨hk, hi, hidx⟩ := derivToName_idx hs hl
  have hlen : l.length = k := by rw [← hidx]; exact (table_select k hk i hi).1
  refine (H l (by omega)).congr (fun _ => rfl) ?_
  intro p
  rw [tensorAt_eq e v l (by omega) p (ha _), compAt_eq e k i v p (ha _) hi, hlen, ← hidx, tens_nameIdx _ k i hk hi]

theorem elec_laplace (e : Elec) (ha : ∀ d, e.shape.Avail d) (v : ℝ) (p : V3) :
    ∑ a : Fin 3, tensorAt e v [a, a] p = 0 := by
  have := tens_traceless (fun k i p => v * e.shape.contrib k p i) 2 (by norm_num) p [] [] [] rfl
  rw [← this]
  apply Finset.sum_congr rfl
  intro a _
  rw [tensorAt_eq e v [a, a] (by simp) p (ha _)]
  rfl

end Electrode
