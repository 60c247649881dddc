import Verif.Model.Electrode
import Verif.Lemmas.Expressions
import Mathlib.Algebra.BigOperators.Group.List.Basic
import Mathlib.Tactic.Abel

/-
Sums over the cyclically consecutive pairs of a list.
-/
namespace Electrode

variable {α β : Type*} [AddCommGroup β]

/-- sum over consecutive pairs of the path `a :: l` -/
def chain (f : α → α → β) (a : α) : List α → β
  | [] => 0
  | b :: t => f a b + chain f b t

/-- sum over the edges of the closed path through `l` -/
def cycSum (f : α → α → β) : List α → β
  | [] => 0
  | a :: t => chain f a (t ++ [a])

theorem chain_append (f : α → α → β) (a b : α) (l m : List α) :
    chain f a (l ++ b :: m) = chain f a (l ++ [b]) + chain f b m := by
  induction l generalizing a with
  | nil => simp [chain]
  | cons c l ih => simp only [List.cons_append, chain, ih]; abel

theorem chain_single (f : α → α → β) (a b : α) : chain f a [b] = f a b := by simp [chain]

theorem chain_snoc2 (f : α → α → β) (a b c : α) (l : List α) :
    chain f a (l ++ [b] ++ [c]) = chain f a (l ++ [b]) + f b c := by
  rw [List.append_assoc, List.singleton_append, chain_append, chain_single]

theorem chain_reverse (f : α → α → β) (hf : ∀ a b, f b a = -f a b) (a b : α) (l : List α) :
    chain f b (l.reverse ++ [a]) = -chain f a (l ++ [b]) := by
  induction l generalizing a with
  | nil => simp [chain, hf a b]
  | cons c l ih =>
    rw [List.reverse_cons, chain_snoc2, ih]
    simp only [List.cons_append, chain, hf a c]
    abel

theorem cycSum_rotate_one (f : α → α → β) (l : List α) : cycSum f (l.rotate 1) = cycSum f l := by
  cases l with
  | nil => simp
  | cons a t =>
    cases t with
    | nil => simp
    | cons b t =>
      simp only [List.rotate_cons_succ, List.rotate_zero, List.cons_append, cycSum, chain]
      rw [chain_snoc2]; abel

theorem cycSum_rotate (f : α → α → β) (l : List α) (n : Nat) : cycSum f (l.rotate n) = cycSum f l := by
  induction n with
  | zero => simp
  | succ n ih => rw [← List.rotate_rotate, cycSum_rotate_one, ih]

theorem cycSum_reverse (f : α → α → β) (hf : ∀ a b, f b a = -f a b) (l : List α) :
    cycSum f l.reverse = -cycSum f l := by
  cases l with
  | nil => simp [cycSum]
  | cons a t =>
    rw [List.reverse_cons, ← cycSum_rotate_one f (a :: t)]
    rw [← cycSum_rotate_one]
    have h1 : (t.reverse ++ [a]) = (a :: t.reverse).rotate 1 := by simp
    rw [h1, cycSum_rotate_one, cycSum_rotate_one, cycSum_rotate_one]
    simp only [cycSum]
    exact chain_reverse f hf a a t

/-- cutting along the chord between `u` and `w` -/
theorem cycSum_cut (f : α → α → β) (hf : ∀ a b, f b a = -f a b) (u w : α) (l m : List α) :
    cycSum f (u :: l ++ w :: m) = cycSum f (u :: l ++ [w]) + cycSum f (w :: m ++ [u]) := by
  simp only [List.cons_append, cycSum]
  have h1 : chain f u (l ++ w :: m ++ [u]) = chain f u (l ++ [w]) + chain f w (m ++ [u]) := by
    rw [List.append_assoc, List.cons_append, chain_append]
  rw [h1, chain_snoc2, chain_snoc2, hf u w]
  abel

theorem cycSum_map {γ : Type*} (f : α → α → β) (g : γ → α) (l : List γ) :
    cycSum f (l.map g) = cycSum (fun a b => f (g a) (g b)) l := by
  have h : ∀ (l : List γ) (a : γ), chain f (g a) (l.map g) = chain (fun a b => f (g a) (g b)) a l := by
    intro l
    induction l with
    | nil => intro a; rfl
    | cons b l ih => intro a; simp only [List.map_cons, chain, ih]
  cases l with
  | nil => rfl
  | cons a t =>
    simp only [List.map_cons, cycSum]
    rw [← h]; simp

theorem chain_add (f g : α → α → β) (a : α) (l : List α) :
    chain (fun a b => f a b + g a b) a l = chain f a l + chain g a l := by
  induction l generalizing a with
  | nil => simp [chain]
  | cons b l ih => simp only [chain, ih]; abel

theorem cycSum_add (f g : α → α → β) (l : List α) :
    cycSum (fun a b => f a b + g a b) l = cycSum f l + cycSum g l := by
  cases l with
  | nil => simp [cycSum]
  | cons a t => exact chain_add f g a _

theorem chain_tele (g : α → β) (a b : α) (l : List α) :
    chain (fun a b => g b - g a) a (l ++ [b]) = g b - g a := by
  induction l generalizing a with
  | nil => simp [chain]
  | cons c l ih => simp only [List.cons_append, chain, ih]; abel

/-- differences telescope around a closed path -/
theorem cycSum_tele (g : α → β) (l : List α) : cycSum (fun a b => g b - g a) l = 0 := by
  cases l with
  | nil => rfl
  | cons a t => simp only [cycSum, chain_tele, sub_self]

theorem cycSum_hom {γ : Type*} [AddCommGroup γ] (φ : β →+ γ) (f : α → α → β) (l : List α) :
    cycSum (fun a b => φ (f a b)) l = φ (cycSum f l) := by
  have h : ∀ (l : List α) (a : α), chain (fun a b => φ (f a b)) a l = φ (chain f a l) := by
    intro l
    induction l with
    | nil => intro a; simp [chain]
    | cons b l ih => intro a; simp only [chain, ih, map_add]
  cases l with
  | nil => simp [cycSum]
  | cons a t => exact h _ _

theorem sum_zipWith_chain (f : α → α → β) (a : α) (l : List α) :
    (List.zipWith f (a :: l) l).sum = chain f a l := by
  induction l generalizing a with
  | nil => simp [chain]
  | cons b l ih => simp only [List.zipWith_cons_cons, List.sum_cons, chain, ih]

theorem zipWith_snoc_left {γ δ : Type*} (f : α → γ → δ) (l : List α) (b : α) (m : List γ)
    (h : l.length = m.length) : List.zipWith f (l ++ [b]) m = List.zipWith f l m := by
  induction l generalizing m with
  | nil => cases m <;> simp_all
  | cons a l ih => cases m with
    | nil => simp at h
    | cons c m => simp [ih m (by simpa using h)]

theorem sum_zipWith_roll (f : α → α → β) (l : List α) :
    (List.zipWith f l (rollLeft l)).sum = cycSum f l := by
  cases l with
  | nil => simp [cycSum, rollLeft]
  | cons a t =>
    simp only [rollLeft, List.rotate_cons_succ, List.rotate_zero, cycSum]
    rw [← sum_zipWith_chain]
    have := zipWith_snoc_left f (a :: t) a (t ++ [a]) (by simp)
    rw [← this]; rfl

theorem edgesFrom_sum (f : V2 → V2 → β) (a : V2) (l : List V2) :
    ((edgesFrom a l).map fun e => f e.1 e.2).sum = chain f a l := by
  induction l generalizing a with
  | nil => simp [edgesFrom, chain]
  | cons b l ih => simp only [edgesFrom, List.map_cons, List.sum_cons, chain, ih]

theorem boundary_sum (f : V2 → V2 → β) (l : List V2) :
    ((boundaryEdges l).map fun e => f e.1 e.2).sum = cycSum f l := by
  cases l using List.reverseRecOn with
  | nil => simp [boundaryEdges, cycSum]
  | append_singleton t b =>
    simp only [boundaryEdges, List.getLast?_append, List.getLast?_singleton, Option.some_or]
    rw [edgesFrom_sum]
    have h1 : (t ++ [b]) = (b :: t).rotate 1 := by simp
    conv_rhs => rw [h1, cycSum_rotate_one]
    rfl

/-- a repeated vertex changes nothing if degenerate edges contribute nothing -/
theorem cycSum_repeat (f : α → α → β) (a : α) (hf : f a a = 0) (l : List α) :
    cycSum f (a :: a :: l) = cycSum f (a :: l) := by
  simp [cycSum, chain, hf]

end Electrode
