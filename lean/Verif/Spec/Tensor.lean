import Mathlib.Algebra.BigOperators.Fin
import Mathlib.Data.Matrix.Mul

/-
What "symmetric", "traceless" and "rotated" mean for a tensor given by its entries,
independent of the code's tables and loops.
-/
namespace Electrode.Spec

variable {R : Type*} [CommRing R]

/-- Entries at permuted index tuples agree. -/
def Symmetric (n : Nat) (T : List (Fin 3) → R) : Prop :=
  ∀ l l' : List (Fin 3), l.length = n → l.Perm l' → T l = T l'

/-- The trace over every pair of axes vanishes. -/
def Traceless (n : Nat) (T : List (Fin 3) → R) : Prop :=
  ∀ a b c : List (Fin 3), a.length + b.length + c.length + 2 = n →
    ∑ i : Fin 3, T (a ++ i :: (b ++ i :: c)) = 0

/-- Row-major position of an index tuple in a `3 × … × 3` array. -/
def rowMajor (l : List (Fin 3)) : Nat := l.foldl (fun n i => 3 * n + i.val) 0

/-- Entry of a flat row-major array. -/
def entry (t : List R) (l : List (Fin 3)) : R := t.getD (rowMajor l) 0

/-- All index tuples of length `n`. -/
def tuples : Nat → List (List (Fin 3))
  | 0 => [[]]
  | n + 1 => ([0, 1, 2] : List (Fin 3)).flatMap fun i => (tuples n).map (i :: ·)

/-- Full contraction `Σ_{k₁…kₙ} T(k₁,…,kₙ) r(k₁,j₁) … r(kₙ,jₙ)`. -/
def contraction (T : List (Fin 3) → R) (r : Matrix (Fin 3) (Fin 3) R) (js : List (Fin 3)) : R :=
  ((tuples js.length).map fun ks => T ks * (List.zipWith (fun k j => r k j) ks js).prod).sum

end Electrode.Spec
