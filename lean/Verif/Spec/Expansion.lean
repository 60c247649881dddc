import Mathlib.Data.Nat.Factorial.Basic
import Mathlib.Data.Real.Basic
import Mathlib.Algebra.BigOperators.Group.Finset.Basic
import Mathlib.Algebra.BigOperators.Pi
import Mathlib.Data.Fintype.Pi

/-
Expansions in powers of a displacement.
-/
namespace Electrode.Spec
open scoped Nat

/-- The polynomial of degree `n` in the displacement `d` that has at zero the value `T l`, the first derivatives `T (l ++ [a])`, the second derivatives
`T (l ++ [a, b])` and so on. -/
noncomputable def expansion (T : List (Fin 3) → ℝ) (l : List (Fin 3)) (n : Nat) (d : Fin 3 → ℝ) : ℝ :=
  ∑ k ∈ Finset.range (n + 1), (∑ i : Fin k → Fin 3, T (l ++ List.ofFn i) * ∏ m, d (i m)) / k !

end Electrode.Spec
